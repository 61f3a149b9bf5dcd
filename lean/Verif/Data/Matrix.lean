import Verif.Py
import Mathlib.Data.List.Sort
/-!
# Model of `mbtk/dataset/DatasetMatrix.py`

A Python string is the list of its characters.  A scipy sparse matrix is its storage format,
its number of columns and the list of its rows (explicitly stored zeros are not observable
through the modelled functions).  A method that changes the dataset in place returns the
dataset after the call together with the exception that ended the call, if any: what was
assigned before the exception stays assigned.
-/
namespace Mbtk.Dataset

/-- A Python string. Labels: DatasetMatrix.py 48-56. -/
abbrev Str := List Char

/-- Storage format of a scipy sparse matrix. DatasetMatrix.py 522-556. -/
inductive Format where
  | csr | csc
  deriving DecidableEq, Repr

/-- A scipy sparse matrix. `X` and `Y` of DatasetMatrix.py 48-56. -/
structure Matrix where
  format : Format
  ncols : Nat
  rows : List (List Int)
  deriving DecidableEq, Repr

/-- A `DatasetMatrix`: DatasetMatrix.py 48-56 (`metadata` is not used by the modelled code;
`X` and `Y` are set by whoever creates the object). -/
structure DM where
  label : Str
  X : Matrix
  Y : Matrix
  rowLabels : List Str
  colLabelsX : List Str
  colLabelsY : List Str
  final : Bool
  deriving DecidableEq, Repr

/-- The dataset after a call and the exception that ended the call.
What a method of DatasetMatrix.py leaves behind. -/
abbrev Outcome := DM × Option Err

/-- `DatasetMatrixFinalizedError`. dataset/Exceptions.py 10-16. -/
def finalizedError : Err := .custom "DatasetMatrixFinalizedError"
/-- `DatasetMatrixNotFinalizedError`. dataset/Exceptions.py 1-7. -/
def notFinalizedError : Err := .custom "DatasetMatrixNotFinalizedError"

/-! ## Python and numpy indexing -/

/-- The position meant by the index `i` in a sequence of length `n`; negative indices count
from the end. Python and scipy indexing, as in DatasetMatrix.py 265-457. -/
def pyPos (n : Nat) (i : Int) : Except Err Nat :=
  if 0 ≤ i ∧ i < n then .ok i.toNat
  else if -(n : Int) ≤ i ∧ i < 0 then .ok (n + i).toNat
  else .error .indexError

/-- `[pos(i) for i in l]`. DatasetMatrix.py 283-383. -/
def pyPositions (n : Nat) : List Int → Except Err (List Nat)
  | [] => .ok []
  | i :: is => do
    let p ← pyPos n i
    let ps ← pyPositions n is
    .ok (p :: ps)

/-- The elements of `l` at the given (valid) positions, in that order.
DatasetMatrix.py 283-383. -/
def atPositions {α : Type} (l : List α) (ps : List Nat) : List α := ps.filterMap (fun p => l[p]?)

/-- `[l[i] for i in is]`, also numpy/scipy indexing with a list of indices.
DatasetMatrix.py 283-383. -/
def pyTake {α : Type} (l : List α) (is : List Int) : Except Err (List α) := do
  let ps ← pyPositions l.length is
  .ok (atPositions l ps)

/-- `l[mask]` where `mask` is true everywhere but at the positions `ps`.
DatasetMatrix.py 661-673. -/
def withoutPositions {α : Type} (l : List α) (ps : List Nat) : List α :=
  (l.zipIdx.filter (fun p => p.2 ∉ ps)).map Prod.fst

/-- `mask = numpy.ones(n); mask[is] = False; l[mask]`. DatasetMatrix.py 661-673. -/
def maskDelete {α : Type} (l : List α) (is : List Int) : Except Err (List α) := do
  let ps ← pyPositions l.length is
  .ok (withoutPositions l ps)

/-- `del l[i]`. DatasetMatrix.py 280, 439, 457. -/
def pyDel {α : Type} (l : List α) (i : Int) : Except Err (List α) := do
  let p ← pyPos l.length i
  .ok (l.eraseIdx p)

/-! ## Matrices -/

/-- `.tocsr()`. DatasetMatrix.py 522-556. -/
def Matrix.tocsr (m : Matrix) : Matrix := { m with format := .csr }
/-- `.tocsc()`. DatasetMatrix.py 522-556. -/
def Matrix.tocsc (m : Matrix) : Matrix := { m with format := .csc }

/-- `matrix[mask]` with the rows `is` masked out: DatasetMatrix.py 667-670. -/
def Matrix.deleteRows (m : Matrix) (is : List Int) : Except Err Matrix := do
  let rows ← maskDelete m.rows is
  .ok { m with rows := rows }

/-- `matrix[:, mask]` with the columns `is` masked out: DatasetMatrix.py 671-674. -/
def Matrix.deleteCols (m : Matrix) (is : List Int) : Except Err Matrix := do
  let ps ← pyPositions m.ncols is
  .ok { m with ncols := (withoutPositions (List.range m.ncols) ps).length,
               rows := m.rows.map (fun row => withoutPositions row ps) }

/-- `delete_rows_cols`: DatasetMatrix.py 621-675. -/
def deleteRowsCols (m : Matrix) (rows cols : List Int) : Except Err Matrix :=
  if m.format ≠ .csr then .error .valueError
  else if rows ≠ [] ∧ cols ≠ [] then do
    let m1 ← m.deleteRows rows
    m1.deleteCols cols
  else if rows ≠ [] then m.deleteRows rows
  else if cols ≠ [] then m.deleteCols cols
  else .ok m

/-- `matrix[rows, ]`: selection of rows by a list of indices. DatasetMatrix.py 283-345. -/
def Matrix.selectRows (m : Matrix) (is : List Int) : Except Err Matrix := do
  let rows ← pyTake m.rows is
  .ok { m with rows := rows }

/-- `matrix[:, columns]`: selection of columns by a list of indices.
DatasetMatrix.py 348-383. -/
def Matrix.selectCols (m : Matrix) (is : List Int) : Except Err Matrix := do
  let ps ← pyPositions m.ncols is
  .ok { m with ncols := ps.length, rows := m.rows.map (fun row => atPositions row ps) }

/-! ## Deletion in place -/

/-- The assignments `self.X = ...; self.Y = ...` of `delete_row` and `keep_rows`:
DatasetMatrix.py 278-279 and 305-306. -/
def deleteRowsXY (d : DM) (is : List Int) : Outcome :=
  match deleteRowsCols d.X is [] with
  | .error e => (d, some e)
  | .ok X =>
    match deleteRowsCols d.Y is [] with
    | .error e => ({ d with X := X.tocsr }, some e)
    | .ok Y => ({ d with X := X.tocsr, Y := Y.tocsr }, none)

/-- `delete_row(r)`: DatasetMatrix.py 265-280. -/
def deleteRow (d : DM) (r : Int) : Outcome :=
  if d.final then (d, some finalizedError)
  else match deleteRowsXY d [r] with
    | (d, some e) => (d, some e)
    | (d, none) => match pyDel d.rowLabels r with
      | .error e => (d, some e)
      | .ok labels => ({ d with rowLabels := labels }, none)

/-- `set(all_rows) - set(rows_to_keep)`: DatasetMatrix.py 303-304; the order of the set is
irrelevant for the mask. -/
def rowsToDelete (n : Nat) (keep : List Int) : List Int :=
  ((List.range n).map (fun i : Nat => (i : Int))).filter (fun i => i ∉ keep)

/-- `keep_rows(rows_to_keep)`: DatasetMatrix.py 283-310, for a list argument. -/
def keepRows (d : DM) (keep : List Int) : Outcome :=
  if d.final then (d, some finalizedError)
  else if keep = [] then (d, some .valueError)
  else match deleteRowsXY d (rowsToDelete d.X.rows.length keep) with
    | (d, some e) => (d, some e)
    | (d, none) => match pyTake d.rowLabels keep with
      | .error e => (d, some e)
      | .ok labels => ({ d with rowLabels := labels }, none)

/-- The labels at the positions `c` of `range(len(labels))` with `c not in columns`:
DatasetMatrix.py 402, 421. -/
def labelsNotIn (labels : List Str) (columns : List Int) : List Str :=
  (labels.zipIdx.filter (fun p => (p.2 : Int) ∉ columns)).map Prod.fst

/-- `delete_columns_X(columns_to_delete)`: DatasetMatrix.py 386-402. -/
def deleteColumnsX (d : DM) (cols : List Int) : Outcome :=
  if d.final then (d, some finalizedError)
  else match deleteRowsCols d.X [] (cols.insertionSort (· ≤ ·)) with
    | .error e => (d, some e)
    | .ok X => ({ d with X := X.tocsr,
                         colLabelsX := labelsNotIn d.colLabelsX (cols.insertionSort (· ≤ ·)) }, none)

/-- `delete_columns_Y(columns_to_delete)`: DatasetMatrix.py 405-421. -/
def deleteColumnsY (d : DM) (cols : List Int) : Outcome :=
  if d.final then (d, some finalizedError)
  else match deleteRowsCols d.Y [] (cols.insertionSort (· ≤ ·)) with
    | .error e => (d, some e)
    | .ok Y => ({ d with Y := Y.tocsr,
                         colLabelsY := labelsNotIn d.colLabelsY (cols.insertionSort (· ≤ ·)) }, none)

/-- `delete_column_X(c)`: DatasetMatrix.py 424-439. -/
def deleteColumnX (d : DM) (c : Int) : Outcome :=
  if d.final then (d, some finalizedError)
  else match deleteRowsCols d.X [] [c] with
    | .error e => (d, some e)
    | .ok X => match pyDel d.colLabelsX c with
      | .error e => ({ d with X := X.tocsr }, some e)
      | .ok labels => ({ d with X := X.tocsr, colLabelsX := labels }, none)

/-- `delete_column_Y(c)`: DatasetMatrix.py 442-457. -/
def deleteColumnY (d : DM) (c : Int) : Outcome :=
  if d.final then (d, some finalizedError)
  else match deleteRowsCols d.Y [] [c] with
    | .error e => (d, some e)
    | .ok Y => match pyDel d.colLabelsY c with
      | .error e => ({ d with Y := Y.tocsr }, some e)
      | .ok labels => ({ d with Y := Y.tocsr, colLabelsY := labels }, none)

/-- `finalize()`: DatasetMatrix.py 522-540. -/
def finalize (d : DM) : Outcome :=
  if d.final then (d, none) else ({ d with X := d.X.tocsc, Y := d.Y.tocsc, final := true }, none)

/-- `unfinalize()`: DatasetMatrix.py 545-556. -/
def unfinalize (d : DM) : Outcome :=
  ({ d with X := d.X.tocsr, Y := d.Y.tocsr, final := false }, none)

/-! ## Selection into a new dataset -/

/-- `select_rows(rows_to_keep, new_label)`: DatasetMatrix.py 313-345, for a list argument. -/
def selectRows (d : DM) (keep : List Int) (newLabel : Str) : Except Err DM :=
  if keep = [] then .error .valueError
  else do
    let X ← d.X.selectRows (keep.insertionSort (· ≤ ·))
    let Y ← d.Y.selectRows (keep.insertionSort (· ≤ ·))
    let labels ← pyTake d.rowLabels (keep.insertionSort (· ≤ ·))
    .ok { label := if newLabel = [] then d.label else newLabel, X := X, Y := Y,
          rowLabels := labels, colLabelsX := d.colLabelsX, colLabelsY := d.colLabelsY,
          final := false }

/-- `select_columns_X(columns_to_keep, new_label)`: DatasetMatrix.py 348-383, for a list
argument. -/
def selectColumnsX (d : DM) (keep : List Int) (newLabel : Str) : Except Err DM :=
  if keep = [] then .error .valueError
  else do
    let X ← d.X.selectCols (keep.insertionSort (· ≤ ·))
    let labels ← pyTake d.colLabelsX (keep.insertionSort (· ≤ ·))
    .ok { label := if newLabel = [] then d.label else newLabel, X := X, Y := d.Y,
          rowLabels := d.rowLabels, colLabelsX := labels, colLabelsY := d.colLabelsY,
          final := false }

/-- `get_column_X(c)`, `get_column_Y(c)`: DatasetMatrix.py 155-183 on the chosen matrix;
a negative index counts from the end. -/
def Matrix.column (m : Matrix) (c : Int) : Except Err (List Int) := do
  let p ← pyPos m.ncols c
  .ok (m.rows.map (fun row => row.getD p 0))

/-- `labels.index(label)`. DatasetMatrix.py 131, 134. -/
def labelIndex (labels : List Str) (l : Str) : Except Err Nat :=
  if l ∈ labels then .ok (labels.idxOf l) else .error .valueError

/-- `get_column_by_label`: DatasetMatrix.py 128-137, for one matrix and its labels. -/
def columnByLabel (m : Matrix) (labels : List Str) (l : Str) : Except Err (List Int) := do
  let c ← labelIndex labels l
  m.column c

end Mbtk.Dataset
