import Verif.Data.Column
import Verif.Exp.NumberText
/-!
# C114: the shape, the labels and the description of a dataset

`get_matrix`, `get_row_count`, `get_column_count`, `get_column_labels` and `info` of
`mbtk/dataset/DatasetMatrix.py`, also before there are matrices.
-/
namespace Mbtk.Dataset
open Spec NumText

/-! ## The model -/

/-- A `DatasetMatrix` as far as it describes itself; a new one has no matrices and no labels.
DatasetMatrix.py 47-56. -/
structure Shell where
  X : Option Matrix
  Y : Option Matrix
  colLabelsX : List Str
  colLabelsY : List Str

/-- `DatasetMatrix(label)`: DatasetMatrix.py 47-56. -/
def newDataset : Shell := ⟨none, none, [], []⟩

/-- The attributes of a dataset with matrices that the methods below read. DatasetMatrix.py 47-56. -/
def shellOf (d : DM) : Shell := ⟨some d.X, some d.Y, d.colLabelsX, d.colLabelsY⟩

/-- `get_matrix(matrix_label)`: DatasetMatrix.py 76-91. -/
def getMatrix (s : Shell) : Which → Except Err (Option Matrix)
  | .x => .ok s.X
  | .y => .ok s.Y
  | .other => .error .valueError

/-- `matrix.get_shape()`; `None` has none. DatasetMatrix.py 70, 96, 101. -/
def getShape : Option Matrix → Except Err (Nat × Nat)
  | none => .error .attributeError
  | some m => .ok (m.rows.length, m.ncols)

/-- `get_row_count(matrix_label)`: DatasetMatrix.py 94-96. -/
def getRowCount (s : Shell) (w : Which) : Except Err Nat := do
  let matrix ← getMatrix s w
  let shape ← getShape matrix
  pure shape.1

/-- `get_column_count(matrix_label)`: DatasetMatrix.py 99-101. -/
def getColumnCount (s : Shell) (w : Which) : Except Err Nat := do
  let matrix ← getMatrix s w
  let shape ← getShape matrix
  pure shape.2

/-- `get_column_labels(matrix_label)`: DatasetMatrix.py 140-155. -/
def getColumnLabels (s : Shell) : Which → Except Err (List Str)
  | .x => .ok s.colLabelsX
  | .y => .ok s.colLabelsY
  | .other => .error .valueError

/-- One character in the `repr` of a string quoted with `q`.  Simplified: characters that are not
printable, apart from the three here, stand for themselves. (Python itself.) -/
def reprChar (q c : Char) : List Char :=
  if c = '\\' then ['\\', '\\'] else if c = q then ['\\', q]
  else if c = '\n' then ['\\', 'n'] else if c = '\r' then ['\\', 'r'] else if c = '\t' then ['\\', 't']
  else [c]

/-- `repr` of a string: double quotes only if it contains single and no double quotes.
(Python itself.) -/
def reprStr (s : Str) : List Char :=
  let q := if '\'' ∈ s ∧ '"' ∉ s then '"' else '\''
  q :: (s.flatMap (reprChar q) ++ [q])

/-- The elements of a list after the first one, in its `repr`. (Python itself.) -/
def reprRest : List Str → List Char
  | [] => [']']
  | s :: l => ',' :: ' ' :: (reprStr s ++ reprRest l)

/-- `repr` of a list of strings. (Python itself.) -/
def reprList : List Str → List Char
  | [] => ['[', ']']
  | s :: l => '[' :: (reprStr s ++ reprRest l)

/-- `'rows x columns: {rows} x {columns}'.format(…)`: DatasetMatrix.py 71-73. -/
def shapeText (rows columns : Nat) : List Char :=
  "rows x columns: ".toList ++ (natText rows ++ (" x ".toList ++ natText columns))

/-- `get_info_per_matrix(matrix)`: DatasetMatrix.py 67-73. -/
def infoPerMatrix : Option Matrix → List Char
  | none => "n/a".toList
  | some m => shapeText m.rows.length m.ncols

/-- `info()`: DatasetMatrix.py 60-64. -/
def info (s : Shell) : List Char :=
  "X: ".toList ++ (infoPerMatrix s.X ++ ("\nColumns: ".toList ++ (reprList s.colLabelsX ++
    ("\n\nY: ".toList ++ (infoPerMatrix s.Y ++ ("\nColumns: ".toList ++ reprList s.colLabelsY))))))

namespace Spec

/-- Rows and columns of a matrix, if there is one. (Specification.) -/
def dimensions (m : Option Matrix) : Option (Nat × Nat) := m.map (fun m => (m.rows.length, m.ncols))

end Spec

/-! ## Counts and labels -/

/-- **C114.**  After any history of operations with meant arguments, both matrices have one row for each
row label and one column for each column label. -/
theorem counts_match_labels (d : DM) (h : WellShaped d) (ops : List Op) (hm : MeantAll d ops) (w : Which)
    (hw : w ≠ .other) :
    ∃ labels, getColumnLabels (shellOf (runOps d ops)) w = .ok labels ∧
      getColumnCount (shellOf (runOps d ops)) w = .ok labels.length ∧
      getRowCount (shellOf (runOps d ops)) w = .ok (runOps d ops).rowLabels.length := by
  have hs := (dataset_history_aligned d h ops hm).1
  generalize runOps d ops = e at hs ⊢
  cases w with
  | x =>
    refine ⟨e.colLabelsX, rfl, ?_, ?_⟩
    · show Except.ok e.X.ncols = _; rw [hs.colsX]
    · show Except.ok e.X.rows.length = _; rw [hs.rowsX]
  | y =>
    refine ⟨e.colLabelsY, rfl, ?_, ?_⟩
    · show Except.ok e.Y.ncols = _; rw [hs.colsY]
    · show Except.ok e.Y.rows.length = _; rw [hs.rowsY]
  | other => exact absurd rfl hw

/-- **C114.**  If the labels are different, asking for a column by its label is asking for the column at
the position of that label in `get_column_labels`. -/
theorem label_position (d : DM) (w : Which) (labels : List Str)
    (e : getColumnLabels (shellOf d) w = .ok labels) (hn : labels.Nodup) (i : Nat) (l : Str)
    (hi : labels[i]? = some l) : getColumnByLabel d w l = getColumn d w i := by
  obtain ⟨hlt, hl⟩ := List.getElem?_eq_some_iff.1 hi
  have hidx : labels.idxOf l = i := by rw [← hl]; exact hn.idxOf_getElem i hlt
  have hm : l ∈ labels := List.mem_of_getElem? hi
  cases w with
  | x =>
    obtain rfl : d.colLabelsX = labels := by injection e
    exact (columnByLabel_ok hm).trans (by rw [hidx]; rfl)
  | y =>
    obtain rfl : d.colLabelsY = labels := by injection e
    exact (columnByLabel_ok hm).trans (by rw [hidx]; rfl)
  | other => cases e

/-- **C114.**  A matrix label other than `"X"` and `"Y"` raises `ValueError` everywhere; without matrices
the counts raise `AttributeError`, while the labels are empty lists. -/
theorem counts_errors (s : Shell) (w : Which) (hw : w ≠ .other) :
    getMatrix s .other = .error .valueError ∧ getRowCount s .other = .error .valueError ∧
    getColumnCount s .other = .error .valueError ∧ getColumnLabels s .other = .error .valueError ∧
    getRowCount newDataset w = .error .attributeError ∧
    getColumnCount newDataset w = .error .attributeError ∧ getColumnLabels newDataset w = .ok [] := by
  refine ⟨rfl, rfl, rfl, rfl, ?_⟩
  cases w with
  | x => exact ⟨rfl, rfl, rfl⟩
  | y => exact ⟨rfl, rfl, rfl⟩
  | other => exact absurd rfl hw

/-! ## The description -/

/-- Undo `reprChar`: the content up to the closing quote, and the rest.
(Models no code: a notion for statements and proofs.) -/
def unquote (q : Char) : List Char → Option (List Char × List Char)
  | [] => none
  | '\\' :: d :: s => (unquote q s).map (fun r =>
      ((if d = 'n' then '\n' else if d = 'r' then '\r' else if d = 't' then '\t' else d) :: r.1, r.2))
  | c :: s => if c = q then some ([], s) else (unquote q s).map (fun r => (c :: r.1, r.2))

theorem unquote_plain {q c : Char} (h1 : c ≠ '\\') (h2 : c ≠ q) (s : List Char) :
    unquote q (c :: s) = (unquote q s).map (fun r => (c :: r.1, r.2)) := by
  rw [unquote.eq_def]
  split
  · rename_i h; cases h
  · rename_i h
    simp only [List.cons.injEq] at h
    exact absurd h.1 h1
  · rename_i c' s' _ h
    simp only [List.cons.injEq] at h
    obtain ⟨rfl, rfl⟩ := h
    rw [if_neg h2]

theorem unquote_end {q : Char} (h : q ≠ '\\') (s : List Char) : unquote q (q :: s) = some ([], s) := by
  rw [unquote.eq_def]
  split
  · rename_i h'; cases h'
  · rename_i h'
    simp only [List.cons.injEq] at h'
    exact absurd h'.1 h
  · rename_i c' s' _ h'
    simp only [List.cons.injEq] at h'
    obtain ⟨rfl, rfl⟩ := h'
    rw [if_pos rfl]

theorem unquote_repr {q : Char} (hq : q = '\'' ∨ q = '"') (s rest : List Char) :
    unquote q (s.flatMap (reprChar q) ++ q :: rest) = some (s, rest) := by
  have hb : q ≠ '\\' := by rcases hq with rfl | rfl <;> decide
  induction s with
  | nil => exact unquote_end hb rest
  | cons c s ih =>
    rw [List.flatMap_cons, List.append_assoc]
    have esc : ∀ d, unquote q ('\\' :: d :: (s.flatMap (reprChar q) ++ q :: rest)) =
        some ((if d = 'n' then '\n' else if d = 'r' then '\r' else if d = 't' then '\t' else d) :: s, rest) := by
      intro d
      rw [unquote, ih]; rfl
    by_cases h1 : c = '\\'
    · subst h1
      exact esc '\\'
    by_cases h2 : c = q
    · subst h2
      rw [show reprChar c c = ['\\', c] by unfold reprChar; rw [if_neg h1, if_pos rfl]]
      refine (esc c).trans ?_
      rcases hq with rfl | rfl <;> rfl
    by_cases h3 : c = '\n'
    · subst h3
      rw [show reprChar q '\n' = ['\\', 'n'] by unfold reprChar; rw [if_neg h1, if_neg h2, if_pos rfl]]
      exact esc 'n'
    by_cases h4 : c = '\r'
    · subst h4
      rw [show reprChar q '\r' = ['\\', 'r'] by
        unfold reprChar; rw [if_neg h1, if_neg h2, if_neg h3, if_pos rfl]]
      exact esc 'r'
    by_cases h5 : c = '\t'
    · subst h5
      rw [show reprChar q '\t' = ['\\', 't'] by
        unfold reprChar; rw [if_neg h1, if_neg h2, if_neg h3, if_neg h4, if_pos rfl]]
      exact esc 't'
    rw [show reprChar q c = [c] by
      unfold reprChar; rw [if_neg h1, if_neg h2, if_neg h3, if_neg h4, if_neg h5]]
    rw [List.cons_append, List.nil_append, unquote_plain h1 h2, ih]; rfl

theorem reprStr_inj {s s' r r' : List Char} (h : reprStr s ++ r = reprStr s' ++ r') : s = s' ∧ r = r' := by
  unfold reprStr at h
  have hq : ∀ s : Str, (if '\'' ∈ s ∧ '"' ∉ s then '"' else '\'') = '\'' ∨
      (if '\'' ∈ s ∧ '"' ∉ s then '"' else '\'') = '"' := by
    intro s; split
    · exact .inr rfl
    · exact .inl rfl
  have h1 := hq s
  generalize (if '\'' ∈ s ∧ '"' ∉ s then '"' else '\'') = q at h h1
  generalize (if '\'' ∈ s' ∧ '"' ∉ s' then '"' else '\'') = q' at h
  simp only [List.cons_append, List.append_assoc, List.nil_append, List.cons.injEq] at h
  obtain ⟨rfl, h⟩ := h
  have a := unquote_repr h1 s r
  have b := unquote_repr h1 s' r'
  rw [h, b] at a
  simp only [Option.some.injEq, Prod.mk.injEq] at a
  exact ⟨a.1.symm, a.2.symm⟩

theorem reprRest_inj {l l' : List Str} {r r' : List Char} (h : reprRest l ++ r = reprRest l' ++ r') :
    l = l' ∧ r = r' := by
  induction l generalizing l' with
  | nil =>
    cases l' with
    | nil => simpa [reprRest] using h
    | cons s' l' => simp [reprRest] at h
  | cons s l ih =>
    cases l' with
    | nil => simp [reprRest] at h
    | cons s' l' =>
      simp only [reprRest, List.cons_append, List.append_assoc, List.cons.injEq, true_and] at h
      obtain ⟨rfl, h2⟩ := reprStr_inj h
      obtain ⟨rfl, h3⟩ := ih h2
      exact ⟨rfl, h3⟩

theorem reprList_inj {l l' : List Str} {r r' : List Char} (h : reprList l ++ r = reprList l' ++ r') :
    l = l' ∧ r = r' := by
  have ne : ∀ (s x y : List Char), reprStr s ++ x ≠ ']' :: y := by
    intro s x y h
    unfold reprStr at h
    simp only [List.cons_append, List.cons.injEq] at h
    have := h.1
    split at this <;> exact absurd this (by decide)
  cases l with
  | nil =>
    cases l' with
    | nil => simpa [reprList] using h
    | cons s' l' =>
      simp only [reprList, List.cons_append, List.append_assoc, List.nil_append, List.cons.injEq, true_and] at h
      exact absurd h.symm (ne _ _ _)
  | cons s l =>
    cases l' with
    | nil =>
      simp only [reprList, List.cons_append, List.append_assoc, List.nil_append, List.cons.injEq, true_and] at h
      exact absurd h (ne _ _ _)
    | cons s' l' =>
      simp only [reprList, List.cons_append, List.append_assoc, List.cons.injEq, true_and] at h
      obtain ⟨rfl, h2⟩ := reprStr_inj h
      obtain ⟨rfl, h3⟩ := reprRest_inj h2
      exact ⟨rfl, h3⟩

theorem natText_inj {n n' : Nat} {c c' : Char} {r r' : List Char} (hc : c.isDigit = false)
    (hc' : c'.isDigit = false) (h : natText n ++ c :: r = natText n' ++ c' :: r') :
    n = n' ∧ c :: r = c' :: r' := by
  have key : ∀ (n : Nat) (c : Char) (r : List Char), c.isDigit = false →
      (natText n ++ c :: r).takeWhile Char.isDigit = natText n ∧
      (natText n ++ c :: r).dropWhile Char.isDigit = c :: r := by
    intro n c r hc
    have hd : ∀ a ∈ natText n, a.isDigit = true := fun _ => natText_digit
    constructor
    · rw [List.takeWhile_append_of_pos hd, List.takeWhile_cons_of_neg (by simp [hc])]; simp
    · rw [List.dropWhile_append_of_pos hd, List.dropWhile_cons_of_neg (by simp [hc])]
  have a := key n c r hc
  have b := key n' c' r' hc'
  rw [h, b.1, b.2] at a
  refine ⟨?_, a.2.symm⟩
  rw [← digits_nat n, ← digits_nat n', a.1]

theorem infoPerMatrix_inj {m m' : Option Matrix} {r r' : List Char}
    (h : infoPerMatrix m ++ '\n' :: r = infoPerMatrix m' ++ '\n' :: r') :
    dimensions m = dimensions m' ∧ r = r' := by
  cases m with
  | none =>
    cases m' with
    | none =>
      have : r = r' := (List.cons.inj (List.append_cancel_left h)).2
      exact ⟨rfl, this⟩
    | some m' =>
      have h2 : some 'n' = some 'r' := congrArg List.head? h
      exact absurd h2 (by decide)
  | some m =>
    cases m' with
    | none =>
      have h2 : some 'r' = some 'n' := congrArg List.head? h
      exact absurd h2 (by decide)
    | some m' =>
      have h : "rows x columns: ".toList ++ (natText m.rows.length ++ (" x ".toList ++ (natText m.ncols ++ '\n' :: r))) =
          "rows x columns: ".toList ++ (natText m'.rows.length ++ (" x ".toList ++ (natText m'.ncols ++ '\n' :: r'))) := by
        have h' : shapeText m.rows.length m.ncols ++ '\n' :: r = shapeText m'.rows.length m'.ncols ++ '\n' :: r' := h
        unfold shapeText at h'
        rw [List.append_assoc, List.append_assoc, List.append_assoc] at h'
        rw [List.append_assoc, List.append_assoc, List.append_assoc] at h'
        exact h'
      have h := (List.append_right_inj _).1 h
      obtain ⟨h1, h⟩ := natText_inj (c := ' ') (c' := ' ') (by decide) (by decide) h
      have h : natText m.ncols ++ '\n' :: r = natText m'.ncols ++ '\n' :: r' := by simpa using h
      obtain ⟨h2, h⟩ := natText_inj (by decide) (by decide) h
      refine ⟨?_, by simpa using h⟩
      simp [dimensions, h1, h2]

/-- **C114.**  `info` shows exactly the number of rows and columns of the matrices (or that there are none)
and the column labels: two datasets have the same description if and only if they agree in these. -/
theorem info_determines (s s' : Shell) :
    info s = info s' ↔ dimensions s.X = dimensions s'.X ∧ dimensions s.Y = dimensions s'.Y ∧
      s.colLabelsX = s'.colLabelsX ∧ s.colLabelsY = s'.colLabelsY := by
  constructor
  · intro h
    have e : ∀ l, "\nColumns: ".toList ++ l = '\n' :: ("Columns: ".toList ++ l) := fun _ => rfl
    unfold info at h
    simp only [e] at h
    have h := List.append_cancel_left h
    obtain ⟨h1, h⟩ := infoPerMatrix_inj h
    have h := List.append_cancel_left h
    obtain ⟨h2, h⟩ := reprList_inj h
    have h := List.append_cancel_left h
    obtain ⟨h3, h⟩ := infoPerMatrix_inj h
    have h := List.append_cancel_left h
    obtain ⟨h4, -⟩ := reprList_inj (r := []) (r' := []) (by simpa using h)
    exact ⟨h1, h3, h2, h4⟩
  · rintro ⟨h1, h2, h3, h4⟩
    have key : ∀ m m' : Option Matrix, dimensions m = dimensions m' → infoPerMatrix m = infoPerMatrix m' := by
      intro m m' h
      cases m with
      | none =>
        cases m' with
        | none => rfl
        | some m' => simp [dimensions] at h
      | some m =>
        cases m' with
        | none => simp [dimensions] at h
        | some m' =>
          simp only [dimensions, Option.map_some, Option.some.injEq, Prod.mk.injEq] at h
          simp only [infoPerMatrix, h.1, h.2]
    unfold info
    rw [key _ _ h1, key _ _ h2, h3, h4]

/-- The description of the example, also with labels that need quoting. -/
example : info (shellOf exDM) =
      "X: rows x columns: 3 x 2\nColumns: ['a', 'b']\n\nY: rows x columns: 3 x 1\nColumns: ['y']".toList ∧
    info newDataset = "X: n/a\nColumns: []\n\nY: n/a\nColumns: []".toList ∧
    reprList ["it's".toList, "a\\b\"'\n".toList] = "[\"it's\", 'a\\\\b\"\\'\\n']".toList := by
  refine ⟨by decide +kernel, by decide +kernel, by decide +kernel⟩

/-- A history that meets the hypotheses of `counts_match_labels`, and its counts. -/
example : ∃ labels, getColumnLabels (shellOf (runOps exDM [.deleteColumnX (-1), .deleteRow 1])) .x = .ok labels ∧
    labels = ["a".toList] ∧
    getRowCount (shellOf (runOps exDM [.deleteColumnX (-1), .deleteRow 1])) .x = .ok 2 := by
  obtain ⟨labels, h1, h2, h3⟩ := counts_match_labels exDM exDM_shaped [.deleteColumnX (-1), .deleteRow 1]
    ⟨trivial, trivial, trivial⟩ .x (by decide)
  refine ⟨labels, h1, ?_, h3⟩
  have : Except.ok labels = (Except.ok ["a".toList] : Except Err _) := h1.symm
  exact Except.ok.inj this

end Mbtk.Dataset
