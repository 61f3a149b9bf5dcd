import Verif.ADTree.Model
/-!
# What AD-tree users rely on, stated on the dataset alone

Nothing here mentions nodes, most common values, leaf lists or contingency trees.
-/
namespace Mbtk.ADTree
namespace Spec

/-- Number of dataset rows satisfying a predicate. (Specification.) -/
def rowsWith (D : Data) (P : Nat → Prop) [DecidablePred P] : Nat :=
  ((List.range D.nrows).filter (fun r => decide (P r))).length

/-- Number of rows showing `value` in `column` for every pair of the query.
(Specification.) -/
def matching (D : Data) (q : List (Nat × Int)) : Nat :=
  rowsWith D (fun r => ∀ p ∈ q, D.cell r p.1 = p.2)

/-- The dataset is usable: it has a row, and `column_values` lists each value of each
column exactly once (it may list more values than occur). (Specification.) -/
structure Usable (D : Data) : Prop where
  rows_pos : 0 < D.nrows
  nodup : ∀ c < D.ncols, (D.values c).Nodup
  cover : ∀ c < D.ncols, ∀ r < D.nrows, D.cell r c ∈ D.values c
  /-- leaf lists are smaller than the dataset -/
  threshold_le : D.threshold ≤ D.nrows

/-- A query is a dictionary over existing columns. (Specification.) -/
def ValidQuery (D : Data) (q : List (Nat × Int)) : Prop :=
  (q.map Prod.fst).Nodup ∧ ∀ p ∈ q, p.1 < D.ncols

/-- `d` is the relative frequency table of the columns `cols` (keys in the order of
`cols`): no key twice, every key has one component per column, the probability of every
value combination is its frequency (an absent key means 0), and everything sums to 1.
(Specification.) -/
structure IsFrequencyTable (D : Data) (cols : List Nat) (d : List (List Int × ℚ)) : Prop where
  keys_nodup : (d.map Prod.fst).Nodup
  key_length : ∀ p ∈ d, p.1.length = cols.length
  freq : ∀ key : List Int, key.length = cols.length →
    (dictGet d key).getD 0 = (rowsWith D (fun r => cols.map (D.cell r) = key) : ℚ) / D.nrows
  nonneg : ∀ p ∈ d, 0 ≤ p.2
  total : (d.map Prod.snd).sum = 1

/-- A request a client can send to a tree. (Specification.) -/
inductive Request where
  | count (q : List (Nat × Int))
  | pmf (cols : List Nat)
  | reload

/-- Requests the documentation allows: dictionaries over existing columns; a non-empty
set of existing columns none of which uses the reserved value -1. (Specification.) -/
def Request.Valid (D : Data) : Request → Prop
  | .count q => ValidQuery D q
  | .pmf cols => cols ≠ [] ∧ cols.Nodup ∧ (∀ c ∈ cols, c < D.ncols) ∧
      ∀ c ∈ cols, (-1 : Int) ∉ D.values c
  | .reload => True

/-- (Specification.) -/
inductive Answer where
  | count (k : Int)
  | pmf (d : List (List Int × ℚ))
  | done

/-- The right answer to a request. (Specification.) -/
def Correct (D : Data) : Request → Answer → Prop
  | .count q, .count k => k = matching D q
  | .pmf cols, .pmf d => IsFrequencyTable D cols.mergeSort d
  | .reload, .done => True
  | _, _ => False

end Spec

open Spec in
/-- Serving one request on the current tree; `reload` pickles and unpickles it
(G_test__with_AD_tree.py 58-60, 72-76). -/
def serve (D : Data) (dyn : Bool) (root : ADNode) : Request → TM (Answer × ADNode)
  | .count q => do
    let (k, root) ← queryCount D dyn q root
    pure (.count k, root)
  | .pmf cols => do
    let (d, root) ← makePmf D dyn cols root
    pure (.pmf d, root)
  | .reload => pure (.done, pickleAD dyn root)

open Spec in
/-- Serving a list of requests, one after the other, on the same tree. (Specification.) -/
def serveAll (D : Data) (dyn : Bool) : List Request → ADNode → TM (List Answer × ADNode)
  | [], root => pure ([], root)
  | r :: rs, root => do
    let (a, root) ← serve D dyn root r
    let (as, root) ← serveAll D dyn rs root
    pure (a :: as, root)

open Spec in
/-- A whole session: build the tree, then serve requests. (Specification.) -/
def session (D : Data) (dyn : Bool) (rs : List Request) : TM (List Answer × ADNode) := do
  let root ← create D dyn
  serveAll D dyn rs root

end Mbtk.ADTree
