import Verif.Py
import Mathlib.Data.Rat.Defs
import Mathlib.Algebra.Field.Rat
/-!
# Model of `mbtk/structures/ADTree.py`, `DynamicADTree.py`, `ContingencyTree.py`

Simplifications, all of them:
* the sparse matrix is a cell function with a shape; column indices in queries are
  natural numbers (Python would also accept negative indices for scipy access);
* `column_values[c]` is total for the columns of the matrix (the caller passes the
  dictionary of `DatasetMatrix.get_values_per_column`);
* `column_cache` (ADTree.py 426-430) is a pure memo of matrix columns and is dropped;
* the timing attributes and `level` (only used for printing) are dropped;
* an `ADNode`/`VaryNode` object is a value; a method that mutates it returns the new
  value, and the callers write it back (nodes are never shared between parents).
-/
namespace Mbtk.ADTree

/-- What a tree is built from: ADTree.py 57-69 (`matrix`, `column_values`,
`leaf_list_threshold`). -/
structure Data where
  nrows : Nat
  ncols : Nat
  cell : Nat → Nat → Int
  values : Nat → List Int
  threshold : Nat

/-- `ad_node_count`, `vary_node_count` of the tree object: ADTree.py 61-62. -/
structure Counters where
  ad : Nat
  vary : Nat
  deriving DecidableEq, Repr

/-- Methods of the tree change its counters and may raise: ADTree.py 61-62, 241, 372. -/
abbrev TM := PyM Counters

mutual
/-- `ADNode` objects: ADTree.py 226-250 (`level` dropped). -/
inductive ADNode where
  | mk (col value : Int) (count : Int) (leaf : Bool) (rows : Option (List Nat))
      (varys : List VaryNode)
/-- `VaryNode` objects: ADTree.py 361-382 (`level` dropped; `row_selection` dropped
because nothing reads it after construction). -/
inductive VaryNode where
  | mk (col : Nat) (values : List Int) (mcv : Int) (ads : List (Option ADNode))
end

namespace ADNode
/-- `column_index` of an `ADNode`: ADTree.py 234. -/
def col : ADNode → Int | mk c _ _ _ _ _ => c
/-- `value` of an `ADNode`: ADTree.py 235. -/
def value : ADNode → Int | mk _ v _ _ _ _ => v
/-- `count` of an `ADNode`: ADTree.py 236-239. -/
def count : ADNode → Int | mk _ _ n _ _ _ => n
/-- `leaf_list_node`: ADTree.py 242-250. -/
def leaf : ADNode → Bool | mk _ _ _ l _ _ => l
/-- `row_selection` of an `ADNode`: ADTree.py 233-240. -/
def rows : ADNode → Option (List Nat) | mk _ _ _ _ r _ => r
/-- `Vary_children`: ADTree.py 253-263. -/
def varys : ADNode → List VaryNode | mk _ _ _ _ _ vs => vs
/-- Storing `Vary_children`: ADTree.py 253-263, DynamicADTree.py 40-48. -/
def setVarys : ADNode → List VaryNode → ADNode | mk c v n l r _, vs => mk c v n l r vs
end ADNode

namespace VaryNode
/-- `column_index` of a `VaryNode`: ADTree.py 368-382. -/
def col : VaryNode → Nat | mk c _ _ _ => c
/-- `values` of a `VaryNode`: ADTree.py 368-382. -/
def values : VaryNode → List Int | mk _ v _ _ => v
/-- `most_common_value`: ADTree.py 368-382, 458-459. -/
def mcv : VaryNode → Int | mk _ _ m _ => m
/-- `AD_children`: ADTree.py 385-394. -/
def ads : VaryNode → List (Option ADNode) | mk _ _ _ a => a
/-- Storing `AD_children`: ADTree.py 385-394; a child that was changed is written back. -/
def setAds : VaryNode → List (Option ADNode) → VaryNode | mk c v m _, a => mk c v m a
end VaryNode

/-- `VaryNode.create_row_subselections_by_value`: ADTree.py 409-435.  The
`defaultdict(list)` is a function; each selected row index is appended to the list of
its value in column `c`. -/
def groupRows (D : Data) (c : Nat) (rows : List Nat) : Int → List Nat :=
  rows.foldl (fun d r => fun v => if v = D.cell r c then d v ++ [r] else d v) (fun _ => [])

/-- `VaryNode.__init__` and `create_AD_children`: ADTree.py 368-394, 458-459.
`mkAD` is the constructor of the AD node class in use. -/
def buildVary (D : Data) (mkAD : Int → Int → List Nat → TM ADNode) (c : Nat)
    (rs : Option (List Nat)) : TM VaryNode := do
  let rows := rs.getD (List.range D.nrows)
  if D.ncols ≤ c then throw .indexError
  let sub := groupRows D c rows
  let vals := D.values c
  let mcv ← liftM (pyMaxKey (fun v => (sub v).length) vals)
  modify (fun s => { s with vary := s.vary + 1 })
  let ads ← mapList (fun v =>
    if (sub v).length > 0 ∧ v ≠ mcv then do
      let n ← mkAD c v (sub v)
      pure (some n)
    else pure none) vals
  pure (.mk c vals mcv ads)

/-- `range(lo, hi)`. ADTree.py 253-263. -/
def rangeFrom (lo hi : Nat) : List Nat := (List.range (hi - lo)).map (· + lo)

/-- `count` of a new AD node: ADTree.py 236-239. -/
def rowCount (D : Data) : Option (List Nat) → Nat
  | none => D.nrows
  | some r => r.length

/-- `ADNode.__init__` and `create_Vary_children`: ADTree.py 233-263, and for `dyn` the
`DynamicADNode` override that creates no children: DynamicADTree.py 36-37.
`fuel` bounds the depth of the static tree; `build_ok` shows it never runs out. -/
def buildAD (D : Data) (dyn : Bool) : Nat → Int → Int → Option (List Nat) → TM ADNode
  | 0, _, _, _ => throw .recursion
  | fuel + 1, col, value, rs => do
    let count := rowCount D rs
    modify (fun s => { s with ad := s.ad + 1 })
    let leaf := decide (count < D.threshold)
    if leaf = true ∨ dyn = true then
      pure (.mk col value count leaf rs [])
    else do
      let vs ← mapList
        (fun c => buildVary D (fun c v sel => buildAD D dyn fuel c v (some sel)) c rs)
        (rangeFrom (col + 1).toNat D.ncols)
      pure (.mk col value count leaf rs vs)

/-- `ADTree.create`: ADTree.py 72-76; DynamicADTree.py 25-26. -/
def create (D : Data) (dyn : Bool) : TM ADNode :=
  buildAD D dyn (D.ncols + 1) (-1) (-1) none

/-- The tree object right after `ADTree(...)`: counters start at 0 (ADTree.py 61-62). -/
def newTree (D : Data) (dyn : Bool) : Except Err (ADNode × Counters) :=
  (create D dyn).run ⟨0, 0⟩

/-- Position of the first Vary child for a column: ADTree.py 266-273. -/
def findVary : List VaryNode → Nat → Option Nat
  | [], _ => none
  | v :: vs, c => if v.col = c then some 0 else (findVary vs c).map (· + 1)

/-- `get_Vary_child_for_column`: ADTree.py 266-273 and the `DynamicADNode` override
DynamicADTree.py 40-48 (which appends a new Vary node when there is none).  Returns the
index of the Vary node and the updated AD node; in a static tree a missing Vary node is
`None`, and every caller immediately calls a method on it (`AttributeError`). -/
def getVary (D : Data) (dyn : Bool) (n : ADNode) (c : Nat) : TM (Nat × ADNode) :=
  match findVary n.varys c with
  | some i => pure (i, n)
  | none =>
    if dyn then do
      let v ← buildVary D (fun c v sel => buildAD D dyn 1 c v (some sel)) c n.rows
      pure (n.varys.length, n.setVarys (n.varys ++ [v]))
    else throw .attributeError

/-- `get_AD_child_for_value`: ADTree.py 438-447; position and node. -/
def findChild : List (Option ADNode) → Int → Option (Nat × ADNode)
  | [], _ => none
  | none :: rest, v => (findChild rest v).map (fun p => (p.1 + 1, p.2))
  | some n :: rest, v =>
    if n.value = v then some (0, n) else (findChild rest v).map (fun p => (p.1 + 1, p.2))

/-- `query_count_in_leaf_list_node`: ADTree.py 188-197.  Iterating over
`row_selection = None` is a `TypeError`; a column outside the matrix an `IndexError`. -/
def queryLeaf (D : Data) (q : List (Nat × Int)) (n : ADNode) : Except Err Int :=
  match n.rows with
  | none => .error .typeError
  | some rows =>
    if rows ≠ [] ∧ (q.any fun p => decide (D.ncols ≤ p.1)) then .error .indexError
    else .ok (rows.countP (fun r => q.all fun p => decide (D.cell r p.1 = p.2)) : Nat)

/-- `sum_non_MCV_children_count`: ADTree.py 454-455. -/
def sumCounts (ads : List (Option ADNode)) : Int :=
  (ads.map (fun o => match o with | none => 0 | some n => n.count)).sum

/-- The loop over the non-MCV siblings: ADTree.py 180-183 (with 450-451), writing each
possibly expanded sibling back. -/
def overSiblings (f : ADNode → TM (Int × ADNode)) :
    List (Option ADNode) → TM (Int × List (Option ADNode))
  | [] => pure (0, [])
  | none :: rest => do
    let (k, rest') ← overSiblings f rest
    pure (k, none :: rest')
  | some n :: rest => do
    let (a, n') ← f n
    let (k, rest') ← overSiblings f rest
    pure (a + k, some n' :: rest')

/-- `ADTree.query_count`: ADTree.py 117-185, on a query already sorted by column (the
code re-sorts the remaining keys at every level, which does not change the order).
Returns the count and the node, which a dynamic tree may have expanded. -/
def queryNode (D : Data) (dyn : Bool) : List (Nat × Int) → ADNode → TM (Int × ADNode)
  | [], n => pure (n.count, n)
  | (c, v) :: rest, n =>
    if n.leaf then do
      let k ← liftM (queryLeaf D ((c, v) :: rest) n)
      pure (k, n)
    else do
      let (i, n) ← getVary D dyn n c
      match n.varys[i]? with
      | none => throw .attributeError
      | some vary =>
        match findChild vary.ads v with
        | some (j, child) => do
          let (k, child') ← queryNode D dyn rest child
          pure (k, n.setVarys (n.varys.set i (vary.setAds (vary.ads.set j (some child')))))
        | none =>
          if vary.mcv ≠ v then pure (0, n)
          else if rest.isEmpty then pure (n.count - sumCounts vary.ads, n)
          else do
            let (inSiblings, ads') ← overSiblings (queryNode D dyn rest) vary.ads
            let n := n.setVarys (n.varys.set i (vary.setAds ads'))
            let (inParent, n) ← queryNode D dyn rest n
            pure (inParent - inSiblings, n)

/-- Sorting a query dictionary by column: ADTree.py 133-134. -/
def sortQuery (q : List (Nat × Int)) : List (Nat × Int) :=
  q.mergeSort (fun a b => decide (a.1 ≤ b.1))

/-- `ADTree.query_count(values)` from the root: ADTree.py 117-185. -/
def queryCount (D : Data) (dyn : Bool) (q : List (Nat × Int)) (root : ADNode) :
    TM (Int × ADNode) :=
  queryNode D dyn (sortQuery q) root

/-- `d.update(e)`. ADTree.py 287-293, ContingencyTree.py 43-66. -/
def dictUpdate (d e : List (Nat × Int)) : List (Nat × Int) :=
  e.foldl (fun d p => dictSet d p.1 p.2) d

/-- `ADTree.query` / `p`: ADTree.py 93-114, with an exact quotient;
`ZeroDivisionError` when the conditioning count is 0.  `given=None` is `[]`. -/
def query (D : Data) (dyn : Bool) (values given : List (Nat × Int)) (root : ADNode) :
    TM (ℚ × ADNode) := do
  let joint := dictUpdate (dictUpdate [] given) values
  let (conditioned, root) ← queryCount D dyn joint root
  let (conditioning, root) ← queryCount D dyn given root
  if conditioning = 0 then throw .zeroDivision
  pure ((conditioned : ℚ) / (conditioning : ℚ), root)

/-! ## Contingency trees -/

/-- `ContingencyTreeNode`: ContingencyTree.py 4-12.  `children = None` is `[]` (the code
never leaves an empty dictionary); the dictionary key of a child always equals the
child's `value`, so children are a list searched by `value`. -/
inductive CT where
  | mk (column value : Int) (count : Option Int) (children : List CT)

namespace CT
/-- `column` of a `ContingencyTreeNode`: ContingencyTree.py 6-10. -/
def column : CT → Int | mk c _ _ _ => c
/-- `value`: ContingencyTree.py 6-10. -/
def value : CT → Int | mk _ v _ _ => v
/-- `count`: ContingencyTree.py 6-10. -/
def count : CT → Option Int | mk _ _ n _ => n
/-- `children`, `[]` for `None`: ContingencyTree.py 6-10. -/
def children : CT → List CT | mk _ _ _ ch => ch

/-- `append_child`: ContingencyTree.py 18-25 (dictionary insertion under `child.value`). -/
def insertChild (child : CT) : List CT → List CT
  | [] => [child]
  | x :: xs => if x.value = child.value then child :: xs else x :: insertChild child xs

/-- `append_child(child)`: ContingencyTree.py 18-25. -/
def appendChild : CT → CT → CT
  | mk c v n ch, child => mk c v n (insertChild child ch)

/-- `children[value]`. ContingencyTree.py 36, 94, 124. -/
def findChild (ch : List CT) (v : Int) : Option CT := ch.find? (fun c => decide (c.value = v))

/-- Replacing the child stored under its own value. ContingencyTree.py 18-25, 36-40. -/
def replaceChild (child : CT) (ch : List CT) : List CT :=
  ch.map (fun c => if c.value = child.value then child else c)

/-- `add_count_to_leaf`: ContingencyTree.py 28-40.  (`columns` and `values` have equal
length at every call.) -/
def addCount (k : Int) : List Nat → List Int → CT → CT
  | _, [], mk c v n ch => mk c v (some (n.getD 0 + k)) ch
  | [], _ :: _, t => t
  | c0 :: cols, v0 :: vals, mk c v n ch =>
    match findChild ch v0 with
    | some child => mk c v n (replaceChild (addCount k cols vals child) ch)
    | none => mk c v n (insertChild (addCount k cols vals (mk c0 v0 none [])) ch)

mutual
/-- `subtract_in_place`: ContingencyTree.py 117-128.  `count - None` and `None[...]`
are `TypeError`s; a child missing in `other` is skipped (`KeyError` caught). -/
def subtract : CT → CT → Except Err CT
  | mk c v n [], other =>
    match n, other.count with
    | some a, some b => .ok (mk c v (some (a - b)) [])
    | _, _ => .error .typeError
  | mk c v n (x :: xs), other =>
    if other.children.isEmpty then .error .typeError
    else do
      let ch ← subtractList (x :: xs) other.children
      .ok (mk c v n ch)
/-- The loop over the children: ContingencyTree.py 122-128. -/
def subtractList : List CT → List CT → Except Err (List CT)
  | [], _ => .ok []
  | x :: xs, others =>
    match findChild others x.value with
    | some o => do
      let x' ← subtract x o
      let xs' ← subtractList xs others
      .ok (x' :: xs')
    | none => do
      let xs' ← subtractList xs others
      .ok (x :: xs')
end

/-- Pop the last element of the key deque, ignoring an empty deque:
ContingencyTree.py 62-65. -/
def popKey (key : List Int) : List Int := key.dropLast

mutual
/-- `convert_to_dictionary`: ContingencyTree.py 43-66, threading the shared `key` deque
and the dictionary.  A scalar key `v` is represented by `[v]` and a tuple by the list of
its components (a one-element tuple is never produced); `key[0]` on an empty deque is an
`IndexError`. -/
def toDict : CT → List Int × List (List Int × Option Int) →
    Except Err (List Int × List (List Int × Option Int))
  | mk _ v n [], (key, d) =>
    let key := if v ≠ -1 then key ++ [v] else key
    if key = [] then .error .indexError
    else .ok (popKey key, dictSet d key n)
  | mk _ v _ (x :: xs), (key, d) => do
    let key := if v ≠ -1 then key ++ [v] else key
    let (key, d) ← toDictList (x :: xs) (key, d)
    .ok (popKey key, d)
/-- The loop over the children: ContingencyTree.py 60-61. -/
def toDictList : List CT → List Int × List (List Int × Option Int) →
    Except Err (List Int × List (List Int × Option Int))
  | [], st => .ok st
  | x :: xs, st => do
    let st ← toDict x st
    toDictList xs st
end

/-- Setting `column` and `value` on a node: ADTree.py 318-319. -/
def relabel : CT → Int → Int → CT
  | mk _ _ n ch, c, v => mk c v n ch

end CT

/-- `make_contingency_tree_from_leaf_list`: ADTree.py 331-345. -/
def ctFromLeaf (D : Data) (cols : List Nat) (n : ADNode) : Except Err CT :=
  if cols.any fun c => decide (D.ncols ≤ c) then .error .indexError
  else match n.rows with
    | none => .error .typeError
    | some rows =>
      .ok (rows.foldl (fun ct r => ct.addCount 1 cols (cols.map (D.cell r)))
        (.mk n.col n.value none []))

/-- The loop building the subtrees of the values other than the MCV: ADTree.py 310-315.
Iterates over the Vary node's `values`; threads the AD children (they may expand) and the
accumulated contingency node. -/
def ctNonMcv (f : ADNode → TM (CT × ADNode)) (mcv : Int) :
    List Int → CT → List (Option ADNode) → TM (CT × List (Option ADNode))
  | [], acc, ads => pure (acc, ads)
  | v :: vs, acc, ads =>
    if v ≠ mcv then
      match findChild ads v with
      | some (j, child) => do
        let (ct, child') ← f child
        ctNonMcv f mcv vs (acc.appendChild ct) (ads.set j (some child'))
      | none => ctNonMcv f mcv vs acc ads
    else ctNonMcv f mcv vs acc ads

/-- Subtracting every child subtree from the MCV subtree: ADTree.py 321-323. -/
def subtractAll : CT → List CT → Except Err CT
  | ct, [] => .ok ct
  | ct, x :: xs => do
    let ct ← ct.subtract x
    subtractAll ct xs

/-- `make_contingency_tree`: ADTree.py 296-328. -/
def makeCT (D : Data) (dyn : Bool) : List Nat → ADNode → TM (CT × ADNode)
  | [], n => pure (.mk n.col n.value (some n.count) [], n)
  | c :: cols, n =>
    if n.leaf then do
      let ct ← liftM (ctFromLeaf D (c :: cols) n)
      pure (ct, n)
    else do
      let (i, n) ← getVary D dyn n c
      match n.varys[i]? with
      | none => throw .attributeError
      | some vary => do
        let (nonMcv, ads') ← ctNonMcv (makeCT D dyn cols) vary.mcv vary.values
          (.mk n.col n.value none []) vary.ads
        let n := n.setVarys (n.varys.set i (vary.setAds ads'))
        let (mcvCt, n) ← makeCT D dyn cols n
        let mcvCt := mcvCt.relabel c vary.mcv
        let mcvCt ← liftM (subtractAll mcvCt nonMcv.children)
        pure (nonMcv.appendChild mcvCt, n)

/-- `make_contingency_table` on the root with sorted columns: ADTree.py 79-81, 287-293. -/
def contingencyTable (D : Data) (dyn : Bool) (cols : List Nat) (root : ADNode) :
    TM (List (List Int × Option Int) × ADNode) := do
  let (ct, root) ← makeCT D dyn (cols.mergeSort) root
  let (_, d) ← liftM (ct.toDict ([], []))
  pure (d, root)

/-- The division loop of `make_pmf`: ADTree.py 84-86 (`None / float` is a `TypeError`). -/
def divideAll (total : ℚ) : List (List Int × Option Int) → Except Err (List (List Int × ℚ))
  | [] => .ok []
  | (_, none) :: _ => .error .typeError
  | (k, some n) :: rest =>
    if total = 0 then .error .zeroDivision
    else do
      let rest' ← divideAll total rest
      .ok ((k, (n : ℚ) / total) :: rest')

/-- `ADTree.make_pmf(variables)`: ADTree.py 79-90; the `probabilities` dictionary (a
scalar key `v` is written `[v]`). -/
def makePmf (D : Data) (dyn : Bool) (cols : List Nat) (root : ADNode) :
    TM (List (List Int × ℚ) × ADNode) := do
  let (ct, root) ← contingencyTable D dyn cols root
  let probabilities ← liftM (divideAll (root.count : ℚ) ct)
  pure (probabilities, root)

/-! ## Pickling -/

mutual
/-- `__getstate__` followed by `__setstate__`: ADTree.py 276-284 for static nodes (the
row selection is kept only for leaf-list nodes), DynamicADTree.py 51-56 for dynamic ones
(kept always). -/
def pickleAD (dyn : Bool) : ADNode → ADNode
  | .mk c v n l r vs => .mk c v n l (if dyn || l then r else none) (pickleVarys dyn vs)
/-- ADTree.py 401-406. -/
def pickleVary (dyn : Bool) : VaryNode → VaryNode
  | .mk c vals m ads => .mk c vals m (pickleADs dyn ads)
/-- The children of an AD node when it is pickled: ADTree.py 276-284. -/
def pickleVarys (dyn : Bool) : List VaryNode → List VaryNode
  | [] => []
  | v :: vs => pickleVary dyn v :: pickleVarys dyn vs
/-- The children of a Vary node when it is pickled: ADTree.py 401-406. -/
def pickleADs (dyn : Bool) : List (Option ADNode) → List (Option ADNode)
  | [] => []
  | none :: rest => none :: pickleADs dyn rest
  | some n :: rest => some (pickleAD dyn n) :: pickleADs dyn rest
end

end Mbtk.ADTree
