import Verif.Py
import Mathlib.Data.List.Basic
/-!
# Keys of PMFs

Models `flatten` (mbtk/utilities/functions.py 38-51) and `process_pmf_key`
(mbtk/math/PMF.py 324-333).  Values are integers: the code only compares them for equality.
-/
namespace Mbtk.Stats

/-- A Python value used in keys: an atom, or a tuple/list of values (`flatten` treats the two
alike). PMF.py 324-333, functions.py 38-51. -/
inductive PyVal where
  | atom (v : Int)
  | seq (items : List PyVal)
  deriving Repr

mutual
/-- Specification: the atoms inside a value, left to right. -/
def PyVal.leaves : PyVal → List Int
  | .atom v => [v]
  | .seq l => leavesAll l
/-- Specification: the atoms inside a list of values, left to right. -/
def leavesAll : List PyVal → List Int
  | [] => []
  | v :: vs => v.leaves ++ leavesAll vs
end

mutual
/-- Number of constructors; only used to see that `flatten` terminates.
(Models no code: a notion for statements and proofs.) -/
def PyVal.weight : PyVal → Nat
  | .atom _ => 1
  | .seq l => 1 + weightAll l
/-- (Models no code: a notion for statements and proofs.) -/
def weightAll : List PyVal → Nat
  | [] => 0
  | v :: vs => v.weight + weightAll vs
end

theorem weightAll_append (a b : List PyVal) : weightAll (a ++ b) = weightAll a + weightAll b := by
  induction a with
  | nil => simp [weightAll]
  | cons x a ih => simp [weightAll, ih, Nat.add_assoc]

theorem leavesAll_append (a b : List PyVal) : leavesAll (a ++ b) = leavesAll a ++ leavesAll b := by
  induction a with
  | nil => simp [leavesAll]
  | cons x a ih => simp [leavesAll, ih]

theorem weight_drop (lst : List PyVal) (i : Nat) (v : PyVal) (h : lst[i]? = some v) :
    weightAll (lst.drop i) = v.weight + weightAll (lst.drop (i + 1)) := by
  obtain ⟨hi, rfl⟩ := List.getElem?_eq_some_iff.1 h
  rw [List.drop_eq_getElem_cons hi, weightAll]

/-- The loops of `flatten`: functions.py 42-50.  The state is the list being rewritten in
place and the index `i`; an empty sequence is popped (`i -= 1; break; i += 1` leaves `i`
where it was), a non-empty one is spliced in place and the inner `while` looks at position
`i` again. -/
def flattenLoop (lst : List PyVal) (i : Nat) : List PyVal :=
  match h : lst[i]? with
  | none => lst
  | some (.atom _) => flattenLoop lst (i + 1)
  | some (.seq []) => flattenLoop (lst.take i ++ lst.drop (i + 1)) i
  | some (.seq (x :: xs)) => flattenLoop (lst.take i ++ (x :: xs) ++ lst.drop (i + 1)) i
termination_by weightAll (lst.drop i)
decreasing_by
  · have := weight_drop _ _ _ h
    simp only [PyVal.weight] at this; omega
  · have h1 := weight_drop _ _ _ h
    have hi : i < lst.length := (List.getElem?_eq_some_iff.1 h).1
    rw [List.drop_append_of_le_length (by simp; omega),
      List.drop_eq_nil_of_le (by simp; omega)]
    simp only [PyVal.weight, weightAll, List.nil_append] at h1 ⊢; omega
  · have h1 := weight_drop _ _ _ h
    have hi : i < lst.length := (List.getElem?_eq_some_iff.1 h).1
    rw [List.append_assoc, List.drop_append_of_le_length (by simp; omega),
      List.drop_eq_nil_of_le (by simp; omega)]
    simp only [PyVal.weight, List.nil_append, weightAll_append] at h1 ⊢; omega

/-- `flatten(lst)`: functions.py 38-51. -/
def flatten (lst : List PyVal) : List PyVal := flattenLoop lst 0

/-- `flatten` returns the atoms, in order, whatever the nesting. -/
theorem flattenLoop_eq (lst : List PyVal) (i : Nat)
    (hdone : ∀ v ∈ lst.take i, ∃ n, v = .atom n) :
    flattenLoop lst i = (leavesAll lst).map .atom := by
  have atoms : ∀ l : List PyVal, (∀ v ∈ l, ∃ n, v = .atom n) → l = (leavesAll l).map .atom := by
    intro l hl
    induction l with
    | nil => rfl
    | cons v l ih =>
      obtain ⟨n, rfl⟩ := hl v (by simp)
      simp only [leavesAll, PyVal.leaves, List.cons_append, List.nil_append, List.map_cons]
      rw [← ih (fun v hv => hl v (List.mem_cons_of_mem _ hv))]
  have htake : ∀ (i : Nat) (rest : List PyVal), i ≤ lst.length →
      (lst.take i ++ rest).take i = lst.take i := by
    intro i rest hi
    rw [List.take_append_of_le_length (by simp; omega), List.take_take, Nat.min_self]
  have hsplit : ∀ (i : Nat) (v : PyVal), lst[i]? = some v →
      leavesAll lst = leavesAll (lst.take i) ++ (v.leaves ++ leavesAll (lst.drop (i + 1))) := by
    intro i v h
    obtain ⟨hi, rfl⟩ := List.getElem?_eq_some_iff.1 h
    conv_lhs => rw [← List.take_append_drop i lst, List.drop_eq_getElem_cons hi]
    rw [leavesAll_append, leavesAll]
  rw [flattenLoop]
  split
  · next h =>
    have : lst.take i = lst := List.take_of_length_le (List.getElem?_eq_none_iff.1 h)
    rw [this] at hdone
    exact atoms _ hdone
  · next n h =>
    apply flattenLoop_eq
    intro v hv
    obtain ⟨hi, e⟩ := List.getElem?_eq_some_iff.1 h
    rw [List.take_succ_eq_append_getElem hi, List.mem_append] at hv
    rcases hv with hv | hv
    · exact hdone v hv
    · exact ⟨n, by simpa [e] using hv⟩
  · next h =>
    have hi := (List.getElem?_eq_some_iff.1 h).1
    rw [flattenLoop_eq]
    · rw [hsplit i _ h, leavesAll_append]; simp [PyVal.leaves, leavesAll]
    · rw [htake _ _ (by omega)]; exact hdone
  · next x xs h =>
    have hi := (List.getElem?_eq_some_iff.1 h).1
    rw [flattenLoop_eq]
    · rw [hsplit i _ h, leavesAll_append, leavesAll_append]; simp [PyVal.leaves]
    · rw [List.append_assoc, htake _ _ (by omega)]; exact hdone
termination_by weightAll (lst.drop i)
decreasing_by
  · next h _ =>
    have := weight_drop _ _ _ h
    simp only [PyVal.weight] at this; omega
  · next h _ =>
    have h1 := weight_drop _ _ _ h
    have hi : i < lst.length := (List.getElem?_eq_some_iff.1 h).1
    rw [List.drop_append_of_le_length (by simp; omega),
      List.drop_eq_nil_of_le (by simp; omega)]
    simp only [PyVal.weight, weightAll, List.nil_append] at h1 ⊢; omega
  · next h _ =>
    have h1 := weight_drop _ _ _ h
    have hi : i < lst.length := (List.getElem?_eq_some_iff.1 h).1
    rw [List.append_assoc, List.drop_append_of_le_length (by simp; omega),
      List.drop_eq_nil_of_le (by simp; omega)]
    simp only [PyVal.weight, List.nil_append, weightAll_append] at h1 ⊢; omega

/-- A dictionary key of a PMF: a scalar value, or a tuple of values.  (A one-element tuple
and its element are different dictionary keys.) PMF.py 324-333. -/
inductive Key where
  | one (v : Int)
  | tup (vs : List Int)
  deriving DecidableEq, Repr

/-- The key as a Python value. PMF.py 324-333. -/
def Key.toVal : Key → PyVal
  | .one v => .atom v
  | .tup vs => .seq (vs.map .atom)

/-- The values a key is made of. (Specification.) -/
def Key.comps : Key → List Int
  | .one v => [v]
  | .tup vs => vs

/-- The atom inside a value that has been flattened. PMF.py 324-333. -/
def PyVal.atomVal : PyVal → Int
  | .atom v => v
  | .seq _ => 0

/-- `process_pmf_key(key)`: PMF.py 324-333; the argument is the tuple of arguments given to
`p()` or `given()`. -/
def processPmfKey (args : List PyVal) : Key :=
  match (flatten args).map PyVal.atomVal with
  | [v] => .one v
  | vs => .tup vs

/-- The canonical key of a list of values: the value itself if there is exactly one.
PMF.py 324-333. -/
def mkKey : List Int → Key
  | [v] => .one v
  | vs => .tup vs

theorem processPmfKey_eq (args : List PyVal) : processPmfKey args = mkKey (leavesAll args) := by
  unfold processPmfKey flatten
  rw [flattenLoop_eq _ _ (by simp), List.map_map]
  have : (PyVal.atomVal ∘ PyVal.atom) = id := by funext x; rfl
  rw [this, List.map_id]
  rfl

theorem leavesAll_atoms (vs : List Int) : leavesAll (vs.map .atom) = vs := by
  induction vs with
  | nil => rfl
  | cons v vs ih => simp [leavesAll, PyVal.leaves, ih]

theorem Key.leaves_toVal (k : Key) : k.toVal.leaves = k.comps := by
  cases k with
  | one v => rfl
  | tup vs => simp [toVal, comps, PyVal.leaves, leavesAll_atoms]

theorem mkKey_comps (l : List Int) : (mkKey l).comps = l := by
  match l with
  | [] => rfl
  | [_] => rfl
  | _ :: _ :: _ => rfl

theorem mkKey_inj {l l' : List Int} (h : mkKey l = mkKey l') : l = l' := by
  rw [← mkKey_comps l, h, mkKey_comps]

theorem mkKey_of_ne {l : List Int} (h : l.length ≠ 1) : mkKey l = .tup l := by
  match l with
  | [] => rfl
  | [_] => simp at h
  | _ :: _ :: _ => rfl

/-- C59: `flatten` returns exactly the atoms, from left to right, whatever the nesting
(termination is part of the definition of the model being accepted). -/
theorem flatten_exact (lst : List PyVal) : flatten lst = (leavesAll lst).map .atom :=
  flattenLoop_eq lst 0 (by simp)

/-- C59: flattening what is already flattened changes nothing. -/
theorem flatten_idempotent (lst : List PyVal) : flatten (flatten lst) = flatten lst := by
  rw [flatten_exact (flatten lst), flatten_exact lst, leavesAll_atoms]

/-- C59: two arguments address the same PMF entry exactly if they contain the same atoms in
the same order. -/
theorem same_key_iff_same_atoms (a b : List PyVal) :
    processPmfKey a = processPmfKey b ↔ leavesAll a = leavesAll b := by
  rw [processPmfKey_eq, processPmfKey_eq]
  exact ⟨mkKey_inj, fun h => by rw [h]⟩

/-- C59: the key is the atom itself when there is exactly one, and the tuple of the atoms
otherwise. -/
theorem key_of_atoms (args : List PyVal) :
    (∀ v, leavesAll args = [v] → processPmfKey args = .one v) ∧
      ((leavesAll args).length ≠ 1 → processPmfKey args = .tup (leavesAll args)) := by
  rw [processPmfKey_eq]
  exact ⟨fun v h => by rw [h]; rfl, mkKey_of_ne⟩

/-- `p((1, ()), [2, (3,)])` and `p(1, 2, 3)` ask for the same entry. -/
example : processPmfKey [.seq [.atom 1, .seq []], .seq [.atom 2, .seq [.atom 3]]]
    = processPmfKey [.atom 1, .atom 2, .atom 3] :=
  (same_key_iff_same_atoms _ _).2 (by simp [leavesAll, PyVal.leaves])

/-- The order of the atoms matters. -/
example : processPmfKey [.atom 1, .atom 2] ≠ processPmfKey [.atom 2, .atom 1] := fun h => by
  have := (same_key_iff_same_atoms _ _).1 h
  simp [leavesAll, PyVal.leaves] at this

end Mbtk.Stats
