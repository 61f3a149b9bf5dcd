import Verif.Py
import Verif.ADTree.Model
import Mathlib.Data.List.Forall2
import Mathlib.Data.List.Nodup
import Mathlib.Order.Lattice
/-!
# Arithmetic of contingency trees: `mbtk/structures/ContingencyTree.py` 69-128 (C86)

Nodes are objects that can be shared, so the model has a heap: a list of nodes, an object being an
address.  `sum`, `subtract` create nodes, `sum_in_place`, `subtract_in_place` change counts.
The recursion is bounded by the interpreter's limit (`limit`), beyond which `RecursionError` is raised.
-/
namespace Mbtk.Struct.CTree
open Mbtk

/-! ## Model -/

/-- `ContingencyTreeNode`: ContingencyTree.py 6-10; a dictionary of children is a list of pairs of a
value and an address. -/
structure CNode where
  column : Int
  value : Int
  count : Option Int
  children : Option (List (Int × Nat))
  deriving DecidableEq, Repr

/-- All objects. (Python itself.) -/
abbrev Heap := List CNode

/-- The object at an address. (Python itself.) -/
def node (h : Heap) (a : Nat) : CNode := h.getD a ⟨0, 0, none, none⟩

/-- `append_child(child)`: ContingencyTree.py 18-25. -/
def appendChild (p c : Nat) (h : Heap) : Heap :=
  h.set p { node h p with
    children := some (dictSet ((node h p).children.getD []) (node h c).value c) }

/-- The loop over `self.children`: ContingencyTree.py 74-81, 91-98. -/
def arithLoop (rec : Nat → Nat → Heap → Except Err (Nat × Heap)) (b r : Nat) :
    List (Int × Nat) → Heap → Except Err (Nat × Heap)
  | [], h => .ok (r, h)
  | (v, c) :: rest, h =>
    match (node h b).children with
    | none => .error .typeError
    | some och =>
      match dictGet och v with
      | none => arithLoop rec b r rest (appendChild r c h)
      | some oc => do
        let (c', h) ← rec c oc h
        arithLoop rec b r rest (appendChild r c' h)

/-- `self.sum(other)` and `self.subtract(other)`: ContingencyTree.py 69-83, 86-100; `op` is `+` or `-`. -/
def arith (op : Int → Int → Int) : Nat → Nat → Nat → Heap → Except Err (Nat × Heap)
  | 0, _, _, _ => .error .recursion
  | limit + 1, a, b, h =>
    match (node h a).children with
    | none =>
      match (node h a).count, (node h b).count with
      | some x, some y =>
        .ok (h.length, h ++ [⟨(node h a).column, (node h a).value, some (op x y), none⟩])
      | _, _ => .error .typeError
    | some ch =>
      arithLoop (arith op limit) b h.length ch
        (h ++ [⟨(node h a).column, (node h a).value, none, none⟩])

/-- `self.sum(other)`: ContingencyTree.py 69-83. -/
def sum (limit a b : Nat) (h : Heap) : Except Err (Nat × Heap) := arith (· + ·) limit a b h

/-- `self.subtract(other)`: ContingencyTree.py 86-100. -/
def subtract (limit a b : Nat) (h : Heap) : Except Err (Nat × Heap) := arith (· - ·) limit a b h

/-- The loop over `self.children`: ContingencyTree.py 108-114, 122-128. -/
def inPlaceLoop (rec : Nat → Nat → Heap → Except Err Heap) (b : Nat) :
    List (Int × Nat) → Heap → Except Err Heap
  | [], h => .ok h
  | (v, c) :: rest, h =>
    match (node h b).children with
    | none => .error .typeError
    | some och =>
      match dictGet och v with
      | none => inPlaceLoop rec b rest h
      | some oc => do
        let h ← rec c oc h
        inPlaceLoop rec b rest h

/-- `self.sum_in_place(other)` and `self.subtract_in_place(other)`: ContingencyTree.py 103-114,
117-128. -/
def inPlace (op : Int → Int → Int) : Nat → Nat → Nat → Heap → Except Err Heap
  | 0, _, _, _ => .error .recursion
  | limit + 1, a, b, h =>
    match (node h a).children with
    | none =>
      match (node h a).count, (node h b).count with
      | some x, some y => .ok (h.set a { node h a with count := some (op x y) })
      | _, _ => .error .typeError
    | some ch => inPlaceLoop (inPlace op limit) b ch h

/-- `self.sum_in_place(other)`: ContingencyTree.py 103-114. -/
def sumInPlace (limit a b : Nat) (h : Heap) : Except Err Heap := inPlace (· + ·) limit a b h

/-- `self.subtract_in_place(other)`: ContingencyTree.py 117-128. -/
def subtractInPlace (limit a b : Nat) (h : Heap) : Except Err Heap := inPlace (· - ·) limit a b h

/-! ## Specification -/

/-- The object at `a` is a contingency tree with `d` levels below its root: every inner node has at
least one child, under the child's own value, and every leaf has a count. (Specification.) -/
def IsTree (h : Heap) : Nat → Nat → Prop
  | 0, a => a < h.length ∧ (node h a).children = none ∧ ∃ n, (node h a).count = some n
  | d + 1, a => a < h.length ∧ ∃ ch, (node h a).children = some ch ∧ ch ≠ [] ∧
      (ch.map Prod.fst).Nodup ∧ ∀ p ∈ ch, (node h p.2).value = p.1 ∧ IsTree h d p.2

/-- The count stored at the end of a path of values, if the path exists. (Specification.) -/
def countAt (h : Heap) : Nat → List Int → Option Int
  | a, [] => (node h a).count
  | a, v :: key =>
    match dictGet ((node h a).children.getD []) v with
    | none => none
    | some c => countAt h c key

/-- Column, value and the values of the children, in order, of the node at the end of a path.
(Specification.) -/
def labelAt (h : Heap) : Nat → List Int → Option (Int × Int × List Int)
  | a, [] => some ((node h a).column, (node h a).value, ((node h a).children.getD []).map Prod.fst)
  | a, v :: key =>
    match dictGet ((node h a).children.getD []) v with
    | none => none
    | some c => labelAt h c key

/-- The object `i` belongs to the tree with `d` levels below `a`. (Specification.) -/
def Reach (h : Heap) : Nat → Nat → Nat → Prop
  | 0, a, i => i = a
  | d + 1, a, i => i = a ∨ ∃ p ∈ (node h a).children.getD [], Reach h d p.2 i

/-- `op` where both have a count, and the first count where only the first has. (Specification.) -/
def combine (op : Int → Int → Int) : Option Int → Option Int → Option Int
  | some x, some y => some (op x y)
  | some x, none => some x
  | none, _ => none

/-- Every path of `a` is a path of `b`. (Specification.) -/
def Covers (h : Heap) (d a b : Nat) : Prop :=
  ∀ key : List Int, key.length = d → (countAt h a key).isSome → (countAt h b key).isSome

/-- No object occurs twice in the tree. (Specification.) -/
def Separate (h : Heap) : Nat → Nat → Prop
  | 0, _ => True
  | d + 1, a => (∀ p ∈ (node h a).children.getD [], ¬ Reach h d p.2 a ∧ Separate h d p.2) ∧
      ((node h a).children.getD []).Pairwise (fun p q => ∀ i, Reach h d p.2 i → ¬ Reach h d q.2 i)

/-! ## Trees and frames -/

theorem IsTree.lt {h : Heap} {d a : Nat} (t : IsTree h d a) : a < h.length := by
  cases d with
  | zero => exact t.1
  | succ d => exact t.1

theorem Reach.self (h : Heap) (d a : Nat) : Reach h d a a := by
  cases d with
  | zero => rfl
  | succ d => exact .inl rfl

theorem IsTree.reach_lt {h : Heap} {d a i : Nat} (t : IsTree h d a) (hi : Reach h d a i) :
    i < h.length := by
  induction d generalizing a with
  | zero => rw [show i = a from hi]; exact t.lt
  | succ d ih =>
    rcases hi with rfl | ⟨p, hp, hr⟩
    · exact t.lt
    · obtain ⟨_, ch, hch, _, _, hall⟩ := t
      rw [hch] at hp
      exact ih (hall p hp).2 hr

/-- Nothing of a tree changes if its objects do not change. -/
theorem frame {h h' : Heap} {d a : Nat} (t : IsTree h d a)
    (hn : ∀ i, Reach h d a i → node h' i = node h i) (hl : ∀ i, Reach h d a i → i < h'.length) :
    IsTree h' d a ∧ (∀ i, Reach h' d a i ↔ Reach h d a i) ∧
    (∀ key : List Int, key.length = d → countAt h' a key = countAt h a key) ∧
    (∀ key : List Int, key.length ≤ d → labelAt h' a key = labelAt h a key) := by
  induction d generalizing a with
  | zero =>
    have e := hn a rfl
    refine ⟨⟨hl a rfl, by rw [e]; exact t.2.1, by rw [e]; exact t.2.2⟩, fun i => Iff.rfl, ?_, ?_⟩
    · intro key hk
      rw [List.length_eq_zero_iff.1 hk]
      simp only [countAt, e]
    · intro key hk
      rw [List.length_eq_zero_iff.1 (Nat.le_zero.1 hk)]
      simp only [labelAt, e]
  | succ d ih =>
    have e := hn a (.inl rfl)
    obtain ⟨_, ch, hch, hne, hnd, hall⟩ := t
    have hsub : ∀ p ∈ ch, ∀ i, Reach h d p.2 i → Reach h (d + 1) a i := fun p hp i hi =>
      .inr ⟨p, by rw [hch]; exact hp, hi⟩
    have IH : ∀ p ∈ ch, _ := fun p hp => ih (hall p hp).2 (fun i hi => hn i (hsub p hp i hi))
      (fun i hi => hl i (hsub p hp i hi))
    refine ⟨⟨hl a (.inl rfl), ch, by rw [e]; exact hch, hne, hnd, fun p hp => ⟨?_, (IH p hp).1⟩⟩, ?_, ?_, ?_⟩
    · rw [hn p.2 (hsub p hp _ (Reach.self h d p.2))]; exact (hall p hp).1
    · intro i
      show (i = a ∨ ∃ p ∈ (node h' a).children.getD [], Reach h' d p.2 i) ↔
        (i = a ∨ ∃ p ∈ (node h a).children.getD [], Reach h d p.2 i)
      rw [e, hch]
      refine or_congr Iff.rfl (exists_congr fun p => and_congr_right fun hp => (IH p hp).2.1 i)
    · intro key hk
      cases key with
      | nil => simp at hk
      | cons v key =>
        simp only [countAt, e, hch]
        cases hg : dictGet ((some ch).getD []) v with
        | none => rfl
        | some c => exact (IH _ (dictGet_mem hg)).2.2.1 key (by simpa using hk)
    · intro key hk
      cases key with
      | nil => simp only [labelAt, e]
      | cons v key =>
        simp only [labelAt, e, hch]
        cases hg : dictGet ((some ch).getD []) v with
        | none => rfl
        | some c => exact (IH _ (dictGet_mem hg)).2.2.2 key (by simpa using hk)

theorem separate_frame {h h' : Heap} {d a : Nat} (t : IsTree h d a)
    (hn : ∀ i, Reach h d a i → node h' i = node h i) (hl : ∀ i, Reach h d a i → i < h'.length)
    (s : Separate h d a) : Separate h' d a := by
  induction d generalizing a with
  | zero => trivial
  | succ d ih =>
    have e := hn a (.inl rfl)
    obtain ⟨_, ch, hch, hne, hnd, hall⟩ := t
    obtain ⟨s1, s2⟩ := s
    rw [hch, Option.getD_some] at s1 s2
    have hsub : ∀ p ∈ ch, ∀ i, Reach h d p.2 i → Reach h (d + 1) a i := fun p hp i hi =>
      .inr ⟨p, by rw [hch]; exact hp, hi⟩
    have hR : ∀ p ∈ ch, ∀ i, Reach h' d p.2 i ↔ Reach h d p.2 i := fun p hp =>
      (frame (hall p hp).2 (fun i hi => hn i (hsub p hp i hi)) (fun i hi => hl i (hsub p hp i hi))).2.1
    unfold Separate
    rw [e, hch, Option.getD_some]
    refine ⟨fun p hp => ⟨fun hr => (s1 p hp).1 ((hR p hp a).1 hr), ih (hall p hp).2
      (fun i hi => hn i (hsub p hp i hi)) (fun i hi => hl i (hsub p hp i hi)) (s1 p hp).2⟩, ?_⟩
    refine s2.imp_of_mem (fun {p q} hp hq hpq i hi hr => hpq i ((hR p hp i).1 hi) ((hR q hq i).1 hr))

theorem exists_leaf {h : Heap} {d a : Nat} (t : IsTree h d a) :
    ∃ key : List Int, key.length = d ∧ (countAt h a key).isSome := by
  induction d generalizing a with
  | zero =>
    obtain ⟨_, _, n, hn⟩ := t
    exact ⟨[], rfl, by simp [countAt, hn]⟩
  | succ d ih =>
    obtain ⟨_, ch, hch, hne, hnd, hall⟩ := t
    obtain ⟨p, rest, rfl⟩ := List.exists_cons_of_ne_nil hne
    obtain ⟨key, hk, hs⟩ := ih (hall p (by simp)).2
    refine ⟨p.1 :: key, by simp [hk], ?_⟩
    obtain ⟨v, c⟩ := p
    simp only [countAt, hch, Option.getD_some]
    have : dictGet ((v, c) :: rest) v = some c := by simp [dictGet]
    rw [this]
    exact hs

theorem node_append_lt {h t : Heap} {i : Nat} (hi : i < h.length) : node (h ++ t) i = node h i := by
  simp [node, List.getD, List.getElem?_append_left hi]

theorem node_append_self (h : Heap) (n : CNode) : node (h ++ [n]) h.length = n := by
  simp [node, List.getD]

theorem node_set {h : Heap} {a : Nat} (ha : a < h.length) (n : CNode) (i : Nat) :
    node (h.set a n) i = if i = a then n else node h i := by
  by_cases hi : i = a
  · subst hi; simp [node, List.getD, ha]
  · simp [node, List.getD, hi, Ne.symm hi]

theorem dictSet_fresh {κ ν : Type} [DecidableEq κ] (d : List (κ × ν)) (k : κ) (v : ν)
    (h : k ∉ d.map Prod.fst) : dictSet d k v = d ++ [(k, v)] := by
  induction d with
  | nil => rfl
  | cons p d ih =>
    obtain ⟨k', v'⟩ := p
    simp only [List.map_cons, List.mem_cons, not_or] at h
    simp only [dictSet, if_neg (Ne.symm h.1), ih h.2, List.cons_append]

/-! ## `sum` and `subtract` -/

/-- What `sum` and `subtract` promise. (Specification.) -/
structure Result (op : Int → Int → Int) (h : Heap) (d a b r : Nat) (h' : Heap) : Prop where
  /-- the root of the result is a new object -/
  fresh : h.length ≤ r
  grow : h.length ≤ h'.length
  /-- no object that existed before is changed -/
  frame : ∀ i < h.length, node h' i = node h i
  tree : IsTree h' d r
  counts : ∀ key : List Int, key.length = d →
    countAt h' r key = combine op (countAt h a key) (countAt h b key)
  labels : ∀ key : List Int, key.length ≤ d → labelAt h' r key = labelAt h a key
  /-- the result is made of new objects and objects of the first operand -/
  objects : ∀ i, Reach h' d r i → h.length ≤ i ∨ Reach h d a i
  /-- only of new objects, if the second operand has every path of the first -/
  own : Covers h d a b → ∀ i, Reach h' d r i → h.length ≤ i
  /-- no object occurs twice in it, if none does in the first operand -/
  separate : Separate h d a → Separate h' d r

/-- A child of the result, during the loop: `h` is the heap before the node `r` was created, `g` the
heap now. (Models no code: a notion for statements and proofs.) -/
structure Child (op : Int → Int → Int) (h : Heap) (d : Nat) (och : List (Int × Nat)) (r : Nat) (g : Heap)
    (p q : Int × Nat) : Prop where
  key : q.1 = p.1
  value : (node g q.2).value = p.1
  tree : IsTree g d q.2
  counts : ∀ key : List Int, key.length = d → countAt g q.2 key =
    combine op (countAt h p.2 key) (match dictGet och p.1 with | none => none | some oc => countAt h oc key)
  labels : ∀ key : List Int, key.length ≤ d → labelAt g q.2 key = labelAt h p.2 key
  objects : ∀ i, Reach g d q.2 i → r < i ∨ Reach h d p.2 i
  own : (∀ oc, dictGet och p.1 = some oc → Covers h d p.2 oc) → (dictGet och p.1).isSome →
    ∀ i, Reach g d q.2 i → r < i
  separate : Separate h d p.2 → Separate g d q.2

/-- Two trees have no object in common. (Models no code: a notion for statements and proofs.) -/
def Disj (h : Heap) (d : Nat) (p q : Int × Nat) : Prop := ∀ i, Reach h d p.2 i → ¬ Reach h d q.2 i

theorem Child.keep {op : Int → Int → Int} {h : Heap} {d : Nat} {och : List (Int × Nat)} {r : Nat}
    {g g' : Heap} {p q : Int × Nat} (c : Child op h d och r g p q) (hr : ¬ Reach g d q.2 r)
    (hn : ∀ i < g.length, i ≠ r → node g' i = node g i) (hl : g.length ≤ g'.length) :
    Child op h d och r g' p q ∧ ¬ Reach g' d q.2 r := by
  obtain ⟨f1, f2, f3, f4⟩ := CTree.frame (h' := g') c.tree
    (fun i hi => hn i (c.tree.reach_lt hi) (fun e => hr (e ▸ hi)))
    (fun i hi => lt_of_lt_of_le (c.tree.reach_lt hi) hl)
  refine ⟨⟨c.key, ?_, f1, fun k hk => (f3 k hk).trans (c.counts k hk),
    fun k hk => (f4 k hk).trans (c.labels k hk), fun i hi => c.objects i ((f2 i).1 hi),
    fun a1 a2 i hi => c.own a1 a2 i ((f2 i).1 hi),
    fun hs => separate_frame c.tree (fun i hi => hn i (c.tree.reach_lt hi) (fun e => hr (e ▸ hi)))
      (fun i hi => lt_of_lt_of_le (c.tree.reach_lt hi) hl) (c.separate hs)⟩, fun hi => hr ((f2 r).1 hi)⟩
  rw [hn _ (c.tree.lt) (fun e => hr (by rw [← e]; exact Reach.self _ _ _))]
  exact c.value

theorem forall₂_keys {R : Int × Nat → Int × Nat → Prop} (hR : ∀ p q, R p q → q.1 = p.1)
    {l l' : List (Int × Nat)} (h : List.Forall₂ R l l') : l'.map Prod.fst = l.map Prod.fst := by
  induction h with
  | nil => rfl
  | cons hpq _ ih => simp [hR _ _ hpq, ih]

theorem forall₂_right {R : Int × Nat → Int × Nat → Prop} {l l' : List (Int × Nat)}
    (h : List.Forall₂ R l l') {q : Int × Nat} (hq : q ∈ l') : ∃ p ∈ l, R p q := by
  induction h with
  | nil => simp at hq
  | @cons p q' l l' hpq _ ih =>
    rcases List.mem_cons.1 hq with rfl | hq
    · exact ⟨p, by simp, hpq⟩
    · obtain ⟨p', hp', hr⟩ := ih hq
      exact ⟨p', by simp [hp'], hr⟩

theorem arithLoop_ok {op : Int → Int → Int} {d : Nat} {rec : Nat → Nat → Heap → Except Err (Nat × Heap)}
    (hrec : ∀ a b h, IsTree h d a → IsTree h d b →
      ∃ r h', rec a b h = .ok (r, h') ∧ Result op h d a b r h')
    {h : Heap} {b : Nat} {och : List (Int × Nat)} {n0 : CNode} (hb : b < h.length)
    (hoch : (node h b).children = some och) (hoc : ∀ p ∈ och, IsTree h d p.2)
    (todo : List (Int × Nat)) (htodo : ∀ p ∈ todo, (node h p.2).value = p.1 ∧ IsTree h d p.2)
    (done new : List (Int × Nat)) (hnd : ((done ++ todo).map Prod.fst).Nodup) (g : Heap)
    (hg : h.length < g.length) (hfr : ∀ i < h.length, node g i = node h i)
    (hr : node g h.length = { n0 with children := if new = [] then none else some new })
    (hdone : List.Forall₂ (fun p q => Child op h d och h.length g p q ∧ ¬ Reach g d q.2 h.length) done new)
    (hsep : (done ++ todo).Pairwise (Disj h d) → new.Pairwise (Disj g d)) :
    ∃ g' all, arithLoop rec b h.length todo g = .ok (h.length, g') ∧ h.length < g'.length ∧
      (∀ i < h.length, node g' i = node h i) ∧
      node g' h.length = { n0 with children := if all = [] then none else some all } ∧
      List.Forall₂ (fun p q => Child op h d och h.length g' p q ∧ ¬ Reach g' d q.2 h.length)
        (done ++ todo) all ∧ ((done ++ todo).Pairwise (Disj h d) → all.Pairwise (Disj g' d)) := by
  induction todo generalizing done new g with
  | nil =>
    refine ⟨g, new, rfl, hg, hfr, hr, by simpa using hdone, hsep⟩
  | cons p rest ih =>
    obtain ⟨v, c⟩ := p
    have hkeys : new.map Prod.fst = done.map Prod.fst := forall₂_keys (fun p q hpq => hpq.1.key) hdone
    have hvnew : v ∉ new.map Prod.fst := by
      rw [hkeys]
      intro hm
      rw [List.map_append, List.nodup_append] at hnd
      exact hnd.2.2 v hm v (by simp) rfl
    obtain ⟨hval, htree⟩ := htodo (v, c) (by simp)
    simp only at hval htree
    -- attaching a finished child
    have attach : ∀ (g1 : Heap) (c' : Nat), g.length ≤ g1.length →
        (∀ i < g.length, node g1 i = node g i) → Child op h d och h.length g1 (v, c) (v, c') →
        ¬ Reach g1 d c' h.length → (∀ i, Reach g1 d c' i → g.length ≤ i ∨ Reach h d c i) →
        ∃ g' all, arithLoop rec b h.length rest (appendChild h.length c' g1) = .ok (h.length, g') ∧
          h.length < g'.length ∧ (∀ i < h.length, node g' i = node h i) ∧
          node g' h.length = { n0 with children := if all = [] then none else some all } ∧
          List.Forall₂ (fun p q => Child op h d och h.length g' p q ∧ ¬ Reach g' d q.2 h.length)
            (done ++ (v, c) :: rest) all ∧
          ((done ++ (v, c) :: rest).Pairwise (Disj h d) → all.Pairwise (Disj g' d)) := by
      intro g1 c' hl1 hf1 hc1 hn1 hobj
      have hlr : h.length < g1.length := lt_of_lt_of_le hg hl1
      have hnr : node g1 h.length = { n0 with children := if new = [] then none else some new } := by
        rw [hf1 _ hg, hr]
      have hch : ((node g1 h.length).children.getD []) = new := by
        rw [hnr]
        by_cases h0 : new = []
        · simp [h0]
        · simp [h0]
      have hset : dictSet ((node g1 h.length).children.getD []) (node g1 c').value c' = new ++ [(v, c')] := by
        have e : (node g1 c').value = v := hc1.value
        rw [hch, e, dictSet_fresh _ _ _ hvnew]
      have hne : new ++ [(v, c')] ≠ [] := by simp
      set g2 := appendChild h.length c' g1 with hg2
      have hl2 : g2.length = g1.length := by rw [hg2]; simp [appendChild]
      have hn2 : ∀ i, node g2 i = if i = h.length then
          { n0 with children := some (new ++ [(v, c')]) } else node g1 i := by
        intro i
        rw [hg2]
        unfold appendChild
        rw [node_set hlr, hset, hnr]
      have hk2 : ∀ i < g1.length, i ≠ h.length → node g2 i = node g1 i := by
        intro i _ hi
        rw [hn2, if_neg hi]
      have hlast := hc1.keep hn1 hk2 hl2.ge
      have hk : ∀ i < g.length, i ≠ h.length → node g2 i = node g i := by
        intro i hi hne
        rw [hk2 i (lt_of_lt_of_le hi hl1) hne, hf1 i hi]
      have hdone2 : List.Forall₂ (fun p q => Child op h d och h.length g2 p q ∧ ¬ Reach g2 d q.2 h.length)
          (done ++ [(v, c)]) (new ++ [(v, c')]) :=
        List.rel_append (List.Forall₂.imp (fun p q hpq => hpq.1.keep hpq.2 hk (hl2 ▸ hl1)) hdone)
          (.cons hlast .nil)
      -- what the children built so far are made of, in the new heap
      have hR2 : ∀ q ∈ new, ∀ i, Reach g2 d q.2 i ↔ Reach g d q.2 i := by
        intro q hq
        obtain ⟨p, _, c0, hnr0⟩ := forall₂_right hdone hq
        exact (CTree.frame (h' := g2) c0.tree
          (fun i hi => hk i (c0.tree.reach_lt hi) (fun e => hnr0 (e ▸ hi)))
          (fun i hi => lt_of_lt_of_le (c0.tree.reach_lt hi) (hl2 ▸ hl1))).2.1
      have hRc : ∀ i, Reach g2 d c' i ↔ Reach g1 d c' i :=
        (CTree.frame (h' := g2) hc1.tree
          (fun i hi => hk2 i (hc1.tree.reach_lt hi) (fun e => hn1 (e ▸ hi)))
          (fun i hi => hl2 ▸ hc1.tree.reach_lt hi)).2.1
      have hsep2 : ((done ++ [(v, c)]) ++ rest).Pairwise (Disj h d) →
          (new ++ [(v, c')]).Pairwise (Disj g2 d) := by
        intro hpw
        have hpw' : (done ++ (v, c) :: rest).Pairwise (Disj h d) := by simpa using hpw
        refine List.pairwise_append.2 ⟨?_, by simp, ?_⟩
        · exact (hsep hpw').imp_of_mem (fun {p q} hp hq hpq i hi hr =>
            hpq i ((hR2 p hp i).1 hi) ((hR2 q hq i).1 hr))
        · intro q hq q' hq' i hi hr
          rw [List.mem_singleton] at hq'
          subst hq'
          rw [hR2 q hq] at hi
          rw [hRc] at hr
          obtain ⟨p, hp, c0, _⟩ := forall₂_right hdone hq
          have hig := c0.tree.reach_lt hi
          rcases hobj i hr with h1 | h1
          · omega
          · have hih := htree.reach_lt h1
            rcases c0.objects i hi with h2 | h2
            · omega
            · exact (List.pairwise_append.1 hpw').2.2 p hp (v, c) (by simp) i h2 h1
      have := ih (fun p hp => htodo p (by simp [hp])) (done ++ [(v, c)]) (new ++ [(v, c')])
        (by simpa using hnd) g2 (by rw [hl2]; exact hlr)
        (fun i hi => by rw [hk i (lt_trans hi hg) (Nat.ne_of_lt hi), hfr i hi])
        (by rw [hn2, if_pos rfl, if_neg hne]) hdone2 hsep2
      simpa using this
    have hbg : (node g b).children = some och := by rw [hfr b hb, hoch]
    -- the original child, seen in the current heap
    have horig := CTree.frame (h' := g) htree (fun i hi => hfr i (htree.reach_lt hi))
      (fun i hi => lt_trans (htree.reach_lt hi) hg)
    have hsepo : Separate h d c → Separate g d c := separate_frame (h' := g) htree
      (fun i hi => hfr i (htree.reach_lt hi)) (fun i hi => lt_trans (htree.reach_lt hi) hg)
    unfold arithLoop
    rw [hbg]
    simp only
    cases hgo : dictGet och v with
    | none =>
      simp only
      refine attach g c le_rfl (fun _ _ => rfl) ⟨rfl, ?_, horig.1, ?_, horig.2.2.2, ?_, ?_, ?_⟩ ?_
        (fun i hi => .inr ((horig.2.1 i).1 hi))
      · rw [hfr _ htree.lt]; exact hval
      · intro key hk
        simp only [hgo]
        rw [horig.2.2.1 key hk]
        cases countAt h c key <;> rfl
      · intro i hi; exact .inr ((horig.2.1 i).1 hi)
      · intro _ hs; simp [hgo] at hs
      · exact hsepo
      · intro hi
        have := htree.reach_lt ((horig.2.1 _).1 hi)
        exact absurd this (lt_irrefl _)
    | some oc =>
      have hto := hoc (v, oc) (dictGet_mem hgo)
      have hoframe := CTree.frame (h' := g) hto (fun i hi => hfr i (hto.reach_lt hi))
        (fun i hi => lt_trans (hto.reach_lt hi) hg)
      obtain ⟨c', g1, e1, R⟩ := hrec c oc g horig.1 hoframe.1
      simp only
      rw [e1]
      refine attach g1 c' R.grow R.frame ⟨rfl, ?_, R.tree, ?_, ?_, ?_, ?_, fun hs => R.separate (hsepo hs)⟩ ?_
        (fun i hi => (R.objects i hi).imp id (fun h1 => (horig.2.1 i).1 h1))
      · have hl := R.labels [] (Nat.zero_le _)
        simp only [labelAt, Option.some.injEq, Prod.mk.injEq] at hl
        rw [hl.2.1, hfr _ htree.lt]
        exact hval
      · intro key hk
        simp only [hgo]
        rw [R.counts key hk, horig.2.2.1 key hk, hoframe.2.2.1 key hk]
      · intro key hk
        rw [R.labels key hk, horig.2.2.2 key hk]
      · intro i hi
        rcases R.objects i hi with h1 | h1
        · exact .inl (lt_of_lt_of_le hg h1)
        · exact .inr ((horig.2.1 i).1 h1)
      · intro hcov _ i hi
        refine lt_of_lt_of_le hg (R.own ?_ i hi)
        intro key hk hs
        rw [horig.2.2.1 key hk] at hs
        rw [hoframe.2.2.1 key hk]
        exact hcov oc hgo key hk hs
      · intro hi
        rcases R.objects _ hi with h1 | h1
        · exact absurd (lt_of_lt_of_le hg h1) (lt_irrefl _)
        · exact absurd (htree.reach_lt ((horig.2.1 _).1 h1)) (lt_irrefl _)

theorem forall₂_get {R : Int × Nat → Int × Nat → Prop} (hR : ∀ p q, R p q → q.1 = p.1)
    {l l' : List (Int × Nat)} (h : List.Forall₂ R l l') (v : Int) :
    (dictGet l v = none ∧ dictGet l' v = none) ∨
      ∃ c c', dictGet l v = some c ∧ dictGet l' v = some c' ∧ R (v, c) (v, c') := by
  induction h with
  | nil => left; exact ⟨rfl, rfl⟩
  | @cons p q l l' hpq _ ih =>
    obtain ⟨k, c⟩ := p
    obtain ⟨k', c'⟩ := q
    have e : k' = k := hR _ _ hpq
    subst e
    by_cases hk : k' = v
    · subst hk
      right; exact ⟨c, c', by simp [dictGet], by simp [dictGet], hpq⟩
    · simpa [dictGet, hk] using ih

theorem arith_ok (op : Int → Int → Int) {d limit : Nat} (hl : d < limit) {a b : Nat} {h : Heap}
    (ta : IsTree h d a) (tb : IsTree h d b) :
    ∃ r h', arith op limit a b h = .ok (r, h') ∧ Result op h d a b r h' := by
  induction d generalizing limit a b h with
  | zero =>
    obtain ⟨la, ca, x, hx⟩ := ta
    obtain ⟨lb, cb, y, hy⟩ := tb
    cases limit with
    | zero => omega
    | succ limit =>
      refine ⟨h.length, _, by unfold arith; rw [ca, hx, hy], ?_⟩
      have hs := node_append_self h ⟨(node h a).column, (node h a).value, some (op x y), none⟩
      refine ⟨le_rfl, by simp, fun i hi => node_append_lt hi, ⟨by simp, by rw [hs], _, by rw [hs]⟩, ?_, ?_,
        ?_, ?_, fun _ => trivial⟩
      · intro key hk
        rw [List.length_eq_zero_iff.1 hk]
        simp [countAt, hs, hx, hy, combine]
      · intro key hk
        rw [List.length_eq_zero_iff.1 (Nat.le_zero.1 hk)]
        simp [labelAt, hs, ca]
      · intro i hi
        exact .inl (by rw [show i = h.length from hi])
      · intro _ i hi
        rw [show i = h.length from hi]
  | succ d ih =>
    cases limit with
    | zero => omega
    | succ limit =>
      obtain ⟨la, ch, hch, hne, hnd, hall⟩ := ta
      obtain ⟨lb, och, hoch, _, _, hoall⟩ := tb
      set n0 : CNode := ⟨(node h a).column, (node h a).value, none, none⟩ with hn0
      obtain ⟨g, all, e, hg, hfr, hr, hrel, hpw⟩ := arithLoop_ok (op := op) (d := d) (rec := arith op limit)
        (fun a b h ta tb => ih (by omega) ta tb) lb hoch (fun p hp => (hoall p hp).2) ch hall [] []
        (by simpa using hnd) (h ++ [n0]) (n0 := n0) (by simp) (fun i hi => node_append_lt hi)
        (by rw [node_append_self]; rfl) .nil (fun _ => List.Pairwise.nil)
      rw [List.nil_append] at hrel hpw
      have hallne : all ≠ [] := by
        intro h0
        rw [h0] at hrel
        exact hne (List.forall₂_nil_right_iff.1 hrel)
      rw [if_neg hallne] at hr
      have hget := fun v => forall₂_get (fun p q (hpq : Child op h d och h.length g p q ∧ ¬ Reach g d q.2 h.length) =>
        hpq.1.key) hrel v
      have hkeys : all.map Prod.fst = ch.map Prod.fst :=
        forall₂_keys (fun p q hpq => hpq.1.key) hrel
      have hmem : ∀ q ∈ all, ∃ p ∈ ch, Child op h d och h.length g p q := by
        intro q hq
        obtain ⟨p, hp, hpq⟩ := forall₂_right hrel hq
        exact ⟨p, hp, hpq.1⟩
      refine ⟨h.length, g, by unfold arith; rw [hch]; exact e, ?_⟩
      refine ⟨le_rfl, hg.le, hfr, ⟨hg, all, by rw [hr], hallne, by rw [hkeys]; exact hnd, ?_⟩, ?_, ?_, ?_, ?_, ?_⟩
      · intro q hq
        obtain ⟨p, hp, c⟩ := hmem q hq
        exact ⟨by rw [c.value, c.key], c.tree⟩
      · intro key hk
        cases key with
        | nil => simp at hk
        | cons v key =>
          simp only [countAt, hr, hch, hoch, Option.getD_some]
          rcases hget v with ⟨e1, e2⟩ | ⟨c, c', e1, e2, hc, _⟩
          · rw [e1, e2]; rfl
          · rw [e1, e2]
            simp only
            rw [hc.counts key (by simpa using hk)]
      · intro key hk
        cases key with
        | nil => simp [labelAt, hr, hch, hkeys, hn0]
        | cons v key =>
          simp only [labelAt, hr, hch, Option.getD_some]
          rcases hget v with ⟨e1, e2⟩ | ⟨c, c', e1, e2, hc, _⟩
          · rw [e1, e2]
          · rw [e1, e2]
            simp only
            rw [hc.labels key (by simpa using hk)]
      · intro i hi
        rcases hi with rfl | ⟨q, hq, hi⟩
        · exact .inl le_rfl
        · rw [hr] at hq
          obtain ⟨p, hp, c⟩ := hmem q hq
          rcases c.objects i hi with h1 | h1
          · exact .inl h1.le
          · exact .inr (.inr ⟨p, by rw [hch]; exact hp, h1⟩)
      · intro hcov i hi
        rcases hi with rfl | ⟨q, hq, hi⟩
        · exact le_rfl
        · rw [hr] at hq
          obtain ⟨p, hp, c⟩ := hmem q hq
          have hgp : dictGet ch p.1 = some p.2 := dictGet_of_mem hnd hp
          have hcov' : ∀ key : List Int, key.length = d → (countAt h p.2 key).isSome →
              (countAt h b (p.1 :: key)).isSome := by
            intro key hk hs
            refine hcov (p.1 :: key) (by simp [hk]) ?_
            simp only [countAt, hch, Option.getD_some, hgp]
            exact hs
          refine (c.own ?_ ?_ i hi).le
          · intro oc hoc key hk hs
            have := hcov' key hk hs
            simpa only [countAt, hoch, Option.getD_some, hoc] using this
          · obtain ⟨key, hk, hs⟩ := exists_leaf (hall p hp).2
            have := hcov' key hk hs
            simp only [countAt, hoch, Option.getD_some] at this
            cases hx : dictGet och p.1 with
            | none => rw [hx] at this; simp at this
            | some _ => rfl
      · rintro ⟨s1, s2⟩
        rw [hch, Option.getD_some] at s1 s2
        unfold Separate
        rw [hr]
        refine ⟨fun q hq => ?_, hpw s2⟩
        obtain ⟨p, hp, c, hnr⟩ := forall₂_right hrel hq
        exact ⟨hnr, c.separate (s1 p hp).2⟩

/-! ## `sum_in_place` and `subtract_in_place` -/

/-- What `sum_in_place` and `subtract_in_place` promise. (Specification.) -/
structure Changed (op : Int → Int → Int) (h : Heap) (d a b : Nat) (h' : Heap) : Prop where
  length : h'.length = h.length
  /-- nothing but counts is changed anywhere -/
  shape : ∀ i, (node h' i).column = (node h i).column ∧ (node h' i).value = (node h i).value ∧
    (node h' i).children = (node h i).children
  /-- nor is a count removed -/
  counted : ∀ i, (node h i).count.isSome → (node h' i).count.isSome
  /-- only counts of leaves are changed -/
  inner : ∀ i, (node h i).children ≠ none → (node h' i).count = (node h i).count
  /-- and only the first operand is changed -/
  frame : ∀ i, ¬ Reach h d a i → node h' i = node h i
  counts : ∀ key : List Int, key.length = d →
    countAt h' a key = combine op (countAt h a key) (countAt h b key)

/-- The operands are the same object or have no object in common. (Specification.) -/
def Apart (h : Heap) (d a b : Nat) : Prop := a = b ∨ ∀ i, Reach h d a i → ¬ Reach h d b i

theorem reach_congr {h h' : Heap} {d a i : Nat} (hs : ∀ i, (node h' i).children = (node h i).children) :
    Reach h' d a i ↔ Reach h d a i := by
  induction d generalizing a with
  | zero => exact Iff.rfl
  | succ d ih =>
    show (i = a ∨ ∃ p ∈ (node h' a).children.getD [], Reach h' d p.2 i) ↔
        (i = a ∨ ∃ p ∈ (node h a).children.getD [], Reach h d p.2 i)
    rw [hs a]
    exact or_congr Iff.rfl (exists_congr fun p => and_congr_right fun _ => ih)

theorem separate_congr {h h' : Heap} {d a : Nat} (hs : ∀ i, (node h' i).children = (node h i).children) :
    Separate h' d a ↔ Separate h d a := by
  induction d generalizing a with
  | zero => exact Iff.rfl
  | succ d ih =>
    unfold Separate
    rw [hs a]
    simp only [reach_congr hs, ih]

theorem labelAt_congr {h h' : Heap} {a : Nat} (hs : ∀ i, (node h' i).column = (node h i).column ∧
    (node h' i).value = (node h i).value ∧ (node h' i).children = (node h i).children) (key : List Int) :
    labelAt h' a key = labelAt h a key := by
  induction key generalizing a with
  | nil => simp only [labelAt, (hs a).1, (hs a).2.1, (hs a).2.2]
  | cons v key ih =>
    simp only [labelAt, (hs a).2.2]
    cases dictGet ((node h a).children.getD []) v with
    | none => rfl
    | some c => exact ih

theorem isTree_congr {h h' : Heap} {d a : Nat} (hl : h'.length = h.length)
    (hs : ∀ i, (node h' i).column = (node h i).column ∧
      (node h' i).value = (node h i).value ∧ (node h' i).children = (node h i).children)
    (hc : ∀ i, (node h i).count.isSome → (node h' i).count.isSome) (t : IsTree h d a) : IsTree h' d a := by
  induction d generalizing a with
  | zero =>
    obtain ⟨t1, t2, n, hn⟩ := t
    exact ⟨hl ▸ t1, by rw [(hs a).2.2]; exact t2, Option.isSome_iff_exists.1 (hc a (by simp [hn]))⟩
  | succ d ih =>
    obtain ⟨t1, ch, hch, hne, hnd, hall⟩ := t
    exact ⟨hl ▸ t1, ch, by rw [(hs a).2.2]; exact hch, hne, hnd,
      fun p hp => ⟨by rw [(hs p.2).2.1]; exact (hall p hp).1, ih (hall p hp).2⟩⟩

theorem inPlaceLoop_ok {op : Int → Int → Int} {d : Nat} {rec : Nat → Nat → Heap → Except Err Heap}
    (hrec : ∀ a b h, IsTree h d a → IsTree h d b → Separate h d a → Apart h d a b →
      ∃ h', rec a b h = .ok h' ∧ Changed op h d a b h')
    {b : Nat} {och : List (Int × Nat)} (todo : List (Int × Nat)) (h : Heap)
    (hoch : (node h b).children = some och) (hoc : ∀ p ∈ och, IsTree h d p.2)
    (ht : ∀ p ∈ todo, IsTree h d p.2 ∧ Separate h d p.2)
    (hp : todo.Pairwise (fun p q => ∀ i, Reach h d p.2 i → ¬ Reach h d q.2 i))
    (hap : ∀ p ∈ todo, ∀ oc, dictGet och p.1 = some oc → oc = p.2 ∨
      ∀ q ∈ todo, ∀ i, Reach h d q.2 i → ¬ Reach h d oc i) :
    ∃ h', inPlaceLoop rec b todo h = .ok h' ∧ h'.length = h.length ∧
      (∀ i, (node h' i).column = (node h i).column ∧ (node h' i).value = (node h i).value ∧
        (node h' i).children = (node h i).children) ∧
      (∀ i, (node h i).count.isSome → (node h' i).count.isSome) ∧
      (∀ i, (node h i).children ≠ none → (node h' i).count = (node h i).count) ∧
      (∀ i, (∀ p ∈ todo, ¬ Reach h d p.2 i) → node h' i = node h i) ∧
      ∀ p ∈ todo, ∀ key : List Int, key.length = d → countAt h' p.2 key =
        combine op (countAt h p.2 key)
          (match dictGet och p.1 with | none => none | some oc => countAt h oc key) := by
  induction todo generalizing h with
  | nil => exact ⟨h, rfl, rfl, fun _ => ⟨rfl, rfl, rfl⟩, fun _ hi => hi, fun _ _ => rfl, fun _ _ => rfl, by simp⟩
  | cons p rest ih =>
    obtain ⟨v, c⟩ := p
    obtain ⟨hp1, hp2⟩ := List.pairwise_cons.1 hp
    obtain ⟨htc, hsc⟩ := ht (v, c) (by simp)
    simp only at htc hsc hp1
    unfold inPlaceLoop
    rw [hoch]
    simp only
    cases hgo : dictGet och v with
    | none =>
      obtain ⟨h', e, hl, hs, hcs, hin, hf, hc⟩ := ih h hoch hoc (fun p hp => ht p (by simp [hp])) hp2
        (fun p hp oc ho => (hap p (by simp [hp]) oc ho).imp id (fun hh q hq => hh q (by simp [hq])))
      refine ⟨h', e, hl, hs, hcs, hin, fun i hi => hf i (fun p hp => hi p (by simp [hp])), ?_⟩
      intro p hpm key hk
      rcases List.mem_cons.1 hpm with rfl | hpm
      · obtain ⟨_, _, f3, _⟩ := CTree.frame (h' := h') htc
          (fun i hi => hf i (fun q hq hr => hp1 q hq i hi hr)) (fun i hi => hl ▸ htc.reach_lt hi)
        simp only [hgo]
        rw [f3 key hk]
        cases countAt h c key <;> rfl
      · exact hc p hpm key hk
    | some oc =>
      have hto := hoc (v, oc) (dictGet_mem hgo)
      have hapc : Apart h d c oc := by
        rcases hap (v, c) (by simp) oc hgo with e | e
        · exact .inl e.symm
        · exact .inr (e (v, c) (by simp))
      obtain ⟨g, e1, C⟩ := hrec c oc h htc hto hsc hapc
      have hsh : ∀ i, (node g i).children = (node h i).children := fun i => (C.shape i).2.2
      have hkeep : ∀ x, IsTree h d x → (∀ i, Reach h d x i → ¬ Reach h d c i) →
          ∀ key : List Int, key.length = d → countAt g x key = countAt h x key := by
        intro x tx hx
        exact (CTree.frame (h' := g) tx (fun i hi => C.frame i (hx i hi))
          (fun i hi => C.length ▸ tx.reach_lt hi)).2.2.1
      have hstay : ∀ x, IsTree h d x → IsTree g d x := fun x tx =>
        isTree_congr C.length C.shape C.counted tx
      obtain ⟨h', e, hl, hs, hcs, hin, hf, hc⟩ := ih g (by rw [hsh]; exact hoch)
        (fun p hp => hstay _ (hoc p hp))
        (fun p hp => ⟨hstay _ (ht p (by simp [hp])).1, (separate_congr hsh).2 (ht p (by simp [hp])).2⟩)
        (hp2.imp (fun hpq i hi hr => hpq i ((reach_congr hsh).1 hi) ((reach_congr hsh).1 hr)))
        (fun p hp oc ho => (hap p (by simp [hp]) oc ho).imp id
          (fun hh q hq i hi hr => hh q (by simp [hq]) i ((reach_congr hsh).1 hi) ((reach_congr hsh).1 hr)))
      refine ⟨h', ?_, hl.trans C.length, ?_, fun i hi => hcs i (C.counted i hi),
        fun i hi => (hin i (by rw [hsh]; exact hi)).trans (C.inner i hi), ?_, ?_⟩
      · show (rec c oc h >>= _) = _
        rw [e1]; exact e
      · intro i
        exact ⟨(hs i).1.trans (C.shape i).1, (hs i).2.1.trans (C.shape i).2.1, (hs i).2.2.trans (hsh i)⟩
      · intro i hi
        rw [hf i (fun p hp hr => hi p (by simp [hp]) ((reach_congr hsh).1 hr))]
        exact C.frame i (hi (v, c) (by simp))
      · intro p hpm key hk
        rcases List.mem_cons.1 hpm with rfl | hpm
        · have f3 := (CTree.frame (h' := h') (hstay c htc)
            (fun i hi => hf i (fun q hq hr => hp1 q hq i ((reach_congr hsh).1 hi) ((reach_congr hsh).1 hr)))
            (fun i hi => hl ▸ (hstay c htc).reach_lt hi)).2.2.1
          simp only [hgo]
          rw [f3 key hk, C.counts key hk]
        · rw [hc p hpm key hk]
          have htp := (ht p (by simp [hpm])).1
          have hpc : ∀ i, Reach h d p.2 i → ¬ Reach h d c i := fun i hi hr => hp1 p hpm i hr hi
          rw [hkeep p.2 htp hpc key hk]
          cases hg2 : dictGet och p.1 with
          | none => rfl
          | some oc2 =>
            simp only
            rcases hap p (by simp [hpm]) oc2 hg2 with e2 | e2
            · rw [e2, hkeep p.2 htp hpc key hk]
            · rw [hkeep oc2 (hoc _ (dictGet_mem hg2)) (fun i hi hr => e2 (v, c) (by simp) i hr hi) key hk]

theorem inPlace_ok (op : Int → Int → Int) {d limit : Nat} (hl : d < limit) {a b : Nat} {h : Heap}
    (ta : IsTree h d a) (tb : IsTree h d b) (hs : Separate h d a) (hap : Apart h d a b) :
    ∃ h', inPlace op limit a b h = .ok h' ∧ Changed op h d a b h' := by
  induction d generalizing limit a b h with
  | zero =>
    obtain ⟨la, ca, x, hx⟩ := ta
    obtain ⟨lb, cb, y, hy⟩ := tb
    cases limit with
    | zero => omega
    | succ limit =>
      refine ⟨_, by unfold inPlace; rw [ca, hx, hy], ?_⟩
      have hn := node_set la { node h a with count := some (op x y) }
      refine ⟨by simp, ?_, ?_, ?_, ?_, ?_⟩
      · intro i
        rw [hn]
        by_cases hi : i = a
        · subst hi; simp
        · simp [hi]
      · intro i hi
        rw [hn]
        by_cases hia : i = a
        · simp [hia]
        · simpa [hia] using hi
      · intro i hi
        rw [hn, if_neg (fun e : i = a => hi (by rw [e]; exact ca))]
      · intro i hi
        rw [hn, if_neg (show ¬ i = a from hi)]
      · intro key hk
        rw [List.length_eq_zero_iff.1 hk]
        simp [countAt, hn, hx, hy, combine]
  | succ d ih =>
    cases limit with
    | zero => omega
    | succ limit =>
      have ta0 := ta
      obtain ⟨la, ch, hch, hne, hnd, hall⟩ := ta
      obtain ⟨lb, och, hoch, _, _, hoall⟩ := tb
      obtain ⟨hs1, hs2⟩ := hs
      rw [hch, Option.getD_some] at hs1 hs2
      obtain ⟨h', e, hlen, hsh, hcs, hin, hf, hc⟩ := inPlaceLoop_ok (op := op) (d := d) (rec := inPlace op limit)
        (fun a b h ta tb hs hap => ih (by omega) ta tb hs hap) ch h hoch (fun p hp => (hoall p hp).2)
        (fun p hp => ⟨(hall p hp).2, (hs1 p hp).2⟩) hs2 (by
          intro p hp oc ho
          rcases hap with rfl | hap
          · left
            rw [hch] at hoch
            obtain rfl := Option.some.inj hoch
            rw [dictGet_of_mem hnd hp] at ho
            exact (Option.some.inj ho).symm
          · right
            intro q hq i hi hr
            exact hap i (.inr ⟨q, by rw [hch]; exact hq, hi⟩)
              (.inr ⟨(p.1, oc), by rw [hoch]; exact dictGet_mem ho, hr⟩))
      refine ⟨h', by unfold inPlace; rw [hch]; exact e, hlen, hsh, hcs, hin, ?_, ?_⟩
      · intro i hi
        exact hf i (fun p hp hr => hi (.inr ⟨p, by rw [hch]; exact hp, hr⟩))
      · intro key hk
        cases key with
        | nil => simp at hk
        | cons v key =>
          simp only [countAt, (hsh a).2.2, hch, hoch, Option.getD_some]
          cases hg : dictGet ch v with
          | none => rfl
          | some c =>
            simp only
            rw [hc (v, c) (dictGet_mem hg) key (by simpa using hk)]

/-! ## The theorems -/

/-- `sum`: a new tree with the sums. -/
theorem sum_correct {d limit : Nat} (hl : d < limit) {a b : Nat} {h : Heap}
    (ta : IsTree h d a) (tb : IsTree h d b) :
    ∃ r h', sum limit a b h = .ok (r, h') ∧ Result (· + ·) h d a b r h' := arith_ok _ hl ta tb

/-- `subtract`: a new tree with the differences. -/
theorem subtract_correct {d limit : Nat} (hl : d < limit) {a b : Nat} {h : Heap}
    (ta : IsTree h d a) (tb : IsTree h d b) :
    ∃ r h', subtract limit a b h = .ok (r, h') ∧ Result (· - ·) h d a b r h' := arith_ok _ hl ta tb

/-- `sum_in_place`: counts of the first operand become the sums, nothing else changes. -/
theorem sum_in_place_correct {d limit : Nat} (hl : d < limit) {a b : Nat} {h : Heap}
    (ta : IsTree h d a) (tb : IsTree h d b) (hs : Separate h d a) (hap : Apart h d a b) :
    ∃ h', sumInPlace limit a b h = .ok h' ∧ Changed (· + ·) h d a b h' := inPlace_ok _ hl ta tb hs hap

/-- `subtract_in_place`: counts of the first operand become the differences, nothing else changes. -/
theorem subtract_in_place_correct {d limit : Nat} (hl : d < limit) {a b : Nat} {h : Heap}
    (ta : IsTree h d a) (tb : IsTree h d b) (hs : Separate h d a) (hap : Apart h d a b) :
    ∃ h', subtractInPlace limit a b h = .ok h' ∧ Changed (· - ·) h d a b h' := inPlace_ok _ hl ta tb hs hap

/-- A tree that existed before reads the same after `sum` or `subtract`. -/
theorem Result.unchanged {op : Int → Int → Int} {h h' : Heap} {d a b r : Nat}
    (R : Result op h d a b r h') {e x : Nat} (tx : IsTree h e x) :
    IsTree h' e x ∧ ∀ key : List Int, key.length = e → countAt h' x key = countAt h x key := by
  obtain ⟨f1, _, f3, _⟩ := CTree.frame (h' := h') tx (fun i hi => R.frame i (tx.reach_lt hi))
    (fun i hi => lt_of_lt_of_le (tx.reach_lt hi) R.grow)
  exact ⟨f1, f3⟩

/-- The operation in place and the operation that creates a tree give the same counts. -/
theorem in_place_agrees {op : Int → Int → Int} {h h1 h2 : Heap} {d a b r : Nat}
    (R : Result op h d a b r h1) (C : Changed op h d a b h2) (key : List Int) (hk : key.length = d) :
    countAt h1 r key = countAt h2 a key := by
  rw [R.counts key hk, C.counts key hk]

/-- `a.sum(b).subtract(b)` has the counts of `a`. -/
theorem sum_subtract {d limit : Nat} (hl : d < limit) {a b : Nat} {h : Heap}
    (ta : IsTree h d a) (tb : IsTree h d b) :
    ∃ r h1 s h2, sum limit a b h = .ok (r, h1) ∧ subtract limit r b h1 = .ok (s, h2) ∧
      ∀ key : List Int, key.length = d → countAt h2 s key = countAt h a key := by
  obtain ⟨r, h1, e1, R1⟩ := sum_correct hl ta tb
  have ub := R1.unchanged tb
  obtain ⟨s, h2, e2, R2⟩ := subtract_correct hl R1.tree ub.1
  refine ⟨r, h1, s, h2, e1, e2, fun key hk => ?_⟩
  rw [R2.counts key hk, R1.counts key hk, ub.2 key hk]
  cases countAt h a key with
  | none => cases countAt h b key <;> rfl
  | some x =>
    cases countAt h b key with
    | none => rfl
    | some y => simp [combine]

/-- `a.sum_in_place(b)`, then `a.subtract_in_place(b)`: the counts of `a` are back. -/
theorem sum_subtract_in_place {d limit : Nat} (hl : d < limit) {a b : Nat} {h : Heap}
    (ta : IsTree h d a) (tb : IsTree h d b) (hs : Separate h d a)
    (hap : ∀ i, Reach h d a i → ¬ Reach h d b i) :
    ∃ h1 h2, sumInPlace limit a b h = .ok h1 ∧ subtractInPlace limit a b h1 = .ok h2 ∧
      ∀ key : List Int, key.length = d → countAt h2 a key = countAt h a key := by
  obtain ⟨h1, e1, C1⟩ := sum_in_place_correct hl ta tb hs (.inr hap)
  have hsh : ∀ i, (node h1 i).children = (node h i).children := fun i => (C1.shape i).2.2
  have ub := (CTree.frame (h' := h1) tb (fun i hi => C1.frame i (fun hr => hap i hr hi))
    (fun i hi => C1.length ▸ tb.reach_lt hi))
  obtain ⟨h2, e2, C2⟩ := subtract_in_place_correct hl (isTree_congr C1.length C1.shape C1.counted ta) ub.1
    ((separate_congr hsh).2 hs)
    (.inr (fun i hi hr => hap i ((reach_congr hsh).1 hi) ((reach_congr hsh).1 hr)))
  refine ⟨h1, h2, e1, e2, fun key hk => ?_⟩
  rw [C2.counts key hk, C1.counts key hk, ub.2.2.1 key hk]
  cases countAt h a key with
  | none => cases countAt h b key <;> rfl
  | some x =>
    cases countAt h b key with
    | none => rfl
    | some y => simp [combine]

/-- `a.subtract_in_place(a)` leaves zero counts. -/
theorem subtract_self_in_place {d limit : Nat} (hl : d < limit) {a : Nat} {h : Heap}
    (ta : IsTree h d a) (hs : Separate h d a) :
    ∃ h', subtractInPlace limit a a h = .ok h' ∧ ∀ key : List Int, key.length = d →
      countAt h' a key = (countAt h a key).map (fun _ => 0) := by
  obtain ⟨h', e, C⟩ := subtract_in_place_correct hl ta ta hs (.inl rfl)
  refine ⟨h', e, fun key hk => ?_⟩
  rw [C.counts key hk]
  cases countAt h a key with
  | none => rfl
  | some x => simp [combine]

/-- If the second operand has every path of the first, the result of `sum` or `subtract` can be changed
in place without changing any object that existed before it. -/
theorem result_independent {op op' : Int → Int → Int} {d limit : Nat} (hl : d < limit) {a b c r : Nat}
    {h h1 : Heap} (R : Result op h d a b r h1) (hcov : Covers h d a b) (hs : Separate h d a)
    (tc : IsTree h d c) :
    ∃ h2, inPlace op' limit r c h1 = .ok h2 ∧ (∀ i < h.length, node h2 i = node h i) ∧
      ∀ key : List Int, key.length = d →
        countAt h2 r key = combine op' (combine op (countAt h a key) (countAt h b key)) (countAt h c key) := by
  have uc := CTree.frame (h' := h1) tc (fun i hi => R.frame i (tc.reach_lt hi))
    (fun i hi => lt_of_lt_of_le (tc.reach_lt hi) R.grow)
  obtain ⟨h2, e, C⟩ := inPlace_ok op' hl R.tree uc.1 (R.separate hs)
    (.inr (fun i hi hr => absurd (R.own hcov i hi) (not_le_of_gt (tc.reach_lt ((uc.2.1 i).1 hr)))))
  refine ⟨h2, e, fun i hi => ?_, fun key hk => ?_⟩
  · rw [C.frame i (fun hr => absurd (R.own hcov i hr) (not_le_of_gt hi)), R.frame i hi]
  · rw [C.counts key hk, R.counts key hk, uc.2.2.1 key hk]

/-! ## The AD-tree's use of `subtract_in_place` -/

open Mbtk.ADTree in
/-- The tree at an address as a value of the AD-tree model, down to a depth.
(Models no code: a notion for statements and proofs.) -/
def readTree (h : Heap) : Nat → Nat → CT
  | 0, a => .mk (node h a).column (node h a).value (node h a).count []
  | d + 1, a => .mk (node h a).column (node h a).value (node h a).count
      (((node h a).children.getD []).map (fun p => readTree h d p.2))

open Mbtk.ADTree in
theorem readTree_value (h : Heap) (d a : Nat) : (readTree h d a).value = (node h a).value := by
  cases d <;> rfl

open Mbtk.ADTree in
theorem findChild_read {h : Heap} {d : Nat} {och : List (Int × Nat)}
    (hv : ∀ p ∈ och, (node h p.2).value = p.1) (v : Int) :
    CT.findChild (och.map (fun p => readTree h d p.2)) v = (dictGet och v).map (readTree h d) := by
  induction och with
  | nil => rfl
  | cons p och ih =>
    obtain ⟨k, c⟩ := p
    have e : (readTree h d c).value = k := (readTree_value h d c).trans (hv (k, c) (by simp))
    have ih' := ih (fun p hp => hv p (by simp [hp]))
    unfold CT.findChild at ih' ⊢
    by_cases hk : k = v
    · simp [dictGet, hk, e]
    · simp only [List.map_cons, List.find?_cons, e, hk, decide_false, dictGet]
      exact ih'

theorem readTree_congr {h h' : Heap} {d a : Nat} (t : IsTree h d a)
    (hs : ∀ i, (node h' i).column = (node h i).column ∧
      (node h' i).value = (node h i).value ∧ (node h' i).children = (node h i).children)
    (hin : ∀ i, (node h i).children ≠ none → (node h' i).count = (node h i).count)
    (hc : ∀ key : List Int, key.length = d → countAt h' a key = countAt h a key) :
    readTree h' d a = readTree h d a := by
  induction d generalizing a with
  | zero =>
    have := hc [] rfl
    simp only [countAt] at this
    simp only [readTree, (hs a).1, (hs a).2.1, this]
  | succ d ih =>
    obtain ⟨_, ch, hch, hne, hnd, hall⟩ := t
    simp only [readTree, (hs a).1, (hs a).2.1, (hs a).2.2, hin a (by simp [hch]), hch, Option.getD_some]
    congr 1
    refine List.map_congr_left fun p hp => ih (hall p hp).2 fun key hk => ?_
    have := hc (p.1 :: key) (by simp [hk])
    simpa only [countAt, (hs a).2.2, hch, Option.getD_some, dictGet_of_mem hnd hp] using this

open Mbtk.ADTree in
theorem subtract_read {h h' : Heap} {d a b : Nat} (ta : IsTree h d a) (tb : IsTree h d b)
    (hs : ∀ i, (node h' i).column = (node h i).column ∧
      (node h' i).value = (node h i).value ∧ (node h' i).children = (node h i).children)
    (hin : ∀ i, (node h i).children ≠ none → (node h' i).count = (node h i).count)
    (hc : ∀ key : List Int, key.length = d →
      countAt h' a key = combine (· - ·) (countAt h a key) (countAt h b key)) :
    CT.subtract (readTree h d a) (readTree h d b) = .ok (readTree h' d a) := by
  induction d generalizing a b with
  | zero =>
    obtain ⟨_, _, x, hx⟩ := ta
    obtain ⟨_, _, y, hy⟩ := tb
    have := hc [] rfl
    simp only [countAt, hx, hy, combine] at this
    simp only [readTree, CT.subtract, CT.count, hx, hy, (hs a).1, (hs a).2.1, this]
  | succ d ih =>
    obtain ⟨_, ch, hch, hne, hnd, hall⟩ := ta
    obtain ⟨_, och, hoch, hone, hond, hoall⟩ := tb
    have hlist : ∀ l : List (Int × Nat), (∀ p ∈ l, p ∈ ch) →
        CT.subtractList (l.map (fun p => readTree h d p.2)) (och.map (fun p => readTree h d p.2)) =
          .ok (l.map (fun p => readTree h' d p.2)) := by
      intro l
      induction l with
      | nil => intro _; rfl
      | cons p l ihl =>
        intro hsub
        have hp := hsub p (by simp)
        obtain ⟨hv, htp⟩ := hall p hp
        have hrest := ihl (fun q hq => hsub q (by simp [hq]))
        have hcp : ∀ key : List Int, key.length = d → countAt h' p.2 key = combine (· - ·) (countAt h p.2 key)
            (match dictGet och p.1 with | none => none | some oc => countAt h oc key) := by
          intro key hk
          have := hc (p.1 :: key) (by simp [hk])
          simpa only [countAt, (hs a).2.2, hch, hoch, Option.getD_some, dictGet_of_mem hnd hp] using this
        simp only [List.map_cons, CT.subtractList]
        rw [readTree_value, hv, findChild_read (fun q hq => (hoall q hq).1)]
        cases hg : dictGet och p.1 with
        | none =>
          simp only [Option.map_none]
          rw [hrest]
          have e := readTree_congr (h' := h') htp hs hin (fun key hk => by
            rw [hcp key hk, hg]
            cases countAt h p.2 key <;> rfl)
          rw [e]
          rfl
        | some oc =>
          simp only [Option.map_some]
          rw [ih htp (hoall (p.1, oc) (dictGet_mem hg)).2 (fun key hk => by rw [hcp key hk, hg]), hrest]
          rfl
    obtain ⟨p, rest, rfl⟩ := List.exists_cons_of_ne_nil hne
    obtain ⟨q, orest, rfl⟩ := List.exists_cons_of_ne_nil hone
    have hl := hlist (p :: rest) (fun _ hx => hx)
    simp only [readTree, (hs a).1, (hs a).2.1, (hs a).2.2, hin a (by simp [hch]), hch, hoch, Option.getD_some]
    simp only [List.map_cons] at hl ⊢
    simp only [CT.subtract, CT.children, List.isEmpty_cons, Bool.false_eq_true, if_false]
    rw [hl]
    rfl

open Mbtk.ADTree in
/-- On objects without sharing, `subtract_in_place` is the subtraction of values used in the model of
`ADNode.make_contingency_tree` (C08, C09). -/
theorem in_place_refines_value {d limit : Nat} (hl : d < limit) {a b : Nat} {h : Heap}
    (ta : IsTree h d a) (tb : IsTree h d b) (hs : Separate h d a) (hap : Apart h d a b) :
    ∃ h', subtractInPlace limit a b h = .ok h' ∧
      CT.subtract (readTree h d a) (readTree h d b) = .ok (readTree h' d a) := by
  obtain ⟨h', e, C⟩ := subtract_in_place_correct hl ta tb hs hap
  exact ⟨h', e, subtract_read ta tb C.shape C.inner C.counts⟩

/-! ## Failures -/

/-- A tree as deep as the recursion limit, or deeper: `RecursionError`. -/
theorem too_deep (op : Int → Int → Int) {d limit : Nat} (hl : limit ≤ d) {a : Nat} {h : Heap}
    (ta : IsTree h d a) :
    inPlace op limit a a h = .error .recursion ∧
    ∀ h', (∀ i, Reach h d a i → node h' i = node h i) → (∀ i, Reach h d a i → i < h'.length) →
      arith op limit a a h' = .error .recursion := by
  induction limit generalizing d a with
  | zero => exact ⟨rfl, fun _ _ _ => rfl⟩
  | succ limit ih =>
    cases d with
    | zero => omega
    | succ d =>
      obtain ⟨_, ch, hch, hne, hnd, hall⟩ := ta
      obtain ⟨⟨v, c⟩, rest, rfl⟩ := List.exists_cons_of_ne_nil hne
      have hg : dictGet ((v, c) :: rest) v = some c := by simp [dictGet]
      obtain ⟨i1, i2⟩ := ih (d := d) (by omega) (hall (v, c) (by simp)).2
      constructor
      · unfold inPlace
        rw [hch]
        simp only []
        unfold inPlaceLoop
        rw [hch]
        simp only [hg]
        rw [i1]
        rfl
      · intro h' hn hlt
        have ea := hn a (Reach.self _ _ _)
        have hla := hlt a (Reach.self _ _ _)
        unfold arith
        rw [ea, hch]
        simp only []
        unfold arithLoop
        rw [node_append_lt hla, ea, hch]
        simp only [hg]
        have hsub : ∀ i, Reach h d c i → Reach h (d + 1) a i := fun i hi =>
          .inr ⟨(v, c), by rw [hch]; simp, hi⟩
        rw [i2 _ (fun i hi => by rw [node_append_lt (hlt i (hsub i hi)), hn i (hsub i hi)])
          (fun i hi => by have := hlt i (hsub i hi); simp; omega)]
        rfl

/-- A leaf with an inner node, or an inner node with a leaf: `TypeError`. -/
theorem depth_mismatch (op : Int → Int → Int) {d limit : Nat} {a b : Nat} {h : Heap}
    (ta : IsTree h 0 a) (tb : IsTree h (d + 1) b) (hb : (node h b).count = none) :
    inPlace op (limit + 1) a b h = .error .typeError ∧ inPlace op (limit + 1) b a h = .error .typeError ∧
    arith op (limit + 1) a b h = .error .typeError ∧ arith op (limit + 1) b a h = .error .typeError := by
  obtain ⟨la, ca, x, hx⟩ := ta
  obtain ⟨lb, och, hoch, hne, _, _⟩ := tb
  obtain ⟨⟨v, c⟩, rest, rfl⟩ := List.exists_cons_of_ne_nil hne
  refine ⟨?_, ?_, ?_, ?_⟩
  · unfold inPlace; rw [ca, hx, hb]
  · unfold inPlace; rw [hoch]; simp only []; unfold inPlaceLoop; rw [ca]
  · unfold arith; rw [ca, hx, hb]
  · unfold arith; rw [hoch]; simp only []; unfold arithLoop; rw [node_append_lt la, ca]

/-! ## Examples -/

/-- Three trees over one variable, `{0: 1, 1: 2}` at 2, `{0: 5}` at 4, `{1: 10}` at 6, and a tree over two
variables at 7 made of the first two. (Example.) -/
def sampleHeap : Heap :=
  [⟨1, 0, some 1, none⟩, ⟨1, 1, some 2, none⟩, ⟨0, 0, none, some [(0, 0), (1, 1)]⟩,
   ⟨1, 0, some 5, none⟩, ⟨0, 1, none, some [(0, 3)]⟩,
   ⟨1, 1, some 10, none⟩, ⟨0, 0, none, some [(1, 5)]⟩,
   ⟨-1, -1, none, some [(0, 2), (1, 4)]⟩]

theorem sample_trees : IsTree sampleHeap 1 2 ∧ IsTree sampleHeap 1 4 ∧ IsTree sampleHeap 1 6 ∧
    IsTree sampleHeap 2 7 ∧ Separate sampleHeap 1 2 ∧ Separate sampleHeap 2 7 ∧ Apart sampleHeap 1 2 4 := by
  have h2 : IsTree sampleHeap 1 2 := by
    refine ⟨by decide, [(0, 0), (1, 1)], rfl, by simp, by simp, ?_⟩
    intro p hp
    rcases List.mem_cons.1 hp with rfl | hp
    · exact ⟨rfl, by decide, rfl, 1, rfl⟩
    · rw [List.mem_singleton.1 hp]; exact ⟨rfl, by decide, rfl, 2, rfl⟩
  have h4 : IsTree sampleHeap 1 4 := by simp [IsTree, sampleHeap, node]
  refine ⟨h2, h4, by simp [IsTree, sampleHeap, node], ?_, by simp [Separate, Reach, sampleHeap, node], ?_, ?_⟩
  · refine ⟨by decide, [(0, 2), (1, 4)], rfl, by simp, by simp, ?_⟩
    intro p hp
    rcases List.mem_cons.1 hp with rfl | hp
    · exact ⟨rfl, h2⟩
    · rw [List.mem_singleton.1 hp]; exact ⟨rfl, h4⟩
  · simp [Separate, Reach, sampleHeap, node]
    constructor
    · rintro a b (⟨rfl, rfl⟩ | ⟨rfl, rfl⟩) <;> simp
    · rintro a x (⟨rfl, rfl⟩ | ⟨rfl, rfl⟩) <;> simp
  · right
    simp [Reach, sampleHeap, node]

/-- Sums in place of the tree with itself, and of two trees one of which has a path more. -/
example : (∃ h', subtractInPlace 10 7 7 sampleHeap = .ok h' ∧ ∀ key : List Int, key.length = 2 →
      countAt h' 7 key = (countAt sampleHeap 7 key).map (fun _ => 0)) ∧
    ∃ r h', sum 10 2 4 sampleHeap = .ok (r, h') ∧ countAt h' r [0] = some 6 ∧ countAt h' r [1] = some 2 := by
  obtain ⟨t2, t4, _, t7, _, s7, _⟩ := sample_trees
  refine ⟨subtract_self_in_place (by omega) t7 s7, ?_⟩
  obtain ⟨r, h', e, R⟩ := sum_correct (limit := 10) (by omega) t2 t4
  refine ⟨r, h', e, ?_, ?_⟩
  · rw [R.counts [0] rfl]; rfl
  · rw [R.counts [1] rfl]; rfl

/-- The value-level subtraction, on the example. -/
example : ∃ h', subtractInPlace 10 2 4 sampleHeap = .ok h' ∧
    Mbtk.ADTree.CT.subtract (readTree sampleHeap 1 2) (readTree sampleHeap 1 4) = .ok (readTree h' 1 2) := by
  obtain ⟨t2, t4, _, _, s2, _, hap⟩ := sample_trees
  exact in_place_refines_value (by omega) t2 t4 s2 hap

/-- A result that can be changed freely: every path of the first operand is one of the second. -/
example : ∃ r h1 h2, sum 10 4 2 sampleHeap = .ok (r, h1) ∧ sumInPlace 10 r 4 h1 = .ok h2 ∧
    countAt h2 r [0] = some 11 ∧ ∀ i < 8, node h2 i = node sampleHeap i := by
  obtain ⟨t2, t4, _, _, _, _, _⟩ := sample_trees
  obtain ⟨r, h1, e, R⟩ := sum_correct (limit := 10) (by omega) t4 t2
  have hcov : Covers sampleHeap 1 4 2 := by
    intro key hk hs
    match key, hk with
    | [v], _ =>
      by_cases hv : v = 0
      · subst hv; rfl
      · simp [countAt, sampleHeap, node, dictGet, Ne.symm hv] at hs
  obtain ⟨h2, e2, hf, hc⟩ := result_independent (op' := (· + ·)) (limit := 10) (by omega) R hcov
    (by simp [Separate, Reach, sampleHeap, node]) t4
  refine ⟨r, h1, h2, e, e2, ?_, hf⟩
  rw [hc [0] rfl]; rfl

/-- The result of `sum` shares the subtrees its second operand lacks: `r = a.sum(b)`, then
`r.sum_in_place(c)`, changes the count of `a` at `[1]` from 2 to 12. -/
theorem sum_shares_subtrees : ∃ r h1 h2, sum 10 2 4 sampleHeap = .ok (r, h1) ∧
    sumInPlace 10 r 6 h1 = .ok h2 ∧ countAt h1 2 [1] = some 2 ∧ countAt h2 2 [1] = some 12 := by
  refine ⟨8, _, _, rfl, rfl, rfl, rfl⟩

/-- Paths only the second operand has are dropped: `sum` is not commutative. -/
theorem sum_drops_paths : ∃ r h1 s h2, sum 10 4 2 sampleHeap = .ok (r, h1) ∧
    sum 10 2 4 sampleHeap = .ok (s, h2) ∧ countAt h1 r [1] = none ∧ countAt h2 s [1] = some 2 :=
  ⟨8, _, 8, _, rfl, rfl, rfl, rfl⟩

example : inPlace (· + ·) 2 7 7 sampleHeap = .error .recursion :=
  (too_deep _ (Nat.le_refl 2) sample_trees.2.2.2.1).1

example : inPlace (· + ·) 10 0 7 sampleHeap = .error .typeError :=
  (depth_mismatch (limit := 9) _ (by simp [IsTree, sampleHeap, node]) sample_trees.2.2.2.1 rfl).1

end Mbtk.Struct.CTree
