import Verif.Graph.Spec
import Mathlib.Tactic.Tauto
/-!
# d-separation implies separation in the moral graph of the ancestral set

Pure graph theory over the vocabulary of `Graph/Spec.lean`; used for the global Markov
property (C66).
-/
namespace Mbtk.Graph
open Relation

variable {E : Nat → Nat → Prop} {Z : Set Nat}

/-! ## From walks to paths -/

theorem Acyclic.asymm (h : Acyclic E) {a b : Nat} (hab : E a b) : ¬ E b a :=
  fun hba => h a (.tail (.single hab) hba)

theorem OpenPath.infix {O : Nat → Prop} {p q : List Nat} (h : OpenPath E O Z p) (hq : q <:+: p) :
    OpenPath E O Z q := fun a b c habc => h a b c (habc.trans hq)

theorem openPath_cons {O : Nat → Prop} {w v : Nat} {rest : List Nat}
    (h : OpenPath E O Z (v :: rest))
    (hv : ∀ u, rest.head? = some u → (E w v ∧ E u v → O v) ∧ (¬ (E w v ∧ E u v) → v ∉ Z)) :
    OpenPath E O Z (w :: v :: rest) := by
  intro a b c habc
  rcases List.infix_cons_iff.1 habc with hp | hi
  · obtain ⟨t, ht⟩ := hp
    simp only [List.cons_append, List.nil_append, List.cons.injEq] at ht
    obtain ⟨rfl, rfl, rfl⟩ := ht
    exact hv c rfl
  · exact h a b c hi

/-- An open walk that starts along an edge either only follows edges, or reaches a collider
below its start. -/
theorem open_walk_down (u v : Nat) (rest : List Nat) (huv : E u v)
    (hch : (u :: v :: rest).IsChain (Linked E)) (ho : OpenPath E (PearlOpen E Z) Z (u :: v :: rest)) :
    PearlOpen E Z u ∨ ∀ e, (v :: rest).getLast? = some e → TransGen E u e := by
  induction rest generalizing u v with
  | nil =>
    right
    intro e he
    have : v = e := by simpa using he
    exact .single (this ▸ huv)
  | cons w rest ih =>
    have hch' := (List.isChain_cons_cons.1 hch).2
    have ho' : OpenPath E (PearlOpen E Z) Z (v :: w :: rest) :=
      ho.infix (List.suffix_cons u (v :: w :: rest)).isInfix
    have lift : PearlOpen E Z v → PearlOpen E Z u := by
      rintro ⟨z, hz, hd⟩
      exact ⟨z, hz, .head huv hd⟩
    rcases (List.isChain_cons_cons.1 hch').1 with hvw | hwv
    · rcases ih v w hvw hch' ho' with hp | hd
      · exact .inl (lift hp)
      · right
        intro e he
        exact .head huv (hd e (by simpa using he))
    · left
      exact lift ((ho u v w ⟨[], rest, rfl⟩).1 ⟨huv, hwv⟩)

theorem exists_repeat {p : List Nat} (h : ¬ p.Nodup) :
    ∃ l₁ b l₂ l₃, p = l₁ ++ b :: (l₂ ++ b :: l₃) := by
  induction p with
  | nil => simp at h
  | cons a p ih =>
    by_cases ha : a ∈ p
    · obtain ⟨s, t, rfl⟩ := List.append_of_mem ha
      exact ⟨[], a, s, t, rfl⟩
    · have : ¬ p.Nodup := fun hn => h (List.nodup_cons.2 ⟨ha, hn⟩)
      obtain ⟨l₁, b, l₂, l₃, rfl⟩ := ih this
      exact ⟨a :: l₁, b, l₂, l₃, rfl⟩

/-- A triple in `l₁ ++ b :: l₃` lies in `l₁ ++ [b]`, in `b :: l₃`, or around `b`. -/
theorem triple_cases {a b c m : Nat} {l₁ l₃ : List Nat} (h : [a, m, c] <:+: l₁ ++ b :: l₃) :
    [a, m, c] <:+: l₁ ++ [b] ∨ [a, m, c] <:+: b :: l₃ ∨
      (m = b ∧ (∃ s, l₁ = s ++ [a]) ∧ ∃ t, l₃ = c :: t) := by
  induction l₁ with
  | nil => exact .inr (.inl h)
  | cons d l₁ ih =>
    rcases List.infix_cons_iff.1 h with hp | hi
    · obtain ⟨t, ht⟩ := hp
      cases l₁ with
      | nil =>
        simp only [List.cons_append, List.nil_append, List.cons.injEq] at ht
        obtain ⟨rfl, rfl, rfl⟩ := ht
        exact .inr (.inr ⟨rfl, ⟨[], rfl⟩, _, rfl⟩)
      | cons d' l₁ =>
        cases l₁ with
        | nil =>
          simp only [List.cons_append, List.nil_append, List.cons.injEq] at ht
          obtain ⟨rfl, rfl, rfl, rfl⟩ := ht
          exact .inl ⟨[], [], rfl⟩
        | cons d'' l₁ =>
          simp only [List.cons_append, List.nil_append, List.cons.injEq] at ht
          obtain ⟨rfl, rfl, rfl, rfl⟩ := ht
          exact .inl ⟨[], l₁ ++ [b], by simp⟩
    · rcases ih hi with h1 | h1 | ⟨e, ⟨s, hs⟩, ht⟩
      · exact .inl (h1.trans (List.suffix_cons d _).isInfix)
      · exact .inr (.inl h1)
      · exact .inr (.inr ⟨e, ⟨d :: s, by rw [hs]; rfl⟩, ht⟩)

/-- An open walk can be shortened to an open path. -/
theorem connected_of_walk (hac : Acyclic E) {x y : Nat} (n : Nat) (p : List Nat) (hn : p.length ≤ n)
    (hh : p.head? = some x) (hl : p.getLast? = some y) (hch : p.IsChain (Linked E))
    (ho : OpenPath E (PearlOpen E Z) Z p) : Connected E (PearlOpen E Z) x y Z := by
  induction n generalizing p with
  | zero =>
    have : p = [] := by simpa using hn
    subst this; simp at hh
  | succ n ih =>
    by_cases hnd : p.Nodup
    · exact ⟨p, ⟨hnd, hh, hl, hch⟩, ho⟩
    · obtain ⟨l₁, b, l₂, l₃, rfl⟩ := exists_repeat hnd
      have i1 : l₁ ++ [b] <:+: l₁ ++ b :: (l₂ ++ b :: l₃) := ⟨[], l₂ ++ b :: l₃, by simp⟩
      have i2 : b :: l₃ <:+: l₁ ++ b :: (l₂ ++ b :: l₃) := ⟨l₁ ++ b :: l₂, [], by simp⟩
      have i3 : b :: (l₂ ++ [b]) <:+: l₁ ++ b :: (l₂ ++ b :: l₃) := ⟨l₁, l₃, by simp⟩
      refine ih (l₁ ++ b :: l₃) (by simp at hn ⊢; omega) ?_ ?_ ?_ ?_
      · cases l₁ <;> simpa using hh
      · have e1 : (l₁ ++ b :: (l₂ ++ b :: l₃)).getLast? = (b :: l₃).getLast? := by
          rw [show l₁ ++ b :: (l₂ ++ b :: l₃) = (l₁ ++ b :: l₂) ++ b :: l₃ by simp,
            List.getLast?_append_of_ne_nil _ (by simp)]
        rw [List.getLast?_append_of_ne_nil _ (by simp), ← e1]
        exact hl
      · have h1 := hch.infix i1
        have h2 := hch.infix i2
        rw [show l₁ ++ b :: l₃ = l₁ ++ [b] ++ l₃ by simp]
        rw [List.isChain_append] at h1 ⊢
        refine ⟨List.isChain_append.2 h1, (List.isChain_cons.1 h2).2, ?_⟩
        intro u hu w hw
        have : u = b := by simpa using hu.symm
        subst this
        exact (List.isChain_cons.1 h2).1 w hw
      · intro a m c habc
        rcases triple_cases habc with h1 | h1 | ⟨rfl, ⟨s, rfl⟩, t, rfl⟩
        · exact ho a m c (h1.trans i1)
        · exact ho a m c (h1.trans i2)
        · -- the new corner `a, m, c`
          have hch3 := hch.infix i3
          have ho3 := ho.infix i3
          have hne : l₂ ++ [m] ≠ [] := by simp
          obtain ⟨f, l₄, hf⟩ := List.exists_cons_of_ne_nil hne
          rw [hf] at hch3 ho3
          have hbf := (List.isChain_cons_cons.1 hch3).1
          -- the first corner at `m`
          have t1 : [a, m, f] <:+: s ++ [a] ++ m :: (l₂ ++ m :: c :: t) := by
            have : l₂ ++ m :: c :: t = f :: (l₄ ++ c :: t) := by
              rw [show l₂ ++ m :: c :: t = (l₂ ++ [m]) ++ c :: t by simp, hf]; simp
            rw [this]
            exact ⟨s, l₄ ++ c :: t, by simp⟩
          -- the second corner at `m`
          have hne' : m :: l₂ ≠ [] := by simp
          obtain ⟨g, l₅, hg⟩ : ∃ l₅ g, m :: l₂ = g ++ [l₅] :=
            ⟨(m :: l₂).getLast hne', (m :: l₂).dropLast, (List.dropLast_append_getLast hne').symm⟩
          have t2 : [g, m, c] <:+: s ++ [a] ++ m :: (l₂ ++ m :: c :: t) := by
            rw [show s ++ [a] ++ m :: (l₂ ++ m :: c :: t) = s ++ [a] ++ ((m :: l₂) ++ m :: c :: t) by
              simp, hg]
            exact ⟨s ++ [a] ++ l₅, t, by simp⟩
          obtain ⟨c1, c1'⟩ := ho a m f t1
          obtain ⟨c2, c2'⟩ := ho g m c t2
          constructor
          · rintro ⟨ham, hcm⟩
            rcases hbf with hmf | hfm
            · rcases open_walk_down m f l₄ hmf hch3 ho3 with h | h
              · exact h
              · exact absurd (h m (by rw [← hf]; simp)) (hac m)
            · exact c1 ⟨ham, hfm⟩
          · intro hnc
            by_cases ham : E a m
            · have hcm : ¬ E c m := fun h => hnc ⟨ham, h⟩
              exact c2' (fun h => hcm h.2)
            · exact c1' (fun h => ham h.1)

/-! ## Walks from a fixed node -/

section walks
variable {x : Nat}

/-- An open walk from `v` back to `x`. (Specification.) -/
def Walk (E : Nat → Nat → Prop) (Z : Set Nat) (x : Nat) (p : List Nat) : Prop :=
  p.getLast? = some x ∧ p.IsChain (Linked E) ∧ OpenPath E (PearlOpen E Z) Z p

/-- `v` is reached from `x` along its child (or is `x`). (Specification.) -/
def Up (E : Nat → Nat → Prop) (Z : Set Nat) (x v : Nat) : Prop :=
  ∃ rest, Walk E Z x (v :: rest) ∧ ∀ u, rest.head? = some u → E v u

/-- `v` is reached from `x` along its parent. (Specification.) -/
def Down (E : Nat → Nat → Prop) (Z : Set Nat) (x v : Nat) : Prop :=
  ∃ rest, Walk E Z x (v :: rest) ∧ ∃ u, rest.head? = some u ∧ E u v

theorem up_self : Up E Z x x :=
  ⟨[], ⟨rfl, by simp, fun a b c h => by have := h.length_le; simp at this⟩, by simp⟩

theorem walk_cons {v w : Nat} {rest : List Nat} (h : Walk E Z x (v :: rest)) (hl : Linked E w v)
    (hv : ∀ u, rest.head? = some u →
      (E w v ∧ E u v → PearlOpen E Z v) ∧ (¬ (E w v ∧ E u v) → v ∉ Z)) :
    Walk E Z x (w :: v :: rest) :=
  ⟨by simpa using h.1, List.isChain_cons_cons.2 ⟨hl, h.2.1⟩, openPath_cons h.2.2 hv⟩

theorem Up.parent (hac : Acyclic E) {v w : Nat} (h : Up E Z x v) (hv : v ∉ Z) (hw : E w v) :
    Up E Z x w := by
  obtain ⟨rest, h1, h2⟩ := h
  refine ⟨v :: rest, walk_cons h1 (.inl hw) ?_, by simpa using hw⟩
  intro u hu
  exact ⟨fun hc => absurd hc.2 (hac.asymm (h2 u hu)), fun _ => hv⟩

theorem Up.child (hac : Acyclic E) {v w : Nat} (h : Up E Z x v) (hv : v ∉ Z) (hw : E v w) :
    Down E Z x w := by
  obtain ⟨rest, h1, _⟩ := h
  refine ⟨v :: rest, walk_cons h1 (.inr hw) ?_, v, rfl, hw⟩
  intro u _
  exact ⟨fun hc => absurd hc.1 (hac.asymm hw), fun _ => hv⟩

theorem Down.child (hac : Acyclic E) {v w : Nat} (h : Down E Z x v) (hv : v ∉ Z) (hw : E v w) :
    Down E Z x w := by
  obtain ⟨rest, h1, _⟩ := h
  refine ⟨v :: rest, walk_cons h1 (.inr hw) ?_, v, rfl, hw⟩
  intro u _
  exact ⟨fun hc => absurd hc.1 (hac.asymm hw), fun _ => hv⟩

theorem Down.parent {v w : Nat} (h : Down E Z x v) (hv : PearlOpen E Z v) (hw : E w v) :
    Up E Z x w := by
  obtain ⟨rest, h1, u, hu, huv⟩ := h
  refine ⟨v :: rest, walk_cons h1 (.inl hw) ?_, by simpa using hw⟩
  intro u' hu'
  rw [hu] at hu'
  cases hu'
  exact ⟨fun _ => hv, fun hn => absurd ⟨hw, huv⟩ hn⟩

/-- Ancestors of `x` that have no descendant in `Z`. -/
theorem up_ancestor (hac : Acyclic E) {v : Nat} (hd : Desc E v x) (hz : ¬ PearlOpen E Z v) :
    Up E Z x v := by
  induction hd using ReflTransGen.head_induction_on with
  | refl => exact up_self
  | head hvw _ ih =>
    rename_i v w _
    have hw : ¬ PearlOpen E Z w := fun ⟨z, hzz, hd⟩ => hz ⟨z, hzz, .head hvw hd⟩
    exact (ih hw).parent hac (fun h => hw ⟨w, h, .refl⟩) hvw

/-- Descendants of a node without descendants in `Z`. -/
theorem down_descendant (hac : Acyclic E) {v y : Nat} (h : Down E Z x v) (hd : Desc E v y)
    (hz : ¬ PearlOpen E Z v) : Down E Z x y := by
  induction hd with
  | refl => exact h
  | tail hvw hwy ih =>
    rename_i w y
    exact ih.child hac (fun hw => hz ⟨w, hw, hvw⟩) hwy

/-- `v` is an ancestor of `x`, of `y` or of a member of `Z`. (Specification.) -/
def Ancestral (E : Nat → Nat → Prop) (Z : Set Nat) (x y v : Nat) : Prop :=
  Desc E v x ∨ Desc E v y ∨ PearlOpen E Z v

/-- One step in the moral graph of the ancestral set, outside `Z`. (Specification.) -/
structure MoralStep (E : Nat → Nat → Prop) (Z : Set Nat) (x y v w : Nat) : Prop where
  source : v ∉ Z
  target : w ∉ Z
  ancFrom : Ancestral E Z x y v
  ancTo : Ancestral E Z x y w
  adjacent : E v w ∨ E w v ∨ ∃ c, Ancestral E Z x y c ∧ E v c ∧ E w c

theorem moral_step_reaches (hac : Acyclic E) {y v w : Nat} (h : Up E Z x v ∨ Down E Z x v)
    (hs : MoralStep E Z x y v w) :
    (Up E Z x w ∨ Down E Z x w) ∨ Down E Z x y := by
  -- from a node below, go up or finish
  have turn : ∀ v, Down E Z x v → Ancestral E Z x y v → E w v → Up E Z x w ∨ Down E Z x y := by
    intro v hd ha hwv
    by_cases hp : PearlOpen E Z v
    · exact .inl (hd.parent hp hwv)
    · rcases ha with hx | hy | hz
      · exact .inl ((up_ancestor hac hx hp).parent hac (fun h => hp ⟨v, h, .refl⟩) hwv)
      · exact .inr (down_descendant hac hd hy hp)
      · exact absurd hz hp
  have below : ∀ c, E v c → Down E Z x c := by
    intro c hc
    rcases h with h | h
    · exact h.child hac hs.source hc
    · exact h.child hac hs.source hc
  rcases hs.adjacent with hvw | hwv | ⟨c, hca, hvc, hwc⟩
  · exact .inl (.inr (below w hvw))
  · rcases h with h | h
    · exact .inl (.inl (h.parent hac hs.source hwv))
    · rcases turn v h hs.ancFrom hwv with h | h
      · exact .inl (.inl h)
      · exact .inr h
  · rcases turn c (below c hvc) hca hwc with h | h
    · exact .inl (.inl h)
    · exact .inr h

/-- Connection in the moral graph of the ancestral set outside `Z` is d-connection. -/
theorem connected_of_moral (hac : Acyclic E) {y : Nat}
    (h : ReflTransGen (MoralStep E Z x y) x y) : Connected E (PearlOpen E Z) x y Z := by
  have key : ∀ v, ReflTransGen (MoralStep E Z x y) x v →
      (Up E Z x v ∨ Down E Z x v) ∨ Down E Z x y := by
    intro v hv
    induction hv with
    | refl => exact .inl (.inl up_self)
    | tail _ hs ih =>
      rcases ih with ih | ih
      · exact moral_step_reaches hac ih hs
      · exact .inr ih
  have hw : ∃ rest, Walk E Z x (y :: rest) := by
    rcases key y h with (⟨r, h, _⟩ | ⟨r, h, _⟩) | ⟨r, h, _⟩ <;> exact ⟨r, h⟩
  obtain ⟨rest, h1, h2, h3⟩ := hw
  exact (connected_of_walk hac _ (y :: rest) le_rfl rfl h1 h2 h3).symm

end walks

end Mbtk.Graph
