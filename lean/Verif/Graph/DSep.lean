import Verif.Graph.Represents
/-!
# What `d_separated` decides, and the graph facts the blanket algorithms rely on
-/
namespace Mbtk.Graph
open Relation

theorem openPath_cons_iff {E : Nat → Nat → Prop} {O : Nat → Prop} {Z : Set Nat}
    {x y z : Nat} {rest : List Nat} :
    OpenPath E O Z (x :: y :: z :: rest) ↔
      ((E x y ∧ E z y → O y) ∧ (¬ (E x y ∧ E z y) → y ∉ Z)) ∧ OpenPath E O Z (y :: z :: rest) := by
  constructor
  · intro h
    exact ⟨h x y z ⟨[], rest, by simp⟩, fun a b c habc => h a b c (habc.trans (List.suffix_cons _ _).isInfix)⟩
  · rintro ⟨h1, h2⟩ a b c habc
    rcases List.infix_cons_iff.1 habc with h | h
    · obtain ⟨t, ht⟩ := h
      simp only [List.cons_append, List.nil_append, List.cons.injEq] at ht
      obtain ⟨rfl, rfl, rfl, -⟩ := ht
      exact h1
    · exact h2 a b c h

theorem openPath_short {E : Nat → Nat → Prop} {O : Nat → Prop} {Z : Set Nat}
    {l : List Nat} (h : l.length ≤ 2) : OpenPath E O Z l := by
  intro a b c habc
  have := habc.length_le
  simp at this; omega

/-- The collider rule and blocking rule of the code as a set.
(Models no code: a notion for statements and proofs.) -/
def zset (Z : List Nat) : Set Nat := {z | z ∈ Z}

theorem Represents.lookup_d {N : Net} {V : List Nat} {E : Nat → Nat → Prop}
    (h : Represents N V E) {v : Nat} (hv : v ∈ V) :
    ∃ l, lookup N.gd v = .ok l ∧ ∀ w, w ∈ l ↔ E v w := by
  obtain ⟨l, hl⟩ := Option.isSome_iff_exists.1 ((h.key_d v).2 hv)
  exact ⟨l, by simp [lookup, hl], h.mem_d v l hl⟩

theorem Represents.linked_mem {N : Net} {V : List Nat} {E : Nat → Nat → Prop}
    (h : Represents N V E) {a b : Nat} (hab : Linked E a b) : a ∈ V ∧ b ∈ V := by
  rcases hab with hab | hab
  · exact h.edge_mem a b hab
  · exact (h.edge_mem b a hab).symm

theorem isCollider_spec {N : Net} {V : List Nat} {E : Nat → Nat → Prop}
    (h : Represents N V E) {a b c : Nat} (ha : a ∈ V) (hc : c ∈ V) :
    ∃ r, isCollider N.gd a b c = .ok r ∧ (r = true ↔ E a b ∧ E c b) := by
  obtain ⟨la, h1, h2⟩ := h.lookup_d ha
  obtain ⟨lc, h3, h4⟩ := h.lookup_d hc
  by_cases hb : b ∈ la
  · refine ⟨decide (b ∈ lc), ?_, ?_⟩
    · simp only [isCollider, h1, h3]
      change (if b ∈ la then _ else _) = _
      rw [if_pos hb]; rfl
    · simp [h4, (h2 b).1 hb]
  · refine ⟨false, ?_, ?_⟩
    · simp only [isCollider, h1, h3]
      change (if b ∈ la then _ else _) = _
      rw [if_neg hb]
    · simp only [Bool.false_eq_true, false_iff]
      exact fun hE => hb ((h2 b).2 hE.1)

theorem isBlocked_spec {N : Net} {V : List Nat} {E : Nat → Nat → Prop}
    (h : Represents N V E) (Z : List Nat) {p : List Nat} (hp : p.IsChain (Linked E)) :
    ∃ r, isBlocked N.gd Z p = .ok r ∧
      (r = false ↔ OpenPath E (ChildOpen E (zset Z)) (zset Z) p) := by
  induction p with
  | nil => exact ⟨false, rfl, by simpa using openPath_short (by simp)⟩
  | cons a p ih =>
    match p, ih, hp with
    | [], _, _ => exact ⟨false, rfl, by simpa using openPath_short (by simp)⟩
    | [b], _, _ => exact ⟨false, rfl, by simpa using openPath_short (by simp)⟩
    | b :: c :: rest, ih, hp =>
      have hp' := List.isChain_cons_cons.1 hp
      have hbc := (List.isChain_cons_cons.1 hp'.2).1
      obtain ⟨r, hr, hro⟩ := ih hp'.2
      obtain ⟨hb, hc⟩ := h.linked_mem hbc
      have ha := (h.linked_mem hp'.1).1
      obtain ⟨l, hl, hlm⟩ := h.lookup_d hb
      obtain ⟨k, hk, hkE⟩ := isCollider_spec h (b := b) ha hc
      have hany : l.any (fun d => decide (d ∈ Z)) = true ↔ ∃ z ∈ zset Z, E b z := by
        simp only [List.any_eq_true, decide_eq_true_eq, zset, Set.mem_ofPred_eq]
        constructor
        · rintro ⟨z, h1, h2⟩; exact ⟨z, h2, (hlm z).1 h1⟩
        · rintro ⟨z, h1, h2⟩; exact ⟨z, (hlm z).2 h2, h1⟩
      have hstep : isBlocked N.gd Z (a :: b :: c :: rest) =
          if k = true ∧ decide (b ∈ Z) = false ∧ l.any (fun d => decide (d ∈ Z)) = false
            then .ok true
          else if k = false ∧ decide (b ∈ Z) = true then .ok true else .ok r := by
        rw [isBlocked, hl, hk, hr]; rfl
      rw [hstep]
      have hbz : b ∈ zset Z ↔ b ∈ Z := Iff.rfl
      simp only [openPath_cons_iff, ← hkE, ChildOpen, ← hany, hbz]
      by_cases hz : b ∈ Z <;> cases k <;> cases hl2 : l.any (fun d => decide (d ∈ Z)) <;>
        simp [hz, hro]

/-- `d_separated` answers whether every simple path is blocked under the code's rule. -/
theorem dSeparated_spec {N : Net} {V : List Nat} {E : Nat → Nat → Prop}
    (h : Represents N V E) (x y : Nat) (Z : List Nat) :
    ∃ r, dSeparated N x Z y = .ok r ∧
      (r = true ↔ ¬ Connected E (ChildOpen E (zset Z)) x y (zset Z)) := by
  have hA : ∀ a b, Arc N.gu a b ↔ Linked E a b := by
    intro a b
    constructor
    · rintro ⟨l, h1, h2⟩; exact (h.mem_u a l h1 b).1 h2
    · intro hl
      obtain ⟨l, h1⟩ := Option.isSome_iff_exists.1 ((h.key_u a).2 (h.linked_mem hl).1)
      exact ⟨l, h1, (h.mem_u a l h1 b).2 hl⟩
  have hpaths : ∀ p, p ∈ allPaths N.gu x y ↔ SimplePath (Linked E) x y p := by
    intro p
    rw [mem_allPaths]
    exact ⟨fun hp => hp.mono (fun a b => (hA a b).1), fun hp => hp.mono (fun a b => (hA a b).2)⟩
  have key : ∀ ps : List (List Nat), (∀ p ∈ ps, p.IsChain (Linked E)) →
      ∃ r, allBlocked N.gd Z ps = .ok r ∧
        (r = true ↔ ¬ ∃ p ∈ ps, OpenPath E (ChildOpen E (zset Z)) (zset Z) p) := by
    intro ps hps
    induction ps with
    | nil => exact ⟨true, rfl, by simp⟩
    | cons p ps ih =>
      obtain ⟨r, h1, h2⟩ := isBlocked_spec h Z (hps p (by simp))
      obtain ⟨r', h3, h4⟩ := ih (fun q hq => hps q (by simp [hq]))
      cases r with
      | false =>
        refine ⟨false, by rw [allBlocked, h1]; rfl, ?_⟩
        simp [h2.1 rfl]
      | true =>
        refine ⟨r', by rw [allBlocked, h1]; exact h3, ?_⟩
        rw [h4]
        have : ¬ OpenPath E (ChildOpen E (zset Z)) (zset Z) p := fun hh => by
          have := h2.2 hh; cases this
        simp [this]
  obtain ⟨r, h1, h2⟩ := key (allPaths N.gu x y) (fun p hp => ((hpaths p).1 hp).chain)
  refine ⟨r, h1, h2.trans (not_congr ?_)⟩
  simp only [Connected, hpaths]

/-! ### Graph facts -/

theorem connected_of_linked {E : Nat → Nat → Prop} {O : Nat → Prop} {Z : Set Nat} {x y : Nat}
    (hne : x ≠ y) (h : Linked E x y) : Connected E O x y Z :=
  ⟨[x, y], ⟨by simp [hne], rfl, rfl, by simp [h]⟩, openPath_short (by simp)⟩

theorem connected_of_collider {E : Nat → Nat → Prop} {O : Nat → Prop} {Z : Set Nat} {x c y : Nat}
    (hxc : x ≠ c) (hcy : c ≠ y) (hxy : x ≠ y) (h1 : E x c) (h2 : E y c) (ho : O c) :
    Connected E O x y Z := by
  refine ⟨[x, c, y], ⟨by simp [hxc, hcy, hxy], rfl, rfl, by simp [Linked, h1, h2]⟩, ?_⟩
  rw [openPath_cons_iff]
  exact ⟨⟨fun _ => ho, fun h => absurd ⟨h1, h2⟩ h⟩, openPath_short (by simp)⟩

theorem connected_of_noncollider {E : Nat → Nat → Prop} {O : Nat → Prop} {Z : Set Nat}
    {x c y : Nat} (hxc : x ≠ c) (hcy : c ≠ y) (hxy : x ≠ y) (h1 : Linked E x c)
    (h2 : Linked E c y) (hn : ¬ (E x c ∧ E y c)) (hz : c ∉ Z) : Connected E O x y Z := by
  refine ⟨[x, c, y], ⟨by simp [hxc, hcy, hxy], rfl, rfl, by simp [h1, h2]⟩, ?_⟩
  rw [openPath_cons_iff]
  exact ⟨⟨fun h => absurd h hn, fun _ => hz⟩, openPath_short (by simp)⟩

theorem Acyclic.irrefl {E : Nat → Nat → Prop} (h : Acyclic E) (a : Nat) : ¬ E a a :=
  fun ha => h a (.single ha)

theorem Acyclic.asymm {E : Nat → Nat → Prop} (h : Acyclic E) {a b : Nat} (hab : E a b) : ¬ E b a :=
  fun hba => h a ((TransGen.single hab).tail hba)

/-- Given a superset of its blanket, a node is separated from everything else, whatever
the rule for colliders. -/
theorem blanket_separates {E : Nat → Nat → Prop} (hE : Acyclic E) {O : Nat → Prop} {S : Set Nat}
    {t x : Nat} (hS : ∀ v, IsBlanket E t v → v ∈ S) (hx : x ∉ S) (hxt : x ≠ t) :
    ¬ Connected E O t x S := by
  rintro ⟨p, hp, ho⟩
  have hbl : ∀ v, Linked E t v → v ≠ t → v ∈ S := by
    intro v hv hvt
    exact hS v ⟨hvt, hv.elim (fun h => Or.inr (Or.inl h)) Or.inl⟩
  cases p with
  | nil => exact hp.ne_nil rfl
  | cons a q =>
    obtain ⟨rfl, ⟨-, h⟩ | ⟨p1, h1, h2, h3, h4⟩⟩ := simplePath_cons_iff.1 hp
    · exact hxt h.symm
    cases q with
    | nil => exact h4.ne_nil rfl
    | cons b q =>
      obtain ⟨rfl, ⟨-, h⟩ | ⟨p2, k1, k2, k3, k4⟩⟩ := simplePath_cons_iff.1 h4
      · subst h
        exact hx (hbl _ h1 (by rintro rfl; exact h2 (by simp)))
      have hb : b ∈ S := hbl _ h1 (by rintro rfl; exact h2 (by simp))
      cases q with
      | nil => exact k4.ne_nil rfl
      | cons c q =>
        have hc : c = p2 := by simpa using k4.head
        subst hc
        obtain ⟨⟨o1, o2⟩, o3⟩ := openPath_cons_iff.1 ho
        have hcol : E a b ∧ E c b := by
          by_contra hn; exact o2 hn hb
        have hca : c ≠ a := by rintro rfl; exact h2 (by simp)
        have hcS : c ∈ S := hS c ⟨hca, Or.inr (Or.inr ⟨b, hcol⟩)⟩
        obtain ⟨-, ⟨-, h⟩ | ⟨p3, m1, m2, m3, m4⟩⟩ := simplePath_cons_iff.1 k4
        · subst h; exact hx hcS
        cases q with
        | nil => exact m4.ne_nil rfl
        | cons d q =>
          obtain ⟨⟨o4, o5⟩, -⟩ := openPath_cons_iff.1 o3
          exact o5 (fun hh => hE.asymm hh.1 hcol.2) hcS

/-- A blanket member is connected to the node given the rest of the blanket. -/
theorem blanket_member_connected {E : Nat → Nat → Prop} (hE : Acyclic E) {O : Nat → Prop}
    {S : Set Nat} (hO : ∀ b ∈ S, O b) {t x : Nat} (hx : IsBlanket E t x)
    (hS : ∀ v, IsBlanket E t v → v ≠ x → v ∈ S) : Connected E O t x S := by
  obtain ⟨hxt, h | h | ⟨c, h1, h2⟩⟩ := hx
  · exact connected_of_linked hxt.symm (Or.inr h)
  · exact connected_of_linked hxt.symm (Or.inl h)
  · have hct : c ≠ t := by rintro rfl; exact hE.irrefl _ h1
    have hcx : c ≠ x := by rintro rfl; exact hE.irrefl _ h2
    exact connected_of_collider hct.symm hcx hxt.symm h1 h2
      (hO c (hS c ⟨hct, Or.inr (Or.inl h1)⟩ hcx))

/-- When part of the blanket is missing from `S`, some missing blanket member is connected
to the node. -/
theorem blanket_missing_connected {E : Nat → Nat → Prop} (hE : Acyclic E) {O : Nat → Prop}
    {S : Set Nat} (hO : ∀ b ∈ S, O b) {t x : Nat} (hx : IsBlanket E t x) (hxS : x ∉ S) :
    ∃ y, IsBlanket E t y ∧ y ∉ S ∧ Connected E O t y S := by
  obtain ⟨hxt, h | h | ⟨c, h1, h2⟩⟩ := id hx
  · exact ⟨x, hx, hxS, connected_of_linked hxt.symm (Or.inr h)⟩
  · exact ⟨x, hx, hxS, connected_of_linked hxt.symm (Or.inl h)⟩
  · have hct : c ≠ t := by rintro rfl; exact hE.irrefl _ h1
    have hcx : c ≠ x := by rintro rfl; exact hE.irrefl _ h2
    by_cases hcS : c ∈ S
    · exact ⟨x, hx, hxS, connected_of_collider hct.symm hcx hxt.symm h1 h2 (hO c hcS)⟩
    · exact ⟨c, ⟨hct, Or.inr (Or.inl h1)⟩, hcS, connected_of_linked hct.symm (Or.inl h1)⟩

/-- Follow an open path downwards from `x`: unless it runs directed to its end, it meets a
collider opened by an ancestor of `x`. -/
theorem follow_down {E : Nat → Nat → Prop} (hE : Acyclic E) {x : Nat} {Z : Set Nat}
    (hZ : ∀ z ∈ Z, Desc E z x) {q : List Nat} {prev a y : Nat}
    (hpa : E prev a) (hxa : TransGen E x a) (hc : (a :: q).IsChain (Linked E))
    (hl : (a :: q).getLast? = some y)
    (ho : OpenPath E (PearlOpen E Z) Z (prev :: a :: q)) : TransGen E x y := by
  induction q generalizing prev a with
  | nil => simp at hl; subst hl; exact hxa
  | cons b q ih =>
    have hc' := List.isChain_cons_cons.1 hc
    obtain ⟨⟨o1, -⟩, o3⟩ := openPath_cons_iff.1 ho
    by_cases hba : E b a
    · exfalso
      obtain ⟨z, hz, haz⟩ := o1 ⟨hpa, hba⟩
      exact hE x ((hxa.trans_left haz).trans_left (hZ z hz))
    · have hab : E a b := hc'.1.resolve_right hba
      exact ih hab (hxa.tail hab) hc'.2 (by simpa [List.getLast?_cons_cons] using hl) o3

/-- The local Markov property: its parents separate a node from any non-descendant it has
no edge with. -/
theorem parents_separate {E : Nat → Nat → Prop} (hE : Acyclic E) {x y : Nat} {P : Set Nat}
    (hP : ∀ v, v ∈ P ↔ E v x) (hne : x ≠ y) (hadj : ¬ Linked E x y)
    (hd : ¬ Desc E x y) : DSep E x y P := by
  rintro ⟨p, hp, ho⟩
  cases p with
  | nil => exact hp.ne_nil rfl
  | cons a q =>
    obtain ⟨rfl, ⟨-, h⟩ | ⟨p1, h1, h2, h3, h4⟩⟩ := simplePath_cons_iff.1 hp
    · exact hne h
    cases q with
    | nil => exact h4.ne_nil rfl
    | cons b q =>
      have hb : b = p1 := by simpa using h4.head
      subst hb
      by_cases hba : E b a
      · obtain ⟨-, ⟨-, h⟩ | ⟨p2, k1, k2, k3, k4⟩⟩ := simplePath_cons_iff.1 h4
        · subst h; exact hadj h1
        cases q with
        | nil => exact k4.ne_nil rfl
        | cons c q =>
          obtain ⟨⟨-, o2⟩, -⟩ := openPath_cons_iff.1 ho
          exact o2 (fun hh => hE.asymm hba hh.1) ((hP b).2 hba)
      · have hab : E a b := h1.resolve_right hba
        exact hd (follow_down hE (fun z hz => ReflTransGen.single ((hP z).1 hz)) hab (.single hab)
          h4.chain h4.last ho).to_reflTransGen

theorem chain_nodup {E : Nat → Nat → Prop} (hE : Acyclic E) {p : List Nat} (h : p.IsChain E) :
    p.Nodup := by
  have h1 : p.Pairwise (TransGen E) := by
    have : p.IsChain (TransGen E) := h.imp (fun _ _ hab => TransGen.single hab)
    exact List.isChain_iff_pairwise.1 this
  refine h1.imp ?_
  intro a b hab he
  subst he
  exact hE _ hab

theorem desc_path {E : Nat → Nat → Prop} {x y : Nat} (h : Desc E x y) :
    ∃ p : List Nat, p.head? = some x ∧ p.getLast? = some y ∧ p.IsChain E ∧ ∀ v ∈ p, Desc E x v := by
  induction h using ReflTransGen.head_induction_on with
  | refl => exact ⟨[y], rfl, rfl, by simp, by intro v hv; simp at hv; subst hv; exact ReflTransGen.refl⟩
  | @head a c hab _ ih =>
    obtain ⟨p, h1, h2, h3, h4⟩ := ih
    cases p with
    | nil => simp at h1
    | cons b q =>
      have hb : b = c := by simpa using h1
      subst hb
      refine ⟨a :: b :: q, rfl, by simpa [List.getLast?_cons_cons] using h2,
        List.isChain_cons_cons.2 ⟨hab, h3⟩, ?_⟩
      intro v hv
      rcases List.mem_cons.1 hv with rfl | hv
      · exact ReflTransGen.refl
      · exact (ReflTransGen.single hab).trans (h4 v hv)

theorem open_of_directed {E : Nat → Nat → Prop} (hE : Acyclic E) {O : Nat → Prop} {Z : Set Nat}
    {p : List Nat} (hc : p.IsChain E) (hz : ∀ v ∈ p, v ∉ Z) : OpenPath E O Z p := by
  intro a b c habc
  have hc' : [a, b, c].IsChain E := hc.infix habc
  have hbc : E b c := by simp at hc'; exact hc'.2
  exact ⟨fun hh => absurd hh.2 (hE.asymm hbc), fun _ => hz b (habc.subset (by simp))⟩

/-- If `S` separates `t` from a proper descendant `y` of a neighbour `x` of `t`, then `S`
contains `x` or a descendant of `x`. -/
theorem sepset_has_descendant {E : Nat → Nat → Prop} (hE : Acyclic E) {S : Set Nat} {t x y : Nat}
    (hs : DSep E t y S) (htx : Linked E t x) (hxy : Desc E x y) :
    ∃ s ∈ S, Desc E x s := by
  by_contra hno
  have hno' : ∀ s, Desc E x s → s ∉ S := fun s hd hsS => hno ⟨s, hsS, hd⟩
  obtain ⟨p, h1, h2, h3, h4⟩ := desc_path hxy
  by_cases htp : t ∈ p
  · -- the directed path runs through `t`
    obtain ⟨l, r, rfl⟩ := List.append_of_mem htp
    have hch : (t :: r).IsChain E := h3.infix ⟨l, [], by simp⟩
    apply hs
    refine ⟨t :: r, ⟨chain_nodup hE hch, rfl, ?_, hch.imp (fun _ _ h => Or.inl h)⟩, ?_⟩
    · rw [← h2, List.getLast?_append]; simp [List.getLast?_cons]
    · exact open_of_directed hE hch (fun v hv => hno' v (h4 v (by simp only [List.mem_append]; exact Or.inr hv)))
  · cases p with
    | nil => simp at h1
    | cons b q =>
      have hb : b = x := by simpa using h1
      subst hb
      apply hs
      refine ⟨t :: b :: q, ⟨?_, rfl, by simpa [List.getLast?_cons_cons] using h2, ?_⟩, ?_⟩
      · exact List.nodup_cons.2 ⟨htp, chain_nodup hE h3⟩
      · exact List.isChain_cons_cons.2 ⟨htx, h3.imp (fun _ _ h => Or.inl h)⟩
      · cases q with
        | nil => exact openPath_short (by simp)
        | cons c q =>
          rw [openPath_cons_iff]
          have hbc : E b c := (List.isChain_cons_cons.1 h3).1
          exact ⟨⟨fun hh => absurd hh.2 (hE.asymm hbc), fun _ => hno' b ReflTransGen.refl⟩,
            open_of_directed hE h3 (fun v hv => hno' v (h4 v hv))⟩

/-- Adding `x` to a separating set that already contains a descendant of `x` keeps it
separating. -/
theorem dsep_insert {E : Nat → Nat → Prop} {S : Set Nat} {t y x : Nat}
    (hs : DSep E t y S) (hx : ∃ s ∈ S, Desc E x s) : DSep E t y (S ∪ {x}) := by
  rintro ⟨p, hp, ho⟩
  refine hs ⟨p, hp, ?_⟩
  intro a b c habc
  obtain ⟨h1, h2⟩ := ho a b c habc
  refine ⟨fun hc => ?_, fun hn hb => h2 hn (Or.inl hb)⟩
  obtain ⟨z, hz | hz, hbz⟩ := h1 hc
  · exact ⟨z, hz, hbz⟩
  · obtain ⟨s, hs, hxs⟩ := hx
    have : z = x := hz
    subst this
    exact ⟨s, hs, hbz.trans hxs⟩

end Mbtk.Graph
