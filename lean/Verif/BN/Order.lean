import Verif.BN.Spec
import Mathlib.Order.WellFounded
import Mathlib.Data.Fintype.Card
import Mathlib.Data.Finset.Basic
import Mathlib.Data.Fintype.Order
/-!
# The sampling order (C35)
-/
namespace Mbtk.BN
open Spec
variable {ν β : Type} [LinearOrder ν] [DecidableEq β]

theorem getNode_mem {nodes : List (Node ν β)} (hu : UniqueNames nodes) {n : Node ν β}
    (hn : n ∈ nodes) : getNode nodes n.name = .ok n := by
  unfold getNode
  have : nodes.find? (fun m => m.name = n.name) = some n := by
    unfold UniqueNames at hu
    induction nodes with
    | nil => simp at hn
    | cons m nodes ih =>
      simp only [List.map_cons, List.nodup_cons] at hu
      rw [List.find?_cons]
      by_cases e : m.name = n.name
      · have : m = n := by
          rcases List.mem_cons.1 hn with rfl | h
          · rfl
          · exact absurd (List.mem_map.2 ⟨n, h, e.symm⟩) hu.1
        simp [this]
      · simp only [e, decide_false]
        refine ih hu.2 ?_
        rcases List.mem_cons.1 hn with rfl | h
        · exact absurd rfl e
        · exact h
  rw [this]

theorem getNode_known {nodes : List (Node ν β)} {v : ν} (hv : v ∈ nodes.map (·.name)) :
    ∃ n ∈ nodes, n.name = v ∧ getNode nodes v = .ok n := by
  unfold getNode
  cases h : nodes.find? (fun n => n.name = v) with
  | some n =>
    exact ⟨n, List.mem_of_find?_eq_some h, by simpa using List.find?_some h, rfl⟩
  | none =>
    obtain ⟨n, hn, rfl⟩ := List.mem_map.1 hv
    have := List.find?_eq_none.1 h n hn
    simp at this

theorem unique_node {nodes : List (Node ν β)} (hu : UniqueNames nodes) {n m : Node ν β}
    (hn : n ∈ nodes) (hm : m ∈ nodes) (h : n.name = m.name) : n = m := by
  have h1 := getNode_mem hu hn
  rw [h, getNode_mem hu hm] at h1
  cases h1; rfl

theorem names_perm (nodes : List (Node ν β)) : (names nodes).Perm (nodes.map (·.name)) :=
  List.perm_insertionSort _ _

theorem mem_names {nodes : List (Node ν β)} {v : ν} : v ∈ names nodes ↔ v ∈ nodes.map (·.name) :=
  (names_perm nodes).mem_iff

/-- Each name of `l` comes after its parents, all of which are in `l`.
(Models no code: a notion for statements and proofs.) -/
def ParentsFirst (nodes : List (Node ν β)) (l : List ν) : Prop :=
  ∀ l₁ v l₂, l = l₁ ++ v :: l₂ → ∀ p, ParentOf nodes p v → p ∈ l₁

theorem ParentsFirst.snoc {nodes : List (Node ν β)} {l : List ν} (h : ParentsFirst nodes l) {v : ν}
    (hv : ∀ p, ParentOf nodes p v → p ∈ l) : ParentsFirst nodes (l ++ [v]) := by
  intro l₁ w l₂ e p hp
  rcases List.eq_nil_or_concat l₂ with rfl | ⟨l₃, x, rfl⟩
  · have := List.append_inj' e rfl
    obtain ⟨rfl, e2⟩ := this
    simp at e2; subst e2
    exact hv p hp
  · have e' : l ++ [v] = (l₁ ++ w :: l₃) ++ [x] := by simpa using e
    have := List.append_inj' e' rfl
    exact h l₁ w l₃ this.1 p hp

theorem orderPass_ok {nodes : List (Node ν β)} (hu : UniqueNames nodes) (vs order : List ν)
    (hvs : ∀ v ∈ vs, v ∈ nodes.map (·.name)) (ho : ParentsFirst nodes order) :
    ∃ added, orderPass nodes vs order = .ok (order ++ added) ∧ added.Sublist vs ∧
      ParentsFirst nodes (order ++ added) ∧
      ∀ v ∈ vs, (∀ p, ParentOf nodes p v → p ∈ order) → v ∈ added := by
  induction vs generalizing order with
  | nil => exact ⟨[], by simp [orderPass], by simp, by simpa using ho, by simp⟩
  | cons v vs ih =>
    obtain ⟨n, hn, rfl, hg⟩ := getNode_known (hvs v (by simp))
    have hpar : ∀ p, ParentOf nodes p n.name ↔ p ∈ n.parents := by
      intro p
      constructor
      · rintro ⟨m, hm, e, hp⟩; rwa [unique_node hu hm hn e] at hp
      · exact fun hp => ⟨n, hn, rfl, hp⟩
    by_cases hc : n.parents = [] ∨ ∀ p ∈ n.parents, p ∈ order
    · have hall : ∀ p ∈ n.parents, p ∈ order := by
        rcases hc with h | h
        · simp [h]
        · exact h
      obtain ⟨added, e, hs, hf, hm⟩ := ih (order ++ [n.name])
        (fun w hw => hvs w (List.mem_cons_of_mem _ hw))
        (ho.snoc (fun p hp => hall p ((hpar p).1 hp)))
      refine ⟨n.name :: added, ?_, hs.cons_cons _, by simpa using hf, ?_⟩
      · simp only [orderPass, hg]
        show (if _ then _ else _) = _
        rw [if_pos hc, e]; simp
      · intro w hw hp
        rcases List.mem_cons.1 hw with rfl | hw
        · simp
        · exact List.mem_cons_of_mem _ (hm w hw (fun p h => List.mem_append_left _ (hp p h)))
    · obtain ⟨added, e, hs, hf, hm⟩ := ih order (fun w hw => hvs w (List.mem_cons_of_mem _ hw)) ho
      refine ⟨added, ?_, hs.cons _, hf, ?_⟩
      · simp only [orderPass, hg]
        show (if _ then _ else _) = _
        rw [if_neg hc, e]
      · intro w hw hp
        rcases List.mem_cons.1 hw with rfl | hw
        · exact absurd (Or.inr (fun p h => hp p ((hpar p).2 h))) hc
        · exact hm w hw hp

/-- In an acyclic network some remaining variable has all of its parents placed. -/
theorem exists_ready {nodes : List (Node ν β)} (hk : ParentsKnown nodes) (ha : Acyclic nodes)
    (order : List ν) (hne : ∃ v ∈ nodes.map (·.name), v ∉ order) :
    ∃ v ∈ nodes.map (·.name), v ∉ order ∧ ∀ p, ParentOf nodes p v → p ∈ order := by
  let S := {v : ν // v ∈ nodes.map (·.name)}
  haveI : Finite S := (List.finite_toSet _).to_subtype
  let r : S → S → Prop := fun a b => Relation.TransGen (ParentOf nodes) a.1 b.1
  haveI : IsTrans S r := ⟨fun a b c h1 h2 => h1.trans h2⟩
  haveI : Std.Irrefl r := ⟨fun a h => ha a.1 h⟩
  have wf : WellFounded r := Finite.wellFounded_of_trans_of_irrefl r
  obtain ⟨v, hv, hvo⟩ := hne
  obtain ⟨m, hm, hmin⟩ := wf.has_min {x : S | x.1 ∉ order} ⟨⟨v, hv⟩, hvo⟩
  refine ⟨m.1, m.2, hm, ?_⟩
  intro p hp
  by_contra hpo
  obtain ⟨n, hn, e, hpn⟩ := hp
  exact hmin ⟨p, hk n hn p hpn⟩ hpo (Relation.TransGen.single ⟨n, hn, e, hpn⟩)

theorem orderLoop_ok {nodes : List (Node ν β)} (hu : UniqueNames nodes)
    (hprog : ∀ order : List ν, (∃ v ∈ nodes.map (·.name), v ∉ order) →
      ∃ v ∈ nodes.map (·.name), v ∉ order ∧ ∀ p, ParentOf nodes p v → p ∈ order)
    (fuel : Nat) (remaining order : List ν) (hfuel : remaining.length ≤ fuel)
    (hrem : remaining = (names nodes).filter (fun v => v ∉ order))
    (hsub : ∀ v ∈ order, v ∈ nodes.map (·.name)) (hnd : order.Nodup)
    (ho : ParentsFirst nodes order) :
    ∃ l, orderLoop nodes fuel remaining order = .ok l ∧ TopologicalOrder nodes l := by
  induction fuel generalizing remaining order with
  | zero =>
    have : remaining = [] := List.length_eq_zero_iff.1 (by omega)
    subst this
    refine ⟨order, by simp [orderLoop], ?_, ho⟩
    refine (List.perm_ext_iff_of_nodup hnd hu).2 (fun v => ⟨hsub v, fun hv => ?_⟩)
    by_contra hvo
    have : v ∈ (names nodes).filter (fun v => v ∉ order) :=
      List.mem_filter.2 ⟨mem_names.2 hv, by simpa using hvo⟩
    rw [← hrem] at this; simp at this
  | succ fuel ih =>
    cases hc : remaining with
    | nil =>
      subst hc
      refine ⟨order, by simp [orderLoop], ?_, ho⟩
      refine (List.perm_ext_iff_of_nodup hnd hu).2 (fun v => ⟨hsub v, fun hv => ?_⟩)
      by_contra hvo
      have : v ∈ (names nodes).filter (fun v => v ∉ order) :=
        List.mem_filter.2 ⟨mem_names.2 hv, by simpa using hvo⟩
      rw [← hrem] at this; simp at this
    | cons w ws =>
      have hmem : ∀ v ∈ remaining, v ∈ nodes.map (·.name) ∧ v ∉ order := by
        intro v hv
        rw [hrem, List.mem_filter] at hv
        exact ⟨mem_names.1 hv.1, by simpa using hv.2⟩
      obtain ⟨added, e, hs, hf, hm⟩ := orderPass_ok hu remaining order (fun v hv => (hmem v hv).1) ho
      obtain ⟨v, hv, hvo, hvp⟩ := hprog order ⟨w, hmem w (by simp [hc])⟩
      have hvr : v ∈ remaining := by
        rw [hrem]; exact List.mem_filter.2 ⟨mem_names.2 hv, by simpa using hvo⟩
      have hlt : (remaining.filter (fun v => v ∉ order ++ added)).length < remaining.length := by
        refine List.length_filter_lt_length_iff_exists.2 ⟨v, hvr, ?_⟩
        simp [hm v hvr hvp]
      have := ih (remaining.filter (fun v => v ∉ order ++ added)) (order ++ added)
        (by omega) ?_ ?_ ?_ hf
      · rw [hc] at e this
        simp only [orderLoop, e]
        exact this
      · rw [hrem, List.filter_filter]
        congr 1
        funext v
        simp only [List.mem_append, not_or, Bool.decide_and]
        grind
      · intro v hv
        rcases List.mem_append.1 hv with h | h
        · exact hsub v h
        · exact (hmem v (hs.subset h)).1
      · have hrn : remaining.Nodup := by
          rw [hrem]
          exact ((names_perm nodes).nodup_iff.2 hu).filter _
        rw [List.nodup_append]
        refine ⟨hnd, hrn.sublist hs, fun a ha b hb e => ?_⟩
        subst e
        exact (hmem a (hs.subset hb)).2 ha

/-- A topological order rules out cycles and unknown parents. -/
theorem TopologicalOrder.acyclic {nodes : List (Node ν β)} {l : List ν}
    (h : TopologicalOrder nodes l) : ParentsKnown nodes ∧ Acyclic nodes := by
  have key : ∀ p c, ParentOf nodes p c → p ∈ l ∧ c ∈ l ∧ l.idxOf p < l.idxOf c := by
    intro p c hp
    have hc : c ∈ l := by
      obtain ⟨n, hn, rfl, _⟩ := hp
      exact h.perm.mem_iff.2 (List.mem_map.2 ⟨n, hn, rfl⟩)
    obtain ⟨l₁, l₂, e, hnot⟩ := List.append_of_mem hc |> fun _ =>
      List.eq_append_cons_of_mem hc
    have hpl := h.parents_first l₁ c l₂ e p hp
    refine ⟨by rw [e]; exact List.mem_append_left _ hpl, hc, ?_⟩
    rw [e, List.idxOf_append_of_mem hpl, List.idxOf_append_of_notMem hnot]
    have := List.idxOf_lt_length_of_mem hpl
    omega
  have tkey : ∀ p c, Relation.TransGen (ParentOf nodes) p c → l.idxOf p < l.idxOf c := by
    intro p c ht
    induction ht with
    | single h1 => exact (key _ _ h1).2.2
    | tail _ h2 ih => have := (key _ _ h2).2.2; omega
  exact ⟨fun n hn p hp => h.perm.mem_iff.1 (key p n.name ⟨n, hn, rfl, hp⟩).1,
    fun v hv => absurd (tkey v v hv) (by omega)⟩

/-- Whatever the network, the loop returns a topological order or never ends. -/
theorem orderLoop_dichotomy {nodes : List (Node ν β)} (hu : UniqueNames nodes)
    (fuel : Nat) (remaining order : List ν)
    (hrem : remaining = (names nodes).filter (fun v => v ∉ order))
    (hsub : ∀ v ∈ order, v ∈ nodes.map (·.name)) (hnd : order.Nodup)
    (ho : ParentsFirst nodes order) :
    orderLoop nodes fuel remaining order = .error (.custom "nontermination") ∨
    ∃ l, orderLoop nodes fuel remaining order = .ok l ∧ TopologicalOrder nodes l := by
  induction fuel generalizing remaining order with
  | zero =>
    cases hc : remaining with
    | cons w ws => left; simp [orderLoop]
    | nil =>
      right
      subst hc
      refine ⟨order, by simp [orderLoop], ?_, ho⟩
      refine (List.perm_ext_iff_of_nodup hnd hu).2 (fun v => ⟨hsub v, fun hv => ?_⟩)
      by_contra hvo
      have : v ∈ (names nodes).filter (fun v => v ∉ order) :=
        List.mem_filter.2 ⟨mem_names.2 hv, by simpa using hvo⟩
      rw [← hrem] at this; simp at this
  | succ fuel ih =>
    cases hc : remaining with
    | nil =>
      right
      subst hc
      refine ⟨order, by simp [orderLoop], ?_, ho⟩
      refine (List.perm_ext_iff_of_nodup hnd hu).2 (fun v => ⟨hsub v, fun hv => ?_⟩)
      by_contra hvo
      have : v ∈ (names nodes).filter (fun v => v ∉ order) :=
        List.mem_filter.2 ⟨mem_names.2 hv, by simpa using hvo⟩
      rw [← hrem] at this; simp at this
    | cons w ws =>
      have hmem : ∀ v ∈ remaining, v ∈ nodes.map (·.name) ∧ v ∉ order := by
        intro v hv
        rw [hrem, List.mem_filter] at hv
        exact ⟨mem_names.1 hv.1, by simpa using hv.2⟩
      obtain ⟨added, e, hs, hf, hm⟩ := orderPass_ok hu remaining order (fun v hv => (hmem v hv).1) ho
      have := ih (remaining.filter (fun v => v ∉ order ++ added)) (order ++ added) ?_ ?_ ?_ hf
      · rw [hc] at e this
        simp only [orderLoop, e]
        exact this
      · rw [hrem, List.filter_filter]
        congr 1
        funext v
        simp only [List.mem_append, not_or, Bool.decide_and]
        grind
      · intro v hv
        rcases List.mem_append.1 hv with h | h
        · exact hsub v h
        · exact (hmem v (hs.subset h)).1
      · have hrn : remaining.Nodup := by
          rw [hrem]
          exact ((names_perm nodes).nodup_iff.2 hu).filter _
        rw [List.nodup_append]
        refine ⟨hnd, hrn.sublist hs, fun a ha b hb e => ?_⟩
        subst e
        exact (hmem a (hs.subset hb)).2 ha

/-- **C35.** For every acyclic network the sampling order is found, lists every variable
exactly once and puts every variable after its parents. -/
theorem sampling_order_topological (nodes : List (Node ν β)) (hu : UniqueNames nodes)
    (hk : ParentsKnown nodes) (ha : Acyclic nodes) :
    ∃ l, detectOrder nodes = .ok l ∧ TopologicalOrder nodes l :=
  orderLoop_ok hu (exists_ready hk ha) _ _ _ (le_refl _) (by simp) (by simp) (by simp)
    (by intro l₁ v l₂ e; simp at e)

/-- **C35**, the exact condition: the search ends exactly for the acyclic networks whose
parents are all known; on any other network it loops for ever. -/
theorem sampling_order_terminates_iff (nodes : List (Node ν β)) (hu : UniqueNames nodes) :
    (ParentsKnown nodes ∧ Acyclic nodes ↔ ∃ l, detectOrder nodes = .ok l) ∧
    (¬ (ParentsKnown nodes ∧ Acyclic nodes) →
      detectOrder nodes = .error (.custom "nontermination")) := by
  have hd := orderLoop_dichotomy hu (names nodes).length (names nodes) [] (by simp) (by simp)
    (by simp) (by intro l₁ v l₂ e; simp at e)
  refine ⟨⟨fun ⟨h1, h2⟩ => ?_, ?_⟩, fun hn => ?_⟩
  · obtain ⟨l, h, _⟩ := sampling_order_topological nodes hu h1 h2
    exact ⟨l, h⟩
  · rintro ⟨l, h⟩
    rcases hd with hd | ⟨l', hl', ht⟩
    · unfold detectOrder at h; rw [hd] at h; cases h
    · exact TopologicalOrder.acyclic ht
  · rcases hd with hd | ⟨l', hl', ht⟩
    · exact hd
    · exact absurd (TopologicalOrder.acyclic ht) hn

end Mbtk.BN
