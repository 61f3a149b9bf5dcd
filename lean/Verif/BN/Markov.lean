import Verif.BN.SourceCmi
import Verif.Graph.Moral
/-!
# The global Markov property (C66)

In the distribution that a network defines by the chain rule, d-separated variables are
independent.
-/
namespace Mbtk.BN
open Spec Stats
variable {ν β : Type} [LinearOrder ν] [DecidableEq β]

/-! ## Nested sums -/

/-- `G` only depends on the coordinates in `T`.
(Models no code: a notion for statements and proofs.) -/
def DependsOn (T : ν → Prop) (G : (ν → β) → ℚ) : Prop :=
  ∀ a b : ν → β, (∀ v, T v → a v = b v) → G a = G b

omit [LinearOrder ν] [DecidableEq β] in
theorem DependsOn.mono {T T' : ν → Prop} {G : (ν → β) → ℚ} (h : DependsOn T G)
    (hT : ∀ v, T v → T' v) : DependsOn T' G := fun a b hab => h a b (fun v hv => hab v (hT v hv))

omit [LinearOrder ν] [DecidableEq β] in
theorem DependsOn.mul {T : ν → Prop} {G G' : (ν → β) → ℚ} (h : DependsOn T G)
    (h' : DependsOn T G') : DependsOn T (fun a => G a * G' a) :=
  fun a b hab => by simp only [h a b hab, h' a b hab]

omit [DecidableEq β] in
theorem nest_append (ns ms : List (Node ν β)) (a : ν → β) (G : (ν → β) → ℚ) :
    nest (ns ++ ms) a G = nest ns a (fun a' => nest ms a' G) := by
  induction ns generalizing a with
  | nil => rfl
  | cons n ns ih => simp only [List.cons_append, nest, ih]

omit [DecidableEq β] in
theorem nest_mul_left (ns : List (Node ν β)) (a : ν → β) (c : ℚ) (G : (ν → β) → ℚ) :
    nest ns a (fun a => c * G a) = c * nest ns a G := by
  induction ns generalizing a with
  | nil => rfl
  | cons n ns ih => simp only [nest, ih, List.sum_map_mul_left]

omit [DecidableEq β] in
theorem nest_agree {T : ν → Prop} {G : (ν → β) → ℚ} (hG : DependsOn T G) (ns : List (Node ν β))
    (a b : ν → β) (hab : ∀ v, T v → v ∉ ns.map (·.name) → a v = b v) : nest ns a G = nest ns b G := by
  induction ns generalizing a b with
  | nil => exact hG a b (fun v hv => hab v hv (by simp))
  | cons n ns ih =>
    simp only [nest]
    congr 1
    apply List.map_congr_left
    intro w _
    apply ih
    intro v hv hn
    by_cases e : v = n.name
    · subst e; simp
    · rw [Function.update_of_ne e, Function.update_of_ne e]
      exact hab v hv (by simp only [List.map_cons, List.mem_cons, not_or]; exact ⟨e, hn⟩)

omit [DecidableEq β] in
/-- A factor that does not depend on the summed variables. -/
theorem nest_factor {T : ν → Prop} {K : (ν → β) → ℚ} (hK : DependsOn T K) (G : (ν → β) → ℚ)
    (ns : List (Node ν β)) (hT : ∀ n ∈ ns, ¬ T n.name) (a : ν → β) :
    nest ns a (fun a => K a * G a) = K a * nest ns a G := by
  induction ns generalizing a with
  | nil => rfl
  | cons n ns ih =>
    simp only [nest]
    rw [← List.sum_map_mul_left]
    congr 1
    apply List.map_congr_left
    intro w _
    rw [ih (fun m hm => hT m (by simp [hm]))]
    congr 1
    apply hK
    intro v hv
    have : v ≠ n.name := fun e => hT n (by simp) (e ▸ hv)
    rw [Function.update_of_ne this]

omit [LinearOrder ν] [DecidableEq β] in
theorem Ready.filter {nodes : List (Node ν β)} (S : ν → Prop) [DecidablePred S]
    (hS : ∀ n ∈ nodes, S n.name → ∀ p ∈ n.parents, S p) (ns : List (Node ν β))
    (hns : ∀ n ∈ ns, n ∈ nodes) (done : List ν) (hr : Ready done ns) :
    Ready (done.filter (fun v => S v)) (ns.filter (fun n => S n.name)) := by
  induction ns generalizing done with
  | nil => trivial
  | cons n ns ih =>
    obtain ⟨h1, h2, h3⟩ := hr
    have := ih (fun m hm => hns m (by simp [hm])) _ h3
    by_cases hs : S n.name
    · rw [List.filter_cons_of_pos (by simpa using hs)]
      refine ⟨?_, ?_, ?_⟩
      · intro p hp
        exact List.mem_filter.2 ⟨h1 p hp, by simpa using hS n (hns n (by simp)) hs p hp⟩
      · exact fun hm => h2 (List.mem_of_mem_filter hm)
      · rw [List.filter_append] at this
        simpa [hs] using this
    · rw [List.filter_cons_of_neg (by simpa using hs)]
      rw [List.filter_append] at this
      simpa [hs] using this

omit [LinearOrder ν] in
theorem prodOf_perm {ns ms : List (Node ν β)} (h : ns.Perm ms) (a : ν → β) :
    prodOf ns a = prodOf ms a := (h.map _).prod_eq

/-- Summing out the variables outside an ancestrally closed set. -/
theorem nest_ancestral {nodes : List (Node ν β)} (h : WellFormed nodes) (hN : Normalised nodes)
    (S : ν → Prop) [DecidablePred S]
    (hS : ∀ n ∈ nodes, S n.name → ∀ p ∈ n.parents, S p) {H : (ν → β) → ℚ}
    (hH : DependsOn S H) (a : ν → β) :
    nest nodes a (fun a => jointProb nodes a * H a) =
      nest (nodes.filter (fun n => S n.name)) a
        (fun a => prodOf (nodes.filter (fun n => S n.name)) a * H a) := by
  obtain ⟨l, _, ho⟩ := sampling_order_topological nodes h.unique h.known h.acyclic
  have hpk := pickNodes_spec (nodes := nodes) l (fun v hv => ho.perm.mem_iff.1 hv)
  have hperm := pickNodes_perm h.unique ho.perm
  have hrdy := ready_of_topological h.unique ho
  have hrf := hrdy.filter S hS _ hpk.2
  have h1 := sum_out h hN S hS H hH (pickNodes nodes l) hpk.2 [] a a 1 hrdy
    (by intro n _ h'; simp at h') (fun _ _ => rfl)
  rw [weighted_sum_branches _ [] a 1 hrdy H, weighted_sum_branches _ [] a 1 hrf H,
    nest_perm hperm hrdy.nodup.1, nest_perm (hperm.filter _) hrf.nodup.1] at h1
  simp only [one_mul] at h1
  have e1 : (fun a => jointProb nodes a * H a) = fun a => prodOf (pickNodes nodes l) a * H a := by
    funext a
    rw [prodOf_perm hperm]; rfl
  have e2 : (fun a => prodOf (nodes.filter (fun n => S n.name)) a * H a) =
      fun a => prodOf ((pickNodes nodes l).filter (fun n => S n.name)) a * H a := by
    funext a
    rw [prodOf_perm (hperm.filter _)]
  rw [e1, e2]
  exact h1

/-! ## Factorisation -/

/-- The summed product splits along a separation of the moral graph. -/
theorem separation_factorises {nodes : List (Node ν β)} (h : WellFormed nodes)
    (hN : Normalised nodes) (S D Zv : ν → Prop) (b : ν → β) (a₀ : ν → β)
    (hS : ∀ n ∈ nodes, S n.name → ∀ p ∈ n.parents, S p)
    (hD : ∀ v, D v → S v ∧ v ∈ nodes.map (·.name)) (hZS : ∀ v, Zv v → S v)
    (hDZ : ∀ v, Zv v → ¬ D v)
    (hfam : ∀ n ∈ nodes, S n.name → ∀ u ∈ n.name :: n.parents, D u →
      ∀ v ∈ n.name :: n.parents, D v ∨ Zv v) :
    ∃ f g : ((ν → β) → ℚ) → ℚ, ∀ φ ψ ε : (ν → β) → ℚ, DependsOn D φ →
      DependsOn (fun v => S v ∧ ¬ D v) ψ → DependsOn Zv ε →
      (∀ a, ε a ≠ 0 → ∀ v, Zv v → a v = b v) →
      nest nodes a₀ (fun a => jointProb nodes a * (φ a * ψ a * ε a)) = f φ * g (fun a => ψ a * ε a) := by
  classical
  let SN := nodes.filter (fun n => S n.name)
  let touches : Node ν β → Prop := fun n => ∃ u ∈ n.name :: n.parents, D u
  let Dn := SN.filter (fun n => D n.name)
  let Rn := SN.filter (fun n => ¬ D n.name)
  let F := prodOf (SN.filter (fun n => touches n))
  let G := prodOf (SN.filter (fun n => ¬ touches n))
  refine ⟨fun φ => nest Dn b (fun a => F a * φ a), fun ψ => nest Rn a₀ (fun a => G a * ψ a), ?_⟩
  intro φ ψ ε hφ hψ hε hb
  have hSNu : (SN.map (·.name)).Nodup :=
    List.Nodup.sublist (List.filter_sublist.map _) h.unique
  have cptDep : ∀ (n : Node ν β) (T : ν → Prop), (∀ v ∈ n.name :: n.parents, T v) →
      DependsOn T (fun a => cpt n (n.parents.map a) (a n.name)) := by
    intro n T hT a b hab
    have e : n.parents.map a = n.parents.map b :=
      List.map_congr_left (fun p hp => hab p (hT p (by simp [hp])))
    simp only [e, hab n.name (hT _ (by simp))]
  have prodDep : ∀ (ns : List (Node ν β)) (T : ν → Prop),
      (∀ n ∈ ns, ∀ v ∈ n.name :: n.parents, T v) → DependsOn T (prodOf ns) := by
    intro ns T hT a b hab
    unfold prodOf
    congr 1
    apply List.map_congr_left
    intro n hn
    exact cptDep n T (hT n hn) a b hab
  have hFdep : DependsOn (fun v => D v ∨ Zv v) F := by
    apply prodDep
    intro n hn v hv
    obtain ⟨hn1, hn2⟩ := List.mem_filter.1 hn
    obtain ⟨u, hu, hDu⟩ : touches n := by simpa using hn2
    obtain ⟨hn3, hn4⟩ := List.mem_filter.1 hn1
    exact hfam n hn3 (by simpa using hn4) u hu hDu v hv
  have hGdep : DependsOn (fun v => S v ∧ ¬ D v) G := by
    apply prodDep
    intro n hn v hv
    obtain ⟨hn1, hn2⟩ := List.mem_filter.1 hn
    have ht : ¬ touches n := by simpa using hn2
    obtain ⟨hn3, hn4⟩ := List.mem_filter.1 hn1
    have hs : S n.name := by simpa using hn4
    refine ⟨?_, fun hDv => ht ⟨v, hv, hDv⟩⟩
    rcases List.mem_cons.1 hv with rfl | hp
    · exact hs
    · exact hS n hn3 hs v hp
  have hSφ : DependsOn S φ := hφ.mono (fun v hv => (hD v hv).1)
  have hSψ : DependsOn S ψ := hψ.mono (fun v hv => hv.1)
  have hSε : DependsOn S ε := hε.mono hZS
  rw [nest_ancestral h hN S hS ((hSφ.mul hSψ).mul hSε)]
  have hperm : (Rn ++ Dn).Perm SN := by
    have := List.filter_append_perm (fun n : Node ν β => decide (¬ D n.name)) SN
    have e : SN.filter (fun n => !decide (¬ D n.name)) = Dn := by
      apply List.filter_congr
      intro n _
      by_cases hd : D n.name <;> simp [hd]
    rw [e] at this
    exact this
  rw [nest_perm hperm.symm hSNu, nest_append]
  have hprod : ∀ a, prodOf SN a = F a * G a := by
    intro a
    have := List.filter_append_perm (fun n : Node ν β => decide (touches n)) SN
    rw [← prodOf_perm this]
    have e : SN.filter (fun n => !decide (touches n)) = SN.filter (fun n => decide (¬ touches n)) := by
      apply List.filter_congr
      intro n _
      by_cases hd : touches n <;> simp [hd]
    rw [e]
    unfold prodOf
    rw [List.map_append, List.prod_append]
    rfl
  have hK : DependsOn (fun v => S v ∧ ¬ D v) (fun a => G a * (ψ a * ε a)) :=
    hGdep.mul (hψ.mul (hε.mono (fun v hv => ⟨hZS v hv, hDZ v hv⟩)))
  have hFφ : DependsOn (fun v => D v ∨ Zv v) (fun a => F a * φ a) :=
    hFdep.mul (hφ.mono (fun v hv => .inl hv))
  have inner : ∀ a', nest Dn a' (fun a => prodOf SN a * (φ a * ψ a * ε a)) =
      nest Dn b (fun a => F a * φ a) * (G a' * (ψ a' * ε a')) := by
    intro a'
    have e : (fun a => prodOf SN a * (φ a * ψ a * ε a)) =
        fun a => (G a * (ψ a * ε a)) * (F a * φ a) := by
      funext a; rw [hprod]; ring
    rw [e, nest_factor hK _ Dn (fun n hn => by
      have : D n.name := by simpa using (List.mem_filter.1 hn).2
      exact fun h => h.2 this), mul_comm]
    by_cases hz : ε a' = 0
    · rw [hz]; ring
    · congr 1
      apply nest_agree hFφ
      intro v hv hn
      rcases hv with hv | hv
      · exfalso
        obtain ⟨hs, hm⟩ := hD v hv
        obtain ⟨n, hn', rfl⟩ := List.mem_map.1 hm
        exact hn (List.mem_map.2 ⟨n, List.mem_filter.2 ⟨List.mem_filter.2 ⟨hn', by simpa using hs⟩,
          by simpa using hv⟩, rfl⟩)
      · exact hb a' hz v hv
  have e2 : (fun a' => nest Dn a' (fun a => prodOf SN a * (φ a * ψ a * ε a))) =
      fun a' => nest Dn b (fun a => F a * φ a) * (G a' * (ψ a' * ε a')) := funext inner
  show nest Rn a₀ (fun a' => nest Dn a' (fun a => prodOf SN a * (φ a * ψ a * ε a))) = _
  rw [e2, nest_mul_left]

/-! ## d-separated variables are independent -/

namespace Spec

/-- The ID of a variable: its place in the order of the names.
(Models no code: a notion for statements and proofs.) -/
def idOf (nodes : List (Node ν β)) (v : ν) : Nat :=
  ((nodes.map (·.name)).insertionSort (· ≤ ·)).idxOf v

/-- The edges of the network, between IDs.
(Models no code: a notion for statements and proofs.) -/
def Edge (nodes : List (Node ν β)) (i j : Nat) : Prop :=
  ∃ p c, ParentOf nodes p c ∧ idOf nodes p = i ∧ idOf nodes c = j

end Spec

section markov
variable {nodes : List (Node ν β)}

theorem idOf_inj {v w : ν} (hv : v ∈ nodes.map (·.name)) (h : idOf nodes v = idOf nodes w) :
    v = w := (List.idxOf_inj (mem_names.2 hv)).1 h

theorem edge_acyclic (h : WellFormed nodes) : Graph.Acyclic (Edge nodes) := by
  have key : ∀ i j, Relation.TransGen (Edge nodes) i j → ∃ p c, idOf nodes p = i ∧ idOf nodes c = j ∧
      p ∈ nodes.map (·.name) ∧ c ∈ nodes.map (·.name) ∧ Relation.TransGen (ParentOf nodes) p c := by
    have mem : ∀ p c, ParentOf nodes p c → p ∈ nodes.map (·.name) ∧ c ∈ nodes.map (·.name) := by
      rintro p c ⟨n, hn, rfl, hp⟩
      exact ⟨h.known n hn p hp, List.mem_map.2 ⟨n, hn, rfl⟩⟩
    intro i j hij
    induction hij with
    | single he =>
      obtain ⟨p, c, hpc, rfl, rfl⟩ := he
      exact ⟨p, c, rfl, rfl, (mem p c hpc).1, (mem p c hpc).2, .single hpc⟩
    | tail _ he ih =>
      obtain ⟨p, c, e1, e2, m1, m2, ht⟩ := ih
      obtain ⟨p', c', hpc, e3, rfl⟩ := he
      have : c = p' := idOf_inj m2 (e2.trans e3.symm)
      subst this
      exact ⟨p, c', e1, rfl, m1, (mem _ _ hpc).2, .tail ht hpc⟩
  intro i hi
  obtain ⟨p, c, e1, e2, m1, m2, ht⟩ := key i i hi
  have : p = c := idOf_inj m1 (e1.trans e2.symm)
  subst this
  exact h.acyclic p ht

theorem valueOfID_eq (h : WellFormed nodes) {n : Node ν β} (hn : n ∈ nodes) (a : ν → β) :
    valueOfID nodes a (idOf nodes n.name : Int) = (n.values.idxOf (a n.name) : Int) := by
  unfold valueOfID indices idOf
  have hm : n.name ∈ (nodes.map (·.name)).insertionSort (· ≤ ·) :=
    mem_names.2 (List.mem_map.2 ⟨n, hn, rfl⟩)
  have hlt := List.idxOf_lt_length_of_mem hm
  rw [List.getElem?_map, Int.toNat_natCast, List.getElem?_eq_getElem hlt, List.getElem_idxOf hlt]
  simp only [Option.map_some, Option.getD_some]
  unfold position
  cases hf : nodes.find? (fun m => m.name = n.name) with
  | none =>
    have := List.find?_eq_none.1 hf n hn
    simp at this
  | some m =>
    have h1 := List.mem_of_find?_eq_some hf
    have h2 := List.find?_some hf
    rw [unique_node h.unique h1 hn (by simpa using h2)]

theorem exists_node (h : WellFormed nodes) {i : Nat} (hi : i < nodes.length) :
    ∃ n ∈ nodes, idOf nodes n.name = i := by
  have hnd : (names nodes).Nodup := (names_perm nodes).nodup_iff.2 h.unique
  have hlt : i < (names nodes).length := by
    rw [(names_perm nodes).length_eq, List.length_map]; exact hi
  obtain ⟨n, hn, e⟩ := List.mem_map.1 (mem_names.1 (List.getElem_mem hlt))
  refine ⟨n, hn, ?_⟩
  rw [e]
  exact hnd.idxOf_getElem i hlt

variable [Nonempty β]

theorem prob_congr_on {E F : (ν → β) → Prop} (h : ∀ a ∈ assignments nodes, (E a ↔ F a)) :
    prob nodes E = prob nodes F := by
  classical
  rw [prob_eq, prob_eq]
  congr 1
  apply List.map_congr_left
  intro a ha
  simp only [h a ha]

/-- **C66.** The global Markov property: if `X` and `Y` are d-separated by `Z` in the graph of the
network, they are independent given `Z` in the distribution of the network. -/
theorem d_separation_implies_independence (nodes : List (Node ν β)) (h : WellFormed nodes)
    (hN : Normalised nodes) (X Y : Nat) (Z : List Nat) (hX : X < nodes.length)
    (hY : Y < nodes.length) (hZ : ∀ z ∈ Z, z < nodes.length) (hXZ : X ∉ Z) (hYZ : Y ∉ Z)
    (hsep : Graph.DSep (Edge nodes) X Y {z | z ∈ Z}) :
    NetIndependent nodes X Y (Z.map (fun z : Nat => (z : Int))) := by
  classical
  intro x y z
  by_cases hex : ∃ b ∈ assignments nodes,
      (Z.map (fun z : Nat => (z : Int))).map (valueOfID nodes b) = z
  swap
  · have h0 : ∀ E : (ν → β) → Prop, (∀ a, E a → (Z.map (fun z : Nat => (z : Int))).map (valueOfID nodes a) = z) →
        prob nodes E = 0 := by
      intro E hE
      by_contra hne
      obtain ⟨a, ha, hEa⟩ := prob_ne_zero hne
      exact hex ⟨a, ha, hE a hEa⟩
    rw [h0 _ (fun a ha => ha), h0 (fun a => valueOfID nodes a X = x ∧ _) (fun a ha => ha.2)]
    simp
  obtain ⟨b, hb, rfl⟩ := hex
  have hbd := mem_worlds h.unique hb
  obtain ⟨nX, hnX, rfl⟩ := exists_node h hX
  obtain ⟨nY, hnY, rfl⟩ := exists_node h hY
  let En := Edge nodes
  let Zset : Set Nat := {z | z ∈ Z}
  let S : ν → Prop := fun v => Graph.Ancestral En Zset (idOf nodes nX.name) (idOf nodes nY.name) (idOf nodes v)
  let D : ν → Prop := fun v => v ∈ nodes.map (·.name) ∧
    Relation.ReflTransGen (Graph.MoralStep En Zset (idOf nodes nX.name) (idOf nodes nY.name))
      (idOf nodes nX.name) (idOf nodes v)
  let Zv : ν → Prop := fun v => v ∈ nodes.map (·.name) ∧ idOf nodes v ∈ Z
  have hmem : ∀ n ∈ nodes, n.name ∈ nodes.map (·.name) := fun n hn => List.mem_map.2 ⟨n, hn, rfl⟩
  have hDfacts : ∀ v, D v → S v ∧ idOf nodes v ∉ Z := by
    rintro v ⟨_, hr⟩
    rcases Relation.ReflTransGen.cases_tail hr with e | ⟨w, _, hs⟩
    · rw [show idOf nodes v = idOf nodes nX.name from e]
      refine ⟨?_, hXZ⟩
      show Graph.Ancestral _ _ _ _ _
      rw [show idOf nodes v = idOf nodes nX.name from e]
      exact .inl .refl
    · exact ⟨hs.ancTo, hs.target⟩
  have hDY : ¬ D nY.name := fun hd => hsep (Graph.connected_of_moral (edge_acyclic h) hd.2)
  have hS : ∀ n ∈ nodes, S n.name → ∀ p ∈ n.parents, S p := by
    intro n hn hs p hp
    have he : En (idOf nodes p) (idOf nodes n.name) := ⟨p, n.name, ⟨n, hn, rfl, hp⟩, rfl, rfl⟩
    rcases hs with hs | hs | ⟨z, hz, hs⟩
    · exact .inl (.head he hs)
    · exact .inr (.inl (.head he hs))
    · exact .inr (.inr ⟨z, hz, .head he hs⟩)
  have hfam : ∀ n ∈ nodes, S n.name → ∀ u ∈ n.name :: n.parents, D u →
      ∀ v ∈ n.name :: n.parents, D v ∨ Zv v := by
    intro n hn hs u hu hDu v hv
    have hvm : v ∈ nodes.map (·.name) := by
      rcases List.mem_cons.1 hv with rfl | hp
      · exact hmem n hn
      · exact h.known n hn v hp
    have hvS : S v := by
      rcases List.mem_cons.1 hv with rfl | hp
      · exact hs
      · exact hS n hn hs v hp
    have edge : ∀ p ∈ n.parents, En (idOf nodes p) (idOf nodes n.name) :=
      fun p hp => ⟨p, n.name, ⟨n, hn, rfl, hp⟩, rfl, rfl⟩
    by_cases hz : idOf nodes v ∈ Z
    · exact .inr ⟨hvm, hz⟩
    · left
      by_cases huv : u = v
      · exact huv ▸ hDu
      · refine ⟨hvm, hDu.2.tail ⟨(hDfacts u hDu).2, hz, (hDfacts u hDu).1, hvS, ?_⟩⟩
        rcases List.mem_cons.1 hu with rfl | hup
        · rcases List.mem_cons.1 hv with rfl | hvp
          · exact absurd rfl huv
          · exact .inr (.inl (edge v hvp))
        · rcases List.mem_cons.1 hv with rfl | hvp
          · exact .inl (edge u hup)
          · exact .inr (.inr ⟨_, hs, edge u hup, edge v hvp⟩)
  obtain ⟨f, g, hfg⟩ := separation_factorises h hN S D Zv b (fun _ => Classical.arbitrary β) hS
    (fun v hv => ⟨(hDfacts v hv).1, hv.1⟩)
    (fun v hv => .inr (.inr ⟨_, hv.2, .refl⟩)) (fun v hv hd => (hDfacts v hd).2 hv.2) hfam
  -- the events as functions
  let ind : ((ν → β) → Prop) → (ν → β) → ℚ := fun P a => if P a then 1 else 0
  let ε : (ν → β) → ℚ := fun a => if ∀ v, Zv v → a v = b v then 1 else 0
  have hε : DependsOn Zv ε := by
    intro a a' haa
    have : (∀ v, Zv v → a v = b v) ↔ ∀ v, Zv v → a' v = b v :=
      forall_congr' (fun v => imp_congr_right (fun hv => by rw [haa v hv]))
    simp only [ε, this]
  have hεb : ∀ a, ε a ≠ 0 → ∀ v, Zv v → a v = b v := by
    intro a ha
    by_contra hn
    exact ha (if_neg hn)
  have hev : ∀ a ∈ assignments nodes,
      ((Z.map (fun z : Nat => (z : Int))).map (valueOfID nodes a) =
        (Z.map (fun z : Nat => (z : Int))).map (valueOfID nodes b) ↔ ∀ v, Zv v → a v = b v) := by
    intro a ha
    have had := mem_worlds h.unique ha
    rw [List.map_map, List.map_map, List.map_inj_left]
    constructor
    · rintro hall v ⟨hv, hvZ⟩
      obtain ⟨n, hn, rfl⟩ := List.mem_map.1 hv
      have := hall _ hvZ
      simp only [Function.comp] at this
      rw [valueOfID_eq h hn, valueOfID_eq h hn] at this
      exact (List.idxOf_inj (had n hn)).1 (by exact_mod_cast this)
    · intro hall i hi
      obtain ⟨n, hn, rfl⟩ := exists_node h (hZ i hi)
      simp only [Function.comp]
      rw [valueOfID_eq h hn, valueOfID_eq h hn, hall n.name ⟨hmem n hn, hi⟩]
  have main : ∀ P Q : (ν → β) → Prop, DependsOn D (ind P) →
      DependsOn (fun v => S v ∧ ¬ D v) (ind Q) →
      prob nodes (fun a => P a ∧ Q a ∧ (Z.map (fun z : Nat => (z : Int))).map (valueOfID nodes a) =
        (Z.map (fun z : Nat => (z : Int))).map (valueOfID nodes b)) =
      f (ind P) * g (fun a => ind Q a * ε a) := by
    intro P Q hP hQ
    rw [← hfg _ _ ε hP hQ hε hεb, prob_congr_on (F := fun a => P a ∧ Q a ∧ ∀ v, Zv v → a v = b v)
      (fun a ha => by simp only [hev a ha]), prob_eq, assignments, sum_worlds]
    congr 1
    funext a
    congr 1
    by_cases h1 : P a <;> by_cases h2 : Q a <;> by_cases h3 : ∀ v, Zv v → a v = b v <;>
      simp [h1, h2, h3, ε, ind]
  have indDep : ∀ (T : ν → Prop) (P : (ν → β) → Prop),
      (∀ a a', (∀ v, T v → a v = a' v) → (P a ↔ P a')) → DependsOn T (ind P) := by
    intro T P hP a a' haa
    by_cases h1 : P a
    · simp [ind, h1, (hP a a' haa).1 h1]
    · have h2 : ¬ P a' := fun h2 => h1 ((hP a a' haa).2 h2)
      simp [ind, h1, h2]
  have dX : DependsOn D (ind (fun a => valueOfID nodes a (idOf nodes nX.name : Int) = x)) := by
    apply indDep
    intro a a' haa
    rw [valueOfID_eq h hnX, valueOfID_eq h hnX, haa nX.name ⟨hmem nX hnX, .refl⟩]
  have dY : DependsOn (fun v => S v ∧ ¬ D v)
      (ind (fun a => valueOfID nodes a (idOf nodes nY.name : Int) = y)) := by
    apply indDep
    intro a a' haa
    rw [valueOfID_eq h hnY, valueOfID_eq h hnY, haa nY.name ⟨.inr (.inl .refl), hDY⟩]
  have dT : ∀ T : ν → Prop, DependsOn T (ind (fun _ => True)) :=
    fun T a a' _ => rfl
  have m1 := main _ _ dX dY
  have m2 := main (fun _ => True) (fun _ => True) (dT _) (dT _)
  have m3 := main _ (fun _ => True) dX (dT _)
  have m4 := main (fun _ => True) _ (dT _) dY
  simp only [true_and] at m2 m3 m4
  unfold jointXYZ
  rw [m1, m2, m3, m4]
  ring

end markov

end Mbtk.BN
