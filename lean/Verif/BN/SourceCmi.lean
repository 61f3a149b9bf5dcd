import Verif.Props.BNProps
import Verif.Stats.CmiModel
import Verif.Stats.UnoptTables
import Mathlib.Tactic.Tauto
/-!
# Conditional mutual information from the source network (C65)

`CMICalculator.compute` with `heuristic_pmf_source` set to the Bayesian network
(`mbtk/math/CMICalculator.py` 29-72).
-/
namespace Mbtk.BN
open Spec Stats Finset
variable {ν β : Type} [LinearOrder ν] [DecidableEq β]

/-! ## Model -/

/-- `make_pmfs_from_source_bn(X, Y, Zl)`: CMICalculator.py 53-72. -/
def sourceTables (ord : List Int → List Int) (net : Net ν β) (X Y : Int) : List Int → Except Err Tables
  | [] => do
    let prXY ← createPartialJointPmf ord net [X, Y]
    let prX ← prXY.sumOver Y
    let prY ← prXY.sumOver X
    .ok ⟨omegaCPMF prXY, omegaCPMF prX, omegaCPMF prY, omegaPMF⟩
  | z :: Z => do
    let prXYZ ← createPartialJointPmf ord net (X :: Y :: z :: Z)
    let prXZ ← prXYZ.sumOver Y
    let prYZ ← prXYZ.sumOver X
    let prZ ← prXZ.sumOver X
    let prXYcZ ← prXYZ.conditionOn prZ
    let prXcZ ← prXZ.conditionOn prZ
    let prYcZ ← prYZ.conditionOn prZ
    .ok ⟨prXYcZ, prXcZ, prYcZ, prZ⟩

/-- `CMICalculator.compute(X, Y, Z)` with the network as source: CMICalculator.py 29-50.  `ord` is the
order in which Python visits its sets. -/
noncomputable def cmiFromNet (ord : List Int → List Int) (net : Net ν β) (X Y : Int) (Z : List Int) :
    Except Err ℝ := do
  let t ← sourceTables ord net X Y Z
  .ok (conditionalMutualInformation Real.log t.PrXYcZ t.PrXcZ t.PrYcZ t.PrZ)

/-! ## Specification -/

namespace Spec

/-- All ways to give the nodes declared values (and the other names the value they have in `a`).
(Specification.) -/
def worlds : List (Node ν β) → (ν → β) → List (ν → β)
  | [], a => [a]
  | n :: ns, a => n.values.flatMap (fun v => worlds ns (Function.update a n.name v))

/-- All assignments of the network. (Specification.) -/
noncomputable def assignments [Nonempty β] (nodes : List (Node ν β)) : List (ν → β) :=
  worlds nodes (fun _ => Classical.arbitrary β)

open Classical in
/-- The probability of an event, by the chain rule. (Specification.) -/
noncomputable def prob [Nonempty β] (nodes : List (Node ν β)) (E : (ν → β) → Prop) : ℚ :=
  (((assignments nodes).filter (fun a => E a)).map (jointProb nodes)).sum

/-- The value of the variable with ID `i`, as a position in its list of values.  The variable with
ID `i` is the `i`-th in the order of the names. (Specification.) -/
def valueOfID (nodes : List (Node ν β)) (a : ν → β) (i : Int) : Int :=
  ((indices nodes a)[i.toNat]?).getD 0

/-- Joint probability of a value of `X`, a value of `Y` and values of the variables `Z`.
(Specification.) -/
noncomputable def jointXYZ [Nonempty β] (nodes : List (Node ν β)) (X Y : Int) (Z : List Int)
    (x y : Int) (z : List Int) : ℚ :=
  prob nodes (fun a => valueOfID nodes a X = x ∧ valueOfID nodes a Y = y ∧
    Z.map (valueOfID nodes a) = z)

/-- The possible values of a variable. (Specification.) -/
noncomputable def valuesOf [Nonempty β] (nodes : List (Node ν β)) (X : Int) : Finset Int :=
  ((assignments nodes).map (fun a => valueOfID nodes a X)).toFinset

/-- The possible combinations of values of some variables. (Specification.) -/
noncomputable def combinationsOf [Nonempty β] (nodes : List (Node ν β)) (Z : List Int) :
    Finset (List Int) :=
  ((assignments nodes).map (fun a => Z.map (valueOfID nodes a))).toFinset

/-- The conditional mutual information of `X` and `Y` given `Z` in the distribution of the network
(`Stats.Info.cmi` is the textbook formula). (Specification.) -/
noncomputable def netCmi [Nonempty β] (nodes : List (Node ν β)) (X Y : Int) (Z : List Int) : ℝ :=
  Stats.Info.cmi (valuesOf nodes X) (valuesOf nodes Y) (combinationsOf nodes Z)
    (fun x y z => (jointXYZ nodes X Y Z x y z : ℝ))

/-- `X` and `Y` are independent given `Z` in the distribution of the network.
(Specification.) -/
def NetIndependent [Nonempty β] (nodes : List (Node ν β)) (X Y : Int) (Z : List Int) : Prop :=
  ∀ x y z, jointXYZ nodes X Y Z x y z * prob nodes (fun a => Z.map (valueOfID nodes a) = z) =
    prob nodes (fun a => valueOfID nodes a X = x ∧ Z.map (valueOfID nodes a) = z) *
    prob nodes (fun a => valueOfID nodes a Y = y ∧ Z.map (valueOfID nodes a) = z)

end Spec

/-! ## Probabilities of events -/

section prob
variable [Nonempty β]

omit [DecidableEq β] [Nonempty β] in
theorem sum_worlds (ns : List (Node ν β)) (a : ν → β) (G : (ν → β) → ℚ) :
    ((worlds ns a).map G).sum = nest ns a G := by
  induction ns generalizing a with
  | nil => simp [worlds, nest]
  | cons n ns ih =>
    simp only [worlds, nest, List.map_flatMap]
    rw [List.flatMap_def, List.sum_flatten, List.map_map]
    congr 1
    apply List.map_congr_left
    intro v _
    exact ih _

theorem sum_filter_eq {α : Type} (l : List α) (p : α → Prop) [DecidablePred p] (w : α → ℚ) :
    ((l.filter (fun a => p a)).map w).sum = (l.map (fun a => w a * (if p a then 1 else 0))).sum := by
  induction l with
  | nil => rfl
  | cons x l ih =>
    by_cases h : p x
    · rw [List.filter_cons_of_pos (by simpa using h)]; simp [h, ih]
    · rw [List.filter_cons_of_neg (by simpa using h)]; simp [h, ih]

open Classical in
theorem prob_eq (nodes : List (Node ν β)) (E : (ν → β) → Prop) :
    prob nodes E = ((assignments nodes).map (fun a => jointProb nodes a * (if E a then 1 else 0))).sum :=
  sum_filter_eq _ _ _

theorem prob_congr (nodes : List (Node ν β)) {E F : (ν → β) → Prop} (h : ∀ a, E a ↔ F a) :
    prob nodes E = prob nodes F := by
  have : E = F := funext fun a => propext (h a)
  rw [this]

/-- Splitting an event by the value of a variable. -/
theorem sum_prob {γ : Type} [DecidableEq γ] (nodes : List (Node ν β)) (E : (ν → β) → Prop)
    (g : (ν → β) → γ) (S : Finset γ) (hS : ∀ a ∈ assignments nodes, g a ∈ S) :
    ∑ y ∈ S, prob nodes (fun a => E a ∧ g a = y) = prob nodes E := by
  classical
  simp only [prob_eq]
  generalize assignments nodes = l at hS
  induction l with
  | nil => simp
  | cons a l ih =>
    simp only [List.map_cons, List.sum_cons, Finset.sum_add_distrib]
    rw [ih (fun b hb => hS b (by simp [hb]))]
    congr 1
    by_cases h : E a
    · simp only [h, true_and]
      rw [Finset.sum_eq_single (g a)]
      · simp
      · intro y _ hy; rw [if_neg (fun e => hy e.symm), mul_zero]
      · intro hn; exact absurd (hS a (by simp)) hn
    · simp [h]

theorem prob_ne_zero {nodes : List (Node ν β)} {E : (ν → β) → Prop} (h : prob nodes E ≠ 0) :
    ∃ a ∈ assignments nodes, E a := by
  classical
  by_contra hn
  apply h
  unfold prob
  have : (assignments nodes).filter (fun a => decide (E a)) = [] := by
    rw [List.filter_eq_nil_iff]
    intro a ha
    simpa using fun he => hn ⟨a, ha, he⟩
  simp only [this, List.map_nil, List.sum_nil]

omit [DecidableEq β] [Nonempty β] in
theorem mem_worlds {ns : List (Node ν β)} (hn : (ns.map (·.name)).Nodup) {a b : ν → β}
    (h : b ∈ worlds ns a) : ∀ n ∈ ns, b n.name ∈ n.values := by
  have stay : ∀ (ns : List (Node ν β)) (a b : ν → β), b ∈ worlds ns a →
      ∀ v, v ∉ ns.map (·.name) → b v = a v := by
    intro ns
    induction ns with
    | nil => intro a b hb v _; simp only [worlds, List.mem_singleton] at hb; rw [hb]
    | cons n ns ih =>
      intro a b hb v hv
      simp only [worlds, List.mem_flatMap] at hb
      obtain ⟨w, _, hb⟩ := hb
      simp only [List.map_cons, List.mem_cons, not_or] at hv
      rw [ih _ _ hb v hv.2, Function.update_of_ne hv.1]
  induction ns generalizing a with
  | nil => simp
  | cons n ns ih =>
    simp only [worlds, List.mem_flatMap] at h
    obtain ⟨w, hw, h⟩ := h
    simp only [List.map_cons, List.nodup_cons] at hn
    intro m hm
    rcases List.mem_cons.1 hm with rfl | hm
    · rw [stay _ _ _ h _ hn.1]; simpa using hw
    · exact ih hn.2 h m hm

theorem prob_nonneg {nodes : List (Node ν β)} (h : WellFormed nodes) (hN : Normalised nodes)
    (E : (ν → β) → Prop) : 0 ≤ prob nodes E := by
  classical
  unfold prob
  apply List.sum_nonneg
  intro p hp
  obtain ⟨a, ha, rfl⟩ := List.mem_map.1 hp
  have hA := mem_worlds h.unique (List.mem_of_mem_filter ha)
  unfold jointProb
  apply List.prod_nonneg
  intro q hq
  obtain ⟨n, hn, rfl⟩ := List.mem_map.1 hq
  exact cpt_nonneg hN hn (declaredFor_of (done := nodes.map (·.name))
    (fun m hm _ => hA m hm) n.parents (h.known n hn) (h.known n hn)) _

/-- The joint PMF of the code, event by event. -/
theorem massWhere_full {nodes : List (Node ν β)} (h : WellFormed nodes) (hid : NoIDs nodes)
    {net : Net ν β} (e : finalize { nodes := nodes } = .ok net) {full : PMF}
    (ef : createJointPmf net = .ok full) :
    full.variableIDs.Nodup ∧ (∀ i, i ∈ full.variableIDs ↔ 0 ≤ i ∧ i < nodes.length) ∧
    full.variableIDs.Pairwise (· < ·) ∧
    (∀ p ∈ full.probabilities, p.1.comps.length = full.variableIDs.length) ∧
    ∀ (E : (Int → Int) → Prop) [DecidablePred E],
      (∀ f g, (∀ i ∈ full.variableIDs, f i = g i) → (E f ↔ E g)) →
      massWhere full (fun l => E (valueOf full.variableIDs l)) =
        prob nodes (fun a => E (valueOfID nodes a)) := by
  have hf := finalize_unique h e
  have hI := indexed_of_finalize h hid e
  let a0 : ν → β := fun _ => Classical.arbitrary β
  have hpmf := createJointPmf_ok h hf a0
  obtain ⟨f, hn, hfs⟩ := hf.nodes_eq
  have hsd : ∀ n ∈ nodes, SameDecl n (f n) := fun n hn => (hfs n hn).1
  have hind : ∀ a, indices net.nodes a = indices nodes a := by
    intro a; rw [hn]; exact indices_map h.unique hsd a
  have hbr : branches (pickNodes net.nodes net.nodeOrder) a0 1 =
      branches (pickNodes nodes net.nodeOrder) a0 1 := by
    rw [hn, pickNodes_map hsd, branches_decl _ (fun n hn => hsd n
      ((pickNodes_spec net.nodeOrder (fun v hv => hf.order.perm.mem_iff.1 hv)).2 n hn))]
  have hperm := pickNodes_perm h.unique hf.order.perm
  have hrdy := ready_of_topological h.unique hf.order
  rw [hbr] at hpmf
  simp only [hind] at hpmf
  rw [ef] at hpmf
  have hnm : names net.nodes = names nodes := by rw [hn]; exact names_map hsd
  have hlen : (names nodes).length = nodes.length := by
    rw [(names_perm nodes).length_eq, List.length_map]
  have hids : net.ids = (List.range nodes.length).map (fun k : Nat => (k : Int)) := by
    rw [hI.ids, hnm]
    apply List.ext_getElem (by simp [hlen])
    intro i h1 h2
    simp only [List.getElem_map, List.getElem_range]
    rw [((names_perm nodes).nodup_iff.2 h.unique).idxOf_getElem]
  have hfid : full.variableIDs = net.ids := by
    have := Except.ok.inj hpmf
    rw [this]
  have hmem : ∀ i, i ∈ full.variableIDs ↔ 0 ≤ i ∧ i < nodes.length := by
    intro i
    rw [hfid, hids]
    simp only [List.mem_map, List.mem_range]
    constructor
    · rintro ⟨k, hk, rfl⟩; omega
    · rintro ⟨h1, h2⟩; exact ⟨i.toNat, by omega, by omega⟩
  have hnd : full.variableIDs.Nodup := by
    rw [hfid, hids]
    exact List.nodup_range.map (fun a b hab => by simpa using hab)
  have hil : ∀ a, (indices nodes a).length = nodes.length := by
    intro a; simp [indices]
  refine ⟨hnd, hmem, ?_, ?_, ?_⟩
  · rw [hfid, hids, List.pairwise_map]
    exact List.pairwise_lt_range.imp (fun h => by exact_mod_cast h)
  · intro p hp
    have := Except.ok.inj hpmf
    rw [this] at hp
    obtain ⟨x, _, rfl⟩ := List.mem_map.1 hp
    rw [hfid, hids]
    simp [Key.comps, hil]
  · intro E _ hE
    have hval : ∀ a : ν → β, E (valueOf full.variableIDs (indices nodes a)) ↔ E (valueOfID nodes a) := by
      intro a
      apply hE
      intro i hi
      unfold valueOf valueOfID
      have h1 := (hmem i).1 hi
      congr 2
      have h2 : i.toNat < full.variableIDs.length := by
        rw [hfid, hids]; simp; omega
      have h3 : full.variableIDs[i.toNat] = i := by
        simp only [hfid, hids, List.getElem_map, List.getElem_range]; omega
      conv_lhs => rw [← h3]
      exact hnd.idxOf_getElem _ h2
    have hfull := Except.ok.inj hpmf
    have h1 : massWhere full (fun l => E (valueOf full.variableIDs l)) =
        ((branches (pickNodes nodes net.nodeOrder) a0 1).map
          (fun x => x.2 * (if E (valueOfID nodes x.1) then 1 else 0))).sum := by
      conv_lhs => rw [hfull]
      rw [massWhere_leaves]
      congr 1
      apply List.map_congr_left
      intro x _
      have : (E (valueOf net.ids (indices nodes x.1))) ↔ E (valueOfID nodes x.1) := by
        rw [← hfid]; exact hval x.1
      simp only [this]
    rw [h1, weighted_sum_branches _ [] a0 1 hrdy (fun a => if E (valueOfID nodes a) then 1 else 0),
      nest_perm hperm hrdy.nodup.1]
    classical
    rw [prob_eq, assignments, sum_worlds]
    congr 1
    funext a
    rw [one_mul]
    have : prodOf (pickNodes nodes net.nodeOrder) a = jointProb nodes a := by
      unfold prodOf jointProb
      exact (hperm.map _).prod_eq
    rw [this]
    congr 1
    by_cases hh : E (valueOfID nodes a) <;> simp [hh]


/-! ## Marginal PMFs -/

theorem valueOf_map {L : List Int} (q : Int → Int) {i : Int} (hi : i ∈ L) :
    valueOf L (L.map q) i = q i := by
  unfold valueOf
  have h := List.idxOf_lt_length_of_mem hi
  rw [List.getElem?_map, List.getElem?_eq_getElem h, List.getElem_idxOf h]
  rfl

theorem coordinates_eq {ids l : List Int} (hn : ids.Nodup) (hl : l.length = ids.length)
    (w : Int → Prop) [DecidablePred w] :
    coordinates ids w l = (ids.filter (fun i => w i)).map (valueOf ids l) := by
  have := coordinates_map ids id (valueOf ids l) w
  rw [List.map_id, valueOf_all hn hl] at this
  exact this

/-- `r` holds the distribution of the variables `ids`. (Specification.) -/
structure Marg (nodes : List (Node ν β)) (ids : List Int) (r : PMF) : Prop where
  canon : Canonical r
  idsEq : r.variableIDs = ids
  mass : ∀ (E : (Int → Int) → Prop) [DecidablePred E],
    (∀ f g, (∀ i ∈ ids, f i = g i) → (E f ↔ E g)) →
    massWhere r (fun l => E (valueOf ids l)) = prob nodes (fun a => E (valueOfID nodes a))

variable {nodes : List (Node ν β)} {ids : List Int} {r : PMF}

theorem Marg.nodup (h : Marg nodes ids r) : ids.Nodup := by
  rw [← h.idsEq]; exact h.canon.ids

theorem Marg.tab (h : Marg nodes ids r) : Tabulates r.probabilities mkKey ids.length
    (fun l => prob nodes (fun a => ids.map (valueOfID nodes a) = l)) := by
  refine ⟨h.canon.keys, ?_, ?_⟩
  · intro k hk
    obtain ⟨p, hp, rfl⟩ := List.mem_map.1 hk
    obtain ⟨h1, h2⟩ := h.canon.shape p hp
    exact ⟨p.1.comps, by rw [h2, h.idsEq], h1⟩
  · intro l hl
    have h1 := h.canon.p_eq [(mkKey l).toVal]
    rw [PMF.p_key, mkKey_comps] at h1
    have h2 : leavesAll [(mkKey l).toVal] = l := by
      simp [leavesAll, Key.leaves_toVal, mkKey_comps]
    rw [h1, h2, ← h.mass (fun f => ids.map f = l) (fun f g hfg => by
      rw [List.map_congr_left hfg])]
    apply massWhere_congr
    intro p hp
    rw [valueOf_all h.nodup (by rw [(h.canon.shape p hp).2, h.idsEq])]

theorem Marg.sumOver (h : Marg nodes ids r) {i : Int} (hi : i ∈ ids) (h2 : 2 ≤ ids.length) :
    ∃ r', r.sumOver i = .ok r' ∧ Marg nodes (ids.filter (fun j => j ≠ i)) r' := by
  obtain ⟨r', e, c, hid, m⟩ := sumOverAll_ok [i] r h.canon (by simp) (by simpa [h.idsEq] using hi)
    (.inr (by rw [h.idsEq]; simp only [List.length_singleton]; omega))
  have e' : r.sumOver i = .ok r' := by
    change (r.sumOver i >>= fun pmf => Except.ok pmf) = _ at e
    cases hs : r.sumOver i with
    | error x => rw [hs] at e; cases e
    | ok x => rw [hs] at e; exact e
  have hid' : r'.variableIDs = ids.filter (fun j => j ≠ i) := by
    rw [hid, h.idsEq]
    apply List.filter_congr
    intro j _; simp
  refine ⟨r', e', c, hid', ?_⟩
  intro E _ hE
  rw [m]
  rw [massWhere_congr r _ (fun l => E (valueOf ids l)), h.mass E]
  · intro f g hfg
    exact hE f g (fun j hj => hfg j (List.mem_of_mem_filter hj))
  · intro p hp
    apply hE
    intro j hj
    rw [h.idsEq, coordinates_eq h.nodup (by rw [(h.canon.shape p hp).2, h.idsEq])]
    have : ids.filter (fun j => j ∉ [i]) = ids.filter (fun j => j ≠ i) := by
      apply List.filter_congr
      intro j _; simp
    rw [this, valueOf_map _ hj]

theorem Marg.conditionOn {cids : List Int} {c : PMF} (h : Marg nodes ids r) (hc : Marg nodes cids c)
    (hsub : ∀ i ∈ cids, i ∈ ids) (h0 : cids ≠ []) (h2 : 2 ≤ ids.length) :
    ∃ t, r.conditionOn c = .ok t ∧
      CWF (fun rk => ∃ xs, rk = .tup xs ∧ xs.length = (ids.filter (fun v => v ∉ cids)).length) t ∧
      ∀ f : Int → Int, val2 t (mkKey (cids.map f)) (.tup ((ids.filter (fun v => v ∉ cids)).map f)) =
        prob nodes (fun a => ids.map (valueOfID nodes a) = ids.map f) /
          prob nodes (fun a => cids.map (valueOfID nodes a) = cids.map f) := by
  obtain ⟨t, e, w, _, v⟩ := conditionOn_ok r c h.canon.ids h.canon.keys
    (h.canon.isJoint (by rw [h.idsEq]; exact h2)).tuples (by rw [hc.idsEq]; exact h0)
    (by rw [h.idsEq, hc.idsEq]; exact hsub)
  rw [h.idsEq, hc.idsEq] at w v
  refine ⟨t, e, w, fun f => ?_⟩
  have := v (ids.map f) (by simp)
  have e1 : cids.map (valueOf ids (ids.map f)) = cids.map f :=
    List.map_congr_left (fun i hi => valueOf_map f (hsub i hi))
  have e2 : (ids.filter (fun v => v ∉ cids)).map (valueOf ids (ids.map f)) =
      (ids.filter (fun v => v ∉ cids)).map f :=
    List.map_congr_left (fun i hi => valueOf_map f (List.mem_of_mem_filter hi))
  rw [e1, e2] at this
  rw [this, hc.tab.value _ (by simp)]
  have h3 := h.tab.value (ids.map f) (by simp)
  rw [mkKey_of_ne (by simp; omega)] at h3
  rw [h3]

/-- The partial joint PMF. -/
theorem partial_marg (h : WellFormed nodes) (hN : Normalised nodes) (hid : NoIDs nodes)
    {net : Net ν β} (e : finalize { nodes := nodes } = .ok net) (ord : List Int → List Int)
    (hord : ∀ l, (ord l).Perm l) (vars : List Int) (hvars : ∀ i ∈ vars, 0 ≤ i ∧ i < nodes.length)
    {X Y : Int} (hX : X ∈ vars) (hY : Y ∈ vars) (hXY : X ≠ Y) :
    ∃ (F : List Int) (pmf : PMF), F.Pairwise (· < ·) ∧ (∀ i, i ∈ F ↔ 0 ≤ i ∧ i < (nodes.length : Int)) ∧
      createPartialJointPmf ord net vars = .ok pmf ∧
      Marg nodes (F.filter (fun i => i ∈ vars)) pmf := by
  have hlen : net.nodes.length = nodes.length := by
    obtain ⟨f, hn, _⟩ := (finalize_unique h e).nodes_eq
    rw [hn]; simp
  obtain ⟨full, pmf, e1, e2, hc, hi, hm⟩ := partial_joint_events nodes h hN hid net e ord hord vars
    (by rw [hlen]; exact hvars) (by
      intro n _ _ hall
      exact absurd ((hall X hX).trans (hall Y hY).symm) hXY)
  obtain ⟨f1, f2, f3, f4, f5⟩ := massWhere_full h hid e e1
  refine ⟨full.variableIDs, pmf, f3, f2, e2, hc, hi, ?_⟩
  intro E _ hE
  rw [hm, ← f5 E (fun f g hfg => hE f g (fun i hi => hfg i (List.mem_of_mem_filter hi)))]
  apply massWhere_congr
  intro p hp
  apply hE
  intro i hi
  rw [coordinates_eq f1 (f4 p hp), valueOf_map _ hi]

omit [LinearOrder ν] [DecidableEq β] [Nonempty β] in
theorem sorted_ext {l l' : List Int} (h : l.Pairwise (· < ·)) (h' : l'.Pairwise (· < ·))
    (hm : ∀ i, i ∈ l ↔ i ∈ l') : l = l' := by
  refine List.Perm.eq_of_pairwise (le := (· < ·)) (fun a b _ _ h1 h2 => absurd h1 (by omega)) h h' ?_
  exact (List.perm_ext_iff_of_nodup (h.imp (fun h => by omega)) (h'.imp (fun h => by omega))).2 hm


theorem prob_true (h : WellFormed nodes) (hN : Normalised nodes) (hid : NoIDs nodes)
    {net : Net ν β} (e : finalize { nodes := nodes } = .ok net) :
    prob nodes (fun _ => True) = 1 := by
  obtain ⟨full, e1, _, _, _, _, h1⟩ := joint_pmf_is_chain_rule nodes h net e
  obtain ⟨_, _, _, _, f5⟩ := massWhere_full h hid e e1
  rw [← f5 (fun _ => True) (fun _ _ _ => Iff.rfl), ← (h1 hN).2]
  unfold massWhere
  simp

/-! ## The tables of the computation -/

section tables
variable {X Y : Int} {Zs : List Int}

theorem sum_jointXYZ_y (x : Int) (z : List Int) :
    ∑ y ∈ valuesOf nodes Y, jointXYZ nodes X Y Zs x y z =
      prob nodes (fun a => valueOfID nodes a X = x ∧ Zs.map (valueOfID nodes a) = z) := by
  rw [← sum_prob nodes _ (fun a => valueOfID nodes a Y) (valuesOf nodes Y)]
  · refine Finset.sum_congr rfl (fun y _ => prob_congr _ (fun a => ?_))
    tauto
  · intro a ha
    exact List.mem_toFinset.2 (List.mem_map.2 ⟨a, ha, rfl⟩)

theorem sum_jointXYZ_x (y : Int) (z : List Int) :
    ∑ x ∈ valuesOf nodes X, jointXYZ nodes X Y Zs x y z =
      prob nodes (fun a => valueOfID nodes a Y = y ∧ Zs.map (valueOfID nodes a) = z) := by
  rw [← sum_prob nodes _ (fun a => valueOfID nodes a X) (valuesOf nodes X)]
  · refine Finset.sum_congr rfl (fun y _ => prob_congr _ (fun a => ?_))
    tauto
  · intro a ha
    exact List.mem_toFinset.2 (List.mem_map.2 ⟨a, ha, rfl⟩)

theorem sum_jointXYZ_xy (z : List Int) :
    ∑ x ∈ valuesOf nodes X, ∑ y ∈ valuesOf nodes Y, jointXYZ nodes X Y Zs x y z =
      prob nodes (fun a => Zs.map (valueOfID nodes a) = z) := by
  simp only [sum_jointXYZ_y]
  rw [← sum_prob nodes _ (fun a => valueOfID nodes a X) (valuesOf nodes X)]
  · refine Finset.sum_congr rfl (fun y _ => prob_congr _ (fun a => ?_))
    tauto
  · intro a ha
    exact List.mem_toFinset.2 (List.mem_map.2 ⟨a, ha, rfl⟩)

/-- Common part of the constructions of `CmiTables`. -/
theorem netTables_mk (h : WellFormed nodes) (hN : Normalised nodes) {eZ eX eY : List Int → Key}
    {t : Tables}
    (keyZ_inj : ∀ l l' : List Int, l.length = Zs.length → l'.length = Zs.length →
      eZ l = eZ l' → l = l')
    (keyZ : ∀ z : List Int, z.length = Zs.length → mkKey (eZ z).comps = eZ z)
    (keyX : ∀ l, (eX l).comps = l) (keyY : ∀ l, (eY l).comps = l)
    (tabZ : Tabulates t.PrZ.probabilities eZ Zs.length
      (fun z => prob nodes (fun a => Zs.map (valueOfID nodes a) = z)))
    (tabX : ∀ z, z.length = Zs.length →
      Tabulates (t.PrXcZ.given [(eZ z).toVal]).probabilities eX 1
        (fun l => prob nodes (fun a => valueOfID nodes a X = l.headD 0 ∧
          Zs.map (valueOfID nodes a) = z) / prob nodes (fun a => Zs.map (valueOfID nodes a) = z)))
    (tabY : ∀ z, z.length = Zs.length →
      Tabulates (t.PrYcZ.given [(eZ z).toVal]).probabilities eY 1
        (fun l => prob nodes (fun a => valueOfID nodes a Y = l.headD 0 ∧
          Zs.map (valueOfID nodes a) = z) / prob nodes (fun a => Zs.map (valueOfID nodes a) = z)))
    (valXY : ∀ z, z.length = Zs.length → ∀ x y,
      dictVal (t.PrXYcZ.given [(eZ z).toVal]).probabilities (.tup [x, y]) =
        jointXYZ nodes X Y Zs x y z / prob nodes (fun a => Zs.map (valueOfID nodes a) = z)) :
    CmiTables Zs.length (jointXYZ nodes X Y Zs) (valuesOf nodes X) (valuesOf nodes Y)
      (combinationsOf nodes Zs) eZ eX eY t.PrXYcZ t.PrXcZ t.PrYcZ t.PrZ := by
  refine ⟨fun x y z => prob_nonneg h hN _, ?_, ?_, ?_, ?_, keyZ_inj, keyZ, keyX, keyY, ?_, ?_, ?_, ?_⟩
  · intro z hz
    obtain ⟨a, _, rfl⟩ := List.mem_map.1 (List.mem_toFinset.1 hz)
    simp
  · intro x y z hne
    obtain ⟨a, ha, hx, _, _⟩ := prob_ne_zero hne
    exact List.mem_toFinset.2 (List.mem_map.2 ⟨a, ha, hx⟩)
  · intro x y z hne
    obtain ⟨a, ha, _, hy, _⟩ := prob_ne_zero hne
    exact List.mem_toFinset.2 (List.mem_map.2 ⟨a, ha, hy⟩)
  · intro x y z _ hne
    obtain ⟨a, ha, _, _, hz⟩ := prob_ne_zero hne
    exact List.mem_toFinset.2 (List.mem_map.2 ⟨a, ha, hz⟩)
  · simp only [sum_jointXYZ_xy]; exact tabZ
  · intro z hz _
    rw [sum_jointXYZ_xy]
    simp only [sum_jointXYZ_y]
    exact tabX z hz
  · intro z hz _
    rw [sum_jointXYZ_xy]
    simp only [sum_jointXYZ_x]
    exact tabY z hz
  · intro z hz _ x y
    simp only [sum_jointXYZ_xy]
    exact valXY z hz x y

/-- The table of one variable given others. -/
theorem Marg.given_one (h : Marg nodes ids r) {c : PMF} (hc : Marg nodes Zs c) (h0 : Zs ≠ [])
    (hX : X ∉ Zs) (hids : ∀ i, i ∈ ids ↔ i = X ∨ i ∈ Zs) :
    ∃ t, r.conditionOn c = .ok t ∧ ∀ z, z.length = Zs.length →
      Tabulates (CPMF.given t [(mkKey z).toVal]).probabilities .tup 1
        (fun l => prob nodes (fun a => valueOfID nodes a X = l.headD 0 ∧
          Zs.map (valueOfID nodes a) = z) / prob nodes (fun a => Zs.map (valueOfID nodes a) = z)) := by
  have hlen : 2 ≤ ids.length := by
    obtain ⟨i, hi⟩ := List.exists_mem_of_ne_nil _ h0
    have hne : i ≠ X := fun e => hX (e ▸ hi)
    have hs : [i, X] ⊆ ids := by
      intro j hj
      simp only [List.mem_cons, List.not_mem_nil, or_false] at hj
      rcases hj with rfl | rfl
      · exact (hids _).2 (.inr hi)
      · exact (hids _).2 (.inl rfl)
    exact (List.subperm_of_subset (by simp [hne]) hs).length_le
  obtain ⟨t, e, w, v⟩ := h.conditionOn hc (fun i hi => (hids i).2 (.inr hi)) h0 hlen
  have hrest : ids.filter (fun v => v ∉ Zs) = [X] := by
    apply (List.perm_singleton.1 ((List.perm_ext_iff_of_nodup (h.nodup.filter _) (by simp)).2 ?_))
    intro i
    simp only [List.mem_filter, decide_eq_true_eq, List.mem_singleton, hids]
    constructor
    · tauto
    · rintro rfl; exact ⟨.inl rfl, hX⟩
  rw [hrest] at w v
  refine ⟨t, e, fun z hz => ?_⟩
  have hgiven : CPMF.given t [(mkKey z).toVal] = (dictGet t (mkKey z)).getD PMF.empty := by
    rw [CPMF.given_key, mkKey_comps]
  rw [hgiven]
  refine ⟨w.inner _, ?_, ?_⟩
  · intro k hk
    obtain ⟨xs, e1, e2⟩ := w.shape _ k hk
    exact ⟨xs, e2, e1⟩
  · intro l hl
    obtain ⟨x, rfl⟩ : ∃ x, l = [x] := ⟨_, length_one hl⟩
    have hv := v (fun i => if i = X then x else valueOf Zs z i)
    have e1 : Zs.map (fun i => if i = X then x else valueOf Zs z i) = z := by
      rw [← valueOf_all hc.nodup hz]
      apply List.map_congr_left
      intro i hi
      rw [if_neg (fun e : i = X => hX (e ▸ hi)), valueOf_all hc.nodup hz]
    simp only [List.map_cons, List.map_nil, if_true] at hv
    rw [e1] at hv
    unfold val2 at hv
    rw [hv]
    congr 1
    apply prob_congr
    intro a
    constructor
    · intro hall
      have hall' := List.map_inj_left.1 hall
      refine ⟨by simpa using hall' X ((hids X).2 (.inl rfl)), ?_⟩
      rw [← e1]
      exact List.map_congr_left (fun i hi => hall' i ((hids i).2 (.inr hi)))
    · rintro ⟨h1, h2⟩
      apply List.map_congr_left
      intro i hi
      by_cases hiX : i = X
      · simp only [hiX, if_true]; simpa using h1
      · rw [if_neg hiX, ← h2]
        exact (valueOf_map _ (((hids i).1 hi).resolve_left hiX)).symm


/-- The table of two variables given others, in the order of the IDs. -/
theorem Marg.given_two (h : Marg nodes ids r) {c : PMF} (hc : Marg nodes Zs c) (h0 : Zs ≠ [])
    (hX : X ∉ Zs) (hY : Y ∉ Zs) (hXY : X < Y) (hs : ids.Pairwise (· < ·))
    (hids : ∀ i, i ∈ ids ↔ i = X ∨ i = Y ∨ i ∈ Zs) :
    ∃ t, r.conditionOn c = .ok t ∧ ∀ z, z.length = Zs.length → ∀ x y,
      dictVal (CPMF.given t [(mkKey z).toVal]).probabilities (.tup [x, y]) =
        jointXYZ nodes X Y Zs x y z / prob nodes (fun a => Zs.map (valueOfID nodes a) = z) := by
  have hlen : 2 ≤ ids.length := by
    have hs : [X, Y] ⊆ ids := by
      intro j hj
      simp only [List.mem_cons, List.not_mem_nil, or_false] at hj
      rcases hj with rfl | rfl
      · exact (hids _).2 (.inl rfl)
      · exact (hids _).2 (.inr (.inl rfl))
    exact (List.subperm_of_subset (by simp; omega) hs).length_le
  obtain ⟨t, e, w, v⟩ := h.conditionOn hc (fun i hi => (hids i).2 (.inr (.inr hi))) h0 hlen
  have hrest : ids.filter (fun v => v ∉ Zs) = [X, Y] := by
    apply sorted_ext (hs.filter _) (by simpa using hXY)
    intro i
    simp only [List.mem_filter, decide_eq_true_eq, List.mem_cons, List.not_mem_nil, or_false, hids]
    constructor
    · tauto
    · rintro (rfl | rfl)
      · exact ⟨.inl rfl, hX⟩
      · exact ⟨.inr (.inl rfl), hY⟩
  rw [hrest] at w v
  refine ⟨t, e, fun z hz x y => ?_⟩
  have hgiven : CPMF.given t [(mkKey z).toVal] = (dictGet t (mkKey z)).getD PMF.empty := by
    rw [CPMF.given_key, mkKey_comps]
  rw [hgiven]
  have hv := v (fun i => if i = X then x else if i = Y then y else valueOf Zs z i)
  have e1 : Zs.map (fun i => if i = X then x else if i = Y then y else valueOf Zs z i) = z := by
    rw [← valueOf_all hc.nodup hz]
    apply List.map_congr_left
    intro i hi
    rw [if_neg (fun e : i = X => hX (e ▸ hi)), if_neg (fun e : i = Y => hY (e ▸ hi)),
      valueOf_all hc.nodup hz]
  have hYX : Y ≠ X := by omega
  simp only [List.map_cons, List.map_nil, if_true, if_neg hYX] at hv
  rw [e1] at hv
  unfold val2 at hv
  rw [hv]
  congr 1
  apply prob_congr
  intro a
  constructor
  · intro hall
    have hall' := List.map_inj_left.1 hall
    refine ⟨by simpa using hall' X ((hids X).2 (.inl rfl)), ?_, ?_⟩
    · have := hall' Y ((hids Y).2 (.inr (.inl rfl)))
      rw [if_neg hYX, if_pos rfl] at this
      exact this
    · rw [← e1]
      exact List.map_congr_left (fun i hi => hall' i ((hids i).2 (.inr (.inr hi))))
  · rintro ⟨h1, h2, h3⟩
    apply List.map_congr_left
    intro i hi
    by_cases hiX : i = X
    · simp only [hiX, if_true]; exact h1
    · rw [if_neg hiX]
      by_cases hiY : i = Y
      · simp only [hiY, if_true]; exact h2
      · rw [if_neg hiY, ← h3]
        exact (valueOf_map _ ((((hids i).1 hi).resolve_left hiX).resolve_left hiY)).symm

/-- The tables made from the network describe its distribution. -/
theorem sourceTables_ok (h : WellFormed nodes) (hN : Normalised nodes) (hid : NoIDs nodes)
    {net : Net ν β} (e : finalize { nodes := nodes } = .ok net) (ord : List Int → List Int)
    (hord : ∀ l, (ord l).Perm l) (Z : List Int) (hXY : X < Y) (hX : X ∉ Z) (hY : Y ∉ Z)
    (hr : ∀ i ∈ X :: Y :: Z, 0 ≤ i ∧ i < nodes.length) :
    ∃ (Zs : List Int) (t : Tables) (eZ eX eY : List Int → Key), (∀ i, i ∈ Zs ↔ i ∈ Z) ∧
      sourceTables ord net X Y Z = .ok t ∧
      CmiTables Zs.length (jointXYZ nodes X Y Zs) (valuesOf nodes X) (valuesOf nodes Y)
        (combinationsOf nodes Zs) eZ eX eY t.PrXYcZ t.PrXcZ t.PrYcZ t.PrZ := by
  obtain ⟨F, prXYZ, hF, hFm, e1, m1⟩ := partial_marg h hN hid e ord hord (X :: Y :: Z) hr
    (X := X) (Y := Y) (by simp) (by simp) (by omega)
  have hidsm : ∀ i, i ∈ F.filter (fun i => i ∈ X :: Y :: Z) ↔ i = X ∨ i = Y ∨ i ∈ Z := by
    intro i
    simp only [List.mem_filter, decide_eq_true_eq, hFm, List.mem_cons]
    constructor
    · exact fun h => h.2
    · exact fun h => ⟨hr i (by simpa using h), h⟩
  have hids := hF.filter (fun i => decide (i ∈ X :: Y :: Z))
  generalize F.filter (fun i => i ∈ X :: Y :: Z) = ids at m1 hidsm hids
  have hlen : 2 ≤ ids.length := by
    have hs : [X, Y] ⊆ ids := by
      intro j hj
      simp only [List.mem_cons, List.not_mem_nil, or_false] at hj
      rcases hj with rfl | rfl
      · exact (hidsm _).2 (.inl rfl)
      · exact (hidsm _).2 (.inr (.inl rfl))
    exact (List.subperm_of_subset (by simp; omega) hs).length_le
  obtain ⟨prXZ, e2, m2⟩ := m1.sumOver ((hidsm Y).2 (.inr (.inl rfl))) hlen
  obtain ⟨prYZ, e3, m3⟩ := m1.sumOver ((hidsm X).2 (.inl rfl)) hlen
  have hm2 : ∀ i, i ∈ ids.filter (fun j => j ≠ Y) ↔ i = X ∨ i ∈ Z := by
    intro i
    simp only [List.mem_filter, decide_eq_true_eq, hidsm]
    constructor
    · tauto
    · rintro (rfl | hz)
      · exact ⟨.inl rfl, by omega⟩
      · exact ⟨.inr (.inr hz), fun e => hY (e ▸ hz)⟩
  have hm3 : ∀ i, i ∈ ids.filter (fun j => j ≠ X) ↔ i = Y ∨ i ∈ Z := by
    intro i
    simp only [List.mem_filter, decide_eq_true_eq, hidsm]
    constructor
    · tauto
    · rintro (rfl | hz)
      · exact ⟨.inr (.inl rfl), by omega⟩
      · exact ⟨.inr (.inr hz), fun e => hX (e ▸ hz)⟩
  cases Z with
  | nil =>
    have hi1 : ids = [X, Y] := sorted_ext hids (by simpa using hXY) (fun i => by simp [hidsm])
    have hi2 : ids.filter (fun j => j ≠ Y) = [X] :=
      sorted_ext (hids.filter _) (by simp) (fun i => by rw [hm2]; simp)
    have hi3 : ids.filter (fun j => j ≠ X) = [Y] :=
      sorted_ext (hids.filter _) (by simp) (fun i => by rw [hm3]; simp)
    rw [hi2] at m2
    rw [hi3] at m3
    rw [hi1] at m1
    have h1 : ∀ z : List Int, z.length = 0 →
        prob nodes (fun a => ([] : List Int).map (valueOfID nodes a) = z) = 1 := by
      intro z hz
      rw [List.length_eq_zero_iff.1 hz, ← prob_true h hN hid e]
      exact prob_congr _ (fun a => by simp)
    refine ⟨[], ⟨omegaCPMF prXYZ, omegaCPMF prXZ, omegaCPMF prYZ, omegaPMF⟩, fun _ => .one 1, mkKey,
      mkKey, fun i => Iff.rfl, ?_, netTables_mk h hN ?_ ?_ mkKey_comps mkKey_comps ?_ ?_ ?_ ?_⟩
    · unfold sourceTables
      rw [e1]
      show (prXYZ.sumOver Y >>= _) = _
      rw [e2]
      show (prXYZ.sumOver X >>= _) = _
      rw [e3]
      rfl
    · intro l l' hl hl' _
      rw [List.length_eq_zero_iff.1 hl, List.length_eq_zero_iff.1 hl']
    · intro z _; rfl
    · refine ⟨by simp [omegaPMF], ?_, ?_⟩
      · intro k hk
        simp only [omegaPMF, List.map_cons, List.map_nil, List.mem_singleton] at hk
        exact ⟨[], rfl, hk⟩
      · intro l hl
        rw [h1 l hl]
        simp [omegaPMF, dictVal, dictGet]
    · intro z hz
      rw [given_omega]
      refine m2.tab.congr (fun l hl => ?_)
      rw [h1 z hz, div_one]
      obtain ⟨x, rfl⟩ : ∃ x, l = [x] := ⟨_, length_one hl⟩
      rw [List.length_eq_zero_iff.1 hz]
      exact prob_congr _ (fun a => by simp)
    · intro z hz
      rw [given_omega]
      refine m3.tab.congr (fun l hl => ?_)
      rw [h1 z hz, div_one]
      obtain ⟨x, rfl⟩ : ∃ x, l = [x] := ⟨_, length_one hl⟩
      rw [List.length_eq_zero_iff.1 hz]
      exact prob_congr _ (fun a => by simp)
    · intro z hz x y
      rw [given_omega, h1 z hz, div_one, List.length_eq_zero_iff.1 hz]
      have := m1.tab.value [x, y] rfl
      rw [mkKey_of_ne (by simp)] at this
      rw [this]
      exact prob_congr _ (fun a => by simp)
  | cons z0 Z =>
    have hXz : X ∈ ids.filter (fun j => j ≠ Y) := (hm2 X).2 (.inl rfl)
    have hlen2 : 2 ≤ (ids.filter (fun j => j ≠ Y)).length := by
      have hs : [X, z0] ⊆ ids.filter (fun j => j ≠ Y) := by
        intro j hj
        rw [hm2]
        simp only [List.mem_cons, List.not_mem_nil, or_false] at hj
        rcases hj with rfl | rfl
        · exact .inl rfl
        · exact .inr (by simp)
      have hne : X ≠ z0 := fun e => hX (by simp [e])
      exact (List.subperm_of_subset (by simp [hne]) hs).length_le
    obtain ⟨prZ, e4, m4⟩ := m2.sumOver hXz hlen2
    have hm4 : ∀ i, i ∈ (ids.filter (fun j => j ≠ Y)).filter (fun j => j ≠ X) ↔ i ∈ z0 :: Z := by
      intro i
      rw [List.mem_filter, hm2]
      simp only [decide_eq_true_eq]
      constructor
      · tauto
      · exact fun hz => ⟨.inr hz, fun e => hX (e ▸ hz)⟩
    generalize (ids.filter (fun j => j ≠ Y)).filter (fun j => j ≠ X) = Zs at m4 hm4
    have h0 : Zs ≠ [] := List.ne_nil_of_mem ((hm4 z0).2 (by simp))
    have hXs : X ∉ Zs := by rw [hm4]; exact hX
    have hYs : Y ∉ Zs := by rw [hm4]; exact hY
    obtain ⟨cXY, e5, v5⟩ := m1.given_two m4 h0 hXs hYs hXY hids (fun i => by rw [hidsm, hm4])
    obtain ⟨cX, e6, v6⟩ := m2.given_one m4 h0 hXs (fun i => by rw [hm2, hm4])
    obtain ⟨cY, e7, v7⟩ := m3.given_one m4 h0 hYs (fun i => by rw [hm3, hm4])
    refine ⟨Zs, ⟨cXY, cX, cY, prZ⟩, mkKey, .tup, .tup, hm4, ?_, netTables_mk h hN
      (fun l l' _ _ h => mkKey_inj h) (fun z _ => by rw [mkKey_comps]) (fun _ => rfl) (fun _ => rfl)
      m4.tab v6 v7 v5⟩
    show (createPartialJointPmf ord net (X :: Y :: z0 :: Z) >>= _) = _
    rw [e1]
    show (prXYZ.sumOver Y >>= _) = _
    rw [e2]
    show (prXYZ.sumOver X >>= _) = _
    rw [e3]
    show (prXZ.sumOver X >>= _) = _
    rw [e4]
    show (prXYZ.conditionOn prZ >>= _) = _
    rw [e5]
    show (prXZ.conditionOn prZ >>= _) = _
    rw [e6]
    show (prYZ.conditionOn prZ >>= _) = _
    rw [e7]
    rfl

end tables

/-- The order and multiplicity of the conditioning variables do not matter. -/
theorem netCmi_congr (nodes : List (Node ν β)) (X Y : Int) {Z Z' : List Int}
    (hm : ∀ i, i ∈ Z ↔ i ∈ Z') : netCmi nodes X Y Z = netCmi nodes X Y Z' := by
  have key : ∀ (Z Z' : List Int), (∀ i, i ∈ Z ↔ i ∈ Z') → ∀ a b : ν → β,
      Z.map (valueOfID nodes a) = Z.map (valueOfID nodes b) →
      Z'.map (valueOfID nodes a) = Z'.map (valueOfID nodes b) := by
    intro Z Z' hm a b hab
    rw [List.map_inj_left] at hab ⊢
    exact fun i hi => hab i ((hm i).2 hi)
  unfold netCmi Info.cmi
  refine Finset.sum_bij (fun z _ => Z'.map (valueOf Z z)) ?_ ?_ ?_ ?_
  · intro z hz
    obtain ⟨a, ha, rfl⟩ := List.mem_map.1 (List.mem_toFinset.1 hz)
    refine List.mem_toFinset.2 (List.mem_map.2 ⟨a, ha, ?_⟩)
    exact List.map_congr_left (fun i hi => (valueOf_map _ ((hm i).2 hi)).symm)
  · intro z hz z' hz' hzz
    obtain ⟨a, ha, rfl⟩ := List.mem_map.1 (List.mem_toFinset.1 hz)
    obtain ⟨b, hb, rfl⟩ := List.mem_map.1 (List.mem_toFinset.1 hz')
    apply key Z' Z (fun i => (hm i).symm)
    have : ∀ a : ν → β, Z'.map (valueOf Z (Z.map (valueOfID nodes a))) = Z'.map (valueOfID nodes a) :=
      fun a => List.map_congr_left (fun i hi => valueOf_map _ ((hm i).2 hi))
    rwa [this, this] at hzz
  · intro z hz
    obtain ⟨a, ha, rfl⟩ := List.mem_map.1 (List.mem_toFinset.1 hz)
    refine ⟨Z.map (valueOfID nodes a), List.mem_toFinset.2 (List.mem_map.2 ⟨a, ha, rfl⟩), ?_⟩
    exact List.map_congr_left (fun i hi => valueOf_map _ ((hm i).2 hi))
  · intro z hz
    obtain ⟨a, ha, rfl⟩ := List.mem_map.1 (List.mem_toFinset.1 hz)
    have e1 : Z'.map (valueOf Z (Z.map (valueOfID nodes a))) = Z'.map (valueOfID nodes a) :=
      List.map_congr_left (fun i hi => valueOf_map _ ((hm i).2 hi))
    have e2 : ∀ x y, jointXYZ nodes X Y Z x y (Z.map (valueOfID nodes a)) =
        jointXYZ nodes X Y Z' x y (Z'.map (valueOfID nodes a)) := by
      intro x y
      apply prob_congr
      intro b
      exact ⟨fun ⟨h1, h2, h3⟩ => ⟨h1, h2, key Z Z' hm b a h3⟩,
        fun ⟨h1, h2, h3⟩ => ⟨h1, h2, key Z' Z (fun i => (hm i).symm) b a h3⟩⟩
    simp only [e1]
    unfold Info.mZ Info.mXZ Info.mYZ
    simp only [e2]


theorem prob_zero_of_imp (h : WellFormed nodes) (hN : Normalised nodes) {E F : (ν → β) → Prop}
    (hF : prob nodes F = 0) (hEF : ∀ a ∈ assignments nodes, E a → F a) : prob nodes E = 0 := by
  classical
  by_contra hne
  have hpos : 0 < prob nodes E := lt_of_le_of_ne (prob_nonneg h hN E) (Ne.symm hne)
  have hle : prob nodes E ≤ prob nodes F := by
    rw [prob_eq, prob_eq]
    apply List.sum_le_sum
    intro a ha
    have hA := mem_worlds h.unique ha
    have hj : 0 ≤ jointProb nodes a := by
      unfold jointProb
      apply List.prod_nonneg
      intro q hq
      obtain ⟨n, hn, rfl⟩ := List.mem_map.1 hq
      exact cpt_nonneg hN hn (declaredFor_of (done := nodes.map (·.name))
        (fun m hm _ => hA m hm) n.parents (h.known n hn) (h.known n hn)) _
    by_cases hE : E a
    · simp [hE, hEF a ha hE]
    · by_cases hFa : F a <;> simp [hE, hFa, hj]
  linarith

/-- `netCmi` is never negative. -/
theorem netCmi_nonneg (h : WellFormed nodes) (hN : Normalised nodes) (X Y : Int) (Z : List Int) :
    0 ≤ netCmi nodes X Y Z :=
  Info.cmi_nonneg (fun x y z => by exact_mod_cast prob_nonneg h hN _)

/-- `netCmi` is zero exactly for conditional independence. -/
theorem netCmi_eq_zero_iff (h : WellFormed nodes) (hN : Normalised nodes) (X Y : Int) (Z : List Int) :
    netCmi nodes X Y Z = 0 ↔ NetIndependent nodes X Y Z := by
  unfold netCmi
  rw [Info.cmi_eq_zero_iff (fun x y z => by exact_mod_cast prob_nonneg h hN _)]
  have eZ : ∀ z, Info.mZ (valuesOf nodes X) (valuesOf nodes Y)
      (fun x y z => (jointXYZ nodes X Y Z x y z : ℝ)) z =
      ((prob nodes (fun a => Z.map (valueOfID nodes a) = z) : ℚ) : ℝ) := by
    intro z
    rw [← sum_jointXYZ_xy (X := X) (Y := Y)]
    unfold Info.mZ; push_cast; rfl
  have eX : ∀ x z, Info.mXZ (valuesOf nodes Y)
      (fun x y z => (jointXYZ nodes X Y Z x y z : ℝ)) x z =
      ((prob nodes (fun a => valueOfID nodes a X = x ∧ Z.map (valueOfID nodes a) = z) : ℚ) : ℝ) := by
    intro x z
    rw [← sum_jointXYZ_y (X := X) (Y := Y)]
    unfold Info.mXZ; push_cast; rfl
  have eY : ∀ y z, Info.mYZ (valuesOf nodes X)
      (fun x y z => (jointXYZ nodes X Y Z x y z : ℝ)) y z =
      ((prob nodes (fun a => valueOfID nodes a Y = y ∧ Z.map (valueOfID nodes a) = z) : ℚ) : ℝ) := by
    intro y z
    rw [← sum_jointXYZ_x (X := X) (Y := Y)]
    unfold Info.mYZ; push_cast; rfl
  simp only [eZ, eX, eY]
  constructor
  · intro hall x y z
    by_cases hx : prob nodes (fun a => valueOfID nodes a X = x ∧ Z.map (valueOfID nodes a) = z) = 0
    · rw [hx, zero_mul]
      have : jointXYZ nodes X Y Z x y z = 0 :=
        prob_zero_of_imp h hN hx (fun a _ ha => ⟨ha.1, ha.2.2⟩)
      rw [this, zero_mul]
    · by_cases hy : prob nodes (fun a => valueOfID nodes a Y = y ∧ Z.map (valueOfID nodes a) = z) = 0
      · rw [hy, mul_zero]
        have : jointXYZ nodes X Y Z x y z = 0 :=
          prob_zero_of_imp h hN hy (fun a _ ha => ⟨ha.2.1, ha.2.2⟩)
        rw [this, zero_mul]
      · obtain ⟨a, ha, hx1, hz1⟩ := prob_ne_zero hx
        obtain ⟨b, hb, hy1, _⟩ := prob_ne_zero hy
        have := hall z (List.mem_toFinset.2 (List.mem_map.2 ⟨a, ha, hz1⟩))
          x (List.mem_toFinset.2 (List.mem_map.2 ⟨a, ha, hx1⟩))
          y (List.mem_toFinset.2 (List.mem_map.2 ⟨b, hb, hy1⟩))
        exact_mod_cast this
  · intro hall z _ x _ y _
    exact_mod_cast hall x y z

/-- **C65.** With the Bayesian network as source, `CMICalculator.compute(X, Y, Z)` is the
conditional mutual information of `X` and `Y` given `Z` in the distribution defined by the network,
if the ID of `X` is smaller than the ID of `Y`. -/
theorem cmi_source_exact (nodes : List (Node ν β)) (h : WellFormed nodes) (hN : Normalised nodes)
    (hid : NoIDs nodes) (net : Net ν β) (e : finalize { nodes := nodes } = .ok net)
    (ord : List Int → List Int) (hord : ∀ l, (ord l).Perm l) (X Y : Int) (Z : List Int)
    (hXY : X < Y) (hX : X ∉ Z) (hY : Y ∉ Z) (hr : ∀ i ∈ X :: Y :: Z, 0 ≤ i ∧ i < nodes.length) :
    cmiFromNet ord net X Y Z = .ok (netCmi nodes X Y Z) := by
  obtain ⟨Zs, t, eZ, eX, eY, hm, et, ht⟩ := sourceTables_ok h hN hid e ord hord Z hXY hX hY hr
  have := conditionalMutualInformation_eq ht (c := 1) one_pos
  simp only [div_one] at this
  unfold cmiFromNet
  rw [et]
  show Except.ok _ = _
  rw [this, ← netCmi_congr nodes X Y hm]
  rfl

/-- **C65.** The result is never negative, and it is zero exactly when `X` and `Y` are independent
given `Z` in the distribution of the network. -/
theorem cmi_source_zero_iff (nodes : List (Node ν β)) (h : WellFormed nodes) (hN : Normalised nodes)
    (hid : NoIDs nodes) (net : Net ν β) (e : finalize { nodes := nodes } = .ok net)
    (ord : List Int → List Int) (hord : ∀ l, (ord l).Perm l) (X Y : Int) (Z : List Int)
    (hXY : X < Y) (hX : X ∉ Z) (hY : Y ∉ Z) (hr : ∀ i ∈ X :: Y :: Z, 0 ≤ i ∧ i < nodes.length) :
    ∃ v, cmiFromNet ord net X Y Z = .ok v ∧ 0 ≤ v ∧ (v = 0 ↔ NetIndependent nodes X Y Z) :=
  ⟨_, cmi_source_exact nodes h hN hid net e ord hord X Y Z hXY hX hY hr,
    netCmi_nonneg h hN X Y Z, netCmi_eq_zero_iff h hN X Y Z⟩

end prob

/-- C65 on the example network. -/
example : ∃ net, finalize { nodes := exNodes } = .ok net ∧
    cmiFromNet id net 0 2 [1] = .ok (netCmi exNodes 0 2 [1]) ∧
    cmiFromNet id net 0 1 [] = .ok (netCmi exNodes 0 1 []) := by
  obtain ⟨net, e⟩ := exNodes_finalize
  exact ⟨net, e, cmi_source_exact exNodes exNodes_wf exNodes_normalised exNodes_noIDs net e id
    (fun l => List.Perm.refl l) 0 2 [1] (by decide) (by decide) (by decide) (by decide),
    cmi_source_exact exNodes exNodes_wf exNodes_normalised exNodes_noIDs net e id
    (fun l => List.Perm.refl l) 0 1 [] (by decide) (by decide) (by decide) (by decide)⟩

/-! ## Finding: the order of the arguments -/

/-- Two independent coins, of which the second is biased. (Example.) -/
def exCoins : List (Node Nat Nat) :=
  [{ name := 0, values := [7, 9], parents := [], probabilities := [(.unconditioned, [1/2, 1/2])] },
   { name := 1, values := [7, 9], parents := [], probabilities := [(.unconditioned, [1/4, 3/4])] }]

theorem exCoins_wf : WellFormed exCoins :=
  wellFormed_of_check (l := [0, 1]) (by decide) (by decide +kernel) (by decide) (by decide +kernel)
    (by decide +kernel)

theorem exCoins_normalised : Normalised exCoins := by
  intro n hn vs h
  rw [mem_combos] at h
  revert n vs
  decide +kernel

theorem exCoins_noIDs : NoIDs exCoins := by
  intro n hn; revert n; decide

deriving instance DecidableEq for Tables

/-- Their joint distribution. (Example.) -/
def exCoinsJoint : PMF :=
  ⟨[(.tup [0, 0], 1/8), (.tup [0, 1], 3/8), (.tup [1, 0], 1/8), (.tup [1, 1], 3/8)], [0, 1], none⟩

theorem exCoins_tables10 :
    (do let net ← finalize { nodes := exCoins }
        sourceTables id net 1 0 []) =
    .ok ⟨omegaCPMF exCoinsJoint, omegaCPMF ⟨[(.one 0, 1/4), (.one 1, 3/4)], [1], none⟩,
      omegaCPMF ⟨[(.one 0, 1/2), (.one 1, 1/2)], [0], none⟩, omegaPMF⟩ := by
  decide +kernel

theorem exCoins_tables01 :
    (do let net ← finalize { nodes := exCoins }
        sourceTables id net 0 1 []) =
    .ok ⟨omegaCPMF exCoinsJoint, omegaCPMF ⟨[(.one 0, 1/2), (.one 1, 1/2)], [0], none⟩,
      omegaCPMF ⟨[(.one 0, 1/4), (.one 1, 3/4)], [1], none⟩, omegaPMF⟩ := by
  decide +kernel

/-- **Finding (C65).** If the ID of `X` is larger than the ID of `Y`, the joint probability of the
value `x` of `X` and `y` of `Y` is looked up as if `x` were the value of `Y`: the dictionary keys of
the joint PMF are in the order of the IDs, and the arguments are in the order of the call.  Of two
independent coins, `compute(0, 1, [])` is `0` and `compute(1, 0, [])` is `log 3 / 4`. -/
theorem cmi_source_argument_order : ∃ net, finalize { nodes := exCoins } = .ok net ∧
    cmiFromNet id net 0 1 [] = .ok 0 ∧ cmiFromNet id net 1 0 [] = .ok (Real.log 3 / 4) ∧
    NetIndependent exCoins 0 1 [] := by
  obtain ⟨net, e, _⟩ := finalize_ok exCoins_wf
  have t10 := exCoins_tables10
  have t01 := exCoins_tables01
  rw [e] at t10 t01
  change sourceTables id net 1 0 [] = _ at t10
  change sourceTables id net 0 1 [] = _ at t01
  have p00 : exCoinsJoint.p [(Key.one 0).toVal, (Key.one 0).toVal] = 1/8 := by decide +kernel
  have p01 : exCoinsJoint.p [(Key.one 0).toVal, (Key.one 1).toVal] = 3/8 := by decide +kernel
  have p10 : exCoinsJoint.p [(Key.one 1).toVal, (Key.one 0).toVal] = 1/8 := by decide +kernel
  have p11 : exCoinsJoint.p [(Key.one 1).toVal, (Key.one 1).toVal] = 3/8 := by decide +kernel
  have c01 : cmiFromNet id net 0 1 [] = .ok 0 := by
    unfold cmiFromNet
    rw [t01]
    show Except.ok _ = _
    congr 1
    unfold conditionalMutualInformation
    simp only [omegaPMF, List.map_cons, List.map_nil, given_omega, p00, p01, p10, p11]
    norm_num
  refine ⟨net, e, c01, ?_, ?_⟩
  · unfold cmiFromNet
    rw [t10]
    show Except.ok _ = _
    congr 1
    unfold conditionalMutualInformation
    simp only [omegaPMF, List.map_cons, List.map_nil, given_omega, p00, p01, p10, p11]
    have h3 : Real.log (1 / 3) = - Real.log 3 := by rw [one_div, Real.log_inv]
    have hp : 0 < Real.log 3 := Real.log_pos (by norm_num)
    norm_num [h3]
    rw [abs_of_nonneg (by linarith)]
    ring
  · obtain ⟨v, hv, _, h0⟩ := cmi_source_zero_iff exCoins exCoins_wf exCoins_normalised
      exCoins_noIDs net e id (fun l => List.Perm.refl l) 0 1 [] (by decide) (by decide) (by decide)
      (by decide)
    rw [c01] at hv
    exact h0.1 (Except.ok.inj hv).symm

end Mbtk.BN
