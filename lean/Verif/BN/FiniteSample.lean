import Verif.BN.Discovery
import Verif.Stats.CmiBound
import Mathlib.Probability.Moments.SubGaussian
/-!
# How many samples suffice (C92)

Finite-sample bounds for `sample_matrix(n)`: the probability that relative frequencies, the conditional
mutual information of the sampled data and, in the end, the Markov blankets that the algorithms return are
not what they should be.
-/
namespace Mbtk.BN
open Spec Stats MeasureTheory ProbabilityTheory Filter
open Mbtk.ADTree (Data)
open Mbtk.ADTree.Spec (rowsWith Usable)
open scoped Topology

section blocks
variable {Ω : Type} [MeasurableSpace Ω] {P : Measure Ω} [IsProbabilityMeasure P] {U : ℕ → Ω → ℝ}

/-- Blocks of independent random numbers are independent. -/
theorem blocks_indep (hm : ∀ j, Measurable (U j)) (hind : iIndepFun U P) (m : ℕ) :
    iIndepFun (fun k => block U m k) P := by
  have hinj : Function.Injective (fun p : ℕ × Fin m => p.1 * m + p.2.1) := by
    rintro ⟨k, i⟩ ⟨k', i'⟩ h
    obtain ⟨h1, h2⟩ := block_index_inj h
    exact Prod.ext h1 h2
  have h1 := (hind.precomp hinj).map_fun_eq_infinitePi_map (fun p => hm _)
  have hp : ∀ j, IsProbabilityMeasure (P.map (U j)) := fun j => Measure.isProbabilityMeasure_map (hm j).aemeasurable
  rw [iIndepFun_iff_map_fun_eq_infinitePi_map (fun k => block_measurable hm m k)]
  have h2 : (fun ω k => block U m k ω) =
      (MeasurableEquiv.curry ℕ (Fin m) ℝ) ∘ (fun ω (p : ℕ × Fin m) => U (p.1 * m + p.2.1) ω) := by
    funext ω k i
    rfl
  rw [h2, ← Measure.map_map (MeasurableEquiv.measurable _) (measurable_pi_lambda _ (fun p => hm _)), h1,
    Measure.infinitePi_map_curry (fun (k : ℕ) (i : Fin m) => P.map (U (k * m + i.1)))]
  congr 1
  funext k
  have hinj' : Function.Injective (fun i : Fin m => k * m + i.1) := fun i i' h => (block_index_inj h).2
  exact ((hind.precomp hinj').map_fun_eq_infinitePi_map (fun i => hm _)).symm

/-- Hoeffding's inequality for the relative frequency with which blocks fall into a set. -/
theorem block_deviation (hm : ∀ j, Measurable (U j)) (hind : iIndepFun U P)
    (hunif : ∀ j, P.map (U j) = volume.restrict (Set.Icc 0 1)) (m : ℕ) (B : Set (Fin m → ℝ))
    (hB : MeasurableSet B) (hcube : B ⊆ Set.univ.pi (fun _ => Set.Icc (0 : ℝ) 1)) (n : ℕ) {ε : ℝ}
    (hε : 0 ≤ ε) :
    P.real {ω | n * ε ≤ |∑ k ∈ Finset.range n, B.indicator (fun _ => (1 : ℝ)) (block U m k ω) -
      n * (volume B).toReal|} ≤ 2 * Real.exp (-(2 * n * ε ^ 2)) := by
  have hf : Measurable (B.indicator (fun _ => (1 : ℝ))) := measurable_const.indicator hB
  let X : ℕ → Ω → ℝ := fun k ω => B.indicator (fun _ => (1 : ℝ)) (block U m k ω)
  have hX : ∀ k, Measurable (X k) := fun k => hf.comp (block_measurable hm m k)
  have hmean : ∀ k, ∫ ω, X k ω ∂P = (volume B).toReal := by
    intro k
    have h1 : ∫ ω, X k ω ∂P = ∫ u, B.indicator (fun _ => (1 : ℝ)) u ∂(P.map (block U m k)) :=
      (integral_map (block_measurable hm m k).aemeasurable hf.aestronglyMeasurable).symm
    rw [h1, integral_indicator_const _ hB, block_law hm hind hunif, measureReal_restrict_apply hB,
      Set.inter_eq_left.2 hcube]
    simp [Measure.real]
  have hsub : ∀ k, HasSubgaussianMGF (fun ω => X k ω - (volume B).toReal) (1 / 4) P := by
    intro k
    have h1 := hasSubgaussianMGF_of_mem_Icc (μ := P) (X := X k) (a := 0) (b := 1) (hX k).aemeasurable
      (Eventually.of_forall (fun ω => by
        simp only [X, Set.indicator]
        split <;> simp))
    rw [hmean k] at h1
    have h2 : ((‖(1 : ℝ) - 0‖₊ / 2) ^ 2 : NNReal) = 1 / 4 := by
      rw [sub_zero, nnnorm_one]
      norm_num
    rw [h2] at h1
    exact h1
  have hindX : iIndepFun (fun k ω => X k ω - (volume B).toReal) P :=
    (blocks_indep hm hind m).comp (fun _ u => B.indicator (fun _ => (1 : ℝ)) u - (volume B).toReal)
      (fun _ => hf.sub_const _)
  have hindX' : iIndepFun (fun k => -(fun ω => X k ω - (volume B).toReal)) P :=
    hindX.comp (fun _ x => -x) (fun _ => measurable_neg)
  have hn : 0 ≤ (n : ℝ) * ε := by positivity
  have hexp : Real.exp (-((n : ℝ) * ε) ^ 2 / (2 * n * ((1 / 4 : NNReal) : ℝ))) = Real.exp (-(2 * n * ε ^ 2)) := by
    congr 1
    rcases Nat.eq_zero_or_pos n with rfl | hpos
    · simp
    · have : (n : ℝ) ≠ 0 := by positivity
      push_cast
      field_simp
      ring
  have h1 := HasSubgaussianMGF.measure_sum_range_ge_le_of_iIndepFun hindX (n := n) (fun k _ => hsub k) hn
  have h2 := HasSubgaussianMGF.measure_sum_range_ge_le_of_iIndepFun hindX' (n := n) (fun k _ => (hsub k).neg) hn
  rw [hexp] at h1 h2
  have hsum : ∀ ω, ∑ k ∈ Finset.range n, (X k ω - (volume B).toReal) =
      ∑ k ∈ Finset.range n, X k ω - n * (volume B).toReal := by
    intro ω
    rw [Finset.sum_sub_distrib]
    simp
  calc P.real {ω | n * ε ≤ |∑ k ∈ Finset.range n, X k ω - n * (volume B).toReal|}
      ≤ P.real ({ω | n * ε ≤ ∑ k ∈ Finset.range n, (X k ω - (volume B).toReal)} ∪
          {ω | n * ε ≤ ∑ k ∈ Finset.range n, (-(fun ω => X k ω - (volume B).toReal)) ω}) := by
        refine measureReal_mono ?_ (measure_ne_top _ _)
        intro ω hω
        simp only [Set.mem_ofPred_eq, Set.mem_union, Pi.neg_apply, Finset.sum_neg_distrib, hsum] at hω ⊢
        exact le_abs.1 hω
    _ ≤ _ := (measureReal_union_le _ _)
    _ ≤ _ := by linarith

theorem real_le_of_ae {s t : Set Ω} (h : ∀ᵐ ω ∂P, ω ∈ s → ω ∈ t) : P.real s ≤ P.real t :=
  ENNReal.toReal_mono (measure_ne_top _ _) (measure_mono_ae h)

omit [IsProbabilityMeasure P] in
theorem source_unit (hm : ∀ j, Measurable (U j)) (hunif : ∀ j, P.map (U j) = volume.restrict (Set.Icc 0 1)) :
    ∀ᵐ ω ∂P, ∀ j, 0 ≤ U j ω ∧ U j ω ≤ 1 := by
  rw [ae_all_iff]
  intro j
  have h1 : ∀ᵐ x ∂(P.map (U j)), x ∈ Set.Icc (0 : ℝ) 1 := by
    rw [hunif]
    exact ae_restrict_mem measurableSet_Icc
  exact ae_of_ae_map (hm j).aemeasurable h1

end blocks

variable {ν β : Type} [LinearOrder ν] [DecidableEq β] {nodes : List (Node ν β)} [Nonempty β]

omit [DecidableEq β] [Nonempty β] in
/-- The enumerated assignments differ in the value of some node. -/
theorem worlds_distinct {ns : List (Node ν β)} (hn : (ns.map (·.name)).Nodup)
    (hv : ∀ n ∈ ns, n.values.Nodup) (a : ν → β) :
    (worlds ns a).Pairwise (fun b c => ¬ ∀ n ∈ ns, b n.name = c n.name) := by
  induction ns generalizing a with
  | nil => exact List.pairwise_singleton _ _
  | cons n ns ih =>
    simp only [List.map_cons, List.nodup_cons] at hn
    simp only [worlds]
    rw [List.pairwise_flatMap]
    refine ⟨fun v _ => ?_, ?_⟩
    · refine (ih hn.2 (fun m hm => hv m (by simp [hm])) _).imp ?_
      intro b c hbc hall
      exact hbc (fun m hm => hall m (by simp [hm]))
    · refine (hv n (by simp)).imp ?_
      intro v w hvw b hb c hc hall
      have h1 := worlds_stay hb hn.1
      have h2 := worlds_stay hc hn.1
      rw [Function.update_self] at h1 h2
      exact hvw (by rw [← h1, ← h2, hall n (by simp)])

/-- The number of combinations of values of all the variables. (Specification.) -/
def combinations (nodes : List (Node ν β)) : Nat := (nodes.map (fun n => n.values.length)).prod

omit [DecidableEq β] [Nonempty β] in
theorem worlds_length (ns : List (Node ν β)) (a : ν → β) : (worlds ns a).length = combinations ns := by
  unfold combinations
  induction ns generalizing a with
  | nil => rfl
  | cons n ns ih =>
    simp only [worlds, List.length_flatMap, ih, List.map_cons, List.prod_cons]
    simp

omit [DecidableEq β] in
theorem assignments_length (nodes : List (Node ν β)) : (assignments nodes).length = combinations nodes :=
  worlds_length _ _

section bounds
variable {net : Net ν β} {Ω : Type} [MeasurableSpace Ω] {P : Measure Ω} [IsProbabilityMeasure P] {U : ℕ → Ω → ℝ}

/-- One assignment: the probability that its share of the samples is off by `ε` or more. -/
theorem assignment_deviation (h : WellFormed nodes) (hN : Normalised nodes)
    (e : finalize { nodes := nodes } = .ok net) {a : ν → β} (ha : Assignment nodes a)
    (hm : ∀ j, Measurable (U j)) (hind : iIndepFun U P)
    (hunif : ∀ j, P.map (U j) = volume.restrict (Set.Icc 0 1)) {n : ℕ} (hn : 0 < n) {ε : ℝ} (hε : 0 ≤ ε) :
    P.real {ω | ¬ ∃ S, samples net n (fun j => U j ω) = .ok S ∧
        |((S.countP (Agrees nodes a) : ℕ) : ℝ) / n - ((jointProb nodes a : ℚ) : ℝ)| < ε} ≤
      2 * Real.exp (-(2 * n * ε ^ 2)) := by
  refine le_trans (real_le_of_ae ?_) (block_deviation hm hind hunif nodes.length (sampleEvent nodes net a)
    (sampleEvent_measurable h hN e a ha) (sampleEvent_cube a) n hε)
  filter_upwards [source_unit hm hunif] with ω hω hbad
  by_contra hlt
  rw [not_le] at hlt
  obtain ⟨S, hS, hl, hall⟩ := samples_ok nodes h hN net e (fun j => U j ω) (fun k => (hω k).2) n
  apply hbad
  refine ⟨S, hS, ?_⟩
  rw [sampleEvent_volume h hN e a ha, ENNReal.toReal_ofReal
    (by exact_mod_cast jointProb_nonneg h hN ha)] at hlt
  have h1 := countP_blocks h e (fun j => U j ω) hω a S hall
  rw [hl] at h1
  have h2 : ∑ k ∈ Finset.range n, (sampleEvent nodes net a).indicator (fun _ => (1 : ℝ))
      (block U nodes.length k ω) = ((S.countP (Agrees nodes a) : ℕ) : ℝ) := h1.symm
  rw [h2] at hlt
  have hn' : (0 : ℝ) < n := by exact_mod_cast hn
  have h3 : ((S.countP (Agrees nodes a) : ℕ) : ℝ) / n - ((jointProb nodes a : ℚ) : ℝ) =
      (((S.countP (Agrees nodes a) : ℕ) : ℝ) - n * ((jointProb nodes a : ℚ) : ℝ)) / n := by
    field_simp
  rw [h3, abs_div, abs_of_pos hn', div_lt_iff₀ hn', mul_comm ε]
  exact hlt

theorem sampleEvents_disjoint (h : WellFormed nodes) {i j : Fin (assignments nodes).length} (hij : i ≠ j) :
    Disjoint (sampleEvent nodes net (assignments nodes)[i]) (sampleEvent nodes net (assignments nodes)[j]) := by
  have hd := List.pairwise_iff_getElem.1 (worlds_distinct h.unique (fun n hn => (h.values n hn).1)
    (fun _ => Classical.arbitrary β))
  have key : ∀ {i j : Fin (assignments nodes).length} {u}, i < j →
      u ∈ sampleEvent nodes net (assignments nodes)[i] → u ∉ sampleEvent nodes net (assignments nodes)[j] := by
    rintro i j u hlt ⟨-, s, es, hs⟩ ⟨-, s', es', hs'⟩
    rw [es] at es'
    cases es'
    apply hd i j i.2 j.2 hlt
    intro n hn
    have h1 := hs n hn
    rw [hs' n hn] at h1
    exact (Option.some.inj h1).symm
  rw [Set.disjoint_left]
  intro u hi hj
  rcases lt_or_gt_of_ne hij with hlt | hlt
  · exact key hlt hi hj
  · exact key hlt hj hi

theorem sum_filter_index {K : Type} [AddCommMonoid K] {α : Type} (l : List α) (E : α → Prop) [DecidablePred E] (f : α → K) :
    ((l.filter (fun a => decide (E a))).map f).sum = ∑ i ∈ Finset.univ.filter (fun i : Fin l.length => E l[i]), f l[i] := by
  rw [Finset.sum_filter, Fin.sum_univ_def]
  have h1 : (List.finRange l.length).map (fun i => if E l[i] then f l[i] else 0) = l.map (fun a => if E a then f a else 0) := by
    apply List.ext_getElem (by simp)
    intro i h1 h2
    simp
  rw [h1]
  clear h1
  induction l with
  | nil => rfl
  | cons a l ih =>
    rw [List.filter_cons, List.map_cons, List.sum_cons, ← ih]
    by_cases ha : E a
    · simp [ha]
    · simp [ha]

theorem events_volume (h : WellFormed nodes) (hN : Normalised nodes)
    (e : finalize { nodes := nodes } = .ok net) (E : (ν → β) → Prop) [DecidablePred E] :
    (volume (⋃ i ∈ Finset.univ.filter (fun i : Fin (assignments nodes).length => E (assignments nodes)[i]),
      sampleEvent nodes net (assignments nodes)[i])).toReal =
      ∑ i ∈ Finset.univ.filter (fun i : Fin (assignments nodes).length => E (assignments nodes)[i]),
        ((jointProb nodes (assignments nodes)[i] : ℚ) : ℝ) := by
  have hA : ∀ i : Fin (assignments nodes).length, Assignment nodes (assignments nodes)[i] :=
    fun i => mem_worlds h.unique (List.getElem_mem i.2)
  rw [measure_biUnion_finset (fun i _ j _ hij => sampleEvents_disjoint h hij)
    (fun i _ => sampleEvent_measurable h hN e _ (hA i)), ENNReal.toReal_sum]
  · apply Finset.sum_congr rfl
    intro i _
    rw [sampleEvent_volume h hN e _ (hA i), ENNReal.toReal_ofReal (by exact_mod_cast jointProb_nonneg h hN (hA i))]
  · intro i _
    rw [sampleEvent_volume h hN e _ (hA i)]
    exact ENNReal.ofReal_ne_top

/-- Probabilities of assignments add up to at most one. -/
theorem jointProb_sum_le (h : WellFormed nodes) (hN : Normalised nodes)
    (e : finalize { nodes := nodes } = .ok net) :
    ∑ i : Fin (assignments nodes).length, ((jointProb nodes (assignments nodes)[i] : ℚ) : ℝ) ≤ 1 := by
  have h1 := events_volume h hN e (fun _ => True)
  simp only [Finset.filter_true] at h1
  rw [← h1]
  have h2 : (volume (Set.univ.pi (fun _ : Fin nodes.length => Set.Icc (0 : ℝ) 1))) = 1 := by
    rw [volume_pi_pi]
    simp
  have h3 := measure_mono (μ := volume) (Set.iUnion₂_subset
    (fun (i : Fin (assignments nodes).length) (_ : i ∈ Finset.univ) => sampleEvent_cube (nodes := nodes) (net := net) (assignments nodes)[i]))
  rw [h2] at h3
  exact ENNReal.toReal_mono ENNReal.one_ne_top h3

theorem assignments_pos (h : WellFormed nodes) : 0 < (assignments nodes).length := by
  classical
  have hex : ∃ a : ν → β, Assignment nodes a := by
    refine ⟨fun v => match nodes.find? (fun n => n.name = v) with
      | some n => n.values.headD (Classical.arbitrary β)
      | none => Classical.arbitrary β, fun n hn => ?_⟩
    have hf : ∃ m, nodes.find? (fun m => m.name = n.name) = some m := by
      rw [← Option.isSome_iff_exists, List.find?_isSome]
      exact ⟨n, hn, by simp⟩
    obtain ⟨m, hm⟩ := hf
    have h1 := List.find?_some hm
    have h2 := List.mem_of_find?_eq_some hm
    simp only [decide_eq_true_eq] at h1
    have h3 : m = n := List.inj_on_of_nodup_map h.unique h2 hn h1
    simp only [hm]
    rw [h3]
    have := (h.values n hn).2
    cases hv : n.values with
    | nil => exact absurd hv this
    | cons x l => simp
  obtain ⟨a, ha⟩ := hex
  obtain ⟨w, hw, -⟩ := exists_assignment h ha
  exact List.length_pos_of_mem hw

/-- Any event: the probability that its share of the samples is off by `ε` or more. -/
theorem event_deviation (h : WellFormed nodes) (hN : Normalised nodes)
    (e : finalize { nodes := nodes } = .ok net) (E : (ν → β) → Prop) [DecidablePred E]
    (hm : ∀ j, Measurable (U j)) (hind : iIndepFun U P)
    (hunif : ∀ j, P.map (U j) = volume.restrict (Set.Icc 0 1)) {n : ℕ} (hn : 0 < n) {ε : ℝ} (hε : 0 ≤ ε) :
    P.real {ω | ¬ ∃ S, samples net n (fun j => U j ω) = .ok S ∧
        |(((assignments nodes).filter (fun a => decide (E a))).map
            (fun a => ((S.countP (Agrees nodes a) : ℕ) : ℝ) / n)).sum - ((prob nodes E : ℚ) : ℝ)| < ε} ≤
      2 * Real.exp (-(2 * n * ε ^ 2)) := by
  have hA : ∀ i : Fin (assignments nodes).length, Assignment nodes (assignments nodes)[i] :=
    fun i => mem_worlds h.unique (List.getElem_mem i.2)
  let I := Finset.univ.filter (fun i : Fin (assignments nodes).length => E (assignments nodes)[i])
  let B : Set (Fin nodes.length → ℝ) := ⋃ i ∈ I, sampleEvent nodes net (assignments nodes)[i]
  have hB : MeasurableSet B := Finset.measurableSet_biUnion _ (fun i _ => sampleEvent_measurable h hN e _ (hA i))
  have hcube : B ⊆ Set.univ.pi (fun _ => Set.Icc (0 : ℝ) 1) :=
    Set.iUnion₂_subset (fun i _ => sampleEvent_cube _)
  have hdis : (I : Set (Fin (assignments nodes).length)).PairwiseDisjoint
      (fun i => sampleEvent nodes net (assignments nodes)[i]) := fun i _ j _ hij => sampleEvents_disjoint h hij
  have hvol : (volume B).toReal = ((prob nodes E : ℚ) : ℝ) := by
    rw [events_volume h hN e E, prob_decidable, sum_filter_index]
    push_cast
    rfl
  refine le_trans (real_le_of_ae ?_) (block_deviation hm hind hunif nodes.length B hB hcube n hε)
  filter_upwards [source_unit hm hunif] with ω hω hbad
  by_contra hlt
  rw [not_le, hvol] at hlt
  obtain ⟨S, hS, hl, hall⟩ := samples_ok nodes h hN net e (fun j => U j ω) (fun k => (hω k).2) n
  apply hbad
  refine ⟨S, hS, ?_⟩
  have hn' : (0 : ℝ) < n := by exact_mod_cast hn
  have hsum : ∑ k ∈ Finset.range n, B.indicator (fun _ => (1 : ℝ)) (block U nodes.length k ω) =
      ∑ i ∈ I, ((S.countP (Agrees nodes (assignments nodes)[i]) : ℕ) : ℝ) := by
    have h1 : ∀ i : Fin (assignments nodes).length, ((S.countP (Agrees nodes (assignments nodes)[i]) : ℕ) : ℝ) =
        ∑ k ∈ Finset.range n, (sampleEvent nodes net (assignments nodes)[i]).indicator (fun _ => (1 : ℝ))
          (block U nodes.length k ω) := by
      intro i
      have := countP_blocks h e (fun j => U j ω) hω (assignments nodes)[i] S hall
      rw [hl] at this
      exact this
    simp only [h1]
    rw [Finset.sum_comm]
    apply Finset.sum_congr rfl
    intro k _
    exact Finset.indicator_biUnion_apply _ _ (fun i _ j _ hij => sampleEvents_disjoint h hij) _
  rw [hsum] at hlt
  rw [sum_filter_index, ← Finset.sum_div]
  have h3 : ∀ x y : ℝ, x / n - y = (x - n * y) / n := by
    intro x y
    field_simp
  rw [h3, abs_div, abs_of_pos hn', div_lt_iff₀ hn', mul_comm ε]
  exact hlt

/-- **C92.** The relative frequency of any combination of values in any columns of a sampled matrix
with `n` rows is off its probability by `ε` or more with probability at most `2 exp(-2 n ε²)`. -/
theorem frequency_deviation (nodes : List (Node ν β)) (h : WellFormed nodes) (hN : Normalised nodes)
    (net : Net ν β) (e : finalize { nodes := nodes } = .ok net)
    {Ω : Type} [MeasurableSpace Ω] (P : Measure Ω) [IsProbabilityMeasure P] (U : ℕ → Ω → ℝ)
    (hm : ∀ j, Measurable (U j)) (hind : iIndepFun U P)
    (hunif : ∀ j, P.map (U j) = volume.restrict (Set.Icc 0 1)) (n : ℕ) (hn : 0 < n) (ε : ℝ) (hε : 0 ≤ ε)
    (cols : List Nat) (hc : ∀ c ∈ cols, c < nodes.length) (vals : List Int) :
    P.real {ω | ¬ ∃ R, sampleMatrix net n (fun j => U j ω) = .ok R ∧ R.length = n ∧
        ∀ D : Data, HasRows D R →
          |(Stats.Spec.freq D cols vals : ℝ) - ((prob nodes (fun a => (cols.map (fun c : Nat => (c : Int))).map
            (valueOfID nodes a) = vals) : ℚ) : ℝ)| < ε} ≤ 2 * Real.exp (-(2 * n * ε ^ 2)) := by
  refine le_trans (real_le_of_ae ?_) (event_deviation h hN e
    (fun a => (cols.map (fun c : Nat => (c : Int))).map (valueOfID nodes a) = vals) hm hind hunif hn hε)
  filter_upwards [source_unit hm hunif] with ω hω hbad hgood
  obtain ⟨S, hS, hlt⟩ := hgood
  obtain ⟨S', R, hS', hR, hl, hF⟩ := sample_matrix_rows nodes h hN net e (fun j => U j ω) (fun k => (hω k).2) n
  rw [hS] at hS'
  cases hS'
  apply hbad
  refine ⟨R, hR, hl, fun D hD => ?_⟩
  rw [freq_assignments h hD hF cols hc vals, hF.length_eq, hl]
  exact hlt

/-- All assignments at once. -/
theorem uniform_deviation (h : WellFormed nodes) (hN : Normalised nodes)
    (e : finalize { nodes := nodes } = .ok net)
    (hm : ∀ j, Measurable (U j)) (hind : iIndepFun U P)
    (hunif : ∀ j, P.map (U j) = volume.restrict (Set.Icc 0 1)) {n : ℕ} (hn : 0 < n) {ε : ℝ} (hε : 0 ≤ ε) :
    P.real {ω | ¬ ∃ S, samples net n (fun j => U j ω) = .ok S ∧ ∀ a ∈ assignments nodes,
        |((S.countP (Agrees nodes a) : ℕ) : ℝ) / n - ((jointProb nodes a : ℚ) : ℝ)| < ε} ≤
      2 * (assignments nodes).length * Real.exp (-(2 * n * ε ^ 2)) := by
  have hA : ∀ i : Fin (assignments nodes).length, Assignment nodes (assignments nodes)[i] :=
    fun i => mem_worlds h.unique (List.getElem_mem i.2)
  have hsub : {ω | ¬ ∃ S, samples net n (fun j => U j ω) = .ok S ∧ ∀ a ∈ assignments nodes,
        |((S.countP (Agrees nodes a) : ℕ) : ℝ) / n - ((jointProb nodes a : ℚ) : ℝ)| < ε} ⊆
      ⋃ i : Fin (assignments nodes).length, {ω | ¬ ∃ S, samples net n (fun j => U j ω) = .ok S ∧
        |((S.countP (Agrees nodes (assignments nodes)[i]) : ℕ) : ℝ) / n -
          ((jointProb nodes (assignments nodes)[i] : ℚ) : ℝ)| < ε} := by
    intro ω hω
    by_contra hno
    apply hω
    have hall : ∀ i : Fin (assignments nodes).length, ∃ S, samples net n (fun j => U j ω) = .ok S ∧
        |((S.countP (Agrees nodes (assignments nodes)[i]) : ℕ) : ℝ) / n -
          ((jointProb nodes (assignments nodes)[i] : ℚ) : ℝ)| < ε := by
      intro i
      by_contra hi
      exact hno (Set.mem_iUnion.2 ⟨i, hi⟩)
    obtain ⟨S, hS, -⟩ := hall ⟨0, assignments_pos h⟩
    refine ⟨S, hS, fun a ha => ?_⟩
    obtain ⟨i, hi, rfl⟩ := List.getElem_of_mem ha
    obtain ⟨S', hS', hlt⟩ := hall ⟨i, hi⟩
    rw [hS] at hS'
    cases hS'
    exact hlt
  refine le_trans (measureReal_mono hsub (measure_ne_top _ _)) ?_
  refine le_trans (measureReal_iUnion_fintype_le _) ?_
  refine le_trans (Finset.sum_le_sum (fun i _ => assignment_deviation h hN e (hA i) hm hind hunif hn hε)) ?_
  rw [Finset.sum_const, Finset.card_univ, Fintype.card_fin, nsmul_eq_mul]
  apply le_of_eq
  ring

theorem mem_columns {X Y : Nat} {Z : List Nat} {m : Nat} (hX : X < m) (hY : Y < m) (hZ : ∀ z ∈ Z, z < m) :
    ∀ c ∈ X :: Y :: Z, c < m := by
  intro c hc
  simp only [List.mem_cons] at hc
  rcases hc with rfl | rfl | hc
  · exact hX
  · exact hY
  · exact hZ c hc

/-- The measure over the values that the network can take, instead of those that occur. -/
theorem cmi_possible {D : Data} (hp : RowsPossible nodes D) {X Y : Nat} {Z : List Nat}
    (hX : X < nodes.length) (hY : Y < nodes.length) (hZ : ∀ z ∈ Z, z < nodes.length) :
    Stats.Spec.cmi D X Y Z = Info.cmi (valuesOf nodes X) (valuesOf nodes Y)
      (combinationsOf nodes (Z.map (fun z : Nat => (z : Int))))
      (fun x y z => (Stats.Spec.joint3 D X Y Z x y z : ℝ)) := by
  rw [Stats.Spec.cmi_eq_info]
  refine (Info.cmi_superset (values_possible hp hX) (values_possible hp hY) (observed_possible hp hZ) ?_).symm
  intro x y z hne
  have hne' : Stats.Spec.freq D (X :: Y :: Z) (x :: y :: z) ≠ 0 := by
    intro h0
    exact hne (by unfold Stats.Spec.joint3; rw [h0]; simp)
  rw [Stats.Spec.freq_ne_zero_iff] at hne'
  obtain ⟨r, hr, er⟩ := Finset.mem_image.1 hne'
  simp only [List.map_cons, List.cons.injEq] at er
  exact ⟨Finset.mem_image.2 ⟨r, hr, er.1⟩, Finset.mem_image.2 ⟨r, hr, er.2.1⟩,
    Finset.mem_image.2 ⟨r, hr, er.2.2⟩⟩

/-- The share of the samples for each assignment. -/
theorem joint3_mass (h : WellFormed nodes) {D : Data} {rows : List (List Nat)}
    (hD : HasRows D rows) {l : List (List (ν × β))}
    (hl : List.Forall₂ (fun s r => ∃ a : ν → β, Assignment nodes a ∧
        (∀ n ∈ nodes, dictGet s n.name = some (a n.name)) ∧ r = (indices nodes a).map Int.toNat) l rows)
    {X Y : Nat} {Z : List Nat} (hX : X < nodes.length) (hY : Y < nodes.length)
    (hZ : ∀ z ∈ Z, z < nodes.length) (x y : Int) (z : List Int) :
    (Stats.Spec.joint3 D X Y Z x y z : ℝ) = Info.mass Finset.univ
      (fun i : Fin (assignments nodes).length => (valueOfID nodes (assignments nodes)[i] X,
        valueOfID nodes (assignments nodes)[i] Y,
        (Z.map (fun z : Nat => (z : Int))).map (valueOfID nodes (assignments nodes)[i])))
      (fun i => ((l.countP (Agrees nodes (assignments nodes)[i]) : ℕ) : ℝ) / l.length) (x, y, z) := by
  unfold Stats.Spec.joint3
  rw [freq_assignments h hD hl (X :: Y :: Z) (mem_columns hX hY hZ), sum_filter_index]
  unfold Info.mass
  apply Finset.sum_congr _ (fun _ _ => rfl)
  ext i
  simp

theorem jointXYZ_mass (X Y : Int) (Z : List Int) (x y : Int) (z : List Int) :
    (jointXYZ nodes X Y Z x y z : ℝ) = Info.mass Finset.univ
      (fun i : Fin (assignments nodes).length => (valueOfID nodes (assignments nodes)[i] X,
        valueOfID nodes (assignments nodes)[i] Y, Z.map (valueOfID nodes (assignments nodes)[i])))
      (fun i => ((jointProb nodes (assignments nodes)[i] : ℚ) : ℝ)) (x, y, z) := by
  unfold jointXYZ
  rw [prob_decidable, sum_filter_index]
  unfold Info.mass
  push_cast
  apply Finset.sum_congr _ (fun _ _ => rfl)
  ext i
  simp

theorem shares_sum_le (h : WellFormed nodes) {D : Data} {rows : List (List Nat)}
    (hD : HasRows D rows) {l : List (List (ν × β))}
    (hl : List.Forall₂ (fun s r => ∃ a : ν → β, Assignment nodes a ∧
        (∀ n ∈ nodes, dictGet s n.name = some (a n.name)) ∧ r = (indices nodes a).map Int.toNat) l rows) :
    ∑ i : Fin (assignments nodes).length,
      ((l.countP (Agrees nodes (assignments nodes)[i]) : ℕ) : ℝ) / l.length ≤ 1 := by
  have h1 := freq_assignments h hD hl [] (by simp) []
  rw [sum_filter_index] at h1
  simp only [List.map_nil, Finset.filter_true] at h1
  rw [← h1]
  unfold Stats.Spec.freq
  have h3 : rowsWith D (fun r => ([] : List Nat).map (D.cell r) = []) ≤ D.nrows := by
    unfold rowsWith
    exact le_trans (List.length_filter_le _ _) (by simp)
  have h4 : ((rowsWith D (fun r => ([] : List Nat).map (D.cell r) = []) : ℕ) : ℝ) ≤ D.nrows := by exact_mod_cast h3
  push_cast
  exact div_le_one_of_le₀ h4 (Nat.cast_nonneg _)

/-- Samples whose shares are close to the probabilities: the measures are close. -/
theorem cmi_of_counts (h : WellFormed nodes) (hN : Normalised nodes)
    (e : finalize { nodes := nodes } = .ok net) {D : Data} {rows : List (List Nat)}
    (hD : HasRows D rows) {l : List (List (ν × β))}
    (hl : List.Forall₂ (fun s r => ∃ a : ν → β, Assignment nodes a ∧
        (∀ n ∈ nodes, dictGet s n.name = some (a n.name)) ∧ r = (indices nodes a).map Int.toNat) l rows)
    {δ : ℝ} (hclose : ∀ a ∈ assignments nodes,
      |((l.countP (Agrees nodes a) : ℕ) : ℝ) / l.length - ((jointProb nodes a : ℚ) : ℝ)| < δ)
    {X Y : Nat} {Z : List Nat} (hX : X < nodes.length) (hY : Y < nodes.length)
    (hZ : ∀ z ∈ Z, z < nodes.length) :
    |Stats.Spec.cmi D X Y Z - netCmi nodes X Y (Z.map (fun z : Nat => (z : Int)))| <
      8 * (assignments nodes).length * √δ := by
  rw [cmi_possible (rows_possible h hD hl) hX hY hZ]
  unfold netCmi
  simp only [joint3_mass h hD hl hX hY hZ, jointXYZ_mass]
  have hmemv : ∀ (i : Fin (assignments nodes).length) (c : Int),
      valueOfID nodes (assignments nodes)[i] c ∈ valuesOf nodes c := fun i c =>
    List.mem_toFinset.2 (List.mem_map.2 ⟨(assignments nodes)[i], List.getElem_mem i.2, rfl⟩)
  refine lt_of_le_of_lt (Info.cmi_close (fun i _ => hmemv i X) (fun i _ => hmemv i Y) ?_ ?_
    (jointProb_sum_le h hN e) (shares_sum_le h hD hl)) ?_
  · intro i _
    have := jointProb_nonneg h hN (mem_worlds h.unique (List.getElem_mem i.2))
    exact_mod_cast this
  · exact fun i _ => div_nonneg (Nat.cast_nonneg _) (Nat.cast_nonneg _)
  have hM : (0 : ℝ) < (assignments nodes).length := by exact_mod_cast assignments_pos h
  have hsum : ∑ i : Fin (assignments nodes).length,
      |((l.countP (Agrees nodes (assignments nodes)[i]) : ℕ) : ℝ) / l.length -
        ((jointProb nodes (assignments nodes)[i] : ℚ) : ℝ)| < (assignments nodes).length * δ := by
    refine lt_of_lt_of_eq (Finset.sum_lt_sum_of_nonempty (g := fun _ => δ)
      ⟨⟨0, assignments_pos h⟩, Finset.mem_univ _⟩ (fun i _ => hclose _ (List.getElem_mem i.2))) ?_
    rw [Finset.sum_const, Finset.card_univ, Fintype.card_fin, nsmul_eq_mul]
  rw [Finset.card_univ, Fintype.card_fin, mul_assoc]
  apply mul_lt_mul_of_pos_left _ (by norm_num)
  have h2 : ((assignments nodes).length : ℝ) * √δ = √((assignments nodes).length * ((assignments nodes).length * δ)) := by
    rw [← mul_assoc, Real.sqrt_mul (by positivity), Real.sqrt_mul_self hM.le]
  rw [h2]
  apply Real.sqrt_lt_sqrt
  · exact mul_nonneg hM.le (Finset.sum_nonneg (fun _ _ => abs_nonneg _))
  · exact mul_lt_mul_of_pos_left hsum hM

theorem good_event (h : WellFormed nodes) (hN : Normalised nodes)
    (e : finalize { nodes := nodes } = .ok net)
    (hm : ∀ j, Measurable (U j)) (hind : iIndepFun U P)
    (hunif : ∀ j, P.map (U j) = volume.restrict (Set.Icc 0 1)) {n : ℕ} (hn : 0 < n) {ε : ℝ} (hε : 0 ≤ ε) :
    P.real {ω | ¬ ∃ R, sampleMatrix net n (fun j => U j ω) = .ok R ∧ R.length = n ∧
        ∀ D : Data, HasRows D R → RowsPossible nodes D ∧ ∀ (X Y : Nat) (Z : List Nat),
          X < nodes.length → Y < nodes.length → (∀ z ∈ Z, z < nodes.length) →
          |Stats.Spec.cmi D X Y Z - netCmi nodes X Y (Z.map (fun z : Nat => (z : Int)))| < ε} ≤
      2 * combinations nodes * Real.exp (-(2 * n * (ε / (8 * combinations nodes)) ^ 4)) := by
  rw [← assignments_length]
  have hM : (0 : ℝ) < (assignments nodes).length := by exact_mod_cast assignments_pos h
  have hpow : (ε / (8 * ((assignments nodes).length : ℝ))) ^ 4 = ((ε / (8 * ((assignments nodes).length : ℝ))) ^ 2) ^ 2 := by
    ring
  rw [hpow]
  refine le_trans (real_le_of_ae ?_) (uniform_deviation h hN e hm hind hunif hn (sq_nonneg _))
  filter_upwards [source_unit hm hunif] with ω hω hbad hgood
  obtain ⟨S, hS, hlt⟩ := hgood
  obtain ⟨S', R, hS', hR, hl, hF⟩ := sample_matrix_rows nodes h hN net e (fun j => U j ω) (fun k => (hω k).2) n
  rw [hS] at hS'
  cases hS'
  apply hbad
  refine ⟨R, hR, hl, fun D hD => ⟨rows_possible h hD hF, fun X Y Z hX hY hZ => ?_⟩⟩
  have hSl : S.length = n := by rw [hF.length_eq, hl]
  rw [← hSl] at hlt
  have h1 := cmi_of_counts h hN e hD hF hlt hX hY hZ
  rw [Real.sqrt_sq (by positivity)] at h1
  refine lt_of_lt_of_eq h1 ?_
  field_simp

/-- **C92.** The CMI calculator on a sampled matrix with `n` rows: that any of its values is off the
conditional mutual information of the network by `ε` or more has probability at most
`2 M exp(-2 n (ε / 8M)⁴)`, `M` the number of combinations of values. -/
theorem cmi_deviation (nodes : List (Node ν β)) (h : WellFormed nodes) (hN : Normalised nodes)
    (net : Net ν β) (e : finalize { nodes := nodes } = .ok net)
    {Ω : Type} [MeasurableSpace Ω] (P : Measure Ω) [IsProbabilityMeasure P] (U : ℕ → Ω → ℝ)
    (hm : ∀ j, Measurable (U j)) (hind : iIndepFun U P)
    (hunif : ∀ j, P.map (U j) = volume.restrict (Set.Icc 0 1)) (n : ℕ) (hn : 0 < n) (ε : ℝ) (hε : 0 ≤ ε) :
    P.real {ω | ¬ ∃ R, sampleMatrix net n (fun j => U j ω) = .ok R ∧ R.length = n ∧
        ∀ D : Data, HasRows D R → ∀ (X Y : Nat) (Z : List Nat),
          X < nodes.length → Y < nodes.length → (∀ z ∈ Z, z < nodes.length) → (X :: Y :: Z).Nodup →
          ∃ v, cmiCompute D X Y Z = .ok v ∧
            |v - netCmi nodes X Y (Z.map (fun z : Nat => (z : Int)))| < ε} ≤
      2 * combinations nodes * Real.exp (-(2 * n * (ε / (8 * combinations nodes)) ^ 4)) := by
  refine le_trans (measureReal_mono ?_ (measure_ne_top _ _)) (good_event h hN e hm hind hunif hn hε)
  intro ω hbad hgood
  obtain ⟨R, hR, hl, hall⟩ := hgood
  apply hbad
  refine ⟨R, hR, hl, fun D hD X Y Z hX hY hZ hnd => ⟨Stats.Spec.cmi D X Y Z, ?_, (hall D hD).2 X Y Z hX hY hZ⟩⟩
  refine cmi_calculator_exact D ?_ X Y Z hnd
  rw [hD.1, hl]
  omega

end bounds

/-! ## Degrees of freedom -/

omit [Nonempty β] in
theorem valueOfID_names {a : ν → β} {c : Nat} (hc : c < (names nodes).length) :
    valueOfID nodes a c = (position nodes (names nodes)[c] (a (names nodes)[c]) : Int) := by
  unfold valueOfID indices
  change (((names nodes).map (fun v => (position nodes v (a v) : Int)))[((c : Nat) : Int).toNat]?).getD 0 = _
  rw [Int.toNat_natCast, List.getElem?_map, List.getElem?_eq_getElem hc]
  rfl

/-- Values of different variables can be combined. -/
theorem card_combinations_cons (h : WellFormed nodes) {c : Nat} {L : List Nat} (hc : c < nodes.length)
    (hL : ∀ x ∈ L, x < nodes.length) (hcL : c ∉ L) :
    (valuesOf nodes c).card * (combinationsOf nodes (L.map (fun z : Nat => (z : Int)))).card ≤
      (combinationsOf nodes ((c :: L).map (fun z : Nat => (z : Int)))).card := by
  classical
  have hlen : (names nodes).length = nodes.length := by
    unfold names
    rw [List.length_insertionSort, List.length_map]
  have hnd : (names nodes).Nodup := by
    unfold names
    exact (List.perm_insertionSort _ _).nodup_iff.2 h.unique
  rw [← Finset.card_product]
  apply Finset.card_le_card_of_injOn (fun q => q.1 :: q.2)
  · rintro ⟨v, l⟩ hq
    obtain ⟨h1, h2⟩ := Finset.mem_product.1 hq
    obtain ⟨a1, ha1, rfl⟩ := List.mem_map.1 (List.mem_toFinset.1 h1)
    obtain ⟨a2, ha2, rfl⟩ := List.mem_map.1 (List.mem_toFinset.1 h2)
    have hc' : c < (names nodes).length := by rw [hlen]; exact hc
    let b : ν → β := fun v => if v = (names nodes)[c] then a1 v else a2 v
    have hb : Assignment nodes b := by
      intro n hn
      simp only [b]
      split
      · exact mem_worlds h.unique ha1 n hn
      · exact mem_worlds h.unique ha2 n hn
    obtain ⟨w, hw, ew⟩ := exists_assignment h hb
    refine List.mem_toFinset.2 (List.mem_map.2 ⟨w, hw, ?_⟩)
    rw [ew, List.map_cons, List.map_cons]
    congr 1
    · rw [valueOfID_names hc', valueOfID_names hc']
      simp [b]
    · rw [List.map_map, List.map_map]
      apply List.map_congr_left
      intro x hx
      have hx' : x < (names nodes).length := by rw [hlen]; exact hL x hx
      show valueOfID nodes b (x : Int) = valueOfID nodes a2 (x : Int)
      rw [valueOfID_names hx', valueOfID_names hx']
      have hne : (names nodes)[x] ≠ (names nodes)[c] := by
        intro he
        rw [hnd.getElem_inj_iff] at he
        exact hcL (he ▸ hx)
      simp only [b, if_neg hne]
  · rintro ⟨v, l⟩ - ⟨v', l'⟩ - he
    simp only [List.cons.injEq] at he
    exact Prod.ext he.1 he.2

theorem card_combinations_le (Z : List Int) : (combinationsOf nodes Z).card ≤ combinations nodes := by
  rw [← assignments_length]
  exact le_trans (List.toFinset_card_le _) (by simp)

/-- No test has more degrees of freedom than there are combinations of values. -/
theorem dof_le_combinations (h : WellFormed nodes) (kind : DofKind) {D : Data} (hD : RowsPossible nodes D)
    (hv : ListsValues D nodes.length) {X Y : Nat} {Z : List Nat} (hn : (X :: Y :: Z).Nodup)
    (hlt : ∀ x ∈ X :: Y :: Z, x < nodes.length) : Stats.Spec.dofOf D kind X Y Z ≤ combinations nodes := by
  have hX := hlt X (by simp)
  have hY := hlt Y (by simp)
  have hZ : ∀ z ∈ Z, z < nodes.length := fun z hz => hlt z (by simp [hz])
  simp only [List.nodup_cons] at hn
  have hpos : 1 ≤ combinations nodes := by
    rw [← assignments_length]
    exact assignments_pos h
  have htriple : (valuesOf nodes X).card * ((valuesOf nodes Y).card *
      (combinationsOf nodes (Z.map (fun z : Nat => (z : Int)))).card) ≤ combinations nodes :=
    le_trans (Nat.mul_le_mul_left _ (card_combinations_cons h hY hZ hn.2.1))
      (le_trans (card_combinations_cons h hX (fun x hx => hlt x (by simp [List.mem_cons.1 hx])) hn.1)
        (card_combinations_le _))
  have hst : Stats.Spec.dof D X Y Z ≤ combinations nodes := by
    unfold Stats.Spec.dof
    refine max_le hpos (le_trans (Finset.sum_le_card_nsmul _ _
      ((valuesOf nodes X).card * (valuesOf nodes Y).card) ?_) ?_)
    · intro z _
      have hg : ∀ c, Stats.Spec.valuesGiven D c Z z ⊆ Stats.Spec.values D c := by
        intro c v hv
        obtain ⟨r, hr, rfl⟩ := Finset.mem_image.1 hv
        exact Finset.mem_image.2 ⟨r, (Finset.mem_filter.1 hr).1, rfl⟩
      have h1 := Finset.card_le_card ((hg X).trans (values_possible hD hX))
      have h2 := Finset.card_le_card ((hg Y).trans (values_possible hD hY))
      exact Nat.mul_le_mul (by omega) (by omega)
    · rw [smul_eq_mul]
      refine le_trans (Nat.mul_le_mul_right _ (Finset.card_le_card (observed_possible hD hZ))) ?_
      rw [mul_comm, mul_assoc]
      exact htriple
  cases kind with
  | structural => exact hst
  | cached => exact hst
  | unadjusted =>
    refine max_le hpos ?_
    have h1 := card_le_of_lists hv hX (values_possible hD hX)
    have h2 := card_le_of_lists hv hY (values_possible hD hY)
    have h3 : (Z.map (fun z => (D.values z).length)).prod ≤
        (combinationsOf nodes (Z.map (fun z : Nat => (z : Int)))).card := by
      have hnz := hn.2.2
      clear hn hlt htriple hst
      induction Z with
      | nil =>
        obtain ⟨a, ha⟩ := List.exists_mem_of_length_pos (assignments_pos h)
        exact Finset.card_pos.2 ⟨[], List.mem_toFinset.2 (List.mem_map.2 ⟨a, ha, rfl⟩)⟩
      | cons z Z ih =>
        rw [List.nodup_cons] at hnz
        rw [List.map_cons, List.prod_cons]
        refine le_trans (Nat.mul_le_mul (card_le_of_lists hv (hZ z (by simp)) (values_possible hD (hZ z (by simp))))
          (ih (fun w hw => hZ w (by simp [hw])) hnz.2)) ?_
        exact card_combinations_cons h (hZ z (by simp)) (fun w hw => hZ w (by simp [hw])) hnz.1
    refine le_trans (Nat.mul_le_mul (Nat.mul_le_mul (le_trans (Nat.sub_le _ _) h1) (le_trans (Nat.sub_le _ _) h2)) h3) ?_
    rw [mul_assoc]
    exact htriple

/-! ## Discovery -/

/-- Measures that are off by less than half the weakest dependence tell dependence from independence. -/
theorem telling_of_close (h : WellFormed nodes) (hN : Normalised nodes) {D : Data} {n : ℕ}
    (hrows : D.nrows = n) (hp : RowsPossible nodes D) (hv : ListsValues D nodes.length) {μ : ℝ}
    (hμ : ∀ X Y Z, MB.Proper (List.range nodes.length) X Y Z →
      ¬ NetIndependent nodes X Y (Z.map (fun z : Nat => (z : Int))) →
      μ ≤ netCmi nodes X Y (Z.map (fun z : Nat => (z : Int))))
    (hclose : ∀ (X Y : Nat) (Z : List Nat), X < nodes.length → Y < nodes.length → (∀ z ∈ Z, z < nodes.length) →
      |Stats.Spec.cmi D X Y Z - netCmi nodes X Y (Z.map (fun z : Nat => (z : Int)))| < μ / 2)
    {cfg : Config} (hc : cfg.criterion = none) (hn : 5 * combinations nodes < n)
    (hcdf : ∀ (g : ℝ) (d : ℕ), n * μ ≤ g → 1 ≤ d → d ≤ combinations nodes → cfg.significance ≤ cfg.cdf g d) :
    Telling nodes D cfg := by
  have hlt : ∀ {X Y Z}, MB.Proper (List.range nodes.length) X Y Z → ∀ x ∈ X :: Y :: Z, x < nodes.length :=
    fun hpr x hx => List.mem_range.1 (hpr.2 x hx)
  have hcl : ∀ {X Y Z}, MB.Proper (List.range nodes.length) X Y Z →
      |Stats.Spec.cmi D X Y Z - netCmi nodes X Y (Z.map (fun z : Nat => (z : Int)))| < μ / 2 :=
    fun hpr => hclose _ _ _ (hlt hpr _ (by simp)) (hlt hpr _ (by simp)) (fun z hz => hlt hpr z (by simp [hz]))
  have hdof : ∀ {X Y Z}, MB.Proper (List.range nodes.length) X Y Z →
      Stats.Spec.dofOf D cfg.kind X Y Z ≤ combinations nodes :=
    fun hpr => dof_le_combinations h cfg.kind hp hv hpr.1 (hlt hpr)
  have henough : ∀ X Y Z, MB.Proper (List.range nodes.length) X Y Z → Stats.Spec.Enough D cfg X Y Z := by
    intro X Y Z hpr
    unfold Stats.Spec.Enough
    rw [hc, hrows]
    show 5 * Stats.Spec.dofOf D cfg.kind X Y Z < n
    have := hdof hpr
    omega
  have hdep : ∀ X Y Z, MB.Proper (List.range nodes.length) X Y Z →
      ¬ NetIndependent nodes X Y (Z.map (fun z : Nat => (z : Int))) → μ / 2 < Stats.Spec.cmi D X Y Z := by
    intro X Y Z hpr hd
    have h1 := (abs_lt.1 (hcl hpr)).1
    have h2 := hμ X Y Z hpr hd
    linarith
  refine ⟨henough, ?_, ?_⟩
  · intro X Y Z hpr hd ans ha
    rw [ha.dependent]
    refine ⟨henough X Y Z hpr, hcdf _ _ ?_ (one_le_dofOf _ _ _ _ _) (hdof hpr)⟩
    unfold Stats.Spec.G
    rw [hrows]
    have h1 := hdep X Y Z hpr hd
    have h2 : (0 : ℝ) ≤ n := Nat.cast_nonneg _
    nlinarith
  · intro X Y Y' Z hpr hpr' hi hd
    have h1 := (abs_lt.1 (hcl hpr)).2
    rw [(netCmi_eq_zero_iff h hN _ _ _).2 hi] at h1
    have h2 := hdep X Y' Z hpr' hd
    linarith

/-- **C92.** How many samples suffice for Markov blanket discovery: if every dependence of a faithful
network has conditional mutual information at least `μ`, the sample has more than `5 M` rows and at least
`threshold`, and the distribution function exceeds the significance at `n μ`, then, except with
probability `2 M exp(-2 n (μ / 16M)⁴)`, IAMB with the CMI heuristic and IPC-MB, with any of the G-tests,
for any target and any iteration order of sets, end without exception and return the whole Markov blanket
of the target. -/
theorem discovery_sample_bound (nodes : List (Node ν β)) (h : WellFormed nodes)
    (hN : Normalised nodes) (hF : FaithfulNet nodes) (net : Net ν β)
    (e : finalize { nodes := nodes } = .ok net)
    {Ω : Type} [MeasurableSpace Ω] (P : Measure Ω) [IsProbabilityMeasure P] (U : ℕ → Ω → ℝ)
    (hm : ∀ j, Measurable (U j)) (hind : iIndepFun U P)
    (hunif : ∀ j, P.map (U j) = volume.restrict (Set.Icc 0 1))
    (μ : ℝ) (hμ0 : 0 < μ) (hμ : ∀ X Y Z, (X :: Y :: Z).Nodup → (∀ x ∈ X :: Y :: Z, x < nodes.length) →
      ¬ NetIndependent nodes (X : Nat) (Y : Nat) (Z.map (fun z : Nat => (z : Int))) →
      μ ≤ netCmi nodes X Y (Z.map (fun z : Nat => (z : Int))))
    (cfg : Config) (hc : cfg.criterion = none) (threshold n : Nat) (hn : 5 * combinations nodes < n)
    (ht : threshold ≤ n)
    (hcdf : ∀ (g : ℝ) (d : ℕ), n * μ ≤ g → 1 ≤ d → d ≤ combinations nodes → cfg.significance ≤ cfg.cdf g d) :
    P.real {ω | ¬ ∃ R, sampleMatrix net n (fun j => U j ω) = .ok R ∧ R.length = n ∧
      ∀ D : Data, HasRows D R → ListsValues D nodes.length → D.ncols = nodes.length →
        D.threshold = threshold →
        ∀ (alg : MB.Algorithm) (g : MB.GTest) (T : Nat) (ι : Type)
          (o : List Nat → ι → List Nat × ι) (i : ι), alg ≠ .ipcmb true → g.Supports cfg →
          T < nodes.length → (∀ l i, (o l i).1.Perm l) →
          ∃ mb tests results,
            MB.runWith g alg D cfg (List.range nodes.length) T o i = .ok (mb, tests, results) ∧
            (∀ v, Graph.IsBlanket (Edge nodes) T v → v ∈ mb) ∧
            ∀ Y, Y < nodes.length → Y ≠ T → Y ∉ mb →
              NetIndependent nodes T Y (mb.map (fun z : Nat => (z : Int)))} ≤
      2 * combinations nodes * Real.exp (-(2 * n * (μ / (16 * combinations nodes)) ^ 4)) := by
  have he : μ / (16 * (combinations nodes : ℝ)) = μ / 2 / (8 * combinations nodes) := by
    rw [div_div]
    congr 1
    ring
  rw [he]
  refine le_trans (measureReal_mono ?_ (measure_ne_top _ _))
    (good_event h hN e hm hind hunif (by omega) (by positivity : (0 : ℝ) ≤ μ / 2))
  intro ω hbad hgood
  obtain ⟨R, hR, hl, hall⟩ := hgood
  apply hbad
  refine ⟨R, hR, hl, fun D hD hv hcols hth alg g T ι o i halg hg hT ho => ?_⟩
  obtain ⟨hp, hclose⟩ := hall D hD
  have hrows : D.nrows = n := by rw [hD.1, hl]
  have hTell := telling_of_close h hN hrows hp hv
    (fun X Y Z hpr => hμ X Y Z hpr.1 (fun x hx => List.mem_range.1 (hpr.2 x hx))) hclose hc hn hcdf
  have hU := usable_matrix hv hcols (by rw [hrows]; omega) (by rw [hrows, hth]; exact ht)
  have hg' := good_columns hp hv hcols
  obtain ⟨mb, s', em, hB⟩ := telling_blanket h hF hTell hT ho i alg halg
  obtain ⟨mb', s'', em', hs, hsub⟩ := MB.ideal_discover D cfg (U := List.range nodes.length)
    List.nodup_range T ho i alg
  rw [em] at em'
  cases em'
  refine ⟨mb, _, _, MB.runWith_ideal D cfg hU List.nodup_range hg' (List.mem_range.2 hT) ho i alg em
    g hg, hB, fun Y hY hYT hYm => ?_⟩
  exact blanket_shields nodes h hN T hT mb (fun z hz => List.mem_range.1 (hsub z hz).1)
    (fun hm => (hsub T hm).2 rfl) hB Y hY hYT hYm

/-- Dependence is bounded away from zero. -/
theorem weakest_dependence (h : WellFormed nodes) (hN : Normalised nodes) :
    ∃ μ : ℝ, 0 < μ ∧ ∀ X Y Z, (X :: Y :: Z).Nodup → (∀ x ∈ X :: Y :: Z, x < nodes.length) →
      ¬ NetIndependent nodes (X : Nat) (Y : Nat) (Z.map (fun z : Nat => (z : Int))) →
      μ ≤ netCmi nodes X Y (Z.map (fun z : Nat => (z : Int))) := by
  have hfin := finite_calls nodes.length
  let f : Nat × Nat × List Nat → ℝ := fun c => netCmi nodes c.1 c.2.1 (c.2.2.map (fun z : Nat => (z : Int)))
  let S := {c : Nat × Nat × List Nat | ((c.1 :: c.2.1 :: c.2.2).Nodup ∧
      ∀ x ∈ c.1 :: c.2.1 :: c.2.2, x < nodes.length) ∧ 0 < f c}
  have hS : S.Finite := hfin.subset (fun c hc => hc.1)
  have hpos : ∀ X Y Z, ¬ NetIndependent nodes (X : Nat) (Y : Nat) (Z.map (fun z : Nat => (z : Int))) →
      0 < f (X, Y, Z) := fun X Y Z hd =>
    lt_of_le_of_ne (netCmi_nonneg h hN _ _ _) (fun h0 => hd ((netCmi_eq_zero_iff h hN _ _ _).1 h0.symm))
  by_cases hne : S.Nonempty
  · obtain ⟨c, hc, hmin⟩ := Set.exists_min_image S f hS hne
    exact ⟨f c, hc.2, fun X Y Z h1 h2 hd => hmin (X, Y, Z) ⟨⟨h1, h2⟩, hpos X Y Z hd⟩⟩
  · exact ⟨1, one_pos, fun X Y Z h1 h2 hd => absurd ⟨(X, Y, Z), ⟨h1, h2⟩, hpos X Y Z hd⟩ hne⟩

/-- `n` samples, for a given failure probability `η`. -/
theorem bound_le {M n μ η : ℝ} (hM : 0 < M) (hμ : 0 < μ) (hη : 0 < η)
    (hn : (16 * M / μ) ^ 4 / 2 * Real.log (2 * M / η) ≤ n) :
    2 * M * Real.exp (-(2 * n * (μ / (16 * M)) ^ 4)) ≤ η := by
  have h1 : Real.log (2 * M / η) ≤ 2 * n * (μ / (16 * M)) ^ 4 := by
    have h2 : (16 * M / μ) ^ 4 / 2 * Real.log (2 * M / η) * (2 * (μ / (16 * M)) ^ 4) = Real.log (2 * M / η) := by
      field_simp
    have h3 := mul_le_mul_of_nonneg_right hn (by positivity : (0 : ℝ) ≤ 2 * (μ / (16 * M)) ^ 4)
    rw [h2] at h3
    linarith
  have h4 : Real.exp (-(2 * n * (μ / (16 * M)) ^ 4)) ≤ η / (2 * M) := by
    rw [← Real.exp_log (by positivity : (0 : ℝ) < η / (2 * M)), Real.exp_le_exp]
    rw [← inv_div, Real.log_inv] at *
    rw [inv_div] at *
    linarith
  calc 2 * M * Real.exp (-(2 * n * (μ / (16 * M)) ^ 4)) ≤ 2 * M * (η / (2 * M)) :=
        mul_le_mul_of_nonneg_left h4 (by positivity)
    _ = η := by field_simp

/-- **C92.** Discovery from samples is probably complete: for every faithful network, test and failure
probability there is a number of samples from which on, whatever the source of independent uniform random
numbers, the algorithms return incomplete Markov blankets with no more than that probability. -/
theorem discovery_probably_complete (nodes : List (Node ν β)) (h : WellFormed nodes)
    (hN : Normalised nodes) (hF : FaithfulNet nodes) (net : Net ν β)
    (e : finalize { nodes := nodes } = .ok net)
    (cfg : Config) (hc : cfg.criterion = none) (hα : cfg.significance < 1)
    (hcdf : ∀ d : ℕ, 1 ≤ d → Tendsto (fun g => cfg.cdf g d) atTop (𝓝 1)) (threshold : Nat)
    (η : ℝ) (hη : 0 < η) :
    ∃ N : ℕ, ∀ n ≥ N, ∀ {Ω : Type} [MeasurableSpace Ω] (P : Measure Ω) [IsProbabilityMeasure P] (U : ℕ → Ω → ℝ),
      (∀ j, Measurable (U j)) → iIndepFun U P → (∀ j, P.map (U j) = volume.restrict (Set.Icc 0 1)) →
      P.real {ω | ¬ ∃ R, sampleMatrix net n (fun j => U j ω) = .ok R ∧ R.length = n ∧
        ∀ D : Data, HasRows D R → ListsValues D nodes.length → D.ncols = nodes.length →
          D.threshold = threshold →
          ∀ (alg : MB.Algorithm) (g : MB.GTest) (T : Nat) (ι : Type)
            (o : List Nat → ι → List Nat × ι) (i : ι), alg ≠ .ipcmb true → g.Supports cfg →
            T < nodes.length → (∀ l i, (o l i).1.Perm l) →
            ∃ mb tests results,
              MB.runWith g alg D cfg (List.range nodes.length) T o i = .ok (mb, tests, results) ∧
              (∀ v, Graph.IsBlanket (Edge nodes) T v → v ∈ mb) ∧
              ∀ Y, Y < nodes.length → Y ≠ T → Y ∉ mb →
                NetIndependent nodes T Y (mb.map (fun z : Nat => (z : Int)))} ≤ η := by
  obtain ⟨μ, hμ0, hμ⟩ := weakest_dependence (nodes := nodes) h hN
  have hM : (0 : ℝ) < combinations nodes := by
    rw [← assignments_length]
    exact_mod_cast assignments_pos h
  have h1 : ∀ᶠ g in atTop, ∀ d ∈ Finset.Icc 1 (combinations nodes), cfg.significance ≤ cfg.cdf g d := by
    rw [Filter.eventually_all_finset]
    intro d hd
    exact ((hcdf d (Finset.mem_Icc.1 hd).1).eventually (lt_mem_nhds hα)).mono (fun g hg => le_of_lt hg)
  obtain ⟨g0, hg0⟩ := eventually_atTop.1 h1
  obtain ⟨N1, hN1⟩ := exists_nat_ge (g0 / μ)
  obtain ⟨N2, hN2⟩ := exists_nat_ge ((16 * (combinations nodes : ℝ) / μ) ^ 4 / 2 *
    Real.log (2 * (combinations nodes : ℝ) / η))
  refine ⟨N1 + N2 + threshold + 5 * combinations nodes + 1, ?_⟩
  intro n hn Ω _ P _ U hm hind hunif
  have c1 : (N1 : ℝ) ≤ n := by exact_mod_cast (by omega : N1 ≤ n)
  have c2 : (N2 : ℝ) ≤ n := by exact_mod_cast (by omega : N2 ≤ n)
  refine le_trans (discovery_sample_bound nodes h hN hF net e P U hm hind hunif μ hμ0 hμ cfg hc threshold n
    (by omega) (by omega) ?_) (bound_le hM hμ0 hη (le_trans hN2 c2))
  intro g d hg hd1 hd2
  refine hg0 g ?_ d (Finset.mem_Icc.2 ⟨hd1, hd2⟩)
  have h2 : g0 ≤ N1 * μ := by
    rw [div_le_iff₀ hμ0] at hN1
    exact hN1
  have h3 : (N1 : ℝ) * μ ≤ n * μ := mul_le_mul_of_nonneg_right c1 hμ0.le
  linarith

/-! ## Examples -/

/-- 10000 samples of the example network: the share of rows in which all variables have their first value
is off `1/24` by 0.03 or more with probability at most `2 exp(-18)`. -/
example : ∃ (P : Measure (ℕ → ℝ)) (net : Net Nat Nat), IsProbabilityMeasure P ∧
    finalize { nodes := exNodes } = .ok net ∧
    P.real {ω | ¬ ∃ R, sampleMatrix net 10000 ω = .ok R ∧ R.length = 10000 ∧ ∀ D : Data, HasRows D R →
      |(Stats.Spec.freq D [0, 1, 2] [0, 0, 0] : ℝ) - 1 / 24| < 3 / 100} ≤ 2 * Real.exp (-18) := by
  obtain ⟨P, hP, hm, hi, hu⟩ := uniform_source
  obtain ⟨net, e⟩ := exNodes_finalize
  refine ⟨P, net, hP, e, ?_⟩
  have h1 := frequency_deviation exNodes exNodes_wf exNodes_normalised net e P (fun j ω => ω j) hm hi hu
    10000 (by norm_num) (3 / 100) (by norm_num) [0, 1, 2] (by decide) [0, 0, 0]
  have h2 : prob exNodes (fun a => (([0, 1, 2] : List Nat).map (fun c : Nat => (c : Int))).map
      (valueOfID exNodes a) = [0, 0, 0]) = 1 / 24 := by
    rw [prob_decidable]
    decide +kernel
  rw [h2] at h1
  norm_num at h1
  norm_num
  exact h1

/-- The CMI calculator on samples of the example network with its 8 combinations of values. -/
example (n : ℕ) (hn : 0 < n) : combinations exNodes = 8 ∧
    ∃ (P : Measure (ℕ → ℝ)) (net : Net Nat Nat), IsProbabilityMeasure P ∧
    finalize { nodes := exNodes } = .ok net ∧
    P.real {ω | ¬ ∃ R, sampleMatrix net n ω = .ok R ∧ R.length = n ∧ ∃ v, cmiCompute (matrixOf 3 R) 0 2 [1] = .ok v ∧
      |v - netCmi exNodes 0 2 [1]| < 0.064} ≤ 16 * Real.exp (-(2 * n * (1 / 1000) ^ 4)) := by
  obtain ⟨P, hP, hm, hi, hu⟩ := uniform_source
  obtain ⟨net, e⟩ := exNodes_finalize
  have hM : combinations exNodes = 8 := by decide
  refine ⟨hM, P, net, hP, e, ?_⟩
  have h1 := cmi_deviation exNodes exNodes_wf exNodes_normalised net e P (fun j ω => ω j) hm hi hu
    n hn 0.064 (by norm_num)
  rw [hM] at h1
  have hle : 2 * ((8 : ℕ) : ℝ) * Real.exp (-(2 * n * (0.064 / (8 * ((8 : ℕ) : ℝ))) ^ 4)) =
      16 * Real.exp (-(2 * n * (1 / 1000) ^ 4)) := by norm_num
  rw [hle] at h1
  refine le_trans (measureReal_mono ?_ (measure_ne_top _ _)) h1
  rintro ω hbad ⟨R, hR, hl, hall⟩
  exact hbad ⟨R, hR, hl, hall _ (matrixOf_ok 3 R).1 0 2 [1] (by decide) (by decide) (by decide) (by decide)⟩

/-- Two causes and one effect, the chi-squared test at significance 0.95: enough samples for the whole
blanket of the target 0 with probability 0.99, whatever the algorithm. -/
example : ∃ (net : Net Nat Nat), finalize { nodes := exCollider } = .ok net ∧
    ∃ N : ℕ, ∀ n ≥ N, ∃ (P : Measure (ℕ → ℝ)), IsProbabilityMeasure P ∧
      P.real {ω | ¬ ∃ R, sampleMatrix net n ω = .ok R ∧ ∀ alg : MB.Algorithm, alg ≠ .ipcmb true →
        ∃ mb tests results, MB.runWith (.adtree true) alg (matrixOf 3 R) exConfig [0, 1, 2] 0
          (fun l (i : Unit) => (l, i)) () = .ok (mb, tests, results) ∧ 1 ∈ mb ∧ 2 ∈ mb} ≤ 1 / 100 := by
  obtain ⟨P, hP, hm, hi, hu⟩ := uniform_source
  obtain ⟨net, e, _⟩ := finalize_ok exCollider_wf
  obtain ⟨N, hN⟩ := discovery_probably_complete exCollider exCollider_wf exCollider_normalised
    exCollider_faithful net e exConfig rfl (by unfold exConfig; norm_num) (fun d hd => chi2_meets d hd) 0
    (1 / 100) (by norm_num)
  refine ⟨net, e, N, fun n hn => ⟨P, hP, ?_⟩⟩
  refine le_trans (measureReal_mono ?_ (measure_ne_top _ _)) (hN n hn P (fun j ω => ω j) hm hi hu)
  rintro ω hbad ⟨R, hR, hl, hall⟩
  refine hbad ⟨R, hR, fun alg ha => ?_⟩
  obtain ⟨mb, tests, results, e1, hB, -⟩ := hall (matrixOf 3 R) (matrixOf_ok 3 R).1 (matrixOf_ok 3 R).2 rfl rfl
    alg (.adtree true) 0 Unit (fun l i => (l, i)) () ha trivial (by decide) (fun l _ => List.Perm.refl l)
  have e01 : Edge exCollider 0 1 :=
    ⟨0, 1, ⟨exCollider[1], by simp, rfl, by decide⟩, by decide +kernel, by decide +kernel⟩
  have e21 : Edge exCollider 2 1 :=
    ⟨2, 1, ⟨exCollider[1], by simp, rfl, by decide⟩, by decide +kernel, by decide +kernel⟩
  exact ⟨mb, tests, results, e1, hB 1 ⟨by decide, .inr (.inl e01)⟩,
    hB 2 ⟨by decide, .inr (.inr ⟨1, e01, e21⟩)⟩⟩

end Mbtk.BN
