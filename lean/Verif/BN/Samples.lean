import Verif.BN.SourceCmi
import Mathlib.Probability.StrongLaw
import Mathlib.Probability.Independence.InfinitePi
/-!
# Many samples (C67)

`BayesianNetwork.samples` and `sample_matrix`: repeated sampling, the distribution of a list of
samples and what becomes of relative frequencies.
-/
namespace Mbtk.BN
open Spec Stats MeasureTheory ProbabilityTheory Filter
open scoped Topology

/-! ## Frequencies of blocks of independent random numbers -/

section blocks
variable {Ω : Type} [MeasurableSpace Ω] {P : Measure Ω} [IsProbabilityMeasure P] {U : ℕ → Ω → ℝ}

/-- The `k`-th block of `m` random numbers. (Specification.) -/
def block (U : ℕ → Ω → ℝ) (m k : ℕ) (ω : Ω) : Fin m → ℝ := fun i => U (k * m + i) ω

omit [MeasurableSpace Ω] in
theorem block_index_inj {m k k' : ℕ} {i i' : Fin m} (h : k * m + i.1 = k' * m + i'.1) :
    k = k' ∧ i = i' := by
  have hm : 0 < m := lt_of_le_of_lt (Nat.zero_le _) i.2
  have h1 : (k * m + i.1) / m = k := by
    rw [Nat.add_comm, Nat.add_mul_div_right _ _ hm, Nat.div_eq_of_lt i.2, Nat.zero_add]
  have h2 : (k' * m + i'.1) / m = k' := by
    rw [Nat.add_comm, Nat.add_mul_div_right _ _ hm, Nat.div_eq_of_lt i'.2, Nat.zero_add]
  have hk : k = k' := by rw [← h1, ← h2, h]
  subst hk
  exact ⟨rfl, Fin.ext (by omega)⟩

theorem block_measurable (hm : ∀ j, Measurable (U j)) (m k : ℕ) : Measurable (block U m k) :=
  measurable_pi_lambda _ (fun _ => hm _)

omit [IsProbabilityMeasure P] in
theorem block_law (hm : ∀ j, Measurable (U j)) (hind : iIndepFun U P)
    (hunif : ∀ j, P.map (U j) = volume.restrict (Set.Icc 0 1)) (m k : ℕ) :
    P.map (block U m k) = (volume : Measure (Fin m → ℝ)).restrict (Set.univ.pi (fun _ => Set.Icc 0 1)) := by
  have hinj : Function.Injective (fun i : Fin m => k * m + i.1) := fun i i' h => (block_index_inj h).2
  have h1 := (hind.precomp hinj).map_fun_eq_pi_map (fun i => (hm _).aemeasurable)
  show P.map (fun ω (i : Fin m) => U (k * m + i.1) ω) = _
  rw [h1]
  simp only [hunif]
  rw [volume_pi, Measure.restrict_pi_pi]

omit [IsProbabilityMeasure P] in
theorem block_indep (hm : ∀ j, Measurable (U j)) (hind : iIndepFun U P) (m : ℕ) {k k' : ℕ}
    (hk : k ≠ k') : IndepFun (block U m k) (block U m k') P := by
  classical
  let S : ℕ → Finset ℕ := fun k => Finset.univ.image (fun i : Fin m => k * m + i.1)
  have hdis : Disjoint (S k) (S k') := by
    rw [Finset.disjoint_left]
    intro x hx hx'
    obtain ⟨i, -, rfl⟩ := Finset.mem_image.1 hx
    obtain ⟨i', -, he⟩ := Finset.mem_image.1 hx'
    exact hk (block_index_inj he).1.symm
  have h0 := hind.indepFun_finset (S k) (S k') hdis hm
  let g : ∀ k, (S k → ℝ) → (Fin m → ℝ) := fun k f i =>
    f ⟨k * m + i.1, Finset.mem_image.2 ⟨i, Finset.mem_univ _, rfl⟩⟩
  have hg : ∀ k, Measurable (g k) := fun k => measurable_pi_lambda _ (fun i => measurable_pi_apply _)
  exact h0.comp (hg k) (hg k')

/-- The relative frequency with which a block falls into a box converges to the volume of the box,
almost surely. -/
theorem block_frequencies (hm : ∀ j, Measurable (U j)) (hind : iIndepFun U P)
    (hunif : ∀ j, P.map (U j) = volume.restrict (Set.Icc 0 1)) (m : ℕ) (B : Set (Fin m → ℝ))
    (hB : MeasurableSet B) (hcube : B ⊆ Set.univ.pi (fun _ => Set.Icc (0 : ℝ) 1)) :
    ∀ᵐ ω ∂P, Tendsto (fun n : ℕ => (∑ k ∈ Finset.range n, B.indicator (fun _ => (1 : ℝ)) (block U m k ω)) / n)
      atTop (𝓝 (volume B).toReal) := by
  have hf : Measurable (B.indicator (fun _ => (1 : ℝ))) := measurable_const.indicator hB
  let X : ℕ → Ω → ℝ := fun k ω => B.indicator (fun _ => (1 : ℝ)) (block U m k ω)
  have hX : ∀ k, Measurable (X k) := fun k => hf.comp (block_measurable hm m k)
  have hint : Integrable (X 0) P := by
    refine Integrable.of_bound (hX 0).aestronglyMeasurable 1 (Eventually.of_forall fun ω => ?_)
    simp only [X, Set.indicator]
    split <;> simp
  have hid : ∀ k, IdentDistrib (X k) (X 0) P P := by
    intro k
    have : IdentDistrib (block U m k) (block U m 0) P P :=
      ⟨(block_measurable hm m k).aemeasurable, (block_measurable hm m 0).aemeasurable, by
        rw [block_law hm hind hunif, block_law hm hind hunif]⟩
    exact this.comp hf
  have hpair : Pairwise (Function.onFun (fun f g => IndepFun f g P) X) := by
    intro k k' hk
    exact (block_indep hm hind m hk).comp hf hf
  have hmean : ∫ ω, X 0 ω ∂P = (volume B).toReal := by
    have h1 : ∫ ω, X 0 ω ∂P = ∫ u, B.indicator (fun _ => (1 : ℝ)) u ∂(P.map (block U m 0)) :=
      (integral_map (block_measurable hm m 0).aemeasurable hf.aestronglyMeasurable).symm
    rw [h1, integral_indicator_const _ hB, block_law hm hind hunif, measureReal_restrict_apply hB,
      Set.inter_eq_left.2 hcube]
    simp [Measure.real]
  have := strong_law_ae_real X hint hpair hid
  rw [hmean] at this
  exact this

end blocks

/-! ## Model -/

variable {ν β : Type} [LinearOrder ν] [DecidableEq β]

section model
variable {K : Type} [Field K] [LinearOrder K]

/-- The list comprehension of `samples(n)`: BayesianNetwork.py 115.  The next sample starts with the
first random number that has not been drawn: a draw adds a name to the sample (590-607), so a sample
has drawn as many numbers as it has names. -/
def samplesFrom (net : Net ν β) (rolls : Nat → K) : Nat → Nat → Except Err (List (List (ν × β)))
  | 0, _ => .ok []
  | n + 1, k => do
    let s ← sample net (fun j => rolls (k + j))
    let rest ← samplesFrom net rolls n (k + s.length)
    .ok (s :: rest)

/-- `samples(n)`: BayesianNetwork.py 109-115, dictionary form. -/
def samples (net : Net ν β) (n : Nat) (rolls : Nat → K) : Except Err (List (List (ν × β))) :=
  requireFinal net (samplesFrom net rolls n 0)

/-- `[sample_as_list(sample_values_to_indices(s)) for s in l]`: BayesianNetwork.py 90-94. -/
def rowsOf (net : Net ν β) : List (List (ν × β)) → Except Err (List (List Nat))
  | [] => .ok []
  | s :: rest => do
    let si ← toIndices net.nodes s
    let r ← asList si (names net.nodes)
    let rs ← rowsOf net rest
    .ok (r :: rs)

/-- The rows of `sample_matrix(n)`: BayesianNetwork.py 118-127, before the conversion to the data type
of the matrix.  The code converts each sample before it draws the next; conversions draw nothing. -/
def sampleMatrix (net : Net ν β) (n : Nat) (rolls : Nat → K) : Except Err (List (List Nat)) := do
  let l ← samples net n rolls
  rowsOf net l

end model

/-! ## A sample only depends on its own random numbers -/

section det
variable {K : Type} [Field K] [LinearOrder K]

theorem sampleLoop_congr (nodes : List (Node ν β)) {rolls rolls' : Nat → K} (vs : List ν) (k : Nat)
    (s : List (ν × β)) (h : ∀ j, j < k + vs.length → rolls j = rolls' j) :
    sampleLoop nodes rolls vs k s = sampleLoop nodes rolls' vs k s := by
  induction vs generalizing k s with
  | nil => rfl
  | cons v vs ih =>
    simp only [List.length_cons] at h
    have h1 : ∀ r : List (ν × β) × Bool,
        sampleLoop nodes rolls vs (if r.2 then k + 1 else k) r.1 =
        sampleLoop nodes rolls' vs (if r.2 then k + 1 else k) r.1 := by
      intro r
      apply ih
      intro j hj
      apply h
      split at hj <;> omega
    simp only [sampleLoop, h k (by omega), h1]

theorem sample_congr (net : Net ν β) {rolls rolls' : Nat → K}
    (h : ∀ j, j < net.nodeOrder.length → rolls j = rolls' j) : sample net rolls = sample net rolls' := by
  unfold sample
  rw [sampleLoop_congr net.nodes net.nodeOrder 0 [] (by simpa using h)]

variable [IsStrictOrderedRing K]

theorem sample_length {nodes : List (Node ν β)} (h : WellFormed nodes) (hN : Normalised nodes)
    {net : Net ν β} (e : finalize { nodes := nodes } = .ok net) {rolls : Nat → K}
    (hrolls : ∀ k, rolls k ≤ 1) [Nonempty β] {s : List (ν × β)} (es : sample net rolls = .ok s) :
    s.length = nodes.length := by
  obtain ⟨s', a, es', hk, _⟩ := sample_ok nodes h hN net e rolls hrolls
  rw [es] at es'
  cases es'
  rw [← List.length_map (as := s) Prod.fst, hk, (finalize_unique h e).order.perm.length_eq, List.length_map]

theorem samplesFrom_ok {nodes : List (Node ν β)} (h : WellFormed nodes) (hN : Normalised nodes)
    {net : Net ν β} (e : finalize { nodes := nodes } = .ok net) {rolls : Nat → K}
    (hrolls : ∀ k, rolls k ≤ 1) [Nonempty β] (n k : Nat) :
    ∃ l, samplesFrom net rolls n k = .ok l ∧ l.length = n ∧
      ∀ i s, l[i]? = some s → sample net (fun j => rolls (k + i * nodes.length + j)) = .ok s := by
  induction n generalizing k with
  | zero => exact ⟨[], rfl, rfl, by simp⟩
  | succ n ih =>
    obtain ⟨s, a, es, -⟩ := sample_ok nodes h hN net e (fun j => rolls (k + j)) (fun j => hrolls _)
    have hl := sample_length h hN e (fun j => hrolls _) es
    obtain ⟨l, el, hll, hall⟩ := ih (k + s.length)
    refine ⟨s :: l, ?_, by simp [hll], ?_⟩
    · show (sample net _ >>= _) = _
      rw [es]
      show (samplesFrom net rolls n (k + s.length) >>= _) = _
      rw [el]; rfl
    · intro i t ht
      cases i with
      | zero =>
        simp only [List.getElem?_cons_zero, Option.some.injEq] at ht
        subst ht
        simpa using es
      | succ i =>
        simp only [List.getElem?_cons_succ] at ht
        have := hall i t ht
        rw [hl] at this
        rw [← this]
        congr 1
        funext j
        congr 1
        ring

/-- **C67.** `samples(n)` returns `n` samples; the `i`-th is the sample that the `i`-th block of
`len(network)` random numbers determines. -/
theorem samples_ok (nodes : List (Node ν β)) (h : WellFormed nodes) (hN : Normalised nodes)
    (net : Net ν β) (e : finalize { nodes := nodes } = .ok net) (rolls : Nat → K)
    (hrolls : ∀ k, rolls k ≤ 1) [Nonempty β] (n : Nat) :
    ∃ l, samples net n rolls = .ok l ∧ l.length = n ∧
      ∀ i s, l[i]? = some s → sample net (fun j => rolls (i * nodes.length + j)) = .ok s := by
  obtain ⟨l, el, hl, hall⟩ := samplesFrom_ok h hN e hrolls n 0
  refine ⟨l, ?_, hl, fun i s hs => by simpa using hall i s hs⟩
  unfold samples requireFinal
  rw [if_pos (finalize_unique h e).finalized, el]

theorem rowsOf_ok {nodes : List (Node ν β)} (h : WellFormed nodes) (hN : Normalised nodes)
    {net : Net ν β} (e : finalize { nodes := nodes } = .ok net) [Nonempty β] (l : List (List (ν × β)))
    (hl : ∀ s ∈ l, ∃ rolls : Nat → K, (∀ k, rolls k ≤ 1) ∧ sample net rolls = .ok s) :
    ∃ rows, rowsOf net l = .ok rows ∧ List.Forall₂ (fun s r => ∃ a : ν → β, Assignment nodes a ∧
      (∀ n ∈ nodes, dictGet s n.name = some (a n.name)) ∧ r = (indices nodes a).map Int.toNat) l rows := by
  induction l with
  | nil => exact ⟨[], rfl, .nil⟩
  | cons s l ih =>
    obtain ⟨rows, er, hr⟩ := ih (fun t ht => hl t (by simp [ht]))
    obtain ⟨rolls, hro, es⟩ := hl s (by simp)
    obtain ⟨s', a, es', -, hs, hSam, hrow⟩ := sample_ok nodes h hN net e rolls hro
    rw [es] at es'
    cases es'
    refine ⟨(indices nodes a).map Int.toNat :: rows, ?_, .cons ⟨a, fun n hn => (hSam n hn).1, hs, rfl⟩ hr⟩
    unfold sampleRow at hrow
    rw [es] at hrow
    change (toIndices net.nodes s >>= fun si => asList si (names net.nodes)) = _ at hrow
    show (toIndices net.nodes s >>= _) = _
    cases hti : toIndices net.nodes s with
    | error x => rw [hti] at hrow; cases hrow
    | ok si =>
      rw [hti] at hrow
      change asList si (names net.nodes) = _ at hrow
      show (asList si (names net.nodes) >>= _) = _
      rw [hrow]
      show (rowsOf net l >>= _) = _
      rw [er]
      rfl

/-- **C67.** `sample_matrix(n)` has one row for each sample: the positions of its values, the
variables in the order of their names. -/
theorem sample_matrix_rows (nodes : List (Node ν β)) (h : WellFormed nodes) (hN : Normalised nodes)
    (net : Net ν β) (e : finalize { nodes := nodes } = .ok net) (rolls : Nat → K)
    (hrolls : ∀ k, rolls k ≤ 1) [Nonempty β] (n : Nat) :
    ∃ l rows, samples net n rolls = .ok l ∧ sampleMatrix net n rolls = .ok rows ∧ rows.length = n ∧
      List.Forall₂ (fun s r => ∃ a : ν → β, Assignment nodes a ∧
        (∀ n ∈ nodes, dictGet s n.name = some (a n.name)) ∧ r = (indices nodes a).map Int.toNat) l rows := by
  obtain ⟨l, el, hl, hall⟩ := samples_ok nodes h hN net e rolls hrolls n
  obtain ⟨rows, er, hr⟩ := rowsOf_ok (K := K) h hN e l (by
    intro s hs
    obtain ⟨i, hi, rfl⟩ := List.getElem_of_mem hs
    exact ⟨_, fun k => hrolls _, hall i _ (List.getElem?_eq_getElem hi)⟩)
  refine ⟨l, rows, el, ?_, by rw [← hr.length_eq, hl], hr⟩
  unfold sampleMatrix
  rw [el]
  exact er

end det

/-! ## The distribution of a list of samples -/

section dist
variable {nodes : List (Node ν β)} {net : Net ν β} [Nonempty β]

/-- The sample agrees with the assignment. (Specification.) -/
def Agrees (nodes : List (Node ν β)) (a : ν → β) (s : List (ν × β)) : Prop :=
  ∀ n ∈ nodes, dictGet s n.name = some (a n.name)

instance (nodes : List (Node ν β)) (a : ν → β) : DecidablePred (Agrees nodes a) :=
  fun s => inferInstanceAs (Decidable (∀ n ∈ nodes, dictGet s n.name = some (a n.name)))

/-- The random numbers for which the sample is the assignment `a`. (Specification.) -/
def sampleEvent (nodes : List (Node ν β)) (net : Net ν β) (a : ν → β) : Set (Fin nodes.length → ℝ) :=
  {u | (∀ i, 0 ≤ u i ∧ u i ≤ 1) ∧
    ∃ s, sample net (rollsOf u) = .ok s ∧ ∀ n ∈ nodes, dictGet s n.name = some (a n.name)}

theorem measurable_selects (row : List ℚ) (j : Nat) :
    MeasurableSet {x : ℝ | 0 ≤ x ∧ x ≤ 1 ∧ Selects row x j} := by
  unfold Selects
  have h1 : MeasurableSet {x : ℝ | 0 ≤ x} := measurableSet_Ici
  have h2 : MeasurableSet {x : ℝ | x ≤ 1} := measurableSet_Iic
  have h3 : MeasurableSet {x : ℝ | (((row.take j).sum : ℚ) : ℝ) < x} := measurableSet_Ioi
  have h4 : MeasurableSet {x : ℝ | x ≤ (((row.take (j + 1)).sum : ℚ) : ℝ)} := measurableSet_Iic
  exact h1.inter (h2.inter ((MeasurableSet.const _).inter (((MeasurableSet.const _).union h3).inter h4)))

theorem sampleEvent_measurable (h : WellFormed nodes) (hN : Normalised nodes)
    (e : finalize { nodes := nodes } = .ok net) (a : ν → β) (ha : Assignment nodes a) :
    MeasurableSet (sampleEvent nodes net a) := by
  have hf := finalize_unique h e
  have hto := hf.order
  have hpk := pickNodes_spec (nodes := nodes) net.nodeOrder (fun v hv => hto.perm.mem_iff.1 hv)
  have hperm := pickNodes_perm h.unique hto.perm
  set L := pickNodes nodes net.nodeOrder with hL
  have hlen : L.length = nodes.length := hperm.length_eq
  have hnd : net.nodeOrder.Nodup := hto.perm.nodup_iff.2 h.unique
  let nd : Fin nodes.length → Node ν β := fun i => L[i.1]'(by rw [hlen]; exact i.2)
  have hndm : ∀ i, nd i ∈ nodes := fun i => hperm.mem_iff.1 (List.getElem_mem _)
  have hidx : ∀ i : Fin nodes.length, net.nodeOrder.idxOf (nd i).name = i.1 := by
    intro i
    have h1 : i.1 < net.nodeOrder.length := by rw [← hpk.1, List.length_map, hlen]; exact i.2
    have h2 : (nd i).name = net.nodeOrder[i.1] := by
      simp only [nd, ← hpk.1, List.getElem_map]
    rw [h2, hnd.idxOf_getElem]
  have hex : ∀ n ∈ nodes, ∃ i, nd i = n := by
    intro n hn
    obtain ⟨i, hi, e⟩ := List.getElem_of_mem (hperm.mem_iff.2 hn)
    exact ⟨⟨i, by rw [← hlen]; exact hi⟩, e⟩
  have hroll : ∀ (u : Fin nodes.length → ℝ) (i : Fin nodes.length), rollsOf u i.1 = u i := by
    intro u i; simp [rollsOf]
  have hd : ∀ n ∈ nodes, DeclaredFor nodes n.parents (n.parents.map a) := fun n hn =>
    declaredFor_of (done := nodes.map (·.name)) (fun m hm _ => ha m hm) n.parents
      (h.known n hn) (h.known n hn)
  have hset : {u : Fin nodes.length → ℝ | (∀ i, 0 ≤ u i ∧ u i ≤ 1) ∧
        ∃ s, sample net (rollsOf u) = .ok s ∧ ∀ n ∈ nodes, dictGet s n.name = some (a n.name)} =
      Set.pi Set.univ (fun i => {x : ℝ | 0 ≤ x ∧ x ≤ 1 ∧
        Selects (row (nd i) ((nd i).parents.map a)) x ((nd i).values.idxOf (a (nd i).name))}) := by
    ext u
    simp only [Set.mem_pi, Set.mem_univ, forall_true_left]
    have hle : (∀ i, 0 ≤ u i ∧ u i ≤ 1) → ∀ k, rollsOf u k ≤ 1 := by
      intro hu k
      unfold rollsOf
      split
      · exact (hu _).2
      · exact zero_le_one
    constructor
    · rintro ⟨hu, s, es, hs⟩ i
      obtain ⟨s', b, es', _, hb, hS, _⟩ := sample_ok nodes h hN net e (rollsOf u) (hle hu)
      rw [es] at es'
      cases es'
      have hab : ∀ n ∈ nodes, b n.name = a n.name := by
        intro n hn
        have := hb n hn
        rw [hs n hn] at this
        exact (Option.some.inj this).symm
      have h1 := (hS (nd i) (hndm i)).2
      have hpar : (nd i).parents.map b = (nd i).parents.map a := by
        apply List.map_congr_left
        intro q hq
        obtain ⟨m, hm, rfl⟩ := List.mem_map.1 (h.known _ (hndm i) q hq)
        exact hab m hm
      rw [hpar, hidx, hroll, hab _ (hndm i)] at h1
      exact ⟨(hu i).1, (hu i).2, h1⟩
    · intro hu
      have hu' : ∀ i, 0 ≤ u i ∧ u i ≤ 1 := fun i => ⟨(hu i).1, (hu i).2.1⟩
      refine ⟨hu', ?_⟩
      obtain ⟨s, b, es, _, hb, hS, _⟩ := sample_ok nodes h hN net e (rollsOf u) (hle hu')
      refine ⟨s, es, ?_⟩
      have hSa : Sampled nodes net.nodeOrder (rollsOf u) a := by
        intro n hn
        obtain ⟨i, rfl⟩ := hex n hn
        refine ⟨ha _ hn, ?_⟩
        rw [hidx, hroll]
        exact (hu i).2.2
      intro n hn
      rw [hb n hn, sampled_unique h hN hto (rollsOf u) hS hSa n hn]
  unfold sampleEvent
  rw [hset]
  exact MeasurableSet.univ_pi (fun i => measurable_selects _ _)

theorem sampleEvent_volume (h : WellFormed nodes) (hN : Normalised nodes)
    (e : finalize { nodes := nodes } = .ok net) (a : ν → β) (ha : Assignment nodes a) :
    volume (sampleEvent nodes net a) = ENNReal.ofReal ((jointProb nodes a : ℚ) : ℝ) :=
  sample_distribution nodes h hN net e a ha

omit [Nonempty β] in
theorem sampleEvent_cube (a : ν → β) :
    sampleEvent nodes net a ⊆ Set.univ.pi (fun _ => Set.Icc (0 : ℝ) 1) :=
  fun _ hu i _ => hu.1 i

omit [Nonempty β] in
theorem nodeOrder_length (h : WellFormed nodes) (e : finalize { nodes := nodes } = .ok net) :
    net.nodeOrder.length = nodes.length := by
  rw [(finalize_unique h e).order.perm.length_eq, List.length_map]

omit [Nonempty β] in
theorem jointProb_nonneg (h : WellFormed nodes) (hN : Normalised nodes) {a : ν → β}
    (ha : Assignment nodes a) : 0 ≤ jointProb nodes a := by
  unfold jointProb
  apply List.prod_nonneg
  intro q hq
  obtain ⟨m, hm, rfl⟩ := List.mem_map.1 hq
  exact cpt_nonneg hN hm (declaredFor_of (done := nodes.map (·.name))
    (fun m hm _ => ha m hm) m.parents (h.known m hm) (h.known m hm)) _

omit [Nonempty β] in
/-- Samples `i` of a stream of random numbers in the unit interval, by blocks. -/
theorem sample_block (h : WellFormed nodes) (e : finalize { nodes := nodes } = .ok net)
    (rolls : Nat → ℝ) (i : Nat) :
    sample net (fun j => rolls (i * nodes.length + j)) =
      sample net (rollsOf (fun j : Fin nodes.length => rolls (i * nodes.length + j))) := by
  apply sample_congr
  intro j hj
  rw [nodeOrder_length h e] at hj
  simp [rollsOf, hj]

omit [Nonempty β] in
theorem agrees_iff_event (h : WellFormed nodes) (e : finalize { nodes := nodes } = .ok net)
    (rolls : Nat → ℝ) (hr : ∀ k, 0 ≤ rolls k ∧ rolls k ≤ 1) (a : ν → β) (i : Nat)
    {s : List (ν × β)} (es : sample net (fun j => rolls (i * nodes.length + j)) = .ok s) :
    Agrees nodes a s ↔ (fun j : Fin nodes.length => rolls (i * nodes.length + j)) ∈ sampleEvent nodes net a := by
  rw [sample_block h e] at es
  constructor
  · intro hs
    exact ⟨fun j => hr _, s, es, hs⟩
  · rintro ⟨-, s', es', hs'⟩
    rw [es] at es'
    cases es'
    exact hs'

/-- **C67.** Samples are independent: with independent uniform random numbers, the probability that
`samples(n)` is a given list of assignments is the product of their joint probabilities. -/
theorem samples_distribution (nodes : List (Node ν β)) (h : WellFormed nodes) (hN : Normalised nodes)
    (net : Net ν β) (e : finalize { nodes := nodes } = .ok net) (n : Nat) (a : Fin n → ν → β)
    (ha : ∀ k, Assignment nodes (a k)) :
    volume {u : Fin n → Fin nodes.length → ℝ | (∀ k i, 0 ≤ u k i ∧ u k i ≤ 1) ∧
        ∃ l, samples net n (rollsOf (fun j : Fin (n * nodes.length) => u j.divNat j.modNat)) = .ok l ∧
          List.Forall₂ (Agrees nodes) (List.ofFn a) l} =
      ENNReal.ofReal (∏ k, ((jointProb nodes (a k) : ℚ) : ℝ)) := by
  have hset : {u : Fin n → Fin nodes.length → ℝ | (∀ k i, 0 ≤ u k i ∧ u k i ≤ 1) ∧
        ∃ l, samples net n (rollsOf (fun j : Fin (n * nodes.length) => u j.divNat j.modNat)) = .ok l ∧
          List.Forall₂ (Agrees nodes) (List.ofFn a) l} =
      Set.univ.pi (fun k => sampleEvent nodes net (a k)) := by
    ext u
    simp only [Set.mem_ofPred_eq, Set.mem_pi, Set.mem_univ, forall_true_left]
    set rolls := rollsOf (fun j : Fin (n * nodes.length) => u j.divNat j.modNat) with hrolls
    have hblk : ∀ k : Fin n, (fun j : Fin nodes.length => rolls (k * nodes.length + j)) = u k := by
      intro k
      funext j
      have hlt : k.1 * nodes.length + j.1 < n * nodes.length := by
        calc k.1 * nodes.length + j.1 < k.1 * nodes.length + nodes.length := by omega
          _ = (k.1 + 1) * nodes.length := by ring
          _ ≤ n * nodes.length := Nat.mul_le_mul_right _ k.2
      have hp : 0 < nodes.length := lt_of_le_of_lt (Nat.zero_le _) j.2
      rw [hrolls]
      unfold rollsOf
      rw [dif_pos hlt]
      have hd : Fin.divNat ⟨k.1 * nodes.length + j.1, hlt⟩ = k := by
        apply Fin.ext
        show (k.1 * nodes.length + j.1) / nodes.length = k.1
        rw [Nat.add_comm, Nat.add_mul_div_right _ _ hp, Nat.div_eq_of_lt j.2, Nat.zero_add]
      have hmd : Fin.modNat ⟨k.1 * nodes.length + j.1, hlt⟩ = j := by
        apply Fin.ext
        show (k.1 * nodes.length + j.1) % nodes.length = j.1
        rw [Nat.add_comm, Nat.add_mul_mod_self_right, Nat.mod_eq_of_lt j.2]
      show u (Fin.divNat ⟨_, hlt⟩) (Fin.modNat ⟨_, hlt⟩) = u k j
      rw [hd, hmd]
    have hin : (∀ k i, 0 ≤ u k i ∧ u k i ≤ 1) → ∀ k, 0 ≤ rolls k ∧ rolls k ≤ 1 := by
      intro hu k
      rw [hrolls]
      unfold rollsOf
      split
      · exact hu _ _
      · exact ⟨le_refl _, zero_le_one⟩
    have key : (∀ k i, 0 ≤ u k i ∧ u k i ≤ 1) → ∀ l, samples net n rolls = .ok l →
        (List.Forall₂ (Agrees nodes) (List.ofFn a) l ↔ ∀ k, u k ∈ sampleEvent nodes net (a k)) := by
      intro hu l el
      have hr := hin hu
      obtain ⟨l', el', hl, hall⟩ := samples_ok nodes h hN net e rolls (fun k => (hr k).2) n
      rw [el] at el'
      cases el'
      rw [List.forall₂_iff_get]
      constructor
      · rintro ⟨-, hag⟩ k
        have h1 := hag k.1 (by simp) (by rw [hl]; exact k.2)
        simp only [List.get_eq_getElem, List.getElem_ofFn] at h1
        have h2 := (agrees_iff_event h e rolls hr (a k) k.1
          (hall k.1 _ (List.getElem?_eq_getElem (by rw [hl]; exact k.2)))).1 h1
        rwa [hblk k] at h2
      · intro hev
        refine ⟨by simp [hl], ?_⟩
        intro i h1 h2
        have hi : i < n := by rw [← hl]; exact h2
        simp only [List.get_eq_getElem, List.getElem_ofFn]
        have h3 := hev ⟨i, hi⟩
        rw [← hblk ⟨i, hi⟩] at h3
        exact (agrees_iff_event h e rolls hr (a ⟨i, hi⟩) i
          (hall i _ (List.getElem?_eq_getElem h2))).2 h3
    constructor
    · rintro ⟨hu, l, el, hl⟩
      exact (key hu l el).1 hl
    · intro hev
      have hu : ∀ k i, 0 ≤ u k i ∧ u k i ≤ 1 := fun k i => (hev k).1 i
      obtain ⟨l, el, -⟩ := samples_ok nodes h hN net e rolls (fun k => (hin hu k).2) n
      exact ⟨hu, l, el, (key hu l el).2 hev⟩
  rw [hset, volume_pi_pi]
  simp only [sampleEvent_volume h hN e _ (ha _)]
  rw [ENNReal.ofReal_prod_of_nonneg]
  intro k _
  exact_mod_cast jointProb_nonneg h hN (ha k)

omit [Nonempty β] in
/-- The number of samples that agree with an assignment, as a sum over the blocks. -/
theorem countP_blocks (h : WellFormed nodes) (e : finalize { nodes := nodes } = .ok net)
    (rolls : Nat → ℝ) (hr : ∀ k, 0 ≤ rolls k ∧ rolls k ≤ 1) (a : ν → β) (l : List (List (ν × β)))
    (hall : ∀ i s, l[i]? = some s → sample net (fun j => rolls (i * nodes.length + j)) = .ok s) :
    ((l.countP (Agrees nodes a) : ℕ) : ℝ) = ∑ k ∈ Finset.range l.length,
      (sampleEvent nodes net a).indicator (fun _ => (1 : ℝ))
        (fun j : Fin nodes.length => rolls (k * nodes.length + j)) := by
  induction l using List.reverseRecOn with
  | nil => simp
  | append_singleton l s ih =>
    have h1 := ih (fun i t ht => hall i t (by
      rw [List.getElem?_append_left]
      · exact ht
      · exact (List.getElem?_eq_some_iff.1 ht).1))
    have h2 := agrees_iff_event h e rolls hr a l.length (hall l.length s (by simp))
    rw [List.countP_append, List.length_append, List.length_singleton, Finset.sum_range_succ, ← h1]
    push_cast
    congr 1
    by_cases hs : Agrees nodes a s
    · rw [Set.indicator_of_mem (h2.1 hs)]
      simp [hs]
    · rw [Set.indicator_of_notMem (fun hx => hs (h2.2 hx))]
      simp [hs]

/-- **C67.** The law of large numbers: whatever source of independent, uniformly distributed random
numbers, with probability one `samples(n)` succeeds for every `n` and the share of the samples that
are a given assignment converges to the joint probability of the assignment. -/
theorem frequencies_converge (nodes : List (Node ν β)) (h : WellFormed nodes) (hN : Normalised nodes)
    (net : Net ν β) (e : finalize { nodes := nodes } = .ok net) (a : ν → β) (ha : Assignment nodes a)
    {Ω : Type} [MeasurableSpace Ω] (P : Measure Ω) [IsProbabilityMeasure P] (U : ℕ → Ω → ℝ)
    (hm : ∀ j, Measurable (U j)) (hind : iIndepFun U P)
    (hunif : ∀ j, P.map (U j) = volume.restrict (Set.Icc 0 1)) :
    ∀ᵐ ω ∂P, ∃ S : ℕ → List (List (ν × β)),
      (∀ n, samples net n (fun j => U j ω) = .ok (S n)) ∧
      Tendsto (fun n : ℕ => ((S n).countP (Agrees nodes a) : ℝ) / n) atTop
        (𝓝 ((jointProb nodes a : ℚ) : ℝ)) := by
  have hin : ∀ᵐ ω ∂P, ∀ j, U j ω ∈ Set.Icc (0 : ℝ) 1 := by
    rw [ae_all_iff]
    intro j
    have h1 : ∀ᵐ x ∂(P.map (U j)), x ∈ Set.Icc (0 : ℝ) 1 := by
      rw [hunif]
      exact ae_restrict_mem measurableSet_Icc
    exact ae_of_ae_map (hm j).aemeasurable h1
  have hfr := block_frequencies hm hind hunif nodes.length (sampleEvent nodes net a)
    (sampleEvent_measurable h hN e a ha) (sampleEvent_cube a)
  filter_upwards [hin, hfr] with ω h1 h2
  have hr : ∀ k, 0 ≤ U k ω ∧ U k ω ≤ 1 := fun k => h1 k
  choose S hS hl hall using fun n => samples_ok nodes h hN net e (fun j => U j ω) (fun k => (hr k).2) n
  refine ⟨S, hS, ?_⟩
  rw [sampleEvent_volume h hN e a ha, ENNReal.toReal_ofReal
    (by exact_mod_cast jointProb_nonneg h hN ha)] at h2
  refine h2.congr ?_
  intro n
  congr 1
  rw [countP_blocks h e (fun j => U j ω) hr a (S n) (hall n), hl]
  rfl

end dist

/-! ## Examples -/

/-- Independent uniform random numbers exist: the hypotheses of `frequencies_converge` on the source
can be met. -/
theorem uniform_source : ∃ (P : Measure (ℕ → ℝ)), IsProbabilityMeasure P ∧
    (∀ j, Measurable (fun ω : ℕ → ℝ => ω j)) ∧ iIndepFun (fun j (ω : ℕ → ℝ) => ω j) P ∧
    ∀ j, P.map (fun ω : ℕ → ℝ => ω j) = volume.restrict (Set.Icc 0 1) := by
  have : IsProbabilityMeasure ((volume : Measure ℝ).restrict (Set.Icc 0 1)) := ⟨by simp⟩
  refine ⟨Measure.infinitePi (fun _ : ℕ => (volume : Measure ℝ).restrict (Set.Icc 0 1)),
    inferInstance, fun j => measurable_pi_apply j, ?_, ?_⟩
  · exact iIndepFun_infinitePi (X := fun _ x => x) (fun _ => measurable_id)
  · exact Measure.infinitePi_map_eval _

/-- In the example network, all three variables have their first value in one sample of 24, in the
long run. -/
example : ∃ (P : Measure (ℕ → ℝ)) (net : Net Nat Nat), IsProbabilityMeasure P ∧
    finalize { nodes := exNodes } = .ok net ∧
    ∀ᵐ ω ∂P, ∃ S : ℕ → List (List (Nat × Nat)), (∀ n, samples net n ω = .ok (S n)) ∧
      Tendsto (fun n : ℕ => ((S n).countP (Agrees exNodes (fun _ => 7)) : ℝ) / n) atTop (𝓝 (1 / 24)) := by
  obtain ⟨P, hP, hm, hi, hu⟩ := uniform_source
  obtain ⟨net, e⟩ := exNodes_finalize
  refine ⟨P, net, hP, e, ?_⟩
  have h1 := frequencies_converge exNodes exNodes_wf exNodes_normalised net e (fun _ => 7)
    (by intro n hn; revert n; decide) P (fun j ω => ω j) hm hi hu
  have h2 : jointProb exNodes (fun _ => 7) = 1 / 24 := by decide +kernel
  rw [h2] at h1
  norm_num at h1
  norm_num
  exact h1

/-- Two samples that are both all-7: probability `1/24 * 1/24`. -/
example : ∃ net, finalize { nodes := exNodes } = .ok net ∧
    volume {u : Fin 2 → Fin exNodes.length → ℝ | (∀ k i, 0 ≤ u k i ∧ u k i ≤ 1) ∧
        ∃ l, samples net 2 (rollsOf (fun j : Fin (2 * exNodes.length) => u j.divNat j.modNat)) = .ok l ∧
          List.Forall₂ (Agrees exNodes) (List.ofFn (fun _ : Fin 2 => fun _ => 7)) l} =
      ENNReal.ofReal (∏ _k : Fin 2, ((jointProb exNodes (fun _ => 7) : ℚ) : ℝ)) := by
  obtain ⟨net, e⟩ := exNodes_finalize
  exact ⟨net, e, samples_distribution exNodes exNodes_wf exNodes_normalised net e 2 (fun _ _ => 7)
    (by intro _ n hn; revert n; decide)⟩

/-- The rows of a sample matrix with two rows. -/
example : (do
    let net ← finalize { nodes := exNodes }
    sampleMatrix net 2 (fun k : Nat => ([1/5, 1/5, 1/5, 1/2, 1/2, 1/4] : List ℚ).getD k 0)) =
      .ok [[0, 0, 0], [0, 1, 1]] := by decide +kernel

end Mbtk.BN
