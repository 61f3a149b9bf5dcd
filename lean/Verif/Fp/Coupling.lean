import Verif.Fp.Sample
import Verif.BN.Caches
import Verif.BN.FiniteSample
import Mathlib.MeasureTheory.Function.Floor
/-!
# The samples that the code draws, compared with exact samples (C97)

The code rounds the tables, rounds the cumulative sums and uses random numbers with 53 bits.  Here the
distribution of its samples is compared with that of a sampler that computes with real numbers and uses
real random numbers.
-/
namespace Mbtk.Fp
open Mbtk Mbtk.BN Mbtk.BN.Spec MeasureTheory ProbabilityTheory

variable {ν β : Type} [LinearOrder ν] [DecidableEq β]

/-! ## Specification -/

/-- All the cumulative sums of all the rows of all the tables of a network, computed exactly.  There is
one for each number in the tables. (Specification.) -/
def cuts (nodes : List (Node ν β)) : List ℚ :=
  nodes.flatMap (fun n => n.probabilities.flatMap (fun p => accumulate 0 p.2))

/-- The number of probabilities in the tables of a network. (Specification.) -/
def tableSize (nodes : List (Node ν β)) : Nat :=
  (nodes.map (fun n => (n.probabilities.map (fun p => p.2.length)).sum)).sum

omit [LinearOrder ν] [DecidableEq β] in
theorem cuts_length (nodes : List (Node ν β)) : (cuts nodes).length = tableSize nodes := by
  have h1 : ∀ (s : ℚ) (l : List ℚ), (accumulate s l).length = l.length := by
    intro s l
    induction l generalizing s with
    | nil => rfl
    | cons p l ih => simp [accumulate, ih]
  unfold cuts tableSize
  rw [List.length_flatMap]
  congr 1
  apply List.map_congr_left
  intro n _
  rw [List.length_flatMap]
  simp only [h1]

/-! ## Two networks that draw the same -/

section twin
variable {K K' : Type} [Field K] [LinearOrder K] [Field K'] [LinearOrder K']

/-- Two nodes that draw the same value from the random numbers `r` and `r'`.
(Models no code: a notion for statements and proofs.) -/
structure Twin (n n' : Node ν β) (r : K) (r' : K') : Prop where
  draw : ∀ k, (dictGet n.cumulative k).map (sampleRoll r) = (dictGet n'.cumulative k).map (sampleRoll r')

/-- Two nodes with the same name, values and parents.
(Models no code: a notion for statements and proofs.) -/
structure SameNode (n n' : Node ν β) : Prop where
  name : n'.name = n.name
  values : n'.values = n.values
  parents : n'.parents = n.parents

omit [LinearOrder ν] in
theorem nodeSample_twin [LinearOrder ν] {n n' : Node ν β} (hs : SameNode n n') {r : K} {r' : K'} (ht : Twin n n' r r')
    (s : List (ν × β)) : nodeSample n s false r = nodeSample n' s false r' := by
  unfold nodeSample
  rw [hs.name]
  have hk : conditioningKey n' s false = conditioningKey n s false := by
    unfold conditioningKey
    rw [hs.parents]
  rw [hk]
  by_cases hin : n.name ∈ s.map Prod.fst
  · rw [if_pos hin, if_pos hin]
  · rw [if_neg hin, if_neg hin]
    cases conditioningKey n s false with
    | error e => rfl
    | ok k =>
      show (probdistSample n k r >>= _) = (probdistSample n' k r' >>= _)
      have hv : ∀ i, valueAt n' i = valueAt n i := by
        intro i
        cases i with
        | none => rfl
        | some i => simp only [valueAt, hs.values]
      have hp : probdistSample n k r = probdistSample n' k r' := by
        have hd := ht.draw k
        unfold probdistSample
        cases h1 : dictGet n.cumulative k with
        | none =>
          rw [h1] at hd
          cases h2 : dictGet n'.cumulative k with
          | none => rfl
          | some _ => rw [h2] at hd; cases hd
        | some cs =>
          rw [h1] at hd
          cases h2 : dictGet n'.cumulative k with
          | none => rw [h2] at hd; cases hd
          | some cs' =>
            rw [h2] at hd
            simp only [Option.map_some, Option.some.injEq] at hd
            simp only [hd]
      rw [hp]
      simp only [hv]

omit [DecidableEq β] in
theorem getNode_map (nodes : List (Node ν β)) {f : Node ν β → Node ν β}
    (hf : ∀ n ∈ nodes, (f n).name = n.name) (v : ν) : getNode (nodes.map f) v = (getNode nodes v).map f := by
  unfold getNode
  induction nodes with
  | nil => rfl
  | cons n nodes ih =>
    rw [List.map_cons, List.find?_cons, List.find?_cons, hf n (by simp)]
    by_cases h : n.name = v
    · simp only [h, decide_true]
      rfl
    · simp only [h, decide_false]
      exact ih (fun m hm => hf m (by simp [hm]))

omit [DecidableEq β] in
theorem getNode_mem' {nodes : List (Node ν β)} {v : ν} {n : Node ν β} (h : getNode nodes v = .ok n) : n ∈ nodes := by
  unfold getNode at h
  cases hf : nodes.find? (fun n => n.name = v) with
  | none => rw [hf] at h; cases h
  | some m =>
    rw [hf] at h
    cases h
    exact List.mem_of_find?_eq_some hf

omit [LinearOrder ν] [DecidableEq β] in
theorem dictSet_length_le [DecidableEq ν] (d : List (ν × β)) (k : ν) (v : β) : (dictSet d k v).length ≤ d.length + 1 := by
  induction d with
  | nil => simp [dictSet]
  | cons p d ih =>
    obtain ⟨k', v'⟩ := p
    simp only [dictSet]
    split
    · simp
    · simpa using ih

/-- How far a loop over names gets in the random numbers and how long the sample becomes. -/
theorem sampleLoop_length (nodes : List (Node ν β)) (rolls : Nat → K) (vs : List ν) (k : Nat)
    (s s' : List (ν × β)) (e : sampleLoop nodes rolls vs k s = .ok s') : s'.length ≤ s.length + vs.length := by
  induction vs generalizing k s with
  | nil => cases e; simp
  | cons v vs ih =>
    simp only [sampleLoop] at e
    cases hg : getNode nodes v with
    | error _ => rw [hg] at e; cases e
    | ok n =>
      rw [hg] at e
      change (nodeSample n s false (rolls k) >>= _) = _ at e
      cases hn : nodeSample n s false (rolls k) with
      | error _ => rw [hn] at e; cases e
      | ok r =>
        rw [hn] at e
        change sampleLoop nodes rolls vs (if r.2 then k + 1 else k) r.1 = _ at e
        have h1 := ih _ _ e
        have h2 : r.1.length ≤ s.length + 1 := by
          unfold nodeSample at hn
          by_cases hin : n.name ∈ s.map Prod.fst
          · rw [if_pos hin] at hn
            cases hn
            exact Nat.le_succ _
          · rw [if_neg hin] at hn
            cases hk : conditioningKey n s false with
            | error _ => rw [hk] at hn; cases hn
            | ok c =>
              rw [hk] at hn
              change (probdistSample n c (rolls k) >>= _) = _ at hn
              cases hp : probdistSample n c (rolls k) with
              | error _ => rw [hp] at hn; cases hn
              | ok i =>
                rw [hp] at hn
                change (valueAt n i >>= _) = _ at hn
                cases hv : valueAt n i with
                | error _ => rw [hv] at hn; cases hn
                | ok x =>
                  rw [hv] at hn
                  cases hn
                  exact dictSet_length_le s n.name x
        rw [List.length_cons]
        omega

variable {nodes : List (Node ν β)} {f g : Node ν β → Node ν β}

theorem sampleLoop_twin (hf : ∀ n ∈ nodes, SameNode n (f n)) (hg : ∀ n ∈ nodes, SameNode n (g n))
    {rolls : Nat → K} {rolls' : Nat → K'} (vs : List ν) (k : Nat) (s : List (ν × β))
    (ht : ∀ n ∈ nodes, ∀ j, j < k + vs.length → Twin (f n) (g n) (rolls j) (rolls' j)) :
    sampleLoop (nodes.map f) rolls vs k s = sampleLoop (nodes.map g) rolls' vs k s := by
  induction vs generalizing k s with
  | nil => rfl
  | cons v vs ih =>
    simp only [sampleLoop]
    rw [getNode_map nodes (fun n hn => (hf n hn).name), getNode_map nodes (fun n hn => (hg n hn).name)]
    cases hgn : getNode nodes v with
    | error _ => rfl
    | ok n =>
      have hn := getNode_mem' hgn
      show (nodeSample (f n) s false (rolls k) >>= _) = (nodeSample (g n) s false (rolls' k) >>= _)
      rw [nodeSample_twin (n := f n) (n' := g n) ⟨by rw [(hf n hn).name, (hg n hn).name],
        by rw [(hf n hn).values, (hg n hn).values], by rw [(hf n hn).parents, (hg n hn).parents]⟩
        (ht n hn k (by simp)) s]
      cases nodeSample (g n) s false (rolls' k) with
      | error _ => rfl
      | ok r =>
        show sampleLoop (nodes.map f) rolls vs (if r.2 then k + 1 else k) r.1 =
          sampleLoop (nodes.map g) rolls' vs (if r.2 then k + 1 else k) r.1
        apply ih
        intro n hn j hj
        apply ht n hn j
        rw [List.length_cons]
        split at hj <;> omega

variable {net net' : Net ν β}

theorem sample_twin (hf : ∀ n ∈ nodes, SameNode n (f n)) (hg : ∀ n ∈ nodes, SameNode n (g n))
    (e1 : net.nodes = nodes.map f) (e2 : net'.nodes = nodes.map g) (e3 : net'.nodeOrder = net.nodeOrder)
    (e4 : net'.finalized = net.finalized) {rolls : Nat → K} {rolls' : Nat → K'}
    (ht : ∀ n ∈ nodes, ∀ j, j < net.nodeOrder.length → Twin (f n) (g n) (rolls j) (rolls' j)) :
    sample net rolls = sample net' rolls' := by
  unfold sample requireFinal
  rw [e1, e2, e3, e4, sampleLoop_twin hf hg net.nodeOrder 0 [] (by simpa using ht)]

theorem samplesFrom_twin (hf : ∀ n ∈ nodes, SameNode n (f n)) (hg : ∀ n ∈ nodes, SameNode n (g n))
    (e1 : net.nodes = nodes.map f) (e2 : net'.nodes = nodes.map g) (e3 : net'.nodeOrder = net.nodeOrder)
    (e4 : net'.finalized = net.finalized) {rolls : Nat → K} {rolls' : Nat → K'} (N k : Nat)
    (ht : ∀ n ∈ nodes, ∀ j, j < k + N * net.nodeOrder.length → Twin (f n) (g n) (rolls j) (rolls' j)) :
    samplesFrom net rolls N k = samplesFrom net' rolls' N k := by
  induction N generalizing k with
  | zero => rfl
  | succ N ih =>
    simp only [samplesFrom]
    rw [sample_twin (rolls' := fun j => rolls' (k + j)) hf hg e1 e2 e3 e4 (fun n hn j hj => ht n hn (k + j) (by
      rw [Nat.add_mul]; omega))]
    cases hs : sample net' (fun j => rolls' (k + j)) with
    | error _ => rfl
    | ok s =>
      show (samplesFrom net rolls N (k + s.length) >>= _) = (samplesFrom net' rolls' N (k + s.length) >>= _)
      have hl : s.length ≤ net.nodeOrder.length := by
        unfold sample requireFinal at hs
        by_cases hfin : net'.finalized
        · rw [if_pos hfin, e3] at hs
          have := sampleLoop_length _ _ _ _ _ _ hs
          simpa using this
        · rw [if_neg hfin] at hs; cases hs
      rw [ih (k + s.length) (fun n hn j hj => ht n hn j (by rw [Nat.add_mul]; omega))]

theorem toIndices_twin (hf : ∀ n ∈ nodes, SameNode n (f n)) (s : List (ν × β)) :
    toIndices (nodes.map f) s = toIndices nodes s := by
  induction s with
  | nil => rfl
  | cons p s ih =>
    obtain ⟨v, x⟩ := p
    simp only [toIndices]
    rw [getNode_map nodes (fun n hn => (hf n hn).name), ih]
    cases hgn : getNode nodes v with
    | error _ => rfl
    | ok n =>
      show (indexOf (f n).values x >>= _) = (indexOf n.values x >>= _)
      rw [(hf n (getNode_mem' hgn)).values]

omit [DecidableEq β] in
theorem names_twin (hf : ∀ n ∈ nodes, SameNode n (f n)) : names (nodes.map f) = names nodes := by
  unfold names
  rw [List.map_map]
  congr 1
  exact List.map_congr_left (fun n hn => (hf n hn).name)

/-- If the random numbers draw the same values in both networks, the sampled matrices are the same. -/
theorem sampleMatrix_twin (hf : ∀ n ∈ nodes, SameNode n (f n)) (hg : ∀ n ∈ nodes, SameNode n (g n))
    (e1 : net.nodes = nodes.map f) (e2 : net'.nodes = nodes.map g) (e3 : net'.nodeOrder = net.nodeOrder)
    (e4 : net'.finalized = net.finalized) {rolls : Nat → K} {rolls' : Nat → K'} (N : Nat)
    (ht : ∀ n ∈ nodes, ∀ j, j < N * net.nodeOrder.length → Twin (f n) (g n) (rolls j) (rolls' j)) :
    sampleMatrix net N rolls = sampleMatrix net' N rolls' := by
  have h1 : samples net N rolls = samples net' N rolls' := by
    unfold samples requireFinal
    rw [e4, samplesFrom_twin hf hg e1 e2 e3 e4 N 0 (by simpa using ht)]
  have h2 : ∀ l, rowsOf net l = rowsOf net' l := by
    intro l
    induction l with
    | nil => rfl
    | cons s l ih =>
      simp only [rowsOf]
      rw [ih, e1, e2, toIndices_twin hf, toIndices_twin hg, names_twin hf, names_twin hg]
  unfold sampleMatrix
  rw [h1]
  cases samples net' N rolls' with
  | error _ => rfl
  | ok l => exact h2 l

end twin

/-! ## The two finalised networks -/

omit [DecidableEq β] in
theorem assignIDs_nodeOrder (vs : List ν) (i : Nat) (net net' : Net ν β) (e : assignIDs vs i net = .ok net') :
    net'.nodeOrder = net.nodeOrder := by
  induction vs generalizing i net with
  | nil => cases e; rfl
  | cons v vs ih =>
    simp only [assignIDs] at e
    cases hg : getNode (net.nodes.map (setID v i)) v with
    | error _ => rw [hg] at e; cases e
    | ok n =>
      rw [hg] at e
      have := ih _ _ (show assignIDs vs (i + 1) _ = _ from e)
      exact this

theorem finalize_order {nodes : List (Node ν β)} {net : Net ν β} (e : finalize { nodes := nodes } = .ok net) :
    detectOrder nodes = .ok net.nodeOrder := by
  unfold finalize at e
  simp only at e
  cases h1 : finalizeNodes nodes nodes with
  | error _ => rw [h1] at e; cases e
  | ok ns =>
    rw [h1] at e
    change (chosenOrder { nodes := nodes } >>= _) = _ at e
    have hc : chosenOrder { nodes := nodes } = detectOrder nodes := by simp [chosenOrder]
    rw [hc] at e
    cases h2 : detectOrder nodes with
    | error _ => rw [h2] at e; cases e
    | ok order =>
      rw [h2] at e
      change (assignIDs (names ns) 0 { nodes := ns, namesOrder := order, nodeOrder := [] ++ order } >>= _) = _ at e
      cases h3 : assignIDs (names ns) 0 { nodes := ns, namesOrder := order, nodeOrder := [] ++ order } with
      | error _ => rw [h3] at e; cases e
      | ok n' =>
        rw [h3] at e
        cases e
        have := assignIDs_nodeOrder _ _ _ _ h3
        show Except.ok order = Except.ok n'.nodeOrder
        rw [this]
        rfl

/-- The network of the code (tables and sums rounded) beside the exact one. -/
theorem twins {nodes : List (Node ν β)} (h : WellFormed nodes) {net netF : Net ν β}
    (e : finalize { nodes := nodes } = .ok net) (eF : finalizeF { nodes := nodes.map readNode } = .ok netF) :
    ∃ f g : Node ν β → Node ν β, net.nodes = nodes.map f ∧ netF.nodes = nodes.map g ∧
      (∀ n ∈ nodes, SameNode n (f n)) ∧ (∀ n ∈ nodes, SameNode n (g n)) ∧
      netF.nodeOrder = net.nodeOrder ∧ netF.finalized = net.finalized ∧
      (∀ n ∈ nodes, (f n).cumulative = cumulativeOf n.probabilities ∧
        (g n).cumulative = n.probabilities.map (fun p => (p.1, cumF p.2))) := by
  have hF := finalize_unique h e
  obtain ⟨f, hnodes, hf⟩ := hF.nodes_eq
  obtain ⟨net1, e1, hF1⟩ := finalize_ok (wellFormed_read h)
  have h2 : netF = recum net1 := by
    rw [finalizeF_eq, e1] at eF
    cases eF
    rfl
  obtain ⟨g, hnodes1, hg⟩ := hF1.nodes_eq
  have hmem : ∀ n ∈ nodes, readNode n ∈ nodes.map readNode := fun n hn => List.mem_map.2 ⟨n, hn, rfl⟩
  refine ⟨f, fun n => recumNode (g (readNode n)), hnodes, ?_, ?_, ?_, ?_, ?_, ?_⟩
  · rw [h2]
    show net1.nodes.map recumNode = _
    rw [hnodes1, List.map_map, List.map_map]
    rfl
  · exact fun n hn => ⟨(hf n hn).1.name, (hf n hn).1.values, (hf n hn).1.parents⟩
  · intro n hn
    have := (hg _ (hmem n hn)).1
    exact ⟨this.name, this.values, this.parents⟩
  · have o1 := finalize_order e
    have o2 := finalize_order e1
    rw [BN.Caches.detectOrder_shape (h := readNode) ⟨fun _ => rfl, fun _ => rfl, fun _ => rfl, fun _ => rfl⟩, o1] at o2
    rw [h2]
    exact (Except.ok.inj o2).symm
  · rw [h2]
    show net1.finalized = _
    rw [hF.finalized, hF1.finalized]
  · intro n hn
    refine ⟨(hf n hn).2.2, ?_⟩
    show cumulativeOfF (g (readNode n)).probabilities = _
    rw [(hg _ (hmem n hn)).1.probabilities]
    unfold cumulativeOfF readNode
    rw [List.map_map]
    rfl

/-! ## One random number -/

/-- The 53-bit random number below the real random number `u`. (Specification.) -/
noncomputable def tick (u : ℝ) : Fin (2 ^ 53) :=
  ⟨min ⌊u * 2 ^ 53⌋₊ (2 ^ 53 - 1), lt_of_le_of_lt (min_le_right _ _) (by norm_num)⟩

theorem tick_near {u : ℝ} (h0 : 0 ≤ u) (h1 : u ≤ 1) : |u - ((random (tick u) : ℚ) : ℝ)| ≤ 1 / 2 ^ 53 := by
  have e : ((random (tick u) : ℚ) : ℝ) = ((min ⌊u * 2 ^ 53⌋₊ (2 ^ 53 - 1) : ℕ) : ℝ) / 2 ^ 53 := by
    unfold random tick
    push_cast
    rfl
  rw [e]
  have h2 := Nat.floor_le (show 0 ≤ u * 2 ^ 53 by positivity)
  have h3 := Nat.lt_floor_add_one (u * 2 ^ 53)
  have h4 : u - ((min ⌊u * 2 ^ 53⌋₊ (2 ^ 53 - 1) : ℕ) : ℝ) / 2 ^ 53 =
      (u * 2 ^ 53 - ((min ⌊u * 2 ^ 53⌋₊ (2 ^ 53 - 1) : ℕ) : ℝ)) / 2 ^ 53 := by
    field_simp
  rw [h4, abs_div, abs_of_pos (by positivity : (0 : ℝ) < 2 ^ 53)]
  refine div_le_div_of_nonneg_right ?_ (by positivity)
  rw [abs_le]
  rcases le_total ⌊u * 2 ^ 53⌋₊ (2 ^ 53 - 1) with hle | hle
  · rw [min_eq_left hle]
    constructor <;> linarith
  · rw [min_eq_right hle]
    have h5 : u * 2 ^ 53 ≤ 2 ^ 53 := by nlinarith
    have h6 : (((2 ^ 53 - 1 : ℕ) : ℕ) : ℝ) = 2 ^ 53 - 1 := by norm_num
    have h7 : (((2 ^ 53 - 1 : ℕ) : ℕ) : ℝ) ≤ (⌊u * 2 ^ 53⌋₊ : ℕ) := by exact_mod_cast hle
    rw [h6] at h7 ⊢
    constructor <;> linarith

theorem sampleRoll_cast (cs : List ℚ) {u : ℝ} {r : ℚ} (h : ∀ c ∈ cs, u ≤ (c : ℝ) ↔ r ≤ c) :
    sampleRoll u cs = sampleRoll r cs := by
  induction cs with
  | nil => rfl
  | cons c cs ih =>
    simp only [sampleRoll, Rat.cast_id]
    have hc := h c (by simp)
    rw [ih (fun c hc => h c (by simp [hc]))]
    by_cases hu : u ≤ (c : ℝ)
    · rw [if_pos hu, if_pos (hc.1 hu)]
    · rw [if_neg hu, if_neg (fun hr => hu (hc.2 hr))]

/-- A real random number that is not too close to a cumulative sum and the 53-bit number below it select
the same value, the latter among the rounded sums. -/
theorem roll_agrees {row : List ℚ} (h0 : ∀ q ∈ row, 0 ≤ q) (hs : row.sum = 1) {K : Nat} (hrow : row.length ≤ K)
    (hK : K ≤ 2 ^ 40) {u : ℝ} (hu0 : 0 ≤ u) (hu1 : u ≤ 1)
    (hcut : ∀ c ∈ accumulate 0 row, ((K : ℝ) + 1) / 2 ^ 52 < |u - (c : ℝ)|) :
    sampleRoll u (accumulate 0 row) = sampleRoll (random (tick u)) (cumF row) := by
  have ht := tick_near hu0 hu1
  have hKr : (0 : ℝ) ≤ K := by positivity
  have hKd : ((K : ℝ) + 1) / 2 ^ 52 = K / 2 ^ 52 + 2 / 2 ^ 53 := by ring
  have hKp : (0 : ℝ) ≤ (K : ℝ) / 2 ^ 52 := by positivity
  have hp : (0 : ℝ) < 1 / 2 ^ 53 := by positivity
  have e2 : (2 : ℝ) / 2 ^ 53 = 1 / 2 ^ 53 + 1 / 2 ^ 53 := by ring
  rw [sampleRoll_agrees h0 hs (hrow.trans hK) (random (tick u))]
  · apply sampleRoll_cast
    intro c hc
    have h1 := hcut c hc
    rw [hKd, e2] at h1
    rw [← Rat.cast_le (K := ℝ) (p := random (tick u))]
    generalize ((random (tick u) : ℚ) : ℝ) = r at *
    generalize (c : ℝ) = c at *
    generalize (K : ℝ) / 2 ^ 52 = d at *
    generalize (1 : ℝ) / 2 ^ 53 = p at *
    rw [abs_le] at ht
    rw [lt_abs] at h1
    rcases h1 with h1 | h1
    · constructor <;> intro h <;> linarith
    · constructor <;> intro h <;> linarith
  · intro i hi
    have hm : (row.take (i + 1)).sum ∈ accumulate 0 row := by
      have := accumulate_getElem? 0 row i hi
      rw [zero_add] at this
      exact List.mem_of_getElem? this
    have h1 := hcut _ hm
    rw [hKd, e2] at h1
    have hl : ((row.length : ℝ)) / 2 ^ 52 ≤ K / 2 ^ 52 := by
      apply div_le_div_of_nonneg_right _ (by positivity)
      exact_mod_cast hrow
    have h2 : ((row.length : ℝ)) / 2 ^ 52 < |((random (tick u) : ℚ) : ℝ) - (((row.take (i + 1)).sum : ℚ) : ℝ)| := by
      generalize ((random (tick u) : ℚ) : ℝ) = r at *
      generalize (((row.take (i + 1)).sum : ℚ) : ℝ) = c at *
      generalize (K : ℝ) / 2 ^ 52 = d at *
      generalize (1 : ℝ) / 2 ^ 53 = p at *
      have := abs_sub_le u r c
      linarith
    have h3 : (((row.length : ℚ) / 2 ^ 52 : ℚ) : ℝ) < ((|random (tick u) - (row.take (i + 1)).sum| : ℚ) : ℝ) := by
      push_cast at h2 ⊢
      exact h2
    exact Rat.cast_lt.1 h3

omit [LinearOrder ν] in
theorem rowsTwin {nodes : List (Node ν β)} (h : WellFormed nodes) (hN : Normalised nodes) {K : Nat} (hK : K ≤ 2 ^ 40)
    (hk : ∀ n ∈ nodes, n.values.length ≤ K) {u : ℝ} (hu0 : 0 ≤ u) (hu1 : u ≤ 1)
    (hcut : ∀ c ∈ cuts nodes, ((K : ℝ) + 1) / 2 ^ 52 < |u - (c : ℝ)|) {n n1 n2 : Node ν β} (hn : n ∈ nodes)
    (h1 : n1.cumulative = cumulativeOf n.probabilities)
    (h2 : n2.cumulative = n.probabilities.map (fun p => (p.1, cumF p.2))) : Twin n1 n2 u (random (tick u)) := by
  constructor
  intro k
  rw [h1, h2, dictGet_mapRows, show cumulativeOf n.probabilities = n.probabilities.map (fun p => (p.1, accumulate 0 p.2))
    from rfl, dictGet_mapRows]
  cases hg : dictGet n.probabilities k with
  | none => rfl
  | some l =>
    have hmem : (k, l) ∈ n.probabilities := dictGet_mem hg
    obtain ⟨vs, hd, rfl⟩ := h.table_keys n hn k (List.mem_map.2 ⟨_, hmem, rfl⟩)
    have hrow : row n vs = l := by
      unfold row
      rw [hg]
      rfl
    obtain ⟨hnn, hsum⟩ := hN n hn vs hd
    have hl := (h.table_rows n hn vs hd).2
    rw [hrow] at hnn hsum hl
    simp only [Option.map_some]
    congr 1
    refine roll_agrees hnn hsum (by rw [hl]; exact hk n hn) hK hu0 hu1 (fun c hc => hcut c ?_)
    exact List.mem_flatMap.2 ⟨n, hn, List.mem_flatMap.2 ⟨_, hmem, hc⟩⟩

/-- If no random number is too close to a cumulative sum, the code samples exactly the matrix that the
exact sampler gets from the real random numbers. -/
theorem sampleMatrix_agrees {nodes : List (Node ν β)} (h : WellFormed nodes) (hN : Normalised nodes) {K : Nat}
    (hK : K ≤ 2 ^ 40) (hk : ∀ n ∈ nodes, n.values.length ≤ K) {net netF : Net ν β}
    (e : finalize { nodes := nodes } = .ok net) (eF : finalizeF { nodes := nodes.map readNode } = .ok netF)
    (N : Nat) (u : Nat → ℝ) (hu : ∀ j, 0 ≤ u j ∧ u j ≤ 1)
    (hcut : ∀ j, j < N * nodes.length → ∀ c ∈ cuts nodes, ((K : ℝ) + 1) / 2 ^ 52 < |u j - (c : ℝ)|) :
    sampleMatrix net N u = sampleMatrix netF N (fun j => random (tick (u j))) := by
  obtain ⟨f, g, e1, e2, hf, hg, e3, e4, hc⟩ := twins h e eF
  refine sampleMatrix_twin hf hg e1 e2 e3 e4 N (fun n hn j hj => ?_)
  have hlen : net.nodeOrder.length = nodes.length := by
    rw [(finalize_unique h e).order.perm.length_eq, List.length_map]
  rw [hlen] at hj
  exact rowsTwin h hN hK hk (hu j).1 (hu j).2 (hcut j hj) hn (hc n hn).1 (hc n hn).2

/-! ## All random numbers -/

section prob
variable {Ω : Type} [MeasurableSpace Ω] {P : Measure Ω} [IsProbabilityMeasure P] {U : ℕ → Ω → ℝ}

/-- How likely it is that a random number is too close to one of the cumulative sums. -/
theorem near_cut (hm : ∀ j, Measurable (U j)) (hunif : ∀ j, P.map (U j) = volume.restrict (Set.Icc 0 1))
    (N : Nat) (l : List ℚ) {δ : ℝ} (hδ : 0 ≤ δ) :
    P.real {ω | ∃ j, j < N ∧ ∃ c ∈ l, |U j ω - (c : ℝ)| ≤ δ} ≤ N * (l.length * (2 * δ)) := by
  have h1 : ∀ (j : ℕ) (c : ℝ), P.real {ω | |U j ω - c| ≤ δ} ≤ 2 * δ := by
    intro j c
    have hset : {ω | |U j ω - c| ≤ δ} = U j ⁻¹' Set.Icc (c - δ) (c + δ) := by
      ext ω
      simp only [Set.mem_ofPred_eq, Set.mem_preimage, Set.mem_Icc, abs_le]
      constructor <;> rintro ⟨a, b⟩ <;> constructor <;> linarith
    rw [hset, ← map_measureReal_apply (hm j) measurableSet_Icc, hunif,
      measureReal_restrict_apply measurableSet_Icc]
    refine le_trans (measureReal_mono Set.inter_subset_left (by simp)) ?_
    rw [Real.volume_real_Icc_of_le (by linarith)]
    linarith
  have h2 : ∀ j, P.real {ω | ∃ c ∈ l, |U j ω - (c : ℝ)| ≤ δ} ≤ l.length * (2 * δ) := by
    intro j
    induction l with
    | nil => simp
    | cons c l ih =>
      have hsub : {ω | ∃ c' ∈ c :: l, |U j ω - (c' : ℝ)| ≤ δ} ⊆
          {ω | |U j ω - (c : ℝ)| ≤ δ} ∪ {ω | ∃ c ∈ l, |U j ω - (c : ℝ)| ≤ δ} := by
        rintro ω ⟨c', hc', h⟩
        rcases List.mem_cons.1 hc' with rfl | hc'
        · exact .inl h
        · exact .inr ⟨c', hc', h⟩
      refine le_trans (measureReal_mono hsub (measure_ne_top _ _)) (le_trans (measureReal_union_le _ _) ?_)
      have := h1 j c
      push_cast [List.length_cons]
      linarith
  induction N with
  | zero => simp
  | succ N ih =>
    have hsub : {ω | ∃ j, j < N + 1 ∧ ∃ c ∈ l, |U j ω - (c : ℝ)| ≤ δ} ⊆
        {ω | ∃ j, j < N ∧ ∃ c ∈ l, |U j ω - (c : ℝ)| ≤ δ} ∪ {ω | ∃ c ∈ l, |U N ω - (c : ℝ)| ≤ δ} := by
      rintro ω ⟨j, hj, h⟩
      rcases Nat.lt_succ_iff_lt_or_eq.1 hj with hj | rfl
      · exact .inl ⟨j, hj, h⟩
      · exact .inr h
    refine le_trans (measureReal_mono hsub (measure_ne_top _ _)) (le_trans (measureReal_union_le _ _) ?_)
    have := h2 N
    push_cast
    linarith

variable {nodes : List (Node ν β)} {net netF : Net ν β}

/-- How far the distribution of the matrices that the code samples can be from that of exact samples:
`n` rows, each with one random number per variable, `(K + 1) 2⁻⁵¹` for each number in the tables.
(Specification.) -/
noncomputable def samplingError (nodes : List (Node ν β)) (K n : Nat) : ℝ :=
  n * nodes.length * tableSize nodes * (K + 1) / 2 ^ 51

/-- With 53-bit random numbers cut off real ones, the code draws the exact sample, with a probability
close to one. -/
theorem coupled (h : WellFormed nodes) (hN : Normalised nodes) {K : Nat}
    (hK : K ≤ 2 ^ 40) (hk : ∀ n ∈ nodes, n.values.length ≤ K)
    (e : finalize { nodes := nodes } = .ok net) (eF : finalizeF { nodes := nodes.map readNode } = .ok netF)
    (hm : ∀ j, Measurable (U j)) (hunif : ∀ j, P.map (U j) = volume.restrict (Set.Icc 0 1)) (n : Nat) :
    P.real {ω | sampleMatrix net n (fun j => U j ω) ≠ sampleMatrix netF n (fun j => random (tick (U j ω)))} ≤
      samplingError nodes K n := by
  have h1 := near_cut hm hunif (n * nodes.length) (cuts nodes) (δ := ((K : ℝ) + 1) / 2 ^ 52) (by positivity)
  refine le_trans (real_le_of_ae ?_) (h1.trans (le_of_eq ?_))
  · filter_upwards [source_unit hm hunif] with ω hω hne
    by_contra hno
    apply hne
    refine sampleMatrix_agrees h hN hK hk e eF n (fun j => U j ω) hω (fun j hj c hc => ?_)
    by_contra hle
    exact hno ⟨j, hj, c, hc, not_lt.1 hle⟩
  · unfold samplingError
    rw [cuts_length]
    push_cast
    ring

end prob

/-! ## Any source of 53-bit random numbers -/

/-- The sample only depends on the random numbers that are used. -/
theorem sampleMatrix_congr {K : Type} [Field K] [LinearOrder K] (net : Net ν β) (n : Nat) {rolls rolls' : Nat → K}
    (hr : ∀ j, j < n * net.nodeOrder.length → rolls j = rolls' j) :
    sampleMatrix net n rolls = sampleMatrix net n rolls' := by
  refine sampleMatrix_twin (nodes := net.nodes) (f := id) (g := id) (fun _ _ => ⟨rfl, rfl, rfl⟩)
    (fun _ _ => ⟨rfl, rfl, rfl⟩) (by simp) (by simp) rfl rfl n (fun m _ j hj => ⟨fun k => ?_⟩)
  rw [hr j hj]

theorem tick_eq {u : ℝ} (h0 : 0 ≤ u) (i : Fin (2 ^ 53)) (h1 : (i.val : ℝ) ≤ u * 2 ^ 53) (h2 : u * 2 ^ 53 < i.val + 1) :
    tick u = i := by
  apply Fin.ext
  have hfl : ⌊u * 2 ^ 53⌋₊ = i.val := (Nat.floor_eq_iff (by positivity)).2 ⟨h1, h2⟩
  have hlt := i.isLt
  show min ⌊u * 2 ^ 53⌋₊ (2 ^ 53 - 1) = i.val
  rw [hfl]
  omega

theorem tick_bounds {u : ℝ} (h0 : 0 ≤ u) (h1 : u ≤ 1) :
    ((tick u).val : ℝ) ≤ u * 2 ^ 53 ∧ u * 2 ^ 53 ≤ (tick u).val + 1 := by
  have h2 := Nat.floor_le (show 0 ≤ u * 2 ^ 53 by positivity)
  have h3 := Nat.lt_floor_add_one (u * 2 ^ 53)
  have e : (tick u).val = min ⌊u * 2 ^ 53⌋₊ (2 ^ 53 - 1) := rfl
  rw [e]
  rcases le_total ⌊u * 2 ^ 53⌋₊ (2 ^ 53 - 1) with hle | hle
  · rw [min_eq_left hle]
    constructor <;> linarith
  · rw [min_eq_right hle]
    have h5 : u * 2 ^ 53 ≤ 2 ^ 53 := by nlinarith
    have h6 : (((2 ^ 53 - 1 : ℕ) : ℕ) : ℝ) = 2 ^ 53 - 1 := by norm_num
    have h7 : (((2 ^ 53 - 1 : ℕ) : ℕ) : ℝ) ≤ (⌊u * 2 ^ 53⌋₊ : ℕ) := by exact_mod_cast hle
    rw [h6] at h7 ⊢
    constructor <;> linarith

theorem measurable_tick : Measurable tick := by
  apply measurable_to_countable'
  intro i
  have hset : tick ⁻¹' {i} = (fun u : ℝ => min ⌊u * 2 ^ 53⌋₊ (2 ^ 53 - 1)) ⁻¹' {i.val} := by
    ext u
    simp only [Set.mem_preimage, Set.mem_singleton_iff]
    exact Fin.ext_iff
  rw [hset]
  have hmeas : Measurable (fun u : ℝ => min ⌊u * 2 ^ 53⌋₊ (2 ^ 53 - 1)) :=
    (Nat.measurable_floor.comp (measurable_id.mul_const _)).min measurable_const
  exact hmeas (measurableSet_singleton _)

/-- The 53-bit number below a uniform real number is uniform. -/
theorem tick_uniform (i : Fin (2 ^ 53)) :
    (volume.restrict (Set.Icc (0 : ℝ) 1)).map tick {i} = ENNReal.ofReal (1 / 2 ^ 53) := by
  have hp : (0 : ℝ) < 2 ^ 53 := by positivity
  have hi : (i.val : ℝ) + 1 ≤ 2 ^ 53 := by
    have := i.isLt
    exact_mod_cast Nat.succ_le_of_lt this
  have hi0 : (0 : ℝ) ≤ i.val := by positivity
  have hv : (i.val + 1 : ℝ) / 2 ^ 53 - (i.val : ℝ) / 2 ^ 53 = 1 / 2 ^ 53 := by ring
  rw [Measure.map_apply measurable_tick (measurableSet_singleton _),
    Measure.restrict_apply (measurable_tick (measurableSet_singleton _))]
  apply le_antisymm
  · have hsub : tick ⁻¹' {i} ∩ Set.Icc (0 : ℝ) 1 ⊆ Set.Icc ((i.val : ℝ) / 2 ^ 53) ((i.val + 1 : ℝ) / 2 ^ 53) := by
      rintro u ⟨hu, hu0, hu1⟩
      have hu' : tick u = i := hu
      have := tick_bounds hu0 hu1
      rw [hu'] at this
      exact ⟨(div_le_iff₀ hp).2 this.1, (le_div_iff₀ hp).2 this.2⟩
    refine (measure_mono hsub).trans (le_of_eq ?_)
    rw [Real.volume_Icc, hv]
  · have hsub : Set.Ico ((i.val : ℝ) / 2 ^ 53) ((i.val + 1 : ℝ) / 2 ^ 53) ⊆ tick ⁻¹' {i} ∩ Set.Icc (0 : ℝ) 1 := by
      rintro u ⟨h1, h2⟩
      have hu0 : 0 ≤ u := le_trans (by positivity) h1
      have h3 := (div_le_iff₀ hp).1 h1
      have h4 := (lt_div_iff₀ hp).1 h2
      refine ⟨tick_eq hu0 i h3 h4, hu0, ?_⟩
      by_contra hgt
      have := mul_lt_mul_of_pos_right (not_le.1 hgt) hp
      linarith
    refine le_trans (le_of_eq ?_) (measure_mono hsub)
    rw [Real.volume_Ico, hv]

section prob
variable {Ω Ω' : Type} [MeasurableSpace Ω] [MeasurableSpace Ω'] {P : Measure Ω} [IsProbabilityMeasure P]
  {P' : Measure Ω'} [IsProbabilityMeasure P'] {U : ℕ → Ω → ℝ} {x : ℕ → Ω' → Fin (2 ^ 53)}

/-- A source of random numbers as `random.random()` is meant to be: independent, and each of the numbers
`i 2⁻⁵³` equally likely. (Specification.) -/
structure BitSource (P' : Measure Ω') (x : ℕ → Ω' → Fin (2 ^ 53)) : Prop where
  measurable : ∀ j, Measurable (x j)
  indep : iIndepFun x P'
  uniform : ∀ j i, P'.real {ω | x j ω = i} = 1 / 2 ^ 53

omit [IsProbabilityMeasure P] in
theorem same_law (hx : BitSource P' x) (hm : ∀ j, Measurable (U j)) (hi : iIndepFun U P)
    (hunif : ∀ j, P.map (U j) = volume.restrict (Set.Icc 0 1)) (N : Nat) :
    P'.map (fun ω (j : Fin N) => x j ω) = P.map (fun ω (j : Fin N) => tick (U j ω)) := by
  have h1 : iIndepFun (fun j : Fin N => x j) P' := hx.indep.precomp Fin.val_injective
  have h2 : iIndepFun (fun (j : Fin N) ω => tick (U j ω)) P :=
    (hi.comp (fun _ => tick) (fun _ => measurable_tick)).precomp (g := fun j : Fin N => j.val) Fin.val_injective
  have hmt : ∀ j : Fin N, Measurable (fun ω => tick (U j ω)) := fun j => measurable_tick.comp (hm j)
  have hmx : ∀ j : Fin N, AEMeasurable (x j) P' := fun j => (hx.measurable j).aemeasurable
  have l1 := iIndepFun.map_fun_eq_pi_map hmx h1
  have l2 := iIndepFun.map_fun_eq_pi_map (fun j => (hmt j).aemeasurable) h2
  rw [l1, l2]
  congr 1
  funext j
  apply Measure.ext_of_singleton
  intro i
  have e1 : P.map (fun ω => tick (U j ω)) = (P.map (U j)).map tick := (Measure.map_map measurable_tick (hm j)).symm
  rw [e1, hunif, tick_uniform, Measure.map_apply (hx.measurable j) (measurableSet_singleton _)]
  have hu := hx.uniform j i
  rw [← hu, measureReal_def, ENNReal.ofReal_toReal (measure_ne_top _ _)]
  rfl

variable {nodes : List (Node ν β)} {net netF : Net ν β}

/-- What is true of the code's sample with some probability when the random numbers are cut off real ones,
is true with the same probability with any source of 53-bit random numbers. -/
theorem any_source (hx : BitSource P' x) (hm : ∀ j, Measurable (U j)) (hi : iIndepFun U P)
    (hunif : ∀ j, P.map (U j) = volume.restrict (Set.Icc 0 1)) (netF : Net ν β) (n : Nat)
    (Q : Except Err (List (List Nat)) → Prop) :
    P'.real {ω | Q (sampleMatrix netF n (fun j => random (x j ω)))} =
      P.real {ω | Q (sampleMatrix netF n (fun j => random (tick (U j ω))))} := by
  set N := n * netF.nodeOrder.length with hNdef
  let F : (Fin N → Fin (2 ^ 53)) → Except Err (List (List Nat)) := fun y =>
    sampleMatrix netF n (fun j => if hj : j < N then random (y ⟨j, hj⟩) else 0)
  have hF : ∀ y : ℕ → Fin (2 ^ 53), sampleMatrix netF n (fun j => random (y j)) = F (fun j => y j) := by
    intro y
    apply sampleMatrix_congr
    intro j hj
    have hj' : j < N := hj
    simp only [hj', dif_pos]
  have hlaw := same_law hx hm hi hunif N
  have hA : MeasurableSet {y | Q (F y)} := Set.Finite.measurableSet (Set.toFinite _)
  have e1 : {ω | Q (sampleMatrix netF n (fun j => random (x j ω)))} = (fun ω (j : Fin N) => x j ω) ⁻¹' {y | Q (F y)} := by
    ext ω
    show Q _ ↔ Q _
    rw [hF (fun j => x j ω)]
  have e2 : {ω | Q (sampleMatrix netF n (fun j => random (tick (U j ω))))} =
      (fun ω (j : Fin N) => tick (U j ω)) ⁻¹' {y | Q (F y)} := by
    ext ω
    show Q _ ↔ Q _
    rw [hF (fun j => tick (U j ω))]
  have m1 : Measurable (fun ω (j : Fin N) => x j ω) := measurable_pi_lambda _ (fun j => hx.measurable j)
  have m2 : Measurable (fun ω (j : Fin N) => tick (U j ω)) :=
    measurable_pi_lambda _ (fun j => measurable_tick.comp (hm j))
  rw [e1, e2, ← map_measureReal_apply m1 hA, ← map_measureReal_apply m2 hA, hlaw]

/-- Sampling in floating point: whatever is asked of the sampled matrix, the answer is as likely as it is
for exact samples, up to the sampling error. -/
theorem float_matrix_distribution (h : WellFormed nodes) (hN : Normalised nodes) {K : Nat}
    (hK : K ≤ 2 ^ 40) (hk : ∀ n ∈ nodes, n.values.length ≤ K)
    (e : finalize { nodes := nodes } = .ok net) (eF : finalizeF { nodes := nodes.map readNode } = .ok netF)
    (hx : BitSource P' x) (hm : ∀ j, Measurable (U j)) (hi : iIndepFun U P)
    (hunif : ∀ j, P.map (U j) = volume.restrict (Set.Icc 0 1)) (n : Nat) (Q : Except Err (List (List Nat)) → Prop) :
    |P'.real {ω | Q (sampleMatrix netF n (fun j => random (x j ω)))} -
      P.real {ω | Q (sampleMatrix net n (fun j => U j ω))}| ≤ samplingError nodes K n := by
  have hc := coupled h hN hK hk e eF hm hunif n
  rw [any_source hx hm hi hunif netF n Q]
  have hle : ∀ A B : Set Ω, A ⊆ B ∪ {ω | sampleMatrix net n (fun j => U j ω) ≠
      sampleMatrix netF n (fun j => random (tick (U j ω)))} → P.real A - P.real B ≤ samplingError nodes K n := by
    intro A B hAB
    have := (measureReal_mono hAB (measure_ne_top P _)).trans (measureReal_union_le _ _)
    linarith
  rw [abs_le]
  constructor
  · have := hle {ω | Q (sampleMatrix net n (fun j => U j ω))}
      {ω | Q (sampleMatrix netF n (fun j => random (tick (U j ω))))} (fun ω hω => by
        by_cases hq : Q (sampleMatrix netF n (fun j => random (tick (U j ω))))
        · exact .inl hq
        · refine .inr (fun heq => hq ?_)
          rw [← heq]
          exact hω)
    linarith
  · exact hle _ _ (fun ω hω => by
      by_cases hq : Q (sampleMatrix net n (fun j => U j ω))
      · exact .inl hq
      · refine .inr (fun heq => hq ?_)
        rw [heq]
        exact hω)

end prob

end Mbtk.Fp
