import Verif.BN.Partial
import Mathlib.MeasureTheory.Measure.Lebesgue.Basic
/-!
# Sampling (C38)
-/
namespace Mbtk.BN
open Spec Stats
variable {ν β : Type} [LinearOrder ν] [DecidableEq β]

namespace Spec
variable {K : Type} [Field K] [LinearOrder K]

/-- Inverse-CDF sampling: `u` lies in the `j`-th of the consecutive intervals whose lengths are
the entries of `row` (each interval contains its right end; the first one also its left).
(Specification.) -/
def Selects (row : List ℚ) (u : K) (j : Nat) : Prop :=
  j < row.length ∧ (j = 0 ∨ (((row.take j).sum : ℚ) : K) < u) ∧
    u ≤ (((row.take (j + 1)).sum : ℚ) : K)

/-- Every variable has the declared value that its own random number selects in the row of its
table given by the values of its parents; the variable at position `k` of the sampling order
uses the `k`-th random number. (Specification.) -/
def Sampled (nodes : List (Node ν β)) (order : List ν) (rolls : Nat → K) (a : ν → β) : Prop :=
  ∀ n ∈ nodes, a n.name ∈ n.values ∧
    Selects (row n (n.parents.map a)) (rolls (order.idxOf n.name)) (n.values.idxOf (a n.name))

end Spec

section roll
variable {K : Type} [Field K] [LinearOrder K] [IsStrictOrderedRing K]

theorem accumulate_length (s : ℚ) (ps : List ℚ) : (accumulate s ps).length = ps.length := by
  induction ps generalizing s with
  | nil => rfl
  | cons p ps ih => simp [accumulate, ih]

theorem take_sum_mono {ps : List ℚ} (h : ∀ p ∈ ps, 0 ≤ p) {i j : Nat} (hij : i ≤ j) :
    (ps.take i).sum ≤ (ps.take j).sum := by
  induction ps generalizing i j with
  | nil => simp
  | cons p ps ih =>
    cases i with
    | zero =>
      simp only [List.take_zero, List.sum_nil]
      exact List.sum_nonneg (fun x hx => h x (List.mem_of_mem_take hx))
    | succ i =>
      cases j with
      | zero => omega
      | succ j =>
        simp only [List.take_succ_cons, List.sum_cons]
        have := ih (fun x hx => h x (by simp [hx])) (i := i) (j := j) (by omega)
        linarith

/-- `sample_roll` on cumulated probabilities starting at `s`. -/
theorem sampleRoll_some {ps : List ℚ} (h : ∀ p ∈ ps, 0 ≤ p) (s : ℚ) (u : K) (j : Nat) :
    sampleRoll u (accumulate s ps) = some j ↔
      j < ps.length ∧ (j = 0 ∨ ((s + (ps.take j).sum : ℚ) : K) < u) ∧
        u ≤ ((s + (ps.take (j + 1)).sum : ℚ) : K) := by
  induction ps generalizing s j with
  | nil => simp [accumulate, sampleRoll]
  | cons p ps ih =>
    have hps : ∀ q ∈ ps, 0 ≤ q := fun q hq => h q (by simp [hq])
    simp only [accumulate, sampleRoll]
    by_cases hu : u ≤ ((s + p : ℚ) : K)
    · rw [if_pos hu]
      cases j with
      | zero => simpa using hu
      | succ j =>
        simp only [Option.some.injEq, List.length_cons, List.take_succ_cons, List.sum_cons,
          Nat.add_eq_zero_iff, Nat.one_ne_zero, and_false, false_or]
        constructor
        · intro e; omega
        · rintro ⟨_, h2, _⟩
          exfalso
          have hge : (0 : ℚ) ≤ (ps.take j).sum :=
            List.sum_nonneg (fun x hx => hps x (List.mem_of_mem_take hx))
          have : ((s + p : ℚ) : K) ≤ ((s + (p + (ps.take j).sum) : ℚ) : K) := by
            exact_mod_cast (by linarith : s + p ≤ s + (p + (ps.take j).sum))
          exact absurd (lt_of_le_of_lt (le_trans hu this) h2) (lt_irrefl _)
    · rw [if_neg hu]
      cases j with
      | zero =>
        simp only [Option.map_eq_some_iff, Nat.add_one_ne_zero, and_false, exists_false,
          List.length_cons, Nat.zero_lt_succ, true_or, true_and, false_iff]
        simpa using hu
      | succ j =>
        have e1 : (sampleRoll u (accumulate (s + p) ps)).map (· + 1) = some (j + 1) ↔
            sampleRoll u (accumulate (s + p) ps) = some j := by
          cases sampleRoll u (accumulate (s + p) ps) <;> simp
        rw [e1, ih hps]
        simp only [List.length_cons, Nat.add_lt_add_iff_right, List.take_succ_cons, List.sum_cons,
          Nat.add_eq_zero_iff, Nat.one_ne_zero, and_false, false_or, ← add_assoc]
        refine and_congr_right (fun _ => and_congr_left (fun _ => ?_))
        constructor
        · rintro (rfl | h2)
          · simpa using not_le.1 hu
          · exact h2
        · exact fun h2 => .inr h2

theorem sampleRoll_selects {ps : List ℚ} (h : ∀ p ∈ ps, 0 ≤ p) (u : K) (j : Nat) :
    sampleRoll u (accumulate 0 ps) = some j ↔ Selects ps u j := by
  rw [sampleRoll_some h 0 u j]
  simp [Selects]

/-- Some interval contains the roll, as long as the roll is at most the total. -/
theorem sampleRoll_total (ps : List ℚ) (s : ℚ) (u : K) (hu : u ≤ ((s + ps.sum : ℚ) : K))
    (hne : ps ≠ []) : ∃ j, sampleRoll u (accumulate s ps) = some j := by
  induction ps generalizing s with
  | nil => exact absurd rfl hne
  | cons p ps ih =>
    simp only [accumulate, sampleRoll]
    by_cases h1 : u ≤ ((s + p : ℚ) : K)
    · exact ⟨0, if_pos h1⟩
    · rw [if_neg h1]
      by_cases hps : ps = []
      · subst hps; simp at hu; exact absurd (by simpa using hu) h1
      · obtain ⟨j, hj⟩ := ih (s + p) (by simpa [← add_assoc] using hu) hps
        exact ⟨j + 1, by rw [hj]; rfl⟩

theorem selects_unique {ps : List ℚ} (h : ∀ p ∈ ps, 0 ≤ p) {u : K} {i j : Nat}
    (hi : Selects ps u i) (hj : Selects ps u j) : i = j := by
  have h1 := (sampleRoll_selects h u i).2 hi
  rw [(sampleRoll_selects h u j).2 hj] at h1
  exact (Option.some.inj h1).symm

end roll

theorem dictGet_cumulativeOf (d : List (CondKey β × List ℚ)) (k : CondKey β) :
    dictGet (cumulativeOf d) k = (dictGet d k).map (accumulate 0) := by
  unfold cumulativeOf
  induction d with
  | nil => rfl
  | cons p d ih =>
    simp only [List.map_cons, dictGet]
    by_cases h : p.1 = k
    · simp [h]
    · simp [h, ih]

section sampling
variable {K : Type} [Field K] [LinearOrder K] [IsStrictOrderedRing K]

/-- Sampling one variable whose parents have been sampled. -/
theorem nodeSample_ok {nodes : List (Node ν β)} (h : WellFormed nodes) (hN : Normalised nodes)
    {done : List ν} {s : List (ν × β)} {a : ν → β} (hs : PartialSample nodes done s a)
    {n : Node ν β} (hn : n ∈ nodes) (hcum : n.cumulative = cumulativeOf n.probabilities)
    (hp : ∀ p ∈ n.parents, p ∈ done) (hname : n.name ∉ done) (u : K) (hu : u ≤ 1)
    (recursive : Bool) :
    ∃ v ∈ n.values, Selects (row n (n.parents.map a)) u (n.values.idxOf v) ∧
      nodeSample n s recursive u = .ok (dictSet s n.name v, true) := by
  have hdf := declaredFor_of hs.declared n.parents hp (fun q hq => h.known n hn q hq)
  obtain ⟨hk, hl⟩ := h.table_rows n hn _ hdf
  obtain ⟨hnn, hsum⟩ := hN n hn _ hdf
  have hkey : conditioningKey n s recursive = .ok (tableKey (n.parents.map a)) := by
    unfold conditioningKey
    by_cases hnil : n.parents = []
    · rw [if_pos hnil, hnil]; rfl
    · rw [if_neg hnil, if_neg, sampleGets_ok n.parents (fun q hq => hs.vals q (hp q hq))]
      · obtain ⟨p, ps, e⟩ := List.exists_cons_of_ne_nil hnil
        rw [e]; rfl
      · rintro ⟨_, p, hpp, hpn⟩
        exact hpn (by rw [hs.keys]; exact hp p hpp)
  have hrow : dictGet n.cumulative (tableKey (n.parents.map a)) =
      some (accumulate 0 (row n (n.parents.map a))) := by
    rw [hcum, dictGet_cumulativeOf]
    unfold row
    cases hg : dictGet n.probabilities (tableKey (n.parents.map a)) with
    | none => exact absurd hk ((dictGet_none_iff _ _).1 hg)
    | some r => rfl
  have hne : row n (n.parents.map a) ≠ [] := by
    intro e
    rw [e] at hl
    exact (h.values n hn).2 (List.length_eq_zero_iff.1 hl.symm)
  obtain ⟨j, hj⟩ := sampleRoll_total (row n (n.parents.map a)) 0 u (by
    rw [hsum]; simpa using hu) hne
  have hsel := (sampleRoll_selects hnn u j).1 hj
  have hjlt : j < n.values.length := by rw [← hl]; exact hsel.1
  refine ⟨n.values[j], List.getElem_mem hjlt, ?_, ?_⟩
  · rw [(h.values n hn).1.idxOf_getElem j hjlt]; exact hsel
  · unfold nodeSample
    rw [if_neg (by rw [hs.keys]; exact hname), hkey]
    have hpd : probdistSample n (tableKey (n.parents.map a)) u = .ok (some j) := by
      unfold probdistSample; rw [hrow]; simp only [hj]
    show (probdistSample n (tableKey (n.parents.map a)) u >>= _) = _
    rw [hpd]
    show (valueAt n (some j) >>= _) = _
    have : valueAt n (some j) = .ok n.values[j] := by
      simp [valueAt, List.getElem?_eq_getElem hjlt]
    rw [this]; rfl

theorem sampleLoop_ok {nodes : List (Node ν β)} (h : WellFormed nodes) (hN : Normalised nodes)
    (hcum : ∀ n ∈ nodes, n.cumulative = cumulativeOf n.probabilities) (rolls : Nat → K)
    (hrolls : ∀ k, rolls k ≤ 1) (rest : List (Node ν β)) (hrest : ∀ n ∈ rest, n ∈ nodes)
    (done : List ν) (s : List (ν × β)) (a : ν → β) (hr : Ready done rest)
    (hs : PartialSample nodes done s a) :
    ∃ s' b, sampleLoop nodes rolls (rest.map (·.name)) done.length s = .ok s' ∧
      PartialSample nodes (done ++ rest.map (·.name)) s' b ∧
      (∀ v ∈ done, b v = a v) ∧
      ∀ n ∈ rest, Selects (row n (n.parents.map b))
        (rolls ((done ++ rest.map (·.name)).idxOf n.name)) (n.values.idxOf (b n.name)) := by
  induction rest generalizing done s a with
  | nil => exact ⟨s, a, rfl, by simpa using hs, fun _ _ => rfl, by simp⟩
  | cons n rest ih =>
    obtain ⟨hp, hname, hr'⟩ := hr
    have hn := hrest n (by simp)
    obtain ⟨v, hv, hsel, hsam⟩ := nodeSample_ok h hN hs hn (hcum n hn) hp hname
      (rolls done.length) (hrolls _) false
    obtain ⟨s', b, e, hps, hb, hall⟩ := ih (fun m hm => hrest m (by simp [hm])) (done ++ [n.name])
      (dictSet s n.name v) (Function.update a n.name v) hr' (hs.extend h.unique hn hname hv)
    have hbd : ∀ w ∈ done, b w = a w := by
      intro w hw
      rw [hb w (by simp [hw]), Function.update_of_ne]
      rintro rfl; exact hname hw
    have hbn : b n.name = v := by rw [hb n.name (by simp)]; simp
    refine ⟨s', b, ?_, by simpa using hps, hbd, ?_⟩
    · simp only [List.map_cons, sampleLoop, getNode_mem h.unique hn]
      show (nodeSample n s false (rolls done.length) >>= _) = _
      rw [hsam]
      show sampleLoop nodes rolls (rest.map (·.name)) (done.length + 1) (dictSet s n.name v) = _
      rw [← e]; simp
    · intro m hm
      rcases List.mem_cons.1 hm with rfl | hm
      · have hpar : m.parents.map b = m.parents.map a :=
          List.map_congr_left (fun q hq => hbd q (hp q hq))
        have hidx : (done ++ (m :: rest).map (·.name)).idxOf m.name = done.length := by
          rw [List.idxOf_append_of_notMem hname]; simp
        rw [hpar, hidx, hbn]; exact hsel
      · have := hall m hm
        simpa using this

/-- Two assignments that are both selected by the same random numbers agree. -/
theorem sampled_unique {nodes : List (Node ν β)} (h : WellFormed nodes) (hN : Normalised nodes)
    {order : List ν} (ht : TopologicalOrder nodes order) (rolls : Nat → K) {a b : ν → β}
    (ha : Sampled nodes order rolls a) (hb : Sampled nodes order rolls b) :
    ∀ n ∈ nodes, a n.name = b n.name := by
  have key : ∀ l₁ l₂, order = l₁ ++ l₂ → ∀ n ∈ nodes, n.name ∈ l₁ → a n.name = b n.name := by
    intro l₁
    induction l₁ using List.reverseRecOn with
    | nil => intro _ _ n _ hm; simp at hm
    | append_singleton l₁ v ih =>
      intro l₂ e n hn hm
      have e' : order = l₁ ++ v :: l₂ := by rw [e]; simp
      rcases List.mem_append.1 hm with hm | hm
      · exact ih (v :: l₂) e' n hn hm
      · simp only [List.mem_singleton] at hm
        subst hm
        have hpar : n.parents.map a = n.parents.map b := by
          apply List.map_congr_left
          intro p hp
          obtain ⟨m, hm, rfl⟩ := List.mem_map.1 (h.known n hn p hp)
          exact ih _ e' m hm (ht.parents_first l₁ n.name l₂ e' m.name ⟨n, hn, rfl, hp⟩)
        obtain ⟨ha1, ha2⟩ := ha n hn
        obtain ⟨hb1, hb2⟩ := hb n hn
        rw [hpar] at ha2
        have hd : DeclaredFor nodes n.parents (n.parents.map b) :=
          declaredFor_of (done := nodes.map (·.name)) (fun m hm _ => (hb m hm).1) n.parents
            (h.known n hn) (h.known n hn)
        have := selects_unique (hN n hn _ hd).1 ha2 hb2
        exact (List.idxOf_inj ha1).1 this
  intro n hn
  exact key order [] (by simp) n hn (ht.perm.mem_iff.2 (List.mem_map.2 ⟨n, hn, rfl⟩))

/-- **C38.** Sampling a finalized network never fails, and the sample has exactly one entry
per variable: the declared value selected by that variable's random number in the row of its
table given by its sampled parents. -/
theorem sample_ok (nodes : List (Node ν β)) (h : WellFormed nodes) (hN : Normalised nodes)
    (net : Net ν β) (e : finalize { nodes := nodes } = .ok net) (rolls : Nat → K)
    (hrolls : ∀ k, rolls k ≤ 1) [Nonempty β] :
    ∃ s a, sample net rolls = .ok s ∧ s.map Prod.fst = net.nodeOrder ∧
      (∀ n ∈ nodes, dictGet s n.name = some (a n.name)) ∧
      Sampled nodes net.nodeOrder rolls a ∧
      sampleRow net rolls = .ok ((indices nodes a).map Int.toNat) := by
  have hf := finalize_unique h e
  obtain ⟨f, hnodes, hfs⟩ := hf.nodes_eq
  have hsd : ∀ n ∈ nodes, SameDecl n (f n) := fun n hn => (hfs n hn).1
  have hwf : WellFormed net.nodes := by rw [hnodes]; exact wellFormed_map hsd h
  have hNn : Normalised net.nodes := by rw [hnodes]; exact normalised_map hsd hN
  have hto : TopologicalOrder net.nodes net.nodeOrder := by
    rw [hnodes]; exact topologicalOrder_map hsd hf.order
  have hcum : ∀ n ∈ net.nodes, n.cumulative = cumulativeOf n.probabilities := by
    intro m hm
    rw [hnodes] at hm
    obtain ⟨n, hn, rfl⟩ := List.mem_map.1 hm
    rw [(hfs n hn).2.2, (hsd n hn).probabilities]
  have hpk := pickNodes_spec net.nodeOrder (fun v hv => hto.perm.mem_iff.1 hv)
  obtain ⟨s, a, es, hps, _, hsel⟩ := sampleLoop_ok hwf hNn hcum rolls hrolls
    (pickNodes net.nodes net.nodeOrder) hpk.2 [] [] (fun _ => Classical.arbitrary β)
    (ready_of_topological hwf.unique hto)
    ⟨rfl, by simp, by simp, by simp, by intro n _ h'; simp at h'⟩
  rw [hpk.1, List.nil_append] at hps
  rw [hpk.1] at es
  have hes : sample net rolls = .ok s := by
    unfold sample requireFinal
    rw [if_pos hf.finalized]; exact es
  have hmemo : ∀ m ∈ net.nodes, m.name ∈ net.nodeOrder :=
    fun m hm => hto.perm.mem_iff.2 (List.mem_map.2 ⟨m, hm, rfl⟩)
  refine ⟨s, a, hes, hps.keys, ?_, ?_, ?_⟩
  · intro n hn
    exact hps.vals n.name (hf.order.perm.mem_iff.2 (List.mem_map.2 ⟨n, hn, rfl⟩))
  · intro n hn
    have hfn : f n ∈ net.nodes := by rw [hnodes]; exact List.mem_map.2 ⟨n, hn, rfl⟩
    have h1 := hps.declared (f n) hfn (hmemo _ hfn)
    have h2 := hsel (f n) ((pickNodes_perm hwf.unique hto.perm).mem_iff.2 hfn)
    rw [hpk.1, List.nil_append, (hsd n hn).row, (hsd n hn).parents, (hsd n hn).name,
      (hsd n hn).values] at h2
    rw [(hsd n hn).name, (hsd n hn).values] at h1
    exact ⟨h1, h2⟩
  · obtain ⟨si, e1, e2⟩ := rowOf_ok hwf.unique hps (fun v hv => hto.perm.mem_iff.2 hv)
    unfold sampleRow
    rw [hes]
    show (toIndices net.nodes s >>= _) = _
    rw [e1]
    refine e2.trans ?_
    have := indices_map h.unique hsd a
    rw [← hnodes] at this
    rw [← this]
    simp [indices, names]

end sampling

/-! ## The distribution of the samples -/

open MeasureTheory

theorem selects_volume {ps : List ℚ} (h : ∀ p ∈ ps, 0 ≤ p) (hs : ps.sum = 1) (j : Nat)
    (hj : j < ps.length) :
    volume {u : ℝ | 0 ≤ u ∧ u ≤ 1 ∧ Selects ps u j} = ENNReal.ofReal ((ps.getD j 0 : ℚ) : ℝ) := by
  have hle : (ps.take (j + 1)).sum ≤ 1 := by
    rw [← hs]
    have := take_sum_mono h (i := j + 1) (j := ps.length) (by omega)
    simpa using this
  have hge : 0 ≤ (ps.take j).sum := List.sum_nonneg (fun x hx => h x (List.mem_of_mem_take hx))
  have hstep : (ps.take (j + 1)).sum = (ps.take j).sum + ps.getD j 0 := by
    rw [List.take_succ_eq_append_getElem hj, List.sum_append]
    simp [hj]
  have hle' : (((ps.take (j + 1)).sum : ℚ) : ℝ) ≤ 1 := by exact_mod_cast hle
  have hge' : (0 : ℝ) ≤ (((ps.take j).sum : ℚ) : ℝ) := by exact_mod_cast hge
  by_cases h0 : j = 0
  · subst h0
    have : {u : ℝ | 0 ≤ u ∧ u ≤ 1 ∧ Selects ps u 0} =
        Set.Icc 0 (((ps.take (0 + 1)).sum : ℚ) : ℝ) := by
      ext u
      simp only [Selects, true_or, true_and]
      constructor
      · rintro ⟨h1, _, _, h3⟩; exact ⟨h1, h3⟩
      · rintro ⟨h1, h3⟩; exact ⟨h1, le_trans h3 hle', hj, h3⟩
    rw [this, Real.volume_Icc, hstep]
    simp
  · have : {u : ℝ | 0 ≤ u ∧ u ≤ 1 ∧ Selects ps u j} =
        Set.Ioc (((ps.take j).sum : ℚ) : ℝ) (((ps.take (j + 1)).sum : ℚ) : ℝ) := by
      ext u
      simp only [Selects, h0, false_or]
      constructor
      · rintro ⟨_, _, _, h2, h3⟩; exact ⟨h2, h3⟩
      · rintro ⟨h2, h3⟩
        exact ⟨le_trans hge' (le_of_lt h2), le_trans h3 hle', hj, h2, h3⟩
    rw [this, Real.volume_Ioc, hstep]
    congr 1
    push_cast
    ring

/-- The random numbers drawn for one sample, extended by zeros. (Specification.) -/
def rollsOf {n : Nat} (u : Fin n → ℝ) (k : Nat) : ℝ := if h : k < n then u ⟨k, h⟩ else 0

/-- **C38.** With independent uniform random numbers, the probability that a sample is the
assignment `a` is the joint probability of `a`. -/
theorem sample_distribution (nodes : List (Node ν β)) (h : WellFormed nodes)
    (hN : Normalised nodes) (net : Net ν β) (e : finalize { nodes := nodes } = .ok net)
    (a : ν → β) (ha : Assignment nodes a) [Nonempty β] :
    volume {u : Fin nodes.length → ℝ | (∀ i, 0 ≤ u i ∧ u i ≤ 1) ∧
        ∃ s, sample net (rollsOf u) = .ok s ∧ ∀ n ∈ nodes, dictGet s n.name = some (a n.name)} =
      ENNReal.ofReal ((jointProb nodes a : ℚ) : ℝ) := by
  have hf := finalize_unique h e
  have hto := hf.order
  have hpk := pickNodes_spec (nodes := nodes) net.nodeOrder (fun v hv => hto.perm.mem_iff.1 hv)
  have hperm := pickNodes_perm h.unique hto.perm
  set L := pickNodes nodes net.nodeOrder with hL
  have hlen : L.length = nodes.length := hperm.length_eq
  have hnd : net.nodeOrder.Nodup := hto.perm.nodup_iff.2 h.unique
  let nd : Fin nodes.length → Node ν β := fun i => L[i.1]'(by rw [hlen]; exact i.2)
  have hndm : ∀ i, nd i ∈ nodes := fun i => hperm.mem_iff.1 (List.getElem_mem _)
  have hidx : ∀ i : Fin nodes.length, net.nodeOrder.idxOf (nd i).name = i.1 := by
    intro i
    have h1 : i.1 < net.nodeOrder.length := by rw [← hpk.1, List.length_map, hlen]; exact i.2
    have h2 : (nd i).name = net.nodeOrder[i.1] := by
      simp only [nd, ← hpk.1, List.getElem_map]
    rw [h2, hnd.idxOf_getElem]
  have hex : ∀ n ∈ nodes, ∃ i, nd i = n := by
    intro n hn
    obtain ⟨i, hi, e⟩ := List.getElem_of_mem (hperm.mem_iff.2 hn)
    exact ⟨⟨i, by rw [← hlen]; exact hi⟩, e⟩
  have hroll : ∀ (u : Fin nodes.length → ℝ) (i : Fin nodes.length), rollsOf u i.1 = u i := by
    intro u i; simp [rollsOf]
  have hd : ∀ n ∈ nodes, DeclaredFor nodes n.parents (n.parents.map a) := fun n hn =>
    declaredFor_of (done := nodes.map (·.name)) (fun m hm _ => ha m hm) n.parents
      (h.known n hn) (h.known n hn)
  have hset : {u : Fin nodes.length → ℝ | (∀ i, 0 ≤ u i ∧ u i ≤ 1) ∧
        ∃ s, sample net (rollsOf u) = .ok s ∧ ∀ n ∈ nodes, dictGet s n.name = some (a n.name)} =
      Set.pi Set.univ (fun i => {x : ℝ | 0 ≤ x ∧ x ≤ 1 ∧
        Selects (row (nd i) ((nd i).parents.map a)) x ((nd i).values.idxOf (a (nd i).name))}) := by
    ext u
    simp only [Set.mem_pi, Set.mem_univ, forall_true_left]
    have hle : (∀ i, 0 ≤ u i ∧ u i ≤ 1) → ∀ k, rollsOf u k ≤ 1 := by
      intro hu k
      unfold rollsOf
      split
      · exact (hu _).2
      · exact zero_le_one
    constructor
    · rintro ⟨hu, s, es, hs⟩ i
      obtain ⟨s', b, es', _, hb, hS, _⟩ := sample_ok nodes h hN net e (rollsOf u) (hle hu)
      rw [es] at es'
      cases es'
      have hab : ∀ n ∈ nodes, b n.name = a n.name := by
        intro n hn
        have := hb n hn
        rw [hs n hn] at this
        exact (Option.some.inj this).symm
      have h1 := (hS (nd i) (hndm i)).2
      have hpar : (nd i).parents.map b = (nd i).parents.map a := by
        apply List.map_congr_left
        intro q hq
        obtain ⟨m, hm, rfl⟩ := List.mem_map.1 (h.known _ (hndm i) q hq)
        exact hab m hm
      rw [hpar, hidx, hroll, hab _ (hndm i)] at h1
      exact ⟨(hu i).1, (hu i).2, h1⟩
    · intro hu
      have hu' : ∀ i, 0 ≤ u i ∧ u i ≤ 1 := fun i => ⟨(hu i).1, (hu i).2.1⟩
      refine ⟨hu', ?_⟩
      obtain ⟨s, b, es, _, hb, hS, _⟩ := sample_ok nodes h hN net e (rollsOf u) (hle hu')
      refine ⟨s, es, ?_⟩
      have hSa : Sampled nodes net.nodeOrder (rollsOf u) a := by
        intro n hn
        obtain ⟨i, rfl⟩ := hex n hn
        refine ⟨ha _ hn, ?_⟩
        rw [hidx, hroll]
        exact (hu i).2.2
      intro n hn
      rw [hb n hn, sampled_unique h hN hto (rollsOf u) hS hSa n hn]
  rw [hset, volume_pi_pi]
  have hvol : ∀ i, volume {x : ℝ | 0 ≤ x ∧ x ≤ 1 ∧
        Selects (row (nd i) ((nd i).parents.map a)) x ((nd i).values.idxOf (a (nd i).name))} =
      ENNReal.ofReal ((cpt (nd i) ((nd i).parents.map a) (a (nd i).name) : ℚ) : ℝ) := by
    intro i
    obtain ⟨h1, h2⟩ := hN _ (hndm i) _ (hd _ (hndm i))
    exact selects_volume h1 h2 _ (by
      rw [(h.table_rows _ (hndm i) _ (hd _ (hndm i))).2]
      exact List.idxOf_lt_length_iff.2 (ha _ (hndm i)))
  simp only [hvol]
  rw [← ENNReal.ofReal_prod_of_nonneg]
  · congr 1
    have hprod : jointProb nodes a = ∏ i, cpt (nd i) ((nd i).parents.map a) (a (nd i).name) := by
      unfold jointProb
      rw [← (hperm.map (fun n => cpt n (n.parents.map a) (a n.name))).prod_eq]
      rw [← List.prod_ofFn]
      congr 1
      apply List.ext_getElem
      · simp [hlen]
      · intro i h1 h2
        simp [nd]
    rw [hprod]
    push_cast
    rfl
  · intro i _
    have hp := cpt_nonneg hN (hndm i) (hd _ (hndm i)) (a (nd i).name)
    exact_mod_cast hp

end Mbtk.BN
