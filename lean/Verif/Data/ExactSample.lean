import Verif.Data.Synth
import Verif.Stats.Instances
import Verif.Props.BNProps
import Mathlib.Data.List.Lex
import Mathlib.Data.Char
/-!
# C74: the exact dataset of a Bayesian network

`create_exact_instances` of mbtk/dataset/sources/SampledBayesianNetworkDatasetSource.py, for a
network whose variables are named by strings, ordered lexicographically by code point.
-/
namespace Mbtk.Dataset.Synth
open Mbtk Mbtk.Dataset Mbtk.Dataset.Spec Mbtk.Stats Mbtk.BN Mbtk.BN.Spec

variable {β : Type} [DecidableEq β]

/-! ## Model -/

/-- `list(instance)`: a scalar key is not iterable (`TypeError`);
SampledBayesianNetworkDatasetSource.py 68. -/
def asLists : List Key → Except Err (List (List Int))
  | [] => .ok []
  | .one _ :: _ => .error .typeError
  | .tup vs :: rest => do
    let more ← asLists rest
    .ok (vs :: more)

/-- `create_exact_instances`: SampledBayesianNetworkDatasetSource.py 62-71.  The conversion to
`numpy_datatype` is the identity (value positions below 128 fit in the default `int8`). -/
def createExactInstances {ν : Type} [LinearOrder ν] (net : Net ν β) (sampleCount : Nat) : Except Err (List (List Int)) := do
  let pmf ← createJointPmf net
  let instances ← pmf.createInstancesList sampleCount
  asLists instances

/-- The configured `method`: SampledBayesianNetworkDatasetSource.py 26. -/
inductive Method where
  | random | exact | other

/-- `create_dataset_matrix`: SampledBayesianNetworkDatasetSource.py 25-60.  `random` is the
result of `create_random_instances`.  With any other method the local variable is unbound when
its columns are taken (`UnboundLocalError`, a `NameError`); it is not touched when there are no
columns to take.  Observe that line 30 passes `self` twice; the extra argument is ignored. -/
def createDatasetMatrix (net : Net Str β) (method : Method) (random : Except Err (List (List Int)))
    (objectives : List Str) (sampleCount : Nat) (label : Str) : Except Err DM :=
  match method with
  | .random => do
    let instances ← random
    createSampled (names net.nodes) objectives instances sampleCount label
  | .exact => do
    let instances ← createExactInstances net sampleCount
    createSampled (names net.nodes) objectives instances sampleCount label
  | .other =>
    if featureNames (names net.nodes) objectives = [] ∧ objectives = [] then
      createSampled (names net.nodes) objectives [] sampleCount label
    else if ∃ v ∈ featureNames (names net.nodes) objectives ++ objectives, v ∈ names net.nodes then
      .error .nameError
    else .error .valueError

/-! ## Specification -/

/-- What the assignment `a` puts in the columns with the given labels: for each variable the
position of its value. (Specification.) -/
def cellsOf (nodes : List (Node Str β)) (a : Str → β) (labels : List Str) : List (Str × Int) :=
  labels.map (fun v => (v, (position nodes v (a v) : Int)))

/-- The samples of the table in which every variable has the value that `a` gives it.
(Specification.) -/
def samplesOf (nodes : List (Node Str β)) (a : Str → β) (t : Table) : List Sample :=
  t.samples.filter (fun s => s.features = cellsOf nodes a t.features ∧
    s.objectives = cellsOf nodes a t.objectives)

/-! ## Proofs -/

theorem asLists_tup (ls : List (List Int)) : asLists (ls.map Key.tup) = .ok ls := by
  induction ls with
  | nil => rfl
  | cons l ls ih =>
    rw [List.map_cons, asLists, ih]
    rfl

theorem all_tup {l : List Key} (h : ∀ k ∈ l, ∃ vs, k = Key.tup vs) :
    l = (l.map Key.comps).map Key.tup := by
  rw [List.map_map]
  conv_lhs => rw [← List.map_id l]
  apply List.map_congr_left
  intro k hk
  obtain ⟨vs, rfl⟩ := h k hk
  rfl

theorem finalize_names {nodes : List (Node Str β)} (h : WellFormed nodes) {net : Net Str β}
    (e : BN.finalize { nodes := nodes } = .ok net) : names net.nodes = names nodes := by
  obtain ⟨f, hn, hfs⟩ := (finalize_unique h e).nodes_eq
  rw [hn]
  exact names_map (fun n hn => (hfs n hn).1)

/-- The cell of a row of positions that belongs to a variable. -/
theorem indices_cell {nodes : List (Node Str β)} (a : Str → β)
    {v : Str} (hv : v ∈ names nodes) :
    (indices nodes a).getD ((names nodes).idxOf v) 0 = (position nodes v (a v) : Int) := by
  have hi : (names nodes).idxOf v < (names nodes).length := List.idxOf_lt_length_iff.2 hv
  have hdef : indices nodes a = (names nodes).map (fun v => (position nodes v (a v) : Int)) := rfl
  rw [hdef, List.getD_eq_getElem?_getD, List.getElem?_map, List.getElem?_eq_getElem hi]
  simp

theorem length_samplesOf (nodes : List (Node Str β)) (a : Str → β)
    (objectives : List Str) (ho : ∀ v ∈ objectives, v ∈ names nodes)
    (rows : List (Str → β)) (dm : DM)
    (hX : ∀ v, v ∈ dm.colLabelsX ↔ v ∈ names nodes ∧ v ∉ objectives)
    (hY : dm.colLabelsY.Perm objectives)
    (hs : (table dm).samples = (rows.map (indices nodes)).zipIdx.map (fun p => ⟨rowLabel p.2,
        dm.colLabelsX.map (fun v => (v, p.1.getD ((names nodes).idxOf v) 0)),
        dm.colLabelsY.map (fun v => (v, p.1.getD ((names nodes).idxOf v) 0))⟩)) :
    (samplesOf nodes a (table dm)).length = (rows.map (indices nodes)).count (indices nodes a) := by
  unfold samplesOf
  rw [hs]
  have hYm : ∀ v, v ∈ dm.colLabelsY ↔ v ∈ objectives := fun v => hY.mem_iff
  have hiff : ∀ row ∈ rows.map (indices nodes),
      ((dm.colLabelsX.map (fun v => (v, row.getD ((names nodes).idxOf v) 0)) =
          cellsOf nodes a dm.colLabelsX ∧
        dm.colLabelsY.map (fun v => (v, row.getD ((names nodes).idxOf v) 0)) =
          cellsOf nodes a dm.colLabelsY) ↔ row = indices nodes a) := by
    intro row hrow
    obtain ⟨b, _, rfl⟩ := List.mem_map.1 hrow
    unfold cellsOf
    constructor
    · rintro ⟨h1, h2⟩
      show (names nodes).map _ = (names nodes).map _
      apply List.map_congr_left
      intro v hv
      have hcell := indices_cell (nodes := nodes) b hv
      by_cases hvo : v ∈ objectives
      · have := List.map_inj_left.1 h2 v ((hYm v).2 hvo)
        rw [hcell] at this
        exact (Prod.mk.inj this).2
      · have := List.map_inj_left.1 h1 v ((hX v).2 ⟨hv, hvo⟩)
        rw [hcell] at this
        exact (Prod.mk.inj this).2
    · intro he
      rw [he]
      refine ⟨List.map_congr_left (fun v hv => ?_), List.map_congr_left (fun v hv => ?_)⟩
      · rw [indices_cell (nodes := nodes) a ((hX v).1 hv).1]
      · rw [indices_cell (nodes := nodes) a (ho v ((hYm v).1 hv))]
  generalize rows.map (indices nodes) = ls at hiff
  have hgen : ∀ (k : Nat) (ls : List (List Int)), (∀ row ∈ ls,
      ((dm.colLabelsX.map (fun v => (v, row.getD ((names nodes).idxOf v) 0)) =
          cellsOf nodes a dm.colLabelsX ∧
        dm.colLabelsY.map (fun v => (v, row.getD ((names nodes).idxOf v) 0)) =
          cellsOf nodes a dm.colLabelsY) ↔ row = indices nodes a)) →
      (((ls.zipIdx k).map (fun p => (⟨rowLabel p.2,
        dm.colLabelsX.map (fun v => (v, p.1.getD ((names nodes).idxOf v) 0)),
        dm.colLabelsY.map (fun v => (v, p.1.getD ((names nodes).idxOf v) 0))⟩ : Sample))).filter
          (fun s => s.features = cellsOf nodes a (table dm).features ∧
            s.objectives = cellsOf nodes a (table dm).objectives)).length =
        ls.count (indices nodes a) := by
    intro k ls
    induction ls generalizing k with
    | nil => intro _; rfl
    | cons l ls ih =>
      intro h
      have hl := h l (by simp)
      have ih := ih (k + 1) (fun row hr => h row (List.mem_cons_of_mem _ hr))
      rw [List.zipIdx_cons, List.map_cons, List.count_cons]
      by_cases he : l = indices nodes a
      · rw [List.filter_cons_of_pos (by rw [decide_eq_true_eq]; exact hl.2 he), List.length_cons, ih]
        simp [he]
      · rw [List.filter_cons_of_neg (by rw [decide_eq_true_eq]; exact fun hc => he (hl.1 hc)), ih]
        simp [he]
  exact hgen 0 ls hiff

/-- The exact instances of a network, for any sample count: rows of assignments. -/
theorem exact_instances_rows {ν : Type} [LinearOrder ν] [Nonempty β] (nodes : List (Node ν β))
    (h : WellFormed nodes) (net : Net ν β) (e : BN.finalize { nodes := nodes } = .ok net) (n : Nat) :
    ∃ rows : List (ν → β), rows.length = n ∧ (∀ a ∈ rows, Assignment nodes a) ∧
      createExactInstances net n = .ok (rows.map (indices nodes)) := by
  obtain ⟨pmf, ep, _, hnd, hget, hmem, hnorm⟩ := joint_pmf_is_chain_rule nodes h net e
  have hex : ∃ a : ν → β, Assignment nodes a := by
    refine ⟨fun v => match nodes.find? (fun n => n.name = v) with
      | some n => n.values.headD (Classical.arbitrary β)
      | none => Classical.arbitrary β, fun m hm => ?_⟩
    have hf : nodes.find? (fun k => k.name = m.name) = some m := by
      have hu := h.unique
      unfold UniqueNames at hu
      clear * - hm hu
      induction nodes with
      | nil => simp at hm
      | cons x nodes ih =>
        simp only [List.map_cons, List.nodup_cons] at hu
        rcases List.mem_cons.1 hm with rfl | hm
        · simp
        · have : x.name ≠ m.name := fun e => hu.1 (e ▸ List.mem_map.2 ⟨m, hm, rfl⟩)
          rw [List.find?_cons_of_neg (by simpa using this)]
          exact ih hm hu.2
    simp only [hf]
    have hv := (h.values m hm).2
    cases hvs : m.values with
    | nil => exact absurd hvs hv
    | cons x xs => simp
  obtain ⟨a0, ha0⟩ := hex
  have hne : pmf.probabilities ≠ [] := by
    intro h0
    have := hget a0 ha0
    rw [h0] at this
    cases this
  obtain ⟨l, el, hl, hk⟩ := create_instances_list_length pmf hne n
  have hrow : ∀ k ∈ l, ∃ a, Assignment nodes a ∧ k = .tup (indices nodes a) := by
    intro k hkl
    obtain ⟨⟨k', p⟩, hp, rfl⟩ := List.mem_map.1 (hk k hkl)
    obtain ⟨a, ha, hka, _⟩ := hmem k' p hp
    exact ⟨a, ha, hka⟩
  have hrows : ∃ rows : List (ν → β), (∀ a ∈ rows, Assignment nodes a) ∧
      l = rows.map (fun a => Key.tup (indices nodes a)) := by
    clear * - hrow
    induction l with
    | nil => exact ⟨[], by simp, rfl⟩
    | cons k l ih =>
      obtain ⟨a, ha, hka⟩ := hrow k (by simp)
      obtain ⟨rows, h1, h2⟩ := ih (fun k hk => hrow k (List.mem_cons_of_mem _ hk))
      refine ⟨a :: rows, fun b hb => ?_, by rw [List.map_cons, ← hka, ← h2]⟩
      rcases List.mem_cons.1 hb with rfl | hb
      · exact ha
      · exact h1 b hb
  obtain ⟨rows, h1, h2⟩ := hrows
  refine ⟨rows, by rw [← hl, h2, List.length_map], h1, ?_⟩
  unfold createExactInstances
  rw [ep]
  show (pmf.createInstancesList n >>= asLists) = _
  rw [el]
  show asLists l = _
  rw [h2]
  have : rows.map (fun a => Key.tup (indices nodes a)) = (rows.map (indices nodes)).map Key.tup := by
    rw [List.map_map]; rfl
  rw [this, asLists_tup]

/-- If the sample count times the probability of every assignment is a whole number, each assignment
is among the exact instances exactly that many times. -/
theorem exact_instances_counts {ν : Type} [LinearOrder ν] [Nonempty β] (nodes : List (Node ν β))
    (h : WellFormed nodes) (hnorm : Normalised nodes) (net : Net ν β)
    (e : BN.finalize { nodes := nodes } = .ok net) (n : Nat) (hn : n ≠ 0)
    (hwhole : ∀ a, Assignment nodes a → ∃ c : Nat, (n : ℚ) * jointProb nodes a = c)
    (rows : List (ν → β)) (ei : createExactInstances net n = .ok (rows.map (indices nodes)))
    (a : ν → β) (haa : Assignment nodes a) :
    (((rows.map (indices nodes)).count (indices nodes a) : Nat) : ℚ) = n * jointProb nodes a := by
  classical
  obtain ⟨pmf, ep, _, hnd, hget, hmem, hno⟩ := joint_pmf_is_chain_rule nodes h net e
  obtain ⟨_, hsum⟩ := hno hnorm
  let f : Key → Nat := fun k => (pyRound ((n : ℚ) * dictVal pmf.probabilities k)).toNat
  have hf : ∀ p ∈ pmf.probabilities, (n : ℚ) * p.2 = f p.1 := by
    rintro ⟨k, p⟩ hp
    obtain ⟨b, hb, rfl, rfl⟩ := hmem k p hp
    obtain ⟨c, hc⟩ := hwhole b hb
    have hv := dictVal_of_mem hnd hp
    show (n : ℚ) * jointProb nodes b =
      ((pyRound ((n : ℚ) * dictVal pmf.probabilities (.tup (indices nodes b)))).toNat : ℚ)
    rw [hv, hc]
    have : pyRound ((c : ℕ) : ℚ) = c := by
      have := pyRound_int (c : Int)
      exact_mod_cast this
    rw [this]; simp
  obtain ⟨l, el, _, hcnt, _⟩ := create_instances_list_exact_zeros pmf n hn hnd f hf hsum
  have hl2 : createExactInstances net n = asLists l := by
    unfold createExactInstances
    rw [ep]
    show (pmf.createInstancesList n >>= asLists) = _
    rw [el]; rfl
  have hkeys : ∀ k ∈ l, ∃ vs, k = Key.tup vs := by
    obtain ⟨l', el', _, hk'⟩ := create_instances_list_length pmf (by
      intro h0; have := hget a haa; rw [h0] at this; cases this) n
    rw [el] at el'
    cases el'
    intro k hk
    obtain ⟨⟨k', p⟩, hp, rfl⟩ := List.mem_map.1 (hk' k hk)
    obtain ⟨b, _, hb, _⟩ := hmem k' p hp
    exact ⟨_, hb⟩
  have hrows : rows.map (indices nodes) = l.map Key.comps := by
    rw [hl2] at ei
    have e1 := all_tup hkeys
    rw [e1, asLists_tup] at ei
    exact (Except.ok.inj ei).symm
  have hc2 : (rows.map (indices nodes)).count (indices nodes a) =
      l.count (Key.tup (indices nodes a)) := by
    have hinj : Function.Injective Key.tup := fun x y hxy => Key.tup.inj hxy
    conv_rhs => rw [all_tup hkeys, ← hrows]
    rw [List.count_map_of_injective _ _ hinj]
  have hpa := hget a haa
  have hma := dictGet_mem hpa
  have h3 := hcnt _ hma
  have h4 := hf _ hma
  simp only at h3 h4
  rw [hc2, h3, ← h4]

/-- **C74.** The `exact` method always gives a dataset with exactly the requested number of
samples, each of them an assignment of declared values to all variables of the network; the
objectives are the configured ones and the features all other variables. -/
theorem exact_dataset_shape [Nonempty β] (nodes : List (Node Str β)) (h : WellFormed nodes)
    (net : Net Str β) (e : BN.finalize { nodes := nodes } = .ok net) (n : Nat) (hn : n ≠ 0)
    (objectives : List Str) (ho : ∀ v ∈ objectives, v ∈ nodes.map (·.name)) (label : Str)
    (random : Except Err (List (List Int))) :
    ∃ (dm : DM) (rows : List (Str → β)),
      createDatasetMatrix net .exact random objectives n label = .ok dm ∧
      (∀ v, v ∈ dm.colLabelsX ↔ v ∈ nodes.map (·.name) ∧ v ∉ objectives) ∧
      dm.colLabelsY.Perm objectives ∧
      rows.length = n ∧ (∀ a ∈ rows, Assignment nodes a) ∧
      (table dm).samples = rows.zipIdx.map (fun p => ⟨rowLabel p.2,
        cellsOf nodes p.1 dm.colLabelsX, cellsOf nodes p.1 dm.colLabelsY⟩) := by
  obtain ⟨rows, hl, ha, ei⟩ := exact_instances_rows nodes h net e n
  have hnm := finalize_names h e
  have ho' : ∀ v ∈ objectives, v ∈ names nodes := fun v hv => mem_names.2 (ho v hv)
  have hne : rows.map (indices nodes) ≠ [] := by
    intro h0
    rw [List.map_eq_nil_iff] at h0
    rw [h0] at hl; exact hn hl.symm
  obtain ⟨dm, ed, _, _, _, _, _, hX, hY, _, hs⟩ := sampled_dataset_exact (names nodes) objectives
    ho' (rows.map (indices nodes)) hne label
  rw [List.length_map, hl] at ed
  refine ⟨dm, rows, ?_, fun v => by rw [hX, mem_names], hY, hl, ha, ?_⟩
  · unfold createDatasetMatrix
    show (createExactInstances net n >>= _) = _
    rw [ei, hnm]
    exact ed
  · rw [hs, List.zipIdx_map, List.map_map]
    apply List.map_congr_left
    intro p _
    simp only [Function.comp, Prod.map, id, cellsOf]
    have h1 : dm.colLabelsX.map (fun v => (v, (indices nodes p.1).getD ((names nodes).idxOf v) 0)) =
        dm.colLabelsX.map (fun v => (v, (position nodes v (p.1 v) : Int))) :=
      List.map_congr_left (fun v hv => by rw [indices_cell (nodes := nodes) p.1 ((hX v).1 hv).1])
    have h2 : dm.colLabelsY.map (fun v => (v, (indices nodes p.1).getD ((names nodes).idxOf v) 0)) =
        dm.colLabelsY.map (fun v => (v, (position nodes v (p.1 v) : Int))) :=
      List.map_congr_left (fun v hv => by
        rw [indices_cell (nodes := nodes) p.1 (ho' v (hY.mem_iff.1 hv))])
    rw [h1, h2]

/-- **C74.** If the sample count times the probability of every assignment is a whole number, the
`exact` method gives the exact dataset: each assignment appears exactly that many times (so the
assignments of probability zero do not appear). -/
theorem exact_dataset_frequencies [Nonempty β] (nodes : List (Node Str β)) (h : WellFormed nodes)
    (hnorm : Normalised nodes)
    (net : Net Str β) (e : BN.finalize { nodes := nodes } = .ok net) (n : Nat) (hn : n ≠ 0)
    (hwhole : ∀ a, Assignment nodes a → ∃ c : Nat, (n : ℚ) * jointProb nodes a = c)
    (objectives : List Str) (ho : ∀ v ∈ objectives, v ∈ nodes.map (·.name)) (label : Str)
    (random : Except Err (List (List Int))) :
    ∃ dm, createDatasetMatrix net .exact random objectives n label = .ok dm ∧
      (table dm).samples.length = n ∧
      ∀ a, Assignment nodes a →
        ((samplesOf nodes a (table dm)).length : ℚ) = n * jointProb nodes a := by
  classical
  obtain ⟨rows, hl, ha, ei⟩ := exact_instances_rows nodes h net e n
  have hnm := finalize_names h e
  have ho' : ∀ v ∈ objectives, v ∈ names nodes := fun v hv => mem_names.2 (ho v hv)
  have hne : rows.map (indices nodes) ≠ [] := by
    intro h0
    rw [List.map_eq_nil_iff] at h0
    rw [h0] at hl; exact hn hl.symm
  obtain ⟨dm, ed, _, _, _, _, _, hX, hY, _, hs⟩ := sampled_dataset_exact (names nodes) objectives
    ho' (rows.map (indices nodes)) hne label
  rw [List.length_map, hl] at ed
  refine ⟨dm, ?_, ?_, fun a haa => ?_⟩
  · unfold createDatasetMatrix
    show (createExactInstances net n >>= _) = _
    rw [ei, hnm]
    exact ed
  · rw [hs]; simp [hl]
  · rw [length_samplesOf nodes a objectives ho' rows dm hX hY hs]
    exact exact_instances_counts nodes h hnorm net e n hn hwhole rows ei a haa

/-- **C74.** An unknown method is only noticed when the first column is taken, as an
`UnboundLocalError`. -/
theorem unknown_method (net : Net Str β) (random : Except Err (List (List Int)))
    (objectives : List Str) (n : Nat) (label : Str)
    (hne : ∃ v ∈ names net.nodes, v ∉ objectives) :
    createDatasetMatrix net .other random objectives n label = .error .nameError := by
  obtain ⟨v, hv, hvo⟩ := hne
  have hm : v ∈ featureNames (names net.nodes) objectives := by
    unfold featureNames
    rw [Rcv.sortedSet_mem, List.mem_filter, decide_eq_true_eq]
    exact ⟨hv, hvo⟩
  unfold createDatasetMatrix
  rw [if_neg (fun h => by rw [h.1] at hm; cases hm),
    if_pos ⟨v, List.mem_append_left _ hm, hv⟩]

/-! ## Concrete cases -/

/-- Two variables, `b` with the parent `a`; one entry is zero. (Example.) -/
def exPair : List (Node Str Nat) :=
  [{ name := "b".toList, values := [7, 9], parents := ["a".toList],
     probabilities := [(.values [7], [1/4, 3/4]), (.values [9], [1, 0])] },
   { name := "a".toList, values := [7, 9], parents := [],
     probabilities := [(.unconditioned, [1/2, 1/2])] }]

theorem exPair_wf : WellFormed exPair :=
  wellFormed_of_check (l := ["a".toList, "b".toList]) (by decide +kernel) (by decide +kernel)
    (by decide) (by decide +kernel) (by decide +kernel)

theorem exPair_normalised : Normalised exPair := by
  intro n hn vs h
  have hrow := exPair_wf.table_rows n hn vs h
  obtain ⟨p, hp, he⟩ := List.mem_map.1 hrow.1
  have hall : ∀ n ∈ exPair, ∀ p ∈ n.probabilities, dictGet n.probabilities p.1 = some p.2 ∧
      (∀ x ∈ p.2, 0 ≤ x) ∧ p.2.sum = 1 := by decide +kernel
  obtain ⟨h1, h2, h3⟩ := hall n hn p hp
  rw [he] at h1
  unfold row
  rw [h1]
  exact ⟨h2, h3⟩

theorem exPair_whole (a : Str → Nat) (ha : Assignment exPair a) :
    ∃ c : Nat, ((8 : Nat) : ℚ) * jointProb exPair a = c := by
  have h1 := ha _ (List.mem_cons_self ..)
  have h2 := ha _ (List.mem_cons_of_mem _ (List.mem_cons_self ..))
  unfold jointProb exPair
  simp only [List.map_cons, List.map_nil, List.prod_cons, List.prod_nil]
  simp only [List.mem_cons, List.not_mem_nil, or_false] at h1 h2
  rcases h1 with h1 | h1 <;> rcases h2 with h2 | h2 <;> rw [h1, h2]
  · exact ⟨1, by decide +kernel⟩
  · exact ⟨4, by decide +kernel⟩
  · exact ⟨3, by decide +kernel⟩
  · exact ⟨0, by decide +kernel⟩

/-- The hypotheses of `exact_dataset_frequencies` are met: eight samples, of which none has
`a = 9, b = 9` and three have `a = 7, b = 9`. -/
example : ∃ (net : Net Str Nat) (dm : DM), BN.finalize { nodes := exPair } = .ok net ∧
    createDatasetMatrix net .exact (.error .valueError) ["b".toList] 8 "x".toList = .ok dm ∧
    (table dm).samples.length = 8 ∧
    (samplesOf exPair (fun _ => 9) (table dm)).length = 0 ∧
    (samplesOf exPair (fun v => if v = "a".toList then 7 else 9) (table dm)).length = 3 := by
  obtain ⟨net, e, _⟩ := finalize_ok exPair_wf
  obtain ⟨dm, h1, h2, h3⟩ := exact_dataset_frequencies exPair exPair_wf exPair_normalised net e 8
    (by decide) exPair_whole ["b".toList] (by decide) "x".toList (.error .valueError)
  refine ⟨net, dm, e, h1, h2, ?_, ?_⟩
  · have := h3 (fun _ => 9) (by intro n hn; revert n; decide)
    have hp : ((8 : Nat) : ℚ) * jointProb exPair (fun _ => 9) = (0 : Nat) := by decide +kernel
    rw [hp] at this
    exact_mod_cast this
  · have := h3 (fun v => if v = "a".toList then 7 else 9) (by intro n hn; revert n; decide +kernel)
    have hp : ((8 : Nat) : ℚ) * jointProb exPair (fun v => if v = "a".toList then 7 else 9) =
      (3 : Nat) := by decide +kernel
    rw [hp] at this
    exact_mod_cast this

/-- A variable whose third value has probability zero. (Example.) -/
def exImpossible : List (Node Str Nat) :=
  [{ name := "a".toList, values := [7, 8, 9], parents := [],
     probabilities := [(.unconditioned, [1/2, 1/2, 0])] }]

theorem exImpossible_wf : WellFormed exImpossible :=
  wellFormed_of_check (l := ["a".toList]) (by decide +kernel) (by decide +kernel)
    (by decide) (by decide +kernel) (by decide +kernel)

/-- **Finding.**  When the counts are not whole, the `exact` dataset can contain samples that are
impossible in the network: with one sample left over, the value of probability zero gets it. -/
theorem exact_dataset_impossible_sample :
    (do let net ← BN.finalize { nodes := exImpossible }
        createExactInstances net 5) = .ok [[0], [0], [1], [1], [2]] ∧
    jointProb exImpossible (fun _ => 9) = 0 := by
  constructor
  · have h1 : BN.finalize { nodes := exImpossible } >>= (fun net => createJointPmf net) =
        .ok ⟨[(.tup [0], 1/2), (.tup [1], 1/2), (.tup [2], 0)], [0], none⟩ := by decide +kernel
    have h2 : PMF.createInstancesList
        ⟨[(.tup [0], 1/2), (.tup [1], 1/2), (.tup [2], 0)], [0], none⟩ 5 =
        .ok [.tup [0], .tup [0], .tup [1], .tup [1], .tup [2]] := by
      unfold PMF.createInstancesList
      rw [instancesRec]
      decide +kernel
    obtain ⟨net, e, _⟩ := finalize_ok exImpossible_wf
    rw [e] at h1 ⊢
    change createJointPmf net = _ at h1
    show createExactInstances net 5 = _
    unfold createExactInstances
    rw [h1]
    show (PMF.createInstancesList _ 5 >>= asLists) = _
    rw [h2]
    rfl
  · decide +kernel

end Mbtk.Dataset.Synth
