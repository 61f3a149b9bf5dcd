import Verif.BN.Sample
/-!
# Bayesian networks (C35–C38): final statements, witnesses and findings
-/
namespace Mbtk.BN
open Spec Stats
variable {ν β : Type} [LinearOrder ν] [DecidableEq β]

/-- **C36.** `create_joint_pmf` of a finalized network succeeds; its dictionary has exactly one
entry per assignment of declared values, and the entry of an assignment is the product of the
entries of the conditional tables it selects.  If the rows of the tables are distributions, so
is the joint PMF. -/
theorem joint_pmf_is_chain_rule (nodes : List (Node ν β)) (h : WellFormed nodes) (net : Net ν β)
    (e : finalize { nodes := nodes } = .ok net) [Nonempty β] :
    ∃ pmf, createJointPmf net = .ok pmf ∧ pmf.variableIDs = net.ids ∧
      (pmf.probabilities.map Prod.fst).Nodup ∧
      (∀ a, Assignment nodes a →
        dictGet pmf.probabilities (.tup (indices nodes a)) = some (jointProb nodes a)) ∧
      (∀ k p, (k, p) ∈ pmf.probabilities →
        ∃ a, Assignment nodes a ∧ k = .tup (indices nodes a) ∧ p = jointProb nodes a) ∧
      (Normalised nodes →
        (∀ p ∈ pmf.probabilities, 0 ≤ p.2) ∧ (pmf.probabilities.map Prod.snd).sum = 1) := by
  have hf := finalize_unique h e
  let a0 : ν → β := fun _ => Classical.arbitrary β
  have hpmf := createJointPmf_ok h hf a0
  obtain ⟨f, hn, hfs⟩ := hf.nodes_eq
  have hsd : ∀ n ∈ nodes, SameDecl n (f n) := fun n hn => (hfs n hn).1
  have hind : ∀ a, indices net.nodes a = indices nodes a := by
    intro a; rw [hn]; exact indices_map h.unique hsd a
  have hbr : branches (pickNodes net.nodes net.nodeOrder) a0 1 =
      branches (pickNodes nodes net.nodeOrder) a0 1 := by
    rw [hn, pickNodes_map hsd, branches_decl _ (fun n hn => hsd n
      ((pickNodes_spec net.nodeOrder (fun v hv => hf.order.perm.mem_iff.1 hv)).2 n hn))]
  obtain ⟨_, hpw, hall⟩ := jointDict_ok h hf.order a0
  have hpk := pickNodes_spec (nodes := nodes) net.nodeOrder
    (fun v hv => hf.order.perm.mem_iff.1 hv)
  have hperm := pickNodes_perm h.unique hf.order.perm
  have hrdy := ready_of_topological h.unique hf.order
  rw [hbr] at hpmf
  simp only [hind] at hpmf
  have hnd : (((branches (pickNodes nodes net.nodeOrder) a0 1).map
      (fun x => ((.tup (indices nodes x.1) : Key), x.2))).map Prod.fst).Nodup := by
    rw [List.map_map]
    unfold List.Nodup
    rw [List.pairwise_map]
    exact hpw.imp (fun hne e => hne (by simpa using e))
  refine ⟨_, hpmf, rfl, hnd, ?_, ?_, ?_⟩
  · intro a ha
    obtain ⟨x, hx, hxa, _⟩ := exists_branch (pickNodes nodes net.nodeOrder) a0 a 1
      (fun n hn => ha n (hpk.2 n hn)) (by rw [hpk.1]; exact hf.order.perm.nodup_iff.2 h.unique)
    have hagree : ∀ n ∈ nodes, x.1 n.name = a n.name :=
      fun n hn => hxa n (hperm.mem_iff.2 hn)
    have hi : indices nodes x.1 = indices nodes a := by
      unfold indices
      apply List.map_congr_left
      intro v hv
      obtain ⟨n, hn, rfl⟩ := List.mem_map.1 (mem_names.1 hv)
      rw [hagree n hn]
    have hj : jointProb nodes x.1 = jointProb nodes a := by
      unfold jointProb
      congr 1
      apply List.map_congr_left
      intro n hn
      have : n.parents.map x.1 = n.parents.map a := by
        apply List.map_congr_left
        intro q hq
        obtain ⟨m, hm, rfl⟩ := List.mem_map.1 (h.known n hn q hq)
        exact hagree m hm
      rw [this, hagree n hn]
    have hmem : ((.tup (indices nodes a) : Key), jointProb nodes a) ∈
        (branches (pickNodes nodes net.nodeOrder) a0 1).map
          (fun x => ((.tup (indices nodes x.1) : Key), x.2)) := by
      refine List.mem_map.2 ⟨x, hx, ?_⟩
      rw [hi, (hall x hx).2, hj]
    exact dictGet_of_mem hnd hmem
  · intro k p hm
    obtain ⟨x, hx, e'⟩ := List.mem_map.1 hm
    cases e'
    exact ⟨x.1, (hall x hx).1, rfl, (hall x hx).2⟩
  · intro hN
    constructor
    · intro p hp
      obtain ⟨x, hx, rfl⟩ := List.mem_map.1 hp
      obtain ⟨h1, h2⟩ := hall x hx
      simp only
      rw [h2]
      unfold jointProb
      apply List.prod_nonneg
      intro q hq
      obtain ⟨n, hn, rfl⟩ := List.mem_map.1 hq
      exact cpt_nonneg hN hn (declaredFor_of (done := nodes.map (·.name))
        (fun m hm _ => h1 m hm) n.parents (h.known n hn) (h.known n hn)) _
    · have := sum_branches h hN (pickNodes nodes net.nodeOrder) hpk.2 [] a0 1 hrdy
        (by intro n _ h'; simp at h')
      simpa [List.map_map, Function.comp_def] using this

/-- **C36**, through the interface of the PMF: with at least two variables, `pmf.p` of the
value positions of an assignment (in any nesting) is the joint probability of the assignment. -/
theorem joint_pmf_p (nodes : List (Node ν β)) (h : WellFormed nodes) (net : Net ν β)
    (e : finalize { nodes := nodes } = .ok net) (h2 : 2 ≤ nodes.length) [Nonempty β] :
    ∃ pmf, createJointPmf net = .ok pmf ∧ ∀ a, Assignment nodes a → ∀ args,
      leavesAll args = indices nodes a → pmf.p args = jointProb nodes a := by
  obtain ⟨pmf, hp, _, _, hval, _⟩ := joint_pmf_is_chain_rule nodes h net e
  refine ⟨pmf, hp, ?_⟩
  intro a ha args hargs
  have hlen : (indices nodes a).length = nodes.length := by simp [indices]
  have hk : processPmfKey args = .tup (indices nodes a) := by
    rw [processPmfKey_eq, hargs]
    match hi : indices nodes a with
    | [] => simp [hi] at hlen; omega
    | [_] => simp [hi] at hlen; omega
    | _ :: _ :: _ => rfl
  unfold PMF.p
  rw [hk, hval a ha]

/-! ## A concrete network

Variables `0, 1, 2` with values `7, 9`; `1` has no parents, `0` has the parent `1` and `2` has
the parents `0` and `1`. -/

/-- All combinations of declared values of the given variables. (Specification.) -/
def combos (nodes : List (Node ν β)) : List ν → List (List β)
  | [] => [[]]
  | p :: ps => ((nodes.filter (fun n => n.name = p)).flatMap (·.values)).flatMap
      (fun v => (combos nodes ps).map (v :: ·))

omit [DecidableEq β] in
theorem mem_combos (nodes : List (Node ν β)) (ps : List ν) (vs : List β) :
    DeclaredFor nodes ps vs ↔ vs ∈ combos nodes ps := by
  unfold DeclaredFor
  induction ps generalizing vs with
  | nil => simp [combos]
  | cons p ps ih =>
    simp only [combos, List.mem_flatMap, List.mem_map, List.mem_filter, decide_eq_true_eq]
    constructor
    · intro h
      cases h with
      | cons h1 h2 =>
        obtain ⟨n, hn, e, hv⟩ := h1
        exact ⟨_, ⟨n, ⟨hn, e⟩, hv⟩, _, (ih _).1 h2, rfl⟩
    · rintro ⟨v, ⟨n, ⟨hn, e⟩, hv⟩, l, hl, rfl⟩
      exact .cons ⟨n, hn, e, hv⟩ ((ih _).2 hl)

/-- A sufficient check for well-formedness. -/
theorem wellFormed_of_check {nodes : List (Node ν β)} (hu : (nodes.map (·.name)).Nodup)
    {l : List ν} (ho : detectOrder nodes = .ok l)
    (hv : ∀ n ∈ nodes, n.values.Nodup ∧ n.values ≠ [])
    (hk : ∀ n ∈ nodes, ∀ k ∈ n.probabilities.map Prod.fst,
      k ∈ (combos nodes n.parents).map tableKey)
    (hr : ∀ n ∈ nodes, ∀ vs ∈ combos nodes n.parents,
      tableKey vs ∈ n.probabilities.map Prod.fst ∧ (row n vs).length = n.values.length) :
    WellFormed nodes := by
  obtain ⟨h1, h2⟩ := (sampling_order_terminates_iff nodes hu).1.2 ⟨l, ho⟩
  refine ⟨hu, h1, h2, hv, ?_, ?_⟩
  · intro n hn k hk'
    obtain ⟨vs, h3, h4⟩ := List.mem_map.1 (hk n hn k hk')
    exact ⟨vs, (mem_combos _ _ _).2 h3, h4.symm⟩
  · intro n hn vs h3
    exact hr n hn vs ((mem_combos _ _ _).1 h3)

/-- The example network. (Example.) -/
def exNodes : List (Node Nat Nat) :=
  [{ name := 0, values := [7, 9], parents := [1],
     probabilities := [(.values [7], [1/4, 3/4]), (.values [9], [1, 0])] },
   { name := 1, values := [7, 9], parents := [], probabilities := [(.unconditioned, [1/3, 2/3])] },
   { name := 2, values := [7, 9], parents := [0, 1],
     probabilities := [(.values [7, 7], [1/2, 1/2]), (.values [7, 9], [1/5, 4/5]),
       (.values [9, 7], [0, 1]), (.values [9, 9], [1/10, 9/10])] }]

theorem exNodes_order : detectOrder exNodes = .ok [1, 0, 2] := by decide +kernel

theorem exNodes_wf : WellFormed exNodes :=
  wellFormed_of_check (by decide) exNodes_order (by decide) (by decide +kernel) (by decide +kernel)

theorem exNodes_normalised : Normalised exNodes := by
  intro n hn vs h
  rw [mem_combos] at h
  revert n vs
  decide +kernel

theorem exNodes_noIDs : NoIDs exNodes := by
  intro n hn; revert n; decide

/-- A cyclic network: `0 → 1 → 0`. (Example.) -/
def exCycle : List (Node Nat Nat) :=
  [{ name := 0, values := [7], parents := [1], probabilities := [(.values [7], [1])] },
   { name := 1, values := [7], parents := [0], probabilities := [(.values [7], [1])] }]

/-- The hypotheses of `sampling_order_topological` hold for the example network. -/
example : ∃ l, detectOrder exNodes = .ok l ∧ TopologicalOrder exNodes l :=
  sampling_order_topological exNodes exNodes_wf.unique exNodes_wf.known exNodes_wf.acyclic

/-- **Finding.** On a cyclic network the search for a sampling order never ends. -/
theorem sampling_order_cycle : detectOrder exCycle = .error (.custom "nontermination") := by
  decide +kernel

/-- The finalized example network. -/
theorem exNodes_finalize : ∃ net, finalize { nodes := exNodes } = .ok net :=
  (finalize_ok exNodes_wf).imp (fun _ h => h.1)

/-- C36 on the example. -/
example : ∃ net, finalize { nodes := exNodes } = .ok net ∧ ∃ pmf, createJointPmf net = .ok pmf ∧
    (pmf.probabilities.map Prod.snd).sum = 1 := by
  obtain ⟨net, e⟩ := exNodes_finalize
  obtain ⟨pmf, h1, _, _, _, _, h2⟩ := joint_pmf_is_chain_rule exNodes exNodes_wf net e
  exact ⟨net, e, pmf, h1, (h2 exNodes_normalised).2⟩

/-- C36 through `p` on the example: P(0=9, 1=7, 2=9) = 3/4 * 1/3 * 1. -/
example : ∃ net, finalize { nodes := exNodes } = .ok net ∧ ∃ pmf, createJointPmf net = .ok pmf ∧
    pmf.p [.atom 1, .atom 0, .atom 1] = 1/4 := by
  obtain ⟨net, e⟩ := exNodes_finalize
  obtain ⟨pmf, h1, h2⟩ := joint_pmf_p exNodes exNodes_wf net e (by decide)
  refine ⟨net, e, pmf, h1, ?_⟩
  rw [h2 (fun v => if v = 1 then 7 else 9) (by intro n hn; revert n; decide) _ (by decide +kernel)]
  decide +kernel

/-- C37 on the example: the variables 0 and 2, of which 1 is an ancestor. -/
example : ∃ net, finalize { nodes := exNodes } = .ok net ∧
    ∃ full pmf, createJointPmf net = .ok full ∧ createPartialJointPmf id net [2, 0] = .ok pmf ∧
      pmf.variableIDs = full.variableIDs.filter (fun i => i ∈ [2, 0]) := by
  obtain ⟨net, e⟩ := exNodes_finalize
  have hI := indexed_of_finalize exNodes_wf exNodes_noIDs e
  have hlen : net.nodes.length = 3 := by
    obtain ⟨f, hn, _⟩ := (finalize_unique exNodes_wf e).nodes_eq
    rw [hn]; rfl
  obtain ⟨full, pmf, h1, h2, h3, _⟩ := partial_joint_is_marginal exNodes exNodes_wf
    exNodes_normalised exNodes_noIDs net e id (fun l => List.Perm.refl l) [2, 0]
    (by intro i hi; rw [hlen]; revert i; decide) (by
      intro n _ _ hall
      have h1 := hall 2 (by simp)
      have h2 := hall 0 (by simp)
      omega)
  exact ⟨net, e, full, pmf, h1, h2, h3⟩

/-- C38 on the example: every roll gives a sample. -/
example (rolls : Nat → ℚ) (h : ∀ k, rolls k ≤ 1) : ∃ net, finalize { nodes := exNodes } = .ok net ∧
    ∃ s, sample net rolls = .ok s ∧ s.map Prod.fst = net.nodeOrder := by
  obtain ⟨net, e⟩ := exNodes_finalize
  obtain ⟨s, a, h1, h2, _⟩ := sample_ok exNodes exNodes_wf exNodes_normalised net e rolls h
  exact ⟨net, e, s, h1, h2⟩

/-- The distribution of the samples on the example. -/
example : ∃ net, finalize { nodes := exNodes } = .ok net ∧
    MeasureTheory.volume {u : Fin exNodes.length → ℝ | (∀ i, 0 ≤ u i ∧ u i ≤ 1) ∧
        ∃ s, sample net (rollsOf u) = .ok s ∧ ∀ n ∈ exNodes, dictGet s n.name = some 7} =
      ENNReal.ofReal ((jointProb exNodes (fun _ => 7) : ℚ) : ℝ) := by
  obtain ⟨net, e⟩ := exNodes_finalize
  exact ⟨net, e, sample_distribution exNodes exNodes_wf exNodes_normalised net e (fun _ => 7)
    (by intro n hn; revert n; decide)⟩

/-! ## Findings -/

deriving instance DecidableEq for PMF

/-- **Finding (C36).** The joint PMF of a network with a single variable cannot be queried: its
keys are one-element tuples, which `p` never looks up, so every probability reads as `0`. -/
theorem joint_pmf_single_variable_unreachable (n : Node ν β) (h : WellFormed [n]) (net : Net ν β)
    (e : finalize { nodes := [n] } = .ok net) [Nonempty β] :
    ∃ pmf, createJointPmf net = .ok pmf ∧ ∀ args, pmf.p args = 0 := by
  obtain ⟨pmf, hp, _, _, _, hkeys, _⟩ := joint_pmf_is_chain_rule [n] h net e
  refine ⟨pmf, hp, ?_⟩
  intro args
  unfold PMF.p
  cases hg : dictGet pmf.probabilities (processPmfKey args) with
  | none => rfl
  | some x =>
    exfalso
    obtain ⟨a, _, hk, _⟩ := hkeys _ _ (dictGet_mem hg)
    rw [processPmfKey_eq] at hk
    have hlen : (indices [n] a).length = 1 := by simp [indices]
    match hl : leavesAll args with
    | [] =>
      rw [hl] at hk
      have : [] = indices [n] a := by simpa [mkKey] using hk
      rw [← this] at hlen
      simp at hlen
    | [v] => rw [hl] at hk; cases hk
    | v :: w :: l =>
      rw [hl] at hk
      have : (v :: w :: l) = indices [n] a := by simpa [mkKey] using hk
      rw [← this] at hlen
      simp at hlen

/-- A single fair coin. (Example.) -/
def exCoin : Node Nat Nat :=
  { name := 0, values := [7, 9], parents := [], probabilities := [(.unconditioned, [1/2, 1/2])] }

theorem exCoin_wf : WellFormed [exCoin] :=
  wellFormed_of_check (l := [0]) (by decide) (by decide +kernel) (by decide) (by decide +kernel)
    (by decide +kernel)

/-- The hypotheses of the finding are met by a fair coin. -/
example : ∃ net, finalize { nodes := [exCoin] } = .ok net ∧
    ∃ pmf, createJointPmf net = .ok pmf ∧ pmf.p [.atom 0] = 0 := by
  obtain ⟨net, e, _⟩ := finalize_ok exCoin_wf
  obtain ⟨pmf, h1, h2⟩ := joint_pmf_single_variable_unreachable exCoin exCoin_wf net e
  exact ⟨net, e, pmf, h1, h2 _⟩

/-- **Finding (C37).** The same happens to the partial joint PMF of one variable without
parents of a larger network, which is why `partial_joint_is_marginal` excludes it. -/
theorem partial_pmf_of_root_unreachable :
    (do let net ← finalize { nodes := exNodes }
        let pmf ← createPartialJointPmf id net [1]
        let full ← createJointPmf net
        let m ← sumOverAll [0, 2] full
        .ok (pmf.p [.atom 0], m.p [.atom 0])) = .ok (0, (1/3 : ℚ)) := by decide +kernel

section roll
variable {K : Type} [Field K] [LinearOrder K] [IsStrictOrderedRing K]

theorem sampleRoll_none (ps : List ℚ) (h : ∀ p ∈ ps, 0 ≤ p) (s : ℚ) (u : K)
    (hu : ((s + ps.sum : ℚ) : K) < u) : sampleRoll u (accumulate s ps) = none := by
  induction ps generalizing s with
  | nil => rfl
  | cons p ps ih =>
    have hps : ∀ q ∈ ps, 0 ≤ q := fun q hq => h q (by simp [hq])
    have h0 : (0 : ℚ) ≤ ps.sum := List.sum_nonneg hps
    rw [List.sum_cons] at hu
    have h1 : ((s + p : ℚ) : K) < u :=
      lt_of_le_of_lt (by exact_mod_cast (by linarith : s + p ≤ s + (p + ps.sum))) hu
    simp only [accumulate, sampleRoll]
    rw [if_neg (not_le.2 h1), ih hps (s + p) (by rw [add_assoc]; exact hu)]
    rfl

/-- **Finding (C38).** A row that adds up to less than 1 (such as `0.333 + 0.333 + 0.333`, or
`0.1` ten times in floating point) makes sampling fail with a `TypeError` whenever the random
number exceeds the total of the row. -/
theorem roll_beyond_total_is_typeError (n : Node ν β) (s : List (ν × β)) (row_ : List ℚ) (u : K)
    (hname : n.name ∉ s.map Prod.fst) (hroot : n.parents = [])
    (hcum : n.cumulative = cumulativeOf n.probabilities)
    (hrow : dictGet n.probabilities .unconditioned = some row_) (hnn : ∀ p ∈ row_, 0 ≤ p)
    (hu : ((row_.sum : ℚ) : K) < u) (recursive : Bool) :
    nodeSample n s recursive u = .error .typeError := by
  unfold nodeSample
  rw [if_neg hname]
  have hk : conditioningKey n s recursive = .ok .unconditioned := by
    unfold conditioningKey; rw [if_pos hroot]
  rw [hk]
  show (probdistSample n .unconditioned u >>= _) = _
  have : probdistSample n .unconditioned u = .ok none := by
    unfold probdistSample
    rw [hcum, dictGet_cumulativeOf, hrow]
    simp only [Option.map_some]
    rw [sampleRoll_none row_ hnn 0 u (by rwa [zero_add])]
  rw [this]
  rfl

end roll

/-- A row of three times 0.333. (Example.) -/
def exThirds : List (CondKey Nat × List ℚ) :=
  [(.unconditioned, [333/1000, 333/1000, 333/1000])]

/-- A row of three times 0.333 and the roll 0.9995. -/
example : nodeSample (K := ℚ) (⟨0, [7, 8, 9], [], exThirds, -1, cumulativeOf exThirds, []⟩ :
      Node Nat Nat) [] false (9995/10000) =
    .error .typeError :=
  roll_beyond_total_is_typeError _ _ [333/1000, 333/1000, 333/1000] _ (by simp) rfl rfl rfl
    (by decide +kernel) (by norm_num) _

/-- **Finding (C38).** If the first declared value has probability 0, a random number equal to
`0.0` (which `random.random()` can return) selects it nevertheless. -/
theorem zero_roll_selects_impossible_value (ps : List ℚ) :
    sampleRoll (0 : ℚ) (accumulate 0 (0 :: ps)) = some 0 := by
  simp [accumulate, sampleRoll]

/-- **Finding (C38).** Recursive sampling of a variable with a parent not sampled yet fails
with an `AttributeError`, on every such input. -/
theorem recursive_sample_attributeError {K : Type} [Field K] [LinearOrder K] (n : Node ν β)
    (s : List (ν × β)) (hname : n.name ∉ s.map Prod.fst) (p : ν) (hp : p ∈ n.parents)
    (hps : p ∉ s.map Prod.fst) (u : K) :
    nodeSample n s true u = .error .attributeError := by
  unfold nodeSample
  rw [if_neg hname]
  have : conditioningKey n s true = .error .attributeError := by
    unfold conditioningKey
    rw [if_neg (List.ne_nil_of_mem hp), if_pos ⟨rfl, p, hp, hps⟩]
  rw [this]
  rfl

/-- The hypotheses are met by variable 0 of the example network, nothing sampled. -/
example : nodeSample (K := ℚ) exNodes[0] [] true 0 = .error .attributeError :=
  recursive_sample_attributeError _ _ (by simp) 1 (by decide) (by simp) _

/-- **Finding (C36).** Finalizing twice breaks the network: the sampling order then lists every
variable twice and the recursion that builds the joint PMF never ends. -/
theorem finalize_twice_breaks_joint_pmf :
    (do let net ← finalize { nodes := exNodes }
        let net2 ← finalize net
        createJointPmf net2) = .error .recursion := by decide +kernel

/-- Variables 0 and 1 without parents, 2 with the parent 1. (Example.) -/
def exSub : List (Node Nat Nat) :=
  [{ name := 0, values := [7, 9], parents := [], probabilities := [(.unconditioned, [1/2, 1/2])] },
   { name := 1, values := [7, 9], parents := [], probabilities := [(.unconditioned, [1/3, 2/3])] },
   { name := 2, values := [7, 9], parents := [1],
     probabilities := [(.values [7], [1/4, 3/4]), (.values [9], [1, 0])] }]

/-- **Finding (C37).** Partial PMFs of a subnetwork fail: the nodes of a subnetwork keep the IDs
of the original network, while parents are looked up by their position in the subnetwork. -/
theorem partial_pmf_of_subnetwork_keyError :
    (do let net ← finalize { nodes := exSub }
        let sub ← getSubnetwork id net [2]
        createPartialJointPmf id sub [2]) = .error .keyError := by decide +kernel

end Mbtk.BN
