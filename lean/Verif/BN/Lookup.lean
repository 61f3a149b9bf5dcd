import Verif.Props.BNProps
import Verif.Exp.GtestEnum
import Mathlib.Data.Set.Card
/-!
# Looking up nodes, sizes of a network, equality and copies of distributions (C104)

`get_nodes_by_name`, `get_nodes_by_ID`, `variable_nodes_index`, `variable_nodes_name`, `len`,
`total_possible_values_count`, `calculate_joint_pmf_size`, and `__eq__` and `copy` of
`ProbabilityDistributionOfVariableNode`.  The caches of the `functools.cache` methods are those of C91
and are left out here.
-/
namespace Mbtk.BN
open Spec Stats
open Mbtk.Exp.GtestEnum (dictEq dictEq_of_get)
variable {ν β : Type} [LinearOrder ν] [DecidableEq β]

/-! ## Model -/

/-- `nodes[node.ID] = node` for every name: BayesianNetwork.py 252-257. -/
def byNameLoop (nodes : List (Node ν β)) (d : List (Int × Node ν β)) : List ν → Except Err (List (Int × Node ν β))
  | [] => .ok d
  | v :: vs => match getNode nodes v with
    | .error e => .error e
    | .ok n => byNameLoop nodes (dictSet d n.id n) vs

/-- `get_nodes_by_name(node_names)`: BayesianNetwork.py 251-257. -/
def getNodesByName (net : Net ν β) (wanted : List ν) : Except Err (List (Int × Node ν β)) :=
  byNameLoop net.nodes [] wanted

/-- `nodes[node.ID] = node` for every ID: BayesianNetwork.py 262-267. -/
def byIDLoop (net : Net ν β) (d : List (Int × Node ν β)) : List Int → Except Err (List (Int × Node ν β))
  | [] => .ok d
  | i :: is => match nodeByID net i with
    | .error e => .error e
    | .ok n => byIDLoop net (dictSet d n.id n) is

/-- `get_nodes_by_ID(node_IDs)`: BayesianNetwork.py 260-267. -/
def getNodesByID (net : Net ν β) (wanted : List Int) : Except Err (List (Int × Node ν β)) :=
  requireFinal net (byIDLoop net [] wanted)

/-- `variable_nodes_name(ID)`: BayesianNetwork.py 60-62. -/
def nodesName (net : Net ν β) (i : Int) : Except Err ν :=
  match nodeByID net i with
  | .error e => .error e
  | .ok n => .ok n.name

/-- `len(network)`: BayesianNetwork.py 65-66. -/
def netLen (net : Net ν β) : Nat := net.nodes.length

/-- `total_possible_values_count()`: BayesianNetwork.py 270-274. -/
def totalPossibleValuesCount (net : Net ν β) : Nat :=
  net.nodes.foldl (fun count n => count * n.values.length) 1

/-- `calculate_joint_pmf_size()`: BayesianNetwork.py 143-147. -/
def calculateJointPmfSize (net : Net ν β) : Nat :=
  net.nodes.foldl (fun size n => size * n.values.length) 1

/-- A `ProbabilityDistributionOfVariableNode` as an object: BayesianNetwork.py 652-665.  `variable` is the
name of the node it refers to, if any; `variableName = none` stands for the empty string.
`properties` are left out. -/
structure Dist (ν β : Type) where
  variable_ : Option ν
  variableName : Option ν
  probabilities : List (CondKey β × List ℚ)
  indexed : List (List Nat × List ℚ)
  conditioning : List ν
  cumulative : List (CondKey β × List ℚ)

/-- `ProbabilityDistributionOfVariableNode(variable)` with a node or `None`: BayesianNetwork.py 652-665. -/
def Dist.new (var : Option ν) : Dist ν β := ⟨var, var, [], [], [], []⟩

/-- `copy()`: BayesianNetwork.py 712-727. -/
def Dist.copy (d : Dist ν β) : Dist ν β :=
  { (Dist.new d.variable_ : Dist ν β) with
    probabilities := d.probabilities, cumulative := d.cumulative, conditioning := d.conditioning }

/-- The loop over the pairs of conditioning variables, which are the names: a string has no attribute
`values`, so the comparison raises `AttributeError`, unless `and` does not come to it.
BayesianNetwork.py 680-681. -/
def eqLoop (eqProbabilities : Bool) : List (ν × ν) → Except Err Bool
  | [] => .ok eqProbabilities
  | _ :: rest => if eqProbabilities then .error .attributeError else eqLoop false rest

/-- `__eq__`: BayesianNetwork.py 668-683. -/
def Dist.eq (a b : Dist ν β) : Except Err Bool :=
  let eqP := dictEq a.probabilities b.probabilities
  if a.conditioning.length ≠ b.conditioning.length then .ok (eqP && false)
  else match eqLoop eqP (a.conditioning.zip b.conditioning) with
    | .error e => .error e
    | .ok b => .ok (b && true)

/-! ## Looking up nodes -/

theorem byNameLoop_ok (net : Net ν β) (hu : UniqueNames net.nodes)
    (hid : ∀ n ∈ net.nodes, ∀ m ∈ net.nodes, n.id = m.id → n = m) (wanted : List ν)
    (hw : ∀ v ∈ wanted, v ∈ net.nodes.map (·.name)) (d : List (Int × Node ν β))
    (hd : ∀ i n, dictGet d i = some n → n ∈ net.nodes ∧ n.id = i) :
    ∃ d', byNameLoop net.nodes d wanted = .ok d' ∧ ∀ i n, dictGet d' i = some n ↔
      dictGet d i = some n ∨ (n ∈ net.nodes ∧ n.name ∈ wanted ∧ n.id = i) := by
  induction wanted generalizing d with
  | nil => exact ⟨d, rfl, fun i n => by simp⟩
  | cons v vs ih =>
    obtain ⟨n, hn, rfl, hg⟩ := getNode_known (hw v (by simp))
    obtain ⟨d', h1, h2⟩ := ih (fun w h => hw w (by simp [h])) (dictSet d n.id n) (by
      intro i m h
      rw [dictGet_dictSet] at h
      split at h
      · rename_i e; cases h; exact ⟨hn, e⟩
      · exact hd i m h)
    refine ⟨d', ?_, fun i m => ?_⟩
    · unfold byNameLoop; rw [hg]; exact h1
    · rw [h2, dictGet_dictSet]
      by_cases e : n.id = i
      · rw [if_pos e]
        constructor
        · rintro (h | ⟨h3, h4, h5⟩)
          · cases h; exact .inr ⟨hn, by simp, e⟩
          · exact .inr ⟨h3, by simp [h4], h5⟩
        · rintro (h | ⟨h3, _, h5⟩)
          · have := hd i m h
            exact .inl (by rw [hid n hn m this.1 (by rw [e, this.2])])
          · exact .inl (by rw [hid n hn m h3 (by rw [e, h5])])
      · rw [if_neg e]
        constructor
        · rintro (h | ⟨h3, h4, h5⟩)
          · exact .inl h
          · exact .inr ⟨h3, by simp [h4], h5⟩
        · rintro (h | ⟨h3, h4, h5⟩)
          · exact .inl h
          · rcases List.mem_cons.1 h4 with h6 | h6
            · have := unique_node hu h3 hn h6
              rw [this] at h5
              exact absurd h5 e
            · exact .inr ⟨h3, h6, h5⟩

theorem indexed_id_inj {net : Net ν β} (h : IndexedNet net) {n m : Node ν β} (hn : n ∈ net.nodes)
    (hm : m ∈ net.nodes) (e : n.id = m.id) : n = m := by
  rw [h.id_eq n hn, h.id_eq m hm] at e
  have e' : (names net.nodes).idxOf n.name = (names net.nodes).idxOf m.name := by exact_mod_cast e
  have hmem : n.name ∈ names net.nodes := mem_names.2 (List.mem_map_of_mem hn)
  exact unique_node h.wf.unique hn hm ((List.idxOf_inj hmem).1 e')

theorem nodeByID_ok {net : Net ν β} (h : IndexedNet net) {n : Node ν β} (hn : n ∈ net.nodes) :
    nodeByID net n.id = .ok n := by
  unfold nodeByID
  rw [h.byID n hn]
  exact getNode_mem h.wf.unique hn

theorem byIDLoop_ok (net : Net ν β) (h : IndexedNet net) (wanted : List Int)
    (hw : ∀ i ∈ wanted, ∃ n ∈ net.nodes, n.id = i) (d : List (Int × Node ν β))
    (hd : ∀ i n, dictGet d i = some n → n ∈ net.nodes ∧ n.id = i) :
    ∃ d', byIDLoop net d wanted = .ok d' ∧ ∀ i n, dictGet d' i = some n ↔
      dictGet d i = some n ∨ (n ∈ net.nodes ∧ n.id ∈ wanted ∧ n.id = i) := by
  induction wanted generalizing d with
  | nil => exact ⟨d, rfl, fun i n => by simp⟩
  | cons v vs ih =>
    obtain ⟨n, hn, rfl⟩ := hw v (by simp)
    have hg := nodeByID_ok h hn
    obtain ⟨d', h1, h2⟩ := ih (fun w hw' => hw w (by simp [hw'])) (dictSet d n.id n) (by
      intro i m h
      rw [dictGet_dictSet] at h
      split at h
      · rename_i e; cases h; exact ⟨hn, e⟩
      · exact hd i m h)
    refine ⟨d', ?_, fun i m => ?_⟩
    · unfold byIDLoop; rw [hg]; exact h1
    · rw [h2, dictGet_dictSet]
      by_cases e : n.id = i
      · rw [if_pos e]
        constructor
        · rintro (h' | ⟨h3, h4, h5⟩)
          · cases h'; exact .inr ⟨hn, by simp, e⟩
          · exact .inr ⟨h3, by simp [h4], h5⟩
        · rintro (h' | ⟨h3, _, h5⟩)
          · have := hd i m h'
            exact .inl (by rw [indexed_id_inj h hn this.1 (by rw [e, this.2])])
          · exact .inl (by rw [indexed_id_inj h hn h3 (by rw [e, h5])])
      · rw [if_neg e]
        constructor
        · rintro (h' | ⟨h3, h4, h5⟩)
          · exact .inl h'
          · exact .inr ⟨h3, by simp [h4], h5⟩
        · rintro (h' | ⟨h3, h4, h5⟩)
          · exact .inl h'
          · rcases List.mem_cons.1 h4 with h6 | h6
            · exact absurd (h6.symm.trans h5) e
            · exact .inr ⟨h3, h6, h5⟩

/-- **C104.**  In a finalized network the ID of a node is the position of its name among the sorted names,
`variable_nodes_name` is the inverse of `variable_nodes_index`, and `get_nodes_by_name` and
`get_nodes_by_ID` return exactly the requested nodes, each under its ID. -/
theorem lookups_exact (nodes : List (Node ν β)) (h : WellFormed nodes) (hid : NoIDs nodes) (net : Net ν β)
    (e : finalize { nodes := nodes } = .ok net) :
    netLen net = nodes.length ∧
    (∀ n ∈ net.nodes, ∃ i : Nat, i < nodes.length ∧ nodesIndex net.nodes n.name = .ok i ∧ n.id = i ∧
      ((nodes.map (·.name)).countP (· < n.name)) = i ∧ nodesName net i = .ok n.name) ∧
    (∀ wanted, (∀ v ∈ wanted, v ∈ nodes.map (·.name)) → ∃ d, getNodesByName net wanted = .ok d ∧
      ∀ i n, dictGet d i = some n ↔ n ∈ net.nodes ∧ n.name ∈ wanted ∧ n.id = i) ∧
    (∀ wanted : List Int, (∀ i ∈ wanted, 0 ≤ i ∧ i < nodes.length) → ∃ d, getNodesByID net wanted = .ok d ∧
      ∀ i n, dictGet d i = some n ↔ n ∈ net.nodes ∧ i ∈ wanted ∧ n.id = i) := by
  have hi := indexed_of_finalize h hid e
  have hf := finalize_unique h e
  obtain ⟨f, hn, hfs⟩ := hf.nodes_eq
  have hsd : ∀ n ∈ nodes, SameDecl n (f n) := fun n hn => (hfs n hn).1
  have hnames : net.nodes.map (·.name) = nodes.map (·.name) := by rw [hn]; exact map_names hsd
  have hlen : net.nodes.length = nodes.length := by rw [hn]; simp
  have hidlt : ∀ n ∈ net.nodes, (names net.nodes).idxOf n.name < nodes.length := by
    intro n hn'
    have := List.idxOf_lt_length_of_mem (mem_names.2 (List.mem_map_of_mem (f := (·.name)) hn'))
    rw [(names_perm net.nodes).length_eq, List.length_map, hlen] at this
    exact this
  have hsome : ∀ i : Int, 0 ≤ i ∧ i < nodes.length → ∃ n ∈ net.nodes, n.id = i := by
    rintro i ⟨h0, h1⟩
    have hl : i.toNat < (names net.nodes).length := by
      rw [(names_perm net.nodes).length_eq, List.length_map, hlen]; omega
    have hm : (names net.nodes)[i.toNat] ∈ net.nodes.map (·.name) := mem_names.1 (List.getElem_mem hl)
    obtain ⟨n, hn', he⟩ := List.mem_map.1 hm
    refine ⟨n, hn', ?_⟩
    rw [hi.id_eq n hn', he, List.Nodup.idxOf_getElem ((names_perm net.nodes).nodup_iff.2 hi.wf.unique)]
    omega
  refine ⟨hlen, fun n hn' => ⟨(names net.nodes).idxOf n.name, hidlt n hn', ?_, hi.id_eq n hn', ?_, ?_⟩, ?_, ?_⟩
  · unfold nodesIndex indexOf
    rw [if_pos (mem_names.2 (List.mem_map_of_mem hn'))]
  · rw [← hnames, ← (names_perm net.nodes).countP_eq]
    have hs : (names net.nodes).Pairwise (· < ·) := by
      have h1 : (names net.nodes).Pairwise (· ≤ ·) := List.pairwise_insertionSort _ _
      have h2 : (names net.nodes).Nodup := (names_perm net.nodes).nodup_iff.2 hi.wf.unique
      exact (h1.and h2).imp (fun h => lt_of_le_of_ne h.1 h.2)
    have hm : n.name ∈ names net.nodes := mem_names.2 (List.mem_map_of_mem hn')
    generalize names net.nodes = l at hs hm
    induction l with
    | nil => simp at hm
    | cons a l ih =>
      obtain ⟨h1, h2⟩ := List.pairwise_cons.1 hs
      rcases List.mem_cons.1 hm with h3 | h3
      · rw [h3, List.idxOf_cons_self, List.countP_cons_of_neg (by simp), List.countP_eq_zero]
        intro b hb
        simpa using le_of_lt (h1 b hb)
      · have h4 := h1 _ h3
        rw [List.countP_cons_of_pos (by simpa using h4), ih h2 h3, List.idxOf_cons_ne _ (ne_of_lt h4)]
  · unfold nodesName
    rw [← hi.id_eq n hn', nodeByID_ok hi hn']
  · intro wanted hw
    obtain ⟨d, h1, h2⟩ := byNameLoop_ok net hi.wf.unique (fun n hn m hm => indexed_id_inj hi hn hm) wanted
      (by rw [hnames]; exact hw) [] (by intro i n h; simp [dictGet] at h)
    exact ⟨d, h1, fun i n => by rw [h2]; simp [dictGet]⟩
  · intro wanted hw
    obtain ⟨d, h1, h2⟩ := byIDLoop_ok net hi wanted (fun i h => hsome i (hw i h)) []
      (by intro i n h; simp [dictGet] at h)
    refine ⟨d, ?_, fun i n => ?_⟩
    · unfold getNodesByID requireFinal
      rw [if_pos hi.finalized]
      exact h1
    · rw [h2]
      simp only [dictGet, reduceCtorEq, false_or]
      constructor
      · rintro ⟨a, b, c⟩; exact ⟨a, c ▸ b, c⟩
      · rintro ⟨a, b, c⟩; exact ⟨a, by rw [c]; exact b, c⟩

/-- **C104.**  An unknown name raises `KeyError`, finalized or not. -/
theorem nodes_by_name_unknown (net : Net ν β) (wanted : List ν)
    (hw : ∃ v ∈ wanted, v ∉ net.nodes.map (·.name)) : getNodesByName net wanted = .error .keyError := by
  unfold getNodesByName
  generalize ([] : List (Int × Node ν β)) = d
  induction wanted generalizing d with
  | nil => obtain ⟨v, hv, -⟩ := hw; simp at hv
  | cons w ws ih =>
    unfold byNameLoop
    by_cases hk : w ∈ net.nodes.map (·.name)
    · obtain ⟨n, -, -, hg⟩ := getNode_known hk
      rw [hg]
      refine ih ?_ _
      obtain ⟨v, hv, hn⟩ := hw
      rcases List.mem_cons.1 hv with rfl | hv
      · exact absurd hk hn
      · exact ⟨v, hv, hn⟩
    · have hg : getNode net.nodes w = .error .keyError := by
        unfold getNode
        rw [List.find?_eq_none.2]
        intro n hn
        simp only [decide_eq_true_eq]
        rintro rfl
        exact hk (List.mem_map_of_mem hn)
      rw [hg]

/-- **C104 (finding).**  Before `finalize()` all nodes have the ID -1, so `get_nodes_by_name` returns only
the last of the requested nodes. -/
theorem nodes_by_name_unfinalized (nodes : List (Node ν β)) (hu : UniqueNames nodes) (hid : NoIDs nodes)
    (wanted : List ν) (n : Node ν β) (hn : n ∈ nodes) (hw : ∀ v ∈ wanted, v ∈ nodes.map (·.name)) :
    getNodesByName { nodes := nodes } (wanted ++ [n.name]) = .ok [(-1, n)] := by
  unfold getNodesByName
  have aux : ∀ (wanted : List ν) (d : List (Int × Node ν β)), (d = [] ∨ ∃ m, d = [(-1, m)]) →
      (∀ v ∈ wanted, v ∈ nodes.map (·.name)) → byNameLoop nodes d (wanted ++ [n.name]) = .ok [(-1, n)] := by
    intro wanted
    induction wanted with
    | nil =>
      intro d hd _
      show byNameLoop nodes d [n.name] = _
      unfold byNameLoop
      rw [getNode_mem hu hn]
      simp only [hid n hn]
      rcases hd with rfl | ⟨m, rfl⟩
      · rfl
      · rfl
    | cons v vs ih =>
      intro d hd hw
      obtain ⟨m, hm, -, hg⟩ := getNode_known (hw v (by simp))
      show byNameLoop nodes d (v :: (vs ++ [n.name])) = _
      unfold byNameLoop
      rw [hg]
      simp only [hid m hm]
      refine ih _ (.inr ⟨m, ?_⟩) (fun w h => hw w (by simp [h]))
      rcases hd with rfl | ⟨k, rfl⟩
      · rfl
      · rfl
  exact aux wanted [] (.inl rfl) hw

/-! ## Sizes -/

omit [DecidableEq β] [LinearOrder ν] in
theorem foldl_mul (l : List (Node ν β)) (c : Nat) :
    l.foldl (fun count n => count * n.values.length) c = c * (l.map (fun n => n.values.length)).prod := by
  induction l generalizing c with
  | nil => simp
  | cons n l ih => rw [List.foldl_cons, ih, List.map_cons, List.prod_cons, Nat.mul_assoc]

theorem branches_length (ns : List (Node ν β)) (a : ν → β) (p : ℚ) :
    (branches ns a p).length = (ns.map (fun n => n.values.length)).prod := by
  induction ns generalizing a p with
  | nil => rfl
  | cons n ns ih =>
    simp only [branches, List.length_flatMap, ih, List.map_cons, List.prod_cons]
    simp

/-- **C104.**  `total_possible_values_count()` and the size that `finalize()` stores are the number of
combinations of declared values (as rows of value positions), and `create_joint_pmf()` has that many
entries. -/
theorem sizes_exact (nodes : List (Node ν β)) (h : WellFormed nodes) (net : Net ν β)
    (e : finalize { nodes := nodes } = .ok net) [Nonempty β] :
    totalPossibleValuesCount net = Set.ncard {r | ∃ a, Assignment nodes a ∧ r = indices nodes a} ∧
    calculateJointPmfSize net = totalPossibleValuesCount net ∧ 0 < totalPossibleValuesCount net ∧
    ∃ pmf, createJointPmf net = .ok pmf ∧ pmf.probabilities.length = totalPossibleValuesCount net := by
  have hf := finalize_unique h e
  obtain ⟨f, hn, hfs⟩ := hf.nodes_eq
  have hsd : ∀ n ∈ nodes, SameDecl n (f n) := fun n hn => (hfs n hn).1
  let a0 : ν → β := fun _ => Classical.arbitrary β
  have hpmf := createJointPmf_ok h hf a0
  obtain ⟨pmf, h1, -, h3, h4, h5, -⟩ := joint_pmf_is_chain_rule nodes h net e
  have hu : UniqueNames net.nodes := by
    unfold UniqueNames; rw [hn, map_names hsd]; exact h.unique
  have hto : TopologicalOrder net.nodes net.nodeOrder := by
    rw [hn]; exact topologicalOrder_map hsd hf.order
  have hperm := pickNodes_perm hu hto.perm
  have hlen : pmf.probabilities.length = totalPossibleValuesCount net := by
    rw [hpmf] at h1
    cases h1
    unfold totalPossibleValuesCount
    rw [List.length_map, branches_length, foldl_mul, one_mul]
    exact (hperm.map _).prod_eq
  refine ⟨?_, rfl, ?_, pmf, h1, hlen⟩
  · rw [← hlen]
    have e1 : (pmf.probabilities.map Prod.fst).toFinset =
        ((fun r => Key.tup r) '' {r | ∃ a, Assignment nodes a ∧ r = indices nodes a}) := by
      ext k
      simp only [List.coe_toFinset, List.mem_map, Set.mem_ofPred_eq, Set.mem_image]
      constructor
      · rintro ⟨⟨k, p⟩, hp, rfl⟩
        obtain ⟨a, ha, rfl, -⟩ := h5 k p hp
        exact ⟨_, ⟨a, ha, rfl⟩, rfl⟩
      · rintro ⟨r, ⟨a, ha, rfl⟩, rfl⟩
        exact ⟨_, dictGet_mem (h4 a ha), rfl⟩
    have e2 : Set.ncard ((fun r => Key.tup r) '' {r | ∃ a, Assignment nodes a ∧ r = indices nodes a}) =
        Set.ncard {r | ∃ a, Assignment nodes a ∧ r = indices nodes a} :=
      Set.ncard_image_of_injective _ (fun x y hxy => by cases hxy; rfl)
    rw [← e2, ← e1, Set.ncard_coe_finset, List.toFinset_card_of_nodup h3, List.length_map]
  · unfold totalPossibleValuesCount
    rw [foldl_mul, one_mul]
    apply Nat.pos_of_ne_zero
    intro hz
    rw [List.prod_eq_zero_iff] at hz
    obtain ⟨n, hn', he⟩ := List.mem_map.1 hz
    rw [hn] at hn'
    obtain ⟨m, hm, rfl⟩ := List.mem_map.1 hn'
    rw [(hsd m hm).values] at he
    exact (h.values m hm).2 (List.length_eq_zero_iff.1 he)

/-! ## Equality and copies -/

theorem dictEq_iff {κ τ : Type} [DecidableEq κ] [DecidableEq τ] {d e : List (κ × τ)}
    (hd : (d.map Prod.fst).Nodup) (he : (e.map Prod.fst).Nodup) :
    dictEq d e = true ↔ ∀ k, dictGet d k = dictGet e k := by
  refine ⟨fun h k => ?_, dictEq_of_get hd he⟩
  unfold dictEq at h
  simp only [Bool.and_eq_true, beq_iff_eq, List.all_eq_true] at h
  obtain ⟨hl, hall⟩ := h
  have hsub : (d.map Prod.fst) ⊆ (e.map Prod.fst) := by
    intro x hx
    obtain ⟨p, hp, rfl⟩ := List.mem_map.1 hx
    by_contra hn
    exact absurd (hall p hp) (by simp [(dictGet_none_iff e p.1).2 hn])
  cases hk : dictGet d k with
  | some v => exact (hall _ (dictGet_mem hk)).symm
  | none =>
    have hnd := (dictGet_none_iff _ _).1 hk
    symm
    rw [dictGet_none_iff]
    intro hm
    have hperm : (d.map Prod.fst).Perm (e.map Prod.fst) :=
      (List.subperm_of_subset hd hsub).perm_of_length_le (by simp [hl])
    exact hnd (hperm.mem_iff.2 hm)

omit [LinearOrder ν] in
/-- **C104.**  `==` of two distributions: with different numbers of conditioning variables it is `False`; of two
unconditioned ones it is `True` exactly if the tables have the same entries; of two with the same
number (not 0) of conditioning variables it is `False` if the tables differ, and otherwise raises
`AttributeError`.  So it never answers that two conditioned distributions are equal. -/
theorem distribution_eq_exact (a b : Dist ν β) (ha : (a.probabilities.map Prod.fst).Nodup)
    (hb : (b.probabilities.map Prod.fst).Nodup) :
    (a.conditioning.length ≠ b.conditioning.length → a.eq b = .ok false) ∧
    (a.conditioning = [] → b.conditioning = [] → ∃ r, a.eq b = .ok r ∧
      (r = true ↔ ∀ k, dictGet a.probabilities k = dictGet b.probabilities k)) ∧
    (a.conditioning.length = b.conditioning.length → a.conditioning ≠ [] →
      (¬ (∀ k, dictGet a.probabilities k = dictGet b.probabilities k) → a.eq b = .ok false) ∧
      ((∀ k, dictGet a.probabilities k = dictGet b.probabilities k) → a.eq b = .error .attributeError)) := by
  have hiff := dictEq_iff ha hb
  refine ⟨fun h => ?_, fun h1 h2 => ?_, fun h1 h2 => ⟨fun h3 => ?_, fun h3 => ?_⟩⟩
  · unfold Dist.eq
    simp only []
    rw [if_pos h, Bool.and_false]
  · refine ⟨dictEq a.probabilities b.probabilities, ?_, hiff⟩
    unfold Dist.eq
    simp only []
    rw [if_neg (by rw [h1, h2]; simp), h1, h2]
    simp [eqLoop]
  · have hf : dictEq a.probabilities b.probabilities = false := by
      rw [← Bool.not_eq_true, hiff]; exact h3
    unfold Dist.eq
    simp only []
    rw [if_neg (by simpa using h1), hf]
    have : ∀ l : List (ν × ν), eqLoop false l = .ok false := by
      intro l
      induction l with
      | nil => rfl
      | cons x l ih => unfold eqLoop; simpa using ih
    rw [this]
    rfl
  · unfold Dist.eq
    simp only []
    rw [if_neg (by simpa using h1), hiff.2 h3]
    cases hc : a.conditioning with
    | nil => exact absurd hc h2
    | cons x xs =>
      cases hd : b.conditioning with
      | nil => rw [hc, hd] at h1; simp at h1
      | cons y ys => simp [eqLoop]

omit [LinearOrder ν] in
/-- **C104.**  A distribution conditioned on some variable cannot be compared with its copy, or with itself;
an unconditioned one equals its copy. -/
theorem distribution_eq_copy (a : Dist ν β) (ha : (a.probabilities.map Prod.fst).Nodup) :
    (a.conditioning = [] → a.eq a.copy = .ok true ∧ a.eq a = .ok true) ∧
    (a.conditioning ≠ [] → a.eq a.copy = .error .attributeError ∧ a.eq a = .error .attributeError) := by
  obtain ⟨-, h2, h3⟩ := distribution_eq_exact a a ha ha
  have e : a.eq a.copy = a.eq a := rfl
  rw [e]
  constructor
  · intro h
    obtain ⟨r, h4, h5⟩ := h2 h h
    rw [h5.2 (fun _ => rfl)] at h4
    exact ⟨h4, h4⟩
  · intro h
    have := (h3 rfl h).2 (fun _ => rfl)
    exact ⟨this, this⟩

/-- The node with the data of a distribution object: what sampling and the joint PMF read.
(Models no code: a notion for statements and proofs.) -/
def Node.withDist (n : Node ν β) (d : Dist ν β) : Node ν β :=
  { n with parents := d.conditioning, probabilities := d.probabilities, cumulative := d.cumulative,
           indexed := d.indexed }

/-- **C104.**  A node with a copy of its distribution samples the same values and reads the same
probabilities; and `finalize()` of a conditioned one makes the same node of it. -/
theorem copy_samples_same {K : Type} [Field K] [LinearOrder K] (n : Node ν β) (d : Dist ν β) :
    (∀ s recursive (roll : K), nodeSample (n.withDist d.copy) s recursive roll = nodeSample (n.withDist d) s recursive roll) ∧
    (∀ v k, probabilityOfValue (n.withDist d.copy) v k = probabilityOfValue (n.withDist d) v k) ∧
    (CondKey.unconditioned ∉ d.probabilities.map Prod.fst → ∀ nodes,
      finalizeNode nodes (n.withDist d.copy) = finalizeNode nodes (n.withDist d)) := by
  refine ⟨fun _ _ _ => rfl, fun _ _ => rfl, fun h nodes => ?_⟩
  unfold finalizeNode
  rw [if_neg (show CondKey.unconditioned ∉ (n.withDist d.copy).probabilities.map Prod.fst from h),
    if_neg (show CondKey.unconditioned ∉ (n.withDist d).probabilities.map Prod.fst from h)]
  rfl

omit [LinearOrder ν] [DecidableEq β] in
/-- **C104 (finding).**  But the table by value positions is not copied (until the next `finalize()`), and a
distribution made with a name instead of a node loses the name. -/
theorem copy_loses (d : Dist ν β) :
    d.copy.indexed = [] ∧ (d.variable_ = none → d.copy.variableName = none) := by
  refine ⟨rfl, fun h => ?_⟩
  unfold Dist.copy Dist.new
  rw [h]

/-! ## Concrete cases -/

/-- The hypotheses of `lookups_exact` and `sizes_exact`. -/
example : WellFormed exNodes ∧ NoIDs exNodes ∧ ∃ net, finalize { nodes := exNodes } = .ok net :=
  ⟨exNodes_wf, exNodes_noIDs, exNodes_finalize⟩

example : (finalize { nodes := exNodes }).toOption.map (fun net =>
    (totalPossibleValuesCount net, (getNodesByName net [2, 0]).toOption.map (fun d => d.map Prod.fst))) =
    some (8, some [2, 0]) := by decide +kernel

example : (getNodesByName { nodes := exNodes } [2, 0]).toOption.map (fun d => d.map (fun p => (p.1, p.2.name))) =
    some [(-1, 0)] := by decide +kernel

/-- Two unconditioned distributions with the same entries in another order, and a conditioned one.
(Example.) -/
def exDist (parents : List Nat) (rows : List (CondKey Nat × List ℚ)) : Dist Nat Nat :=
  ⟨some 0, some 0, rows, [], parents, []⟩

example : ((exDist [] [(.unconditioned, [1/2, 1/2])]).eq (exDist [] [(.unconditioned, [1/2, 1/2])])) = .ok true ∧
    ((exDist [] [(.unconditioned, [1/2, 1/2])]).eq (exDist [] [(.unconditioned, [1/3, 2/3])])) = .ok false ∧
    ((exDist [1] [(.values [7], [1/2, 1/2])]).eq (exDist [1] [(.values [7], [1/2, 1/2])])) =
      .error .attributeError ∧
    ((exDist [1] [(.values [7], [1/2, 1/2])]).eq (exDist [1] [(.values [7], [1/3, 2/3])])) = .ok false ∧
    ((exDist [1] [(.values [7], [1/2, 1/2])]).eq (exDist [] [(.values [7], [1/2, 1/2])])) = .ok false := by
  decide +kernel

end Mbtk.BN
