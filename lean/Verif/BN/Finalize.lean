import Verif.BN.Order
import Mathlib.Data.List.Forall2
/-!
# What `finalize` produces
-/
namespace Mbtk.BN
open Spec
variable {ν β : Type} [LinearOrder ν] [DecidableEq β]

/-- Two nodes declare the same variable.
(Models no code: a notion for statements and proofs.) -/
structure SameDecl (n m : Node ν β) : Prop where
  name : m.name = n.name
  values : m.values = n.values
  parents : m.parents = n.parents
  probabilities : m.probabilities = n.probabilities

theorem SameDecl.row {n m : Node ν β} (h : SameDecl n m) (pv : List β) : row m pv = row n pv := by
  unfold Spec.row; rw [h.probabilities]

theorem SameDecl.cpt {n m : Node ν β} (h : SameDecl n m) (pv : List β) (v : β) :
    cpt m pv v = cpt n pv v := by
  unfold Spec.cpt; rw [h.row, h.values]

section transport
variable {nodes : List (Node ν β)} {f : Node ν β → Node ν β} (hf : ∀ n ∈ nodes, SameDecl n (f n))
include hf

theorem map_names : (nodes.map f).map (·.name) = nodes.map (·.name) := by
  rw [List.map_map]; exact List.map_congr_left (fun n hn => (hf n hn).name)

theorem names_map : names (nodes.map f) = names nodes := by
  unfold names; rw [map_names hf]

theorem parentOf_map (p c : ν) : ParentOf (nodes.map f) p c ↔ ParentOf nodes p c := by
  constructor
  · rintro ⟨m, hm, e, hp⟩
    obtain ⟨n, hn, rfl⟩ := List.mem_map.1 hm
    exact ⟨n, hn, by rw [← e, (hf n hn).name], by rwa [(hf n hn).parents] at hp⟩
  · rintro ⟨n, hn, e, hp⟩
    exact ⟨f n, List.mem_map.2 ⟨n, hn, rfl⟩, by rw [(hf n hn).name, e],
      by rwa [(hf n hn).parents]⟩

theorem declaredFor_map (ps : List ν) (vs : List β) :
    DeclaredFor (nodes.map f) ps vs ↔ DeclaredFor nodes ps vs := by
  unfold DeclaredFor
  have : (fun (p : ν) (v : β) => ∃ n ∈ nodes.map f, n.name = p ∧ v ∈ n.values) =
      (fun p v => ∃ n ∈ nodes, n.name = p ∧ v ∈ n.values) := by
    funext p v
    apply propext
    constructor
    · rintro ⟨m, hm, e, hv⟩
      obtain ⟨n, hn, rfl⟩ := List.mem_map.1 hm
      exact ⟨n, hn, by rw [← e, (hf n hn).name], by rwa [(hf n hn).values] at hv⟩
    · rintro ⟨n, hn, e, hv⟩
      exact ⟨f n, List.mem_map.2 ⟨n, hn, rfl⟩, by rw [(hf n hn).name, e],
        by rwa [(hf n hn).values]⟩
  rw [this]

theorem wellFormed_map (h : WellFormed nodes) : WellFormed (nodes.map f) := by
  refine ⟨?_, ?_, ?_, ?_, ?_, ?_⟩
  · unfold UniqueNames; rw [map_names hf]; exact h.unique
  · intro m hm p hp
    obtain ⟨n, hn, rfl⟩ := List.mem_map.1 hm
    rw [map_names hf]
    exact h.known n hn p (by rwa [(hf n hn).parents] at hp)
  · intro v hv
    have : ParentOf (nodes.map f) = ParentOf nodes := by
      funext p c; exact propext (parentOf_map hf p c)
    rw [this] at hv
    exact h.acyclic v hv
  · intro m hm
    obtain ⟨n, hn, rfl⟩ := List.mem_map.1 hm
    rw [(hf n hn).values]; exact h.values n hn
  · intro m hm k hk
    obtain ⟨n, hn, rfl⟩ := List.mem_map.1 hm
    rw [(hf n hn).probabilities] at hk
    obtain ⟨vs, h1, h2⟩ := h.table_keys n hn k hk
    exact ⟨vs, by rw [(hf n hn).parents]; exact (declaredFor_map hf _ _).2 h1, h2⟩
  · intro m hm vs hvs
    obtain ⟨n, hn, rfl⟩ := List.mem_map.1 hm
    rw [(hf n hn).parents] at hvs
    have := h.table_rows n hn vs ((declaredFor_map hf _ _).1 hvs)
    rw [(hf n hn).probabilities, (hf n hn).row, (hf n hn).values]
    exact this

theorem normalised_map (h : Normalised nodes) : Normalised (nodes.map f) := by
  intro m hm vs hvs
  obtain ⟨n, hn, rfl⟩ := List.mem_map.1 hm
  rw [(hf n hn).parents] at hvs
  rw [(hf n hn).row]
  exact h n hn vs ((declaredFor_map hf _ _).1 hvs)

theorem topologicalOrder_map {l : List ν} (h : TopologicalOrder nodes l) :
    TopologicalOrder (nodes.map f) l := by
  refine ⟨by rw [map_names hf]; exact h.perm, ?_⟩
  intro l₁ v l₂ e p hp
  exact h.parents_first l₁ v l₂ e p ((parentOf_map hf p v).1 hp)

theorem jointProb_map (a : ν → β) : jointProb (nodes.map f) a = jointProb nodes a := by
  unfold jointProb
  rw [List.map_map]
  congr 1
  apply List.map_congr_left
  intro n hn
  simp only [Function.comp]
  rw [(hf n hn).cpt, (hf n hn).parents, (hf n hn).name]

end transport

theorem rowKey_eq (l : List β) : rowKey l = tableKey l := by
  cases l <;> rfl

theorem indexedKey_ok {nodes : List (Node ν β)} (hu : UniqueNames nodes) {ps : List ν} {vs : List β}
    (h : DeclaredFor nodes ps vs) : ∃ k, indexedKey nodes vs ps = .ok k := by
  unfold DeclaredFor at h
  induction h with
  | nil => exact ⟨[], rfl⟩
  | @cons p v ps vs h1 _ ih =>
    obtain ⟨n, hn, rfl, hv⟩ := h1
    obtain ⟨k, hk⟩ := ih
    refine ⟨n.values.idxOf v :: k, ?_⟩
    have hi : indexOf n.values v = .ok (n.values.idxOf v) := if_pos hv
    simp only [indexedKey, getNode_mem hu hn]
    show (indexOf n.values v >>= _) = _
    rw [hi, hk]; rfl

theorem indexedTable_ok {nodes : List (Node ν β)} (hu : UniqueNames nodes) {ps : List ν}
    (rows : List (CondKey β × List ℚ)) (acc : List (List Nat × List ℚ))
    (h : ∀ k ∈ rows.map Prod.fst, ∃ vs, DeclaredFor nodes ps vs ∧ k = tableKey vs) :
    ∃ t, indexedTable nodes ps rows acc = .ok t := by
  induction rows generalizing acc with
  | nil => exact ⟨acc, rfl⟩
  | cons r rows ih =>
    have ih' := fun acc => ih acc (fun k hk => h k (by simp at hk ⊢; tauto))
    obtain ⟨k, r⟩ := r
    cases k with
    | unconditioned => exact ih' acc
    | values l =>
      obtain ⟨vs, hd, e⟩ := h (.values l) (by simp)
      have : vs = l := by
        cases vs with
        | nil => simp [tableKey] at e
        | cons v vs => simp only [tableKey, CondKey.values.injEq] at e; exact e.symm
      subst this
      obtain ⟨k, hk⟩ := indexedKey_ok hu hd
      obtain ⟨t, ht⟩ := ih' (dictSet acc k r)
      refine ⟨t, ?_⟩
      simp only [indexedTable, hk]
      exact ht

theorem finalizeNode_ok {nodes : List (Node ν β)} (h : WellFormed nodes) {n : Node ν β}
    (hn : n ∈ nodes) : ∃ n', finalizeNode nodes n = .ok n' ∧ SameDecl n n' ∧ n'.id = n.id ∧
      n'.cumulative = cumulativeOf n.probabilities := by
  unfold finalizeNode
  split
  · exact ⟨_, rfl, ⟨rfl, rfl, rfl, rfl⟩, rfl, rfl⟩
  · obtain ⟨t, ht⟩ := indexedTable_ok h.unique n.probabilities [] (h.table_keys n hn)
    rw [ht]
    exact ⟨_, rfl, ⟨rfl, rfl, rfl, rfl⟩, rfl, rfl⟩

theorem finalizeNodes_ok {nodes : List (Node ν β)} (h : WellFormed nodes) (l : List (Node ν β))
    (hl : ∀ n ∈ l, n ∈ nodes) :
    ∃ f : Node ν β → Node ν β, finalizeNodes nodes l = .ok (l.map f) ∧
      ∀ n ∈ l, SameDecl n (f n) ∧ (f n).id = n.id ∧
        (f n).cumulative = cumulativeOf n.probabilities := by
  choose! f hf using fun (n : Node ν β) (hn : n ∈ nodes) => finalizeNode_ok h hn
  refine ⟨f, ?_, fun n hn => (hf n (hl n hn)).2⟩
  induction l with
  | nil => rfl
  | cons n l ih =>
    simp only [finalizeNodes, (hf n (hl n (by simp))).1]
    show (finalizeNodes nodes l >>= _) = _
    rw [ih (fun n hn => hl n (by simp [hn]))]
    rfl

/-- The ID a node has after `finalize`.
(Models no code: a notion for statements and proofs.) -/
def finalID (ns : List ν) (n : Node ν β) : Int := if n.id = -1 then (ns.idxOf n.name : Int) else n.id

/-- The effect of the ID loop on one node.
(Models no code: a notion for statements and proofs.) -/
def withID (vs : List ν) (index : Nat) (n : Node ν β) : Node ν β :=
  if n.name ∈ vs ∧ n.id = -1 then { n with id := index + (vs.idxOf n.name : Int) } else n

omit [DecidableEq β] in
theorem withID_name (vs : List ν) (index : Nat) (n : Node ν β) : (withID vs index n).name = n.name := by
  unfold withID; split <;> rfl

omit [DecidableEq β] in
theorem setID_name (v : ν) (index : Nat) (n : Node ν β) : (setID v index n).name = n.name := by
  unfold setID; split <;> rfl

omit [DecidableEq β] in
theorem withID_cons (v : ν) (vs : List ν) (hv : v ∉ vs) (index : Nat) (n : Node ν β) :
    withID vs (index + 1) (setID v index n) = withID (v :: vs) index n := by
  unfold withID setID
  by_cases h1 : n.name = v
  · subst h1
    by_cases h2 : n.id = -1
    · simp [h2, hv]
    · simp [h2]
  · by_cases h2 : n.id = -1
    · by_cases h3 : n.name ∈ vs
      · have h1' : (v == n.name) = false := by simpa using Ne.symm h1
        simp only [h1, h2, h3, false_and, if_false, and_self, if_true, List.mem_cons, or_true,
          List.idxOf_cons, h1', cond_false]
        congr 1
        push_cast; ring
      · simp [h1, h3]
    · simp [h2]

/-- The ID loop: IDs, `variable_IDs` and `variable_nodes_by_ID`. -/
theorem assignIDs_ok (vs : List ν) (hvs : vs.Nodup) (index : Nat) (net : Net ν β)
    (hu : UniqueNames net.nodes) (hk : ∀ v ∈ vs, v ∈ net.nodes.map (·.name)) :
    ∃ g : ν → Int, (∀ n ∈ net.nodes, n.name ∈ vs → g n.name = (withID vs index n).id) ∧
      assignIDs vs index net = .ok { net with
        nodes := net.nodes.map (withID vs index)
        byID := (vs.map (fun v => (g v, v))).foldl (fun d p => dictSet d p.1 p.2) net.byID
        ids := net.ids ++ vs.map g } := by
  induction vs generalizing index net with
  | nil =>
    refine ⟨fun _ => 0, by simp, ?_⟩
    have : withID (β := β) ([] : List ν) index = id := by funext n; simp [withID]
    simp [assignIDs, this]
  | cons v vs ih =>
    obtain ⟨hv, hvs'⟩ := List.nodup_cons.1 hvs
    have hnames : (net.nodes.map (setID v index)).map (·.name) = net.nodes.map (·.name) := by
      rw [List.map_map]; exact List.map_congr_left (fun n _ => setID_name v index n)
    have hu' : UniqueNames (net.nodes.map (setID v index)) := by
      unfold UniqueNames; rw [hnames]; exact hu
    obtain ⟨n0, hn0, hname, hg0⟩ := getNode_known (nodes := net.nodes.map (setID v index))
      (v := v) (by rw [hnames]; exact hk v (by simp))
    obtain ⟨g, hg, e⟩ := ih hvs' (index + 1)
      { net with nodes := net.nodes.map (setID v index), byID := dictSet net.byID n0.id v,
                 ids := net.ids ++ [n0.id] } hu'
      (fun w hw => by show w ∈ (net.nodes.map (setID v index)).map (·.name); rw [hnames]; exact hk w (by simp [hw]))
    have hcomp : ∀ n : Node ν β, withID vs (index + 1) (setID v index n) = withID (v :: vs) index n :=
      withID_cons v vs hv index
    refine ⟨fun w => if w = v then n0.id else g w, ?_, ?_⟩
    · intro n hn hmem
      by_cases h : n.name = v
      · simp only [h, if_true]
        have : n0 = setID v index n := unique_node hu' hn0 (List.mem_map.2 ⟨n, hn, rfl⟩)
          (by rw [hname, setID_name, h])
        rw [this, ← hcomp n]
        unfold withID
        rw [if_neg]
        rw [setID_name, h]; simp [hv]
      · simp only [h, if_false]
        have := hg (setID v index n) (List.mem_map.2 ⟨n, hn, rfl⟩)
          (by rw [setID_name]; exact (List.mem_cons.1 hmem).resolve_left h)
        rw [setID_name, hcomp] at this
        exact this
    · simp only [assignIDs, hg0]
      refine e.trans ?_
      have hmap : vs.map (fun w => if w = v then n0.id else g w) = vs.map g := by
        apply List.map_congr_left
        intro w hw
        have : w ≠ v := fun e => hv (e ▸ hw)
        simp [this]
      have hmap2 : vs.map (fun w => ((if w = v then n0.id else g w), w)) =
          vs.map (fun w => (g w, w)) := by
        apply List.map_congr_left
        intro w hw
        have : w ≠ v := fun e => hv (e ▸ hw)
        simp [this]
      simp only [List.map_cons, if_true, List.foldl_cons, hmap, hmap2, List.map_map,
        List.append_assoc, List.singleton_append]
      congr 2
      exact List.map_congr_left (fun n _ => hcomp n)

/-- What is known about a network returned by `finalize`.
(Models no code: a notion for statements and proofs.) -/
structure Finalized (nodes : List (Node ν β)) (net : Net ν β) : Prop where
  nodes_eq : ∃ f : Node ν β → Node ν β, net.nodes = nodes.map f ∧ ∀ n ∈ nodes,
    SameDecl n (f n) ∧ (f n).id = finalID (names nodes) n ∧
    (f n).cumulative = cumulativeOf n.probabilities
  order : TopologicalOrder nodes net.nodeOrder
  namesOrder : net.namesOrder = net.nodeOrder
  ids : ∃ g : ν → Int, (∀ n ∈ nodes, g n.name = finalID (names nodes) n) ∧
    net.ids = (names nodes).map g ∧
    net.byID = ((names nodes).map (fun v => (g v, v))).foldl (fun d p => dictSet d p.1 p.2) []
  finalized : net.finalized = true

theorem finalize_ok {nodes : List (Node ν β)} (h : WellFormed nodes) :
    ∃ net, finalize { nodes := nodes } = .ok net ∧ Finalized nodes net := by
  obtain ⟨f, hf, hfs⟩ := finalizeNodes_ok h nodes (fun _ hn => hn)
  obtain ⟨order, ho, ht⟩ := sampling_order_topological nodes h.unique h.known h.acyclic
  have hsd : ∀ n ∈ nodes, SameDecl n (f n) := fun n hn => (hfs n hn).1
  have hnm := names_map hsd
  have hu' : UniqueNames (nodes.map f) := by unfold UniqueNames; rw [map_names hsd]; exact h.unique
  obtain ⟨g, hg, e⟩ := assignIDs_ok (names nodes) ((names_perm nodes).nodup_iff.2 h.unique) 0
    { nodes := nodes.map f, namesOrder := order, nodeOrder := order : Net ν β } hu'
    (fun v hv => by show v ∈ (nodes.map f).map (·.name); rw [map_names hsd]; exact mem_names.1 hv)
  have hid : ∀ n ∈ nodes, (withID (names nodes) 0 (f n)).id = finalID (names nodes) n := by
    intro n hn
    have hmem : (f n).name ∈ names nodes := by
      rw [(hsd n hn).name]; exact mem_names.2 (List.mem_map.2 ⟨n, hn, rfl⟩)
    unfold withID finalID
    rw [(hfs n hn).2.1, (hsd n hn).name]
    have hmem' : n.name ∈ names nodes := by rw [← (hsd n hn).name]; exact hmem
    by_cases hi : n.id = -1
    · simp [hi, hmem']
    · simp [hi, (hfs n hn).2.1]
  refine ⟨{ nodes := (nodes.map f).map (withID (names nodes) 0)
            namesOrder := order
            nodeOrder := order
            byID := ((names nodes).map (fun v => (g v, v))).foldl (fun d p => dictSet d p.1 p.2) []
            ids := (names nodes).map g
            finalized := true }, ?_, ?_⟩
  · have hch : chosenOrder { nodes := nodes : Net ν β } = .ok order := by
      unfold chosenOrder; rw [if_pos rfl]; exact ho
    unfold finalize
    simp only [hf]
    show (chosenOrder { nodes := nodes : Net ν β } >>= _) = _
    rw [hch]
    show (assignIDs (names (nodes.map f)) 0 _ >>= _) = _
    rw [hnm]
    simp only [List.nil_append] at e ⊢
    rw [e]
    rfl
  · refine ⟨⟨withID (names nodes) 0 ∘ f, by simp, ?_⟩, ht, rfl, ⟨g, ?_, rfl, rfl⟩, rfl⟩
    · intro n hn
      have hs := hsd n hn
      refine ⟨?_, hid n hn, ?_⟩
      · simp only [Function.comp]
        unfold withID
        split
        · exact ⟨hs.name, hs.values, hs.parents, hs.probabilities⟩
        · exact hs
      · simp only [Function.comp]
        unfold withID
        split
        · exact (hfs n hn).2.2
        · exact (hfs n hn).2.2
    · intro n hn
      have := hg (f n) (List.mem_map.2 ⟨n, hn, rfl⟩) (by
        rw [(hsd n hn).name]; exact mem_names.2 (List.mem_map.2 ⟨n, hn, rfl⟩))
      rw [(hsd n hn).name] at this
      rw [this, hid n hn]

theorem dictGet_foldl_set {κ μ : Type} [DecidableEq κ] (l : List (κ × μ)) (hn : (l.map Prod.fst).Nodup)
    (d : List (κ × μ)) (k : κ) :
    dictGet (l.foldl (fun d p => dictSet d p.1 p.2) d) k =
      match dictGet l k with | some v => some v | none => dictGet d k := by
  induction l generalizing d with
  | nil => simp [dictGet]
  | cons p l ih =>
    simp only [List.map_cons, List.nodup_cons] at hn
    rw [List.foldl_cons, ih hn.2]
    simp only [dictGet]
    by_cases h : p.1 = k
    · have : dictGet l k = none := (dictGet_none_iff l k).2 (h ▸ hn.1)
      simp [this, h, dictGet_dictSet]
    · simp only [h, if_false]
      cases dictGet l k <;> simp [dictGet_dictSet, h]

end Mbtk.BN
