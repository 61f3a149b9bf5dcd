import Verif.BN.Marginal
/-!
# Subnetworks and partial joint distributions (C37)
-/
namespace Mbtk.BN
open Spec Stats
variable {ν β : Type} [LinearOrder ν] [DecidableEq β]

/-- A finalized network whose IDs are the positions of the sorted names.
(Models no code: a notion for statements and proofs.) -/
structure IndexedNet (net : Net ν β) : Prop where
  wf : WellFormed net.nodes
  order : TopologicalOrder net.nodes net.nodeOrder
  finalized : net.finalized = true
  id_eq : ∀ n ∈ net.nodes, n.id = ((names net.nodes).idxOf n.name : Int)
  byID : ∀ n ∈ net.nodes, dictGet net.byID n.id = some n.name
  ids : net.ids = (names net.nodes).map (fun v => ((names net.nodes).idxOf v : Int))

theorem finalize_unique {nodes : List (Node ν β)} (h : WellFormed nodes) {net : Net ν β}
    (e : finalize { nodes := nodes } = .ok net) : Finalized nodes net := by
  obtain ⟨net', e', hf⟩ := finalize_ok h
  rw [e] at e'
  cases e'
  exact hf

theorem indexed_of_finalize {nodes : List (Node ν β)} (h : WellFormed nodes) (hid : NoIDs nodes)
    {net : Net ν β} (e : finalize { nodes := nodes } = .ok net) : IndexedNet net := by
  have hf := finalize_unique h e
  obtain ⟨f, hn, hfs⟩ := hf.nodes_eq
  have hsd : ∀ n ∈ nodes, SameDecl n (f n) := fun n hn => (hfs n hn).1
  have hnm : names net.nodes = names nodes := by rw [hn]; exact names_map hsd
  obtain ⟨g, hg, hids, hby⟩ := hf.ids
  have hfin : ∀ n ∈ nodes, finalID (names nodes) n = ((names nodes).idxOf n.name : Int) := by
    intro n hn; unfold finalID; rw [if_pos (hid n hn)]
  have hgv : ∀ v ∈ names nodes, g v = ((names nodes).idxOf v : Int) := by
    intro v hv
    obtain ⟨n, hn, rfl⟩ := List.mem_map.1 (mem_names.1 hv)
    rw [hg n hn, hfin n hn]
  refine ⟨by rw [hn]; exact wellFormed_map hsd h, by rw [hn]; exact topologicalOrder_map hsd hf.order,
    hf.finalized, ?_, ?_, ?_⟩
  · intro m hm
    rw [hnm]
    rw [hn] at hm
    obtain ⟨n, hn', rfl⟩ := List.mem_map.1 hm
    rw [(hfs n hn').2.1, hfin n hn', (hsd n hn').name]
  · intro m hm
    rw [hn] at hm
    obtain ⟨n, hn', rfl⟩ := List.mem_map.1 hm
    rw [(hfs n hn').2.1, hfin n hn', (hsd n hn').name, hby]
    have hmem : n.name ∈ names nodes := mem_names.2 (List.mem_map.2 ⟨n, hn', rfl⟩)
    have hnd : (((names nodes).map (fun v => (g v, v))).map Prod.fst).Nodup := by
      rw [List.map_map]
      refine List.Nodup.map_on ?_ ((names_perm nodes).nodup_iff.2 h.unique)
      intro v hv w hw e
      simp only [Function.comp] at e
      rw [hgv v hv, hgv w hw] at e
      exact (List.idxOf_inj hv).1 (by exact_mod_cast e)
    rw [dictGet_foldl_set _ hnd]
    have : dictGet ((names nodes).map (fun v => (g v, v))) ((names nodes).idxOf n.name : Int) =
        some n.name := by
      apply dictGet_of_mem hnd
      refine List.mem_map.2 ⟨n.name, hmem, ?_⟩
      rw [hgv _ hmem]
    rw [this]
  · rw [hids, hnm]
    exact List.map_congr_left hgv

section net
variable {net : Net ν β} (h : IndexedNet net)
include h

theorem IndexedNet.nodeByID {n : Node ν β} (hn : n ∈ net.nodes) : nodeByID net n.id = .ok n := by
  unfold BN.nodeByID
  rw [h.byID n hn]
  exact getNode_mem h.wf.unique hn

theorem IndexedNet.id_inj {n m : Node ν β} (hn : n ∈ net.nodes) (hm : m ∈ net.nodes)
    (e : n.id = m.id) : n = m := by
  rw [h.id_eq n hn, h.id_eq m hm] at e
  have hmem : n.name ∈ names net.nodes := mem_names.2 (List.mem_map.2 ⟨n, hn, rfl⟩)
  exact unique_node h.wf.unique hn hm ((List.idxOf_inj hmem).1 (by exact_mod_cast e))

theorem parentIDs_ok (ps : List ν) (hps : ∀ p ∈ ps, p ∈ net.nodes.map (·.name)) :
    parentIDs net.nodes ps = .ok (ps.map (fun p => ((names net.nodes).idxOf p : Int))) := by
  induction ps with
  | nil => rfl
  | cons p ps ih =>
    have hi : nodesIndex net.nodes p = .ok ((names net.nodes).idxOf p) :=
      if_pos (mem_names.2 (hps p (by simp)))
    simp only [parentIDs, hi]
    show (parentIDs net.nodes ps >>= _) = _
    rw [ih (fun q hq => hps q (by simp [hq]))]
    rfl

/-- Members of a list of IDs are IDs of nodes.
(Models no code: a notion for statements and proofs.) -/
def ValidIDs (net : Net ν β) (ids : List Int) : Prop := ∀ i ∈ ids, ∃ n ∈ net.nodes, n.id = i

theorem parentsOf_ok (ids : List Int) (hv : ValidIDs net ids) :
    ∃ ps, parentsOf net ids = .ok ps ∧ ∀ i, i ∈ ps ↔ ∃ m ∈ net.nodes, m.id = i ∧
      ∃ n ∈ net.nodes, n.id ∈ ids ∧ ParentOf net.nodes m.name n.name := by
  induction ids with
  | nil => exact ⟨[], rfl, by simp⟩
  | cons j ids ih =>
    obtain ⟨ps, e, hps⟩ := ih (fun i hi => hv i (by simp [hi]))
    obtain ⟨n, hn, rfl⟩ := hv j (by simp)
    refine ⟨n.parents.map (fun p => ((names net.nodes).idxOf p : Int)) ++ ps, ?_, ?_⟩
    · simp only [parentsOf, h.nodeByID hn]
      show (parentIDs net.nodes n.parents >>= _) = _
      rw [parentIDs_ok h n.parents (h.wf.known n hn)]
      show (parentsOf net ids >>= _) = _
      rw [e]; rfl
    · intro i
      rw [List.mem_append, hps]
      constructor
      · rintro (hi | ⟨m, hm, e1, k, hk, hk1, hk2⟩)
        · obtain ⟨p, hp, rfl⟩ := List.mem_map.1 hi
          obtain ⟨m, hm, rfl⟩ := List.mem_map.1 (h.wf.known n hn p hp)
          exact ⟨m, hm, h.id_eq m hm, n, hn, by simp, n, hn, rfl, hp⟩
        · exact ⟨m, hm, e1, k, hk, by simp [hk1], hk2⟩
      · rintro ⟨m, hm, rfl, k, hk, hk1, hk2⟩
        rcases List.mem_cons.1 hk1 with e1 | hk1
        · left
          have := h.id_inj hk hn e1
          subst this
          obtain ⟨k', hk', e2, hp⟩ := hk2
          rw [unique_node h.wf.unique hk' hk e2] at hp
          exact List.mem_map.2 ⟨m.name, hp, (h.id_eq m hm).symm⟩
        · exact .inr ⟨m, hm, rfl, k, hk, hk1, hk2⟩

theorem subnetworkIDs_ok (ord : List Int → List Int) (hord : ∀ l, (ord l).Perm l) (fuel : Nat)
    (ids : List Int) (hv : ValidIDs net ids) (h1 : 1 ≤ fuel)
    (hrank : ∀ n ∈ net.nodes, n.id ∈ ids → net.nodeOrder.idxOf n.name < fuel) :
    ∃ res, subnetworkIDs ord net fuel ids = .ok res ∧ res.Nodup ∧
      ∀ i, i ∈ res ↔ ∃ m ∈ net.nodes, m.id = i ∧
        ∃ n ∈ net.nodes, n.id ∈ ids ∧ AncestorOrSelf net.nodes m.name n.name := by
  have hpar : ∀ p c, ParentOf net.nodes p c →
      net.nodeOrder.idxOf p < net.nodeOrder.idxOf c := by
    intro p c hp
    have hc : c ∈ net.nodeOrder := by
      obtain ⟨n, hn, rfl, _⟩ := hp
      exact h.order.perm.mem_iff.2 (List.mem_map.2 ⟨n, hn, rfl⟩)
    obtain ⟨l₁, l₂, e, hnot⟩ := List.eq_append_cons_of_mem hc
    have hpl := h.order.parents_first l₁ c l₂ e p hp
    rw [e, List.idxOf_append_of_mem hpl, List.idxOf_append_of_notMem hnot]
    have := List.idxOf_lt_length_of_mem hpl
    omega
  induction fuel generalizing ids with
  | zero => omega
  | succ fuel ih =>
    obtain ⟨ps, eps, hps⟩ := parentsOf_ok h ids hv
    by_cases hnil : ps = []
    · refine ⟨ord ids.dedup, ?_, ?_, ?_⟩
      · simp only [subnetworkIDs, eps]
        show (if ps = [] then _ else _) = _
        rw [if_pos hnil]
      · exact (hord _).nodup_iff.2 (List.nodup_dedup _)
      · intro i
        rw [(hord _).mem_iff, List.mem_dedup]
        constructor
        · intro hi
          obtain ⟨n, hn, rfl⟩ := hv i hi
          exact ⟨n, hn, rfl, n, hn, hi, .refl⟩
        · rintro ⟨m, hm, rfl, n, hn, hni, hanc⟩
          rcases Relation.ReflTransGen.cases_tail hanc with e | ⟨c, _, hc⟩
          · rw [unique_node h.wf.unique hm hn e.symm]; exact hni
          · exfalso
            have hck : c ∈ net.nodes.map (·.name) := by
              obtain ⟨k, hk, _, hp⟩ := hc
              exact h.wf.known k hk c hp
            obtain ⟨k, hk, rfl⟩ := List.mem_map.1 hck
            have : k.id ∈ ps := (hps k.id).2 ⟨k, hk, rfl, n, hn, hni, hc⟩
            rw [hnil] at this; simp at this
    · have hvp : ValidIDs net (ord ps.dedup) := by
        intro i hi
        rw [(hord _).mem_iff, List.mem_dedup, hps] at hi
        obtain ⟨m, hm, e, _⟩ := hi
        exact ⟨m, hm, e⟩
      have hrp : ∀ n ∈ net.nodes, n.id ∈ ord ps.dedup → net.nodeOrder.idxOf n.name < fuel := by
        intro n hn hi
        rw [(hord _).mem_iff, List.mem_dedup, hps] at hi
        obtain ⟨m, hm, e, k, hk, hki, hpk⟩ := hi
        have := h.id_inj hm hn e
        subst this
        have h2 := hpar _ _ hpk
        have h3 := hrank k hk hki
        omega
      have hf1 : 1 ≤ fuel := by
        obtain ⟨i, hi⟩ := List.exists_mem_of_ne_nil ps hnil
        have hi' := hi
        rw [hps] at hi'
        obtain ⟨m, hm, e, _⟩ := hi'
        have := hrp m hm (by rw [(hord _).mem_iff, List.mem_dedup, e]; exact hi)
        omega
      obtain ⟨res, eres, _, hres⟩ := ih (ord ps.dedup) hvp hf1 hrp
      refine ⟨ord (ids ++ (ps ++ res)).dedup, ?_, ?_, ?_⟩
      · simp only [subnetworkIDs, eps]
        show (if ps = [] then _ else _) = _
        rw [if_neg hnil, eres]
        rfl
      · exact (hord _).nodup_iff.2 (List.nodup_dedup _)
      · intro i
        rw [(hord _).mem_iff, List.mem_dedup, List.mem_append, List.mem_append]
        constructor
        · rintro (hi | hi | hi)
          · obtain ⟨n, hn, rfl⟩ := hv i hi
            exact ⟨n, hn, rfl, n, hn, hi, .refl⟩
          · obtain ⟨m, hm, e, n, hn, hni, hp⟩ := (hps i).1 hi
            exact ⟨m, hm, e, n, hn, hni, .single hp⟩
          · obtain ⟨m, hm, e, k, hk, hki, hanc⟩ := (hres i).1 hi
            rw [(hord _).mem_iff, List.mem_dedup] at hki
            obtain ⟨k', hk', e', n, hn, hni, hp⟩ := (hps _).1 hki
            have := h.id_inj hk' hk e'
            subst this
            exact ⟨m, hm, e, n, hn, hni, hanc.tail hp⟩
        · rintro ⟨m, hm, rfl, n, hn, hni, hanc⟩
          rcases Relation.ReflTransGen.cases_tail hanc with e | ⟨c, hanc', hc⟩
          · left; rw [unique_node h.wf.unique hm hn e.symm]; exact hni
          · right; right
            have hck : c ∈ net.nodes.map (·.name) := by
              obtain ⟨k, hk, _, hp⟩ := hc
              exact h.wf.known k hk c hp
            obtain ⟨k, hk, rfl⟩ := List.mem_map.1 hck
            have hkp : k.id ∈ ps := (hps k.id).2 ⟨k, hk, rfl, n, hn, hni, hc⟩
            exact (hres m.id).2 ⟨m, hm, rfl, k, hk, by
              rw [(hord _).mem_iff, List.mem_dedup]; exact hkp, hanc'⟩

theorem nodesByID_ok (ids : List Int) (hv : ValidIDs net ids) :
    ∃ ns, nodesByID net ids = .ok ns ∧ ns.map (·.id) = ids ∧ ∀ n ∈ ns, n ∈ net.nodes := by
  induction ids with
  | nil => exact ⟨[], rfl, rfl, by simp⟩
  | cons i ids ih =>
    obtain ⟨ns, e, hm, hs⟩ := ih (fun j hj => hv j (by simp [hj]))
    obtain ⟨n, hn, rfl⟩ := hv i (by simp)
    refine ⟨n :: ns, ?_, by simp [hm], ?_⟩
    · simp only [nodesByID, h.nodeByID hn]
      show (nodesByID net ids >>= _) = _
      rw [e]; rfl
    · intro m hm
      rcases List.mem_cons.1 hm with rfl | hm
      · exact hn
      · exact hs m hm

theorem requestedIDs_ok (ids : List Int) (hv : ValidIDs net ids) :
    requestedIDs net ids = .ok ids := by
  induction ids with
  | nil => rfl
  | cons i ids ih =>
    obtain ⟨n, hn, rfl⟩ := hv i (by simp)
    simp only [requestedIDs, h.nodeByID hn]
    show (requestedIDs net ids >>= _) = _
    rw [ih (fun j hj => hv j (by simp [hj]))]; rfl

end net

/-- An ancestrally closed part of a well-formed network is well-formed. -/
theorem wellFormed_sub {nodes sub : List (Node ν β)} (h : WellFormed nodes)
    (hs : ∀ n ∈ sub, n ∈ nodes) (hu : UniqueNames sub) (hk : ParentsKnown sub) :
    WellFormed sub ∧ ∀ n ∈ sub, ∀ vs, DeclaredFor sub n.parents vs ↔
      DeclaredFor nodes n.parents vs := by
  have hd : ∀ n ∈ sub, ∀ vs, DeclaredFor sub n.parents vs ↔ DeclaredFor nodes n.parents vs := by
    intro n hn vs
    have hps := hk n hn
    unfold DeclaredFor
    constructor
    · intro hf
      exact hf.imp (fun p v ⟨m, hm, e, hv⟩ => ⟨m, hs m hm, e, hv⟩)
    · intro hf
      generalize n.parents = ps at hps hf
      induction hf with
      | nil => exact .nil
      | @cons p v ps vs h1 _ ih =>
        refine .cons ?_ (ih (fun q hq => hps q (by simp [hq])))
        obtain ⟨m, hm, e, hv⟩ := h1
        obtain ⟨k, hk', e'⟩ := List.mem_map.1 (hps p (by simp))
        have := unique_node h.unique hm (hs k hk') (by rw [e, e'])
        subst this
        exact ⟨m, hk', e, hv⟩
  refine ⟨⟨hu, hk, ?_, fun n hn => h.values n (hs n hn), ?_, ?_⟩, hd⟩
  · intro v hv
    have hmono : ∀ p c, ParentOf sub p c → ParentOf nodes p c := by
      rintro p c ⟨n, hn, e, hp⟩
      exact ⟨n, hs n hn, e, hp⟩
    exact h.acyclic v (Relation.TransGen.mono hmono v v hv)
  · intro n hn k hk'
    obtain ⟨vs, h1, h2⟩ := h.table_keys n (hs n hn) k hk'
    exact ⟨vs, (hd n hn vs).2 h1, h2⟩
  · intro n hn vs hvs
    exact h.table_rows n (hs n hn) vs ((hd n hn vs).1 hvs)

/-- What `get_subnetwork` returns. (Models no code: a notion for statements and proofs.) -/
structure SubnetOf (net sub : Net ν β) (vars : List Int) : Prop where
  fromNodes : ∃ M : List (Node ν β), (∀ n ∈ M, n ∈ net.nodes) ∧ UniqueNames M ∧ ParentsKnown M ∧
    (∀ n ∈ net.nodes, n ∈ M ↔ ∃ m ∈ net.nodes, m.id ∈ vars ∧
      AncestorOrSelf net.nodes n.name m.name) ∧ Finalized M sub

theorem getSubnetwork_ok {net : Net ν β} (h : IndexedNet net) (ord : List Int → List Int)
    (hord : ∀ l, (ord l).Perm l) (vars : List Int) (hv : ValidIDs net vars) :
    ∃ sub, getSubnetwork ord net vars = .ok sub ∧ SubnetOf net sub vars := by
  have hv' : ValidIDs net vars.dedup := fun i hi => hv i (List.mem_dedup.1 hi)
  obtain ⟨res, e1, hnd, hres⟩ := subnetworkIDs_ok h ord hord (net.nodes.length + 1) vars.dedup hv'
    (by omega) (by
      intro n hn _
      have : n.name ∈ net.nodeOrder := h.order.perm.mem_iff.2 (List.mem_map.2 ⟨n, hn, rfl⟩)
      have h2 := List.idxOf_lt_length_of_mem this
      have h3 := h.order.perm.length_eq
      rw [List.length_map] at h3
      omega)
  have hvr : ValidIDs net res := by
    intro i hi
    obtain ⟨m, hm, e, _⟩ := (hres i).1 hi
    exact ⟨m, hm, e⟩
  obtain ⟨M, e2, hMid, hM⟩ := nodesByID_ok h res hvr
  have hmemM : ∀ n ∈ net.nodes, n ∈ M ↔ n.id ∈ res := by
    intro n hn
    constructor
    · intro hm; rw [← hMid]; exact List.mem_map.2 ⟨n, hm, rfl⟩
    · intro hi
      rw [← hMid] at hi
      obtain ⟨m, hm, e⟩ := List.mem_map.1 hi
      rwa [h.id_inj (hM m hm) hn e] at hm
  have hanc : ∀ n ∈ net.nodes, n ∈ M ↔ ∃ m ∈ net.nodes, m.id ∈ vars ∧
      AncestorOrSelf net.nodes n.name m.name := by
    intro n hn
    rw [hmemM n hn, hres]
    constructor
    · rintro ⟨m, hm, e, k, hk, hki, ha⟩
      rw [h.id_inj hm hn e] at ha
      exact ⟨k, hk, List.mem_dedup.1 hki, ha⟩
    · rintro ⟨k, hk, hki, ha⟩
      exact ⟨n, hn, rfl, k, hk, List.mem_dedup.2 hki, ha⟩
  have hu : UniqueNames M := by
    have hMn : M.Nodup := List.Nodup.of_map (·.id) (by rw [hMid]; exact hnd)
    exact List.Nodup.map_on (fun n hn m hm e => unique_node h.wf.unique (hM n hn) (hM m hm) e) hMn
  have hk : ParentsKnown M := by
    intro n hn p hp
    obtain ⟨m, hm, rfl⟩ := List.mem_map.1 (h.wf.known n (hM n hn) p hp)
    refine List.mem_map.2 ⟨m, (hanc m hm).2 ?_, rfl⟩
    obtain ⟨k, hk, hki, ha⟩ := (hanc n (hM n hn)).1 hn
    exact ⟨k, hk, hki, Relation.ReflTransGen.head ⟨n, hM n hn, rfl, hp⟩ ha⟩
  obtain ⟨sub, e3, hf⟩ := finalize_ok (wellFormed_sub h.wf hM hu hk).1
  refine ⟨sub, ?_, ⟨M, hM, hu, hk, hanc, hf⟩⟩
  unfold getSubnetwork requireFinal
  rw [if_pos h.finalized, requestedIDs_ok h vars hv]
  show (subnetworkIDs ord net (net.nodes.length + 1) vars.dedup >>= _) = _
  rw [e1]
  show (nodesByID net res >>= _) = _
  rw [e2]
  exact e3

/-- The joint PMF of a finalized network, as leaves. -/
theorem createJointPmf_ok {nodes : List (Node ν β)} (h : WellFormed nodes) {net : Net ν β}
    (hf : Finalized nodes net) (a0 : ν → β) :
    createJointPmf net = .ok ⟨(branches (pickNodes net.nodes net.nodeOrder) a0 1).map
      (fun x => (.tup (indices net.nodes x.1), x.2)), net.ids, none⟩ := by
  obtain ⟨f, hn, hfs⟩ := hf.nodes_eq
  have hsd : ∀ n ∈ nodes, SameDecl n (f n) := fun n hn => (hfs n hn).1
  have hwf : WellFormed net.nodes := by rw [hn]; exact wellFormed_map hsd h
  have hto : TopologicalOrder net.nodes net.nodeOrder := by
    rw [hn]; exact topologicalOrder_map hsd hf.order
  unfold createJointPmf requireFinal
  rw [if_pos hf.finalized, (jointDict_ok hwf hto a0).1]
  rfl

theorem indices_map {nodes : List (Node ν β)} {f : Node ν β → Node ν β} (hu : UniqueNames nodes)
    (hf : ∀ n ∈ nodes, SameDecl n (f n)) (a : ν → β) :
    indices (nodes.map f) a = indices nodes a := by
  unfold indices
  rw [map_names hf]
  apply List.map_congr_left
  intro v hv
  obtain ⟨n, hn, rfl⟩ := List.mem_map.1 (mem_names.1 hv)
  have h1 := position_eq hu hn (a n.name)
  have hu' : UniqueNames (nodes.map f) := by unfold UniqueNames; rw [map_names hf]; exact hu
  have h2 := position_eq hu' (List.mem_map.2 ⟨n, hn, rfl⟩) (a n.name)
  rw [(hf n hn).name, (hf n hn).values] at h2
  rw [h1, h2]

omit [LinearOrder ν] in
theorem coordinates_map (vs : List ν) (g : ν → Int) (q : ν → Int) (w : Int → Prop)
    [DecidablePred w] :
    coordinates (vs.map g) w (vs.map q) = (vs.filter (fun v => w (g v))).map q := by
  unfold coordinates
  induction vs with
  | nil => rfl
  | cons v vs ih =>
    simp only [List.map_cons, List.zip_cons_cons]
    by_cases hw : w (g v)
    · rw [List.filter_cons_of_pos (by simpa using hw), List.filter_cons_of_pos (by simpa using hw),
        List.map_cons, List.map_cons, ih]
    · rw [List.filter_cons_of_neg (by simpa using hw), List.filter_cons_of_neg (by simpa using hw),
        ih]

/-- Sorted lists of names with the same members are equal. -/
theorem names_filter_eq {N M : List (Node ν β)} (hN : UniqueNames N) (hM : UniqueNames M)
    (P Q : ν → Prop) [DecidablePred P] [DecidablePred Q]
    (h : ∀ v, (v ∈ N.map (·.name) ∧ P v) ↔ (v ∈ M.map (·.name) ∧ Q v)) :
    (names N).filter (fun v => P v) = (names M).filter (fun v => Q v) := by
  have s1 : ∀ L : List (Node ν β), (names L).Pairwise (· ≤ ·) :=
    fun L => List.pairwise_insertionSort _ _
  have n1 : ∀ L : List (Node ν β), UniqueNames L → (names L).Nodup :=
    fun L hL => (names_perm L).nodup_iff.2 hL
  refine List.Perm.eq_of_pairwise (le := (· ≤ ·)) (fun a b _ _ h1 h2 => le_antisymm h1 h2)
    ((s1 N).filter _) ((s1 M).filter _) ?_
  refine (List.perm_ext_iff_of_nodup ((n1 N hN).filter _) ((n1 M hM).filter _)).2 ?_
  intro v
  simp only [List.mem_filter, mem_names, decide_eq_true_eq]
  exact h v

theorem massWhere_leaves (nodes : List (Node ν β)) (l : List ((ν → β) × ℚ)) (ids j)
    (P : List Int → Prop) [DecidablePred P] :
    massWhere ⟨l.map (fun x => (.tup (indices nodes x.1), x.2)), ids, j⟩ P =
      (l.map (fun x => x.2 * (if P (indices nodes x.1) then 1 else 0))).sum := by
  unfold massWhere
  simp only
  induction l with
  | nil => rfl
  | cons x l ih =>
    simp only [List.map_cons, List.sum_cons, ← ih]
    by_cases hP : P (indices nodes x.1)
    · rw [List.filter_cons_of_pos (by exact decide_eq_true hP)]; simp [hP]
    · rw [List.filter_cons_of_neg (by rw [Bool.not_eq_true]; exact decide_eq_false hP)]; simp [hP]

theorem branches_decl {f : Node ν β → Node ν β} (ns : List (Node ν β))
    (hf : ∀ n ∈ ns, SameDecl n (f n)) (a : ν → β) (p : ℚ) :
    branches (ns.map f) a p = branches ns a p := by
  induction ns generalizing a p with
  | nil => rfl
  | cons n ns ih =>
    have hn := hf n (by simp)
    simp only [List.map_cons, branches, hn.values, hn.name, hn.parents, hn.cpt]
    congr 1
    funext v
    exact ih (fun m hm => hf m (by simp [hm])) _ _

omit [DecidableEq β] in
theorem pickNodes_map {f : Node ν β → Node ν β} {nodes : List (Node ν β)}
    (hf : ∀ n ∈ nodes, SameDecl n (f n)) (l : List ν) :
    pickNodes (nodes.map f) l = (pickNodes nodes l).map f := by
  unfold pickNodes
  rw [List.map_filterMap]
  congr 1
  funext v
  rw [List.find?_map]
  congr 1
  clear l
  induction nodes with
  | nil => rfl
  | cons n nodes ih =>
    have hn := hf n (by simp)
    simp only [List.find?_cons, Function.comp, hn.name]
    rw [ih (fun m hm => hf m (by simp [hm]))]

theorem validIDs_of_range {net : Net ν β} (h : IndexedNet net) (vars : List Int)
    (hv : ∀ i ∈ vars, 0 ≤ i ∧ i < net.nodes.length) : ValidIDs net vars := by
  intro i hi
  obtain ⟨h0, hlt⟩ := hv i hi
  have hlen : (names net.nodes).length = net.nodes.length := by
    rw [(names_perm net.nodes).length_eq, List.length_map]
  have hlt' : i.toNat < (names net.nodes).length := by rw [hlen]; omega
  have hmem : (names net.nodes)[i.toNat] ∈ names net.nodes := List.getElem_mem hlt'
  obtain ⟨n, hn, e⟩ := List.mem_map.1 (mem_names.1 hmem)
  refine ⟨n, hn, ?_⟩
  rw [h.id_eq n hn, e, ((names_perm net.nodes).nodup_iff.2 h.wf.unique).idxOf_getElem _ hlt']
  omega

/-- The partial joint PMF and the full one, event by event. -/
theorem partial_joint_events (nodes : List (Node ν β)) (h : WellFormed nodes)
    (hN : Normalised nodes) (hid : NoIDs nodes) (net : Net ν β)
    (e : finalize { nodes := nodes } = .ok net) (ord : List Int → List Int)
    (hord : ∀ l, (ord l).Perm l) (vars : List Int)
    (hvars : ∀ i ∈ vars, 0 ≤ i ∧ i < net.nodes.length)
    (hne : ∀ n ∈ net.nodes, vars ≠ [] → (∀ i ∈ vars, i = n.id) → n.parents ≠ []) [Nonempty β] :
    ∃ full pmf, createJointPmf net = .ok full ∧ createPartialJointPmf ord net vars = .ok pmf ∧
      Canonical pmf ∧ pmf.variableIDs = full.variableIDs.filter (fun i => i ∈ vars) ∧
      ∀ (P : List Int → Prop) [DecidablePred P], massWhere pmf P = massWhere full (fun l =>
        P (coordinates full.variableIDs (fun i => i ∈ vars) l)) := by
  have hI := indexed_of_finalize h hid e
  have hv := validIDs_of_range hI vars hvars
  have hfin := finalize_unique h e
  obtain ⟨f, hnodes, hfs⟩ := hfin.nodes_eq
  have hsd : ∀ n ∈ nodes, SameDecl n (f n) := fun n hn => (hfs n hn).1
  have hNn : Normalised net.nodes := by rw [hnodes]; exact normalised_map hsd hN
  let a0 : ν → β := fun _ => Classical.arbitrary β
  obtain ⟨sub, esub, ⟨M, hM, hMu, hMk, hanc, hMf⟩⟩ := getSubnetwork_ok hI ord hord vars hv
  obtain ⟨hMwf, hMd⟩ := wellFormed_sub hI.wf hM hMu hMk
  obtain ⟨f', hsubn, hfs'⟩ := hMf.nodes_eq
  have hsd' : ∀ n ∈ M, SameDecl n (f' n) := fun n hn => (hfs' n hn).1
  obtain ⟨g, hg, hgids, _⟩ := hMf.ids
  have hgid : ∀ n ∈ M, g n.name = n.id := by
    intro n hn
    rw [hg n hn]
    unfold finalID
    rw [if_neg]
    rw [hI.id_eq n (hM n hn)]; omega
  have hjf := createJointPmf_ok h hfin a0
  have hjs := createJointPmf_ok hMwf hMf a0
  have hwfs : WellFormed sub.nodes := by rw [hsubn]; exact wellFormed_map hsd' hMwf
  have htos : TopologicalOrder sub.nodes sub.nodeOrder := by
    rw [hsubn]; exact topologicalOrder_map hsd' hMf.order
  have hleaf := jointDict_ok hwfs htos a0
  -- abbreviations
  generalize hfd : (⟨(branches (pickNodes net.nodes net.nodeOrder) a0 1).map
    (fun x => (.tup (indices net.nodes x.1), x.2)), net.ids, none⟩ : PMF) = full at hjf
  generalize hsdn : (⟨(branches (pickNodes sub.nodes sub.nodeOrder) a0 1).map
    (fun x => (.tup (indices sub.nodes x.1), x.2)), sub.ids, none⟩ : PMF) = sjoint at hjs
  have hsid : sjoint.variableIDs = (names M).map g := by rw [← hsdn]; exact hgids
  have hfid : full.variableIDs =
      (names net.nodes).map (fun v => ((names net.nodes).idxOf v : Int)) := by
    rw [← hfd]; exact hI.ids
  have hginj : ∀ v ∈ names M, ∀ w ∈ names M, g v = g w → v = w := by
    intro v hv' w hw' e'
    obtain ⟨n, hn, rfl⟩ := List.mem_map.1 (mem_names.1 hv')
    obtain ⟨m, hm, rfl⟩ := List.mem_map.1 (mem_names.1 hw')
    rw [hgid n hn, hgid m hm] at e'
    rw [hI.id_inj (hM n hn) (hM m hm) e']
  have hnamesM : (names M).length = M.length := by
    rw [(names_perm M).length_eq, List.length_map]
  have hsidn : sjoint.variableIDs.Nodup := by
    rw [hsid]
    exact List.Nodup.map_on (fun v hv w hw e => hginj v hv w hw e)
      ((names_perm M).nodup_iff.2 hMu)
  -- the requested variables are in the subnetwork
  have hreq : ∀ i ∈ vars, ∃ n ∈ M, n.id = i := by
    intro i hi
    obtain ⟨n, hn, rfl⟩ := hv i hi
    exact ⟨n, (hanc n hn).2 ⟨n, hn, hi, .refl⟩, rfl⟩
  have hlen1 : M.length ≠ 1 := by
    intro h1
    obtain ⟨n, rfl⟩ := List.length_eq_one_iff.1 h1
    have hn := hM n (by simp)
    obtain ⟨m, hm, hmi, _⟩ := (hanc n hn).1 (by simp)
    have hall : ∀ i ∈ vars, i = n.id := by
      intro i hi
      obtain ⟨k, hk, e'⟩ := hreq i hi
      simp only [List.mem_singleton] at hk
      rw [← e', hk]
    have hpne := hne n hn (fun e' => by rw [e'] at hmi; simp at hmi) hall
    obtain ⟨p, hp⟩ := List.exists_mem_of_ne_nil _ hpne
    have hpM := hMk n (by simp) p hp
    simp only [List.map_cons, List.map_nil, List.mem_singleton] at hpM
    subst hpM
    exact hI.wf.acyclic n.name (.single ⟨n, hn, rfl, hp⟩)
  have hilen : ∀ a : ν → β, (indices sub.nodes a).length = sjoint.variableIDs.length := by
    intro a
    rw [hsid, List.length_map]
    have : names sub.nodes = names M := by rw [hsubn]; exact names_map hsd'
    rw [← this]
    simp [indices, names]
  have hcan : Canonical sjoint := by
    refine ⟨hsidn, ?_, ?_⟩
    · rw [← hsdn]
      simp only [List.map_map]
      exact List.pairwise_map.2 (hleaf.2.1.imp (fun hxy e' => hxy (by
        simp only [Function.comp, Key.tup.injEq] at e'; exact e')))
    · intro p hp
      rw [← hsdn] at hp
      obtain ⟨x, _, rfl⟩ := List.mem_map.1 hp
      simp only [Key.comps]
      refine ⟨?_, hilen x.1⟩
      rw [mkKey_of_ne]
      rw [hilen, hsid, List.length_map, hnamesM]
      exact hlen1
  -- the variables summed over
  generalize his : ord (sjoint.variableIDs.filter (fun i => i ∉ vars)).dedup = is
  have hismem : ∀ i, i ∈ is ↔ i ∈ sjoint.variableIDs ∧ i ∉ vars := by
    intro i
    rw [← his, (hord _).mem_iff, List.mem_dedup, List.mem_filter]
    simp
  have hisn : is.Nodup := by rw [← his]; exact (hord _).nodup_iff.2 (List.nodup_dedup _)
  have hislen : is = [] ∨ is.length < sjoint.variableIDs.length := by
    by_cases hv0 : vars = []
    · left
      have : M = [] := by
        apply List.eq_nil_iff_forall_not_mem.2
        intro n hn
        obtain ⟨m, _, hmi, _⟩ := (hanc n (hM n hn)).1 hn
        rw [hv0] at hmi; simp at hmi
      apply List.eq_nil_iff_forall_not_mem.2
      intro i hi
      have := ((hismem i).1 hi).1
      rw [hsid, ‹M = []›] at this
      simp [names] at this
    · right
      obtain ⟨i, hi⟩ := List.exists_mem_of_ne_nil _ hv0
      obtain ⟨n, hn, hni⟩ := hreq i hi
      have himem : i ∈ sjoint.variableIDs := by
        rw [hsid, ← hni, ← hgid n hn]
        exact List.mem_map.2 ⟨n.name, mem_names.2 (List.mem_map.2 ⟨n, hn, rfl⟩), rfl⟩
      have hl : is.length = (sjoint.variableIDs.filter (fun i => i ∉ vars)).length := by
        rw [← his, (hord _).length_eq, (hsidn.filter _).dedup]
      rw [hl]
      exact List.length_filter_lt_length_iff_exists.2 ⟨i, himem, by simpa using hi⟩
  obtain ⟨pmf, epmf, hpc, hpid, hpm⟩ := sumOverAll_ok is sjoint hcan hisn
    (fun i hi => ((hismem i).1 hi).1) hislen
  -- names of the requested variables, in both networks
  have hnf : (names net.nodes).filter (fun v => ((names net.nodes).idxOf v : Int) ∈ vars) =
      (names M).filter (fun v => g v ∈ vars) := by
    refine names_filter_eq hI.wf.unique hMu (fun v => ((names net.nodes).idxOf v : Int) ∈ vars)
      (fun v => g v ∈ vars) ?_
    intro v
    constructor
    · rintro ⟨hvm, hvi⟩
      obtain ⟨n, hn, rfl⟩ := List.mem_map.1 hvm
      rw [← hI.id_eq n hn] at hvi
      have hnM := (hanc n hn).2 ⟨n, hn, hvi, .refl⟩
      exact ⟨List.mem_map.2 ⟨n, hnM, rfl⟩, by rw [hgid n hnM]; exact hvi⟩
    · rintro ⟨hvm, hvi⟩
      obtain ⟨n, hn, rfl⟩ := List.mem_map.1 hvm
      rw [hgid n hn, hI.id_eq n (hM n hn)] at hvi
      exact ⟨List.mem_map.2 ⟨n, hM n hn, rfl⟩, hvi⟩
  refine ⟨full, pmf, hjf, ?_, hpc, ?_, ?_⟩
  · unfold createPartialJointPmf requireFinal
    rw [if_pos hI.finalized, esub]
    show (createJointPmf sub >>= _) = _
    rw [hjs]
    show sumOverAll _ sjoint = _
    rw [his, epmf]
  · rw [hpid, hsid, hfid, List.filter_map, List.filter_map]
    have h1 : (names net.nodes).filter ((fun i : Int => decide (i ∈ vars)) ∘
        fun v => ((names net.nodes).idxOf v : Int)) = (names M).filter (fun v => g v ∈ vars) := hnf
    have h2 : (names M).filter ((fun i : Int => decide (i ∉ is)) ∘ g) =
        (names M).filter (fun v => g v ∈ vars) := by
      apply List.filter_congr
      intro v hv'
      have : g v ∈ sjoint.variableIDs := by rw [hsid]; exact List.mem_map.2 ⟨v, hv', rfl⟩
      simp only [Function.comp, hismem, this, true_and, not_not]
    rw [h1, h2]
    apply List.map_congr_left
    intro v hv'
    obtain ⟨n, hn, rfl⟩ := List.mem_map.1 (mem_names.1 (List.mem_of_mem_filter hv'))
    rw [hgid n hn, hI.id_eq n (hM n hn)]
  · intro P _
    rw [hpm]
    rw [massWhere_congr sjoint _ (fun l => P (coordinates sjoint.variableIDs (fun i => i ∈ vars) l))
      (fun p _ => by
        rw [coordinates_congr sjoint.variableIDs _ (fun i => i ∉ is) (fun i => i ∈ vars)
          (fun i hi => by rw [hismem]; simp [hi])])]
    rw [← hfd, ← hsdn, massWhere_leaves, massWhere_leaves]
    simp only
    -- the indicator depends on the requested variables only
    have hrN : ∀ a : ν → β, coordinates net.ids (fun i => i ∈ vars) (indices net.nodes a) =
        ((names M).filter (fun v => g v ∈ vars)).map (fun v => (position net.nodes v (a v) : Int)) := by
      intro a
      rw [hI.ids]
      show coordinates _ _ ((names net.nodes).map _) = _
      rw [coordinates_map, hnf]
    have hrM : ∀ a : ν → β, coordinates sub.ids (fun i => i ∈ vars) (indices sub.nodes a) =
        ((names M).filter (fun v => g v ∈ vars)).map (fun v => (position net.nodes v (a v) : Int)) := by
      intro a
      rw [hgids, hsubn, indices_map hMu hsd']
      show coordinates _ _ ((names M).map _) = _
      rw [coordinates_map]
      apply List.map_congr_left
      intro v hv'
      obtain ⟨n, hn, rfl⟩ := List.mem_map.1 (mem_names.1 (List.mem_of_mem_filter hv'))
      rw [position_eq hMu hn, position_eq hI.wf.unique (hM n hn)]
    simp only [hrN, hrM]
    let F : (ν → β) → ℚ := fun a => if P (((names M).filter (fun v => g v ∈ vars)).map
      (fun v => (position net.nodes v (a v) : Int))) then 1 else 0
    let S : ν → Prop := fun v => v ∈ M.map (·.name)
    have hS : ∀ n ∈ net.nodes, S n.name → ∀ p ∈ n.parents, S p := by
      intro n hn hSn p hp
      obtain ⟨m, hm, e'⟩ := List.mem_map.1 hSn
      rw [unique_node hI.wf.unique (hM m hm) hn e'] at hm
      exact hMk n hm p hp
    have hF : ∀ a b : ν → β, (∀ v, S v → a v = b v) → F a = F b := by
      intro a b hab
      have : ((names M).filter (fun v => g v ∈ vars)).map
          (fun v => (position net.nodes v (a v) : Int)) =
        ((names M).filter (fun v => g v ∈ vars)).map
          (fun v => (position net.nodes v (b v) : Int)) := by
        apply List.map_congr_left
        intro v hv'
        rw [hab v (mem_names.1 (List.mem_of_mem_filter hv'))]
      simp only [F, this]
    have hknown : ∀ v ∈ net.nodeOrder, v ∈ net.nodes.map (·.name) :=
      fun v hv => hI.order.perm.mem_iff.1 hv
    have hrdy := ready_of_topological hI.wf.unique hI.order
    have hpk := pickNodes_spec net.nodeOrder hknown
    have hout := sum_out hI.wf hNn S hS F hF (pickNodes net.nodes net.nodeOrder) hpk.2 [] a0 a0 1
      hrdy (by intro n _ h'; simp at h') (fun _ _ => rfl)
    show ((branches (pickNodes sub.nodes sub.nodeOrder) a0 1).map (fun x => x.2 * F x.1)).sum =
      ((branches (pickNodes net.nodes net.nodeOrder) a0 1).map (fun x => x.2 * F x.1)).sum
    rw [hout, hsubn, pickNodes_map hsd', branches_decl _ (fun n hn => hsd' n
      ((pickNodes_spec sub.nodeOrder (fun v hv => hMf.order.perm.mem_iff.1 hv)).2 n hn))]
    have hr2 := ready_of_topological hMu hMf.order
    -- the filtered full order is ready as well
    have hrf : ∀ (ns : List (Node ν β)) (done done' : List ν), (∀ n ∈ ns, n ∈ net.nodes) →
        (∀ v ∈ done', v ∈ done) → (∀ v ∈ done, S v → v ∈ done') → Ready done ns →
        Ready done' (ns.filter (fun n => S n.name)) := by
      intro ns
      induction ns with
      | nil => intros; trivial
      | cons n ns ih =>
        intro done done' hns h1 h2 hr
        obtain ⟨hp, hnn, hr'⟩ := hr
        by_cases hSn : S n.name
        · rw [List.filter_cons_of_pos (by exact decide_eq_true hSn)]
          refine ⟨fun p hp' => h2 p (hp p hp') (hS n (hns n (by simp)) hSn p hp'),
            fun h' => hnn (h1 _ h'), ?_⟩
          refine ih _ _ (fun m hm => hns m (by simp [hm])) ?_ ?_ hr'
          · intro v hv'
            rcases List.mem_append.1 hv' with h' | h'
            · exact List.mem_append_left _ (h1 v h')
            · exact List.mem_append_right _ h'
          · intro v hv' hSv
            rcases List.mem_append.1 hv' with h' | h'
            · exact List.mem_append_left _ (h2 v h' hSv)
            · exact List.mem_append_right _ h'
        · rw [List.filter_cons_of_neg (by simpa using decide_eq_false hSn)]
          refine ih _ _ (fun m hm => hns m (by simp [hm])) (fun v hv' => by simp [h1 v hv']) ?_ hr'
          intro v hv' hSv
          rcases List.mem_append.1 hv' with h' | h'
          · exact h2 v h' hSv
          · simp only [List.mem_singleton] at h'
            subst h'; exact absurd hSv hSn
    have hr1 := hrf _ [] [] hpk.2 (by simp) (by simp) hrdy
    have hperm : (pickNodes M sub.nodeOrder).Perm
        ((pickNodes net.nodes net.nodeOrder).filter (fun n => S n.name)) := by
      refine (pickNodes_perm hMu hMf.order.perm).trans ?_
      refine (List.perm_ext_iff_of_nodup (List.Nodup.of_map _ hMu)
        (List.Nodup.of_map _ hr1.nodup.1)).2 ?_
      intro n
      rw [List.mem_filter, (pickNodes_perm hI.wf.unique hI.order.perm).mem_iff]
      constructor
      · intro hn
        exact ⟨hM n hn, decide_eq_true (List.mem_map.2 ⟨n, hn, rfl⟩)⟩
      · rintro ⟨hn, hSn⟩
        obtain ⟨m, hm, e'⟩ := List.mem_map.1 (of_decide_eq_true hSn)
        rwa [unique_node hI.wf.unique (hM m hm) hn e'] at hm
    rw [weighted_sum_branches _ [] a0 1 hr2, weighted_sum_branches _ [] a0 1 hr1]
    rw [nest_perm hperm hr2.nodup.1]
    congr 1
    funext a
    congr 2
    unfold prodOf
    exact (hperm.map _).prod_eq

/-- **C37.** The partial joint PMF of some variables is the marginal of the full joint PMF:
for every combination of values it gives the total probability of the entries of the full PMF
that agree with it on the requested variables.  This holds for every iteration order of the
sets the code builds. -/
theorem partial_joint_is_marginal (nodes : List (Node ν β)) (h : WellFormed nodes)
    (hN : Normalised nodes) (hid : NoIDs nodes) (net : Net ν β)
    (e : finalize { nodes := nodes } = .ok net) (ord : List Int → List Int)
    (hord : ∀ l, (ord l).Perm l) (vars : List Int)
    (hvars : ∀ i ∈ vars, 0 ≤ i ∧ i < net.nodes.length)
    (hne : ∀ n ∈ net.nodes, vars ≠ [] → (∀ i ∈ vars, i = n.id) → n.parents ≠ []) [Nonempty β] :
    ∃ full pmf, createJointPmf net = .ok full ∧ createPartialJointPmf ord net vars = .ok pmf ∧
      pmf.variableIDs = full.variableIDs.filter (fun i => i ∈ vars) ∧
      ∀ args, pmf.p args = massWhere full (fun l =>
        coordinates full.variableIDs (fun i => i ∈ vars) l = leavesAll args) := by
  obtain ⟨full, pmf, h1, h2, h3, h4, h5⟩ :=
    partial_joint_events nodes h hN hid net e ord hord vars hvars hne
  refine ⟨full, pmf, h1, h2, h4, ?_⟩
  intro args
  rw [h3.p_eq, h5]

end Mbtk.BN
