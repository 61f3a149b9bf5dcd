import Verif.BN.Markov
import Verif.Props.GraphProps
import Verif.Props.MBProps
/-!
# The graph oracle and the distribution of the network (C66)

`finalize` gives a network two graphs (`Verif/Graph/Model.lean`) from which the d-separation test
answers, and tables from which `create_joint_pmf` and the information measures compute.  Here the
two sides are tied together.
-/
namespace Mbtk.BN
open Spec Stats
variable {ν β : Type} [LinearOrder ν] [DecidableEq β]

/-- `cnode.ID` for the conditioning node called `v`.  In the code the reference is the node object
itself; `0` for an unknown name stands for no object at all. BayesianNetwork.py 318-335. -/
def graphID (net : Net ν β) (v : ν) : Nat :=
  match net.nodes.find? (fun n => n.name = v) with
  | some n => n.id.toNat
  | none => 0

/-- What `as_directed_graph` and `as_undirected_graph` iterate over: BayesianNetwork.py 320-323 and
340-343.  IDs are natural numbers after `finalize` (287-292). -/
def graphNodes (net : Net ν β) : List (Nat × List Nat) :=
  net.nodes.map (fun n => (n.id.toNat, n.parents.map (graphID net)))

/-- `graph_d` and `graph_u` of the finalized network: BayesianNetwork.py 294-295. -/
def graphOf (net : Net ν β) : Graph.Net := Graph.ofNodes (graphNodes net)

section
variable {nodes : List (Node ν β)} {net : Net ν β}

theorem graphID_eq (hI : IndexedNet net) {v : ν} (hv : v ∈ net.nodes.map (·.name)) :
    graphID net v = (names net.nodes).idxOf v := by
  obtain ⟨n, hn, rfl⟩ := List.mem_map.1 hv
  have : net.nodes.find? (fun m => m.name = n.name) = some n := by
    have := getNode_mem hI.wf.unique hn
    unfold getNode at this
    split at this
    · rename_i m hm; cases this; exact hm
    · cases this
  unfold graphID
  rw [this]
  show n.id.toNat = _
  rw [hI.id_eq n hn]; rfl

/-- **C66.** The graphs of a finalized network are those of its declarations: one node per
variable, numbered by the order of the names, and an edge from each conditioning variable. -/
theorem finalized_graph (nodes : List (Node ν β)) (h : WellFormed nodes) (hid : NoIDs nodes)
    (net : Net ν β) (e : finalize { nodes := nodes } = .ok net) :
    Graph.Represents (graphOf net) ((graphNodes net).map Prod.fst) (Edge nodes) ∧
      ∀ i, i ∈ (graphNodes net).map Prod.fst ↔ i < nodes.length := by
  have hf := finalize_unique h e
  have hI := indexed_of_finalize h hid e
  obtain ⟨f, hn, hfs⟩ := hf.nodes_eq
  have hsd : ∀ n ∈ nodes, SameDecl n (f n) := fun n hn => (hfs n hn).1
  have hnm : names net.nodes = names nodes := by rw [hn]; exact names_map hsd
  have hid' : ∀ m ∈ net.nodes, m.id.toNat = idOf nodes m.name := by
    intro m hm
    rw [hI.id_eq m hm, hnm]; rfl
  have hgid : ∀ v ∈ net.nodes.map (·.name), graphID net v = idOf nodes v := by
    intro v hv
    rw [graphID_eq hI hv, hnm]; rfl
  have hedge : (fun c n => ∃ cs, (n, cs) ∈ graphNodes net ∧ c ∈ cs) = Edge nodes := by
    funext c n
    apply propext
    constructor
    · rintro ⟨cs, hcs, hc⟩
      obtain ⟨m, hm, hme⟩ := List.mem_map.1 hcs
      cases hme
      obtain ⟨p, hp, rfl⟩ := List.mem_map.1 hc
      have hpk := hI.wf.known m hm p hp
      rw [hn] at hm
      obtain ⟨m0, hm0, rfl⟩ := List.mem_map.1 hm
      refine ⟨p, m0.name, ⟨m0, hm0, rfl, (hsd m0 hm0).parents ▸ hp⟩, (hgid p hpk).symm, ?_⟩
      rw [hid' _ (hn ▸ hm), (hsd m0 hm0).name]
    · rintro ⟨p, v, ⟨m0, hm0, rfl, hp⟩, rfl, rfl⟩
      have hm : f m0 ∈ net.nodes := by rw [hn]; exact List.mem_map.2 ⟨m0, hm0, rfl⟩
      have hp' : p ∈ (f m0).parents := by rw [(hsd m0 hm0).parents]; exact hp
      refine ⟨_, List.mem_map.2 ⟨f m0, hm, Prod.ext ?_ rfl⟩, List.mem_map.2 ⟨p, hp', ?_⟩⟩
      · show (f m0).id.toNat = _
        rw [hid' _ hm, (hsd m0 hm0).name]
      · exact hgid p (hI.wf.known _ hm p hp')
  refine ⟨?_, ?_⟩
  · rw [← hedge]
    apply Graph.finalize_graphs
    intro n cs hcs c hc
    obtain ⟨m, hm, hme⟩ := List.mem_map.1 hcs
    cases hme
    obtain ⟨p, hp, rfl⟩ := List.mem_map.1 hc
    have hpk := hI.wf.known m hm p hp
    obtain ⟨q, hq, rfl⟩ := List.mem_map.1 hpk
    rw [hgid _ hpk, ← hid' q hq]
    exact List.mem_map.2 ⟨_, List.mem_map.2 ⟨q, hq, rfl⟩, rfl⟩
  · intro i
    have hfst : (graphNodes net).map Prod.fst = net.nodes.map (fun n => n.id.toNat) := by
      unfold graphNodes; rw [List.map_map]; rfl
    rw [hfst]
    constructor
    · intro hi
      obtain ⟨m, hm, rfl⟩ := List.mem_map.1 hi
      have hv : m.name ∈ names nodes := by
        rw [← hnm]; exact mem_names.2 (List.mem_map.2 ⟨m, hm, rfl⟩)
      show m.id.toNat < _
      rw [hid' m hm, ← List.length_map (as := nodes) (·.name), ← (names_perm nodes).length_eq]
      exact List.idxOf_lt_length_of_mem hv
    · intro hi
      obtain ⟨m, hm, rfl⟩ := exists_node h hi
      refine List.mem_map.2 ⟨f m, by rw [hn]; exact List.mem_map.2 ⟨m, hm, rfl⟩, ?_⟩
      show (f m).id.toNat = _
      rw [hid' _ (by rw [hn]; exact List.mem_map.2 ⟨m, hm, rfl⟩), (hsd m hm).name]

end

/-! ## What an answer of the graph says about the distribution -/

section answers
variable [Nonempty β]

/-- **C66.** Variables that are d-separated in the graph are reported as independent by the
d-separation test, and the conditional mutual information computed from the tables is zero: the two
oracles agree. -/
theorem oracles_agree_on_separation (nodes : List (Node ν β)) (h : WellFormed nodes)
    (hN : Normalised nodes) (hid : NoIDs nodes) (net : Net ν β)
    (e : finalize { nodes := nodes } = .ok net) (ord : List Int → List Int)
    (hord : ∀ l, (ord l).Perm l) (X Y : Nat) (Z : List Nat) (hXY : X < Y) (hY : Y < nodes.length)
    (hZ : ∀ z ∈ Z, z < nodes.length) (hXZ : X ∉ Z) (hYZ : Y ∉ Z)
    (hsep : Graph.DSep (Edge nodes) X Y {z | z ∈ Z}) :
    Graph.condIndependent (graphOf net) X Y Z = .ok true ∧
      cmiFromNet ord net X Y (Z.map (fun z : Nat => (z : Int))) = .ok 0 := by
  refine ⟨Graph.d_separated_complete (finalized_graph nodes h hid net e).1 hsep, ?_⟩
  obtain ⟨v, hv, -, h0⟩ := cmi_source_zero_iff nodes h hN hid net e ord hord X Y
    (Z.map (fun z : Nat => (z : Int))) (by exact_mod_cast hXY)
    (by simpa using hXZ) (by simpa using hYZ) (by
      intro i hi
      rcases List.mem_cons.1 hi with rfl | hi
      · omega
      rcases List.mem_cons.1 hi with rfl | hi
      · omega
      obtain ⟨z, hz, rfl⟩ := List.mem_map.1 hi
      have := hZ z hz
      omega)
  rw [hv, h0.2 (d_separation_implies_independence nodes h hN X Y Z (by omega) hY hZ hXZ hYZ hsep)]

/-- **C66.** A dependence that shows in the tables is never missed by the d-separation test: if the
conditional mutual information is not zero, `conditionally_independent` answers `False` whenever the
conditioning set has a child in it for every node above it. -/
theorem dependence_seen_by_graph (nodes : List (Node ν β)) (h : WellFormed nodes)
    (hN : Normalised nodes) (hid : NoIDs nodes) (net : Net ν β)
    (e : finalize { nodes := nodes } = .ok net) (ord : List Int → List Int)
    (hord : ∀ l, (ord l).Perm l) (X Y : Nat) (Z : List Nat) (hXY : X < Y) (hY : Y < nodes.length)
    (hZ : ∀ z ∈ Z, z < nodes.length) (hXZ : X ∉ Z) (hYZ : Y ∉ Z)
    (hclosed : ∀ b, (∃ z ∈ Z, Graph.Desc (Edge nodes) b z) → b ∈ Z ∨ ∃ z ∈ Z, Edge nodes b z)
    (hcmi : cmiFromNet ord net X Y (Z.map (fun z : Nat => (z : Int))) ≠ .ok 0) :
    Graph.condIndependent (graphOf net) X Y Z = .ok false := by
  obtain ⟨r, hr, hiff⟩ := Graph.d_separated_decides_partial (finalized_graph nodes h hid net e).1 X Y Z
    hclosed
  cases r with
  | false => exact hr
  | true =>
    exact absurd (oracles_agree_on_separation nodes h hN hid net e ord hord X Y Z hXY hY hZ hXZ hYZ
      (hiff.1 rfl)).2 hcmi

/-- **C66.** When `conditionally_independent` answers `True`, the variables are independent given `Z`
in the distribution of the network, for every conditioning set such that each node above it is in it
or has a child in it.  (For the other sets this is false: `graph_oracle_wrong`.) -/
theorem reported_separation_is_independence (nodes : List (Node ν β)) (h : WellFormed nodes)
    (hN : Normalised nodes) (hid : NoIDs nodes) (net : Net ν β)
    (e : finalize { nodes := nodes } = .ok net) (X Y : Nat) (Z : List Nat) (hX : X < nodes.length)
    (hY : Y < nodes.length) (hZ : ∀ z ∈ Z, z < nodes.length) (hXZ : X ∉ Z) (hYZ : Y ∉ Z)
    (hclosed : ∀ b, (∃ z ∈ Z, Graph.Desc (Edge nodes) b z) → b ∈ Z ∨ ∃ z ∈ Z, Edge nodes b z)
    (hans : Graph.condIndependent (graphOf net) X Y Z = .ok true) :
    NetIndependent nodes X Y (Z.map (fun z : Nat => (z : Int))) := by
  obtain ⟨r, hr, hiff⟩ := Graph.d_separated_decides_partial (finalized_graph nodes h hid net e).1 X Y Z
    hclosed
  rw [hans] at hr
  exact d_separation_implies_independence nodes h hN X Y Z hX hY hZ hXZ hYZ
    (hiff.1 (Except.ok.inj hr).symm)

/-- The same for networks in which no node with two parents has a grandchild, and every `Z`. -/
theorem reported_separation_is_independence_shallow (nodes : List (Node ν β)) (h : WellFormed nodes)
    (hN : Normalised nodes) (hid : NoIDs nodes) (net : Net ν β)
    (e : finalize { nodes := nodes } = .ok net) (X Y : Nat) (Z : List Nat) (hX : X < nodes.length)
    (hY : Y < nodes.length) (hZ : ∀ z ∈ Z, z < nodes.length) (hXZ : X ∉ Z) (hYZ : Y ∉ Z)
    (hsh : ∀ a b c d e, a ≠ b → Edge nodes a c → Edge nodes b c → Edge nodes c d → ¬ Edge nodes d e)
    (hans : Graph.condIndependent (graphOf net) X Y Z = .ok true) :
    NetIndependent nodes X Y (Z.map (fun z : Nat => (z : Int))) := by
  obtain ⟨r, hr, hiff⟩ := Graph.d_separated_shallow (finalized_graph nodes h hid net e).1 hsh X Y Z
  rw [hans] at hr
  exact d_separation_implies_independence nodes h hN X Y Z hX hY hZ hXZ hYZ
    (hiff.1 (Except.ok.inj hr).symm)

/-! ## What a Markov blanket says about the distribution -/

/-- **C66.** Given a set that contains its parents, its children and their other parents, a variable
is independent of every variable outside of the set. -/
theorem blanket_shields (nodes : List (Node ν β)) (h : WellFormed nodes) (hN : Normalised nodes)
    (T : Nat) (hT : T < nodes.length) (S : List Nat) (hS : ∀ z ∈ S, z < nodes.length) (hTS : T ∉ S)
    (hB : ∀ v, Graph.IsBlanket (Edge nodes) T v → v ∈ S) (Y : Nat) (hY : Y < nodes.length)
    (hYT : Y ≠ T) (hYS : Y ∉ S) :
    NetIndependent nodes T Y (S.map (fun z : Nat => (z : Int))) :=
  d_separation_implies_independence nodes h hN T Y S hT hY hS hTS hYS
    (Graph.blanket_separates (edge_acyclic h) hB hYS hYT)

variable {σ : Type}

/-- **C66.** IAMB, run with the d-separation test on the graph of a network, returns a set given
which the target is independent of every other variable in the distribution of the network. -/
theorem iamb_result_shields (nodes : List (Node ν β)) (h : WellFormed nodes) (hN : Normalised nodes)
    (hid : NoIDs nodes) (net : Net ν β) (e : finalize { nodes := nodes } = .ok net) (T : Nat)
    (hT : T < nodes.length) (o : List Nat → σ → List Nat × σ) (ho : ∀ l s, (o l s).1.Perm l)
    (s : MB.St σ) :
    ∃ r s', MB.iamb (MB.dsepWorld (graphOf net) o) (List.range nodes.length) T s = .ok (r, s') ∧
      ∀ Y, Y < nodes.length → Y ≠ T → Y ∉ r →
        NetIndependent nodes T Y (r.map (fun z : Nat => (z : Int))) := by
  obtain ⟨hrep, hV⟩ := finalized_graph nodes h hid net e
  obtain ⟨r, s', hr, -, hmem⟩ := MB.iamb_finds_blanket hrep (edge_acyclic h)
    (U := List.range nodes.length) (T := T) (by
      rintro v ⟨-, hv⟩
      rw [List.mem_range, ← hV]
      rcases hv with hv | hv | ⟨c, -, hv⟩
      · exact (hrep.edge_mem _ _ hv).1
      · exact (hrep.edge_mem _ _ hv).2
      · exact (hrep.edge_mem _ _ hv).1) o ho s
  refine ⟨r, s', hr, fun Y hY hYT hYr => blanket_shields nodes h hN T hT r ?_ ?_ ?_ Y hY hYT hYr⟩
  · intro z hz
    rw [← hV]
    rcases ((hmem z).1 hz).2 with hv | hv | ⟨c, -, hv⟩
    · exact (hrep.edge_mem _ _ hv).1
    · exact (hrep.edge_mem _ _ hv).2
    · exact (hrep.edge_mem _ _ hv).1
  · exact fun hTr => ((hmem T).1 hTr).1 rfl
  · exact fun v hv => (hmem v).2 hv

/-- **C66.** IPC-MB with the same test may return more than the blanket
(`ipcmb_shipped_not_exact`), but what it returns still shields the target. -/
theorem ipcmb_result_shields (nodes : List (Node ν β)) (h : WellFormed nodes) (hN : Normalised nodes)
    (hid : NoIDs nodes) (net : Net ν β) (e : finalize { nodes := nodes } = .ok net) (T : Nat)
    (hT : T < nodes.length) (o : List Nat → σ → List Nat × σ) (ho : ∀ l s, (o l s).1.Perm l)
    (s : MB.St σ) :
    ∃ r s', MB.ipcmb (MB.dsepWorld (graphOf net) o) (List.range nodes.length) T false s =
        .ok (r, s') ∧
      ∀ Y, Y < nodes.length → Y ≠ T → Y ∉ r →
        NetIndependent nodes T Y (r.map (fun z : Nat => (z : Int))) := by
  obtain ⟨hrep, hV⟩ := finalized_graph nodes h hid net e
  have hEU : ∀ a b, Edge nodes a b → a ∈ List.range nodes.length ∧ b ∈ List.range nodes.length := by
    intro a b hab
    rw [List.mem_range, List.mem_range, ← hV, ← hV]
    exact hrep.edge_mem a b hab
  have hans := MB.dsepWorld_answers hrep o
  obtain ⟨r, s', hr, -, hmem⟩ := MB.ipcmb_contains_blanket (W := MB.dsepWorld (graphOf net) o) ho
    (MB.shipped_oracle (Edge nodes)) hans (edge_acyclic h) List.nodup_range
    (List.mem_range.2 hT) hEU s
  obtain ⟨r', s'', hr', -, hmem'⟩ := MB.ipcmb_well_formed (W := MB.dsepWorld (graphOf net) o) ho
    hans.total (U := List.range nodes.length) List.nodup_range T false s
  rw [hr] at hr'
  obtain ⟨rfl, rfl⟩ := Prod.mk.inj (Except.ok.inj hr')
  exact ⟨r, s', hr, fun Y hY hYT hYr => blanket_shields nodes h hN T hT r
    (fun z hz => List.mem_range.1 (hmem' z hz).1) (fun hTr => (hmem' T hTr).2 rfl) hmem Y hY hYT hYr⟩

/-! ## The local Markov property -/

/-- A node is separated from its non-descendants by its parents. -/
theorem _root_.Mbtk.Graph.nondescendants_separate {E : Nat → Nat → Prop} (hE : Graph.Acyclic E) {x y : Nat}
    {Z : Set Nat} (hpar : ∀ p, E p x → p ∈ Z) (hdes : ∀ z ∈ Z, ¬ Graph.Desc E x z) (hy : y ∉ Z)
    (hxy : ¬ Graph.Desc E x y) : Graph.DSep E x y Z := by
  rintro ⟨p, hp, ho⟩
  cases p with
  | nil => exact hp.ne_nil rfl
  | cons a q =>
    obtain ⟨rfl, ⟨-, h⟩ | ⟨b, hab, -, -, hq⟩⟩ := Graph.simplePath_cons_iff.1 hp
    · exact hxy (h ▸ .refl)
    cases q with
    | nil => exact hq.ne_nil rfl
    | cons b' q =>
      have hb : b' = b := by simpa using hq.head
      subst hb
      rcases hab with hab | hba
      · rcases Graph.open_walk_down a b' q hab hp.chain ho with ⟨z, hz, hd⟩ | hall
        · exact hdes z hz hd
        · exact hxy (hall y hq.last).to_reflTransGen
      · have hbZ := hpar b' hba
        cases q with
        | nil =>
          have : b' = y := by simpa using hq.last
          exact hy (this ▸ hbZ)
        | cons c q =>
          exact (ho a b' c ⟨[], q, rfl⟩).2 (fun hh => hE.asymm hba hh.1) hbZ

omit [Nonempty β] in
theorem desc_edge {nodes : List (Node ν β)} {v : ν}
    (hv : v ∈ nodes.map (·.name)) {i : Nat} (hd : Graph.Desc (Edge nodes) (idOf nodes v) i) :
    ∃ w ∈ nodes.map (·.name), idOf nodes w = i ∧ AncestorOrSelf nodes v w := by
  induction hd with
  | refl => exact ⟨v, hv, rfl, .refl⟩
  | tail _ hbc ih =>
    obtain ⟨w, hw, rfl, hvw⟩ := ih
    obtain ⟨p, c, hpc, hp, rfl⟩ := hbc
    have hwp : w = p := idOf_inj hw hp.symm
    subst hwp
    obtain ⟨n, hn, rfl, -⟩ := id hpc
    exact ⟨n.name, List.mem_map.2 ⟨n, hn, rfl⟩, rfl, hvw.tail hpc⟩

/-- **C66.** The local Markov property: a variable is independent of every variable that is not
below it, given its parents; the d-separation test says so, too. -/
theorem local_markov (nodes : List (Node ν β)) (h : WellFormed nodes) (hN : Normalised nodes)
    (hid : NoIDs nodes) (net : Net ν β) (e : finalize { nodes := nodes } = .ok net)
    (n m : Node ν β) (hn : n ∈ nodes) (hm : m ∈ nodes) (hmp : m.name ∉ n.parents)
    (hnd : ¬ AncestorOrSelf nodes n.name m.name) :
    NetIndependent nodes (idOf nodes n.name) (idOf nodes m.name)
        (n.parents.map (fun p => (idOf nodes p : Int))) ∧
      Graph.condIndependent (graphOf net) (idOf nodes n.name) (idOf nodes m.name)
        (n.parents.map (idOf nodes)) = .ok true := by
  have hname : ∀ k ∈ nodes, k.name ∈ nodes.map (·.name) := fun k hk => List.mem_map.2 ⟨k, hk, rfl⟩
  have hlt : ∀ v ∈ nodes.map (·.name), idOf nodes v < nodes.length := by
    intro v hv
    rw [← List.length_map (as := nodes) (·.name), ← (names_perm nodes).length_eq]
    exact List.idxOf_lt_length_of_mem (mem_names.2 hv)
  have hZmem : ∀ v ∈ nodes.map (·.name), idOf nodes v ∈ n.parents.map (idOf nodes) → v ∈ n.parents := by
    intro v hv hz
    obtain ⟨p, hp, hpe⟩ := List.mem_map.1 hz
    rw [idOf_inj hv hpe.symm]; exact hp
  have hirr : n.name ∉ n.parents := fun hp => h.acyclic n.name (.single ⟨n, hn, rfl, hp⟩)
  have hsep : Graph.DSep (Edge nodes) (idOf nodes n.name) (idOf nodes m.name)
      {z | z ∈ n.parents.map (idOf nodes)} := by
    apply Graph.nondescendants_separate (edge_acyclic h)
    · rintro _ ⟨p, c, ⟨k, hk, rfl, hp⟩, rfl, hc⟩
      have : n = k := unique_node h.unique hn hk (idOf_inj (hname n hn) hc.symm)
      subst this
      exact List.mem_map.2 ⟨p, hp, rfl⟩
    · intro z hz hd
      obtain ⟨w, hw, rfl, hnw⟩ := desc_edge (hname n hn) hd
      have hwp := hZmem w hw hz
      exact h.acyclic n.name (Relation.TransGen.tail' hnw ⟨n, hn, rfl, hwp⟩)
    · exact fun hz => hmp (hZmem _ (hname m hm) hz)
    · intro hd
      obtain ⟨w, hw, hwe, hnw⟩ := desc_edge (hname n hn) hd
      rw [idOf_inj hw hwe] at hnw
      exact hnd hnw
  refine ⟨?_, Graph.d_separated_complete (finalized_graph nodes h hid net e).1 hsep⟩
  have := d_separation_implies_independence nodes h hN (idOf nodes n.name) (idOf nodes m.name)
    (n.parents.map (idOf nodes)) (hlt _ (hname n hn)) (hlt _ (hname m hm)) (by
      intro z hz
      obtain ⟨p, hp, rfl⟩ := List.mem_map.1 hz
      exact hlt _ (h.known n hn p hp))
    (fun hz => hirr (hZmem _ (hname n hn) hz)) (fun hz => hmp (hZmem _ (hname m hm) hz)) hsep
  rw [List.map_map] at this
  exact this

end answers

/-! ## Examples and a finding -/

theorem prob_decidable [Nonempty β] (nodes : List (Node ν β)) (E : (ν → β) → Prop) [DecidablePred E] :
    prob nodes E = (((assignments nodes).filter (fun a => decide (E a))).map (jointProb nodes)).sum := by
  unfold prob
  congr 3
  funext a
  exact decide_eq_decide.2 Iff.rfl

/-- The network `0 → 1 ← 2`, `1 → 3 → 4` in which 0 and 2 are fair coins, 1 is whether they differ,
and 3 and 4 repeat 1. (Example.) -/
def exXor : List (Node Nat Nat) :=
  [{ name := 0, values := [0, 1], parents := [], probabilities := [(.unconditioned, [1/2, 1/2])] },
   { name := 1, values := [0, 1], parents := [0, 2],
     probabilities := [(.values [0, 0], [1, 0]), (.values [0, 1], [0, 1]),
       (.values [1, 0], [0, 1]), (.values [1, 1], [1, 0])] },
   { name := 2, values := [0, 1], parents := [], probabilities := [(.unconditioned, [1/2, 1/2])] },
   { name := 3, values := [0, 1], parents := [1],
     probabilities := [(.values [0], [1, 0]), (.values [1], [0, 1])] },
   { name := 4, values := [0, 1], parents := [3],
     probabilities := [(.values [0], [1, 0]), (.values [1], [0, 1])] }]

theorem exXor_wf : WellFormed exXor :=
  wellFormed_of_check (by decide) (l := [0, 2, 1, 3, 4]) (by decide +kernel) (by decide) (by decide +kernel)
    (by decide +kernel)

theorem exXor_normalised : Normalised exXor := by
  intro n hn vs h
  rw [mem_combos] at h
  revert n vs
  decide +kernel

theorem exXor_noIDs : NoIDs exXor := by
  intro n hn; revert n; decide

theorem exXor_graph : (do
    let net ← finalize { nodes := exXor }
    Except.ok (graphNodes net)).toOption =
    some [(0, []), (1, [0, 2]), (2, []), (3, [1]), (4, [3])] := by decide +kernel

theorem exXor_dependent : ¬ NetIndependent exXor 0 2 [4] := by
  intro hind
  have := hind 0 0 [0]
  unfold jointXYZ at this
  simp only [prob_decidable] at this
  revert this
  decide +kernel

/-- **Finding.** In this network 0 and 2 determine each other given 4, yet `conditionally_independent`
answers `True`: the graph oracle only looks at the children of the collider 1. -/
theorem graph_oracle_wrong : ∃ net, finalize { nodes := exXor } = .ok net ∧
    Graph.condIndependent (graphOf net) 0 2 [4] = .ok true ∧ ¬ NetIndependent exXor 0 2 [4] := by
  obtain ⟨net, e, _⟩ := finalize_ok exXor_wf
  refine ⟨net, e, ?_, exXor_dependent⟩
  have hg := exXor_graph
  rw [e] at hg
  change some (graphNodes net) = _ at hg
  unfold graphOf
  rw [Option.some.inj hg]
  decide +kernel

/-- The hypotheses of the theorems above are met: `exXor` is well-formed and normalised, 0 and 2 are
separated by nothing, and 3 shields 4 from the rest. -/
example : ∃ net, finalize { nodes := exXor } = .ok net ∧
    Graph.condIndependent (graphOf net) 0 2 [] = .ok true ∧ NetIndependent exXor 0 2 [] ∧
    cmiFromNet id net 0 2 [] = .ok 0 := by
  obtain ⟨net, e, _⟩ := finalize_ok exXor_wf
  have hg := exXor_graph
  rw [e] at hg
  change some (graphNodes net) = _ at hg
  have hans : Graph.condIndependent (graphOf net) 0 2 [] = .ok true := by
    unfold graphOf
    rw [Option.some.inj hg]
    decide +kernel
  have hrep := (finalized_graph exXor exXor_wf exXor_noIDs net e).1
  obtain ⟨r, hr, hiff⟩ := Graph.d_separated_decides_partial hrep 0 2 [] (by simp)
  rw [hans] at hr
  refine ⟨net, e, hans, ?_, ?_⟩
  · simpa using reported_separation_is_independence exXor exXor_wf exXor_normalised exXor_noIDs net e
      0 2 [] (by decide) (by decide) (by simp) (by simp) (by simp) (by simp) hans
  · simpa using (oracles_agree_on_separation exXor exXor_wf exXor_normalised exXor_noIDs net e id
      (fun l => List.Perm.refl l) 0 2 [] (by decide) (by decide) (by simp) (by simp) (by simp)
      (hiff.1 (Except.ok.inj hr).symm)).2

/-- What IAMB and IPC-MB return for the variable 1 of `exXor` shields it. -/
example (s : MB.St Unit) : ∃ net, finalize { nodes := exXor } = .ok net ∧
    (∃ r s', MB.iamb (MB.dsepWorld (graphOf net) (fun l u => (l.reverse, u))) (List.range 5) 1 s =
      .ok (r, s') ∧ ∀ Y, Y < 5 → Y ≠ 1 → Y ∉ r →
        NetIndependent exXor (1 : Nat) Y (r.map (fun z : Nat => (z : Int)))) ∧
    (∃ r s', MB.ipcmb (MB.dsepWorld (graphOf net) (fun l u => (l.reverse, u))) (List.range 5) 1 false s =
      .ok (r, s') ∧ ∀ Y, Y < 5 → Y ≠ 1 → Y ∉ r →
        NetIndependent exXor (1 : Nat) Y (r.map (fun z : Nat => (z : Int)))) := by
  obtain ⟨net, e, _⟩ := finalize_ok exXor_wf
  exact ⟨net, e, iamb_result_shields exXor exXor_wf exXor_normalised exXor_noIDs net e 1 (by decide) _
    (fun l _ => l.reverse_perm) s, ipcmb_result_shields exXor exXor_wf exXor_normalised exXor_noIDs net
    e 1 (by decide) _ (fun l _ => l.reverse_perm) s⟩

/-- `local_markov` applies to the variables 3 and 0 of `exXor`. -/
example : NetIndependent exXor 3 0 [1] := by
  obtain ⟨net, e, _⟩ := finalize_ok exXor_wf
  have hnd : ¬ AncestorOrSelf exXor 3 0 := by
    intro hd
    rcases Relation.ReflTransGen.cases_tail hd with h | ⟨c, -, n, hn, hname, hp⟩
    · cases h
    · have h0 : ∀ n ∈ exXor, n.name = 0 → n.parents = [] := by decide
      rw [h0 n hn hname] at hp
      cases hp
  have := (local_markov exXor exXor_wf exXor_normalised exXor_noIDs net e exXor[3] exXor[0] (by simp)
    (by simp) (by decide) hnd).1
  have e1 : idOf exXor exXor[3].name = 3 := by decide +kernel
  have e2 : idOf exXor exXor[0].name = 0 := by decide +kernel
  have e3 : (exXor[3].parents.map (fun p => (idOf exXor p : Int))) = [1] := by decide +kernel
  rw [e1, e2, e3] at this
  exact this

end Mbtk.BN
