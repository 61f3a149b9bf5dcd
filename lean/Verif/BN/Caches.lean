import Verif.BN.Partial
/-!
# The memoised methods of a network, through any series of calls and edits (C91)

`create_joint_pmf`, `create_partial_joint_pmf`, `get_subnetwork` and `VariableNode.probability_of_value` are
decorated with `functools.cache`: a call with arguments that were used before gives the very object that was
returned then.  A user may also change the object returned, or the tables of the network.

A subnetwork has copies of the nodes (with memories of their own) that share the tables with the nodes of the
network: an edit changes both (`State.edit`).  Making a subnetwork finalises its nodes, which computes the
cumulative sums of the shared tables anew.

Simplifications: if making a subnetwork raises, no cumulative sums are changed; of the edits only the
replacement of a row is modelled; `probabilities_with_indexed_conditioning` is left alone (nothing reads it).
-/
namespace Mbtk.BN.Caches
open Mbtk Mbtk.BN Mbtk.BN.Spec
open Mbtk.Stats (PMF Key)
variable {ν β : Type} [LinearOrder ν] [DecidableEq β]

/-! ## Calls that remember table entries -/

/-- The memory of `probability_of_value` for the nodes of one network. BayesianNetwork.py 610-614. -/
abbrev Cells (ν β : Type) := List ((ν × β × CondKey β) × ℚ)

/-- `probability_of_value(value, conditioning_values)` with its memory; exceptions are not remembered.
BayesianNetwork.py 610-614. -/
def readCell (n : Node ν β) (v : β) (k : CondKey β) (c : Cells ν β) : Except Err ℚ × Cells ν β :=
  match dictGet c (n.name, v, k) with
  | some q => (.ok q, c)
  | none => match probabilityOfValue n v k with
    | .ok q => (.ok q, dictSet c (n.name, v, k) q)
    | .error e => (.error e, c)

/-- The value-and-probability of one branch: BayesianNetwork.py 178-181. -/
def branchProbC (n : Node ν β) (cur : List (ν × β)) (prob : ℚ) (v : β) (c : Cells ν β) :
    Except Err ℚ × Cells ν β :=
  match sampleGets cur n.parents with
  | .error e => (.error e, c)
  | .ok l => match readCell n v (rowKey l) c with
    | (.error e, c) => (.error e, c)
    | (.ok p, c) => (.ok (prob * p), c)

/-- The `for value in current_variable.values` loop: BayesianNetwork.py 177-183. -/
def jointValuesC (rec_ : List (Key × ℚ) → List (ν × β) → ℚ → Cells ν β → Except Err (List (Key × ℚ)) × Cells ν β)
    (n : Node ν β) (cur : List (ν × β)) (prob : ℚ) :
    List β → List (Key × ℚ) → Cells ν β → Except Err (List (Key × ℚ)) × Cells ν β
  | [], joint, c => (.ok joint, c)
  | v :: vs, joint, c =>
    match branchProbC n cur prob v c with
    | (.error e, c) => (.error e, c)
    | (.ok p, c) => match rec_ joint (dictSet cur n.name v) p c with
      | (.error e, c) => (.error e, c)
      | (.ok joint, c) => jointValuesC rec_ n cur prob vs joint c

/-- `joint_values_and_probabilities`: BayesianNetwork.py 161-187 (see `jointRec`). -/
def jointRecC (nodes : List (Node ν β)) (order : List ν) : Nat → List (Key × ℚ) →
    List (ν × β) → ℚ → Cells ν β → Except Err (List (Key × ℚ)) × Cells ν β
  | 0, _, _, _, c => (.error .recursion, c)
  | fuel + 1, joint, cur, prob, c =>
    if cur.length = order.length then
      match jointKey nodes cur with
      | .error e => (.error e, c)
      | .ok k => (.ok (dictSet joint k prob), c)
    else
      match order[cur.length]? with
      | none => (.error .indexError, c)
      | some v => match getNode nodes v with
        | .error e => (.error e, c)
        | .ok n =>
          if n.values = [] then (.error .keyError, c)
          else jointValuesC (jointRecC nodes order fuel) n cur prob n.values joint c

/-- `create_joint_pmf()` when it is not remembered itself: BayesianNetwork.py 153-157. -/
def jointC (net : Net ν β) (c : Cells ν β) : Except Err PMF × Cells ν β :=
  if net.finalized then
    match jointRecC net.nodes net.nodeOrder (net.nodeOrder.length + 1) [] [] 1 c with
    | (.error e, c) => (.error e, c)
    | (.ok d, c) => (.ok ⟨d, net.ids, none⟩, c)
  else (.error (.custom "BayesianNetworkNotFinalizedError"), c)

/-! ## Sessions -/

/-- A subnetwork made before, with the memory of its nodes and of its `create_joint_pmf`.
BayesianNetwork.py 190-228. -/
structure Sub (ν β : Type) where
  net : Net ν β
  cells : Cells ν β
  joint : Option PMF

/-- A network and the memories of its methods. BayesianNetwork.py 151-215, 610-614. -/
structure State (ν β : Type) where
  net : Net ν β
  cells : Cells ν β
  /-- of `create_joint_pmf`, for each way of writing the call: `()`, `(True)`, `(values_as_indices=True)` -/
  joint : List (Nat × PMF)
  /-- of `get_subnetwork` -/
  subs : List (List Int × Sub ν β)
  /-- of `create_partial_joint_pmf` -/
  part : List (List Int × PMF)

/-- A network that was not used yet. BayesianNetwork.py 30-42. -/
def fresh (net : Net ν β) : State ν β := ⟨net, [], [], [], []⟩

/-- What can be asked. BayesianNetwork.py 70-95, 153-157, 192-201, 610-614. -/
inductive Query (ν β : Type) where
  | joint (form : Nat)
  | part (variables_ : List Int)
  | entry (name : ν) (v : β) (k : CondKey β)
  | sample (rolls : Nat → ℚ)

/-- What a user does. BayesianNetwork.py 30-42, PMF.py 69-91. -/
inductive Op (ν β : Type) where
  | ask (q : Query ν β)
  /-- `pmf.IDs(*ids)` of the object got from `create_joint_pmf` -/
  | relabelJoint (form : Nat) (ids : List Int)
  /-- the same for `create_partial_joint_pmf` -/
  | relabelPart (variables_ : List Int) (ids : List Int)
  /-- `node.probdist.probabilities[k] = row` -/
  | setRow (name : ν) (k : CondKey β) (row : List ℚ)

/-- (Specification.) -/
inductive Answer (ν β : Type) where
  | pmf (p : PMF)
  | prob (q : ℚ)
  | values (s : List (ν × β))
  | nothing

/-- Replacing a row in the table of the node with the name. BayesianNetwork.py 652-665. -/
def editNode (name : ν) (k : CondKey β) (row : List ℚ) (n : Node ν β) : Node ν β :=
  if n.name = name then { n with probabilities := dictSet n.probabilities k row } else n

/-- BayesianNetwork.py 652-665. -/
def editNet (name : ν) (k : CondKey β) (row : List ℚ) (net : Net ν β) : Net ν β :=
  { net with nodes := net.nodes.map (editNode name k row) }

/-- The nodes of the network and of the subnetworks share the table. BayesianNetwork.py 218-228. -/
def State.edit (s : State ν β) (name : ν) (k : CondKey β) (row : List ℚ) : State ν β :=
  { s with
    net := editNet name k row s.net
    subs := s.subs.map (fun x => (x.1, { x.2 with net := editNet name k row x.2.net })) }

/-- `probdist.finalize()` of the shared tables of the nodes with these names. BayesianNetwork.py 277-279,
686-696. -/
def recumulate (vs : List ν) (net : Net ν β) : Net ν β :=
  { net with nodes := net.nodes.map (fun n =>
      if n.name ∈ vs then { n with cumulative := cumulativeOf n.probabilities } else n) }

/-- `get_subnetwork(variables)` with its memory. BayesianNetwork.py 204-215. -/
def getSub (ord : List Int → List Int) (s : State ν β) (vars : List Int) : Except Err (Sub ν β) × State ν β :=
  match dictGet s.subs vars with
  | some sub => (.ok sub, s)
  | none => match getSubnetwork ord s.net vars with
    | .error e => (.error e, s)
    | .ok net => (.ok ⟨net, [], none⟩,
        { s with net := recumulate (net.nodes.map (·.name)) s.net, subs := dictSet s.subs vars ⟨net, [], none⟩ })

/-- `subnetwork.create_joint_pmf()` with its memory. BayesianNetwork.py 151-157, 195. -/
def subJoint (s : State ν β) (vars : List Int) (sub : Sub ν β) : Except Err PMF × State ν β :=
  match sub.joint with
  | some p => (.ok p, s)
  | none => match jointC sub.net sub.cells with
    | (.error e, c) => (.error e, { s with subs := dictSet s.subs vars { sub with cells := c } })
    | (.ok p, c) => (.ok p, { s with subs := dictSet s.subs vars { sub with cells := c, joint := some p } })

/-- `create_partial_joint_pmf(variables)` with its memory. BayesianNetwork.py 190-201. -/
def askPart (ord : List Int → List Int) (s : State ν β) (vars : List Int) : Except Err PMF × State ν β :=
  match dictGet s.part vars with
  | some p => (.ok p, s)
  | none =>
    if s.net.finalized then
      match getSub ord s vars with
      | (.error e, s) => (.error e, s)
      | (.ok sub, s) => match subJoint s vars sub with
        | (.error e, s) => (.error e, s)
        | (.ok joint, s) =>
          match sumOverAll (ord (joint.variableIDs.filter (fun i => i ∉ vars)).dedup) joint with
          | .error e => (.error e, s)
          | .ok p => (.ok p, { s with part := dictSet s.part vars p })
    else (.error (.custom "BayesianNetworkNotFinalizedError"), s)

/-- `create_joint_pmf()` with its memory. BayesianNetwork.py 151-157. -/
def askJoint (s : State ν β) (form : Nat) : Except Err PMF × State ν β :=
  match dictGet s.joint form with
  | some p => (.ok p, s)
  | none => match jointC s.net s.cells with
    | (.error e, c) => (.error e, { s with cells := c })
    | (.ok p, c) => (.ok p, { s with cells := c, joint := dictSet s.joint form p })

/-- `variable_nodes[name].probability_of_value(v, k)`. BayesianNetwork.py 610-614. -/
def askEntry (s : State ν β) (name : ν) (v : β) (k : CondKey β) : Except Err ℚ × State ν β :=
  match getNode s.net.nodes name with
  | .error e => (.error e, s)
  | .ok n => ((readCell n v k s.cells).1, { s with cells := (readCell n v k s.cells).2 })

/-- One operation: the answer and the state after it. BayesianNetwork.py 70-95, 151-215, 610-614. -/
def step (ord : List Int → List Int) (s : State ν β) : Op ν β → Except Err (Answer ν β) × State ν β
  | .ask (.joint f) => ((askJoint s f).1.map .pmf, (askJoint s f).2)
  | .ask (.part vars) => ((askPart ord s vars).1.map .pmf, (askPart ord s vars).2)
  | .ask (.entry n v k) => ((askEntry s n v k).1.map .prob, (askEntry s n v k).2)
  | .ask (.sample rolls) => ((BN.sample s.net rolls).map .values, s)
  | .relabelJoint f ids =>
    (.ok .nothing, { s with joint := s.joint.map (fun x => if x.1 = f then (x.1, { x.2 with variableIDs := ids }) else x) })
  | .relabelPart vars ids =>
    (.ok .nothing, { s with part := s.part.map (fun x => if x.1 = vars then (x.1, { x.2 with variableIDs := ids }) else x) })
  | .setRow n k row => (.ok .nothing, s.edit n k row)

/-- A series of operations. BayesianNetwork.py 70-95, 151-215, 610-614. -/
def session (ord : List Int → List Int) : State ν β → List (Op ν β) → List (Except Err (Answer ν β)) × State ν β
  | s, [] => ([], s)
  | s, op :: ops => ((step ord s op).1 :: (session ord (step ord s op).2 ops).1, (session ord (step ord s op).2 ops).2)

/-! ## Specification -/

namespace Spec

/-- The answer of a network whose methods remember nothing. (Specification.) -/
def plain (ord : List Int → List Int) (net : Net ν β) : Query ν β → Except Err (Answer ν β)
  | .joint _ => (createJointPmf net).map .pmf
  | .part vars => (createPartialJointPmf ord net vars).map .pmf
  | .entry n v k => (getNode net.nodes n >>= fun n => probabilityOfValue n v k).map .prob
  | .sample rolls => (BN.sample net rolls).map .values

/-- The network with the edits made. (Specification.) -/
def edited (net : Net ν β) (ops : List (Op ν β)) : Net ν β :=
  ops.foldl (fun m op => match op with | .setRow n k row => editNet n k row m | _ => m) net

/-- The tables of the network. (Specification.) -/
def tables (net : Net ν β) : List (ν × List (CondKey β × List ℚ)) :=
  net.nodes.map (fun n => (n.name, n.probabilities))

/-- What is answered to a question after a series of operations. (Specification.) -/
def answerAfter (ord : List Int → List Int) (net : Net ν β) (ops : List (Op ν β)) (q : Query ν β) :
    Except Err (Answer ν β) :=
  (step ord (session ord (fresh net) ops).2 (.ask q)).1

end Spec
open Mbtk.BN.Caches.Spec

/-! ## Memories that agree with the tables -/

omit [DecidableEq β] in
theorem getNode_name {nodes : List (Node ν β)} {x : ν} {n : Node ν β} (h : getNode nodes x = .ok n) : n.name = x := by
  unfold getNode at h
  split at h
  · rename_i m hm
    cases h
    simpa using List.find?_some hm
  · cases h

omit [DecidableEq β] in
theorem getNode_self {nodes : List (Node ν β)} {x : ν} {n : Node ν β} (h : getNode nodes x = .ok n) :
    getNode nodes n.name = .ok n := by rw [getNode_name h]; exact h

/-- (Models no code: a notion for statements and proofs.) -/
def Agree (nodes : List (Node ν β)) (c : Cells ν β) : Prop :=
  ∀ x n v k q, getNode nodes x = .ok n → dictGet c (x, v, k) = some q → probabilityOfValue n v k = .ok q

theorem agree_nil (nodes : List (Node ν β)) : Agree nodes [] := by
  intro x n v k q _ h; simp [dictGet] at h

theorem readCell_agree {nodes : List (Node ν β)} {n : Node ν β} (hn : getNode nodes n.name = .ok n) {c : Cells ν β}
    (hc : Agree nodes c) (v : β) (k : CondKey β) :
    (readCell n v k c).1 = probabilityOfValue n v k ∧ Agree nodes (readCell n v k c).2 := by
  unfold readCell
  cases hd : dictGet c (n.name, v, k) with
  | some q => exact ⟨(hc _ _ _ _ _ hn hd).symm, hc⟩
  | none =>
    cases hp : probabilityOfValue n v k with
    | error e => exact ⟨rfl, hc⟩
    | ok q =>
      refine ⟨rfl, fun x m w k' q' hm hq => ?_⟩
      rw [dictGet_dictSet] at hq
      split at hq
      · rename_i he
        obtain ⟨rfl, rfl, rfl⟩ : x = n.name ∧ w = v ∧ k' = k := by
          simp only [Prod.mk.injEq] at he
          first | exact he | exact ⟨he.1.symm, he.2.1.symm, he.2.2.symm⟩
        rw [hn] at hm
        cases hm; cases hq
        exact hp
      · exact hc _ _ _ _ _ hm hq

theorem branchProbC_agree {nodes : List (Node ν β)} {n : Node ν β} (hn : getNode nodes n.name = .ok n) {c : Cells ν β}
    (hc : Agree nodes c) (cur : List (ν × β)) (prob : ℚ) (v : β) :
    (branchProbC n cur prob v c).1 = branchProb n cur prob v ∧ Agree nodes (branchProbC n cur prob v c).2 := by
  unfold branchProbC branchProb
  cases hs : sampleGets cur n.parents with
  | error e => exact ⟨rfl, hc⟩
  | ok l =>
    have h := readCell_agree hn hc v (rowKey l)
    show _ = (probabilityOfValue n v (rowKey l) >>= _) ∧ _
    rw [← h.1]
    simp only []
    rcases hr : readCell n v (rowKey l) c with ⟨r, c'⟩
    rw [hr] at h
    cases r with
    | error e => exact ⟨rfl, h.2⟩
    | ok q => exact ⟨rfl, h.2⟩

theorem jointValuesC_agree {nodes : List (Node ν β)}
    {recC : List (Key × ℚ) → List (ν × β) → ℚ → Cells ν β → Except Err (List (Key × ℚ)) × Cells ν β}
    {rec_ : List (Key × ℚ) → List (ν × β) → ℚ → Except Err (List (Key × ℚ))}
    (hrec : ∀ j cur p c, Agree nodes c → (recC j cur p c).1 = rec_ j cur p ∧ Agree nodes (recC j cur p c).2)
    {n : Node ν β} (hn : getNode nodes n.name = .ok n) (cur : List (ν × β)) (prob : ℚ) (vs : List β)
    (j : List (Key × ℚ)) {c : Cells ν β} (hc : Agree nodes c) :
    (jointValuesC recC n cur prob vs j c).1 = jointValues rec_ n cur prob vs j ∧
      Agree nodes (jointValuesC recC n cur prob vs j c).2 := by
  induction vs generalizing j c with
  | nil => exact ⟨rfl, hc⟩
  | cons v vs ih =>
    unfold jointValuesC jointValues
    have h := branchProbC_agree hn hc cur prob v
    rw [← h.1]
    rcases hb : branchProbC n cur prob v c with ⟨r, c1⟩
    rw [hb] at h
    cases r with
    | error e => exact ⟨rfl, h.2⟩
    | ok p =>
      have h2 := hrec j (dictSet cur n.name v) p c1 h.2
      show _ = (rec_ j (dictSet cur n.name v) p >>= _) ∧ _
      rw [← h2.1]
      simp only []
      rcases hr : recC j (dictSet cur n.name v) p c1 with ⟨r, c2⟩
      rw [hr] at h2
      cases r with
      | error e => exact ⟨rfl, h2.2⟩
      | ok j' => exact ih j' h2.2

theorem jointRecC_agree (nodes : List (Node ν β)) (order : List ν) (fuel : Nat) (j : List (Key × ℚ))
    (cur : List (ν × β)) (prob : ℚ) {c : Cells ν β} (hc : Agree nodes c) :
    (jointRecC nodes order fuel j cur prob c).1 = jointRec nodes order fuel j cur prob ∧
      Agree nodes (jointRecC nodes order fuel j cur prob c).2 := by
  induction fuel generalizing j cur prob c with
  | zero => exact ⟨rfl, hc⟩
  | succ fuel ih =>
    unfold jointRecC jointRec
    by_cases hl : cur.length = order.length
    · rw [if_pos hl, if_pos hl]
      cases jointKey nodes cur with
      | error e => exact ⟨rfl, hc⟩
      | ok k => exact ⟨rfl, hc⟩
    · rw [if_neg hl, if_neg hl]
      cases order[cur.length]? with
      | none => exact ⟨rfl, hc⟩
      | some v =>
        simp only []
        cases hg : getNode nodes v with
        | error e => exact ⟨rfl, hc⟩
        | ok n =>
          simp only []
          show _ = (if n.values = [] then _ else _) ∧ _
          by_cases hv : n.values = []
          · rw [if_pos hv, if_pos hv]; exact ⟨rfl, hc⟩
          · rw [if_neg hv, if_neg hv]
            exact jointValuesC_agree (fun j cur p c h => ih j cur p h) (getNode_self hg) cur prob n.values j hc

theorem jointC_agree (net : Net ν β) {c : Cells ν β} (hc : Agree net.nodes c) :
    (jointC net c).1 = createJointPmf net ∧ Agree net.nodes (jointC net c).2 := by
  unfold jointC createJointPmf requireFinal
  by_cases hf : net.finalized = true
  · rw [if_pos hf, if_pos hf]
    have h := jointRecC_agree net.nodes net.nodeOrder (net.nodeOrder.length + 1) [] [] 1 hc
    rw [← h.1]
    rcases hr : jointRecC net.nodes net.nodeOrder (net.nodeOrder.length + 1) [] [] 1 c with ⟨r, c'⟩
    rw [hr] at h
    cases r with
    | error e => exact ⟨rfl, h.2⟩
    | ok d => exact ⟨rfl, h.2⟩
  · rw [if_neg hf, if_neg hf]; exact ⟨rfl, hc⟩

/-! ## Without edits nothing is noticed -/

/-- (Models no code: a notion for statements and proofs.) -/
structure Inv (ord : List Int → List Int) (net : Net ν β) (s : State ν β) : Prop where
  net_eq : s.net = net
  cells : Agree net.nodes s.cells
  joint : ∀ f p, dictGet s.joint f = some p → createJointPmf net = .ok p
  subs : ∀ vars sub, dictGet s.subs vars = some sub → getSubnetwork ord net vars = .ok sub.net ∧
    Agree sub.net.nodes sub.cells ∧ ∀ p, sub.joint = some p → createJointPmf sub.net = .ok p
  part : ∀ vars p, dictGet s.part vars = some p → createPartialJointPmf ord net vars = .ok p

omit [DecidableEq β] in
theorem recumulate_self {net : Net ν β} (h : ∀ n ∈ net.nodes, n.cumulative = cumulativeOf n.probabilities)
    (vs : List ν) : recumulate vs net = net := by
  unfold recumulate
  have : net.nodes.map (fun n => if n.name ∈ vs then { n with cumulative := cumulativeOf n.probabilities } else n) =
      net.nodes := by
    conv_rhs => rw [← List.map_id net.nodes]
    apply List.map_congr_left
    intro n hn
    split
    · rw [← h n hn]; rfl
    · rfl
  rw [this]

theorem getSub_inv {ord : List Int → List Int} {net : Net ν β} {s : State ν β} (h : Inv ord net s)
    (hcum : ∀ n ∈ net.nodes, n.cumulative = cumulativeOf n.probabilities) (vars : List Int) :
    Inv ord net (getSub ord s vars).2 ∧
    (∀ e, (getSub ord s vars).1 = .error e → getSubnetwork ord net vars = .error e) ∧
    (∀ sub, (getSub ord s vars).1 = .ok sub → dictGet (getSub ord s vars).2.subs vars = some sub) := by
  unfold getSub
  cases hd : dictGet s.subs vars with
  | some sub => exact ⟨h, by simp, fun sub' hs => by cases hs; exact hd⟩
  | none =>
    simp only []
    rw [h.net_eq]
    cases hg : getSubnetwork ord net vars with
    | error e => exact ⟨h, fun e' he => by cases he; rfl, by simp⟩
    | ok sub =>
      refine ⟨⟨recumulate_self hcum _, h.cells, h.joint, fun vars' sub' hs => ?_, h.part⟩, by simp, fun sub' hs => ?_⟩
      · simp only [] at hs
        rw [dictGet_dictSet] at hs
        split at hs
        · rename_i he
          cases hs
          have he : vars' = vars := by first | exact he | exact he.symm
          rw [he, hg]
          exact ⟨rfl, agree_nil _, by simp⟩
        · exact h.subs _ _ hs
      · simp only [] at hs ⊢
        cases hs
        rw [dictGet_dictSet, if_pos rfl]

theorem subJoint_inv {ord : List Int → List Int} {net : Net ν β} {s : State ν β} (h : Inv ord net s)
    {vars : List Int} {sub : Sub ν β} (hs : dictGet s.subs vars = some sub) :
    Inv ord net (subJoint s vars sub).2 ∧ (subJoint s vars sub).1 = createJointPmf sub.net := by
  obtain ⟨h1, h2, h3⟩ := h.subs _ _ hs
  unfold subJoint
  cases hj : sub.joint with
  | some p => exact ⟨h, (h3 p hj).symm⟩
  | none =>
    simp only []
    have h4 := jointC_agree sub.net h2
    rw [← h4.1]
    rcases hr : jointC sub.net sub.cells with ⟨r, c⟩
    rw [hr] at h4
    have upd : ∀ x : Option PMF, (∀ p, x = some p → createJointPmf sub.net = .ok p) →
        Inv ord net { s with subs := dictSet s.subs vars { sub with cells := c, joint := x } } := by
      intro x hx
      refine ⟨h.net_eq, h.cells, h.joint, fun vars' sub' hs' => ?_, h.part⟩
      simp only [] at hs'
      rw [dictGet_dictSet] at hs'
      split at hs'
      · rename_i he
        cases hs'
        have he : vars' = vars := by first | exact he | exact he.symm
        rw [he]
        exact ⟨h1, h4.2, hx⟩
      · exact h.subs _ _ hs'
    cases r with
    | error e =>
      have := upd none (by simp)
      exact ⟨this, rfl⟩
    | ok p => exact ⟨upd (some p) (fun q hq => by cases hq; exact h4.1.symm), rfl⟩

theorem askPart_inv {ord : List Int → List Int} {net : Net ν β} {s : State ν β} (h : Inv ord net s)
    (hcum : ∀ n ∈ net.nodes, n.cumulative = cumulativeOf n.probabilities) (vars : List Int) :
    Inv ord net (askPart ord s vars).2 ∧ (askPart ord s vars).1 = createPartialJointPmf ord net vars := by
  unfold askPart
  cases hd : dictGet s.part vars with
  | some p => exact ⟨h, (h.part _ _ hd).symm⟩
  | none =>
    simp only []
    rw [h.net_eq]
    unfold createPartialJointPmf requireFinal
    by_cases hf : net.finalized = true
    · rw [if_pos hf, if_pos hf]
      obtain ⟨g1, g2, g3⟩ := getSub_inv h hcum vars
      rcases hg : getSub ord s vars with ⟨r, s1⟩
      rw [hg] at g1 g2 g3
      cases r with
      | error e => exact ⟨g1, by rw [g2 e rfl]; rfl⟩
      | ok sub =>
        have hs := g3 sub rfl
        obtain ⟨k1, k2⟩ := subJoint_inv g1 hs
        rw [(g1.subs _ _ hs).1]
        simp only []
        show _ ∧ _ = (createJointPmf sub.net >>= _)
        rw [← k2]
        rcases hj : subJoint s1 vars sub with ⟨r, s2⟩
        rw [hj] at k1 k2
        cases r with
        | error e => exact ⟨k1, rfl⟩
        | ok joint =>
          simp only []
          show _ ∧ _ = sumOverAll (ord (joint.variableIDs.filter (fun i => i ∉ vars)).dedup) joint
          cases hsum : sumOverAll (ord (joint.variableIDs.filter (fun i => i ∉ vars)).dedup) joint with
          | error e => exact ⟨k1, rfl⟩
          | ok p =>
            refine ⟨⟨k1.net_eq, k1.cells, k1.joint, k1.subs, fun vars' p' hp => ?_⟩, rfl⟩
            simp only [] at hp
            rw [dictGet_dictSet] at hp
            split at hp
            · rename_i he
              cases hp
              have he : vars' = vars := by first | exact he | exact he.symm
              rw [he]
              unfold createPartialJointPmf requireFinal
              rw [if_pos hf, (g1.subs _ _ hs).1]
              show (createJointPmf sub.net >>= _) = _
              rw [← k2]
              exact hsum
            · exact k1.part _ _ hp
    · rw [if_neg hf, if_neg hf]; exact ⟨h, rfl⟩

theorem step_inv {ord : List Int → List Int} {net : Net ν β} {s : State ν β} (h : Inv ord net s)
    (hcum : ∀ n ∈ net.nodes, n.cumulative = cumulativeOf n.probabilities) (q : Query ν β) :
    Inv ord net (step ord s (.ask q)).2 ∧ (step ord s (.ask q)).1 = plain ord net q := by
  cases q with
  | joint f =>
    simp only [step, plain]
    unfold askJoint
    cases hd : dictGet s.joint f with
    | some p => exact ⟨h, by rw [h.joint _ _ hd]⟩
    | none =>
      simp only []
      rw [h.net_eq]
      have h4 := jointC_agree net h.cells
      rw [← h4.1]
      rcases hr : jointC net s.cells with ⟨r, c⟩
      rw [hr] at h4
      cases r with
      | error e => exact ⟨⟨rfl, h4.2, h.joint, h.subs, h.part⟩, rfl⟩
      | ok p =>
        refine ⟨⟨rfl, h4.2, fun f' p' hp => ?_, h.subs, h.part⟩, rfl⟩
        simp only [] at hp
        rw [dictGet_dictSet] at hp
        split at hp
        · cases hp; exact h4.1.symm
        · exact h.joint _ _ hp
  | part vars =>
    obtain ⟨h1, h2⟩ := askPart_inv h hcum vars
    exact ⟨h1, by simp only [step, plain, h2]⟩
  | entry n v k =>
    simp only [step, plain]
    unfold askEntry
    rw [h.net_eq]
    cases hg : getNode net.nodes n with
    | error e => exact ⟨h, rfl⟩
    | ok m =>
      have h5 := readCell_agree (getNode_self hg) h.cells v k
      exact ⟨⟨rfl, h5.2, h.joint, h.subs, h.part⟩, by simp only [h5.1]; rfl⟩
  | sample rolls => exact ⟨h, by simp only [step, plain, h.net_eq]⟩

/-- **C91.**  Through any series of calls on a finalised network, each gets the answer (or the exception) of a
network whose methods remember nothing. -/
theorem caches_transparent (ord : List Int → List Int) (net : Net ν β)
    (hcum : ∀ n ∈ net.nodes, n.cumulative = cumulativeOf n.probabilities) (qs : List (Query ν β)) :
    (session ord (fresh net) (qs.map .ask)).1 = qs.map (plain ord net) := by
  have key : ∀ s, Inv ord net s → (session ord s (qs.map .ask)).1 = qs.map (plain ord net) := by
    induction qs with
    | nil => intro s _; rfl
    | cons q qs ih =>
      intro s hs
      obtain ⟨h1, h2⟩ := step_inv hs hcum q
      simp only [List.map_cons, session]
      rw [h2, ih _ h1]
  exact key _ ⟨rfl, agree_nil _, fun f p h => by simp [fresh, dictGet] at h,
    fun v p h => by simp [fresh, dictGet] at h, fun v p h => by simp [fresh, dictGet] at h⟩


omit [DecidableEq β] in
theorem setID_cumulative {name : ν} {index : Nat} {n : Node ν β} (h : n.cumulative = cumulativeOf n.probabilities) :
    (setID name index n).cumulative = cumulativeOf (setID name index n).probabilities := by
  unfold setID; split <;> exact h

omit [DecidableEq β] in
theorem assignIDs_cumulative (vs : List ν) (index : Nat) {net net' : Net ν β} (h : assignIDs vs index net = .ok net')
    (hc : ∀ n ∈ net.nodes, n.cumulative = cumulativeOf n.probabilities) :
    ∀ n ∈ net'.nodes, n.cumulative = cumulativeOf n.probabilities := by
  induction vs generalizing index net with
  | nil => cases h; exact hc
  | cons v vs ih =>
    unfold assignIDs at h
    simp only [] at h
    cases hg : getNode (net.nodes.map (setID v index)) v with
    | error e => rw [hg] at h; cases h
    | ok m =>
      rw [hg] at h
      refine ih (index + 1) h (fun n hn => ?_)
      obtain ⟨k, hk, rfl⟩ := List.mem_map.1 hn
      exact setID_cumulative (hc k hk)

theorem finalizeNodes_cumulative (nodes : List (Node ν β)) (l : List (Node ν β)) {l' : List (Node ν β)}
    (h : finalizeNodes nodes l = .ok l') : ∀ n ∈ l', n.cumulative = cumulativeOf n.probabilities := by
  induction l generalizing l' with
  | nil => cases h; simp
  | cons n l ih =>
    unfold finalizeNodes at h
    cases hn : finalizeNode nodes n with
    | error e => rw [hn] at h; cases h
    | ok m =>
      rw [hn] at h
      cases hl : finalizeNodes nodes l with
      | error e => rw [hl] at h; cases h
      | ok r =>
        rw [hl] at h
        cases h
        intro x hx
        rcases List.mem_cons.1 hx with rfl | hx
        · unfold finalizeNode at hn
          split at hn
          · cases hn; rfl
          · cases ht : indexedTable nodes n.parents n.probabilities [] with
            | error e => rw [ht] at hn; cases hn
            | ok t => rw [ht] at hn; cases hn; rfl
        · exact ih hl x hx

/-- A network that is finalised has the cumulative sums of its tables. -/
theorem finalize_cumulative {net net' : Net ν β} (h : finalize net = .ok net') :
    ∀ n ∈ net'.nodes, n.cumulative = cumulativeOf n.probabilities := by
  unfold finalize at h
  cases hn : finalizeNodes net.nodes net.nodes with
  | error e => rw [hn] at h; cases h
  | ok l =>
    rw [hn] at h
    cases ho : chosenOrder net with
    | error e => rw [ho] at h; cases h
    | ok order =>
      rw [ho] at h
      cases ha : assignIDs (names l) 0
          { net with nodes := l, namesOrder := order, nodeOrder := net.nodeOrder ++ order } with
      | error e =>
        have h' : (assignIDs (names l) 0 { net with nodes := l, namesOrder := order, nodeOrder := net.nodeOrder ++ order }
          >>= fun net => Except.ok { net with finalized := true }) = .ok net' := h
        rw [ha] at h'; cases h'
      | ok m =>
        have h' : (assignIDs (names l) 0 { net with nodes := l, namesOrder := order, nodeOrder := net.nodeOrder ++ order }
          >>= fun net => Except.ok { net with finalized := true }) = .ok net' := h
        rw [ha] at h'; cases h'
        have hc := finalizeNodes_cumulative _ _ hn
        have hx := assignIDs_cumulative (names l) 0 ha
        exact hx hc

/-- **C91.**  The same for a network as `finalize()` leaves it. -/
theorem finalized_caches_transparent (ord : List Int → List Int) {net0 net : Net ν β} (h : finalize net0 = .ok net)
    (qs : List (Query ν β)) : (session ord (fresh net) (qs.map .ask)).1 = qs.map (plain ord net) :=
  caches_transparent ord net (finalize_cumulative h) qs

/-! ## Networks that differ in the tables or the sums only -/

/-- (Models no code: a notion for statements and proofs.) -/
structure Shape (h : Node ν β → Node ν β) : Prop where
  name : ∀ n, (h n).name = n.name
  values : ∀ n, (h n).values = n.values
  parents : ∀ n, (h n).parents = n.parents
  id : ∀ n, (h n).id = n.id

/-- (Models no code: a notion for statements and proofs.) -/
def mapNet (h : Node ν β → Node ν β) (net : Net ν β) : Net ν β := { net with nodes := net.nodes.map h }

omit [LinearOrder ν] [DecidableEq β] in
theorem Shape.comp {h g : Node ν β → Node ν β} (hh : Shape h) (hg : Shape g) : Shape (h ∘ g) :=
  ⟨fun n => (hh.name _).trans (hg.name n), fun n => (hh.values _).trans (hg.values n),
    fun n => (hh.parents _).trans (hg.parents n), fun n => (hh.id _).trans (hg.id n)⟩

omit [LinearOrder ν] [DecidableEq β] in
theorem mapNet_comp (h g : Node ν β → Node ν β) (net : Net ν β) : mapNet h (mapNet g net) = mapNet (h ∘ g) net := by
  simp [mapNet]

section
variable {h : Node ν β → Node ν β} (hh : Shape h)
include hh

omit [DecidableEq β] in
theorem getNode_shape (nodes : List (Node ν β)) (x : ν) :
    getNode (nodes.map h) x = (getNode nodes x).map h := by
  unfold getNode
  rw [List.find?_map]
  have : ((fun n : Node ν β => decide (n.name = x)) ∘ h) = fun n => decide (n.name = x) := by
    funext n; simp [hh.name n]
  rw [this]
  cases nodes.find? (fun n => decide (n.name = x)) <;> rfl

omit [DecidableEq β] in
theorem names_shape (nodes : List (Node ν β)) : names (nodes.map h) = names nodes := by
  unfold names
  rw [List.map_map]
  congr 1
  exact List.map_congr_left (fun n _ => hh.name n)

theorem toIndices_shape (nodes : List (Node ν β)) (cur : List (ν × β)) :
    toIndices (nodes.map h) cur = toIndices nodes cur := by
  induction cur with
  | nil => rfl
  | cons x cur ih =>
    unfold toIndices
    rw [getNode_shape hh, ih]
    cases getNode nodes x.1 with
    | error e => rfl
    | ok n =>
      show (indexOf (h n).values x.2 >>= _) = _
      rw [hh.values]; rfl

theorem jointKey_shape (nodes : List (Node ν β)) (cur : List (ν × β)) :
    jointKey (nodes.map h) cur = jointKey nodes cur := by
  unfold jointKey
  rw [toIndices_shape hh, names_shape hh]

omit [DecidableEq β] in
theorem nodeByID_shape (net : Net ν β) (i : Int) : nodeByID (mapNet h net) i = (nodeByID net i).map h := by
  unfold nodeByID mapNet
  cases dictGet net.byID i with
  | none => rfl
  | some v => exact getNode_shape hh _ _

omit [DecidableEq β] in
theorem parentIDs_shape (nodes : List (Node ν β)) (ps : List ν) :
    parentIDs (nodes.map h) ps = parentIDs nodes ps := by
  induction ps with
  | nil => rfl
  | cons p ps ih => unfold parentIDs nodesIndex; rw [names_shape hh, ih]

omit [DecidableEq β] in
theorem parentsOf_shape (net : Net ν β) (ids : List Int) : parentsOf (mapNet h net) ids = parentsOf net ids := by
  induction ids with
  | nil => rfl
  | cons i ids ih =>
    unfold parentsOf
    rw [nodeByID_shape hh, ih]
    cases nodeByID net i with
    | error e => rfl
    | ok n =>
      show (parentIDs (net.nodes.map h) (h n).parents >>= _) = _
      rw [parentIDs_shape hh, hh.parents]; rfl

omit [DecidableEq β] in
theorem requestedIDs_shape (net : Net ν β) (ids : List Int) :
    requestedIDs (mapNet h net) ids = requestedIDs net ids := by
  induction ids with
  | nil => rfl
  | cons i ids ih =>
    unfold requestedIDs
    rw [nodeByID_shape hh, ih]
    cases nodeByID net i with
    | error e => rfl
    | ok n =>
      show (requestedIDs net ids >>= _) = (requestedIDs net ids >>= _)
      simp only [hh.id]

omit [DecidableEq β] in
theorem subnetworkIDs_shape (ord : List Int → List Int) (net : Net ν β) (fuel : Nat) (ids : List Int) :
    subnetworkIDs ord (mapNet h net) fuel ids = subnetworkIDs ord net fuel ids := by
  induction fuel generalizing ids with
  | zero => rfl
  | succ fuel ih =>
    unfold subnetworkIDs
    rw [parentsOf_shape hh]
    simp only [ih]

omit [DecidableEq β] in
theorem nodesByID_shape (net : Net ν β) (ids : List Int) :
    nodesByID (mapNet h net) ids = (nodesByID net ids).map (List.map h) := by
  induction ids with
  | nil => rfl
  | cons i ids ih =>
    unfold nodesByID
    rw [nodeByID_shape hh, ih]
    cases nodeByID net i with
    | error e => rfl
    | ok n => cases nodesByID net ids <;> rfl

omit [DecidableEq β] in
theorem orderPass_shape (nodes : List (Node ν β)) (vs order : List ν) :
    orderPass (nodes.map h) vs order = orderPass nodes vs order := by
  induction vs generalizing order with
  | nil => rfl
  | cons v vs ih =>
    unfold orderPass
    rw [getNode_shape hh]
    cases getNode nodes v with
    | error e => rfl
    | ok n =>
      show (if (h n).parents = [] ∨ ∀ p ∈ (h n).parents, p ∈ order then orderPass (nodes.map h) vs (order ++ [(h n).name])
        else orderPass (nodes.map h) vs order) = _
      rw [hh.parents, hh.name, ih, ih]; rfl

omit [DecidableEq β] in
theorem orderLoop_shape (nodes : List (Node ν β)) (fuel : Nat) (vs order : List ν) :
    orderLoop (nodes.map h) fuel vs order = orderLoop nodes fuel vs order := by
  induction fuel generalizing vs order with
  | zero => cases vs <;> rfl
  | succ fuel ih =>
    cases vs with
    | nil => rfl
    | cons v vs =>
      unfold orderLoop
      rw [orderPass_shape hh]
      simp only [ih]

omit [DecidableEq β] in
theorem detectOrder_shape (nodes : List (Node ν β)) : detectOrder (nodes.map h) = detectOrder nodes := by
  unfold detectOrder
  rw [names_shape hh, orderLoop_shape hh]

theorem indexedKey_shape (nodes : List (Node ν β)) (vs : List β) (ps : List ν) :
    indexedKey (nodes.map h) vs ps = indexedKey nodes vs ps := by
  induction vs generalizing ps with
  | nil => rfl
  | cons v vs ih =>
    cases ps with
    | nil => rfl
    | cons p ps =>
      unfold indexedKey
      rw [getNode_shape hh, ih]
      cases getNode nodes p with
      | error e => rfl
      | ok n =>
        show (indexOf (h n).values v >>= _) = _
        rw [hh.values]; rfl

theorem indexedTable_shape (nodes : List (Node ν β)) (ps : List ν) (t : List (CondKey β × List ℚ))
    (acc : List (List Nat × List ℚ)) : indexedTable (nodes.map h) ps t acc = indexedTable nodes ps t acc := by
  induction t generalizing acc with
  | nil => rfl
  | cons x t ih =>
    obtain ⟨k, row⟩ := x
    cases k with
    | unconditioned => exact ih acc
    | values l =>
      unfold indexedTable
      rw [indexedKey_shape hh]
      simp only [ih]

end

/-- (Models no code: a notion for statements and proofs.) -/
def noSums (n : Node ν β) : Node ν β := { n with cumulative := [] }

omit [LinearOrder ν] [DecidableEq β] in
theorem noSums_shape : Shape (noSums : Node ν β → Node ν β) := ⟨fun _ => rfl, fun _ => rfl, fun _ => rfl, fun _ => rfl⟩

theorem finalizeNode_noSums (nodes : List (Node ν β)) (n : Node ν β) :
    finalizeNode (nodes.map noSums) (noSums n) = finalizeNode nodes n := by
  unfold finalizeNode
  rw [indexedTable_shape noSums_shape]
  rfl

theorem finalizeNodes_noSums (nodes l : List (Node ν β)) :
    finalizeNodes (nodes.map noSums) (l.map noSums) = finalizeNodes nodes l := by
  induction l with
  | nil => rfl
  | cons n l ih =>
    simp only [List.map_cons]
    unfold finalizeNodes
    rw [finalizeNode_noSums, ih]

theorem finalize_noSums (nodes : List (Node ν β)) :
    finalize { nodes := nodes.map noSums } = finalize { nodes := nodes : Net ν β } := by
  unfold finalize chosenOrder
  simp only []
  rw [finalizeNodes_noSums, detectOrder_shape noSums_shape]

theorem getSubnetwork_noSums (ord : List Int → List Int) (net : Net ν β) (vars : List Int) :
    getSubnetwork ord (mapNet noSums net) vars = getSubnetwork ord net vars := by
  unfold getSubnetwork
  rw [requestedIDs_shape noSums_shape]
  simp only [subnetworkIDs_shape noSums_shape, nodesByID_shape noSums_shape]
  unfold requireFinal
  have hl : (mapNet noSums net).nodes.length = net.nodes.length := by simp [mapNet]
  rw [hl]
  have hf : (mapNet noSums net).finalized = net.finalized := rfl
  rw [hf]
  by_cases h : net.finalized = true
  · rw [if_pos h, if_pos h]
    cases requestedIDs net vars with
    | error e => rfl
    | ok req =>
      show (subnetworkIDs ord net (net.nodes.length + 1) req.dedup >>= _) =
        (subnetworkIDs ord net (net.nodes.length + 1) req.dedup >>= _)
      cases subnetworkIDs ord net (net.nodes.length + 1) req.dedup with
      | error e => rfl
      | ok ids =>
        show ((nodesByID net ids).map (List.map noSums) >>= _) = (nodesByID net ids >>= _)
        cases nodesByID net ids with
        | error e => rfl
        | ok l => exact finalize_noSums l
  · rw [if_neg h, if_neg h]

theorem createPartialJointPmf_noSums (ord : List Int → List Int) (net : Net ν β) (vars : List Int) :
    createPartialJointPmf ord (mapNet noSums net) vars = createPartialJointPmf ord net vars := by
  unfold createPartialJointPmf
  rw [getSubnetwork_noSums]; rfl


theorem branchProb_noSums (n : Node ν β) (cur : List (ν × β)) (prob : ℚ) (v : β) :
    branchProb (noSums n) cur prob v = branchProb n cur prob v := rfl

theorem jointValues_noSums {r : List (Key × ℚ) → List (ν × β) → ℚ → Except Err (List (Key × ℚ))}
    (n : Node ν β) (cur : List (ν × β)) (prob : ℚ) (vs : List β) (j : List (Key × ℚ)) :
    jointValues r (noSums n) cur prob vs j = jointValues r n cur prob vs j := by
  induction vs generalizing j with
  | nil => rfl
  | cons v vs ih =>
    unfold jointValues
    rw [branchProb_noSums]
    simp only [ih]
    rfl

theorem jointRec_noSums (nodes : List (Node ν β)) (order : List ν) (fuel : Nat) (j : List (Key × ℚ))
    (cur : List (ν × β)) (prob : ℚ) :
    jointRec (nodes.map noSums) order fuel j cur prob = jointRec nodes order fuel j cur prob := by
  induction fuel generalizing j cur prob with
  | zero => rfl
  | succ fuel ih =>
    have ih' : jointRec (nodes.map noSums) order fuel = jointRec nodes order fuel := by
      funext j cur prob; exact ih j cur prob
    unfold jointRec
    rw [jointKey_shape noSums_shape, ih']
    by_cases hl : cur.length = order.length
    · rw [if_pos hl, if_pos hl]
    · rw [if_neg hl, if_neg hl]
      cases order[cur.length]? with
      | none => rfl
      | some v =>
        simp only []
        rw [getNode_shape noSums_shape]
        cases getNode nodes v with
        | error e => rfl
        | ok n =>
          show (if n.values = [] then Except.error Err.keyError
            else jointValues (jointRec nodes order fuel) (noSums n) cur prob n.values j) = _
          rw [jointValues_noSums]; rfl

theorem createJointPmf_noSums (net : Net ν β) : createJointPmf (mapNet noSums net) = createJointPmf net := by
  unfold createJointPmf
  have : jointRec (mapNet noSums net).nodes = jointRec net.nodes := by
    funext order fuel j cur prob; exact jointRec_noSums _ _ _ _ _ _
  rw [this]; rfl

omit [DecidableEq β] in
theorem recumulate_noSums (vs : List ν) (net : Net ν β) :
    mapNet noSums (recumulate vs net) = mapNet noSums net := by
  unfold mapNet recumulate
  simp only [List.map_map]
  congr 1
  apply List.map_congr_left
  intro n _
  simp only [Function.comp]
  split <;> rfl

theorem editNet_noSums (name : ν) (k : CondKey β) (row : List ℚ) (net : Net ν β) :
    mapNet noSums (editNet name k row net) = editNet name k row (mapNet noSums net) := by
  unfold mapNet editNet
  simp only [List.map_map]
  congr 1
  apply List.map_congr_left
  intro n _
  simp only [Function.comp]
  by_cases hn : n.name = name
  · have hn' : (noSums n).name = name := hn
    unfold editNode
    rw [if_pos hn, if_pos hn']; rfl
  · have hn' : ¬ (noSums n).name = name := hn
    unfold editNode
    rw [if_neg hn, if_neg hn']

/-! ## What each operation does to the parts of the state -/

omit [LinearOrder ν] in
theorem askJoint_parts [LinearOrder ν] (s : State ν β) (f : Nat) :
    (askJoint s f).2.net = s.net ∧ (askJoint s f).2.subs = s.subs ∧ (askJoint s f).2.part = s.part := by
  unfold askJoint
  split
  · exact ⟨rfl, rfl, rfl⟩
  · split <;> exact ⟨rfl, rfl, rfl⟩

theorem askEntry_parts (s : State ν β) (n : ν) (v : β) (k : CondKey β) :
    (askEntry s n v k).2.net = s.net ∧ (askEntry s n v k).2.subs = s.subs ∧ (askEntry s n v k).2.part = s.part ∧
      (askEntry s n v k).2.joint = s.joint := by
  unfold askEntry
  split <;> exact ⟨rfl, rfl, rfl, rfl⟩

/-- (Models no code: a notion for statements and proofs.) -/
def Recumulated (net net' : Net ν β) : Prop := net' = net ∨ ∃ vs, net' = recumulate vs net

theorem subJoint_parts (s : State ν β) (vars : List Int) (sub : Sub ν β) :
    (subJoint s vars sub).2.net = s.net ∧ (subJoint s vars sub).2.cells = s.cells ∧
      (subJoint s vars sub).2.joint = s.joint ∧ (subJoint s vars sub).2.part = s.part ∧
      ∀ w, w ≠ vars → dictGet (subJoint s vars sub).2.subs w = dictGet s.subs w := by
  unfold subJoint
  split
  · exact ⟨rfl, rfl, rfl, rfl, fun _ _ => rfl⟩
  · split <;> exact ⟨rfl, rfl, rfl, rfl, fun w hw => by simp only [dictGet_dictSet, if_neg hw.symm]⟩

theorem getSub_parts (ord : List Int → List Int) (s : State ν β) (vars : List Int) :
    Recumulated s.net (getSub ord s vars).2.net ∧ (getSub ord s vars).2.cells = s.cells ∧
      (getSub ord s vars).2.joint = s.joint ∧ (getSub ord s vars).2.part = s.part ∧
      ∀ w, w ≠ vars → dictGet (getSub ord s vars).2.subs w = dictGet s.subs w := by
  unfold getSub
  split
  · exact ⟨.inl rfl, rfl, rfl, rfl, fun _ _ => rfl⟩
  · split
    · exact ⟨.inl rfl, rfl, rfl, rfl, fun _ _ => rfl⟩
    · exact ⟨.inr ⟨_, rfl⟩, rfl, rfl, rfl, fun w hw => by simp only [dictGet_dictSet, if_neg hw.symm]⟩

theorem askPart_parts (ord : List Int → List Int) (s : State ν β) (vars : List Int) :
    Recumulated s.net (askPart ord s vars).2.net ∧ (askPart ord s vars).2.cells = s.cells ∧
      (askPart ord s vars).2.joint = s.joint ∧
      ∀ w, w ≠ vars → dictGet (askPart ord s vars).2.part w = dictGet s.part w ∧
        dictGet (askPart ord s vars).2.subs w = dictGet s.subs w := by
  unfold askPart
  cases dictGet s.part vars with
  | some p => exact ⟨.inl rfl, rfl, rfl, fun _ _ => ⟨rfl, rfl⟩⟩
  | none =>
    simp only []
    by_cases hf : s.net.finalized = true
    · rw [if_pos hf]
      obtain ⟨g1, g2, g3, g4, g5⟩ := getSub_parts ord s vars
      rcases hg : getSub ord s vars with ⟨r, s1⟩
      rw [hg] at g1 g2 g3 g4 g5
      simp only [] at g1 g2 g3 g4 g5
      cases r with
      | error e => exact ⟨g1, g2, g3, fun w hw => ⟨by simp only [g4], g5 w hw⟩⟩
      | ok sub =>
        simp only []
        obtain ⟨k1, k2, k3, k4, k5⟩ := subJoint_parts s1 vars sub
        rcases hk : subJoint s1 vars sub with ⟨r, s2⟩
        rw [hk] at k1 k2 k3 k4 k5
        simp only [] at k1 k2 k3 k4 k5
        have a1 : Recumulated s.net s2.net := by rw [k1]; exact g1
        have a2 : ∀ w, w ≠ vars → dictGet s2.subs w = dictGet s.subs w := fun w hw => (k5 w hw).trans (g5 w hw)
        have a3 : s2.part = s.part := k4.trans g4
        cases r with
        | error e => exact ⟨a1, k2.trans g2, k3.trans g3, fun w hw => ⟨by simp only [a3], a2 w hw⟩⟩
        | ok joint =>
          simp only []
          split
          · exact ⟨a1, k2.trans g2, k3.trans g3, fun w hw => ⟨by simp only [a3], a2 w hw⟩⟩
          · exact ⟨a1, k2.trans g2, k3.trans g3,
              fun w hw => ⟨by simp only [dictGet_dictSet, if_neg hw.symm, a3], a2 w hw⟩⟩
    · rw [if_neg hf]; exact ⟨.inl rfl, rfl, rfl, fun _ _ => ⟨rfl, rfl⟩⟩

omit [LinearOrder ν] [DecidableEq β] in
theorem dictGet_relabel {κ μ : Type} [DecidableEq κ] (d : List (κ × μ)) (g : μ → μ) (f k : κ) :
    dictGet (d.map (fun x => if x.1 = f then (x.1, g x.2) else x)) k =
      if f = k then (dictGet d k).map g else dictGet d k := by
  induction d with
  | nil => simp [dictGet]
  | cons x d ih =>
    obtain ⟨a, b⟩ := x
    by_cases hf : a = f
    · subst hf
      simp only [List.map_cons, if_true, dictGet]
      by_cases h : a = k
      · simp [h]
      · simp [h] at ih ⊢; exact ih
    · simp only [List.map_cons, if_neg hf, dictGet]
      by_cases h : a = k
      · subst h
        have : ¬ f = a := fun e => hf e.symm
        simp [this]
      · simp only [if_neg h]; exact ih

omit [LinearOrder ν] [DecidableEq β] in
theorem dictGet_map_snd {κ μ : Type} [DecidableEq κ] (d : List (κ × μ)) (g : μ → μ) (k : κ) :
    dictGet (d.map (fun x => (x.1, g x.2))) k = (dictGet d k).map g := by
  induction d with
  | nil => rfl
  | cons x d ih =>
    obtain ⟨a, b⟩ := x
    simp only [List.map_cons, dictGet]
    by_cases h : a = k
    · simp [h]
    · simp [h, ih]

/-! ## Memories only grow -/

/-- (Models no code: a notion for statements and proofs.) -/
def Grows (c c' : Cells ν β) : Prop := ∀ k q, dictGet c k = some q → dictGet c' k = some q

theorem Grows.refl (c : Cells ν β) : Grows c c := fun _ _ h => h

theorem Grows.trans {a b c : Cells ν β} (h : Grows a b) (g : Grows b c) : Grows a c := fun k q e => g k q (h k q e)

theorem readCell_grows (n : Node ν β) (v : β) (k : CondKey β) (c : Cells ν β) : Grows c (readCell n v k c).2 := by
  unfold readCell
  cases hd : dictGet c (n.name, v, k) with
  | some q => exact .refl _
  | none =>
    cases probabilityOfValue n v k with
    | error e => exact .refl _
    | ok q =>
      intro k' q' h
      simp only [dictGet_dictSet]
      split
      · rename_i he; rw [← he, hd] at h; cases h
      · exact h

theorem branchProbC_grows (n : Node ν β) (cur : List (ν × β)) (prob : ℚ) (v : β) (c : Cells ν β) :
    Grows c (branchProbC n cur prob v c).2 := by
  unfold branchProbC
  cases sampleGets cur n.parents with
  | error e => exact .refl _
  | ok l =>
    simp only []
    have h := readCell_grows n v (rowKey l) c
    rcases hr : readCell n v (rowKey l) c with ⟨r, c'⟩
    rw [hr] at h
    cases r <;> exact h

theorem jointValuesC_grows
    {r : List (Key × ℚ) → List (ν × β) → ℚ → Cells ν β → Except Err (List (Key × ℚ)) × Cells ν β}
    (hrec : ∀ j cur p c, Grows c (r j cur p c).2) (n : Node ν β) (cur : List (ν × β)) (prob : ℚ) (vs : List β)
    (j : List (Key × ℚ)) (c : Cells ν β) : Grows c (jointValuesC r n cur prob vs j c).2 := by
  induction vs generalizing j c with
  | nil => exact .refl _
  | cons v vs ih =>
    unfold jointValuesC
    have h := branchProbC_grows n cur prob v c
    rcases hb : branchProbC n cur prob v c with ⟨a, c1⟩
    rw [hb] at h
    cases a with
    | error e => exact h
    | ok p =>
      simp only []
      have h2 := hrec j (dictSet cur n.name v) p c1
      rcases hr : r j (dictSet cur n.name v) p c1 with ⟨b, c2⟩
      rw [hr] at h2
      cases b with
      | error e => exact h.trans h2
      | ok j' => exact (h.trans h2).trans (ih j' c2)

theorem jointRecC_grows (nodes : List (Node ν β)) (order : List ν) (fuel : Nat) (j : List (Key × ℚ))
    (cur : List (ν × β)) (prob : ℚ) (c : Cells ν β) : Grows c (jointRecC nodes order fuel j cur prob c).2 := by
  induction fuel generalizing j cur prob c with
  | zero => exact .refl _
  | succ fuel ih =>
    unfold jointRecC
    by_cases hl : cur.length = order.length
    · rw [if_pos hl]
      cases jointKey nodes cur <;> exact .refl _
    · rw [if_neg hl]
      cases order[cur.length]? with
      | none => exact .refl _
      | some v =>
        simp only []
        cases getNode nodes v with
        | error e => exact .refl _
        | ok n =>
          simp only []
          by_cases hv : n.values = []
          · rw [if_pos hv]; exact .refl _
          · rw [if_neg hv]; exact jointValuesC_grows ih n cur prob n.values j c

theorem jointC_grows (net : Net ν β) (c : Cells ν β) : Grows c (jointC net c).2 := by
  unfold jointC
  by_cases hf : net.finalized = true
  · rw [if_pos hf]
    have h := jointRecC_grows net.nodes net.nodeOrder (net.nodeOrder.length + 1) [] [] 1 c
    rcases hr : jointRecC net.nodes net.nodeOrder (net.nodeOrder.length + 1) [] [] 1 c with ⟨r, c'⟩
    rw [hr] at h
    cases r <;> exact h
  · rw [if_neg hf]; exact .refl _

/-! ## A computation done once is repeated from memory, whatever became of the tables -/

section
variable {h : Node ν β → Node ν β} (hh : Shape h)
include hh

theorem readCell_replay {n : Node ν β} {v : β} {k : CondKey β} {c c1 c' : Cells ν β} {q : ℚ}
    (hr : readCell n v k c = (.ok q, c1)) (hg : Grows c1 c') : readCell (h n) v k c' = (.ok q, c') := by
  have hm : dictGet c1 (n.name, v, k) = some q := by
    unfold readCell at hr
    cases hd : dictGet c (n.name, v, k) with
    | some q' => rw [hd] at hr; cases hr; exact hd
    | none =>
      rw [hd] at hr
      cases hp : probabilityOfValue n v k with
      | error e => rw [hp] at hr; cases hr
      | ok q' => rw [hp] at hr; cases hr; rw [dictGet_dictSet, if_pos rfl]
  unfold readCell
  rw [hh.name, hg _ _ hm]

theorem branchProbC_replay {n : Node ν β} {cur : List (ν × β)} {prob : ℚ} {v : β} {c c1 c' : Cells ν β} {q : ℚ}
    (hr : branchProbC n cur prob v c = (.ok q, c1)) (hg : Grows c1 c') :
    branchProbC (h n) cur prob v c' = (.ok q, c') := by
  unfold branchProbC at hr ⊢
  rw [hh.parents]
  cases hs : sampleGets cur n.parents with
  | error e => rw [hs] at hr; cases hr
  | ok l =>
    rw [hs] at hr
    simp only [] at hr ⊢
    rcases hc : readCell n v (rowKey l) c with ⟨r, c2⟩
    rw [hc] at hr
    cases r with
    | error e => cases hr
    | ok p =>
      cases hr
      rw [readCell_replay hh hc hg]

theorem jointValuesC_replay
    {r r' : List (Key × ℚ) → List (ν × β) → ℚ → Cells ν β → Except Err (List (Key × ℚ)) × Cells ν β}
    (hgrow : ∀ j cur p c, Grows c (r j cur p c).2)
    (hrec : ∀ j cur p c j1 c1 c', r j cur p c = (.ok j1, c1) → Grows c1 c' → r' j cur p c' = (.ok j1, c'))
    {n : Node ν β} {cur : List (ν × β)} {prob : ℚ} (vs : List β)
    (j : List (Key × ℚ)) {c c1 c' : Cells ν β} {j1 : List (Key × ℚ)}
    (hr : jointValuesC r n cur prob vs j c = (.ok j1, c1)) (hg : Grows c1 c') :
    jointValuesC r' (h n) cur prob vs j c' = (.ok j1, c') := by
  induction vs generalizing j c with
  | nil => cases hr; rfl
  | cons v vs ih =>
    unfold jointValuesC at hr ⊢
    rcases hb : branchProbC n cur prob v c with ⟨a, c2⟩
    rw [hb] at hr
    cases a with
    | error e => cases hr
    | ok p =>
      simp only [] at hr
      rcases hc : r j (dictSet cur n.name v) p c2 with ⟨b, c3⟩
      rw [hc] at hr
      cases b with
      | error e => cases hr
      | ok j2 =>
        simp only [] at hr
        have g3 : Grows c3 c1 := by
          have := jointValuesC_grows hgrow n cur prob vs j2 c3
          rw [hr] at this; exact this
        have g2 : Grows c2 c3 := by
          have := hgrow j (dictSet cur n.name v) p c2
          rw [hc] at this; exact this
        rw [branchProbC_replay hh hb ((g2.trans g3).trans hg)]
        simp only []
        rw [hh.name, hrec _ _ _ _ _ _ _ hc (g3.trans hg)]
        exact ih j2 hr

theorem jointRecC_replay (nodes : List (Node ν β)) (order : List ν) (fuel : Nat) (j : List (Key × ℚ))
    (cur : List (ν × β)) (prob : ℚ) (c : Cells ν β) (j1 : List (Key × ℚ)) (c1 c' : Cells ν β)
    (hr : jointRecC nodes order fuel j cur prob c = (.ok j1, c1)) (hg : Grows c1 c') :
    jointRecC (nodes.map h) order fuel j cur prob c' = (.ok j1, c') := by
  induction fuel generalizing j cur prob c j1 c1 c' with
  | zero => cases hr
  | succ fuel ih =>
    unfold jointRecC at hr ⊢
    rw [jointKey_shape hh]
    by_cases hl : cur.length = order.length
    · rw [if_pos hl] at hr ⊢
      cases hk : jointKey nodes cur with
      | error e => rw [hk] at hr; cases hr
      | ok k => rw [hk] at hr; cases hr; rfl
    · rw [if_neg hl] at hr ⊢
      cases ho : order[cur.length]? with
      | none => rw [ho] at hr; cases hr
      | some v =>
        rw [ho] at hr
        simp only [] at hr ⊢
        rw [getNode_shape hh]
        cases hn : getNode nodes v with
        | error e => rw [hn] at hr; cases hr
        | ok n =>
          rw [hn] at hr
          simp only [] at hr ⊢
          show (if (h n).values = [] then _ else _) = _
          rw [hh.values]
          by_cases hv : n.values = []
          · rw [if_pos hv] at hr; cases hr
          · rw [if_neg hv] at hr ⊢
            exact jointValuesC_replay hh (jointRecC_grows nodes order fuel) ih n.values j hr hg

theorem jointC_replay {net : Net ν β} {c c1 c' : Cells ν β} {p : PMF} (hr : jointC net c = (.ok p, c1))
    (hg : Grows c1 c') : jointC (mapNet h net) c' = (.ok p, c') := by
  unfold jointC at hr ⊢
  have hf : (mapNet h net).finalized = net.finalized := rfl
  rw [hf]
  by_cases hfin : net.finalized = true
  · rw [if_pos hfin] at hr ⊢
    rcases hc : jointRecC net.nodes net.nodeOrder (net.nodeOrder.length + 1) [] [] 1 c with ⟨r, c2⟩
    rw [hc] at hr
    cases r with
    | error e => cases hr
    | ok d =>
      cases hr
      have := jointRecC_replay hh _ _ _ _ _ _ _ _ _ _ hc hg
      unfold mapNet
      simp only []
      rw [this]
  · rw [if_neg hfin] at hr; cases hr

end


/-! ## After edits -/

omit [LinearOrder ν] [DecidableEq β] in
theorem shape_id : Shape (id : Node ν β → Node ν β) := ⟨fun _ => rfl, fun _ => rfl, fun _ => rfl, fun _ => rfl⟩

omit [LinearOrder ν] [DecidableEq β] in
theorem mapNet_id (net : Net ν β) : mapNet id net = net := by simp [mapNet]

theorem editNode_shape (name : ν) (k : CondKey β) (row : List ℚ) : Shape (editNode name k row : Node ν β → Node ν β) := by
  constructor <;> intro n <;> unfold editNode <;> split <;> rfl

omit [DecidableEq β] in
theorem recumulated_shape {net net' : Net ν β} (h : Recumulated net net') : ∃ g, Shape g ∧ net' = mapNet g net := by
  rcases h with rfl | ⟨vs, rfl⟩
  · exact ⟨id, shape_id, (mapNet_id _).symm⟩
  · refine ⟨_, ?_, rfl⟩
    constructor <;> intro n <;> split <;> rfl

omit [DecidableEq β] in
theorem recumulated_noSums {net net' : Net ν β} (h : Recumulated net net') : mapNet noSums net' = mapNet noSums net := by
  rcases h with rfl | ⟨vs, rfl⟩
  · rfl
  · exact recumulate_noSums _ _

/-- (Models no code: a notion for statements and proofs.) -/
def edit1 (net : Net ν β) : Op ν β → Net ν β
  | .setRow n k row => editNet n k row net
  | _ => net

theorem edited_cons (net : Net ν β) (op : Op ν β) (ops : List (Op ν β)) :
    edited net (op :: ops) = edited (edit1 net op) ops := by
  cases op <;> rfl

theorem step_shape (ord : List Int → List Int) (s : State ν β) (op : Op ν β) :
    ∃ g, Shape g ∧ (step ord s op).2.net = mapNet g s.net := by
  have same : ∀ net' : Net ν β, net' = s.net → ∃ g, Shape g ∧ net' = mapNet g s.net :=
    fun _ e => ⟨id, shape_id, e.trans (mapNet_id _).symm⟩
  cases op with
  | ask q =>
    cases q with
    | joint f => exact same _ (askJoint_parts s f).1
    | part vars => exact recumulated_shape (askPart_parts ord s vars).1
    | entry n v k => exact same _ (askEntry_parts s n v k).1
    | sample rolls => exact same _ rfl
  | relabelJoint f ids => exact same _ rfl
  | relabelPart f ids => exact same _ rfl
  | setRow n k row => exact ⟨_, editNode_shape n k row, rfl⟩

theorem step_noSums (ord : List Int → List Int) (s : State ν β) (op : Op ν β) (net : Net ν β)
    (h : mapNet noSums s.net = mapNet noSums net) :
    mapNet noSums (step ord s op).2.net = mapNet noSums (edit1 net op) := by
  cases op with
  | ask q =>
    cases q with
    | joint f => exact (congrArg _ (askJoint_parts s f).1).trans h
    | part vars => exact (recumulated_noSums (askPart_parts ord s vars).1).trans h
    | entry n v k => exact (congrArg _ (askEntry_parts s n v k).1).trans h
    | sample rolls => exact h
  | relabelJoint f ids => exact h
  | relabelPart f ids => exact h
  | setRow n k row =>
    show mapNet noSums (editNet n k row s.net) = mapNet noSums (editNet n k row net)
    rw [editNet_noSums, editNet_noSums, h]

theorem session_noSums (ord : List Int → List Int) (ops : List (Op ν β)) (s : State ν β) (net : Net ν β)
    (h : mapNet noSums s.net = mapNet noSums net) :
    mapNet noSums (session ord s ops).2.net = mapNet noSums (edited net ops) := by
  induction ops generalizing s net with
  | nil => exact h
  | cons op ops ih =>
    rw [edited_cons]
    exact ih _ _ (step_noSums ord s op net h)

theorem step_grows (ord : List Int → List Int) (s : State ν β) (op : Op ν β) :
    Grows s.cells (step ord s op).2.cells := by
  cases op with
  | ask q =>
    cases q with
    | joint f =>
      show Grows s.cells (askJoint s f).2.cells
      unfold askJoint
      cases dictGet s.joint f with
      | some p => exact .refl _
      | none =>
        simp only []
        have h := jointC_grows s.net s.cells
        rcases hr : jointC s.net s.cells with ⟨r, c⟩
        rw [hr] at h
        cases r <;> exact h
    | part vars =>
      show Grows s.cells (askPart ord s vars).2.cells
      rw [(askPart_parts ord s vars).2.1]; exact .refl _
    | entry n v k =>
      show Grows s.cells (askEntry s n v k).2.cells
      unfold askEntry
      cases getNode s.net.nodes n with
      | error e => exact .refl _
      | ok m => exact readCell_grows m v k s.cells
    | sample rolls => exact .refl _
  | relabelJoint f ids => exact .refl _
  | relabelPart f ids => exact .refl _
  | setRow n k row => exact .refl _

/-! ### The tables are the ones written -/

/-- **C91.**  Calls do not touch the tables: they are the first ones with the edits made. -/
theorem tables_are_edited (ord : List Int → List Int) (net : Net ν β) (ops : List (Op ν β)) :
    tables (session ord (fresh net) ops).2.net = tables (edited net ops) := by
  have h := session_noSums ord ops (fresh net) net rfl
  have e : ∀ m : Net ν β, tables m = tables (mapNet noSums m) := by
    intro m; unfold tables mapNet; simp [noSums]
  rw [e, h, ← e]

/-! ### A joint distribution got once -/

/-- (Models no code: a notion for statements and proofs.) -/
def Settled (p : PMF) (s : State ν β) : Prop :=
  (∀ f q, dictGet s.joint f = some q → q = p) ∧
  ∀ h c', Shape h → Grows s.cells c' → jointC (mapNet h s.net) c' = (.ok p, c')

theorem settled_ask {p : PMF} {s : State ν β} (h : Settled p s) (f : Nat) : (askJoint s f).1 = .ok p := by
  unfold askJoint
  cases hd : dictGet s.joint f with
  | some q => rw [h.1 f q hd]
  | none =>
    have := h.2 id s.cells shape_id (.refl _)
    rw [mapNet_id] at this
    simp only [this]

theorem settled_step {ord : List Int → List Int} {p : PMF} {s : State ν β} (h : Settled p s) (op : Op ν β)
    (hop : ∀ f ids, op ≠ .relabelJoint f ids) : Settled p (step ord s op).2 := by
  obtain ⟨g, hg, hnet⟩ := step_shape ord s op
  have hgrow := step_grows ord s op
  refine ⟨?_, fun h' c' hh' hc' => ?_⟩
  · cases op with
    | relabelJoint f ids => exact absurd rfl (hop f ids)
    | ask q =>
      cases q with
      | joint f =>
        intro f' q hq
        have hq : dictGet (askJoint s f).2.joint f' = some q := hq
        have ha := settled_ask h f
        unfold askJoint at hq ha
        cases hd : dictGet s.joint f with
        | some p' => rw [hd] at hq; exact h.1 _ _ hq
        | none =>
          rw [hd] at hq ha
          simp only [] at hq ha
          rcases hr : jointC s.net s.cells with ⟨r, c⟩
          rw [hr] at hq ha
          cases r with
          | error e => exact h.1 _ _ hq
          | ok p' =>
            cases ha
            simp only [dictGet_dictSet] at hq
            split at hq
            · cases hq; rfl
            · exact h.1 _ _ hq
      | part vars =>
        show ∀ f q, dictGet (askPart ord s vars).2.joint f = some q → q = p
        rw [(askPart_parts ord s vars).2.2.1]; exact h.1
      | entry n v k =>
        show ∀ f q, dictGet (askEntry s n v k).2.joint f = some q → q = p
        rw [(askEntry_parts s n v k).2.2.2]; exact h.1
      | sample rolls => exact h.1
    | relabelPart f ids => exact h.1
    | setRow n k row => exact h.1
  · rw [hnet, mapNet_comp]
    exact h.2 _ _ (hh'.comp hg) (hgrow.trans hc')

theorem settled_session {ord : List Int → List Int} {p : PMF} (ops : List (Op ν β)) {s : State ν β} (h : Settled p s)
    (hops : ∀ f ids, .relabelJoint f ids ∉ ops) : Settled p (session ord s ops).2 := by
  induction ops generalizing s with
  | nil => exact h
  | cons op ops ih =>
    exact ih (settled_step h op (fun f ids e => hops f ids (e ▸ List.mem_cons_self ..)))
      (fun f ids hm => hops f ids (List.mem_cons_of_mem _ hm))

/-- (Models no code: a notion for statements and proofs.) -/
def NoneOrSettled (s : State ν β) : Prop := (∀ f, dictGet s.joint f = none) ∨ ∃ p, Settled p s

theorem settled_of_answer {s : State ν β} (hj : ∀ f, dictGet s.joint f = none) {f : Nat} {p : PMF}
    (ha : (askJoint s f).1 = .ok p) : Settled p (askJoint s f).2 := by
  unfold askJoint at ha ⊢
  rw [hj f] at ha ⊢
  simp only [] at ha ⊢
  rcases hr : jointC s.net s.cells with ⟨r, c⟩
  rw [hr] at ha
  cases r with
  | error e => cases ha
  | ok q =>
    cases ha
    refine ⟨fun f' q' hq => ?_, fun h c' hh hc => jointC_replay hh hr hc⟩
    simp only [dictGet_dictSet, hj] at hq
    split at hq
    · cases hq; rfl
    · cases hq

theorem noneOrSettled_step {ord : List Int → List Int} {s : State ν β} (h : NoneOrSettled s) (op : Op ν β)
    (hop : ∀ f ids, op ≠ .relabelJoint f ids) : NoneOrSettled (step ord s op).2 := by
  rcases h with h | ⟨p, h⟩
  · cases op with
    | relabelJoint f ids => exact absurd rfl (hop f ids)
    | ask q =>
      cases q with
      | joint f =>
        cases ha : (askJoint s f).1 with
        | ok p => exact .inr ⟨p, settled_of_answer h ha⟩
        | error e =>
          refine .inl (fun f' => ?_)
          show dictGet (askJoint s f).2.joint f' = none
          unfold askJoint at ha ⊢
          rw [h f] at ha ⊢
          simp only [] at ha ⊢
          rcases hr : jointC s.net s.cells with ⟨r, c⟩
          rw [hr] at ha
          cases r with
          | error e => exact h f'
          | ok q => cases ha
      | part vars =>
        refine .inl (fun f' => ?_)
        show dictGet (askPart ord s vars).2.joint f' = none
        rw [(askPart_parts ord s vars).2.2.1]; exact h f'
      | entry n v k =>
        refine .inl (fun f' => ?_)
        show dictGet (askEntry s n v k).2.joint f' = none
        rw [(askEntry_parts s n v k).2.2.2]; exact h f'
      | sample rolls => exact .inl h
    | relabelPart f ids => exact .inl h
    | setRow n k row => exact .inl h
  · exact .inr ⟨p, settled_step h op hop⟩

theorem noneOrSettled_session {ord : List Int → List Int} (ops : List (Op ν β)) {s : State ν β} (h : NoneOrSettled s)
    (hops : ∀ f ids, .relabelJoint f ids ∉ ops) : NoneOrSettled (session ord s ops).2 := by
  induction ops generalizing s with
  | nil => exact h
  | cons op ops ih =>
    exact ih (noneOrSettled_step h op (fun f ids e => hops f ids (e ▸ List.mem_cons_self ..)))
      (fun f ids hm => hops f ids (List.mem_cons_of_mem _ hm))

theorem session_append (ord : List Int → List Int) (a b : List (Op ν β)) (s : State ν β) :
    (session ord s (a ++ b)).2 = (session ord (session ord s a).2 b).2 := by
  induction a generalizing s with
  | nil => rfl
  | cons op a ih => exact ih _

/-- **C91.**  Once `create_joint_pmf` has answered, it gives that answer ever after, however the call is written
and whatever is written into the tables (unless the user relabels an object that it returned). -/
theorem joint_never_changes (ord : List Int → List Int) (net : Net ν β) (before after : List (Op ν β)) (f g : Nat)
    (p : PMF) (hb : ∀ f ids, .relabelJoint f ids ∉ before) (ha : ∀ f ids, .relabelJoint f ids ∉ after)
    (h : answerAfter ord net before (.joint f) = .ok (.pmf p)) :
    answerAfter ord net (before ++ .ask (.joint f) :: after) (.joint g) = .ok (.pmf p) := by
  unfold answerAfter at h ⊢
  rw [session_append]
  have h0 : NoneOrSettled (fresh net) := .inl (fun f => rfl)
  have h1 := noneOrSettled_session (ord := ord) before h0 hb
  generalize (session ord (fresh net) before).2 = s at h h1
  have hs : (askJoint s f).1 = .ok p := by
    have h : ((askJoint s f).1.map Answer.pmf : Except Err (Answer ν β)) = .ok (.pmf p) := h
    cases hr : (askJoint s f).1 with
    | error e => rw [hr] at h; cases h
    | ok q => rw [hr] at h; cases h; rfl
  have h2 : Settled p (askJoint s f).2 := by
    rcases h1 with h1 | ⟨q, h1⟩
    · exact settled_of_answer h1 hs
    · have : (askJoint s f).1 = .ok q := settled_ask h1 f
      rw [hs] at this
      cases this
      exact settled_step (ord := ord) h1 (.ask (.joint f)) (by intro f ids e; cases e)
  have h3 := settled_session (ord := ord) after h2 ha
  show ((askJoint (session ord (askJoint s f).2 after).2 g).1.map Answer.pmf) = _
  rw [settled_ask h3 g]; rfl


/-! ### The other answers -/

theorem session_grows (ord : List Int → List Int) (ops : List (Op ν β)) (s : State ν β) :
    Grows s.cells (session ord s ops).2.cells := by
  induction ops generalizing s with
  | nil => exact .refl _
  | cons op ops ih => exact (step_grows ord s op).trans (ih _)

theorem session_shape (ord : List Int → List Int) (ops : List (Op ν β)) (s : State ν β) :
    ∃ g, Shape g ∧ (session ord s ops).2.net = mapNet g s.net := by
  induction ops generalizing s with
  | nil => exact ⟨id, shape_id, (mapNet_id _).symm⟩
  | cons op ops ih =>
    obtain ⟨g, hg, e⟩ := step_shape ord s op
    obtain ⟨g', hg', e'⟩ := ih (step ord s op).2
    refine ⟨g' ∘ g, hg'.comp hg, ?_⟩
    rw [← mapNet_comp, ← e]
    exact e'

/-- **C91.**  The same for a table entry read with `probability_of_value`. -/
theorem entry_never_changes (ord : List Int → List Int) (net : Net ν β) (before after : List (Op ν β)) (x : ν) (v : β)
    (k : CondKey β) (q : ℚ) (h : answerAfter ord net before (.entry x v k) = .ok (.prob q)) :
    answerAfter ord net (before ++ .ask (.entry x v k) :: after) (.entry x v k) = .ok (.prob q) := by
  unfold answerAfter at h ⊢
  rw [session_append]
  generalize (session ord (fresh net) before).2 = s at h
  have h : ((askEntry s x v k).1.map Answer.prob : Except Err (Answer ν β)) = .ok (.prob q) := h
  show ((askEntry (session ord (askEntry s x v k).2 after).2 x v k).1.map Answer.prob) = _
  obtain ⟨g, hg, e⟩ := session_shape ord after (askEntry s x v k).2
  rw [(askEntry_parts s x v k).1] at e
  have hgrow := session_grows ord after (askEntry s x v k).2
  generalize (session ord (askEntry s x v k).2 after).2 = s2 at e hgrow
  unfold askEntry at h hgrow ⊢
  rw [e]
  have hgn : getNode (mapNet g s.net).nodes x = (getNode s.net.nodes x).map g := getNode_shape hg _ _
  rw [hgn]
  cases hn : getNode s.net.nodes x with
  | error e => rw [hn] at h; cases h
  | ok n =>
    rw [hn] at h hgrow
    simp only [] at h hgrow
    rcases hr : readCell n v k s.cells with ⟨r, c⟩
    rw [hr] at h hgrow
    cases r with
    | error e => cases h
    | ok q' =>
      cases h
      have := readCell_replay hg hr hgrow
      show ((readCell (g n) v k s2.cells).1.map Answer.prob) = _
      rw [this]; rfl

theorem part_kept_step {ord : List Int → List Int} {s : State ν β} {vars : List Int} {p : PMF}
    (h : dictGet s.part vars = some p) (op : Op ν β) (hop : ∀ ids, op ≠ .relabelPart vars ids) :
    dictGet (step ord s op).2.part vars = some p := by
  cases op with
  | relabelJoint f ids => exact h
  | ask q =>
    cases q with
    | joint f =>
      show dictGet (askJoint s f).2.part vars = some p
      rw [(askJoint_parts s f).2.2]; exact h
    | part w =>
      show dictGet (askPart ord s w).2.part vars = some p
      by_cases hw : vars = w
      · subst hw
        unfold askPart
        rw [h]; exact h
      · rw [((askPart_parts ord s w).2.2.2 vars hw).1]; exact h
    | entry n v k =>
      show dictGet (askEntry s n v k).2.part vars = some p
      rw [(askEntry_parts s n v k).2.2.1]; exact h
    | sample rolls => exact h
  | relabelPart w ids =>
    show dictGet (s.part.map (fun x => if x.1 = w then (x.1, { x.2 with variableIDs := ids }) else x)) vars = some p
    rw [dictGet_relabel s.part (fun q => { q with variableIDs := ids }) w vars]
    have : w ≠ vars := fun e => hop ids (by rw [e])
    rw [if_neg this]; exact h
  | setRow n k row => exact h

theorem part_kept_session {ord : List Int → List Int} {vars : List Int} {p : PMF} (ops : List (Op ν β)) {s : State ν β}
    (h : dictGet s.part vars = some p) (hops : ∀ ids, .relabelPart vars ids ∉ ops) :
    dictGet (session ord s ops).2.part vars = some p := by
  induction ops generalizing s with
  | nil => exact h
  | cons op ops ih =>
    exact ih (part_kept_step h op (fun ids e => hops ids (e ▸ List.mem_cons_self ..)))
      (fun ids hm => hops ids (List.mem_cons_of_mem _ hm))

theorem askPart_kept {ord : List Int → List Int} {s : State ν β} {vars : List Int} {p : PMF}
    (h : (askPart ord s vars).1 = .ok p) : dictGet (askPart ord s vars).2.part vars = some p := by
  unfold askPart at h ⊢
  cases hd : dictGet s.part vars with
  | some q => rw [hd] at h; cases h; exact hd
  | none =>
    rw [hd] at h
    simp only [] at h ⊢
    by_cases hf : s.net.finalized = true
    · rw [if_pos hf] at h ⊢
      rcases hg : getSub ord s vars with ⟨r, s1⟩
      rw [hg] at h
      cases r with
      | error e => cases h
      | ok sub =>
        simp only [] at h ⊢
        rcases hk : subJoint s1 vars sub with ⟨r, s2⟩
        rw [hk] at h
        cases r with
        | error e => cases h
        | ok joint =>
          simp only [] at h ⊢
          cases hs : sumOverAll (ord (joint.variableIDs.filter (fun i => i ∉ vars)).dedup) joint with
          | error e => rw [hs] at h; cases h
          | ok q => rw [hs] at h; cases h; simp only [dictGet_dictSet, if_true]
    · rw [if_neg hf] at h; cases h

/-- **C91.**  The same for `create_partial_joint_pmf`, for each tuple of variables. -/
theorem partial_never_changes (ord : List Int → List Int) (net : Net ν β) (before after : List (Op ν β))
    (vars : List Int) (p : PMF) (ha : ∀ ids, .relabelPart vars ids ∉ after)
    (h : answerAfter ord net before (.part vars) = .ok (.pmf p)) :
    answerAfter ord net (before ++ .ask (.part vars) :: after) (.part vars) = .ok (.pmf p) := by
  unfold answerAfter at h ⊢
  rw [session_append]
  generalize (session ord (fresh net) before).2 = s at h
  have hs : (askPart ord s vars).1 = .ok p := by
    have h : ((askPart ord s vars).1.map Answer.pmf : Except Err (Answer ν β)) = .ok (.pmf p) := h
    cases hr : (askPart ord s vars).1 with
    | error e => rw [hr] at h; cases h
    | ok q => rw [hr] at h; cases h; rfl
  have h3 := part_kept_session (ord := ord) after (askPart_kept hs) ha
  show ((askPart ord (session ord (askPart ord s vars).2 after).2 vars).1.map Answer.pmf) = _
  generalize (session ord (askPart ord s vars).2 after).2 = s2 at h3
  unfold askPart
  rw [h3]; rfl

/-! ### The first answer -/

theorem fresh_part_step {ord : List Int → List Int} {s : State ν β} {vars : List Int}
    (h : dictGet s.part vars = none ∧ dictGet s.subs vars = none) (op : Op ν β) (hop : op ≠ .ask (.part vars)) :
    dictGet (step ord s op).2.part vars = none ∧ dictGet (step ord s op).2.subs vars = none := by
  cases op with
  | relabelJoint f ids => exact h
  | ask q =>
    cases q with
    | joint f =>
      show dictGet (askJoint s f).2.part vars = none ∧ dictGet (askJoint s f).2.subs vars = none
      rw [(askJoint_parts s f).2.2, (askJoint_parts s f).2.1]; exact h
    | part w =>
      have hw : vars ≠ w := fun e => hop (by rw [e])
      have := (askPart_parts ord s w).2.2.2 vars hw
      exact ⟨this.1.trans h.1, this.2.trans h.2⟩
    | entry n v k =>
      show dictGet (askEntry s n v k).2.part vars = none ∧ dictGet (askEntry s n v k).2.subs vars = none
      rw [(askEntry_parts s n v k).2.2.1, (askEntry_parts s n v k).2.1]; exact h
    | sample rolls => exact h
  | relabelPart w ids =>
    refine ⟨?_, h.2⟩
    show dictGet (s.part.map (fun x => if x.1 = w then (x.1, { x.2 with variableIDs := ids }) else x)) vars = none
    rw [dictGet_relabel s.part (fun q => { q with variableIDs := ids }) w vars, h.1]
    simp
  | setRow n k row =>
    refine ⟨h.1, ?_⟩
    show dictGet (s.subs.map (fun x => (x.1, { x.2 with net := editNet n k row x.2.net }))) vars = none
    rw [dictGet_map_snd s.subs (fun x => { x with net := editNet n k row x.net }) vars, h.2]
    rfl

theorem fresh_part_session {ord : List Int → List Int} {vars : List Int} (ops : List (Op ν β)) {s : State ν β}
    (h : dictGet s.part vars = none ∧ dictGet s.subs vars = none) (hops : .ask (.part vars) ∉ ops) :
    dictGet (session ord s ops).2.part vars = none ∧ dictGet (session ord s ops).2.subs vars = none := by
  induction ops generalizing s with
  | nil => exact h
  | cons op ops ih =>
    exact ih (fresh_part_step h op (fun e => hops (e ▸ List.mem_cons_self ..)))
      (fun hm => hops (List.mem_cons_of_mem _ hm))

theorem askPart_new {ord : List Int → List Int} {s : State ν β} {vars : List Int}
    (h : dictGet s.part vars = none ∧ dictGet s.subs vars = none) :
    (askPart ord s vars).1 = createPartialJointPmf ord s.net vars := by
  unfold askPart createPartialJointPmf requireFinal
  rw [h.1]
  simp only []
  by_cases hf : s.net.finalized = true
  · rw [if_pos hf, if_pos hf]
    unfold getSub
    rw [h.2]
    simp only []
    cases hg : getSubnetwork ord s.net vars with
    | error e => rfl
    | ok sub =>
      simp only []
      unfold subJoint
      simp only []
      have ha := jointC_agree sub (agree_nil sub.nodes)
      show _ = (createJointPmf sub >>= _)
      rw [← ha.1]
      rcases hr : jointC sub [] with ⟨r, c⟩
      cases r with
      | error e => rfl
      | ok joint =>
        show _ = sumOverAll (ord (joint.variableIDs.filter (fun i => i ∉ vars)).dedup) joint
        simp only []
        cases hs : sumOverAll (ord (joint.variableIDs.filter (fun i => i ∉ vars)).dedup) joint <;> rfl
  · rw [if_neg hf, if_neg hf]

/-- **C91.**  `create_partial_joint_pmf` for a tuple of variables not asked for before is answered from the tables
as they are, whatever else was asked and edited before. -/
theorem new_tuple_is_current (ord : List Int → List Int) (net : Net ν β) (ops : List (Op ν β)) (vars : List Int)
    (h : .ask (.part vars) ∉ ops) :
    answerAfter ord net ops (.part vars) = plain ord (edited net ops) (.part vars) := by
  unfold answerAfter plain
  have h1 := fresh_part_session (ord := ord) ops (s := fresh net) (vars := vars) ⟨rfl, rfl⟩ h
  show ((askPart ord (session ord (fresh net) ops).2 vars).1.map Answer.pmf) = _
  rw [askPart_new h1, ← createPartialJointPmf_noSums, session_noSums ord ops (fresh net) net rfl,
    createPartialJointPmf_noSums]

theorem fresh_joint_step {ord : List Int → List Int} {s : State ν β}
    (h : s.joint = [] ∧ s.cells = []) (op : Op ν β) (h1 : ∀ f, op ≠ .ask (.joint f))
    (h2 : ∀ x v k, op ≠ .ask (.entry x v k)) :
    (step ord s op).2.joint = [] ∧ (step ord s op).2.cells = [] := by
  cases op with
  | relabelJoint f ids => exact ⟨by show s.joint.map _ = []; rw [h.1]; rfl, h.2⟩
  | ask q =>
    cases q with
    | joint f => exact absurd rfl (h1 f)
    | part w => exact ⟨(askPart_parts ord s w).2.2.1.trans h.1, (askPart_parts ord s w).2.1.trans h.2⟩
    | entry n v k => exact absurd rfl (h2 n v k)
    | sample rolls => exact h
  | relabelPart w ids => exact h
  | setRow n k row => exact h

theorem fresh_joint_session {ord : List Int → List Int} (ops : List (Op ν β)) {s : State ν β}
    (h : s.joint = [] ∧ s.cells = []) (h1 : ∀ f, .ask (.joint f) ∉ ops) (h2 : ∀ x v k, .ask (.entry x v k) ∉ ops) :
    (session ord s ops).2.joint = [] ∧ (session ord s ops).2.cells = [] := by
  induction ops generalizing s with
  | nil => exact h
  | cons op ops ih =>
    exact ih (fresh_joint_step h op (fun f e => h1 f (e ▸ List.mem_cons_self ..))
        (fun x v k e => h2 x v k (e ▸ List.mem_cons_self ..)))
      (fun f hm => h1 f (List.mem_cons_of_mem _ hm)) (fun x v k hm => h2 x v k (List.mem_cons_of_mem _ hm))

/-- **C91.**  The first `create_joint_pmf` is answered from the tables as they are, if no table entry was read with
`probability_of_value` before. -/
theorem first_joint_is_current (ord : List Int → List Int) (net : Net ν β) (ops : List (Op ν β)) (f : Nat)
    (h1 : ∀ f, .ask (.joint f) ∉ ops) (h2 : ∀ x v k, .ask (.entry x v k) ∉ ops) :
    answerAfter ord net ops (.joint f) = plain ord (edited net ops) (.joint f) := by
  unfold answerAfter plain
  obtain ⟨hj, hc⟩ := fresh_joint_session (ord := ord) ops (s := fresh net) ⟨rfl, rfl⟩ h1 h2
  show ((askJoint (session ord (fresh net) ops).2 f).1.map Answer.pmf) = _
  have e : ∀ s : State ν β, s.joint = [] → s.cells = [] → (askJoint s f).1 = createJointPmf s.net := by
    intro s hj hc
    unfold askJoint
    rw [hj, hc]
    have ha := jointC_agree s.net (agree_nil _)
    rw [← ha.1]
    simp only [dictGet]
    rcases hr : jointC s.net [] with ⟨r, c⟩
    cases r <;> rfl
  rw [e _ hj hc, ← createJointPmf_noSums, session_noSums ord ops (fresh net) net rfl, createJointPmf_noSums]

/-! ### Samples -/

/-- (Models no code: a notion for statements and proofs.) -/
structure Samples (h : Node ν β → Node ν β) : Prop extends Shape h where
  cumulative : ∀ n, (h n).cumulative = n.cumulative

theorem nodeSample_samples {h : Node ν β → Node ν β} (hh : Samples h) (n : Node ν β) (s : List (ν × β)) (roll : ℚ) :
    nodeSample (h n) s false roll = nodeSample n s false roll := by
  unfold nodeSample conditioningKey probdistSample valueAt
  rw [hh.name, hh.parents, hh.cumulative, hh.values]

theorem sampleLoop_samples {h : Node ν β → Node ν β} (hh : Samples h) (nodes : List (Node ν β)) (rolls : Nat → ℚ)
    (vs : List ν) (k : Nat) (s : List (ν × β)) :
    sampleLoop (nodes.map h) rolls vs k s = sampleLoop nodes rolls vs k s := by
  induction vs generalizing k s with
  | nil => rfl
  | cons v vs ih =>
    unfold sampleLoop
    rw [getNode_shape hh.toShape]
    cases getNode nodes v with
    | error e => rfl
    | ok n =>
      show (nodeSample (h n) s false (rolls k) >>= _) = (nodeSample n s false (rolls k) >>= _)
      rw [nodeSample_samples hh]
      simp only [ih]

theorem editNode_samples (name : ν) (k : CondKey β) (row : List ℚ) :
    Samples (editNode name k row : Node ν β → Node ν β) :=
  ⟨editNode_shape name k row, fun n => by unfold editNode; split <;> rfl⟩

theorem sample_editNet (name : ν) (k : CondKey β) (row : List ℚ) (net : Net ν β) (rolls : Nat → ℚ) :
    BN.sample (editNet name k row net) rolls = BN.sample net rolls := by
  unfold BN.sample requireFinal editNet
  simp only []
  rw [sampleLoop_samples (editNode_samples name k row)]

theorem sample_step {ord : List Int → List Int} (s : State ν β) (op : Op ν β) (hop : ∀ vars, op ≠ .ask (.part vars))
    (rolls : Nat → ℚ) : BN.sample (step ord s op).2.net rolls = BN.sample s.net rolls := by
  cases op with
  | relabelJoint f ids => rfl
  | ask q =>
    cases q with
    | joint f => exact congrArg (BN.sample · rolls) (askJoint_parts s f).1
    | part w => exact absurd rfl (hop w)
    | entry n v k => exact congrArg (BN.sample · rolls) (askEntry_parts s n v k).1
    | sample rolls => rfl
  | relabelPart w ids => rfl
  | setRow n k row => exact sample_editNet n k row s.net rolls

/-- **C91.**  Samples do not follow the tables: whatever was edited after `finalize()`, they are those of the tables
as they were then, as long as no partial joint distribution was asked for. -/
theorem samples_ignore_edits (ord : List Int → List Int) (net : Net ν β) (ops : List (Op ν β))
    (h : ∀ vars, .ask (.part vars) ∉ ops) (rolls : Nat → ℚ) :
    answerAfter ord net ops (.sample rolls) = plain ord net (.sample rolls) := by
  unfold answerAfter plain
  show (BN.sample (session ord (fresh net) ops).2.net rolls).map Answer.values = _
  have key : ∀ (s : State ν β), (∀ vars, .ask (.part vars) ∉ ops) →
      BN.sample (session ord s ops).2.net rolls = BN.sample s.net rolls := by
    clear h
    induction ops with
    | nil => intro s _; rfl
    | cons op ops ih =>
      intro s h
      exact (ih _ (fun vars hm => h vars (List.mem_cons_of_mem _ hm))).trans
        (sample_step s op (fun vars e => h vars (e ▸ List.mem_cons_self ..)) rolls)
  rw [key (fresh net) h]
  rfl


/-! ## Examples -/

namespace Example

/-- Two binary variables, `0 → 1`, where `1` copies `0`. (Example.) -/
def nodes : List (Node Nat Nat) :=
  [{ name := 0, values := [0, 1], parents := [], probabilities := [(.unconditioned, [1/2, 1/2])] },
   { name := 1, values := [0, 1], parents := [0],
     probabilities := [(.values [0], [1, 0]), (.values [1], [0, 1])] }]

/-- (Example.) -/
def net : Net Nat Nat := match finalize { nodes := nodes } with | .ok n => n | .error _ => { nodes := [] }

/-- (Example.) -/
def pmfOf : Except Err (Answer Nat Nat) → List (Key × ℚ)
  | .ok (.pmf p) => p.probabilities
  | _ => []

/-- (Example.) -/
def idsOf : Except Err (Answer Nat Nat) → List Int
  | .ok (.pmf p) => p.variableIDs
  | _ => []

/-- (Example.) -/
def valuesOf : Except Err (Answer Nat Nat) → List (Nat × Nat)
  | .ok (.values s) => s
  | _ => []

/-- Variable `0` is made certain. (Example.) -/
def certain : Op Nat Nat := .setRow 0 .unconditioned [1, 0]

theorem finalized_ok : ∃ n0 : Net Nat Nat, finalize n0 = .ok net := ⟨{ nodes := nodes }, rfl⟩

/-- Calls without edits: all answers are those of a network that remembers nothing, and are not errors. -/
example : (session id (fresh net) ([.joint 0, .part [1], .entry 1 0 (.values [0]), .joint 1, .part [1]].map .ask)).1 =
    [.joint 0, .part [1], .entry 1 0 (.values [0]), .joint 1, .part [1]].map (plain id net) :=
  finalized_caches_transparent id finalized_ok.choose_spec _

example : pmfOf (plain id net (.part [1])) = [(.one 0, 1/2), (.one 1, 1/2)] := by decide +kernel

/-- The joint distribution stays the old one, in each way of writing the call ... -/
example : ∃ p : PMF, answerAfter id net [] (.joint 0) = .ok (.pmf p) ∧
    answerAfter id net ([] ++ .ask (.joint 0) :: [certain]) (.joint 1) = .ok (.pmf p) :=
  ⟨match answerAfter id net [] (.joint 0) with | .ok (.pmf p) => p | _ => ⟨[], [], none⟩, by rfl,
    joint_never_changes id net [] [certain] 0 1 _ (by simp) (by simp [certain]) (by rfl)⟩

/-- ... while a partial distribution asked for only then is the new one: the two do not fit together. -/
theorem old_joint_new_partial :
    pmfOf (answerAfter id net [.ask (.joint 0), certain] (.joint 0)) =
      [(.tup [0, 0], 1/2), (.tup [0, 1], 0), (.tup [1, 0], 0), (.tup [1, 1], 1/2)] ∧
    pmfOf (answerAfter id net [.ask (.joint 0), certain] (.part [1])) = [(.one 0, 1), (.one 1, 0)] := by
  decide +kernel

example : .ask (.part [1]) ∉ ([.ask (.joint 0), certain] : List (Op Nat Nat)) := by simp [certain]

/-- A partial distribution asked for before the edit stays the old one. -/
theorem old_partial :
    pmfOf (answerAfter id net [.ask (.part [1]), certain] (.part [1])) = [(.one 0, 1/2), (.one 1, 1/2)] := by
  decide +kernel

/-- After the edit samples are still drawn from the old table; asking for a partial distribution makes them follow
the new one. -/
theorem partial_query_changes_samples :
    valuesOf (answerAfter id net [certain] (.sample fun _ => 3/4)) = [(0, 1), (1, 1)] ∧
    valuesOf (answerAfter id net [certain, .ask (.part [1])] (.sample fun _ => 3/4)) = [(0, 0), (1, 0)] := by
  decide +kernel

/-- Relabelling the variables of the distribution that was returned relabels what is returned later. -/
theorem relabel_is_remembered :
    idsOf (answerAfter id net [.ask (.joint 0), .relabelJoint 0 [7, 8]] (.joint 0)) = [7, 8] ∧
    idsOf (answerAfter id net [.ask (.joint 0), .relabelJoint 0 [7, 8]] (.joint 1)) = [0, 1] := by
  decide +kernel

/-- A table entry read before the edit goes into the joint distribution asked for after it. -/
theorem entry_read_before_edit :
    pmfOf (answerAfter id net [.ask (.entry 0 0 .unconditioned), certain] (.joint 0)) =
      [(.tup [0, 0], 1/2), (.tup [0, 1], 0), (.tup [1, 0], 0), (.tup [1, 1], 0)] := by
  decide +kernel

end Example

end Mbtk.BN.Caches
