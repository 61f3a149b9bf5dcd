import Verif.Stats.PMF
/-!
# Model of the probabilistic part of `mbtk/structures/BayesianNetwork.py`

Names `ν` are linearly ordered (Python sorts them as strings), values `β` are only compared
for equality.  Probabilities are exact rationals, random rolls are elements of an ordered
field `K` (`ℚ` or `ℝ`): rounding is not modelled.  A reference to a `VariableNode` is modelled
by the node's name.  Dictionary keys of `variable_nodes` and `conditioning_variable_nodes` are
the names of the nodes they map to (Transformers.py 126, 137).  The two graphs built by
`finalize` are modelled in `Verif/Graph/Model.lean`.
-/
namespace Mbtk.BN
open Mbtk.Stats (PMF Key)
variable {ν β : Type} [LinearOrder ν] [DecidableEq β]

/-- A key of `probdist.probabilities`: the string `'<unconditioned>'` or a tuple of values.
BayesianNetwork.py 652-666. -/
inductive CondKey (β : Type) where
  | unconditioned
  | values (l : List β)
  deriving DecidableEq, Repr

/-- A `VariableNode` with its `ProbabilityDistributionOfVariableNode`: BayesianNetwork.py
556-561 and 652-665.  `parents` are the keys of `conditioning_variable_nodes`. -/
structure Node (ν β : Type) where
  name : ν
  values : List β
  parents : List ν
  probabilities : List (CondKey β × List ℚ)
  id : Int := -1
  cumulative : List (CondKey β × List ℚ) := []
  indexed : List (List Nat × List ℚ) := []

/-- A `BayesianNetwork`: BayesianNetwork.py 32-42. -/
structure Net (ν β : Type) where
  nodes : List (Node ν β)
  namesOrder : List ν := []
  nodeOrder : List ν := []
  byID : List (Int × ν) := []
  ids : List Int := []
  finalized : Bool := false

/-- `self.variable_nodes[name]`. BayesianNetwork.py 32-42. -/
def getNode (nodes : List (Node ν β)) (name : ν) : Except Err (Node ν β) :=
  match nodes.find? (fun n => n.name = name) with
  | some n => .ok n
  | none => .error .keyError

/-- `variable_node_names()`: BayesianNetwork.py 50-52. -/
def names (nodes : List (Node ν β)) : List ν := (nodes.map (·.name)).insertionSort (· ≤ ·)

/-- `l.index(x)`: `ValueError` if `x` does not occur. BayesianNetwork.py 56-57, 130-139. -/
def indexOf {α : Type} [DecidableEq α] (l : List α) (x : α) : Except Err Nat :=
  if x ∈ l then .ok (l.idxOf x) else .error .valueError

/-! ## Sampling order -/

/-- The `for` loop of `detect_optimal_variable_sampling_order`: BayesianNetwork.py 308-312. -/
def orderPass (nodes : List (Node ν β)) : List ν → List ν → Except Err (List ν)
  | [], order => .ok order
  | v :: vs, order => do
    let n ← getNode nodes v
    if n.parents = [] ∨ ∀ p ∈ n.parents, p ∈ order then orderPass nodes vs (order ++ [n.name])
    else orderPass nodes vs order

/-- The `while` loop: BayesianNetwork.py 307-313.  A pass that leaves as many names as before
has added nothing, so the next one starts from the same state and the loop never ends: this is
modelled as the error `"nontermination"`.  Every other pass removes a name, so `fuel` (the
number of names) is never exhausted before one of the two happens. -/
def orderLoop (nodes : List (Node ν β)) : Nat → List ν → List ν → Except Err (List ν)
  | _, [], order => .ok order
  | 0, _ :: _, _ => .error (.custom "nontermination")
  | fuel + 1, v :: vs, order => do
    let order' ← orderPass nodes (v :: vs) order
    orderLoop nodes fuel ((v :: vs).filter (fun v => v ∉ order')) order'

/-- `detect_optimal_variable_sampling_order()`: BayesianNetwork.py 303-315. -/
def detectOrder (nodes : List (Node ν β)) : Except Err (List ν) :=
  orderLoop nodes (names nodes).length (names nodes) []

/-! ## Finalization -/

/-- `itertools.accumulate(probs)`, starting from `s`. BayesianNetwork.py 692-696. -/
def accumulate (s : ℚ) : List ℚ → List ℚ
  | [] => []
  | p :: ps => (s + p) :: accumulate (s + p) ps

/-- `create_cummulative_probabilities`: BayesianNetwork.py 692-696. -/
def cumulativeOf (probabilities : List (CondKey β × List ℚ)) : List (CondKey β × List ℚ) :=
  probabilities.map (fun p => (p.1, accumulate 0 p.2))

/-- The inner loop of `create_probabilities_with_indexed_conditioning`: BayesianNetwork.py
703-706, the positions still to be filled with the parents at those positions. -/
def indexedKey (nodes : List (Node ν β)) : List β → List ν → Except Err (List Nat)
  | [], _ => .ok []
  | _ :: _, [] => .error .indexError
  | v :: vs, p :: ps => do
    let n ← getNode nodes p
    let i ← indexOf n.values v
    let rest ← indexedKey nodes vs ps
    .ok (i :: rest)

/-- `create_probabilities_with_indexed_conditioning`: BayesianNetwork.py 699-709. -/
def indexedTable (nodes : List (Node ν β)) (parents : List ν) :
    List (CondKey β × List ℚ) → List (List Nat × List ℚ) → Except Err (List (List Nat × List ℚ))
  | [], acc => .ok acc
  | (.unconditioned, _) :: rest, acc => indexedTable nodes parents rest acc
  | (.values l, row) :: rest, acc => do
    let k ← indexedKey nodes l parents
    indexedTable nodes parents rest (dictSet acc k row)

/-- `probdist.finalize()`: BayesianNetwork.py 686-689. -/
def finalizeNode (nodes : List (Node ν β)) (n : Node ν β) : Except Err (Node ν β) :=
  if CondKey.unconditioned ∈ n.probabilities.map Prod.fst then
    .ok { n with cumulative := cumulativeOf n.probabilities }
  else do
    let t ← indexedTable nodes n.parents n.probabilities []
    .ok { n with cumulative := cumulativeOf n.probabilities, indexed := t }

/-- `for variable in ...: variable.probdist.finalize()`: BayesianNetwork.py 278-279. -/
def finalizeNodes (nodes : List (Node ν β)) : List (Node ν β) → Except Err (List (Node ν β))
  | [] => .ok []
  | n :: rest => do
    let n' ← finalizeNode nodes n
    let rest' ← finalizeNodes nodes rest
    .ok (n' :: rest')

/-- `if node.ID == -1: node.ID = index`, for the node called `name`: BayesianNetwork.py
289-290. -/
def setID (name : ν) (index : Nat) (n : Node ν β) : Node ν β :=
  if n.name = name ∧ n.id = -1 then { n with id := index } else n

/-- The loop that assigns IDs: BayesianNetwork.py 287-292. -/
def assignIDs : List ν → Nat → Net ν β → Except Err (Net ν β)
  | [], _, net => .ok net
  | v :: vs, index, net => do
    let nodes := net.nodes.map (setID v index)
    let n ← getNode nodes v
    assignIDs vs (index + 1)
      { net with nodes := nodes, byID := dictSet net.byID n.id v, ids := net.ids ++ [n.id] }

/-- The sampling order used by `finalize`: BayesianNetwork.py 281-282. -/
def chosenOrder (net : Net ν β) : Except Err (List ν) :=
  if net.namesOrder = [] then detectOrder net.nodes else .ok net.namesOrder

/-- `finalize()`: BayesianNetwork.py 277-299 (without the graphs and `joint_pmf_size`). -/
def finalize (net : Net ν β) : Except Err (Net ν β) := do
  let nodes ← finalizeNodes net.nodes net.nodes
  let order ← chosenOrder net
  let net ← assignIDs (names nodes) 0
    { net with nodes := nodes, namesOrder := order, nodeOrder := net.nodeOrder ++ order }
  .ok { net with finalized := true }

/-- `@finalization_required`: BayesianNetwork.py 20-27. -/
def requireFinal {α : Type} (net : Net ν β) (r : Except Err α) : Except Err α :=
  if net.finalized then r else .error (.custom "BayesianNetworkNotFinalizedError")

/-! ## Sampling -/

/-- `dict[key]` on a (partial) sample. BayesianNetwork.py 633-638. -/
def sampleGet (s : List (ν × β)) (v : ν) : Except Err β :=
  match dictGet s v with
  | some x => .ok x
  | none => .error .keyError

/-- `[sample[v] for v in vs]`. BayesianNetwork.py 633-638. -/
def sampleGets (s : List (ν × β)) : List ν → Except Err (List β)
  | [] => .ok []
  | v :: vs => do
    let x ← sampleGet s v
    let xs ← sampleGets s vs
    .ok (x :: xs)

/-- `sample_roll(roll, cummulative_probabilities)`: BayesianNetwork.py 737-742; `none` is the
implicit `return None`. -/
def sampleRoll {K : Type} [Field K] [LinearOrder K] (roll : K) : List ℚ → Option Nat
  | [] => none
  | c :: cs => if roll ≤ (c : K) then some 0 else (sampleRoll roll cs).map (· + 1)

/-- `conditioning_values` in `VariableNode.sample`: BayesianNetwork.py 585-605.  The
recursive branch calls `.sample` on a name, not a node (626-628): `AttributeError`. -/
def conditioningKey (n : Node ν β) (s : List (ν × β)) (recursive : Bool) :
    Except Err (CondKey β) :=
  if n.parents = [] then .ok .unconditioned
  else if recursive = true ∧ ∃ p ∈ n.parents, p ∉ s.map Prod.fst then .error .attributeError
  else do
    let l ← sampleGets s n.parents
    .ok (.values l)

/-- `self.values[value_index]`: indexing with `None` is a `TypeError`.
BayesianNetwork.py 564-607. -/
def valueAt (n : Node ν β) : Option Nat → Except Err β
  | none => .error .typeError
  | some i => match n.values[i]? with
    | some v => .ok v
    | none => .error .indexError

/-- `probdist.sample(conditioning_values)`: BayesianNetwork.py 730-734. -/
def probdistSample {K : Type} [Field K] [LinearOrder K] (n : Node ν β) (k : CondKey β) (roll : K) :
    Except Err (Option Nat) :=
  match dictGet n.cumulative k with
  | some cs => .ok (sampleRoll roll cs)
  | none => .error .keyError

/-- `VariableNode.sample(partial_sample, recursive)`: BayesianNetwork.py 564-607.  `roll` is
the value of `random.random()`; the Boolean says whether a random number was drawn. -/
def nodeSample {K : Type} [Field K] [LinearOrder K] (n : Node ν β) (s : List (ν × β))
    (recursive : Bool) (roll : K) : Except Err (List (ν × β) × Bool) :=
  if n.name ∈ s.map Prod.fst then .ok (s, false)
  else do
    let k ← conditioningKey n s recursive
    let i ← probdistSample n k roll
    let v ← valueAt n i
    .ok (dictSet s n.name v, true)

/-- The loop of `sample` over the sampling order: BayesianNetwork.py 87-88.  `rolls k` is the
result of the `k`-th call of `random.random()`. -/
def sampleLoop {K : Type} [Field K] [LinearOrder K] (nodes : List (Node ν β)) (rolls : Nat → K) :
    List ν → Nat → List (ν × β) → Except Err (List (ν × β))
  | [], _, s => .ok s
  | v :: vs, k, s => do
    let n ← getNode nodes v
    let r ← nodeSample n s false (rolls k)
    sampleLoop nodes rolls vs (if r.2 then k + 1 else k) r.1

/-- `sample()`: BayesianNetwork.py 70-95, dictionary form, for a network with a sampling
order (an empty one has no variables and gives an empty sample). -/
def sample {K : Type} [Field K] [LinearOrder K] (net : Net ν β) (rolls : Nat → K) :
    Except Err (List (ν × β)) :=
  requireFinal net (sampleLoop net.nodes rolls net.nodeOrder 0 [])

/-- `sample_values_to_indices(sample)`: BayesianNetwork.py 130-140. -/
def toIndices (nodes : List (Node ν β)) : List (ν × β) → Except Err (List (ν × Nat))
  | [] => .ok []
  | (v, x) :: rest => do
    let n ← getNode nodes v
    let i ← indexOf n.values x
    let rest' ← toIndices nodes rest
    .ok ((v, i) :: rest')

/-- `[sample[v] for v in names]` on a sample of indices: BayesianNetwork.py 98-106. -/
def asList (s : List (ν × Nat)) : List ν → Except Err (List Nat)
  | [] => .ok []
  | v :: vs =>
    match dictGet s v with
    | none => .error .keyError
    | some i => do
      let is ← asList s vs
      .ok (i :: is)

/-- `sample(as_list=True, values_as_indices=True)`: BayesianNetwork.py 70-95; a row of
`sample_matrix`. -/
def sampleRow {K : Type} [Field K] [LinearOrder K] (net : Net ν β) (rolls : Nat → K) :
    Except Err (List Nat) := do
  let s ← sample net rolls
  let si ← toIndices net.nodes s
  asList si (names net.nodes)

/-! ## Joint distribution -/

/-- `probability_of_value(value, conditioning_values)`: BayesianNetwork.py 610-614. -/
def probabilityOfValue (n : Node ν β) (v : β) (k : CondKey β) : Except Err ℚ := do
  let i ← indexOf n.values v
  match dictGet n.probabilities k with
  | none => .error .keyError
  | some row => match row[i]? with
    | some p => .ok p
    | none => .error .indexError

/-- `conditioning_values`, replaced by `'<unconditioned>'` if empty: BayesianNetwork.py
178-180. -/
def rowKey (l : List β) : CondKey β := if l = [] then .unconditioned else .values l

/-- The key of a complete sample: BayesianNetwork.py 168-172. -/
def jointKey (nodes : List (Node ν β)) (cur : List (ν × β)) : Except Err Key := do
  let si ← toIndices nodes cur
  let l ← asList si (names nodes)
  .ok (.tup (l.map (fun i : Nat => (i : Int))))

/-- The value-and-probability of one branch: BayesianNetwork.py 178-181. -/
def branchProb (n : Node ν β) (cur : List (ν × β)) (prob : ℚ) (v : β) : Except Err ℚ := do
  let l ← sampleGets cur n.parents
  let p ← probabilityOfValue n v (rowKey l)
  .ok (prob * p)

/-- The `for value in current_variable.values` loop: BayesianNetwork.py 177-183; `rec_` is the
recursive call, on the extended partial sample. -/
def jointValues (rec_ : List (Key × ℚ) → List (ν × β) → ℚ → Except Err (List (Key × ℚ)))
    (n : Node ν β) (cur : List (ν × β)) (prob : ℚ) :
    List β → List (Key × ℚ) → Except Err (List (Key × ℚ))
  | [], joint => .ok joint
  | v :: vs, joint => do
    let p ← branchProb n cur prob v
    let joint ← rec_ joint (dictSet cur n.name v) p
    jointValues rec_ n cur prob vs joint

/-- `joint_values_and_probabilities`: BayesianNetwork.py 161-187, with
`values_as_indices=True`.  `fuel` bounds the recursion depth: `len(current_value)` grows by
one at each level as long as the sampling order has no repeated name, and a level at which it
does not grow repeats itself for ever (`RecursionError`).  The `del` of line 185 restores the
partial sample, which is a value here; without any value there is nothing to delete
(`KeyError`). -/
def jointRec (nodes : List (Node ν β)) (order : List ν) : Nat → List (Key × ℚ) →
    List (ν × β) → ℚ → Except Err (List (Key × ℚ))
  | 0, _, _, _ => .error .recursion
  | fuel + 1, joint, cur, prob =>
    if cur.length = order.length then do
      let k ← jointKey nodes cur
      .ok (dictSet joint k prob)
    else
      match order[cur.length]? with
      | none => .error .indexError
      | some v => do
        let n ← getNode nodes v
        if n.values = [] then .error .keyError
        else jointValues (jointRec nodes order fuel) n cur prob n.values joint

/-- `create_joint_pmf()`: BayesianNetwork.py 153-157. -/
def createJointPmf (net : Net ν β) : Except Err PMF :=
  requireFinal net (do
    let d ← jointRec net.nodes net.nodeOrder (net.nodeOrder.length + 1) [] [] 1
    .ok ⟨d, net.ids, none⟩)

/-! ## Subnetworks and partial joint distributions -/

/-- `variable_nodes_by_ID[ID]`. BayesianNetwork.py 261-267. -/
def nodeByID (net : Net ν β) (id : Int) : Except Err (Node ν β) :=
  match dictGet net.byID id with
  | some v => getNode net.nodes v
  | none => .error .keyError

/-- `variable_nodes_index(name)`: BayesianNetwork.py 55-57. -/
def nodesIndex (nodes : List (Node ν β)) (v : ν) : Except Err Nat := indexOf (names nodes) v

/-- `[self.variable_nodes_index(p) for p in ps]` as IDs: BayesianNetwork.py 238-240. -/
def parentIDs (nodes : List (Node ν β)) : List ν → Except Err (List Int)
  | [] => .ok []
  | p :: ps => do
    let i ← nodesIndex nodes p
    let is ← parentIDs nodes ps
    .ok ((i : Int) :: is)

/-- The loop collecting the parents of several nodes: BayesianNetwork.py 234-240. -/
def parentsOf (net : Net ν β) : List Int → Except Err (List Int)
  | [] => .ok []
  | i :: is => do
    let n ← nodeByID net i
    let ps ← parentIDs net.nodes n.parents
    let rest ← parentsOf net is
    .ok (ps ++ rest)

/-- `get_subnetwork_node_IDs(node_IDs)`: BayesianNetwork.py 233-248.  `ord` gives the
iteration order of a set.  The recursion visits longer and longer ancestor chains; `fuel`
bounds its depth (more than the number of nodes is only possible on a cycle, where the Python
recursion never ends). -/
def subnetworkIDs (ord : List Int → List Int) (net : Net ν β) : Nat → List Int →
    Except Err (List Int)
  | 0, _ => .error .recursion
  | fuel + 1, ids => do
    let parents ← parentsOf net ids
    if parents = [] then .ok (ord ids.dedup)
    else do
      let ancestors ← subnetworkIDs ord net fuel (ord parents.dedup)
      .ok (ord (ids ++ (parents ++ ancestors)).dedup)

/-- `get_subnetwork_nodes` after `get_nodes_by_ID`: BayesianNetwork.py 218-228, 260-267. -/
def nodesByID (net : Net ν β) : List Int → Except Err (List (Node ν β))
  | [] => .ok []
  | i :: is => do
    let n ← nodeByID net i
    let ns ← nodesByID net is
    .ok (n :: ns)

/-- The keys of `get_nodes_by_ID(list(variables))`, a dictionary: BayesianNetwork.py 260-267. -/
def requestedIDs (net : Net ν β) : List Int → Except Err (List Int)
  | [] => .ok []
  | i :: is => do
    let n ← nodeByID net i
    let rest ← requestedIDs net is
    .ok (n.id :: rest)

/-- `get_subnetwork(variables)`: BayesianNetwork.py 206-215.  The copied nodes keep their ID
and share the conditional tables. -/
def getSubnetwork (ord : List Int → List Int) (net : Net ν β) (variables_ : List Int) :
    Except Err (Net ν β) :=
  requireFinal net (do
    let req ← requestedIDs net variables_
    let ids ← subnetworkIDs ord net (net.nodes.length + 1) req.dedup
    let nodes ← nodesByID net ids
    finalize { nodes := nodes })

/-- `for variable in variables_to_sum_over: joint_pmf = joint_pmf.sum_over(variable)`:
BayesianNetwork.py 198-199. -/
def sumOverAll : List Int → PMF → Except Err PMF
  | [], pmf => .ok pmf
  | i :: is, pmf => do
    let pmf ← pmf.sumOver i
    sumOverAll is pmf

/-- `create_partial_joint_pmf(variables)`: BayesianNetwork.py 192-201. -/
def createPartialJointPmf (ord : List Int → List Int) (net : Net ν β) (variables_ : List Int) :
    Except Err PMF :=
  requireFinal net (do
    let sub ← getSubnetwork ord net variables_
    let joint ← createJointPmf sub
    sumOverAll (ord (joint.variableIDs.filter (fun i => i ∉ variables_)).dedup) joint)

end Mbtk.BN
