import Verif.Stats.Dict
import Verif.Stats.Key
import Mathlib.Data.List.Sort
import Mathlib.Data.Rat.Floor
/-!
# Model of `mbtk/math/Variable.py` and `mbtk/math/PMF.py`

Floating point numbers are exact rationals (probabilities) or reals (logarithms); rounding
errors are not modelled.  A Python object that is mutated is a value; the mutated value is
returned.
-/
namespace Mbtk.Stats

/-! ## Variables -/

/-- A plain `Variable`: Variable.py 8-41.  `loaded` says that `instances_list` is not `None`
(a lazily loaded variable gets its list on first use, Variable.py 28-36); `numpy` says that
the list is a `numpy.ndarray`. -/
structure Column where
  id : Int
  instances : List Int
  loaded : Bool := true
  numpy : Bool := false
  deriving Repr

/-- The kinds of variable objects: Variable.py 8, 45, 64. -/
inductive Variable where
  | single (c : Column)
  | omega (count : Nat)
  | joint (vars : List Column)

/-- `JointVariables.flatten_variables_list`: Variable.py 103-110 (anything that is neither a
plain `Variable` nor a `JointVariables` is dropped). -/
def flattenVariables : List Variable → List Column
  | [] => []
  | .single c :: rest => c :: flattenVariables rest
  | .joint cs :: rest => cs ++ flattenVariables rest
  | .omega _ :: rest => flattenVariables rest

/-- `validate_variable_lengths`: Variable.py 150-154. -/
def validateLengths : List Column → Except Err Unit
  | a :: b :: rest =>
    if a.instances.length ≠ b.instances.length then
      .error (.custom "VariableInstancesOfUnequalCount")
    else validateLengths (b :: rest)
  | _ => .ok ()

/-- `JointVariables.__init__`: Variable.py 66-78 and 96-100. -/
def mkJoint (args : List Variable) : Except Err Variable := do
  let vars := flattenVariables args
  if vars.all (·.loaded) then validateLengths vars
  pure (.joint vars)

/-- `zip(*columns)` for at least one column: stops at the shortest. Variable.py 86-89. -/
def zipColumns : List (List Int) → List (List Int)
  | [] => []
  | [c] => c.map (fun v => [v])
  | c :: rest => List.zipWith (· :: ·) c (zipColumns rest)

/-- `variable.instances()`: Variable.py 28-31, 55-56, 86-89. -/
def Variable.instances : Variable → List Key
  | .single c => c.instances.map .one
  | .omega n => List.replicate n (.one 1)
  | .joint [c] => c.instances.map .one
  | .joint cs => (zipColumns (cs.map (·.instances))).map .tup

/-- `len(variable)`: Variable.py 20-21, 59-60, 92-93. -/
def Variable.len : Variable → Except Err Nat
  | .single c => .ok c.instances.length
  | .omega n => .ok n
  | .joint [] => .error .indexError
  | .joint (c :: _) => .ok c.instances.length

/-- `variable.IDs()`: Variable.py 24-25, 81-83; the ID of Ω is set in Variable.py 49. -/
def Variable.ids : Variable → List Int
  | .single c => [c.id]
  | .omega _ => [-1024]
  | .joint cs => cs.map (·.id)

/-- Whether `variable.instances()` is a `numpy.ndarray` (only a single column can be).
PMF.py 117-121. -/
def Variable.isNumpy : Variable → Bool
  | .single c => c.numpy
  | .joint [c] => c.numpy
  | _ => false

/-- `variable.variableIDs`, which only `JointVariables` has: Variable.py 73. -/
def Variable.jointIDs : Variable → Option (List Int)
  | .joint cs => some (cs.map (·.id))
  | _ => none

/-! ## PMF -/

/-- A `PMF`: PMF.py 12-30.  `probabilities` is the dictionary, `variableIDs` the attribute,
`jointIDs` the IDs of `pmf.variable` when it is a joint variable.  The counts are only used
while constructing and are dropped. -/
structure PMF where
  probabilities : List (Key × ℚ) := []
  variableIDs : List Int := []
  jointIDs : Option (List Int) := none
  deriving Repr

/-- `PMF(None)`: PMF.py 25-30. -/
def PMF.empty : PMF := {}

/-- `Counter(instances)`: PMF.py 121. -/
def counter (l : List Key) : List (Key × Nat) := dictAddAll [] (l.map (fun k => (k, 1)))

/-- Order of `numpy.unique`: PMF.py 120. -/
def keyLe : Key → Key → Bool
  | .one a, .one b => decide (a ≤ b)
  | .tup a, .tup b => decide (a ≤ b)
  | .one _, .tup _ => true
  | .tup _, .one _ => false

/-- `dict(zip(*numpy.unique(instances, return_counts=True)))`: PMF.py 120. -/
def numpyUnique (l : List Key) : List (Key × Nat) :=
  ((l.dedup).insertionSort (fun a b => keyLe a b = true)).map (fun k => (k, l.count k))

/-- `PMF.count_values`: PMF.py 117-121. -/
def countValues (v : Variable) : List (Key × Nat) :=
  if v.isNumpy then numpyUnique v.instances else counter v.instances

/-- `PMF.normalize_counts`: PMF.py 124-132. -/
def normalizeCounts (total : Nat) : List (Key × Nat) → Except Err (List (Key × ℚ))
  | [] => .ok []
  | (k, n) :: rest =>
    if total = 0 then .error .zeroDivision
    else do
      let rest' ← normalizeCounts total rest
      .ok ((k, (n : ℚ) / total) :: rest')

/-- `PMF(variable)`: PMF.py 17-24. -/
def PMF.ofVariable (v : Variable) : Except Err PMF := do
  let total ← v.len
  let probabilities ← normalizeCounts total (countValues v)
  pure ⟨probabilities, v.ids, v.jointIDs⟩

/-- `pmf.p(*args)`: PMF.py 78-84. -/
def PMF.p (pmf : PMF) (args : List PyVal) : ℚ :=
  match dictGet pmf.probabilities (processPmfKey args) with
  | some x => x
  | none => 0

/-- `pmf.remove_zeros()`: PMF.py 69-75. -/
def PMF.removeZeros (pmf : PMF) : PMF :=
  { pmf with probabilities := pmf.probabilities.filter (fun p => p.2 ≠ 0) }

/-- `seq.index(x)`: position of the first occurrence, `ValueError` if there is none.
PMF.py 95, 178. -/
def pyIndex (l : List Int) (x : Int) : Except Err Nat :=
  if x ∈ l then .ok (l.idxOf x) else .error .valueError

/-- `PMF.remove_from_key`: PMF.py 113-114 (slicing a scalar is a `TypeError`). -/
def removeFromKey (k : Key) (index : Nat) : Except Err (List Int) :=
  match k with
  | .one _ => .error .typeError
  | .tup vs => .ok (vs.take index ++ vs.drop (index + 1))

/-- The loop of `sum_over`: PMF.py 99-104. -/
def sumOverLoop (index : Nat) : List (Key × ℚ) → List (Key × ℚ) → Except Err (List (Key × ℚ))
  | acc, [] => .ok acc
  | acc, (k, v) :: rest => do
    let vs ← removeFromKey k index
    sumOverLoop index (dictAdd acc (processPmfKey (vs.map .atom)) v) rest

/-- `pmf.sum_over(ID)`: PMF.py 94-110. -/
def PMF.sumOver (pmf : PMF) (id : Int) : Except Err PMF := do
  let index ← pyIndex pmf.variableIDs id
  let probabilities ← sumOverLoop index [] pmf.probabilities
  pure ⟨probabilities, pmf.variableIDs.take index ++ pmf.variableIDs.drop (index + 1), none⟩

/-- `pmf.expected_value(f)`: PMF.py 135-136, for a real-valued `f`. -/
def PMF.expectedValue {R : Type} [AddMonoid R] [Mul R] (cast : ℚ → R) (pmf : PMF)
    (f : Key → R → R) : R :=
  (pmf.probabilities.map (fun item => cast item.2 * f item.1 (cast item.2))).sum

/-! ## Conditioning -/

/-- A `CPMF`: PMF.py 217-232, the dictionary `conditional_probabilities`. -/
abbrev CPMF := List (Key × PMF)

/-- `cpmf.given(*args)`: PMF.py 260-266. -/
def CPMF.given (c : CPMF) (args : List PyVal) : PMF :=
  match dictGet c (processPmfKey args) with
  | some pmf => pmf
  | none => PMF.empty

/-- `key[i]`. PMF.py 182, 186. -/
def Key.item (k : Key) (i : Nat) : Except Err Int :=
  match k with
  | .one _ => .error .typeError
  | .tup vs => match vs[i]? with
    | some v => .ok v
    | none => .error .indexError

/-- `[key[index[v]] for v in vars]` where `index = {v: ids.index(v) for v in ids}`.
PMF.py 178-186. -/
def pick (ids : List Int) (k : Key) : List Int → Except Err (List Int)
  | [] => .ok []
  | v :: rest =>
    if v ∈ ids then do
      let x ← k.item (ids.idxOf v)
      let xs ← pick ids k rest
      .ok (x :: xs)
    else .error .keyError

/-- One iteration of the loop that splits a joint distribution: PMF.py 181-197;
G_test__with_AD_tree.py 169-182 and 199-212 contain the same statements.  `condKey` and
`restKey` compute `cond_key`/`zkey` and `non_cond_key`/`varkey` from a joint key. -/
def conditionStep (condKey restKey : Key → Except Err Key) (cond : PMF) (acc : CPMF)
    (item : Key × ℚ) : Except Err CPMF := do
  let ck ← condKey item.1
  let rk ← restKey item.1
  let pmf := (dictGet acc ck).getD PMF.empty
  let pc := cond.p [ck.toVal]
  if pc = 0 then .ok (dictSet acc ck pmf)
  else .ok (dictSet acc ck
    { pmf with probabilities := dictSet pmf.probabilities rk (item.2 / pc) })

/-- The whole loop. PMF.py 169-199. -/
def conditionLoop (condKey restKey : Key → Except Err Key) (cond : PMF) :
    CPMF → List (Key × ℚ) → Except Err CPMF
  | acc, [] => .ok acc
  | acc, item :: rest => do
    let acc ← conditionStep condKey restKey cond acc item
    conditionLoop condKey restKey cond acc rest

/-- `cond_key`: a tuple, replaced by its element if there is only one (PMF.py 182-184,
G_test__with_AD_tree.py 170 and 172-173, 200 and 202-203). -/
def condKeyOf (ids condVars : List Int) (k : Key) : Except Err Key := do
  let xs ← pick ids k condVars
  pure (match xs with | [v] => .one v | vs => .tup vs)

/-- `non_cond_key`: always a tuple (PMF.py 186). -/
def restKeyOf (ids restVars : List Int) (k : Key) : Except Err Key := do
  let xs ← pick ids k restVars
  pure (.tup xs)

/-- `joint.condition_on(cond_pmf)`: PMF.py 169-199. -/
def PMF.conditionOn (joint cond : PMF) : Except Err CPMF :=
  if cond.variableIDs = [] then .error .valueError
  else
    conditionLoop (condKeyOf joint.variableIDs cond.variableIDs)
      (restKeyOf joint.variableIDs (joint.variableIDs.filter (fun v => v ∉ cond.variableIDs)))
      cond [] joint.probabilities

/-- The counting loop of `CPMF.count_values_conditionally`: PMF.py 269-284; the inner
dictionaries are the `value_counts` of the per-value PMFs. -/
def countConditionally : List (Key × List (Key × Nat)) → List (Key × Key) →
    List (Key × List (Key × Nat))
  | acc, [] => acc
  | acc, (v, cv) :: rest =>
    let counts := (dictGet acc cv).getD []
    countConditionally (dictSet acc cv (dictAdd counts v 1)) rest

/-- `CPMF(variable, given)`: PMF.py 219-232, 287-289; the total count of each inner PMF is
the sum of its counts (PMF.py 283). -/
def CPMF.ofVariables (v given : Variable) : CPMF :=
  (countConditionally [] (v.instances.zip given.instances)).map (fun item =>
    (item.1, { probabilities := item.2.map (fun kn =>
      (kn.1, (kn.2 : ℚ) / ((item.2.map Prod.snd).sum : Nat))) }))

/-- `OmegaPMF()`: PMF.py 308-312. -/
def omegaPMF : PMF := { probabilities := [(.one 1, 1)] }

/-- `OmegaCPMF(pmf)`: PMF.py 316-320. -/
def omegaCPMF (pmf : PMF) : CPMF := [(.one 1, pmf)]

/-! ## `create_instances_list` -/

/-- Python's `round` on an exact number: to the nearest integer, ties to even.
PMF.py 142, 154. -/
def pyRound (q : ℚ) : Int :=
  let f := ⌊q⌋
  if q - f < 1 / 2 then f
  else if 1 / 2 < q - f then f + 1
  else if f % 2 = 0 then f else f + 1

/-- `max(1, round(n * probability))`, as a count: PMF.py 154. -/
def valueCount (n : Nat) (probability : ℚ) : Nat := (max 1 (pyRound (n * probability))).toNat

/-- The `for` loop: PMF.py 152-160; returns the instances and what is left to distribute. -/
def instancesLoop (n : Nat) : Nat → List (Key × ℚ) → List Key × Nat
  | running, [] => ([], running)
  | running, (k, p) :: rest =>
    let c := if valueCount n p > running then running else valueCount n p
    let running := running - c
    if running = 0 then (List.replicate c k, 0)
    else
      let (more, left) := instancesLoop n running rest
      (List.replicate c k ++ more, left)

/-- The recursion of `create_instances_list`: PMF.py 162-166, on the sorted items.  A call
that would recurse with the same argument never ends: `RecursionError`. -/
def instancesRec (items : List (Key × ℚ)) (n : Nat) : Except Err (List Key) :=
  let r := instancesLoop n n items
  if r.2 = 0 then .ok r.1
  else if _h : r.2 < n then do
    let extra ← instancesRec items r.2
    .ok (r.1 ++ extra)
  else .error .recursion
termination_by n

/-- `pmf.create_instances_list(n)`: PMF.py 146-166; `sorted(..., reverse=True)` is stable. -/
def PMF.createInstancesList (pmf : PMF) (n : Nat) : Except Err (List Key) :=
  instancesRec (pmf.probabilities.insertionSort (fun a b => b.2 ≤ a.2)) n

end Mbtk.Stats
