import Verif.Stats.InfoTheory
import Verif.ADTree.Model
import Verif.MB.Model
/-!
# Model of the three G-tests and of the degrees-of-freedom calculators

`mbtk/math/G_test__unoptimized.py`, `G_test__with_AD_tree.py`, `G_test__with_dcMI.py`,
`DoFCalculators.py`, and the constructors of variables in `mbtk/dataset/DatasetMatrix.py`.

Simplifications:
* logarithms and the chi-square distribution function are real functions, probabilities exact;
  `scipy.stats.chi2.cdf` is an arbitrary function (`Config.cdf`);
* timing, garbage collection, printing and the pickling of results are dropped;
* a result stores the variable numbers instead of their printed form
  (CITestResult.py 138-170); `extra_info` is the number of degrees of freedom in it;
* a custom sufficient-samples criterion is a function of the degrees of freedom;
* `raise InsufficientSamplesForCITest` is the answer `insufficient`: the state changes made
  before the exception persist.
-/
namespace Mbtk.Stats
open Mbtk.ADTree (Data ADNode Counters TM makePmf)
open Mbtk.MB (Answer)
open Real

/-! ## Variables of a dataset -/

/-- The `Variable` that wraps a matrix column: DatasetMatrix.py 186-222.  It is modelled as
already loaded, so that `JointVariables` compares lengths (a variable that is not loaded yet
skips that comparison). -/
def column (D : Data) (c : Nat) : Column :=
  { id := c, instances := (List.range D.nrows).map (fun r => D.cell r c), loaded := true,
    numpy := true }

/-- `get_variable('X', c)`: DatasetMatrix.py 186-222. -/
def getVariable (D : Data) (c : Nat) : Variable := .single (column D c)

/-- `get_variables('X', columns)` for a list: DatasetMatrix.py 225-240. -/
def getVariables (D : Data) (cols : List Nat) : Except Err Variable :=
  match cols with
  | [c] => .ok (getVariable D c)
  | cs => mkJoint (cs.map (getVariable D))

/-- `get_variables('X', columns)` for a set: DatasetMatrix.py 233 only treats lists of length
one specially, so a set always gives a `JointVariables`. -/
def getVariablesOfSet (D : Data) (cols : List Nat) : Except Err Variable :=
  mkJoint (cols.map (getVariable D))

/-! ## Configuration and results -/

/-- The calculator classes: DoFCalculators.py 5, 82, 115. -/
inductive DofKind where
  | unadjusted | structural | cached
  deriving DecidableEq

/-- The parameters of a test: G_test__unoptimized.py 19-42 and 142-147. -/
structure Config where
  kind : DofKind
  cdf : ℝ → Int → ℝ
  significance : ℝ
  criterion : Option (Int → Bool) := none
  /-- `source_bn.d_separated(X, Z, Y)` if a source network is given -/
  sourceBn : Option (Nat → List Nat → Nat → Bool) := none

/-- `CITestResult`: CITestResult.py 17-39. -/
structure Result where
  index : Nat
  independent : Option Bool
  dependent : Option Bool
  insufficient : Bool
  significance : Option ℝ
  X : Nat
  Y : Nat
  Z : List Nat
  statistic : ℝ
  pValue : ℝ
  dof : Int
  dSeparated : Option Bool

/-- `DoF_cache`: frozenset of IDs to (IDs in order, degrees of freedom per pair of
positions); DoFCalculators.py 119, 181. -/
abbrev DofCache := List (Finset Int × (List Int × List ((Nat × Nat) × Int)))

/-- What every test object keeps: G_test__unoptimized.py 40-41 and the calculator's cache. -/
structure Base where
  counter : Nat := 0
  results : List Result := []
  cache : DofCache := []

/-- The four distributions of a test. G_test__unoptimized.py 65-134. -/
structure Tables where
  PrXYcZ : CPMF
  PrXcZ : CPMF
  PrYcZ : CPMF
  PrZ : PMF

/-! ## Degrees of freedom -/

/-- `key[i]` of a tuple key (the calculator only sees joint PMFs over at least two variables,
whose keys are tuples). DoFCalculators.py 184-211. -/
def Key.at (k : Key) (i : Nat) : Int := (k.comps[i]?).getD 0

/-- Positions other than `ix` and `iy`: the generator in DoFCalculators.py 196. -/
def otherPositions (size ix iy : Nat) : List Nat :=
  (List.range size).filter (fun i => i ≠ ix ∧ i ≠ iy)

/-- The loops over keys and over `zs`: DoFCalculators.py 190-208. -/
def pairDof (keys : List Key) (size ix iy : Nat) : Int :=
  let zOf := fun k : Key => (otherPositions size ix iy).map k.at
  let zs := (keys.map zOf).dedup
  let dof := (zs.map (fun z =>
    let xs := ((keys.filter (fun k => zOf k = z)).map (·.at ix)).dedup
    let ys := ((keys.filter (fun k => zOf k = z)).map (·.at iy)).dedup
    ((xs.length : Int) - 1) * ((ys.length : Int) - 1))).sum
  if dof = 0 then 1 else dof

/-- `calculate_pairwise_DoFs`: DoFCalculators.py 184-211 (all assigned keys are different, so
the dictionary is the list of assignments). -/
def pairwiseDofs (keys : List Key) (size : Nat) : List ((Nat × Nat) × Int) :=
  (List.range size).flatMap (fun ix =>
    ((List.range size).filter (fun iy => ix < iy)).flatMap (fun iy =>
      [((ix, iy), pairDof keys size ix iy), ((iy, ix), pairDof keys size ix iy)]))

/-- `cache_DoFs_for_pmf`: DoFCalculators.py 164-181; returns the PMF, whose zero entries are
removed in place on a cache miss. -/
def cacheDofs (cache : DofCache) (pmf : PMF) : DofCache × PMF :=
  match pmf.jointIDs with
  | none => (cache, pmf)
  | some vars =>
    if vars.length ≤ 1 then (cache, pmf)
    else match dictGet cache vars.toFinset with
      | some _ => (cache, pmf)
      | none =>
        (dictSet cache vars.toFinset
          (vars, pairwiseDofs (pmf.removeZeros.probabilities.map Prod.fst) vars.length),
          pmf.removeZeros)

/-- `set_context_pmfs` for one PMF: DoFCalculators.py 70-74 (only stores a reference) and
147-161. -/
def contextPmf (kind : DofKind) (cache : DofCache) (pmf : PMF) : DofCache × PMF :=
  match kind with
  | .cached => cacheDofs cache pmf
  | _ => (cache, pmf)

/-- `PrX.remove_zeros()` on the PMF stored under a key of a CPMF.
DoFCalculators.py 90-111, PMF.py 69-75. -/
def removeZerosAt (c : CPMF) (k : Key) : CPMF :=
  match dictGet c k with
  | some pmf => dictSet c k pmf.removeZeros
  | none => c

/-- The loop of `StructuralDoF.calculate_DoF`: DoFCalculators.py 92-106; also returns the two
CPMFs, whose entries lose their zeros. -/
def structuralLoop : List (Key × ℚ) → CPMF → CPMF → Int → Int × CPMF × CPMF
  | [], xc, yc, dof => (dof, xc, yc)
  | (z, pz) :: rest, xc, yc, dof =>
    if pz = 0 then structuralLoop rest xc yc dof
    else
      let prX := (xc.given [z.toVal]).removeZeros
      let prY := (yc.given [z.toVal]).removeZeros
      structuralLoop rest (removeZerosAt xc (processPmfKey [z.toVal]))
        (removeZerosAt yc (processPmfKey [z.toVal]))
        (dof + ((prX.probabilities.length : Int) - 1) * ((prY.probabilities.length : Int) - 1))

/-- `calculate_DoF(X, Y, Z)` of the three calculators: DoFCalculators.py 28-40, 90-111,
133-144. -/
def calculateDof (D : Data) (kind : DofKind) (cache : DofCache) (X Y : Nat) (Z : List Nat)
    (t : Tables) : Except Err (Int × Tables) :=
  match kind with
  | .unadjusted =>
    let dof := (((D.values X).length : Int) - 1) * (((D.values Y).length : Int) - 1) *
      (Z.map (fun z => ((D.values z).length : Int))).prod
    .ok (if dof = 0 then 1 else dof, t)
  | .structural =>
    let r := structuralLoop t.PrZ.probabilities t.PrXcZ t.PrYcZ 0
    .ok (if r.1 = 0 then 1 else r.1, { t with PrXcZ := r.2.1, PrYcZ := r.2.2 })
  | .cached =>
    match dictGet cache ((X :: Y :: Z).map (fun c : Nat => (c : Int))).toFinset with
    | none => .error .keyError
    | some (vars, pairwise) => do
      let ix ← pyIndex vars X
      let iy ← pyIndex vars Y
      match dictGet pairwise (ix, iy) with
      | none => .error .keyError
      | some dof => .ok (dof, t)

/-! ## Common part of the tests -/

/-- `sufficient_samples(DoF)`: G_test__unoptimized.py 142-147. -/
def sufficientSamples (cfg : Config) (N : Nat) (dof : Int) : Bool :=
  match cfg.criterion with
  | none => decide (5 * dof < N)
  | some f => f dof

open Classical in
/-- From G and the degrees of freedom to the result: G_test__unoptimized.py 108-134,
G_test__with_AD_tree.py 90-116, G_test__with_dcMI.py 61-85. -/
noncomputable def makeResult (cfg : Config) (N counter X Y : Nat) (Z : List Nat) (G : ℝ)
    (dof : Int) : Result :=
  if ¬ sufficientSamples cfg N dof then
    { index := counter + 1, independent := none, dependent := none, insufficient := true,
      significance := none, X := X, Y := Y, Z := Z, statistic := -1, pValue := -1, dof := dof,
      dSeparated := none }
  else
    let p := cfg.cdf G dof
    let independent := decide (p < cfg.significance)
    { index := counter + 1, independent := some independent, dependent := some !independent,
      insufficient := false, significance := some cfg.significance, X := X, Y := Y, Z := Z,
      statistic := G, pValue := p, dof := dof, dSeparated := none }

/-- `conditionally_independent(X, Y, Z)`: G_test__unoptimized.py 45-62, with the test itself
and the place of the log as parameters. -/
def conditionallyIndependent {σ : Type} (cfg : Config)
    (test : Nat → Nat → List Nat → PyM σ Result) (log : Result → σ → σ)
    (X Y : Nat) (Z : List Nat) : PyM σ Answer := do
  let result ← test X Y Z
  let result := match cfg.sourceBn with
    | some bn => { result with dSeparated := some (bn X Z Y) }
    | none => result
  modify (log result)
  pure (if result.insufficient then .insufficient
    else if result.independent = some true then .independent else .dependent)

/-- Appending to `ci_test_results` and counting: G_test__unoptimized.py 54-55. -/
def Base.log (r : Result) (b : Base) : Base :=
  { b with results := b.results ++ [r], counter := b.counter + 1 }

/-! ## The unoptimised test -/

/-- The distributions, from the data: G_test__unoptimized.py 66-101. -/
def unoptTables (D : Data) (kind : DofKind) (cache : DofCache) (X Y : Nat) (Z : List Nat) :
    Except Err (DofCache × Tables) :=
  let varX := getVariable D X
  let varY := getVariable D Y
  if Z = [] then do
    let jXY ← mkJoint [varX, varY]
    let prXY ← PMF.ofVariable jXY
    let prX ← PMF.ofVariable varX
    let prY ← PMF.ofVariable varY
    let (cache, prXY) := contextPmf kind cache prXY
    let (cache, prX) := contextPmf kind cache prX
    let (cache, prY) := contextPmf kind cache prY
    pure (cache, ⟨omegaCPMF prXY, omegaCPMF prX, omegaCPMF prY, omegaPMF⟩)
  else do
    let varZ ← getVariables D Z
    let jXYZ ← mkJoint [varX, varY, varZ]
    let prXYZ ← PMF.ofVariable jXYZ
    let jXZ ← mkJoint [varX, varZ]
    let prXZ ← PMF.ofVariable jXZ
    let jYZ ← mkJoint [varY, varZ]
    let prYZ ← PMF.ofVariable jYZ
    let prZ ← PMF.ofVariable varZ
    let prXcZ ← prXZ.conditionOn prZ
    let prYcZ ← prYZ.conditionOn prZ
    let prXYcZ ← prXYZ.conditionOn prZ
    let (cache, _) := contextPmf kind cache prXYZ
    let (cache, _) := contextPmf kind cache prXZ
    let (cache, _) := contextPmf kind cache prYZ
    let (cache, prZ) := contextPmf kind cache prZ
    pure (cache, ⟨prXYcZ, prXcZ, prYcZ, prZ⟩)

/-- `G_value`: G_test__unoptimized.py 137-139 and G_test__with_AD_tree.py 119-121. -/
noncomputable def gValue (N : Nat) (t : Tables) : ℝ :=
  2 * N * conditionalMutualInformation log t.PrXYcZ t.PrXcZ t.PrYcZ t.PrZ

/-- `G_test_conditionally_independent`: G_test__unoptimized.py 65-134. -/
noncomputable def unoptTest (D : Data) (cfg : Config) (X Y : Nat) (Z : List Nat) :
    PyM Base Result := fun b => do
  let (cache, t) ← unoptTables D cfg.kind b.cache X Y Z
  let (dof, t) ← calculateDof D cfg.kind cache X Y Z t
  pure (makeResult cfg D.nrows b.counter X Y Z (gValue D.nrows t) dof, { b with cache := cache })

/-- A call of the unoptimised test. G_test__unoptimized.py 45-62. -/
noncomputable def unoptCall (D : Data) (cfg : Config) (c : Nat × Nat × List Nat) :
    PyM Base Answer :=
  conditionallyIndependent cfg (unoptTest D cfg) Base.log c.1 c.2.1 c.2.2

/-! ## The test with an AD-tree -/

/-- The AD-tree test object: the base plus the tree. G_test__with_AD_tree.py 17-26. -/
structure AdState where
  base : Base := {}
  root : ADNode
  counters : Counters

/-- `self.AD_tree.make_pmf(variables)`: ADTree.py 79-90; a scalar key is a scalar
(`mkKey`), the IDs are those of `JointVariablesIDs(sorted(variables))`. -/
def adPmf (D : Data) (dyn : Bool) (cols : List Nat) : PyM AdState PMF := fun s =>
  match makePmf D dyn cols s.root s.counters with
  | .error e => .error e
  | .ok ((d, root), counters) =>
    .ok ({ probabilities := d.map (fun p => (mkKey p.1, p.2)), variableIDs := [],
           jointIDs := some (cols.mergeSort.map (fun c : Nat => (c : Int))) },
      { s with root := root, counters := counters })

/-- `tuple(reversed(key))`. G_test__with_AD_tree.py 157-214. -/
def reverseKey : Key → Except Err Key
  | .one _ => .error .typeError
  | .tup vs => .ok (.tup vs.reverse)

/-- The loop reversing keys: G_test__with_AD_tree.py 128-132. -/
def reverseAll : List (Key × ℚ) → List (Key × ℚ) → Except Err (List (Key × ℚ))
  | acc, [] => .ok acc
  | acc, (k, p) :: rest => do
    let k ← reverseKey k
    reverseAll (dictSet acc k p) rest

/-- `varkey` for a single variable: the scalar (G_test__with_AD_tree.py 201). -/
def scalarKeyOf (ids vars : List Int) (k : Key) : Except Err Key := do
  let xs ← pick ids k vars
  match xs with
  | [] => .error .indexError
  | v :: _ => pure (.one v)

/-- The IDs of an AD-tree as column numbers: G_test__with_AD_tree.py 124-154. -/
def castIds (cols : List Nat) : List Int := cols.map (fun c : Nat => (c : Int))

/-- `make_cpmf_PrXYcZ`: G_test__with_AD_tree.py 157-184. -/
def adCpmfXY (D : Data) (dyn : Bool) (X Y : Nat) (Z : List Nat) (prZ : PMF) :
    PyM AdState (CPMF × PMF) := do
  let joint := (X :: Y :: Z).mergeSort
  let prXYZ ← adPmf D dyn joint
  let c ← liftM (conditionLoop (condKeyOf (castIds joint) (castIds Z))
    (restKeyOf (castIds joint) (castIds ((X :: Y :: Z).filter (fun v => v ∉ Z)))) prZ []
    prXYZ.probabilities)
  pure (c, prXYZ)

/-- `make_cpmf_PrXcZ`: G_test__with_AD_tree.py 187-214. -/
def adCpmfX (D : Data) (dyn : Bool) (X : Nat) (Z : List Nat) (prZ : PMF) :
    PyM AdState (CPMF × PMF) := do
  let joint := (X :: Z).mergeSort
  let prXZ ← adPmf D dyn joint
  let c ← liftM (conditionLoop (condKeyOf (castIds joint) (castIds Z))
    (scalarKeyOf (castIds joint) (castIds ((X :: Z).filter (fun v => v ∉ Z)))) prZ []
    prXZ.probabilities)
  pure (c, prXZ)

/-- Passing a PMF to the calculator of the test object.
G_test__with_AD_tree.py 79-116, DoFCalculators.py 57-74. -/
def adContext (kind : DofKind) (pmf : PMF) : PyM AdState PMF := fun s =>
  let r := contextPmf kind s.base.cache pmf
  .ok (r.2, { s with base := { s.base with cache := r.1 } })

/-- Reversing the keys if `X` comes after `Y`: G_test__with_AD_tree.py 127-132. -/
def adOrder (X Y : Nat) (prXY : PMF) : PyM AdState PMF :=
  if [X, Y] ≠ [X, Y].mergeSort then do
    let d ← liftM (reverseAll [] prXY.probabilities)
    pure { prXY with probabilities := d }
  else pure prXY

/-- `calculate_pmf_from_AD_tree`: G_test__with_AD_tree.py 124-154. -/
def adTables (D : Data) (dyn : Bool) (kind : DofKind) (X Y : Nat) (Z : List Nat) :
    PyM AdState Tables := do
  if Z = [] then
    let prXY ← adPmf D dyn [X, Y].mergeSort
    let prXY ← adOrder X Y prXY
    let prX ← adPmf D dyn [X]
    let prY ← adPmf D dyn [Y]
    let prXY ← adContext kind prXY
    let prX ← adContext kind prX
    let prY ← adContext kind prY
    pure ⟨omegaCPMF prXY, omegaCPMF prX, omegaCPMF prY, omegaPMF⟩
  else
    let Z := Z.mergeSort
    let prZ ← adPmf D dyn Z
    let (prXYcZ, prXYZ) ← adCpmfXY D dyn X Y Z prZ
    let (prXcZ, prXZ) ← adCpmfX D dyn X Z prZ
    let (prYcZ, prYZ) ← adCpmfX D dyn Y Z prZ
    let _ ← adContext kind prXYZ
    let _ ← adContext kind prXZ
    let _ ← adContext kind prYZ
    let prZ ← adContext kind prZ
    pure ⟨prXYcZ, prXcZ, prYcZ, prZ⟩

/-- `G_test_conditionally_independent`: G_test__with_AD_tree.py 79-116.  `self.N` is the count
of the root (line 51). -/
noncomputable def adTest (D : Data) (dyn : Bool) (cfg : Config) (X Y : Nat) (Z : List Nat) :
    PyM AdState Result := fun s => do
  let N := s.root.count.toNat
  let (t, s) ← adTables D dyn cfg.kind X Y Z s
  let (dof, t) ← calculateDof D cfg.kind s.base.cache X Y Z t
  pure (makeResult cfg N s.base.counter X Y Z (gValue N t) dof, s)

/-- A call of the AD-tree test: G_test__with_AD_tree.py 79-116, G_test__unoptimized.py 45-62. -/
noncomputable def adCall (D : Data) (dyn : Bool) (cfg : Config) (c : Nat × Nat × List Nat) :
    PyM AdState Answer :=
  conditionallyIndependent cfg (adTest D dyn cfg)
    (fun r s => { s with base := s.base.log r }) c.1 c.2.1 c.2.2

/-- Constructor: build the tree (G_test__with_AD_tree.py 17-51). -/
def newAdTest (D : Data) (dyn : Bool) : Except Err AdState := do
  let (root, counters) ← Mbtk.ADTree.create D dyn ⟨0, 0⟩
  pure { root := root, counters := counters }

/-! ## The test with dcMI -/

/-- The dcMI test object: G_test__with_dcMI.py 13-22; `JHT` without the two counters that are
stored in it only when saving (lines 121-126). -/
structure DcState where
  base : Base := {}
  jht : List (Finset Nat × ℝ) := []
  reads : Nat := 0
  misses : Nat := 0

/-- `get_joint_entropy_term(*variables)`: G_test__with_dcMI.py 97-115.  The argument is the
flattened set (lines 129-139); `order` is the iteration order of a frozenset. -/
noncomputable def jointEntropyTerm (D : Data) (kind : DofKind) (order : Finset Nat → List Nat)
    (S : Finset Nat) : PyM DcState ℝ := fun s =>
  if S.card = 0 then .ok (0, s)
  else
    let s := { s with reads := s.reads + 1 }
    match dictGet s.jht S with
    | some H => .ok (H, s)
    | none => do
      let s := { s with misses := s.misses + 1 }
      let joint ← getVariablesOfSet D (order S)
      let pmf ← PMF.ofVariable joint
      let H := -(pmf.expectedValue (fun q => (q : ℝ)) (fun _ p => log p))
      let s := { s with jht := dictSet s.jht S H }
      let r := contextPmf kind s.base.cache pmf
      .ok (H, { s with base := { s.base with cache := r.1 } })

/-- `G_value(X, Y, Z)`: G_test__with_dcMI.py 88-94. -/
noncomputable def dcGValue (D : Data) (kind : DofKind) (order : Finset Nat → List Nat)
    (X Y : Nat) (Z : List Nat) : PyM DcState ℝ := do
  let HXYZ ← jointEntropyTerm D kind order (X :: Y :: Z).toFinset
  let HXZ ← jointEntropyTerm D kind order (X :: Z).toFinset
  let HYZ ← jointEntropyTerm D kind order (Y :: Z).toFinset
  let HZ ← jointEntropyTerm D kind order Z.toFinset
  pure (2 * D.nrows * (HYZ + HXZ - HXYZ - HZ))

/-- `G_test_conditionally_independent`: G_test__with_dcMI.py 41-85. -/
noncomputable def dcTest (D : Data) (cfg : Config) (order : Finset Nat → List Nat) (X Y : Nat)
    (Z : List Nat) : PyM DcState Result := fun s => do
  let (G, s) ← dcGValue D cfg.kind order X Y Z s
  let (dof, _) ← calculateDof D cfg.kind s.base.cache X Y Z ⟨[], [], [], PMF.empty⟩
  pure (makeResult cfg D.nrows s.base.counter X Y Z G dof, s)

/-- A call of the dcMI test: G_test__with_dcMI.py 41-115, G_test__unoptimized.py 45-62. -/
noncomputable def dcCall (D : Data) (cfg : Config) (order : Finset Nat → List Nat)
    (c : Nat × Nat × List Nat) : PyM DcState Answer :=
  conditionallyIndependent cfg (dcTest D cfg order)
    (fun r s => { s with base := s.base.log r }) c.1 c.2.1 c.2.2

/-- What `end()` writes: the table with the two counters stored in it (G_test__with_dcMI.py
118-126), and the cache of the calculator (DoFCalculators.py 214-219).  The log is not part of
these files. -/
structure DcSaved where
  jht : List (Finset Nat × ℝ)
  reads : Nat
  misses : Nat
  cache : DofCache

/-- Saving the entropies: G_test__with_dcMI.py 118-126. -/
def DcState.save (s : DcState) : DcSaved := ⟨s.jht, s.reads, s.misses, s.base.cache⟩

/-- A new test object whose load paths (or `ci_test_jht_preloaded`) give back what was saved:
G_test__with_dcMI.py 25-38, DoFCalculators.py 123-128.  `withCache` tells whether the file of
the calculator is given too. -/
def DcSaved.load (v : DcSaved) (withCache : Bool) : DcState :=
  { base := { cache := if withCache then v.cache else [] }, jht := v.jht, reads := v.reads,
    misses := v.misses }

/-- Constructor: calculators that need CPMFs are refused (G_test__with_dcMI.py 13-22). -/
def newDcTest (cfg : Config) : Except Err DcState :=
  if cfg.kind = .structural then .error .valueError else .ok {}

end Mbtk.Stats
