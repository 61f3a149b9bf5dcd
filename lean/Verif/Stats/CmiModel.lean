import Verif.Stats.GTest
/-!
# Model of the information-theoretic entry points

`mbtk/math/infotheory.py` (the parts that build the distributions), `mbtk/math/CMICalculator.py`
(source `datasetmatrix`), `mbtk/math/DSeparationCITest.py`.
-/
namespace Mbtk.Stats
open Mbtk.ADTree (Data)
open Mbtk.MB (Answer)
open Real

/-- The `base` argument: `'e'` or a number, which may be an `int` or a `float`.
infotheory.py 76-85. -/
inductive LogBase where
  | e
  | number (b : ℝ) (isFloat : Bool)

open Classical in
/-- `create_logarithm_function`: infotheory.py 76-85.  `math.log(x, b)` is `log x / log b`. -/
noncomputable def createLogarithm : LogBase → Except Err (ℝ → ℝ)
  | .e => .ok log
  | .number b isFloat =>
    if b = 2 then .ok (fun x => log x / log 2)
    else if b = 10 then .ok (fun x => log x / log 10)
    else if isFloat then .ok (fun x => log x / log b)
    else .error (.custom "AssertionError")

/-- `mutual_information(*calculate_pmf_for_mi(X, Y), base)` on two variables:
infotheory.py 8-25, 52-57. -/
noncomputable def miOfVariables (base : LogBase) (X Y : Variable) : Except Err ℝ := do
  let j ← mkJoint [X, Y]
  let prXY ← PMF.ofVariable j
  let prX ← PMF.ofVariable X
  let prY ← PMF.ofVariable Y
  let logarithm ← createLogarithm base
  pure (mutualInformation logarithm prXY prX prY)

/-- `conditional_mutual_information(*calculate_pmf_for_cmi(X, Y, Z), base)`:
infotheory.py 29-48, 61-72. -/
noncomputable def cmiOfVariables (base : LogBase) (X Y Z : Variable) : Except Err ℝ := do
  let j ← mkJoint [X, Y]
  let prXYcZ := CPMF.ofVariables j Z
  let prXcZ := CPMF.ofVariables X Z
  let prYcZ := CPMF.ofVariables Y Z
  let prZ ← PMF.ofVariable Z
  let logarithm ← createLogarithm base
  pure (conditionalMutualInformation logarithm prXYcZ prXcZ prYcZ prZ)

/-- `CMICalculator.compute(X, Y, Z)` with the data as source: CMICalculator.py 29-50, 75-112.
The distributions are built by the same statements as in the unoptimised test
(G_test__unoptimized.py 66-101), without a calculator of degrees of freedom. -/
noncomputable def cmiCompute (D : Data) (X Y : Nat) (Z : List Nat) : Except Err ℝ := do
  let (_, t) ← unoptTables D .unadjusted [] X Y Z
  pure (conditionalMutualInformation log t.PrXYcZ t.PrXcZ t.PrYcZ t.PrZ)

/-- A result of `DSeparationCITest`: DSeparationCITest.py 25-43; `role` is `extra_info`
(0 as a test, 1 as a heuristic). -/
structure DsepResult where
  index : Nat
  independent : Bool
  dSeparated : Bool
  X : Nat
  Y : Nat
  Z : List Nat
  role : Nat
  deriving DecidableEq

/-- `DSeparationCITest.conditionally_independent(X, Y, Z)`: DSeparationCITest.py 18-41.  `bn`
is `source_bn.conditionally_independent`. -/
def dsepCall (bn : Nat → Nat → List Nat → Bool) (role : Nat) (c : Nat × Nat × List Nat) :
    PyM (List DsepResult) Bool := fun results =>
  let r : DsepResult :=
    { index := results.length, independent := bn c.1 c.2.1 c.2.2, dSeparated := bn c.1 c.2.1 c.2.2,
      X := c.1, Y := c.2.1, Z := c.2.2, role := role }
  .ok (r.independent, results ++ [r])

/-- `DSeparationAsCorrelationHeuristic.compute(X, Y, Z)`: DSeparationCITest.py 54-61. -/
def dsepCompute (bn : Nat → Nat → List Nat → Bool) (c : Nat × Nat × List Nat) :
    PyM (List DsepResult) Nat := do
  let independent ← dsepCall bn 1 c
  pure (if independent then 0 else 1)

end Mbtk.Stats
