import Verif.Stats.GTest
import Verif.Stats.Spec
/-!
# What a CI test is expected to answer and to log

Stated on the dataset and the configuration alone.
-/
namespace Mbtk.Stats.Spec
open Mbtk.ADTree (Data)
open Mbtk.MB (Answer)

/-- Degrees of freedom by kind of calculator: the textbook formula on the declared values of
the columns, or the structural one; never less than one. (Specification.) -/
def dofOf (D : Data) : DofKind → Nat → Nat → List Nat → Nat
  | .unadjusted, X, Y, Z =>
    max 1 (((D.values X).length - 1) * ((D.values Y).length - 1) *
      (Z.map (fun z => (D.values z).length)).prod)
  | _, X, Y, Z => dof D X Y Z

/-- The G statistic: twice the number of rows times the conditional mutual information.
(Specification.) -/
noncomputable def G (D : Data) (X Y : Nat) (Z : List Nat) : ℝ := 2 * D.nrows * cmi D X Y Z

/-- There are enough rows for the degrees of freedom: more than five per degree of freedom,
or what the custom criterion says. (Specification.) -/
def Enough (D : Data) (cfg : Config) (X Y : Nat) (Z : List Nat) : Prop :=
  match cfg.criterion with
  | none => 5 * dofOf D cfg.kind X Y Z < D.nrows
  | some f => f (dofOf D cfg.kind X Y Z) = true

/-- The p-value computed by the test. (Specification.) -/
noncomputable def pValue (D : Data) (cfg : Config) (X Y : Nat) (Z : List Nat) : ℝ :=
  cfg.cdf (G D X Y Z) (dofOf D cfg.kind X Y Z)

/-- `r` is the log entry number `index` of the test of `X` and `Y` given `Z`.
(Specification.) -/
structure IsEntry (D : Data) (cfg : Config) (index X Y : Nat) (Z : List Nat) (r : Result) :
    Prop where
  number : r.index = index
  argX : r.X = X
  argY : r.Y = Y
  argZ : r.Z = Z
  dofs : r.dof = dofOf D cfg.kind X Y Z
  dSeparated : r.dSeparated = cfg.sourceBn.map (fun bn => bn X Z Y)
  insufficient : r.insufficient = true ↔ ¬ Enough D cfg X Y Z
  undecided : ¬ Enough D cfg X Y Z → r.independent = none ∧ r.dependent = none ∧
    r.statistic = -1 ∧ r.pValue = -1 ∧ r.significance = none
  decided : Enough D cfg X Y Z → r.statistic = G D X Y Z ∧ r.pValue = pValue D cfg X Y Z ∧
    r.significance = some cfg.significance ∧
    (r.independent = some true ∨ r.independent = some false) ∧
    (r.independent = some true ↔ pValue D cfg X Y Z < cfg.significance) ∧
    (r.dependent = some true ↔ cfg.significance ≤ pValue D cfg X Y Z) ∧
    (r.dependent = some true ∨ r.dependent = some false)

/-- `a` is the answer to the test of `X` and `Y` given `Z`. (Specification.) -/
structure IsAnswer (D : Data) (cfg : Config) (X Y : Nat) (Z : List Nat) (a : Answer) : Prop where
  insufficient : a = .insufficient ↔ ¬ Enough D cfg X Y Z
  independent : a = .independent ↔ Enough D cfg X Y Z ∧ pValue D cfg X Y Z < cfg.significance
  dependent : a = .dependent ↔ Enough D cfg X Y Z ∧ cfg.significance ≤ pValue D cfg X Y Z

/-- A call of a CI test: `X`, `Y`, and the conditioning columns. (Specification.) -/
abbrev Call := Nat × Nat × List Nat

/-- The log of a history of calls: one entry per call, in order, numbered from `start + 1`.
(Specification.) -/
def IsLog (D : Data) (cfg : Config) : Nat → List Call → List Result → Prop
  | _, [], [] => True
  | start, c :: cs, r :: rs => IsEntry D cfg (start + 1) c.1 c.2.1 c.2.2 r ∧
      IsLog D cfg (start + 1) cs rs
  | _, _, _ => False

/-- The answers to a history of calls. (Specification.) -/
def AreAnswers (D : Data) (cfg : Config) : List Call → List Answer → Prop
  | [], [] => True
  | c :: cs, a :: as => IsAnswer D cfg c.1 c.2.1 c.2.2 a ∧ AreAnswers D cfg cs as
  | _, _ => False

end Mbtk.Stats.Spec
