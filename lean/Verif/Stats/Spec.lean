import Verif.ADTree.Spec
import Mathlib.Analysis.SpecialFunctions.Log.Basic
/-!
# What users of the PMFs, entropies and CI tests rely on, stated on the dataset alone

`Data` is a matrix (`D.cell row column`).  Nothing here mentions dictionaries, keys, AD-trees
or caches.
-/
namespace Mbtk.Stats.Spec
open Mbtk.ADTree (Data)
open Mbtk.ADTree.Spec (rowsWith)
open Real

/-- Relative frequency of the value combination `vals` in the columns `cols`.
(Specification.) -/
def freq (D : Data) (cols : List Nat) (vals : List Int) : ℚ :=
  (rowsWith D (fun r => cols.map (D.cell r) = vals) : ℚ) / D.nrows

/-- Value combinations occurring in the columns `cols`. (Specification.) -/
def observed (D : Data) (cols : List Nat) : Finset (List Int) :=
  (Finset.range D.nrows).image (fun r => cols.map (D.cell r))

/-- Values occurring in one column. (Specification.) -/
def values (D : Data) (c : Nat) : Finset Int := (Finset.range D.nrows).image (fun r => D.cell r c)

/-- Textbook conditional mutual information (natural logarithm) of the empirical
distribution: `Σ p(x,y,z) log( p(x,y,z) p(z) / (p(x,z) p(y,z)) )`. (Specification.) -/
noncomputable def cmi (D : Data) (X Y : Nat) (Z : List Nat) : ℝ :=
  ∑ z ∈ observed D Z, ∑ x ∈ values D X, ∑ y ∈ values D Y,
    (freq D (X :: Y :: Z) (x :: y :: z) : ℝ) *
      log ((freq D (X :: Y :: Z) (x :: y :: z) : ℝ) * (freq D Z z : ℝ) /
        ((freq D (X :: Z) (x :: z) : ℝ) * (freq D (Y :: Z) (y :: z) : ℝ)))

/-- Joint entropy (natural logarithm) of some columns. (Specification.) -/
noncomputable def entropy (D : Data) (cols : List Nat) : ℝ :=
  -∑ k ∈ observed D cols, (freq D cols k : ℝ) * log (freq D cols k : ℝ)

/-- `X` and `Y` are independent given `Z` in the empirical distribution. (Specification.) -/
def Independent (D : Data) (X Y : Nat) (Z : List Nat) : Prop :=
  ∀ x y z, freq D (X :: Y :: Z) (x :: y :: z) * freq D Z z =
    freq D (X :: Z) (x :: z) * freq D (Y :: Z) (y :: z)

/-- Values of column `c` on the rows where the columns `Z` show `z`. (Specification.) -/
def valuesGiven (D : Data) (c : Nat) (Z : List Nat) (z : List Int) : Finset Int :=
  ((Finset.range D.nrows).filter (fun r => Z.map (D.cell r) = z)).image (fun r => D.cell r c)

/-- Structural degrees of freedom: for every observed `z`, count only the values of `X` and
`Y` that occur together with `z`; never less than one. (Specification.) -/
def dof (D : Data) (X Y : Nat) (Z : List Nat) : Nat :=
  max 1 (∑ z ∈ observed D Z, ((valuesGiven D X Z z).card - 1) * ((valuesGiven D Y Z z).card - 1))

/-- Arguments of a CI test: distinct columns of the matrix. (Specification.) -/
def ValidArgs (D : Data) (X Y : Nat) (Z : List Nat) : Prop :=
  (X :: Y :: Z).Nodup ∧ ∀ c ∈ X :: Y :: Z, c < D.ncols

end Mbtk.Stats.Spec
