import Verif.Fp.IGt
import Verif.Fp.GExample
/-!
# C96: consequences and examples
-/
namespace Mbtk.Fp
open Mbtk Mbtk.Stats Mbtk.Stats.Spec
open Mbtk.ADTree (Data)
open Real (log)

theorem log2_rows_small {n : Nat} (hn : n ≠ 0) (h : n ≤ 100000) :
    0 ≤ log n / log 2 ∧ log n / log 2 ≤ 17 := by
  have hn1 : (1 : ℝ) ≤ n := by exact_mod_cast Nat.one_le_iff_ne_zero.2 hn
  have hl2 : 0 < log 2 := Real.log_pos (by norm_num)
  refine ⟨div_nonneg (Real.log_nonneg hn1) hl2.le, ?_⟩
  have h2 : (n : ℝ) ≤ 2 ^ 17 := by
    have : (n : ℝ) ≤ 100000 := by exact_mod_cast h
    exact this.trans (by norm_num)
  have h3 : log n ≤ log (2 ^ 17) := Real.log_le_log (by linarith) h2
  rw [Real.log_pow] at h3
  rw [div_le_iff₀ hl2]
  exact_mod_cast h3

/-- **C96, in numbers.**  Up to a hundred thousand rows, the scores of both variants are right to nine decimals,
whatever the data. -/
theorem igt_errors_small (xs ys : List Int) (hne : xs ≠ []) (h : xs.length ≤ 100000) :
    miError xs ys ≤ 1 / 10 ^ 9 ∧ binaryError xs ≤ 1 / 10 ^ 9 := by
  obtain ⟨L0, L17⟩ := log2_rows_small (n := xs.length) (by simpa using hne) h
  have hM : ((observed (pairData xs ys) [0, 1]).card : ℝ) ≤ 100000 := by
    exact_mod_cast (card_observed_le (pairData xs ys) _).trans h
  unfold miError binaryError
  have hM0 : (0 : ℝ) ≤ (observed (pairData xs ys) [0, 1]).card := by positivity
  generalize ((observed (pairData xs ys) [0, 1]).card : ℝ) = M at *
  generalize log (xs.length : ℝ) / log 2 = L at *
  have h1 : (M + 17) * (L + 2) ≤ (100000 + 17) * (17 + 2) :=
    mul_le_mul (by linarith) (by linarith) (by linarith) (by norm_num)
  constructor
  · rw [div_le_iff₀ (by norm_num)]
    refine h1.trans ?_
    norm_num
  · rw [div_le_iff₀ (by norm_num)]
    norm_num
    linarith

/-! ## An accurate logarithm exists -/

/-- The logarithm of base 2, correctly rounded. (Example.) -/
noncomputable def roundedLog2 (x : ℚ) : ℚ :=
  (halfEven (log x / log 2 / 2 ^ lastPlace (log x / log 2)) : ℚ) * 2 ^ lastPlace (log x / log 2)

theorem roundedLog2_cast (x : ℚ) : ((roundedLog2 x : ℚ) : ℝ) = fl (log x / log 2) := by
  unfold roundedLog2 fl
  push_cast
  rfl

/-- The correctly rounded logarithm meets the assumption made about the library's. -/
theorem roundedLog2_accurate : Log2Accurate roundedLog2 := by
  intro x h0 hr
  rw [roundedLog2_cast]
  by_cases h1 : x = 1
  · subst h1; simp [fl_zero]
  · have h := log_representable h0 hr h1
    have hl2 : 0 < log 2 := Real.log_pos (by norm_num)
    have hl1 : log 2 ≤ 1 := by have := Real.log_two_lt_d9; linarith
    have h' : (1 : ℝ) / 2 ^ 55 ≤ |log x / log 2| := by
      rw [abs_div, abs_of_pos hl2, le_div_iff₀ hl2]
      refine le_trans ?_ h
      nlinarith [show (0 : ℝ) < 1 / 2 ^ 55 by norm_num]
    have hn : (2 : ℝ) ^ (-1022 : ℤ) ≤ |log x / log 2| := by
      have h2 : (2 : ℝ) ^ (-1022 : ℤ) ≤ 2 ^ (-55 : ℤ) :=
        zpow_le_zpow_right₀ (by norm_num) (by norm_num)
      refine le_trans h2 (le_trans (le_of_eq ?_) h')
      rw [zpow_neg, one_div]; norm_cast
    have he := fl_error_normal hn
    have hu : ((2 : ℝ) ^ (-53 : ℤ)) = (u : ℝ) := by unfold u; push_cast; rfl
    rw [hu] at he
    refine he.trans ?_
    have : 0 ≤ (u : ℝ) * |log x / log 2| := mul_nonneg uR_pos.le (abs_nonneg _)
    linarith

/-! ## A dataset that meets the hypotheses -/

/-- Four rows; the features are constant, a copy of the objective, and a constant again. (Example.) -/
def copyFeatures : Data where
  nrows := 4
  ncols := 3
  cell r c := if c = 1 then (r : Int) % 2 else 0
  values _ := [0, 1]
  threshold := 0

/-- The objective. (Example.) -/
def copyObjective : Data where
  nrows := 4
  ncols := 1
  cell r _ := (r : Int) % 2
  values _ := [0, 1]
  threshold := 0

theorem mi_copy : mi [0, 1, 0, 1] [0, 1, 0, 1] = 1 ∧ mi [0, 0, 0, 0] [0, 1, 0, 1] = 0 := by
  have hb1 : IsBinary [0, 1, 0, 1] := by unfold IsBinary; decide
  have hb2 : IsBinary [0, 0, 0, 0] := by unfold IsBinary; decide
  have hl2 : log 2 ≠ 0 := (Real.log_pos (by norm_num)).ne'
  constructor
  · rw [← mi_binary_exact _ _ hb1 hb1 (by simp) rfl]
    have m1 : binaryPmf [0, 1, 0, 1] true = 1 / 2 := by decide +kernel
    have m0 : binaryPmf [0, 1, 0, 1] false = 1 / 2 := by decide +kernel
    have j00 : binaryJoint [0, 1, 0, 1] [0, 1, 0, 1] false false = 1 / 2 := by decide +kernel
    have j01 : binaryJoint [0, 1, 0, 1] [0, 1, 0, 1] false true = 0 := by decide +kernel
    have j10 : binaryJoint [0, 1, 0, 1] [0, 1, 0, 1] true false = 0 := by decide +kernel
    have j11 : binaryJoint [0, 1, 0, 1] [0, 1, 0, 1] true true = 1 / 2 := by decide +kernel
    unfold miBinary binaryPmi
    simp only [m1, m0, j00, j01, j10, j11]
    norm_num
  · rw [← mi_binary_exact _ _ hb2 hb1 (by simp) rfl]
    have x1 : binaryPmf [0, 0, 0, 0] true = 0 := by decide +kernel
    have x0 : binaryPmf [0, 0, 0, 0] false = 1 := by decide +kernel
    have m1 : binaryPmf [0, 1, 0, 1] true = 1 / 2 := by decide +kernel
    have m0 : binaryPmf [0, 1, 0, 1] false = 1 / 2 := by decide +kernel
    have j00 : binaryJoint [0, 0, 0, 0] [0, 1, 0, 1] false false = 1 / 2 := by decide +kernel
    have j01 : binaryJoint [0, 0, 0, 0] [0, 1, 0, 1] false true = 1 / 2 := by decide +kernel
    have j10 : binaryJoint [0, 0, 0, 0] [0, 1, 0, 1] true false = 0 := by decide +kernel
    have j11 : binaryJoint [0, 0, 0, 0] [0, 1, 0, 1] true true = 0 := by decide +kernel
    unfold miBinary binaryPmi
    simp only [x1, x0, m1, m0, j00, j01, j10, j11]
    norm_num

theorem copy_columns : columnVector copyFeatures 0 = [0, 0, 0, 0] ∧ columnVector copyFeatures 1 = [0, 1, 0, 1] ∧
    columnVector copyFeatures 2 = [0, 0, 0, 0] ∧ columnVector copyObjective 0 = [0, 1, 0, 1] := by decide

/-- The hypotheses of `float_igt_variants_agree` (and with them those of the other theorems) are met. -/
example : Log2Accurate roundedLog2 ∧ copyFeatures.nrows ≠ 0 ∧ copyFeatures.nrows ≤ 2 ^ 40 ∧
    copyFeatures.nrows = copyObjective.nrows ∧
    (∀ f < copyFeatures.ncols, IsBinary (columnVector copyFeatures f)) ∧
    IsBinary (columnVector copyObjective 0) ∧
    WellSeparated copyFeatures copyObjective 0 (fun f => max (binaryError (columnVector copyFeatures f))
      (miError (columnVector copyFeatures f) (columnVector copyObjective 0))) := by
  refine ⟨roundedLog2_accurate, by decide, by decide, rfl, by unfold IsBinary; decide, by unfold IsBinary; decide, ?_⟩
  obtain ⟨c0, c1, c2, c3⟩ := copy_columns
  have hcol : ∀ f < copyFeatures.ncols, columnVector copyFeatures f = [0, 0, 0, 0] ∨
      columnVector copyFeatures f = [0, 1, 0, 1] := by decide
  have hE : ∀ xs ys : List Int, xs ≠ [] → xs.length ≤ 100000 → max (binaryError xs) (miError xs ys) ≤ 1 / 10 ^ 9 :=
    fun xs ys h1 h2 => max_le (igt_errors_small xs ys h1 h2).2 (igt_errors_small xs ys h1 h2).1
  have e0 := hE [0, 0, 0, 0] [0, 1, 0, 1] (by simp) (by simp)
  have e1 := hE [0, 1, 0, 1] [0, 1, 0, 1] (by simp) (by simp)
  intro f hf g hg
  simp only [c3]
  rcases hcol f hf with h | h <;> rcases hcol g hg with h' | h' <;> rw [h, h']
  · exact .inl rfl
  · right
    rw [mi_copy.1, mi_copy.2]
    have e2 := add_le_add e0 e1
    refine lt_of_le_of_lt e2 ?_
    norm_num
  · right
    rw [mi_copy.1, mi_copy.2]
    have e2 := add_le_add e1 e0
    refine lt_of_le_of_lt e2 ?_
    norm_num
  · exact .inl rfl

end Mbtk.Fp
