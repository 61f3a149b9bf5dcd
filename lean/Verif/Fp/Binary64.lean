import Mathlib.Data.Int.Log
import Mathlib.Algebra.Order.Floor.Ring
import Mathlib.Tactic.Linarith
import Mathlib.Tactic.Ring
import Mathlib.Tactic.NormNum
import Mathlib.Tactic.FieldSimp
import Mathlib.Tactic.Positivity
import Mathlib.Data.Rat.Floor
/-!
# Rounding to binary64 (used by C80-C83)

Python's `float` is IEEE 754 binary64: every `+`, `-`, `*`, `/` gives the exact result rounded to the
nearest representable number, ties to an even significand.  `fl` is this rounding, for numbers below
the overflow threshold (the numbers here are counts, probabilities and statistics); subnormal
numbers are included.  It is defined for rational and real numbers alike.
-/
namespace Mbtk.Fp

variable {K : Type*} [Field K] [LinearOrder K] [IsStrictOrderedRing K] [FloorRing K]

/-- The nearest whole number, ties to even. (Python itself.) -/
def halfEven (q : K) : ℤ :=
  if q - ⌊q⌋ < 1 / 2 then ⌊q⌋
  else if 1 / 2 < q - ⌊q⌋ then ⌊q⌋ + 1
  else if ⌊q⌋ % 2 = 0 then ⌊q⌋ else ⌊q⌋ + 1

/-- The exponent of the last place of a number: 52 places after the leading one, but not below the last
place of subnormal numbers. (Python itself.) -/
def lastPlace (x : K) : ℤ := max (Int.log 2 |x| - 52) (-1074)

/-- Rounding to binary64. (Python itself.) -/
def fl (x : K) : K := (halfEven (x / 2 ^ lastPlace x) : K) * 2 ^ lastPlace x

/-- A number with a significand of at most 53 bits. (Specification.) -/
def Representable (x : K) : Prop := ∃ m e : ℤ, |m| ≤ 2 ^ 53 ∧ -1074 ≤ e ∧ x = (m : K) * 2 ^ e

theorem halfEven_error (q : K) : |(halfEven q : K) - q| ≤ 1 / 2 := by
  have h0 : (⌊q⌋ : K) ≤ q := Int.floor_le q
  have h1 : q < ⌊q⌋ + 1 := Int.lt_floor_add_one q
  unfold halfEven
  split
  · rw [abs_le]; constructor <;> linarith
  · split
    · push_cast; rw [abs_le]; constructor <;> linarith
    · split
      · rw [abs_le]; constructor <;> linarith
      · push_cast; rw [abs_le]; constructor <;> linarith

theorem halfEven_int (n : ℤ) : halfEven (n : K) = n := by
  unfold halfEven
  rw [Int.floor_intCast, sub_self, if_pos (by norm_num)]

theorem halfEven_mono {p q : K} (h : p ≤ q) : halfEven p ≤ halfEven q := by
  by_cases hf : ⌊p⌋ = ⌊q⌋
  · unfold halfEven
    rw [hf]
    by_cases h1 : p - (⌊q⌋ : K) < 1 / 2
    · rw [if_pos h1]
      split
      · rfl
      · split
        · omega
        · split <;> omega
    · rw [if_neg h1, if_neg (by intro hh; apply h1; linarith : ¬ q - (⌊q⌋ : K) < 1 / 2)]
      by_cases h2 : 1 / 2 < p - (⌊q⌋ : K)
      · rw [if_pos h2, if_pos (by linarith)]
      · rw [if_neg h2]
        split
        · split <;> omega
        · split <;> omega
  · have hlt : ⌊p⌋ < ⌊q⌋ := lt_of_le_of_ne (Int.floor_mono h) hf
    have a : halfEven p ≤ ⌊p⌋ + 1 := by
      unfold halfEven
      split
      · omega
      · split
        · omega
        · split <;> omega
    have b : ⌊q⌋ ≤ halfEven q := by
      unfold halfEven
      split
      · omega
      · split
        · omega
        · split <;> omega
    omega

theorem halfEven_le_int {q : K} {n : ℤ} (h : q ≤ n) : halfEven q ≤ n := by
  have := halfEven_mono h
  rwa [halfEven_int] at this

theorem int_le_halfEven {q : K} {n : ℤ} (h : (n : K) ≤ q) : n ≤ halfEven q := by
  have := halfEven_mono h
  rwa [halfEven_int] at this

theorem halfEven_neg (q : K) : halfEven (-q) = - halfEven q := by
  by_cases hz : (⌊q⌋ : K) = q
  · rw [← hz]
    rw [show -((⌊q⌋ : K)) = ((-⌊q⌋ : ℤ) : K) by push_cast; rfl, halfEven_int, halfEven_int]
  · have hlt : (⌊q⌋ : K) < q := lt_of_le_of_ne (Int.floor_le q) hz
    have h1 : q < ⌊q⌋ + 1 := Int.lt_floor_add_one q
    have hfl : ⌊-q⌋ = -⌊q⌋ - 1 := by
      rw [Int.floor_eq_iff]; push_cast; constructor <;> linarith
    unfold halfEven
    rw [hfl]
    push_cast
    by_cases ha : q - (⌊q⌋ : K) < 1 / 2
    · rw [if_pos ha, if_neg (by linarith), if_pos (by linarith)]; omega
    · rw [if_neg ha]
      by_cases hb : 1 / 2 < q - (⌊q⌋ : K)
      · rw [if_pos hb, if_pos (by linarith)]; omega
      · rw [if_neg hb, if_neg (by linarith), if_neg (by linarith)]
        split <;> split <;> omega

/-- Whole numbers are found from numbers near them. -/
theorem halfEven_near {q : K} {n : ℤ} (h : |q - n| < 1 / 2) : halfEven q = n := by
  have h1 := halfEven_error q
  rw [abs_lt] at h
  rw [abs_le] at h1
  have a : (halfEven q : K) - n < 1 := by linarith
  have b : -1 < (halfEven q : K) - n := by linarith
  have a' : halfEven q - n < 1 := by exact_mod_cast a
  have b' : -1 < halfEven q - n := by exact_mod_cast b
  omega

theorem two_zpow_pos (e : ℤ) : (0 : K) < 2 ^ e := zpow_pos (by norm_num) e

omit [IsStrictOrderedRing K] in
theorem lastPlace_neg (x : K) : lastPlace (-x) = lastPlace x := by unfold lastPlace; rw [abs_neg]

theorem fl_neg (x : K) : fl (-x) = - fl x := by
  unfold fl
  rw [lastPlace_neg, neg_div, halfEven_neg]
  push_cast; ring

theorem fl_zero : fl (0 : K) = 0 := by
  unfold fl
  rw [zero_div, show (0 : K) = ((0 : ℤ) : K) by simp, halfEven_int]
  simp

/-- The error is at most half a unit in the last place. -/
theorem fl_error_ulp (x : K) : |fl x - x| ≤ 2 ^ lastPlace x / 2 := by
  have hp := two_zpow_pos (K := K) (lastPlace x)
  have h := halfEven_error (x / 2 ^ lastPlace x)
  have e : fl x - x = ((halfEven (x / 2 ^ lastPlace x) : K) - x / 2 ^ lastPlace x) * 2 ^ lastPlace x := by
    unfold fl; field_simp
  rw [e, abs_mul, abs_of_pos hp]
  calc _ ≤ 1 / 2 * (2 : K) ^ lastPlace x := by
        apply mul_le_mul_of_nonneg_right h (le_of_lt hp)
    _ = _ := by ring

theorem zpow_log_le_abs {x : K} (h : x ≠ 0) : (2 : K) ^ Int.log 2 |x| ≤ |x| := by
  have := Int.zpow_log_le_self (R := K) (b := 2) (r := |x|) (by norm_num) (abs_pos.2 h)
  exact_mod_cast this

theorem abs_lt_zpow_log (x : K) : |x| < (2 : K) ^ (Int.log 2 |x| + 1) := by
  have := Int.lt_zpow_succ_log_self (R := K) (b := 2) (by norm_num) |x|
  exact_mod_cast this

/-- Relative error of a number that is not tiny. -/
theorem fl_error_normal {x : K} (h : (2 : K) ^ (-1022 : ℤ) ≤ |x|) :
    |fl x - x| ≤ 2 ^ (-53 : ℤ) * |x| := by
  have hx : x ≠ 0 := by
    intro e; rw [e, abs_zero] at h
    exact absurd h (not_le.2 (two_zpow_pos _))
  have hl : (-1022 : ℤ) ≤ Int.log 2 |x| := by
    by_contra hh
    push Not at hh
    have h1 := abs_lt_zpow_log x
    have h2 : (2 : K) ^ (Int.log 2 |x| + 1) ≤ 2 ^ (-1022 : ℤ) :=
      zpow_le_zpow_right₀ (by norm_num) (by omega)
    linarith
  have hlp : lastPlace x = Int.log 2 |x| - 52 := by unfold lastPlace; omega
  refine le_trans (fl_error_ulp x) ?_
  rw [hlp]
  have h1 := zpow_log_le_abs hx
  have e : (2 : K) ^ (Int.log 2 |x| - 52) / 2 = 2 ^ (-53 : ℤ) * 2 ^ Int.log 2 |x| := by
    rw [← zpow_add₀ (by norm_num : (2 : K) ≠ 0)]
    rw [show (-53 : ℤ) + Int.log 2 |x| = (Int.log 2 |x| - 52) - 1 by ring, zpow_sub₀ (by norm_num : (2 : K) ≠ 0) _ 1]
    simp
  rw [e]
  exact mul_le_mul_of_nonneg_left h1 (le_of_lt (two_zpow_pos _))

/-- The error in general: relative 2⁻⁵³, or 2⁻¹⁰⁷⁵ for tiny numbers. -/
theorem fl_error (x : K) : |fl x - x| ≤ 2 ^ (-53 : ℤ) * |x| + 2 ^ (-1075 : ℤ) := by
  have hp := two_zpow_pos (K := K) (-1075)
  by_cases h : (2 : K) ^ (-1022 : ℤ) ≤ |x|
  · have := fl_error_normal h; linarith
  · have hn : (0 : K) ≤ 2 ^ (-53 : ℤ) * |x| := mul_nonneg (le_of_lt (two_zpow_pos _)) (abs_nonneg _)
    by_cases hx : x = 0
    · rw [hx, fl_zero]; simp
    have hl : Int.log 2 |x| - 52 ≤ -1074 := by
      by_contra hh
      push Not at hh
      apply h
      refine le_trans ?_ (zpow_log_le_abs hx)
      exact zpow_le_zpow_right₀ (by norm_num) (by omega)
    have hlp : lastPlace x = -1074 := by unfold lastPlace; omega
    have := fl_error_ulp x
    rw [hlp] at this
    have e : (2 : K) ^ (-1074 : ℤ) / 2 = 2 ^ (-1075 : ℤ) := by
      rw [show (-1075 : ℤ) = -1074 - 1 by ring, zpow_sub₀ (by norm_num : (2 : K) ≠ 0) _ 1]; simp
    rw [e] at this
    linarith

omit [LinearOrder K] [IsStrictOrderedRing K] [FloorRing K] in
theorem halfEven_mul_zpow {m : ℤ} {k : ℤ} (hk : 0 ≤ k) : (m : K) * 2 ^ k = ((m * 2 ^ k.toNat : ℤ) : K) := by
  push_cast
  congr 1
  rw [← zpow_natCast, Int.toNat_of_nonneg hk]

/-- Multiples of the last place are not changed. -/
theorem fl_multiple {x : K} {m e : ℤ} (hx : x = (m : K) * 2 ^ e) (he : lastPlace x ≤ e) : fl x = x := by
  have hq : x / 2 ^ lastPlace x = ((m * 2 ^ (e - lastPlace x).toNat : ℤ) : K) := by
    rw [← halfEven_mul_zpow (by omega), zpow_sub₀ (by norm_num : (2 : K) ≠ 0), mul_div_assoc', ← hx]
  unfold fl
  rw [hq, halfEven_int, ← hq]
  have := (two_zpow_pos (K := K) (lastPlace x)).ne'
  field_simp

/-- Representable numbers are not changed. -/
theorem fl_representable {x : K} (h : Representable x) : fl x = x := by
  obtain ⟨m, e, hm, he, hx⟩ := h
  by_cases h0 : x = 0
  · rw [h0, fl_zero]
  by_cases hle : lastPlace x ≤ e
  · exact fl_multiple hx hle
  · -- only the significand 2 ^ 53
    have habs : |x| = (|m| : ℤ) * (2 : K) ^ e := by
      rw [hx, abs_mul, abs_of_pos (two_zpow_pos (K := K) e)]; push_cast; rfl
    have hm0 : m ≠ 0 := by rintro rfl; apply h0; rw [hx]; simp
    have hlog : Int.log 2 |x| - 52 > e := by
      unfold lastPlace at hle; omega
    have h1 := zpow_log_le_abs h0
    have h2 : (2 : K) ^ (e + 53) ≤ 2 ^ Int.log 2 |x| := zpow_le_zpow_right₀ (by norm_num) (by omega)
    have h3 : (2 : K) ^ (e + 53) ≤ (|m| : ℤ) * (2 : K) ^ e := by rw [← habs]; linarith
    rw [zpow_add₀ (by norm_num : (2 : K) ≠ 0), mul_comm] at h3
    have h4 : (2 : K) ^ (53 : ℤ) ≤ (|m| : ℤ) := le_of_mul_le_mul_right h3 (two_zpow_pos e)
    have h5 : (2 : ℤ) ^ 53 ≤ |m| := by exact_mod_cast h4
    have h6 : |m| = 2 ^ 53 := le_antisymm hm h5
    have habs' : |x| = 2 ^ (e + 53) := by
      rw [habs, h6, zpow_add₀ (by norm_num : (2 : K) ≠ 0)]; push_cast; rw [mul_comm]; norm_num
    have hl : Int.log 2 |x| = e + 53 := by
      rw [habs']
      have := Int.log_zpow (R := K) (b := 2) (by norm_num) (e + 53)
      exact_mod_cast this
    have hlp : lastPlace x ≤ e + 1 := by unfold lastPlace; omega
    obtain ⟨s, hs, hms⟩ : ∃ s : ℤ, (s = 1 ∨ s = -1) ∧ m = s * 2 ^ 53 := by
      rcases abs_choice m with h | h
      · exact ⟨1, .inl rfl, by omega⟩
      · exact ⟨-1, .inr rfl, by omega⟩
    refine fl_multiple (m := s * 2 ^ 52) (e := e + 1) ?_ hlp
    rw [hx, hms, zpow_add₀ (by norm_num : (2 : K) ≠ 0)]
    push_cast; norm_num; ring

theorem fl_int {n : ℤ} (h : |n| ≤ 2 ^ 53) : fl (n : K) = n :=
  fl_representable ⟨n, 0, h, by norm_num, by simp⟩

theorem fl_nat {n : ℕ} (h : n ≤ 2 ^ 53) : fl (n : K) = n := by
  have := fl_int (K := K) (n := (n : ℤ)) (by rw [abs_of_nonneg (by positivity)]; exact_mod_cast h)
  exact_mod_cast this

theorem fl_one : fl (1 : K) = 1 := by simpa using fl_nat (K := K) (n := 1) (by norm_num)

theorem fl_nonneg {x : K} (h : 0 ≤ x) : 0 ≤ fl x := by
  unfold fl
  apply mul_nonneg _ (le_of_lt (two_zpow_pos _))
  have : (0 : ℤ) ≤ halfEven (x / 2 ^ lastPlace x) := by
    apply int_le_halfEven
    rw [Int.cast_zero]
    exact div_nonneg h (le_of_lt (two_zpow_pos _))
  exact_mod_cast this

theorem fl_mono_nonneg {x y : K} (hx : 0 ≤ x) (h : x ≤ y) : fl x ≤ fl y := by
  rcases eq_or_lt_of_le hx with h0 | h0
  · rw [← h0, fl_zero]; exact fl_nonneg (le_trans hx h)
  have hy : 0 < y := lt_of_lt_of_le h0 h
  have hlog : Int.log 2 |x| ≤ Int.log 2 |y| := by
    rw [abs_of_pos h0, abs_of_pos hy]; exact Int.log_mono_right h0 h
  have hlp : lastPlace x ≤ lastPlace y := by unfold lastPlace; omega
  by_cases he : lastPlace x = lastPlace y
  · unfold fl
    rw [he]
    apply mul_le_mul_of_nonneg_right _ (le_of_lt (two_zpow_pos _))
    have := halfEven_mono (div_le_div_of_nonneg_right h (le_of_lt (two_zpow_pos (K := K) (lastPlace y))))
    exact_mod_cast this
  · -- a power of two lies between
    have hlt : lastPlace x < lastPlace y := lt_of_le_of_ne hlp he
    have hly : lastPlace y = Int.log 2 |y| - 52 := by unfold lastPlace at hlt ⊢; omega
    have hxy : Int.log 2 |x| < Int.log 2 |y| := by unfold lastPlace at hlt; omega
    set B := Int.log 2 |y| with hB
    have hxB : x ≤ 2 ^ B := by
      have h1 := abs_lt_zpow_log x
      rw [abs_of_pos h0] at h1
      have h2 : (2 : K) ^ (Int.log 2 x + 1) ≤ 2 ^ B :=
        zpow_le_zpow_right₀ (by norm_num) (by rw [abs_of_pos h0] at hxy; omega)
      linarith
    have hyB : (2 : K) ^ B ≤ y := by
      have := zpow_log_le_abs hy.ne'
      rw [← hB] at this
      rwa [abs_of_pos hy] at this
    have a : fl x ≤ 2 ^ B := by
      unfold fl
      have hint : x / 2 ^ lastPlace x ≤ ((1 * 2 ^ (B - lastPlace x).toNat : ℤ) : K) := by
        rw [← halfEven_mul_zpow (by omega), zpow_sub₀ (by norm_num : (2 : K) ≠ 0), Int.cast_one, one_mul]
        exact div_le_div_of_nonneg_right hxB (le_of_lt (two_zpow_pos _))
      have h2 := halfEven_le_int hint
      have h3 : (halfEven (x / 2 ^ lastPlace x) : K) ≤ ((1 * 2 ^ (B - lastPlace x).toNat : ℤ) : K) := by
        exact_mod_cast h2
      rw [← halfEven_mul_zpow (by omega), zpow_sub₀ (by norm_num : (2 : K) ≠ 0), Int.cast_one, one_mul] at h3
      rwa [le_div_iff₀ (two_zpow_pos _)] at h3
    have b : (2 : K) ^ B ≤ fl y := by
      unfold fl
      have hint : ((1 * 2 ^ (B - lastPlace y).toNat : ℤ) : K) ≤ y / 2 ^ lastPlace y := by
        rw [← halfEven_mul_zpow (by omega), zpow_sub₀ (by norm_num : (2 : K) ≠ 0), Int.cast_one, one_mul]
        exact div_le_div_of_nonneg_right hyB (le_of_lt (two_zpow_pos _))
      have h2 := int_le_halfEven hint
      have h3 : ((1 * 2 ^ (B - lastPlace y).toNat : ℤ) : K) ≤ (halfEven (y / 2 ^ lastPlace y) : K) := by
        exact_mod_cast h2
      rw [← halfEven_mul_zpow (by omega), zpow_sub₀ (by norm_num : (2 : K) ≠ 0), Int.cast_one, one_mul] at h3
      rwa [div_le_iff₀ (two_zpow_pos _)] at h3
    exact le_trans a b

/-- Rounding is monotone. -/
theorem fl_mono {x y : K} (h : x ≤ y) : fl x ≤ fl y := by
  by_cases hx : 0 ≤ x
  · exact fl_mono_nonneg hx h
  · push Not at hx
    by_cases hy : 0 ≤ y
    · have h1 : 0 ≤ fl (-x) := fl_nonneg (by linarith)
      rw [fl_neg] at h1
      have := fl_nonneg hy
      linarith
    · push Not at hy
      have := fl_mono_nonneg (x := -y) (y := -x) (by linarith) (by linarith)
      rw [fl_neg, fl_neg] at this
      linarith

omit [FloorRing K] in
theorem log_cast [FloorSemiring K] (q : ℚ) : Int.log 2 |(q : K)| = Int.log 2 |q| := by
  by_cases h : q = 0
  · subst h; simp
  have hq : 0 < |q| := abs_pos.2 h
  have hq' : (0 : K) < |(q : K)| := abs_pos.2 (by exact_mod_cast h)
  have key : ∀ z : ℤ, z ≤ Int.log 2 |(q : K)| ↔ z ≤ Int.log 2 |q| := by
    intro z
    rw [← Int.zpow_le_iff_le_log (by norm_num) hq', ← Int.zpow_le_iff_le_log (by norm_num) hq]
    have e : (((2 : ℕ) : K) ^ z ≤ |(q : K)|) ↔ (((((2 : ℕ) : ℚ) ^ z : ℚ) : K) ≤ ((|q| : ℚ) : K)) := by
      push_cast; rfl
    rw [e]
    exact Rat.cast_le
  exact le_antisymm ((key _).1 (le_refl _)) ((key _).2 (le_refl _))

theorem halfEven_cast (q : ℚ) : halfEven (q : K) = halfEven q := by
  have hf : ⌊(q : K)⌋ = ⌊q⌋ := Rat.floor_cast q
  unfold halfEven
  rw [hf]
  have h1 : ((q : K) - (⌊q⌋ : K) < 1 / 2) ↔ (q - (⌊q⌋ : ℚ) < 1 / 2) := by
    rw [show ((q : K) - (⌊q⌋ : K) < 1 / 2) ↔ (((q - (⌊q⌋ : ℚ) : ℚ) : K) < ((1 / 2 : ℚ) : K)) by push_cast; rfl]
    exact Rat.cast_lt
  have h2 : ((1 / 2 : K) < (q : K) - (⌊q⌋ : K)) ↔ (1 / 2 < q - (⌊q⌋ : ℚ)) := by
    rw [show ((1 / 2 : K) < (q : K) - (⌊q⌋ : K)) ↔ (((1 / 2 : ℚ) : K) < ((q - (⌊q⌋ : ℚ) : ℚ) : K)) by push_cast; rfl]
    exact Rat.cast_lt
  simp only [h1, h2]

/-- Rounding a rational number and rounding it as a real number is the same. -/
theorem fl_cast (q : ℚ) : ((fl q : ℚ) : K) = fl (q : K) := by
  have hl : lastPlace (q : K) = lastPlace q := by
    unfold lastPlace
    rw [log_cast]
  unfold fl
  rw [hl]
  have : (q : K) / 2 ^ lastPlace q = ((q / 2 ^ lastPlace q : ℚ) : K) := by push_cast; rfl
  rw [this, halfEven_cast]
  push_cast
  rfl

/-! ## `fl` is rounding to the nearest representable number -/

theorem halfEven_nearest (q : K) (j : ℤ) : |(halfEven q : K) - q| ≤ |(j : K) - q| := by
  by_cases h : j = halfEven q
  · rw [h]
  · have h1 := halfEven_error q
    have h2 : (1 : K) ≤ |(j : K) - halfEven q| := by
      have : (1 : ℤ) ≤ |j - halfEven q| := Int.one_le_abs (sub_ne_zero.2 h)
      exact_mod_cast this
    have h3 : |(j : K) - halfEven q| ≤ |(j : K) - q| + |q - halfEven q| := abs_sub_le _ _ _
    rw [abs_sub_comm q] at h3
    linarith

/-- A rounded number is representable. -/
theorem representable_fl (x : K) : Representable (fl x) := by
  refine ⟨halfEven (x / 2 ^ lastPlace x), lastPlace x, ?_, le_max_right _ _, rfl⟩
  have hp := two_zpow_pos (K := K) (lastPlace x)
  have hb : |x / 2 ^ lastPlace x| ≤ 2 ^ 53 := by
    rw [abs_div, abs_of_pos hp, div_le_iff₀ hp]
    refine (abs_lt_zpow_log x).le.trans ?_
    have : (2 : K) ^ (53 : ℕ) = 2 ^ (53 : ℤ) := by norm_num
    rw [this, ← zpow_add₀ (by norm_num : (2 : K) ≠ 0)]
    apply zpow_le_zpow_right₀ (by norm_num)
    unfold lastPlace; omega
  rw [abs_le] at hb ⊢
  constructor
  · exact int_le_halfEven (by norm_num at hb ⊢; exact hb.1)
  · exact halfEven_le_int (by norm_num at hb ⊢; exact hb.2)

/-- Rounding twice is rounding once. -/
theorem fl_idem (x : K) : fl (fl x) = fl x := fl_representable (representable_fl x)

omit [LinearOrder K] [IsStrictOrderedRing K] [FloorRing K] in
theorem Representable.neg {x : K} (h : Representable x) : Representable (-x) := by
  obtain ⟨m, e, hm, he, rfl⟩ := h
  exact ⟨-m, e, by rwa [abs_neg], he, by push_cast; ring⟩

theorem fl_nearest_pos {x y : K} (hx : 0 < x) (hy : Representable y) : |fl x - x| ≤ |y - x| := by
  have hp := two_zpow_pos (K := K) (lastPlace x)
  -- multiples of the last place of `x` are not nearer
  have mult : ∀ j : ℤ, |fl x - x| ≤ |(j : K) * 2 ^ lastPlace x - x| := by
    intro j
    have h := mul_le_mul_of_nonneg_right (halfEven_nearest (x / 2 ^ lastPlace x) j) hp.le
    have e : ∀ z : K, |z - x / 2 ^ lastPlace x| * 2 ^ lastPlace x = |z * 2 ^ lastPlace x - x| := by
      intro z
      conv_lhs => rw [← abs_of_pos hp, ← abs_mul]
      rw [abs_of_pos hp]
      congr 1
      field_simp
    rw [e, e] at h
    exact h
  by_cases hl : lastPlace x ≤ lastPlace y
  · have h1 : y = ((halfEven (y / 2 ^ lastPlace y) * 2 ^ (lastPlace y - lastPlace x).toNat : ℤ) : K) *
        2 ^ lastPlace x := by
      rw [← halfEven_mul_zpow (by omega), mul_assoc, ← zpow_add₀ (by norm_num : (2 : K) ≠ 0)]
      rw [sub_add_cancel]
      exact (fl_representable hy).symm
    have := mult (halfEven (y / 2 ^ lastPlace y) * 2 ^ (lastPlace y - lastPlace x).toNat)
    rwa [← h1] at this
  · have he : lastPlace x = Int.log 2 |x| - 52 := by unfold lastPlace at hl ⊢; omega
    have hlog : Int.log 2 |y| + 1 ≤ Int.log 2 |x| := by unfold lastPlace at hl; omega
    have hy1 : |y| < 2 ^ Int.log 2 |x| :=
      (abs_lt_zpow_log y).trans_le (zpow_le_zpow_right₀ (by norm_num) hlog)
    have hx1 : (2 : K) ^ Int.log 2 |x| ≤ x := by
      have := zpow_log_le_abs hx.ne'
      rwa [abs_of_pos hx] at this ⊢
    have hB : ((2 ^ 52 : ℤ) : K) * 2 ^ lastPlace x = 2 ^ Int.log 2 |x| := by
      have e52 : ((2 ^ 52 : ℤ) : K) = 2 ^ (52 : ℤ) := by norm_num
      rw [e52, ← zpow_add₀ (by norm_num : (2 : K) ≠ 0), he]; congr 1; ring
    have := mult (2 ^ 52)
    rw [hB] at this
    refine this.trans ?_
    rw [abs_sub_comm, abs_of_nonneg (by linarith), abs_sub_comm]
    have h5 : x - y ≤ |x - y| := le_abs_self _
    have h6 : y ≤ |y| := le_abs_self _
    linarith

/-- No representable number is nearer. -/
theorem fl_nearest (x : K) {y : K} (hy : Representable y) : |fl x - x| ≤ |y - x| := by
  rcases lt_trichotomy x 0 with h | h | h
  · have := fl_nearest_pos (x := -x) (by linarith) hy.neg
    rw [fl_neg] at this
    rw [← abs_neg, ← abs_neg (y - x)]
    convert this using 2 <;> ring
  · rw [h, fl_zero]; simp
  · exact fl_nearest_pos h hy

/-- The value that Python shows as `0.1`. -/
example : fl (1 / 10 : ℚ) = 3602879701896397 / 2 ^ 55 := by decide +kernel

end Mbtk.Fp
