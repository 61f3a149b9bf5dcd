import Verif.Fp.Data
import Mathlib.Analysis.SpecialFunctions.Log.Basic
/-!
# Relative errors of rounded operations

Used by the error bounds of the G statistic (C83, C84).
-/
namespace Mbtk.Fp

/-- `a` differs from `b` by a relative error of at most `k` units of roundoff.
(Models no code: a notion for statements and proofs.) -/
def Rel (k : ℕ) (a b : ℚ) : Prop := ∃ δ : ℚ, |δ| ≤ k * u ∧ a = b * (1 + δ)

theorem Rel.refl (b : ℚ) : Rel 0 b b := ⟨0, by simp, by ring⟩

theorem Rel.weaken {j k : ℕ} {a b : ℚ} (h : Rel j a b) (hjk : j ≤ k) : Rel k a b := by
  obtain ⟨δ, h1, h2⟩ := h
  refine ⟨δ, h1.trans (mul_le_mul_of_nonneg_right (by exact_mod_cast hjk) u_pos.le), h2⟩

theorem ku_small {k : ℕ} (hk : k ≤ 1000) : (k : ℚ) * u ≤ 1 / 1000000 := by
  have h : (k : ℚ) ≤ 1000 := by exact_mod_cast hk
  rw [u_eq]
  linarith

theorem Rel.mul {j k : ℕ} {a b c d : ℚ} (h : Rel j a b) (h' : Rel k c d) (hj : j ≤ 1000)
    (hk : k ≤ 1000) : Rel (j + k + 1) (a * c) (b * d) := by
  obtain ⟨δ, h1, rfl⟩ := h
  obtain ⟨ε, h2, rfl⟩ := h'
  refine ⟨δ + ε + δ * ε, ?_, by ring⟩
  have h3 : |δ * ε| ≤ u := by
    rw [abs_mul]
    have hj' : (j : ℚ) ≤ 1000 := by exact_mod_cast hj
    have hk' : (k : ℚ) * u ≤ 1 / 1000000 := ku_small hk
    have e1 : |δ| ≤ 1000 * u := h1.trans (mul_le_mul_of_nonneg_right hj' u_pos.le)
    have e2 : |ε| ≤ 1 / 1000000 := h2.trans hk'
    calc |δ| * |ε| ≤ (1000 * u) * (1 / 1000000) :=
          mul_le_mul e1 e2 (abs_nonneg _) (by have := u_pos; positivity)
      _ ≤ u := by have := u_pos; linarith
  have h4 := abs_add_three δ ε (δ * ε)
  push_cast
  linarith

theorem Rel.div {j k : ℕ} {a b c d : ℚ} (h : Rel j a b) (h' : Rel k c d) (hj : j ≤ 1000)
    (hk : k ≤ 1000) : Rel (j + k + 1) (a / c) (b / d) := by
  obtain ⟨δ, h1, rfl⟩ := h
  obtain ⟨ε, h2, rfl⟩ := h'
  have hks : (k : ℚ) * u ≤ 1 / 1000000 := ku_small hk
  have hε : |ε| ≤ 1 / 1000000 := h2.trans hks
  have hpos : (0 : ℚ) < 1 + ε := by have := (abs_le.1 hε).1; linarith
  refine ⟨(δ - ε) / (1 + ε), ?_, ?_⟩
  · rw [abs_div, abs_of_pos hpos, div_le_iff₀ hpos]
    have hd : |δ - ε| ≤ (j : ℚ) * u + k * u := (abs_sub _ _).trans (add_le_add h1 h2)
    have hj' : (j : ℚ) ≤ 1000 := by exact_mod_cast hj
    have hk' : (k : ℚ) ≤ 1000 := by exact_mod_cast hk
    have hu := u_pos
    have h3 : ((j + k + 1 : ℕ) : ℚ) * u * (1 - 1 / 1000000) ≤ ((j + k + 1 : ℕ) : ℚ) * u * (1 + ε) :=
      mul_le_mul_of_nonneg_left (by have := (abs_le.1 hε).1; linarith) (by positivity)
    refine hd.trans (le_trans ?_ h3)
    push_cast
    have h4 : ((j : ℚ) + k + 1) * u * (1 / 1000000) ≤ 2001 * u * (1 / 1000000) :=
      mul_le_mul_of_nonneg_right (mul_le_mul_of_nonneg_right (by linarith) hu.le) (by norm_num)
    nlinarith
  · by_cases hd : d = 0
    · simp [hd]
    · field_simp
      ring

/-- Not so small that rounding could lose relative accuracy.
(Models no code: a notion for statements and proofs.) -/
def Normal (x : ℚ) : Prop := (2 : ℚ) ^ (-1022 : ℤ) ≤ |x|

theorem fl_rel_normal {x : ℚ} (h : Normal x) : Rel 1 (fl x) x := by
  have h1 := fl_error_normal h
  have hx : x ≠ 0 := by
    intro h0
    unfold Normal at h
    rw [h0, abs_zero] at h
    exact absurd h (not_le.2 (two_zpow_pos _))
  refine ⟨(fl x - x) / x, ?_, by field_simp; ring⟩
  rw [abs_div, div_le_iff₀ (abs_pos.2 hx)]
  simpa [u] using h1

theorem Rel.normal {k : ℕ} {a b : ℚ} (h : Rel k a b) (hk : k ≤ 1000) (hb : 1 / 2 ^ 240 ≤ b) :
    Normal a := by
  obtain ⟨δ, h1, rfl⟩ := h
  have hδ : |δ| ≤ 1 / 1000000 := h1.trans (ku_small hk)
  have h2 := (abs_le.1 hδ).1
  have hb0 : 0 < b := lt_of_lt_of_le (by positivity) hb
  have h3 : b * (1 / 2) ≤ b * (1 + δ) := mul_le_mul_of_nonneg_left (by linarith) hb0.le
  unfold Normal
  have h4 : (2 : ℚ) ^ (-1022 : ℤ) ≤ 2 ^ (-241 : ℤ) := zpow_le_zpow_right₀ (by norm_num) (by norm_num)
  have h5 : (2 : ℚ) ^ (-241 : ℤ) = 1 / 2 ^ 240 * (1 / 2) := by
    rw [show (-241 : ℤ) = -240 + -1 by norm_num, zpow_add₀ (by norm_num : (2 : ℚ) ≠ 0),
      zpow_neg_one, zpow_neg]
    norm_cast
    ring
  have h6 : (1 : ℚ) / 2 ^ 240 * (1 / 2) ≤ b * (1 / 2) := mul_le_mul_of_nonneg_right hb (by norm_num)
  exact h4.trans (h5.le.trans (h6.trans (h3.trans (le_abs_self _))))

/-- Rounding adds two units (one, and a bit). -/
theorem Rel.fl {k : ℕ} {a b : ℚ} (h : Rel k a b) (hk : k ≤ 1000) (hb : 1 / 2 ^ 240 ≤ b) :
    Rel (k + 2) (fl a) b := by
  obtain ⟨ε, e1, e2⟩ := fl_rel_normal (h.normal hk hb)
  have h' : Rel 1 (1 + ε) 1 := ⟨ε, e1, by ring⟩
  have := h.mul h' hk (by norm_num)
  rw [mul_one, ← e2] at this
  exact this

theorem Rel.abs {k : ℕ} {a b : ℚ} (h : Rel k a b) (hb : 0 ≤ b) : |a - b| ≤ k * u * b := by
  obtain ⟨δ, h1, rfl⟩ := h
  rw [show b * (1 + δ) - b = δ * b by ring, abs_mul, abs_of_nonneg hb]
  exact mul_le_mul_of_nonneg_right h1 hb

theorem Rel.of_abs {k : ℕ} {a b : ℚ} (hb : 0 < b) (h : |a - b| ≤ k * u * b) : Rel k a b := by
  refine ⟨(a - b) / b, ?_, by field_simp; ring⟩
  rw [abs_div, abs_of_pos hb, div_le_iff₀ hb]
  exact h

theorem Rel.pos {k : ℕ} {a b : ℚ} (h : Rel k a b) (hk : k ≤ 1000) (hb : 0 < b) : 0 < a := by
  obtain ⟨δ, h1, rfl⟩ := h
  have hδ := (abs_le.1 (h1.trans (ku_small hk))).1
  exact mul_pos hb (by linarith)

/-- Logarithms of numbers with a small relative error. -/
theorem Rel.log {k : ℕ} {a b : ℚ} (h : Rel k a b) (hk : k ≤ 1000) (hb : 0 < b) :
    |Real.log a - Real.log b| ≤ (k + 1) * (u : ℝ) := by
  obtain ⟨δ, h1, rfl⟩ := h
  have hδ : |δ| ≤ 1 / 1000000 := h1.trans (ku_small hk)
  have h1R : |(δ : ℝ)| ≤ (k : ℝ) * (u : ℝ) := by exact_mod_cast h1
  have hδR : |(δ : ℝ)| ≤ 1 / 1000000 := by
    have : ((|δ| : ℚ) : ℝ) ≤ ((1 / 1000000 : ℚ) : ℝ) := by exact_mod_cast hδ
    push_cast at this
    exact this
  have hbR : (0 : ℝ) < b := by exact_mod_cast hb
  obtain ⟨d1, d2⟩ := abs_le.1 hδR
  have hpos : (0 : ℝ) < 1 + δ := by linarith
  have hu : (0 : ℝ) < (u : ℝ) := by exact_mod_cast u_pos
  have hkR : (k : ℝ) ≤ 1000 := by exact_mod_cast hk
  push_cast
  rw [Real.log_mul hbR.ne' hpos.ne', add_sub_cancel_left]
  have hup : Real.log (1 + δ) ≤ δ := by
    have := Real.log_le_sub_one_of_pos hpos
    linarith
  have hlow : (δ : ℝ) / (1 + δ) ≤ Real.log (1 + δ) := by
    have := Real.one_sub_inv_le_log_of_pos hpos
    have e : 1 - (1 + (δ : ℝ))⁻¹ = δ / (1 + δ) := by field_simp; ring
    linarith
  obtain ⟨e1, e2⟩ := abs_le.1 h1R
  rw [abs_le]
  constructor
  · refine le_trans ?_ hlow
    rw [le_div_iff₀ hpos]
    have : (k + 1) * (u : ℝ) * (1 + δ) ≥ (k + 1) * (u : ℝ) * (1 - 1 / 1000000) :=
      mul_le_mul_of_nonneg_left (by linarith) (by positivity)
    have h4 : ((k : ℝ) + 1) * u * (1 / 1000000) ≤ 1001 * u * (1 / 1000000) :=
      mul_le_mul_of_nonneg_right (mul_le_mul_of_nonneg_right (by linarith) hu.le) (by norm_num)
    nlinarith
  · linarith

end Mbtk.Fp
