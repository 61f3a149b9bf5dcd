import Verif.Fp.GStat
/-!
# C83: consequences and examples
-/
namespace Mbtk.Fp
open Mbtk Mbtk.Stats Mbtk.Stats.Spec
open Mbtk.ADTree (Data)
open Mbtk.MB (Answer)
open Real (log)

/-- Up to a hundred thousand rows, the statistic is right to four decimals, whatever the data. -/
theorem gError_small (D : Data) (hr : D.nrows ≠ 0) (h : D.nrows ≤ 100000) (X Y : Nat) (Z : List Nat) :
    gError D X Y Z ≤ 1 / 10000 := by
  have hn1 : (1 : ℝ) ≤ D.nrows := by exact_mod_cast Nat.one_le_iff_ne_zero.2 hr
  have hn : (D.nrows : ℝ) ≤ 100000 := by exact_mod_cast h
  have hM : ((observed D (X :: Y :: Z)).card : ℝ) ≤ 100000 := by
    exact_mod_cast (card_observed_le D _).trans h
  have hL0 : 0 ≤ log D.nrows := Real.log_nonneg hn1
  have hL : log D.nrows ≤ 12 := by
    have h2 : (D.nrows : ℝ) ≤ 2 ^ 17 := hn.trans (by norm_num)
    have h3 : log D.nrows ≤ log (2 ^ 17) := Real.log_le_log (by linarith) h2
    rw [Real.log_pow] at h3
    have h4 := Real.log_two_lt_d9
    push_cast at h3
    linarith
  unfold gError
  have hM0 : (0 : ℝ) ≤ (observed D (X :: Y :: Z)).card := by positivity
  generalize ((observed D (X :: Y :: Z)).card : ℝ) = M at *
  generalize log (D.nrows : ℝ) = L at *
  generalize (D.nrows : ℝ) = n at *
  have h1 : (M + 15) * (L + 2) ≤ (100000 + 15) * (12 + 2) :=
    mul_le_mul (by linarith) (by linarith) (by linarith) (by norm_num)
  have h2 : 2 * n * ((M + 15) * (L + 2)) ≤ 2 * 100000 * ((100000 + 15) * (12 + 2)) :=
    mul_le_mul (by linarith) h1 (by positivity) (by norm_num)
  rw [div_le_iff₀ (by norm_num)]
  refine h2.trans ?_
  norm_num

/-- Exactly independent columns are clear of every threshold that exceeds the p-value of the error. -/
theorem independent_clear {D : Data} {cfg : Config} {c : Call}
    (hi : Independent D c.1 c.2.1 c.2.2)
    (hs : cfg.cdf (gError D c.1 c.2.1 c.2.2) (dofOf D cfg.kind c.1 c.2.1 c.2.2) < cfg.significance) :
    Clear D cfg (gError D c.1 c.2.1 c.2.2) c := by
  left
  have : G D c.1 c.2.1 c.2.2 = 0 := by
    unfold Stats.Spec.G
    rw [(Stats.Spec.cmi_eq_zero_iff D _ _ _).2 hi, mul_zero]
  rw [this, zero_add]
  exact hs

/-! ## An accurate logarithm exists -/

/-- The logarithm, correctly rounded. (Example.) -/
noncomputable def roundedLog (x : ℚ) : ℚ :=
  (halfEven (log x / 2 ^ lastPlace (log x)) : ℚ) * 2 ^ lastPlace (log x)

theorem roundedLog_cast (x : ℚ) : ((roundedLog x : ℚ) : ℝ) = fl (log x) := by
  unfold roundedLog fl
  push_cast
  rfl

theorem representable_far_from_one {x : ℚ} (h0 : 0 < x) (hr : Representable x) (h1 : x ≠ 1) :
    1 / 2 ^ 54 ≤ |x - 1| := by
  obtain ⟨m, e, hm, _, hx⟩ := hr
  by_cases he : 0 ≤ e
  · obtain ⟨k, rfl⟩ := Int.eq_ofNat_of_zero_le he
    have hk : x - 1 = ((m * 2 ^ k - 1 : ℤ) : ℚ) := by rw [hx]; push_cast; norm_cast
    have hne : m * 2 ^ k - 1 ≠ 0 := by
      intro h
      rw [h] at hk
      exact h1 (by push_cast at hk; linarith)
    rw [hk]
    have : (1 : ℚ) ≤ |((m * 2 ^ k - 1 : ℤ) : ℚ)| := by exact_mod_cast Int.one_le_abs hne
    exact le_trans (by norm_num) this
  · obtain ⟨k, hk⟩ := Int.eq_ofNat_of_zero_le (show 0 ≤ -e by omega)
    have ek : (2 : ℚ) ^ e = 1 / 2 ^ k := by
      rw [show e = -(k : ℤ) by omega, zpow_neg, one_div]; norm_cast
    rw [ek] at hx
    have hp : (0 : ℚ) < 2 ^ k := by positivity
    by_cases h54 : k ≤ 54
    · have hxe : x - 1 = ((m - 2 ^ k : ℤ) : ℚ) / 2 ^ k := by
        rw [hx]; push_cast; field_simp
      have hne : m - 2 ^ k ≠ 0 := by
        intro h
        rw [h] at hxe
        exact h1 (by push_cast at hxe; rw [zero_div] at hxe; linarith)
      rw [hxe, abs_div, abs_of_pos hp]
      have h2 : (1 : ℚ) ≤ |((m - 2 ^ k : ℤ) : ℚ)| := by exact_mod_cast Int.one_le_abs hne
      have h3 : (2 : ℚ) ^ k ≤ 2 ^ 54 := pow_le_pow_right₀ (by norm_num) h54
      exact div_le_div₀ (by linarith) h2 hp h3
    · have h3 : (2 : ℚ) ^ 55 ≤ 2 ^ k := pow_le_pow_right₀ (by norm_num) (by omega)
      have hm' : (m : ℚ) ≤ 2 ^ 53 := by exact_mod_cast (abs_le.1 hm).2
      have hxq : x ≤ 1 / 4 := by
        rw [hx, mul_one_div, div_le_iff₀ hp]
        calc (m : ℚ) ≤ 2 ^ 53 := hm'
          _ = 1 / 4 * 2 ^ 55 := by norm_num
          _ ≤ 1 / 4 * 2 ^ k := by linarith
      rw [abs_sub_comm]
      refine le_trans ?_ (le_abs_self _)
      have : (1 : ℚ) / 2 ^ 54 ≤ 3 / 4 := by norm_num
      linarith

theorem log_representable {x : ℚ} (h0 : 0 < x) (hr : Representable x) (h1 : x ≠ 1) :
    (1 : ℝ) / 2 ^ 55 ≤ |log x| := by
  have h := representable_far_from_one h0 hr h1
  have hR : (1 : ℝ) / 2 ^ 54 ≤ |(x : ℝ) - 1| := by
    have : (((1 : ℚ) / 2 ^ 54 : ℚ) : ℝ) ≤ ((|x - 1| : ℚ) : ℝ) := by exact_mod_cast h
    push_cast at this
    exact this
  have x0 : (0 : ℝ) < x := by exact_mod_cast h0
  generalize (x : ℝ) = y at *
  rcases le_total 1 y with hy | hy
  · rw [abs_of_nonneg (Real.log_nonneg hy)]
    rw [abs_of_nonneg (by linarith)] at hR
    have hl : 1 - y⁻¹ ≤ log y := Real.one_sub_inv_le_log_of_pos x0
    refine le_trans ?_ hl
    rcases le_total y 2 with h2 | h2
    · have : 1 - y⁻¹ = (y - 1) / y := by field_simp
      rw [this, le_div_iff₀ x0]
      calc (1 : ℝ) / 2 ^ 55 * y ≤ 1 / 2 ^ 55 * 2 := mul_le_mul_of_nonneg_left h2 (by norm_num)
        _ = 1 / 2 ^ 54 := by norm_num
        _ ≤ y - 1 := hR
    · have : y⁻¹ ≤ 1 / 2 := by rw [inv_le_comm₀ x0 (by norm_num)]; norm_num; exact h2
      have h3 : (1 : ℝ) / 2 ^ 55 ≤ 1 / 2 := by norm_num
      linarith
  · rw [abs_of_nonpos (Real.log_nonpos x0.le hy)]
    rw [abs_of_nonpos (by linarith)] at hR
    have := Real.log_le_sub_one_of_pos x0
    have h3 : (1 : ℝ) / 2 ^ 55 ≤ 1 / 2 ^ 54 := by norm_num
    linarith

/-- The correctly rounded logarithm meets the assumption made about the library's. -/
theorem roundedLog_accurate : LogAccurate roundedLog := by
  intro x h0 hr
  rw [roundedLog_cast]
  by_cases h1 : x = 1
  · subst h1; simp [fl_zero]
  · have h := log_representable h0 hr h1
    have hn : (2 : ℝ) ^ (-1022 : ℤ) ≤ |log x| := by
      have h2 : (2 : ℝ) ^ (-1022 : ℤ) ≤ 2 ^ (-55 : ℤ) :=
        zpow_le_zpow_right₀ (by norm_num) (by norm_num)
      refine le_trans h2 (le_trans (le_of_eq ?_) h)
      rw [zpow_neg, one_div]; norm_cast
    have he := fl_error_normal hn
    have hu : ((2 : ℝ) ^ (-53 : ℤ)) = (u : ℝ) := by unfold u; push_cast; rfl
    rw [hu] at he
    have := uR_pos
    nlinarith [abs_nonneg (log (x : ℝ))]

/-! ## A dataset and a configuration -/

/-- Eight rows, three binary columns: the first two take every combination twice, the third is a copy of
the first. (Example.) -/
def coinData : Data where
  nrows := 8
  ncols := 3
  cell r c := if c = 1 then (r / 2 % 2 : Nat) else (r % 2 : Nat)
  values _ := [0, 1]
  threshold := 3

/-- A monotone distribution function and the threshold one half. (Example.) -/
noncomputable def coinConfig : Config where
  kind := .unadjusted
  cdf g _ := max 0 (min 1 g)
  significance := 1 / 2

theorem coin_valid : ∀ c ∈ [((0, 1, []) : Call), (0, 2, []), (2, 1, [0])], ValidCall coinData c := by
  unfold ValidCall; decide

theorem coin_independent : Independent coinData 0 1 [] := by
  rw [← Stats.Spec.cmi_eq_zero_iff]
  have h1 : observed coinData [] = {[]} := by decide
  have h2 : Spec.values coinData 0 = {0, 1} := by decide
  have h3 : Spec.values coinData 1 = {0, 1} := by decide
  have f0 : freq coinData [] [] = 1 := by decide +kernel
  have f1 : freq coinData [0] [0] = 1 / 2 := by decide +kernel
  have f2 : freq coinData [0] [1] = 1 / 2 := by decide +kernel
  have f3 : freq coinData [1] [0] = 1 / 2 := by decide +kernel
  have f4 : freq coinData [1] [1] = 1 / 2 := by decide +kernel
  have f5 : freq coinData [0, 1] [0, 0] = 1 / 4 := by decide +kernel
  have f6 : freq coinData [0, 1] [0, 1] = 1 / 4 := by decide +kernel
  have f7 : freq coinData [0, 1] [1, 0] = 1 / 4 := by decide +kernel
  have f8 : freq coinData [0, 1] [1, 1] = 1 / 4 := by decide +kernel
  unfold Spec.cmi
  rw [h1, h2, h3]
  simp only [Finset.sum_singleton, Finset.sum_pair (show (0 : Int) ≠ 1 by decide), f0, f1, f2, f3, f4,
    f5, f6, f7, f8]
  norm_num

theorem coin_dependent : G coinData 0 2 [] = 16 * log 2 := by
  have h1 : observed coinData [] = {[]} := by decide
  have h2 : Spec.values coinData 0 = {0, 1} := by decide
  have h3 : Spec.values coinData 2 = {0, 1} := by decide
  have f0 : freq coinData [] [] = 1 := by decide +kernel
  have f1 : freq coinData [0] [0] = 1 / 2 := by decide +kernel
  have f2 : freq coinData [0] [1] = 1 / 2 := by decide +kernel
  have f3 : freq coinData [2] [0] = 1 / 2 := by decide +kernel
  have f4 : freq coinData [2] [1] = 1 / 2 := by decide +kernel
  have f5 : freq coinData [0, 2] [0, 0] = 1 / 2 := by decide +kernel
  have f6 : freq coinData [0, 2] [0, 1] = 0 := by decide +kernel
  have f7 : freq coinData [0, 2] [1, 0] = 0 := by decide +kernel
  have f8 : freq coinData [0, 2] [1, 1] = 1 / 2 := by decide +kernel
  unfold Stats.Spec.G Spec.cmi
  rw [h1, h2, h3]
  simp only [Finset.sum_singleton, Finset.sum_pair (show (0 : Int) ≠ 1 by decide), f0, f1, f2, f3, f4,
    f5, f6, f7, f8]
  show (2 : ℝ) * ((8 : ℕ) : ℝ) * _ = _
  norm_num
  ring

theorem coin_clear : ∀ c ∈ [((0, 1, []) : Call), (0, 2, [])],
    Clear coinData coinConfig (gError coinData c.1 c.2.1 c.2.2) c := by
  intro c hc
  simp only [List.mem_cons, List.not_mem_nil, or_false] at hc
  rcases hc with rfl | rfl
  · refine independent_clear coin_independent ?_
    have := gError_small coinData (by decide) (by decide) 0 1 []
    show max 0 (min 1 (gError coinData 0 1 [])) < 1 / 2
    refine max_lt (by norm_num) (lt_of_le_of_lt (min_le_right _ _) ?_)
    exact lt_of_le_of_lt this (by norm_num)
  · right
    have := gError_small coinData (by decide) (by decide) 0 2 []
    show 1 / 2 ≤ max 0 (min 1 (G coinData 0 2 [] - gError coinData 0 2 []))
    rw [coin_dependent]
    have h2 := Real.log_two_gt_d9
    refine le_trans (le_min (by norm_num) ?_) (le_max_right _ _)
    norm_num at this
    linarith

/-- The hypotheses of C83 are met: an accurate logarithm, a dataset, a monotone distribution function,
an independent and a dependent pair, both clear of the threshold. -/
example : LogAccurate roundedLog ∧ coinData.nrows ≠ 0 ∧ coinData.nrows ≤ 2 ^ 40 ∧
    (∀ k, Monotone (fun g => coinConfig.cdf g k)) ∧
    (∀ c ∈ [((0, 1, []) : Call), (0, 2, [])], ValidCall coinData c) ∧
    (∀ c ∈ [((0, 1, []) : Call), (0, 2, [])], Clear coinData coinConfig (gError coinData c.1 c.2.1 c.2.2) c) :=
  ⟨roundedLog_accurate, by decide, by decide,
    fun _ _ _ h => max_le_max le_rfl (min_le_min le_rfl h), by unfold ValidCall; decide, coin_clear⟩

/-- The answers of the test with `float`s on the example: independent, then dependent. -/
theorem coin_answers : ∃ b, mapList (unoptCallF roundedLog coinData coinConfig)
    [((0, 1, []) : Call), (0, 2, [])] {} = .ok ([Answer.independent, Answer.dependent], b) := by
  obtain ⟨as, b, _, e, _, ha⟩ := float_unoptimized_answers roundedLog_accurate coinData coinConfig
    (by decide) (by decide) (fun _ _ _ h => max_le_max le_rfl (min_le_min le_rfl h))
    [((0, 1, []) : Call), (0, 2, [])] (by unfold ValidCall; decide) coin_clear
  have hE : ∀ X Y, Enough coinData coinConfig X Y [] := by
    intro X Y
    show 5 * 1 < 8
    norm_num
  match as, ha with
  | [a1, a2], ⟨h1, h2, _⟩ =>
    have g1 : a1 = .independent := by
      rw [h1.independent]
      refine ⟨hE 0 1, ?_⟩
      have hG : G coinData 0 1 [] = 0 := by
        unfold Stats.Spec.G
        rw [(Stats.Spec.cmi_eq_zero_iff coinData _ _ _).2 coin_independent, mul_zero]
      show max 0 (min 1 (G coinData 0 1 [])) < 1 / 2
      rw [hG]; norm_num
    have g2 : a2 = .dependent := by
      rw [h2.dependent]
      refine ⟨hE 0 2, ?_⟩
      show 1 / 2 ≤ max 0 (min 1 (G coinData 0 2 []))
      rw [coin_dependent]
      have h2 := Real.log_two_gt_d9
      exact le_trans (le_min (by norm_num) (by linarith)) (le_max_right _ _)
    subst g1 g2
    exact ⟨b, e⟩

end Mbtk.Fp
