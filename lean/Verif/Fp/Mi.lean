import Verif.Fp.GCell
import Mathlib.Analysis.SpecialFunctions.Log.Deriv
import Mathlib.Analysis.Complex.ExponentialBounds
/-!
# One summand of the mutual information in floating point (C96)
-/
namespace Mbtk.Fp
open Real (log)

/-- The library's logarithm of base 2 is accurate to one unit in the last place; nothing else is assumed about
it. (Specification.) -/
def Log2Accurate (flog2 : ℚ → ℚ) : Prop :=
  ∀ x : ℚ, 0 < x → Representable x → |(flog2 x : ℝ) - log x / log 2| ≤ 2 * (u : ℝ) * |log x / log 2|

/-- `pxy * logarithm(pxy / (px * py))`: infotheory.py 23; the same expression: IGt.py 68-73. -/
def miTermF (flog2 : ℚ → ℚ) (pxy px py : ℚ) : ℚ := fl (pxy * flog2 (fl (pxy / fl (px * py))))

/-- `a` differs from `b` by at most the share `d` of `b`.
(Models no code: a notion for statements and proofs.) -/
def CloseTo (d : ℝ) (a b : ℚ) : Prop := |(a : ℝ) - b| ≤ d * b

theorem CloseTo.pos {d : ℝ} {a b : ℚ} (h : CloseTo d a b) (hd : d ≤ 1 / 4) (hb : 0 < b) : 0 < a := by
  have hb' : (0 : ℝ) < b := by exact_mod_cast hb
  have h1 := (abs_le.1 h).1
  have : (0 : ℝ) < a := by nlinarith
  exact_mod_cast this

theorem CloseTo.half {d : ℝ} {a b : ℚ} (h : CloseTo d a b) (hd : d ≤ 1 / 4) (hb : 0 < b) : b / 2 ≤ a := by
  have hb' : (0 : ℝ) < b := by exact_mod_cast hb
  have h1 := (abs_le.1 h).1
  have : (b : ℝ) / 2 ≤ a := by nlinarith
  exact_mod_cast this

theorem CloseTo.double {d : ℝ} {a b : ℚ} (h : CloseTo d a b) (hd : d ≤ 1 / 4) (hb : 0 < b) : a ≤ 2 * b := by
  have hb' : (0 : ℝ) < b := by exact_mod_cast hb
  have h1 := (abs_le.1 h).2
  have : (a : ℝ) ≤ 2 * b := by nlinarith
  exact_mod_cast this

theorem CloseTo.log {d : ℝ} {a b : ℚ} (h : CloseTo d a b) (hd0 : 0 ≤ d) (hd : d ≤ 1 / 4) (hb : 0 < b) :
    |Real.log a - Real.log b| ≤ 2 * d := by
  have hb' : (0 : ℝ) < b := by exact_mod_cast hb
  have ha' : (0 : ℝ) < a := by exact_mod_cast h.pos hd hb
  obtain ⟨h1, h2⟩ := abs_le.1 h
  have e1 : (a : ℝ) / b ≤ 1 + d := by rw [div_le_iff₀ hb']; linarith
  have e2 : 1 - d ≤ (a : ℝ) / b := by rw [le_div_iff₀ hb']; linarith
  have e3 : (0 : ℝ) < a / b := div_pos ha' hb'
  rw [← Real.log_div ha'.ne' hb'.ne']
  generalize (a : ℝ) / b = r at *
  rw [abs_le]
  constructor
  · have h3 := Real.one_sub_inv_le_log_of_pos e3
    have h4 : r⁻¹ ≤ 1 + 2 * d := by
      rw [inv_le_comm₀ e3 (by linarith)]
      refine le_trans ?_ e2
      rw [inv_le_comm₀ (by linarith) (by linarith), ]
      rw [inv_le_iff_one_le_mul₀ (by linarith)]
      nlinarith
    linarith
  · have h3 := Real.log_le_sub_one_of_pos e3
    linarith

theorem near_fl {x : ℚ} (h : 1 / 2 ^ 240 ≤ x) : CloseTo (u : ℝ) (fl x) x := by
  have hx : 0 < x := lt_of_lt_of_le (by positivity) h
  have h1 : (2 : ℚ) ^ (-1022 : ℤ) ≤ |x| := by
    rw [abs_of_pos hx]
    refine le_trans ?_ h
    have : (2 : ℚ) ^ (-1022 : ℤ) ≤ 2 ^ (-240 : ℤ) := zpow_le_zpow_right₀ (by norm_num) (by norm_num)
    refine this.trans (le_of_eq ?_)
    rw [zpow_neg, one_div]
    norm_cast
  have h2 := fl_error_normal h1
  rw [abs_of_pos hx] at h2
  have h3 : |fl x - x| ≤ u * x := h2
  have : ((|fl x - x| : ℚ) : ℝ) ≤ ((u * x : ℚ) : ℝ) := by exact_mod_cast h3
  push_cast at this
  exact this

theorem inv_log_two : 1 / log 2 ≤ 3 / 2 ∧ 0 < 1 / log 2 := by
  have h := Real.log_two_gt_d9
  refine ⟨?_, by positivity⟩
  rw [div_le_iff₀ (by linarith)]
  linarith

/-- The product of a weight and a logarithm, rounded. -/
theorem logTerm_error {w' fq : ℚ} {w la ell ε : ℝ} (hwlow : 1 / 2 ^ 200 ≤ w) (hw : |(w' : ℝ) - w| ≤ u * w)
    (hf : |(fq : ℝ) - la| ≤ 2 * (u : ℝ) * |la|) (hla : |la - ell| ≤ ε) (hε : ε ≤ 1 / 2) :
    |((fl (w' * fq) : ℚ) : ℝ) - w * ell| ≤ w * (2 * ε) + w * (u * (4 + 14 * |ell|)) := by
  have hfin := fl_abs_real (w' * fq)
  push_cast at hfin
  generalize (fl (w' * fq) : ℚ) = t at *
  generalize (w' : ℝ) = v at *
  generalize (fq : ℝ) = f at *
  have hu := uR_pos
  have hue := uR_eq
  have hw0 : 0 < w := lt_of_lt_of_le (by positivity) hwlow
  have hell := abs_nonneg ell
  have hε0 : 0 ≤ ε := (abs_nonneg _).trans hla
  have hla' : |la| ≤ |ell| + ε := by
    have := abs_add_le (la - ell) ell
    rw [sub_add_cancel] at this
    linarith
  have hfl : |f - ell| ≤ 11 / 10 * ε + 2 * u * |ell| := by
    have h3 := abs_add_le (f - la) (la - ell)
    rw [sub_add_sub_cancel] at h3
    have h4 : 2 * (u : ℝ) * |la| ≤ 2 * u * (|ell| + ε) := mul_le_mul_of_nonneg_left hla' (by positivity)
    have h5 : 2 * (u : ℝ) * ε ≤ 1 / 10 * ε := mul_le_mul_of_nonneg_right (by rw [hue]; norm_num) hε0
    linarith
  have hf9 : |f| ≤ 10 / 9 * |ell| + 1 := by
    have h3 := abs_add_le (f - ell) ell
    rw [sub_add_cancel] at h3
    have : 2 * (u : ℝ) * |ell| ≤ 1 / 9 * |ell| := mul_le_mul_of_nonneg_right (by rw [hue]; norm_num) hell
    linarith
  have hprod : |v * f - w * ell| ≤ w * (11 / 10 * ε) + w * (u * (1 + 4 * |ell|)) := by
    have e : v * f - w * ell = (v - w) * f + w * (f - ell) := by ring
    rw [e]
    refine (abs_add_le _ _).trans ?_
    rw [abs_mul, abs_mul, abs_of_pos hw0]
    have a1 : |v - w| * |f| ≤ u * w * (10 / 9 * |ell| + 1) :=
      mul_le_mul hw hf9 (abs_nonneg _) (by positivity)
    have a2 : w * |f - ell| ≤ w * (11 / 10 * ε + 2 * u * |ell|) := mul_le_mul_of_nonneg_left hfl hw0.le
    have a3 : 0 ≤ u * w * |ell| := by positivity
    nlinarith
  have hv : |v * f| ≤ w * (2 * |ell| + 2) := by
    rw [abs_mul]
    have a1 : |v| ≤ 4 / 3 * w := by
      have h3 := abs_add_le (v - w) w
      rw [sub_add_cancel, abs_of_pos hw0] at h3
      have : (u : ℝ) * w ≤ 1 / 3 * w := mul_le_mul_of_nonneg_right (by rw [hue]; norm_num) hw0.le
      linarith
    calc |v| * |f| ≤ 4 / 3 * w * (10 / 9 * |ell| + 1) := mul_le_mul a1 hf9 (abs_nonneg _) (by positivity)
      _ ≤ w * (2 * |ell| + 2) := by nlinarith
  have hround : |t - v * f| ≤ u * (w * (2 * |ell| + 2)) + u * w := by
    refine hfin.trans (add_le_add (mul_le_mul_of_nonneg_left hv hu.le) ?_)
    have : (u : ℝ) / 2 ^ 200 = u * (1 / 2 ^ 200) := by ring
    rw [this]
    exact mul_le_mul_of_nonneg_left hwlow hu.le
  have := abs_add_le (t - v * f) (v * f - w * ell)
  rw [sub_add_sub_cancel] at this
  have a3 : 0 ≤ u * w * |ell| := by positivity
  nlinarith [mul_nonneg hw0.le hε0]

/-- The error of one summand of the mutual information. -/
theorem miTermF_error {flog2 : ℚ → ℚ} (hlog : Log2Accurate flog2) {j px py j' px' py' : ℚ} {dx dy : ℝ}
    (hj : CloseTo u j' j) (hx : CloseTo dx px' px) (hy : CloseTo dy py' py) (hdx0 : 0 ≤ dx) (hdy0 : 0 ≤ dy)
    (hdx : dx ≤ 1 / 16) (hdy : dy ≤ 1 / 16)
    (bj : 1 / 2 ^ 53 ≤ j) (bx : 1 / 2 ^ 53 ≤ px) (bY : 1 / 2 ^ 53 ≤ py) (cx : px ≤ 1) (cy : py ≤ 1) :
    |(miTermF flog2 j' px' py' : ℝ) - (j : ℝ) * (log ((j : ℝ) / (px * py)) / log 2)| ≤
      (j : ℝ) * (6 * (dx + dy)) + (j : ℝ) * (u * (22 + 14 * |log ((j : ℝ) / (px * py)) / log 2|)) := by
  have hu := uR_pos
  have hue := uR_eq
  have hu4 : (u : ℝ) ≤ 1 / 4 := by rw [hue]; norm_num
  have j0 : 0 < j := lt_of_lt_of_le (by norm_num) bj
  have x0 : 0 < px := lt_of_lt_of_le (by norm_num) bx
  have y0 : 0 < py := lt_of_lt_of_le (by norm_num) bY
  have j'0 := hj.pos hu4 j0
  have x'0 := hx.pos (by linarith) x0
  have y'0 := hy.pos (by linarith) y0
  have hx2 := hx.half (by linarith) x0
  have hy2 := hy.half (by linarith) y0
  have hj2 := hj.half hu4 j0
  have hxd := hx.double (by linarith) x0
  have hyd := hy.double (by linarith) y0
  have hm : (1 : ℚ) / 2 ^ 240 ≤ px' * py' := by
    have h1 : (1 : ℚ) / 2 ^ 54 ≤ px' := by linarith
    have h2 : (1 : ℚ) / 2 ^ 54 ≤ py' := by linarith
    refine le_trans ?_ (mul_le_mul h1 h2 (by norm_num) x'0.le)
    norm_num
  have nm := near_fl hm
  have m0 : 0 < px' * py' := mul_pos x'0 y'0
  have fm0 := nm.pos hu4 m0
  have fmd := nm.double hu4 m0
  have hm4 : fl (px' * py') ≤ 8 := by
    have : px' * py' ≤ 2 * 2 := mul_le_mul (by linarith) (by linarith) y'0.le (by norm_num)
    linarith
  have hq : (1 : ℚ) / 2 ^ 240 ≤ j' / fl (px' * py') := by
    rw [le_div_iff₀ fm0]
    have h1 : (1 : ℚ) / 2 ^ 54 ≤ j' := by linarith
    refine le_trans ?_ h1
    calc (1 : ℚ) / 2 ^ 240 * fl (px' * py') ≤ 1 / 2 ^ 240 * 8 := mul_le_mul_of_nonneg_left hm4 (by positivity)
      _ ≤ 1 / 2 ^ 54 := by norm_num
  have nq := near_fl hq
  have q0 : 0 < j' / fl (px' * py') := div_pos j'0 fm0
  have l1 := nq.log hu.le hu4 q0
  have l2 := nm.log hu.le hu4 m0
  have l3 := hj.log hu.le hu4 j0
  have l4 := hx.log hdx0 (by linarith) x0
  have l5 := hy.log hdy0 (by linarith) y0
  have hacc := hlog _ (nq.pos hu4 q0) (representable_fl _)
  have R : ∀ q : ℚ, 0 < q → (0 : ℝ) < q := fun q h => by exact_mod_cast h
  have e1 : log ((j' / fl (px' * py') : ℚ) : ℝ) = log (j' : ℝ) - log ((fl (px' * py') : ℚ) : ℝ) := by
    push_cast
    rw [Real.log_div (R _ j'0).ne' (R _ fm0).ne']
  have e2 : log ((px' * py' : ℚ) : ℝ) = log (px' : ℝ) + log (py' : ℝ) := by
    push_cast
    rw [Real.log_mul (R _ x'0).ne' (R _ y'0).ne']
  have e3 : log ((j : ℝ) / (px * py)) = log (j : ℝ) - (log (px : ℝ) + log (py : ℝ)) := by
    rw [Real.log_div (R _ j0).ne' (mul_pos (R _ x0) (R _ y0)).ne', Real.log_mul (R _ x0).ne' (R _ y0).ne']
  rw [e1] at l1
  rw [e2] at l2
  have hnat : |log ((fl (j' / fl (px' * py')) : ℚ) : ℝ) - log ((j : ℝ) / (px * py))| ≤
      6 * u + 2 * dx + 2 * dy := by
    rw [e3]
    rw [abs_le] at l1 l2 l3 l4 l5 ⊢
    constructor <;> linarith [l1.1, l1.2, l2.1, l2.2, l3.1, l3.2, l4.1, l4.2, l5.1, l5.2]
  have hε : |log ((fl (j' / fl (px' * py')) : ℚ) : ℝ) / log 2 - log ((j : ℝ) / (px * py)) / log 2| ≤
      9 * u + 3 * dx + 3 * dy := by
    rw [← sub_div, div_eq_mul_one_div, abs_mul, abs_of_pos inv_log_two.2]
    calc _ ≤ (6 * u + 2 * dx + 2 * dy) * (3 / 2) :=
          mul_le_mul hnat inv_log_two.1 inv_log_two.2.le (by positivity)
      _ = _ := by ring
  have hwlow : (1 : ℝ) / 2 ^ 200 ≤ (j : ℝ) := by
    have : (1 : ℚ) / 2 ^ 200 ≤ j := le_trans (by norm_num) bj
    have : ((1 / 2 ^ 200 : ℚ) : ℝ) ≤ ((j : ℚ) : ℝ) := by exact_mod_cast this
    push_cast at this
    exact this
  have hmain := logTerm_error hwlow hj hacc hε (by
    have : 9 * (u : ℝ) ≤ 1 / 10 := by rw [hue]; norm_num
    linarith)
  unfold miTermF
  refine hmain.trans (le_of_eq ?_)
  ring

end Mbtk.Fp
