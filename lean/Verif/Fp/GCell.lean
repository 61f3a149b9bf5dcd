import Verif.Fp.Rel
/-!
# One summand of the conditional mutual information in floating point, and sums of such summands
-/
namespace Mbtk.Fp
open Real (log)

/-- The library's logarithm is accurate to one unit in the last place (glibc documents less than
that); nothing else is assumed about it. (Specification.) -/
def LogAccurate (flog : ℚ → ℚ) : Prop :=
  ∀ x : ℚ, 0 < x → Representable x → |(flog x : ℝ) - log x| ≤ 2 * (u : ℝ) * |log x|

/-- `pz * pxycz * logarithm(pxycz / (pxcz * pycz))`: infotheory.py 45. -/
def termF (flog : ℚ → ℚ) (pz pxycz pxcz pycz : ℚ) : ℚ :=
  fl (fl (pz * pxycz) * flog (fl (pxycz / fl (pxcz * pycz))))

theorem uR_eq : (u : ℝ) = 1 / 9007199254740992 := by rw [u_eq]; norm_num

theorem uR_pos : (0 : ℝ) < (u : ℝ) := by exact_mod_cast u_pos

theorem fl_abs_real (x : ℚ) : |((fl x : ℚ) : ℝ) - (x : ℝ)| ≤ (u : ℝ) * |(x : ℝ)| + (u : ℝ) / 2 ^ 200 := by
  have h : |fl x - x| ≤ u * |x| + u / 2 ^ 200 := by
    refine (fl_error x).trans ?_
    have h1 : (2 : ℚ) ^ (-1075 : ℤ) ≤ 2 ^ (-253 : ℤ) := zpow_le_zpow_right₀ (by norm_num) (by norm_num)
    have e : (2 : ℚ) ^ (-253 : ℤ) = u / 2 ^ 200 := by
      unfold u
      rw [show (-253 : ℤ) = -53 + -200 by norm_num, zpow_add₀ (by norm_num : (2 : ℚ) ≠ 0),
        zpow_neg 2 200, div_eq_mul_inv]
      norm_cast
    have e2 : (2 : ℚ) ^ (-53 : ℤ) = u := rfl
    rw [e] at h1
    rw [e2]
    exact add_le_add_right h1 _
  have : ((|fl x - x| : ℚ) : ℝ) ≤ ((u * |x| + u / 2 ^ 200 : ℚ) : ℝ) := by exact_mod_cast h
  push_cast at this
  exact this

/-- The error of one summand, relative to its weight. -/
theorem termF_error {flog : ℚ → ℚ} (hlog : LogAccurate flog) {pz q px py pz' q' px' py' : ℚ}
    (hz : Rel 1 pz' pz) (hq : Rel 5 q' q) (hx : Rel 5 px' px) (hy : Rel 5 py' py)
    (bz : 1 / 2 ^ 53 ≤ pz) (bq : 1 / 2 ^ 53 ≤ q) (bx : 1 / 2 ^ 53 ≤ px) (bY : 1 / 2 ^ 53 ≤ py)
    (cx : px ≤ 1) (cy : py ≤ 1) :
    |(termF flog pz' q' px' py' : ℝ) - (pz : ℝ) * q * log ((q : ℝ) / (px * py))| ≤
      (pz : ℝ) * q * (u * (26 + 14 * |log ((q : ℝ) / (px * py))|)) := by
  have z0 : 0 < pz := lt_of_lt_of_le (by norm_num) bz
  have q0 : 0 < q := lt_of_lt_of_le (by norm_num) bq
  have x0 : 0 < px := lt_of_lt_of_le (by norm_num) bx
  have y0 : 0 < py := lt_of_lt_of_le (by norm_num) bY
  have hpow : (1 : ℚ) / 2 ^ 240 ≤ 1 / 2 ^ 53 * (1 / 2 ^ 53) := by norm_num
  have hd : Rel 13 (fl (px' * py')) (px * py) :=
    (hx.mul hy (by norm_num) (by norm_num)).fl (by norm_num)
      (hpow.trans (mul_le_mul bx bY (by norm_num) x0.le))
  have hxy1 : px * py ≤ 1 := mul_le_one₀ cx y0.le cy
  have hqd : (1 : ℚ) / 2 ^ 240 ≤ q / (px * py) := by
    rw [le_div_iff₀ (mul_pos x0 y0)]
    calc (1 : ℚ) / 2 ^ 240 * (px * py) ≤ 1 / 2 ^ 240 * 1 := mul_le_mul_of_nonneg_left hxy1 (by norm_num)
      _ ≤ 1 / 2 ^ 53 := by norm_num
      _ ≤ q := bq
  have ha : Rel 21 (fl (q' / fl (px' * py'))) (q / (px * py)) :=
    (hq.div hd (by norm_num) (by norm_num)).fl (by norm_num) hqd
  have hw : Rel 9 (fl (pz' * q')) (pz * q) :=
    (hz.mul hq (by norm_num) (by norm_num)).fl (by norm_num)
      (hpow.trans (mul_le_mul bz bq (by norm_num) z0.le))
  have hqd0 : 0 < q / (px * py) := div_pos q0 (mul_pos x0 y0)
  have hapos := ha.pos (by norm_num) hqd0
  have h1 := hlog _ hapos (representable_fl _)
  have h2 := ha.log (by norm_num) hqd0
  have hwabs := hw.abs (mul_pos z0 q0).le
  have hwR : |((fl (pz' * q') : ℚ) : ℝ) - (pz : ℝ) * q| ≤ 9 * (u : ℝ) * ((pz : ℝ) * q) := by
    have : ((|fl (pz' * q') - pz * q| : ℚ) : ℝ) ≤ (((9 : ℕ) * u * (pz * q) : ℚ) : ℝ) := by
      exact_mod_cast hwabs
    push_cast at this
    exact this
  unfold termF
  have hfin := fl_abs_real (fl (pz' * q') * flog (fl (q' / fl (px' * py'))))
  push_cast at hfin h2
  generalize ((fl (pz' * q') : ℚ) : ℝ) = w' at *
  generalize ((flog (fl (q' / fl (px' * py'))) : ℚ) : ℝ) = f at *
  generalize log ((fl (q' / fl (px' * py')) : ℚ) : ℝ) = la at *
  generalize log ((q : ℝ) / (px * py)) = ell at *
  generalize ((fl (fl (pz' * q') * flog (fl (q' / fl (px' * py')))) : ℚ) : ℝ) = t at *
  have hwlow : (1 : ℝ) / 2 ^ 200 ≤ (pz : ℝ) * q := by
    have : (1 : ℚ) / 2 ^ 200 ≤ pz * q :=
      le_trans (by norm_num) (mul_le_mul bz bq (by norm_num) z0.le)
    have : ((1 / 2 ^ 200 : ℚ) : ℝ) ≤ ((pz * q : ℚ) : ℝ) := by exact_mod_cast this
    push_cast at this
    exact this
  generalize (pz : ℝ) * q = w at *
  have hu := uR_pos
  have hue := uR_eq
  have hw0 : 0 < w := lt_of_lt_of_le (by positivity) hwlow
  have hell := abs_nonneg ell
  have hla : |la| ≤ |ell| + 22 * u := by
    have := abs_add_le (la - ell) ell
    rw [sub_add_cancel] at this
    linarith
  have hfl : |f - ell| ≤ 23 * u + 2 * u * |ell| := by
    have h3 := abs_add_le (f - la) (la - ell)
    rw [sub_add_sub_cancel] at h3
    have h4 : 2 * (u : ℝ) * |la| ≤ 2 * u * (|ell| + 22 * u) := mul_le_mul_of_nonneg_left hla (by positivity)
    have h5 : 2 * (u : ℝ) * (22 * u) ≤ u := by nlinarith
    linarith
  have hf : |f| ≤ |ell| + (23 * u + 2 * u * |ell|) := by
    have h3 := abs_add_le (f - ell) ell
    rw [sub_add_cancel] at h3
    linarith
  have hf' : |f| ≤ 3 / 2 * |ell| + 1 / 9 := by
    have : 2 * (u : ℝ) * |ell| ≤ 1 / 2 * |ell| := mul_le_mul_of_nonneg_right (by rw [hue]; norm_num) hell
    have : 23 * (u : ℝ) ≤ 1 / 9 := by rw [hue]; norm_num
    linarith
  have hf9 : |f| ≤ 10 / 9 * |ell| + 1 / 9 := by
    have : 2 * (u : ℝ) * |ell| ≤ 1 / 9 * |ell| := mul_le_mul_of_nonneg_right (by rw [hue]; norm_num) hell
    have : 23 * (u : ℝ) ≤ 1 / 9 := by rw [hue]; norm_num
    linarith
  have hprod : |w' * f - w * ell| ≤ w * (u * (24 + 12 * |ell|)) := by
    have e : w' * f - w * ell = (w' - w) * f + w * (f - ell) := by ring
    rw [e]
    refine (abs_add_le _ _).trans ?_
    rw [abs_mul, abs_mul, abs_of_pos hw0]
    have a1 : |w' - w| * |f| ≤ 9 * u * w * (10 / 9 * |ell| + 1 / 9) :=
      mul_le_mul hwR hf9 (abs_nonneg _) (by positivity)
    have a2 : w * |f - ell| ≤ w * (23 * u + 2 * u * |ell|) := mul_le_mul_of_nonneg_left hfl hw0.le
    nlinarith
  have hw'f : |w' * f| ≤ w * (2 * |ell| + 1) := by
    rw [abs_mul]
    have a1 : |w'| ≤ 4 / 3 * w := by
      have h3 := abs_add_le (w' - w) w
      rw [sub_add_cancel, abs_of_pos hw0] at h3
      have : 9 * (u : ℝ) * w ≤ 1 / 3 * w := mul_le_mul_of_nonneg_right (by rw [hue]; norm_num) hw0.le
      linarith
    calc |w'| * |f| ≤ 4 / 3 * w * (3 / 2 * |ell| + 1 / 9) := mul_le_mul a1 hf' (abs_nonneg _) (by positivity)
      _ ≤ w * (2 * |ell| + 1) := by nlinarith
  have hround : |t - w' * f| ≤ u * (w * (2 * |ell| + 1)) + u * w := by
    refine hfin.trans (add_le_add (mul_le_mul_of_nonneg_left hw'f hu.le) ?_)
    have : (u : ℝ) / 2 ^ 200 = u * (1 / 2 ^ 200) := by ring
    rw [this]
    exact mul_le_mul_of_nonneg_left hwlow hu.le
  have := abs_add_le (t - w' * f) (w' * f - w * ell)
  rw [sub_add_sub_cancel] at this
  nlinarith

/-- Sums of rounded summands: each summand has an error of at most `κ` times its weight, and every
addition that takes place adds a rounding error. -/
theorem fold_error {α : Type} (step : ℚ → α → ℚ) (e w : α → ℝ) (active : α → Prop)
    [DecidablePred active] (t : α → ℚ) (κ L : ℝ) (hκ : 0 ≤ κ) (hL : 0 ≤ L)
    (l : List α)
    (hact : ∀ a ∈ l, active a → ∀ s, step s a = fl (s + t a))
    (hidle : ∀ a ∈ l, ¬ active a → ∀ s, Representable s → step s a = s)
    (hidle0 : ∀ a ∈ l, ¬ active a → e a = 0)
    (hw : ∀ a ∈ l, 0 ≤ w a)
    (ht : ∀ a ∈ l, active a → |(t a : ℝ) - e a| ≤ κ * w a)
    (he : ∀ a ∈ l, active a → |e a| ≤ L * w a)
    (s : ℚ) (x E : ℝ) (W : ℝ) (hs : Representable s) (hsx : |(s : ℝ) - x| ≤ E)
    (hx : |x| ≤ L * W) (hW : W + (l.map w).sum ≤ 1) (hW0 : 0 ≤ W)
    (hsmall : E + κ * (l.map w).sum + (l.countP (fun a => decide (active a))) * (u * (L + 2)) ≤ 1) :
    Representable (l.foldl step s) ∧
    |((l.foldl step s : ℚ) : ℝ) - (x + (l.map e).sum)| ≤
      E + κ * (l.map w).sum + (l.countP (fun a => decide (active a))) * (u * (L + 2)) := by
  induction l generalizing s x E W with
  | nil => simpa using ⟨hs, hsx⟩
  | cons a l ih =>
    have hu := uR_pos
    have hwa := hw a (by simp)
    have hwl : 0 ≤ (l.map w).sum := List.sum_nonneg (by
      intro y hy
      obtain ⟨b, hb, rfl⟩ := List.mem_map.1 hy
      exact hw b (by simp [hb]))
    simp only [List.map_cons, List.sum_cons, List.foldl_cons] at *
    have ih' := ih (fun b hb => hact b (by simp [hb])) (fun b hb => hidle b (by simp [hb]))
      (fun b hb => hidle0 b (by simp [hb])) (fun b hb => hw b (by simp [hb]))
      (fun b hb => ht b (by simp [hb])) (fun b hb => he b (by simp [hb]))
    by_cases h : active a
    · rw [hact a (by simp) h]
      rw [List.countP_cons_of_pos (by simpa using h)] at hsmall ⊢
      push_cast at hsmall ⊢
      have h1 := ht a (by simp) h
      have h2 := he a (by simp) h
      have hcp : (0 : ℝ) ≤ (l.countP (fun a => decide (active a))) * (u * (L + 2)) := by positivity
      have hE : 0 ≤ E := (abs_nonneg _).trans hsx
      have hmid : |(s : ℝ) + t a - (x + e a)| ≤ E + κ * w a := by
        rw [show (s : ℝ) + t a - (x + e a) = ((s : ℝ) - x) + (t a - e a) by ring]
        exact (abs_add_le _ _).trans (add_le_add hsx h1)
      have hsmall2 : E + κ * w a + u * (L + 2) ≤ 1 := by
        have : 0 ≤ κ * (l.map w).sum := mul_nonneg hκ hwl
        nlinarith
      have hxe : |x + e a| ≤ L * (W + w a) := by
        refine (abs_add_le _ _).trans ?_
        rw [mul_add]; exact add_le_add hx h2
      have hxL : |x + e a| ≤ L := by
        refine hxe.trans ?_
        calc L * (W + w a) ≤ L * 1 := mul_le_mul_of_nonneg_left (by linarith) hL
          _ = L := mul_one _
      have hbig : |(s : ℝ) + t a| ≤ L + 1 := by
        have := abs_add_le ((s : ℝ) + t a - (x + e a)) (x + e a)
        rw [sub_add_cancel] at this
        have : (0 : ℝ) ≤ u * (L + 2) := by positivity
        linarith
      have hr := fl_abs_real (s + t a)
      push_cast at hr
      have hr2 : |((fl (s + t a) : ℚ) : ℝ) - (s + t a)| ≤ u * (L + 2) := by
        refine hr.trans ?_
        have a1 : (u : ℝ) * |(s : ℝ) + t a| ≤ u * (L + 1) := mul_le_mul_of_nonneg_left hbig hu.le
        have a2 : (u : ℝ) / 2 ^ 200 ≤ u := by
          rw [div_le_iff₀ (by positivity)]
          nlinarith [show (1 : ℝ) ≤ 2 ^ 200 by norm_num]
        linarith
      have hnew : |((fl (s + t a) : ℚ) : ℝ) - (x + e a)| ≤ E + κ * w a + u * (L + 2) := by
        have := abs_add_le (((fl (s + t a) : ℚ) : ℝ) - (s + t a)) ((s : ℝ) + t a - (x + e a))
        rw [sub_add_sub_cancel] at this
        linarith
      obtain ⟨r1, r2⟩ := ih' (fl (s + t a)) (x + e a) (E + κ * w a + u * (L + 2)) (W + w a)
        (representable_fl _) hnew hxe (by linarith) (by linarith) (by nlinarith)
      refine ⟨r1, ?_⟩
      rw [← add_assoc]
      refine r2.trans (le_of_eq ?_)
      ring
    · rw [hidle a (by simp) h s hs, hidle0 a (by simp) h]
      rw [List.countP_cons_of_neg (by simpa using h)] at hsmall ⊢
      have hκw : 0 ≤ κ * w a := mul_nonneg hκ hwa
      obtain ⟨r1, r2⟩ := ih' s x E W hs hsx hx (by linarith) hW0 (by nlinarith)
      refine ⟨r1, ?_⟩
      rw [zero_add]
      exact r2.trans (by nlinarith)

end Mbtk.Fp
