import Verif.Fp.GSession
import Mathlib.Analysis.Complex.ExponentialBounds
/-!
# The G statistic in floating point: error bound, and sessions of the unoptimised test (C83)
-/
namespace Mbtk.Fp
open Mbtk Mbtk.Stats Mbtk.Stats.Spec
open Mbtk.ADTree (Data)
open Mbtk.MB (Answer)
open Real (log)

/-! ## Specification -/

/-- The error allowed for the G statistic: twice the rows, times the number of value combinations that
occur (plus a constant), times the logarithm of the number of rows (plus a constant), in units of
2⁻⁵³. (Specification.) -/
noncomputable def gError (D : Data) (X Y : Nat) (Z : List Nat) : ℝ :=
  2 * D.nrows * (((observed D (X :: Y :: Z)).card + 15) * (log D.nrows + 2)) / 2 ^ 53

/-! ## The error of the conditional mutual information -/

theorem log_rows {n : Nat} (hn : n ≠ 0) (h : n ≤ 2 ^ 40) : 0 ≤ log n ∧ log n ≤ 28 := by
  have h1 : (1 : ℝ) ≤ n := by exact_mod_cast Nat.one_le_iff_ne_zero.2 hn
  refine ⟨Real.log_nonneg h1, ?_⟩
  have h2 : (n : ℝ) ≤ 2 ^ 40 := by exact_mod_cast h
  have h3 : log n ≤ log (2 ^ 40) := Real.log_le_log (by linarith) h2
  rw [Real.log_pow] at h3
  have h4 := Real.log_two_lt_d9
  push_cast at h3
  linarith

theorem cell_log {n : Nat} {c : ℚ × ℚ × ℚ × ℚ} (hn : n ≠ 0) (h : DataCell n c) :
    |log ((c.2.1 : ℝ) / (c.2.2.1 * c.2.2.2))| ≤ log n := by
  obtain ⟨z, q, x, y⟩ := c
  obtain ⟨_, h2, h3, h4, h5, h6, _, h8, h9⟩ := h
  simp only at *
  have hnp : (0 : ℝ) < n := by exact_mod_cast Nat.pos_of_ne_zero hn
  have hnq : (0 : ℚ) < 1 / n := by
    have : (0 : ℚ) < n := by exact_mod_cast Nat.pos_of_ne_zero hn
    positivity
  have x0 : 0 < x := lt_of_lt_of_le hnq h3
  have y0 : 0 < y := lt_of_lt_of_le hnq h4
  have q0 : 0 < q := lt_of_lt_of_le hnq h2
  have up : q / (x * y) ≤ n := by
    rw [div_le_iff₀ (mul_pos x0 y0)]
    have h4' : 1 ≤ n * y := by
      rw [div_le_iff₀ (by exact_mod_cast Nat.pos_of_ne_zero hn)] at h4
      linarith
    calc q ≤ x * 1 := by rw [mul_one]; exact h8
      _ ≤ x * (n * y) := mul_le_mul_of_nonneg_left h4' x0.le
      _ = n * (x * y) := by ring
  have lo : 1 / (n : ℚ) ≤ q / (x * y) := by
    rw [le_div_iff₀ (mul_pos x0 y0)]
    calc 1 / (n : ℚ) * (x * y) ≤ 1 / n * 1 := mul_le_mul_of_nonneg_left (mul_le_one₀ h5 y0.le h6) hnq.le
      _ ≤ q := by rw [mul_one]; exact h2
  have upR : ((q / (x * y) : ℚ) : ℝ) ≤ n := by exact_mod_cast up
  have loR : (1 / n : ℝ) ≤ ((q / (x * y) : ℚ) : ℝ) := by
    have : ((1 / (n : ℚ) : ℚ) : ℝ) ≤ ((q / (x * y) : ℚ) : ℝ) := by exact_mod_cast lo
    push_cast at this ⊢
    exact this
  push_cast at upR loR
  have pos : (0 : ℝ) < (q : ℝ) / (x * y) := lt_of_lt_of_le (by positivity) loR
  rw [abs_le]
  constructor
  · have := Real.log_le_log (by positivity) loR
    rw [one_div, Real.log_inv] at this
    exact this
  · exact Real.log_le_log pos upR

theorem fold_zip {α β : Type} {S : Type} (f : S → α → S) (l' : List α) (l : List β)
    (h : l'.length = l.length) (s : S) :
    l'.foldl f s = (l'.zip l).foldl (fun s p => f s p.1) s := by
  induction l' generalizing l s with
  | nil => rfl
  | cons a l' ih =>
    cases l with
    | nil => simp at h
    | cons b l => simpa using ih l (by simpa using h) (f s a)

theorem zip_snd {α β : Type} {l' : List α} {l : List β} (h : l'.length = l.length) :
    (l'.zip l).map Prod.snd = l := List.map_snd_zip h.ge

theorem card_observed_le (D : Data) (cols : List Nat) : (observed D cols).card ≤ D.nrows := by
  unfold observed
  exact Finset.card_image_le.trans (by simp)

theorem cmi_error {flog : ℚ → ℚ} (hlog : LogAccurate flog) {D : Data} (hr : D.nrows ≠ 0)
    (h40 : D.nrows ≤ 2 ^ 40) {X Y : Nat} {Z : List Nat} {t' t : Tables} (hg : GoodTables D X Y Z t)
    (hn : TablesNear t' t) :
    |((cmiF flog t' : ℚ) : ℝ) - cmi D X Y Z| ≤ (u : ℝ) * (26 + 14 * log D.nrows) +
      (observed D (X :: Y :: Z)).card * (u * (log D.nrows + 2)) ∧ cmi D X Y Z ≤ log D.nrows := by
  obtain ⟨L0, L28⟩ := log_rows hr h40
  set L := log D.nrows with hL
  have hu := uR_pos
  have hcn := cells_near hn
  have hlen := hcn.length_eq
  have hpair : ∀ p ∈ (cells t').zip (cells t), CellNear p.1 p.2 := by
    rintro ⟨a, b⟩ hp
    exact (List.forall₂_iff_zip.1 hcn).2 hp
  have hmem : ∀ p ∈ (cells t').zip (cells t), p.2 ∈ cells t := fun p hp =>
    (List.of_mem_zip (a := p.1) (b := p.2) hp).2
  have hsnd : ∀ g : ℚ × ℚ × ℚ × ℚ → ℝ, ((cells t').zip (cells t)).map (fun p => g p.2) =
      (cells t).map g := by
    intro g
    conv_rhs => rw [← zip_snd hlen, List.map_map]
    rfl
  have hcount : ((cells t').zip (cells t)).countP (fun p => decide (Active p.2)) =
      (observed D (X :: Y :: Z)).card := by
    rw [← cells_count hg]
    conv_rhs => rw [← zip_snd hlen, List.countP_map]
    rfl
  have hdata : ∀ p ∈ (cells t').zip (cells t), Active p.2 → DataCell D.nrows p.2 :=
    fun p hp ha => good_cells hg p.2 (hmem p hp) ha
  have hz : ∀ {k : ℕ}, k ≤ 1000 → ∀ {a b : ℚ}, Near k a b → b ≠ 0 → a ≠ 0 :=
    fun hk _ _ h hb ha => hb ((h.zero_iff hk).1 ha)
  have hrel : ∀ {k : ℕ} {a b : ℚ}, Near k a b → b ≠ 0 → 1 / 2 ^ 53 ≤ b ∧ Rel k a b := by
    intro k a b h hb
    rcases h with ⟨_, h⟩ | h
    · exact absurd h hb
    · exact h
  have hweight : ∀ c : ℚ × ℚ × ℚ × ℚ, Active c → DataCell D.nrows c → (0 : ℝ) ≤ (c.1 : ℝ) * c.2.1 := by
    intro c _ hc
    have hnq : (0 : ℚ) ≤ 1 / D.nrows := by positivity
    have h1 : (0 : ℝ) ≤ (c.1 : ℝ) := by exact_mod_cast hnq.trans hc.z
    have h2 : (0 : ℝ) ≤ (c.2.1 : ℝ) := by exact_mod_cast hnq.trans hc.q
    exact mul_nonneg h1 h2
  have hval : ∀ p ∈ (cells t').zip (cells t), Active p.2 →
      |cellValue p.2| ≤ L * (if Active p.2 then (p.2.1 : ℝ) * p.2.2.1 else 0) := by
    intro p hp ha
    rw [if_pos ha]
    unfold cellValue
    rw [if_pos ha, abs_mul, abs_of_nonneg (hweight _ ha (hdata p hp ha)), mul_comm]
    exact mul_le_mul_of_nonneg_right (cell_log hr (hdata p hp ha)) (hweight _ ha (hdata p hp ha))
  have hM : ((observed D (X :: Y :: Z)).card : ℝ) ≤ 2 ^ 40 := by
    exact_mod_cast (card_observed_le D _).trans h40
  have hκ : (0 : ℝ) ≤ u * (26 + 14 * L) := by positivity
  have hW : (((cells t').zip (cells t)).map (fun p => if Active p.2 then (p.2.1 : ℝ) * p.2.2.1 else 0)).sum = 1 := by
    rw [hsnd (fun c => if Active c then (c.1 : ℝ) * c.2.1 else 0)]
    exact cells_weight hr hg
  have hsmall : (u : ℝ) * (26 + 14 * L) + (observed D (X :: Y :: Z)).card * (u * (L + 2)) ≤ 1 := by
    have h1 : (u : ℝ) * (26 + 14 * L) ≤ u * (26 + 14 * 28) := mul_le_mul_of_nonneg_left (by linarith) hu.le
    have h2 : ((observed D (X :: Y :: Z)).card : ℝ) * (u * (L + 2)) ≤ 2 ^ 40 * (u * (28 + 2)) :=
      mul_le_mul hM (mul_le_mul_of_nonneg_left (by linarith) hu.le) (by positivity) (by norm_num)
    rw [uR_eq] at h1 h2 ⊢
    norm_num at h1 h2 ⊢
    linarith
  have key := fold_error (fun s (p : (ℚ × ℚ × ℚ × ℚ) × (ℚ × ℚ × ℚ × ℚ)) => cmiStepF flog s p.1)
    (fun p => cellValue p.2) (fun p => if Active p.2 then (p.2.1 : ℝ) * p.2.2.1 else 0)
    (fun p => Active p.2) (fun p => termF flog p.1.1 p.1.2.1 p.1.2.2.1 p.1.2.2.2)
    (u * (26 + 14 * L)) L hκ L0 ((cells t').zip (cells t)) ?_ ?_ ?_ ?_ ?_ hval 0 0 0 0 ?_ ?_ ?_ ?_ ?_ ?_
  · obtain ⟨_, key⟩ := key
    rw [hsnd cellValue, cells_value hg, hW, hcount, zero_add, mul_one, zero_add] at key
    refine ⟨?_, ?_⟩
    · rw [cmiF_cells, fold_zip _ _ _ hlen]
      have h1 := abs_abs_sub_abs_le_abs_sub
        (((((cells t').zip (cells t)).foldl (fun s p => cmiStepF flog s p.1) 0 : ℚ)) : ℝ) (cmi D X Y Z)
      rw [abs_of_nonneg (cmi_nonneg D X Y Z)] at h1
      push_cast
      exact h1.trans key
    · rw [← cells_value hg, ← hsnd cellValue]
      have h2 : (((cells t').zip (cells t)).map (fun p => cellValue p.2)).sum ≤
          (((cells t').zip (cells t)).map (fun p => L * (if Active p.2 then (p.2.1 : ℝ) * p.2.2.1 else 0))).sum := by
        refine List.sum_le_sum (fun p hp => ?_)
        by_cases ha : Active p.2
        · exact (le_abs_self _).trans (hval p hp ha)
        · simp [cellValue, ha]
      rw [List.sum_map_mul_left, hW, mul_one] at h2
      exact h2
  · intro p hp ha s
    have hc := hpair p hp
    unfold cmiStepF
    rw [if_neg]
    rintro (h | h | h)
    · exact hz (by norm_num) hc.q ha.2.1 h
    · exact hz (by norm_num) hc.x ha.2.2.1 h
    · exact hz (by norm_num) hc.y ha.2.2.2 h
  · intro p hp ha s hs
    have hc := hpair p hp
    unfold cmiStepF
    by_cases h0 : p.1.2.1 = 0 ∨ p.1.2.2.1 = 0 ∨ p.1.2.2.2 = 0
    · rw [if_pos h0]
    · rw [if_neg h0]
      have hz0 : p.1.1 = 0 := by
        by_contra hne
        apply ha
        simp only [not_or] at h0
        refine ⟨fun e => hne ((hc.z.1.zero_iff (by norm_num)).2 e),
          fun e => h0.1 ((hc.q.zero_iff (by norm_num)).2 e),
          fun e => h0.2.1 ((hc.x.zero_iff (by norm_num)).2 e),
          fun e => h0.2.2 ((hc.y.zero_iff (by norm_num)).2 e)⟩
      unfold termF
      rw [hz0, zero_mul, fl_zero, zero_mul, fl_zero, add_zero]
      exact fl_representable hs
  · intro p hp ha
    simp [cellValue, ha]
  · intro p hp
    by_cases ha : Active p.2
    · rw [if_pos ha]; exact hweight _ ha (hdata p hp ha)
    · rw [if_neg ha]
  · intro p hp ha
    have hc := hpair p hp
    obtain ⟨b1, r1⟩ := hrel hc.z.1 ha.1
    obtain ⟨b2, r2⟩ := hrel hc.q ha.2.1
    obtain ⟨b3, r3⟩ := hrel hc.x ha.2.2.1
    obtain ⟨b4, r4⟩ := hrel hc.y ha.2.2.2
    have hd := hdata p hp ha
    have he := termF_error hlog r1 r2 r3 r4 b1 b2 b3 b4 hd.x1 hd.y1
    rw [if_pos ha]
    have hcv : cellValue p.2 = (p.2.1 : ℝ) * p.2.2.1 * log ((p.2.2.1 : ℝ) / (p.2.2.2.1 * p.2.2.2.2)) := by
      unfold cellValue; rw [if_pos ha]
    rw [hcv]
    refine he.trans ?_
    rw [mul_comm]
    refine mul_le_mul_of_nonneg_right (mul_le_mul_of_nonneg_left ?_ hu.le) (hweight _ ha hd)
    have := cell_log hr hd
    linarith
  · exact ⟨0, 0, by norm_num, by norm_num, by simp⟩
  · simp
  · simp
  · rw [hW]; norm_num
  · exact le_refl _
  · rw [hW, hcount]
    simpa using hsmall

/-- The error of the G statistic. -/
theorem gValue_error {flog : ℚ → ℚ} (hlog : LogAccurate flog) {D : Data} (hr : D.nrows ≠ 0)
    (h40 : D.nrows ≤ 2 ^ 40) {X Y : Nat} {Z : List Nat} {t' t : Tables} (hg : GoodTables D X Y Z t)
    (hn : TablesNear t' t) :
    |((gValueF flog D.nrows t' : ℚ) : ℝ) - G D X Y Z| ≤ gError D X Y Z ∧
      0 ≤ gValueF flog D.nrows t' := by
  obtain ⟨L0, L28⟩ := log_rows hr h40
  obtain ⟨he, hle⟩ := cmi_error hlog hr h40 hg hn
  set L := log D.nrows with hL
  have hu := uR_pos
  have hc0 : 0 ≤ cmiF flog t' := abs_nonneg _
  have h2n : fl ((2 * D.nrows : ℕ) : ℚ) = ((2 * D.nrows : ℕ) : ℚ) := fl_nat (by
    calc 2 * D.nrows ≤ 2 * 2 ^ 40 := Nat.mul_le_mul_left 2 h40
      _ ≤ 2 ^ 53 := by norm_num)
  refine ⟨?_, ?_⟩
  · unfold gValueF
    rw [h2n]
    have hr2 := fl_abs_real (((2 * D.nrows : ℕ) : ℚ) * cmiF flog t')
    push_cast at hr2 ⊢
    have hcR : (0 : ℝ) ≤ ((cmiF flog t' : ℚ) : ℝ) := by exact_mod_cast hc0
    generalize ((cmiF flog t' : ℚ) : ℝ) = c at *
    generalize ((fl (2 * (D.nrows : ℚ) * cmiF flog t') : ℚ) : ℝ) = g at *
    have hn1 : (1 : ℝ) ≤ D.nrows := by exact_mod_cast Nat.one_le_iff_ne_zero.2 hr
    have hM : ((observed D (X :: Y :: Z)).card : ℝ) ≤ 2 ^ 40 := by
      exact_mod_cast (card_observed_le D _).trans h40
    unfold Stats.Spec.G gError
    rw [← hL]
    generalize ((observed D (X :: Y :: Z)).card : ℝ) = M at *
    have hM0 : 0 ≤ (u : ℝ) * (26 + 14 * L) + M * (u * (L + 2)) := (abs_nonneg _).trans he
    generalize cmi D X Y Z = I at *
    generalize (D.nrows : ℝ) = n at *
    rw [abs_of_nonneg (show (0 : ℝ) ≤ 2 * n * c from mul_nonneg (by linarith) hcR)] at hr2
    have hsmall : (u : ℝ) * (26 + 14 * L) + M * (u * (L + 2)) ≤ 1 := by
      have h1 : (u : ℝ) * (26 + 14 * L) ≤ u * (26 + 14 * 28) := mul_le_mul_of_nonneg_left (by linarith) hu.le
      have h2 : M * (u * (L + 2)) ≤ 2 ^ 40 * (u * (28 + 2)) :=
        mul_le_mul hM (mul_le_mul_of_nonneg_left (by linarith) hu.le) (by positivity) (by norm_num)
      rw [uR_eq] at h1 h2 ⊢
      norm_num at h1 h2 ⊢
      linarith
    have hcup : c ≤ L + 1 := by
      have := (abs_le.1 he).2
      linarith
    have h1 : |2 * n * c - 2 * n * I| ≤ 2 * n * ((u : ℝ) * (26 + 14 * L) + M * (u * (L + 2))) := by
      rw [← mul_sub, abs_mul, abs_of_pos (by linarith)]
      exact mul_le_mul_of_nonneg_left he (by linarith)
    have h2 : |g - 2 * n * c| ≤ 2 * n * (u * (L + 2)) := by
      refine hr2.trans ?_
      have a1 : (u : ℝ) * (2 * n * c) ≤ u * (2 * n * (L + 1)) :=
        mul_le_mul_of_nonneg_left (mul_le_mul_of_nonneg_left hcup (by linarith)) hu.le
      have a2 : (u : ℝ) / 2 ^ 200 ≤ 2 * n * u := by
        rw [div_le_iff₀ (by positivity)]
        have : (1 : ℝ) ≤ 2 * n * 2 ^ 200 := by nlinarith [show (1 : ℝ) ≤ 2 ^ 200 by norm_num]
        nlinarith
      nlinarith
    have h3 := abs_add_le (g - 2 * n * c) (2 * n * c - 2 * n * I)
    rw [sub_add_sub_cancel] at h3
    have h4 : 2 * n * ((M + 15) * (L + 2)) / 2 ^ 53 = 2 * n * (u * ((M + 15) * (L + 2))) := by
      rw [uR_eq]; norm_num; ring
    rw [h4]
    have h5 : 2 * n * (u * (L + 2)) + 2 * n * ((u : ℝ) * (26 + 14 * L) + M * (u * (L + 2))) =
        2 * n * (u * ((M + 15) * (L + 2) - 2)) := by ring
    have h6 : 2 * n * (u * ((M + 15) * (L + 2) - 2)) ≤ 2 * n * (u * ((M + 15) * (L + 2))) :=
      mul_le_mul_of_nonneg_left (mul_le_mul_of_nonneg_left (by linarith) hu.le) (by linarith)
    linarith
  · unfold gValueF
    rw [h2n]
    exact fl_nonneg (mul_nonneg (by positivity) hc0)

/-! ## The unoptimised test -/

theorem unoptCallF_near {flog : ℚ → ℚ} (hlog : LogAccurate flog) {D : Data} {cfg : Config}
    (hr : D.nrows ≠ 0) (h40 : D.nrows ≤ 2 ^ 40) {c : Call}
    (hd : Declared D (c.1 :: c.2.1 :: c.2.2)) (hn : (c.1 :: c.2.1 :: c.2.2).Nodup) {b : Base}
    (hb : UnoptOk D b) :
    Ok (unoptCallF flog D cfg c) b (fun a b' =>
      ∃ r, NearEntry D cfg (gError D c.1 c.2.1 c.2.2) (b.counter + 1) c.1 c.2.1 c.2.2 r ∧
      AnswerOf D cfg c.1 c.2.1 c.2.2 r a ∧ UnoptOk D b' ∧ b'.counter = b.counter + 1 ∧
      b'.results = b.results ++ [r]) := by
  unfold unoptCallF
  have h : Ok (unoptTestF flog D cfg c.1 c.2.1 c.2.2) b (fun r b' =>
      ∃ g : ℝ, |g - G D c.1 c.2.1 c.2.2| ≤ gError D c.1 c.2.1 c.2.2 ∧
      r = makeResult cfg D.nrows b.counter c.1 c.2.1 c.2.2 g (dofOf D cfg.kind c.1 c.2.1 c.2.2) ∧
      (CacheOk D b'.cache ∧ b'.counter = b.counter ∧ b'.results = b.results)) := by
    obtain ⟨cache', t, e, hg, hc, hs⟩ := unoptTables_ok hr hn cfg.kind hb
    obtain ⟨t', e2, h2⟩ := calculateDof_ok cfg.kind hd hn hc (fun _ => hg) hs
    obtain ⟨⟨cacheF, tF⟩, eF, hcF, hnear⟩ := unoptTables_sim (h40.trans (by norm_num)) c.1 c.2.1 c.2.2
      cfg.kind b.cache (cache', t) e
    simp only at hcF hnear
    subst hcF
    obtain ⟨⟨dofF, tF'⟩, eF2, hdF, hnear2⟩ := calculateDof_sim D cfg.kind cacheF c.1 c.2.1 c.2.2 hnear _ e2
    simp only at hdF hnear2
    subst hdF
    refine ⟨_, { b with cache := cacheF }, ?_, _, (gValue_error hlog hr h40 (h2 hg) hnear2).1, rfl,
      hc, rfl, rfl⟩
    unfold unoptTestF
    rw [eF]
    show (calculateDof D cfg.kind cacheF c.1 c.2.1 c.2.2 tF >>= _) = _
    rw [eF2]
    rfl
  refine (call_near (P := fun b' => CacheOk D b'.cache ∧ b'.counter = b.counter
    ∧ b'.results = b.results) h).mono ?_
  rintro a b' ⟨r, b1, he, ha, ⟨h1, h2, h3⟩, rfl⟩
  refine ⟨r, he, ha, h1, ?_, ?_⟩
  · simp [Base.log, h2]
  · simp [Base.log, h3]

/-- **C83, sessions.**  On every dataset of 1 to 2⁴⁰ rows, with a logarithm that is accurate to one unit
in the last place and an arbitrary distribution function: for every history of valid calls nothing is
raised, the log has one entry per call, numbered from 1, whose statistic differs from the exact G
by at most `gError`; degrees of freedom and sufficiency are exactly right; p-value, decision and
answer are those of the logged statistic. -/
theorem float_unoptimized_session {flog : ℚ → ℚ} (hlog : LogAccurate flog) (D : Data) (cfg : Config)
    (hr : D.nrows ≠ 0) (h40 : D.nrows ≤ 2 ^ 40) (calls : List Call)
    (hv : ∀ c ∈ calls, ValidCall D c) :
    Ok (mapList (unoptCallF flog D cfg) calls) {} (fun answers b =>
      IsRun D cfg (fun c => gError D c.1 c.2.1 c.2.2) 0 calls answers b.results ∧
      b.counter = calls.length) := by
  have := session_near (D := D) (cfg := cfg) (ε := fun c => gError D c.1 c.2.1 c.2.2)
    (unoptCallF flog D cfg) id (fun _ b => UnoptOk D b) (ValidCall D)
    (fun _ c s hc hs => unoptCallF_near hlog hr h40 hc.2 hc.1 hs) calls [] {} hv
    (by intro S vars pw hg; simp [dictGet] at hg)
  refine this.mono ?_
  rintro as b ⟨rs, h1, _, h3, h4⟩
  have e4 : b.results = _ := h4
  have e3 : b.counter = _ := h3
  refine ⟨?_, by simpa using e3⟩
  rw [e4]
  simpa using h1

/-- **C83, decisions.**  If the distribution function is monotone and in no call the threshold lies
within `gError` of the statistic, rounding changes no answer: the test with `float`s returns the answers
that the exact one returns (C31). -/
theorem float_unoptimized_answers {flog : ℚ → ℚ} (hlog : LogAccurate flog) (D : Data) (cfg : Config)
    (hr : D.nrows ≠ 0) (h40 : D.nrows ≤ 2 ^ 40) (hmono : ∀ k, Monotone (fun g => cfg.cdf g k))
    (calls : List Call) (hv : ∀ c ∈ calls, ValidCall D c)
    (hc : ∀ c ∈ calls, Clear D cfg (gError D c.1 c.2.1 c.2.2) c) :
    ∃ answers b b', mapList (unoptCallF flog D cfg) calls {} = .ok (answers, b) ∧
      mapList (unoptCall D cfg) calls {} = .ok (answers, b') ∧ AreAnswers D cfg calls answers := by
  obtain ⟨as, b, e, hrun, _⟩ := float_unoptimized_session hlog D cfg hr h40 calls hv
  obtain ⟨as', b', e', ha', _⟩ := unoptimized_session D cfg hr calls hv
  have ha := run_answers hmono hrun hc
  rw [AreAnswers.unique ha' ha] at e'
  exact ⟨as, b, b', e, e', ha⟩

end Mbtk.Fp
