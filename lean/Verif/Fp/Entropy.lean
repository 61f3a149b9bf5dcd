import Verif.Fp.AdTest
/-!
# Joint entropies in floating point (C85)
-/
namespace Mbtk.Fp
open Mbtk Mbtk.Stats Mbtk.Stats.Spec
open Mbtk.ADTree (Data)
open Mbtk.ADTree.Spec (rowsWith)
open Real (log)

/-! ## Specification -/

/-- The library's sum of a list of `float`s: relative to the sum of the absolute values, it is off by at
most two roundings per element.  Adding from left to right meets this (`leftSum_accurate`), and so does
the compensated sum of recent Pythons. (Specification.) -/
def SumAccurate (fsum : List ℚ → ℚ) : Prop :=
  ∀ l : List ℚ, (∀ x ∈ l, Representable x) → l.length ≤ 2 ^ 40 →
    |fsum l - l.sum| ≤ 2 * (l.length : ℚ) * u * (l.map (fun x => |x|)).sum

/-- The error allowed for a joint entropy. (Specification.) -/
noncomputable def hError (D : Data) (cols : List Nat) : ℝ :=
  ((2 * (observed D cols).card + 6) * (log D.nrows + 1)) / 2 ^ 53

/-! ## Model -/

/-- The list in `expected_value(lambda v, p: math.log(p))`: PMF.py 135-136, G_test__with_dcMI.py 110;
`math.log` raises `ValueError` unless its argument is positive. -/
def entropyTermsF (flog : ℚ → ℚ) : List (Key × ℚ) → Except Err (List ℚ)
  | [] => .ok []
  | (_, p) :: rest =>
    if p ≤ 0 then .error .valueError
    else do
      let r ← entropyTermsF flog rest
      .ok (fl (p * flog p) :: r)

/-- `- pmf.expected_value(lambda v, p: math.log(p))`: G_test__with_dcMI.py 110. -/
def entropyF (flog : ℚ → ℚ) (fsum : List ℚ → ℚ) (pmf : PMF) : Except Err ℚ := do
  let terms ← entropyTermsF flog pmf.probabilities
  .ok (-(fsum terms))

/-- Adding from left to right, beginning with 0. (Python itself.) -/
def leftSum (l : List ℚ) : ℚ := l.foldl (fun s x => fl (s + x)) 0

/-! ## Left-to-right sums -/

theorem representable_zero : Representable (0 : ℚ) := ⟨0, 0, by norm_num, by norm_num, by simp⟩

/-- Adding two `float`s never underflows. -/
theorem fl_add_rel {x y : ℚ} (hx : Representable x) (hy : Representable y) :
    |fl (x + y) - (x + y)| ≤ u * |x + y| := by
  by_cases h : (2 : ℚ) ^ (-1022 : ℤ) ≤ |x + y|
  · exact fl_error_normal h
  · rw [not_le] at h
    have key : fl (x + y) = x + y := by
      by_cases h00 : x + y = 0
      · rw [h00, fl_zero]
      obtain ⟨m, e, _, he, rfl⟩ := hx
      obtain ⟨k, f, _, hf, rfl⟩ := hy
      have e1 : ∀ (m e : ℤ), -1074 ≤ e → (m : ℚ) * 2 ^ e = ((m * 2 ^ (e + 1074).toNat : ℤ) : ℚ) * 2 ^ (-1074 : ℤ) := by
        intro m e he
        push_cast
        rw [mul_assoc]
        congr 1
        rw [← zpow_natCast, ← zpow_add₀ (by norm_num)]
        congr 1
        omega
      refine fl_multiple (m := m * 2 ^ (e + 1074).toNat + k * 2 ^ (f + 1074).toNat) (e := -1074) ?_ ?_
      · rw [e1 m e he, e1 k f hf]
        push_cast
        ring
      · unfold lastPlace
        refine max_le ?_ le_rfl
        have := lt_of_le_of_lt (zpow_log_le_abs h00) h
        have := (zpow_lt_zpow_iff_right₀ (by norm_num : (1 : ℚ) < 2)).1 this
        omega
    rw [key, sub_self, abs_zero]
    exact mul_nonneg u_pos.le (abs_nonneg _)

theorem leftSum_step (l : List ℚ) (hl : ∀ x ∈ l, Representable x) (s t A : ℚ) (k : ℕ)
    (hs : Representable s) (hk : k + l.length ≤ 2 ^ 40) (ht : |t| ≤ A)
    (h : |s - t| ≤ 2 * (k : ℚ) * u * A) :
    |l.foldl (fun s x => fl (s + x)) s - (t + l.sum)| ≤
      2 * ((k : ℚ) + l.length) * u * (A + (l.map (fun x => |x|)).sum) := by
  induction l generalizing s t A k with
  | nil => simpa using h
  | cons x l ih =>
    have hA : 0 ≤ A := (abs_nonneg _).trans ht
    have hr := fl_add_rel hs (hl x (by simp))
    have hku : 2 * (k : ℚ) * u ≤ 1 := by
      have : (k : ℚ) ≤ 1099511627776 := by exact_mod_cast (Nat.le_add_right _ _).trans hk
      rw [u_eq]
      linarith
    have hk0 : (0 : ℚ) ≤ 2 * (k : ℚ) * u := by have := u_pos; positivity
    have h1 : |s + x| ≤ 2 * (A + |x|) := by
      have a1 := abs_add_le s x
      have a2 := abs_add_le (s - t) t
      rw [sub_add_cancel] at a2
      have a3 : 2 * (k : ℚ) * u * A ≤ 1 * A := mul_le_mul_of_nonneg_right hku hA
      have := abs_nonneg x
      linarith
    have h2 : |fl (s + x) - (t + x)| ≤ 2 * ((k + 1 : ℕ) : ℚ) * u * (A + |x|) := by
      have a1 := abs_add_le (fl (s + x) - (s + x)) (s - t)
      rw [show fl (s + x) - (s + x) + (s - t) = fl (s + x) - (t + x) by ring] at a1
      have a2 : u * |s + x| ≤ u * (2 * (A + |x|)) := mul_le_mul_of_nonneg_left h1 u_pos.le
      have a3 : 2 * (k : ℚ) * u * A ≤ 2 * (k : ℚ) * u * (A + |x|) :=
        mul_le_mul_of_nonneg_left (by have := abs_nonneg x; linarith) hk0
      push_cast
      nlinarith
    have h3 : |t + x| ≤ A + |x| := (abs_add_le _ _).trans (by linarith)
    have := ih (fun y hy => hl y (by simp [hy])) (fl (s + x)) (t + x) (A + |x|) (k + 1)
      (representable_fl _) (by simp only [List.length_cons] at hk; omega) h3 h2
    simp only [List.foldl_cons, List.sum_cons, List.map_cons, List.length_cons]
    push_cast at this ⊢
    rw [show (k : ℚ) + (l.length + 1) = k + 1 + l.length by ring, ← add_assoc, ← add_assoc]
    exact this

/-- Adding from left to right is accurate enough. -/
theorem leftSum_accurate : SumAccurate leftSum := by
  intro l hl hlen
  have := leftSum_step l hl 0 0 0 0 representable_zero (by simpa using hlen) (by simp) (by simp)
  simpa [leftSum] using this

/-! ## One term -/

theorem entropy_term_error {flog : ℚ → ℚ} (hlog : LogAccurate flog) {p' p : ℚ} (h : Rel 1 p' p)
    (hp : 1 / 2 ^ 53 ≤ p) (hr : Representable p') :
    |((fl (p' * flog p') : ℚ) : ℝ) - (p : ℝ) * log p| ≤ (p : ℝ) * (u * (5 + 6 * |log p|)) := by
  have p0 : 0 < p := lt_of_lt_of_le (by norm_num) hp
  have h1 := hlog p' (h.pos (by norm_num) p0) hr
  have h2 := h.log (by norm_num) p0
  have h3 := h.abs p0.le
  have h3R : |(p' : ℝ) - p| ≤ (u : ℝ) * p := by
    have : ((|p' - p| : ℚ) : ℝ) ≤ (((1 : ℕ) * u * p : ℚ) : ℝ) := by exact_mod_cast h3
    push_cast at this
    linarith
  have hfin := fl_abs_real (p' * flog p')
  push_cast at hfin h2
  have hpR : (1 : ℝ) / 2 ^ 53 ≤ p := by
    have : ((1 / 2 ^ 53 : ℚ) : ℝ) ≤ ((p : ℚ) : ℝ) := by exact_mod_cast hp
    push_cast at this
    exact this
  generalize ((fl (p' * flog p') : ℚ) : ℝ) = t at *
  generalize ((flog p' : ℚ) : ℝ) = f at *
  generalize log (p' : ℝ) = la at *
  generalize log (p : ℝ) = ell at *
  generalize (p' : ℝ) = w' at *
  generalize (p : ℝ) = w at *
  have hu := uR_pos
  have hue := uR_eq
  have hw0 : 0 < w := lt_of_lt_of_le (by positivity) hpR
  have hell := abs_nonneg ell
  have hla : |la| ≤ |ell| + 2 * u := by
    have := abs_add_le (la - ell) ell
    rw [sub_add_cancel] at this
    linarith
  have hfl : |f - ell| ≤ 5 / 2 * u + 2 * u * |ell| := by
    have h3 := abs_add_le (f - la) (la - ell)
    rw [sub_add_sub_cancel] at h3
    have h4 : 2 * (u : ℝ) * |la| ≤ 2 * u * (|ell| + 2 * u) := mul_le_mul_of_nonneg_left hla (by positivity)
    have h5 : 2 * (u : ℝ) * (2 * u) ≤ u / 2 := by nlinarith
    linarith
  have hf : |f| ≤ 2 * |ell| + 1 / 2 := by
    have h3 := abs_add_le (f - ell) ell
    rw [sub_add_cancel] at h3
    have : 2 * (u : ℝ) * |ell| ≤ 1 * |ell| := mul_le_mul_of_nonneg_right (by rw [hue]; norm_num) hell
    have : 5 / 2 * (u : ℝ) ≤ 1 / 2 := by rw [hue]; norm_num
    linarith
  have hprod : |w' * f - w * ell| ≤ w * (u * (3 + 4 * |ell|)) := by
    have e : w' * f - w * ell = (w' - w) * f + w * (f - ell) := by ring
    rw [e]
    refine (abs_add_le _ _).trans ?_
    rw [abs_mul, abs_mul, abs_of_pos hw0]
    have a1 : |w' - w| * |f| ≤ u * w * (2 * |ell| + 1 / 2) :=
      mul_le_mul h3R hf (abs_nonneg _) (by positivity)
    have a2 : w * |f - ell| ≤ w * (5 / 2 * u + 2 * u * |ell|) := mul_le_mul_of_nonneg_left hfl hw0.le
    nlinarith
  have hw'f : |w' * f| ≤ w * (2 * |ell| + 1) := by
    have a1 := abs_add_le (w' * f - w * ell) (w * ell)
    rw [sub_add_cancel, abs_mul w ell, abs_of_pos hw0] at a1
    have a2 : (u : ℝ) * (3 + 4 * |ell|) ≤ 1 + |ell| := by
      have : (u : ℝ) ≤ 1 / 4 := by rw [hue]; norm_num
      nlinarith
    have a3 := mul_le_mul_of_nonneg_left a2 hw0.le
    linarith
  have hround : |t - w' * f| ≤ u * (w * (2 * |ell| + 1)) + u * w := by
    refine hfin.trans (add_le_add (mul_le_mul_of_nonneg_left hw'f hu.le) ?_)
    have : (u : ℝ) / 2 ^ 200 = u * (1 / 2 ^ 200) := by ring
    rw [this]
    refine mul_le_mul_of_nonneg_left (le_trans (by norm_num) hpR) hu.le
  have := abs_add_le (t - w' * f) (w' * f - w * ell)
  rw [sub_add_sub_cancel] at this
  nlinarith

/-! ## One table -/

/-- What is known of an entry of a table: the `float` is close to the probability `p`.
(Models no code: a notion for statements and proofs.) -/
structure EntryOk (L : ℝ) (e : Key × ℚ) (p : ℚ) : Prop where
  close : Rel 1 e.2 p
  low : 1 / 2 ^ 53 ≤ p
  repr : Representable e.2
  log : |log (p : ℝ)| ≤ L

theorem entropyTermsF_ok (flog : ℚ → ℚ) (d : List (Key × ℚ)) (h : ∀ e ∈ d, 0 < e.2) :
    entropyTermsF flog d = .ok (d.map (fun e => fl (e.2 * flog e.2))) := by
  induction d with
  | nil => rfl
  | cons e d ih =>
    obtain ⟨k, p⟩ := e
    unfold entropyTermsF
    rw [if_neg (not_le.2 (h (k, p) (by simp))), ih (fun e he => h e (by simp [he]))]
    rfl

theorem entropy_terms_bound {flog : ℚ → ℚ} (hlog : LogAccurate flog) {L : ℝ} (P : Key → ℚ)
    (d : List (Key × ℚ)) (h : ∀ e ∈ d, EntryOk L e (P e.1)) :
    |(((d.map (fun e => fl (e.2 * flog e.2))).sum : ℚ) : ℝ) -
        (d.map (fun e => (P e.1 : ℝ) * log (P e.1))).sum| ≤
      (d.map (fun e => (P e.1 : ℝ))).sum * (u * (5 + 6 * L)) ∧
    ((((d.map (fun e => fl (e.2 * flog e.2))).map (fun x => |x|)).sum : ℚ) : ℝ) ≤
      (d.map (fun e => (P e.1 : ℝ))).sum * (L + u * (5 + 6 * L)) ∧
    |(d.map (fun e => (P e.1 : ℝ) * log (P e.1))).sum| ≤ (d.map (fun e => (P e.1 : ℝ))).sum * L := by
  induction d with
  | nil => simp
  | cons e d ih =>
    obtain ⟨h1, h2, h3⟩ := ih (fun e he => h e (by simp [he]))
    have he := h e (by simp)
    have ht := entropy_term_error hlog he.close he.low he.repr
    have hp : (0 : ℝ) < P e.1 := by
      have : (0 : ℚ) < P e.1 := lt_of_lt_of_le (by norm_num) he.low
      exact_mod_cast this
    have hu := uR_pos
    have ht' : |((fl (e.2 * flog e.2) : ℚ) : ℝ) - (P e.1 : ℝ) * log (P e.1)| ≤
        (P e.1 : ℝ) * (u * (5 + 6 * L)) := by
      refine ht.trans (mul_le_mul_of_nonneg_left (mul_le_mul_of_nonneg_left ?_ hu.le) hp.le)
      linarith [he.log]
    have hv : |(P e.1 : ℝ) * log (P e.1)| ≤ (P e.1 : ℝ) * L := by
      rw [abs_mul, abs_of_pos hp]
      exact mul_le_mul_of_nonneg_left he.log hp.le
    simp only [List.map_cons, List.sum_cons]
    push_cast at h1 h2 h3 ⊢
    refine ⟨?_, ?_, ?_⟩
    · have := abs_add_le (((fl (e.2 * flog e.2) : ℚ) : ℝ) - (P e.1 : ℝ) * log (P e.1))
        ((((d.map (fun e => fl (e.2 * flog e.2))).sum : ℚ) : ℝ) -
          (d.map (fun e => (P e.1 : ℝ) * log (P e.1))).sum)
      rw [sub_add_sub_comm] at this
      push_cast at this
      refine this.trans ?_
      rw [add_mul]
      exact add_le_add ht' h1
    · have a := abs_add_le (((fl (e.2 * flog e.2) : ℚ) : ℝ) - (P e.1 : ℝ) * log (P e.1))
        ((P e.1 : ℝ) * log (P e.1))
      rw [sub_add_cancel] at a
      rw [add_mul]
      refine add_le_add ?_ h2
      rw [mul_add]
      linarith
    · refine (abs_add_le _ _).trans ?_
      rw [add_mul]
      exact add_le_add hv h3

/-- The entropy computed from one table of `float`s. -/
theorem entropyF_table {flog : ℚ → ℚ} (hlog : LogAccurate flog) {fsum : List ℚ → ℚ}
    (hsum : SumAccurate fsum) {L : ℝ} (L28 : L ≤ 28) (P : Key → ℚ) (pmf : PMF)
    (h : ∀ e ∈ pmf.probabilities, EntryOk L e (P e.1)) (hlen : pmf.probabilities.length ≤ 2 ^ 40)
    (h1 : (pmf.probabilities.map (fun e => (P e.1 : ℝ))).sum = 1) :
    ∃ H, entropyF flog fsum pmf = .ok H ∧
      |(H : ℝ) + (pmf.probabilities.map (fun e => (P e.1 : ℝ) * log (P e.1))).sum| ≤
        ((2 * (pmf.probabilities.length : ℝ) + 6) * (L + 1)) / 2 ^ 53 := by
  obtain ⟨b1, b2, _⟩ := entropy_terms_bound hlog P pmf.probabilities h
  rw [h1, one_mul] at b1 b2
  have hpos : ∀ e ∈ pmf.probabilities, 0 < e.2 := fun e he =>
    (h e he).close.pos (by norm_num) (lt_of_lt_of_le (by norm_num) (h e he).low)
  refine ⟨-(fsum (pmf.probabilities.map (fun e => fl (e.2 * flog e.2)))), ?_, ?_⟩
  · unfold entropyF
    rw [entropyTermsF_ok flog _ hpos]
    rfl
  · have hs := hsum (pmf.probabilities.map (fun e => fl (e.2 * flog e.2))) (by
      intro x hx
      obtain ⟨e, _, rfl⟩ := List.mem_map.1 hx
      exact representable_fl _) (by simpa using hlen)
    rw [List.length_map] at hs
    have hsR : |((fsum (pmf.probabilities.map (fun e => fl (e.2 * flog e.2))) : ℚ) : ℝ) -
        (((pmf.probabilities.map (fun e => fl (e.2 * flog e.2))).sum : ℚ) : ℝ)| ≤
        2 * (pmf.probabilities.length : ℝ) * u *
        ((((pmf.probabilities.map (fun e => fl (e.2 * flog e.2))).map (fun x => |x|)).sum : ℚ) : ℝ) := by
      exact_mod_cast hs
    push_cast
    generalize ((fsum (pmf.probabilities.map (fun e => fl (e.2 * flog e.2))) : ℚ) : ℝ) = f at *
    generalize (((pmf.probabilities.map (fun e => fl (e.2 * flog e.2))).sum : ℚ) : ℝ) = t at *
    generalize ((((pmf.probabilities.map (fun e => fl (e.2 * flog e.2))).map (fun x => |x|)).sum : ℚ) : ℝ)
      = A at *
    generalize (pmf.probabilities.map (fun e => (P e.1 : ℝ) * log (P e.1))).sum = S at *
    have hk0 : (0 : ℝ) ≤ (pmf.probabilities.length : ℝ) := by positivity
    generalize (pmf.probabilities.length : ℝ) = k at *
    have hu := uR_pos
    have hA : A ≤ L + 1 := by
      have : (u : ℝ) * (5 + 6 * L) ≤ 1 := by
        rw [uR_eq]
        have : (5 + 6 * L) ≤ 200 := by linarith
        norm_num
        linarith
      linarith
    have h2 : 2 * k * u * A ≤ 2 * k * u * (L + 1) := mul_le_mul_of_nonneg_left hA (by positivity)
    have h3 := abs_add_le (f - t) (t - S)
    rw [sub_add_sub_cancel] at h3
    have h4 : |-f + S| = |f - S| := by rw [← abs_neg]; congr 1; ring
    rw [h4]
    have e : ((2 * k + 6) * (L + 1)) / 2 ^ 53 = u * ((2 * k + 6) * (L + 1)) := by
      rw [uR_eq]; norm_num; ring
    rw [e]
    nlinarith

/-! ## The table of some columns of the data -/

theorem sum_freq {D : Data} (hr : D.nrows ≠ 0) (cols : List Nat) :
    ∑ l ∈ observed D cols, freq D cols l = 1 := by
  unfold freq
  rw [← Finset.sum_div]
  rw [div_eq_one_iff_eq (by exact_mod_cast hr)]
  have : ∑ z ∈ observed D cols, rowsWith D (fun r => cols.map (D.cell r) = z) = D.nrows := by
    have := Finset.card_eq_sum_card_image (fun r => cols.map (D.cell r)) (Finset.range D.nrows)
    rw [Finset.card_range] at this
    rw [this]
    refine Finset.sum_congr rfl (fun z _ => ?_)
    rw [rowsWith_eq_card]
  exact_mod_cast this

theorem log_share {n : Nat} (hn : n ≠ 0) {p : ℚ} (h1 : 1 / n ≤ p) (h2 : p ≤ 1) :
    |log (p : ℝ)| ≤ log n := by
  have hnp : (0 : ℝ) < n := by exact_mod_cast Nat.pos_of_ne_zero hn
  have h1R : (1 / n : ℝ) ≤ (p : ℝ) := by
    have : ((1 / (n : ℚ) : ℚ) : ℝ) ≤ (p : ℝ) := by exact_mod_cast h1
    push_cast at this ⊢
    exact this
  have h2R : (p : ℝ) ≤ 1 := by exact_mod_cast h2
  have hp : (0 : ℝ) < p := lt_of_lt_of_le (by positivity) h1R
  rw [abs_of_nonpos (Real.log_nonpos hp.le h2R)]
  have := Real.log_le_log (by positivity) h1R
  rw [one_div, Real.log_inv] at this
  linarith

/-- The entropy of some columns, computed with `float`s, is within `hError` of the
exact one. -/
theorem entropyF_data {flog : ℚ → ℚ} (hlog : LogAccurate flog) {fsum : List ℚ → ℚ}
    (hsum : SumAccurate fsum) {D : Data} (hr : D.nrows ≠ 0) (h40 : D.nrows ≤ 2 ^ 40)
    {cols : List Nat} (hne : cols ≠ []) :
    ∃ pmf H, ofVariableF (.joint (cols.map (column D))) = .ok pmf ∧
      entropyF flog fsum pmf = .ok H ∧ |(H : ℝ) - entropy D cols| ≤ hError D cols := by
  have hv : IsVarOf D cols (.joint (cols.map (column D))) := .inl rfl
  have hi := hasInstances_of hv hne
  obtain ⟨pmf, e, nd, ks, vs⟩ := ofVariableF_table _ D.nrows hi hr (h40.trans (by norm_num))
  obtain ⟨_, L28⟩ := log_rows hr h40
  have hinst := hv.instances hne
  have hkeys : (pmf.probabilities.map Prod.fst).toFinset = (observed D cols).image mkKey := by
    ext k
    rw [List.mem_toFinset, ks, hinst]
    unfold observed
    rw [Finset.image_image]
    simp
  set P : Key → ℚ := fun k =>
    ((Variable.instances (.joint (cols.map (column D)))).count k : ℚ) / D.nrows with hP
  have hPf : ∀ l, P (mkKey l) = freq D cols l := by
    intro l
    rw [hP]
    simp only
    rw [hinst, count_rows]
    rfl
  have hsumF : ∀ F : Key → ℝ, (pmf.probabilities.map (fun e => F e.1)).sum =
      ∑ l ∈ observed D cols, F (mkKey l) := by
    intro F
    have : pmf.probabilities.map (fun e => F e.1) = (pmf.probabilities.map Prod.fst).map F := by
      rw [List.map_map]; rfl
    rw [this, ← List.sum_toFinset F nd, hkeys,
      Finset.sum_image (fun a _ b _ hab => mkKey_inj hab)]
  have hlen : pmf.probabilities.length = (observed D cols).card := by
    rw [← List.length_map (as := pmf.probabilities) Prod.fst, ← List.toFinset_card_of_nodup nd, hkeys,
      Finset.card_image_of_injective _ (fun a b hab => mkKey_inj hab)]
  have hent : ∀ e ∈ pmf.probabilities, EntryOk (log D.nrows) e (P e.1) := by
    intro e he
    have hk : e.1 ∈ (observed D cols).image mkKey := by
      rw [← hkeys, List.mem_toFinset]; exact List.mem_map_of_mem he
    obtain ⟨l, hl, hkl⟩ := Finset.mem_image.1 hk
    have hlow := freq_low D ((freq_ne_zero_iff D _ _).2 hl)
    rw [← hPf l, hkl] at hlow
    have hup : P e.1 ≤ 1 := by rw [← hkl, hPf]; exact freq_le_one' D _ _
    have hnq : (0 : ℚ) < D.nrows := by exact_mod_cast Nat.pos_of_ne_zero hr
    have hn40 : (D.nrows : ℚ) ≤ 2 ^ 53 := by exact_mod_cast h40.trans (by norm_num)
    have hlow' : 1 / 2 ^ 53 ≤ P e.1 := by
      refine le_trans ?_ hlow
      exact one_div_le_one_div_of_le hnq hn40
    have hsh := vs e he
    refine ⟨?_, hlow', ?_, log_share hr hlow hup⟩
    · refine Rel.of_abs (lt_of_lt_of_le (by norm_num) hlow') ?_
      rw [hsh]
      have := share_error (c := (Variable.instances (.joint (cols.map (column D)))).count e.1) hr
        (h40.trans (by norm_num))
      simpa using this
    · rw [hsh]; exact representable_fl _
  obtain ⟨H, eH, bH⟩ := entropyF_table hlog hsum L28 P pmf hent
    (by rw [hlen]; exact (card_observed_le D cols).trans h40)
    (by
      rw [hsumF (fun k => (P k : ℝ))]
      have := sum_freq hr cols
      simp only [hPf]
      exact_mod_cast this)
  refine ⟨pmf, H, e, eH, ?_⟩
  rw [hsumF (fun k => (P k : ℝ) * log (P k)), hlen] at bH
  simp only [hPf] at bH
  unfold Stats.Spec.entropy hError
  rw [sub_neg_eq_add]
  exact bH

theorem entropy_le_log {D : Data} (hr : D.nrows ≠ 0) (cols : List Nat) :
    0 ≤ entropy D cols ∧ entropy D cols ≤ log D.nrows := by
  have h : ∀ l ∈ observed D cols, 0 ≤ -((freq D cols l : ℝ) * log (freq D cols l : ℝ)) ∧
      -((freq D cols l : ℝ) * log (freq D cols l : ℝ)) ≤ (freq D cols l : ℝ) * log D.nrows := by
    intro l hl
    have h1 := freq_le_one' D cols l
    have hb := log_share hr (freq_low D ((freq_ne_zero_iff D _ _).2 hl)) h1
    have h0 : (0 : ℝ) ≤ freq D cols l := by exact_mod_cast freq_nonneg D cols l
    have h1R : (freq D cols l : ℝ) ≤ 1 := by exact_mod_cast h1
    have hneg := Real.log_nonpos h0 h1R
    rw [abs_of_nonpos hneg] at hb
    constructor
    · have := mul_nonneg h0 (neg_nonneg.2 hneg); linarith
    · have := mul_le_mul_of_nonneg_left hb h0; linarith
  unfold Stats.Spec.entropy
  rw [← Finset.sum_neg_distrib]
  refine ⟨Finset.sum_nonneg (fun l hl => (h l hl).1), ?_⟩
  refine (Finset.sum_le_sum (fun l hl => (h l hl).2)).trans ?_
  rw [← Finset.sum_mul]
  have : ∑ l ∈ observed D cols, (freq D cols l : ℝ) = 1 := by exact_mod_cast sum_freq hr cols
  rw [this, one_mul]

end Mbtk.Fp
