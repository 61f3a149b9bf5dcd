import Verif.Stats.AdTest
/-!
# The summands visited by `conditional_mutual_information`, on exact tables
-/
namespace Mbtk.Fp
open Mbtk Mbtk.Stats Mbtk.Stats.Spec
open Mbtk.ADTree (Data)
open Mbtk.ADTree.Spec (rowsWith)
open Real (log)

/-- The numbers `pz, pxycz, pxcz, pycz` in the order in which the three loops visit them:
infotheory.py 38-42. -/
def cells (t : Tables) : List (ℚ × ℚ × ℚ × ℚ) :=
  t.PrZ.probabilities.flatMap (fun z =>
    (t.PrXcZ.given [z.1.toVal]).probabilities.flatMap (fun x =>
      (t.PrYcZ.given [z.1.toVal]).probabilities.map (fun y =>
        (z.2, (t.PrXYcZ.given [z.1.toVal]).p [x.1.toVal, y.1.toVal], x.2, y.2))))

/-- All four numbers differ from zero. (Models no code: a notion for statements and proofs.) -/
def Active (c : ℚ × ℚ × ℚ × ℚ) : Prop := c.1 ≠ 0 ∧ c.2.1 ≠ 0 ∧ c.2.2.1 ≠ 0 ∧ c.2.2.2 ≠ 0

instance : DecidablePred Active := fun c => by unfold Active; infer_instance

theorem sum_flatMap {α β : Type} (l : List α) (f : α → List β) (g : β → ℝ) :
    ((l.flatMap f).map g).sum = (l.map (fun a => ((f a).map g).sum)).sum := by
  induction l with
  | nil => rfl
  | cons a l ih => simp [List.flatMap_cons, ih]

theorem cells_sum {n : Nat} {P : Int → Int → List Int → ℚ}
    {A B : Finset Int} {C : Finset (List Int)} {eZ eX eY : List Int → Key} {t : Tables}
    (h : CmiTables n P A B C eZ eX eY t.PrXYcZ t.PrXcZ t.PrYcZ t.PrZ)
    (F : ℚ → ℚ → ℚ → ℚ → ℝ) (hF : ∀ a b c d, a = 0 ∨ b = 0 ∨ c = 0 ∨ d = 0 → F a b c d = 0) :
    ((cells t).map (fun c => F c.1 c.2.1 c.2.2.1 c.2.2.2)).sum =
      ∑ z ∈ C, ∑ x ∈ A, ∑ y ∈ B, F (∑ x ∈ A, ∑ y ∈ B, P x y z)
        (P x y z / ∑ x ∈ A, ∑ y ∈ B, P x y z) ((∑ y ∈ B, P x y z) / ∑ x ∈ A, ∑ y ∈ B, P x y z)
        ((∑ x ∈ A, P x y z) / ∑ x ∈ A, ∑ y ∈ B, P x y z) := by
  unfold cells
  rw [sum_flatMap]
  simp only [sum_flatMap, List.map_map, Function.comp_def]
  rw [h.tabZ.sum h.keyZ_inj (fun k pz =>
      ((t.PrXcZ.given [k.toVal]).probabilities.map (fun x =>
        ((t.PrYcZ.given [k.toVal]).probabilities.map (fun y =>
          F pz ((t.PrXYcZ.given [k.toVal]).p [x.1.toVal, y.1.toVal]) x.2 y.2)).sum)).sum) ?_ C h.lenC ?_]
  · refine Finset.sum_congr rfl (fun z hz => ?_)
    have hzl := h.lenC z hz
    set pz := ∑ x ∈ A, ∑ y ∈ B, P x y z with hpz
    by_cases h0 : pz = 0
    · rw [h0]
      have e1 : ∀ a b c, F 0 a b c = 0 := fun a b c => hF _ _ _ _ (.inl rfl)
      simp [e1]
    · rw [Tabulates.sum_one (Q := fun x => (∑ y ∈ B, P x y z) / pz) (h.tabX z hzl h0) h.keyX (fun kx px =>
          ((t.PrYcZ.given [(eZ z).toVal]).probabilities.map (fun y =>
            F pz ((t.PrXYcZ.given [(eZ z).toVal]).p [kx.toVal, y.1.toVal]) px y.2)).sum) ?_ A ?_]
      · refine Finset.sum_congr rfl (fun x hx => ?_)
        rw [Tabulates.sum_one (Q := fun y => (∑ x ∈ A, P x y z) / pz) (h.tabY z hzl h0) h.keyY (fun ky py =>
            F pz ((t.PrXYcZ.given [(eZ z).toVal]).p [(eX [x]).toVal, ky.toVal])
              ((∑ y ∈ B, P x y z) / pz) py) ?_ B ?_]
        · refine Finset.sum_congr rfl (fun y hy => ?_)
          rw [PMF.p_pair, h.keyX, h.keyY]
          congr 1
          exact h.valXY z hzl h0 x y
        · intro k; exact hF _ _ _ _ (.inr (.inr (.inr rfl)))
        · intro y hy
          by_contra hB
          apply hy
          have : ∑ x ∈ A, P x y z = 0 := Finset.sum_eq_zero (fun x _ => by
            by_contra hne; exact hB (h.suppB x y z hne))
          rw [this, zero_div]
      · intro k
        apply List.sum_eq_zero
        intro v hv
        obtain ⟨a, _, rfl⟩ := List.mem_map.1 hv
        exact hF _ _ _ _ (.inr (.inr (.inl rfl)))
      · intro x hx
        by_contra hA
        apply hx
        have : ∑ y ∈ B, P x y z = 0 := Finset.sum_eq_zero (fun y _ => by
          by_contra hne; exact hA (h.suppA x y z hne))
        rw [this, zero_div]
  · intro k
    apply List.sum_eq_zero
    intro v hv
    obtain ⟨a, _, rfl⟩ := List.mem_map.1 hv
    apply List.sum_eq_zero
    intro v hv
    obtain ⟨b, _, rfl⟩ := List.mem_map.1 hv
    exact hF _ _ _ _ (.inl rfl)
  · intro z hz hne
    by_contra hC
    apply hne
    refine Finset.sum_eq_zero (fun x _ => Finset.sum_eq_zero (fun y _ => ?_))
    by_contra hp
    exact hC (h.suppC x y z hz hp)

/-- The same on the dataset. -/
theorem goodTables_sum {D : Data} {X Y : Nat} {Z : List Nat} {t : Tables} (h : GoodTables D X Y Z t)
    (F : ℚ → ℚ → ℚ → ℚ → ℝ) (hF : ∀ a b c d, a = 0 ∨ b = 0 ∨ c = 0 ∨ d = 0 → F a b c d = 0) :
    ((cells t).map (fun c => F c.1 c.2.1 c.2.2.1 c.2.2.2)).sum =
      ∑ z ∈ observed D Z, ∑ x ∈ values D X, ∑ y ∈ values D Y, F (freq D Z z)
        (freq D (X :: Y :: Z) (x :: y :: z) / freq D Z z) (freq D (X :: Z) (x :: z) / freq D Z z)
        (freq D (Y :: Z) (y :: z) / freq D Z z) := by
  obtain ⟨eZ, eX, eY, hc⟩ := h
  rw [cells_sum hc F hF]
  simp only [sum_joint3_xy]
  simp only [sum_joint3_y, sum_joint3_x]
  rfl

theorem rowsWith_mono (D : Data) {P Q : Nat → Prop} [DecidablePred P] [DecidablePred Q]
    (h : ∀ r, P r → Q r) : rowsWith D P ≤ rowsWith D Q := by
  rw [rowsWith_eq_card, rowsWith_eq_card]
  exact Finset.card_le_card (fun r hr => by
    simp only [Finset.mem_filter] at hr ⊢
    exact ⟨hr.1, h r hr.2⟩)

/-- What a summand with a non-zero weight looks like on the data.
(Models no code: a notion for statements and proofs.) -/
structure DataCell (n : Nat) (c : ℚ × ℚ × ℚ × ℚ) : Prop where
  z : 1 / (n : ℚ) ≤ c.1
  q : 1 / (n : ℚ) ≤ c.2.1
  x : 1 / (n : ℚ) ≤ c.2.2.1
  y : 1 / (n : ℚ) ≤ c.2.2.2
  x1 : c.2.2.1 ≤ 1
  y1 : c.2.2.2 ≤ 1
  z1 : c.1 ≤ 1
  qx : c.2.1 ≤ c.2.2.1
  qy : c.2.1 ≤ c.2.2.2

theorem freq_low (D : Data) {cols : List Nat} {vals : List Int} (h : freq D cols vals ≠ 0) :
    1 / (D.nrows : ℚ) ≤ freq D cols vals := by
  unfold freq at h ⊢
  have hne : rowsWith D (fun r => cols.map (D.cell r) = vals) ≠ 0 := by
    intro e; rw [e] at h; simp at h
  have : (1 : ℚ) ≤ rowsWith D (fun r => cols.map (D.cell r) = vals) := by
    exact_mod_cast Nat.one_le_iff_ne_zero.2 hne
  exact div_le_div_of_nonneg_right this (by positivity)

theorem freq_le_of (D : Data) {cols cols' : List Nat} {vals vals' : List Int}
    (h : ∀ r, cols.map (D.cell r) = vals → cols'.map (D.cell r) = vals') :
    freq D cols vals ≤ freq D cols' vals' := by
  unfold freq
  have := rowsWith_mono D h
  exact div_le_div_of_nonneg_right (by exact_mod_cast this) (by positivity)

theorem freq_le_one (D : Data) (cols : List Nat) (vals : List Int) : freq D cols vals ≤ 1 := by
  unfold freq
  by_cases hn : D.nrows = 0
  · simp [hn]
  · have : rowsWith D (fun r => cols.map (D.cell r) = vals) ≤ D.nrows := by
      rw [rowsWith_eq_card]
      exact (Finset.card_filter_le _ _).trans (by simp)
    rw [div_le_one (by exact_mod_cast Nat.pos_of_ne_zero hn)]
    exact_mod_cast this

/-- A ratio of positive frequencies is at least one over the number of rows. -/
theorem ratio_low (D : Data) {c1 c2 : List Nat} {v1 v2 : List Int} (h1 : freq D c1 v1 ≠ 0)
    (h2 : freq D c2 v2 ≠ 0) : 1 / (D.nrows : ℚ) ≤ freq D c1 v1 / freq D c2 v2 := by
  have p2 : 0 < freq D c2 v2 := lt_of_le_of_ne (freq_nonneg _ _ _) (Ne.symm h2)
  rw [le_div_iff₀ p2]
  have := freq_le_one D c2 v2
  have hn : (0 : ℚ) ≤ 1 / (D.nrows : ℚ) := by positivity
  calc 1 / (D.nrows : ℚ) * freq D c2 v2 ≤ 1 / (D.nrows : ℚ) * 1 := mul_le_mul_of_nonneg_left this hn
    _ ≤ freq D c1 v1 := by rw [mul_one]; exact freq_low D h1

open Classical in
theorem good_cells {D : Data} {X Y : Nat} {Z : List Nat} {t : Tables} (h : GoodTables D X Y Z t) :
    ∀ c ∈ cells t, Active c → DataCell D.nrows c := by
  have hs := goodTables_sum h (fun a b c d => if Active (a, b, c, d) ∧ ¬ DataCell D.nrows (a, b, c, d)
    then 1 else 0) (by
      intro a b c d h0
      rw [if_neg]
      rintro ⟨⟨h1, h2, h3, h4⟩, _⟩
      rcases h0 with h0 | h0 | h0 | h0
      · exact h1 h0
      · exact h2 h0
      · exact h3 h0
      · exact h4 h0)
  have hz : ∑ z ∈ observed D Z, ∑ x ∈ values D X, ∑ y ∈ values D Y,
      (fun a b c d => if Active (a, b, c, d) ∧ ¬ DataCell D.nrows (a, b, c, d) then (1 : ℝ) else 0)
        (freq D Z z) (freq D (X :: Y :: Z) (x :: y :: z) / freq D Z z)
        (freq D (X :: Z) (x :: z) / freq D Z z) (freq D (Y :: Z) (y :: z) / freq D Z z) = 0 := by
    refine Finset.sum_eq_zero (fun z _ => Finset.sum_eq_zero (fun x _ => Finset.sum_eq_zero (fun y _ => ?_)))
    dsimp only
    rw [if_neg]
    rintro ⟨⟨h1, h2, h3, h4⟩, hbad⟩
    simp only at h1 h2 h3 h4
    have n2 : freq D (X :: Y :: Z) (x :: y :: z) ≠ 0 := fun e => h2 (by rw [e, zero_div])
    have n3 : freq D (X :: Z) (x :: z) ≠ 0 := fun e => h3 (by rw [e, zero_div])
    have n4 : freq D (Y :: Z) (y :: z) ≠ 0 := fun e => h4 (by rw [e, zero_div])
    have pz : 0 < freq D Z z := lt_of_le_of_ne (freq_nonneg _ _ _) (Ne.symm h1)
    apply hbad
    refine ⟨freq_low D h1, ratio_low D n2 h1, ratio_low D n3 h1, ratio_low D n4 h1, ?_, ?_,
      freq_le_one D Z z, ?_, ?_⟩
    · rw [div_le_one pz]
      exact freq_le_of D (fun r hr => by simpa using (List.cons.inj hr).2)
    · rw [div_le_one pz]
      exact freq_le_of D (fun r hr => by simpa using (List.cons.inj hr).2)
    · refine div_le_div_of_nonneg_right (freq_le_of D (fun r hr => ?_)) pz.le
      simp only [List.map_cons, List.cons.injEq] at hr ⊢
      exact ⟨hr.1, hr.2.2⟩
    · refine div_le_div_of_nonneg_right (freq_le_of D (fun r hr => ?_)) pz.le
      simp only [List.map_cons, List.cons.injEq] at hr ⊢
      exact ⟨hr.2.1, hr.2.2⟩
  rw [hz] at hs
  intro c hc ha
  by_contra hb
  have hpos : 0 < ((cells t).map (fun c => (fun a b c d => if Active (a, b, c, d) ∧
      ¬ DataCell D.nrows (a, b, c, d) then (1 : ℝ) else 0) c.1 c.2.1 c.2.2.1 c.2.2.2)).sum := by
    refine lt_of_lt_of_le ?_ (List.single_le_sum ?_ _ (List.mem_map.2 ⟨c, hc, rfl⟩))
    · dsimp only
      rw [if_pos ⟨ha, hb⟩]
      exact one_pos
    · intro v hv
      obtain ⟨c', _, rfl⟩ := List.mem_map.1 hv
      dsimp only
      split <;> norm_num
  rw [hs] at hpos
  exact lt_irrefl _ hpos

/-- The weights of the summands add up to one. -/
theorem cells_weight {D : Data} (hr : D.nrows ≠ 0) {X Y : Nat} {Z : List Nat} {t : Tables}
    (h : GoodTables D X Y Z t) :
    ((cells t).map (fun c => if Active c then (c.1 : ℝ) * c.2.1 else 0)).sum = 1 := by
  have hs := goodTables_sum h (fun a b c d => if Active (a, b, c, d) then (a : ℝ) * b else 0) (by
      intro a b c d h0
      rw [if_neg]
      rintro ⟨h1, h2, h3, h4⟩
      rcases h0 with h0 | h0 | h0 | h0
      · exact h1 h0
      · exact h2 h0
      · exact h3 h0
      · exact h4 h0)
  refine hs.trans ?_
  have e : ∀ z ∈ observed D Z, ∀ x ∈ values D X, ∀ y ∈ values D Y,
      (if Active (freq D Z z, freq D (X :: Y :: Z) (x :: y :: z) / freq D Z z,
        freq D (X :: Z) (x :: z) / freq D Z z, freq D (Y :: Z) (y :: z) / freq D Z z) then
        ((freq D Z z : ℚ) : ℝ) * ((freq D (X :: Y :: Z) (x :: y :: z) / freq D Z z : ℚ) : ℝ) else 0) =
      ((freq D (X :: Y :: Z) (x :: y :: z) : ℚ) : ℝ) := by
    intro z _ x _ y _
    by_cases hq : freq D (X :: Y :: Z) (x :: y :: z) = 0
    · rw [hq]; simp [Active]
    · have pq : 0 < freq D (X :: Y :: Z) (x :: y :: z) := lt_of_le_of_ne (freq_nonneg _ _ _) (Ne.symm hq)
      have px : freq D (X :: Z) (x :: z) ≠ 0 := by
        have : freq D (X :: Y :: Z) (x :: y :: z) ≤ freq D (X :: Z) (x :: z) :=
          freq_le_of D (fun r hr => by
            simp only [List.map_cons, List.cons.injEq] at hr ⊢
            exact ⟨hr.1, hr.2.2⟩)
        exact (lt_of_lt_of_le pq this).ne'
      have py : freq D (Y :: Z) (y :: z) ≠ 0 :=
        (lt_of_lt_of_le pq (freq_le_of D (fun r hr => (List.cons.inj hr).2))).ne'
      have pz : freq D Z z ≠ 0 :=
        (lt_of_lt_of_le pq (freq_le_of D (fun r hr => by
          simp only [List.map_cons, List.cons.injEq] at hr
          exact hr.2.2))).ne'
      have hact : Active (freq D Z z, freq D (X :: Y :: Z) (x :: y :: z) / freq D Z z,
          freq D (X :: Z) (x :: z) / freq D Z z, freq D (Y :: Z) (y :: z) / freq D Z z) :=
        ⟨pz, div_ne_zero hq pz, div_ne_zero px pz, div_ne_zero py pz⟩
      rw [if_pos hact]
      have pzR : ((freq D Z z : ℚ) : ℝ) ≠ 0 := by exact_mod_cast pz
      push_cast
      field_simp
  rw [Finset.sum_congr rfl (fun z hz => Finset.sum_congr rfl (fun x hx =>
    Finset.sum_congr rfl (fun y hy => e z hz x hx y hy)))]
  have h2 : ∀ z, (∑ x ∈ values D X, ∑ y ∈ values D Y, ((freq D (X :: Y :: Z) (x :: y :: z) : ℚ) : ℝ)) =
      ((freq D Z z : ℚ) : ℝ) := by
    intro z
    rw [← sum_joint3_xy D X Y Z z]
    push_cast
    rfl
  rw [Finset.sum_congr rfl (fun z _ => h2 z)]
  have h3 : ∑ z ∈ observed D Z, freq D Z z = 1 := by
    unfold freq
    rw [← Finset.sum_div]
    rw [div_eq_one_iff_eq (by exact_mod_cast hr)]
    have : ∑ z ∈ observed D Z, rowsWith D (fun r => Z.map (D.cell r) = z) = D.nrows := by
      have := Finset.card_eq_sum_card_image (fun r => Z.map (D.cell r)) (Finset.range D.nrows)
      rw [Finset.card_range] at this
      rw [this]
      refine Finset.sum_congr rfl (fun z _ => ?_)
      rw [rowsWith_eq_card]
    exact_mod_cast this
  exact_mod_cast h3

/-- As many summands as value combinations that occur. -/
theorem cells_count {D : Data} {X Y : Nat} {Z : List Nat} {t : Tables}
    (h : GoodTables D X Y Z t) :
    (cells t).countP (fun c => decide (Active c)) = (observed D (X :: Y :: Z)).card := by
  have hs := goodTables_sum h (fun a b c d => if Active (a, b, c, d) then (1 : ℝ) else 0) (by
      intro a b c d h0
      rw [if_neg]
      rintro ⟨h1, h2, h3, h4⟩
      rcases h0 with h0 | h0 | h0 | h0
      · exact h1 h0
      · exact h2 h0
      · exact h3 h0
      · exact h4 h0)
  have hl : ((cells t).map (fun c => if Active (c.1, c.2.1, c.2.2.1, c.2.2.2) then (1 : ℝ) else 0)).sum =
      ((cells t).countP (fun c => decide (Active c)) : ℝ) := by
    generalize cells t = l
    induction l with
    | nil => simp
    | cons c l ih =>
      rw [List.map_cons, List.sum_cons, ih, List.countP_cons]
      by_cases hc : Active c
      · simp [hc]; ring
      · simp [hc]
  rw [hl] at hs
  have e : ∀ z ∈ observed D Z, ∀ x ∈ values D X, ∀ y ∈ values D Y,
      (if Active (freq D Z z, freq D (X :: Y :: Z) (x :: y :: z) / freq D Z z,
        freq D (X :: Z) (x :: z) / freq D Z z, freq D (Y :: Z) (y :: z) / freq D Z z) then
        (1 : ℝ) else 0) = if x :: y :: z ∈ observed D (X :: Y :: Z) then 1 else 0 := by
    intro z _ x _ y _
    by_cases hq : freq D (X :: Y :: Z) (x :: y :: z) = 0
    · rw [if_neg (fun hm => (freq_ne_zero_iff D _ _).2 hm hq), hq]; simp [Active]
    · have pq : 0 < freq D (X :: Y :: Z) (x :: y :: z) := lt_of_le_of_ne (freq_nonneg _ _ _) (Ne.symm hq)
      have px : freq D (X :: Z) (x :: z) ≠ 0 :=
        (lt_of_lt_of_le pq (freq_le_of D (fun r hr => by
            simp only [List.map_cons, List.cons.injEq] at hr ⊢
            exact ⟨hr.1, hr.2.2⟩))).ne'
      have py : freq D (Y :: Z) (y :: z) ≠ 0 :=
        (lt_of_lt_of_le pq (freq_le_of D (fun r hr => (List.cons.inj hr).2))).ne'
      have pz : freq D Z z ≠ 0 :=
        (lt_of_lt_of_le pq (freq_le_of D (fun r hr => by
          simp only [List.map_cons, List.cons.injEq] at hr
          exact hr.2.2))).ne'
      rw [if_pos ((freq_ne_zero_iff D _ _).1 hq), if_pos]
      exact ⟨pz, div_ne_zero hq pz, div_ne_zero px pz, div_ne_zero py pz⟩
  rw [Finset.sum_congr rfl (fun z hz => Finset.sum_congr rfl (fun x hx =>
    Finset.sum_congr rfl (fun y hy => e z hz x hx y hy)))] at hs
  have h2 : ((observed D (X :: Y :: Z)).card : ℝ) =
      ∑ z ∈ observed D Z, ∑ x ∈ values D X, ∑ y ∈ values D Y,
        if x :: y :: z ∈ observed D (X :: Y :: Z) then (1 : ℝ) else 0 := by
    have e1 : ∑ z ∈ observed D Z, ∑ x ∈ values D X, ∑ y ∈ values D Y,
        (if x :: y :: z ∈ observed D (X :: Y :: Z) then (1 : ℝ) else 0) =
        ∑ p ∈ (observed D Z ×ˢ (values D X ×ˢ values D Y)),
          if p.2.1 :: p.2.2 :: p.1 ∈ observed D (X :: Y :: Z) then (1 : ℝ) else 0 := by
      rw [Finset.sum_product]
      refine Finset.sum_congr rfl (fun z _ => ?_)
      rw [Finset.sum_product]
    rw [e1, Finset.sum_boole]
    congr 1
    symm
    refine Finset.card_bij (fun p _ => p.2.1 :: p.2.2 :: p.1) ?_ ?_ ?_
    · intro p hp; exact (Finset.mem_filter.1 hp).2
    · intro p _ p' _ he
      obtain ⟨z, x, y⟩ := p
      obtain ⟨z', x', y'⟩ := p'
      simp only [List.cons.injEq] at he
      simp [he]
    · intro l hl
      obtain ⟨r, hr, rfl⟩ := Finset.mem_image.1 hl
      refine ⟨(Z.map (D.cell r), D.cell r X, D.cell r Y), ?_, rfl⟩
      refine Finset.mem_filter.2 ⟨?_, hl⟩
      simp only [Finset.mem_product]
      exact ⟨Finset.mem_image.2 ⟨r, hr, rfl⟩, Finset.mem_image.2 ⟨r, hr, rfl⟩,
        Finset.mem_image.2 ⟨r, hr, rfl⟩⟩
  rw [← h2] at hs
  exact_mod_cast hs

/-- The exact value of a summand. (Models no code: a notion for statements and proofs.) -/
noncomputable def cellValue (c : ℚ × ℚ × ℚ × ℚ) : ℝ :=
  if Active c then (c.1 : ℝ) * c.2.1 * log ((c.2.1 : ℝ) / (c.2.2.1 * c.2.2.2)) else 0

/-- The summands add up to the conditional mutual information. -/
theorem cells_value {D : Data} {X Y : Nat} {Z : List Nat} {t : Tables}
    (h : GoodTables D X Y Z t) : ((cells t).map cellValue).sum = cmi D X Y Z := by
  have hs := goodTables_sum h (fun a b c d => cellValue (a, b, c, d)) (by
      intro a b c d h0
      unfold cellValue
      rw [if_neg]
      rintro ⟨h1, h2, h3, h4⟩
      rcases h0 with h0 | h0 | h0 | h0
      · exact h1 h0
      · exact h2 h0
      · exact h3 h0
      · exact h4 h0)
  refine hs.trans ?_
  unfold cmi
  refine Finset.sum_congr rfl (fun z _ => Finset.sum_congr rfl (fun x _ => Finset.sum_congr rfl (fun y _ => ?_)))
  unfold cellValue
  by_cases hq : freq D (X :: Y :: Z) (x :: y :: z) = 0
  · rw [hq]; simp [Active]
  · have pq : 0 < freq D (X :: Y :: Z) (x :: y :: z) := lt_of_le_of_ne (freq_nonneg _ _ _) (Ne.symm hq)
    have px : freq D (X :: Z) (x :: z) ≠ 0 :=
      (lt_of_lt_of_le pq (freq_le_of D (fun r hr => by
          simp only [List.map_cons, List.cons.injEq] at hr ⊢
          exact ⟨hr.1, hr.2.2⟩))).ne'
    have py : freq D (Y :: Z) (y :: z) ≠ 0 :=
      (lt_of_lt_of_le pq (freq_le_of D (fun r hr => (List.cons.inj hr).2))).ne'
    have pz : freq D Z z ≠ 0 :=
      (lt_of_lt_of_le pq (freq_le_of D (fun r hr => by
        simp only [List.map_cons, List.cons.injEq] at hr
        exact hr.2.2))).ne'
    rw [if_pos ⟨pz, div_ne_zero hq pz, div_ne_zero px pz, div_ne_zero py pz⟩]
    have pzR : ((freq D Z z : ℚ) : ℝ) ≠ 0 := by exact_mod_cast pz
    have pxR : ((freq D (X :: Z) (x :: z) : ℚ) : ℝ) ≠ 0 := by exact_mod_cast px
    have pyR : ((freq D (Y :: Z) (y :: z) : ℚ) : ℝ) ≠ 0 := by exact_mod_cast py
    push_cast
    congr 1
    · field_simp
    · congr 1
      field_simp

end Mbtk.Fp
