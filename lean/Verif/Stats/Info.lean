import Mathlib.Analysis.SpecialFunctions.Log.Basic
import Mathlib.Algebra.BigOperators.Ring.Finset
import Mathlib.Algebra.BigOperators.Field
import Mathlib.Algebra.Order.BigOperators.Group.Finset
/-!
# Conditional mutual information of a finite joint distribution

Pure mathematics, no code: for a non-negative table `P x y z` over finite sets, the
conditional mutual information is non-negative, is zero exactly when `X` and `Y` are
independent given `Z`, and is a combination of four entropies.
-/
namespace Mbtk.Stats.Info
open Finset Real

variable {α β γ : Type} (A : Finset α) (B : Finset β) (C : Finset γ) (P : α → β → γ → ℝ)

/-- (Specification.) -/
def mXZ (x : α) (z : γ) : ℝ := ∑ y ∈ B, P x y z
/-- (Specification.) -/
def mYZ (y : β) (z : γ) : ℝ := ∑ x ∈ A, P x y z
/-- (Specification.) -/
def mZ (z : γ) : ℝ := ∑ x ∈ A, ∑ y ∈ B, P x y z

/-- `Σ p(x,y,z) log( p(x,y,z) p(z) / (p(x,z) p(y,z)) )`. (Specification.) -/
noncomputable def cmi : ℝ :=
  ∑ z ∈ C, ∑ x ∈ A, ∑ y ∈ B,
    P x y z * log (P x y z * mZ A B P z / (mXZ B P x z * mYZ A P y z))

variable {A B C P}

theorem mXZ_nonneg (hP : ∀ x y z, 0 ≤ P x y z) (x : α) (z : γ) : 0 ≤ mXZ B P x z :=
  sum_nonneg (fun _ _ => hP _ _ _)
theorem mYZ_nonneg (hP : ∀ x y z, 0 ≤ P x y z) (y : β) (z : γ) : 0 ≤ mYZ A P y z :=
  sum_nonneg (fun _ _ => hP _ _ _)
theorem mZ_nonneg (hP : ∀ x y z, 0 ≤ P x y z) (z : γ) : 0 ≤ mZ A B P z :=
  sum_nonneg (fun _ _ => sum_nonneg (fun _ _ => hP _ _ _))

theorem le_mXZ (hP : ∀ x y z, 0 ≤ P x y z) (x : α) {y : β} (hy : y ∈ B) (z : γ) :
    P x y z ≤ mXZ B P x z := single_le_sum (f := fun y => P x y z) (fun _ _ => hP _ _ _) hy
theorem le_mYZ (hP : ∀ x y z, 0 ≤ P x y z) {x : α} (hx : x ∈ A) (y : β) (z : γ) :
    P x y z ≤ mYZ A P y z := single_le_sum (f := fun x => P x y z) (fun _ _ => hP _ _ _) hx
theorem mXZ_le_mZ (hP : ∀ x y z, 0 ≤ P x y z) {x : α} (hx : x ∈ A) (z : γ) :
    mXZ B P x z ≤ mZ A B P z :=
  single_le_sum (f := fun x => mXZ B P x z) (fun _ _ => mXZ_nonneg hP _ _) hx

theorem sum_mXZ (z : γ) : ∑ x ∈ A, mXZ B P x z = mZ A B P z := rfl
theorem sum_mYZ (z : γ) : ∑ y ∈ B, mYZ A P y z = mZ A B P z := by
  unfold mYZ mZ; exact sum_comm

/-- One summand is at least the difference between the joint and the product of the
conditionals. -/
theorem term_ge {p m : ℝ} (hp : 0 ≤ p) (hm : 0 ≤ m) (hpm : p ≠ 0 → m ≠ 0) :
    p - m ≤ p * log (p / m) := by
  rcases hp.eq_or_lt with h | h
  · subst h; simp [hm]
  · have hm' : 0 < m := lt_of_le_of_ne hm (Ne.symm (hpm h.ne'))
    have := one_sub_inv_le_log_of_pos (x := p / m) (by positivity)
    have h2 : p * (1 - (p / m)⁻¹) ≤ p * log (p / m) := mul_le_mul_of_nonneg_left this hp
    have h3 : p * (1 - (p / m)⁻¹) = p - m := by field_simp
    linarith

theorem term_eq {p m : ℝ} (hp : 0 ≤ p) (hm : 0 ≤ m) (hpm : p ≠ 0 → m ≠ 0)
    (h : p - m = p * log (p / m)) : p = m := by
  rcases hp.eq_or_lt with h0 | h0
  · subst h0; simp at h; exact h.symm
  · have hm' : 0 < m := lt_of_le_of_ne hm (Ne.symm (hpm h0.ne'))
    by_contra hne
    have hne1 : p / m ≠ 1 := by
      intro e; exact hne ((div_eq_one_iff_eq hm'.ne').1 e)
    have hinv : (p / m)⁻¹ ≠ 1 := by
      intro e; exact hne1 (by rw [← inv_inv (p / m), e, inv_one])
    have hlt := log_lt_sub_one_of_pos (x := (p / m)⁻¹) (by positivity) hinv
    rw [log_inv] at hlt
    have h2 : p * (1 - (p / m)⁻¹) < p * log (p / m) :=
      mul_lt_mul_of_pos_left (by linarith) h0
    have h3 : p * (1 - (p / m)⁻¹) = p - m := by field_simp
    linarith

/-- `p(x,z) p(y,z) / p(z)`: the joint table if `X` and `Y` were independent given `Z`.
(Specification.) -/
noncomputable def indep (A : Finset α) (B : Finset β) (P : α → β → γ → ℝ) (x : α) (y : β) (z : γ) :
    ℝ := mXZ B P x z * mYZ A P y z / mZ A B P z

theorem indep_nonneg (hP : ∀ x y z, 0 ≤ P x y z) (x : α) (y : β) (z : γ) :
    0 ≤ indep A B P x y z :=
  div_nonneg (mul_nonneg (mXZ_nonneg hP _ _) (mYZ_nonneg hP _ _)) (mZ_nonneg hP _)

theorem ne_of_P_ne (hP : ∀ x y z, 0 ≤ P x y z) {x : α} (hx : x ∈ A) {y : β} (hy : y ∈ B) {z : γ}
    (h : P x y z ≠ 0) : mXZ B P x z ≠ 0 ∧ mYZ A P y z ≠ 0 ∧ mZ A B P z ≠ 0 := by
  have h0 : 0 < P x y z := lt_of_le_of_ne (hP _ _ _) (Ne.symm h)
  have h1 := h0.trans_le (le_mXZ hP x hy z)
  have h2 := h0.trans_le (le_mYZ hP hx y z)
  exact ⟨h1.ne', h2.ne', (h1.trans_le (mXZ_le_mZ hP hx z)).ne'⟩

theorem cmi_term (hP : ∀ x y z, 0 ≤ P x y z) {x : α} (hx : x ∈ A) {y : β} (hy : y ∈ B) (z : γ) :
    P x y z * log (P x y z * mZ A B P z / (mXZ B P x z * mYZ A P y z)) =
      P x y z * log (P x y z / indep A B P x y z) := by
  by_cases h : P x y z = 0
  · simp [h]
  · obtain ⟨h1, h2, h3⟩ := ne_of_P_ne hP hx hy h
    congr 2
    unfold indep
    field_simp

theorem sum_indep (hP : ∀ x y z, 0 ≤ P x y z) (z : γ) :
    ∑ x ∈ A, ∑ y ∈ B, indep A B P x y z = mZ A B P z := by
  have h : ∑ x ∈ A, ∑ y ∈ B, indep A B P x y z =
      (∑ x ∈ A, mXZ B P x z) * (∑ y ∈ B, mYZ A P y z) / mZ A B P z := by
    rw [sum_mul_sum, sum_div]
    refine sum_congr rfl (fun x _ => ?_)
    rw [sum_div]
    rfl
  rw [h, sum_mXZ, sum_mYZ]
  by_cases h0 : mZ A B P z = 0
  · simp [h0]
  · field_simp

theorem slack_sum (hP : ∀ x y z, 0 ≤ P x y z) :
    ∑ z ∈ C, ∑ x ∈ A, ∑ y ∈ B, (P x y z * log (P x y z / indep A B P x y z) -
      (P x y z - indep A B P x y z)) = cmi A B C P := by
  simp only [sum_sub_distrib, sum_indep hP]
  have : ∑ z ∈ C, ∑ x ∈ A, ∑ y ∈ B, P x y z = ∑ z ∈ C, mZ A B P z := rfl
  rw [this, sub_self, sub_zero]
  unfold cmi
  refine sum_congr rfl (fun z _ => sum_congr rfl (fun x hx => sum_congr rfl (fun y hy => ?_)))
  rw [cmi_term hP hx hy]

theorem indep_ne (hP : ∀ x y z, 0 ≤ P x y z) {x : α} (hx : x ∈ A) {y : β} (hy : y ∈ B) {z : γ}
    (h : P x y z ≠ 0) : indep A B P x y z ≠ 0 := by
  obtain ⟨h1, h2, h3⟩ := ne_of_P_ne hP hx hy h
  exact div_ne_zero (mul_ne_zero h1 h2) h3

theorem slack_nonneg (hP : ∀ x y z, 0 ≤ P x y z) {x : α} (hx : x ∈ A) {y : β} (hy : y ∈ B)
    (z : γ) : 0 ≤ P x y z * log (P x y z / indep A B P x y z) -
      (P x y z - indep A B P x y z) :=
  sub_nonneg.2 (term_ge (hP _ _ _) (indep_nonneg hP _ _ _) (indep_ne hP hx hy))

/-- Conditional mutual information is never negative. -/
theorem cmi_nonneg (hP : ∀ x y z, 0 ≤ P x y z) : 0 ≤ cmi A B C P := by
  rw [← slack_sum hP]
  exact sum_nonneg fun z _ => sum_nonneg fun x hx => sum_nonneg fun y hy =>
    slack_nonneg hP hx hy z

/-- It is zero exactly when `X` and `Y` are independent given `Z`. -/
theorem cmi_eq_zero_iff (hP : ∀ x y z, 0 ≤ P x y z) :
    cmi A B C P = 0 ↔ ∀ z ∈ C, ∀ x ∈ A, ∀ y ∈ B,
      P x y z * mZ A B P z = mXZ B P x z * mYZ A P y z := by
  have key : ∀ z, ∀ x ∈ A, ∀ y ∈ B, (P x y z = indep A B P x y z ↔
      P x y z * mZ A B P z = mXZ B P x z * mYZ A P y z) := by
    intro z x hx y hy
    unfold indep
    by_cases h : mZ A B P z = 0
    · have hx0 : mXZ B P x z = 0 :=
        le_antisymm (h ▸ mXZ_le_mZ hP hx z) (mXZ_nonneg hP _ _)
      have hp0 : P x y z = 0 := le_antisymm (hx0 ▸ le_mXZ hP x hy z) (hP _ _ _)
      simp [h, hx0, hp0]
    · rw [eq_div_iff h]
  constructor
  · intro h
    rw [← slack_sum hP] at h
    intro z hz x hx y hy
    rw [← key z x hx y hy]
    have h1 := (sum_eq_zero_iff_of_nonneg (fun z _ => sum_nonneg fun x hx => sum_nonneg fun y hy =>
      slack_nonneg hP hx hy z)).1 h z hz
    have h2 := (sum_eq_zero_iff_of_nonneg (fun x hx => sum_nonneg fun y hy =>
      slack_nonneg hP hx hy z)).1 h1 x hx
    have h3 := (sum_eq_zero_iff_of_nonneg (fun y hy => slack_nonneg hP hx hy z)).1 h2 y hy
    exact term_eq (hP _ _ _) (indep_nonneg hP _ _ _) (indep_ne hP hx hy) (by linarith)
  · intro h
    rw [← slack_sum hP]
    refine sum_eq_zero (fun z hz => sum_eq_zero (fun x hx => sum_eq_zero (fun y hy => ?_)))
    have e := (key z x hx y hy).2 (h z hz x hx y hy)
    rw [← e, sub_self, sub_zero]
    by_cases h0 : P x y z = 0
    · simp [h0]
    · simp [div_self h0]

/-- `X` and `Y` play symmetric roles. -/
theorem cmi_symm : cmi A B C P = cmi B A C (fun y x z => P x y z) := by
  unfold cmi
  refine sum_congr rfl (fun z _ => ?_)
  rw [sum_comm]
  refine sum_congr rfl (fun y _ => sum_congr rfl (fun x _ => ?_))
  have : mZ B A (fun y x z => P x y z) z = mZ A B P z := sum_comm
  rw [this, mul_comm (mXZ B P x z)]
  rfl

/-- `H(Y,Z) + H(X,Z) - H(X,Y,Z) - H(Z)`, with `H = -Σ p log p`. -/
theorem cmi_eq_entropies (hP : ∀ x y z, 0 ≤ P x y z) :
    cmi A B C P =
      -(∑ z ∈ C, ∑ y ∈ B, mYZ A P y z * log (mYZ A P y z)) +
      -(∑ z ∈ C, ∑ x ∈ A, mXZ B P x z * log (mXZ B P x z)) -
      -(∑ z ∈ C, ∑ x ∈ A, ∑ y ∈ B, P x y z * log (P x y z)) -
      -(∑ z ∈ C, mZ A B P z * log (mZ A B P z)) := by
  have e1 : ∀ z, ∑ y ∈ B, mYZ A P y z * log (mYZ A P y z) =
      ∑ x ∈ A, ∑ y ∈ B, P x y z * log (mYZ A P y z) := by
    intro z
    rw [sum_comm]
    exact sum_congr rfl (fun y _ => by rw [← sum_mul]; rfl)
  have e2 : ∀ z, ∑ x ∈ A, mXZ B P x z * log (mXZ B P x z) =
      ∑ x ∈ A, ∑ y ∈ B, P x y z * log (mXZ B P x z) := by
    intro z
    exact sum_congr rfl (fun x _ => by rw [← sum_mul]; rfl)
  have e3 : ∀ z, mZ A B P z * log (mZ A B P z) =
      ∑ x ∈ A, ∑ y ∈ B, P x y z * log (mZ A B P z) := by
    intro z
    simp only [← sum_mul]; rfl
  simp only [e1, e2, e3]
  simp only [← sum_neg_distrib, ← sum_add_distrib, ← sum_sub_distrib]
  refine sum_congr rfl (fun z _ => sum_congr rfl (fun x hx => sum_congr rfl (fun y hy => ?_)))
  by_cases h : P x y z = 0
  · simp [h]
  · obtain ⟨h1, h2, h3⟩ := ne_of_P_ne hP hx hy h
    rw [log_div (mul_ne_zero h h3) (mul_ne_zero h1 h2), log_mul h h3, log_mul h1 h2]
    ring

end Mbtk.Stats.Info
