import Verif.Stats.Info
import Mathlib.Analysis.SpecialFunctions.Log.NegMulLog
import Mathlib.Analysis.SpecialFunctions.Pow.NNReal
/-!
# How far the conditional mutual information can be off (for C92)

If each elementary event has nearly the right probability, so has every entropy and the conditional mutual
information nearly the right value, with an explicit bound.
-/
namespace Mbtk.Stats.Info
open Finset Real

/-- `x log x` as a modulus of continuity: square root. -/
theorem mul_log_close {x y : ℝ} (hx : 0 ≤ x) (hy : 0 ≤ y) (hx1 : x ≤ 1) (hy1 : y ≤ 1) :
    |x * log x - y * log y| ≤ 2 * √|x - y| := by
  wlog hxy : x ≤ y generalizing x y
  · rw [abs_sub_comm, abs_sub_comm x y]
    exact this hy hx hy1 hx1 (le_of_not_ge hxy)
  obtain ⟨t, ht, rfl⟩ : ∃ t, 0 ≤ t ∧ y = x + t := ⟨y - x, by linarith, by ring⟩
  have e : |x - (x + t)| = t := by rw [sub_add_cancel_left, abs_neg, abs_of_nonneg ht]
  rw [e]
  have ht1 : t ≤ 1 := by linarith
  rcases eq_or_lt_of_le ht with rfl | htp
  · simp
  have hyp : 0 < x + t := by linarith
  have hs : 0 < √t := Real.sqrt_pos.2 htp
  have hss : √t * √t = t := Real.mul_self_sqrt ht
  have hs1 : √t ≤ 1 := by rw [← Real.sqrt_one]; exact Real.sqrt_le_sqrt ht1
  have hts : t ≤ √t := by nlinarith
  rw [abs_le]
  constructor
  · -- (x+t) log (x+t) - x log x ≤ t
    have h1 : (x + t) * log (x + t) - x * log x ≤ t := by
      rcases eq_or_lt_of_le hx with rfl | hxp
      · simp only [zero_add, zero_mul, sub_zero]
        have := Real.log_nonpos ht ht1
        nlinarith
      · have hl : log ((x + t) / x) ≤ (x + t) / x - 1 := Real.log_le_sub_one_of_pos (by positivity)
        rw [Real.log_div hyp.ne' hxp.ne'] at hl
        have h2 : x * (log (x + t) - log x) ≤ t := by
          calc x * (log (x + t) - log x) ≤ x * ((x + t) / x - 1) := mul_le_mul_of_nonneg_left hl hx
            _ = t := by field_simp; ring
        have h3 : t * log (x + t) ≤ 0 := mul_nonpos_of_nonneg_of_nonpos ht (Real.log_nonpos hyp.le hy1)
        nlinarith
    linarith
  · -- x log x - (x+t) log (x+t) ≤ - t log t
    have h1 : x * log x - (x + t) * log (x + t) ≤ -(t * log t) := by
      have ha : t * log t ≤ t * log (x + t) :=
        mul_le_mul_of_nonneg_left (Real.log_le_log htp (by linarith)) ht
      have hb : x * log x ≤ x * log (x + t) := by
        rcases eq_or_lt_of_le hx with rfl | hxp
        · simp
        · exact mul_le_mul_of_nonneg_left (Real.log_le_log hxp (by linarith)) hx
      nlinarith
    have h2 : -(t * log t) ≤ 2 * √t := by
      have hl : log (1 / √t) ≤ 1 / √t - 1 := Real.log_le_sub_one_of_pos (by positivity)
      rw [Real.log_div one_ne_zero hs.ne', Real.log_one, zero_sub] at hl
      have h3 : log t = 2 * log (√t) := by
        conv_lhs => rw [← hss]
        rw [Real.log_mul hs.ne' hs.ne']; ring
      rw [h3]
      have h4 : t * -log (√t) ≤ t * (1 / √t - 1) := mul_le_mul_of_nonneg_left hl ht
      have h5 : t * (1 / √t - 1) = √t - t := by
        have : t * (1 / √t) = √t := by
          rw [mul_one_div, div_eq_iff hs.ne', hss]
        rw [mul_sub, this, mul_one]
      nlinarith
    linarith

section
variable {ι κ : Type} [DecidableEq κ]

/-- The probability that the elementary events in `I` give to the value `k` of `K`. (Specification.) -/
def mass (I : Finset ι) (K : ι → κ) (q : ι → ℝ) (k : κ) : ℝ := ∑ i ∈ I with K i = k, q i

theorem mass_mem {I : Finset ι} {K : ι → κ} {q : ι → ℝ} (hq : ∀ i ∈ I, 0 ≤ q i) (h1 : ∑ i ∈ I, q i ≤ 1) (k : κ) :
    0 ≤ mass I K q k ∧ mass I K q k ≤ 1 :=
  ⟨sum_nonneg (fun i hi => hq i (mem_filter.1 hi).1),
    (sum_le_sum_of_subset_of_nonneg (filter_subset _ _) (fun i hi _ => hq i hi)).trans h1⟩

theorem mass_outside {I : Finset ι} {K : ι → κ} {q : ι → ℝ} {k : κ} (hk : k ∉ I.image K) : mass I K q k = 0 := by
  unfold mass
  apply sum_eq_zero
  intro i hi
  rw [mem_filter] at hi
  exact absurd (mem_image.2 ⟨i, hi.1, hi.2⟩) hk

/-- The entropies of a quantity under two distributions of the elementary events. -/
theorem entropy_close {I : Finset ι} {K : ι → κ} {p q : ι → ℝ} (hp : ∀ i ∈ I, 0 ≤ p i) (hq : ∀ i ∈ I, 0 ≤ q i)
    (hp1 : ∑ i ∈ I, p i ≤ 1) (hq1 : ∑ i ∈ I, q i ≤ 1) (S : Finset κ) :
    |∑ k ∈ S, mass I K q k * log (mass I K q k) - ∑ k ∈ S, mass I K p k * log (mass I K p k)| ≤
      2 * √(I.card * ∑ i ∈ I, |q i - p i|) := by
  have hd : ∀ k, |mass I K q k - mass I K p k| ≤ ∑ i ∈ I with K i = k, |q i - p i| := by
    intro k
    unfold mass
    rw [← sum_sub_distrib]
    exact abs_sum_le_sum_abs _ _
  calc |∑ k ∈ S, mass I K q k * log (mass I K q k) - ∑ k ∈ S, mass I K p k * log (mass I K p k)|
      ≤ ∑ k ∈ S, |mass I K q k * log (mass I K q k) - mass I K p k * log (mass I K p k)| := by
        rw [← sum_sub_distrib]; exact abs_sum_le_sum_abs _ _
    _ ≤ ∑ k ∈ S, 2 * √|mass I K q k - mass I K p k| := by
        apply sum_le_sum
        intro k _
        exact mul_log_close (mass_mem hq hq1 k).1 (mass_mem hp hp1 k).1 (mass_mem hq hq1 k).2 (mass_mem hp hp1 k).2
    _ = ∑ k ∈ S with k ∈ I.image K, 2 * √|mass I K q k - mass I K p k| := by
        refine (sum_subset (filter_subset _ _) (fun k hk hn => ?_)).symm
        have : k ∉ I.image K := fun h => hn (mem_filter.2 ⟨hk, h⟩)
        rw [mass_outside this, mass_outside this]; simp
    _ ≤ ∑ k ∈ I.image K, 2 * √|mass I K q k - mass I K p k| := by
        apply sum_le_sum_of_subset_of_nonneg
        · intro k hk; exact (mem_filter.1 hk).2
        · intro k _ _; positivity
    _ = 2 * ∑ k ∈ I.image K, √1 * √|mass I K q k - mass I K p k| := by
        rw [mul_sum]; simp
    _ ≤ 2 * (√(∑ k ∈ I.image K, 1) * √(∑ k ∈ I.image K, |mass I K q k - mass I K p k|)) := by
        apply mul_le_mul_of_nonneg_left _ (by norm_num)
        exact Real.sum_sqrt_mul_sqrt_le _ (fun _ => zero_le_one) (fun _ => abs_nonneg _)
    _ ≤ 2 * √(I.card * ∑ i ∈ I, |q i - p i|) := by
        apply mul_le_mul_of_nonneg_left _ (by norm_num)
        rw [← Real.sqrt_mul (sum_nonneg (fun _ _ => zero_le_one))]
        apply Real.sqrt_le_sqrt
        have h1 : (∑ k ∈ I.image K, (1 : ℝ)) ≤ I.card := by
          rw [sum_const, nsmul_eq_mul, mul_one]
          exact_mod_cast card_image_le
        have h2 : ∑ k ∈ I.image K, |mass I K q k - mass I K p k| ≤ ∑ i ∈ I, |q i - p i| := by
          rw [← sum_fiberwise_of_maps_to (t := I.image K) (g := K) (fun i hi => mem_image_of_mem K hi)]
          exact sum_le_sum (fun k _ => hd k)
        exact mul_le_mul h1 h2 (sum_nonneg (fun _ _ => abs_nonneg _)) (Nat.cast_nonneg _)

end

section
variable {ι α β γ : Type} [DecidableEq α] [DecidableEq β] [DecidableEq γ]

/-- The conditional mutual information in terms of the elementary events. -/
theorem cmi_eq_mass {I : Finset ι} {X : ι → α} {Y : ι → β} {Z : ι → γ} {A : Finset α} {B : Finset β} {C : Finset γ}
    (hA : ∀ i ∈ I, X i ∈ A) (hB : ∀ i ∈ I, Y i ∈ B) {q : ι → ℝ} (hq : ∀ i ∈ I, 0 ≤ q i) :
    cmi A B C (fun x y z => mass I (fun i => (X i, Y i, Z i)) q (x, y, z)) =
      -(∑ k ∈ C ×ˢ B, mass I (fun i => (Z i, Y i)) q k * log (mass I (fun i => (Z i, Y i)) q k)) +
      -(∑ k ∈ C ×ˢ A, mass I (fun i => (Z i, X i)) q k * log (mass I (fun i => (Z i, X i)) q k)) -
      -(∑ k ∈ C ×ˢ (A ×ˢ B), mass I (fun i => (Z i, X i, Y i)) q k * log (mass I (fun i => (Z i, X i, Y i)) q k)) -
      -(∑ k ∈ C, mass I Z q k * log (mass I Z q k)) := by
  have e0 : ∀ x y z, mass I (fun i => (X i, Y i, Z i)) q (x, y, z) = mass I (fun i => (Z i, X i, Y i)) q (z, x, y) := by
    intro x y z
    unfold mass
    apply sum_congr _ (fun _ _ => rfl)
    ext i
    simp only [mem_filter, Prod.mk.injEq]
    tauto
  have sx : ∀ y z, ∑ x ∈ A, mass I (fun i => (X i, Y i, Z i)) q (x, y, z) = mass I (fun i => (Z i, Y i)) q (z, y) := by
    intro y z
    unfold mass
    rw [← sum_fiberwise_of_maps_to (s := {i ∈ I | (Z i, Y i) = (z, y)}) (t := A) (g := X)
      (fun i hi => hA i (mem_filter.1 hi).1)]
    apply sum_congr rfl
    intro x _
    apply sum_congr _ (fun _ _ => rfl)
    ext i
    simp only [mem_filter, Prod.mk.injEq]
    tauto
  have sy : ∀ x z, ∑ y ∈ B, mass I (fun i => (X i, Y i, Z i)) q (x, y, z) = mass I (fun i => (Z i, X i)) q (z, x) := by
    intro x z
    unfold mass
    rw [← sum_fiberwise_of_maps_to (s := {i ∈ I | (Z i, X i) = (z, x)}) (t := B) (g := Y)
      (fun i hi => hB i (mem_filter.1 hi).1)]
    apply sum_congr rfl
    intro y _
    apply sum_congr _ (fun _ _ => rfl)
    ext i
    simp only [mem_filter, Prod.mk.injEq]
    tauto
  have sxy : ∀ z, ∑ x ∈ A, mass I (fun i => (Z i, X i)) q (z, x) = mass I Z q z := by
    intro z
    unfold mass
    rw [← sum_fiberwise_of_maps_to (s := {i ∈ I | Z i = z}) (t := A) (g := X)
      (fun i hi => hA i (mem_filter.1 hi).1)]
    apply sum_congr rfl
    intro x _
    apply sum_congr _ (fun _ _ => rfl)
    ext i
    simp only [mem_filter, Prod.mk.injEq]
    tauto
  have hP : ∀ x y z, 0 ≤ mass I (fun i => (X i, Y i, Z i)) q (x, y, z) :=
    fun x y z => sum_nonneg (fun i hi => hq i (mem_filter.1 hi).1)
  rw [cmi_eq_entropies (P := fun x y z => mass I (fun i => (X i, Y i, Z i)) q (x, y, z)) hP]
  unfold mZ mXZ mYZ
  simp only [sx, sy, sxy]
  simp only [e0]
  simp only [sum_product]

/-- The conditional mutual information under two distributions of the elementary events. -/
theorem cmi_close {I : Finset ι} {X : ι → α} {Y : ι → β} {Z : ι → γ} {A : Finset α} {B : Finset β} {C : Finset γ}
    (hA : ∀ i ∈ I, X i ∈ A) (hB : ∀ i ∈ I, Y i ∈ B) {p q : ι → ℝ} (hp : ∀ i ∈ I, 0 ≤ p i) (hq : ∀ i ∈ I, 0 ≤ q i)
    (hp1 : ∑ i ∈ I, p i ≤ 1) (hq1 : ∑ i ∈ I, q i ≤ 1) :
    |cmi A B C (fun x y z => mass I (fun i => (X i, Y i, Z i)) q (x, y, z)) -
      cmi A B C (fun x y z => mass I (fun i => (X i, Y i, Z i)) p (x, y, z))| ≤
      8 * √(I.card * ∑ i ∈ I, |q i - p i|) := by
  rw [cmi_eq_mass hA hB hq, cmi_eq_mass hA hB hp]
  have h1 := abs_le.1 (entropy_close (K := fun i => (Z i, Y i)) hp hq hp1 hq1 (C ×ˢ B))
  have h2 := abs_le.1 (entropy_close (K := fun i => (Z i, X i)) hp hq hp1 hq1 (C ×ˢ A))
  have h3 := abs_le.1 (entropy_close (K := fun i => (Z i, X i, Y i)) hp hq hp1 hq1 (C ×ˢ (A ×ˢ B)))
  have h4 := abs_le.1 (entropy_close (K := Z) hp hq hp1 hq1 C)
  rw [abs_le]
  constructor <;> linarith [h1.1, h1.2, h2.1, h2.2, h3.1, h3.2, h4.1, h4.2]

end

end Mbtk.Stats.Info
