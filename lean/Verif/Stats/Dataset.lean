import Verif.Stats.Spec
import Verif.Stats.Info
import Mathlib.Algebra.BigOperators.Field
import Mathlib.Algebra.BigOperators.Ring.Finset
/-!
# Facts about empirical frequencies

Everything here is about `Stats.Spec` only (no code).
-/
namespace Mbtk.Stats.Spec
open Mbtk.ADTree (Data)
open Mbtk.ADTree.Spec (rowsWith)
open Finset Real

theorem rowsWith_eq_card (D : Data) (P : Nat → Prop) [DecidablePred P] :
    rowsWith D P = ((range D.nrows).filter P).card := by
  unfold rowsWith
  rw [← List.toFinset_card_of_nodup (List.nodup_range.filter _)]
  congr 1
  ext r
  simp

theorem freq_nonneg (D : Data) (cols : List Nat) (vals : List Int) : 0 ≤ freq D cols vals := by
  unfold freq; positivity

theorem freq_congr (D : Data) {cols cols' : List Nat} {vals vals' : List Int}
    (h : ∀ r < D.nrows, cols.map (D.cell r) = vals ↔ cols'.map (D.cell r) = vals') :
    freq D cols vals = freq D cols' vals' := by
  unfold freq
  rw [rowsWith_eq_card, rowsWith_eq_card]
  congr 3
  ext r
  simp only [mem_filter, mem_range]
  exact and_congr_right (fun hr => h r hr)

theorem freq_ne_zero_iff (D : Data) (cols : List Nat) (vals : List Int) :
    freq D cols vals ≠ 0 ↔ vals ∈ observed D cols := by
  unfold freq
  rw [rowsWith_eq_card]
  simp only [ne_eq, div_eq_zero_iff, Nat.cast_eq_zero, card_eq_zero, not_or, observed, mem_image,
    mem_range]
  constructor
  · rintro ⟨h1, h2⟩
    obtain ⟨r, hr⟩ := nonempty_iff_ne_empty.2 h1
    simp only [mem_filter, mem_range] at hr
    exact ⟨r, hr.1, hr.2⟩
  · rintro ⟨r, hr, e⟩
    refine ⟨nonempty_iff_ne_empty.1 ⟨r, by simp [hr, e]⟩, ?_⟩
    omega

theorem freq_length (D : Data) {cols : List Nat} {vals : List Int}
    (h : freq D cols vals ≠ 0) : vals.length = cols.length := by
  obtain ⟨r, _, e⟩ := mem_image.1 ((freq_ne_zero_iff D cols vals).1 h)
  rw [← e]; simp

theorem observed_length (D : Data) {cols : List Nat} {vals : List Int}
    (h : vals ∈ observed D cols) : vals.length = cols.length := by
  obtain ⟨r, _, e⟩ := mem_image.1 h
  rw [← e]; simp

theorem freq_swap (D : Data) (X Y : Nat) (Z : List Nat) (x y : Int) (z : List Int) :
    freq D (X :: Y :: Z) (x :: y :: z) = freq D (Y :: X :: Z) (y :: x :: z) := by
  apply freq_congr
  intro r _
  simp only [List.map_cons, List.cons.injEq]
  tauto

/-- Summing a joint frequency over one variable gives the marginal frequency. -/
theorem sum_freq (D : Data) (c : Nat) (cols : List Nat) (vals : List Int) :
    ∑ v ∈ values D c, freq D (c :: cols) (v :: vals) = freq D cols vals := by
  unfold freq
  rw [← sum_div, ← Nat.cast_sum]
  congr 2
  simp only [rowsWith_eq_card]
  rw [card_eq_sum_card_fiberwise (f := fun r => D.cell r c) (t := values D c)
    (s := (range D.nrows).filter (fun r => cols.map (D.cell r) = vals))]
  · refine sum_congr rfl (fun v _ => ?_)
    congr 1
    ext r
    simp only [mem_filter, mem_range, List.map_cons, List.cons.injEq]
    tauto
  · intro r hr
    simp only [coe_filter, mem_range, Set.mem_ofPred_eq] at hr
    exact mem_coe.2 (mem_image.2 ⟨r, mem_range.2 hr.1, rfl⟩)

theorem sum_freq_snd (D : Data) (X Y : Nat) (Z : List Nat) (x : Int) (z : List Int) :
    ∑ y ∈ values D Y, freq D (X :: Y :: Z) (x :: y :: z) = freq D (X :: Z) (x :: z) := by
  rw [← sum_freq D Y (X :: Z) (x :: z)]
  exact sum_congr rfl (fun y _ => freq_swap D X Y Z x y z)

theorem freq_nil (D : Data) (h : D.nrows ≠ 0) : freq D [] [] = 1 := by
  unfold freq
  rw [rowsWith_eq_card]
  simp [h]

theorem mem_values_of_freq (D : Data) {c : Nat} {cols : List Nat} {v : Int} {vals : List Int}
    (h : freq D (c :: cols) (v :: vals) ≠ 0) : v ∈ values D c := by
  obtain ⟨r, hr, e⟩ := mem_image.1 ((freq_ne_zero_iff D _ _).1 h)
  simp only [List.map_cons, List.cons.injEq] at e
  exact mem_image.2 ⟨r, hr, e.1⟩

theorem mem_observed_tail (D : Data) {c : Nat} {cols : List Nat} {v : Int} {vals : List Int}
    (h : v :: vals ∈ observed D (c :: cols)) : vals ∈ observed D cols := by
  obtain ⟨r, hr, e⟩ := mem_image.1 h
  simp only [List.map_cons, List.cons.injEq] at e
  exact mem_image.2 ⟨r, hr, e.2⟩

/-- The joint table as a function of three arguments.
(Models no code: a notion for statements and proofs.) -/
def joint3 (D : Data) (X Y : Nat) (Z : List Nat) (x y : Int) (z : List Int) : ℚ :=
  freq D (X :: Y :: Z) (x :: y :: z)

theorem joint3_nonneg (D : Data) (X Y : Nat) (Z : List Nat) (x y : Int) (z : List Int) :
    0 ≤ joint3 D X Y Z x y z := freq_nonneg _ _ _

theorem sum_joint3_y (D : Data) (X Y : Nat) (Z : List Nat) (x : Int) (z : List Int) :
    ∑ y ∈ values D Y, joint3 D X Y Z x y z = freq D (X :: Z) (x :: z) := sum_freq_snd D X Y Z x z

theorem sum_joint3_x (D : Data) (X Y : Nat) (Z : List Nat) (y : Int) (z : List Int) :
    ∑ x ∈ values D X, joint3 D X Y Z x y z = freq D (Y :: Z) (y :: z) := sum_freq D X _ _

theorem sum_joint3_xy (D : Data) (X Y : Nat) (Z : List Nat) (z : List Int) :
    ∑ x ∈ values D X, ∑ y ∈ values D Y, joint3 D X Y Z x y z = freq D Z z := by
  simp only [sum_joint3_y]
  exact sum_freq D X _ _

theorem cast_mXZ (D : Data) (X Y : Nat) (Z : List Nat) (x : Int) (z : List Int) :
    Info.mXZ (values D Y) (fun x y z => (joint3 D X Y Z x y z : ℝ)) x z =
      (freq D (X :: Z) (x :: z) : ℝ) := by
  rw [← sum_joint3_y D X Y Z]; push_cast; rfl

theorem cast_mYZ (D : Data) (X Y : Nat) (Z : List Nat) (y : Int) (z : List Int) :
    Info.mYZ (values D X) (fun x y z => (joint3 D X Y Z x y z : ℝ)) y z =
      (freq D (Y :: Z) (y :: z) : ℝ) := by
  rw [← sum_joint3_x D X Y Z]; push_cast; rfl

theorem cast_mZ (D : Data) (X Y : Nat) (Z : List Nat) (z : List Int) :
    Info.mZ (values D X) (values D Y) (fun x y z => (joint3 D X Y Z x y z : ℝ)) z =
      (freq D Z z : ℝ) := by
  rw [← sum_joint3_xy D X Y Z]; push_cast; rfl

theorem cmi_eq_info (D : Data) (X Y : Nat) (Z : List Nat) :
    cmi D X Y Z = Info.cmi (values D X) (values D Y) (observed D Z)
      (fun x y z => (joint3 D X Y Z x y z : ℝ)) := by
  unfold cmi Info.cmi
  simp only [cast_mXZ, cast_mYZ, cast_mZ]
  rfl

theorem joint3_cast_nonneg (D : Data) (X Y : Nat) (Z : List Nat) :
    ∀ x y z, (0 : ℝ) ≤ (fun x y z => (joint3 D X Y Z x y z : ℝ)) x y z := by
  intro x y z
  have := joint3_nonneg D X Y Z x y z
  show (0 : ℝ) ≤ (joint3 D X Y Z x y z : ℝ)
  exact_mod_cast this

/-- The conditional mutual information of a dataset is never negative. -/
theorem cmi_nonneg (D : Data) (X Y : Nat) (Z : List Nat) : 0 ≤ cmi D X Y Z := by
  rw [cmi_eq_info]; exact Info.cmi_nonneg (joint3_cast_nonneg D X Y Z)

theorem cmi_symm (D : Data) (X Y : Nat) (Z : List Nat) : cmi D X Y Z = cmi D Y X Z := by
  rw [cmi_eq_info, cmi_eq_info, Info.cmi_symm]
  congr 1
  funext y x z
  unfold joint3
  rw [freq_swap]

theorem cmi_eq_zero_iff (D : Data) (X Y : Nat) (Z : List Nat) :
    cmi D X Y Z = 0 ↔ Independent D X Y Z := by
  rw [cmi_eq_info, Info.cmi_eq_zero_iff (joint3_cast_nonneg D X Y Z)]
  simp only [cast_mXZ, cast_mYZ, cast_mZ]
  unfold Independent joint3
  constructor
  · intro h x y z
    by_cases hz : z ∈ observed D Z
    · by_cases hx : x ∈ values D X
      · by_cases hy : y ∈ values D Y
        · have := h z hz x hx y hy
          exact_mod_cast this
        · have h1 : freq D (Y :: Z) (y :: z) = 0 := by
            by_contra hne; exact hy (mem_values_of_freq D hne)
          have h2 : freq D (X :: Y :: Z) (x :: y :: z) = 0 := by
            rw [freq_swap]
            by_contra hne; exact hy (mem_values_of_freq D hne)
          rw [h1, h2]; ring
      · have h1 : freq D (X :: Z) (x :: z) = 0 := by
          by_contra hne; exact hx (mem_values_of_freq D hne)
        have h2 : freq D (X :: Y :: Z) (x :: y :: z) = 0 := by
          by_contra hne; exact hx (mem_values_of_freq D hne)
        rw [h1, h2]; ring
    · have h0 : freq D Z z = 0 := by
        by_contra hne; exact hz ((freq_ne_zero_iff D _ _).1 hne)
      have h1 : freq D (X :: Z) (x :: z) = 0 := by
        by_contra hne
        exact hz (mem_observed_tail D ((freq_ne_zero_iff D _ _).1 hne))
      rw [h0, h1]; ring
  · intro h z _ x _ y _
    have := h x y z
    exact_mod_cast this

/-- Splitting the entropy sum by the first variable. -/
theorem sum_observed_cons (D : Data) (c : Nat) (cols : List Nat) (G : ℝ → ℝ) (hG : G 0 = 0) :
    ∑ k ∈ observed D (c :: cols), G (freq D (c :: cols) k : ℝ) =
      ∑ z ∈ observed D cols, ∑ x ∈ values D c, G (freq D (c :: cols) (x :: z) : ℝ) := by
  rw [sum_sigma']
  symm
  apply sum_subset_zero_on_sdiff (s₁ := ((observed D cols).sigma (fun _ => values D c)).filter
    (fun p => p.2 :: p.1 ∈ observed D (c :: cols))) (filter_subset _ _) ?_ (fun _ _ => rfl) |>.symm.trans
  · refine sum_bij (fun p _ => p.2 :: p.1) ?_ ?_ ?_ ?_
    · intro p hp; exact (mem_filter.1 hp).2
    · rintro ⟨z, x⟩ _ ⟨z', x'⟩ _ h
      simp only [List.cons.injEq] at h
      obtain ⟨rfl, rfl⟩ := h
      rfl
    · intro k hk
      match k, hk with
      | [], hk => have := observed_length D hk; simp at this
      | x :: z, hk =>
        refine ⟨⟨z, x⟩, mem_filter.2 ⟨mem_sigma.2 ⟨mem_observed_tail D hk, ?_⟩, hk⟩, rfl⟩
        exact mem_values_of_freq D ((freq_ne_zero_iff D _ _).2 hk)
    · intro p _; rfl
  · intro p hp
    rw [mem_sdiff, mem_filter] at hp
    have : freq D (c :: cols) (p.2 :: p.1) = 0 := by
      by_contra hne
      exact hp.2 ⟨hp.1, (freq_ne_zero_iff D _ _).1 hne⟩
    rw [this]; simpa using hG

/-- The four-entropy formula. -/
theorem cmi_eq_entropies (D : Data) (X Y : Nat) (Z : List Nat) :
    cmi D X Y Z =
      entropy D (Y :: Z) + entropy D (X :: Z) - entropy D (X :: Y :: Z) - entropy D Z := by
  rw [cmi_eq_info, Info.cmi_eq_entropies (joint3_cast_nonneg D X Y Z)]
  simp only [cast_mXZ, cast_mYZ, cast_mZ]
  unfold entropy
  have e1 := sum_observed_cons D Y Z (fun p => p * log p) (by simp)
  have e2 := sum_observed_cons D X Z (fun p => p * log p) (by simp)
  have e3 := sum_observed_cons D X (Y :: Z) (fun p => p * log p) (by simp)
  rw [e1, e2, e3]
  congr 3
  -- reorganise the triple sum
  have step : ∀ x, ∑ z ∈ observed D (Y :: Z), (fun p => p * log p)
        (freq D (X :: Y :: Z) (x :: z) : ℝ) =
      ∑ z ∈ observed D Z, ∑ y ∈ values D Y, (fun p => p * log p)
        (freq D (X :: Y :: Z) (x :: y :: z) : ℝ) := by
    intro x
    rw [sum_sigma']
    symm
    apply sum_subset_zero_on_sdiff (s₁ := ((observed D Z).sigma (fun _ => values D Y)).filter
      (fun p => p.2 :: p.1 ∈ observed D (Y :: Z))) (filter_subset _ _) ?_ (fun _ _ => rfl)
      |>.symm.trans
    · refine sum_bij (fun p _ => p.2 :: p.1) ?_ ?_ ?_ ?_
      · intro p hp; exact (mem_filter.1 hp).2
      · rintro ⟨z, x⟩ _ ⟨z', x'⟩ _ h
        simp only [List.cons.injEq] at h
        obtain ⟨rfl, rfl⟩ := h
        rfl
      · intro k hk
        match k, hk with
        | [], hk => have := observed_length D hk; simp at this
        | x :: z, hk =>
          refine ⟨⟨z, x⟩, mem_filter.2 ⟨mem_sigma.2 ⟨mem_observed_tail D hk, ?_⟩, hk⟩, rfl⟩
          exact mem_values_of_freq D ((freq_ne_zero_iff D _ _).2 hk)
      · intro p _; rfl
    · intro p hp
      rw [mem_sdiff, mem_filter] at hp
      have : freq D (X :: Y :: Z) (x :: p.2 :: p.1) = 0 := by
        by_contra hne
        exact hp.2 ⟨hp.1, mem_observed_tail D ((freq_ne_zero_iff D _ _).1 hne)⟩
      simp [this]
  rw [sum_comm, sum_comm (s := observed D (Y :: Z))]
  refine sum_congr rfl (fun x _ => ?_)
  rw [step x]
  rfl

/-! ## Order of the variables does not matter -/

/-- Values of the columns `cols'`, read off a value list for `cols`.
(Models no code: a notion for statements and proofs.) -/
def reorder (cols cols' : List Nat) (z : List Int) : List Int :=
  cols'.map (fun c => (z[cols.idxOf c]?).getD 0)

theorem reorder_row (D : Data) {cols cols' : List Nat} (h : ∀ c ∈ cols', c ∈ cols) (r : Nat) :
    reorder cols cols' (cols.map (D.cell r)) = cols'.map (D.cell r) := by
  unfold reorder
  apply List.map_congr_left
  intro c hc
  have hi := List.idxOf_lt_length_of_mem (h c hc)
  rw [List.getElem?_map, List.getElem?_eq_getElem hi]
  simp

theorem reorder_iff (D : Data) {cols cols' : List Nat} (h : ∀ c, c ∈ cols ↔ c ∈ cols')
    {z : List Int} (hz : z ∈ observed D cols) (r : Nat) :
    cols'.map (D.cell r) = reorder cols cols' z ↔ cols.map (D.cell r) = z := by
  obtain ⟨r0, _, rfl⟩ := mem_image.1 hz
  rw [reorder_row D (fun c hc => (h c).2 hc)]
  constructor
  · intro e
    apply List.map_congr_left
    intro c hc
    exact List.map_inj_left.1 e c ((h c).1 hc)
  · intro e
    apply List.map_congr_left
    intro c hc
    exact List.map_inj_left.1 e c ((h c).2 hc)

theorem sum_observed_reorder (D : Data) {cols cols' : List Nat} (h : ∀ c, c ∈ cols ↔ c ∈ cols')
    {M : Type} [AddCommMonoid M] (F : List Int → M) :
    ∑ z ∈ observed D cols', F z = ∑ z ∈ observed D cols, F (reorder cols cols' z) := by
  symm
  refine sum_bij (fun z _ => reorder cols cols' z) ?_ ?_ ?_ (fun _ _ => rfl)
  · intro z hz
    obtain ⟨r, hr, rfl⟩ := mem_image.1 hz
    rw [reorder_row D (fun c hc => (h c).2 hc)]
    exact mem_image.2 ⟨r, hr, rfl⟩
  · intro z hz z' hz' e
    obtain ⟨r, hr, rfl⟩ := mem_image.1 hz
    have := (reorder_iff D h hz' r).1 (by rw [← e, reorder_row D (fun c hc => (h c).2 hc)])
    exact this
  · intro z hz
    obtain ⟨r, hr, rfl⟩ := mem_image.1 hz
    exact ⟨cols.map (D.cell r), mem_image.2 ⟨r, hr, rfl⟩,
      reorder_row D (fun c hc => (h c).2 hc) r⟩

theorem freq_reorder (D : Data) {cols cols' : List Nat} (h : ∀ c, c ∈ cols ↔ c ∈ cols')
    {z : List Int} (hz : z ∈ observed D cols) :
    freq D cols' (reorder cols cols' z) = freq D cols z :=
  freq_congr D (fun r _ => reorder_iff D h hz r)

theorem freq_cons_reorder (D : Data) {cols cols' : List Nat} (h : ∀ c, c ∈ cols ↔ c ∈ cols')
    {z : List Int} (hz : z ∈ observed D cols) (X : Nat) (x : Int) :
    freq D (X :: cols') (x :: reorder cols cols' z) = freq D (X :: cols) (x :: z) := by
  apply freq_congr
  intro r _
  simp only [List.map_cons, List.cons.injEq, reorder_iff D h hz r]

theorem freq_cons2_reorder (D : Data) {cols cols' : List Nat} (h : ∀ c, c ∈ cols ↔ c ∈ cols')
    {z : List Int} (hz : z ∈ observed D cols) (X Y : Nat) (x y : Int) :
    freq D (X :: Y :: cols') (x :: y :: reorder cols cols' z) =
      freq D (X :: Y :: cols) (x :: y :: z) := by
  apply freq_congr
  intro r _
  simp only [List.map_cons, List.cons.injEq, reorder_iff D h hz r]

/-- The order (and repetition) of the conditioning variables does not matter. -/
theorem cmi_perm (D : Data) (X Y : Nat) {Z Z' : List Nat} (h : ∀ c, c ∈ Z ↔ c ∈ Z') :
    cmi D X Y Z' = cmi D X Y Z := by
  unfold cmi
  rw [sum_observed_reorder D h]
  refine sum_congr rfl (fun z hz => ?_)
  simp only [freq_reorder D h hz, freq_cons_reorder D h hz, freq_cons2_reorder D h hz]

theorem entropy_perm (D : Data) {cols cols' : List Nat} (h : ∀ c, c ∈ cols ↔ c ∈ cols') :
    entropy D cols' = entropy D cols := by
  unfold entropy
  rw [sum_observed_reorder D h]
  congr 1
  refine sum_congr rfl (fun z hz => ?_)
  simp only [freq_reorder D h hz]

theorem dof_perm (D : Data) (X Y : Nat) {Z Z' : List Nat} (h : ∀ c, c ∈ Z ↔ c ∈ Z') :
    dof D X Y Z' = dof D X Y Z := by
  unfold dof
  rw [sum_observed_reorder D h]
  congr 1
  refine sum_congr rfl (fun z hz => ?_)
  unfold valuesGiven
  simp only [reorder_iff D h hz]

theorem dof_symm (D : Data) (X Y : Nat) (Z : List Nat) : dof D X Y Z = dof D Y X Z := by
  unfold dof
  congr 1
  exact sum_congr rfl (fun z _ => Nat.mul_comm _ _)

theorem entropy_nil (D : Data) : entropy D [] = 0 := by
  unfold entropy
  rw [neg_eq_zero]
  refine sum_eq_zero (fun k hk => ?_)
  have hk0 : k = [] := by simpa using observed_length D hk
  subst hk0
  have hn : D.nrows ≠ 0 := by
    obtain ⟨r, hr, _⟩ := mem_image.1 hk
    have := mem_range.1 hr; omega
  rw [freq_nil D hn]; simp

theorem mem_valuesGiven (D : Data) (c : Nat) (Z : List Nat) (z : List Int) (v : Int) :
    v ∈ valuesGiven D c Z z ↔ freq D (c :: Z) (v :: z) ≠ 0 := by
  rw [freq_ne_zero_iff]
  unfold valuesGiven observed
  simp only [mem_image, mem_filter, mem_range, List.map_cons, List.cons.injEq]
  constructor
  · rintro ⟨r, ⟨hr, hz⟩, hv⟩; exact ⟨r, hr, hv, hz⟩
  · rintro ⟨r, hr, hv, hz⟩; exact ⟨r, ⟨hr, hz⟩, hv⟩

theorem valuesGiven_pos (D : Data) (c : Nat) {Z : List Nat} {z : List Int}
    (hz : z ∈ observed D Z) : 1 ≤ (valuesGiven D c Z z).card := by
  obtain ⟨r, hr, e⟩ := mem_image.1 hz
  exact card_pos.2 ⟨D.cell r c, mem_image.2 ⟨r, mem_filter.2 ⟨hr, e⟩, rfl⟩⟩

end Mbtk.Stats.Spec
