import Verif.Fp.MiData
/-!
# Selection of features with scores in floating point (C96)
-/
namespace Mbtk.Fp
open Mbtk Mbtk.Stats Mbtk.Stats.Spec
open Mbtk.ADTree (Data)
open Real (log)

/-! ## Model: the binary variant -/

/-- `calculate_pmf__binary(X)[v]`: IGt.py 79-84. -/
def binaryPmfF (X : List Int) (v : Bool) : ℚ :=
  let p1 := fl (fl (npSum X : ℚ) / fl (X.length : ℚ))
  if v then p1 else fl (1 - p1)

/-- `calculate_joint_pmf2__binary(X, Y)[(x, y)]`: IGt.py 88-97. -/
def binaryJointF (X Y : List Int) (x y : Bool) : ℚ :=
  fl (fl (npSum (npAnd (if x then X else npNot X) (if y then Y else npNot Y)) : ℚ) / fl (X.length : ℚ))

/-- `pmi(x, y)`: IGt.py 67-73. -/
def binaryPmiF (flog2 : ℚ → ℚ) (X Y : List Int) (x y : Bool) : ℚ :=
  if binaryJointF X Y x y = 0 ∨ fl (binaryPmfF X x * binaryPmfF Y y) = 0 then 0
  else miTermF flog2 (binaryJointF X Y x y) (binaryPmfF X x) (binaryPmfF Y y)

/-- `MI__binary(X, Y)`: IGt.py 62-75. -/
def miBinaryF (flog2 : ℚ → ℚ) (X Y : List Int) : ℚ :=
  fl (fl (fl (binaryPmiF flog2 X Y false false + binaryPmiF flog2 X Y false true) +
    binaryPmiF flog2 X Y true false) + binaryPmiF flog2 X Y true true)

/-- `algorithm_IGt__binary(datasetmatrix, parameters)`: IGt.py 45-58. -/
noncomputable def igtBinaryF (flog2 : ℚ → ℚ) (X Y : Data) (objective : Nat) (Q : Int) : List Nat :=
  (sliceFromZero (sortDescending ((List.range X.ncols).map (fun f =>
    (f, (miBinaryF flog2 (columnVector X f) (columnVector Y objective) : ℝ))))) Q).map Prod.fst

/-! ## Specification -/

/-- The error allowed for the mutual information of two binary vectors. (Specification.) -/
noncomputable def binaryError (xs : List Int) : ℝ := 100 * (log xs.length / log 2 + 2) / 2 ^ 53

/-- The scores tell any two features apart by more than the errors allowed, except features whose columns
are the same. (Specification.) -/
def WellSeparated (X Y : Data) (objective : Nat) (bound : Nat → ℝ) : Prop :=
  ∀ f < X.ncols, ∀ g < X.ncols, columnVector X f = columnVector X g ∨
    bound f + bound g < |mi (columnVector X f) (columnVector Y objective) -
      mi (columnVector X g) (columnVector Y objective)|

/-! ## Selections -/

theorem before_antisymm {score : Nat → ℝ} {f g : Nat} (h : Before score f g) (h' : Before score g f) :
    f = g := by
  unfold Before at h h'
  rcases h with h | ⟨h, h2⟩ <;> rcases h' with h' | ⟨h', h2'⟩
  · linarith
  · linarith
  · linarith
  · omega

theorem sorted_indices (n : Nat) (score : Nat → ℝ) :
    ((sortDescending ((List.range n).map (fun f => (f, score f)))).map Prod.fst).Perm (List.range n) ∧
    ((sortDescending ((List.range n).map (fun f => (f, score f)))).map Prod.fst).Pairwise (Before score) := by
  classical
  set l := (List.range n).map (fun f => (f, score f)) with hl
  have hp : (sortDescending l).Perm l := List.perm_insertionSort _ _
  have hpw := sort_pairwise l (by
    rw [hl, List.pairwise_map]
    exact List.pairwise_lt_range)
  have hsc : ∀ p ∈ sortDescending l, p.2 = score p.1 := by
    intro p hm
    obtain ⟨f, hf, rfl⟩ := List.mem_map.1 (hp.mem_iff.1 hm)
    rfl
  constructor
  · have := hp.map Prod.fst
    rw [hl, List.map_map] at this
    simpa [Function.comp_def] using this
  · rw [List.pairwise_map]
    refine hpw.imp_of_mem ?_
    intro a b ha hb h
    unfold Before
    rw [← hsc a ha, ← hsc b hb]
    exact h

theorem slice_map {α β : Type} (f : α → β) (l : List α) (Q : Int) :
    (sliceFromZero l Q).map f = sliceFromZero (l.map f) Q := by
  unfold sliceFromZero
  split <;> simp [List.map_take]

/-- Selections by two scores that rank the features in the same way are the same. -/
theorem selection_congr (n : Nat) (s s' : Nat → ℝ)
    (h : ∀ f < n, ∀ g < n, Before s f g → Before s' f g) (Q : Int) :
    (sliceFromZero (sortDescending ((List.range n).map (fun f => (f, s f)))) Q).map Prod.fst =
      (sliceFromZero (sortDescending ((List.range n).map (fun f => (f, s' f)))) Q).map Prod.fst := by
  rw [slice_map, slice_map]
  congr 1
  obtain ⟨p1, q1⟩ := sorted_indices n s
  obtain ⟨p2, q2⟩ := sorted_indices n s'
  have q1' : ((sortDescending ((List.range n).map (fun f => (f, s f)))).map Prod.fst).Pairwise (Before s') := by
    refine q1.imp_of_mem ?_
    intro a b ha hb hab
    exact h a (List.mem_range.1 (p1.mem_iff.1 ha)) b (List.mem_range.1 (p1.mem_iff.1 hb)) hab
  exact (p1.trans p2.symm).eq_of_pairwise (fun a b _ _ h1 h2 => before_antisymm h1 h2) q1' q2

theorem close_before {s s' E : Nat → ℝ} {f g : Nat} (hf : |s' f - s f| ≤ E f) (hg : |s' g - s g| ≤ E g)
    (h : Before s' f g) : s g ≤ s f + (E f + E g) := by
  have h1 := abs_le.1 hf
  have h2 := abs_le.1 hg
  rcases h with h | ⟨h, _⟩ <;> linarith

theorem far_before {s s' E : Nat → ℝ} {f g : Nat} (hf : |s' f - s f| ≤ E f) (hg : |s' g - s g| ≤ E g)
    (h : s g + (E f + E g) < s f) : s' g < s' f := by
  have h1 := abs_le.1 hf
  have h2 := abs_le.1 hg
  linarith

/-! ## `AlgorithmIGt` -/

theorem rounded_congr {p q : PMF} (h : p.probabilities = q.probabilities) :
    (rounded p).probabilities = (rounded q).probabilities := by unfold rounded; simp [h]

/-- The score depends on the values of the feature only. -/
theorem miOfVariablesF_congr (flog2 : ℚ → ℚ) {n : Nat} (hn : n ≠ 0) (h53 : n ≤ 2 ^ 53) {a a' b : Column}
    (ha : a.instances.length = n) (ha' : a'.instances = a.instances) (hb : b.instances.length = n)
    (hl : a.loaded = a'.loaded) (hm : a.numpy = a'.numpy) :
    miOfVariablesF flog2 (.single a) (.single b) = miOfVariablesF flog2 (.single a') (.single b) := by
  obtain ⟨i, inst, ld, np⟩ := a
  obtain ⟨i', inst', ld', np'⟩ := a'
  simp only at ha ha' hl hm
  subst ha' hl hm
  have hj : ∀ i, mkJoint [.single ⟨i, inst', ld, np⟩, .single b] = .ok (.joint [⟨i, inst', ld, np⟩, b]) := by
    intro i
    unfold mkJoint
    simp only [flattenVariables, validateLengths, ha, hb]
    cases hl : [(⟨i, inst', ld, np⟩ : Column), b].all (·.loaded)
    · rfl
    · simp only [ne_eq, not_true_eq_false, if_false, if_true]; rfl
  have hia : ∀ i, HasInstances (.single ⟨i, inst', ld, np⟩) n := fun i => ⟨by simp [columns], by simp [columns, ha]⟩
  have hib : HasInstances (.single b) n := ⟨by simp [columns], by simp [columns, hb]⟩
  have hij : ∀ i, HasInstances (.joint [⟨i, inst', ld, np⟩, b]) n :=
    fun i => ⟨by simp [columns], by simp [columns, ha, hb]⟩
  have e : ∀ i, miOfVariablesF flog2 (.single ⟨i, inst', ld, np⟩) (.single b) =
      .ok (miF flog2
        (rounded ⟨(countValues (.joint [⟨i, inst', ld, np⟩, b])).map (fun p => (p.1, (p.2 : ℚ) / n)), [], none⟩)
        (rounded ⟨(countValues (.single ⟨i, inst', ld, np⟩)).map (fun p => (p.1, (p.2 : ℚ) / n)), [], none⟩)
        (rounded ⟨(countValues (.single b)).map (fun p => (p.1, (p.2 : ℚ) / n)), [], none⟩)) := by
    intro i
    unfold miOfVariablesF
    rw [hj]
    show (ofVariableF (.joint [⟨i, inst', ld, np⟩, b]) >>= _) = _
    rw [ofVariableF_rounded _ _ (hij i) hn h53 (ofVariable_table _ n (len_eq (hij i)) hn),
      ofVariableF_rounded _ _ (hia i) hn h53 (ofVariable_table _ n (len_eq (hia i)) hn),
      ofVariableF_rounded _ _ hib hn h53 (ofVariable_table _ n (len_eq hib) hn)]
    rfl
  rw [e, e]
  rfl

/-- The scores of the features. -/
theorem igtF_scores {flog2 : ℚ → ℚ} (hlog : Log2Accurate flog2) (X Y : Data) (objective : Nat)
    (hr : X.nrows ≠ 0) (h40 : X.nrows ≤ 2 ^ 40) (hxy : X.nrows = Y.nrows) :
    ∃ score : Nat → ℝ,
      (∀ f, |score f - mi (columnVector X f) (columnVector Y objective)| ≤
        miError (columnVector X f) (columnVector Y objective)) ∧
      (∀ f g, columnVector X f = columnVector X g → score f = score g) ∧
      ∀ Q, igtF flog2 X Y objective Q = .ok ((sliceFromZero (sortDescending
        ((List.range X.ncols).map (fun f => (f, score f)))) Q).map Prod.fst) := by
  have key := fun f => float_mutual_information hlog (column X f) (column Y objective)
    (by simpa [column] using hr) (by simpa [column] using h40) (by simp [column, hxy])
  choose m hm _ he using key
  refine ⟨fun f => (m f : ℝ), he, ?_, ?_⟩
  · intro f g hfg
    have h53 : X.nrows ≤ 2 ^ 53 := le_trans h40 (by norm_num)
    have := miOfVariablesF_congr flog2 hr h53 (a := column X f) (a' := column X g) (b := column Y objective)
      (by simp [column]) hfg.symm (by simp [column, hxy]) rfl rfl
    rw [hm f, hm g] at this
    exact congrArg (fun q : ℚ => (q : ℝ)) (Except.ok.inj this)
  · intro Q
    unfold igtF
    rw [mapM_ok _ (fun f => (f, (m f : ℝ)))]
    · rfl
    · intro f _
      have := hm f
      unfold getVariable
      rw [this]
      rfl

/-- Scores that are close to the exact ones and tell well separated features apart rank them exactly. -/
theorem before_exact {X Y : Data} {objective : Nat} {score E : Nat → ℝ}
    (he : ∀ f < X.ncols, |score f - mi (columnVector X f) (columnVector Y objective)| ≤ E f)
    (hs : ∀ f g, columnVector X f = columnVector X g → score f = score g)
    (hsep : WellSeparated X Y objective E) : ∀ f < X.ncols, ∀ g < X.ncols,
      Before score f g → Before (fun f => mi (columnVector X f) (columnVector Y objective)) f g := by
  intro f hf g hg h
  rcases hsep f hf g hg with e | hgap
  · have h1 := hs f g e
    rcases h with h | ⟨_, h⟩
    · rw [h1] at h; exact absurd h (lt_irrefl _)
    · right
      show mi (columnVector X g) _ = mi (columnVector X f) _ ∧ f < g
      rw [e]
      exact ⟨rfl, h⟩
  · left
    show mi (columnVector X g) _ < mi (columnVector X f) _
    have h1 := abs_le.1 (he f hf)
    have h2 := abs_le.1 (he g hg)
    have h3 : score g ≤ score f := by
      rcases h with h | ⟨h, _⟩
      · exact h.le
      · exact h.le
    by_contra hle
    rw [not_lt] at hle
    rw [abs_sub_comm, abs_of_nonneg (sub_nonneg.2 hle)] at hgap
    linarith

/-- **C96, selection.**  On every non-empty dataset of up to 2⁴⁰ rows, `AlgorithmIGt.select_features` with
`float` scores returns `min(Q, #features)` distinct features; in the order returned, and from a selected to a
left-out feature, the true mutual information never rises by more than the errors allowed for the two scores;
identical columns are ranked by index; and if all features with different columns differ by more than the errors
allowed, the result is the exact selection, for every `Q`. -/
theorem float_igt_selects {flog2 : ℚ → ℚ} (hlog : Log2Accurate flog2) (X Y : Data) (objective : Nat)
    (hr : X.nrows ≠ 0) (h40 : X.nrows ≤ 2 ^ 40) (hxy : X.nrows = Y.nrows) :
    (∀ Q : Nat, ∃ sel, igtF flog2 X Y objective Q = .ok sel ∧ sel.length = min Q X.ncols ∧ sel.Nodup ∧
      (∀ f ∈ sel, f < X.ncols) ∧
      sel.Pairwise (fun f g => mi (columnVector X g) (columnVector Y objective) ≤
        mi (columnVector X f) (columnVector Y objective) +
          (miError (columnVector X f) (columnVector Y objective) +
            miError (columnVector X g) (columnVector Y objective)) ∧
        (columnVector X f = columnVector X g → f < g)) ∧
      (∀ f ∈ sel, ∀ g < X.ncols, g ∉ sel → mi (columnVector X g) (columnVector Y objective) ≤
        mi (columnVector X f) (columnVector Y objective) +
          (miError (columnVector X f) (columnVector Y objective) +
            miError (columnVector X g) (columnVector Y objective)) ∧
        (columnVector X f = columnVector X g → f < g))) ∧
    (WellSeparated X Y objective (fun f => miError (columnVector X f) (columnVector Y objective)) →
      ∀ Q : Int, igtF flog2 X Y objective Q = igt X Y objective Q) := by
  obtain ⟨score, he, hs, hq⟩ := igtF_scores hlog X Y objective hr h40 hxy
  have hb : ∀ f g, Before score f g → mi (columnVector X g) (columnVector Y objective) ≤
        mi (columnVector X f) (columnVector Y objective) +
          (miError (columnVector X f) (columnVector Y objective) +
            miError (columnVector X g) (columnVector Y objective)) ∧
        (columnVector X f = columnVector X g → f < g) := by
    intro f g h
    refine ⟨close_before (s := fun f => mi (columnVector X f) (columnVector Y objective)) (s' := score)
      (E := fun f => miError (columnVector X f) (columnVector Y objective)) (he f) (he g) h, ?_⟩
    intro e
    rcases h with h | ⟨_, h⟩
    · rw [hs f g e] at h; exact absurd h (lt_irrefl _)
    · exact h
  refine ⟨fun Q => ?_, fun hsep Q => ?_⟩
  · have ht := selection_top X.ncols score Q
    exact ⟨_, hq Q, ht.size, ht.nodup, ht.bound, ht.sorted.imp (fun h => hb _ _ h),
      fun f hf g hg hgn => hb f g (ht.best f hf g hg hgn)⟩
  · rw [hq Q, igt_scores X Y objective hr hxy]
    exact congrArg Except.ok (selection_congr _ _ _ (before_exact (fun f _ => he f) hs hsep) Q)

/-! ## The binary variant -/

theorem npSum_le {xs : List Int} (h : IsBinary xs) : 0 ≤ npSum xs ∧ npSum xs ≤ xs.length := by
  unfold npSum
  induction xs with
  | nil => simp
  | cons a xs ih =>
    have ih := ih (fun v hv => h v (by simp [hv]))
    simp only [List.sum_cons, List.length_cons]
    rcases h a (by simp) with e | e <;> rw [e] <;> push_cast <;> omega

theorem fl_whole {z : ℤ} (h0 : 0 ≤ z) (h : z ≤ 2 ^ 53) : fl (z : ℚ) = z := by
  lift z to ℕ using h0
  push_cast
  exact fl_nat (by exact_mod_cast h)

theorem npAnd_binary (xs ys : List Int) : IsBinary (npAnd xs ys) := by
  intro v hv
  unfold npAnd at hv
  obtain ⟨i, hi, rfl⟩ := List.mem_iff_getElem.1 hv
  rw [List.getElem_zipWith]
  split <;> simp

theorem npAnd_length_le (xs ys : List Int) : (npAnd xs ys).length ≤ xs.length := by
  unfold npAnd
  rw [List.length_zipWith]
  exact Nat.min_le_left _ _

theorem binaryJointF_eq {xs ys : List Int} (h : xs.length ≤ 2 ^ 40) (x y : Bool) :
    binaryJointF xs ys x y = fl (binaryJoint xs ys x y) := by
  unfold binaryJointF binaryJoint
  have hb := npSum_le (npAnd_binary (if x then xs else npNot xs) (if y then ys else npNot ys))
  have hlen := npAnd_length_le (if x then xs else npNot xs) (if y then ys else npNot ys)
  have hl2 : (if x then xs else npNot xs).length = xs.length := by cases x <;> simp [npNot]
  rw [hl2] at hlen
  have h2 : (xs.length : ℤ) ≤ 2 ^ 40 := by exact_mod_cast h
  rw [fl_whole hb.1 (by omega), fl_nat (le_trans h (by norm_num))]

theorem binaryPmfF_eq {xs : List Int} (hx : IsBinary xs) (h : xs.length ≤ 2 ^ 40) (x : Bool) :
    binaryPmfF xs x = if x then fl (binaryPmf xs true) else fl (1 - fl (binaryPmf xs true)) := by
  unfold binaryPmfF binaryPmf
  obtain ⟨h0, h1⟩ := npSum_le hx
  have h2 : (xs.length : ℤ) ≤ 2 ^ 40 := by exact_mod_cast h
  simp only [if_true]
  rw [fl_whole h0 (by omega), fl_nat (le_trans h (by norm_num))]

theorem binaryPmf_add (xs : List Int) : binaryPmf xs false = 1 - binaryPmf xs true := by
  unfold binaryPmf; simp

/-- A probability of the binary variant: exact when zero, and with an absolute error of at most two units
otherwise. -/
theorem binaryPmfF_close {xs : List Int} (hx : IsBinary xs) (hne : xs ≠ []) (h : xs.length ≤ 2 ^ 40) (x : Bool) :
    (binaryPmf xs x = 0 ∧ binaryPmfF xs x = 0) ∨
    (1 / (xs.length : ℚ) ≤ binaryPmf xs x ∧ binaryPmf xs x ≤ 1 ∧
      CloseTo (2 * u / binaryPmf xs x) (binaryPmfF xs x) (binaryPmf xs x)) := by
  have hn : xs.length ≠ 0 := by simpa using hne
  have hnq : (0 : ℚ) < xs.length := by exact_mod_cast Nat.pos_of_ne_zero hn
  obtain ⟨s0, s1⟩ := npSum_le hx
  obtain ⟨c, hc⟩ : ∃ c : ℕ, npSum xs = c := ⟨(npSum xs).toNat, by omega⟩
  rw [hc] at s0 s1
  have hcn : c ≤ xs.length := by exact_mod_cast s1
  have hp1 : binaryPmf xs true = (c : ℚ) / xs.length := by
    unfold binaryPmf; rw [hc]; simp
  have h53 : xs.length ≤ 2 ^ 53 := le_trans h (by norm_num)
  have herr : |fl ((c : ℚ) / xs.length) - (c : ℚ) / xs.length| ≤ u * ((c : ℚ) / xs.length) := share_error hn h53
  have hcR : (c : ℚ) ≤ xs.length := by exact_mod_cast hcn
  have hle1 : (c : ℚ) / xs.length ≤ 1 := by rw [div_le_one hnq]; exact hcR
  have hge0 : (0 : ℚ) ≤ (c : ℚ) / xs.length := by positivity
  have hu := u_pos
  have hsmall : u * xs.length ≤ 1 / 2 ^ 13 := by
    have : (xs.length : ℚ) ≤ 2 ^ 40 := by exact_mod_cast h
    rw [u_eq]
    norm_num
    linarith
  have toR : ∀ {a b : ℚ}, 0 < b → |a - b| ≤ 2 * u → CloseTo (2 * u / b) a b := by
    intro a b hb hab
    unfold CloseTo
    have hb' : (b : ℝ) ≠ 0 := by exact_mod_cast hb.ne'
    rw [div_mul_cancel₀ _ hb']
    have : ((|a - b| : ℚ) : ℝ) ≤ ((2 * u : ℚ) : ℝ) := by exact_mod_cast hab
    push_cast at this
    exact this
  rw [binaryPmfF_eq hx h]
  cases x with
  | true =>
    simp only [if_true]
    rw [hp1]
    by_cases h0 : c = 0
    · left; subst h0; simp [fl_zero]
    · right
      have hc1 : (1 : ℚ) ≤ c := by exact_mod_cast Nat.one_le_iff_ne_zero.2 h0
      have hlow : 1 / (xs.length : ℚ) ≤ (c : ℚ) / xs.length := div_le_div_of_nonneg_right hc1 hnq.le
      refine ⟨hlow, hle1, toR (lt_of_lt_of_le (by positivity) hlow) (herr.trans ?_)⟩
      nlinarith
  | false =>
    simp only [Bool.false_eq_true, if_false]
    rw [binaryPmf_add, hp1]
    by_cases h0 : c = xs.length
    · left
      rw [h0, div_self hnq.ne']
      have : fl (1 : ℚ) = 1 := by simpa using fl_nat (n := 1) (by norm_num)
      rw [this, sub_self, fl_zero]
      exact ⟨rfl, rfl⟩
    · right
      have hc1 : (c : ℚ) + 1 ≤ xs.length := by exact_mod_cast (lt_of_le_of_ne hcn h0)
      have hlow : 1 / (xs.length : ℚ) ≤ 1 - (c : ℚ) / xs.length := by
        rw [div_le_iff₀ hnq, sub_mul, div_mul_cancel₀ _ hnq.ne']
        linarith
      have hpos : (0 : ℚ) < 1 - (c : ℚ) / xs.length := lt_of_lt_of_le (by positivity) hlow
      refine ⟨hlow, by linarith, toR hpos ?_⟩
      have a1 := abs_le.1 herr
      have hdiff : 1 / 2 ^ 64 ≤ 1 - fl ((c : ℚ) / xs.length) := by
        have h2 : (xs.length : ℚ) ≤ 2 ^ 40 := by exact_mod_cast h
        have h4 : (1 : ℚ) / 2 ^ 40 ≤ 1 / xs.length := one_div_le_one_div_of_le hnq h2
        have h5 : u * ((c : ℚ) / xs.length) ≤ u := by nlinarith
        have h6 : u ≤ 1 / 2 ^ 53 := by rw [u_eq]; norm_num
        have h7 : (1 : ℚ) / 2 ^ 64 + 1 / 2 ^ 53 ≤ 1 / 2 ^ 40 := by norm_num
        linarith
      have hr := fl_rel (.inr hdiff)
      have a2 := abs_le.1 hr
      generalize fl (1 - fl ((c : ℚ) / xs.length)) = t at *
      generalize fl ((c : ℚ) / xs.length) = v at *
      generalize (c : ℚ) / xs.length = p at *
      have h7 : u ≤ 1 := by rw [u_eq]; norm_num
      have h8 : u * (1 - v) ≤ u * (1 - p) + u * (u * p) := by
        rw [← mul_add]; exact mul_le_mul_of_nonneg_left (by linarith) hu.le
      have h9 : u * (u * p) ≤ u * p := by
        have : 0 ≤ u * p := by positivity
        nlinarith
      rw [abs_le]
      constructor <;> nlinarith

/-- Exact facts about a pair of bits that occurs. -/
theorem binary_cell {xs ys : List Int} (hx : IsBinary xs) (hy : IsBinary ys) (hne : xs ≠ [])
    (hl : xs.length = ys.length) {x y : Bool} (hj : binaryJoint xs ys x y ≠ 0) :
    DataCell xs.length (1, binaryJoint xs ys x y, binaryPmf xs x, binaryPmf ys y) := by
  have hney : ys ≠ [] := by
    intro e; rw [e] at hl; exact hne (List.length_eq_zero_iff.1 hl)
  have e1 := binaryJoint_eq hx hy hl x y
  have e2 := binaryPmf_eq (ys := ys) hx hne x
  have e3 := binaryPmf_eq (ys := xs) hy hney y
  rw [← freq_second xs ys hl] at e3
  rw [e1] at hj
  have hn : (pairData xs ys).nrows ≠ 0 := by simpa [pairData] using hne
  have hsub : ∀ c v, freq (pairData xs ys) [0, 1] [bit x, bit y] ≤ freq (pairData xs ys) [c] [v] ∨
      ¬ ((c = 0 ∧ v = bit x) ∨ (c = 1 ∧ v = bit y)) := by
    intro c v
    by_cases h : (c = 0 ∧ v = bit x) ∨ (c = 1 ∧ v = bit y)
    · left
      unfold freq Mbtk.ADTree.Spec.rowsWith
      refine div_le_div_of_nonneg_right ?_ (by positivity)
      norm_cast
      rw [← List.countP_eq_length_filter, ← List.countP_eq_length_filter]
      refine List.countP_mono_left (fun r _ hr => ?_)
      simp only [decide_eq_true_eq, List.map_cons, List.map_nil, List.cons.injEq, and_true] at hr ⊢
      rcases h with ⟨rfl, rfl⟩ | ⟨rfl, rfl⟩
      · exact hr.1
      · exact hr.2
    · exact .inr h
  have hqx : freq (pairData xs ys) [0, 1] [bit x, bit y] ≤ freq (pairData xs ys) [0] [bit x] :=
    (hsub 0 (bit x)).resolve_right (fun h => h (.inl ⟨rfl, rfl⟩))
  have hqy : freq (pairData xs ys) [0, 1] [bit x, bit y] ≤ freq (pairData xs ys) [1] [bit y] :=
    (hsub 1 (bit y)).resolve_right (fun h => h (.inr ⟨rfl, rfl⟩))
  have hlow := freq_low (pairData xs ys) hj
  have hle : ∀ c v, freq (pairData xs ys) c v ≤ 1 := by
    intro c v
    unfold freq
    rw [div_le_one (by exact_mod_cast Nat.pos_of_ne_zero hn)]
    unfold Mbtk.ADTree.Spec.rowsWith
    have := List.length_filter_le (fun r => decide (c.map ((pairData xs ys).cell r) = v)) (List.range (pairData xs ys).nrows)
    rw [List.length_range] at this
    exact_mod_cast this
  have hnx : (1 : ℚ) / xs.length ≤ 1 := by
    rw [div_le_one (by exact_mod_cast Nat.pos_of_ne_zero hn)]
    exact_mod_cast Nat.one_le_iff_ne_zero.2 hn
  refine ⟨hnx, ?_, ?_, ?_, ?_, ?_, le_refl _, ?_, ?_⟩ <;> simp only
  · rw [e1]; exact hlow
  · rw [e2]; exact hlow.trans hqx
  · rw [e3]; exact hlow.trans hqy
  · rw [e2]; exact hle _ _
  · rw [e3]; exact hle _ _
  · rw [e1, e2]; exact hqx
  · rw [e1, e3]; exact hqy

theorem binaryJoint_sum {xs ys : List Int} (hx : IsBinary xs) (hy : IsBinary ys) (hne : xs ≠ [])
    (hl : xs.length = ys.length) :
    binaryJoint xs ys false false + binaryJoint xs ys false true + binaryJoint xs ys true false +
      binaryJoint xs ys true true = 1 := by
  have hrow : ∀ v, freq (pairData xs ys) [0, 1] [v, 0] + freq (pairData xs ys) [0, 1] [v, 1] =
      freq (pairData xs ys) [0] [v] := by
    intro v
    rw [← sum_freq_snd (pairData xs ys) 0 1 [] v []]
    have hsub : Spec.values (pairData xs ys) 1 ⊆ {0, 1} := by
      intro v hv
      obtain ⟨r, _, rfl⟩ := Finset.mem_image.1 hv
      rcases getD_binary hy r with e | e <;> simp [pairData, ← List.getD_eq_getElem?_getD, e]
    rw [Finset.sum_subset hsub (fun w _ hw => by
      by_contra hne
      rw [freq_swap] at hne
      exact hw (mem_values_of_freq _ hne))]
    rw [Finset.sum_pair (by decide)]
  have h0 := hrow 0
  have h1 := hrow 1
  have h2 := freq_single_add (ys := ys) hx hne
  simp only [binaryJoint_eq hx hy hl, bit, if_true, Bool.false_eq_true, if_false]
  linarith

/-- The error of one of the four summands. -/
theorem binaryPmiF_error {flog2 : ℚ → ℚ} (hlog : Log2Accurate flog2) {xs ys : List Int} (hx : IsBinary xs)
    (hy : IsBinary ys) (hne : xs ≠ []) (h40 : xs.length ≤ 2 ^ 40) (hl : xs.length = ys.length) {x y : Bool}
    (hj : binaryJoint xs ys x y ≠ 0) :
    |((binaryPmiF flog2 xs ys x y : ℚ) : ℝ) - binaryPmi xs ys x y| ≤
        24 * u + (binaryJoint xs ys x y : ℝ) * (u * (22 + 14 * (log xs.length / log 2))) ∧
      |binaryPmi xs ys x y| ≤ log xs.length / log 2 * binaryJoint xs ys x y := by
  have hney : ys ≠ [] := by
    intro e; rw [e] at hl; exact hne (List.length_eq_zero_iff.1 hl)
  have hn : xs.length ≠ 0 := by simpa using hne
  have hd := binary_cell hx hy hne hl hj
  have hnq : (0 : ℚ) < 1 / xs.length := by
    have : (0 : ℚ) < xs.length := by exact_mod_cast Nat.pos_of_ne_zero hn
    positivity
  have hlogc := cell_log hn hd
  obtain ⟨_, q1, x1, y1, x2, y2, _, qx, qy⟩ := hd
  simp only at q1 x1 y1 x2 y2 qx qy hlogc
  have hu := uR_pos
  have cj := (fl_closeTo hn h40 q1)
  have cx := (binaryPmfF_close hx hne h40 x).resolve_left (fun h => absurd h.1 (lt_of_lt_of_le hnq x1).ne')
  have cy := (binaryPmfF_close hy hney (hl ▸ h40) y).resolve_left
    (fun h => absurd h.1 (lt_of_lt_of_le hnq y1).ne')
  rw [← binaryJointF_eq h40] at cj
  have hpx : (0 : ℝ) < binaryPmf xs x := by exact_mod_cast lt_of_lt_of_le hnq x1
  have hpy : (0 : ℝ) < binaryPmf ys y := by exact_mod_cast lt_of_lt_of_le hnq y1
  have hjr : (0 : ℝ) < binaryJoint xs ys x y := by exact_mod_cast lt_of_lt_of_le hnq q1
  have small : ∀ {p : ℚ}, 1 / (xs.length : ℚ) ≤ p → 0 ≤ 2 * (u : ℝ) / p ∧ 2 * (u : ℝ) / p ≤ 1 / 16 ∧ 1 / 2 ^ 53 ≤ p := by
    intro p hp
    have hp0 : (0 : ℝ) < p := by exact_mod_cast lt_of_lt_of_le hnq hp
    have h1 : (0 : ℚ) < xs.length := by exact_mod_cast Nat.pos_of_ne_zero hn
    have h2 : (xs.length : ℚ) ≤ 2 ^ 40 := by exact_mod_cast h40
    have h4 : (1 : ℚ) / 2 ^ 40 ≤ p := (one_div_le_one_div_of_le h1 h2).trans hp
    have h4' : (1 : ℝ) / 2 ^ 40 ≤ p := by
      have : ((1 / 2 ^ 40 : ℚ) : ℝ) ≤ p := by exact_mod_cast h4
      push_cast at this; exact this
    refine ⟨by positivity, ?_, le_trans (by norm_num) h4⟩
    rw [div_le_iff₀ hp0, uR_eq]
    norm_num at h4' ⊢
    linarith
  obtain ⟨sx1, sx2, sx3⟩ := small x1
  obtain ⟨sy1, sy2, sy3⟩ := small y1
  have herr := miTermF_error hlog cj.1 cx.2.2 cy.2.2 sx1 sy1 sx2 sy2 cj.2.2 sx3 sy3 x2 y2
  have hmarg : fl (binaryPmfF xs x * binaryPmfF ys y) ≠ 0 := by
    have a1 := cx.2.2.half (sx2.trans (by norm_num)) (lt_of_lt_of_le hnq x1)
    have a2 := cy.2.2.half (sy2.trans (by norm_num)) (lt_of_lt_of_le hnq y1)
    have a3 : (1 : ℚ) / 2 ^ 54 ≤ binaryPmfF xs x := by
      refine le_trans ?_ a1
      have : (1 : ℚ) / 2 ^ 54 = 1 / 2 ^ 53 / 2 := by norm_num
      rw [this]
      exact div_le_div_of_nonneg_right sx3 (by norm_num)
    have a4 : (1 : ℚ) / 2 ^ 54 ≤ binaryPmfF ys y := by
      refine le_trans ?_ a2
      have : (1 : ℚ) / 2 ^ 54 = 1 / 2 ^ 53 / 2 := by norm_num
      rw [this]
      exact div_le_div_of_nonneg_right sy3 (by norm_num)
    have a5 : (1 : ℚ) / 2 ^ 240 ≤ binaryPmfF xs x * binaryPmfF ys y := by
      refine le_trans ?_ (mul_le_mul a3 a4 (by norm_num) (le_trans (by norm_num) a3))
      norm_num
    exact ((near_fl a5).pos (by rw [uR_eq]; norm_num) (lt_of_lt_of_le (by positivity) a5)).ne'
  have hF : binaryPmiF flog2 xs ys x y =
      miTermF flog2 (binaryJointF xs ys x y) (binaryPmfF xs x) (binaryPmfF ys y) := by
    unfold binaryPmiF
    rw [if_neg]
    rintro (h | h)
    · exact cj.2.1 h
    · exact hmarg h
  have hE : binaryPmi xs ys x y = (binaryJoint xs ys x y : ℝ) *
      (log ((binaryJoint xs ys x y : ℝ) / (binaryPmf xs x * binaryPmf ys y)) / log 2) := by
    unfold binaryPmi
    dsimp only
    rw [if_neg]
    · push_cast; rfl
    · rintro (h | h)
      · exact hj h
      · exact (mul_pos (lt_of_lt_of_le hnq x1) (lt_of_lt_of_le hnq y1)).ne' h
  have hL2 : |log ((binaryJoint xs ys x y : ℝ) / (binaryPmf xs x * binaryPmf ys y)) / log 2| ≤
      log xs.length / log 2 := by
    rw [abs_div, abs_of_pos (Real.log_pos (by norm_num : (1 : ℝ) < 2))]
    exact div_le_div_of_nonneg_right hlogc (Real.log_pos (by norm_num)).le
  rw [hF, hE]
  refine ⟨herr.trans (add_le_add ?_ ?_), ?_⟩
  · have b1 : (binaryJoint xs ys x y : ℝ) * (2 * u / binaryPmf xs x) ≤ 2 * u := by
      rw [mul_div_assoc', div_le_iff₀ hpx, mul_comm]
      exact mul_le_mul_of_nonneg_left (by exact_mod_cast qx) (by positivity)
    have b2 : (binaryJoint xs ys x y : ℝ) * (2 * u / binaryPmf ys y) ≤ 2 * u := by
      rw [mul_div_assoc', div_le_iff₀ hpy, mul_comm]
      exact mul_le_mul_of_nonneg_left (by exact_mod_cast qy) (by positivity)
    linarith
  · refine mul_le_mul_of_nonneg_left (mul_le_mul_of_nonneg_left ?_ hu.le) hjr.le
    linarith
  · rw [abs_mul, abs_of_pos hjr, mul_comm]
    exact mul_le_mul_of_nonneg_right hL2 hjr.le

/-- **C96, binary vectors.**  For any two binary vectors of the same length (1 to 2⁴⁰), the `float` of `MI__binary`
differs from their mutual information in bits by at most `binaryError`. -/
theorem float_mi_binary {flog2 : ℚ → ℚ} (hlog : Log2Accurate flog2) {xs ys : List Int} (hx : IsBinary xs)
    (hy : IsBinary ys) (hne : xs ≠ []) (h40 : xs.length ≤ 2 ^ 40) (hl : xs.length = ys.length) :
    |((miBinaryF flog2 xs ys : ℚ) : ℝ) - mi xs ys| ≤ binaryError xs := by
  have hn : xs.length ≠ 0 := by simpa using hne
  obtain ⟨L0, L28⟩ := log_rows hn h40
  obtain ⟨i1, i2⟩ := inv_log_two
  have herr := fun x y => binaryPmiF_error hlog hx hy hne h40 hl (x := x) (y := y)
  set L := log xs.length / log 2 with hL
  have hu := uR_pos
  have L0' : 0 ≤ L := by rw [hL, div_eq_mul_one_div]; positivity
  have L42 : L ≤ 42 := by rw [hL, div_eq_mul_one_div]; nlinarith
  have hj0 : ∀ x y, (0 : ℝ) ≤ binaryJoint xs ys x y := by
    intro x y
    have : 0 ≤ binaryJoint xs ys x y := by
      unfold binaryJoint
      have := (npSum_le (npAnd_binary (if x then xs else npNot xs) (if y then ys else npNot ys))).1
      exact div_nonneg (by exact_mod_cast this) (by positivity)
    exact_mod_cast this
  have hz : ∀ x y, binaryJoint xs ys x y = 0 → binaryPmiF flog2 xs ys x y = 0 := by
    intro x y h
    unfold binaryPmiF
    rw [if_pos (.inl (by rw [binaryJointF_eq h40, h, fl_zero]))]
  have hrep : Representable (binaryPmiF flog2 xs ys false false) := by
    unfold binaryPmiF
    split
    · exact ⟨0, 0, by norm_num, by norm_num, by simp⟩
    · exact representable_fl _
  have hsum := binaryJoint_sum hx hy hne hl
  have hsumR : ((binaryJoint xs ys false false : ℝ)) + binaryJoint xs ys false true +
      binaryJoint xs ys true false + binaryJoint xs ys true true = 1 := by exact_mod_cast hsum
  set l : List (Bool × Bool) := [(false, false), (false, true), (true, false), (true, true)] with hlist
  have hW : (l.map (fun c => ((binaryJoint xs ys c.1 c.2 : ℝ) + 1 / 4) / 2)).sum = 1 := by
    simp only [hlist, List.map_cons, List.map_nil, List.sum_cons, List.sum_nil]
    linarith
  have hcount : ((l.countP (fun c => decide (binaryJoint xs ys c.1 c.2 ≠ 0)) : ℕ) : ℝ) ≤ 4 := by
    have : l.countP (fun c => decide (binaryJoint xs ys c.1 c.2 ≠ 0)) ≤ 4 := List.countP_le_length
    exact_mod_cast this
  have hbound : (u : ℝ) * (192 + 28 * L) +
      (l.countP (fun c => decide (binaryJoint xs ys c.1 c.2 ≠ 0)) : ℕ) * (u * (2 * L + 2)) ≤
      100 * (L + 2) * u := by
    have h1 := mul_le_mul_of_nonneg_right hcount (show (0 : ℝ) ≤ u * (2 * L + 2) by positivity)
    nlinarith
  have hsmall : 100 * (L + 2) * (u : ℝ) ≤ 1 := by
    rw [uR_eq]
    norm_num
    linarith
  have key := fold_error (fun s (c : Bool × Bool) => fl (s + binaryPmiF flog2 xs ys c.1 c.2))
    (fun c => binaryPmi xs ys c.1 c.2) (fun c => ((binaryJoint xs ys c.1 c.2 : ℝ) + 1 / 4) / 2)
    (fun c => binaryJoint xs ys c.1 c.2 ≠ 0) (fun c => binaryPmiF flog2 xs ys c.1 c.2)
    (u * (192 + 28 * L)) (2 * L) (by positivity) (by positivity) l
    (fun _ _ _ _ => rfl) ?_ ?_ ?_ ?_ ?_ 0 0 0 0 ?_ ?_ ?_ ?_ ?_ ?_
  · obtain ⟨_, key⟩ := key
    rw [hW, zero_add, mul_one, zero_add] at key
    have e1 : l.foldl (fun s (c : Bool × Bool) => fl (s + binaryPmiF flog2 xs ys c.1 c.2)) 0 =
        miBinaryF flog2 xs ys := by
      simp only [hlist, List.foldl_cons, List.foldl_nil, zero_add]
      rw [fl_representable hrep]
      rfl
    have e2 : (l.map (fun c => binaryPmi xs ys c.1 c.2)).sum = mi xs ys := by
      rw [← mi_binary_exact xs ys hx hy hne hl]
      simp only [hlist, List.map_cons, List.map_nil, List.sum_cons, List.sum_nil]
      unfold miBinary
      ring
    rw [e1, e2] at key
    refine key.trans (hbound.trans (le_of_eq ?_))
    unfold binaryError
    rw [← hL, uR_eq]
    norm_num
    ring
  · intro c _ hc s hs
    simp only [ne_eq, not_not] at hc
    simp only [hz c.1 c.2 hc, add_zero]
    exact fl_representable hs
  · intro c _ hc
    simp only [ne_eq, not_not] at hc
    unfold binaryPmi
    simp [hc]
  · intro c _
    have := hj0 c.1 c.2
    linarith
  · intro c _ hc
    refine (herr c.1 c.2 hc).1.trans ?_
    have h0 := hj0 c.1 c.2
    have h1 : 0 ≤ (u : ℝ) * binaryJoint xs ys c.1 c.2 := by positivity
    have h2 : 0 ≤ (u : ℝ) * L := by positivity
    nlinarith [mul_nonneg h1 L0']
  · intro c _ hc
    refine (herr c.1 c.2 hc).2.trans ?_
    have h0 := hj0 c.1 c.2
    nlinarith
  · exact ⟨0, 0, by norm_num, by norm_num, by simp⟩
  · simp
  · simp
  · rw [hW]; norm_num
  · exact le_refl _
  · rw [hW]
    refine le_trans ?_ (hbound.trans hsmall) 
    simp

/-- **C96, the two variants agree.**  On binary data of up to 2⁴⁰ rows, if features with different columns differ
in mutual information by more than the errors allowed for either variant, the binary variant selects exactly what
`AlgorithmIGt` selects, in the same order, for every `Q`. -/
theorem float_igt_variants_agree {flog2 : ℚ → ℚ} (hlog : Log2Accurate flog2) (X Y : Data) (objective : Nat)
    (hr : X.nrows ≠ 0) (h40 : X.nrows ≤ 2 ^ 40) (hxy : X.nrows = Y.nrows)
    (hX : ∀ f < X.ncols, IsBinary (columnVector X f)) (hY : IsBinary (columnVector Y objective))
    (hsep : WellSeparated X Y objective (fun f => max (binaryError (columnVector X f))
      (miError (columnVector X f) (columnVector Y objective)))) (Q : Int) :
    igtF flog2 X Y objective Q = .ok (igtBinaryF flog2 X Y objective Q) ∧
      igtF flog2 X Y objective Q = igt X Y objective Q := by
  have hweak : ∀ bound : Nat → ℝ, (∀ f, bound f ≤ max (binaryError (columnVector X f))
      (miError (columnVector X f) (columnVector Y objective))) → WellSeparated X Y objective bound := by
    intro bound hb f hf g hg
    rcases hsep f hf g hg with h | h
    · exact .inl h
    · exact .inr (lt_of_le_of_lt (add_le_add (hb f) (hb g)) h)
  have h1 := (float_igt_selects hlog X Y objective hr h40 hxy).2 (hweak _ (fun f => le_max_right _ _)) Q
  refine ⟨?_, h1⟩
  rw [h1, igt_scores X Y objective hr hxy]
  refine congrArg Except.ok ?_
  unfold igtBinaryF
  symm
  refine selection_congr _ _ _ (before_exact (E := fun f => binaryError (columnVector X f)) ?_ ?_
    (hweak _ (fun f => le_max_left _ _))) Q
  · intro f hf
    exact float_mi_binary hlog (hX f hf) hY (by simpa [columnVector] using hr)
      (by simpa [columnVector] using h40) (by simp [columnVector, hxy])
  · intro f g h
    rw [h]

end Mbtk.Fp
