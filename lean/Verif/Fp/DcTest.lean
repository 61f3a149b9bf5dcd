import Verif.Fp.Entropy
/-!
# The G-test with dcMI in floating point (C85)

The joint entropies are computed with `float`s, stored and reused; the four entropies of a call are
combined with `float`s too.  `math.log`, `sum` and `chi2.cdf` are parameters.  Compare C31, C32 (exact).
-/
namespace Mbtk.Fp
open Mbtk Mbtk.Stats Mbtk.Stats.Spec
open Mbtk.ADTree (Data)
open Mbtk.ADTree.Spec (Usable)
open Mbtk.MB (Answer)
open Real (log)

/-! ## Specification -/

/-- The error allowed for the G statistic of the dcMI test. (Specification.) -/
noncomputable def dcError (D : Data) (X Y : Nat) (Z : List Nat) : ℝ :=
  2 * D.nrows * (8 * ((observed D (X :: Y :: Z)).card + 5) * (log D.nrows + 1)) / 2 ^ 53

/-! ## Model -/

/-- The dcMI test object: G_test__with_dcMI.py 13-22; the stored entropies are `float`s. -/
structure DcStateF where
  base : Base := {}
  jht : List (Finset Nat × ℚ) := []
  reads : Nat := 0
  misses : Nat := 0

/-- `get_joint_entropy_term(*variables)`: G_test__with_dcMI.py 97-115. -/
def jointEntropyTermF (flog : ℚ → ℚ) (fsum : List ℚ → ℚ) (D : Data) (kind : DofKind)
    (order : Finset Nat → List Nat) (S : Finset Nat) : PyM DcStateF ℚ := fun s =>
  if S.card = 0 then .ok (0, s)
  else
    let s := { s with reads := s.reads + 1 }
    match dictGet s.jht S with
    | some H => .ok (H, s)
    | none => do
      let s := { s with misses := s.misses + 1 }
      let joint ← getVariablesOfSet D (order S)
      let pmf ← ofVariableF joint
      let H ← entropyF flog fsum pmf
      let s := { s with jht := dictSet s.jht S H }
      let r := contextPmf kind s.base.cache pmf
      .ok (H, { s with base := { s.base with cache := r.1 } })

/-- `2 * self.N * (HYZ + HXZ - HXYZ - HZ)`: G_test__with_dcMI.py 93-94. -/
def combineF (N : Nat) (HXYZ HXZ HYZ HZ : ℚ) : ℚ :=
  fl (fl ((2 * N : ℕ) : ℚ) * fl (fl (fl (HYZ + HXZ) - HXYZ) - HZ))

/-- `G_value(X, Y, Z)`: G_test__with_dcMI.py 88-94. -/
def dcGValueF (flog : ℚ → ℚ) (fsum : List ℚ → ℚ) (D : Data) (kind : DofKind)
    (order : Finset Nat → List Nat) (X Y : Nat) (Z : List Nat) : PyM DcStateF ℚ := do
  let HXYZ ← jointEntropyTermF flog fsum D kind order (X :: Y :: Z).toFinset
  let HXZ ← jointEntropyTermF flog fsum D kind order (X :: Z).toFinset
  let HYZ ← jointEntropyTermF flog fsum D kind order (Y :: Z).toFinset
  let HZ ← jointEntropyTermF flog fsum D kind order Z.toFinset
  pure (combineF D.nrows HXYZ HXZ HYZ HZ)

/-- `G_test_conditionally_independent`: G_test__with_dcMI.py 41-85. -/
noncomputable def dcTestF (flog : ℚ → ℚ) (fsum : List ℚ → ℚ) (D : Data) (cfg : Config)
    (order : Finset Nat → List Nat) (X Y : Nat) (Z : List Nat) : PyM DcStateF Result := fun s => do
  let (G, s) ← dcGValueF flog fsum D cfg.kind order X Y Z s
  let (dof, _) ← calculateDof D cfg.kind s.base.cache X Y Z ⟨[], [], [], PMF.empty⟩
  pure (makeResult cfg D.nrows s.base.counter X Y Z (G : ℝ) dof, s)

/-- A call of the dcMI test: G_test__with_dcMI.py 41-115, G_test__unoptimized.py 45-62. -/
noncomputable def dcCallF (flog : ℚ → ℚ) (fsum : List ℚ → ℚ) (D : Data) (cfg : Config)
    (order : Finset Nat → List Nat) (c : Nat × Nat × List Nat) : PyM DcStateF Answer :=
  conditionallyIndependent cfg (dcTestF flog fsum D cfg order)
    (fun r s => { s with base := s.base.log r }) c.1 c.2.1 c.2.2

/-- Constructor: G_test__with_dcMI.py 13-22. -/
def newDcTestF (cfg : Config) : Except Err DcStateF :=
  if cfg.kind = .structural then .error .valueError else .ok {}

/-- What `end()` writes: G_test__with_dcMI.py 118-126, DoFCalculators.py 214-219. -/
structure DcSavedF where
  jht : List (Finset Nat × ℚ)
  reads : Nat
  misses : Nat
  cache : DofCache

/-- Saving the entropies: G_test__with_dcMI.py 118-126; pickle keeps every `float`. -/
def DcStateF.save (s : DcStateF) : DcSavedF := ⟨s.jht, s.reads, s.misses, s.base.cache⟩

/-- A new test object that is given what was saved: G_test__with_dcMI.py 25-38,
DoFCalculators.py 123-128. -/
def DcSavedF.load (v : DcSavedF) : DcStateF :=
  { base := { cache := v.cache }, jht := v.jht, reads := v.reads, misses := v.misses }

/-! ## The entropies -/

/-- What is true of a dcMI test object that has looked up the entropies of the sets in
`req`. (Models no code: a notion for statements and proofs.) -/
structure DcOkF (D : Data) (kind : DofKind) (order : Finset Nat → List Nat)
    (req : List (Finset Nat)) (s : DcStateF) : Prop where
  cache : CacheOk D s.base.cache
  reads : s.reads = req.length
  misses : s.misses = req.toFinset.card
  known : ∀ S, (dictGet s.jht S).isSome ↔ S ∈ req
  entropy : ∀ S H, dictGet s.jht S = some H → |(H : ℝ) - entropy D (order S)| ≤ hError D (order S)
  dofs : kind = .cached → ∀ S ∈ req, 2 ≤ S.card → (dictGet s.base.cache (idSet S)).isSome

/-- The log is not touched. (Models no code: a notion for statements and proofs.) -/
def DcSameF (s s' : DcStateF) : Prop :=
  s'.base.counter = s.base.counter ∧ s'.base.results = s.base.results

theorem DcSameF.trans {s s' s'' : DcStateF} (h : DcSameF s s') (h' : DcSameF s' s'') :
    DcSameF s s'' := ⟨h'.1.trans h.1, h'.2.trans h.2⟩

theorem hError_nonneg {D : Data} (hr : D.nrows ≠ 0) (cols : List Nat) : 0 ≤ hError D cols := by
  have : (0 : ℝ) ≤ log D.nrows := Real.log_nonneg (by exact_mod_cast Nat.one_le_iff_ne_zero.2 hr)
  unfold hError
  positivity

theorem jointEntropyTermF_ok {flog : ℚ → ℚ} (hlog : LogAccurate flog) {fsum : List ℚ → ℚ}
    (hsum : SumAccurate fsum) {D : Data} {kind : DofKind} {order : Finset Nat → List Nat}
    (ho : IsOrder order) (hr : D.nrows ≠ 0) (h40 : D.nrows ≤ 2 ^ 40) (S : Finset Nat)
    {req : List (Finset Nat)} {s : DcStateF} (hs : DcOkF D kind order req s) :
    Ok (jointEntropyTermF flog fsum D kind order S) s (fun H s' =>
      |(H : ℝ) - entropy D (order S)| ≤ hError D (order S) ∧
      DcOkF D kind order (req ++ [S].filter (fun S => S ≠ ∅)) s' ∧ DcSameF s s') := by
  unfold jointEntropyTermF
  by_cases h0 : S.card = 0
  · have hS : S = ∅ := Finset.card_eq_zero.1 h0
    have hl : order S = [] := List.length_eq_zero_iff.1 (by rw [ho.length, h0])
    refine ⟨0, s, by dsimp only; rw [if_pos h0], ?_, ?_, rfl, rfl⟩
    · rw [hl, entropy_nil]
      simpa using hError_nonneg hr []
    · simpa [hS] using hs
  · have hS : S ≠ ∅ := fun h => h0 (by rw [h]; rfl)
    have hf : [S].filter (fun S => S ≠ ∅) = [S] := by simp [hS]
    rw [hf]
    cases hg : dictGet s.jht S with
    | some H =>
      refine ⟨H, { s with reads := s.reads + 1 }, ?_, hs.entropy S H hg, ?_, rfl, rfl⟩
      · dsimp only; rw [if_neg h0, hg]
      · have hm : S ∈ req := (hs.known S).1 (by rw [hg]; rfl)
        refine ⟨hs.cache, ?_, ?_, ?_, hs.entropy, ?_⟩
        · simp [hs.reads]
        · show s.misses = _
          rw [hs.misses]
          congr 1
          ext T
          simp only [List.mem_toFinset, List.mem_append, List.mem_singleton]
          constructor
          · exact .inl
          · rintro (h | rfl)
            · exact h
            · exact hm
        · intro T
          show (dictGet s.jht T).isSome ↔ _
          rw [hs.known]
          simp only [List.mem_append, List.mem_singleton]
          constructor
          · exact .inl
          · rintro (h | rfl)
            · exact h
            · exact hm
        · intro hk T hT
          refine hs.dofs hk T ?_
          rcases List.mem_append.1 hT with h | h
          · exact h
          · rw [List.mem_singleton.1 h]; exact hm
    | none =>
      have hne : order S ≠ [] := by
        intro h; apply h0; rw [← ho.length, h]; rfl
      obtain ⟨pmf, e1, t1, j1⟩ := pmf_ok D hr hne (.inl rfl : IsVarOf D (order S) _)
      have hcab := cacheable_of_tab (ho S).1 t1.tab (.inl (j1.trans (jointIDs_of D _)))
      obtain ⟨a1, a2, a3, a4, _⟩ := contextPmf_ok kind hs.cache hcab
      obtain ⟨pmfF, H, eF, eH, bH⟩ := entropyF_data hlog hsum hr h40 hne
      obtain ⟨pmfF', eF', hnear⟩ := ofVariable_sim
        (hasInstances_of (.inl rfl : IsVarOf D (order S) _) hne) (h40.trans (by norm_num)) pmf e1
      rw [eF] at eF'
      injection eF' with eF'
      subst eF'
      have hcache := (contextPmf_near kind s.base.cache hnear).1
      have hn : S ∉ req := fun h => by
        have := (hs.known S).2 h; rw [hg] at this; simp at this
      refine ⟨H, ⟨{ s.base with cache := (contextPmf kind s.base.cache pmf).1 },
          dictSet s.jht S H, s.reads + 1, s.misses + 1⟩, ?_, bH, ?_, rfl, rfl⟩
      · dsimp only; rw [if_neg h0, hg]; dsimp only
        rw [getVariablesOfSet_ok]
        show (ofVariableF (.joint ((order S).map (column D))) >>= _) = _
        rw [eF]
        show (entropyF flog fsum pmfF >>= _) = _
        rw [eH]
        show Except.ok _ = _
        rw [hcache]
      · refine ⟨a1, ?_, ?_, ?_, ?_, ?_⟩
        · simp [hs.reads]
        · show s.misses + 1 = _
          rw [hs.misses]
          have : (req ++ [S]).toFinset = insert S req.toFinset := by
            ext T; simp
          rw [this, Finset.card_insert_of_notMem (by simpa using hn)]
        · intro T
          show (dictGet (dictSet s.jht S _) T).isSome ↔ _
          rw [dictGet_dictSet]
          by_cases h : S = T
          · subst h; simp
          · have h' : T ≠ S := fun e => h e.symm
            simp [h, h', hs.known]
        · intro T H' hT
          change dictGet (dictSet s.jht S _) T = some H' at hT
          rw [dictGet_dictSet] at hT
          by_cases h : S = T
          · subst h
            rw [if_pos rfl] at hT
            injection hT with hT
            subst hT
            exact bH
          · rw [if_neg h] at hT; exact hs.entropy T H' hT
        · intro hk T hT h2
          show (dictGet (contextPmf kind s.base.cache pmf).1 (idSet T)).isSome
          rcases List.mem_append.1 hT with h | h
          · exact a2 _ (hs.dofs hk T h h2)
          · rw [List.mem_singleton.1 h] at h2 ⊢
            have := a3 hk _ (j1.trans (jointIDs_of D _))
              (by rw [castIds_length, ho.length]; exact h2)
            rwa [castIds_toFinset, (ho S).2] at this

/-! ## The statistic -/

theorem hError_mono {D : Data} (hr : D.nrows ≠ 0) {cols cols' : List Nat} (h : ∀ c ∈ cols', c ∈ cols) :
    hError D cols' ≤ hError D cols := by
  have h0 : (0 : ℝ) ≤ log D.nrows := Real.log_nonneg (by exact_mod_cast Nat.one_le_iff_ne_zero.2 hr)
  have h1 : ((observed D cols').card : ℝ) ≤ (observed D cols).card := by
    exact_mod_cast observed_card_le D h
  unfold hError
  refine div_le_div_of_nonneg_right (mul_le_mul_of_nonneg_right (by linarith) (by linarith)) (by norm_num)

theorem combine_real {U w n L a b c d x y z g A B C E : ℝ} (hu : 0 < U) (hu1 : U ≤ 1 / 1000000)
    (hw : w ≤ 1 / 100) (n1 : 1 ≤ n) (L0 : 0 ≤ L) (L28 : L ≤ 28)
    (ha : |a - A| ≤ w) (hb : |b - B| ≤ w) (hc : |c - C| ≤ w) (hd : |d - E| ≤ w)
    (hround : ∀ t v : ℝ, |t - v| ≤ U * |v| + U / 2 ^ 200 → |v| ≤ 2 * L + 1 →
      |t - v| ≤ U * (2 * L + 2))
    (r1 : |x - (c + b)| ≤ U * |c + b| + U / 2 ^ 200)
    (r2 : |y - (x - a)| ≤ U * |x - a| + U / 2 ^ 200)
    (r3 : |z - (y - d)| ≤ U * |y - d| + U / 2 ^ 200)
    (r4 : |g - 2 * n * z| ≤ U * |2 * n * z| + U / 2 ^ 200)
    (A0 : 0 ≤ A) (A1 : A ≤ L) (B0 : 0 ≤ B) (B1 : B ≤ L) (C0 : 0 ≤ C) (C1 : C ≤ L) (E0 : 0 ≤ E)
    (E1 : E ≤ L) :
    |g - 2 * n * (C + B - A - E)| ≤
      2 * n * (U * (2 * L + 2)) + 2 * n * (4 * w + 3 * (U * (2 * L + 2))) := by
  have aa := abs_le.1 ha
  have bb := abs_le.1 hb
  have cc := abs_le.1 hc
  have dd := abs_le.1 hd
  have s1 : U * (2 * L + 2) ≤ 1 / 1000 := by
    have : U * (2 * L + 2) ≤ U * 58 := mul_le_mul_of_nonneg_left (by linarith) hu.le
    linarith
  have r1' := hround _ _ r1 (abs_le.2 ⟨by linarith, by linarith⟩)
  clear r1
  have xx := abs_le.1 r1'
  have r2' := hround _ _ r2 (abs_le.2 ⟨by linarith, by linarith⟩)
  clear r2
  have yy := abs_le.1 r2'
  have r3' := hround _ _ r3 (abs_le.2 ⟨by linarith, by linarith⟩)
  clear r3
  have zz := abs_le.1 r3'
  have hz : |z - (C + B - A - E)| ≤ 4 * w + 3 * (U * (2 * L + 2)) :=
    abs_le.2 ⟨by linarith, by linarith⟩
  have hz1 : |z| ≤ 2 * L + 1 := abs_le.2 ⟨by linarith, by linarith⟩
  have hg : |g - 2 * n * z| ≤ 2 * n * (U * (2 * L + 2)) := by
    rw [abs_mul, abs_of_pos (show (0 : ℝ) < 2 * n by linarith)] at r4
    have h1 : U * (2 * n * |z|) ≤ U * (2 * n * (2 * L + 1)) :=
      mul_le_mul_of_nonneg_left (mul_le_mul_of_nonneg_left hz1 (by linarith)) hu.le
    have h2 : 1 * U ≤ 2 * n * U := mul_le_mul_of_nonneg_right (by linarith) hu.le
    have h3 : 2 * n * (U * (2 * L + 2)) = U * (2 * n * (2 * L + 1)) + 2 * n * U := by ring
    have tiny : U / 2 ^ 200 ≤ U := div_le_self hu.le (by norm_num)
    linarith
  have hmain : |2 * n * z - 2 * n * (C + B - A - E)| ≤ 2 * n * (4 * w + 3 * (U * (2 * L + 2))) := by
    rw [← mul_sub, abs_mul, abs_of_pos (show (0 : ℝ) < 2 * n by linarith)]
    exact mul_le_mul_of_nonneg_left hz (by linarith)
  have h3 := abs_add_le (g - 2 * n * z) (2 * n * z - 2 * n * (C + B - A - E))
  rw [sub_add_sub_cancel] at h3
  exact h3.trans (add_le_add hg hmain)

theorem combine_error {n k L : ℝ} {N : Nat} (hN : (N : ℝ) = n) (hN40 : N ≤ 2 ^ 40) (n1 : 1 ≤ n)
    (k40 : k ≤ 2 ^ 40) (L0 : 0 ≤ L) (L28 : L ≤ 28) {a b c d : ℚ} {A B C E : ℝ}
    (ha : |(a : ℝ) - A| ≤ (2 * k + 6) * (L + 1) / 2 ^ 53)
    (hb : |(b : ℝ) - B| ≤ (2 * k + 6) * (L + 1) / 2 ^ 53)
    (hc : |(c : ℝ) - C| ≤ (2 * k + 6) * (L + 1) / 2 ^ 53)
    (hd : |(d : ℝ) - E| ≤ (2 * k + 6) * (L + 1) / 2 ^ 53)
    (A0 : 0 ≤ A) (A1 : A ≤ L) (B0 : 0 ≤ B) (B1 : B ≤ L) (C0 : 0 ≤ C) (C1 : C ≤ L) (E0 : 0 ≤ E)
    (E1 : E ≤ L) :
    |((combineF N a b c d : ℚ) : ℝ) - 2 * n * (C + B - A - E)| ≤
      2 * n * (8 * (k + 5) * (L + 1)) / 2 ^ 53 := by
  have hu := uR_pos
  have hue := uR_eq
  have e1 : (2 * k + 6) * (L + 1) / 2 ^ 53 = u * ((2 * k + 6) * (L + 1)) := by rw [hue]; norm_num; ring
  rw [e1] at ha hb hc hd
  have hsmall : (u : ℝ) * ((2 * k + 6) * (L + 1)) ≤ 1 / 100 := by
    have h1 : (2 * k + 6) * (L + 1) ≤ (2 * 2 ^ 40 + 6) * (28 + 1) :=
      mul_le_mul (by linarith) (by linarith) (by linarith) (by norm_num)
    have h2 := mul_le_mul_of_nonneg_left h1 hu.le
    refine h2.trans ?_
    rw [hue]; norm_num
  have h2n : fl ((2 * N : ℕ) : ℚ) = ((2 * N : ℕ) : ℚ) := fl_nat (by
    calc 2 * N ≤ 2 * 2 ^ 40 := Nat.mul_le_mul_left 2 hN40
      _ ≤ 2 ^ 53 := by norm_num)
  have hround : ∀ t v : ℝ, |t - v| ≤ u * |v| + u / 2 ^ 200 → |v| ≤ 2 * L + 1 →
      |t - v| ≤ u * (2 * L + 2) := by
    intro t v h1 h2
    have h3 := mul_le_mul_of_nonneg_left h2 hu.le
    have h4 : (u : ℝ) * (2 * L + 2) = u * (2 * L + 1) + u := by ring
    have tiny : (u : ℝ) / 2 ^ 200 ≤ u := div_le_self hu.le (by norm_num)
    linarith
  unfold combineF
  rw [h2n]
  have r1 := fl_abs_real (c + b)
  have r2 := fl_abs_real (fl (c + b) - a)
  have r3 := fl_abs_real (fl (fl (c + b) - a) - d)
  have r4 := fl_abs_real (((2 * N : ℕ) : ℚ) * fl (fl (fl (c + b) - a) - d))
  push_cast at r1 r2 r3 r4 ⊢
  rw [hN] at r4
  have key := combine_real hu (by rw [hue]; norm_num) hsmall n1 L0 L28 ha hb hc hd hround
    r1 r2 r3 r4 A0 A1 B0 B1 C0 C1 E0 E1
  have h4 : 2 * n * (8 * (k + 5) * (L + 1)) / 2 ^ 53 = 2 * n * (u * (8 * (k + 5) * (L + 1))) := by
    rw [hue]; norm_num; ring
  rw [h4]
  refine key.trans ?_
  have h5 : 2 * n * ((u : ℝ) * (2 * L + 2)) +
      2 * n * (4 * (u * ((2 * k + 6) * (L + 1))) + 3 * (u * (2 * L + 2))) =
      2 * n * (u * (8 * (k + 4) * (L + 1))) := by ring
  rw [h5]
  refine mul_le_mul_of_nonneg_left (mul_le_mul_of_nonneg_left ?_ hu.le) (by linarith)
  refine mul_le_mul_of_nonneg_right (by linarith) (by linarith)

theorem dcGValueF_ok {flog : ℚ → ℚ} (hlog : LogAccurate flog) {fsum : List ℚ → ℚ}
    (hsum : SumAccurate fsum) {D : Data} {kind : DofKind} {order : Finset Nat → List Nat}
    (ho : IsOrder order) (hr : D.nrows ≠ 0) (h40 : D.nrows ≤ 2 ^ 40) (X Y : Nat) (Z : List Nat)
    {req : List (Finset Nat)} {s : DcStateF} (hs : DcOkF D kind order req s) :
    Ok (dcGValueF flog fsum D kind order X Y Z) s (fun g s' => |(g : ℝ) - G D X Y Z| ≤ dcError D X Y Z ∧
      DcOkF D kind order (req ++ entropyRequests [(X, Y, Z)]) s' ∧ DcSameF s s') := by
  unfold dcGValueF
  refine Ok.bind ((jointEntropyTermF_ok hlog hsum ho hr h40 _ hs).mono ?_)
  rintro H1 s1 ⟨b1, d1, l1⟩
  refine Ok.bind ((jointEntropyTermF_ok hlog hsum ho hr h40 _ d1).mono ?_)
  rintro H2 s2 ⟨b2, d2, l2⟩
  refine Ok.bind ((jointEntropyTermF_ok hlog hsum ho hr h40 _ d2).mono ?_)
  rintro H3 s3 ⟨b3, d3, l3⟩
  refine Ok.bind ((jointEntropyTermF_ok hlog hsum ho hr h40 _ d3).mono ?_)
  rintro H4 s4 ⟨b4, d4, l4⟩
  refine Ok.ret ⟨?_, ?_, ((l1.trans l2).trans l3).trans l4⟩
  · have h : ∀ cols : List Nat, entropy D (order cols.toFinset) = entropy D cols := by
      intro cols
      exact entropy_perm D (fun c => by rw [ho.mem, List.mem_toFinset])
    have hle : ∀ cols : List Nat, (∀ c ∈ cols, c ∈ X :: Y :: Z) →
        hError D (order cols.toFinset) ≤ hError D (X :: Y :: Z) := fun cols hc =>
      hError_mono hr (fun c hm => hc c (by rwa [ho.mem, List.mem_toFinset] at hm))
    have c1 := b1.trans (hle _ (fun _ h => h))
    have c2 := b2.trans (hle (X :: Z) (by intro c hc; simp at hc ⊢; tauto))
    have c3 := b3.trans (hle (Y :: Z) (by intro c hc; simp at hc ⊢; tauto))
    have c4 := b4.trans (hle Z (by intro c hc; simp [hc]))
    rw [h] at c1 c2 c3 c4
    obtain ⟨L0, L28⟩ := log_rows hr h40
    have e1 := entropy_le_log hr (X :: Y :: Z)
    have e2 := entropy_le_log hr (X :: Z)
    have e3 := entropy_le_log hr (Y :: Z)
    have e4 := entropy_le_log hr Z
    have hM : ((observed D (X :: Y :: Z)).card : ℝ) ≤ 2 ^ 40 := by
      exact_mod_cast (card_observed_le D _).trans h40
    unfold Stats.Spec.G dcError
    rw [cmi_eq_entropies]
    exact combine_error rfl h40 (by exact_mod_cast Nat.one_le_iff_ne_zero.2 hr) hM L0 L28
      c1 c2 c3 c4 e1.1 e1.2 e2.1 e2.2 e3.1 e3.2 e4.1 e4.2
  · have e : req ++ entropyRequests [(X, Y, Z)] =
        req ++ [(X :: Y :: Z).toFinset].filter (fun S => S ≠ ∅) ++
        [(X :: Z).toFinset].filter (fun S => S ≠ ∅) ++
        [(Y :: Z).toFinset].filter (fun S => S ≠ ∅) ++
        [Z.toFinset].filter (fun S => S ≠ ∅) := by
      unfold entropyRequests entropySets
      rw [List.flatMap_cons, List.flatMap_nil, List.append_nil, List.append_assoc,
        List.append_assoc, List.append_assoc, ← List.filter_append, ← List.filter_append,
        ← List.filter_append]
      rfl
    rw [e]
    exact d4

/-! ## Calls and sessions -/

theorem dcCallF_near {flog : ℚ → ℚ} (hlog : LogAccurate flog) {fsum : List ℚ → ℚ}
    (hsum : SumAccurate fsum) {D : Data} {cfg : Config} {order : Finset Nat → List Nat}
    (ho : IsOrder order) (hk : cfg.kind ≠ .structural) (hr : D.nrows ≠ 0) (h40 : D.nrows ≤ 2 ^ 40)
    {c : Call} (hd : Declared D (c.1 :: c.2.1 :: c.2.2)) (hn : (c.1 :: c.2.1 :: c.2.2).Nodup)
    {req : List (Finset Nat)} {s : DcStateF} (hs : DcOkF D cfg.kind order req s) :
    Ok (dcCallF flog fsum D cfg order c) s (fun a s' =>
      ∃ r, NearEntry D cfg (dcError D c.1 c.2.1 c.2.2) (s.base.counter + 1) c.1 c.2.1 c.2.2 r ∧
      AnswerOf D cfg c.1 c.2.1 c.2.2 r a ∧ DcOkF D cfg.kind order (req ++ entropyRequests [c]) s' ∧
      s'.base.counter = s.base.counter + 1 ∧ s'.base.results = s.base.results ++ [r]) := by
  obtain ⟨X, Y, Z⟩ := c
  unfold dcCallF
  have h : Ok (dcTestF flog fsum D cfg order X Y Z) s (fun r s' =>
      ∃ g : ℝ, |g - G D X Y Z| ≤ dcError D X Y Z ∧
      r = makeResult cfg D.nrows s.base.counter X Y Z g (dofOf D cfg.kind X Y Z) ∧
      (DcOkF D cfg.kind order (req ++ entropyRequests [(X, Y, Z)]) s' ∧ DcSameF s s')) := by
    obtain ⟨g, s1, e, hg, h1, h2⟩ := dcGValueF_ok hlog hsum ho hr h40 X Y Z hs
    have hin : (X :: Y :: Z).toFinset ∈ req ++ entropyRequests [(X, Y, Z)] := by
      refine List.mem_append_right _ (List.mem_filter.2 ⟨by simp [entropySets], ?_⟩)
      simp only [decide_eq_true_eq]
      intro h0
      have : X ∈ (X :: Y :: Z).toFinset := by simp
      rw [h0] at this; simp at this
    obtain ⟨t', e2, _⟩ := calculateDof_ok (t := ⟨[], [], [], PMF.empty⟩) cfg.kind hd hn h1.cache
      (fun h => absurd h hk) (fun hc => by
        rw [castIds_toFinset]
        refine h1.dofs hc _ hin ?_
        rw [List.toFinset_card_of_nodup hn]
        simp)
    refine ⟨_, s1, ?_, (g : ℝ), hg, rfl, h1, h2⟩
    unfold dcTestF
    rw [e]
    show (calculateDof D cfg.kind s1.base.cache X Y Z _ >>= _) = _
    rw [e2]
    show Except.ok _ = _
    rw [h2.1]
  refine (call_near (c := (X, Y, Z)) (P := fun s' =>
    DcOkF D cfg.kind order (req ++ entropyRequests [(X, Y, Z)]) s' ∧ DcSameF s s') h).mono ?_
  rintro a s' ⟨r, s1, he, ha, ⟨h1, h2⟩, rfl⟩
  refine ⟨r, he, ha, ⟨h1.cache, h1.reads, h1.misses, h1.known, h1.entropy, h1.dofs⟩, ?_, ?_⟩
  · simp [Base.log, h2.1]
  · simp [Base.log, h2.2]

theorem DcOkF.init (D : Data) (kind : DofKind) (order : Finset Nat → List Nat) :
    DcOkF D kind order [] {} := by
  refine ⟨?_, rfl, rfl, ?_, ?_, ?_⟩
  · intro S vars pw h; simp [dictGet] at h
  · intro S; simp [dictGet]
  · intro S H h; simp [dictGet] at h
  · intro _ S h; simp at h

theorem DcOkF.reload {D : Data} {kind : DofKind} {order : Finset Nat → List Nat}
    {req : List (Finset Nat)} {s : DcStateF} (h : DcOkF D kind order req s) :
    DcOkF D kind order req s.save.load :=
  ⟨h.cache, h.reads, h.misses, h.known, h.entropy, h.dofs⟩

theorem dcF_session {flog : ℚ → ℚ} (hlog : LogAccurate flog) {fsum : List ℚ → ℚ}
    (hsum : SumAccurate fsum) {D : Data} {cfg : Config} {order : Finset Nat → List Nat}
    (ho : IsOrder order) (hk : cfg.kind ≠ .structural) (hr : D.nrows ≠ 0) (h40 : D.nrows ≤ 2 ^ 40)
    (calls done : List Call) (s : DcStateF) (hv : ∀ c ∈ calls, ValidCall D c)
    (hs : DcOkF D cfg.kind order (entropyRequests done) s) :
    Ok (mapList (dcCallF flog fsum D cfg order) calls) s (fun as s' => ∃ rs,
      IsRun D cfg (fun c => dcError D c.1 c.2.1 c.2.2) s.base.counter calls as rs ∧
      DcOkF D cfg.kind order (entropyRequests (done ++ calls)) s' ∧
      s'.base.counter = s.base.counter + calls.length ∧
      s'.base.results = s.base.results ++ rs) :=
  session_near (D := D) (cfg := cfg) (ε := fun c => dcError D c.1 c.2.1 c.2.2)
    (dcCallF flog fsum D cfg order) (·.base)
    (fun done s => DcOkF D cfg.kind order (entropyRequests done) s) (ValidCall D)
    (fun done c s hc hs => by
      rw [entropyRequests_append]
      exact dcCallF_near hlog hsum ho hk hr h40 hc.2 hc.1 hs) calls done s hv hs

/-- **C85, sessions.**  The test with dcMI, on every dataset of 1 to 2⁴⁰ rows, for every history of valid
calls and every iteration order of frozensets: nothing is raised, one entry per call, numbered from 1;
the statistic is within `dcError` of the exact G; everything else is as in C83. -/
theorem float_dcmi_session {flog : ℚ → ℚ} (hlog : LogAccurate flog) {fsum : List ℚ → ℚ}
    (hsum : SumAccurate fsum) (D : Data) (cfg : Config) (hk : cfg.kind ≠ .structural)
    (hr : D.nrows ≠ 0) (h40 : D.nrows ≤ 2 ^ 40) (order : Finset Nat → List Nat) (ho : IsOrder order)
    (calls : List Call) (hv : ∀ c ∈ calls, ValidCall D c) :
    ∃ s0, newDcTestF cfg = .ok s0 ∧
    Ok (mapList (dcCallF flog fsum D cfg order) calls) s0 (fun answers s =>
      IsRun D cfg (fun c => dcError D c.1 c.2.1 c.2.2) 0 calls answers s.base.results ∧
      s.base.counter = calls.length) := by
  refine ⟨{}, by simp [newDcTestF, hk], ?_⟩
  refine (dcF_session hlog hsum ho hk hr h40 calls [] {} hv (DcOkF.init D cfg.kind order)).mono ?_
  rintro as s ⟨rs, h1, _, h3, h4⟩
  refine ⟨?_, by simpa using h3⟩
  rw [h4]
  simpa using h1

/-- **C85, decisions.**  Clear of the threshold, the dcMI test with `float`s returns the answers of the
exact tests. -/
theorem float_dcmi_answers {flog : ℚ → ℚ} (hlog : LogAccurate flog) {fsum : List ℚ → ℚ}
    (hsum : SumAccurate fsum) (D : Data) (cfg : Config) (hk : cfg.kind ≠ .structural)
    (hr : D.nrows ≠ 0) (h40 : D.nrows ≤ 2 ^ 40) (hmono : ∀ k, Monotone (fun g => cfg.cdf g k))
    (order : Finset Nat → List Nat) (ho : IsOrder order)
    (calls : List Call) (hv : ∀ c ∈ calls, ValidCall D c)
    (hc : ∀ c ∈ calls, Clear D cfg (dcError D c.1 c.2.1 c.2.2) c) :
    ∃ answers s s', mapList (dcCallF flog fsum D cfg order) calls {} = .ok (answers, s) ∧
      mapList (dcCall D cfg order) calls {} = .ok (answers, s') ∧ AreAnswers D cfg calls answers := by
  obtain ⟨s0, e0, as, s, e, hrun, _⟩ := float_dcmi_session hlog hsum D cfg hk hr h40 order ho calls hv
  obtain ⟨s0', e0', as', s', e', ha', _⟩ := dcmi_session D cfg hk hr order ho calls hv
  have ha := run_answers hmono hrun hc
  rw [AreAnswers.unique ha' ha] at e'
  rw [newDcTestF, if_neg hk] at e0
  rw [newDcTest, if_neg hk] at e0'
  injection e0 with e0
  injection e0' with e0'
  subst e0
  subst e0'
  exact ⟨as, s, s', e, e', ha⟩

/-- **C85, the table of entropies.**  After any history: the stored sets are exactly the sets that were
needed, every stored `float` is within `hError` of the joint entropy of the data, reads count the
(non-empty) requests and misses the distinct ones. -/
theorem float_entropy_table {flog : ℚ → ℚ} (hlog : LogAccurate flog) {fsum : List ℚ → ℚ}
    (hsum : SumAccurate fsum) (D : Data) (cfg : Config) (hk : cfg.kind ≠ .structural)
    (hr : D.nrows ≠ 0) (h40 : D.nrows ≤ 2 ^ 40) (order : Finset Nat → List Nat) (ho : IsOrder order)
    (calls : List Call) (hv : ∀ c ∈ calls, ValidCall D c) :
    Ok (mapList (dcCallF flog fsum D cfg order) calls) {} (fun _ s =>
      (∀ cols H, dictGet s.jht cols.toFinset = some H → |(H : ℝ) - entropy D cols| ≤ hError D cols) ∧
      (∀ S, (dictGet s.jht S).isSome ↔ S ∈ entropyRequests calls) ∧
      s.reads = (entropyRequests calls).length ∧
      s.misses = (entropyRequests calls).toFinset.card) := by
  refine (dcF_session hlog hsum ho hk hr h40 calls [] {} hv (DcOkF.init D cfg.kind order)).mono ?_
  rintro as s ⟨_, _, h, _, _⟩
  refine ⟨?_, h.known, h.reads, h.misses⟩
  intro cols H he
  have h1 := h.entropy _ _ he
  have hp : entropy D (order cols.toFinset) = entropy D cols :=
    entropy_perm D (fun c => by rw [ho.mem, List.mem_toFinset])
  rw [hp] at h1
  exact h1.trans (hError_mono hr (fun c hc => by rwa [ho.mem, List.mem_toFinset] at hc))

/-- **C85, saving and loading.**  A test object that is given the saved entropies and the saved cache of
the calculator answers a second history as well as a fresh object, and its counters continue. -/
theorem float_entropy_reload {flog : ℚ → ℚ} (hlog : LogAccurate flog) {fsum : List ℚ → ℚ}
    (hsum : SumAccurate fsum) (D : Data) (cfg : Config) (hk : cfg.kind ≠ .structural)
    (hr : D.nrows ≠ 0) (h40 : D.nrows ≤ 2 ^ 40) (order : Finset Nat → List Nat) (ho : IsOrder order)
    (calls calls' : List Call) (hv : ∀ c ∈ calls, ValidCall D c) (hv' : ∀ c ∈ calls', ValidCall D c) :
    Ok (mapList (dcCallF flog fsum D cfg order) calls) {} (fun _ s =>
      Ok (mapList (dcCallF flog fsum D cfg order) calls') s.save.load (fun answers s' =>
        IsRun D cfg (fun c => dcError D c.1 c.2.1 c.2.2) 0 calls' answers s'.base.results ∧
        s'.reads = (entropyRequests (calls ++ calls')).length ∧
        s'.misses = (entropyRequests (calls ++ calls')).toFinset.card)) := by
  refine (dcF_session hlog hsum ho hk hr h40 calls [] {} hv (DcOkF.init D cfg.kind order)).mono ?_
  rintro as s ⟨_, _, h, _, _⟩
  refine (dcF_session hlog hsum ho hk hr h40 calls' calls _ hv' h.reload).mono ?_
  rintro as' s' ⟨rs, h1, h2, _, h4⟩
  refine ⟨?_, h2.reads, h2.misses⟩
  rw [h4]
  exact h1

/-! ## The three tests together -/

theorem gError_le_dcError {D : Data} (hr : D.nrows ≠ 0) (X Y : Nat) (Z : List Nat) :
    gError D X Y Z ≤ dcError D X Y Z := by
  have h0 : (0 : ℝ) ≤ log D.nrows := Real.log_nonneg (by exact_mod_cast Nat.one_le_iff_ne_zero.2 hr)
  have hn : (0 : ℝ) ≤ D.nrows := by positivity
  have hM : (0 : ℝ) ≤ (observed D (X :: Y :: Z)).card := by positivity
  unfold gError dcError
  refine div_le_div_of_nonneg_right (mul_le_mul_of_nonneg_left ?_ (by linarith)) (by norm_num)
  nlinarith [mul_nonneg hM h0]

theorem Clear.mono {D : Data} {cfg : Config} (hmono : ∀ k, Monotone (fun g => cfg.cdf g k)) {c : Call}
    {ε ε' : ℝ} (hε : ε ≤ ε') (h : Clear D cfg ε' c) : Clear D cfg ε c := by
  rcases h with h | h
  · left
    exact lt_of_le_of_lt (hmono _ (by linarith)) h
  · right
    exact le_trans h (hmono _ (by linarith))

/-- **C85, agreement.**  Clear of the threshold, the unoptimised test, the tests with static and dynamic
AD-trees and the dcMI test, all computing with `float`s, give the same answers, those of exact
arithmetic. -/
theorem float_tests_agree {flog : ℚ → ℚ} (hlog : LogAccurate flog) {fsum : List ℚ → ℚ}
    (hsum : SumAccurate fsum) (D : Data) (cfg : Config) (hk : cfg.kind ≠ .structural) (hD : Usable D)
    (h40 : D.nrows ≤ 2 ^ 40) (hmono : ∀ k, Monotone (fun g => cfg.cdf g k)) (dyn : Bool)
    (order : Finset Nat → List Nat) (ho : IsOrder order) (calls : List Call)
    (hv : ∀ c ∈ calls, ValidAdCall D c)
    (hc : ∀ c ∈ calls, Clear D cfg (dcError D c.1 c.2.1 c.2.2) c) :
    ∃ answers b s0 s t, AreAnswers D cfg calls answers ∧
      mapList (unoptCallF flog D cfg) calls {} = .ok (answers, b) ∧
      newAdTest D dyn = .ok s0 ∧ mapList (adCallF flog D dyn cfg) calls s0 = .ok (answers, s) ∧
      newDcTestF cfg = .ok {} ∧
      mapList (dcCallF flog fsum D cfg order) calls {} = .ok (answers, t) := by
  have hr : D.nrows ≠ 0 := by have := hD.rows_pos; omega
  have hv' : ∀ c ∈ calls, ValidCall D c := fun c h => (hv c h).valid hD
  obtain ⟨as, s0, s, b, _, e0, e1, e2, _, ha⟩ := float_adtree_answers hlog D cfg hD h40 hmono dyn calls hv
    (fun c h => (hc c h).mono hmono (gError_le_dcError hr _ _ _))
  obtain ⟨as', t, _, e3, _, ha'⟩ := float_dcmi_answers hlog hsum D cfg hk hr h40 hmono order ho calls hv' hc
  rw [AreAnswers.unique ha' ha] at e3
  exact ⟨as, b, s0, s, t, ha, e2, e0, e1, by simp [newDcTestF, hk], e3⟩

/-- Up to a hundred thousand rows, the statistic of the dcMI test is right to three decimals. -/
theorem dcError_small (D : Data) (hr : D.nrows ≠ 0) (h : D.nrows ≤ 100000) (X Y : Nat) (Z : List Nat) :
    dcError D X Y Z ≤ 1 / 1000 := by
  have hn1 : (1 : ℝ) ≤ D.nrows := by exact_mod_cast Nat.one_le_iff_ne_zero.2 hr
  have hn : (D.nrows : ℝ) ≤ 100000 := by exact_mod_cast h
  have hM : ((observed D (X :: Y :: Z)).card : ℝ) ≤ 100000 := by
    exact_mod_cast (card_observed_le D _).trans h
  have hL0 : 0 ≤ log D.nrows := Real.log_nonneg hn1
  have hL : log D.nrows ≤ 12 := by
    have h2 : (D.nrows : ℝ) ≤ 2 ^ 17 := hn.trans (by norm_num)
    have h3 : log D.nrows ≤ log (2 ^ 17) := Real.log_le_log (by linarith) h2
    rw [Real.log_pow] at h3
    have h4 := Real.log_two_lt_d9
    push_cast at h3
    linarith
  unfold dcError
  have hM0 : (0 : ℝ) ≤ (observed D (X :: Y :: Z)).card := by positivity
  generalize ((observed D (X :: Y :: Z)).card : ℝ) = M at *
  generalize log (D.nrows : ℝ) = L at *
  generalize (D.nrows : ℝ) = n at *
  have h1 : 8 * (M + 5) * (L + 1) ≤ 8 * (100000 + 5) * (12 + 1) :=
    mul_le_mul (by linarith) (by linarith) (by linarith) (by norm_num)
  have h2 : 2 * n * (8 * (M + 5) * (L + 1)) ≤ 2 * 100000 * (8 * (100000 + 5) * (12 + 1)) :=
    mul_le_mul (by linarith) h1 (by positivity) (by norm_num)
  rw [div_le_iff₀ (by norm_num)]
  refine h2.trans ?_
  norm_num

/-! ## Example -/

theorem coin_clear_dc : ∀ c ∈ [((0, 1, []) : Call), (0, 2, [])],
    Clear coinData coinConfig (dcError coinData c.1 c.2.1 c.2.2) c := by
  intro c hc
  simp only [List.mem_cons, List.not_mem_nil, or_false] at hc
  rcases hc with rfl | rfl
  · left
    have := dcError_small coinData (by decide) (by decide) 0 1 []
    have hG : G coinData 0 1 [] = 0 := by
      unfold Stats.Spec.G
      rw [(Stats.Spec.cmi_eq_zero_iff coinData _ _ _).2 coin_independent, mul_zero]
    show max 0 (min 1 (G coinData 0 1 [] + dcError coinData 0 1 [])) < 1 / 2
    rw [hG, zero_add]
    refine max_lt (by norm_num) (lt_of_le_of_lt (min_le_right _ _) ?_)
    exact lt_of_le_of_lt this (by norm_num)
  · right
    have := dcError_small coinData (by decide) (by decide) 0 2 []
    show 1 / 2 ≤ max 0 (min 1 (G coinData 0 2 [] - dcError coinData 0 2 []))
    rw [coin_dependent]
    have h2 := Real.log_two_gt_d9
    refine le_trans (le_min (by norm_num) ?_) (le_max_right _ _)
    norm_num at this
    linarith

/-- The hypotheses of C85 are met by an accurate logarithm, the left-to-right sum, a dataset and a
configuration; the dcMI test with `float`s answers: independent, dependent. -/
example : ∃ t, newDcTestF coinConfig = .ok {} ∧
    mapList (dcCallF roundedLog leftSum coinData coinConfig (fun S => S.sort))
      [((0, 1, []) : Call), (0, 2, [])] {} = .ok ([Answer.independent, Answer.dependent], t) := by
  obtain ⟨as, b, s0, s, t, _, e1, _, _, e0, e⟩ := float_tests_agree roundedLog_accurate leftSum_accurate
    coinData coinConfig (by decide) coin_usable (by decide)
    (fun _ _ _ h => max_le_max le_rfl (min_le_min le_rfl h)) true (fun S => S.sort (fun a b => a ≤ b))
    (fun S => ⟨Finset.sort_nodup S (fun a b => a ≤ b), Finset.sort_toFinset S (fun a b => a ≤ b)⟩)
    [((0, 1, []) : Call), (0, 2, [])] (by unfold ValidAdCall; decide) coin_clear_dc
  obtain ⟨b1, e2⟩ := coin_answers
  rw [e2] at e1
  injection e1 with e1
  injection e1 with e1
  rw [← e1] at e
  exact ⟨t, e0, e⟩

end Mbtk.Fp
