import Verif.Stats.CmiModel
import Verif.Stats.AdTest
import Verif.Stats.Dc
import Verif.Props.PMFProps
import Verif.Props.ADTreeProps
/-!
# C30–C34: conditional mutual information, G-tests, degrees of freedom, logs
-/
namespace Mbtk.Stats
open Mbtk.ADTree (Data)
open Mbtk.ADTree.Spec (Usable)
open Mbtk.MB (Answer)
open Spec Real

/-! ## C30 -/

theorem createLogarithm_ok {base : LogBase} {b : ℝ} (h : base = .number b true ∨
    (b = 2 ∨ b = 10) ∧ base = .number b false ∨ base = .e ∧ b = exp 1) :
    createLogarithm base = .ok (fun x => log x / log b) := by
  have hn : ∀ fl, (fl = true ∨ b = 2 ∨ b = 10) →
      createLogarithm (.number b fl) = .ok (fun x => log x / log b) := by
    intro fl hfl
    unfold createLogarithm
    by_cases h2 : b = 2
    · simp [h2]
    · by_cases h10 : b = 10
      · simp [h10]
      · have : fl = true := by simpa [h2, h10] using hfl
        simp [h2, h10, this]
  rcases h with rfl | ⟨h, rfl⟩ | ⟨rfl, rfl⟩
  · exact hn _ (.inl rfl)
  · exact hn _ (.inr h)
  · simp only [createLogarithm, log_exp, div_one]

theorem mutualInformation_eq {D : Data} (hr : D.nrows ≠ 0) {X Y : Nat} {prXY prX prY : PMF}
    (hXY : Tabulates prXY.probabilities mkKey 2 (freq D [X, Y]))
    (hX : Tabulates prX.probabilities mkKey 1 (freq D [X]))
    (hY : Tabulates prY.probabilities mkKey 1 (freq D [Y])) {c : ℝ} (hc : 0 < c) :
    mutualInformation (fun x => log x / c) prXY prX prY = cmi D X Y [] / c := by
  obtain ⟨eZ, eX, eY, ht⟩ := goodTables_omega hr hXY hX hY
  have := cmiSum_eq ht hc
  rw [cmi_eq_info, ← this]
  unfold mutualInformation
  simp only [omegaPMF, List.map_cons, List.map_nil, List.sum_cons, List.sum_nil, add_zero,
    given_omega, Rat.cast_one, one_mul]

/-- **C30**, mutual information: on any two columns of a non-empty dataset,
`mutual_information` is the textbook value in the requested base. -/
theorem mutual_information_exact (D : Data) (hr : D.nrows ≠ 0) (X Y : Nat) (base : LogBase) (b : ℝ)
    (hb : 1 < b) (h : base = .number b true ∨ (b = 2 ∨ b = 10) ∧ base = .number b false ∨
      base = .e ∧ b = exp 1) :
    miOfVariables base (getVariable D X) (getVariable D Y) = .ok (cmi D X Y [] / log b) := by
  have hjv : mkJoint [getVariable D X, getVariable D Y] =
      .ok (.joint ([X, Y].map (column D))) :=
    mkJoint_ok D _ [X, Y] (by simp [flattenVariables, getVariable])
  obtain ⟨pXY, e1, t1, _⟩ := pmf_ok D hr (cols := [X, Y]) (by simp) (.inl rfl)
  obtain ⟨pX, e2, t2, _⟩ := pmf_ok D hr (cols := [X]) (by simp) (isVarOf_single D X)
  obtain ⟨pY, e3, t3, _⟩ := pmf_ok D hr (cols := [Y]) (by simp) (isVarOf_single D Y)
  unfold miOfVariables
  rw [hjv]
  show (PMF.ofVariable (.joint ([X, Y].map (column D))) >>= _) = _
  rw [e1, e2, e3, createLogarithm_ok h]
  show Except.ok _ = _
  rw [mutualInformation_eq hr t1.tab t2.tab t3.tab (log_pos hb)]

/-- Finding: an `int` base other than 2 and 10 is refused. -/
theorem integer_base_raises (b : ℝ) (h2 : b ≠ 2) (h10 : b ≠ 10) :
    createLogarithm (.number b false) = .error (.custom "AssertionError") := by
  simp [createLogarithm, h2, h10]

theorem hasInstances_of {D : Data} {cols : List Nat} {v : Variable} (h : IsVarOf D cols v)
    (hne : cols ≠ []) : HasInstances v D.nrows := by
  rcases h with rfl | ⟨c, rfl, rfl⟩
  · refine ⟨by simpa [columns] using hne, ?_⟩
    intro l hl
    simp only [columns, List.map_map, List.mem_map] at hl
    obtain ⟨c, _, rfl⟩ := hl
    simp [column]
  · refine ⟨by simp [columns], ?_⟩
    intro l hl
    simp only [columns, List.mem_singleton] at hl
    subst hl
    simp [column]

theorem instanceAt_of {D : Data} {cols : List Nat} {v : Variable} (h : IsVarOf D cols v)
    {r : Nat} (hr : r < D.nrows) : instanceAt v r = cols.map (D.cell r) := by
  rcases h with rfl | ⟨c, rfl, rfl⟩
  · simp only [instanceAt, columns, List.map_map]
    apply List.map_congr_left
    intro c _
    simp [column, hr]
  · simp [instanceAt, columns, column, hr]

theorem countConditionally_keys (pairs : List (Key × Key)) (acc : List (Key × List (Key × Nat)))
    (S : Key → Prop) (ha : ∀ cv, ∀ k ∈ ((dictGet acc cv).getD []).map Prod.fst, S k)
    (hp : ∀ p ∈ pairs, S p.1) :
    ∀ cv, ∀ k ∈ ((dictGet (countConditionally acc pairs) cv).getD []).map Prod.fst, S k := by
  induction pairs generalizing acc with
  | nil => exact ha
  | cons p pairs ih =>
    obtain ⟨v0, cv0⟩ := p
    simp only [countConditionally]
    refine ih _ ?_ (fun p hm => hp p (List.mem_cons_of_mem _ hm))
    intro cv k hk
    rw [dictGet_dictSet] at hk
    by_cases e : cv0 = cv
    · rw [if_pos e, Option.getD_some, mem_dictAdd_keys] at hk
      rcases hk with rfl | hk
      · exact hp (k, cv0) (by simp)
      · exact ha _ _ hk
    · rw [if_neg e] at hk
      exact ha _ _ hk

theorem leavesAll_toVal (k : Key) : leavesAll [k.toVal] = k.comps := by
  simp [leavesAll, Key.leaves_toVal]

/-- The conditional tables built by `CPMF(variable, given)`. -/
theorem cpmf_tab {D : Data} {A Z : List Nat} {v g : Variable} (hv : IsVarOf D A v)
    (hg : IsVarOf D Z g) (hA : A ≠ []) (hZ : Z ≠ []) (z : List Int) :
    Tabulates ((CPMF.ofVariables v g).given [(mkKey z).toVal]).probabilities mkKey A.length
      (fun a => freq D (A ++ Z) (a ++ z) / freq D Z z) := by
  have hvi := hasInstances_of hv hA
  have hgi := hasInstances_of hg hZ
  have hpr : ((CPMF.ofVariables v g).given [(mkKey z).toVal]).probabilities =
      (normalised ((dictGet (countConditionally [] (v.instances.zip g.instances))
        (mkKey z)).getD [])).probabilities := by
    unfold CPMF.given CPMF.ofVariables
    have hdm := dictGet_mapVal normalised (countConditionally [] (v.instances.zip g.instances))
      (mkKey z)
    unfold normalised at hdm ⊢
    rw [processPmfKey_eq]
    have hl : leavesAll [(mkKey z).toVal] = z := by
      rw [leavesAll_toVal, mkKey_comps]
    rw [hl, hdm]
    cases dictGet (countConditionally [] (v.instances.zip g.instances)) (mkKey z) <;> rfl
  obtain ⟨h1, h2, _⟩ := countConditionally_spec (v.instances.zip g.instances) [] (by simp)
    (by simp [dictGet])
  refine ⟨?_, ?_, ?_⟩
  · rw [hpr]
    have := h2 (mkKey z)
    unfold normalised
    rw [List.map_map]
    exact this
  · intro k hk
    rw [hpr] at hk
    have hk' : k ∈ ((dictGet (countConditionally [] (v.instances.zip g.instances))
        (mkKey z)).getD []).map Prod.fst := by
      unfold normalised at hk
      rw [List.map_map] at hk
      exact hk
    have := countConditionally_keys (v.instances.zip g.instances) []
      (fun k => ∃ l : List Int, l.length = A.length ∧ k = mkKey l) (by simp [dictGet]) (by
        intro p hp
        have := (List.of_mem_zip hp).1
        rw [instances_eq hvi] at this
        obtain ⟨r, hr, e⟩ := List.mem_map.1 this
        rw [instanceAt_of hv (List.mem_range.1 hr)] at e
        exact ⟨A.map (D.cell r), by simp, e.symm⟩) (mkKey z) k hk'
    exact this
  · intro l hl
    have := cpmf_conditional_frequency v g D.nrows hvi hgi [(mkKey z).toVal] [(mkKey l).toVal]
    rw [PMF.p_key, mkKey_comps, leavesAll_toVal, leavesAll_toVal, mkKey_comps, mkKey_comps] at this
    rw [this]
    unfold freq Mbtk.ADTree.Spec.rowsWith
    have e1 : (List.range D.nrows).filter (fun r => decide (instanceAt v r = l ∧ instanceAt g r = z)) =
        (List.range D.nrows).filter (fun r => decide ((A ++ Z).map (D.cell r) = l ++ z)) := by
      apply List.filter_congr
      intro r hr
      rw [instanceAt_of hv (List.mem_range.1 hr), instanceAt_of hg (List.mem_range.1 hr)]
      rw [decide_eq_decide, List.map_append]
      exact ⟨fun h => by rw [h.1, h.2], fun h => List.append_inj h (by simp [hl])⟩
    have e2 : (List.range D.nrows).filter (fun r => decide (instanceAt g r = z)) =
        (List.range D.nrows).filter (fun r => decide (Z.map (D.cell r) = z)) := by
      apply List.filter_congr
      intro r hr
      rw [instanceAt_of hg (List.mem_range.1 hr)]
    rw [e1, e2]
    by_cases hn : D.nrows = 0
    · simp [hn]
    · have : (D.nrows : ℚ) ≠ 0 := by exact_mod_cast hn
      rw [div_div_div_cancel_right₀ this]

/-- **C30**, conditional mutual information from `CPMF`s: on any columns of a non-empty
dataset, `conditional_mutual_information` is the textbook value in the requested base. -/
theorem conditional_mutual_information_exact (D : Data) (hr : D.nrows ≠ 0) (X Y : Nat) (Z : List Nat)
    (hZ : Z ≠ []) (base : LogBase) (b : ℝ)
    (hb : 1 < b) (h : base = .number b true ∨ (b = 2 ∨ b = 10) ∧ base = .number b false ∨
      base = .e ∧ b = exp 1) :
    ∃ vZ, getVariables D Z = .ok vZ ∧
      cmiOfVariables base (getVariable D X) (getVariable D Y) vZ = .ok (cmi D X Y Z / log b) := by
  obtain ⟨vZ, eZ, hv⟩ := getVariables_ok D Z
  refine ⟨vZ, eZ, ?_⟩
  have hjv : mkJoint [getVariable D X, getVariable D Y] =
      .ok (.joint ([X, Y].map (column D))) :=
    mkJoint_ok D _ [X, Y] (by simp [flattenVariables, getVariable])
  obtain ⟨pZ, e1, t1, _⟩ := pmf_ok D hr hZ hv
  unfold cmiOfVariables
  rw [hjv]
  show (PMF.ofVariable vZ >>= _) = _
  rw [e1, createLogarithm_ok h]
  show Except.ok _ = _
  have hgood := goodTables_cond (D := D) (X := X) (Y := Y) (Z := Z) mkKey_comps mkKey_comps t1.tab
    (cXY := CPMF.ofVariables (.joint ([X, Y].map (column D))) vZ)
    (cX := CPMF.ofVariables (getVariable D X) vZ) (cY := CPMF.ofVariables (getVariable D Y) vZ)
    (fun z _ _ x y => (cpmf_tab (A := [X, Y]) (.inl rfl) hv (by simp) hZ z).value [x, y] rfl)
    (fun z _ _ => cpmf_tab (A := [X]) (isVarOf_single D X) hv (by simp) hZ z)
    (fun z _ _ => cpmf_tab (A := [Y]) (isVarOf_single D Y) hv (by simp) hZ z)
  obtain ⟨kZ, kX, kY, ht⟩ := hgood
  rw [conditionalMutualInformation_eq ht (log_pos hb), cmi_eq_info]

/-- **C30**, the heuristic: `CMICalculator.compute` is the textbook value (natural
logarithm). -/
theorem cmi_calculator_exact (D : Data) (hr : D.nrows ≠ 0) (X Y : Nat) (Z : List Nat)
    (hn : (X :: Y :: Z).Nodup) : cmiCompute D X Y Z = .ok (cmi D X Y Z) := by
  obtain ⟨cache', t, e, ⟨eZ, eX, eY, hc⟩, _⟩ := unoptTables_ok hr hn .unadjusted
    (cache := []) (by intro S vars pw hg; simp [dictGet] at hg)
  unfold cmiCompute
  rw [e]
  have := conditionalMutualInformation_eq hc (c := 1) one_pos
  simp only [div_one] at this
  show Except.ok _ = _
  rw [cmi_eq_info]
  exact congrArg Except.ok this

/-- **C30**, the properties of the value: never negative, symmetric, independent of the order
in which the conditioning columns are given, and zero exactly for an empirical distribution
that factorises. -/
theorem cmi_properties (D : Data) (X Y : Nat) (Z : List Nat) :
    0 ≤ cmi D X Y Z ∧ cmi D X Y Z = cmi D Y X Z ∧
      (∀ Z', (∀ c, c ∈ Z ↔ c ∈ Z') → cmi D X Y Z' = cmi D X Y Z) ∧
      (cmi D X Y Z = 0 ↔ Independent D X Y Z) :=
  ⟨cmi_nonneg D X Y Z, cmi_symm D X Y Z, fun _ h => cmi_perm D X Y h, cmi_eq_zero_iff D X Y Z⟩

/-- The same for G (a non-empty dataset is needed for "zero only if independent"). -/
theorem g_properties (D : Data) (hr : D.nrows ≠ 0) (X Y : Nat) (Z : List Nat) :
    0 ≤ G D X Y Z ∧ G D X Y Z = G D Y X Z ∧ (G D X Y Z = 0 ↔ Independent D X Y Z) := by
  have hn : (0 : ℝ) < 2 * D.nrows := by
    have : 0 < D.nrows := by omega
    positivity
  obtain ⟨h1, h2, _, h4⟩ := cmi_properties D X Y Z
  refine ⟨mul_nonneg hn.le h1, by unfold G; rw [h2], ?_⟩
  unfold G
  rw [mul_eq_zero, ← h4]
  simp [hn.ne']

/-- The hypotheses of the theorems of this section are met by the example dataset. -/
example : Mbtk.ADTree.exampleData.nrows ≠ 0 ∧ [0, 1, 2].Nodup ∧ (1 : ℝ) < 2 := by
  refine ⟨by decide, by decide, by norm_num⟩

/-! ## C31, C34: sessions of calls -/

/-- The arguments of a call: three pairwise disjoint groups of declared columns.
(Specification.) -/
def ValidCall (D : Data) (c : Call) : Prop :=
  (c.1 :: c.2.1 :: c.2.2).Nodup ∧ ∀ x ∈ c.1 :: c.2.1 :: c.2.2, 1 ≤ (D.values x).length

/-- The arguments of a call of the AD-tree test: existing columns that do not use the value
-1. (Specification.) -/
def ValidAdCall (D : Data) (c : Call) : Prop :=
  (c.1 :: c.2.1 :: c.2.2).Nodup ∧
    ∀ x ∈ c.1 :: c.2.1 :: c.2.2, x < D.ncols ∧ (-1 : Int) ∉ D.values x

theorem ValidAdCall.valid {D : Data} (hD : Usable D) {c : Call} (h : ValidAdCall D c) :
    ValidCall D c := ⟨h.1, declared_of_usable hD (fun x hx => (h.2 x hx).1)⟩

/-- The log of a history, as computed. (Specification.) -/
noncomputable def logFrom (D : Data) (cfg : Config) : Nat → List Call → List Result
  | _, [] => []
  | start, c :: cs => loggedResult D cfg start c :: logFrom D cfg (start + 1) cs

theorem logFrom_isLog (D : Data) (cfg : Config) (start : Nat) (cs : List Call) :
    IsLog D cfg start cs (logFrom D cfg start cs) := by
  induction cs generalizing start with
  | nil => trivial
  | cons c cs ih => exact ⟨loggedResult_isEntry D cfg start c, ih (start + 1)⟩

/-- Sessions, whatever the kind of test. -/
theorem session_ok {σ : Type} {D : Data} {cfg : Config} (call : Call → PyM σ Answer)
    (base : σ → Base) (Inv : List Call → σ → Prop) (valid : Call → Prop)
    (step : ∀ done c s, valid c → Inv done s → Ok (call c) s (fun a s' =>
      IsAnswer D cfg c.1 c.2.1 c.2.2 a ∧ Inv (done ++ [c]) s' ∧
      (base s').counter = (base s).counter + 1 ∧
      (base s').results = (base s).results ++ [loggedResult D cfg (base s).counter c]))
    (calls done : List Call) (s : σ) (hv : ∀ c ∈ calls, valid c) (hs : Inv done s) :
    Ok (mapList call calls) s (fun as s' => AreAnswers D cfg calls as ∧ Inv (done ++ calls) s' ∧
      (base s').counter = (base s).counter + calls.length ∧
      (base s').results = (base s).results ++ logFrom D cfg (base s).counter calls) := by
  induction calls generalizing done s with
  | nil => exact Ok.ret ⟨trivial, by simpa using hs, by simp, by simp [logFrom]⟩
  | cons c calls ih =>
    refine Ok.bind ((step done c s (hv c (by simp)) hs).mono ?_)
    rintro a s1 ⟨h1, h2, h3, h4⟩
    refine Ok.bind ((ih (done ++ [c]) s1 (fun c hc => hv c (List.mem_cons_of_mem _ hc)) h2).mono ?_)
    rintro as s2 ⟨g1, g2, g3, g4⟩
    refine Ok.ret ⟨⟨h1, g1⟩, by simpa using g2, ?_, ?_⟩
    · rw [g3, h3, List.length_cons]; omega
    · rw [g4, h4, h3, List.append_assoc]; rfl

/-- **C31 / C34**, unoptimised test: on a non-empty dataset, for every history of valid calls,
nothing is raised, every answer is right, and the log has one right entry per call, in order,
numbered from 1. -/
theorem unoptimized_session (D : Data) (cfg : Config) (hr : D.nrows ≠ 0) (calls : List Call)
    (hv : ∀ c ∈ calls, ValidCall D c) :
    Ok (mapList (unoptCall D cfg) calls) {} (fun answers b => AreAnswers D cfg calls answers ∧
      IsLog D cfg 0 calls b.results ∧ b.counter = calls.length ∧
      b.results = logFrom D cfg 0 calls) := by
  have := session_ok (D := D) (cfg := cfg) (unoptCall D cfg) id (fun _ b => UnoptOk D b)
    (ValidCall D) (fun _ c s hc hs => unoptCall_ok hr hc.2 hc.1 hs) calls [] {} hv
    (by intro S vars pw hg; simp [dictGet] at hg)
  refine this.mono ?_
  rintro as b ⟨h1, _, h3, h4⟩
  have e : b.results = logFrom D cfg 0 calls := by
    have : b.results = _ := h4
    simpa using this
  have e3 : b.counter = _ := h3
  exact ⟨h1, e ▸ logFrom_isLog D cfg 0 calls, by simpa using e3, e⟩

/-- **C31 / C34**, AD-tree test, static or dynamic tree. -/
theorem adtree_session (D : Data) (cfg : Config) (hD : Usable D) (dyn : Bool) (calls : List Call)
    (hv : ∀ c ∈ calls, ValidAdCall D c) :
    ∃ s0, newAdTest D dyn = .ok s0 ∧
    Ok (mapList (adCall D dyn cfg) calls) s0 (fun answers s => AreAnswers D cfg calls answers ∧
      IsLog D cfg 0 calls s.base.results ∧ s.base.counter = calls.length ∧
      s.base.results = logFrom D cfg 0 calls) := by
  obtain ⟨s0, e0, hs0, hb⟩ := newAdTest_ok hD dyn
  refine ⟨s0, e0, ?_⟩
  have := session_ok (D := D) (cfg := cfg) (adCall D dyn cfg) (·.base) (fun _ s => AdOk D dyn s)
    (ValidAdCall D) (fun _ c s hc hs => adCall_ok hD hc.1 hc.2 hs) calls [] s0 hv hs0
  refine this.mono ?_
  rintro as s ⟨h1, _, h3, h4⟩
  have e : s.base.results = logFrom D cfg 0 calls := by
    rw [h4, hb]; rfl
  refine ⟨h1, e ▸ logFrom_isLog D cfg 0 calls, ?_, e⟩
  rw [h3, hb]; simp

theorem entropyRequests_append (cs cs' : List Call) :
    entropyRequests (cs ++ cs') = entropyRequests cs ++ entropyRequests cs' := by
  simp [entropyRequests]

theorem dc_session {D : Data} {cfg : Config} {order : Finset Nat → List Nat} (ho : IsOrder order)
    (hk : cfg.kind ≠ .structural) (hr : D.nrows ≠ 0) (calls done : List Call) (s : DcState)
    (hs : DcOk D cfg.kind order (entropyRequests done) s) (hv : ∀ c ∈ calls, ValidCall D c) :
    Ok (mapList (dcCall D cfg order) calls) s (fun as s' => AreAnswers D cfg calls as ∧
      DcOk D cfg.kind order (entropyRequests (done ++ calls)) s' ∧
      s'.base.counter = s.base.counter + calls.length ∧
      s'.base.results = s.base.results ++ logFrom D cfg s.base.counter calls) :=
  session_ok (D := D) (cfg := cfg) (dcCall D cfg order) (·.base)
    (fun done s => DcOk D cfg.kind order (entropyRequests done) s) (ValidCall D)
    (fun done c s hc hs => by
      rw [entropyRequests_append]
      exact dcCall_ok ho hk hr hc.2 hc.1 hs) calls done s hv hs

/-- **C31 / C34**, dcMI test, for every iteration order of frozensets. -/
theorem dcmi_session (D : Data) (cfg : Config) (hk : cfg.kind ≠ .structural) (hr : D.nrows ≠ 0)
    (order : Finset Nat → List Nat) (ho : IsOrder order) (calls : List Call)
    (hv : ∀ c ∈ calls, ValidCall D c) :
    ∃ s0, newDcTest cfg = .ok s0 ∧
    Ok (mapList (dcCall D cfg order) calls) s0 (fun answers s => AreAnswers D cfg calls answers ∧
      IsLog D cfg 0 calls s.base.results ∧ s.base.counter = calls.length ∧
      s.base.results = logFrom D cfg 0 calls) := by
  refine ⟨{}, by simp [newDcTest, hk], ?_⟩
  refine (dc_session ho hk hr calls [] {} (DcOk.init D cfg.kind order) hv).mono ?_
  rintro as s ⟨h1, _, h3, h4⟩
  have e : s.base.results = logFrom D cfg 0 calls := by rw [h4]; rfl
  exact ⟨h1, e ▸ logFrom_isLog D cfg 0 calls, by rw [h3]; simp, e⟩

/-- dcMI refuses the structural calculator. -/
theorem dcmi_structural_raises (cfg : Config) (hk : cfg.kind = .structural) :
    newDcTest cfg = .error .valueError := by simp [newDcTest, hk]

theorem IsAnswer.unique {D : Data} {cfg : Config} {X Y : Nat} {Z : List Nat} {a b : Answer}
    (ha : IsAnswer D cfg X Y Z a) (hb : IsAnswer D cfg X Y Z b) : a = b := by
  cases a with
  | insufficient => exact (hb.insufficient.2 (ha.insufficient.1 rfl)).symm
  | independent => exact (hb.independent.2 (ha.independent.1 rfl)).symm
  | dependent => exact (hb.dependent.2 (ha.dependent.1 rfl)).symm

theorem AreAnswers.unique {D : Data} {cfg : Config} {cs : List Call} {as bs : List Answer}
    (ha : AreAnswers D cfg cs as) (hb : AreAnswers D cfg cs bs) : as = bs := by
  induction cs generalizing as bs with
  | nil =>
    match as, bs, ha, hb with
    | [], [], _, _ => rfl
  | cons c cs ih =>
    match as, bs, ha, hb with
    | a :: as, b :: bs, ha, hb => rw [IsAnswer.unique ha.1 hb.1, ih ha.2 hb.2]

/-- **C31.** The three implementations agree: for every usable dataset, configuration, history
of calls, tree mode and frozenset order, they return the same answers and write the same log
(statistic, p-value, degrees of freedom, decision). -/
theorem g_tests_agree (D : Data) (cfg : Config) (hk : cfg.kind ≠ .structural) (hD : Usable D)
    (dyn : Bool) (order : Finset Nat → List Nat) (ho : IsOrder order) (calls : List Call)
    (hv : ∀ c ∈ calls, ValidAdCall D c) :
    ∃ answers log b s0 s1, IsLog D cfg 0 calls log ∧
      mapList (unoptCall D cfg) calls {} = .ok (answers, b) ∧ b.results = log ∧
      newAdTest D dyn = .ok s0 ∧
      (∃ s, mapList (adCall D dyn cfg) calls s0 = .ok (answers, s) ∧ s.base.results = log) ∧
      newDcTest cfg = .ok s1 ∧
      (∃ s, mapList (dcCall D cfg order) calls s1 = .ok (answers, s) ∧ s.base.results = log) := by
  have hr : D.nrows ≠ 0 := hD.rows_pos.ne'
  have hv' : ∀ c ∈ calls, ValidCall D c := fun c hc => (hv c hc).valid hD
  obtain ⟨as, b, e1, a1, l1, _, r1⟩ := unoptimized_session D cfg hr calls hv'
  obtain ⟨s0, n0, as2, t, e2, a2, _, _, r2⟩ := adtree_session D cfg hD dyn calls hv
  obtain ⟨s1, n1, as3, u, e3, a3, _, _, r3⟩ := dcmi_session D cfg hk hr order ho calls hv'
  have h12 := AreAnswers.unique a1 a2
  have h13 := AreAnswers.unique a1 a3
  subst h12
  subst h13
  exact ⟨as, logFrom D cfg 0 calls, b, s0, s1, logFrom_isLog D cfg 0 calls, e1, r1, n0,
    ⟨t, e2, r2⟩, n1, ⟨u, e3, r3⟩⟩

open Mbtk.ADTree in
example : Usable exampleData ∧
    (∀ c ∈ [((0, 1, [2]) : Call), (1, 0, []), (2, 1, [0])], ValidAdCall exampleData c) ∧
    IsOrder (fun S => S.sort) :=
  ⟨exampleData_usable, by unfold ValidAdCall; decide,
    fun S => ⟨Finset.sort_nodup S (fun a b => a ≤ b), Finset.sort_toFinset S (fun a b => a ≤ b)⟩⟩

/-! ## C32 -/

/-- **C32.** The joint-entropy table of the dcMI test, after any history of calls: every stored
value is the joint entropy recomputed from the data, the stored sets are exactly the sets that
were needed, reads count the (non-empty) requests and misses the distinct ones. -/
theorem entropy_table_exact (D : Data) (cfg : Config) (hk : cfg.kind ≠ .structural)
    (hr : D.nrows ≠ 0) (order : Finset Nat → List Nat) (ho : IsOrder order) (calls : List Call)
    (hv : ∀ c ∈ calls, ValidCall D c) :
    Ok (mapList (dcCall D cfg order) calls) {} (fun _ s =>
      (∀ cols H, dictGet s.jht cols.toFinset = some H → H = entropy D cols) ∧
      (∀ S, (dictGet s.jht S).isSome ↔ S ∈ entropyRequests calls) ∧
      s.reads = (entropyRequests calls).length ∧
      s.misses = (entropyRequests calls).toFinset.card) := by
  refine (dc_session ho hk hr calls [] {} (DcOk.init D cfg.kind order) hv).mono ?_
  rintro as s ⟨_, h, _, _⟩
  refine ⟨?_, h.known, h.reads, h.misses⟩
  intro cols H he
  rw [h.entropy _ _ he]
  exact entropy_perm D (fun c => by rw [ho.mem, List.mem_toFinset])

/-- **C32**, saving and loading: a test object that is given the saved table and the saved
cache of the calculator answers a second history as a fresh object would, and its counters
continue where they were. -/
theorem entropy_table_reload (D : Data) (cfg : Config) (hk : cfg.kind ≠ .structural)
    (hr : D.nrows ≠ 0) (order : Finset Nat → List Nat) (ho : IsOrder order)
    (calls calls' : List Call)
    (hv : ∀ c ∈ calls, ValidCall D c) (hv' : ∀ c ∈ calls', ValidCall D c) :
    Ok (mapList (dcCall D cfg order) calls) {} (fun _ s =>
      Ok (mapList (dcCall D cfg order) calls') (s.save.load true) (fun answers s' =>
        AreAnswers D cfg calls' answers ∧ IsLog D cfg 0 calls' s'.base.results ∧
        s'.reads = (entropyRequests (calls ++ calls')).length ∧
        s'.misses = (entropyRequests (calls ++ calls')).toFinset.card)) := by
  refine (dc_session ho hk hr calls [] {} (DcOk.init D cfg.kind order) hv).mono ?_
  rintro as s ⟨_, h, _, _⟩
  refine (dc_session ho hk hr calls' calls _ h.reload hv').mono ?_
  rintro as' s' ⟨h1, h2, _, h4⟩
  have e : s'.base.results = logFrom D cfg 0 calls' := by rw [h4]; rfl
  exact ⟨h1, e ▸ logFrom_isLog D cfg 0 calls', h2.reads, h2.misses⟩

theorem jointEntropyTerm_hit {D : Data} {kind : DofKind} {order : Finset Nat → List Nat}
    {S : Finset Nat} {s : DcState} (h : S = ∅ ∨ (dictGet s.jht S).isSome) :
    ∃ H n, jointEntropyTerm D kind order S s = .ok (H, { s with reads := n }) := by
  unfold jointEntropyTerm
  by_cases h0 : S.card = 0
  · rw [if_pos h0]; exact ⟨0, s.reads, rfl⟩
  · rw [if_neg h0]
    have h1 : S ≠ ∅ := fun e => h0 (by rw [e]; rfl)
    obtain ⟨H, hH⟩ := Option.isSome_iff_exists.1 (h.resolve_left h1)
    refine ⟨H, s.reads + 1, ?_⟩
    dsimp only
    rw [hH]

/-- Finding: if only the entropy table is loaded, and not the cache of the caching calculator,
repeating a call of the first history raises `KeyError`. -/
theorem reload_without_cache_raises (D : Data) (cfg : Config) (hk : cfg.kind = .cached)
    (hr : D.nrows ≠ 0) (order : Finset Nat → List Nat) (ho : IsOrder order)
    (calls : List Call) (hv : ∀ c ∈ calls, ValidCall D c) (c : Call) (hc : c ∈ calls) :
    Ok (mapList (dcCall D cfg order) calls) {} (fun _ s =>
      Raises (dcCall D cfg order c) (s.save.load false) .keyError) := by
  refine (dc_session ho (by simp [hk]) hr calls [] {} (DcOk.init D cfg.kind order) hv).mono ?_
  rintro as s ⟨_, h, _, _⟩
  obtain ⟨X, Y, Z⟩ := c
  have hall : ∀ S ∈ entropySets (X, Y, Z), S = ∅ ∨ (dictGet s.jht S).isSome := by
    intro S hS
    by_cases h0 : S = ∅
    · exact .inl h0
    · refine .inr ((h.known S).2 ?_)
      exact List.mem_filter.2 ⟨List.mem_flatMap.2 ⟨_, hc, hS⟩, by simpa using h0⟩
  have hg : ∃ g n, dcGValue D cfg.kind order X Y Z (s.save.load false) =
      .ok (g, { s.save.load false with reads := n }) := by
    obtain ⟨H1, n1, e1⟩ := jointEntropyTerm_hit (D := D) (kind := cfg.kind) (order := order)
      (s := s.save.load false) (hall (X :: Y :: Z).toFinset (by simp [entropySets]))
    obtain ⟨H2, n2, e2⟩ := jointEntropyTerm_hit (D := D) (kind := cfg.kind) (order := order)
      (s := { s.save.load false with reads := n1 })
      (hall (X :: Z).toFinset (by simp [entropySets]))
    obtain ⟨H3, n3, e3⟩ := jointEntropyTerm_hit (D := D) (kind := cfg.kind) (order := order)
      (s := { s.save.load false with reads := n2 })
      (hall (Y :: Z).toFinset (by simp [entropySets]))
    obtain ⟨H4, n4, e4⟩ := jointEntropyTerm_hit (D := D) (kind := cfg.kind) (order := order)
      (s := { s.save.load false with reads := n3 })
      (hall Z.toFinset (by simp [entropySets]))
    refine ⟨2 * D.nrows * (H3 + H2 - H1 - H4), n4, ?_⟩
    unfold dcGValue
    show (jointEntropyTerm D cfg.kind order (X :: Y :: Z).toFinset (s.save.load false) >>= _) = _
    rw [e1]
    show (jointEntropyTerm D cfg.kind order (X :: Z).toFinset _ >>= _) = _
    rw [e2]
    show (jointEntropyTerm D cfg.kind order (Y :: Z).toFinset _ >>= _) = _
    rw [e3]
    show (jointEntropyTerm D cfg.kind order Z.toFinset _ >>= _) = _
    rw [e4]
    rfl
  obtain ⟨g, n, eg⟩ := hg
  have hd : calculateDof D .cached [] X Y Z ⟨[], [], [], PMF.empty⟩ = .error .keyError := rfl
  have ht : dcTest D cfg order X Y Z (s.save.load false) = .error .keyError := by
    unfold dcTest
    rw [eg]
    show (calculateDof D cfg.kind [] X Y Z ⟨[], [], [], PMF.empty⟩ >>= _) = _
    rw [hk, hd]
    rfl
  unfold Raises dcCall conditionallyIndependent
  show (dcTest D cfg order X Y Z (s.save.load false) >>= _) = _
  rw [ht]
  rfl

open Mbtk.ADTree in
example : (∀ c ∈ [((0, 1, [2]) : Call), (1, 0, []), (2, 1, [0])], ValidCall exampleData c) ∧
    (entropyRequests [(0, 1, [2]), (1, 0, []), (2, 1, [0])]).length = 11 ∧
    (entropyRequests [(0, 1, [2]), (1, 0, []), (2, 1, [0])]).toFinset.card = 7 :=
  ⟨by unfold ValidCall; decide, by decide, by decide⟩

/-! ## C33 -/

/-- **C33.** Structural degrees of freedom as used by the tests: every entry of every log made
with the structural or the caching calculator holds the structural number (`Spec.dof`), which
is at least 1 and symmetric. -/
theorem structural_dof_exact (D : Data) (cfg : Config) (hk : cfg.kind ≠ .unadjusted)
    (hr : D.nrows ≠ 0) (calls : List Call) (hv : ∀ c ∈ calls, ValidCall D c) :
    Ok (mapList (unoptCall D cfg) calls) {} (fun _ b =>
      b.results.map (·.dof) = calls.map (fun c => (dof D c.1 c.2.1 c.2.2 : Int))) := by
  refine (unoptimized_session D cfg hr calls hv).mono ?_
  rintro as b ⟨_, h, _, _⟩
  have key : ∀ start cs rs, IsLog D cfg start cs rs →
      rs.map (·.dof) = cs.map (fun c => (dof D c.1 c.2.1 c.2.2 : Int)) := by
    intro start cs
    induction cs generalizing start with
    | nil =>
      intro rs h
      match rs, h with
      | [], _ => rfl
    | cons c cs ih =>
      intro rs h
      match rs, h with
      | r :: rs, h =>
        rw [List.map_cons, List.map_cons, ih _ _ h.2, h.1.dofs]
        cases hk' : cfg.kind with
        | unadjusted => exact absurd hk' hk
        | structural => simp only [dofOf]
        | cached => simp only [dofOf]
  exact key _ _ _ h

theorem structural_dof_properties (D : Data) (X Y : Nat) (Z : List Nat) :
    1 ≤ dof D X Y Z ∧ dof D X Y Z = dof D Y X Z := ⟨Nat.le_max_left _ _, dof_symm D X Y Z⟩

theorem logFrom_kind (D : Data) (cfg : Config) (start : Nat) (calls : List Call) :
    logFrom D { cfg with kind := .cached } start calls =
      logFrom D { cfg with kind := .structural } start calls := by
  induction calls generalizing start with
  | nil => rfl
  | cons c cs ih =>
    simp only [logFrom]
    rw [ih]
    rfl

/-- **C33**, the caching calculator is transparent: for every history, the unoptimised and the
AD-tree test give the same answers and the same log with `CachedStructuralDoF` as with
`StructuralDoF`. -/
theorem cached_dof_transparent (D : Data) (cfg : Config) (hr : D.nrows ≠ 0) (calls : List Call)
    (hv : ∀ c ∈ calls, ValidCall D c) :
    ∃ answers b b',
      mapList (unoptCall D { cfg with kind := .structural }) calls {} = .ok (answers, b) ∧
      mapList (unoptCall D { cfg with kind := .cached }) calls {} = .ok (answers, b') ∧
      b.results = b'.results := by
  obtain ⟨as, b, e1, a1, l1, _, r1⟩ := unoptimized_session D { cfg with kind := .structural } hr calls hv
  obtain ⟨as', b', e2, a2, l2, _, r2⟩ := unoptimized_session D { cfg with kind := .cached } hr calls hv
  have h2 : AreAnswers D { cfg with kind := .structural } calls as' := by
    clear * - a2
    induction calls generalizing as' with
    | nil =>
      match as', a2 with
      | [], _ => trivial
    | cons c cs ih =>
      match as', a2 with
      | a :: as, a2 => exact ⟨⟨a2.1.insufficient, a2.1.independent, a2.1.dependent⟩, ih as a2.2⟩
  have := AreAnswers.unique a1 h2
  subst this
  exact ⟨as, b, b', e1, e2, by rw [r1, r2, logFrom_kind]⟩

theorem cached_dof_transparent_adtree (D : Data) (cfg : Config) (hD : Usable D) (dyn : Bool)
    (calls : List Call) (hv : ∀ c ∈ calls, ValidAdCall D c) :
    ∃ s0 s s' answers answers', newAdTest D dyn = .ok s0 ∧
      mapList (adCall D dyn { cfg with kind := .structural }) calls s0 = .ok (answers, s) ∧
      mapList (adCall D dyn { cfg with kind := .cached }) calls s0 = .ok (answers', s') ∧
      s.base.results = s'.base.results := by
  obtain ⟨s0, n0, as, s, e1, _, _, _, r1⟩ :=
    adtree_session D { cfg with kind := .structural } hD dyn calls hv
  obtain ⟨s0', n0', as', s', e2, _, _, _, r2⟩ :=
    adtree_session D { cfg with kind := .cached } hD dyn calls hv
  rw [n0] at n0'
  simp only [Except.ok.injEq] at n0'
  subst n0'
  exact ⟨s0, s, s', as, as', n0, e1, e2, by rw [r1, r2, logFrom_kind]⟩

open Mbtk.ADTree in
example : dof exampleData 0 1 [2] = 1 ∧ dof exampleData 0 1 [] = 1 ∧ dof exampleData 0 2 [] = 1 := by
  decide

/-! ## C34, d-separation tests -/

/-- **C34**, `DSeparationCITest`: the answers are those of the source network and the log has
one entry per call, in order (numbered from 0, unlike the G-tests). -/
theorem dsep_test_log (bn : Nat → Nat → List Nat → Bool) (role : Nat) (calls : List Call) :
    Ok (mapList (dsepCall bn role) calls) [] (fun answers log =>
      answers = calls.map (fun c => bn c.1 c.2.1 c.2.2) ∧
      log = calls.mapIdx (fun i c => ⟨i, bn c.1 c.2.1 c.2.2, bn c.1 c.2.1 c.2.2, c.1, c.2.1,
        c.2.2, role⟩)) := by
  have key : ∀ (calls : List Call) (old : List DsepResult),
      Ok (mapList (dsepCall bn role) calls) old (fun answers log =>
      answers = calls.map (fun c => bn c.1 c.2.1 c.2.2) ∧
      log = old ++ calls.mapIdx (fun i c => ⟨old.length + i, bn c.1 c.2.1 c.2.2,
        bn c.1 c.2.1 c.2.2, c.1, c.2.1, c.2.2, role⟩)) := by
    intro calls
    induction calls with
    | nil => intro old; exact Ok.ret ⟨rfl, by simp⟩
    | cons c cs ih =>
      intro old
      refine Ok.bind ⟨bn c.1 c.2.1 c.2.2, _, rfl, ?_⟩
      refine Ok.bind ((ih _).mono ?_)
      rintro as log ⟨rfl, rfl⟩
      refine Ok.ret ⟨rfl, ?_⟩
      rw [List.mapIdx_cons, List.append_assoc]
      simp [Nat.add_assoc, Nat.add_comm 1]
  have := key calls []
  simpa using this

end Mbtk.Stats
