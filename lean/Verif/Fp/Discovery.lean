import Verif.MB.Checked
import Verif.MB.WithTests
import Verif.Fp.DcTest
import Mathlib.Tactic.Tauto
/-!
# Markov blanket discovery with `float`s (C87)

IAMB and IPC-MB with the G-tests and the CMI heuristic, all computed in floating point.  A run always
ends with a well-formed blanket; if no decision of the exact run is within the error of the threshold,
the run with `float`s makes the same tests and returns the same blanket as the exact one.
-/
namespace Mbtk.Fp
open Mbtk Mbtk.Stats Mbtk.Stats.Spec Mbtk.MB
open Mbtk.ADTree (Data)
open Mbtk.ADTree.Spec (Usable)
open Real (log)

variable {τ ι : Type}

/-! ## Specification -/

/-- The error allowed for the conditional mutual information that the heuristic computes.
(Specification.) -/
noncomputable def cmiError (D : Data) (X Y : Nat) (Z : List Nat) : ℝ :=
  ((observed D (X :: Y :: Z)).card + 14) * (log D.nrows + 2) / 2 ^ 53

/-- The error allowed for the statistic of a call, by the kind of test. (Specification.) -/
noncomputable def testError (D : Data) : GTest → Call → ℝ
  | .unoptimized, c => gError D c.1 c.2.1 c.2.2
  | .adtree _, c => gError D c.1 c.2.1 c.2.2
  | .dcmi _, c => dcError D c.1 c.2.1 c.2.2

/-- In the tests of a run of IAMB with target `T`: whenever a candidate is tested for the first time (that
is when it is added to the blanket, or rejected), its conditional mutual information with the target
exceeds those of all the candidates not tested yet by more than the error of the two.
(Specification.) -/
def ClearChoices (D : Data) (U : List Nat) (T : Nat) (tests : List Query) : Prop :=
  ∀ before c Z after, tests = before ++ (T, c, Z) :: after → c ∉ before.map (·.2.1) →
    ∀ y ∈ U, y ≠ T → y ≠ c → y ∉ before.map (·.2.1) →
      cmi D T y Z + cmiError D T y Z + cmiError D T c Z < cmi D T c Z

/-- Rounding cannot change the answer: there are not enough samples, or the threshold is not within `ε` of
the statistic. (Specification.) -/
def ClearTest (D : Data) (cfg : Config) (ε : ℝ) (q : Query) : Prop :=
  Enough D cfg q.1 q.2.1 q.2.2 → Clear D cfg ε q

/-- Rounding can change no decision of a run with these tests. (Specification.) -/
def ClearRun (D : Data) (cfg : Config) (g : GTest) (alg : Algorithm) (U : List Nat) (T : Nat)
    (tests : List Query) : Prop :=
  (∀ q ∈ tests, ClearTest D cfg (testError D g q) q) ∧
    match alg with
    | .iamb => ClearChoices D U T tests
    | .ipcmb _ => True

theorem clear_answer {D : Data} {cfg : Config} {ε : ℝ} {i : Nat} {c : Call} {r : Result} {a : Answer}
    (hmono : ∀ k, Monotone (fun g => cfg.cdf g k)) (hc : ClearTest D cfg ε c)
    (he : NearEntry D cfg ε i c.1 c.2.1 c.2.2 r) (ha : AnswerOf D cfg c.1 c.2.1 c.2.2 r a) :
    IsAnswer D cfg c.1 c.2.1 c.2.2 a := by
  by_cases hen : Enough D cfg c.1 c.2.1 c.2.2
  · exact right_answer hmono (hc hen) he ha
  · have hi := ha.insufficient.2 hen
    subst hi
    constructor <;> simp [hen]

theorem clear_answers {D : Data} {cfg : Config} {ε : Call → ℝ}
    (hmono : ∀ k, Monotone (fun g => cfg.cdf g k)) {start : Nat} {calls : List Call}
    {answers : List Answer} {results : List Result}
    (hrun : IsRun D cfg ε start calls answers results) (hc : ∀ c ∈ calls, ClearTest D cfg (ε c) c) :
    AreAnswers D cfg calls answers := by
  induction calls generalizing start answers results with
  | nil =>
    match answers, results, hrun with
    | [], [], _ => trivial
  | cons c calls ih =>
    match answers, results, hrun with
    | a :: as, r :: rs, ⟨h1, h2, h3⟩ =>
      exact ⟨clear_answer hmono (hc c (by simp)) h1 h2, ih h3 (fun c hm => hc c (by simp [hm]))⟩

/-! ## The heuristic -/

/-- `CMICalculator.compute(X, Y, Z)` with the data as source: CMICalculator.py 29-50, 75-112; the
distributions are built by the same statements as in the unoptimised test
(G_test__unoptimized.py 66-101), without a calculator of degrees of freedom. -/
noncomputable def cmiComputeF (flog : ℚ → ℚ) (D : Data) (X Y : Nat) (Z : List Nat) : Except Err ℝ := do
  let (_, t) ← unoptTablesF D .unadjusted [] X Y Z
  pure ((cmiF flog t : ℚ) : ℝ)

theorem cmiComputeF_near {flog : ℚ → ℚ} (hlog : LogAccurate flog) {D : Data} (hr : D.nrows ≠ 0)
    (h40 : D.nrows ≤ 2 ^ 40) {X Y : Nat} {Z : List Nat} (hn : (X :: Y :: Z).Nodup) :
    ∃ v, cmiComputeF flog D X Y Z = .ok v ∧ |v - cmi D X Y Z| ≤ cmiError D X Y Z := by
  obtain ⟨cache', t, e, hg, -, -⟩ := unoptTables_ok hr hn .unadjusted
    (cache := []) (by intro S vars pw hg; simp [dictGet] at hg)
  obtain ⟨⟨cacheF, tF⟩, eF, -, hnear⟩ := unoptTables_sim (h40.trans (by norm_num)) X Y Z
      .unadjusted [] (cache', t) e
  refine ⟨_, ?_, ((cmi_error hlog hr h40 hg hnear).1).trans ?_⟩
  · unfold cmiComputeF
    rw [eF]
    rfl
  · have h := (log_rows hr h40).1
    unfold cmiError
    rw [uR_eq]
    have hM : (0 : ℝ) ≤ (observed D (X :: Y :: Z)).card := by positivity
    generalize ((observed D (X :: Y :: Z)).card : ℝ) = M at *
    generalize log (D.nrows : ℝ) = L at *
    rw [show (M + 14) * (L + 2) / 2 ^ 53 = (26 + 14 * L) / 2 ^ 53 + M * (L + 2) / 2 ^ 53 + 2 / 2 ^ 53 by ring]
    have : (1 : ℝ) / 2 ^ 53 * (26 + 14 * L) + M * (1 / 2 ^ 53 * (L + 2)) =
      (26 + 14 * L) / 2 ^ 53 + M * (L + 2) / 2 ^ 53 := by ring
    norm_num at this ⊢
    linarith

/-! ## Tests that are nearly right -/

/-- `call` on `D` behaves as a G-test whose statistic may be off by `ε`, from the state `s0` on.
(Models no code: a notion for statements and proofs.) -/
def NearTest (D : Data) (cfg : Config) (ε : Call → ℝ) (valid : Call → Prop) (call : Call → PyM τ Answer)
    (base : τ → Base) (s0 : τ) : Prop :=
  ∃ Inv : List Call → τ → Prop,
    (∀ done c s, valid c → Inv done s → Ok (call c) s (fun a s' =>
      ∃ r, NearEntry D cfg (ε c) ((base s).counter + 1) c.1 c.2.1 c.2.2 r ∧
      AnswerOf D cfg c.1 c.2.1 c.2.2 r a ∧ Inv (done ++ [c]) s' ∧
      (base s').counter = (base s).counter + 1 ∧
      (base s').results = (base s).results ++ [r])) ∧
    Inv [] s0 ∧ (base s0).counter = 0 ∧ (base s0).results = []

theorem unopt_near {flog : ℚ → ℚ} (hlog : LogAccurate flog) (D : Data) (cfg : Config)
    (hr : D.nrows ≠ 0) (h40 : D.nrows ≤ 2 ^ 40) :
    NearTest D cfg (testError D .unoptimized) (ValidCall D) (unoptCallF flog D cfg) id {} :=
  ⟨fun _ b => UnoptOk D b, fun _ _ _ hc hs => unoptCallF_near hlog hr h40 hc.2 hc.1 hs,
    (by intro S vars pw hg; simp [dictGet] at hg), rfl, rfl⟩

theorem ad_near {flog : ℚ → ℚ} (hlog : LogAccurate flog) (D : Data) (cfg : Config) (hD : Usable D)
    (h40 : D.nrows ≤ 2 ^ 40) (dyn : Bool) :
    ∃ s0, newAdTest D dyn = .ok s0 ∧
      NearTest D cfg (testError D (.adtree dyn)) (ValidAdCall D) (adCallF flog D dyn cfg) (·.base) s0 := by
  obtain ⟨s0, e0, hs0, hb⟩ := newAdTest_ok hD dyn
  exact ⟨s0, e0, fun _ s => AdOk D dyn s, fun _ _ _ hc hs => adCallF_near hlog hD h40 hc.1 hc.2 hs, hs0,
    by show s0.base.counter = 0; rw [hb], by show s0.base.results = []; rw [hb]⟩

theorem dc_near {flog : ℚ → ℚ} (hlog : LogAccurate flog) {fsum : List ℚ → ℚ} (hsum : SumAccurate fsum)
    (D : Data) (cfg : Config) (hk : cfg.kind ≠ .structural) (hr : D.nrows ≠ 0) (h40 : D.nrows ≤ 2 ^ 40)
    (order : Finset Nat → List Nat) (ho : IsOrder order) :
    ∃ s0, newDcTestF cfg = .ok s0 ∧
      NearTest D cfg (testError D (.dcmi order)) (ValidCall D) (dcCallF flog fsum D cfg order) (·.base) s0 := by
  refine ⟨{}, by simp [newDcTestF, hk], fun done s => DcOkF D cfg.kind order (entropyRequests done) s,
    fun done c s hc hs => ?_, DcOkF.init D cfg.kind order, rfl, rfl⟩
  show Ok (dcCallF flog fsum D cfg order c) s (fun a s' => ∃ r, _ ∧ _ ∧
    DcOkF D cfg.kind order (entropyRequests (done ++ [c])) s' ∧ _)
  rw [entropyRequests_append]
  exact dcCallF_near hlog hsum ho hk hr h40 hc.2 hc.1 hs

theorem IsRun.snoc {D : Data} {cfg : Config} {ε : Call → ℝ} {cs : List Call} {as : List Answer}
    {rs : List Result} {start : Nat} (h : IsRun D cfg ε start cs as rs) {c : Call} {a : Answer} {r : Result}
    (he : NearEntry D cfg (ε c) (start + cs.length + 1) c.1 c.2.1 c.2.2 r)
    (ha : AnswerOf D cfg c.1 c.2.1 c.2.2 r a) :
    IsRun D cfg ε start (cs ++ [c]) (as ++ [a]) (rs ++ [r]) := by
  induction cs generalizing start as rs with
  | nil =>
    match as, rs, h with
    | [], [], _ => exact ⟨he, ha, trivial⟩
  | cons d cs ih =>
    match as, rs, h with
    | b :: as, t :: rs, ⟨h1, h2, h3⟩ =>
      refine ⟨h1, h2, ih h3 ?_⟩
      rw [List.length_cons] at he
      rwa [show start + 1 + cs.length + 1 = start + (cs.length + 1) + 1 by omega]

/-- What is known of the state of a run with a nearly right test.
(Models no code: a notion for statements and proofs.) -/
def NearState (D : Data) (cfg : Config) (ε : Call → ℝ) (Inv : List Call → τ → Prop) (base : τ → Base)
    (asked : List Query) (s : τ) : Prop :=
  Inv asked s ∧ (base s).counter = asked.length ∧ ∃ answers, IsRun D cfg ε 0 asked answers (base s).results

theorem NearState.step {D : Data} {cfg : Config} {ε : Call → ℝ} {valid : Call → Prop}
    {call : Call → PyM τ Answer} {base : τ → Base} {Inv : List Call → τ → Prop}
    (step : ∀ done c s, valid c → Inv done s → Ok (call c) s (fun a s' =>
      ∃ r, NearEntry D cfg (ε c) ((base s).counter + 1) c.1 c.2.1 c.2.2 r ∧
      AnswerOf D cfg c.1 c.2.1 c.2.2 r a ∧ Inv (done ++ [c]) s' ∧
      (base s').counter = (base s).counter + 1 ∧
      (base s').results = (base s).results ++ [r]))
    {asked : List Query} {s : τ} (h : NearState D cfg ε Inv base asked s) {c : Call} (hc : valid c) :
    ∃ a s' r, call c s = .ok (a, s') ∧
      NearEntry D cfg (ε c) (asked.length + 1) c.1 c.2.1 c.2.2 r ∧ AnswerOf D cfg c.1 c.2.1 c.2.2 r a ∧
      NearState D cfg ε Inv base (asked ++ [c]) s' := by
  obtain ⟨h1, h2, as, h3⟩ := h
  obtain ⟨a, s', e, r, he, ha, hI, hcount, hres⟩ := step asked c s hc h1
  rw [h2] at he hcount
  refine ⟨a, s', r, e, he, ha, hI, by simp [hcount], as ++ [a], ?_⟩
  rw [hres]
  exact h3.snoc (by simpa using he) ha

/-! ## Runs always end -/

/-- The value of `x`, or `d` if it raises. (Models no code: a notion for statements and proofs.) -/
def orElse {α : Type} (x : Except Err α) (d : α) : Except Err α :=
  match x with
  | .ok p => .ok p
  | .error _ => .ok d

theorem orElse_ok {α : Type} (x : Except Err α) (d : α) : ∃ a, orElse x d = .ok a := by
  cases x with
  | ok p => exact ⟨p, rfl⟩
  | error e => exact ⟨d, rfl⟩

/-- `W`, but whatever raises an exception in `W` returns something.
(Models no code: a notion for statements and proofs.) -/
noncomputable def patched {σ : Type} (W : World σ ℝ) : World σ ℝ where
  ask X Y Z s := orElse (W.ask X Y Z s) (.dependent, s)
  heur X Y Z s := orElse (W.heur X Y Z s) (0, s)
  iter := W.iter

theorem patched_discover {σ : Type} {W : World σ ℝ} (hf : W.Fair) {U : List Nat} (hU : U.Nodup) (T : Nat)
    (alg : Algorithm) (s : St σ) : ∃ mb s', alg.discover (patched W) U T s = .ok (mb, s') ∧
      mb.Pairwise (· < ·) ∧ ∀ x ∈ mb, x ∈ U ∧ x ≠ T := by
  have ht : (patched W).Total := by
    intro X Y Z s
    obtain ⟨p, e⟩ := orElse_ok (W.ask X Y Z s) (.dependent, s)
    exact ⟨p.1, p.2, e, trivial⟩
  have hh : (patched W).HeurOn T U := by
    intro Y _ _ Z s
    obtain ⟨p, e⟩ := orElse_ok (W.heur T Y Z s) (0, s)
    exact ⟨p.1, p.2, e⟩
  cases alg with
  | iamb => exact iamb_well_formed (W := patched W) hf hh ht hU s
  | ipcmb pcOnly => exact ipcmb_well_formed (W := patched W) hf ht hU T pcOnly s

theorem near_discover {D : Data} {cfg : Config} {ε : Call → ℝ} {valid : Call → Prop}
    {call : Call → PyM τ Answer} {base : τ → Base} {s0 : τ} (hc : NearTest D cfg ε valid call base s0)
    {h : Nat → Nat → List Nat → Except Err ℝ} {U : List Nat}
    (hh : ∀ X Y Z, Proper U X Y Z → ∃ v, h X Y Z = .ok v)
    (hv : ∀ X Y Z, Proper U X Y Z → valid (X, Y, Z))
    {o : List Nat → ι → List Nat × ι} (ho : ∀ l i, (o l i).1.Perm l) (hU : U.Nodup) {T : Nat} (hT : T ∈ U)
    (alg : Algorithm) (i : ι) :
    ∃ mb tests results answers, outcome (fun t => (base t).results) (alg.discover (testWorld call h o) U T)
        ⟨[], [], (s0, i)⟩ = .ok (mb, tests, results) ∧
      mb.Pairwise (· < ·) ∧ (∀ x ∈ mb, x ∈ U ∧ x ≠ T) ∧ IsRun D cfg ε 0 tests answers results := by
  obtain ⟨Inv, step, h0, h1, h2⟩ := hc
  obtain ⟨mb, s', e, m1, m2⟩ := patched_discover (W := testWorld call h o) (fun l s => ho l s.2) hU T alg
    ⟨[], [], (s0, i)⟩
  have hsame : SameAnswers U (fun asked s t => s = t ∧ NearState D cfg ε Inv base asked s.1)
      (testWorld call h o) (patched (testWorld call h o)) := by
    refine ⟨⟨?_, ?_⟩, ?_⟩
    · rintro q X Y Z s t ⟨rfl, hs⟩ hp
      obtain ⟨a, s1, r, e1, -, -, hN⟩ := hs.step step (hv X Y Z hp)
      have e2 : (testWorld call h o).ask X Y Z s = .ok (a, (s1, s.2)) := by
        show (call (X, Y, Z) s.1 >>= fun p => Except.ok (p.1, (p.2, s.2))) = _
        rw [e1]; rfl
      refine .inl ⟨a, (s1, s.2), (s1, s.2), e2, ?_, rfl, hN⟩
      show orElse ((testWorld call h o).ask X Y Z s) _ = _
      rw [e2]; rfl
    · rintro q l s t ⟨rfl, hs⟩
      exact ⟨rfl, ho l s.2, rfl, hs⟩
    · rintro q X Y Z s t ⟨rfl, hs⟩ hp
      obtain ⟨v, hv⟩ := hh X Y Z hp
      have e2 : (testWorld call h o).heur X Y Z s = .ok (v, s) := by
        show (h X Y Z >>= fun v => Except.ok (v, s)) = _
        rw [hv]; rfl
      refine ⟨v, s, s, e2, ?_, rfl, hs⟩
      show orElse ((testWorld call h o).heur X Y Z s) _ = _
      rw [e2]; rfl
  have hA : Alike U (fun asked s t => s = t ∧ NearState D cfg ε Inv base asked s.1)
      (⟨[], [], (s0, i)⟩ : St (τ × ι)) ⟨[], [], (s0, i)⟩ :=
    ⟨rfl, rfl, ⟨rfl, h0, h1, [], by rw [h2]; trivial⟩, by intro A B z hz; cases hz⟩
  rcases sim_discover hsame hU hT alg _ _ hA with ⟨a, s1, t1, e1, e2, hA1, -⟩ | ⟨e', e1, e2⟩
  · rw [e] at e2
    cases e2
    obtain ⟨-, -, -, as, hrun⟩ := hA1.env
    refine ⟨mb, s1.log, (base s1.w.1).results, as, ?_, m1, m2, hrun⟩
    unfold outcome
    rw [e1]
    rfl
  · rw [e] at e2
    cases e2

/-! ## Clear runs -/

/-- The environment in which every question is answered from the data, by definition of the test, and the
heuristic is `h`. (Models no code: a notion for statements and proofs.) -/
noncomputable def pureWorld (D : Data) (cfg : Config) (h : Nat → Nat → List Nat → Except Err ℝ)
    (o : List Nat → ι → List Nat × ι) : World ι ℝ where
  ask X Y Z s := .ok (verdict D cfg X Y Z, s)
  heur X Y Z s := (h X Y Z).map (fun v => (v, s))
  iter := o

theorem checked_good {σ : Type} {good : Query → Prop} {W : World σ ℝ} {X Y : Nat} {Z : List Nat}
    (h : good (X, Y, Z)) (s : σ) : (checked good W).ask X Y Z s = W.ask X Y Z s := by
  unfold checked
  simp only [if_pos h]

theorem checked_bad {σ : Type} {good : Query → Prop} {W : World σ ℝ} {X Y : Nat} {Z : List Nat}
    (h : ¬ good (X, Y, Z)) (s : σ) : (checked good W).ask X Y Z s = .error unclear := by
  unfold checked
  simp only [if_neg h]

theorem pureWorld_heur {D : Data} {cfg : Config} {h : Nat → Nat → List Nat → Except Err ℝ}
    {o : List Nat → ι → List Nat × ι} {X Y : Nat} {Z : List Nat} {v : ℝ} (hv : h X Y Z = .ok v) (s : St ι) :
    heur (pureWorld D cfg h o) X Y Z s = .ok (v, s) := by
  have : (pureWorld D cfg h o).heur X Y Z s.w = .ok (v, s.w) := by
    show (h X Y Z).map (fun v => (v, s.w)) = _
    rw [hv]; rfl
  unfold heur
  rw [this]

theorem safe_discover {σ : Type} {good : Query → Prop} (W : World σ ℝ) (U : List Nat) (T : Nat)
    (alg : Algorithm) : Safe good (alg.discover W U T) (alg.discover (checked good W) U T) := by
  cases alg with
  | iamb => exact safe_iamb W U T
  | ipcmb pcOnly => exact safe_ipcmb W U T pcOnly

/-- The state relation between a run with a nearly right test and a run in a pure world.
(Models no code: a notion for statements and proofs.) -/
def NearPure (D : Data) (cfg : Config) (ε : Call → ℝ) (Inv : List Call → τ → Prop) (base : τ → Base)
    (asked : List Query) (s : τ × ι) (i : ι) : Prop :=
  s.2 = i ∧ NearState D cfg ε Inv base asked s.1

theorem checked_same {D : Data} {cfg : Config} {ε : Call → ℝ} {valid : Call → Prop}
    {call : Call → PyM τ Answer} {base : τ → Base} {Inv : List Call → τ → Prop}
    (step : ∀ done c s, valid c → Inv done s → Ok (call c) s (fun a s' =>
      ∃ r, NearEntry D cfg (ε c) ((base s).counter + 1) c.1 c.2.1 c.2.2 r ∧
      AnswerOf D cfg c.1 c.2.1 c.2.2 r a ∧ Inv (done ++ [c]) s' ∧
      (base s').counter = (base s).counter + 1 ∧
      (base s').results = (base s).results ++ [r]))
    (hmono : ∀ k, Monotone (fun g => cfg.cdf g k))
    {h h' : Nat → Nat → List Nat → Except Err ℝ} {U : List Nat}
    (hv : ∀ X Y Z, Proper U X Y Z → valid (X, Y, Z))
    {o : List Nat → ι → List Nat × ι} (ho : ∀ l i, (o l i).1.Perm l) :
    SameTests U (NearPure D cfg ε Inv base)
      (checked (fun q => ClearTest D cfg (ε q) q) (testWorld call h o))
      (checked (fun q => ClearTest D cfg (ε q) q) (pureWorld D cfg h' o)) where
  ask q X Y Z s i hs hp := by
    obtain ⟨rfl, hs⟩ := hs
    by_cases hg : ClearTest D cfg (ε (X, Y, Z)) (X, Y, Z)
    · obtain ⟨a, s1, r, e1, he, ha, hN⟩ := hs.step step (hv X Y Z hp)
      refine .inl ⟨a, (s1, s.2), s.2, ?_, ?_, rfl, hN⟩
      · rw [checked_good (good := fun q => ClearTest D cfg (ε q) q) hg]
        show (call (X, Y, Z) s.1 >>= fun p => Except.ok (p.1, (p.2, s.2))) = _
        rw [e1]; rfl
      · rw [checked_good (good := fun q => ClearTest D cfg (ε q) q) hg]
        show Except.ok (verdict D cfg X Y Z, _) = _
        rw [IsAnswer.unique (verdict_isAnswer D cfg X Y Z) (clear_answer hmono hg he ha)]
    · exact .inr ⟨unclear, checked_bad (good := fun q => ClearTest D cfg (ε q) q) hg _,
        checked_bad (good := fun q => ClearTest D cfg (ε q) q) hg _⟩
  iter q l s i hs := by
    obtain ⟨rfl, hs⟩ := hs
    exact ⟨rfl, ho l s.2, rfl, hs⟩

theorem checked_same_heur {D : Data} {cfg : Config} {ε : Call → ℝ} {base : τ → Base}
    {call : Call → PyM τ Answer} {Inv : List Call → τ → Prop} {good : Query → Prop}
    {h : Nat → Nat → List Nat → Except Err ℝ} {U : List Nat} {o : List Nat → ι → List Nat × ι}
    (hs : SameTests U (NearPure D cfg ε Inv base) (checked good (testWorld call h o))
      (checked good (pureWorld D cfg h o)))
    (hh : ∀ X Y Z, Proper U X Y Z → ∃ v, h X Y Z = .ok v) :
    SameAnswers U (NearPure D cfg ε Inv base) (checked good (testWorld call h o))
      (checked good (pureWorld D cfg h o)) := by
  refine ⟨hs, ?_⟩
  rintro q X Y Z s i hst hp
  obtain ⟨v, hv⟩ := hh X Y Z hp
  refine ⟨v, s, i, ?_, ?_, hst⟩
  · show (h X Y Z >>= fun v => Except.ok (v, s)) = _
    rw [hv]; rfl
  · show (h X Y Z).map (fun v => (v, i)) = _
    rw [hv]; rfl

/-! ### The choices of IAMB -/

theorem maxScan_best {D : Data} {cfg : Config} {h : Nat → Nat → List Nat → Except Err ℝ}
    {o : List Nat → ι → List Nat × ι} {T : Nat} {cmb : List Nat} {v : Nat → ℝ} {c : Nat} (ys : List Nat)
    (hv : ∀ y ∈ ys, h T y cmb = .ok (v y)) (hc : ∀ y ∈ ys, y ≠ c → v y < v c) (s : St ι) :
    ∀ best, (best = c ∨ (c ∈ ys ∧ v best < v c)) →
      maxScan (pureWorld D cfg h o) T cmb ys best (v best) s = .ok (c, s) := by
  induction ys with
  | nil =>
    rintro best (rfl | ⟨h, _⟩)
    · rfl
    · cases h
  | cons y ys ih =>
    intro best hb
    have hstep : maxScan (pureWorld D cfg h o) T cmb (y :: ys) best (v best) s =
        (if v best < v y then maxScan (pureWorld D cfg h o) T cmb ys y (v y) else
          maxScan (pureWorld D cfg h o) T cmb ys best (v best)) s := by
      rw [maxScan]
      have := pureWorld_heur (D := D) (cfg := cfg) (o := o) (hv y (by simp)) s
      show (heur (pureWorld D cfg h o) T y cmb s >>= fun p =>
        (if v best < p.1 then maxScan (pureWorld D cfg h o) T cmb ys y p.1 else
          maxScan (pureWorld D cfg h o) T cmb ys best (v best)) p.2) = _
      rw [this]
      rfl
    rw [hstep]
    have ih' := ih (fun y hy => hv y (by simp [hy])) (fun y hy => hc y (by simp [hy]))
    by_cases hyc : y = c
    · subst hyc
      rcases hb with rfl | ⟨_, hlt⟩
      · rw [if_neg (lt_irrefl _)]; exact ih' _ (.inl rfl)
      · rw [if_pos hlt]; exact ih' _ (.inl rfl)
    · have hy := hc y (by simp) hyc
      rcases hb with rfl | ⟨hm, hlt⟩
      · rw [if_neg (by linarith)]; exact ih' _ (.inl rfl)
      · have hm' : c ∈ ys := by
          rcases List.mem_cons.1 hm with h | h
          · exact absurd h.symm hyc
          · exact h
        by_cases hbv : v best < v y
        · rw [if_pos hbv]; exact ih' _ (.inr ⟨hm', hy⟩)
        · rw [if_neg hbv]; exact ih' _ (.inr ⟨hm', hlt⟩)

theorem highest_best {D : Data} {cfg : Config} {h : Nat → Nat → List Nat → Except Err ℝ}
    {o : List Nat → ι → List Nat × ι} (ho : ∀ l i, (o l i).1.Perm l) {T : Nat} {cands cmb : List Nat}
    {v : Nat → ℝ} {c : Nat} (hcm : c ∈ cands) (hv : ∀ y ∈ cands, h T y cmb = .ok (v y))
    (hc : ∀ y ∈ cands, y ≠ c → v y < v c) (s : St ι) :
    highest (pureWorld D cfg h o) T cands cmb s = .ok (c, { s with w := (o cands s.w).2 }) := by
  have hp := ho cands s.w
  unfold highest
  show (match (o cands s.w).1 with
    | [] => throw Err.valueError
    | x :: xs => (do
      let k ← heur (pureWorld D cfg h o) T x cmb
      maxScan (pureWorld D cfg h o) T cmb xs x k : PyM (St ι) Nat)) { s with w := (o cands s.w).2 } = _
  cases hl : (o cands s.w).1 with
  | nil =>
    rw [hl] at hp
    rw [← hp.mem_iff] at hcm
    cases hcm
  | cons x xs =>
    rw [hl] at hp
    have hmem : ∀ y, y ∈ x :: xs ↔ y ∈ cands := fun y => hp.mem_iff
    have hx := hv x ((hmem x).1 (by simp))
    have e := pureWorld_heur (D := D) (cfg := cfg) (o := o) hx { s with w := (o cands s.w).2 }
    show (heur (pureWorld D cfg h o) T x cmb { s with w := (o cands s.w).2 } >>= fun p =>
      maxScan (pureWorld D cfg h o) T cmb xs x p.1 p.2) = _
    rw [e]
    show maxScan (pureWorld D cfg h o) T cmb xs x (v x) _ = _
    refine maxScan_best xs (fun y hy => hv y ((hmem y).1 (by simp [hy])))
      (fun y hy => hc y ((hmem y).1 (by simp [hy]))) _ x ?_
    by_cases hxc : x = c
    · exact .inl hxc
    · refine .inr ⟨?_, hc x ((hmem x).1 (by simp)) hxc⟩
      rcases List.mem_cons.1 ((hmem c).2 hcm) with h | h
      · exact absurd h.symm hxc
      · exact h

/-- The exact environment is the pure one with the exact heuristic. -/
theorem idealWorld_pure (D : Data) (cfg : Config) (o : List Nat → ι → List Nat × ι) :
    idealWorld D cfg o = pureWorld D cfg (fun X Y Z => .ok (cmi D X Y Z)) o := rfl

theorem growLoop_same {D : Data} {cfg : Config} {h : Nat → Nat → List Nat → Except Err ℝ}
    {o : List Nat → ι → List Nat × ι} (ho : ∀ l i, (o l i).1.Perm l) {U : List Nat} {T : Nat} (hT : T ∈ U)
    (hh : ∀ X Y Z, Proper U X Y Z → ∃ v, h X Y Z = .ok v ∧ |v - cmi D X Y Z| ≤ cmiError D X Y Z)
    {full : List Query} (hfull : ClearChoices D U T full) (fuel : Nat) :
    ∀ (cands cmb : List Nat) (s : St ι) (r : List Nat) (s' : St ι), cmb.Nodup →
      (∀ y ∈ cmb, y ∈ U ∧ y ≠ T) →
      (∀ y ∈ cands, y ∈ U ∧ y ≠ T ∧ y ∉ cmb ∧ y ∉ s.log.map (·.2.1)) →
      growLoop (idealWorld D cfg o) T fuel cands cmb s = .ok (r, s') → s'.log <+: full →
      growLoop (pureWorld D cfg h o) T fuel cands cmb s = .ok (r, s') := by
  induction fuel with
  | zero => intro cands cmb s r s' _ _ _ e; cases e
  | succ fuel ih =>
    intro cands cmb s r s' hnd hcmb hcand e hpre
    rw [growLoop] at e ⊢
    by_cases h0 : cands.length = 0
    · rw [if_pos h0] at e ⊢
      exact e
    · rw [if_neg h0] at e ⊢
      obtain ⟨c, s1, e1, hc, -, hlog, -⟩ := highest_ok (idealWorld_fair ho) (idealWorld_heurOn D cfg o T U)
        cands cmb (fun y hy => ⟨(hcand y hy).1, (hcand y hy).2.1⟩)
        (by intro h; exact h0 (by rw [h]; rfl)) s
      -- the step of the exact run
      have hprop : ∀ y ∈ cands, Proper U T y cmb := by
        intro y hy
        obtain ⟨a1, a2, a3, -⟩ := hcand y hy
        refine ⟨?_, ?_⟩
        · rw [List.nodup_cons, List.nodup_cons]
          refine ⟨?_, a3, hnd⟩
          rw [List.mem_cons, not_or]
          exact ⟨fun h => a2 h.symm, fun h => (hcmb T h).2 rfl⟩
        · intro x hx
          rcases List.mem_cons.1 hx with rfl | hx
          · exact hT
          · rcases List.mem_cons.1 hx with rfl | hx
            · exact a1
            · exact (hcmb x hx).1
      -- a continuation after the test
      let s2 : St ι := { s1 with log := s1.log ++ [(T, c, cmb)] }
      have key : ∀ h' : Nat → Nat → List Nat → Except Err ℝ,
          highest (pureWorld D cfg h' o) T cands cmb s = .ok (c, s1) →
          (highest (pureWorld D cfg h' o) T cands cmb >>= fun c =>
            ask (pureWorld D cfg h' o) T c cmb >>= fun a =>
              match a with
              | .dependent => growLoop (pureWorld D cfg h' o) T fuel (without cands c) (setAdd cmb c)
              | .independent => pure cmb
              | .insufficient => growLoop (pureWorld D cfg h' o) T fuel (without cands c) cmb) s =
          (match verdict D cfg T c cmb with
              | .dependent => growLoop (pureWorld D cfg h' o) T fuel (without cands c) (setAdd cmb c)
              | .independent => pure cmb
              | .insufficient => growLoop (pureWorld D cfg h' o) T fuel (without cands c) cmb) s2 := by
        intro h' eh
        show (highest (pureWorld D cfg h' o) T cands cmb s >>= fun p => _) = _
        rw [eh]
        rfl
      have e' := (key (fun X Y Z => .ok (cmi D X Y Z)) e1).symm.trans e
      -- the tested candidate is in the log
      have hs2 : s2.log <+: s'.log := by
        cases hver : verdict D cfg T c cmb with
        | dependent =>
          rw [hver] at e'
          obtain ⟨x, hx⟩ := (safe_growLoop (good := fun _ => True) (idealWorld D cfg o) T fuel
            (without cands c) (setAdd cmb c)).1 s2 r s' e'
          exact ⟨x, hx.symm⟩
        | independent =>
          rw [hver] at e'
          injection e' with e'
          injection e' with _ e'
          exact ⟨[], by rw [← e', List.append_nil]⟩
        | insufficient =>
          rw [hver] at e'
          obtain ⟨x, hx⟩ := (safe_growLoop (good := fun _ => True) (idealWorld D cfg o) T fuel
            (without cands c) cmb).1 s2 r s' e'
          exact ⟨x, hx.symm⟩
      obtain ⟨rest, hrest⟩ := hs2.trans hpre
      have hmargin : ∀ y ∈ cands, y ≠ c →
          cmi D T y cmb + cmiError D T y cmb + cmiError D T c cmb < cmi D T c cmb := by
        intro y hy hyc
        have hsplit : full = s.log ++ (T, c, cmb) :: rest := by
          rw [← hrest]
          show (s1.log ++ [(T, c, cmb)]) ++ rest = _
          rw [hlog, List.append_assoc]
          rfl
        exact hfull s.log c cmb rest hsplit (hcand c hc).2.2.2 y (hcand y hy).1 (hcand y hy).2.1 hyc
          (hcand y hy).2.2.2
      have herr0 : ∀ y ∈ cands, 0 ≤ cmiError D T y cmb := by
        intro y hy
        obtain ⟨v, -, hv⟩ := hh T y cmb (hprop y hy)
        exact (abs_nonneg _).trans hv
      have es1 : s1 = { s with w := (o cands s.w).2 } := by
        have := highest_best (D := D) (cfg := cfg) (h := fun X Y Z => .ok (cmi D X Y Z)) ho hc
          (v := fun y => cmi D T y cmb) (fun y _ => rfl) (fun y hy hyc => by
            have a := hmargin y hy hyc
            have b := herr0 y hy
            have d := herr0 c hc
            show cmi D T y cmb < cmi D T c cmb
            linarith) s
        rw [← idealWorld_pure, e1] at this
        injection this with this
        injection this
      have hF : highest (pureWorld D cfg h o) T cands cmb s = .ok (c, s1) := by
        rw [es1]
        have hch : ∀ y, ∃ v, y ∈ cands → h T y cmb = .ok v ∧ |v - cmi D T y cmb| ≤ cmiError D T y cmb := by
          intro y
          by_cases hy : y ∈ cands
          · obtain ⟨v, hv⟩ := hh T y cmb (hprop y hy)
            exact ⟨v, fun _ => hv⟩
          · exact ⟨0, fun h => absurd h hy⟩
        choose v hv using hch
        refine highest_best ho hc (v := v) (fun y hy => (hv y hy).1) (fun y hy hyc => ?_) s
        have a := hmargin y hy hyc
        obtain ⟨b1, b2⟩ := abs_le.1 (hv y hy).2
        obtain ⟨d1, d2⟩ := abs_le.1 (hv c hc).2
        linarith
      refine (key h hF).trans ?_
      have hcands' : ∀ y ∈ without cands c, y ∈ U ∧ y ≠ T ∧ y ∉ cmb ∧ y ≠ c ∧ y ∉ s2.log.map (·.2.1) := by
        intro y hy
        rw [mem_without] at hy
        obtain ⟨a1, a2, a3, a4⟩ := hcand y hy.1
        refine ⟨a1, a2, a3, hy.2, ?_⟩
        show y ∉ (s1.log ++ [(T, c, cmb)]).map (·.2.1)
        rw [hlog, List.map_append, List.mem_append, not_or]
        exact ⟨a4, by simpa using hy.2⟩
      cases hver : verdict D cfg T c cmb with
      | dependent =>
        rw [hver] at e'
        refine ih _ _ s2 r s' (nodup_setAdd hnd c) ?_ ?_ e' hpre
        · intro y hy
          rcases mem_setAdd.1 hy with hy | rfl
          · exact hcmb y hy
          · exact ⟨(hcand y hc).1, (hcand y hc).2.1⟩
        · intro y hy
          obtain ⟨a1, a2, a3, a4, a5⟩ := hcands' y hy
          refine ⟨a1, a2, ?_, a5⟩
          rw [mem_setAdd, not_or]
          exact ⟨a3, a4⟩
      | independent =>
        rw [hver] at e'
        exact e'
      | insufficient =>
        rw [hver] at e'
        refine ih _ _ s2 r s' hnd hcmb ?_ e' hpre
        intro y hy
        obtain ⟨a1, a2, a3, a4, a5⟩ := hcands' y hy
        exact ⟨a1, a2, a3, a5⟩

theorem shrink_pure (D : Data) (cfg : Config) (h h' : Nat → Nat → List Nat → Except Err ℝ)
    (o : List Nat → ι → List Nat × ι) (T : Nat) (cmb : List Nat) :
    shrink (pureWorld D cfg h o) T cmb = shrink (pureWorld D cfg h' o) T cmb := by
  have : ∀ l fp, shrinkLoop (pureWorld D cfg h o) T cmb l fp = shrinkLoop (pureWorld D cfg h' o) T cmb l fp := by
    intro l
    induction l with
    | nil => intro fp; rfl
    | cons c l ih =>
      intro fp
      rw [shrinkLoop, shrinkLoop]
      simp only [ih]
      rfl
  unfold shrink
  simp only [this]
  rfl

theorem iamb_same {D : Data} {cfg : Config} {h : Nat → Nat → List Nat → Except Err ℝ}
    {o : List Nat → ι → List Nat × ι} (ho : ∀ l i, (o l i).1.Perm l) {U : List Nat} {T : Nat} (hT : T ∈ U)
    (hh : ∀ X Y Z, Proper U X Y Z → ∃ v, h X Y Z = .ok v ∧ |v - cmi D X Y Z| ≤ cmiError D X Y Z)
    (i : ι) {mb : List Nat} {s' : St ι}
    (e : iamb (idealWorld D cfg o) U T ⟨[], [], i⟩ = .ok (mb, s')) (hc : ClearChoices D U T s'.log) :
    iamb (pureWorld D cfg h o) U T ⟨[], [], i⟩ = .ok (mb, s') := by
  have hsplit : ∀ h' : Nat → Nat → List Nat → Except Err ℝ, iamb (pureWorld D cfg h' o) U T ⟨[], [], i⟩ =
      (grow (pureWorld D cfg h' o) T U ⟨[], [], i⟩ >>= fun p =>
        (shrink (idealWorld D cfg o) T p.1 >>= fun mb => pure (pySorted mb)) p.2) := by
    intro h'
    rw [idealWorld_pure]
    simp only [shrink_pure D cfg (fun X Y Z => .ok (cmi D X Y Z)) h']
    rfl
  rw [idealWorld_pure, hsplit] at e
  rw [hsplit]
  cases hg : grow (idealWorld D cfg o) T U ⟨[], [], i⟩ with
  | error e1 =>
    rw [← idealWorld_pure, hg] at e
    cases e
  | ok p =>
    obtain ⟨cmb, s1⟩ := p
    rw [← idealWorld_pure, hg] at e
    have e2 : (shrink (idealWorld D cfg o) T cmb >>= fun mb => pure (pySorted mb)) s1 = .ok (mb, s') := e
    have hsafe : Safe (fun _ => True) (shrink (idealWorld D cfg o) T cmb >>= fun mb =>
        (pure (pySorted mb) : PyM (St ι) (List Nat))) (shrink (checked (fun _ => True) (idealWorld D cfg o)) T cmb >>=
          fun mb => pure (pySorted mb)) :=
      Safe.bind (Safe.bind (safe_iter _ _) fun l => Safe.bind (safe_shrinkLoop _ _ _ _ _) fun fp => Safe.pure _)
        fun _ => Safe.pure _
    obtain ⟨x, hx⟩ := hsafe.1 s1 mb s' e2
    have := growLoop_same (D := D) (cfg := cfg) ho hT hh hc _ (without U T) [] ⟨[], [], i⟩ cmb s1
      List.nodup_nil (by simp) (fun y hy => ⟨(mem_without.1 hy).1, (mem_without.1 hy).2, by simp, by simp⟩)
      hg ⟨x, hx.symm⟩
    have hg' : grow (pureWorld D cfg h o) T U ⟨[], [], i⟩ = .ok (cmb, s1) := this
    rw [hg']
    exact e

/-! ### The whole run -/

theorem near_discover_clear {D : Data} {cfg : Config} {g : GTest} {valid : Call → Prop}
    {call : Call → PyM τ Answer} {base : τ → Base} {s0 : τ}
    (hc : NearTest D cfg (testError D g) valid call base s0) (hmono : ∀ k, Monotone (fun g => cfg.cdf g k))
    {h : Nat → Nat → List Nat → Except Err ℝ} {U : List Nat}
    (hh : ∀ X Y Z, Proper U X Y Z → ∃ v, h X Y Z = .ok v ∧ |v - cmi D X Y Z| ≤ cmiError D X Y Z)
    (hv : ∀ X Y Z, Proper U X Y Z → valid (X, Y, Z))
    {o : List Nat → ι → List Nat × ι} (ho : ∀ l i, (o l i).1.Perm l) (hU : U.Nodup) {T : Nat} (hT : T ∈ U)
    (alg : Algorithm) (i : ι) {mb : List Nat} {s' : St ι}
    (e : alg.discover (idealWorld D cfg o) U T ⟨[], [], i⟩ = .ok (mb, s'))
    (hclear : ClearRun D cfg g alg U T s'.log) :
    ∃ results, outcome (fun t => (base t).results) (alg.discover (testWorld call h o) U T)
        ⟨[], [], (s0, i)⟩ = .ok (mb, s'.log, results) := by
  obtain ⟨Inv, step, h0, h1, h2⟩ := hc
  have hA : Alike U (NearPure D cfg (testError D g) Inv base)
      (⟨[], [], (s0, i)⟩ : St (τ × ι)) ⟨[], [], i⟩ :=
    ⟨rfl, rfl, ⟨rfl, h0, h1, [], by rw [h2]; trivial⟩, by intro A B z hz; cases hz⟩
  -- from the run in a pure world to the run with the test
  have main : ∀ h', Sim U (NearPure D cfg (testError D g) Inv base)
      (alg.discover (checked (fun q => ClearTest D cfg (testError D g q) q) (testWorld call h o)) U T)
      (alg.discover (checked (fun q => ClearTest D cfg (testError D g q) q) (pureWorld D cfg h' o)) U T)
      (fun _ => True) →
      alg.discover (pureWorld D cfg h' o) U T ⟨[], [], i⟩ = .ok (mb, s') →
      ∃ results, outcome (fun t => (base t).results) (alg.discover (testWorld call h o) U T)
        ⟨[], [], (s0, i)⟩ = .ok (mb, s'.log, results) := by
    intro h' hsim e'
    have e'' := (safe_discover (good := fun q => ClearTest D cfg (testError D g q) q) (pureWorld D cfg h' o) U T
      alg).run e' hclear.1
    rcases hsim _ _ hA with ⟨a, s1, t1, e1, e2, hA1, -⟩ | ⟨err, e1, e2⟩
    · rw [e''] at e2
      cases e2
      have e3 := (safe_discover (good := fun q => ClearTest D cfg (testError D g q) q) (testWorld call h o) U T
        alg).back e1
      refine ⟨(base s1.w.1).results, ?_⟩
      unfold outcome
      rw [e3, ← hA1.log]
      rfl
    · rw [e''] at e2
      cases e2
  cases alg with
  | iamb =>
    refine main h ?_ (iamb_same ho hT hh i e hclear.2)
    exact sim_iamb (checked_same_heur (checked_same step hmono hv ho)
      (fun X Y Z hp => (hh X Y Z hp).imp fun _ h => h.1)) hT
  | ipcmb pcOnly =>
    refine main (fun X Y Z => .ok (cmi D X Y Z)) ?_ e
    exact sim_ipcmb (checked_same step hmono hv ho) hU hT pcOnly

/-! ## The algorithms with `float`s -/

/-- Construct the algorithm object, which constructs the test object (iamb.py 31-42, ipcmb.py 29-35), and
call `discover_mb`; all numbers are `float`s. -/
noncomputable def runWithF (flog : ℚ → ℚ) (fsum : List ℚ → ℚ) (g : GTest) (alg : Algorithm) (D : Data)
    (cfg : Config) (U : List Nat) (T : Nat) (o : List Nat → ι → List Nat × ι) (i : ι) :
    Except Err (List Nat × List Query × List Result) :=
  match g with
  | .unoptimized => outcome (fun b : Base => b.results)
      (alg.discover (testWorld (unoptCallF flog D cfg) (cmiComputeF flog D) o) U T) ⟨[], [], ({}, i)⟩
  | .adtree dyn => do
      let s ← newAdTest D dyn
      outcome (fun s : AdState => s.base.results)
        (alg.discover (testWorld (adCallF flog D dyn cfg) (cmiComputeF flog D) o) U T) ⟨[], [], (s, i)⟩
  | .dcmi order => do
      let s ← newDcTestF cfg
      outcome (fun s : DcStateF => s.base.results)
        (alg.discover (testWorld (dcCallF flog fsum D cfg order) (cmiComputeF flog D) o) U T)
        ⟨[], [], (s, i)⟩

section
variable {flog : ℚ → ℚ} (hlog : LogAccurate flog) {fsum : List ℚ → ℚ} (hsum : SumAccurate fsum) (D : Data)
  (cfg : Config) (hD : Usable D) (h40 : D.nrows ≤ 2 ^ 40) (U : List Nat) (hU : U.Nodup)
  (hc : GoodColumns D U) (T : Nat) (hT : T ∈ U) (alg : Algorithm) (o : List Nat → ι → List Nat × ι)
  (ho : ∀ l i, (o l i).1.Perm l) (i : ι)
include hlog hsum hD h40 hU hc hT ho

/-- **C87, runs.**  IAMB (with the CMI heuristic) and IPC-MB in floating point, with each of the supported
tests: the run ends without exception, returns a strictly increasing list of variables other than the
target, and the results that the test object has recorded are one per test, numbered from 1, with
statistics within the error of the test; p-values and answers are those of the recorded statistics. -/
theorem float_discovery_ends (g : GTest) (hg : g.Supports cfg) :
    ∃ mb tests results answers, runWithF flog fsum g alg D cfg U T o i = .ok (mb, tests, results) ∧
      mb.Pairwise (· < ·) ∧ (∀ x ∈ mb, x ∈ U ∧ x ≠ T) ∧
      IsRun D cfg (testError D g) 0 tests answers results := by
  have hr : D.nrows ≠ 0 := hD.rows_pos.ne'
  have hh : ∀ X Y Z, Proper U X Y Z → ∃ v, cmiComputeF flog D X Y Z = .ok v := fun X Y Z hp =>
    (cmiComputeF_near hlog hr h40 hp.1).imp fun _ h => h.1
  cases g with
  | unoptimized =>
    exact near_discover (unopt_near hlog D cfg hr h40) hh (hc.call hD) ho hU hT alg i
  | adtree dyn =>
    obtain ⟨a0, ea, ha⟩ := ad_near hlog D cfg hD h40 dyn
    unfold runWithF
    simp only []
    rw [ea]
    exact near_discover ha hh hc.ad ho hU hT alg i
  | dcmi order =>
    obtain ⟨d0, ed, hd⟩ := dc_near hlog hsum D cfg hg.1 hr h40 order hg.2
    unfold runWithF
    simp only []
    rw [ed]
    exact near_discover hd hh (hc.call hD) ho hU hT alg i

/-- **C87, decisions.**  If the distribution function is monotone and rounding can change no decision of
the exact run (no test is within its error of the threshold; in IAMB, every chosen candidate is ahead
of the others by more than the error of the heuristic), the run with `float`s makes the same tests in
the same order and returns the same blanket as the run with exact numbers (C69). -/
theorem float_discovery_exact (hmono : ∀ k, Monotone (fun g => cfg.cdf g k)) (g : GTest)
    (hg : g.Supports cfg) {mb : List Nat} {tests : List Query} {results : List Result}
    (e : runWith g alg D cfg U T o i = .ok (mb, tests, results))
    (hclear : ClearRun D cfg g alg U T tests) :
    ∃ resultsF answers, runWithF flog fsum g alg D cfg U T o i = .ok (mb, tests, resultsF) ∧
      IsRun D cfg (testError D g) 0 tests answers resultsF ∧ AreAnswers D cfg tests answers := by
  have hr : D.nrows ≠ 0 := hD.rows_pos.ne'
  obtain ⟨mb0, s', e0, -, -⟩ := ideal_discover D cfg hU T ho i alg
  have e1 := runWith_ideal D cfg hD hU hc hT ho i alg e0 g hg
  rw [e] at e1
  cases e1
  have hh : ∀ X Y Z, Proper U X Y Z → ∃ v, cmiComputeF flog D X Y Z = .ok v ∧
    |v - cmi D X Y Z| ≤ cmiError D X Y Z := fun X Y Z hp => cmiComputeF_near hlog hr h40 hp.1
  obtain ⟨mbF, testsF, resultsF, answers, eF, -, -, hrun⟩ :=
    float_discovery_ends hlog hsum D cfg hD h40 U hU hc T hT alg o ho i g hg
  have hsame : ∃ r, runWithF flog fsum g alg D cfg U T o i = .ok (mb, s'.log, r) := by
    cases g with
    | unoptimized =>
      exact near_discover_clear (unopt_near hlog D cfg hr h40) hmono hh (hc.call hD) ho hU hT alg i e0 hclear
    | adtree dyn =>
      obtain ⟨a0, ea, ha⟩ := ad_near hlog D cfg hD h40 dyn
      unfold runWithF
      simp only []
      rw [ea]
      exact near_discover_clear ha hmono hh hc.ad ho hU hT alg i e0 hclear
    | dcmi order =>
      obtain ⟨d0, ed, hd⟩ := dc_near hlog hsum D cfg hg.1 hr h40 order hg.2
      unfold runWithF
      simp only []
      rw [ed]
      exact near_discover_clear hd hmono hh (hc.call hD) ho hU hT alg i e0 hclear
  obtain ⟨r, er⟩ := hsame
  rw [eF] at er
  cases er
  exact ⟨_, answers, eF, hrun, clear_answers hmono hrun hclear.1⟩

/-- **C87, agreement.**  If rounding can change no decision of the exact run even with the error of dcMI,
all the supported tests lead to the same tests and the same blanket in floating point. -/
theorem float_discovery_same (hmono : ∀ k, Monotone (fun g => cfg.cdf g k)) {mb : List Nat}
    {tests : List Query} {results : List Result} (order : Finset Nat → List Nat)
    (e : runWith .unoptimized alg D cfg U T o i = .ok (mb, tests, results))
    (hclear : ClearRun D cfg (.dcmi order) alg U T tests) :
    ∀ g : GTest, g.Supports cfg →
      ∃ resultsF, runWithF flog fsum g alg D cfg U T o i = .ok (mb, tests, resultsF) := by
  intro g hg
  have hr : D.nrows ≠ 0 := hD.rows_pos.ne'
  obtain ⟨mb0, s', e0, -, -⟩ := ideal_discover D cfg hU T ho i alg
  have e1 := runWith_ideal D cfg hD hU hc hT ho i alg e0 .unoptimized trivial
  rw [e] at e1
  cases e1
  have e2 := runWith_ideal D cfg hD hU hc hT ho i alg e0 g hg
  have hcl : ClearRun D cfg g alg U T s'.log := by
    refine ⟨fun q hq => fun hen => (hclear.1 q hq hen).mono hmono ?_, hclear.2⟩
    cases g with
    | unoptimized => exact gError_le_dcError hr _ _ _
    | adtree dyn => exact gError_le_dcError hr _ _ _
    | dcmi order => exact le_refl _
  obtain ⟨rF, as, eF, -⟩ := float_discovery_exact hlog hsum D cfg hD h40 U hU hc T hT alg o ho i hmono g hg e2 hcl
  exact ⟨rF, eF⟩

end

/-! ## Example -/

theorem coin_cmi : cmi coinData 0 1 [] = 0 ∧ cmi coinData 0 2 [] = log 2 := by
  refine ⟨(Stats.Spec.cmi_eq_zero_iff coinData _ _ _).2 coin_independent, ?_⟩
  have h := coin_dependent
  unfold Stats.Spec.G at h
  have h8 : ((coinData.nrows : ℕ) : ℝ) = 8 := by show ((8 : ℕ) : ℝ) = 8; norm_num
  rw [h8] at h
  linarith

theorem cmiError_small (D : Data) (hr : D.nrows ≠ 0) (h : D.nrows ≤ 100000) (X Y : Nat) (Z : List Nat) :
    cmiError D X Y Z ≤ 1 / 10000 := by
  have h1 := gError_small D hr h X Y Z
  have hn1 : (1 : ℝ) ≤ D.nrows := by exact_mod_cast Nat.one_le_iff_ne_zero.2 hr
  have hL0 : 0 ≤ log D.nrows := Real.log_nonneg hn1
  refine le_trans ?_ h1
  unfold cmiError gError
  refine div_le_div_of_nonneg_right ?_ (by norm_num)
  have hM0 : (0 : ℝ) ≤ (observed D (X :: Y :: Z)).card := by positivity
  generalize ((observed D (X :: Y :: Z)).card : ℝ) = M at *
  generalize log (D.nrows : ℝ) = L at *
  generalize (D.nrows : ℝ) = n at *
  have : 0 ≤ (M + 15) * (L + 2) := by positivity
  nlinarith

theorem coin_verdicts : verdict coinData coinConfig 0 2 [] = .dependent ∧
    verdict coinData coinConfig 0 1 [2] = .insufficient := by
  constructor
  · refine IsAnswer.unique (verdict_isAnswer _ _ _ _ _) ?_
    have hE : Enough coinData coinConfig 0 2 [] := by
      show 5 * 1 < 8
      norm_num
    have hp : coinConfig.significance ≤ pValue coinData coinConfig 0 2 [] := by
      show (1 : ℝ) / 2 ≤ max 0 (min 1 (G coinData 0 2 []))
      rw [coin_dependent]
      have h2 := Real.log_two_gt_d9
      exact le_trans (le_min (by norm_num) (by linarith)) (le_max_right _ _)
    exact ⟨by simp [hE], by simp [not_lt.2 hp], by simp [hE, hp]⟩
  · have hE : ¬ Enough coinData coinConfig 0 1 [2] := by
      show ¬ (5 * 2 < 8)
      norm_num
    unfold verdict
    rw [if_pos hE]

/-- The tests of IAMB on the example: the copy is chosen and kept, the other column is not. (Example.) -/
def coinTests : List Query := [(0, 2, []), (0, 1, [2]), (0, 2, [])]

theorem growLoop_step {D : Data} {cfg : Config} {o : List Nat → ι → List Nat × ι} {T : Nat}
    (fuel : Nat) {cands cmb : List Nat} (h0 : cands.length ≠ 0) {s s1 : St ι} {c : Nat}
    (e : highest (idealWorld D cfg o) T cands cmb s = .ok (c, s1)) :
    growLoop (idealWorld D cfg o) T (fuel + 1) cands cmb s =
      (match verdict D cfg T c cmb with
        | .dependent => growLoop (idealWorld D cfg o) T fuel (without cands c) (setAdd cmb c)
        | .independent => pure cmb
        | .insufficient => growLoop (idealWorld D cfg o) T fuel (without cands c) cmb)
      { s1 with log := s1.log ++ [(T, c, cmb)] } := by
  rw [growLoop, if_neg h0]
  show (highest (idealWorld D cfg o) T cands cmb s >>= fun p => _) = _
  rw [e]
  rfl

theorem coin_ideal : iamb (idealWorld coinData coinConfig (fun l (i : Unit) => (l, i))) [0, 1, 2] 0
    ⟨[], [], ()⟩ = .ok ([2], ⟨coinTests, [], ()⟩) := by
  obtain ⟨v1, v2⟩ := coin_verdicts
  obtain ⟨c1, c2⟩ := coin_cmi
  have hlt : ¬ log 2 ≤ 0 := by have := Real.log_two_gt_d9; linarith
  have e1 : highest (idealWorld coinData coinConfig (fun l (i : Unit) => (l, i))) 0 [1, 2] [] ⟨[], [], ()⟩ =
      .ok (2, ⟨[], [], ()⟩) := by
    rw [idealWorld_pure]
    refine highest_best (fun _ _ => List.Perm.refl _) (by decide) (v := fun y => cmi coinData 0 y [])
      (fun _ _ => rfl) ?_ _
    intro y hy hyc
    have : y = 1 := by simp only [List.mem_cons, List.not_mem_nil, or_false] at hy; omega
    subst this
    show cmi coinData 0 1 [] < cmi coinData 0 2 []
    rw [c1, c2]
    linarith
  have e2 : highest (idealWorld coinData coinConfig (fun l (i : Unit) => (l, i))) 0 [1] [2]
      ⟨[(0, 2, [])], [], ()⟩ = .ok (1, ⟨[(0, 2, [])], [], ()⟩) := by
    rw [idealWorld_pure]
    refine highest_best (fun _ _ => List.Perm.refl _) (by decide) (v := fun y => cmi coinData 0 y [2])
      (fun _ _ => rfl) ?_ _
    intro y hy hyc
    simp only [List.mem_cons, List.not_mem_nil, or_false] at hy
    exact absurd hy hyc
  have g0 : grow (idealWorld coinData coinConfig (fun l (i : Unit) => (l, i))) 0 [0, 1, 2] ⟨[], [], ()⟩ =
      .ok ([2], ⟨[(0, 2, []), (0, 1, [2])], [], ()⟩) := by
    refine (growLoop_step 2 (by decide) e1).trans ?_
    rw [v1]
    refine (growLoop_step 1 (by decide) e2).trans ?_
    rw [v2]
    rfl
  have l0 : shrinkLoop (idealWorld coinData coinConfig (fun l (i : Unit) => (l, i))) 0 [2] [2] []
      ⟨[(0, 2, []), (0, 1, [2])], [], ()⟩ = .ok ([], ⟨coinTests, [], ()⟩) := by
    rw [shrinkLoop]
    show (match verdict coinData coinConfig 0 2 [] with
      | .independent => shrinkLoop (idealWorld coinData coinConfig (fun l (i : Unit) => (l, i))) 0 [2] [] [2]
      | .dependent => shrinkLoop (idealWorld coinData coinConfig (fun l (i : Unit) => (l, i))) 0 [2] [] []
      | .insufficient => shrinkLoop (idealWorld coinData coinConfig (fun l (i : Unit) => (l, i))) 0 [2] [] [])
        ⟨coinTests, [], ()⟩ = _
    rw [v1]
    rfl
  show (grow (idealWorld coinData coinConfig (fun l (i : Unit) => (l, i))) 0 [0, 1, 2] ⟨[], [], ()⟩ >>=
    fun p => _) = _
  rw [g0]
  show (shrinkLoop (idealWorld coinData coinConfig (fun l (i : Unit) => (l, i))) 0 [2] [2] []
      ⟨[(0, 2, []), (0, 1, [2])], [], ()⟩ >>= fun p => Except.ok (diff [2] p.1, p.2)) >>=
        (fun p => Except.ok (pySorted p.1, p.2)) = _
  rw [l0]
  rfl

theorem coin_clear_run (order : Finset Nat → List Nat) :
    ClearRun coinData coinConfig (.dcmi order) .iamb [0, 1, 2] 0 coinTests := by
  constructor
  · intro q hq hen
    have hq' : q = (0, 2, []) ∨ q = (0, 1, [2]) := by
      simp only [coinTests, List.mem_cons, List.not_mem_nil, or_false] at hq
      tauto
    rcases hq' with rfl | rfl
    · exact coin_clear_dc _ (by simp)
    · exfalso
      have : 5 * 2 < 8 := hen
      omega
  · intro before c Z after hsplit hnew y hy hyT hyc hyb
    obtain ⟨c1, c2⟩ := coin_cmi
    have hs := fun X Y Z => cmiError_small coinData (by decide) (by decide) X Y Z
    match before, hsplit with
    | [], hsplit =>
      simp only [coinTests, List.nil_append, List.cons.injEq, Prod.mk.injEq, true_and] at hsplit
      obtain ⟨⟨rfl, rfl⟩, -⟩ := hsplit
      have : y = 1 := by simp only [List.mem_cons, List.not_mem_nil, or_false] at hy; omega
      subst this
      rw [c1, c2]
      have h1 := hs 0 1 []
      have h2 := hs 0 2 []
      have := Real.log_two_gt_d9
      norm_num at h1 h2
      linarith
    | [_], hsplit =>
      simp only [coinTests, List.cons_append, List.nil_append, List.cons.injEq, Prod.mk.injEq, true_and] at hsplit
      obtain ⟨rfl, ⟨rfl, -⟩, -⟩ := hsplit
      exfalso
      simp only [List.mem_cons, List.not_mem_nil, or_false, List.map_cons, List.map_nil] at hy hyb
      omega
    | [_, _], hsplit =>
      simp only [coinTests, List.cons_append, List.nil_append, List.cons.injEq, Prod.mk.injEq, true_and] at hsplit
      obtain ⟨rfl, rfl, ⟨rfl, -⟩, -⟩ := hsplit
      exact absurd (by simp) hnew
    | _ :: _ :: _ :: l, hsplit =>
      simp [coinTests] at hsplit

theorem coin_run : ∃ results, runWith .unoptimized .iamb coinData coinConfig [0, 1, 2] 0
    (fun l (i : Unit) => (l, i)) () = .ok ([2], coinTests, results) :=
  ⟨_, runWith_ideal coinData coinConfig coin_usable (by decide) (by unfold GoodColumns; decide) (by decide)
    (fun _ _ => List.Perm.refl _) () .iamb coin_ideal .unoptimized trivial⟩

/-- The hypotheses of C87 are met: on the example, IAMB in floating point with any of the tests finds that
the blanket of the first column is its copy. -/
example (g : GTest) (hg : g.Supports coinConfig) : ∃ results,
    runWithF roundedLog leftSum g .iamb coinData coinConfig [0, 1, 2] 0 (fun l (i : Unit) => (l, i)) () =
      .ok ([2], coinTests, results) := by
  obtain ⟨_, e⟩ := coin_run
  exact float_discovery_same roundedLog_accurate leftSum_accurate coinData coinConfig coin_usable (by decide)
    [0, 1, 2] (by decide) (by unfold GoodColumns; decide) 0 (by decide) .iamb (fun l (i : Unit) => (l, i))
    (fun _ _ => List.Perm.refl _) () (fun _ _ _ h => max_le_max le_rfl (min_le_min le_rfl h))
    (fun S => S.sort (fun a b => a ≤ b)) e (coin_clear_run _) g hg

end Mbtk.Fp
