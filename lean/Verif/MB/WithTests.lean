import Verif.MB.Sim
import Verif.Props.CITestProps
import Verif.Props.MBProps
/-!
# Markov blanket discovery from data (C69)

IAMB and IPC-MB with the G-tests and the CMI heuristic on a dataset.  The result and the log of the
tests depend on the data, the parameters and the iteration order of sets alone, not on which of the
three implementations of the G-test is configured.
-/
namespace Mbtk.MB
open Mbtk.ADTree (Data)
open Mbtk.ADTree.Spec (Usable)
open Mbtk.Stats Mbtk.Stats.Spec

variable {τ ι : Type}

/-- The environment of an algorithm that was given a CI test and a heuristic: iamb.py 31-42,
ipcmb.py 29-35.  The state is that of the test object and that of the iteration order of sets (about
which nothing is assumed but that it does not depend on the test object). -/
def testWorld (call : Call → PyM τ Answer) (h : Nat → Nat → List Nat → Except Err ℝ)
    (o : List Nat → ι → List Nat × ι) : World (τ × ι) ℝ where
  ask X Y Z s := do
    let (a, t) ← call (X, Y, Z) s.1
    .ok (a, (t, s.2))
  heur X Y Z s := do
    let v ← h X Y Z
    .ok (v, s)
  iter l s := ((o l s.2).1, (s.1, (o l s.2).2))

/-- What an observer sees of a run: the returned list, the tests made, and the results that the test
object has recorded. (Specification.) -/
def outcome {α : Type} (results : τ → List Result) (m : PyM (St (τ × ι)) α) (s : St (τ × ι)) :
    Except Err (α × List Query × List Result) :=
  (m s).map (fun p => (p.1, p.2.log, results p.2.w.1))

open Classical in
/-- The verdict on `X` and `Y` given `Z` in terms of the data alone. (Specification.) -/
noncomputable def verdict (D : Data) (cfg : Config) (X Y : Nat) (Z : List Nat) : Answer :=
  if ¬ Enough D cfg X Y Z then .insufficient
  else if pValue D cfg X Y Z < cfg.significance then .independent
  else .dependent

theorem verdict_isAnswer (D : Data) (cfg : Config) (X Y : Nat) (Z : List Nat) :
    IsAnswer D cfg X Y Z (verdict D cfg X Y Z) := by
  unfold verdict
  by_cases h1 : Enough D cfg X Y Z
  · by_cases h2 : pValue D cfg X Y Z < cfg.significance
    · simp only [h1, h2, not_true_eq_false, if_false, if_true]
      exact ⟨by simp [h1], by simp [h1, h2], by simp [not_le.2 h2]⟩
    · simp only [h1, h2, not_true_eq_false, if_false]
      exact ⟨by simp [h1], by simp [h2], by simp [h1, not_lt.1 h2]⟩
  · simp only [h1, not_false_eq_true, if_true]
    exact ⟨by simp [h1], by simp [h1], by simp [h1]⟩

/-- The environment in which every question is answered from the data, by definition of the test.
(Specification.) -/
noncomputable def idealWorld (D : Data) (cfg : Config) (o : List Nat → ι → List Nat × ι) :
    World ι ℝ where
  ask X Y Z s := .ok (verdict D cfg X Y Z, s)
  heur X Y Z s := .ok (cmi D X Y Z, s)
  iter := o

/-- `call` on `D` behaves as a correct G-test from the state `s0` on: whatever valid calls were made, a
valid call returns, with the right answer, and adds the right entry to the results.
(Specification.) -/
def CorrectTest (D : Data) (cfg : Config) (valid : Call → Prop) (call : Call → PyM τ Answer)
    (base : τ → Base) (s0 : τ) : Prop :=
  ∃ Inv : List Call → τ → Prop,
    (∀ done c s, valid c → Inv done s → Ok (call c) s (fun a s' =>
      IsAnswer D cfg c.1 c.2.1 c.2.2 a ∧ Inv (done ++ [c]) s' ∧
      (base s').counter = (base s).counter + 1 ∧
      (base s').results = (base s).results ++ [loggedResult D cfg (base s).counter c])) ∧
    Inv [] s0 ∧ (base s0).counter = 0 ∧ (base s0).results = []

theorem unopt_correct (D : Data) (cfg : Config) (hr : D.nrows ≠ 0) :
    CorrectTest D cfg (ValidCall D) (unoptCall D cfg) id {} :=
  ⟨fun _ b => UnoptOk D b, fun _ _ _ hc hs => unoptCall_ok hr hc.2 hc.1 hs,
    (by intro S vars pw hg; simp [dictGet] at hg), rfl, rfl⟩

theorem ad_correct (D : Data) (cfg : Config) (hD : Usable D) (dyn : Bool) :
    ∃ s0, newAdTest D dyn = .ok s0 ∧
      CorrectTest D cfg (ValidAdCall D) (adCall D dyn cfg) (·.base) s0 := by
  obtain ⟨s0, e0, hs0, hb⟩ := newAdTest_ok hD dyn
  exact ⟨s0, e0, fun _ s => AdOk D dyn s, fun _ _ _ hc hs => adCall_ok hD hc.1 hc.2 hs, hs0,
    by show s0.base.counter = 0; rw [hb], by show s0.base.results = []; rw [hb]⟩

theorem dc_correct (D : Data) (cfg : Config) (hk : cfg.kind ≠ .structural) (hr : D.nrows ≠ 0)
    (order : Finset Nat → List Nat) (ho : IsOrder order) :
    ∃ s0, newDcTest cfg = .ok s0 ∧
      CorrectTest D cfg (ValidCall D) (dcCall D cfg order) (·.base) s0 := by
  refine ⟨{}, by simp [newDcTest, hk], fun done s => DcOk D cfg.kind order (entropyRequests done) s,
    fun done c s hc hs => ?_, DcOk.init D cfg.kind order, rfl, rfl⟩
  show Ok (dcCall D cfg order c) s (fun a s' => IsAnswer D cfg c.1 c.2.1 c.2.2 a ∧
    DcOk D cfg.kind order (entropyRequests (done ++ [c])) s' ∧ _)
  rw [entropyRequests_append]
  exact dcCall_ok ho hk hr hc.2 hc.1 hs

theorem logFrom_append (D : Data) (cfg : Config) (start : Nat) (cs : List Call) (c : Call) :
    logFrom D cfg start (cs ++ [c]) = logFrom D cfg start cs ++ [loggedResult D cfg (start + cs.length) c] := by
  induction cs generalizing start with
  | nil => simp [logFrom]
  | cons d cs ih =>
    simp only [List.cons_append, logFrom, ih, List.length_cons]
    congr 4
    omega

/-- How the states of a run with a test and of the ideal run are related.
(Models no code: a notion for statements and proofs.) -/
def TestState (D : Data) (cfg : Config) (Inv : List Call → τ → Prop) (base : τ → Base)
    (asked : List Query) (s : τ × ι) (i : ι) : Prop :=
  Inv asked s.1 ∧ s.2 = i ∧ (base s.1).counter = asked.length ∧
    (base s.1).results = logFrom D cfg 0 asked

theorem testWorld_same {D : Data} {cfg : Config} {valid : Call → Prop} {call : Call → PyM τ Answer}
    {base : τ → Base} {Inv : List Call → τ → Prop}
    (step : ∀ done c s, valid c → Inv done s → Ok (call c) s (fun a s' =>
      IsAnswer D cfg c.1 c.2.1 c.2.2 a ∧ Inv (done ++ [c]) s' ∧
      (base s').counter = (base s).counter + 1 ∧
      (base s').results = (base s).results ++ [loggedResult D cfg (base s).counter c]))
    (hr : D.nrows ≠ 0) {U : List Nat} (hv : ∀ X Y Z, Proper U X Y Z → valid (X, Y, Z))
    {o : List Nat → ι → List Nat × ι} (ho : ∀ l i, (o l i).1.Perm l) :
    SameAnswers U (TestState D cfg Inv base) (testWorld call (cmiCompute D) o)
      (idealWorld D cfg o) where
  ask q X Y Z s i hst hp := by
    obtain ⟨h1, h2, h3, h4⟩ := hst
    obtain ⟨a, s', e, ha, hI, hc, hres⟩ := step q (X, Y, Z) s.1 (hv X Y Z hp) h1
    refine .inl ⟨a, (s', s.2), i, ?_, ?_, hI, h2, ?_, ?_⟩
    · show (call (X, Y, Z) s.1 >>= fun p => Except.ok (p.1, (p.2, s.2))) = _
      rw [e]; rfl
    · show Except.ok (verdict D cfg X Y Z, _) = _
      rw [IsAnswer.unique (verdict_isAnswer D cfg X Y Z) ha]
    · show (base s').counter = _
      rw [hc, h3, List.length_append]; rfl
    · show (base s').results = _
      rw [hres, h4, h3, logFrom_append, Nat.zero_add]
  heur q X Y Z s i hst hp := by
    refine ⟨cmi D X Y Z, s, i, ?_, rfl, hst⟩
    show (cmiCompute D X Y Z >>= fun v => Except.ok (v, s)) = _
    rw [cmi_calculator_exact D hr X Y Z hp.1]; rfl
  iter q l s i hst := by
    obtain ⟨h1, h2, h3, h4⟩ := hst
    subst h2
    exact ⟨rfl, ho l s.2, h1, rfl, h3, h4⟩

theorem idealWorld_fair {D : Data} {cfg : Config} {o : List Nat → ι → List Nat × ι}
    (ho : ∀ l i, (o l i).1.Perm l) : (idealWorld D cfg o).Fair := ho

theorem idealWorld_total (D : Data) (cfg : Config) (o : List Nat → ι → List Nat × ι) :
    (idealWorld D cfg o).Total := fun _ _ _ _ => ⟨_, _, rfl, trivial⟩

theorem idealWorld_heurOn (D : Data) (cfg : Config) (o : List Nat → ι → List Nat × ι) (T : Nat)
    (U : List Nat) : (idealWorld D cfg o).HeurOn T U := fun _ _ _ _ _ => ⟨_, _, rfl⟩

/-- The runs with a correct test and with the ideal one, side by side. -/
theorem outcome_of_sim {α : Type} {D : Data} {cfg : Config} {valid : Call → Prop}
    {call : Call → PyM τ Answer} {base : τ → Base} {s0 : τ}
    (hc : CorrectTest D cfg valid call base s0) (hr : D.nrows ≠ 0) {U : List Nat}
    (hv : ∀ X Y Z, Proper U X Y Z → valid (X, Y, Z))
    {o : List Nat → ι → List Nat × ι} (ho : ∀ l i, (o l i).1.Perm l)
    (alg : ∀ {σ : Type}, World σ ℝ → PyM (St σ) α)
    (hsim : ∀ J : List Query → τ × ι → ι → Prop,
      SameAnswers U J (testWorld call (cmiCompute D) o) (idealWorld D cfg o) →
      Sim U J (alg (testWorld call (cmiCompute D) o)) (alg (idealWorld D cfg o)) (fun _ => True))
    (i : ι) {r : α} {s' : St ι} (he : alg (idealWorld D cfg o) ⟨[], [], i⟩ = .ok (r, s')) :
    outcome (fun t => (base t).results) (alg (testWorld call (cmiCompute D) o)) ⟨[], [], (s0, i)⟩ =
      .ok (r, s'.log, logFrom D cfg 0 s'.log) := by
  obtain ⟨Inv, step, h0, h1, h2⟩ := hc
  have hA : Alike U (TestState D cfg Inv base) (⟨[], [], (s0, i)⟩ : St (τ × ι)) ⟨[], [], i⟩ :=
    ⟨rfl, rfl, ⟨h0, rfl, h1, h2⟩, by intro A B z hz; cases hz⟩
  rcases hsim _ (testWorld_same step hr hv ho) _ _ hA with ⟨a, s1, t1, e1, e2, hA1, -⟩ | ⟨e, e1, e2⟩
  · rw [he] at e2
    cases e2
    unfold outcome
    rw [e1]
    obtain ⟨-, -, -, h4⟩ := hA1.env
    show Except.ok (r, s1.log, (base s1.w.1).results) = _
    rw [h4, hA1.log]
  · rw [he] at e2
    cases e2

/-- Columns that the AD-tree test can be asked about. (Specification.) -/
def GoodColumns (D : Data) (U : List Nat) : Prop :=
  ∀ x ∈ U, x < D.ncols ∧ (-1 : Int) ∉ D.values x

theorem GoodColumns.ad {D : Data} {U : List Nat} (h : GoodColumns D U) (X Y : Nat) (Z : List Nat)
    (hp : Proper U X Y Z) : ValidAdCall D (X, Y, Z) := ⟨hp.1, fun x hx => h x (hp.2 x hx)⟩

theorem GoodColumns.call {D : Data} (hD : Usable D) {U : List Nat} (h : GoodColumns D U) (X Y : Nat)
    (Z : List Nat) (hp : Proper U X Y Z) : ValidCall D (X, Y, Z) := (h.ad X Y Z hp).valid hD

/-- The three implementations of the G-test: `G_test__unoptimized`, `G_test__with_AD_tree` with a
static or dynamic tree, `G_test__with_dcMI` with some iteration order of frozensets.
G_test__unoptimized.py 16, G_test__with_AD_tree.py 15, G_test__with_dcMI.py 11. -/
inductive GTest where
  | unoptimized
  | adtree (dyn : Bool)
  | dcmi (order : Finset Nat → List Nat)

/-- What a test supports: dcMI refuses the structural calculator of degrees of freedom; the iteration
order of frozensets visits every element once. (Specification.) -/
def GTest.Supports (cfg : Config) : GTest → Prop
  | .unoptimized => True
  | .adtree _ => True
  | .dcmi order => cfg.kind ≠ .structural ∧ IsOrder order

/-- The algorithms that use a CI test. iamb.py 5, ipcmb.py 8, pcmb.py 5. -/
inductive Algorithm where
  | iamb
  | ipcmb (pcOnly : Bool)

/-- `discover_mb`: iamb.py 50-58, ipcmb.py 42-55. -/
noncomputable def Algorithm.discover {σ : Type} (W : World σ ℝ) (U : List Nat) (T : Nat) :
    Algorithm → PyM (St σ) (List Nat)
  | .iamb => MB.iamb W U T
  | .ipcmb pcOnly => MB.ipcmb W U T pcOnly

/-- Construct the algorithm object, which constructs the test object (iamb.py 31-42, ipcmb.py 29-35),
and call `discover_mb`. -/
noncomputable def runWith (g : GTest) (alg : Algorithm) (D : Data) (cfg : Config) (U : List Nat)
    (T : Nat) (o : List Nat → ι → List Nat × ι) (i : ι) :
    Except Err (List Nat × List Query × List Result) :=
  match g with
  | .unoptimized => outcome (fun b : Base => b.results)
      (alg.discover (testWorld (unoptCall D cfg) (cmiCompute D) o) U T) ⟨[], [], ({}, i)⟩
  | .adtree dyn => do
      let s ← newAdTest D dyn
      outcome (fun s : AdState => s.base.results)
        (alg.discover (testWorld (adCall D dyn cfg) (cmiCompute D) o) U T) ⟨[], [], (s, i)⟩
  | .dcmi order => do
      let s ← newDcTest cfg
      outcome (fun s : DcState => s.base.results)
        (alg.discover (testWorld (dcCall D cfg order) (cmiCompute D) o) U T) ⟨[], [], (s, i)⟩

theorem ideal_discover (D : Data) (cfg : Config) {U : List Nat} (hU : U.Nodup) (T : Nat)
    {o : List Nat → ι → List Nat × ι} (ho : ∀ l i, (o l i).1.Perm l) (i : ι) (alg : Algorithm) :
    ∃ mb s', alg.discover (idealWorld D cfg o) U T ⟨[], [], i⟩ = .ok (mb, s') ∧
      mb.Pairwise (· < ·) ∧ ∀ x ∈ mb, x ∈ U ∧ x ≠ T := by
  cases alg with
  | iamb =>
    exact iamb_well_formed (W := idealWorld D cfg o) (idealWorld_fair ho)
      (idealWorld_heurOn D cfg o T U) (idealWorld_total D cfg o) hU ⟨[], [], i⟩
  | ipcmb pcOnly =>
    exact ipcmb_well_formed (W := idealWorld D cfg o) (idealWorld_fair ho)
      (idealWorld_total D cfg o) hU T pcOnly ⟨[], [], i⟩

theorem sim_discover {σ ρ : Type} {U : List Nat} {J : List Query → σ → ρ → Prop} {W : World σ ℝ}
    {W' : World ρ ℝ} (hW : SameAnswers U J W W') (hU : U.Nodup) {T : Nat} (hT : T ∈ U)
    (alg : Algorithm) : Sim U J (alg.discover W U T) (alg.discover W' U T) (fun _ => True) := by
  cases alg with
  | iamb => exact sim_iamb hW hT
  | ipcmb pcOnly => exact sim_ipcmb hW.toSameTests hU hT pcOnly

/-- Every supported test gives what the definition of the test gives. -/
theorem runWith_ideal (D : Data) (cfg : Config) (hD : Usable D) {U : List Nat} (hU : U.Nodup)
    (hc : GoodColumns D U) {T : Nat} (hT : T ∈ U) {o : List Nat → ι → List Nat × ι}
    (ho : ∀ l i, (o l i).1.Perm l) (i : ι) (alg : Algorithm) {mb : List Nat} {s' : St ι}
    (e : alg.discover (idealWorld D cfg o) U T ⟨[], [], i⟩ = .ok (mb, s')) (g : GTest)
    (hg : g.Supports cfg) :
    runWith g alg D cfg U T o i = .ok (mb, s'.log, logFrom D cfg 0 s'.log) := by
  have hr : D.nrows ≠ 0 := hD.rows_pos.ne'
  cases g with
  | unoptimized =>
    exact outcome_of_sim (unopt_correct D cfg hr) hr (hc.call hD) ho (fun W => alg.discover W U T)
      (fun J h => sim_discover h hU hT alg) i e
  | adtree dyn =>
    obtain ⟨a0, ea, ha⟩ := ad_correct D cfg hD dyn
    unfold runWith
    simp only []
    rw [ea]
    exact outcome_of_sim ha hr hc.ad ho (fun W => alg.discover W U T)
      (fun J h => sim_discover h hU hT alg) i e
  | dcmi order =>
    obtain ⟨d0, ed, hd⟩ := dc_correct D cfg hg.1 hr order hg.2
    unfold runWith
    simp only []
    rw [ed]
    exact outcome_of_sim hd hr (hc.call hD) ho (fun W => alg.discover W U T)
      (fun J h => sim_discover h hU hT alg) i e

/-- **C69.** IAMB (with the CMI heuristic) and IPC-MB on a dataset: whichever of the supported G-tests
is configured, the run ends without exception, returns the same Markov blanket, a strictly increasing
list of variables other than the target, after the same tests in the same order, and leaves the same
recorded results: those that the data determine for these tests. -/
theorem discovery_same_with_all_g_tests (D : Data) (cfg : Config) (hD : Usable D) (U : List Nat)
    (hU : U.Nodup) (hc : GoodColumns D U) (T : Nat) (hT : T ∈ U) (alg : Algorithm)
    (o : List Nat → ι → List Nat × ι) (ho : ∀ l i, (o l i).1.Perm l) (i : ι) :
    ∃ (mb : List Nat) (tests : List Query) (results : List Result),
      mb.Pairwise (· < ·) ∧ (∀ x ∈ mb, x ∈ U ∧ x ≠ T) ∧ IsLog D cfg 0 tests results ∧
      ∀ g : GTest, g.Supports cfg → runWith g alg D cfg U T o i = .ok (mb, tests, results) := by
  obtain ⟨mb, s', e, h1, h2⟩ := ideal_discover D cfg hU T ho i alg
  exact ⟨mb, s'.log, logFrom D cfg 0 s'.log, h1, h2, logFrom_isLog D cfg 0 s'.log,
    fun g hg => runWith_ideal D cfg hD hU hc hT ho i alg e g hg⟩

/-- The hypotheses are met by the example dataset, with all its columns. -/
example : Usable Mbtk.ADTree.exampleData ∧ [0, 1, 2].Nodup ∧ GoodColumns Mbtk.ADTree.exampleData [0, 1, 2] ∧
    1 ∈ [0, 1, 2] ∧ (∀ (l : List Nat) (i : Nat), ((if i % 2 = 0 then l else l.reverse, i + 1) :
      List Nat × Nat).1.Perm l) ∧ IsOrder (fun S => S.sort) := by
  refine ⟨Mbtk.ADTree.exampleData_usable, by decide, by unfold GoodColumns; decide, by decide, ?_,
    fun S => ⟨Finset.sort_nodup S (fun a b => a ≤ b), Finset.sort_toFinset S (fun a b => a ≤ b)⟩⟩
  intro l i
  dsimp only
  split
  · exact List.Perm.refl l
  · exact List.reverse_perm l

end Mbtk.MB
