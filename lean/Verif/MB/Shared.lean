import Verif.MB.WithTests
/-!
# C102: discoveries that share an AD-tree, joint entropies and degrees of freedom

`demo.py` discovers the Markov blankets of all variables in turn, each with a new algorithm object and
a new test object, to which the AD-tree or the entropy table of the last one is given.
-/
namespace Mbtk.MB.Shared
open Mbtk.ADTree (Data ADNode Counters TreeOk)
open Mbtk.ADTree.Spec (Usable)
open Mbtk.Stats Mbtk.Stats.Spec
open Mbtk.MB

variable {τ ι : Type}

/-! ## The model -/

/-- A `JHT` dictionary: the entropies, and the entries `'reads'` and `'misses'`, which only `end()`
writes, and only with a path to save to. G_test__with_dcMI.py 19, 111, 118-126. -/
structure Jht where
  table : List (Finset Nat × ℝ)
  counts : Option (Nat × Nat)

/-- What one discovery leaves to the next: the parameters `ci_test_ad_tree_preloaded` and
`ci_test_jht_preloaded`, and the file of the cached degrees of freedom.
demo.py 132-134, 141-149; DoFCalculators.py 123-128, 214-218. -/
structure Store where
  tree : Option (ADNode × Counters) := none
  jht : Option Jht := none
  cache : DofCache := []

/-- The implementations of the G-test. G_test__unoptimized.py 16, G_test__with_AD_tree.py 15 (with a
static or dynamic tree), G_test__with_dcMI.py 11. -/
inductive TestClass where
  | unoptimized
  | adtree (dyn : Bool)
  | dcmi

/-- One discovery: the algorithm, the target, the iteration order of frozensets in this process and
the state of the iteration order of sets. demo.py 155-166. -/
structure Job (ι : Type) where
  alg : Algorithm
  target : Nat
  order : Finset Nat → List Nat
  start : ι

/-- The constructor of the AD-tree test: a preloaded tree is used as it is.
G_test__with_AD_tree.py 17-56. -/
def startAd (D : Data) (dyn : Bool) (sh : Store) : Except Err AdState :=
  match sh.tree with
  | some (root, counters) => .ok { base := { cache := sh.cache }, root := root, counters := counters }
  | none => do
    let s ← newAdTest D dyn
    .ok { s with base := { cache := sh.cache } }

/-- The constructor of the dcMI test: the counters of a preloaded table are looked up in it.
G_test__with_dcMI.py 13-31. -/
def startDc (cfg : Config) (sh : Store) : Except Err DcState :=
  if cfg.kind = .structural then .error .valueError
  else match sh.jht with
    | none => .ok { base := { cache := sh.cache } }
    | some t => match t.counts with
      | none => .error .keyError
      | some (reads, misses) =>
        .ok { base := { cache := sh.cache }, jht := t.table, reads := reads, misses := misses }

/-- The end of a dcMI test, and the table taken from it: `save` tells whether
`ci_test_jht_path__save` is given. G_test__with_dcMI.py 118-126, demo.py 147-149. -/
def endDc (save : Bool) (sh : Store) (s : DcState) : Store :=
  { sh with
    cache := s.base.cache,
    jht := some ⟨s.jht, if save then some (s.reads, s.misses) else sh.jht.bind Jht.counts⟩ }

/-- What is seen of a discovery and what it leaves behind.
(Models no code: a notion for statements and proofs.) -/
def finish {α : Type} (results : τ → List Result) (leave : τ → Store) (m : PyM (St (τ × ι)) α)
    (s : St (τ × ι)) : Except Err ((α × List Query × List Result) × Store) :=
  (m s).map (fun p => ((p.1, p.2.log, results p.2.w.1), leave p.2.w.1))

/-- One discovery with the store of the one before: demo.py 155-173, ipcmb.py 29-55, iamb.py 31-58.
The cached degrees of freedom are loaded and saved (a calculator without a cache leaves it empty). -/
noncomputable def runJob (cls : TestClass) (D : Data) (cfg : Config) (U : List Nat)
    (o : List Nat → ι → List Nat × ι) (save : Bool) (sh : Store) (job : Job ι) :
    Except Err ((List Nat × List Query × List Result) × Store) :=
  match cls with
  | .unoptimized => finish (fun b : Base => b.results) (fun b => { sh with cache := b.cache })
      (job.alg.discover (testWorld (unoptCall D cfg) (cmiCompute D) o) U job.target)
      ⟨[], [], ({ cache := sh.cache }, job.start)⟩
  | .adtree dyn => do
      let s ← startAd D dyn sh
      finish (fun s : AdState => s.base.results)
        (fun s => { sh with cache := s.base.cache, tree := some (s.root, s.counters) })
        (job.alg.discover (testWorld (adCall D dyn cfg) (cmiCompute D) o) U job.target)
        ⟨[], [], (s, job.start)⟩
  | .dcmi => do
      let s ← startDc cfg sh
      finish (fun s : DcState => s.base.results) (endDc save sh)
        (job.alg.discover (testWorld (dcCall D cfg job.order) (cmiCompute D) o) U job.target)
        ⟨[], [], (s, job.start)⟩

/-- The discoveries one after the other. demo.py 155-176. -/
noncomputable def runSeries (cls : TestClass) (D : Data) (cfg : Config) (U : List Nat)
    (o : List Nat → ι → List Nat × ι) (save : Bool) :
    Store → List (Job ι) → Except Err (List (List Nat × List Query × List Result) × Store)
  | sh, [] => .ok ([], sh)
  | sh, job :: jobs => do
    let (out, sh) ← runJob cls D cfg U o save sh job
    let (outs, sh) ← runSeries cls D cfg U o save sh jobs
    .ok (out :: outs, sh)

/-! ## One discovery -/

/-- A run with a correct test, side by side with the ideal one, and the state it ends in. -/
theorem finish_of_sim {α : Type} {D : Data} {cfg : Config} {valid : Call → Prop}
    {call : Call → PyM τ Answer} {base : τ → Base} {s0 : τ} {Inv : List Call → τ → Prop}
    (step : ∀ done c s, valid c → Inv done s → Ok (call c) s (fun a s' =>
      IsAnswer D cfg c.1 c.2.1 c.2.2 a ∧ Inv (done ++ [c]) s' ∧
      (base s').counter = (base s).counter + 1 ∧
      (base s').results = (base s).results ++ [loggedResult D cfg (base s).counter c]))
    (h0 : Inv [] s0) (h1 : (base s0).counter = 0) (h2 : (base s0).results = [])
    (hr : D.nrows ≠ 0) {U : List Nat} (hv : ∀ X Y Z, Proper U X Y Z → valid (X, Y, Z))
    {o : List Nat → ι → List Nat × ι} (ho : ∀ l i, (o l i).1.Perm l)
    (alg : ∀ {σ : Type}, World σ ℝ → PyM (St σ) α)
    (hsim : ∀ J : List Query → τ × ι → ι → Prop,
      SameAnswers U J (testWorld call (cmiCompute D) o) (idealWorld D cfg o) →
      Sim U J (alg (testWorld call (cmiCompute D) o)) (alg (idealWorld D cfg o)) (fun _ => True))
    (i : ι) {r : α} {s' : St ι} (he : alg (idealWorld D cfg o) ⟨[], [], i⟩ = .ok (r, s'))
    (leave : τ → Store) :
    ∃ s1, Inv s'.log s1 ∧
      finish (fun t => (base t).results) leave (alg (testWorld call (cmiCompute D) o))
        ⟨[], [], (s0, i)⟩ = .ok ((r, s'.log, logFrom D cfg 0 s'.log), leave s1) := by
  have hA : Alike U (TestState D cfg Inv base) (⟨[], [], (s0, i)⟩ : St (τ × ι)) ⟨[], [], i⟩ :=
    ⟨rfl, rfl, ⟨h0, rfl, h1, h2⟩, by intro A B z hz; cases hz⟩
  rcases hsim _ (testWorld_same step hr hv ho) _ _ hA with ⟨a, s1, t1, e1, e2, hA1, -⟩ | ⟨e, e1, e2⟩
  · rw [he] at e2
    cases e2
    obtain ⟨h5, -, -, h4⟩ := hA1.env
    refine ⟨s1.w.1, ?_, ?_⟩
    · rw [← hA1.log]; exact h5
    · unfold finish
      rw [e1]
      show Except.ok ((r, s1.log, (base s1.w.1).results), leave s1.w.1) = _
      rw [h4, hA1.log]
  · rw [he] at e2
    cases e2

/-- What is true of the store after the tests `done`.
(Models no code: a notion for statements and proofs.) -/
def Good (cls : TestClass) (D : Data) (cfg : Config) (done : List Query) (sh : Store) : Prop :=
  match cls with
  | .unoptimized => CacheOk D sh.cache
  | .adtree dyn => CacheOk D sh.cache ∧ ∀ r c, sh.tree = some (r, c) → TreeOk D dyn r c
  | .dcmi => (done = [] ∧ sh.jht = none ∧ sh.cache = []) ∨
      ∃ t r m, sh.jht = some t ∧ t.counts = some (r, m) ∧ ∀ order, IsOrder order →
        DcOk D cfg.kind order (entropyRequests done)
          { base := { cache := sh.cache }, jht := t.table, reads := r, misses := m }

theorem DcOk.reorder {D : Data} {kind : DofKind} {order order' : Finset Nat → List Nat}
    (ho : IsOrder order) (ho' : IsOrder order') {req : List (Finset Nat)} {s : DcState}
    (h : DcOk D kind order req s) : DcOk D kind order' req s :=
  ⟨h.cache, h.reads, h.misses, h.known, fun S H hS => (h.entropy S H hS).trans
    (entropy_perm D (fun c => by rw [ho.mem, ho'.mem])), h.dofs⟩

/-- What a series needs: dcMI refuses the structural calculator, and its frozensets iterate in some
order. (Specification.) -/
def TestClass.Supports (cfg : Config) (jobs : List (Job ι)) : TestClass → Prop
  | .unoptimized => True
  | .adtree _ => True
  | .dcmi => cfg.kind ≠ .structural ∧ ∀ job ∈ jobs, IsOrder job.order

theorem runJob_good {cls : TestClass} {D : Data} {cfg : Config} (hD : Usable D) {U : List Nat}
    (hU : U.Nodup) (hc : GoodColumns D U) {o : List Nat → ι → List Nat × ι}
    (ho : ∀ l i, (o l i).1.Perm l) {job : Job ι} (hT : job.target ∈ U)
    (hs : cls.Supports cfg [job]) {done : List Query} {sh : Store} (hg : Good cls D cfg done sh)
    {mb : List Nat} {s' : St ι}
    (e : job.alg.discover (idealWorld D cfg o) U job.target ⟨[], [], job.start⟩ = .ok (mb, s')) :
    ∃ sh', runJob cls D cfg U o true sh job = .ok ((mb, s'.log, logFrom D cfg 0 s'.log), sh') ∧
      Good cls D cfg (done ++ s'.log) sh' ∧ (cls = .dcmi → sh'.jht ≠ none) := by
  have hr : D.nrows ≠ 0 := hD.rows_pos.ne'
  cases cls with
  | unoptimized =>
    obtain ⟨s1, h1, h2⟩ := finish_of_sim (base := id) (Inv := fun _ b => UnoptOk D b)
      (s0 := { cache := sh.cache })
      (fun _ _ _ hc hs => unoptCall_ok (cfg := cfg) hr hc.2 hc.1 hs) hg rfl rfl hr (hc.call hD) ho
      (fun W => job.alg.discover W U job.target) (fun J h => sim_discover h hU hT job.alg) job.start e
      (fun b => { sh with cache := b.cache })
    exact ⟨_, h2, h1, fun h => by cases h⟩
  | adtree dyn =>
    have hstart : ∃ s0, startAd D dyn sh = .ok s0 ∧ AdOk D dyn s0 ∧ s0.base = { cache := sh.cache } := by
      unfold startAd
      cases ht : sh.tree with
      | some p =>
        obtain ⟨r, c⟩ := p
        exact ⟨_, rfl, ⟨hg.1, hg.2 r c ht⟩, rfl⟩
      | none =>
        obtain ⟨s, es, hs, -⟩ := newAdTest_ok hD dyn
        simp only [es]
        exact ⟨_, rfl, ⟨hg.1, hs.2⟩, rfl⟩
    obtain ⟨s0, e0, hs0, hb⟩ := hstart
    obtain ⟨s1, h1, h2⟩ := finish_of_sim (base := fun s : AdState => s.base)
      (Inv := fun _ s => AdOk D dyn s) (s0 := s0)
      (fun _ _ _ hc hs => adCall_ok (cfg := cfg) hD hc.1 hc.2 hs) hs0
      (by rw [hb]) (by rw [hb]) hr hc.ad ho
      (fun W => job.alg.discover W U job.target) (fun J h => sim_discover h hU hT job.alg) job.start e
      (fun s => { sh with cache := s.base.cache, tree := some (s.root, s.counters) })
    refine ⟨{ sh with cache := s1.base.cache, tree := some (s1.root, s1.counters) }, ?_, ?_,
      fun h => by cases h⟩
    · unfold runJob
      simp only [e0]
      exact h2
    · refine ⟨h1.1, ?_⟩
      intro r c h
      cases h
      exact h1.2
  | dcmi =>
    obtain ⟨hk, hor⟩ := hs
    have hor := hor job (by simp)
    have hstart : ∃ s0, startDc cfg sh = .ok s0 ∧
        DcOk D cfg.kind job.order (entropyRequests done) s0 ∧ s0.base = { cache := sh.cache } := by
      unfold startDc
      rw [if_neg hk]
      rcases hg with ⟨rfl, h1, h2⟩ | ⟨t, r, m, h1, h2, h3⟩
      · rw [h1, h2]
        exact ⟨_, rfl, DcOk.init D cfg.kind job.order, rfl⟩
      · rw [h1]
        simp only []
        rw [h2]
        exact ⟨_, rfl, h3 job.order hor, rfl⟩
    obtain ⟨s0, e0, hs0, hb⟩ := hstart
    obtain ⟨s1, h1, h2⟩ := finish_of_sim (base := fun s : DcState => s.base)
      (Inv := fun d s => DcOk D cfg.kind job.order (entropyRequests (done ++ d)) s) (s0 := s0)
      (valid := ValidCall D) (call := dcCall D cfg job.order)
      (fun d c s hc hs => by
        rw [← List.append_assoc, entropyRequests_append (done ++ d)]
        exact dcCall_ok hor hk hr hc.2 hc.1 hs)
      (by rw [List.append_nil]; exact hs0)
      (by rw [hb]) (by rw [hb]) hr (hc.call hD) ho
      (fun W => job.alg.discover W U job.target) (fun J h => sim_discover h hU hT job.alg) job.start e
      (endDc true sh)
    refine ⟨endDc true sh s1, ?_, ?_, ?_⟩
    · unfold runJob
      simp only [e0]
      exact h2
    · refine .inr ⟨_, _, _, rfl, rfl, fun order' ho' => ?_⟩
      have := DcOk.reorder hor ho' h1
      exact ⟨this.cache, this.reads, this.misses, this.known, this.entropy, this.dofs⟩
    · intro _ h
      cases h

/-! ## The series -/

theorem runSeries_good {cls : TestClass} {D : Data} {cfg : Config} (hD : Usable D) {U : List Nat}
    (hU : U.Nodup) (hc : GoodColumns D U) {o : List Nat → ι → List Nat × ι}
    (ho : ∀ l i, (o l i).1.Perm l) (jobs : List (Job ι)) (hT : ∀ job ∈ jobs, job.target ∈ U)
    (hs : cls.Supports cfg jobs) {done : List Query} {sh : Store} (hg : Good cls D cfg done sh) :
    ∃ outs sh', runSeries cls D cfg U o true sh jobs = .ok (outs, sh') ∧
      List.Forall₂ (fun job out => ∀ g : GTest, g.Supports cfg →
        runWith g job.alg D cfg U job.target o job.start = .ok out) jobs outs ∧
      Good cls D cfg (done ++ outs.flatMap (fun out => out.2.1)) sh' ∧
      (cls = .dcmi → jobs ≠ [] → sh'.jht ≠ none) := by
  induction jobs generalizing done sh with
  | nil => exact ⟨[], sh, rfl, .nil, by simpa using hg, fun _ h => absurd rfl h⟩
  | cons job jobs ih =>
    have hT1 := hT job List.mem_cons_self
    have hs1 : cls.Supports cfg [job] := by
      cases cls with
      | unoptimized => trivial
      | adtree dyn => trivial
      | dcmi => exact ⟨hs.1, fun j hj => by rw [List.mem_singleton.1 hj]; exact hs.2 job List.mem_cons_self⟩
    have hs2 : cls.Supports cfg jobs := by
      cases cls with
      | unoptimized => trivial
      | adtree dyn => trivial
      | dcmi => exact ⟨hs.1, fun j hj => hs.2 j (List.mem_cons_of_mem _ hj)⟩
    obtain ⟨mb, s', e, -, -⟩ := ideal_discover D cfg hU job.target ho job.start job.alg
    obtain ⟨sh1, e1, g1, j1⟩ := runJob_good hD hU hc ho hT1 hs1 hg e
    obtain ⟨outs, sh2, e2, f2, g2, j2⟩ :=
      ih (fun j hj => hT j (List.mem_cons_of_mem _ hj)) hs2 g1
    refine ⟨(mb, s'.log, logFrom D cfg 0 s'.log) :: outs, sh2, ?_, ?_, ?_, ?_⟩
    · rw [runSeries]
      rw [e1]
      show (runSeries cls D cfg U o true sh1 jobs >>= _) = _
      rw [e2]
      rfl
    · exact .cons (fun g hgs => runWith_ideal D cfg hD hU hc hT1 ho job.start job.alg e g hgs) f2
    · rw [List.flatMap_cons, ← List.append_assoc]
      exact g2
    · intro hcls _
      cases jobs with
      | nil =>
        have h2 : sh2 = sh1 := by
          have h := e2
          rw [runSeries] at h
          cases h
          rfl
        rw [h2]
        exact j1 hcls
      | cons job' jobs => exact j2 hcls (by simp)

/-- **C102.** Discoveries one after the other, each with a new test object that is given what the one
before has left (the AD-tree, expanded by its queries if it is dynamic; the joint entropies; the cached
degrees of freedom): all end without exception, and each returns the same Markov blanket, makes the
same tests and records the same results as it does alone, with a fresh test object of any supported
implementation. -/
theorem shared_series_same (cls : TestClass) (D : Data) (cfg : Config) (hD : Usable D) (U : List Nat)
    (hU : U.Nodup) (hc : GoodColumns D U) (o : List Nat → ι → List Nat × ι)
    (ho : ∀ l i, (o l i).1.Perm l) (jobs : List (Job ι)) (hT : ∀ job ∈ jobs, job.target ∈ U)
    (hs : cls.Supports cfg jobs) :
    ∃ outs sh, runSeries cls D cfg U o true {} jobs = .ok (outs, sh) ∧
      List.Forall₂ (fun job out => ∀ g : GTest, g.Supports cfg →
        runWith g job.alg D cfg U job.target o job.start = .ok out) jobs outs := by
  have hg : Good cls D cfg [] {} := by
    cases cls with
    | unoptimized => intro S vars pw h; simp [dictGet] at h
    | adtree dyn =>
      refine ⟨?_, fun r c h => by cases h⟩
      intro S vars pw h
      simp [dictGet] at h
    | dcmi => exact .inl ⟨rfl, rfl, rfl⟩
  obtain ⟨outs, sh, h1, h2, -, -⟩ := runSeries_good hD hU hc ho jobs hT hs hg
  exact ⟨outs, sh, h1, h2⟩

/-- **C102**, the cost with dcMI: the counters that the last of the discoveries leaves in the table
count the entropies requested by all of them, and the different ones among these: none is computed
twice in the whole series. -/
theorem shared_series_cost (D : Data) (cfg : Config) (hD : Usable D) (U : List Nat) (hU : U.Nodup)
    (hc : GoodColumns D U) (o : List Nat → ι → List Nat × ι) (ho : ∀ l i, (o l i).1.Perm l)
    (jobs : List (Job ι)) (hne : jobs ≠ []) (hT : ∀ job ∈ jobs, job.target ∈ U)
    (hk : cfg.kind ≠ .structural) (hor : ∀ job ∈ jobs, IsOrder job.order) :
    ∃ outs sh t, runSeries .dcmi D cfg U o true {} jobs = .ok (outs, sh) ∧ sh.jht = some t ∧
      t.counts = some ((entropyRequests (outs.flatMap (fun out => out.2.1))).length,
        (entropyRequests (outs.flatMap (fun out => out.2.1))).toFinset.card) ∧
      (∀ S, (dictGet t.table S).isSome ↔ S ∈ entropyRequests (outs.flatMap (fun out => out.2.1))) ∧
      ∀ cols H, dictGet t.table cols.toFinset = some H → H = entropy D cols := by
  obtain ⟨outs, sh, h1, -, h3, h4⟩ := runSeries_good (cls := .dcmi) (cfg := cfg) hD hU hc ho jobs hT
    ⟨hk, hor⟩ (done := []) (sh := {}) (.inl ⟨rfl, rfl, rfl⟩)
  rcases h3 with ⟨-, h, -⟩ | ⟨t, r, m, e1, e2, e3⟩
  · exact absurd h (h4 rfl hne)
  · obtain ⟨job, hj⟩ := List.exists_mem_of_ne_nil jobs hne
    have ho1 := hor job hj
    have hd := e3 job.order ho1
    have hr := hd.reads
    have hm := hd.misses
    rw [List.nil_append] at hr hm
    refine ⟨outs, sh, t, h1, e1, ?_, ?_, ?_⟩
    · rw [e2, ← hr, ← hm]
    · have := hd.known
      rw [List.nil_append] at this
      exact this
    · intro cols H hH
      rw [hd.entropy _ H hH]
      exact entropy_perm D (fun c => by rw [ho1.mem, List.mem_toFinset])

/-- Finding: without a path to save the entropies to, the preloaded table has no counters, and the
second discovery raises `KeyError` when its test object is constructed. -/
theorem shared_jht_needs_save_path (D : Data) (cfg : Config) (hD : Usable D) (U : List Nat)
    (hU : U.Nodup) (hc : GoodColumns D U) (o : List Nat → ι → List Nat × ι)
    (ho : ∀ l i, (o l i).1.Perm l) (job job' : Job ι) (jobs : List (Job ι)) (hT : job.target ∈ U)
    (hk : cfg.kind ≠ .structural) (hor : IsOrder job.order) :
    (∃ out, runSeries .dcmi D cfg U o false {} [job] = .ok out) ∧
      runSeries .dcmi D cfg U o false {} (job :: job' :: jobs) = .error .keyError := by
  have hr : D.nrows ≠ 0 := hD.rows_pos.ne'
  obtain ⟨mb, s', e, -, -⟩ := ideal_discover D cfg hU job.target ho job.start job.alg
  obtain ⟨s1, h1, h2⟩ := finish_of_sim (base := fun s : DcState => s.base)
    (Inv := fun d s => DcOk D cfg.kind job.order (entropyRequests d) s) (s0 := {})
    (valid := ValidCall D) (call := dcCall D cfg job.order)
    (fun d c s hc hs => by
      rw [entropyRequests_append]
      exact dcCall_ok hor hk hr hc.2 hc.1 hs)
    (DcOk.init D cfg.kind job.order) rfl rfl hr (hc.call hD) ho
    (fun W => job.alg.discover W U job.target) (fun J h => sim_discover h hU hT job.alg) job.start e
    (endDc false {})
  have e1 : runJob .dcmi D cfg U o false {} job =
      .ok ((mb, s'.log, logFrom D cfg 0 s'.log), endDc false {} s1) := by
    unfold runJob
    have e0 : startDc cfg {} = .ok {} := by unfold startDc; rw [if_neg hk]
    simp only [e0]
    exact h2
  have e2 : runJob .dcmi D cfg U o false (endDc false {} s1) job' = .error .keyError := by
    unfold runJob
    have e0 : startDc cfg (endDc false {} s1) = .error .keyError := by
      unfold startDc; rw [if_neg hk]; rfl
    simp only [e0]
    rfl
  refine ⟨⟨([(mb, s'.log, logFrom D cfg 0 s'.log)], endDc false {} s1), ?_⟩, ?_⟩
  · rw [runSeries, e1]; rfl
  · rw [runSeries, e1]
    show (runSeries .dcmi D cfg U o false (endDc false {} s1) (job' :: jobs) >>= _) = _
    rw [runSeries, e2]
    rfl

/-- The hypotheses are met by a series over all columns of the example dataset, with both
algorithms. -/
example : Usable Mbtk.ADTree.exampleData ∧ [0, 1, 2].Nodup ∧
    GoodColumns Mbtk.ADTree.exampleData [0, 1, 2] ∧
    (∀ job ∈ ([0, 1, 2, 1] : List Nat).map (fun T =>
      (⟨if T = 1 then .iamb else .ipcmb false, T, fun S => S.sort, ()⟩ : Job Unit)),
      job.target ∈ [0, 1, 2] ∧ IsOrder job.order) := by
  refine ⟨Mbtk.ADTree.exampleData_usable, by decide, by unfold GoodColumns; decide, ?_⟩
  intro job hj
  obtain ⟨T, hT, rfl⟩ := List.mem_map.1 hj
  refine ⟨?_, fun S => ⟨Finset.sort_nodup S (fun a b => a ≤ b),
    Finset.sort_toFinset S (fun a b => a ≤ b)⟩⟩
  show T ∈ [0, 1, 2]
  clear hj
  revert T
  decide

end Mbtk.MB.Shared
