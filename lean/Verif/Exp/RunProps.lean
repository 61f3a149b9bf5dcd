import Verif.Exp.Run
/-!
# Experiment runs: locked experiments, completed prefixes, crashes and reruns (C44, C57)
-/
namespace Mbtk.Exp
open Mbtk Mbtk.Dataset Spec

/-! ## Lemmas about crashes -/

theorem partial_touches {a b : Action} (h : Partial a b) {p : Path} (ht : Touches b p) : Touches a p := by
  cases a <;> cases b <;> simp only [Partial] at h
  · simp [Touches] at ht
  · obtain ⟨rfl, _⟩ := h
    rcases ht with ht | ⟨c, ht⟩
    · simp at ht
    · simp only [Action.write.injEq] at ht
      exact .inr ⟨_, by rw [ht.1]⟩

theorem partial_short {a b : Action} (h : Partial a b) {n : Nat} (hs : Short n a) : Short n b := by
  cases a <;> cases b <;> simp only [Partial] at h
  · intro q hq
    simp only [Action.mkdir.injEq] at hq
    subst hq
    exact h.length_le.trans (hs _ rfl)
  · intro q hq; simp at hq

theorem crash_other {fs fs' : Fs} {as : List Action} (h : CrashState fs as fs') {p : Path} {n : Nat}
    (ht : ∀ a ∈ as, ¬ Touches a p) (hs : ∀ a ∈ as, Short n a) (hn : n < p.length) :
    dictGet fs' p = dictGet fs p := by
  rcases h with ⟨done, rest, rfl, rfl⟩ | ⟨done, a, b, rest, rfl, hp, rfl⟩
  · exact exec_other (fun a ha => ht a (by simp [ha])) (fun a ha => hs a (by simp [ha])) hn
  · refine exec_other (n := n) ?_ ?_ hn
    · intro c hc
      rcases List.mem_append.1 hc with hc | hc
      · exact ht c (by simp [hc])
      · simp only [List.mem_singleton] at hc
        subst hc
        exact fun h => ht a (by simp) (partial_touches hp h)
    · intro c hc
      rcases List.mem_append.1 hc with hc | hc
      · exact hs c (by simp [hc])
      · simp only [List.mem_singleton] at hc
        subst hc
        exact partial_short hp (hs a (by simp))

/-- A crash happens in the first part of a sequence or in the second one. -/
theorem crash_append {fs fs' : Fs} {as bs : List Action} (h : CrashState fs (as ++ bs) fs') :
    CrashState fs as fs' ∨ CrashState (exec fs as) bs fs' := by
  rcases h with ⟨done, rest, h, rfl⟩ | ⟨done, a, b, rest, h, hp, rfl⟩
  · rcases List.append_eq_append_iff.1 h with ⟨m, rfl, rfl⟩ | ⟨m, rfl, rfl⟩
    · exact .inr (.inl ⟨m, rest, rfl, exec_append _ _ _⟩)
    · exact .inl (.inl ⟨done, m, rfl, rfl⟩)
  · rcases List.append_eq_append_iff.1 h with ⟨m, rfl, rfl⟩ | ⟨m, rfl, hm⟩
    · exact .inr (.inr ⟨m, a, b, rest, rfl, hp, by rw [List.append_assoc, exec_append]⟩)
    · cases m with
      | nil =>
        rw [List.nil_append] at hm
        refine .inr (.inr ⟨[], a, b, rest, hm.symm, hp, ?_⟩)
        rw [List.append_nil, exec_append]; rfl
      | cons c m =>
        rw [List.cons_append] at hm
        obtain ⟨rfl, rfl⟩ := List.cons.inj hm
        exact .inl (.inr ⟨done, a, b, m, rfl, hp, rfl⟩)

theorem mkdirsFrom_new (fs : Fs) (done rest p : Path) (h : dictGet fs p = none ∨ dictGet fs p = some .dir) :
    dictGet (mkdirsFrom fs done rest) p = none ∨ dictGet (mkdirsFrom fs done rest) p = some .dir := by
  induction rest generalizing fs done with
  | nil => exact h
  | cons c cs ih =>
    unfold mkdirsFrom
    apply ih
    split
    · exact h
    · rw [dictGet_dictSet]
      split
      · exact .inr rfl
      · exact h

/-- The actions before the lock is set do not touch the lock file. -/
theorem body_touches {cfg : Config} {beh : Params → Behaviour} {runs : List Params} {a : Action}
    (ha : a ∈ startActions cfg ++ folderActions cfg ++ (loop cfg beh runs).1) :
    ¬ Touches a cfg.lockFile ∧ (∀ id, ¬ Writes runs id → ¬ Touches a (cfg.datapointFile id)) ∧
    Short (cfg.path.length + 2) a := by
  rcases List.mem_append.1 ha with ha | ha
  · exact ⟨start_touches ha _, fun id _ => start_touches ha _, start_short ha⟩
  · refine ⟨fun ht => ?_, fun id hid ht => ?_, loop_short ha⟩
    · rcases loop_touches ha ht with ⟨i, h⟩ | ⟨i, _, h⟩
      · exact logFile_ne_lockFile cfg i h.symm
      · exact datapointFile_ne_lockFile cfg i h.symm
    · rcases loop_touches ha ht with ⟨i, h⟩ | ⟨i, hi, h⟩
      · exact datapointFile_ne_logFile cfg id i h
      · exact hid (datapointFile_inj h ▸ hi)

theorem end_touches {cfg : Config} {a : Action} (ha : a ∈ endActions cfg) :
    (∀ id, ¬ Touches a (cfg.datapointFile id)) ∧ Short (cfg.path.length + 2) a := by
  unfold endActions at ha
  split at ha
  · simp only [List.mem_cons, List.not_mem_nil, or_false] at ha
    rcases ha with rfl | rfl | rfl
    · refine ⟨fun id => by simp [Touches], fun q hq => ?_⟩
      simp at hq; subst hq; simp [Config.definition, Def.lockDir]
    · refine ⟨fun id h => ?_, fun q hq => by simp at hq⟩
      simp [Touches] at h; exact datapointFile_ne_lockFile cfg id h.symm
    · refine ⟨fun id h => ?_, fun q hq => by simp at hq⟩
      simp [Touches] at h; exact datapointFile_ne_lockFile cfg id h.symm
  · simp at ha

theorem locked_end (cfg : Config) (fs : Fs) (h : ¬ Locked cfg fs) :
    Locked cfg (exec fs (endActions cfg)) ↔ cfg.autoLock = true := by
  unfold endActions
  by_cases ha : cfg.autoLock = true
  · rw [if_pos ha]
    refine ⟨fun _ => ha, fun _ => ?_⟩
    show (dictGet (dictSet _ cfg.lockFile _) cfg.lockFile).isSome = true
    rw [dictGet_dictSet, if_pos rfl]
    rfl
  · rw [if_neg ha]
    exact ⟨fun h' => absurd h' h, fun h' => absurd h' ha⟩

theorem locked_congr {cfg : Config} {fs fs' : Fs} (h : dictGet fs' cfg.lockFile = dictGet fs cfg.lockFile) :
    Locked cfg fs' ↔ Locked cfg fs := by
  unfold Locked Held exists'
  rw [show cfg.definition.lockFile "experiment".toList = cfg.lockFile from rfl, h]

theorem program_unlocked {cfg : Config} {fs : Fs} (h : ¬ Locked cfg fs) (prep : Option Err)
    (beh : Params → Behaviour) (runs : List Params) :
    program cfg prep beh runs fs = match prep with
    | some e => (startActions cfg ++ folderActions cfg, [], some e)
    | none => match (loop cfg beh runs).2.2 with
      | some e => (startActions cfg ++ folderActions cfg ++ (loop cfg beh runs).1,
          (loop cfg beh runs).2.1, some e)
      | none => (startActions cfg ++ folderActions cfg ++ (loop cfg beh runs).1 ++ endActions cfg,
          (loop cfg beh runs).2.1, none) := by
  unfold program
  rw [if_neg (fun h' => h ((exists_start cfg fs).1 h'))]
  cases prep <;> rfl

theorem exec_body (cfg : Config) (beh : Params → Behaviour) (runs : List Params) (fs : Fs) :
    (∀ id, ¬ Writes runs id → datapoint cfg
      (exec fs (startActions cfg ++ folderActions cfg ++ (loop cfg beh runs).1)) id = datapoint cfg fs id) ∧
    (Locked cfg (exec fs (startActions cfg ++ folderActions cfg ++ (loop cfg beh runs).1)) ↔ Locked cfg fs) := by
  refine ⟨fun id hid => ?_, locked_congr ?_⟩
  · exact exec_other (n := cfg.path.length + 2) (fun a ha => (body_touches ha).2.1 id hid)
      (fun a ha => (body_touches ha).2.2) (by rw [length_datapointFile]; omega)
  · exact exec_other (n := cfg.path.length + 2) (fun a ha => (body_touches ha).1)
      (fun a ha => (body_touches ha).2.2) (by rw [length_lockFile]; omega)

theorem exec_end_datapoint (cfg : Config) (fs : Fs) (id : Str) :
    datapoint cfg (exec fs (endActions cfg)) id = datapoint cfg fs id :=
  exec_other (n := cfg.path.length + 2) (fun _ ha => (end_touches ha).1 id)
    (fun _ ha => (end_touches ha).2) (by rw [length_datapointFile]; omega)

/-! ## C44 -/

/-- **C44.**  `run` of a locked experiment raises, runs nothing, changes no file and no folder that
exists and makes no file (only the folder of the experiment and that of its locks). -/
theorem run_locked_refused (cfg : Config) (prep : Option Err) (beh : Params → Behaviour)
    (runs : List Params) (fs : Fs) (h : Locked cfg fs) :
    (program cfg prep beh runs fs).2 = ([], some (.custom "ExperimentFolderLockedException")) ∧
    (∀ p x, dictGet fs p = some x → dictGet (afterRun cfg prep beh runs fs) p = some x) ∧
    (∀ p, dictGet fs p = none → dictGet (afterRun cfg prep beh runs fs) p = none ∨
      dictGet (afterRun cfg prep beh runs fs) p = some .dir) := by
  have hp : program cfg prep beh runs fs = (startActions cfg, [], some folderLocked) := by
    unfold program
    rw [if_pos ((exists_start cfg fs).2 h)]
  unfold afterRun
  rw [hp]
  refine ⟨rfl, fun p x hx => ?_, fun p hx => ?_⟩
  · exact exec_keeps (fun a ha => start_touches (List.mem_append.2 (.inl ha)) p) hx
  · exact mkdirsFrom_new _ _ _ _ (mkdirsFrom_new _ _ _ _ (.inl hx))

/-- **C44.**  A run of an unlocked experiment in which nothing raises runs exactly the parameters
that are not to be skipped, in order; afterwards the data point of every ID is that of its last
run (data points of other IDs stay as they were), and the experiment is locked if it is to be. -/
theorem run_success (cfg : Config) (beh : Params → Behaviour) (runs : List Params) (fs : Fs)
    (h : ¬ Locked cfg fs) (hc : ∀ p ∈ runs, p.skip = false → Completes cfg (beh p)) :
    (program cfg none beh runs fs).2 = (runs.filter (fun p => !p.skip), none) ∧
    (Locked cfg (afterRun cfg none beh runs fs) ↔ cfg.autoLock = true) ∧
    (cfg.saveDatapoints = true → ∀ id, datapoint cfg (afterRun cfg none beh runs fs) id =
      ((lastResult beh runs id).map Entry.file).or (datapoint cfg fs id)) := by
  have hl := loop_done cfg beh runs hc
  have hp := program_unlocked h none beh runs
  rw [hl.1] at hp
  simp only [] at hp
  unfold afterRun
  rw [hp, exec_append]
  refine ⟨by rw [hl.2.1], ?_, fun hsv id => ?_⟩
  · exact locked_end cfg _ (fun h' => h ((exec_body cfg beh runs fs).2.1 h'))
  · rw [exec_end_datapoint, exec_append, hl.2.2 hsv]
    congr 1
    exact exec_start fs _ (List.prefix_refl _) _ (by rw [length_datapointFile]; omega)

/-- **C44.**  With different IDs, each run's own data point is there. -/
theorem run_success_datapoints (cfg : Config) (beh : Params → Behaviour) (runs : List Params) (fs : Fs)
    (h : ¬ Locked cfg fs) (hc : ∀ p ∈ runs, p.skip = false → Completes cfg (beh p))
    (hsv : cfg.saveDatapoints = true) (hid : (runs.map Params.id).Nodup) (p : Params) (hp : p ∈ runs)
    (hs : p.skip = false) :
    datapoint cfg (afterRun cfg none beh runs fs) p.id = some (.file (beh p).bytes) := by
  rw [(run_success cfg beh runs fs h hc).2.2 hsv]
  have : lastResult beh runs p.id = some (beh p).bytes := by
    unfold lastResult
    have hf : runs.filter (fun q => !q.skip && decide (q.id = p.id)) = [p] := by
      have hnd : (runs.filter (fun q => !q.skip && decide (q.id = p.id))).Nodup :=
        (List.Nodup.of_map _ hid).filter _
      have hmem : ∀ q, q ∈ runs.filter (fun q => !q.skip && decide (q.id = p.id)) ↔ q ∈ [p] := by
        intro q
        rw [List.mem_filter]
        simp only [Bool.and_eq_true, Bool.not_eq_true', decide_eq_true_eq, List.mem_singleton]
        constructor
        · rintro ⟨hq, _, e⟩
          exact List.inj_on_of_nodup_map hid hq hp e
        · rintro rfl; exact ⟨hp, hs, rfl⟩
      exact List.perm_singleton.1 ((List.perm_ext_iff_of_nodup hnd (by simp)).2 hmem)
    rw [hf]; rfl
  rw [this]; rfl

/-- **C44.**  If a run raises, the exception ends the experiment: exactly the earlier runs (and this
one) were run, their data points are saved, no data point of a later run is written, and the
experiment is not locked. -/
theorem run_failure (cfg : Config) (beh : Params → Behaviour) (pre : List Params) (p : Params)
    (post : List Params) (fs : Fs) (h : ¬ Locked cfg fs)
    (hc : ∀ q ∈ pre, q.skip = false → Completes cfg (beh q)) (hp : p.skip = false) (e : Err)
    (he : firstError cfg (beh p) = some e) :
    (program cfg none beh (pre ++ p :: post) fs).2 =
      (pre.filter (fun q => !q.skip) ++ (if (beh p).ctor = none then [p] else []), some e) ∧
    ¬ Locked cfg (afterRun cfg none beh (pre ++ p :: post) fs) ∧
    (cfg.saveDatapoints = true → ∀ id, id ≠ p.id →
      datapoint cfg (afterRun cfg none beh (pre ++ p :: post) fs) id =
        ((lastResult beh pre id).map Entry.file).or (datapoint cfg fs id)) := by
  have hl := loop_done cfg beh pre hc
  have hla := loop_append cfg beh pre p post hc hp e he
  have hpr := program_unlocked h none beh (pre ++ p :: post)
  rw [hla] at hpr
  simp only [] at hpr
  unfold afterRun
  rw [hpr]
  refine ⟨by rw [hl.2.1, runAlgorithm_executed], ?_, fun hsv id hid => ?_⟩
  · have := (exec_body cfg beh (pre ++ p :: post) fs).2
    rw [hla] at this
    exact fun h' => h (this.1 h')
  · rw [← List.append_assoc, exec_append]
    have e1 : ∀ fs1, datapoint cfg (exec fs1 (runAlgorithm cfg p (beh p)).1) id = datapoint cfg fs1 id := by
      intro fs1
      refine exec_other (n := cfg.path.length + 2) ?_ (fun a ha => runAlgorithm_short ha)
        (by rw [length_datapointFile]; omega)
      intro a ha ht
      rcases runAlgorithm_touches ha ht with h | h
      · exact datapointFile_ne_logFile cfg _ _ h
      · exact hid (datapointFile_inj h)
    rw [e1, exec_append, hl.2.2 hsv]
    congr 1
    exact exec_start fs _ (List.prefix_refl _) _ (by rw [length_datapointFile]; omega)

/-- **C44.**  A failing `prepare_exds`: nothing is run, no data point is written, no lock set. -/
theorem run_prep_failure (cfg : Config) (beh : Params → Behaviour) (runs : List Params) (fs : Fs)
    (h : ¬ Locked cfg fs) (e : Err) :
    (program cfg (some e) beh runs fs).2 = ([], some e) ∧
    ¬ Locked cfg (afterRun cfg (some e) beh runs fs) ∧
    ∀ id, datapoint cfg (afterRun cfg (some e) beh runs fs) id = datapoint cfg fs id := by
  have hpr := program_unlocked h (some e) beh runs
  simp only [] at hpr
  unfold afterRun
  rw [hpr]
  refine ⟨rfl, fun h' => h ((locked_congr ?_).1 h'), fun id => ?_⟩
  · exact exec_start fs _ (List.prefix_refl _) _ (by rw [length_lockFile]; omega)
  · exact exec_start fs _ (List.prefix_refl _) _ (by rw [length_datapointFile]; omega)

/-! ## Crashes (C44, C57) -/

/-- **C44, every crash point.**  If the process dies at any point of a run of an unlocked experiment
and leaves it locked, then nothing raised and all data points are those of the complete run. -/
theorem crash_locked_complete (cfg : Config) (prep : Option Err) (beh : Params → Behaviour)
    (runs : List Params) (fs fs' : Fs) (h : ¬ Locked cfg fs)
    (hcr : CrashState fs (program cfg prep beh runs fs).1 fs') (hl : Locked cfg fs') :
    (program cfg prep beh runs fs).2.2 = none ∧
    ∀ id, datapoint cfg fs' id = datapoint cfg (afterRun cfg prep beh runs fs) id := by
  have hno : ∀ as, as <+: startActions cfg ++ folderActions cfg ++ (loop cfg beh runs).1 →
      CrashState fs as fs' → False := by
    intro as hsub hcr
    refine h ((locked_congr ?_).1 hl)
    exact crash_other hcr (n := cfg.path.length + 2) (fun a ha => (body_touches (hsub.subset ha)).1)
      (fun a ha => (body_touches (hsub.subset ha)).2.2) (by rw [length_lockFile]; omega)
  unfold afterRun
  rw [program_unlocked h prep beh runs] at hcr ⊢
  cases prep with
  | some e => exact (hno _ ⟨_, rfl⟩ hcr).elim
  | none =>
    simp only [] at hcr ⊢
    cases hlo : (loop cfg beh runs).2.2 with
    | some e =>
      rw [hlo] at hcr
      exact (hno _ (List.prefix_refl _) hcr).elim
    | none =>
      rw [hlo] at hcr
      simp only [] at hcr ⊢
      refine ⟨trivial, fun id => ?_⟩
      rcases crash_append hcr with hcr | hcr
      · exact (hno _ (List.prefix_refl _) hcr).elim
      · rw [exec_append, exec_end_datapoint]
        exact crash_other hcr (n := cfg.path.length + 2) (fun _ ha => (end_touches ha).1 id)
          (fun _ ha => (end_touches ha).2) (by rw [length_datapointFile]; omega)

/-- A crashed run writes no data point except those of the runs that are not skipped. -/
theorem crash_foreign_datapoints (cfg : Config) (prep : Option Err) (beh : Params → Behaviour)
    (runs : List Params) (fs fs' : Fs) (hcr : CrashState fs (program cfg prep beh runs fs).1 fs')
    (id : Str) (hid : ¬ Writes runs id) : datapoint cfg fs' id = datapoint cfg fs id := by
  refine crash_other hcr (n := cfg.path.length + 2) ?_ ?_ (by rw [length_datapointFile]; omega)
  all_goals
    intro a ha
    have hb : a ∈ startActions cfg ++ folderActions cfg ++ (loop cfg beh runs).1 ∨ a ∈ endActions cfg := by
      unfold program at ha
      split at ha
      · left; simp only [List.mem_append]; exact .inl (.inl ha)
      · split at ha
        · left; exact List.mem_append.2 (.inl ha)
        · split at ha
          · exact .inl ha
          · exact List.mem_append.1 ha
  · rcases hb with hb | hb
    · exact (body_touches hb).2.1 id hid
    · exact (end_touches hb).1 id
  · rcases hb with hb | hb
    · exact (body_touches hb).2.2
    · exact (end_touches hb).2

/-- The disks that can be reached by any number of interrupted attempts to run the experiment
(also attempts ended by an exception, or by algorithms that behave differently).
ExperimentRun.py 22-105, interrupted several times. -/
inductive Attempts (cfg : Config) (runs : List Params) : Fs → Fs → Prop
  | none (fs : Fs) : Attempts cfg runs fs fs
  | more (fs fs' fs'' : Fs) (prep : Option Err) (beh : Params → Behaviour) :
      Attempts cfg runs fs fs' → CrashState fs' (program cfg prep beh runs fs').1 fs'' →
      Attempts cfg runs fs fs''

/-- **C57.**  After any number of attempts that crashed at any point without leaving the experiment
locked, running the experiment again succeeds and leaves exactly the data points of a run that
was never interrupted. -/
theorem rerun_after_crashes (cfg : Config) (beh : Params → Behaviour) (runs : List Params) (fs fs' : Fs)
    (ha : Attempts cfg runs fs fs') (h : ¬ Locked cfg fs) (h' : ¬ Locked cfg fs')
    (hc : ∀ p ∈ runs, p.skip = false → Completes cfg (beh p)) (hsv : cfg.saveDatapoints = true) :
    (program cfg none beh runs fs').2 = (program cfg none beh runs fs).2 ∧
    ∀ id, datapoint cfg (afterRun cfg none beh runs fs') id =
      datapoint cfg (afterRun cfg none beh runs fs) id := by
  have h1 := run_success cfg beh runs fs h hc
  have h2 := run_success cfg beh runs fs' h' hc
  refine ⟨by rw [h1.1, h2.1], fun id => ?_⟩
  rw [h1.2.2 hsv, h2.2.2 hsv]
  cases hr : lastResult beh runs id with
  | some b => rfl
  | none =>
    have hid := (lastResult_none_iff beh runs id).1 hr
    show datapoint cfg fs' id = datapoint cfg fs id
    clear h1 h2 h h' hr
    induction ha with
    | none => rfl
    | more fs' fs'' prep beh' _ hcr ih =>
      rw [crash_foreign_datapoints cfg prep beh' runs _ _ hcr id hid, ih]

/-! ## Findings -/

/-- **Finding.**  If `pickle.dump` raises, the experiment is not locked, but the data point file
exists with the bytes written so far (an earlier complete data point with that ID is lost). -/
theorem pickle_failure_leaves_part (cfg : Config) (beh : Params → Behaviour) (p : Params) (fs : Fs)
    (hsv : cfg.saveDatapoints = true) (e : Err) (hs : p.skip = false) (h : ¬ Locked cfg fs)
    (hb : (beh p).ctor = none ∧ (beh p).run = none ∧ (beh p).datapoint = none ∧ (beh p).pickle = some e) :
    (program cfg none beh [p] fs).2.2 = some e ∧
    datapoint cfg (afterRun cfg none beh [p] fs) p.id = some (.file (beh p).bytes) := by
  obtain ⟨h1, h2, h3, h4⟩ := hb
  have he : firstError cfg (beh p) = some e := by simp [firstError, h1, h2, h3, h4, hsv]
  have hla := loop_append cfg beh [] p [] (by simp) hs e he
  have hpr := program_unlocked h none beh [p]
  rw [List.nil_append] at hla
  rw [hla] at hpr
  simp only [] at hpr
  unfold afterRun
  rw [hpr]
  refine ⟨rfl, ?_⟩
  unfold runAlgorithm saveActions
  rw [h1, h2, h3]
  simp only [hsv, if_true]
  have e2 : startActions cfg ++ folderActions cfg ++ ((loop cfg beh []).1 ++ (logActions cfg p.id (beh p).log ++
      [Action.mkdir cfg.datapointDir, .create (cfg.datapointFile p.id),
        .write (cfg.datapointFile p.id) (beh p).bytes])) =
      (startActions cfg ++ folderActions cfg ++ (loop cfg beh []).1 ++ logActions cfg p.id (beh p).log ++
      [Action.mkdir cfg.datapointDir, .create (cfg.datapointFile p.id)]) ++
        [.write (cfg.datapointFile p.id) (beh p).bytes] := by simp
  rw [e2, exec_append]
  show dictGet (dictSet _ _ _) _ = _
  rw [dictGet_dictSet, if_pos rfl]

/-- **Finding.**  `run` looks only for the lock of type `experiment`: an experiment locked with any
other type (`exp lock --type t`) is run, and its data points are overwritten. -/
theorem other_lock_types_do_not_protect (cfg : Config) (beh : Params → Behaviour) (runs : List Params)
    (fs : Fs) (t : Str) (_ht : Held fs cfg.definition t) (h : ¬ Locked cfg fs)
    (hc : ∀ p ∈ runs, p.skip = false → Completes cfg (beh p)) :
    (program cfg none beh runs fs).2 = (runs.filter (fun p => !p.skip), none) :=
  (run_success cfg beh runs fs h hc).1

/-- **Finding.**  A run of a part of the parameters (`exp run --index i`) locks the experiment as a
whole: the other part is then refused. -/
theorem partial_run_locks_experiment (cfg : Config) (beh : Params → Behaviour) (part rest : List Params)
    (fs : Fs) (ha : cfg.autoLock = true) (h : ¬ Locked cfg fs)
    (hc : ∀ p ∈ part, p.skip = false → Completes cfg (beh p)) :
    (program cfg none beh rest (afterRun cfg none beh part fs)).2 = ([], some folderLocked) :=
  (run_locked_refused cfg none beh rest _ ((run_success cfg beh part fs h hc).2.1.2 ha)).1

theorem exec_new {fs : Fs} {as : List Action} {p : Path} (ht : ∀ a ∈ as, ¬ Touches a p)
    (h : dictGet fs p = none ∨ dictGet fs p = some .dir) :
    dictGet (exec fs as) p = none ∨ dictGet (exec fs as) p = some .dir := by
  induction as generalizing fs with
  | nil => exact h
  | cons a as ih =>
    refine ih (fs := a.apply fs) (fun b hb => ht b (by simp [hb])) ?_
    have hh := ht a (by simp)
    cases a with
    | mkdir q => exact mkdirsFrom_new fs [] q p h
    | create q =>
      show dictGet (dictSet _ _ _) _ = _ ∨ dictGet (dictSet _ _ _) _ = _
      rw [dictGet_dictSet, if_neg]
      · exact h
      · rintro rfl; exact hh (.inl rfl)
    | write q c =>
      show dictGet (dictSet _ _ _) _ = _ ∨ dictGet (dictSet _ _ _) _ = _
      rw [dictGet_dictSet, if_neg]
      · exact h
      · rintro rfl; exact hh (.inr ⟨c, rfl⟩)

/-- The files that a run may write, letter for letter: the logs and the data points of the runs that are not
skipped, and the lock. (Specification.) -/
def FileOfRun (cfg : Config) (runs : List Params) (q : Path) : Prop :=
  (∃ p ∈ runs, p.skip = false ∧
    q = cfg.path ++ ["algorithm_run_logs".toList, cfg.sub, p.id ++ ".log".toList]) ∨
  (∃ p ∈ runs, p.skip = false ∧
    q = cfg.path ++ ["algorithm_run_datapoints".toList, cfg.sub, p.id ++ ".pickle".toList]) ∨
  q = cfg.path ++ ["locks".toList, cfg.sub, "locked_experiment".toList]

theorem program_touches {cfg : Config} {prep : Option Err} {beh : Params → Behaviour} {runs : List Params}
    {fs : Fs} {a : Action} (ha : a ∈ (program cfg prep beh runs fs).1) {q : Path} (ht : Touches a q) :
    FileOfRun cfg runs q := by
  have hloop : a ∈ (loop cfg beh runs).1 → FileOfRun cfg runs q := by
    intro h
    obtain ⟨p, hp, hs, h⟩ := loop_mem h
    rcases runAlgorithm_touches h ht with h | h
    · exact .inl ⟨p, hp, hs, by rw [h]; simp [Config.logFilePath, Config.logDir]⟩
    · exact .inr (.inl ⟨p, hp, hs, by rw [h]; simp [Config.datapointFile, Config.datapointDir]⟩)
  have hstart : a ∉ startActions cfg ++ folderActions cfg := fun h => start_touches h q ht
  have hend : a ∈ endActions cfg → FileOfRun cfg runs q := by
    intro h
    refine .inr (.inr ?_)
    have hl : cfg.lockFile = cfg.path ++ ["locks".toList, cfg.sub, "locked_experiment".toList] := by
      show (cfg.path ++ ["locks".toList, cfg.sub]) ++ ["locked_experiment".toList] = _
      simp only [List.append_assoc, List.cons_append, List.nil_append]
    rw [← hl]
    unfold endActions at h
    split at h
    · simp only [List.mem_cons, List.not_mem_nil, or_false] at h
      rcases h with rfl | rfl | rfl <;> simp [Touches] at ht <;> exact ht.symm
    · simp at h
  unfold program at ha
  split at ha
  · exact absurd (List.mem_append_left _ ha) hstart
  · split at ha
    · exact absurd ha hstart
    · split at ha
      · rcases List.mem_append.1 ha with h | h
        · exact absurd h hstart
        · exact hloop h
      · rcases List.mem_append.1 ha with h | h
        · rcases List.mem_append.1 h with h | h
          · exact absurd h hstart
          · exact hloop h
        · exact hend h

/-- A run, however it ends, changes no file but its own: what was anywhere else on the disk is still there,
and what is new elsewhere is folders. -/
theorem run_changes_own_files_only (cfg : Config) (prep : Option Err) (beh : Params → Behaviour)
    (runs : List Params) (fs : Fs) (q : Path) (hq : ¬ FileOfRun cfg runs q) :
    (∀ x, dictGet fs q = some x → dictGet (afterRun cfg prep beh runs fs) q = some x) ∧
    (∀ c, dictGet (afterRun cfg prep beh runs fs) q = some (.file c) → dictGet fs q = some (.file c)) := by
  have ht : ∀ a ∈ (program cfg prep beh runs fs).1, ¬ Touches a q :=
    fun a ha h => hq (program_touches ha h)
  refine ⟨fun x hx => exec_keeps ht hx, fun c hc => ?_⟩
  cases h : dictGet fs q with
  | none =>
    rcases exec_new ht (.inl h) with h' | h' <;>
      rw [show afterRun cfg prep beh runs fs = exec fs (program cfg prep beh runs fs).1 from rfl, h'] at hc <;>
      cases hc
  | some x =>
    have := exec_keeps ht h
    rw [show afterRun cfg prep beh runs fs = exec fs (program cfg prep beh runs fs).1 from rfl, this] at hc
    exact hc

/-! ## Concrete cases -/

/-- (Example.) -/
def exCfg : Config := ⟨["exp".toList, "e1".toList], "main".toList, true, true, true⟩
/-- (Example.) -/
def exRuns : List Params := [⟨"a".toList, false⟩, ⟨"b".toList, true⟩, ⟨"c".toList, false⟩]
/-- (Example.) -/
def exGood : Params → Behaviour := fun p => ⟨none, "log".toList, none, none, p.id ++ "-result".toList, none⟩
/-- Run `c` raises. (Example.) -/
def exBad : Params → Behaviour := fun p =>
  ⟨none, "log".toList, if p.id = "c".toList then some .keyError else none, none, p.id, none⟩

example : ¬ Locked exCfg [] := by unfold Locked Held; decide +kernel
example : ∀ p ∈ exRuns, p.skip = false → Completes exCfg (exGood p) := by
  unfold Completes; decide +kernel
example : (program exCfg none exGood exRuns []).2.2 = none ∧
    datapoint exCfg (afterRun exCfg none exGood exRuns []) "c".toList = some (.file "c-result".toList) ∧
    datapoint exCfg (afterRun exCfg none exGood exRuns []) "b".toList = none ∧
    exists' (afterRun exCfg none exGood exRuns []) exCfg.lockFile = true ∧
    (program exCfg none exGood exRuns (afterRun exCfg none exGood exRuns [])).2 = ([], some folderLocked) := by
  decide +kernel
example : firstError exCfg (exBad ⟨"c".toList, false⟩) = some .keyError ∧
    (program exCfg none exBad exRuns []).2 = ([⟨"a".toList, false⟩, ⟨"c".toList, false⟩], some .keyError) ∧
    datapoint exCfg (afterRun exCfg none exBad exRuns []) "a".toList = some (.file "a".toList) ∧
    datapoint exCfg (afterRun exCfg none exBad exRuns []) "c".toList = none ∧
    exists' (afterRun exCfg none exBad exRuns []) exCfg.lockFile = false := by
  decide +kernel

/-- The files of the example: two logs, two data points, the lock, and nothing of the run that is skipped. -/
example : ((afterRun exCfg none exGood exRuns []).filterMap (fun e => match e.2 with
      | .file _ => some (e.1.drop 2)
      | .dir => none)) =
    [["algorithm_run_logs".toList, "main".toList, "a.log".toList],
      ["algorithm_run_datapoints".toList, "main".toList, "a.pickle".toList],
      ["algorithm_run_logs".toList, "main".toList, "c.log".toList],
      ["algorithm_run_datapoints".toList, "main".toList, "c.pickle".toList],
      ["locks".toList, "main".toList, "locked_experiment".toList]] ∧
    ¬ FileOfRun exCfg exRuns (exCfg.path ++ ["algorithm_run_logs".toList, "main".toList, "b.log".toList]) := by
  refine ⟨by decide +kernel, ?_⟩
  rintro (⟨p, hp, hs, h⟩ | ⟨p, hp, hs, h⟩ | h)
  · have h2 : p.id ++ ".log".toList = "b.log".toList := by
      have h1 := congrArg List.getLast? h
      simp at h1
      exact h1.symm
    simp only [exRuns, List.mem_cons, List.not_mem_nil, or_false] at hp
    rcases hp with rfl | rfl | rfl
    · revert h2; decide
    · cases hs
    · revert h2; decide
  · have h1 := congrArg (fun l : Path => l[2]?) h
    simp only [exCfg] at h1
    revert h1
    simp
  · revert h; decide

/-- A crash in the middle of writing the first data point: not locked, half a data point. -/
example : ∃ fs', CrashState [] (program exCfg none exGood exRuns []).1 fs' ∧ ¬ Locked exCfg fs' ∧
    datapoint exCfg fs' "a".toList = some (.file "a-re".toList) ∧
    Attempts exCfg exRuns [] fs' := by
  have hcr : CrashState [] (program exCfg none exGood exRuns []).1
      (exec [] ((program exCfg none exGood exRuns []).1.take 9 ++
        [.write (exCfg.datapointFile "a".toList) "a-re".toList])) := by
    refine .inr ⟨_, .write (exCfg.datapointFile "a".toList) "a-result".toList, _,
      (program exCfg none exGood exRuns []).1.drop 10, ?_, ?_, rfl⟩
    · decide +kernel
    · exact ⟨rfl, by decide⟩
  refine ⟨_, hcr, ?_, ?_, .more _ _ _ none exGood (.none _) hcr⟩
  · unfold Locked Held; decide +kernel
  · decide +kernel

/-- A crash after the lock file was created leaves the experiment locked. -/
example : ∃ fs', CrashState [] (program exCfg none exGood exRuns []).1 fs' ∧ Locked exCfg fs' := by
  refine ⟨_, .inl ⟨(program exCfg none exGood exRuns []).1.take 18,
    (program exCfg none exGood exRuns []).1.drop 18, (List.take_append_drop _ _).symm, rfl⟩, ?_⟩
  unfold Locked Held; decide +kernel

end Mbtk.Exp
