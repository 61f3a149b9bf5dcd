import Verif.Exp.Lock
/-!
# Model of `ExperimentRun.run`: locks, data points and crashes (C44, C57)

The disk effects of a run are the sequence of its `mkdir`, `open(mode='w')` and `write` calls, in
the order of the code; a crash stops that sequence at any point, possibly in the middle of a call.

Simplifications: the algorithm itself, the data point object and `pickle` are described by their
observable behaviour (`Behaviour`: what is logged, which bytes are written, whether and where an
exception is raised); `prepare_exds` only by whether it raises (its files lie in the folder of the
dataset, see `Exp/Build.lean`); the algorithm does not touch the experiment folder; no other
process does; IDs and the name of the subexperiment are single path components.
-/
namespace Mbtk.Exp
open Mbtk Mbtk.Dataset

/-! ## Disk actions -/

/-- A call that changes the disk. ExperimentRun.py 22-105. -/
inductive Action where
  /-- `path.mkdir(parents=True, exist_ok=True)` -/
  | mkdir (p : Path)
  /-- `path.open(mode='w')`: the file exists and is empty -/
  | create (p : Path)
  /-- the content reaches the opened file -/
  | write (p : Path) (content : Str)
  deriving DecidableEq, Repr

/-- The effect of a call. ExperimentRun.py 22-105. -/
def Action.apply (fs : Fs) : Action → Fs
  | .mkdir p => mkdirs fs p
  | .create p => dictSet fs p (.file [])
  | .write p c => dictSet fs p (.file c)

/-- The effect of a sequence of calls. ExperimentRun.py 22-105. -/
def exec (fs : Fs) (as : List Action) : Fs := as.foldl Action.apply fs

/-! ## The experiment -/

/-- `algorithm_run_parameters`: `ID` and `skip`. ExperimentRun.py 35-39. -/
structure Params where
  id : Str
  skip : Bool
  deriving DecidableEq, Repr

/-- What one algorithm run does, as far as it can be observed from `run_algorithm`.
ExperimentRun.py 71-94. -/
structure Behaviour where
  /-- `algorithm_run_class(...)` raises -/
  ctor : Option Err
  /-- what is printed while the run lasts -/
  log : Str
  /-- `algorithm_run.run()` raises -/
  run : Option Err
  /-- `algorithm_run_datapoint_class(...)` raises -/
  datapoint : Option Err
  /-- what `pickle.dump` writes (until it raises) -/
  bytes : Str
  /-- `pickle.dump` raises -/
  pickle : Option Err
  deriving DecidableEq, Repr

/-- The fields of `ExperimentDefinition` that `run` reads.
ExperimentRun.py 22-105, ExperimentDefinition.py 6-28. -/
structure Config where
  path : Path
  sub : Str
  saveDatapoints : Bool
  logFile : Bool
  autoLock : Bool
  deriving DecidableEq, Repr

/-- ExperimentDefinition.py 6-28. -/
def Config.definition (cfg : Config) : Def := ⟨cfg.path, .experiment cfg.sub⟩

/-- `subfolder('algorithm_run_logs')`.
ExperimentRun.py 27, 102; ExperimentDefinition.py 34-37. -/
def Config.logDir (cfg : Config) : Path := cfg.path ++ ["algorithm_run_logs".toList, cfg.sub]

/-- `subfolder('algorithm_run_datapoints')`.
ExperimentRun.py 28, 91; ExperimentDefinition.py 34-37. -/
def Config.datapointDir (cfg : Config) : Path :=
  cfg.path ++ ["algorithm_run_datapoints".toList, cfg.sub]

/-- ExperimentRun.py 102. -/
def Config.logFilePath (cfg : Config) (id : Str) : Path := cfg.logDir ++ [id ++ ".log".toList]

/-- ExperimentRun.py 91. -/
def Config.datapointFile (cfg : Config) (id : Str) : Path :=
  cfg.datapointDir ++ [id ++ ".pickle".toList]

/-- The lock that `run` looks for and sets.
ExperimentRun.py 24, 68; ExperimentDefinition.py 40-43. -/
def Config.lockFile (cfg : Config) : Path := cfg.definition.lockFile "experiment".toList

/-- Opening, writing and closing the log file: ExperimentRun.py 97-105, 73-81. -/
def logActions (cfg : Config) (id log : Str) : List Action :=
  if cfg.logFile then [.mkdir cfg.logDir, .create (cfg.logFilePath id), .write (cfg.logFilePath id) log]
  else []

/-- `save_algorithm_run_datapoint`: ExperimentRun.py 90-94. -/
def saveActions (cfg : Config) (id : Str) (b : Behaviour) : List Action × Option Err :=
  match b.datapoint with
  | some e => ([.mkdir cfg.datapointDir], some e)
  | none => ([.mkdir cfg.datapointDir, .create (cfg.datapointFile id),
      .write (cfg.datapointFile id) b.bytes], b.pickle)

/-- `run_algorithm`: ExperimentRun.py 71-87.  Disk actions, whether `algorithm_run.run()` was
called, exception. -/
def runAlgorithm (cfg : Config) (p : Params) (b : Behaviour) : List Action × List Params × Option Err :=
  match b.ctor with
  | some e => ([], [], some e)
  | none => match b.run with
    | some e => (logActions cfg p.id b.log, [p], some e)
    | none =>
      if cfg.saveDatapoints then
        (logActions cfg p.id b.log ++ (saveActions cfg p.id b).1, [p], (saveActions cfg p.id b).2)
      else (logActions cfg p.id b.log, [p], none)

/-- The loop of `run`: ExperimentRun.py 35-41. -/
def loop (cfg : Config) (beh : Params → Behaviour) : List Params → List Action × List Params × Option Err
  | [] => ([], [], none)
  | p :: ps =>
    if p.skip then loop cfg beh ps
    else match (runAlgorithm cfg p (beh p)).2.2 with
      | some e => ((runAlgorithm cfg p (beh p)).1, (runAlgorithm cfg p (beh p)).2.1, some e)
      | none => ((runAlgorithm cfg p (beh p)).1 ++ (loop cfg beh ps).1,
          (runAlgorithm cfg p (beh p)).2.1 ++ (loop cfg beh ps).2.1, (loop cfg beh ps).2.2)

/-- `end_run`: ExperimentRun.py 62-68, `lock_folder('experiment')` of a folder without that lock
(LockablePath.py 36-42, ExperimentDefinition.py 40-43). -/
def endActions (cfg : Config) : List Action :=
  if cfg.autoLock then
    [.mkdir cfg.definition.lockDir, .create cfg.lockFile, .write cfg.lockFile "locked".toList]
  else []

/-- `ExperimentFolderLockedException`. experiment/Exceptions.py 10-17. -/
def folderLocked : Err := .custom "ExperimentFolderLockedException"

/-- `ensure_folder()` and `folder_is_locked('experiment')`: ExperimentRun.py 23-24. -/
def startActions (cfg : Config) : List Action := [.mkdir cfg.path, .mkdir cfg.definition.lockDir]

/-- ExperimentRun.py 27-28. -/
def folderActions (cfg : Config) : List Action := [.mkdir cfg.logDir, .mkdir cfg.datapointDir]

/-- `run`: ExperimentRun.py 22-43, for the disk found at the start.  `prep` is the exception of
`prepare_exds`, if any.  Disk actions, the parameters with which `algorithm_run.run()` was called,
exception. -/
def program (cfg : Config) (prep : Option Err) (beh : Params → Behaviour) (runs : List Params) (fs : Fs) :
    List Action × List Params × Option Err :=
  if exists' (exec fs (startActions cfg)) cfg.lockFile then (startActions cfg, [], some folderLocked)
  else match prep with
    | some e => (startActions cfg ++ folderActions cfg, [], some e)
    | none => match (loop cfg beh runs).2.2 with
      | some e => (startActions cfg ++ folderActions cfg ++ (loop cfg beh runs).1,
          (loop cfg beh runs).2.1, some e)
      | none => (startActions cfg ++ folderActions cfg ++ (loop cfg beh runs).1 ++ endActions cfg,
          (loop cfg beh runs).2.1, none)

/-- The disk after `run`. ExperimentRun.py 22-43. -/
def afterRun (cfg : Config) (prep : Option Err) (beh : Params → Behaviour) (runs : List Params) (fs : Fs) : Fs :=
  exec fs (program cfg prep beh runs fs).1

/-! ## Crashes -/

/-- A call stopped in the middle: some of the parents of a folder, a part of the content.
ExperimentRun.py 22-105, interrupted. -/
def Partial : Action → Action → Prop
  | .mkdir p, .mkdir q => q <+: p
  | .write p c, .write q c' => p = q ∧ c' <+: c
  | _, _ => False

/-- The disk when the process dies during the sequence of calls: between two calls or in the
middle of one. ExperimentRun.py 22-105, interrupted. -/
def CrashState (fs : Fs) (as : List Action) (fs' : Fs) : Prop :=
  (∃ done rest, as = done ++ rest ∧ fs' = exec fs done) ∨
  (∃ done a b rest, as = done ++ a :: rest ∧ Partial a b ∧ fs' = exec fs (done ++ [b]))

/-! ## Specification -/

namespace Spec

/-- A run that completes: nothing raises. (Specification.) -/
def Completes (cfg : Config) (b : Behaviour) : Prop :=
  b.ctor = none ∧ b.run = none ∧ (cfg.saveDatapoints = true → b.datapoint = none ∧ b.pickle = none)

/-- The exception of a run: the first one raised. (Specification.) -/
def firstError (cfg : Config) (b : Behaviour) : Option Err :=
  b.ctor.or (b.run.or (if cfg.saveDatapoints then b.datapoint.or b.pickle else none))

/-- The data point with the ID after the runs: that of the last of these runs with the ID which
is not to be skipped. (Specification.) -/
def lastResult (beh : Params → Behaviour) (ps : List Params) (id : Str) : Option Str :=
  ((ps.filter (fun p => !p.skip && decide (p.id = id))).getLast?).map (fun p => (beh p).bytes)

/-- The experiment is locked. (Specification.) -/
def Locked (cfg : Config) (fs : Fs) : Prop := Held fs cfg.definition "experiment".toList

/-- The data point file of the ID: its content, if it exists. (Specification.) -/
def datapoint (cfg : Config) (fs : Fs) (id : Str) : Option Entry := dictGet fs (cfg.datapointFile id)

/-- Some run of the list is to write the data point of the ID. (Specification.) -/
def Writes (runs : List Params) (id : Str) : Prop := ∃ p ∈ runs, p.skip = false ∧ p.id = id

end Spec
open Spec

/-! ## Lemmas -/

/-- The action opens or writes the file.
(Models no code: a notion for statements and proofs.) -/
def Touches (a : Action) (p : Path) : Prop := a = .create p ∨ ∃ c, a = .write p c

/-- The action makes no folder longer than `n`.
(Models no code: a notion for statements and proofs.) -/
def Short (n : Nat) (a : Action) : Prop := ∀ q, a = .mkdir q → q.length ≤ n

theorem exec_append (fs : Fs) (as bs : List Action) : exec fs (as ++ bs) = exec (exec fs as) bs := by
  unfold exec; rw [List.foldl_append]

theorem apply_other {fs : Fs} {a : Action} {p : Path} {n : Nat} (ht : ¬ Touches a p) (hs : Short n a)
    (hn : n < p.length) : dictGet (a.apply fs) p = dictGet fs p := by
  cases a with
  | mkdir q =>
    have := hs q rfl
    show dictGet (mkdirs fs q) p = dictGet fs p
    cases h : dictGet fs p with
    | some x => exact mkdirs_keeps h
    | none =>
      apply mkdirs_none h
      rintro ⟨_, hpre⟩
      have := hpre.length_le
      omega
  | create q =>
    show dictGet (dictSet _ _ _) _ = _
    rw [dictGet_dictSet, if_neg]
    rintro rfl; exact ht (.inl rfl)
  | write q c =>
    show dictGet (dictSet _ _ _) _ = _
    rw [dictGet_dictSet, if_neg]
    rintro rfl; exact ht (.inr ⟨c, rfl⟩)

theorem exec_other {fs : Fs} {as : List Action} {p : Path} {n : Nat} (ht : ∀ a ∈ as, ¬ Touches a p)
    (hs : ∀ a ∈ as, Short n a) (hn : n < p.length) : dictGet (exec fs as) p = dictGet fs p := by
  induction as generalizing fs with
  | nil => rfl
  | cons a as ih =>
    show dictGet (exec (a.apply fs) as) p = _
    rw [ih (fun b hb => ht b (by simp [hb])) (fun b hb => hs b (by simp [hb])),
      apply_other (ht a (by simp)) (hs a (by simp)) hn]

/-- An action keeps every entry that it does not open or write. -/
theorem exec_keeps {fs : Fs} {as : List Action} {p : Path} {x : Entry} (ht : ∀ a ∈ as, ¬ Touches a p)
    (hx : dictGet fs p = some x) : dictGet (exec fs as) p = some x := by
  induction as generalizing fs with
  | nil => exact hx
  | cons a as ih =>
    refine ih (fs := a.apply fs) (fun b hb => ht b (by simp [hb])) ?_
    have h := ht a (by simp)
    cases a with
    | mkdir q => exact mkdirs_keeps hx
    | create q =>
      show dictGet (dictSet _ _ _) _ = _
      rw [dictGet_dictSet, if_neg]
      · exact hx
      · rintro rfl; exact h (.inl rfl)
    | write q c =>
      show dictGet (dictSet _ _ _) _ = _
      rw [dictGet_dictSet, if_neg]
      · exact hx
      · rintro rfl; exact h (.inr ⟨c, rfl⟩)

theorem length_datapointFile (cfg : Config) (id : Str) :
    (cfg.datapointFile id).length = cfg.path.length + 3 := by
  simp [Config.datapointFile, Config.datapointDir]

theorem length_lockFile (cfg : Config) : cfg.lockFile.length = cfg.path.length + 3 := by
  simp [Config.lockFile, Config.definition, Def.lockFile, Def.lockDir]

theorem datapointFile_inj {cfg : Config} {i j : Str} (h : cfg.datapointFile i = cfg.datapointFile j) :
    i = j := by
  unfold Config.datapointFile at h
  have := List.append_cancel_left h
  simpa using this

theorem datapointFile_ne_lockFile (cfg : Config) (i : Str) : cfg.datapointFile i ≠ cfg.lockFile := by
  intro h
  simp [Config.datapointFile, Config.datapointDir, Config.lockFile, Config.definition, Def.lockFile,
    Def.lockDir] at h

theorem datapointFile_ne_logFile (cfg : Config) (i j : Str) :
    cfg.datapointFile i ≠ cfg.logFilePath j := by
  intro h
  simp [Config.datapointFile, Config.datapointDir, Config.logFilePath, Config.logDir] at h

theorem logFile_ne_lockFile (cfg : Config) (i : Str) : cfg.logFilePath i ≠ cfg.lockFile := by
  intro h
  simp [Config.logFilePath, Config.logDir, Config.lockFile, Config.definition, Def.lockFile,
    Def.lockDir] at h

/-- The actions of a run: which files they touch. -/
theorem runAlgorithm_touches {cfg : Config} {p : Params} {b : Behaviour} {a : Action} {q : Path}
    (ha : a ∈ (runAlgorithm cfg p b).1) (ht : Touches a q) :
    q = cfg.logFilePath p.id ∨ q = cfg.datapointFile p.id := by
  have hlog : ∀ log, a ∈ logActions cfg p.id log → q = cfg.logFilePath p.id := by
    intro log h
    unfold logActions at h
    split at h
    · simp only [List.mem_cons, List.not_mem_nil, or_false] at h
      rcases h with rfl | rfl | rfl <;> simp [Touches] at ht <;> exact ht.symm
    · simp at h
  have hsave : a ∈ (saveActions cfg p.id b).1 → q = cfg.datapointFile p.id := by
    intro h
    unfold saveActions at h
    split at h
    · simp only [List.mem_cons, List.not_mem_nil, or_false] at h
      subst h; simp [Touches] at ht
    · simp only [List.mem_cons, List.not_mem_nil, or_false] at h
      rcases h with rfl | rfl | rfl <;> simp [Touches] at ht <;> exact ht.symm
  unfold runAlgorithm at ha
  split at ha
  · simp at ha
  · split at ha
    · exact .inl (hlog _ ha)
    · split at ha
      · rcases List.mem_append.1 ha with h | h
        · exact .inl (hlog _ h)
        · exact .inr (hsave h)
      · exact .inl (hlog _ ha)

theorem runAlgorithm_short {cfg : Config} {p : Params} {b : Behaviour} {a : Action}
    (ha : a ∈ (runAlgorithm cfg p b).1) : Short (cfg.path.length + 2) a := by
  have hlog : ∀ log, a ∈ logActions cfg p.id log → Short (cfg.path.length + 2) a := by
    intro log h
    unfold logActions at h
    split at h
    · simp only [List.mem_cons, List.not_mem_nil, or_false] at h
      rcases h with rfl | rfl | rfl <;> intro q hq <;> simp at hq
      subst hq; simp [Config.logDir]
    · simp at h
  have hsave : a ∈ (saveActions cfg p.id b).1 → Short (cfg.path.length + 2) a := by
    intro h
    unfold saveActions at h
    split at h
    · simp only [List.mem_cons, List.not_mem_nil, or_false] at h
      subst h; intro q hq; simp at hq; subst hq; simp [Config.datapointDir]
    · simp only [List.mem_cons, List.not_mem_nil, or_false] at h
      rcases h with rfl | rfl | rfl <;> intro q hq <;> simp at hq
      subst hq; simp [Config.datapointDir]
  unfold runAlgorithm at ha
  split at ha
  · simp at ha
  · split at ha
    · exact hlog _ ha
    · split at ha
      · rcases List.mem_append.1 ha with h | h
        · exact hlog _ h
        · exact hsave h
      · exact hlog _ ha

theorem loop_mem {cfg : Config} {beh : Params → Behaviour} {ps : List Params} {a : Action}
    (ha : a ∈ (loop cfg beh ps).1) :
    ∃ p ∈ ps, p.skip = false ∧ a ∈ (runAlgorithm cfg p (beh p)).1 := by
  induction ps with
  | nil => simp [loop] at ha
  | cons p ps ih =>
    unfold loop at ha
    by_cases hs : p.skip = true
    · rw [if_pos hs] at ha
      obtain ⟨q, hq, h⟩ := ih ha
      exact ⟨q, by simp [hq], h⟩
    · rw [if_neg hs] at ha
      have hs' : p.skip = false := by simpa using hs
      split at ha
      · exact ⟨p, by simp, hs', ha⟩
      · rcases List.mem_append.1 ha with h | h
        · exact ⟨p, by simp, hs', h⟩
        · obtain ⟨q, hq, h⟩ := ih h
          exact ⟨q, by simp [hq], h⟩

/-- The actions of the loop touch only log files and the data points of runs that are not
skipped. -/
theorem loop_touches {cfg : Config} {beh : Params → Behaviour} {ps : List Params} {a : Action} {q : Path}
    (ha : a ∈ (loop cfg beh ps).1) (ht : Touches a q) :
    (∃ i, q = cfg.logFilePath i) ∨ ∃ i, Writes ps i ∧ q = cfg.datapointFile i := by
  obtain ⟨p, hp, hs, h⟩ := loop_mem ha
  rcases runAlgorithm_touches h ht with h | h
  · exact .inl ⟨_, h⟩
  · exact .inr ⟨p.id, ⟨p, hp, hs, rfl⟩, h⟩

theorem loop_short {cfg : Config} {beh : Params → Behaviour} {ps : List Params} {a : Action}
    (ha : a ∈ (loop cfg beh ps).1) : Short (cfg.path.length + 2) a := by
  obtain ⟨p, _, _, h⟩ := loop_mem ha
  exact runAlgorithm_short h

/-- The effect of a completed run on the data points. -/
theorem runAlgorithm_datapoint (cfg : Config) (p : Params) (b : Behaviour) (hc : Completes cfg b)
    (hs : cfg.saveDatapoints = true) (fs : Fs) (id : Str) :
    datapoint cfg (exec fs (runAlgorithm cfg p b).1) id =
      if p.id = id then some (.file b.bytes) else datapoint cfg fs id := by
  obtain ⟨h1, h2, h3⟩ := hc
  obtain ⟨h3, h4⟩ := h3 hs
  have hn : cfg.path.length + 2 < (cfg.datapointFile id).length := by
    rw [length_datapointFile]; omega
  by_cases e : p.id = id
  · subst e
    rw [if_pos rfl]
    unfold runAlgorithm
    rw [h1, h2]
    simp only []
    rw [if_pos hs]
    unfold saveActions
    rw [h3]
    simp only []
    have e2 : logActions cfg p.id b.log ++ [Action.mkdir cfg.datapointDir,
        .create (cfg.datapointFile p.id), .write (cfg.datapointFile p.id) b.bytes] =
        (logActions cfg p.id b.log ++ [Action.mkdir cfg.datapointDir,
        .create (cfg.datapointFile p.id)]) ++ [.write (cfg.datapointFile p.id) b.bytes] := by simp
    rw [e2, exec_append]
    unfold datapoint
    show dictGet (dictSet _ _ _) _ = _
    rw [dictGet_dictSet, if_pos rfl]
  · rw [if_neg e]
    apply exec_other (n := cfg.path.length + 2) _ (fun a ha => runAlgorithm_short ha) hn
    intro a ha ht
    rcases runAlgorithm_touches ha ht with h | h
    · exact datapointFile_ne_logFile cfg _ _ h
    · exact e (datapointFile_inj h).symm

theorem runAlgorithm_failure (cfg : Config) (p : Params) (b : Behaviour) :
    (runAlgorithm cfg p b).2.2 = firstError cfg b := by
  unfold runAlgorithm firstError
  cases b.ctor <;> cases b.run <;> simp
  split
  · unfold saveActions; cases b.datapoint <;> simp
  · simp

theorem completes_iff (cfg : Config) (b : Behaviour) : Completes cfg b ↔ firstError cfg b = none := by
  unfold Completes firstError
  cases b.ctor <;> cases b.run <;> simp

theorem runAlgorithm_executed (cfg : Config) (p : Params) (b : Behaviour) :
    (runAlgorithm cfg p b).2.1 = if b.ctor = none then [p] else [] := by
  unfold runAlgorithm
  cases b.ctor with
  | some e => simp
  | none => cases b.run with
    | some e => simp
    | none => simp only []; split <;> simp

theorem lastResult_cons (beh : Params → Behaviour) (p : Params) (ps : List Params) (id : Str) :
    lastResult beh (p :: ps) id =
      (lastResult beh ps id).or (if p.skip = false ∧ p.id = id then some (beh p).bytes else none) := by
  unfold lastResult
  by_cases h : p.skip = false ∧ p.id = id
  · rw [List.filter_cons_of_pos (by simp [h.1, h.2]), List.getLast?_cons, if_pos h]
    cases (ps.filter (fun p => !p.skip && decide (p.id = id))).getLast? <;> simp
  · rw [List.filter_cons_of_neg, if_neg h]
    · simp
    · simpa using h

theorem lastResult_none_iff (beh : Params → Behaviour) (ps : List Params) (id : Str) :
    lastResult beh ps id = none ↔ ¬ Writes ps id := by
  unfold lastResult Writes
  rw [Option.map_eq_none_iff, List.getLast?_eq_none_iff, List.filter_eq_nil_iff]
  simp

/-- The loop when every run that is not skipped completes. -/
theorem loop_done (cfg : Config) (beh : Params → Behaviour) (ps : List Params)
    (hc : ∀ p ∈ ps, p.skip = false → Completes cfg (beh p)) :
    (loop cfg beh ps).2.2 = none ∧ (loop cfg beh ps).2.1 = ps.filter (fun p => !p.skip) ∧
    (cfg.saveDatapoints = true → ∀ fs id, datapoint cfg (exec fs (loop cfg beh ps).1) id =
      ((lastResult beh ps id).map Entry.file).or (datapoint cfg fs id)) := by
  induction ps with
  | nil => exact ⟨rfl, rfl, fun _ fs id => rfl⟩
  | cons p ps ih =>
    have ih := ih (fun q hq => hc q (by simp [hq]))
    unfold loop
    by_cases hs : p.skip = true
    · rw [if_pos hs]
      refine ⟨ih.1, by rw [ih.2.1]; simp [hs], fun hsv fs id => ?_⟩
      rw [ih.2.2 hsv, lastResult_cons, if_neg (by simp [hs])]
      simp
    · rw [if_neg hs]
      have hs' : p.skip = false := by simpa using hs
      have hcp := hc p (by simp) hs'
      have hf : (runAlgorithm cfg p (beh p)).2.2 = none := by
        rw [runAlgorithm_failure]; exact (completes_iff _ _).1 hcp
      rw [hf]
      simp only []
      refine ⟨ih.1, ?_, fun hsv fs id => ?_⟩
      · rw [ih.2.1, runAlgorithm_executed, if_pos hcp.1, List.filter_cons_of_pos (by simp [hs'])]
        rfl
      · rw [exec_append, ih.2.2 hsv, runAlgorithm_datapoint cfg p _ hcp hsv, lastResult_cons]
        by_cases e : p.id = id
        · rw [if_pos e, if_pos ⟨hs', e⟩]
          cases lastResult beh ps id <;> simp
        · rw [if_neg e, if_neg (fun h => e h.2)]
          simp

/-- The loop up to the first run that fails. -/
theorem loop_append (cfg : Config) (beh : Params → Behaviour) (pre : List Params) (p : Params)
    (post : List Params) (hc : ∀ q ∈ pre, q.skip = false → Completes cfg (beh q))
    (hp : p.skip = false) (e : Err) (he : firstError cfg (beh p) = some e) :
    (loop cfg beh (pre ++ p :: post)) =
      ((loop cfg beh pre).1 ++ (runAlgorithm cfg p (beh p)).1,
       (loop cfg beh pre).2.1 ++ (runAlgorithm cfg p (beh p)).2.1, some e) := by
  induction pre with
  | nil =>
    rw [List.nil_append]
    unfold loop
    rw [if_neg (by simp [hp]), runAlgorithm_failure, he]
    simp
  | cons q pre ih =>
    have ih := ih (fun r hr => hc r (by simp [hr]))
    rw [List.cons_append]
    conv_lhs => unfold loop
    conv_rhs => unfold loop
    by_cases hs : q.skip = true
    · rw [if_pos hs, if_pos hs, ih]
    · rw [if_neg hs, if_neg hs, ih]
      have hf : (runAlgorithm cfg q (beh q)).2.2 = none := by
        rw [runAlgorithm_failure]; exact (completes_iff _ _).1 (hc q (by simp) (by simpa using hs))
      rw [hf]
      simp

theorem start_touches {cfg : Config} {a : Action} (ha : a ∈ startActions cfg ++ folderActions cfg)
    (q : Path) : ¬ Touches a q := by
  simp only [startActions, folderActions, List.mem_append, List.mem_cons, List.not_mem_nil, or_false] at ha
  rcases ha with (rfl | rfl) | (rfl | rfl) <;> simp [Touches]

theorem start_short {cfg : Config} {a : Action} (ha : a ∈ startActions cfg ++ folderActions cfg) :
    Short (cfg.path.length + 2) a := by
  simp only [startActions, folderActions, List.mem_append, List.mem_cons, List.not_mem_nil, or_false] at ha
  rcases ha with (rfl | rfl) | (rfl | rfl) <;> intro q hq <;> simp at hq <;> subst hq <;>
    simp [Config.definition, Def.lockDir, Config.logDir, Config.datapointDir]

theorem exec_start {cfg : Config} (fs : Fs) (as : List Action)
    (hs : as <+: startActions cfg ++ folderActions cfg) (p : Path) (hn : cfg.path.length + 2 < p.length) :
    dictGet (exec fs as) p = dictGet fs p :=
  exec_other (fun _ ha => start_touches (hs.subset ha) p) (fun _ ha => start_short (hs.subset ha)) hn

theorem exists_start (cfg : Config) (fs : Fs) :
    exists' (exec fs (startActions cfg)) cfg.lockFile = true ↔ Locked cfg fs := by
  unfold Locked Held exists'
  rw [exec_start fs _ ⟨_, rfl⟩ _ (by rw [length_lockFile]; omega)]
  rfl

/-- The model of `lock_folder` used at the end of a run is `lock_folder`. -/
theorem endActions_lock (cfg : Config) (fs : Fs) (h : ¬ Locked cfg fs) (ha : cfg.autoLock = true) :
    ∀ p, dictGet (exec fs (endActions cfg)) p = dictGet (cfg.definition.lock "experiment".toList fs).1 p := by
  intro p
  have hl : ¬ (cfg.definition.isLocked (cfg.definition.lockType "experiment".toList) fs).1 = true := by
    rw [(is_locked_iff fs cfg.definition _).2.1 (lockType_ne_nil _ _)]
    exact h
  unfold Def.lock
  rw [if_neg hl, isLocked_state, touch_touch]
  have hex : exists' (cfg.definition.touch fs) cfg.lockFile.dropLast = true := by
    have e : cfg.lockFile.dropLast = cfg.definition.lockDir := by
      simp [Config.lockFile, Def.lockFile]
    rw [e]
    exact exists_mkdirs _ _ (by simp [Config.definition, Def.lockDir])
  unfold writeText
  rw [if_pos (.inr hex)]
  unfold endActions
  rw [if_pos ha]
  show dictGet (dictSet (dictSet (mkdirs fs cfg.definition.lockDir) _ _) _ _) p =
    dictGet (dictSet (mkdirs fs cfg.definition.lockDir) cfg.lockFile _) p
  rw [dictGet_dictSet, dictGet_dictSet, dictGet_dictSet]
  split <;> rfl

end Mbtk.Exp
