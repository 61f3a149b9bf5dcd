import Verif.Data.Persist
/-!
# Model of the preparation of the dataset of an experiment, with crashes (C58)

`ExperimentRun.prepare_exds` (mbtk/experiment/ExperimentRun.py 46-54) loads the experimental dataset
if its folder exists and is locked, and builds it otherwise; `build` gets the datasets from the
source, finalizes them, writes the files of each and locks the folder at the end
(mbtk/dataset/ExperimentalDataset.py, mbtk/dataset/ModelBuildingExperimentalDataset.py).

Simplifications: the lock files of the folder are the list of their types; a file that is being
written when the process dies has any content; the source is described by the datasets it
returns (one for `ExperimentalDataset`, three for `ModelBuildingExperimentalDataset`); otherwise as
in `Data/Persist.lean`.
-/
namespace Mbtk.Exp.Build
open Mbtk Mbtk.Dataset Mbtk.Dataset.Spec

/-- The folder of an experimental dataset. ExperimentalDataset.py 94-120. -/
structure Repo where
  /-- the files of the datasets -/
  disk : Disk
  /-- `folder_exists()` -/
  folder : Bool
  /-- `get_locks()` -/
  locks : List Str

/-- A call that changes the folder. ExperimentalDataset.py 33-120. -/
inductive Step where
  /-- `ensure_folder()` -/
  | mkdir
  /-- one file of a dataset is written -/
  | write (label : Str) (name : String) (f : File)
  /-- `lock_folder(t)` -/
  | lock (t : Str)
  deriving DecidableEq

/-- The effect of a call. ExperimentalDataset.py 33-120. -/
def Step.apply (r : Repo) : Step → Repo
  | .mkdir => { r with folder := true }
  | .write l n f => { r with disk := Dataset.write r.disk l n f }
  | .lock t => { r with locks := t :: r.locks }

/-- The effect of a sequence of calls. ExperimentalDataset.py 33-120. -/
def exec (r : Repo) (ss : List Step) : Repo := ss.foldl Step.apply r

/-- `exds_ready()`: ExperimentalDatasetDefinition.py 54-55. -/
def ready (r : Repo) : Bool := r.folder && !r.locks.isEmpty

/-- The files of one dataset: `matrix.save(path)`. ExperimentalDataset.py 94-108. -/
def writes (d : DM) : List Step := (saveWrites d).map (fun w => .write d.label w.1 w.2)

/-- `save()`: ExperimentalDataset.py 94-108, ModelBuildingExperimentalDataset.py 83-102, for a folder
without locks and finalized datasets. -/
def saveSteps : List DM → List Step
  | [] => []
  | d :: ds => .mkdir :: (writes d ++ (if ds = [] then [] else .mkdir :: ds.flatMap writes))

/-- `DatasetMatrix(label)`, a new object. ExperimentalDataset.py 111-120. -/
def newDM (label : Str) : DM := ⟨label, ⟨.csr, 0, []⟩, ⟨.csr, 0, []⟩, [], [], [], false⟩

/-- `load()`: ExperimentalDataset.py 111-123, ModelBuildingExperimentalDataset.py 105-113. -/
def loadAll (disk : Disk) : List Str → Except Err (List DM)
  | [] => .ok []
  | l :: ls => match (load disk (newDM l)).2 with
    | some e => .error e
    | none => match loadAll disk ls with
      | .error e => .error e
      | .ok ds => .ok ((load disk (newDM l)).1 :: ds)

/-- `ExperimentalDatasetError`. dataset/Exceptions.py 28-34. -/
def exdsError : Err := .custom "ExperimentalDatasetError"

/-- `prepare_exds()` for the folder found at the start: ExperimentRun.py 46-54, `build` and
`finalize_and_save` (ExperimentalDataset.py 33-79, ModelBuildingExperimentalDataset.py 45-80).  `labels` are
the labels of the datasets (`dataset`, `dataset_train`, `dataset_test`), `source` what the source
returns (after splitting and trimming).  Calls, resulting datasets. -/
def prepare (labels : List Str) (autoLock : Bool) (source : Except Err (List DM)) (r : Repo) :
    List Step × Except Err (List DM) :=
  if ready r then ([], loadAll r.disk labels)
  else match source with
    | .error e => ([], .error e)
    | .ok ds =>
      if r.locks = [] then
        (saveSteps (ds.map (fun d => (finalize d).1)) ++ (if autoLock then [.lock "exds".toList] else []),
          .ok (ds.map (fun d => (finalize d).1)))
      else ([.mkdir], .error exdsError)

/-- The disk when the process dies during the calls: between two calls, or while a file is being
written, which then has any content. ExperimentalDataset.py 33-108, interrupted. -/
def CrashState (r : Repo) (ss : List Step) (r' : Repo) : Prop :=
  (∃ done rest, ss = done ++ rest ∧ r' = exec r done) ∨
  (∃ done l n f g rest, ss = done ++ .write l n f :: rest ∧ r' = exec r (done ++ [.write l n g]))

/-! ## Specification -/

/-- The datasets of a source as the experiment is to see them: finalized. (Specification.) -/
def expected (ds : List DM) : List DM :=
  ds.map (fun d => ⟨d.label, d.X.tocsc, d.Y.tocsc, d.rowLabels, d.colLabelsX, d.colLabelsY, true⟩)

/-- A result of the source that can be stored: new datasets with the expected, different labels.
(Specification.) -/
def Good (labels : List Str) (ds : List DM) : Prop :=
  ds.map DM.label = labels ∧ ds ≠ [] ∧ labels.Nodup ∧ ∀ d ∈ ds, d.final = false ∧ Storable d

/-- The folders that can be reached by any number of interrupted attempts to prepare the dataset;
in each attempt the source returns some datasets with the property `S`, or raises.
ExperimentalDataset.py 33-108, interrupted several times. -/
inductive Attempts (labels : List Str) (autoLock : Bool) (S : List DM → Prop) : Repo → Repo → Prop
  | none (r : Repo) : Attempts labels autoLock S r r
  | more (r r' r'' : Repo) (source : Except Err (List DM)) :
      Attempts labels autoLock S r r' → (∀ ds, source = .ok ds → S ds) →
      CrashState r' (prepare labels autoLock source r').1 r'' → Attempts labels autoLock S r r''

/-! ## Lemmas -/

theorem exec_append (r : Repo) (as bs : List Step) : exec r (as ++ bs) = exec (exec r as) bs := by
  unfold exec; rw [List.foldl_append]

theorem exec_writes (r : Repo) (d : DM) :
    exec r (writes d) = { r with disk := writeAll r.disk d.label (saveWrites d) } := rfl

/-- All the datasets are completely on the disk. (Specification.) -/
def HoldsAll (disk : Disk) (ds : List DM) : Prop := ∀ d ∈ ds, Holds disk d

theorem finalize_eq {d : DM} (h : d.final = false) : (finalize d).1 =
    ⟨d.label, d.X.tocsc, d.Y.tocsc, d.rowLabels, d.colLabelsX, d.colLabelsY, true⟩ := by
  unfold finalize; rw [if_neg (by simp [h])]

theorem map_finalize {labels : List Str} {ds : List DM} (h : Good labels ds) :
    ds.map (fun d => (finalize d).1) = expected ds := by
  unfold expected
  exact List.map_congr_left (fun d hd => finalize_eq (h.2.2.2 d hd).1)

theorem exec_flat (r : Repo) (ds : List DM) (hf : ∀ d ∈ ds, d.final = true) :
    exec r (ds.flatMap writes) = { r with disk := saveAll r.disk ds } := by
  induction ds generalizing r with
  | nil => rfl
  | cons d ds ih =>
    rw [List.flatMap_cons, exec_append, exec_writes, ih _ (fun e he => hf e (by simp [he]))]
    show _ = { r with disk := saveAll (save r.disk d).1 ds }
    unfold save
    rw [if_neg (by simp [hf d (by simp)])]

theorem saveAll_holdsAll (disk : Disk) (ds : List DM) (hf : ∀ d ∈ ds, d.final = true)
    (hn : (ds.map DM.label).Nodup) : HoldsAll (saveAll disk ds) ds := by
  intro d hd
  obtain ⟨as, bs, rfl⟩ := List.append_of_mem hd
  unfold saveAll
  rw [List.foldl_append, List.foldl_cons]
  refine saveAll_holds _ d bs (save_holds _ d (hf d hd)) (fun e he _ hl => ?_)
  rw [List.map_append, List.map_cons] at hn
  have h := (List.nodup_append.1 hn).2.1
  exact (List.nodup_cons.1 h).1 (hl ▸ List.mem_map_of_mem he)

theorem exec_save (r : Repo) (ds : List DM) (hne : ds ≠ []) (hf : ∀ d ∈ ds, d.final = true) :
    exec r (saveSteps ds) = { disk := saveAll r.disk ds, folder := true, locks := r.locks } := by
  cases ds with
  | nil => exact absurd rfl hne
  | cons d ds =>
    unfold saveSteps
    show exec { r with folder := true } (writes d ++ _) = _
    rw [exec_append, exec_writes]
    have hd : (save r.disk d).1 = writeAll r.disk d.label (saveWrites d) := by
      unfold save; rw [if_neg (by simp [hf d (by simp)])]
    by_cases h : ds = []
    · rw [if_pos h, h]
      show _ = Repo.mk (save r.disk d).1 true r.locks
      rw [hd]; rfl
    · rw [if_neg h]
      show exec _ (ds.flatMap writes) = _
      rw [exec_flat _ _ (fun e he => hf e (by simp [he]))]
      show _ = Repo.mk (saveAll (save r.disk d).1 ds) true r.locks
      rw [hd]; rfl

/-- No call of `save` sets a lock. -/
theorem saveSteps_noLock (ds : List DM) : ∀ s ∈ saveSteps ds, ∀ t, s ≠ .lock t := by
  have hw : ∀ d, ∀ s ∈ writes d, ∀ t, s ≠ .lock t := by
    intro d s hs t h
    unfold writes at hs
    obtain ⟨w, _, rfl⟩ := List.mem_map.1 hs
    cases h
  intro s hs t h
  cases ds with
  | nil => simp [saveSteps] at hs
  | cons d ds =>
    unfold saveSteps at hs
    rcases List.mem_cons.1 hs with rfl | hs
    · cases h
    rcases List.mem_append.1 hs with hs | hs
    · exact hw d s hs t h
    · split at hs
      · simp at hs
      · rcases List.mem_cons.1 hs with rfl | hs
        · cases h
        · obtain ⟨e, _, hs⟩ := List.mem_flatMap.1 hs
          exact hw e s hs t h

theorem exec_locks {r : Repo} {ss : List Step} (h : ∀ s ∈ ss, ∀ t, s ≠ .lock t) :
    (exec r ss).locks = r.locks := by
  induction ss generalizing r with
  | nil => rfl
  | cons s ss ih =>
    show (exec (s.apply r) ss).locks = _
    rw [ih (fun x hx => h x (by simp [hx]))]
    cases s with
    | mkdir => rfl
    | write => rfl
    | lock t => exact absurd rfl (h _ (by simp) t)

theorem crash_locks {r r' : Repo} {ss : List Step} (hc : CrashState r ss r')
    (h : ∀ s ∈ ss, ∀ t, s ≠ .lock t) : r'.locks = r.locks := by
  rcases hc with ⟨done, rest, rfl, rfl⟩ | ⟨done, l, n, f, g, rest, rfl, rfl⟩
  · exact exec_locks (fun s hs => h s (by simp [hs]))
  · apply exec_locks
    intro s hs t
    rcases List.mem_append.1 hs with hs | hs
    · exact h s (by simp [hs]) t
    · simp only [List.mem_singleton] at hs; subst hs; simp

theorem crash_append {r r' : Repo} {as bs : List Step} (h : CrashState r (as ++ bs) r') :
    CrashState r as r' ∨ CrashState (exec r as) bs r' := by
  rcases h with ⟨done, rest, h, rfl⟩ | ⟨done, l, n, f, g, rest, h, rfl⟩
  · rcases List.append_eq_append_iff.1 h with ⟨m, rfl, rfl⟩ | ⟨m, rfl, rfl⟩
    · exact .inr (.inl ⟨m, rest, rfl, exec_append _ _ _⟩)
    · exact .inl (.inl ⟨done, m, rfl, rfl⟩)
  · rcases List.append_eq_append_iff.1 h with ⟨m, rfl, rfl⟩ | ⟨m, rfl, hm⟩
    · exact .inr (.inr ⟨m, l, n, f, g, rest, rfl, by rw [List.append_assoc, exec_append]⟩)
    · cases m with
      | nil =>
        rw [List.nil_append] at hm
        refine .inr (.inr ⟨[], l, n, f, g, rest, hm.symm, ?_⟩)
        rw [List.append_nil, exec_append]; rfl
      | cons c m =>
        rw [List.cons_append] at hm
        obtain ⟨rfl, rfl⟩ := List.cons.inj hm
        exact .inl (.inr ⟨done, l, n, f, g, m, rfl, rfl⟩)

theorem expected_final {ds : List DM} : ∀ d ∈ expected ds, d.final = true := by
  intro d hd
  obtain ⟨e, _, rfl⟩ := List.mem_map.1 hd
  rfl

theorem expected_labels (ds : List DM) : (expected ds).map DM.label = ds.map DM.label := by
  unfold expected; rw [List.map_map]; rfl

theorem expected_ne {ds : List DM} (h : ds ≠ []) : expected ds ≠ [] := by
  unfold expected; simpa using h

theorem loadAll_holds {disk : Disk} {ds : List DM} (hs : ∀ d ∈ ds, Storable d)
    (h : HoldsAll disk (expected ds)) : loadAll disk (ds.map DM.label) = .ok (expected ds) := by
  induction ds with
  | nil => rfl
  | cons d ds ih =>
    have hd : Holds disk ⟨d.label, d.X.tocsc, d.Y.tocsc, d.rowLabels, d.colLabelsX, d.colLabelsY, true⟩ :=
      h _ (by simp [expected])
    have hl := load_holds (o := newDM d.label) hd (hs d (by simp)) rfl rfl
    have ih := ih (fun e he => hs e (by simp [he])) (fun e he => h e (by
      unfold expected at he ⊢; rw [List.map_cons]; exact List.mem_cons_of_mem _ he))
    rw [List.map_cons]
    unfold loadAll
    rw [hl, ih]
    rfl

/-! ## C58 -/

/-- **C58.**  Preparing a dataset in a folder without locks builds it, whatever files of earlier
attempts are in the folder; afterwards the folder counts as ready exactly if it is to be locked,
and preparing it again (with any source) loads the same datasets without any change of the
disk. -/
theorem prepare_builds_then_loads (labels : List Str) (autoLock : Bool) (ds : List DM) (r : Repo)
    (hg : Good labels ds) (hl : r.locks = []) (source : Except Err (List DM)) :
    (prepare labels autoLock (.ok ds) r).2 = .ok (expected ds) ∧
    (ready (exec r (prepare labels autoLock (.ok ds) r).1) = autoLock) ∧
    (autoLock = true →
      prepare labels autoLock source (exec r (prepare labels autoLock (.ok ds) r).1) =
        ([], .ok (expected ds))) := by
  have hnr : ¬ ready r = true := by simp [ready, hl]
  have hp : prepare labels autoLock (.ok ds) r = (saveSteps (expected ds) ++
      (if autoLock then [.lock "exds".toList] else []), .ok (expected ds)) := by
    unfold prepare
    rw [if_neg hnr]
    simp only []
    rw [if_pos hl, map_finalize hg]
  rw [hp]
  have he := exec_save r (expected ds) (expected_ne hg.2.1) expected_final
  refine ⟨rfl, ?_, fun ha => ?_⟩
  · show ready (exec r (_ ++ _)) = _
    rw [exec_append, he]
    cases autoLock <;> simp [exec, Step.apply, ready, hl]
  · subst ha
    show prepare labels true source (exec r (_ ++ _)) = _
    rw [exec_append, he]
    unfold prepare
    rw [if_pos (by simp [exec, Step.apply, ready])]
    have := loadAll_holds (disk := saveAll r.disk (expected ds)) (fun d hd => (hg.2.2.2 d hd).2)
      (saveAll_holdsAll _ _ expected_final (by rw [expected_labels, hg.1]; exact hg.2.2.1))
    rw [hg.1] at this
    show ([], loadAll (saveAll r.disk (expected ds)) labels) = _
    rw [this]

/-- What interrupted attempts can leave: a folder without locks, or a complete dataset. -/
theorem attempts_invariant (labels : List Str) (autoLock : Bool) (S : List DM → Prop)
    (hS : ∀ ds, S ds → Good labels ds) (r r' : Repo) (hl : r.locks = [])
    (ha : Attempts labels autoLock S r r') :
    r'.locks = [] ∨ (ready r' = true ∧ ∃ ds, S ds ∧ HoldsAll r'.disk (expected ds)) := by
  induction ha with
  | none => exact .inl hl
  | more r' r'' source _ hsrc hcr ih =>
    have hnil : (prepare labels autoLock source r').1 = [] → r'' = r' := by
      intro h
      rw [h] at hcr
      rcases hcr with ⟨done, rest, h, rfl⟩ | ⟨done, l, n, f, g, rest, h, rfl⟩
      · obtain ⟨rfl, rfl⟩ := List.append_eq_nil_iff.1 h.symm; rfl
      · simp at h
    rcases ih with ih | ⟨hrdy, hds⟩
    · have hnr : ¬ ready r' = true := by simp [ready, ih]
      cases source with
      | error e =>
        have : (prepare labels autoLock (.error e) r').1 = [] := by
          unfold prepare; rw [if_neg hnr]
        rw [hnil this]
        exact .inl ih
      | ok ds =>
        have hg := hS ds (hsrc ds rfl)
        have hp : (prepare labels autoLock (.ok ds) r').1 = saveSteps (expected ds) ++
            (if autoLock then [.lock "exds".toList] else []) := by
          unfold prepare
          rw [if_neg hnr]
          simp only []
          rw [if_pos ih, map_finalize hg]
        rw [hp] at hcr
        have he := exec_save r' (expected ds) (expected_ne hg.2.1) expected_final
        rcases crash_append hcr with hcr | hcr
        · left
          rw [crash_locks hcr (saveSteps_noLock _)]
          exact ih
        · rw [he] at hcr
          rcases hcr with ⟨done, rest, h, rfl⟩ | ⟨done, l, n, f, g, rest, h, rfl⟩
          · by_cases hd : done = []
            · subst hd; exact .inl ih
            · right
              cases autoLock with
              | false => simp at h; exact absurd h.1 hd
              | true =>
                have : done = [.lock "exds".toList] := by
                  cases done with
                  | nil => exact absurd rfl hd
                  | cons s done =>
                    rw [if_pos rfl, List.cons_append] at h
                    obtain ⟨rfl, hrest⟩ := List.cons.inj h
                    obtain ⟨rfl, _⟩ := List.append_eq_nil_iff.1 hrest.symm
                    rfl
                subst this
                refine ⟨by simp [exec, Step.apply, ready], ds, hsrc ds rfl, ?_⟩
                exact saveAll_holdsAll _ _ expected_final (by
                  rw [expected_labels, hg.1]; exact hg.2.2.1)
          · exfalso
            cases autoLock with
            | false => simp at h
            | true =>
              rw [if_pos rfl] at h
              cases done with
              | nil => simp at h
              | cons s done => simp at h
    · have : (prepare labels autoLock source r').1 = [] := by
        unfold prepare; rw [if_pos hrdy]
      rw [hnil this]
      exact .inr ⟨hrdy, hds⟩

/-- **C58, every crash point.**  After any number of attempts that were interrupted at any point
(also while a file was being written), preparing the dataset gives the complete result of one
single build: that of this attempt, or that of an earlier attempt which had locked the folder. -/
theorem prepare_after_crashes (labels : List Str) (autoLock : Bool) (S : List DM → Prop)
    (hS : ∀ ds, S ds → Good labels ds) (r r' : Repo) (hl : r.locks = [])
    (ha : Attempts labels autoLock S r r') (ds : List DM) (hds : S ds) :
    ∃ ds', S ds' ∧ (prepare labels autoLock (.ok ds) r').2 = .ok (expected ds') := by
  rcases attempts_invariant labels autoLock S hS r r' hl ha with h | ⟨hr, ds', hs', hh⟩
  · exact ⟨ds, hds, (prepare_builds_then_loads labels autoLock ds r' (hS ds hds) h (.ok ds)).1⟩
  · refine ⟨ds', hs', ?_⟩
    have hg := hS ds' hs'
    unfold prepare
    rw [if_pos hr, ← hg.1]
    exact loadAll_holds (fun d hd => (hg.2.2.2 d hd).2) hh

/-- **C58.**  In particular, if the source always returns the same datasets, then crashes make no
difference. -/
theorem prepare_after_crashes_same (labels : List Str) (autoLock : Bool) (ds : List DM)
    (hg : Good labels ds) (r r' : Repo) (hl : r.locks = [])
    (ha : Attempts labels autoLock (fun x => x = ds) r r') :
    (prepare labels autoLock (.ok ds) r').2 = .ok (expected ds) := by
  obtain ⟨ds', rfl, h⟩ := prepare_after_crashes labels autoLock (fun x => x = ds)
    (fun x hx => hx ▸ hg) r r' hl ha ds rfl
  exact h

/-- **Finding.**  Any lock makes a folder count as ready: a folder that was locked before the dataset
was built is never built, and preparing it raises `FileNotFoundError`, whatever the source. -/
theorem locked_before_build_never_built (l : Str) (ls : List Str) (autoLock : Bool)
    (source : Except Err (List DM)) (r : Repo) (hf : r.folder = true) (hl : r.locks ≠ [])
    (he : r.disk l "X.mtx" = none) :
    prepare (l :: ls) autoLock source r = ([], .error Dataset.fileNotFound) := by
  unfold prepare
  rw [if_pos (by simp [ready, hf, hl])]
  unfold loadAll load readMatrix newDM
  simp only [he]

/-- A locked dataset whose folder is missing (the locks are kept elsewhere) is not saved: the error of a
locked dataset is raised and no file is written. -/
theorem locked_without_folder_raises (labels : List Str) (autoLock : Bool) (ds : List DM) (r : Repo)
    (hf : r.folder = false) (hl : r.locks ≠ []) :
    prepare labels autoLock (.ok ds) r = ([.mkdir], .error (.custom "ExperimentalDatasetError")) := by
  unfold prepare
  rw [if_neg (by simp [ready, hf])]
  simp only []
  rw [if_neg hl]
  rfl

/-- **Finding.**  Without the automatic lock the dataset is built again every time, although it is
complete on the disk. -/
theorem unlocked_always_rebuilt (labels : List Str) (ds ds' : List DM) (r : Repo)
    (hg : Good labels ds) (hg' : Good labels ds') (hl : r.locks = []) :
    (prepare labels false (.ok ds') (exec r (prepare labels false (.ok ds) r).1)).2 = .ok (expected ds') := by
  have h := (prepare_builds_then_loads labels false ds r hg hl (.ok ds)).2.1
  refine (prepare_builds_then_loads labels false ds' _ hg' ?_ (.ok ds)).1
  have hnr : ¬ ready r = true := by simp [ready, hl]
  have hp : (prepare labels false (.ok ds) r).1 = saveSteps (expected ds) := by
    unfold prepare
    rw [if_neg hnr]
    simp only []
    rw [if_pos hl, map_finalize hg]
    simp
  rw [hp, exec_locks (saveSteps_noLock _)]
  exact hl

/-! ## Concrete cases -/

/-- (Example.) -/
def exA : DM := { exSaved with final := false }
/-- (Example.) -/
def exB : DM := { exOther with final := false }
/-- (Example.) -/
def exLabels : List Str := ["dataset".toList, "dataset_train".toList]
/-- (Example.) -/
def exRepo : Repo := ⟨fun _ _ => none, false, []⟩

theorem exGood : Good exLabels [exA, exB] := by
  refine ⟨rfl, by simp, by decide, ?_⟩
  intro d hd
  simp only [List.mem_cons, List.not_mem_nil, or_false] at hd
  rcases hd with rfl | rfl
  · exact ⟨rfl, exSaved_storable⟩
  · refine ⟨rfl, ⟨?_, by decide⟩, ⟨?_, by decide⟩, ⟨?_, by decide⟩⟩ <;>
      (unfold PlainLabel exB exOther exSaved; decide)

theorem exSteps : (prepare exLabels true (.ok [exA, exB]) exRepo).1 =
    (prepare exLabels true (.ok [exA, exB]) exRepo).1.take 2 ++
      .write "dataset".toList "Y.mtx" (.matrix exA.Y.ncols exA.Y.rows) ::
      (prepare exLabels true (.ok [exA, exB]) exRepo).1.drop 3 := by
  have h : (prepare exLabels true (.ok [exA, exB]) exRepo).1[2]? =
    some (.write "dataset".toList "Y.mtx" (.matrix exA.Y.ncols exA.Y.rows)) := by decide +kernel
  generalize (prepare exLabels true (.ok [exA, exB]) exRepo).1 = l at h
  obtain ⟨hlt, h⟩ := List.getElem?_eq_some_iff.1 h
  rw [← h, List.getElem_cons_drop, List.take_append_drop]

/-- An attempt that dies while writing the second file. -/
example : ∃ r', Attempts exLabels true (fun x => x = [exA, exB]) exRepo r' ∧ r'.locks = [] ∧
    r'.disk "dataset".toList "Y.mtx" = some (.text "garbage".toList) ∧
    (prepare exLabels true (.ok [exA, exB]) r').2 = .ok (expected [exA, exB]) := by
  have hcr : CrashState exRepo (prepare exLabels true (.ok [exA, exB]) exRepo).1
      (exec exRepo ((prepare exLabels true (.ok [exA, exB]) exRepo).1.take 2 ++
        [.write "dataset".toList "Y.mtx" (.text "garbage".toList)])) :=
    .inr ⟨_, "dataset".toList, "Y.mtx", .matrix exA.Y.ncols exA.Y.rows, _,
      (prepare exLabels true (.ok [exA, exB]) exRepo).1.drop 3, exSteps, rfl⟩
  have ha := Attempts.more (autoLock := true) (S := fun x => x = [exA, exB]) _ _ _ (.ok [exA, exB])
    (.none exRepo) (fun ds h => by cases h; rfl) hcr
  exact ⟨_, ha, by decide +kernel, by decide +kernel, prepare_after_crashes_same exLabels true _ exGood _ _ rfl ha⟩

example : prepare exLabels true (.ok [exA, exB]) { exRepo with folder := false, locks := ["exds".toList] } =
    ([.mkdir], .error (.custom "ExperimentalDatasetError")) :=
  locked_without_folder_raises _ _ _ _ rfl (by simp)

example : ready (exec exRepo (prepare exLabels true (.ok [exA, exB]) exRepo).1) = true := by decide +kernel

end Mbtk.Exp.Build
