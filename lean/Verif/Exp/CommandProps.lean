import Verif.Exp.Command
/-!
# The commands of an experiment script (C71): what they run, print, keep and change
-/
namespace Mbtk.Exp
open Mbtk Mbtk.Dataset Spec

variable {δ : Type}

/-! ## Specification -/

namespace Spec

/-- The commands there are. (Specification.) -/
def commands : List (Obj × Verb) :=
  [(.paths, .show), (.expDef, .show), (.exdsDef, .show),
   (.exds, .show), (.exds, .build), (.exds, .lock), (.exds, .unlock), (.exds, .delete),
   (.exp, .show), (.exp, .run), (.exp, .lock), (.exp, .unlock), (.exp, .delete),
   (.parameters, .list), (.datapoints, .list)]

/-- What was at the path still is, unchanged; if there was nothing, then there is nothing, or only a
folder at depth at most `n`. (Specification.) -/
def Intact (n : Nat) (fs fs' : Fs) (p : Path) : Prop :=
  (∀ x, dictGet fs p = some x → dictGet fs' p = some x) ∧
  (dictGet fs p = none → dictGet fs' p = none ∨ (dictGet fs' p = some .dir ∧ p.length ≤ n))

/-- The command is to unlock the lock `experiment` of the experiment. (Specification.) -/
def UnlocksExp (S : Setup) (a : Args) : Prop :=
  a.object = .exp ∧ a.verb = .unlock ∧ S.exp.definition.lockType a.type = "experiment".toList

/-- The command is to unlock the lock `t` of the experimental dataset. (Specification.) -/
def UnlocksExds (x : Exds) (t : Str) (a : Args) : Prop :=
  a.object = .exds ∧ a.verb = .unlock ∧ x.definition.lockType a.type = t

/-- The folders of the experiment and of the experimental dataset do not contain one another.
(Specification.) -/
def Apart (S : Setup) : Prop := ∀ x, S.exds = some x → Unrelated x.path S.exp.path

/-- What `datapoints list` can print for a run: the data point in its file, or that it is missing.
(Specification.) -/
def Shows (S : Setup) (O : Outside δ) (fs : Fs) (r : Run) (d : Option δ) : Prop :=
  match d with
  | none => dictGet fs (S.exp.datapointFile r.params.id) = none
  | some v => ∃ c, dictGet fs (S.exp.datapointFile r.params.id) = some (.file c) ∧ O.unpickle c = .ok v

end Spec

/-! ## Lemmas: which entries a call leaves as they are -/

theorem intact_refl (n : Nat) (fs : Fs) (p : Path) : Intact n fs fs p := ⟨fun _ h => h, .inl⟩

theorem intact_trans {n : Nat} {a b c : Fs} {p : Path} (h : Intact n a b p) (h' : Intact n b c p) :
    Intact n a c p := by
  refine ⟨fun x hx => h'.1 x (h.1 x hx), fun hx => ?_⟩
  rcases h.2 hx with h0 | ⟨h0, hl⟩
  · exact h'.2 h0
  · exact .inr ⟨h'.1 _ h0, hl⟩

theorem intact_mkdirs {n : Nat} (fs : Fs) {p q : Path} (h : q.length ≤ n ∨ ¬ p <+: q) :
    Intact n fs (mkdirs fs q) p := by
  refine ⟨fun x hx => mkdirs_keeps hx, fun hx => ?_⟩
  by_cases hp : p ≠ [] ∧ p <+: q
  · rcases h with h | h
    · rcases mkdirsFrom_new fs [] q p (.inl hx) with h0 | h0
      · exact .inl h0
      · exact .inr ⟨h0, hp.2.length_le.trans h⟩
    · exact absurd hp.2 h
  · exact .inl (mkdirs_none hx hp)

theorem intact_touch {n : Nat} (fs : Fs) (d : Def) {p : Path} (h : d.lockDir.length ≤ n ∨ ¬ p <+: d.lockDir) :
    Intact n fs (d.touch fs) p := by
  unfold Def.touch
  split
  · exact intact_mkdirs fs h
  · exact intact_refl _ _ _

theorem intact_write {n : Nat} (fs : Fs) (c : Str) {p q : Path} (h : p ≠ q) :
    Intact n fs (writeText fs q c).1 p := by
  have := get_writeText fs q p c h
  exact ⟨fun x hx => by rw [this]; exact hx, fun hx => .inl (by rw [this]; exact hx)⟩

theorem intact_lock {n : Nat} (fs : Fs) (d : Def) (t : Str) {p : Path}
    (h : d.lockDir.length ≤ n ∨ ¬ p <+: d.lockDir)
    (hp : p ≠ d.lockFile (d.lockType t) ∨ exists' fs p = true) : Intact n fs (d.lock t fs).1 p := by
  unfold Def.lock
  rw [isLocked_state, touch_touch]
  by_cases hl : (d.isLocked (d.lockType t) fs).1 = true
  · rw [if_pos hl]; exact intact_touch fs d h
  · rw [if_neg hl]
    by_cases e : p = d.lockFile (d.lockType t)
    · exfalso
      apply hl
      refine ((is_locked_iff fs d (d.lockType t)).2.1 (lockType_ne_nil d t)).2 ?_
      rcases hp with hp | hp
      · exact absurd e hp
      · unfold Held; rw [← e]; exact hp
    · exact intact_trans (intact_touch fs d h) (intact_write _ _ e)

theorem intact_unlock {n : Nat} (fs : Fs) (d : Def) (t : Str) {p : Path}
    (h : d.lockDir.length ≤ n ∨ ¬ p <+: d.lockDir) (hp : p ≠ d.lockFile (d.lockType t)) :
    Intact n fs (d.unlock t fs).1 p := by
  unfold Def.unlock
  rw [isLocked_state, touch_touch]
  by_cases hl : (d.isLocked (d.lockType t) fs).1 = true
  · rw [if_pos hl]
    refine intact_trans (intact_touch fs d h) ?_
    have := get_unlink (d.touch fs) (d.lockFile (d.lockType t)) p
    rw [if_neg hp] at this
    exact ⟨fun x hx => by rw [this]; exact hx, fun hx => .inl (by rw [this]; exact hx)⟩
  · rw [if_neg hl]; exact intact_touch fs d h

theorem intact_delete {n : Nat} (fs : Fs) (d : Def) {p : Path}
    (h : d.lockDir.length ≤ n ∨ ¬ p <+: d.lockDir) (hp : (∃ t, Held fs d t) ∨ ¬ d.path <+: p) :
    Intact n fs (d.deleteFolder fs).1 p := by
  unfold Def.deleteFolder
  rw [isLocked_state]
  by_cases he : exists' fs d.path = false
  · rw [if_pos he]; exact intact_refl _ _ _
  · rw [if_neg he]
    by_cases hl : (d.isLocked [] fs).1 = true
    · rw [if_pos hl]; exact intact_touch fs d h
    · rw [if_neg hl]
      rcases hp with hp | hp
      · exact absurd ((is_locked_iff fs d []).1.2 hp) hl
      · refine intact_trans (intact_touch fs d h) ?_
        have := get_rmtree (d.touch fs) d.path p
        rw [if_neg hp] at this
        exact ⟨fun x hx => by rw [show (rmtree (d.touch fs) d.path, (none : Option Err)).1 = _ from rfl, this]; exact hx,
          fun hx => .inl (by rw [show (rmtree (d.touch fs) d.path, (none : Option Err)).1 = _ from rfl, this]; exact hx)⟩

/-- The path of an action. (Specification.) -/
def Action.path : Action → Path
  | .mkdir p => p
  | .create p => p
  | .write p _ => p

theorem intact_exec {n : Nat} (fs : Fs) (as : List Action) {p : Path} (ht : ∀ a ∈ as, ¬ Touches a p)
    (hm : ∀ a ∈ as, Short n a ∨ ¬ p <+: a.path) : Intact n fs (exec fs as) p := by
  induction as generalizing fs with
  | nil => exact intact_refl _ _ _
  | cons a as ih =>
    refine intact_trans ?_ (ih (a.apply fs) (fun b hb => ht b (by simp [hb])) (fun b hb => hm b (by simp [hb])))
    have h := ht a (by simp)
    have h' := hm a (by simp)
    have hset : ∀ q y, p ≠ q → Intact n fs (dictSet fs q y) p := by
      intro q y hq
      have e : dictGet (dictSet fs q y) p = dictGet fs p := by rw [dictGet_dictSet, if_neg (Ne.symm hq)]
      exact ⟨fun x hx => by rw [e]; exact hx, fun hx => .inl (by rw [e]; exact hx)⟩
    cases a with
    | mkdir q =>
      apply intact_mkdirs
      rcases h' with h' | h'
      · exact .inl (h' q rfl)
      · exact .inr h'
    | create q => exact hset q _ (by rintro rfl; exact h (.inl rfl))
    | write q c => exact hset q _ (by rintro rfl; exact h (.inr ⟨c, rfl⟩))

/-- Paths below one of two unrelated folders. -/
theorem unrelated_below {a b p : Path} (h : Unrelated a b) (hp : b <+: p) :
    ¬ a <+: p ∧ ∀ q, a <+: q → ¬ p <+: q := by
  constructor
  · intro h'
    rcases List.prefix_or_prefix_of_prefix h' hp with h1 | h1
    · exact h.1 h1
    · exact h.2 h1
  · intro q hq hpq
    rcases List.prefix_or_prefix_of_prefix hq (hp.trans hpq) with h1 | h1
    · exact h.1 h1
    · exact h.2 h1

/-- Actions below one folder leave an unrelated folder as it is. -/
theorem intact_exec_below {n : Nat} (fs : Fs) (as : List Action) {a b p : Path} (h : Unrelated a b)
    (hp : b <+: p) (has : ∀ x ∈ as, a <+: x.path) : Intact n fs (exec fs as) p := by
  have hu := unrelated_below h hp
  refine intact_exec fs as (fun x hx ht => ?_) (fun x hx => .inr (hu.2 _ (has x hx)))
  have := has x hx
  rcases ht with rfl | ⟨c, rfl⟩
  · exact hu.1 this
  · exact hu.1 this

/-! ## Lemmas: the folders in which a command acts -/

theorem logActions_below (cfg : Config) (id log : Str) : ∀ a ∈ logActions cfg id log, cfg.path <+: a.path := by
  intro a ha
  unfold logActions at ha
  split at ha
  · simp only [List.mem_cons, List.not_mem_nil, or_false] at ha
    rcases ha with rfl | rfl | rfl <;> simp [Action.path, Config.logFilePath, Config.logDir]
  · simp at ha

theorem saveActions_below (cfg : Config) (id : Str) (b : Behaviour) :
    ∀ a ∈ (saveActions cfg id b).1, cfg.path <+: a.path := by
  intro a ha
  unfold saveActions at ha
  split at ha
  · simp only [List.mem_cons, List.not_mem_nil, or_false] at ha
    subst ha; simp [Action.path, Config.datapointDir]
  · simp only [List.mem_cons, List.not_mem_nil, or_false] at ha
    rcases ha with rfl | rfl | rfl <;> simp [Action.path, Config.datapointFile, Config.datapointDir]

theorem loop_below (cfg : Config) (beh : Params → Behaviour) (runs : List Params) :
    ∀ a ∈ (loop cfg beh runs).1, cfg.path <+: a.path := by
  intro a ha
  obtain ⟨p, _, _, h⟩ := loop_mem ha
  unfold runAlgorithm at h
  split at h
  · simp at h
  · split at h
    · exact logActions_below cfg _ _ a h
    · split at h
      · rcases List.mem_append.1 h with h | h
        · exact logActions_below cfg _ _ a h
        · exact saveActions_below cfg _ _ a h
      · exact logActions_below cfg _ _ a h

theorem start_below (cfg : Config) : ∀ a ∈ startActions cfg ++ folderActions cfg, cfg.path <+: a.path := by
  intro a ha
  simp only [startActions, folderActions, List.mem_append, List.mem_cons, List.not_mem_nil, or_false] at ha
  rcases ha with (rfl | rfl) | (rfl | rfl) <;>
    simp [Action.path, Config.definition, Def.lockDir, Config.logDir, Config.datapointDir]

theorem end_below (cfg : Config) : ∀ a ∈ endActions cfg, cfg.path <+: a.path := by
  intro a ha
  unfold endActions at ha
  split at ha
  · simp only [List.mem_cons, List.not_mem_nil, or_false] at ha
    rcases ha with rfl | rfl | rfl <;>
      simp [Action.path, Config.lockFile, Config.definition, Def.lockFile, Def.lockDir]
  · simp at ha

theorem writes_below (x : Exds) (files : List Saved) : ∀ a ∈ x.writes files, x.path <+: a.path := by
  intro a ha
  unfold Exds.writes at ha
  obtain ⟨f, _, h⟩ := List.mem_flatMap.1 ha
  simp only [List.mem_cons, List.not_mem_nil, or_false] at h
  rcases h with rfl | rfl | rfl <;> simp [Action.path, Exds.file]

/-- `build` acts in the folder of the dataset only. -/
theorem build_outside {n : Nat} (x : Exds) (source : Except Err (List Saved)) (fs : Fs) {b p : Path}
    (h : Unrelated x.path b) (hp : b <+: p) : Intact n fs (x.build source fs).1 p := by
  have hu := unrelated_below h hp
  have hm : Intact n fs (mkdirs fs x.path) p := intact_mkdirs fs (.inr (hu.2 _ (List.prefix_refl _)))
  have hw : ∀ files, Intact n fs (exec (mkdirs fs x.path) (x.writes files)) p := fun files =>
    intact_trans hm (intact_exec_below _ _ h hp (writes_below x files))
  unfold Exds.build
  cases source with
  | error e => exact intact_refl _ _ _
  | ok files =>
    simp only []
    split
    · exact intact_refl _ _ _
    · split
      · exact hm
      · split
        · refine intact_trans (hw files) (intact_lock _ _ _ (.inr ?_) (.inl ?_))
          · exact hu.2 _ (path_prefix_lockDir x.definition)
          · intro e; exact hu.1 (e ▸ path_prefix_lockFile x.definition _)
        · exact hw files

/-- `build` of a locked dataset changes nothing (it may make the folder). -/
theorem build_locked (x : Exds) (source : Except Err (List Saved)) (fs : Fs) (t : Str)
    (h : Held fs x.definition t) (p : Path) : Intact x.path.length fs (x.build source fs).1 p := by
  have hm : Intact x.path.length fs (mkdirs fs x.path) p := intact_mkdirs fs (.inl (le_refl _))
  unfold Exds.build
  cases source with
  | error e => exact intact_refl _ _ _
  | ok files =>
    simp only []
    split
    · exact intact_refl _ _ _
    · rw [if_pos]
      · exact hm
      · exact (is_locked_iff _ x.definition []).1.2 ⟨t, exists_keeps h (fun y hy => mkdirs_keeps hy)⟩

/-- Building a locked dataset that is saved on the disk raises the error of a locked dataset, and writes no
file: nothing but the missing folders of the path is made. -/
theorem build_locked_raises (x : Exds) (files : List Saved) (fs : Fs) (t : Str)
    (hs : x.saves = true) (h : Held fs x.definition t) :
    x.build (.ok files) fs = (mkdirs fs x.path, some (.custom "ExperimentalDatasetError")) := by
  have hl : (x.definition.isLocked [] (mkdirs fs x.path)).1 = true :=
    (is_locked_iff _ x.definition []).1.2 ⟨t, exists_keeps h (fun y hy => mkdirs_keeps hy)⟩
  unfold Exds.build
  simp only []
  rw [if_neg (by simp [hs]), if_pos hl]
  rfl

theorem prepare_outside {n : Nat} (S : Setup) (O : Outside δ) (fs : Fs) (ha : Apart S) {p : Path}
    (hp : S.exp.path <+: p) : Intact n fs (prepareExds S O fs).1 p := by
  unfold prepareExds
  split
  · exact intact_refl _ _ _
  · rename_i x hx
    split
    · exact intact_refl _ _ _
    · exact build_outside x _ _ (ha x hx) hp

theorem prepare_locked (S : Setup) (O : Outside δ) (fs : Fs) (x : Exds) (hx : S.exds = some x) (t : Str)
    (h : Held fs x.definition t) (p : Path) : Intact x.path.length fs (prepareExds S O fs).1 p := by
  unfold prepareExds
  rw [hx]
  simp only []
  split
  · exact intact_refl _ _ _
  · exact build_locked x _ _ t h p

/-- The file system after a run of the experiment. -/
theorem runExperiment_fs (S : Setup) (O : Outside δ) (runs : List Params) (fs : Fs) :
    (Locked S.exp fs ∧ (runExperiment S O runs fs).fs = exec fs (startActions S.exp) ∧
      (runExperiment S O runs fs).ran = [] ∧ (runExperiment S O runs fs).result = .error folderLocked) ∨
    (¬ Locked S.exp fs ∧ ∃ as, (∀ a ∈ as, S.exp.path <+: a.path) ∧ (runExperiment S O runs fs).fs =
      exec (prepareExds S O (exec fs (startActions S.exp ++ folderActions S.exp))).1 as) := by
  unfold runExperiment
  by_cases h : exists' (exec fs (startActions S.exp)) S.exp.lockFile = true
  · rw [if_pos h]
    exact .inl ⟨(exists_start _ _).1 h, rfl, rfl, rfl⟩
  · rw [if_neg h]
    refine .inr ⟨fun h' => h ((exists_start _ _).2 h'), ?_⟩
    split
    · exact ⟨[], by simp, rfl⟩
    · split
      · exact ⟨_, loop_below _ _ _, rfl⟩
      · refine ⟨_, ?_, rfl⟩
        intro a ha
        rcases List.mem_append.1 ha with ha | ha
        · exact loop_below _ _ _ a ha
        · exact end_below _ a ha

/-- What holds of the file system left by every call holds of the file system left by the command. -/
theorem handle_fs (S : Setup) (O : Outside δ) (a : Args) (fs : Fs) (P : Fs → Prop) (h0 : P fs)
    (hdef : P (S.exp.definition.touch fs))
    (hbuild : ∀ x, S.exds = some x → P (x.build O.source fs).1)
    (hxl : ∀ x, S.exds = some x → P (x.definition.lock a.type fs).1)
    (hxu : ∀ x, S.exds = some x → a.object = .exds → a.verb = .unlock → P (x.definition.unlock a.type fs).1)
    (hxd : ∀ x, S.exds = some x → P (x.definition.deleteFolder fs).1)
    (hrun : ∀ runs, P (runExperiment S O runs fs).fs)
    (hel : P (S.exp.definition.lock a.type fs).1)
    (heu : a.object = .exp → a.verb = .unlock → P (S.exp.definition.unlock a.type fs).1)
    (hed : P (S.exp.definition.deleteFolder fs).1)
    (hdp : P (mkdirs fs S.exp.datapointDir)) : P (handle S O a fs).fs := by
  have hcall : ∀ (r : Fs × Option Err) (out : List (Line δ)), P r.1 → P (Handled.ofCall r out).fs := by
    intro r out h
    unfold Handled.ofCall
    split <;> exact h
  have hwith : ∀ f : Exds → Handled δ, (∀ x, S.exds = some x → P (f x).fs) → P (withExds S fs f).fs := by
    intro f h
    unfold withExds
    split
    · exact h0
    · rename_i x hx; exact h x hx
  have hruns : P (expRun S O a.index fs).fs := by
    unfold expRun
    split
    · exact h0
    · exact hrun _
  have hpar : P (parametersList S a.index fs : Handled δ).fs := by
    unfold parametersList
    split <;> exact h0
  have hdps : P (datapointsList S O a.index fs).fs := by
    unfold datapointsList
    split
    · exact h0
    · split <;> exact hdp
  obtain ⟨obj, verb, type, index⟩ := a
  unfold handle
  split
  · exact h0
  · exact hdef
  · exact hwith _ (fun x hx => h0)
  · refine hwith _ (fun x hx => ?_)
    unfold exdsShow
    split
    · exact hcall _ _ h0
    · exact h0
  · refine hwith _ (fun x hx => ?_)
    unfold exdsBuild
    split
    · exact h0
    · exact hcall _ _ (hbuild x hx)
  · exact hwith _ (fun x hx => hcall _ _ (hxl x hx))
  · rename_i h1 h2; exact hwith _ (fun x hx => hcall _ _ (hxu x hx h1 h2))
  · exact hwith _ (fun x hx => hcall _ _ (hxd x hx))
  · exact h0
  · exact hruns
  · exact hcall _ _ hel
  · rename_i h1 h2; exact hcall _ _ (heu h1 h2)
  · exact hcall _ _ hed
  · exact hpar
  · exact hdps
  · exact h0

theorem handle_ran (S : Setup) (O : Outside δ) (a : Args) (fs : Fs) (hr : (handle S O a fs).ran ≠ []) :
    a.object = .exp ∧ a.verb = .run ∧ ¬ Locked S.exp fs := by
  have hcall : ∀ (r : Fs × Option Err) (out : List (Line δ)), (Handled.ofCall r out).ran = [] := by
    intro r out
    unfold Handled.ofCall
    split <;> rfl
  have hwith : ∀ f : Exds → Handled δ, (∀ x, (f x).ran = []) → (withExds S fs f).ran = [] := by
    intro f h
    unfold withExds
    split
    · rfl
    · exact h _
  obtain ⟨obj, verb, type, index⟩ := a
  unfold handle at hr
  split at hr
  · exact absurd rfl hr
  · exact absurd rfl hr
  · exact absurd (hwith _ (fun x => rfl)) hr
  · refine absurd (hwith _ (fun x => ?_)) hr
    unfold exdsShow
    split
    · exact hcall _ _
    · rfl
  · refine absurd (hwith _ (fun x => ?_)) hr
    unfold exdsBuild
    split
    · rfl
    · exact hcall _ _
  · exact absurd (hwith _ (fun x => hcall _ _)) hr
  · exact absurd (hwith _ (fun x => hcall _ _)) hr
  · exact absurd (hwith _ (fun x => hcall _ _)) hr
  · exact absurd rfl hr
  · rename_i h1 h2
    refine ⟨h1, h2, fun hl => hr ?_⟩
    unfold expRun
    split
    · rfl
    · rcases runExperiment_fs S O (_ : List Params) fs with h | h
      · exact h.2.2.1
      · exact absurd hl h.1
  · exact absurd (hcall _ _) hr
  · exact absurd (hcall _ _) hr
  · exact absurd (hcall _ _) hr
  · unfold parametersList at hr
    split at hr <;> exact absurd rfl hr
  · unfold datapointsList at hr
    split at hr
    · exact absurd rfl hr
    · split at hr <;> exact absurd rfl hr
  · exact absurd rfl hr

theorem exp_lockDir_length (cfg : Config) : cfg.definition.lockDir.length = cfg.path.length + 2 := by
  simp [Config.definition, Def.lockDir]

/-- One command while the experiment is locked. -/
theorem exp_step (S : Setup) (ha : Apart S) (O : Outside δ) (a : Args) (fs : Fs) (h : Locked S.exp fs)
    (hu : ¬ UnlocksExp S a) :
    Locked S.exp (handle S O a fs).fs ∧
    ∀ p, S.exp.path <+: p → ¬ IsLockOf S.exp.definition p →
      Intact (S.exp.path.length + 2) fs (handle S O a fs).fs p := by
  suffices hs : ∀ p, S.exp.path <+: p → (p = S.exp.lockFile ∨ ¬ IsLockOf S.exp.definition p) →
      Intact (S.exp.path.length + 2) fs (handle S O a fs).fs p by
    refine ⟨?_, fun p hp hl => hs p hp (.inr hl)⟩
    exact exists_keeps h (hs S.exp.lockFile (path_prefix_lockFile S.exp.definition _) (.inl rfl)).1
  intro p hp hl
  have hdir : S.exp.definition.lockDir.length ≤ S.exp.path.length + 2 := (exp_lockDir_length S.exp).le
  have hxdir : ∀ x, S.exds = some x → ¬ p <+: x.definition.lockDir := fun x hx =>
    (unrelated_below (ha x hx) hp).2 _ (path_prefix_lockDir x.definition)
  have hxf : ∀ x t, S.exds = some x → p ≠ x.definition.lockFile t := fun x t hx e =>
    (unrelated_below (ha x hx) hp).1 (e ▸ path_prefix_lockFile x.definition t)
  apply handle_fs S O a fs (fun fs' => Intact (S.exp.path.length + 2) fs fs' p)
  · exact intact_refl _ _ _
  · exact intact_touch fs _ (.inl hdir)
  · exact fun x hx => build_outside x _ _ (ha x hx) hp
  · exact fun x hx => intact_lock fs _ _ (.inr (hxdir x hx)) (.inl (hxf x _ hx))
  · exact fun x hx _ _ => intact_unlock fs _ _ (.inr (hxdir x hx)) (hxf x _ hx)
  · exact fun x hx => intact_delete fs _ (.inr (hxdir x hx)) (.inr (unrelated_below (ha x hx) hp).1)
  · intro runs
    rcases runExperiment_fs S O runs fs with h' | h'
    · rw [h'.2.1]
      exact intact_exec fs _ (fun b hb => start_touches (List.mem_append.2 (.inl hb)) p)
        (fun b hb => .inl (start_short (List.mem_append.2 (.inl hb))))
    · exact absurd h h'.1
  · refine intact_lock fs _ _ (.inl hdir) ?_
    rcases hl with rfl | hl
    · exact .inr h
    · exact .inl (fun e => hl ⟨_, e⟩)
  · intro h1 h2
    refine intact_unlock fs _ _ (.inl hdir) ?_
    rcases hl with rfl | hl
    · intro e
      exact hu ⟨h1, h2, (lockFile_inj e).symm⟩
    · exact fun e => hl ⟨_, e⟩
  · exact intact_delete fs _ (.inl hdir) (.inl ⟨_, h⟩)
  · exact intact_mkdirs fs (.inl (by simp [Config.datapointDir]))

/-- One command while the experimental dataset is locked. -/
theorem exds_step (S : Setup) (ha : Apart S) (x : Exds) (hx : S.exds = some x) (t : Str) (O : Outside δ)
    (a : Args) (fs : Fs) (h : Held fs x.definition t) (hu : ¬ UnlocksExds x t a) :
    Held (handle S O a fs).fs x.definition t ∧
    ∀ p, x.path <+: p → ¬ IsLockOf x.definition p → Intact x.path.length fs (handle S O a fs).fs p := by
  suffices hs : ∀ p, x.path <+: p → (p = x.definition.lockFile t ∨ ¬ IsLockOf x.definition p) →
      Intact x.path.length fs (handle S O a fs).fs p by
    refine ⟨?_, fun p hp hl => hs p hp (.inr hl)⟩
    exact exists_keeps h (hs _ (path_prefix_lockFile x.definition _) (.inl rfl)).1
  intro p hp hl
  have hun : Unrelated S.exp.path x.path := ⟨(ha x hx).2, (ha x hx).1⟩
  have hub := unrelated_below hun hp
  have hedir : ¬ p <+: S.exp.definition.lockDir := hub.2 _ (path_prefix_lockDir S.exp.definition)
  have hef : ∀ u, p ≠ S.exp.definition.lockFile u := fun u e => hub.1 (e ▸ path_prefix_lockFile S.exp.definition u)
  have hdir : x.definition.lockDir.length ≤ x.path.length := le_refl _
  have hx' : ∀ y, S.exds = some y → y = x := fun y hy => Option.some.inj (hy.symm.trans hx)
  apply handle_fs S O a fs (fun fs' => Intact x.path.length fs fs' p)
  · exact intact_refl _ _ _
  · exact intact_touch fs _ (.inr hedir)
  · intro y hy
    rw [hx' y hy]
    exact build_locked x _ _ t h p
  · intro y hy
    rw [hx' y hy]
    refine intact_lock fs _ _ (.inl hdir) ?_
    rcases hl with rfl | hl
    · exact .inr h
    · exact .inl (fun e => hl ⟨_, e⟩)
  · intro y hy h1 h2
    rw [hx' y hy]
    refine intact_unlock fs _ _ (.inl hdir) ?_
    rcases hl with rfl | hl
    · intro e
      exact hu ⟨h1, h2, (lockFile_inj e).symm⟩
    · exact fun e => hl ⟨_, e⟩
  · intro y hy
    rw [hx' y hy]
    exact intact_delete fs _ (.inl hdir) (.inl ⟨_, h⟩)
  · intro runs
    have hst : ∀ as, (∀ b ∈ as, b ∈ startActions S.exp ++ folderActions S.exp) → ∀ q, x.path <+: q →
        Intact x.path.length fs (exec fs as) q := fun as has q hq =>
      intact_exec_below fs as hun hq (fun b hb => start_below _ b (has b hb))
    rcases runExperiment_fs S O runs fs with h' | ⟨_, as, has, e⟩
    · rw [h'.2.1]
      exact hst _ (fun b hb => List.mem_append.2 (.inl hb)) p hp
    · rw [e]
      refine intact_trans (hst _ (fun b hb => hb) p hp) (intact_trans ?_ (intact_exec_below _ as hun hp has))
      refine prepare_locked S O _ x hx t ?_ p
      exact exists_keeps h (hst _ (fun b hb => hb) _ (path_prefix_lockFile x.definition t)).1
  · exact intact_lock fs _ _ (.inr hedir) (.inl (hef _))
  · exact fun _ _ => intact_unlock fs _ _ (.inr hedir) (hef _)
  · exact intact_delete fs _ (.inr hedir) (.inr hub.1)
  · exact intact_mkdirs fs (.inr (hub.2 _ ⟨_, rfl⟩))

/-! ## C71: dispatch -/

/-- **C71.**  `handle_command` returns `False`, does nothing and prints nothing for anything but the
commands in the table, and never returns `False` for those. -/
theorem dispatch_exact (S : Setup) (O : Outside δ) (a : Args) (fs : Fs) :
    ((a.object, a.verb) ∉ commands →
      (handle S O a fs).result = .ok false ∧ (handle S O a fs).fs = fs ∧ (handle S O a fs).out = [] ∧
      (handle S O a fs).ran = []) ∧
    ((a.object, a.verb) ∈ commands → (handle S O a fs).result ≠ .ok false) := by
  have hcall : ∀ (r : Fs × Option Err) (out : List (Line δ)), (Handled.ofCall r out).result ≠ .ok false := by
    intro r out
    unfold Handled.ofCall
    split <;> simp
  have hwith : ∀ f : Exds → Handled δ, (∀ x, (f x).result ≠ .ok false) → (withExds S fs f).result ≠ .ok false := by
    intro f h
    unfold withExds
    split
    · simp
    · exact h _
  have hrun : (expRun S O a.index fs).result ≠ .ok false := by
    unfold expRun runExperiment
    split
    · simp
    · split
      · simp
      · split
        · simp
        · split <;> simp
  have hpar : (parametersList S a.index fs : Handled δ).result ≠ .ok false := by
    unfold parametersList
    split <;> simp
  have hdp : (datapointsList S O a.index fs).result ≠ .ok false := by
    unfold datapointsList
    split
    · simp
    · split <;> simp
  have hshow : ∀ x, (exdsShow O x fs).result ≠ .ok false := by
    intro x
    unfold exdsShow
    split
    · exact hcall _ _
    · simp
  have hbuild : ∀ x, (exdsBuild O x fs).result ≠ .ok false := by
    intro x
    unfold exdsBuild
    split
    · simp
    · exact hcall _ _
  constructor
  · intro h
    obtain ⟨obj, verb, type, index⟩ := a
    unfold handle
    split <;> first
      | exact ⟨rfl, rfl, rfl, rfl⟩
      | (rename_i h1 h2
         simp only [] at h1 h2
         subst h1 h2
         exact absurd (by simp [commands]) h)
  · intro h
    unfold handle
    simp only [commands, List.mem_cons, Prod.mk.injEq, List.not_mem_nil, or_false] at h
    rcases h with ⟨h1, h2⟩ | ⟨h1, h2⟩ | ⟨h1, h2⟩ | ⟨h1, h2⟩ | ⟨h1, h2⟩ | ⟨h1, h2⟩ | ⟨h1, h2⟩ | ⟨h1, h2⟩ |
      ⟨h1, h2⟩ | ⟨h1, h2⟩ | ⟨h1, h2⟩ | ⟨h1, h2⟩ | ⟨h1, h2⟩ | ⟨h1, h2⟩ | ⟨h1, h2⟩ <;> rw [h1, h2] <;> simp only []
    · simp
    · unfold expDefShow; simp
    · exact hwith _ (fun x => by unfold exdsDefShow; simp)
    · exact hwith _ hshow
    · exact hwith _ hbuild
    · exact hwith _ (fun x => hcall _ _)
    · exact hwith _ (fun x => hcall _ _)
    · exact hwith _ (fun x => hcall _ _)
    · simp
    · exact hrun
    · exact hcall _ _
    · exact hcall _ _
    · exact hcall _ _
    · exact hpar
    · exact hdp

/-! ## C71: what is locked stays -/

/-- **C71.**  While the experiment is locked: after any history of commands, in any order and with any
behaviour of everything else, in which the lock is not taken off, the experiment is still locked,
no algorithm has been run, and everything in its folder (apart from lock files) is as it was;
nothing has been added but folders, not deeper than `<folder>/<name>/<subexperiment>`. -/
theorem locked_experiment_survives (S : Setup) (ha : Apart S) (h : List (Outside δ × Args)) (fs : Fs)
    (hl : Locked S.exp fs) (hu : ∀ c ∈ h, ¬ UnlocksExp S c.2) :
    Locked S.exp (session S h fs) ∧
    (∀ p, S.exp.path <+: p → ¬ IsLockOf S.exp.definition p →
      Intact (S.exp.path.length + 2) fs (session S h fs) p) ∧
    ∀ before c after, h = before ++ c :: after → (handle S c.1 c.2 (session S before fs)).ran = [] := by
  have main : ∀ (h : List (Outside δ × Args)) (fs : Fs), Locked S.exp fs → (∀ c ∈ h, ¬ UnlocksExp S c.2) →
      Locked S.exp (session S h fs) ∧ ∀ p, S.exp.path <+: p → ¬ IsLockOf S.exp.definition p →
        Intact (S.exp.path.length + 2) fs (session S h fs) p := by
    intro h
    induction h with
    | nil => exact fun fs hl _ => ⟨hl, fun p _ _ => intact_refl _ _ _⟩
    | cons c cs ih =>
      intro fs hl hu
      have h1 := exp_step S ha c.1 c.2 fs hl (hu c (by simp))
      have h2 := ih _ h1.1 (fun c' hc' => hu c' (by simp [hc']))
      exact ⟨h2.1, fun p hp hn => intact_trans (h1.2 p hp hn) (h2.2 p hp hn)⟩
  have hm := main h fs hl hu
  refine ⟨hm.1, hm.2, fun before c after e => ?_⟩
  by_contra hr
  have hb := main before fs hl (fun c' hc' => hu c' (by rw [e]; simp [hc']))
  exact (handle_ran S c.1 c.2 _ hr).2.2 hb.1

/-- **C71.**  While the experimental dataset is locked, with whatever type: after any history of
commands in which that lock is not taken off (also runs of the experiment), the dataset is still
locked and everything in its folder (apart from lock files) is as it was, and nothing new is in it. -/
theorem locked_exds_survives (S : Setup) (ha : Apart S) (x : Exds) (hx : S.exds = some x) (t : Str)
    (h : List (Outside δ × Args)) (fs : Fs) (hl : Held fs x.definition t)
    (hu : ∀ c ∈ h, ¬ UnlocksExds x t c.2) :
    Held (session S h fs) x.definition t ∧
    ∀ p, x.path <+: p → ¬ IsLockOf x.definition p → Intact x.path.length fs (session S h fs) p := by
  induction h generalizing fs with
  | nil => exact ⟨hl, fun p _ _ => intact_refl _ _ _⟩
  | cons c cs ih =>
    have h1 := exds_step S ha x hx t c.1 c.2 fs hl (hu c (by simp))
    have h2 := ih _ h1.1 (fun c' hc' => hu c' (by simp [hc']))
    exact ⟨h2.1, fun p hp hn => intact_trans (h1.2 p hp hn) (h2.2 p hp hn)⟩

/-- **C71.**  `show` and `list` never create, change or remove a file, nor remove a folder. -/
theorem looking_changes_no_file (S : Setup) (O : Outside δ) (a : Args) (fs : Fs)
    (hv : a.verb = .show ∨ a.verb = .list) (p : Path) :
    (∀ y, dictGet fs p = some y → dictGet (handle S O a fs).fs p = some y) ∧
    (dictGet fs p = none → dictGet (handle S O a fs).fs p = none ∨ dictGet (handle S O a fs).fs p = some .dir) := by
  have hm : ∀ q, Intact q.length fs (mkdirs fs q) p := fun q => intact_mkdirs fs (.inl (le_refl _))
  have key : ∃ n, Intact n fs (handle S O a fs).fs p := by
    have hcall : ∀ (e : Option Err) (out : List (Line δ)), (Handled.ofCall (fs, e) out).fs = fs := by
      intro e out
      unfold Handled.ofCall
      split <;> rfl
    obtain ⟨obj, verb, type, index⟩ := a
    simp only [] at hv
    have h0 : ∃ n, Intact n fs fs p := ⟨0, intact_refl _ _ _⟩
    have hwith : ∀ f : Exds → Handled δ, (∀ x, (f x).fs = fs) → ∃ n, Intact n fs (withExds S fs f).fs p := by
      intro f h
      unfold withExds
      split
      · exact h0
      · rw [h]; exact h0
    unfold handle
    split <;> first
      | exact h0
      | (rename_i h1 h2; simp only [] at h2; subst h2; simp at hv; done)
      | skip
    · exact ⟨_, hm _⟩
    · exact hwith _ (fun x => rfl)
    · refine hwith _ (fun x => ?_)
      unfold exdsShow
      split
      · exact hcall _ _
      · rfl
    · unfold parametersList
      split <;> exact h0
    · unfold datapointsList
      split
      · exact h0
      · split <;> exact ⟨_, hm _⟩
  obtain ⟨n, hn⟩ := key
  exact ⟨hn.1, fun h => (hn.2 h).imp_right And.left⟩

/-- **C71.**  An index that cannot be read is refused before anything is done. -/
theorem bad_index_no_effect (S : Setup) (O : Outside δ) (a : Args) (fs : Fs) (e : Err)
    (hc : (a.object = .exp ∧ a.verb = .run) ∨ (a.object = .parameters ∧ a.verb = .list) ∨
      (a.object = .datapoints ∧ a.verb = .list))
    (hs : selectRuns a.index S.runs = .error e) :
    (handle S O a fs).fs = fs ∧ (handle S O a fs).out = [] ∧ (handle S O a fs).ran = [] ∧
    (handle S O a fs).result = .error e := by
  unfold handle
  rcases hc with ⟨h1, h2⟩ | ⟨h1, h2⟩ | ⟨h1, h2⟩ <;> rw [h1, h2] <;> simp only []
  · unfold expRun; rw [hs]; exact ⟨rfl, rfl, rfl, rfl⟩
  · unfold parametersList; rw [hs]; exact ⟨rfl, rfl, rfl, rfl⟩
  · unfold datapointsList; rw [hs]; exact ⟨rfl, rfl, rfl, rfl⟩

/-! ## C71: running and listing -/

theorem intact_eq {n : Nat} {fs fs' : Fs} {p : Path} (h : Intact n fs fs' p) (hn : n < p.length) :
    dictGet fs' p = dictGet fs p := by
  cases hx : dictGet fs p with
  | some x => exact h.1 x hx
  | none =>
    rcases h.2 hx with h' | ⟨_, h'⟩
    · exact h'
    · omega

theorem listDatapoints_shows (S : Setup) (O : Outside δ) (fs : Fs) (runs : List Run) (f : Run → Option δ)
    (h : ∀ r ∈ runs, Shows S O fs r (f r)) :
    listDatapoints S O fs runs = (runs.map (fun r => .datapoint r.number r.params.id (f r)), none) := by
  induction runs with
  | nil => rfl
  | cons r rs ih =>
    have ih := ih (fun q hq => h q (by simp [hq]))
    have hr := h r (by simp)
    unfold listDatapoints
    rw [ih, List.map_cons]
    unfold Shows at hr
    cases hf : f r with
    | none =>
      rw [hf] at hr
      simp only [] at hr
      rw [hr]
    | some v =>
      rw [hf] at hr
      obtain ⟨c, h1, h2⟩ := hr
      rw [h1]
      simp only []
      rw [h2]

/-- **C71.**  `datapoints list --index i` prints, for each selected run in order, its data point, or
that it is missing, and their number. -/
theorem datapoints_list_exact (S : Setup) (O : Outside δ) (ty : Str) (index : Option Str) (sel : List Run)
    (hsel : selectRuns index S.runs = .ok sel) (fs : Fs) (f : Run → Option δ)
    (h : ∀ r ∈ sel, Shows S O fs r (f r)) :
    (handle S O ⟨.datapoints, .list, ty, index⟩ fs).result = .ok true ∧
    (handle S O ⟨.datapoints, .list, ty, index⟩ fs).out =
      sel.map (fun r => .datapoint r.number r.params.id (f r)) ++ [.total sel.length] := by
  have hm : ∀ id, dictGet (mkdirs fs S.exp.datapointDir) (S.exp.datapointFile id) =
      dictGet fs (S.exp.datapointFile id) := fun id =>
    intact_eq (n := S.exp.path.length + 2) (intact_mkdirs fs (.inl (by simp [Config.datapointDir])))
      (by rw [length_datapointFile]; omega)
  have h' : ∀ r ∈ sel, Shows S O (mkdirs fs S.exp.datapointDir) r (f r) := by
    intro r hr
    have := h r hr
    unfold Shows at this ⊢
    rw [hm]
    exact this
  have hl := listDatapoints_shows S O _ sel f h'
  show (datapointsList S O index fs).result = _ ∧ (datapointsList S O index fs).out = _
  unfold datapointsList
  rw [hsel]
  simp only []
  rw [hl]
  exact ⟨rfl, rfl⟩

/-- **C71.**  `parameters list --index i` prints the selected parameters in order and their number. -/
theorem parameters_list_exact (S : Setup) (O : Outside δ) (ty : Str) (index : Option Str) (sel : List Run)
    (hsel : selectRuns index S.runs = .ok sel) (fs : Fs) :
    (handle S O ⟨.parameters, .list, ty, index⟩ fs).result = .ok true ∧
    (handle S O ⟨.parameters, .list, ty, index⟩ fs).fs = fs ∧
    (handle S O ⟨.parameters, .list, ty, index⟩ fs).out =
      sel.map (fun r => .parameters r.number r.params.id) ++ [.total sel.length] := by
  show (parametersList S index fs : Handled δ).result = _ ∧ (parametersList S index fs : Handled δ).fs = _ ∧
    (parametersList S index fs : Handled δ).out = _
  unfold parametersList
  rw [hsel]
  exact ⟨rfl, rfl, rfl⟩

theorem lastResult_own (beh : Params → Behaviour) (runs : List Params) (hid : (runs.map Params.id).Nodup)
    (p : Params) (hp : p ∈ runs) :
    lastResult beh runs p.id = if p.skip = false then some (beh p).bytes else none := by
  have hown : ∀ q ∈ runs, q.id = p.id → q = p := fun q hq e => List.inj_on_of_nodup_map hid hq hp e
  by_cases hs : p.skip = false
  · rw [if_pos hs]
    unfold lastResult
    have hf : runs.filter (fun q => !q.skip && decide (q.id = p.id)) = [p] := by
      have hnd : (runs.filter (fun q => !q.skip && decide (q.id = p.id))).Nodup :=
        (List.Nodup.of_map _ hid).filter _
      refine List.perm_singleton.1 ((List.perm_ext_iff_of_nodup hnd (by simp)).2 (fun q => ?_))
      rw [List.mem_filter]
      simp only [Bool.and_eq_true, Bool.not_eq_true', decide_eq_true_eq, List.mem_singleton]
      constructor
      · rintro ⟨hq, _, e⟩; exact hown q hq e
      · rintro rfl; exact ⟨hp, hs, rfl⟩
    rw [hf]; rfl
  · rw [if_neg hs, lastResult_none_iff]
    rintro ⟨q, hq, hqs, e⟩
    exact hs (hown q hq e ▸ hqs)

/-- **C71.**  `exp run --index i` on an unlocked experiment, if the dataset can be prepared and every
selected run completes: it runs exactly the selected runs that are not to be skipped, in order,
saves their data points, changes no other data point, and locks the experiment if it is to be. -/
theorem exp_run_success (S : Setup) (ha : Apart S) (O : Outside δ) (ty : Str) (index : Option Str)
    (sel : List Run) (hsel : selectRuns index S.runs = .ok sel) (fs : Fs) (hl : ¬ Locked S.exp fs)
    (hprep : (prepareExds S O (exec fs (startActions S.exp ++ folderActions S.exp))).2 = none)
    (hc : ∀ r ∈ sel, r.params.skip = false → Completes S.exp (O.behaviour r.params)) :
    (handle S O ⟨.exp, .run, ty, index⟩ fs).result = .ok true ∧
    (handle S O ⟨.exp, .run, ty, index⟩ fs).ran =
      (sel.filter (fun r => !r.params.skip)).map Run.params ∧
    (Locked S.exp (handle S O ⟨.exp, .run, ty, index⟩ fs).fs ↔ S.exp.autoLock = true) ∧
    (S.exp.saveDatapoints = true → ∀ id, datapoint S.exp (handle S O ⟨.exp, .run, ty, index⟩ fs).fs id =
      ((lastResult O.behaviour (sel.map Run.params) id).map Entry.file).or (datapoint S.exp fs id)) := by
  have hc' : ∀ p ∈ sel.map Run.params, p.skip = false → Completes S.exp (O.behaviour p) := by
    intro p hp
    obtain ⟨r, hr, rfl⟩ := List.mem_map.1 hp
    exact hc r hr
  have hd := loop_done S.exp O.behaviour _ hc'
  have hrun : handle S O ⟨.exp, .run, ty, index⟩ fs =
      { fs := exec (prepareExds S O (exec fs (startActions S.exp ++ folderActions S.exp))).1
          ((loop S.exp O.behaviour (sel.map Run.params)).1 ++ endActions S.exp),
        ran := (loop S.exp O.behaviour (sel.map Run.params)).2.1 } := by
    show expRun S O index fs = _
    unfold expRun
    rw [hsel]
    simp only []
    unfold runExperiment
    rw [if_neg (fun h => hl ((exists_start _ _).1 h)), hprep]
    simp only []
    rw [hd.1]
  -- the experiment folder after the preparation of the dataset
  have hsame : ∀ p, S.exp.path <+: p → S.exp.path.length + 2 < p.length →
      dictGet (prepareExds S O (exec fs (startActions S.exp ++ folderActions S.exp))).1 p = dictGet fs p := by
    intro p hp hn
    rw [intact_eq (n := 0) (prepare_outside S O _ ha hp) (by omega)]
    exact exec_start fs _ (List.prefix_refl _) p hn
  have hlock : ¬ Locked S.exp (exec (prepareExds S O
      (exec fs (startActions S.exp ++ folderActions S.exp))).1 (loop S.exp O.behaviour (sel.map Run.params)).1) := by
    rw [locked_congr (fs := fs)]
    · exact hl
    · rw [exec_other (n := S.exp.path.length + 2)
        (fun a h => (body_touches (cfg := S.exp) (beh := O.behaviour) (runs := sel.map Run.params)
          (List.mem_append.2 (.inr h))).1)
        (fun a h => loop_short h) (by rw [length_lockFile]; omega)]
      exact hsame _ (path_prefix_lockFile S.exp.definition _) (by rw [length_lockFile]; omega)
  rw [hrun]
  refine ⟨rfl, ?_, ?_, fun hsv id => ?_⟩
  · show (loop S.exp O.behaviour (sel.map Run.params)).2.1 = _
    rw [hd.2.1, List.filter_map]
    rfl
  · show Locked S.exp (exec _ (_ ++ _)) ↔ _
    rw [exec_append]
    exact locked_end S.exp _ hlock
  · show datapoint S.exp (exec _ (_ ++ _)) id = _
    rw [exec_append, exec_end_datapoint, hd.2.2 hsv]
    congr 1
    exact hsame _ (by simp [Config.datapointFile, Config.datapointDir]) (by rw [length_datapointFile]; omega)

/-- **C71.**  What `datapoints list --index i` prints after `exp run --index i`: the result of every
selected run; for the runs to be skipped, what was there before.  With automatic locking this
stays so after any history of commands that does not take off the lock. -/
theorem run_then_list (S : Setup) (ha : Apart S) (O O' : Outside δ) (ty ty' : Str) (index : Option Str)
    (sel : List Run) (hsel : selectRuns index S.runs = .ok sel)
    (hid : (sel.map (fun r => r.params.id)).Nodup) (fs : Fs) (hl : ¬ Locked S.exp fs)
    (hprep : (prepareExds S O (exec fs (startActions S.exp ++ folderActions S.exp))).2 = none)
    (hc : ∀ r ∈ sel, r.params.skip = false → Completes S.exp (O.behaviour r.params))
    (hsv : S.exp.saveDatapoints = true)
    (h : List (Outside δ × Args)) (hh : h = [] ∨ (S.exp.autoLock = true ∧ ∀ c ∈ h, ¬ UnlocksExp S c.2))
    (f : Run → Option δ)
    (hran : ∀ r ∈ sel, r.params.skip = false →
      ∃ v, f r = some v ∧ O'.unpickle (O.behaviour r.params).bytes = .ok v)
    (hskip : ∀ r ∈ sel, r.params.skip = true → Shows S O' fs r (f r)) :
    (handle S O' ⟨.datapoints, .list, ty', index⟩
      (session S h (handle S O ⟨.exp, .run, ty, index⟩ fs).fs)).result = .ok true ∧
    (handle S O' ⟨.datapoints, .list, ty', index⟩
      (session S h (handle S O ⟨.exp, .run, ty, index⟩ fs).fs)).out =
      sel.map (fun r => .datapoint r.number r.params.id (f r)) ++ [.total sel.length] := by
  have hr := exp_run_success S ha O ty index sel hsel fs hl hprep hc
  have hsame : ∀ id, dictGet (session S h (handle S O ⟨.exp, .run, ty, index⟩ fs).fs) (S.exp.datapointFile id) =
      dictGet (handle S O ⟨.exp, .run, ty, index⟩ fs).fs (S.exp.datapointFile id) := by
    intro id
    rcases hh with rfl | ⟨hal, hh⟩
    · rfl
    · refine intact_eq ((locked_experiment_survives S ha h _ (hr.2.2.1.2 hal) hh).2.1 _ ?_ ?_)
        (by rw [length_datapointFile]; omega)
      · simp [Config.datapointFile, Config.datapointDir]
      · rintro ⟨t, e⟩
        simp [Config.datapointFile, Config.datapointDir, Config.definition, Def.lockFile, Def.lockDir] at e
  refine datapoints_list_exact S O' ty' index sel hsel _ f (fun r hrs => ?_)
  have hdp := hr.2.2.2 hsv r.params.id
  rw [lastResult_own O.behaviour (sel.map Run.params) (by rw [List.map_map]; exact hid) r.params
    (List.mem_map.2 ⟨r, hrs, rfl⟩)] at hdp
  by_cases hs : r.params.skip = false
  · obtain ⟨v, hv, hu⟩ := hran r hrs hs
    rw [if_pos hs] at hdp
    rw [hv]
    refine ⟨(O.behaviour r.params).bytes, ?_, hu⟩
    rw [hsame]
    exact hdp
  · rw [if_neg hs] at hdp
    have hsk := hskip r hrs (by simpa using hs)
    unfold Shows at hsk ⊢
    rw [hsame, show dictGet (handle S O ⟨.exp, .run, ty, index⟩ fs).fs (S.exp.datapointFile r.params.id) =
      dictGet fs (S.exp.datapointFile r.params.id) from hdp]
    exact hsk

/-- **C71.**  `exp run` of a locked experiment is refused: nothing is run and no file is created,
changed or removed. -/
theorem exp_run_refused (S : Setup) (O : Outside δ) (ty : Str) (index : Option Str) (sel : List Run)
    (hsel : selectRuns index S.runs = .ok sel) (fs : Fs) (hl : Locked S.exp fs) :
    (handle S O ⟨.exp, .run, ty, index⟩ fs).result = .error (.custom "ExperimentFolderLockedException") ∧
    (handle S O ⟨.exp, .run, ty, index⟩ fs).ran = [] ∧
    ∀ p, Intact (S.exp.path.length + 2) fs (handle S O ⟨.exp, .run, ty, index⟩ fs).fs p := by
  have e : handle S O ⟨.exp, .run, ty, index⟩ fs = runExperiment S O (sel.map Run.params) fs := by
    show expRun S O index fs = _
    unfold expRun
    rw [hsel]
  rw [e]
  rcases runExperiment_fs S O (sel.map Run.params) fs with h | h
  · refine ⟨h.2.2.2, h.2.2.1, fun p => ?_⟩
    rw [h.2.1]
    exact intact_exec fs _ (fun b hb => start_touches (List.mem_append.2 (.inl hb)) p)
      (fun b hb => .inl (start_short (List.mem_append.2 (.inl hb))))
  · exact absurd hl h.1

/-! ## C71: building the experimental dataset -/

theorem file_inj {x : Exds} {f g : Saved} (h : x.file f = x.file g) : (f.label, f.name) = (g.label, g.name) := by
  unfold Exds.file at h
  simpa using List.append_cancel_left h

theorem writes_touch {x : Exds} {files : List Saved} {a : Action} {p : Path} (ha : a ∈ x.writes files)
    (ht : Touches a p) : ∃ f ∈ files, p = x.file f := by
  unfold Exds.writes at ha
  obtain ⟨f, hf, h⟩ := List.mem_flatMap.1 ha
  refine ⟨f, hf, ?_⟩
  simp only [List.mem_cons, List.not_mem_nil, or_false] at h
  rcases h with rfl | rfl | rfl <;> simp [Touches] at ht <;> exact ht.symm

theorem writes_cons (x : Exds) (f : Saved) (fl : List Saved) : x.writes (f :: fl) =
    [.mkdir (x.path ++ [f.label]), .create (x.file f), .write (x.file f) f.content] ++ x.writes fl := rfl

/-- The saved files after the saving. -/
theorem exec_saves (x : Exds) (files : List Saved) (hnd : (files.map (fun f => (f.label, f.name))).Nodup)
    (fs : Fs) (f : Saved) (hf : f ∈ files) :
    dictGet (exec fs (x.writes files)) (x.file f) = some (.file f.content) := by
  induction files generalizing fs with
  | nil => simp at hf
  | cons g fl ih =>
    rw [List.map_cons, List.nodup_cons] at hnd
    rw [writes_cons, exec_append]
    rcases List.mem_cons.1 hf with rfl | hf
    · refine exec_keeps (fun a ha ht => ?_) ?_
      · obtain ⟨k, hk, e⟩ := writes_touch ha ht
        exact hnd.1 (List.mem_map.2 ⟨k, hk, (file_inj e).symm⟩)
      · show dictGet (dictSet _ (x.file f) _) (x.file f) = _
        rw [dictGet_dictSet, if_pos rfl]
    · exact ih hnd.2 _ hf

theorem ready_iff (x : Exds) (fs : Fs) :
    x.ready fs = true ↔ exists' fs x.path = true ∧ ∃ t, Held fs x.definition t := by
  unfold Exds.ready
  rw [Bool.and_eq_true, (is_locked_iff fs x.definition []).1]

/-- **C71.**  `exds build` for a dataset without locks, if the source delivers: every file of the
datasets is saved, and with automatic locking the dataset is ready from then on. -/
theorem exds_build_success (S : Setup) (x : Exds) (hx : S.exds = some x) (hp : x.path ≠ []) (O : Outside δ)
    (ty : Str) (index : Option Str) (files : List Saved) (hsrc : O.source = .ok files) (hs : x.saves = true)
    (hnd : (files.map (fun f => (f.label, f.name))).Nodup) (fs : Fs)
    (hl : ∀ t, ¬ Held fs x.definition t) :
    (handle S O ⟨.exds, .build, ty, index⟩ fs).result = .ok true ∧
    (handle S O ⟨.exds, .build, ty, index⟩ fs).out = [.exdsHasBeenBuilt] ∧
    (∀ f ∈ files, dictGet (handle S O ⟨.exds, .build, ty, index⟩ fs).fs (x.file f) = some (.file f.content)) ∧
    (x.autoLock = true → exists' (handle S O ⟨.exds, .build, ty, index⟩ fs).fs x.path = true ∧
      Held (handle S O ⟨.exds, .build, ty, index⟩ fs).fs x.definition "exds".toList) := by
  have hnr : x.ready fs = false := by
    rw [Bool.eq_false_iff]
    intro h
    obtain ⟨_, t, ht⟩ := (ready_iff x fs).1 h
    exact hl t ht
  have hnl : ¬ (x.definition.isLocked [] (mkdirs fs x.path)).1 = true := by
    rw [(is_locked_iff _ x.definition []).1]
    rintro ⟨t, ht⟩
    refine hl t ?_
    unfold Held exists' at ht ⊢
    rw [intact_eq (n := x.path.length) (intact_mkdirs fs (.inl (le_refl _)))] at ht
    · exact ht
    · simp [Def.lockFile, Def.lockDir, Exds.definition]
  have hex : exists' (exec (mkdirs fs x.path) (x.writes files)) x.path = true := by
    refine exists_keeps (exists_mkdirs fs x.path hp) (fun y hy => exec_keeps (fun a ha ht => ?_) hy)
    obtain ⟨f, _, e⟩ := writes_touch ha ht
    have := congrArg List.length e
    simp [Exds.file] at this
  have hfiles := exec_saves x files hnd (mkdirs fs x.path)
  have hls := lock_spec (exec (mkdirs fs x.path) (x.writes files)) x.definition [] hex
  have hb : x.build O.source fs = if x.autoLock then
      x.definition.lock [] (exec (mkdirs fs x.path) (x.writes files))
      else (exec (mkdirs fs x.path) (x.writes files), none) := by
    unfold Exds.build
    rw [hsrc]
    simp only []
    rw [if_neg (by simp [hs]), if_neg hnl]
  have hh : handle S O ⟨.exds, .build, ty, index⟩ fs = Handled.ofCall (x.build O.source fs) [.exdsHasBeenBuilt] := by
    show withExds S fs (fun x => exdsBuild O x fs) = _
    unfold withExds
    rw [hx]
    simp only []
    unfold exdsBuild
    rw [hnr]
    simp
  rw [hh, hb]
  by_cases hal : x.autoLock = true
  · rw [if_pos hal]
    unfold Handled.ofCall
    rw [hls.1]
    refine ⟨rfl, rfl, fun f hf => hls.2.2.2 _ _ (fun e => ?_) (hfiles f hf), fun _ => ⟨?_, hls.2.1⟩⟩
    · have := congrArg List.length e
      simp [Exds.file, Def.lockFile, Def.lockDir, Exds.definition] at this
    · refine exists_keeps hex (fun y hy => hls.2.2.2 _ _ (fun e => ?_) hy)
      have := congrArg List.length e
      simp [Def.lockFile, Def.lockDir, Exds.definition] at this
  · rw [if_neg hal]
    exact ⟨rfl, rfl, hfiles, fun h => absurd h hal⟩

/-- **C71.**  A dataset that was built and locked is built only once: after any history of commands in
which that lock is not taken off, `exds build` answers that it is
built, changes nothing, and the files are those of the build, whatever the source delivers now. -/
theorem exds_built_once (S : Setup) (ha : Apart S) (x : Exds) (hx : S.exds = some x) (hp : x.path ≠ [])
    (O O' : Outside δ) (ty ty' : Str) (index index' : Option Str) (files : List Saved)
    (hsrc : O.source = .ok files) (hs : x.saves = true) (hal : x.autoLock = true)
    (hnd : (files.map (fun f => (f.label, f.name))).Nodup) (fs : Fs) (hl : ∀ t, ¬ Held fs x.definition t)
    (h : List (Outside δ × Args)) (hu : ∀ c ∈ h, ¬ UnlocksExds x "exds".toList c.2) :
    (handle S O' ⟨.exds, .build, ty', index'⟩
      (session S h (handle S O ⟨.exds, .build, ty, index⟩ fs).fs)).out = [.exdsAlreadyBuilt] ∧
    (handle S O' ⟨.exds, .build, ty', index'⟩
      (session S h (handle S O ⟨.exds, .build, ty, index⟩ fs).fs)).fs =
      session S h (handle S O ⟨.exds, .build, ty, index⟩ fs).fs ∧
    ∀ f ∈ files, dictGet (session S h (handle S O ⟨.exds, .build, ty, index⟩ fs).fs) (x.file f) =
      some (.file f.content) := by
  have hb := exds_build_success S x hx hp O ty index files hsrc hs hnd fs hl
  have hb4 := hb.2.2.2 hal
  have hsv := locked_exds_survives S ha x hx _ h _ hb4.2 hu
  have hnl : ∀ p, p.length ≠ x.path.length + 1 → ¬ IsLockOf x.definition p := by
    rintro p hn ⟨t, rfl⟩
    exact hn (by simp [Def.lockFile, Def.lockDir, Exds.definition])
  have hr : x.ready (session S h (handle S O ⟨.exds, .build, ty, index⟩ fs).fs) = true :=
    (ready_iff x _).2 ⟨exists_keeps hb4.1 (hsv.2 _ (List.prefix_refl _) (hnl _ (by omega))).1, _, hsv.1⟩
  have hh : handle S O' ⟨.exds, .build, ty', index'⟩
      (session S h (handle S O ⟨.exds, .build, ty, index⟩ fs).fs) =
      { fs := session S h (handle S O ⟨.exds, .build, ty, index⟩ fs).fs, out := [.exdsAlreadyBuilt] } := by
    show withExds S _ (fun x => exdsBuild O' x _) = _
    unfold withExds
    rw [hx]
    simp only []
    unfold exdsBuild
    rw [if_pos hr]
  rw [hh]
  refine ⟨rfl, rfl, fun f hf => ?_⟩
  exact (hsv.2 _ ⟨_, rfl⟩ (hnl _ (by simp))).1 _ (hb.2.2.1 f hf)

/-- **Finding (C71).**  Without automatic locking a dataset is never ready: `exds build` (and `exp run`)
builds it again each time, and the files of the last source replace the earlier ones. -/
theorem exds_without_lock_rebuilt (S : Setup) (x : Exds) (hx : S.exds = some x) (hp : x.path ≠ [])
    (O O' : Outside δ) (ty ty' : Str) (index index' : Option Str) (files files' : List Saved)
    (hsrc : O.source = .ok files) (hsrc' : O'.source = .ok files') (hs : x.saves = true)
    (hal : x.autoLock = false)
    (hnd' : (files'.map (fun f => (f.label, f.name))).Nodup)
    (hlab : ∀ f ∈ files, ¬ "locked_".toList <+: f.label)
    (fs : Fs) (hl : ∀ t, ¬ Held fs x.definition t) :
    x.ready (handle S O ⟨.exds, .build, ty, index⟩ fs).fs = false ∧
    (handle S O' ⟨.exds, .build, ty', index'⟩ (handle S O ⟨.exds, .build, ty, index⟩ fs).fs).out =
      [.exdsHasBeenBuilt] ∧
    ∀ f ∈ files', dictGet (handle S O' ⟨.exds, .build, ty', index'⟩
      (handle S O ⟨.exds, .build, ty, index⟩ fs).fs).fs (x.file f) = some (.file f.content) := by
  have hnh : ∀ t, ¬ Held (handle S O ⟨.exds, .build, ty, index⟩ fs).fs x.definition t := by
    intro t ht
    have hnr : ¬ x.ready fs = true := by
      intro h
      obtain ⟨_, t, ht⟩ := (ready_iff x fs).1 h
      exact hl t ht
    have hlen : (x.definition.lockFile t).length = x.path.length + 1 := by
      simp [Def.lockFile, Def.lockDir, Exds.definition]
    have hm : dictGet (mkdirs fs x.path) (x.definition.lockFile t) = dictGet fs (x.definition.lockFile t) :=
      intact_eq (n := x.path.length) (intact_mkdirs fs (.inl (le_refl _))) (by omega)
    have hw : dictGet (exec (mkdirs fs x.path) (x.writes files)) (x.definition.lockFile t) =
        dictGet fs (x.definition.lockFile t) := by
      rw [← hm]
      refine intact_eq (n := x.path.length) (intact_exec _ _ (fun a ha h => ?_) (fun a ha => .inr ?_)) (by omega)
      · obtain ⟨f, _, e⟩ := writes_touch ha h
        have := congrArg List.length e
        rw [hlen] at this
        simp [Exds.file] at this
      · have key : ∀ f ∈ files, ∀ rest, ¬ x.definition.lockFile t <+: x.path ++ f.label :: rest := by
          rintro f hf rest ⟨s, e⟩
          refine hlab f hf ⟨t, ?_⟩
          simp only [Def.lockFile, Def.lockDir, Exds.definition, List.append_assoc] at e
          have := List.append_cancel_left e
          exact (List.cons.inj this).1
        unfold Exds.writes at ha
        obtain ⟨f, hf, h⟩ := List.mem_flatMap.1 ha
        simp only [List.mem_cons, List.not_mem_nil, or_false] at h
        rcases h with rfl | rfl | rfl
        · exact key f hf []
        · exact key f hf [f.name]
        · exact key f hf [f.name]
    have hfs : (handle S O ⟨.exds, .build, ty, index⟩ fs).fs = exec (mkdirs fs x.path) (x.writes files) ∨
        (handle S O ⟨.exds, .build, ty, index⟩ fs).fs = mkdirs fs x.path := by
      show (withExds S fs (fun x => exdsBuild O x fs)).fs = _ ∨ (withExds S fs (fun x => exdsBuild O x fs)).fs = _
      unfold withExds
      rw [hx]
      simp only []
      unfold exdsBuild
      rw [if_neg hnr]
      unfold Exds.build
      rw [hsrc]
      simp only []
      rw [if_neg (by simp [hs])]
      by_cases hc : (x.definition.isLocked [] (mkdirs fs x.path)).1 = true
      · rw [if_pos hc]; exact .inr rfl
      · rw [if_neg hc, if_neg (by simp [hal])]; exact .inl rfl
    refine hl t ?_
    unfold Held exists' at ht ⊢
    rcases hfs with e | e
    · rw [e, hw] at ht; exact ht
    · rw [e, hm] at ht; exact ht
  refine ⟨?_, ?_, ?_⟩
  · rw [Bool.eq_false_iff]
    intro h
    obtain ⟨_, t, ht⟩ := (ready_iff x _).1 h
    exact hnh t ht
  · exact (exds_build_success S x hx hp O' ty' index' files' hsrc' hs hnd' _ hnh).2.1
  · exact (exds_build_success S x hx hp O' ty' index' files' hsrc' hs hnd' _ hnh).2.2.1

/-! ## C71: what `show` reports, and findings -/

theorem mem_locks (d : Def) (fs : Fs) (n : Str) :
    n ∈ (d.locks fs).1 ↔ ∃ t, n = lockName t ∧ Held fs d t := by
  unfold Def.locks
  simp only [List.mem_map, List.mem_filter]
  constructor
  · rintro ⟨e, ⟨he, hi⟩, rfl⟩
    obtain ⟨t, ht⟩ := (isLockIn_iff _ _).1 hi
    refine ⟨t, by rw [ht]; simp, (held_touch fs d t).1 ?_⟩
    have := exists_of_mem he
    rw [ht] at this
    exact this
  · rintro ⟨t, rfl, ht⟩
    obtain ⟨y, hy⟩ := Option.isSome_iff_exists.1 ((held_touch fs d t).2 ht)
    exact ⟨_, ⟨mem_of_get hy, (isLockIn_iff _ _).2 ⟨t, rfl⟩⟩, by simp [Def.lockFile]⟩

/-- **C71.**  `exds-def show` reports exactly the locks held, whether the dataset is ready and whether
its folder exists, and changes nothing. -/
theorem exds_def_show_exact (S : Setup) (x : Exds) (hx : S.exds = some x) (O : Outside δ) (ty : Str)
    (index : Option Str) (fs : Fs) : ∃ locks,
    handle S O ⟨.exdsDef, .show, ty, index⟩ fs =
      { fs := fs, out := [.exdsDef locks (x.ready fs) (exists' fs x.path)] } ∧
    (∀ n, n ∈ locks ↔ ∃ t, n = lockName t ∧ Held fs x.definition t) ∧
    (x.ready fs = true ↔ exists' fs x.path = true ∧ locks ≠ []) := by
  refine ⟨(x.definition.locks fs).1, ?_, mem_locks _ _, ?_⟩
  · show withExds S fs (fun x => exdsDefShow x fs) = _
    unfold withExds
    rw [hx]
    rfl
  · rw [ready_iff]
    refine and_congr_right (fun _ => ?_)
    constructor
    · rintro ⟨t, ht⟩ e
      have := (mem_locks x.definition fs (lockName t)).2 ⟨t, rfl, ht⟩
      rw [e] at this
      simp at this
    · intro hne
      obtain ⟨n, hn⟩ := List.exists_mem_of_ne_nil _ hne
      obtain ⟨t, _, ht⟩ := (mem_locks x.definition fs n).1 hn
      exact ⟨t, ht⟩

/-- **C71, finding.**  `exp-def show` reports exactly the locks held; but looking for them makes the
folder, so that it always reports `folder_exists: True`, and from then on the folder does exist. -/
theorem exp_def_show_exact (S : Setup) (hp : S.exp.path ≠ []) (O : Outside δ) (ty : Str) (index : Option Str)
    (fs : Fs) : ∃ locks,
    (handle S O ⟨.expDef, .show, ty, index⟩ fs).out = [.expDef locks true] ∧
    (∀ n, n ∈ locks ↔ ∃ t, n = lockName t ∧ Held fs S.exp.definition t) ∧
    exists' (handle S O ⟨.expDef, .show, ty, index⟩ fs).fs S.exp.path = true := by
  have hex : exists' (S.exp.definition.touch fs) S.exp.path = true := by
    have := mkdirsFrom_all fs [] S.exp.definition.lockDir S.exp.path hp (path_prefix_lockDir S.exp.definition)
    exact this
  refine ⟨(S.exp.definition.locks fs).1, ?_, mem_locks _ _, hex⟩
  show [Line.expDef _ (exists' (S.exp.definition.touch fs) S.exp.path)] = _
  rw [hex]

/-- **Finding (C71).**  `exp delete` of an experiment that was never run raises; after `exp-def show` it
succeeds. -/
theorem delete_after_show (S : Setup) (hp : S.exp.path ≠ []) (O O' O'' : Outside δ) (ty ty' : Str)
    (index index' : Option Str) (fs : Fs) (hn : ∀ p, S.exp.path <+: p → dictGet fs p = none) :
    (handle S O ⟨.exp, .delete, ty, index⟩ fs).result = .error (.custom "LockablePathException") ∧
    (handle S O' ⟨.exp, .delete, ty, index⟩
      (handle S O'' ⟨.expDef, .show, ty', index'⟩ fs).fs).result = .ok true := by
  obtain ⟨_, _, _, hex⟩ := exp_def_show_exact S hp O'' ty' index' fs
  constructor
  · show (Handled.ofCall (S.exp.definition.deleteFolder fs) : Handled δ).result = _
    have : S.exp.definition.deleteFolder fs = (fs, some lockableError) := by
      unfold Def.deleteFolder
      rw [if_pos (by
        unfold exists'
        rw [show S.exp.definition.path = S.exp.path from rfl, hn _ (List.prefix_refl _)]
        rfl)]
      rfl
    rw [this]
    rfl
  · show (Handled.ofCall (S.exp.definition.deleteFolder _) : Handled δ).result = _
    have h2 : ∀ t, ¬ Held (handle S O'' ⟨.expDef, .show, ty', index'⟩ fs).fs S.exp.definition t := by
      intro t ht
      have := (held_touch fs S.exp.definition t).1 ht
      unfold Held exists' at this
      rw [hn _ (path_prefix_lockFile S.exp.definition t)] at this
      simp at this
    have hd := delete_unlocked _ S.exp.definition hex h2
    unfold Handled.ofCall
    rw [hd.1]

/-- **Finding (C71).**  Before anything exists, `exp lock` makes the folder and locks it, but
`exds lock` raises `FileNotFoundError`. -/
theorem lock_missing_folder (S : Setup) (x : Exds) (hx : S.exds = some x) (hp : x.path ≠ []) (O : Outside δ)
    (ty : Str) (index : Option Str) (fs : Fs) (hn : ∀ p, x.path <+: p → dictGet fs p = none) :
    (handle S O ⟨.exp, .lock, ty, index⟩ fs).result = .ok true ∧
    Held (handle S O ⟨.exp, .lock, ty, index⟩ fs).fs S.exp.definition (S.exp.definition.lockType ty) ∧
    (handle S O ⟨.exds, .lock, ty, index⟩ fs).result = .error (.custom "FileNotFoundError") := by
  have hle : (S.exp.definition.lock ty fs).2 = none ∧
      Held (S.exp.definition.lock ty fs).1 S.exp.definition (S.exp.definition.lockType ty) := by
    unfold Def.lock
    rw [isLocked_state, touch_touch]
    by_cases hl : (S.exp.definition.isLocked (S.exp.definition.lockType ty) fs).1 = true
    · rw [if_pos hl]
      refine ⟨rfl, ?_⟩
      show Held (S.exp.definition.touch fs) _ _
      rw [held_touch]
      exact ((is_locked_iff fs S.exp.definition _).2.1 (lockType_ne_nil _ _)).1 hl
    · rw [if_neg hl]
      unfold writeText
      have : exists' (S.exp.definition.touch fs)
          (S.exp.definition.lockFile (S.exp.definition.lockType ty)).dropLast = true := by
        have e : (S.exp.definition.lockFile (S.exp.definition.lockType ty)).dropLast = S.exp.definition.lockDir := by
          simp [Def.lockFile]
        rw [e]
        exact exists_mkdirs _ _ (by simp [Config.definition, Def.lockDir])
      rw [if_pos (.inr this)]
      refine ⟨rfl, ?_⟩
      unfold Held exists'
      rw [dictGet_dictSet, if_pos rfl]
      rfl
  have hlx : x.definition.lock ty fs = (fs, some fileNotFound) := by
    have hnl : ¬ (x.definition.isLocked (x.definition.lockType ty) fs).1 = true := by
      rw [(is_locked_iff fs x.definition _).2.1 (lockType_ne_nil _ _)]
      unfold Held exists'
      rw [hn _ (path_prefix_lockFile x.definition _)]
      simp
    unfold Def.lock
    rw [if_neg hnl, isLocked_state, touch_touch]
    unfold writeText
    have e : (x.definition.lockFile (x.definition.lockType ty)).dropLast = x.path := by
      simp [Def.lockFile, Def.lockDir, Exds.definition]
    have hne : exists' fs x.path = false := by
      unfold exists'
      rw [hn _ (List.prefix_refl _)]
      rfl
    rw [show x.definition.touch fs = fs from rfl, e, if_neg (by simp [hp, hne])]
  refine ⟨?_, ?_, ?_⟩
  · show (Handled.ofCall (S.exp.definition.lock ty fs) : Handled δ).result = _
    unfold Handled.ofCall
    rw [hle.1]
  · show Held (Handled.ofCall (S.exp.definition.lock ty fs) : Handled δ).fs _ _
    unfold Handled.ofCall
    rw [hle.1]
    exact hle.2
  · show (withExds S fs (fun x => .ofCall (x.definition.lock ty fs)) : Handled δ).result = _
    unfold withExds
    rw [hx]
    simp only []
    rw [hlx]
    rfl

/-! ## Concrete cases -/

/-- (Example.) -/
def exSetup : Setup :=
  { exp := exCfg,
    exds := some ⟨["repo".toList, "ds".toList], true, true⟩,
    runs := [⟨⟨"a".toList, false⟩, 0⟩, ⟨⟨"b".toList, true⟩, 1⟩, ⟨⟨"c".toList, false⟩, 2⟩] }

/-- Everything works; a data point is its bytes. (Example.) -/
def exOutside : Outside Str :=
  ⟨exGood, .ok [⟨"X".toList, "X.mtx".toList, "1 0".toList⟩, ⟨"Y".toList, "Y.mtx".toList, "0 1".toList⟩],
   fun _ => none, .ok⟩

theorem exApart : Apart exSetup := by
  intro x hx
  cases hx
  unfold Unrelated
  decide

example : ¬ Locked exSetup.exp [] ∧ selectRuns (some "0-1".toList) exSetup.runs = .ok (exSetup.runs.take 2) ∧
    (prepareExds exSetup exOutside (exec [] (startActions exCfg ++ folderActions exCfg))).2 = none ∧
    ((exSetup.runs.take 2).map (fun r => r.params.id)).Nodup := by
  refine ⟨by unfold Locked Held; decide +kernel, rfl, by decide +kernel, by decide⟩

/-- Run two of three runs, look at the definitions, list the data points, run again: refused. -/
example : (handle exSetup exOutside ⟨.exp, .run, [], some "0-1".toList⟩ []).ran = [⟨"a".toList, false⟩] ∧
    (handle exSetup exOutside ⟨.datapoints, .list, [], none⟩
      (session exSetup [(exOutside, ⟨.exp, .run, [], some "0-1".toList⟩), (exOutside, ⟨.expDef, .show, [], none⟩),
        (exOutside, ⟨.exp, .delete, [], none⟩), (exOutside, ⟨.exp, .unlock, "other".toList, none⟩)] [])).out =
      [.datapoint 0 "a".toList (some "a-result".toList), .datapoint 1 "b".toList none,
       .datapoint 2 "c".toList none, .total 3] ∧
    ((handle exSetup exOutside ⟨.exp, .run, [], some "2".toList⟩
      (session exSetup [(exOutside, ⟨.exp, .run, [], some "0-1".toList⟩)] [])).result matches .error _) = true ∧
    (handle exSetup exOutside ⟨.exds, .build, [], none⟩
      (session exSetup [(exOutside, ⟨.exp, .run, [], some "0-1".toList⟩)] [])).out = [.exdsAlreadyBuilt] := by
  decide +kernel

/-- A dataset locked before it was built. -/
example : Held (session exSetup [(exOutside, ⟨.exds, .build, [], none⟩)] [])
      (Exds.definition ⟨["repo".toList, "ds".toList], true, true⟩) "exds".toList ∧
    ((⟨["repo".toList, "ds".toList], true, true⟩ : Exds).build (.ok [⟨"X".toList, "X.mtx".toList, "2".toList⟩])
      (session exSetup [(exOutside, ⟨.exds, .build, [], none⟩)] [])).2 =
        some (.custom "ExperimentalDatasetError") := by
  refine ⟨by unfold Held; decide +kernel, ?_⟩
  rw [build_locked_raises _ _ _ "exds".toList rfl (by unfold Held; decide +kernel)]

/-- The hypotheses about the dataset. -/
example : (∀ t, ¬ Held [] (Exds.definition ⟨["repo".toList, "ds".toList], true, true⟩) t) ∧
    Held (session exSetup [(exOutside, ⟨.exds, .build, [], none⟩)] [])
      (Exds.definition ⟨["repo".toList, "ds".toList], true, true⟩) "exds".toList ∧
    ∀ c ∈ [(exOutside, (⟨.exds, .delete, [], none⟩ : Args)), (exOutside, ⟨.exp, .run, [], none⟩)],
      ¬ UnlocksExds ⟨["repo".toList, "ds".toList], true, true⟩ "exds".toList c.2 := by
  refine ⟨fun t => by simp [Held, exists', dictGet], by unfold Held; decide +kernel, fun c hc => ?_⟩
  simp only [List.mem_cons, List.not_mem_nil, or_false] at hc
  rcases hc with rfl | rfl <;> simp [UnlocksExds]

example : ∀ c ∈ [(exOutside, (⟨.expDef, .show, [], none⟩ : Args)), (exOutside, ⟨.exp, .delete, [], none⟩),
    (exOutside, ⟨.exp, .unlock, "other".toList, none⟩)], ¬ UnlocksExp exSetup c.2 := by
  intro c hc
  simp only [List.mem_cons, List.not_mem_nil, or_false] at hc
  rcases hc with rfl | rfl | rfl <;> simp [UnlocksExp, Config.definition, Def.lockType]

end Mbtk.Exp
