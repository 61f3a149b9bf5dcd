import Verif.Py
import Verif.Data.Matrix
import Mathlib.Data.List.Infix
/-!
# Model of `mbtk/utilities/LockablePath.py` and of the classes that inherit it

`ExperimentalDatasetDefinition` keeps its lock files in its own folder; `ExperimentDefinition`
keeps them in the subfolder `locks/<subexperiment>` of the experiment folder, which all
subexperiments share (mbtk/experiment/ExperimentDefinition.py).

The file system is a dictionary from paths (lists of names) to entries.  Simplifications: names
are single path components (`name`, lock types and subfolders without `/`); no file stands where
a folder is to be created; no permission or disk errors.
-/
namespace Mbtk.Exp
open Mbtk Mbtk.Dataset

/-- LockablePath.py 9-11. -/
abbrev Path := List Str

/-- A folder, or a file with its content. LockablePath.py 36-59. -/
inductive Entry where
  | dir
  | file (content : Str)
  deriving DecidableEq, Repr

/-- LockablePath.py 20-86. -/
abbrev Fs := List (Path × Entry)

/-- `path.exists()`. LockablePath.py 25, 29, 33. -/
def exists' (fs : Fs) (p : Path) : Bool := (dictGet fs p).isSome

/-- `path.mkdir(parents=True, exist_ok=True)`, `done` already made. LockablePath.py 72, 77. -/
def mkdirsFrom (fs : Fs) (done : Path) : Path → Fs
  | [] => fs
  | c :: cs =>
    mkdirsFrom (if exists' fs (done ++ [c]) then fs else dictSet fs (done ++ [c]) .dir) (done ++ [c]) cs

/-- `path.mkdir(parents=True, exist_ok=True)`. LockablePath.py 72, 77. -/
def mkdirs (fs : Fs) (p : Path) : Fs := mkdirsFrom fs [] p

/-- `FileNotFoundError` of `write_text`, `unlink`: LockablePath.py 42, 68. -/
def fileNotFound : Err := .custom "FileNotFoundError"
/-- `LockablePathException`: utilities/Exceptions.py 1-8. -/
def lockableError : Err := .custom "LockablePathException"

/-- `path.write_text(content)`: needs the parent folder. LockablePath.py 42. -/
def writeText (fs : Fs) (p : Path) (content : Str) : Fs × Option Err :=
  if p.dropLast = [] ∨ exists' fs p.dropLast then (dictSet fs p (.file content), none)
  else (fs, some fileNotFound)

/-- `path.unlink()`. LockablePath.py 68. -/
def unlink (fs : Fs) (p : Path) : Fs × Option Err :=
  if exists' fs p then (fs.filter (fun e => e.1 ≠ p), none) else (fs, some fileNotFound)

/-- `shutil.rmtree(path)`. LockablePath.py 51, 59. -/
def rmtree (fs : Fs) (p : Path) : Fs := fs.filter (fun e => ¬ p <+: e.1)

/-- The three classes.
LockablePath.py 7-11, ExperimentDefinition.py 4-28, ExperimentalDatasetDefinition.py 4-48. -/
inductive Kind where
  /-- `LockablePath` itself -/
  | base
  /-- `ExperimentalDatasetDefinition` -/
  | exds
  /-- `ExperimentDefinition` with `subexperiment_name` -/
  | experiment (sub : Str)
  deriving DecidableEq, Repr

/-- An object of one of the classes, with `self.path`.
LockablePath.py 9-11, ExperimentDefinition.py 6-28, ExperimentalDatasetDefinition.py 36-48. -/
structure Def where
  path : Path
  kind : Kind
  deriving DecidableEq, Repr

/-- `self.default_lock_type`: LockablePath.py 11, ExperimentalDatasetDefinition.py 41,
ExperimentDefinition.py 15. -/
def Def.defaultLock (d : Def) : Str :=
  match d.kind with
  | .base => "folder".toList
  | .exds => "exds".toList
  | .experiment _ => "experiment".toList

/-- The folder of the lock files: LockablePath.py 17, ExperimentDefinition.py 42. -/
def Def.lockDir (d : Def) : Path :=
  match d.kind with
  | .experiment sub => d.path ++ ["locks".toList, sub]
  | _ => d.path

/-- `locked_<type>`. LockablePath.py 17. -/
def lockName (t : Str) : Str := "locked_".toList ++ t

/-- The lock file of a type: LockablePath.py 14-17, ExperimentDefinition.py 39-42. -/
def Def.lockFile (d : Def) (t : Str) : Path := d.lockDir ++ [lockName t]

/-- `lock_type` or the default one. LockablePath.py 15-16, 37-38, 63-64. -/
def Def.lockType (d : Def) (t : Str) : Str := if t = [] then d.defaultLock else t

/-- The side effect of `get_lock` and `get_locks`: `ExperimentDefinition` makes the folder
(`self.subfolder('locks')`, ExperimentDefinition.py 33-36, 42, 46). -/
def Def.touch (d : Def) (fs : Fs) : Fs :=
  match d.kind with
  | .experiment _ => mkdirs fs d.lockDir
  | _ => fs

/-- Whether the path is matched by `glob('locked_*')` in the folder. LockablePath.py 86. -/
def isLockIn (dir p : Path) : Bool :=
  decide (p ≠ []) && decide (p.dropLast = dir) && decide ("locked_".toList <+: p.getLast?.getD [])

/-- `folder_is_locked(lock_type)`: LockablePath.py 20-25, `get_locks` 84-85,
ExperimentDefinition.py 45-46. -/
def Def.isLocked (d : Def) (t : Str) (fs : Fs) : Bool × Fs :=
  if t = [] then ((d.touch fs).any (fun e => isLockIn d.lockDir e.1), d.touch fs)
  else (exists' (d.touch fs) (d.lockFile t), d.touch fs)

/-- `lock_folder(lock_type)`: LockablePath.py 36-42. -/
def Def.lock (d : Def) (t : Str) (fs : Fs) : Fs × Option Err :=
  if (d.isLocked (d.lockType t) fs).1 then ((d.isLocked (d.lockType t) fs).2, none)
  else writeText (d.touch (d.isLocked (d.lockType t) fs).2) (d.lockFile (d.lockType t)) "locked".toList

/-- `unlock_folder(lock_type)`: LockablePath.py 62-68. -/
def Def.unlock (d : Def) (t : Str) (fs : Fs) : Fs × Option Err :=
  if (d.isLocked (d.lockType t) fs).1 then
    unlink (d.touch (d.isLocked (d.lockType t) fs).2) (d.lockFile (d.lockType t))
  else ((d.isLocked (d.lockType t) fs).2, none)

/-- The exception of `delete_folder`: its message uses `self.name`, which `LockablePath` itself
does not have. LockablePath.py 46-49. -/
def Def.deleteError (d : Def) : Err :=
  match d.kind with
  | .base => .attributeError
  | _ => lockableError

/-- `delete_folder()`: LockablePath.py 45-51. -/
def Def.deleteFolder (d : Def) (fs : Fs) : Fs × Option Err :=
  if exists' fs d.path = false then (fs, some d.deleteError)
  else if (d.isLocked [] fs).1 then ((d.isLocked [] fs).2, some d.deleteError)
  else (rmtree (d.isLocked [] fs).2 d.path, none)

/-- The folder that `subfolder_exists` looks for: LockablePath.py 32-33,
ExperimentDefinition.py 49-51. -/
def Def.subPath (d : Def) (s : Str) : Path :=
  match d.kind with
  | .experiment sub => d.path ++ [s, sub]
  | _ => d.path ++ [s]

/-- `delete_subfolder(subfolder)`: LockablePath.py 54-59. -/
def Def.deleteSubfolder (d : Def) (s : Str) (fs : Fs) : Fs × Option Err :=
  if (d.isLocked [] fs).1 then ((d.isLocked [] fs).2, some lockableError)
  else if exists' (d.isLocked [] fs).2 (d.subPath s) = false then
    ((d.isLocked [] fs).2, some lockableError)
  else (rmtree (d.isLocked [] fs).2 (d.path ++ [s]), none)

/-- `ensure_folder()`: LockablePath.py 71-72. -/
def Def.ensureFolder (d : Def) (fs : Fs) : Fs := mkdirs fs d.path

/-- `ensure_subfolder(s)`, `subfolder(s)`: LockablePath.py 76-82, ExperimentDefinition.py 33-36. -/
def Def.ensureSubfolder (d : Def) (s : Str) (fs : Fs) : Fs := mkdirs fs (d.subPath s)

/-- A call on an object. LockablePath.py 14-86. -/
inductive Op where
  | isLocked (t : Str)
  | lock (t : Str)
  | unlock (t : Str)
  | deleteFolder
  | deleteSubfolder (s : Str)
  | ensureFolder
  | ensureSubfolder (s : Str)
  /-- the program writes a file -/
  | put (p : Path) (content : Str)
  deriving DecidableEq, Repr

/-- The effect of a call on the file system. LockablePath.py 14-86. -/
def step (fs : Fs) (c : Def × Op) : Fs :=
  match c.2 with
  | .isLocked t => (c.1.isLocked t fs).2
  | .lock t => (c.1.lock t fs).1
  | .unlock t => (c.1.unlock t fs).1
  | .deleteFolder => (c.1.deleteFolder fs).1
  | .deleteSubfolder s => (c.1.deleteSubfolder s fs).1
  | .ensureFolder => c.1.ensureFolder fs
  | .ensureSubfolder s => c.1.ensureSubfolder s fs
  | .put p content => (writeText fs p content).1

/-- The effect of a history of calls. LockablePath.py 14-86, several calls. -/
def runAll (fs : Fs) (h : List (Def × Op)) : Fs := h.foldl step fs

/-! ## Facts about the file system -/

theorem get_filter (fs : Fs) (P : Path → Bool) (p : Path) :
    dictGet (fs.filter (fun e => P e.1)) p = if P p then dictGet fs p else none := by
  induction fs with
  | nil => simp [dictGet]
  | cons e fs ih =>
    obtain ⟨q, x⟩ := e
    by_cases hq : P q
    · rw [List.filter_cons_of_pos (by simpa using hq)]
      by_cases e : q = p
      · subst e; simp [dictGet, hq]
      · simp [dictGet, e, ih]
    · rw [List.filter_cons_of_neg (by simpa using hq), ih]
      by_cases e : q = p
      · subst e; simp [hq]
      · simp [dictGet, e]

theorem get_rmtree (fs : Fs) (q p : Path) :
    dictGet (rmtree fs q) p = if q <+: p then none else dictGet fs p := by
  unfold rmtree
  have := get_filter fs (fun p => decide (¬ q <+: p)) p
  rw [this]
  by_cases h : q <+: p <;> simp [h]

theorem get_unlink (fs : Fs) (q p : Path) :
    dictGet (unlink fs q).1 p = if p = q then none else dictGet fs p := by
  unfold unlink
  by_cases h : exists' fs q
  · rw [if_pos h]
    have := get_filter fs (fun p => decide (p ≠ q)) p
    rw [this]
    by_cases h : p = q <;> simp [h]
  · rw [if_neg h]
    by_cases e : p = q
    · subst e
      unfold exists' at h
      simpa using h
    · simp [e]

theorem get_writeText (fs : Fs) (q p : Path) (c : Str) (h : p ≠ q) :
    dictGet (writeText fs q c).1 p = dictGet fs p := by
  unfold writeText
  split
  · simp only []; rw [dictGet_dictSet, if_neg (Ne.symm h)]
  · rfl

/-- Making folders changes no existing entry. -/
theorem mkdirsFrom_keeps (fs : Fs) (done rest p : Path) (x : Entry) (h : dictGet fs p = some x) :
    dictGet (mkdirsFrom fs done rest) p = some x := by
  induction rest generalizing fs done with
  | nil => exact h
  | cons c cs ih =>
    unfold mkdirsFrom
    apply ih
    split
    · exact h
    · rename_i hne
      rw [dictGet_dictSet, if_neg]
      · exact h
      · intro e; subst e
        unfold exists' at hne
        rw [h] at hne
        simp at hne

theorem mkdirs_keeps {fs : Fs} {q p : Path} {x : Entry} (h : dictGet fs p = some x) :
    dictGet (mkdirs fs q) p = some x := mkdirsFrom_keeps fs [] q p x h

/-- Making folders adds only the folder and its parents. -/
theorem mkdirsFrom_none (fs : Fs) (done rest p : Path) (h : dictGet fs p = none)
    (hp : ∀ r, r ≠ [] → r <+: rest → p ≠ done ++ r) : dictGet (mkdirsFrom fs done rest) p = none := by
  induction rest generalizing fs done with
  | nil => exact h
  | cons c cs ih =>
    unfold mkdirsFrom
    apply ih
    · split
      · exact h
      · rw [dictGet_dictSet, if_neg]
        · exact h
        · intro e
          exact hp [c] (by simp) ⟨cs, rfl⟩ e.symm
    · intro r hr hrc e
      refine hp (c :: r) (by simp) ?_ ?_
      · obtain ⟨t, ht⟩ := hrc; exact ⟨t, by simp [ht]⟩
      · rw [e]; simp

theorem mkdirs_none {fs : Fs} {q p : Path} (h : dictGet fs p = none) (hp : ¬ (p ≠ [] ∧ p <+: q)) :
    dictGet (mkdirs fs q) p = none := by
  apply mkdirsFrom_none fs [] q p h
  intro r hr hrq e
  exact hp ⟨by rw [e]; simpa using hr, by rw [e]; simpa using hrq⟩

theorem mkdirsFrom_done (fs : Fs) (done rest : Path) (hne : rest ≠ []) :
    (dictGet (mkdirsFrom fs done rest) (done ++ rest)).isSome := by
  induction rest generalizing fs done with
  | nil => exact absurd rfl hne
  | cons c cs ih =>
    unfold mkdirsFrom
    have e : done ++ c :: cs = (done ++ [c]) ++ cs := by simp
    by_cases hcs : cs = []
    · subst hcs
      show (dictGet (if _ then _ else _) (done ++ [c])).isSome
      split
      · rename_i h; exact h
      · rw [dictGet_dictSet, if_pos rfl]; rfl
    · rw [e]; exact ih _ _ hcs

theorem exists_mkdirs (fs : Fs) (q : Path) (hne : q ≠ []) : exists' (mkdirs fs q) q = true := by
  have := mkdirsFrom_done fs [] q hne
  simpa [exists', mkdirs] using this

theorem exists_keeps {fs fs' : Fs} {p : Path} (h : exists' fs p = true)
    (hk : ∀ x, dictGet fs p = some x → dictGet fs' p = some x) : exists' fs' p = true := by
  unfold exists' at h ⊢
  obtain ⟨x, hx⟩ := Option.isSome_iff_exists.1 h
  rw [hk x hx]; rfl

end Mbtk.Exp
