import Verif.Exp.Fs
import Mathlib.Data.List.Dedup
import Mathlib.Logic.Relation
/-!
# Model of `experiments/experiment_dcmi/restructure.py` (C94)

The script moves the results of the subexperiments, kept in one folder each, into one folder for the whole
experiment.  It changes the file system by single operations (making a folder, renaming); it may be killed
before any of them, and any of them may raise an exception.  The file system is that of `Exp/Fs.lean`.
-/
namespace Mbtk.Exp.Restructure
open Mbtk Mbtk.Dataset Mbtk.Exp

/-- `EXPERIMENT_NAME`: restructure.py 14. -/
def expName : Str := "dcMIEvExpII".toList

/-- `DATA_FOLDERS`: restructure.py 15-17. -/
def dataFolders : List Str := ["adtree_analysis".toList, "adtrees".toList, "algorithm_run_datapoints".toList,
  "algorithm_run_logs".toList, "ci_test_results".toList, "dof_cache".toList, "jht".toList,
  "summaries".toList]

/-- `EXPERIMENT_NAME + '_'`: restructure.py 43. -/
def subPrefix : Str := expName ++ "_".toList

/-- What `path.name.startswith` looks for: restructure.py 67. -/
def lockedPrefix : Str := "locked".toList

/-- The folder of the lock files: restructure.py 62. -/
def locksName : Str := "locks".toList

/-- How a command ended: normally, by an exception, or because the process was killed.
restructure.py 20-29: every statement can be the last one executed. -/
inductive Outcome where
  | done
  | raised (e : Err)
  | killed

/-- A command: given the number of operations after which the process is killed (`none`: never) and the
file system, what is left of the number, the new file system, and the outcome. restructure.py 20-83. -/
abbrev Cmd := Option Nat → Fs → Option Nat × Fs × Outcome

/-- One operation on the file system. restructure.py 33-36, 50-72. -/
def act (f : Fs → Fs × Option Err) : Cmd := fun b fs =>
  match b with
  | some 0 => (b, fs, .killed)
  | _ => match f fs with
    | (fs', none) => (b.map (· - 1), fs', .done)
    | (fs', some e) => (b.map (· - 1), fs', .raised e)

/-- `p; q`. (Python itself.) -/
def andThen (p q : Cmd) : Cmd := fun b fs =>
  match p b fs with
  | (b', fs', .done) => q b' fs'
  | r => r

/-- `pass`. (Python itself.) -/
def skip : Cmd := fun b fs => (b, fs, .done)

/-- `for x in l: body(x)`. (Python itself.) -/
def forEach {α : Type} (body : α → Cmd) : List α → Cmd
  | [] => skip
  | x :: xs => andThen (body x) (forEach body xs)

/-- `try: p except FileNotFoundError: pass`: restructure.py 54-57. -/
def unlessMissing (p : Cmd) : Cmd := fun b fs =>
  match p b fs with
  | (b', fs', .raised e) => if e = fileNotFound then (b', fs', .done) else (b', fs', .raised e)
  | r => r

/-- A command that depends on the current file system. (Python itself.) -/
def reading (k : Fs → Cmd) : Cmd := fun b fs => k fs b fs

/-- `path / name`: pathlib leaves the path as it is when the name is empty. restructure.py 22-72. -/
def join (p : Path) (n : Str) : Path := if n = [] then p else p ++ [n]

/-- `path.mkdir(parents=True, exist_ok=True)`, with the `FileExistsError` if the path is a file.
restructure.py 34-36, 63, 71. -/
def mkdir (p : Path) (fs : Fs) : Fs × Option Err :=
  match dictGet fs p with
  | some (.file _) => (fs, some (.custom "FileExistsError"))
  | _ => (mkdirs fs p, none)

/-- Whether something is inside the folder: `rename` refuses to replace such a folder.
restructure.py 55, 72. -/
def occupied (fs : Fs) (p : Path) : Bool := fs.any (fun e => decide (p <+: e.1 ∧ e.1 ≠ p))

/-- `a` becomes `b`, with everything inside; what was at `b` is gone. restructure.py 55, 72. -/
def moved (fs : Fs) (a b : Path) : Fs :=
  (fs.filter (fun e => ¬ b <+: e.1)).map
    (fun e => if a <+: e.1 then (b ++ e.1.drop a.length, e.2) else e)

/-- `a.rename(b)`, that is, rename(2) within a file system: a file replaces a file, a folder replaces an
empty folder; everything else that is in the way makes it fail. restructure.py 55, 72. -/
def rename (a b : Path) (fs : Fs) : Fs × Option Err :=
  match dictGet fs a, dictGet fs b.dropLast with
  | none, _ => (fs, some fileNotFound)
  | _, none => (fs, some fileNotFound)
  | some _, some (.file _) => (fs, some (.custom "NotADirectoryError"))
  | some ea, some .dir =>
    match ea, dictGet fs b with
    | .dir, some (.file _) => (fs, some (.custom "NotADirectoryError"))
    | .file _, some .dir => (fs, some (.custom "IsADirectoryError"))
    | .dir, some .dir => if occupied fs b then (fs, some (.custom "OSError")) else (moved fs a b, none)
    | _, _ => (moved fs a b, none)

/-- The names in a folder. restructure.py 41, 65. -/
def children (fs : Fs) (p : Path) : List Str :=
  (fs.filterMap (fun e => match e.1.getLast? with
    | some n => if e.1.dropLast = p then some n else none
    | none => none)).dedup

/-- `get_new_subexperiment_name(old_name)`: restructure.py 76-78. -/
def newName (old : Str) : Str := old.drop (expName.length + 1)

/-- `create_new_structure(root)`: restructure.py 33-36. -/
def createStructure (root : Path) : Cmd :=
  andThen (act (mkdir root)) (forEach (fun f => act (mkdir (join root f))) dataFolders)

/-- `restructure_subexperiment_folder(root, subexp)`, `subexp` being the folder `name` of `repo`:
restructure.py 50-57. -/
def moveFolders (root repo : Path) (name : Str) : Cmd :=
  forEach (fun d => unlessMissing
    (act (rename (join (join repo name) d) (join (join root d) (newName name))))) dataFolders

/-- The body of the loop over the content of a subexperiment folder: restructure.py 66-72. -/
def moveLock (root repo : Path) (name file : Str) : Cmd := reading fun fs =>
  match dictGet fs (join (join repo name) file) with
  | some (.file _) =>
    if lockedPrefix <+: file then
      andThen (act (mkdir (join (join root locksName) (newName name))))
        (act (rename (join (join repo name) file)
          (join (join (join root locksName) (newName name)) file)))
    else skip
  | _ => skip

/-- `restructure_subexperiment_locks(root, subexp)`: restructure.py 61-72.  `iterdir` lists the names in a
folder. -/
def moveLocks (iterdir : Fs → Path → List Str) (root repo : Path) (name : Str) : Cmd :=
  andThen (act (mkdir (join root locksName))) (reading fun fs =>
    forEach (moveLock root repo name) (iterdir fs (join repo name)))

/-- What is done with one of the names in the repository: the conditions of
`get_subexperiment_folders` and the body of the loop. restructure.py 26-29, 41-46. -/
def moveSub (iterdir : Fs → Path → List Str) (root repo : Path) (name : Str) : Cmd := reading fun fs =>
  match dictGet fs (join repo name) with
  | some .dir =>
    if subPrefix <+: name then andThen (moveFolders root repo name) (moveLocks iterdir root repo name)
    else skip
  | _ => skip

/-- `restructure()`: restructure.py 20-29; `repo` is `paths.ExpRunRepository`. -/
def restructure (iterdir : Fs → Path → List Str) (repo : Path) : Cmd :=
  andThen (createStructure (join repo expName)) (reading fun fs =>
    forEach (moveSub iterdir (join repo expName) repo) (iterdir fs repo))

/-! ## What the operations do to the entries -/

theorem dictGet_cons (e : Path × Entry) (fs : Fs) (p : Path) :
    dictGet (e :: fs) p = if e.1 = p then some e.2 else dictGet fs p := by
  obtain ⟨k, v⟩ := e
  rfl

theorem prefix_of_append {a b x : Path} (h : b <+: a ++ x) (ha : ¬ a <+: b) : b <+: a :=
  (List.prefix_or_prefix_of_prefix h (List.prefix_append a x)).resolve_right ha

theorem get_moved (fs : Fs) {a b : Path} (hab : ¬ a <+: b) (hba : ¬ b <+: a) (p : Path) :
    dictGet (moved fs a b) p = if b <+: p then dictGet fs (a ++ p.drop b.length)
      else if a <+: p then none else dictGet fs p := by
  unfold moved
  induction fs with
  | nil => simp [dictGet]
  | cons e fs ih =>
    by_cases hf : b <+: e.1
    · rw [List.filter_cons_of_neg (by simpa using hf), ih]
      have h1 : ∀ x : Path, e.1 ≠ a ++ x := fun x hx => hba (prefix_of_append (hx ▸ hf) hab)
      simp only [dictGet_cons, if_neg (h1 _)]
      by_cases hb : b <+: p
      · rw [if_pos hb, if_pos hb]
      · rw [if_neg hb, if_neg hb]
        by_cases ha : a <+: p
        · rw [if_pos ha, if_pos ha]
        · rw [if_neg ha, if_neg ha, if_neg (fun h : e.1 = p => hb (h ▸ hf))]
    · rw [List.filter_cons_of_pos (by simpa using hf), List.map_cons, dictGet_cons, ih]
      by_cases ha : a <+: e.1
      · rw [if_pos ha]
        obtain ⟨x, hx⟩ := ha
        simp only [← hx, List.drop_left, dictGet_cons]
        by_cases hb : b <+: p
        · obtain ⟨y, rfl⟩ := hb
          simp only [List.append_cancel_left_eq, List.prefix_append, if_true, List.drop_left]
        · have h1 : b ++ x ≠ p := fun h => hb (h ▸ List.prefix_append b x)
          rw [if_neg h1, if_neg hb, if_neg hb]
          by_cases hap : a <+: p
          · rw [if_pos hap, if_pos hap]
          · rw [if_neg hap, if_neg hap, if_neg (fun h : a ++ x = p => hap (h ▸ List.prefix_append a x))]
      · rw [if_neg ha]
        simp only [dictGet_cons]
        by_cases hb : b <+: p
        · rw [if_pos hb, if_pos hb, if_neg (fun h : e.1 = p => hf (h ▸ hb)),
            if_neg (fun h : e.1 = a ++ p.drop b.length => ha (h ▸ List.prefix_append _ _))]
        · rw [if_neg hb, if_neg hb]
          by_cases hap : a <+: p
          · rw [if_pos hap, if_pos hap, if_neg (fun h : e.1 = p => ha (h ▸ hap))]
          · rw [if_neg hap, if_neg hap]

theorem mkdirsFrom_last (fs : Fs) (n : Str) : ∀ (rest done : Path),
    (∀ r, r <+: rest → r ≠ [] → exists' fs (done ++ r) = true) →
    mkdirsFrom fs done (rest ++ [n]) = if exists' fs (done ++ rest ++ [n]) then fs
      else dictSet fs (done ++ rest ++ [n]) .dir := by
  intro rest
  induction rest with
  | nil => intro done _; simp [mkdirsFrom]
  | cons c cs ih =>
    intro done h
    rw [List.cons_append, mkdirsFrom, if_pos (h [c] (by simp) (by simp)), ih (done ++ [c])]
    · simp
    · intro r hr hne
      rw [List.append_assoc]
      exact h ([c] ++ r) (by simpa using hr) (by simp)

theorem get_mkdirs_last (fs : Fs) (q : Path) (n : Str)
    (h : ∀ r, r <+: q → r ≠ [] → exists' fs r = true) (p : Path) :
    dictGet (mkdirs fs (q ++ [n])) p =
      if p = q ++ [n] ∧ dictGet fs p = none then some .dir else dictGet fs p := by
  unfold mkdirs
  rw [mkdirsFrom_last fs n q [] (by simpa using h), List.nil_append]
  by_cases he : exists' fs (q ++ [n]) = true
  · rw [if_pos he]
    split
    · rename_i hp
      rw [hp.1] at hp
      unfold exists' at he
      rw [hp.2] at he
      cases he
    · rfl
  · rw [if_neg he, dictGet_dictSet]
    have hn : dictGet fs (q ++ [n]) = none := by
      unfold exists' at he
      simpa using he
    by_cases hp : p = q ++ [n]
    · rw [if_pos hp.symm, if_pos ⟨hp, by rw [hp]; exact hn⟩]
    · rw [if_neg (fun h => hp h.symm), if_neg (fun h => hp h.1)]

theorem mem_children {fs : Fs} {p : Path} {n : Str} :
    n ∈ children fs p ↔ exists' fs (p ++ [n]) = true := by
  unfold children
  rw [List.mem_dedup, List.mem_filterMap]
  constructor
  · rintro ⟨e, he, h⟩
    split at h
    · rename_i m hm
      split at h
      · rename_i hd
        cases h
        have : e.1 = p ++ [n] := by
          rw [← hd]
          exact (List.dropLast_append_getLast? n hm).symm
        unfold exists'
        rw [← this, Option.isSome_iff_ne_none]
        intro hnone
        exact (dictGet_none_iff fs e.1).1 hnone (List.mem_map_of_mem he)
      · cases h
    · cases h
  · intro h
    unfold exists' at h
    obtain ⟨x, hx⟩ := Option.isSome_iff_exists.1 h
    exact ⟨(p ++ [n], x), dictGet_mem hx, by simp⟩

theorem occupied_iff {fs : Fs} {p : Path} :
    occupied fs p = true ↔ ∃ x, x ≠ [] ∧ dictGet fs (p ++ x) ≠ none := by
  unfold occupied
  rw [List.any_eq_true]
  constructor
  · rintro ⟨e, he, h⟩
    obtain ⟨⟨x, hx⟩, h2⟩ := of_decide_eq_true h
    refine ⟨x, ?_, ?_⟩
    · rintro rfl
      exact h2 (by simpa using hx.symm)
    · rw [hx]
      intro hnone
      exact (dictGet_none_iff fs e.1).1 hnone (List.mem_map_of_mem he)
  · rintro ⟨x, hx, h⟩
    obtain ⟨v, hv⟩ := Option.ne_none_iff_exists'.1 h
    refine ⟨_, dictGet_mem hv, decide_eq_true ⟨List.prefix_append p x, ?_⟩⟩
    simpa using hx

end Mbtk.Exp.Restructure
