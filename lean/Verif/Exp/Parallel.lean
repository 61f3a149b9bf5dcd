import Verif.Exp.RunProps
/-!
# Several processes running one experiment at the same time (C90)

Any number of processes call `ExperimentRun.run` of the same experiment (each with its own parameters, as
with `exp run --index`).  The steps of the processes - one call that changes or looks at the disk each - are
interleaved in any way; a process may die between two of its steps.

A file that several processes have opened for writing is one sequence of bytes: each process writes at its
own position, opening truncates, and a gap is filled with zeros.  Content is written in pieces (any pieces,
so dying in the middle of a write is dying between two pieces).  `mkdir` of a folder with its parents is one
step (it has no effect on files).  The rest as in `Exp/Run.lean`.
-/
namespace Mbtk.Exp.Parallel
open Mbtk Mbtk.Dataset Mbtk.Exp Mbtk.Exp.Spec

/-! ## Steps of a process -/

/-- A step of a process. ExperimentRun.py 22-105, LockablePath.py 36-42. -/
inductive Instr where
  | mkdir (p : Path)
  /-- `open(mode='w')` -/
  | create (p : Path)
  /-- a piece of content reaches the opened file, at the position of this process -/
  | write (p : Path) (position : Nat) (piece : Str)
  /-- `if path.exists()`: nothing more is done -/
  | stopIf (p : Path)
  deriving DecidableEq, Repr

/-- Writing at a position. (Python itself.) -/
def overlay (old : Str) (position : Nat) (piece : Str) : Str :=
  if piece = [] then old
  else (old ++ List.replicate (position - old.length) (Char.ofNat 0)).take position ++
    (piece ++ old.drop (position + piece.length))

/-- The effect of a step on the disk; a file that was deleted meanwhile does not come back by writing.
ExperimentRun.py 22-105. -/
def Instr.apply (fs : Fs) : Instr → Fs
  | .mkdir p => mkdirs fs p
  | .create p => dictSet fs p (.file [])
  | .write p k c =>
    match dictGet fs p with
    | some (.file old) => dictSet fs p (.file (overlay old k c))
    | _ => fs
  | .stopIf _ => fs

/-- The pieces of a content, one after the other. ExperimentRun.py 93-94. -/
def pieces (p : Path) : Nat → List Str → List Instr
  | _, [] => []
  | k, c :: cs => .write p k c :: pieces p (k + c.length) cs

/-- The steps of a call of `Exp/Run.lean`; `chop` says in which pieces content is written.
ExperimentRun.py 22-105. -/
def steps (chop : Str → List Str) : Action → List Instr
  | .mkdir p => [.mkdir p]
  | .create p => [.create p]
  | .write p c => pieces p 0 (chop c)

/-- What a process is to run: parameters of `program` in `Exp/Run.lean`, and the pieces it writes.
ExperimentRun.py 13-19. -/
structure Job where
  prep : Option Err
  beh : Params → Behaviour
  runs : List Params
  chop : Str → List Str

/-- `lock_folder('experiment')`, which looks for the lock first: LockablePath.py 36-42,
ExperimentDefinition.py 40-43. -/
def lockSteps (cfg : Config) (chop : Str → List Str) : List Instr :=
  if cfg.autoLock then [.mkdir cfg.definition.lockDir, .stopIf cfg.lockFile, .mkdir cfg.definition.lockDir,
    .create cfg.lockFile] ++ pieces cfg.lockFile 0 (chop "locked".toList)
  else []

/-- The part of `run` after looking for the lock: ExperimentRun.py 27-43. -/
def mainSteps (cfg : Config) (j : Job) : List Instr :=
  (folderActions cfg).flatMap (steps j.chop) ++
  match j.prep with
  | some _ => []
  | none => (loop cfg j.beh j.runs).1.flatMap (steps j.chop) ++
    match (loop cfg j.beh j.runs).2.2 with
    | some _ => []
    | none => lockSteps cfg j.chop

/-- `run`: ExperimentRun.py 22-43. -/
def allSteps (cfg : Config) (j : Job) : List Instr :=
  [.mkdir cfg.path, .mkdir cfg.definition.lockDir] ++ .stopIf cfg.lockFile :: mainSteps cfg j

/-! ## Interleavings -/

/-- The disk and, for each process, what it has still to do and whether it got past looking for the lock.
ExperimentRun.py 22-43. -/
structure State where
  fs : Fs
  todo : Nat → List Instr
  passed : Nat → Bool

/-- What happens next: a step of a process, or its death. ExperimentRun.py 22-43. -/
inductive Event where
  | step (i : Nat)
  | crash (i : Nat)
  deriving DecidableEq, Repr

/-- One event. ExperimentRun.py 22-43. -/
def next (s : State) : Event → State
  | .crash i => { s with todo := Function.update s.todo i [] }
  | .step i =>
    match s.todo i with
    | [] => s
    | .stopIf p :: rest =>
      if exists' s.fs p then { s with todo := Function.update s.todo i [] }
      else { s with todo := Function.update s.todo i rest, passed := Function.update s.passed i true }
    | a :: rest => { s with fs := a.apply s.fs, todo := Function.update s.todo i rest }

/-- A schedule. ExperimentRun.py 22-43. -/
def runSchedule (s : State) (es : List Event) : State := es.foldl next s

/-- All processes before they begin. ExperimentRun.py 22-43. -/
def initial (cfg : Config) (jobs : Nat → Job) (fs : Fs) : State :=
  ⟨fs, fun i => allSteps cfg (jobs i), fun _ => false⟩

/-! ## Specification -/

namespace Spec

/-- No process that writes the data point of the ID is in the middle of its run. (Specification.) -/
def Quiet (jobs : Nat → Job) (id : Str) (s : State) : Prop :=
  ∀ i, Writes (jobs i).runs id → s.todo i = [] ∨ s.passed i = false

/-- The process came past the lock, everything succeeds, and it is at its end. (Specification.) -/
structure Finished (cfg : Config) (jobs : Nat → Job) (s : State) (i : Nat) : Prop where
  passed : s.passed i = true
  ended : s.todo i = []
  prep : (jobs i).prep = none
  completes : ∀ p ∈ (jobs i).runs, p.skip = false → Completes cfg ((jobs i).beh p)

/-- No process that writes the data point of the ID dies. (Specification.) -/
def NoCrash (jobs : Nat → Job) (id : Str) (es : List Event) : Prop :=
  ∀ i, Writes (jobs i).runs id → Event.crash i ∉ es

/-- All processes that write the data point of the ID write the same. (Specification.) -/
def SameBytes (jobs : Nat → Job) (id : Str) (B : Str) : Prop :=
  ∀ i, ∀ p ∈ (jobs i).runs, p.skip = false → p.id = id → ((jobs i).beh p).bytes = B

/-- The pieces make up the content. (Specification.) -/
def Chops (jobs : Nat → Job) : Prop := ∀ i c, ((jobs i).chop c).flatten = c

end Spec
open Mbtk.Exp.Parallel.Spec

/-! ## Writing at positions -/

theorem overlay_get (old : Str) (k : Nat) (c : Str) (hc : c ≠ []) (j : Nat) :
    (overlay old k c)[j]? = if j < k then (old ++ List.replicate (k - old.length) (Char.ofNat 0))[j]?
      else if j < k + c.length then c[j - k]? else old[j]? := by
  unfold overlay
  rw [if_neg hc]
  have hl : ((old ++ List.replicate (k - old.length) (Char.ofNat 0)).take k).length = k := by
    simp; omega
  by_cases h1 : j < k
  · rw [if_pos h1, List.getElem?_append_left (by omega), List.getElem?_take, if_pos h1]
  · rw [if_neg h1, List.getElem?_append_right (by omega), hl]
    by_cases h2 : j < k + c.length
    · rw [if_pos h2, List.getElem?_append_left (by omega)]
    · rw [if_neg h2, List.getElem?_append_right (by omega), List.getElem?_drop]
      congr 1; omega

theorem overlay_length (old : Str) (k : Nat) (c : Str) (hc : c ≠ []) :
    (overlay old k c).length = max old.length (k + c.length) := by
  unfold overlay
  rw [if_neg hc]
  simp
  omega

/-- A file in which the first bytes are right. (Models no code: a notion for statements and proofs.) -/
def Upto (B : Str) (fs : Fs) (P : Path) (o : Nat) : Prop :=
  ∃ C, dictGet fs P = some (.file C) ∧ o ≤ C.length ∧ C.length ≤ B.length ∧ ∀ j < o, C[j]? = B[j]?

theorem prefix_drop_get {B c : Str} {k : Nat} (h : c <+: B.drop k) {j : Nat} (h1 : k ≤ j) (h2 : j < k + c.length) :
    c[j - k]? = B[j]? := by
  obtain ⟨t, ht⟩ := h
  have : (B.drop k)[j - k]? = c[j - k]? := by
    rw [← ht, List.getElem?_append_left (by omega)]
  rw [← this, List.getElem?_drop]
  congr 1; omega

theorem prefix_drop_length {B c : Str} {k : Nat} (h : c <+: B.drop k) (hk : k ≤ B.length) :
    k + c.length ≤ B.length := by
  have := h.length_le
  rw [List.length_drop] at this
  omega

/-- Anybody writing the right piece keeps what is right. -/
theorem upto_write {B : Str} {fs : Fs} {P : Path} {o k : Nat} {c : Str} (h : Upto B fs P o)
    (hk : k ≤ B.length) (hc : c <+: B.drop k) : Upto B ((Instr.write P k c).apply fs) P o := by
  obtain ⟨C, hC, h1, h2, h3⟩ := h
  by_cases he : c = []
  · refine ⟨C, ?_, h1, h2, h3⟩
    simp only [Instr.apply, hC]
    rw [dictGet_dictSet, if_pos rfl]
    simp [overlay, he]
  · refine ⟨overlay C k c, ?_, ?_, ?_, ?_⟩
    · simp only [Instr.apply, hC]
      rw [dictGet_dictSet, if_pos rfl]
    · rw [overlay_length _ _ _ he]; omega
    · rw [overlay_length _ _ _ he]
      have := prefix_drop_length hc hk
      omega
    · intro j hj
      rw [overlay_get _ _ _ he]
      by_cases ha : j < k
      · rw [if_pos ha, List.getElem?_append_left (by omega)]
        exact h3 j hj
      · rw [if_neg ha]
        by_cases hb : j < k + c.length
        · rw [if_pos hb]; exact prefix_drop_get hc (by omega) hb
        · rw [if_neg hb]; exact h3 j hj

/-- The one who writes next makes more of it right. -/
theorem upto_advance {B : Str} {fs : Fs} {P : Path} {o : Nat} {c : Str} (h : Upto B fs P o)
    (hc : c <+: B.drop o) (ho : o ≤ B.length) : Upto B ((Instr.write P o c).apply fs) P (o + c.length) := by
  by_cases he : c = []
  · subst he; simpa using upto_write h ho hc
  · obtain ⟨C, hC, h1, h2, h3⟩ := h
    refine ⟨overlay C o c, ?_, ?_, ?_, ?_⟩
    · simp only [Instr.apply, hC]
      rw [dictGet_dictSet, if_pos rfl]
    · rw [overlay_length _ _ _ he]; omega
    · rw [overlay_length _ _ _ he]
      have := prefix_drop_length hc ho
      omega
    · intro j hj
      rw [overlay_get _ _ _ he]
      by_cases ha : j < o
      · rw [if_pos ha, List.getElem?_append_left (by omega)]
        exact h3 j ha
      · rw [if_neg ha, if_pos hj]; exact prefix_drop_get hc (by omega) hj

theorem upto_all {B : Str} {fs : Fs} {P : Path} (h : Upto B fs P B.length) :
    dictGet fs P = some (.file B) := by
  obtain ⟨C, hC, h1, h2, h3⟩ := h
  have : C = B := by
    apply List.ext_getElem?
    intro j
    by_cases hj : j < B.length
    · exact h3 j hj
    · rw [List.getElem?_eq_none (by omega), List.getElem?_eq_none (by omega)]
  rw [hC, this]

theorem apply_elsewhere {fs : Fs} {a : Instr} {P : Path} (h1 : ∀ q, a = .mkdir q → q.length < P.length)
    (h2 : a ≠ .create P) (h3 : ∀ k c, a ≠ .write P k c) : dictGet (a.apply fs) P = dictGet fs P := by
  cases a with
  | mkdir q =>
    exact apply_other (a := .mkdir q) (n := q.length) (by simp [Touches])
      (fun r hr => by cases hr; exact Nat.le_refl _) (h1 q rfl)
  | create q =>
    show dictGet (dictSet _ _ _) _ = _
    rw [dictGet_dictSet, if_neg]
    rintro rfl; exact h2 rfl
  | write q k c =>
    simp only [Instr.apply]
    split
    · rw [dictGet_dictSet, if_neg]
      rintro rfl; exact h3 k c rfl
    · rfl
  | stopIf q => rfl

theorem upto_elsewhere {B : Str} {fs : Fs} {a : Instr} {P : Path} {o : Nat} (h : Upto B fs P o)
    (h1 : ∀ q, a = .mkdir q → q.length < P.length)
    (h2 : a ≠ .create P) (h3 : ∀ k c, a ≠ .write P k c) : Upto B (a.apply fs) P o := by
  unfold Upto
  rw [apply_elsewhere h1 h2 h3]
  exact h

/-! ## What a process does to one file -/

/-- The rest of a process writes content `B` into the file whenever it opens it; `o` bytes are written since
it was last opened (all, if it was not). (Models no code: a notion for statements and proofs.) -/
def Wt (P : Path) (B : Str) : Nat → List Instr → Prop
  | o, [] => o = B.length
  | o, .mkdir q :: r => q.length < P.length ∧ Wt P B o r
  | o, .create q :: r => if q = P then o = B.length ∧ Wt P B 0 r else Wt P B o r
  | o, .write q k c :: r => if q = P then k = o ∧ c <+: B.drop o ∧ Wt P B (o + c.length) r else Wt P B o r
  | o, .stopIf _ :: r => o = B.length ∧ Wt P B o r

theorem wt_append {P : Path} {B : Str} {a b : List Instr} {o : Nat} (ha : Wt P B o a) (hb : Wt P B B.length b) :
    Wt P B o (a ++ b) := by
  induction a generalizing o with
  | nil => rw [show o = B.length from ha]; exact hb
  | cons x a ih =>
    cases x with
    | mkdir q => exact ⟨ha.1, ih ha.2⟩
    | create q =>
      simp only [Wt, List.cons_append] at *
      split
      · rename_i hq; rw [if_pos hq] at ha; exact ⟨ha.1, ih ha.2⟩
      · rename_i hq; rw [if_neg hq] at ha; exact ih ha
    | write q k c =>
      simp only [Wt, List.cons_append] at *
      split
      · rename_i hq; rw [if_pos hq] at ha; exact ⟨ha.1, ha.2.1, ih ha.2.2⟩
      · rename_i hq; rw [if_neg hq] at ha; exact ih ha
    | stopIf q => exact ⟨ha.1, ih ha.2⟩

theorem wt_flatMap {P : Path} {B : Str} {α : Type} {f : α → List Instr} {l : List α}
    (h : ∀ x ∈ l, Wt P B B.length (f x)) : Wt P B B.length (l.flatMap f) := by
  induction l with
  | nil => rfl
  | cons x l ih =>
    rw [List.flatMap_cons]
    exact wt_append (h x (by simp)) (ih (fun y hy => h y (by simp [hy])))

theorem wt_pieces_other {P q : Path} (hq : q ≠ P) {B : Str} (k : Nat) (cs : List Str) :
    Wt P B B.length (pieces q k cs) := by
  induction cs generalizing k with
  | nil => rfl
  | cons c cs ih => simp only [pieces, Wt, if_neg hq]; exact ih _

theorem wt_pieces {P : Path} {B : Str} (k : Nat) (hk : k ≤ B.length) (cs : List Str) (h : cs.flatten = B.drop k) :
    Wt P B k (pieces P k cs) := by
  induction cs generalizing k with
  | nil =>
    simp only [List.flatten_nil] at h
    have := congrArg List.length h
    simp only [List.length_nil, List.length_drop] at this
    show k = B.length
    omega
  | cons c cs ih =>
    rw [List.flatten_cons] at h
    have hp : c <+: B.drop k := ⟨_, h⟩
    simp only [pieces, Wt, if_true]
    refine ⟨trivial, hp, ih _ (prefix_drop_length hp hk) ?_⟩
    have := congrArg (List.drop c.length) h
    rw [List.drop_left, List.drop_drop] at this
    exact this

theorem wt_run {cfg : Config} {id B : Str} {p : Params} {b : Behaviour} {chop : Str → List Str}
    (hch : ∀ c, (chop c).flatten = c) (hB : p.id = id → b.bytes = B) :
    Wt (cfg.datapointFile id) B B.length ((runAlgorithm cfg p b).1.flatMap (steps chop)) := by
  have hlen := length_datapointFile cfg id
  have hlog : ∀ i log, Wt (cfg.datapointFile id) B B.length ((logActions cfg i log).flatMap (steps chop)) := by
    intro i log
    have hne : cfg.logFilePath i ≠ cfg.datapointFile id := fun e => datapointFile_ne_logFile cfg id i e.symm
    unfold logActions
    split
    · simp only [List.flatMap_cons, List.flatMap_nil, steps, List.append_nil, List.singleton_append, Wt, if_neg hne]
      refine ⟨by rw [hlen]; simp [Config.logDir], wt_pieces_other hne _ _⟩
    · rfl
  have hsave : Wt (cfg.datapointFile id) B B.length ((saveActions cfg p.id b).1.flatMap (steps chop)) := by
    have hd : cfg.datapointDir.length < (cfg.datapointFile id).length := by
      rw [hlen]; simp [Config.datapointDir]
    unfold saveActions
    split
    · exact ⟨hd, rfl⟩
    · simp only [List.flatMap_cons, List.flatMap_nil, steps, List.append_nil, List.singleton_append]
      refine ⟨hd, ?_⟩
      by_cases he : p.id = id
      · rw [he, hB he]
        simp only [Wt, if_true]
        exact ⟨trivial, wt_pieces 0 (Nat.zero_le _) _ (by rw [hch]; rfl)⟩
      · have hne : cfg.datapointFile p.id ≠ cfg.datapointFile id := fun e => he (datapointFile_inj e)
        simp only [Wt, if_neg hne]
        exact wt_pieces_other hne _ _
  unfold runAlgorithm
  split
  · rfl
  · split
    · exact hlog _ _
    · split
      · rw [List.flatMap_append]; exact wt_append (hlog _ _) hsave
      · exact hlog _ _

theorem wt_loop {cfg : Config} {id B : Str} {beh : Params → Behaviour} {runs : List Params} {chop : Str → List Str}
    (hch : ∀ c, (chop c).flatten = c) (hB : ∀ p ∈ runs, p.skip = false → p.id = id → (beh p).bytes = B) :
    Wt (cfg.datapointFile id) B B.length ((loop cfg beh runs).1.flatMap (steps chop)) := by
  induction runs with
  | nil => rfl
  | cons p ps ih =>
    have ih := ih (fun q hq => hB q (by simp [hq]))
    unfold loop
    by_cases hs : p.skip = true
    · rw [if_pos hs]; exact ih
    · rw [if_neg hs]
      have hr := wt_run (cfg := cfg) (id := id) (p := p) (b := beh p) hch (hB p (by simp) (by simpa using hs))
      split
      · exact hr
      · rw [List.flatMap_append]; exact wt_append hr ih

theorem wt_main {cfg : Config} {id B : Str} {j : Job} (hch : ∀ c, (j.chop c).flatten = c)
    (hB : ∀ p ∈ j.runs, p.skip = false → p.id = id → (j.beh p).bytes = B) :
    Wt (cfg.datapointFile id) B B.length (mainSteps cfg j) := by
  have hlen := length_datapointFile cfg id
  unfold mainSteps
  refine wt_append ?_ ?_
  · simp only [folderActions, List.flatMap_cons, List.flatMap_nil, steps, List.append_nil, List.singleton_append]
    exact ⟨by rw [hlen]; simp [Config.logDir], by rw [hlen]; simp [Config.datapointDir], rfl⟩
  · split
    · rfl
    · refine wt_append (wt_loop hch hB) ?_
      split
      · rfl
      · have hne : cfg.lockFile ≠ cfg.datapointFile id := fun e => datapointFile_ne_lockFile cfg id e.symm
        have hl : cfg.definition.lockDir.length < (cfg.datapointFile id).length := by
          rw [hlen]; simp [Config.definition, Def.lockDir]
        unfold lockSteps
        split
        · simp only [List.cons_append, List.nil_append, Wt, if_neg hne]
          exact ⟨hl, trivial, hl, wt_pieces_other hne _ _⟩
        · rfl

theorem wt_all {cfg : Config} {id B : Str} {j : Job} (hch : ∀ c, (j.chop c).flatten = c)
    (hB : ∀ p ∈ j.runs, p.skip = false → p.id = id → (j.beh p).bytes = B) :
    Wt (cfg.datapointFile id) B B.length (allSteps cfg j) := by
  have hlen := length_datapointFile cfg id
  refine ⟨by rw [hlen]; omega, ?_, rfl, wt_main hch hB⟩
  rw [hlen]; simp [Config.definition, Def.lockDir]

theorem wt_all_start {cfg : Config} {id B : Str} {j : Job} {o : Nat}
    (h : Wt (cfg.datapointFile id) B o (allSteps cfg j)) : o = B.length := h.2.2.1

/-! ## Which files the steps open -/

theorem create_mem_pieces {P p : Path} {k : Nat} {cs : List Str} : Instr.create P ∉ pieces p k cs := by
  induction cs generalizing k with
  | nil => simp [pieces]
  | cons c cs ih => simp [pieces, ih]

theorem stop_mem_pieces {P p : Path} {k : Nat} {cs : List Str} : Instr.stopIf P ∉ pieces p k cs := by
  induction cs generalizing k with
  | nil => simp [pieces]
  | cons c cs ih => simp [pieces, ih]

theorem write_mem_pieces {P p : Path} {k o : Nat} {c : Str} {cs : List Str}
    (h : Instr.write P o c ∈ pieces p k cs) : P = p := by
  induction cs generalizing k with
  | nil => simp [pieces] at h
  | cons c cs ih =>
    simp only [pieces, List.mem_cons, Instr.write.injEq] at h
    rcases h with h | h
    · exact h.1
    · exact ih h

theorem create_mem_steps {P : Path} {chop : Str → List Str} {as : List Action} :
    Instr.create P ∈ as.flatMap (steps chop) ↔ Action.create P ∈ as := by
  rw [List.mem_flatMap]
  constructor
  · rintro ⟨a, ha, h⟩
    cases a with
    | mkdir p => simp [steps] at h
    | create p => simp [steps] at h; rw [h]; exact ha
    | write p c => exact absurd h create_mem_pieces
  · intro h; exact ⟨_, h, by simp [steps]⟩

theorem stop_mem_steps {P : Path} {chop : Str → List Str} {as : List Action} :
    Instr.stopIf P ∉ as.flatMap (steps chop) := by
  rw [List.mem_flatMap]
  rintro ⟨a, ha, h⟩
  cases a with
  | mkdir p => simp [steps] at h
  | create p => simp [steps] at h
  | write p c => exact absurd h stop_mem_pieces

/-- Steps other than those of the lock. (Models no code: a notion for statements and proofs.) -/
def bodySteps (cfg : Config) (j : Job) : List Instr :=
  (folderActions cfg).flatMap (steps j.chop) ++
  match j.prep with
  | some _ => []
  | none => (loop cfg j.beh j.runs).1.flatMap (steps j.chop)

theorem main_body (cfg : Config) (j : Job) :
    mainSteps cfg j = bodySteps cfg j ∨ mainSteps cfg j = bodySteps cfg j ++ lockSteps cfg j.chop := by
  unfold mainSteps bodySteps
  cases j.prep with
  | some e => left; rfl
  | none =>
    cases (loop cfg j.beh j.runs).2.2 with
    | some e => left; simp
    | none => right; simp

theorem stop_mem_body {cfg : Config} {j : Job} {P : Path} : Instr.stopIf P ∉ bodySteps cfg j := by
  unfold bodySteps
  intro h
  rcases List.mem_append.1 h with h | h
  · exact stop_mem_steps h
  · split at h
    · simp at h
    · exact stop_mem_steps h

theorem stop_mem_main {cfg : Config} {j : Job} {P : Path} (h : Instr.stopIf P ∈ mainSteps cfg j) :
    P = cfg.lockFile := by
  have hl : Instr.stopIf P ∈ lockSteps cfg j.chop := by
    rcases main_body cfg j with e | e <;> rw [e] at h
    · exact absurd h stop_mem_body
    · rcases List.mem_append.1 h with h | h
      · exact absurd h stop_mem_body
      · exact h
  unfold lockSteps at hl
  split at hl
  · simp only [List.mem_append, List.mem_cons, Instr.stopIf.injEq, List.not_mem_nil, or_false, reduceCtorEq,
      false_or] at hl
    rcases hl with h | h
    · exact h
    · exact absurd h stop_mem_pieces
  · simp at hl

theorem create_datapoint_lock {cfg : Config} {chop : Str → List Str} {id : Str} :
    Instr.create (cfg.datapointFile id) ∉ lockSteps cfg chop := by
  unfold lockSteps
  split
  · simp only [List.mem_append, List.mem_cons, Instr.create.injEq, List.not_mem_nil, or_false, reduceCtorEq,
      false_or]
    rintro (h | h)
    · exact datapointFile_ne_lockFile cfg id h
    · exact create_mem_pieces h
  · simp

/-- A process opens the data point file only of an ID that it is to write. -/
theorem create_main {cfg : Config} {j : Job} {id : Str}
    (h : Instr.create (cfg.datapointFile id) ∈ mainSteps cfg j) : Writes j.runs id := by
  have hb : Instr.create (cfg.datapointFile id) ∈ bodySteps cfg j := by
    rcases main_body cfg j with e | e <;> rw [e] at h
    · exact h
    · rcases List.mem_append.1 h with h | h
      · exact h
      · exact absurd h create_datapoint_lock
  unfold bodySteps at hb
  rcases List.mem_append.1 hb with h | h
  · rw [create_mem_steps] at h; simp [folderActions] at h
  · split at h
    · simp at h
    · rw [create_mem_steps] at h
      rcases loop_touches h (.inl rfl) with ⟨i, h⟩ | ⟨i, hi, h⟩
      · exact absurd h (datapointFile_ne_logFile cfg id i)
      · exact datapointFile_inj h ▸ hi

theorem create_all {cfg : Config} {j : Job} {id : Str}
    (h : Instr.create (cfg.datapointFile id) ∈ allSteps cfg j) : Writes j.runs id := by
  simp only [allSteps, List.mem_append, List.mem_cons, reduceCtorEq, List.not_mem_nil, or_false, false_or] at h
  exact create_main h

/-- After looking for the lock a second time, no data point file is opened. -/
theorem clean_main {cfg : Config} {j : Job} {id : Str} {p : Path} {r : List Instr}
    (h : Instr.stopIf p :: r <:+ mainSteps cfg j) : Instr.create (cfg.datapointFile id) ∉ r := by
  intro hr
  rcases main_body cfg j with e | e
  · exact stop_mem_body (P := p) (e ▸ h.subset (by simp))
  · rw [e] at h
    obtain ⟨t, ht⟩ := h
    rcases List.append_eq_append_iff.1 ht with ⟨m, hb, hm⟩ | ⟨m, hb, hm⟩
    · cases m with
      | nil =>
        rw [List.nil_append] at hm
        exact create_datapoint_lock (hm ▸ List.mem_cons_of_mem _ hr)
      | cons x m =>
        rw [List.cons_append] at hm
        obtain ⟨rfl, _⟩ := List.cons.inj hm
        exact stop_mem_body (P := p) (cfg := cfg) (j := j) (by rw [hb]; simp)
    · exact create_datapoint_lock (cfg := cfg) (chop := j.chop) (id := id) (by rw [hm]; simp [hr])

/-! ## Shape of the rest of a process -/

/-- The rest of every process at every moment. (Models no code: a notion for statements and proofs.) -/
structure Shape (cfg : Config) (jobs : Nat → Job) (s : State) : Prop where
  before : ∀ i, s.passed i = false → s.todo i = [] ∨ ∃ pre : List Instr, pre <:+ [.mkdir cfg.path, .mkdir cfg.definition.lockDir] ∧
    s.todo i = pre ++ .stopIf cfg.lockFile :: mainSteps cfg (jobs i)
  after : ∀ i, s.passed i = true → s.todo i <:+ mainSteps cfg (jobs i)

theorem shape_initial (cfg : Config) (jobs : Nat → Job) (fs : Fs) : Shape cfg jobs (initial cfg jobs fs) :=
  ⟨fun i _ => .inr ⟨_, List.suffix_refl _, rfl⟩, fun i h => by simp [initial] at h⟩

theorem next_nil {s : State} {i : Nat} (h : s.todo i = []) : next s (.step i) = s := by
  simp [next, h]

theorem next_stop {s : State} {i : Nat} {p : Path} {r : List Instr} (h : s.todo i = .stopIf p :: r) :
    next s (.step i) = if exists' s.fs p then { s with todo := Function.update s.todo i [] }
      else { s with todo := Function.update s.todo i r, passed := Function.update s.passed i true } := by
  simp [next, h]

theorem next_act {s : State} {i : Nat} {a : Instr} {r : List Instr} (h : s.todo i = a :: r)
    (ha : ∀ p, a ≠ .stopIf p) :
    next s (.step i) = { s with fs := a.apply s.fs, todo := Function.update s.todo i r } := by
  cases a with
  | stopIf p => exact absurd rfl (ha p)
  | _ => simp [next, h]

theorem shape_next {cfg : Config} {jobs : Nat → Job} {s : State} (h : Shape cfg jobs s) (e : Event) :
    Shape cfg jobs (next s e) := by
  cases e with
  | crash i =>
    refine ⟨fun k hk => ?_, fun k hk => ?_⟩
    · by_cases hki : k = i
      · subst hki; left; simp [next]
      · simp only [next, Function.update_of_ne hki]; exact h.before k hk
    · by_cases hki : k = i
      · subst hki; simp [next]
      · simp only [next, Function.update_of_ne hki]; exact h.after k hk
  | step i =>
    cases ht : s.todo i with
    | nil => rw [next_nil ht]; exact h
    | cons a r =>
      by_cases ha : ∃ p, a = .stopIf p
      · obtain ⟨p, rfl⟩ := ha
        rw [next_stop ht]
        split
        · refine ⟨fun k hk => ?_, fun k hk => ?_⟩
          · by_cases hki : k = i
            · subst hki; left; simp
            · simp only [Function.update_of_ne hki]; exact h.before k hk
          · by_cases hki : k = i
            · subst hki; simp
            · simp only [Function.update_of_ne hki]; exact h.after k hk
        · refine ⟨fun k hk => ?_, fun k hk => ?_⟩
          · by_cases hki : k = i
            · subst hki; simp at hk
            · simp only [Function.update_of_ne hki] at hk ⊢; exact h.before k hk
          · by_cases hki : k = i
            · subst hki
              simp only [Function.update_self]
              cases hp : s.passed k with
              | true =>
                have := h.after k hp
                rw [ht] at this
                exact (List.suffix_cons _ _).trans this
              | false =>
                rcases h.before k hp with h0 | ⟨pre, hpre, h0⟩
                · rw [h0] at ht; simp at ht
                · rw [ht] at h0
                  cases pre with
                  | nil =>
                    rw [List.nil_append] at h0
                    rw [(List.cons.inj h0).2]
                  | cons x pre =>
                    have hx := hpre.subset (List.mem_cons_self)
                    rw [List.cons_append] at h0
                    rw [← (List.cons.inj h0).1] at hx
                    simp at hx
            · simp only [Function.update_of_ne hki] at hk ⊢; exact h.after k hk
      · rw [next_act ht (fun p hp => ha ⟨p, hp⟩)]
        refine ⟨fun k hk => ?_, fun k hk => ?_⟩
        · by_cases hki : k = i
          · subst hki
            simp only [Function.update_self]
            rcases h.before k hk with h0 | ⟨pre, hpre, h0⟩
            · rw [h0] at ht; simp at ht
            · rw [ht] at h0
              cases pre with
              | nil =>
                rw [List.nil_append] at h0
                exact absurd ⟨_, (List.cons.inj h0).1⟩ ha
              | cons x pre =>
                rw [List.cons_append] at h0
                exact .inr ⟨pre, (List.suffix_cons _ _).trans hpre, (List.cons.inj h0).2⟩
          · simp only [Function.update_of_ne hki]; exact h.before k hk
        · by_cases hki : k = i
          · subst hki
            simp only [Function.update_self]
            have := h.after k hk
            rw [ht] at this
            exact (List.suffix_cons _ _).trans this
          · simp only [Function.update_of_ne hki]; exact h.after k hk

theorem runSchedule_cons (s : State) (e : Event) (es : List Event) :
    runSchedule s (e :: es) = runSchedule (next s e) es := rfl

theorem shape_run {cfg : Config} {jobs : Nat → Job} {s : State} (h : Shape cfg jobs s) (es : List Event) :
    Shape cfg jobs (runSchedule s es) := by
  induction es generalizing s with
  | nil => exact h
  | cons e es ih => exact ih (shape_next h e)

/-- A process that has not come past the lock. -/
theorem wt_before {cfg : Config} {jobs : Nat → Job} {s : State} (h : Shape cfg jobs s) {i : Nat}
    (hp : s.passed i = false) {P : Path} {B : Str} {o : Nat} (hw : Wt P B o (s.todo i)) : o = B.length := by
  rcases h.before i hp with h0 | ⟨pre, hpre, h0⟩
  · rw [h0] at hw; exact hw
  · rw [h0] at hw
    clear h0
    induction pre with
    | nil => exact hw.1
    | cons x pre ih =>
      have hx := hpre.subset (List.mem_cons_self)
      have hpre' := (List.suffix_cons x pre).trans hpre
      simp only [List.mem_cons, List.not_mem_nil, or_false] at hx
      rcases hx with rfl | rfl <;> exact ih hw.2 hpre'

/-! ## The invariant -/

/-- Nobody has opened the file yet. (Models no code: a notion for statements and proofs.) -/
structure Untouched (cfg : Config) (jobs : Nat → Job) (fs0 : Fs) (id B : Str) (s : State) : Prop where
  same : dictGet s.fs (cfg.datapointFile id) = dictGet fs0 (cfg.datapointFile id)
  wt : ∀ i, Wt (cfg.datapointFile id) B B.length (s.todo i)
  ahead : ∀ i, s.passed i = true → Instr.create (cfg.datapointFile id) ∈ mainSteps cfg (jobs i) →
    Instr.create (cfg.datapointFile id) ∈ s.todo i

/-- Somebody opened the file, and the last who did has written correctly so far.
(Models no code: a notion for statements and proofs.) -/
structure Opened (cfg : Config) (jobs : Nat → Job) (id B : Str) (s : State) : Prop where
  wt : ∀ i, ∃ o ≤ B.length, Wt (cfg.datapointFile id) B o (s.todo i)
  carrier : ∃ k o, o ≤ B.length ∧ Wt (cfg.datapointFile id) B o (s.todo k) ∧
    Upto B s.fs (cfg.datapointFile id) o ∧ Writes (jobs k).runs id

theorem todo_create {cfg : Config} {jobs : Nat → Job} {s : State} (h : Shape cfg jobs s) {i : Nat} {id : Str}
    (hm : Instr.create (cfg.datapointFile id) ∈ s.todo i) : Writes (jobs i).runs id := by
  cases hp : s.passed i with
  | true => exact create_main ((h.after i hp).subset hm)
  | false =>
    rcases h.before i hp with h0 | ⟨pre, hpre, h0⟩
    · rw [h0] at hm; simp at hm
    · rw [h0] at hm
      rcases List.mem_append.1 hm with hm | hm
      · have := hpre.subset hm; simp at this
      · rcases List.mem_cons.1 hm with hm | hm
        · simp at hm
        · exact create_main hm

theorem update_wt {P : Path} {B : Str} {t : Nat → List Instr} {i : Nat} {r : List Instr} {o : Nat}
    (ho : o ≤ B.length) (hr : Wt P B o r) (h : ∀ k, ∃ o ≤ B.length, Wt P B o (t k)) :
    ∀ k, ∃ o ≤ B.length, Wt P B o (Function.update t i r k) := by
  intro k
  by_cases hk : k = i
  · subst hk; rw [Function.update_self]; exact ⟨o, ho, hr⟩
  · rw [Function.update_of_ne hk]; exact h k

/-- What a step that is not a look at the lock does to the file, for the process itself and the others. -/
theorem wt_step {P : Path} {B : Str} {a : Instr} {r : List Instr} {o : Nat} (ho : o ≤ B.length)
    (hw : Wt P B o (a :: r)) (ha : ∀ p, a ≠ .stopIf p) :
    ∃ o' ≤ B.length, Wt P B o' r ∧
      (∀ fs, a ≠ .create P → Upto B fs P o → Upto B (a.apply fs) P o') ∧
      (∀ fs m, a ≠ .create P → Upto B fs P m → Upto B (a.apply fs) P m) ∧
      (∀ fs, a = .create P → Upto B (a.apply fs) P o') ∧
      (a ≠ .create P → o = B.length → o' = B.length ∧ ∀ fs, dictGet (a.apply fs) P = dictGet fs P) := by
  cases a with
  | stopIf p => exact absurd rfl (ha p)
  | mkdir q =>
    obtain ⟨h1, h2⟩ := hw
    have e : ∀ fs, dictGet ((Instr.mkdir q).apply fs) P = dictGet fs P := fun fs =>
      apply_elsewhere (fun x hx => by cases hx; exact h1) (by simp) (by simp)
    have u : ∀ fs m, Upto B fs P m → Upto B ((Instr.mkdir q).apply fs) P m := by
      intro fs m h; unfold Upto; rw [e]; exact h
    exact ⟨o, ho, h2, fun fs _ h => u fs _ h, fun fs m _ h => u fs m h, by simp, fun _ h => ⟨h, e⟩⟩
  | create q =>
    by_cases hq : q = P
    · subst hq
      simp only [Wt, if_true] at hw
      refine ⟨0, Nat.zero_le _, hw.2, by simp, by simp, fun fs _ => ⟨[], ?_, by simp, by simp, by simp⟩, by simp⟩
      show dictGet (dictSet _ _ _) _ = _
      rw [dictGet_dictSet, if_pos rfl]
    · simp only [Wt, if_neg hq] at hw
      have e : ∀ fs, dictGet ((Instr.create q).apply fs) P = dictGet fs P := fun fs =>
        apply_elsewhere (by simp) (by simpa using hq) (by simp)
      have u : ∀ fs m, Upto B fs P m → Upto B ((Instr.create q).apply fs) P m := by
        intro fs m h; unfold Upto; rw [e]; exact h
      exact ⟨o, ho, hw, fun fs _ h => u fs _ h, fun fs m _ h => u fs m h,
        fun fs h => absurd (Instr.create.inj h) hq, fun _ h => ⟨h, e⟩⟩
  | write q k c =>
    by_cases hq : q = P
    · subst hq
      simp only [Wt, if_true] at hw
      obtain ⟨rfl, hc, hr⟩ := hw
      refine ⟨k + c.length, prefix_drop_length hc ho, hr, fun fs _ h => upto_advance h hc ho,
        fun fs m _ h => upto_write h ho hc, by simp, fun _ hk => ?_⟩
      have hnil : c = [] := by
        rw [hk, List.drop_length] at hc
        exact List.prefix_nil.1 hc
      subst hnil
      refine ⟨by simpa using hk, fun fs => ?_⟩
      simp only [Instr.apply]
      split
      · rename_i old hold
        rw [dictGet_dictSet, if_pos rfl, hold]
        simp [overlay]
      · rfl
    · simp only [Wt, if_neg hq] at hw
      have e : ∀ fs, dictGet ((Instr.write q k c).apply fs) P = dictGet fs P := fun fs =>
        apply_elsewhere (by simp) (by simp) (by intro k' c' h; simp at h; exact hq h.1)
      have u : ∀ fs m, Upto B fs P m → Upto B ((Instr.write q k c).apply fs) P m := by
        intro fs m h; unfold Upto; rw [e]; exact h
      exact ⟨o, ho, hw, fun fs _ h => u fs _ h, fun fs m _ h => u fs m h, by simp, fun _ h => ⟨h, e⟩⟩

theorem opened_next {cfg : Config} {jobs : Nat → Job} {id B : Str} {s : State} (hs : Shape cfg jobs s)
    (h : Opened cfg jobs id B s) (e : Event) (hc : ∀ i, Writes (jobs i).runs id → e ≠ .crash i) :
    Opened cfg jobs id B (next s e) := by
  obtain ⟨k, o, ho, hk, hu, hwk⟩ := h.carrier
  cases e with
  | crash i =>
    refine ⟨update_wt (Nat.le_refl _) rfl h.wt, k, o, ho, ?_, hu, hwk⟩
    have : k ≠ i := by rintro rfl; exact hc _ hwk rfl
    simp only [next, Function.update_of_ne this]
    exact hk
  | step i =>
    cases ht : s.todo i with
    | nil => rw [next_nil ht]; exact h
    | cons a r =>
      by_cases ha : ∃ p, a = .stopIf p
      · obtain ⟨p, rfl⟩ := ha
        have key : ∀ r' : List Instr, (r' = [] ∨ r' = r) →
            (∀ j, ∃ o ≤ B.length, Wt (cfg.datapointFile id) B o (Function.update s.todo i r' j)) ∧
            Wt (cfg.datapointFile id) B o (Function.update s.todo i r' k) := by
          intro r' hr'
          have hi : ∀ o, Wt (cfg.datapointFile id) B o (s.todo i) → o = B.length ∧ Wt (cfg.datapointFile id) B o r' := by
            intro o hw
            rw [ht] at hw
            refine ⟨hw.1, ?_⟩
            rcases hr' with rfl | rfl
            · exact hw.1
            · exact hw.2
          obtain ⟨oi, hoi, hwi⟩ := h.wt i
          refine ⟨update_wt hoi (hi _ hwi).2 h.wt, ?_⟩
          by_cases hki : k = i
          · subst hki; rw [Function.update_self]; exact (hi _ hk).2
          · rw [Function.update_of_ne hki]; exact hk
        rw [next_stop ht]
        split
        · exact ⟨(key [] (.inl rfl)).1, k, o, ho, (key [] (.inl rfl)).2, hu, hwk⟩
        · exact ⟨(key r (.inr rfl)).1, k, o, ho, (key r (.inr rfl)).2, hu, hwk⟩
      · have ha' : ∀ p, a ≠ .stopIf p := fun p hp => ha ⟨p, hp⟩
        rw [next_act ht ha']
        obtain ⟨oi, hoi, hwi⟩ := h.wt i
        rw [ht] at hwi
        obtain ⟨oi', h1, h2, h3, h4, h5, h6⟩ := wt_step hoi hwi ha'
        refine ⟨update_wt h1 h2 h.wt, ?_⟩
        by_cases hcr : a = .create (cfg.datapointFile id)
        · refine ⟨i, oi', h1, by simpa using h2, h5 _ hcr, todo_create hs (i := i) ?_⟩
          rw [ht, hcr]; simp
        · by_cases hki : k = i
          · subst hki
            rw [ht] at hk
            obtain ⟨o', g1, g2, g3, g4, g5, g6⟩ := wt_step ho hk ha'
            exact ⟨k, o', g1, by simpa using g2, g3 _ hcr hu, hwk⟩
          · exact ⟨k, o, ho, by simpa [Function.update_of_ne hki] using hk, h4 _ _ hcr hu, hwk⟩

theorem untouched_next {cfg : Config} {jobs : Nat → Job} {fs0 : Fs} {id B : Str} {s : State}
    (hs : Shape cfg jobs s) (h : Untouched cfg jobs fs0 id B s) (e : Event)
    (hc : ∀ i, Writes (jobs i).runs id → e ≠ .crash i) :
    Untouched cfg jobs fs0 id B (next s e) ∨ Opened cfg jobs id B (next s e) := by
  have upd : ∀ (i : Nat) (r : List Instr), Wt (cfg.datapointFile id) B B.length r →
      ∀ k, Wt (cfg.datapointFile id) B B.length (Function.update s.todo i r k) := by
    intro i r hr k
    by_cases hk : k = i
    · subst hk; rw [Function.update_self]; exact hr
    · rw [Function.update_of_ne hk]; exact h.wt k
  cases e with
  | crash i =>
    left
    refine ⟨h.same, upd i [] rfl, fun k hk hm => ?_⟩
    have : k ≠ i := by rintro rfl; exact hc _ (create_main hm) rfl
    simp only [next, Function.update_of_ne this]
    exact h.ahead k hk hm
  | step i =>
    cases ht : s.todo i with
    | nil => left; rw [next_nil ht]; exact h
    | cons a r =>
      have hwi := h.wt i
      rw [ht] at hwi
      by_cases ha : ∃ p, a = .stopIf p
      · obtain ⟨p, rfl⟩ := ha
        left
        have hclean : s.passed i = true → Instr.create (cfg.datapointFile id) ∈ mainSteps cfg (jobs i) → False := by
          intro hp hm
          have h1 := h.ahead i hp hm
          have h2 := hs.after i hp
          rw [ht] at h1 h2
          rcases List.mem_cons.1 h1 with h1 | h1
          · simp at h1
          · exact clean_main h2 h1
        rw [next_stop ht]
        split
        · refine ⟨h.same, upd i [] rfl, fun k hk hm => ?_⟩
          by_cases hki : k = i
          · subst hki; exact (hclean hk hm).elim
          · simp only [Function.update_of_ne hki]; exact h.ahead k hk hm
        · refine ⟨h.same, upd i r hwi.2, fun k hk hm => ?_⟩
          by_cases hki : k = i
          · subst hki
            simp only [Function.update_self]
            cases hp : s.passed k with
            | true => exact (hclean hp hm).elim
            | false =>
              rcases hs.before k hp with h0 | ⟨pre, hpre, h0⟩
              · rw [h0] at ht; simp at ht
              · rw [ht] at h0
                cases pre with
                | nil =>
                  rw [List.nil_append] at h0
                  rw [(List.cons.inj h0).2]
                  exact hm
                | cons x pre =>
                  have hx := hpre.subset (List.mem_cons_self)
                  rw [List.cons_append] at h0
                  rw [← (List.cons.inj h0).1] at hx
                  simp at hx
          · simp only [Function.update_of_ne hki] at hk ⊢; exact h.ahead k hk hm
      · have ha' : ∀ p, a ≠ .stopIf p := fun p hp => ha ⟨p, hp⟩
        rw [next_act ht ha']
        obtain ⟨o', h1, h2, h3, h4, h5, h6⟩ := wt_step (Nat.le_refl _) hwi ha'
        by_cases hcr : a = .create (cfg.datapointFile id)
        · right
          refine ⟨update_wt h1 h2 (fun k => ⟨_, Nat.le_refl _, h.wt k⟩), i, o', h1, by simpa using h2, h5 _ hcr,
            todo_create hs (i := i) ?_⟩
          rw [ht, hcr]; simp
        · left
          obtain ⟨rfl, h7⟩ := h6 hcr rfl
          refine ⟨(h7 _).trans h.same, upd i r h2, fun k hk hm => ?_⟩
          by_cases hki : k = i
          · subst hki
            have := h.ahead k hk hm
            rw [ht] at this
            simp only [Function.update_self]
            rcases List.mem_cons.1 this with h | h
            · exact absurd h.symm hcr
            · exact h
          · simp only [Function.update_of_ne hki]; exact h.ahead k hk hm

theorem invariant {cfg : Config} {jobs : Nat → Job} {fs0 : Fs} {id B : Str} {s : State} (es : List Event)
    (hs : Shape cfg jobs s) (h : Untouched cfg jobs fs0 id B s ∨ Opened cfg jobs id B s)
    (hc : NoCrash jobs id es) :
    Untouched cfg jobs fs0 id B (runSchedule s es) ∨ Opened cfg jobs id B (runSchedule s es) := by
  induction es generalizing s with
  | nil => exact h
  | cons e es ih =>
    have he : ∀ i, Writes (jobs i).runs id → e ≠ .crash i := by
      rintro i hi rfl; exact hc i hi (by simp)
    refine ih (shape_next hs e) ?_ (fun i hi hm => hc i hi (by simp [hm]))
    rcases h with h | h
    · exact untouched_next hs h e he
    · exact .inr (opened_next hs h e he)

theorem create_loop {cfg : Config} {beh : Params → Behaviour} {runs : List Params} {id : Str}
    (hsv : cfg.saveDatapoints = true) (hc : ∀ p ∈ runs, p.skip = false → Completes cfg (beh p))
    (hw : Writes runs id) : Action.create (cfg.datapointFile id) ∈ (loop cfg beh runs).1 := by
  induction runs with
  | nil => obtain ⟨p, hp, _⟩ := hw; simp at hp
  | cons q qs ih =>
    obtain ⟨p, hp, hs, rfl⟩ := hw
    unfold loop
    by_cases hq : q.skip = true
    · rw [if_pos hq]
      rcases List.mem_cons.1 hp with rfl | hp
      · rw [hs] at hq; simp at hq
      · exact ih (fun x hx => hc x (by simp [hx])) ⟨p, hp, hs, rfl⟩
    · rw [if_neg hq]
      have hcq := hc q (by simp) (by simpa using hq)
      have hf : (runAlgorithm cfg q (beh q)).2.2 = none := by
        rw [runAlgorithm_failure]; exact (completes_iff _ _).1 hcq
      rw [hf]
      simp only [List.mem_append]
      rcases List.mem_cons.1 hp with rfl | hp
      · left
        obtain ⟨h1, h2, h3⟩ := hcq
        obtain ⟨h3, h4⟩ := h3 hsv
        simp [runAlgorithm, h1, h2, hsv, saveActions, h3]
      · exact .inr (ih (fun x hx => hc x (by simp [hx])) ⟨p, hp, hs, rfl⟩)

theorem create_main_of_writes {cfg : Config} {j : Job} {id : Str} (hsv : cfg.saveDatapoints = true)
    (hp : j.prep = none) (hc : ∀ p ∈ j.runs, p.skip = false → Completes cfg (j.beh p)) (hw : Writes j.runs id) :
    Instr.create (cfg.datapointFile id) ∈ mainSteps cfg j := by
  unfold mainSteps
  rw [hp]
  simp only [List.mem_append]
  exact .inr (.inl (create_mem_steps.2 (create_loop hsv hc hw)))

/-! ## C90 -/

/-- **C90.**  However the steps of any number of processes are interleaved - each of them running the whole
experiment or a part of it - : if all who write the data point of the ID write the same bytes, none of them
dies, and none of them is still in the middle of its run, then, as soon as one of them has finished, the data
point is there, complete.  (Other processes may have died or be anywhere.) -/
theorem parallel_datapoint_complete (cfg : Config) (jobs : Nat → Job) (fs : Fs) (es : List Event) (id B : Str)
    (hch : Chops jobs) (hB : SameBytes jobs id B) (hcr : NoCrash jobs id es)
    (hq : Quiet jobs id (runSchedule (initial cfg jobs fs) es)) (hsv : cfg.saveDatapoints = true) (i : Nat)
    (hi : Finished cfg jobs (runSchedule (initial cfg jobs fs) es) i) (hw : Writes (jobs i).runs id) :
    datapoint cfg (runSchedule (initial cfg jobs fs) es).fs id = some (.file B) := by
  have hs := shape_run (shape_initial cfg jobs fs) es
  have h0 : Untouched cfg jobs fs id B (initial cfg jobs fs) :=
    ⟨rfl, fun k => wt_all (hch k) (hB k), fun k hk => by simp [initial] at hk⟩
  rcases invariant es (shape_initial cfg jobs fs) (.inl h0) hcr with h | h
  · have := h.ahead i hi.passed (create_main_of_writes hsv hi.prep hi.completes hw)
    rw [hi.ended] at this
    simp at this
  · obtain ⟨k, o, ho, hk, hu, hwk⟩ := h.carrier
    have ho : o = B.length := by
      rcases hq k hwk with h1 | h1
      · rw [h1] at hk; exact hk
      · exact wt_before hs h1 hk
    rw [ho] at hu
    exact upto_all hu

/-- **C90.**  So it is exactly what one process running the experiment alone leaves there. -/
theorem parallel_as_alone (cfg : Config) (jobs : Nat → Job) (fs : Fs) (es : List Event) (id B : Str)
    (hch : Chops jobs) (hB : SameBytes jobs id B) (hcr : NoCrash jobs id es)
    (hq : Quiet jobs id (runSchedule (initial cfg jobs fs) es)) (hsv : cfg.saveDatapoints = true) (i : Nat)
    (hi : Finished cfg jobs (runSchedule (initial cfg jobs fs) es) i) (hw : Writes (jobs i).runs id)
    (fs' : Fs) (hl : ¬ Locked cfg fs') :
    datapoint cfg (runSchedule (initial cfg jobs fs) es).fs id =
      datapoint cfg (afterRun cfg (jobs i).prep (jobs i).beh (jobs i).runs fs') id := by
  rw [parallel_datapoint_complete cfg jobs fs es id B hch hB hcr hq hsv i hi hw, hi.prep,
    (run_success cfg (jobs i).beh (jobs i).runs fs' hl hi.completes).2.2 hsv]
  cases hr : lastResult (jobs i).beh (jobs i).runs id with
  | none => exact absurd hw ((lastResult_none_iff _ _ _).1 hr)
  | some b =>
    unfold lastResult at hr
    obtain ⟨p, hp, rfl⟩ := Option.map_eq_some_iff.1 hr
    have hm := List.mem_of_getLast? hp
    rw [List.mem_filter] at hm
    simp only [Bool.and_eq_true, Bool.not_eq_true', decide_eq_true_eq] at hm
    rw [hB i p hm.1 hm.2.1 hm.2.2]
    rfl

/-- **C90.**  If only one process writes the data point (`exp run --index`, every process its own parameters),
then it is complete when that process has finished, whatever the other processes are doing, whichever of them
died, and whatever they write. -/
theorem parallel_own_datapoint (cfg : Config) (jobs : Nat → Job) (fs : Fs) (es : List Event) (id : Str)
    (hch : Chops jobs) (hsv : cfg.saveDatapoints = true) (i : Nat) (p : Params) (hp : p ∈ (jobs i).runs)
    (hskip : p.skip = false) (hid : p.id = id) (hone : ((jobs i).runs.map Params.id).Nodup)
    (hown : ∀ k, k ≠ i → ¬ Writes (jobs k).runs id) (hcr : Event.crash i ∉ es)
    (hi : Finished cfg jobs (runSchedule (initial cfg jobs fs) es) i) :
    datapoint cfg (runSchedule (initial cfg jobs fs) es).fs id = some (.file ((jobs i).beh p).bytes) := by
  have hme : ∀ k, Writes (jobs k).runs id → k = i := fun k hk => by
    by_contra h; exact hown k h hk
  refine parallel_datapoint_complete cfg jobs fs es id _ hch ?_ ?_ ?_ hsv i hi ⟨p, hp, hskip, hid⟩
  · intro k q hq hs hqid
    obtain rfl := hme k ⟨q, hq, hs, hqid⟩
    rw [List.inj_on_of_nodup_map hone hq hp (hqid.trans hid.symm)]
  · intro k hk
    obtain rfl := hme k hk
    exact hcr
  · intro k hk
    obtain rfl := hme k hk
    exact .inl hi.ended

/-! ### Data points that nobody writes -/

theorem write_mem_steps {P : Path} {k : Nat} {c : Str} {chop : Str → List Str} {as : List Action}
    (h : Instr.write P k c ∈ as.flatMap (steps chop)) : ∃ c', Action.write P c' ∈ as := by
  rw [List.mem_flatMap] at h
  obtain ⟨a, ha, h⟩ := h
  cases a with
  | mkdir p => simp [steps] at h
  | create p => simp [steps] at h
  | write p c => rw [write_mem_pieces h]; exact ⟨c, ha⟩

theorem mkdir_mem_pieces {q p : Path} {k : Nat} {cs : List Str} : Instr.mkdir q ∉ pieces p k cs := by
  induction cs generalizing k with
  | nil => simp [pieces]
  | cons c cs ih => simp [pieces, ih]

theorem mkdir_mem_steps {q : Path} {chop : Str → List Str} {as : List Action}
    (h : Instr.mkdir q ∈ as.flatMap (steps chop)) : Action.mkdir q ∈ as := by
  rw [List.mem_flatMap] at h
  obtain ⟨a, ha, h⟩ := h
  cases a with
  | mkdir p => simp [steps] at h; rw [h]; exact ha
  | create p => simp [steps] at h
  | write p c =>
    exact absurd h mkdir_mem_pieces

/-- What a step of a process can be. -/
theorem all_cases {cfg : Config} {j : Job} {a : Instr} (h : a ∈ allSteps cfg j) :
    (∃ q, a = .mkdir q ∧ q.length ≤ cfg.path.length + 2) ∨ a = .stopIf cfg.lockFile ∨
    (∃ q, (a = .create q ∨ ∃ k c, a = .write q k c) ∧
      (q = cfg.lockFile ∨ (∃ i, q = cfg.logFilePath i) ∨ ∃ i, Writes j.runs i ∧ q = cfg.datapointFile i)) := by
  have hbody : a ∈ bodySteps cfg j → _ := fun hb => by
    have hmem : a ∈ (folderActions cfg ++ (loop cfg j.beh j.runs).1).flatMap (steps j.chop) := by
      unfold bodySteps at hb
      rw [List.flatMap_append, List.mem_append]
      rcases List.mem_append.1 hb with hb | hb
      · exact .inl hb
      · split at hb
        · simp at hb
        · exact .inr hb
    have hshort : ∀ q, Action.mkdir q ∈ folderActions cfg ++ (loop cfg j.beh j.runs).1 → q.length ≤ cfg.path.length + 2 := by
      intro q hq
      rcases List.mem_append.1 hq with hq | hq
      · exact start_short (cfg := cfg) (List.mem_append.2 (.inr hq)) q rfl
      · exact loop_short hq q rfl
    have ht : ∀ x q, x ∈ folderActions cfg ++ (loop cfg j.beh j.runs).1 → Touches x q →
        ((∃ i, q = cfg.logFilePath i) ∨ ∃ i, Writes j.runs i ∧ q = cfg.datapointFile i) := by
      intro x q hx htx
      rcases List.mem_append.1 hx with hx | hx
      · exact absurd htx (start_touches (cfg := cfg) (List.mem_append.2 (.inr hx)) q)
      · exact loop_touches hx htx
    show (∃ q, a = .mkdir q ∧ q.length ≤ cfg.path.length + 2) ∨ a = .stopIf cfg.lockFile ∨
      (∃ q, (a = .create q ∨ ∃ k c, a = .write q k c) ∧
      (q = cfg.lockFile ∨ (∃ i, q = cfg.logFilePath i) ∨ ∃ i, Writes j.runs i ∧ q = cfg.datapointFile i))
    cases a with
    | mkdir q => exact .inl ⟨q, rfl, hshort q (mkdir_mem_steps hmem)⟩
    | create q => exact .inr (.inr ⟨q, .inl rfl, .inr (ht _ q (create_mem_steps.1 hmem) (.inl rfl))⟩)
    | write q k c =>
      obtain ⟨c', hc'⟩ := write_mem_steps hmem
      exact .inr (.inr ⟨q, .inr ⟨k, c, rfl⟩, .inr (ht _ q hc' (.inr ⟨c', rfl⟩))⟩)
    | stopIf q => exact absurd hmem stop_mem_steps
  have hlock : a ∈ lockSteps cfg j.chop → _ := fun hl => by
    have hll : cfg.definition.lockDir.length ≤ cfg.path.length + 2 := by simp [Config.definition, Def.lockDir]
    show (∃ q, a = .mkdir q ∧ q.length ≤ cfg.path.length + 2) ∨ a = .stopIf cfg.lockFile ∨
      (∃ q, (a = .create q ∨ ∃ k c, a = .write q k c) ∧
      (q = cfg.lockFile ∨ (∃ i, q = cfg.logFilePath i) ∨ ∃ i, Writes j.runs i ∧ q = cfg.datapointFile i))
    unfold lockSteps at hl
    split at hl
    · simp only [List.mem_append, List.mem_cons, List.not_mem_nil, or_false] at hl
      rcases hl with (rfl | rfl | rfl | rfl) | hl
      · exact .inl ⟨_, rfl, hll⟩
      · exact .inr (.inl rfl)
      · exact .inl ⟨_, rfl, hll⟩
      · exact .inr (.inr ⟨_, .inl rfl, .inl rfl⟩)
      · cases a with
        | mkdir q => exact absurd hl mkdir_mem_pieces
        | create q => exact absurd hl create_mem_pieces
        | stopIf q => exact absurd hl stop_mem_pieces
        | write q k c => exact .inr (.inr ⟨q, .inr ⟨k, c, rfl⟩, .inl (write_mem_pieces hl)⟩)
    · simp at hl
  unfold allSteps at h
  simp only [List.mem_append, List.mem_cons, List.not_mem_nil, or_false] at h
  rcases h with (rfl | rfl) | rfl | h
  · exact .inl ⟨_, rfl, by omega⟩
  · exact .inl ⟨_, rfl, by simp [Config.definition, Def.lockDir]⟩
  · exact .inr (.inl rfl)
  · rcases main_body cfg j with e | e <;> rw [e] at h
    · exact hbody h
    · rcases List.mem_append.1 h with h | h
      · exact hbody h
      · exact hlock h

theorem shape_all {cfg : Config} {jobs : Nat → Job} {s : State} (h : Shape cfg jobs s) {i : Nat} {a : Instr}
    (ha : a ∈ s.todo i) : a ∈ allSteps cfg (jobs i) := by
  unfold allSteps
  cases hp : s.passed i with
  | true => exact List.mem_append.2 (.inr (List.mem_cons_of_mem _ ((h.after i hp).subset ha)))
  | false =>
    rcases h.before i hp with h0 | ⟨pre, hpre, h0⟩
    · rw [h0] at ha; simp at ha
    · rw [h0] at ha
      rcases List.mem_append.1 ha with ha | ha
      · exact List.mem_append.2 (.inl (hpre.subset ha))
      · exact List.mem_append.2 (.inr ha)

/-- The disk after an event: as it was, or after a step that is still to do. -/
theorem next_fs {cfg : Config} {jobs : Nat → Job} {s : State} (h : Shape cfg jobs s) (e : Event) :
    (next s e).fs = s.fs ∨ ∃ i a r, s.todo i = a :: r ∧ a ∈ allSteps cfg (jobs i) ∧ (next s e).fs = a.apply s.fs := by
  cases e with
  | crash i => left; rfl
  | step i =>
    cases ht : s.todo i with
    | nil => left; rw [next_nil ht]
    | cons a r =>
      by_cases ha : ∃ p, a = .stopIf p
      · obtain ⟨p, rfl⟩ := ha
        left; rw [next_stop ht]; split <;> rfl
      · right
        refine ⟨i, a, r, ht, shape_all h (by rw [ht]; simp), ?_⟩
        rw [next_act ht (fun p hp => ha ⟨p, hp⟩)]

/-- **C90.**  A data point that no process is to write stays as it was, whatever happens. -/
theorem parallel_foreign_datapoint (cfg : Config) (jobs : Nat → Job) (fs : Fs) (es : List Event) (id : Str)
    (h : ∀ i, ¬ Writes (jobs i).runs id) :
    datapoint cfg (runSchedule (initial cfg jobs fs) es).fs id = datapoint cfg fs id := by
  have key : ∀ s, Shape cfg jobs s → datapoint cfg (runSchedule s es).fs id = datapoint cfg s.fs id := by
    induction es with
    | nil => intro s _; rfl
    | cons e es ih =>
      intro s hs
      rw [runSchedule_cons, ih _ (shape_next hs e)]
      rcases next_fs hs e with h1 | ⟨i, a, r, _, ha, h1⟩
      · rw [h1]
      · rw [h1]
        have hlen := length_datapointFile cfg id
        rcases all_cases ha with ⟨q, rfl, hq⟩ | rfl | ⟨q, hq, hq'⟩
        · exact apply_elsewhere (fun x hx => by cases hx; omega) (by simp) (by simp)
        · rfl
        · have hne : q ≠ cfg.datapointFile id := by
            rcases hq' with rfl | ⟨k, rfl⟩ | ⟨k, hk, rfl⟩
            · exact fun e => datapointFile_ne_lockFile cfg id e.symm
            · exact fun e => datapointFile_ne_logFile cfg id k e.symm
            · intro e
              rw [datapointFile_inj e] at hk
              exact h i hk
          rcases hq with rfl | ⟨k, c, rfl⟩
          · exact apply_elsewhere (by simp) (by simpa using hne) (by simp)
          · exact apply_elsewhere (by simp) (by simp) (by intro k' c' h; simp at h; exact hne h.1)
  exact key _ (shape_initial cfg jobs fs)

/-! ### The lock -/

theorem apply_mono {fs : Fs} {a : Instr} {p : Path} (h : exists' fs p = true) : exists' (a.apply fs) p = true := by
  unfold exists' at *
  obtain ⟨x, hx⟩ := Option.isSome_iff_exists.1 h
  cases a with
  | mkdir q =>
    have := mkdirs_keeps (q := q) hx
    simp [Instr.apply, this]
  | create q =>
    simp only [Instr.apply]
    rw [dictGet_dictSet]
    split <;> simp [hx]
  | write q k c =>
    simp only [Instr.apply]
    split
    · rw [dictGet_dictSet]
      split <;> simp [hx]
    · exact h
  | stopIf q => exact h

theorem next_mono {s : State} (e : Event) {p : Path} (h : exists' s.fs p = true) : exists' (next s e).fs p = true := by
  cases e with
  | crash i => exact h
  | step i =>
    cases ht : s.todo i with
    | nil => rw [next_nil ht]; exact h
    | cons a r =>
      by_cases ha : ∃ p, a = .stopIf p
      · obtain ⟨p, rfl⟩ := ha
        rw [next_stop ht]; split <;> exact h
      · rw [next_act ht (fun p hp => ha ⟨p, hp⟩)]; exact apply_mono h

theorem run_mono {s : State} (es : List Event) {p : Path} (h : exists' s.fs p = true) :
    exists' (runSchedule s es).fs p = true := by
  induction es generalizing s with
  | nil => exact h
  | cons e es ih => exact ih (next_mono e h)

/-- **C90.**  A lock that is set stays set: no run of the experiment, however interrupted, removes it. -/
theorem parallel_lock_stays (cfg : Config) (s : State) (es : List Event) (h : Locked cfg s.fs) :
    Locked cfg (runSchedule s es).fs := run_mono es h

theorem lock_main {cfg : Config} {j : Job} (ha : cfg.autoLock = true) (hp : j.prep = none)
    (hc : ∀ p ∈ j.runs, p.skip = false → Completes cfg (j.beh p)) :
    Instr.create cfg.lockFile ∈ mainSteps cfg j := by
  unfold mainSteps
  rw [hp]
  simp only [List.mem_append]
  rw [(loop_done cfg j.beh j.runs hc).1]
  right; right
  simp [lockSteps, ha]

/-- **C90.**  After a process has finished the experiment is locked (if it is to be), whatever the others do. -/
theorem parallel_locked (cfg : Config) (jobs : Nat → Job) (fs : Fs) (es : List Event) (i : Nat)
    (ha : cfg.autoLock = true) (hcr : Event.crash i ∉ es)
    (hi : Finished cfg jobs (runSchedule (initial cfg jobs fs) es) i) :
    Locked cfg (runSchedule (initial cfg jobs fs) es).fs := by
  have hm := lock_main ha hi.prep hi.completes
  have key : ∀ (es : List Event) (s : State), Shape cfg jobs s → Event.crash i ∉ es →
      (s.passed i = true → Instr.create cfg.lockFile ∈ s.todo i ∨ exists' s.fs cfg.lockFile = true) →
      (runSchedule s es).passed i = true →
      Instr.create cfg.lockFile ∈ (runSchedule s es).todo i ∨ exists' (runSchedule s es).fs cfg.lockFile = true := by
    intro es
    induction es with
    | nil => intro s _ _ h; exact h
    | cons e es ih =>
      intro s hs hcr h
      rw [runSchedule_cons]
      refine ih _ (shape_next hs e) (fun h => hcr (by simp [h])) (fun hp => ?_)
      by_cases hex : exists' s.fs cfg.lockFile = true
      · exact .inr (next_mono e hex)
      · cases e with
        | crash k =>
          have hki : i ≠ k := by rintro rfl; exact hcr (by simp)
          left
          simp only [next, Function.update_of_ne hki]
          exact (h hp).resolve_right hex
        | step k =>
          cases ht : s.todo k with
          | nil => rw [next_nil ht] at hp ⊢; exact h hp
          | cons a r =>
            by_cases hst : ∃ p, a = .stopIf p
            · obtain ⟨p, rfl⟩ := hst
              have hpl : p = cfg.lockFile := by
                have := shape_all hs (i := k) (a := .stopIf p) (by rw [ht]; simp)
                rcases all_cases this with ⟨q, hq, _⟩ | hq | ⟨q, hq, _⟩
                · simp at hq
                · exact Instr.stopIf.inj hq
                · rcases hq with hq | ⟨_, _, hq⟩ <;> simp at hq
              rw [next_stop ht, hpl, if_neg hex] at hp ⊢
              left
              by_cases hki : i = k
              · subst hki
                simp only [Function.update_self]
                cases hpi : s.passed i with
                | true =>
                  have := (h hpi).resolve_right hex
                  rw [ht] at this
                  simpa using this
                | false =>
                  rcases hs.before i hpi with h0 | ⟨pre, hpre, h0⟩
                  · rw [h0] at ht; simp at ht
                  · rw [ht] at h0
                    cases pre with
                    | nil => rw [List.nil_append] at h0; rw [(List.cons.inj h0).2]; exact hm
                    | cons x pre =>
                      have hx := hpre.subset (List.mem_cons_self)
                      rw [List.cons_append] at h0
                      rw [← (List.cons.inj h0).1] at hx
                      simp at hx
              · simp only [Function.update_of_ne hki] at hp ⊢
                exact (h hp).resolve_right hex
            · rw [next_act ht (fun p hp => hst ⟨p, hp⟩)] at hp ⊢
              by_cases hki : i = k
              · subst hki
                have := (h hp).resolve_right hex
                rw [ht] at this
                rcases List.mem_cons.1 this with h1 | h1
                · right
                  rw [← h1]
                  show (dictGet (dictSet _ _ _) _).isSome = true
                  rw [dictGet_dictSet, if_pos rfl]; rfl
                · left; simpa using h1
              · left
                simp only [Function.update_of_ne hki]
                exact (h hp).resolve_right hex
  rcases key es _ (shape_initial cfg jobs fs) hcr (fun h => by simp [initial] at h) hi.passed with h | h
  · rw [hi.ended] at h; simp at h
  · exact h

/-- **C90.**  Once the experiment is locked and every process has either ended or not yet looked for the lock,
everything on the disk is final: whatever happens afterwards, no process comes past the lock, no entry changes
and no new file appears (only folders). -/
theorem parallel_stable (cfg : Config) (jobs : Nat → Job) (fs : Fs) (es more : List Event)
    (hl : Locked cfg (runSchedule (initial cfg jobs fs) es).fs)
    (hq : ∀ i, (runSchedule (initial cfg jobs fs) es).todo i = [] ∨
      (runSchedule (initial cfg jobs fs) es).passed i = false) :
    (∀ i, (runSchedule (initial cfg jobs fs) (es ++ more)).passed i =
      (runSchedule (initial cfg jobs fs) es).passed i) ∧
    (∀ p x, dictGet (runSchedule (initial cfg jobs fs) es).fs p = some x →
      dictGet (runSchedule (initial cfg jobs fs) (es ++ more)).fs p = some x) ∧
    (∀ p, dictGet (runSchedule (initial cfg jobs fs) es).fs p = none →
      dictGet (runSchedule (initial cfg jobs fs) (es ++ more)).fs p = none ∨
      dictGet (runSchedule (initial cfg jobs fs) (es ++ more)).fs p = some .dir) := by
  have hs := shape_run (shape_initial cfg jobs fs) es
  have happ : runSchedule (initial cfg jobs fs) (es ++ more) =
      runSchedule (runSchedule (initial cfg jobs fs) es) more := by
    unfold runSchedule; rw [List.foldl_append]
  rw [happ]
  generalize runSchedule (initial cfg jobs fs) es = s at hs hl hq ⊢
  have key : ∀ (more : List Event) (t : State), Shape cfg jobs t → Locked cfg t.fs →
      (∀ i, t.todo i = [] ∨ t.passed i = false) →
      (∀ i, t.passed i = s.passed i) →
      (∀ p x, dictGet s.fs p = some x → dictGet t.fs p = some x) →
      (∀ p, dictGet s.fs p = none → dictGet t.fs p = none ∨ dictGet t.fs p = some .dir) →
      (∀ i, (runSchedule t more).passed i = s.passed i) ∧
      (∀ p x, dictGet s.fs p = some x → dictGet (runSchedule t more).fs p = some x) ∧
      (∀ p, dictGet s.fs p = none → dictGet (runSchedule t more).fs p = none ∨
        dictGet (runSchedule t more).fs p = some .dir) := by
    intro more
    induction more with
    | nil => intro t _ _ _ h1 h2 h3; exact ⟨h1, h2, h3⟩
    | cons e more ih =>
      intro t ht hlt hqt h1 h2 h3
      rw [runSchedule_cons]
      have hend : ∀ i, (∀ k, Function.update t.todo i [] k = [] ∨ t.passed k = false) := by
        intro i k
        by_cases hk : k = i
        · subst hk; left; simp
        · rw [Function.update_of_ne hk]; exact hqt k
      cases e with
      | crash i => exact ih _ (shape_next ht _) hlt (hend i) h1 h2 h3
      | step i =>
        cases hti : t.todo i with
        | nil => rw [next_nil hti]; exact ih t ht hlt hqt h1 h2 h3
        | cons a r =>
          have hpi : t.passed i = false := by
            rcases hqt i with h | h
            · rw [h] at hti; simp at hti
            · exact h
          have hsh := shape_next ht (.step i)
          rcases ht.before i hpi with h0 | ⟨pre, hpre, h0⟩
          · rw [h0] at hti; simp at hti
          · rw [hti] at h0
            cases pre with
            | nil =>
              rw [List.nil_append] at h0
              obtain ⟨rfl, rfl⟩ := List.cons.inj h0
              have hlt' : exists' t.fs cfg.lockFile = true := hlt
              rw [next_stop hti, if_pos hlt'] at hsh ⊢
              exact ih _ hsh hlt (hend i) h1 h2 h3
            | cons x pre =>
              have hx := hpre.subset (List.mem_cons_self)
              rw [List.cons_append] at h0
              obtain ⟨rfl, hr⟩ := List.cons.inj h0
              obtain ⟨q, rfl⟩ : ∃ q, a = .mkdir q := by
                simp only [List.mem_cons, List.not_mem_nil, or_false] at hx
                rcases hx with rfl | rfl <;> exact ⟨_, rfl⟩
              rw [next_act hti (by simp)] at hsh ⊢
              refine ih _ hsh (apply_mono (a := .mkdir q) hlt) ?_ h1 ?_ ?_
              · intro k
                by_cases hk : k = i
                · subst hk; exact .inr hpi
                · simp only [Function.update_of_ne hk]; exact hqt k
              · intro p x hp
                exact mkdirs_keeps (h2 p x hp)
              · intro p hp
                exact mkdirsFrom_new _ _ _ _ (h3 p hp)
  exact key more s hs hl hq (fun _ => rfl) (fun _ _ h => h) (fun _ h => .inl h)

/-! ## Findings: what goes wrong otherwise -/

/-- Content is written at once. (Example.) -/
def whole (c : Str) : List Str := [c]

/-- (Example.) -/
def halves (c : Str) : List Str := [c.take 2, c.drop 2]

/-- An experiment with a data point and a lock, without logs. (Example.) -/
def exSmall : Config := ⟨["e".toList], "m".toList, true, false, true⟩

/-- (Example.) -/
def exBytes (b : Str) : Params → Behaviour := fun _ => ⟨none, [], none, none, b, none⟩

/-- (Example.) -/
def exJob (b : Str) (chop : Str → List Str) : Job := ⟨none, exBytes b, [⟨"x".toList, false⟩], chop⟩

/-- Some steps of a process. (Example.) -/
def go (i n : Nat) : List Event := List.replicate n (.step i)

/-- Two processes, the same result, each written in two pieces. (Example.) -/
def exSame : Nat → Job := fun i => if i < 2 then exJob "abcd".toList halves else ⟨none, exBytes [], [], halves⟩

/-- Two processes, results of different length. (Example.) -/
def exDiffer : Nat → Job := fun i =>
  if i = 0 then exJob "abcdef".toList halves else if i = 1 then exJob "12".toList whole else ⟨none, exBytes [], [], whole⟩

theorem exSame_chops : Chops exSame := by
  intro i c
  have : (exSame i).chop = halves := by unfold exSame exJob; split <;> rfl
  rw [this]; simp [halves]

theorem exDiffer_chops : Chops exDiffer := by
  intro i c
  unfold exDiffer
  split
  · simp [exJob, halves]
  · split <;> simp [exJob, whole]

theorem exSame_bytes : SameBytes exSame "x".toList "abcd".toList := by
  intro i p hp _ _
  unfold exSame at hp ⊢
  split
  · rfl
  · rename_i h; rw [if_neg h] at hp; simp at hp

/-- **Finding.**  The lock is looked for at the beginning only, and set at the end: two processes can both come
past it; then the experiment is locked while a data point is empty (the second process is about to write it). -/
theorem locked_while_incomplete : ∃ es : List Event, NoCrash exSame "x".toList es ∧
    Locked exSmall (runSchedule (initial exSmall exSame []) es).fs ∧
    datapoint exSmall (runSchedule (initial exSmall exSame []) es).fs "x".toList = some (.file []) := by
  refine ⟨go 0 3 ++ go 1 3 ++ go 0 20 ++ go 1 4, fun i _ h => ?_, ?_, ?_⟩
  · simp [go] at h
  · unfold Locked Held; decide +kernel
  · unfold datapoint; decide +kernel

/-- **Finding.**  If then the second process dies, the experiment stays locked with a data point that is not
complete (with one process a locked experiment is complete, `crash_locked_complete`). -/
theorem locked_incomplete_after_crash : ∃ es : List Event, Event.crash 0 ∉ es ∧
    Finished exSmall exSame (runSchedule (initial exSmall exSame []) es) 0 ∧
    (∀ i < 2, (runSchedule (initial exSmall exSame []) es).todo i = []) ∧
    Locked exSmall (runSchedule (initial exSmall exSame []) es).fs ∧
    datapoint exSmall (runSchedule (initial exSmall exSame []) es).fs "x".toList = some (.file "ab".toList) := by
  refine ⟨go 0 3 ++ go 1 3 ++ go 0 20 ++ go 1 5 ++ [.crash 1], ?_, ⟨?_, ?_, rfl, ?_⟩, ?_, ?_, ?_⟩
  · decide
  · decide +kernel
  · decide +kernel
  · intro p _ _; exact ⟨rfl, rfl, fun _ => ⟨rfl, rfl⟩⟩
  · decide +kernel
  · unfold Locked Held; decide +kernel
  · unfold datapoint; decide +kernel

/-- **Finding.**  If the second process opens the file and dies while the first is writing, the first goes on
writing at its position: it finishes and locks the experiment, and its data point has the right length, but
zeros where the beginning was. -/
theorem zeros_after_crash : ∃ es : List Event, Event.crash 0 ∉ es ∧
    Finished exSmall exSame (runSchedule (initial exSmall exSame []) es) 0 ∧
    Locked exSmall (runSchedule (initial exSmall exSame []) es).fs ∧
    datapoint exSmall (runSchedule (initial exSmall exSame []) es).fs "x".toList =
      some (.file (List.replicate 2 (Char.ofNat 0) ++ "cd".toList)) := by
  refine ⟨go 1 3 ++ go 0 8 ++ go 1 4 ++ [.crash 1] ++ go 0 20, ?_, ⟨?_, ?_, rfl, ?_⟩, ?_, ?_⟩
  · decide
  · decide +kernel
  · decide +kernel
  · intro p _ _; exact ⟨rfl, rfl, fun _ => ⟨rfl, rfl⟩⟩
  · unfold Locked Held; decide +kernel
  · unfold datapoint; decide +kernel

/-- **Finding.**  If the results differ (durations are part of a data point), both processes finish, nobody
dies, the experiment is locked, and the data point is a mixture that is neither's result. -/
theorem mixture_of_results : ∃ es : List Event, (∀ i, Event.crash i ∉ es) ∧
    Finished exSmall exDiffer (runSchedule (initial exSmall exDiffer []) es) 0 ∧
    Finished exSmall exDiffer (runSchedule (initial exSmall exDiffer []) es) 1 ∧
    Locked exSmall (runSchedule (initial exSmall exDiffer []) es).fs ∧
    datapoint exSmall (runSchedule (initial exSmall exDiffer []) es).fs "x".toList =
      some (.file "12cdef".toList) := by
  refine ⟨go 0 3 ++ go 1 3 ++ go 0 5 ++ go 1 5 ++ go 0 20 ++ go 1 20, ?_, ⟨?_, ?_, rfl, ?_⟩, ⟨?_, ?_, rfl, ?_⟩, ?_, ?_⟩
  · intro i h; simp [go] at h
  · decide +kernel
  · decide +kernel
  · intro p _ _; exact ⟨rfl, rfl, fun _ => ⟨rfl, rfl⟩⟩
  · decide +kernel
  · decide +kernel
  · intro p _ _; exact ⟨rfl, rfl, fun _ => ⟨rfl, rfl⟩⟩
  · unfold Locked Held; decide +kernel
  · unfold datapoint; decide +kernel

/-! ## Concrete cases -/

/-- Both processes write the file at the same time, in pieces, and end. (Example.) -/
def exTogether : List Event := go 0 3 ++ go 1 3 ++ go 0 5 ++ go 1 5 ++ go 0 20 ++ go 1 20

example : Quiet exSame "x".toList (runSchedule (initial exSmall exSame []) exTogether) := by
  intro i hi
  by_cases h : i < 2
  · left; clear hi; revert i; decide +kernel
  · exfalso
    obtain ⟨p, hp, _⟩ := hi
    unfold exSame at hp
    rw [if_neg h] at hp; simp at hp
theorem exTogether_finished : Finished exSmall exSame (runSchedule (initial exSmall exSame []) exTogether) 1 :=
  ⟨by decide +kernel, by decide +kernel, rfl, fun p _ _ => ⟨rfl, rfl, fun _ => ⟨rfl, rfl⟩⟩⟩
example : NoCrash exSame "x".toList exTogether := fun i _ h => by simp [exTogether, go] at h
example : Writes (exSame 1).runs "x".toList := ⟨⟨"x".toList, false⟩, by decide, rfl, rfl⟩
example : datapoint exSmall (runSchedule (initial exSmall exSame []) exTogether).fs "x".toList =
    some (.file "abcd".toList) := by unfold datapoint; decide +kernel
example : Locked exSmall (runSchedule (initial exSmall exSame []) exTogether).fs :=
  parallel_locked _ _ _ _ 1 rfl (by decide) exTogether_finished
/-- `parallel_stable`: its hypotheses hold after the schedule, for all processes. -/
example : ∀ i, (runSchedule (initial exSmall exSame []) exTogether).todo i = [] ∨
    (runSchedule (initial exSmall exSame []) exTogether).passed i = false := by
  have hother : ∀ (es : List Event) (s : State) (i : Nat), Event.step i ∉ es →
      (runSchedule s es).passed i = s.passed i := by
    intro es
    induction es with
    | nil => intro s i _; rfl
    | cons e es ih =>
      intro s i h
      rw [runSchedule_cons, ih _ _ (fun h' => h (by simp [h']))]
      cases e with
      | crash k => rfl
      | step k =>
        have hki : i ≠ k := by rintro rfl; exact h (by simp)
        cases ht : s.todo k with
        | nil => rw [next_nil ht]
        | cons a r =>
          by_cases ha : ∃ p, a = .stopIf p
          · obtain ⟨p, rfl⟩ := ha
            rw [next_stop ht]
            split
            · rfl
            · simp only [Function.update_of_ne hki]
          · rw [next_act ht (fun p hp => ha ⟨p, hp⟩)]
  intro i
  by_cases h : i < 2
  · left; revert i; decide +kernel
  · right
    rw [hother]
    · rfl
    · simp only [exTogether, go, List.mem_append, List.mem_replicate, Event.step.injEq]
      omega
/-- Processes that write different data points (`exp run --index`). (Example.) -/
def exParts : Nat → Job := fun i => ⟨none, exGood, [⟨List.replicate (i + 1) 'a', false⟩], halves⟩
example : ∀ k, k ≠ 0 → ¬ Writes (exParts k).runs "a".toList := by
  rintro k hk ⟨p, hp, _, h⟩
  simp only [exParts, List.mem_singleton] at hp
  subst hp
  have := congrArg List.length h
  simp at this
  omega
/-- Process 1 died in the middle of writing; process 0 has finished. -/
example : Finished exSmall exParts (runSchedule (initial exSmall exParts [])
    (go 0 3 ++ go 1 8 ++ [.crash 1] ++ go 2 3 ++ go 0 20)) 0 :=
  ⟨by decide +kernel, by decide +kernel, rfl, fun p _ _ => ⟨rfl, rfl, fun _ => ⟨rfl, rfl⟩⟩⟩

end Mbtk.Exp.Parallel
