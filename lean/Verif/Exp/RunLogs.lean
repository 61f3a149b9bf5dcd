import Verif.Exp.Lock
import Mathlib.Logic.Function.Basic
/-!
# What is printed during an experiment: console and log files (C79)

`mbtk/utilities/MultiFileWriter.py` and the output of `mbtk/experiment/ExperimentRun.py`.  A stream is
its text and whether it was closed; streams are known by numbers, `sys.__stdout__` is number 0.
Writing to and flushing a closed stream raise `ValueError`, closing it again does nothing.

Simplifications: buffers are not modelled (the text of a log is the text written to the stream that
opened it last); an algorithm run prints a list of strings and then ends or raises, and a failing
`print` ends it; the constructor of a run and the saving of a data point do not raise (they can, see
C57); `print(x)` is one `write`.
-/
namespace Mbtk.RunLogs
open Mbtk Mbtk.Dataset

/-- A text stream. (Python itself.) -/
structure Stream where
  text : Str
  closed : Bool
  deriving DecidableEq, Repr

/-- All streams, the next number, the streams that opened the log files last, and the data points that
were saved. ExperimentRun.py 71-105. -/
structure World where
  streams : Nat → Stream
  next : Nat
  logs : Str → Option Nat
  saved : List Str

/-- How a statement ended: the new world, and the exception if one was raised. (Python itself.) -/
abbrev Outcome := World × Option Err

/-- One statement after another; an exception ends the sequence. (Python itself.) -/
def Outcome.andThen (o : Outcome) (f : World → Outcome) : Outcome :=
  match o.2 with
  | none => f o.1
  | some e => (o.1, some e)

/-- `f.write(string)`. (Python itself.) -/
def World.write (w : World) (f : Nat) (s : Str) : Outcome :=
  if (w.streams f).closed then (w, some .valueError)
  else ({ w with streams := Function.update w.streams f ⟨(w.streams f).text ++ s, false⟩ }, none)

/-- `f.close()`. (Python itself.) -/
def World.close (w : World) (f : Nat) : World :=
  { w with streams := Function.update w.streams f ⟨(w.streams f).text, true⟩ }

/-! ## `MultiFileWriter` -/

/-- `write(string)`: MultiFileWriter.py 10-12. -/
def writeAll : List Nat → Str → World → Outcome
  | [], _, w => (w, none)
  | f :: fs, s, w => (w.write f s).andThen (writeAll fs s)

/-- `flush()`: MultiFileWriter.py 15-17. -/
def flushAll : List Nat → World → Outcome
  | [], w => (w, none)
  | f :: fs, w => if (w.streams f).closed then (w, some .valueError) else flushAll fs w

/-- The loop of `close()`: MultiFileWriter.py 22-24. -/
def closeLoop : List Nat → World → World
  | [], w => w
  | f :: fs, w => closeLoop fs (if f = 0 then w else w.close f)

/-- `close()`: MultiFileWriter.py 20-24. -/
def closeAll (fs : List Nat) (w : World) : Outcome :=
  (flushAll fs w).andThen (fun w => (closeLoop fs w, none))

/-! ## The experiment -/

/-- The settings that matter for output. ExperimentDefinition.py 22-26. -/
structure Config where
  logStdout : Bool
  logFile : Bool
  save : Bool
  quiet : Bool

/-- An algorithm run: what it prints, the exception it ends with, and its text `str(algorithm_run)`.
ExperimentRun.py 35-39, 71-87. -/
structure AlgRun where
  id : Str
  skip : Bool
  prints : List Str
  raises : Option Err
  summary : Str

/-- The body of the run with `sys.stdout` redirected to the writer: ExperimentRun.py 75-78. -/
def body : List Nat → List Str → Option Err → World → Outcome
  | _, [], e, w => (w, e)
  | fs, s :: ss, e, w => (writeAll fs s w).andThen (body fs ss e)

/-- `get_algorithm_run_stdout_destination`: ExperimentRun.py 97-105.  `out` is the number of
`sys.stdout`. -/
def destinations (cfg : Config) (out : Nat) (r : AlgRun) (w : World) : List Nat × World :=
  let first := if cfg.logStdout then [out] else []
  if cfg.logFile then
    (first ++ [w.next], { w with
      streams := Function.update w.streams w.next ⟨[], false⟩
      next := w.next + 1
      logs := Function.update w.logs r.id (some w.next) })
  else (first, w)

/-- `try: … finally: destination.close()`: ExperimentRun.py 74-81; an exception of `close()` replaces
that of the run. -/
def tryFinally (o : Outcome) (close : World → Outcome) : Outcome :=
  match (close o.1).2 with
  | some e => ((close o.1).1, some e)
  | none => ((close o.1).1, o.2)

/-- A message of the experiment: ExperimentRun.py 37-38, 86-87, 108-115. -/
def notice (cfg : Config) (out : Nat) (s : Str) (w : World) : Outcome :=
  if cfg.quiet then (w, none) else w.write out (s ++ ['\n'])

/-- `run_algorithm`: ExperimentRun.py 71-87. -/
def runAlgorithm (cfg : Config) (out : Nat) (r : AlgRun) (w : World) : Outcome :=
  let d := destinations cfg out r w
  (tryFinally (body d.1 r.prints r.raises d.2) (closeAll d.1)).andThen (fun w =>
    notice cfg out r.summary (if cfg.save then { w with saved := w.saved ++ [r.id] } else w))

/-- The loop over the runs: ExperimentRun.py 35-41. -/
def loop (cfg : Config) (out : Nat) : List AlgRun → World → Outcome
  | [], w => (w, none)
  | r :: rs, w =>
    (if r.skip then notice cfg out ("Skipped ".toList ++ r.id ++ ['.']) w
      else runAlgorithm cfg out r w).andThen (loop cfg out rs)

/-- `run()` after the dataset was prepared: ExperimentRun.py 33-43, 57-65. -/
def experiment (cfg : Config) (out : Nat) (rs : List AlgRun) (w : World) : Outcome :=
  (notice cfg out "Experiment begins.".toList w).andThen (fun w =>
    (loop cfg out rs w).andThen (notice cfg out "Experiment ends.".toList))

/-! ## Specification -/

namespace Spec

/-- What the log file of an ID contains. (Specification.) -/
def logText (w : World) (id : Str) : Option Str := (w.logs id).map (fun h => (w.streams h).text)

/-- The runs that are reached: all up to the first that raises. (Specification.) -/
def reached : List AlgRun → List AlgRun
  | [] => []
  | r :: rs => if !r.skip && r.raises.isSome then [r] else r :: reached rs

/-- The exception of the first run that raises. (Specification.) -/
def outcome (rs : List AlgRun) : Option Err :=
  (rs.filter (fun r => !r.skip)).findSome? (fun r => r.raises)

/-- A message, unless the experiment is quiet. (Specification.) -/
def message (cfg : Config) (s : Str) : Str := if cfg.quiet then [] else s ++ ['\n']

/-- What a run that is reached adds to the console. (Specification.) -/
def consoleOf (cfg : Config) (r : AlgRun) : Str :=
  if r.skip then message cfg ("Skipped ".toList ++ r.id ++ ['.'])
  else (if cfg.logStdout then r.prints.flatten else []) ++
    (if r.raises = none then message cfg r.summary else [])

/-- What the whole experiment adds to the console. (Specification.) -/
def console (cfg : Config) (rs : List AlgRun) : Str :=
  message cfg "Experiment begins.".toList ++ ((reached rs).map (consoleOf cfg)).flatten ++
    (if outcome rs = none then message cfg "Experiment ends.".toList else [])

/-- The log file of an ID after the experiment: everything printed by the last run with this ID, or what
was there before. (Specification.) -/
def logAfter (cfg : Config) (rs : List AlgRun) (before : Option Str) (id : Str) : Option Str :=
  if cfg.logFile then
    match ((reached rs).filter (fun r => !r.skip && r.id == id)).getLast? with
    | some r => some r.prints.flatten
    | none => before
  else before

/-- The data points that are saved. (Specification.) -/
def savedBy (cfg : Config) (rs : List AlgRun) : List Str :=
  if cfg.save then ((reached rs).filter (fun r => !r.skip && r.raises.isNone)).map (·.id) else []

/-- `sys.stdout` is open and no log file. (Specification.) -/
structure Ready (out : Nat) (w : World) : Prop where
  exists_ : out < w.next
  isOpen : (w.streams out).closed = false
  logs : ∀ id h, w.logs id = some h → h < w.next ∧ h ≠ out

end Spec
open Spec

/-! ## The writer -/

/-- The world after `s` was written to all `fs`. (Models no code: a notion for statements and proofs.) -/
def written (fs : List Nat) (s : Str) (w : World) : World :=
  { w with streams := fun f => if f ∈ fs then ⟨(w.streams f).text ++ s, false⟩ else w.streams f }

theorem written_nil {fs : List Nat} {w : World} (ho : ∀ f ∈ fs, (w.streams f).closed = false) :
    written fs [] w = w := by
  unfold written
  congr 1
  funext f
  by_cases hf : f ∈ fs
  · rw [if_pos hf, List.append_nil, ← ho f hf]
  · rw [if_neg hf]

theorem written_written (fs : List Nat) (s t : Str) (w : World) :
    written fs t (written fs s w) = written fs (s ++ t) w := by
  unfold written
  congr 1
  funext f
  by_cases hf : f ∈ fs <;> simp [hf]

/-- **C79, the writer.**  If all destinations are open, `write` adds the text to each of them, once, and
touches nothing else. -/
theorem writer_writes_everywhere (fs : List Nat) (hn : fs.Nodup) (s : Str) (w : World)
    (ho : ∀ f ∈ fs, (w.streams f).closed = false) :
    writeAll fs s w = ({ w with streams := fun f =>
      if f ∈ fs then ⟨(w.streams f).text ++ s, false⟩ else w.streams f }, none) := by
  show _ = (written fs s w, none)
  induction fs generalizing w with
  | nil => simp [writeAll, written]
  | cons f fs ih =>
    have hf := ho f (by simp)
    have hnf : f ∉ fs := (List.nodup_cons.1 hn).1
    unfold writeAll World.write
    rw [hf]
    show writeAll fs s { w with streams := Function.update w.streams f ⟨(w.streams f).text ++ s, false⟩ } = _
    rw [ih (List.nodup_cons.1 hn).2]
    · congr 1
      unfold written
      congr 1
      funext g
      by_cases hg : g ∈ fs
      · have : g ≠ f := fun e => hnf (e ▸ hg)
        simp [hg, Function.update_of_ne this]
      · by_cases he : g = f
        · subst he; simp [hg]
        · simp [hg, he]
    · intro g hg
      have : g ≠ f := fun e => hnf (e ▸ hg)
      simp only [Function.update_of_ne this]
      exact ho g (by simp [hg])

theorem written_open {fs : List Nat} {s : Str} {w : World} :
    ∀ f ∈ fs, ((written fs s w).streams f).closed = false := by
  intro f hf; simp [written, hf]

theorem body_open (fs : List Nat) (hn : fs.Nodup) (ss : List Str) (e : Option Err) (w : World)
    (ho : ∀ f ∈ fs, (w.streams f).closed = false) :
    body fs ss e w = (written fs ss.flatten w, e) := by
  induction ss generalizing w with
  | nil => rw [List.flatten_nil, written_nil ho]; rfl
  | cons s ss ih =>
    unfold body
    rw [show writeAll fs s w = (written fs s w, none) from writer_writes_everywhere fs hn s w ho]
    show body fs ss e (written fs s w) = _
    rw [ih _ (written_open), written_written]
    rfl

theorem flushAll_open (fs : List Nat) (w : World) (ho : ∀ f ∈ fs, (w.streams f).closed = false) :
    flushAll fs w = (w, none) := by
  induction fs with
  | nil => rfl
  | cons f fs ih =>
    unfold flushAll
    rw [ho f (by simp)]
    exact ih (fun g hg => ho g (by simp [hg]))

theorem flushAll_closed {fs : List Nat} {w : World} {f : Nat} (hf : f ∈ fs)
    (hc : (w.streams f).closed = true) : flushAll fs w = (w, some .valueError) := by
  induction fs with
  | nil => cases hf
  | cons g fs ih =>
    unfold flushAll
    by_cases hg : (w.streams g).closed = true
    · rw [if_pos hg]
    · rw [if_neg hg]
      apply ih
      rcases List.mem_cons.1 hf with e | e
      · subst e; exact absurd hc hg
      · exact e

/-- The world after all `fs` but `sys.__stdout__` were closed. (Models no code: a notion for statements and proofs.) -/
def closedW (fs : List Nat) (w : World) : World :=
  { w with streams := fun f => if f ∈ fs ∧ f ≠ 0 then ⟨(w.streams f).text, true⟩ else w.streams f }

theorem closeLoop_eq (fs : List Nat) (w : World) : closeLoop fs w = closedW fs w := by
  induction fs generalizing w with
  | nil => simp [closeLoop, closedW]
  | cons f fs ih =>
    unfold closeLoop
    rw [ih]
    by_cases h0 : f = 0
    · subst h0
      rw [if_pos rfl]
      unfold closedW
      congr 1
      funext g
      by_cases hg : g = 0
      · simp [hg]
      · simp [hg]
    · rw [if_neg h0]
      unfold closedW World.close
      congr 1
      funext g
      by_cases hg : g = f
      · subst hg; simp [h0]
      · simp [hg]

/-- **C79, closing the writer.**  If all destinations are open, `close` closes each of them but
`sys.__stdout__` and leaves their texts alone; if one is closed already, it raises `ValueError` and
closes nothing. -/
theorem writer_close (fs : List Nat) (w : World) :
    ((∀ f ∈ fs, (w.streams f).closed = false) →
      closeAll fs w = ({ w with streams := fun f =>
        if f ∈ fs ∧ f ≠ 0 then ⟨(w.streams f).text, true⟩ else w.streams f }, none)) ∧
    (∀ f ∈ fs, (w.streams f).closed = true → closeAll fs w = (w, some .valueError)) := by
  constructor
  · intro ho
    unfold closeAll
    rw [flushAll_open fs w ho]
    show (closeLoop fs w, none) = _
    rw [closeLoop_eq]
    rfl
  · intro f hf hc
    unfold closeAll
    rw [flushAll_closed hf hc]
    rfl

/-! ## One run -/

theorem andThen_none (w : World) (f : World → Outcome) : Outcome.andThen (w, none) f = f w := rfl
theorem andThen_some (w : World) (e : Err) (f : World → Outcome) :
    Outcome.andThen (w, some e) f = (w, some e) := rfl

theorem notice_open {cfg : Config} {out : Nat} {s : Str} {w : World}
    (ho : (w.streams out).closed = false) :
    notice cfg out s w = (written [out] (message cfg s) w, none) := by
  unfold notice message
  by_cases hq : cfg.quiet = true
  · rw [if_pos hq, if_pos hq, written_nil (by intro f hf; simp at hf; subst hf; exact ho)]
  · rw [if_neg hq, if_neg hq]
    unfold World.write
    rw [ho]
    show ({ w with streams := _ }, none) = _
    unfold written
    congr 2
    funext g
    by_cases hg : g = out
    · subst hg; simp
    · simp [hg]

/-- What one run does to the world, streams below the old `next` other than the console unchanged. (Models no code: a notion for statements and proofs.) -/
structure Did (out : Nat) (w w' : World) (text : Str) (logs : Str → Option Str) (saved : List Str) :
    Prop where
  ready : Ready out w'
  text : (w'.streams out).text = (w.streams out).text ++ text
  grows : w.next ≤ w'.next
  others : ∀ f, f < w.next → f ≠ out → w'.streams f = w.streams f
  newClosed : ∀ f, w.next ≤ f → f < w'.next → (w'.streams f).closed = true
  logs : ∀ id, logText w' id = logs id
  saved : w'.saved = w.saved ++ saved

theorem Did.trans {out : Nat} {w w1 w2 : World} {t1 t2 : Str} {l1 l2 : Str → Option Str}
    {s1 s2 : List Str} (h1 : Did out w w1 t1 l1 s1) (h2 : Did out w1 w2 t2 l2 s2)
    (h : Ready out w) : Did out w w2 (t1 ++ t2) l2 (s1 ++ s2) where
  ready := h2.ready
  text := by rw [h2.text, h1.text, List.append_assoc]
  grows := le_trans h1.grows h2.grows
  others := fun f hf hne => by
    rw [h2.others f (lt_of_lt_of_le hf h1.grows) hne, h1.others f hf hne]
  newClosed := fun f hf hf' => by
    by_cases hlt : f < w1.next
    · have hne : f ≠ out := by have := h.exists_; omega
      rw [h2.others f hlt hne]
      exact h1.newClosed f hf hlt
    · exact h2.newClosed f (by omega) hf'
  logs := h2.logs
  saved := by rw [h2.saved, h1.saved, List.append_assoc]

theorem did_written {out : Nat} {w : World} (s : Str) (h : Ready out w) :
    Did out w (written [out] s w) s (logText w) [] where
  ready := ⟨h.exists_, by simp [written], h.logs⟩
  text := by simp [written]
  grows := le_refl _
  others := fun f _ hne => by simp [written, hne]
  newClosed := fun f h1 h2 => absurd h2 (by show ¬ f < w.next; omega)
  logs := fun id => by
    unfold logText
    show Option.map _ (w.logs id) = _
    cases hl : w.logs id with
    | none => rfl
    | some n => simp [written, (h.logs id n hl).2]
  saved := by simp [written]

theorem run_body {cfg : Config} {out : Nat} {r : AlgRun} {w : World} (h : Ready out w)
    (hf : out = 0 ∨ cfg.logStdout = false) :
    ∃ w', tryFinally (body (destinations cfg out r w).1 r.prints r.raises (destinations cfg out r w).2)
        (closeAll (destinations cfg out r w).1) = (w', r.raises) ∧
      Did out w w' (if cfg.logStdout then r.prints.flatten else [])
        (fun id => if cfg.logFile && (r.id == id) then some r.prints.flatten else logText w id) [] := by
  have hlt := h.exists_
  set d := destinations cfg out r w with hd
  have hfst : d.1 = (if cfg.logStdout then [out] else []) ++ (if cfg.logFile then [w.next] else []) := by
    rw [hd]; unfold destinations
    by_cases hl : cfg.logFile = true <;> simp [hl]
  have hstr : d.2.streams = if cfg.logFile then Function.update w.streams w.next ⟨[], false⟩ else w.streams := by
    rw [hd]; unfold destinations
    by_cases hl : cfg.logFile = true <;> simp [hl]
  have hnext : d.2.next = w.next + (if cfg.logFile then 1 else 0) := by
    rw [hd]; unfold destinations
    by_cases hl : cfg.logFile = true <;> simp [hl]
  have hlogs : d.2.logs = if cfg.logFile then Function.update w.logs r.id (some w.next) else w.logs := by
    rw [hd]; unfold destinations
    by_cases hl : cfg.logFile = true <;> simp [hl]
  have hsaved : d.2.saved = w.saved := by
    rw [hd]; unfold destinations
    by_cases hl : cfg.logFile = true <;> simp [hl]
  have hmem : ∀ f, f ∈ d.1 ↔ (cfg.logStdout = true ∧ f = out) ∨ (cfg.logFile = true ∧ f = w.next) := by
    intro f; rw [hfst]
    by_cases h1 : cfg.logStdout = true <;> by_cases h2 : cfg.logFile = true <;> simp [h1, h2]
  have hnd : d.1.Nodup := by
    rw [hfst]
    have : out ≠ w.next := by omega
    by_cases h1 : cfg.logStdout = true <;> by_cases h2 : cfg.logFile = true <;> simp [h1, h2, this]
  have hopen : ∀ f ∈ d.1, (d.2.streams f).closed = false := by
    intro f hm
    rw [hstr]
    rcases (hmem f).1 hm with ⟨_, rfl⟩ | ⟨h2, rfl⟩
    · by_cases h2 : cfg.logFile = true
      · rw [if_pos h2, Function.update_of_ne (by omega)]; exact h.isOpen
      · rw [if_neg h2]; exact h.isOpen
    · rw [if_pos h2]; simp
  have hbody := body_open d.1 hnd r.prints r.raises d.2 hopen
  have hclose : closeAll d.1 (written d.1 r.prints.flatten d.2) =
      (closedW d.1 (written d.1 r.prints.flatten d.2), none) :=
    (writer_close d.1 _).1 (written_open)
  refine ⟨closedW d.1 (written d.1 r.prints.flatten d.2), ?_, ?_⟩
  · rw [hbody]
    unfold tryFinally
    simp only [hclose]
  · have hout : (closedW d.1 (written d.1 r.prints.flatten d.2)).streams out =
        ⟨(w.streams out).text ++ (if cfg.logStdout then r.prints.flatten else []), false⟩ := by
      have hs : d.2.streams out = w.streams out := by
        rw [hstr]
        by_cases h2 : cfg.logFile = true
        · rw [if_pos h2, Function.update_of_ne (by omega)]
        · rw [if_neg h2]
      have hno : ¬ (out ∈ d.1 ∧ out ≠ 0) := by
        rintro ⟨hm, h0⟩
        rcases (hmem out).1 hm with ⟨h1, _⟩ | ⟨_, h2⟩
        · rcases hf with hf | hf
          · exact h0 hf
          · rw [hf] at h1; cases h1
        · omega
      show (if out ∈ d.1 ∧ out ≠ 0 then _ else _) = _
      rw [if_neg hno]
      show (if out ∈ d.1 then _ else _) = _
      rw [hs]
      by_cases h1 : cfg.logStdout = true
      · rw [if_pos ((hmem out).2 (.inl ⟨h1, rfl⟩)), if_pos h1]
      · rw [if_neg, if_neg h1, List.append_nil, ← h.isOpen]
        intro hm
        rcases (hmem out).1 hm with ⟨h1', _⟩ | ⟨_, h2⟩
        · exact h1 h1'
        · omega
    have hoth : ∀ f, f < w.next → f ≠ out →
        (closedW d.1 (written d.1 r.prints.flatten d.2)).streams f = w.streams f := by
      intro f hlt' hne
      have hnm : f ∉ d.1 := by
        intro hm
        rcases (hmem f).1 hm with ⟨_, e⟩ | ⟨_, e⟩
        · exact hne e
        · omega
      show (if f ∈ d.1 ∧ f ≠ 0 then _ else if f ∈ d.1 then _ else d.2.streams f) = _
      rw [if_neg (fun hh => hnm hh.1), if_neg hnm, hstr]
      by_cases h2 : cfg.logFile = true
      · rw [if_pos h2, Function.update_of_ne (by omega)]
      · rw [if_neg h2]
    have hnew : cfg.logFile = true →
        (closedW d.1 (written d.1 r.prints.flatten d.2)).streams w.next = ⟨r.prints.flatten, true⟩ := by
      intro h2
      have hm : w.next ∈ d.1 := (hmem _).2 (.inr ⟨h2, rfl⟩)
      have h0 : w.next ≠ 0 := by omega
      simp [closedW, written, hm, h0, hstr, h2]
    constructor
    · constructor
      · show out < d.2.next
        rw [hnext]; omega
      · rw [hout]
      · intro id n hl
        have hl : d.2.logs id = some n := hl
        show n < d.2.next ∧ _
        rw [hlogs] at hl
        rw [hnext]
        by_cases h2 : cfg.logFile = true
        · rw [if_pos h2] at hl ⊢
          by_cases he : id = r.id
          · subst he
            rw [Function.update_self] at hl
            cases hl
            exact ⟨by omega, by omega⟩
          · rw [Function.update_of_ne he] at hl
            have := h.logs id n hl
            exact ⟨by omega, this.2⟩
        · rw [if_neg h2] at hl ⊢
          exact h.logs id n hl
    · rw [hout]
    · show w.next ≤ d.2.next
      rw [hnext]; omega
    · exact hoth
    · intro f h1 h2
      have h2 : f < d.2.next := h2
      rw [hnext] at h2
      by_cases hl : cfg.logFile = true
      · rw [if_pos hl] at h2
        have : f = w.next := by omega
        subst this
        rw [hnew hl]
      · rw [if_neg hl] at h2; omega
    · intro id
      show Option.map _ (d.2.logs id) = _
      rw [hlogs]
      by_cases hl : cfg.logFile = true
      · rw [if_pos hl]
        by_cases he : r.id = id
        · subst he
          rw [Function.update_self]
          simp [hl, hnew hl]
        · rw [Function.update_of_ne (fun e => he e.symm)]
          have hb : (cfg.logFile && (r.id == id)) = false := by simp [he]
          simp only [hb, Bool.false_eq_true, if_false]
          unfold logText
          cases hw : w.logs id with
          | none => rfl
          | some n =>
            have := h.logs id n hw
            simp only [Option.map_some, hoth n this.1 this.2]
      · rw [if_neg hl]
        have hb : (cfg.logFile && (r.id == id)) = false := by simp [hl]
        simp only [hb, Bool.false_eq_true, if_false]
        unfold logText
        cases hw : w.logs id with
        | none => rfl
        | some n =>
          have := h.logs id n hw
          simp only [Option.map_some, hoth n this.1 this.2]
    · show d.2.saved = _
      rw [hsaved, List.append_nil]

theorem did_save {out : Nat} {w w' : World} {t : Str} {l : Str → Option Str} {s : List Str}
    (h : Did out w w' t l s) (x : List Str) :
    Did out w { w' with saved := w'.saved ++ x } t l (s ++ x) where
  ready := ⟨h.ready.exists_, h.ready.isOpen, h.ready.logs⟩
  text := h.text
  grows := h.grows
  others := h.others
  newClosed := h.newClosed
  logs := h.logs
  saved := by show w'.saved ++ x = _; rw [h.saved, List.append_assoc]

theorem runAlgorithm_spec {cfg : Config} {out : Nat} {r : AlgRun} {w : World} (h : Ready out w)
    (hf : out = 0 ∨ cfg.logStdout = false) (hs : r.skip = false) :
    ∃ w', runAlgorithm cfg out r w = (w', r.raises) ∧
      Did out w w' (consoleOf cfg r)
        (fun id => if cfg.logFile && (r.id == id) then some r.prints.flatten else logText w id)
        (if cfg.save && r.raises.isNone then [r.id] else []) := by
  obtain ⟨w1, e1, d1⟩ := run_body (r := r) h hf
  unfold runAlgorithm consoleOf
  simp only [e1, hs, Bool.false_eq_true, if_false]
  cases hr : r.raises with
  | some e =>
    refine ⟨w1, rfl, ?_⟩
    simpa using d1
  | none =>
    rw [andThen_none]
    have d2 : Did out w (if cfg.save then { w1 with saved := w1.saved ++ [r.id] } else w1)
        (if cfg.logStdout then r.prints.flatten else [])
        (fun id => if cfg.logFile && (r.id == id) then some r.prints.flatten else logText w id)
        (if cfg.save && (none : Option Err).isNone then [r.id] else []) := by
      by_cases hsv : cfg.save = true
      · simpa [hsv] using did_save d1 [r.id]
      · simpa [hsv] using d1
    refine ⟨_, notice_open d2.ready.isOpen, ?_⟩
    have d3 := did_written (message cfg r.summary) d2.ready
    have := d2.trans d3 h
    simp only [List.append_nil] at this
    simp only [if_true]
    exact { this with logs := fun id => by rw [this.logs, d2.logs] }

/-! ## The experiment -/

theorem loop_spec {cfg : Config} {out : Nat} (hf : out = 0 ∨ cfg.logStdout = false)
    (rs : List AlgRun) {w : World} (h : Ready out w) :
    ∃ w', loop cfg out rs w = (w', outcome rs) ∧
      Did out w w' ((reached rs).map (consoleOf cfg)).flatten
        (fun id => logAfter cfg rs (logText w id) id) (savedBy cfg rs) := by
  induction rs generalizing w with
  | nil =>
    refine ⟨w, rfl, ?_⟩
    have := did_written [] h
    rw [written_nil (by intro f hf; simp at hf; subst hf; exact h.isOpen)] at this
    simpa [reached, logAfter, savedBy] using this
  | cons r rs ih =>
    cases hs : r.skip with
    | true =>
      have hrr : reached (r :: rs) = r :: reached rs := by simp [reached, hs]
      have ho : outcome (r :: rs) = outcome rs := by simp [outcome, hs]
      unfold loop
      rw [if_pos hs, notice_open h.isOpen, andThen_none]
      have d1 := did_written (message cfg ("Skipped ".toList ++ r.id ++ ['.'])) h
      obtain ⟨w', e, d⟩ := ih d1.ready
      refine ⟨w', by rw [e, ho], ?_⟩
      have := d1.trans d h
      have hc : consoleOf cfg r = message cfg ("Skipped ".toList ++ r.id ++ ['.']) := by
        simp [consoleOf, hs]
      rw [hrr, List.map_cons, List.flatten_cons, hc]
      have hsv : savedBy cfg (r :: rs) = savedBy cfg rs := by
        unfold savedBy; rw [hrr]; simp [hs]
      rw [hsv]
      refine { this with logs := fun id => ?_ }
      rw [this.logs, d1.logs]
      unfold logAfter
      rw [hrr]
      simp [hs]
    | false =>
      obtain ⟨w1, e1, d1⟩ := runAlgorithm_spec (r := r) h hf hs
      unfold loop
      rw [if_neg (by simp [hs]), e1]
      cases hr : r.raises with
      | some e =>
        have hrr : reached (r :: rs) = [r] := by simp [reached, hs, hr]
        refine ⟨w1, by simp [andThen_some, outcome, hs, hr], ?_⟩
        rw [hrr]
        have hsv : savedBy cfg (r :: rs) = [] := by unfold savedBy; rw [hrr]; simp [hr]
        rw [hsv]
        simp only [hr] at d1
        have d1' : Did out w w1 (consoleOf cfg r)
          (fun id => if cfg.logFile && (r.id == id) then some r.prints.flatten else logText w id) [] := by
          simpa using d1
        rw [List.map_singleton, List.flatten_singleton]
        refine { d1' with logs := fun id => ?_ }
        rw [d1'.logs]
        unfold logAfter
        rw [hrr]
        by_cases hl : cfg.logFile = true <;> by_cases he : r.id = id <;> simp [hl, he, hs]
      | none =>
        have hrr : reached (r :: rs) = r :: reached rs := by simp [reached, hr]
        have ho : outcome (r :: rs) = outcome rs := by simp [outcome, hs, hr]
        rw [andThen_none]
        obtain ⟨w', e, d⟩ := ih d1.ready
        refine ⟨w', by rw [e, ho], ?_⟩
        have := d1.trans d h
        rw [hrr, List.map_cons, List.flatten_cons]
        have hsv : savedBy cfg (r :: rs) =
            (if cfg.save && r.raises.isNone then [r.id] else []) ++ savedBy cfg rs := by
          unfold savedBy; rw [hrr]
          by_cases h1 : cfg.save = true <;> simp [hs, hr, h1]
        rw [hsv]
        refine { this with logs := fun id => ?_ }
        rw [this.logs, d1.logs]
        unfold logAfter
        rw [hrr]
        by_cases hl : cfg.logFile = true
        · simp only [hl, if_true, Bool.true_and]
          by_cases he : r.id = id
          · simp only [he, beq_self_eq_true, if_true, List.filter_cons, hs, Bool.not_false, Bool.and_true]
            rw [List.getLast?_cons]
            cases hg : (List.filter (fun r => !r.skip && r.id == id) (reached rs)).getLast? with
            | none => simp
            | some x => simp
          · simp [he]
        · simp [hl]

/-- **C79, console and logs.**  Let `sys.stdout` be open, and be the real console (`sys.__stdout__`) or
not be used for the logs.  Then the experiment ends exactly with the exception of the first run that
raises; to the console it adds exactly the messages of the experiment and, if asked for, what the
runs print, in order; the log file of every ID holds exactly what the last run with this ID printed
(up to the exception, if it raised), or what it held before; the data points saved are those of the
runs that ended; all log files are closed, the console is open and no other stream is touched. -/
theorem console_and_logs_exact {cfg : Config} {out : Nat} (rs : List AlgRun) {w : World}
    (h : Ready out w) (hf : out = 0 ∨ cfg.logStdout = false) :
    ∃ w', experiment cfg out rs w = (w', outcome rs) ∧
      w'.streams out = ⟨(w.streams out).text ++ console cfg rs, false⟩ ∧
      (∀ id, logText w' id = logAfter cfg rs (logText w id) id) ∧
      w'.saved = w.saved ++ savedBy cfg rs ∧
      (∀ f, w.next ≤ f → f < w'.next → (w'.streams f).closed = true) ∧
      (∀ f, f < w.next → f ≠ out → w'.streams f = w.streams f) := by
  have d1 := did_written (message cfg "Experiment begins.".toList) h
  obtain ⟨w2, e2, d2⟩ := loop_spec hf rs d1.ready
  unfold experiment
  rw [notice_open h.isOpen, andThen_none]
  simp only [e2]
  have fin : ∀ {w' : World} {t : Str} {l : Str → Option Str} {s : List Str}, Did out w w' t l s →
      t = console cfg rs → (∀ id, l id = logAfter cfg rs (logText w id) id) → s = savedBy cfg rs →
      w'.streams out = ⟨(w.streams out).text ++ console cfg rs, false⟩ ∧
      (∀ id, logText w' id = logAfter cfg rs (logText w id) id) ∧
      w'.saved = w.saved ++ savedBy cfg rs ∧
      (∀ f, w.next ≤ f → f < w'.next → (w'.streams f).closed = true) ∧
      (∀ f, f < w.next → f ≠ out → w'.streams f = w.streams f) := by
    intro w' t l s d ht hl hs
    refine ⟨?_, fun id => by rw [d.logs, hl], by rw [d.saved, hs], d.newClosed, d.others⟩
    have h1 := d.text
    have h2 := d.ready.isOpen
    rw [ht] at h1
    rw [← h1, ← h2]
  have hd := d1.trans d2 h
  have hl : ∀ id, logAfter cfg rs (logText (written [out] (message cfg "Experiment begins.".toList) w) id) id =
      logAfter cfg rs (logText w id) id := fun id => by rw [d1.logs]
  cases ho : outcome rs with
  | some e =>
    refine ⟨w2, rfl, fin hd ?_ hl (by simp)⟩
    simp [console, ho]
  | none =>
    rw [andThen_none]
    have d3 := did_written (message cfg "Experiment ends.".toList) d2.ready
    refine ⟨_, notice_open d2.ready.isOpen, fin (hd.trans d3 h) ?_ ?_ (by simp)⟩
    · simp [console, ho]
    · intro id; rw [d2.logs, hl]

theorem loop_skipped {cfg : Config} {out : Nat} (rs : List AlgRun) (hs : ∀ r ∈ rs, r.skip = true)
    (hq : cfg.quiet = true) (w : World) : loop cfg out rs w = (w, none) := by
  induction rs with
  | nil => rfl
  | cons r rs ih =>
    unfold loop
    rw [if_pos (hs r (by simp))]
    unfold notice
    rw [if_pos hq, andThen_none]
    exact ih (fun x hx => hs x (by simp [hx]))

theorem notice_closed {cfg : Config} {out : Nat} {s : Str} {w : World} (hq : cfg.quiet = false)
    (hc : (w.streams out).closed = true) : notice cfg out s w = (w, some .valueError) := by
  unfold notice World.write
  rw [if_neg (by simp [hq]), if_pos hc]

theorem written_closed {fs : List Nat} {s : Str} {w w' : World} {e : Option Err}
    {out : Nat} (hc : (w.streams out).closed = true) (h : writeAll fs s w = (w', e)) :
    (w'.streams out).closed = true ∧ w'.saved = w.saved := by
  induction fs generalizing w with
  | nil => cases h; exact ⟨hc, rfl⟩
  | cons f fs ih =>
    unfold writeAll World.write at h
    by_cases hf : (w.streams f).closed = true
    · rw [if_pos hf, andThen_some] at h
      cases h; exact ⟨hc, rfl⟩
    · rw [if_neg hf, andThen_none] at h
      have hne : out ≠ f := fun e => hf (e ▸ hc)
      have := ih (by simpa only [Function.update_of_ne hne] using hc) h
      exact this

theorem body_closed {fs : List Nat} {ss : List Str} {e e' : Option Err} {w w' : World} {out : Nat}
    (hc : (w.streams out).closed = true) (h : body fs ss e w = (w', e')) :
    (w'.streams out).closed = true ∧ w'.saved = w.saved := by
  induction ss generalizing w with
  | nil => cases h; exact ⟨hc, rfl⟩
  | cons s ss ih =>
    unfold body at h
    cases hw : writeAll fs s w with
    | mk w1 e1 =>
      rw [hw] at h
      obtain ⟨hc1, hs1⟩ := written_closed hc hw
      cases e1 with
      | some x => rw [andThen_some] at h; cases h; exact ⟨hc1, hs1⟩
      | none =>
        rw [andThen_none] at h
        obtain ⟨h2, h3⟩ := ih hc1 h
        exact ⟨h2, h3.trans hs1⟩

theorem runAlgorithm_closed {cfg : Config} {out : Nat} {r : AlgRun} {w : World}
    (hl : cfg.logStdout = true) (hlt : out < w.next) (hc : (w.streams out).closed = true) :
    ∃ w', runAlgorithm cfg out r w = (w', some .valueError) ∧ w'.saved = w.saved := by
  have hm : out ∈ (destinations cfg out r w).1 := by
    unfold destinations; by_cases h2 : cfg.logFile = true <;> simp [h2, hl]
  have hc2 : (((destinations cfg out r w).2).streams out).closed = true := by
    unfold destinations
    by_cases h2 : cfg.logFile = true
    · simp only [h2, if_true]
      rw [Function.update_of_ne (by omega)]; exact hc
    · simpa [h2] using hc
  have hsv : (destinations cfg out r w).2.saved = w.saved := by
    unfold destinations; by_cases h2 : cfg.logFile = true <;> simp [h2]
  unfold runAlgorithm
  simp only
  cases hb : body (destinations cfg out r w).1 r.prints r.raises (destinations cfg out r w).2 with
  | mk w1 e1 =>
    obtain ⟨hc1, hs1⟩ := body_closed hc2 hb
    have hcl := (writer_close (destinations cfg out r w).1 w1).2 out hm hc1
    refine ⟨w1, ?_, hs1.trans hsv⟩
    unfold tryFinally
    simp only [hcl]
    rfl

theorem loop_closed {cfg : Config} {out : Nat} (hl : cfg.logStdout = true) (hq : cfg.quiet = true)
    (rs : List AlgRun) {w : World} (hlt : out < w.next) (hc : (w.streams out).closed = true)
    (hex : ∃ r ∈ rs, r.skip = false) :
    ∃ w', loop cfg out rs w = (w', some .valueError) ∧ w'.saved = w.saved := by
  induction rs with
  | nil => obtain ⟨_, h, _⟩ := hex; cases h
  | cons r rs ih =>
    unfold loop
    cases hs : r.skip with
    | true =>
      rw [if_pos rfl]
      unfold notice
      rw [if_pos hq, andThen_none]
      apply ih
      obtain ⟨x, hx, hxs⟩ := hex
      rcases List.mem_cons.1 hx with e | e
      · subst e; rw [hs] at hxs; cases hxs
      · exact ⟨x, e, hxs⟩
    | false =>
      rw [if_neg (by simp)]
      obtain ⟨w', e, hsv⟩ := runAlgorithm_closed (r := r) hl hlt hc
      rw [e]
      exact ⟨w', rfl, hsv⟩

theorem first_run_closes {cfg : Config} {out : Nat} {r : AlgRun} {w : World} (h : Ready out w)
    (h0 : out ≠ 0) (hl : cfg.logStdout = true) (hr : r.raises = none) :
    ∃ w', tryFinally (body (destinations cfg out r w).1 r.prints r.raises (destinations cfg out r w).2)
        (closeAll (destinations cfg out r w).1) = (w', none) ∧
      w'.streams out = ⟨(w.streams out).text ++ r.prints.flatten, true⟩ ∧ w'.saved = w.saved ∧
      out < w'.next := by
  have hlt := h.exists_
  have hm : out ∈ (destinations cfg out r w).1 := by
    unfold destinations; by_cases h2 : cfg.logFile = true <;> simp [h2, hl]
  have hs : (destinations cfg out r w).2.streams out = w.streams out := by
    unfold destinations
    by_cases h2 : cfg.logFile = true
    · simp only [h2, if_true]
      rw [Function.update_of_ne (by omega)]
    · simp [h2]
  have hsv : (destinations cfg out r w).2.saved = w.saved := by
    unfold destinations; by_cases h2 : cfg.logFile = true <;> simp [h2]
  have hnx : out < (destinations cfg out r w).2.next := by
    unfold destinations
    by_cases h2 : cfg.logFile = true <;> simp [h2] <;> omega
  have hopen : ∀ f ∈ (destinations cfg out r w).1, ((destinations cfg out r w).2.streams f).closed = false := by
    intro f hf
    by_cases he : f = out
    · subst he; rw [hs]; exact h.isOpen
    · unfold destinations at hf ⊢
      by_cases h2 : cfg.logFile = true
      · simp [h2, hl, he] at hf
        simp [h2, hf]
      · simp [h2, hl, he] at hf
  have hnd : (destinations cfg out r w).1.Nodup := by
    unfold destinations
    have : out ≠ w.next := by omega
    by_cases h2 : cfg.logFile = true <;> simp [h2, hl, this]
  rw [body_open _ hnd r.prints r.raises _ hopen]
  unfold tryFinally
  have hcl := (writer_close (destinations cfg out r w).1 _).1
    (written_open (s := r.prints.flatten) (w := (destinations cfg out r w).2))
  simp only [hcl]
  refine ⟨_, congrArg _ hr, ?_, hsv, hnx⟩
  simp [hm, h0, written, hs]

/-- **C79, finding: a redirected console is closed.**  If `sys.stdout` is not `sys.__stdout__` (output
captured or redirected inside Python) and runs are logged to it (the default), then the first run
that ends closes it: its data point is saved, and then the experiment ends with `ValueError`, unless
it is quiet and no further run follows. -/
theorem redirected_console_closed {cfg : Config} {out : Nat} {w : World} (h : Ready out w)
    (h0 : out ≠ 0) (hl : cfg.logStdout = true) (pre post : List AlgRun) (r : AlgRun)
    (hpre : ∀ x ∈ pre, x.skip = true) (hs : r.skip = false) (hr : r.raises = none) :
    ∃ w', experiment cfg out (pre ++ r :: post) w =
        (w', if cfg.quiet && post.all (·.skip) then none else some .valueError) ∧
      w'.saved = w.saved ++ (if cfg.save then [r.id] else []) := by
  -- the messages before the first run
  have hloop : ∀ (pre : List AlgRun) {w : World}, Ready out w → (∀ x ∈ pre, x.skip = true) →
      ∃ w1, Ready out w1 ∧ w1.saved = w.saved ∧
        loop cfg out (pre ++ r :: post) w = loop cfg out (r :: post) w1 := by
    intro pre
    induction pre with
    | nil => intro w h _; exact ⟨w, h, rfl, rfl⟩
    | cons x pre ih =>
      intro w h hx
      have d1 := did_written (message cfg ("Skipped ".toList ++ x.id ++ ['.'])) h
      obtain ⟨w1, hr1, hs1, e1⟩ := ih d1.ready (fun y hy => hx y (by simp [hy]))
      refine ⟨w1, hr1, by rw [hs1, d1.saved, List.append_nil], ?_⟩
      rw [List.cons_append]
      conv_lhs => unfold loop
      rw [if_pos (hx x (by simp)), notice_open h.isOpen, andThen_none, e1]
  have d1 := did_written (message cfg "Experiment begins.".toList) h
  obtain ⟨w1, hr1, hs1, e1⟩ := hloop pre d1.ready hpre
  obtain ⟨w2, e2, hst, hsv, hlt⟩ := first_run_closes (r := r) hr1 h0 hl hr
  have hsv2 : w2.saved = w.saved := by rw [hsv, hs1, d1.saved, List.append_nil]
  unfold experiment
  rw [notice_open h.isOpen, andThen_none]
  simp only [e1]
  unfold loop
  rw [if_neg (by simp [hs])]
  unfold runAlgorithm
  simp only [e2]
  rw [andThen_none]
  set w3 : World := if cfg.save then { w2 with saved := w2.saved ++ [r.id] } else w2 with hw3
  have hst3 : (w3.streams out).closed = true := by
    rw [hw3]; by_cases h1 : cfg.save = true <;> simp [h1, hst]
  have hsv3 : w3.saved = w.saved ++ (if cfg.save then [r.id] else []) := by
    rw [hw3]; by_cases h1 : cfg.save = true <;> simp [h1, hsv2]
  have hlt3 : out < w3.next := by
    rw [hw3]; by_cases h1 : cfg.save = true <;> simp [h1, hlt]
  cases hq : cfg.quiet with
  | false =>
    rw [notice_closed hq hst3]
    exact ⟨w3, by simp [andThen_some], hsv3⟩
  | true =>
    have hn : ∀ s w, notice cfg out s w = (w, none) := by
      intro s w; unfold notice; rw [if_pos hq]
    rw [hn, andThen_none]
    by_cases hp : ∀ x ∈ post, x.skip = true
    · rw [loop_skipped post hp hq, andThen_none, hn]
      refine ⟨w3, ?_, hsv3⟩
      rw [if_pos]
      simpa using hp
    · have hex : ∃ x ∈ post, x.skip = false := by
        by_contra hno
        apply hp
        intro x hx
        cases hxs : x.skip with
        | true => rfl
        | false => exact absurd ⟨x, hx, hxs⟩ hno
      obtain ⟨w4, e4, hs4⟩ := loop_closed hl hq post hlt3 hst3 hex
      rw [e4, andThen_some]
      refine ⟨w4, ?_, by rw [hs4, hsv3]⟩
      rw [if_neg]
      simpa using hex

/-! ## Examples -/

/-- Only the console (number 0), or the console and a stream that replaces it (number 1). (Example.) -/
def exWorld (n : Nat) : World := ⟨fun _ => ⟨[], false⟩, n, fun _ => none, []⟩

/-- The hypotheses of the theorems are met. -/
example : Ready 0 (exWorld 1) ∧ Ready 1 (exWorld 2) :=
  ⟨⟨by decide, rfl, fun _ _ h => by cases h⟩, ⟨by decide, rfl, fun _ _ h => by cases h⟩⟩

/-- Three runs, the second skipped, the third fails after it has printed something. (Example.) -/
def exRuns : List AlgRun :=
  [⟨"a".toList, false, ["x".toList, "y".toList], none, "A".toList⟩,
   ⟨"b".toList, true, ["no".toList], none, "B".toList⟩,
   ⟨"c".toList, false, ["z".toList], some .keyError, "C".toList⟩]

example : console ⟨true, true, true, false⟩ exRuns =
    "Experiment begins.\nxyA\nSkipped b.\nz".toList := by decide +kernel
example : outcome exRuns = some .keyError := by decide +kernel
example : logAfter ⟨true, true, true, false⟩ exRuns none "a".toList = some "xy".toList ∧
    logAfter ⟨true, true, true, false⟩ exRuns none "b".toList = none ∧
    logAfter ⟨true, true, true, false⟩ exRuns none "c".toList = some "z".toList := by decide +kernel
example : savedBy ⟨true, true, true, false⟩ exRuns = ["a".toList] := by decide +kernel

/-- The model computes the same. -/
example : ((experiment ⟨true, true, true, false⟩ 0 exRuns (exWorld 1)).1.streams 0).text =
    "Experiment begins.\nxyA\nSkipped b.\nz".toList := by decide +kernel

/-- With `sys.stdout` replaced (number 1) the experiment ends after the first run. -/
example : (experiment ⟨true, false, true, false⟩ 1 exRuns (exWorld 2)).2 = some .valueError := by
  decide +kernel

end Mbtk.RunLogs
