import Verif.Stats.CiText
/-!
# Printing from several processes (C115)

`mbtk/utilities/mpprint.py`: every line gets the number of its process in front, and a lock shared by the
processes is held from before the line is put together until it has been flushed.

Modelled: any number of processes, each making any series of calls of `mpprint`, each with its own buffer for
`sys.stdout`, all writing to the same file or terminal.  A schedule says which process makes which step; parts of
a buffer may be written out before the flush, processes may be killed, and an argument may be something other than a
text.  Not modelled: output that is not made with `mpprint`.
-/
namespace Mbtk.Mpprint
open Mbtk.Dataset Mbtk.Dataset.Rcv Mbtk.CiResult

/-! ## Model: the text -/

/-- The characters at which `splitlines` breaks. (Python itself.) -/
def breaks : List Char :=
  ['\n', '\r', '\x0b', '\x0c', '\x1c', '\x1d', '\x1e', Char.ofNat 0x85, Char.ofNat 0x2028, Char.ofNat 0x2029]

/-- `text.splitlines()`. (Python itself.) -/
def splitlines : Str → List Str
  | [] => []
  | '\r' :: '\n' :: t => [] :: splitlines t
  | c :: t =>
    if c ∈ breaks then [] :: splitlines t
    else match splitlines t with
      | [] => [[c]]
      | l :: ls => (c :: l) :: ls

/-- `'P{pid:<6} :|\t'`: mpprint.py 6. -/
def tag (pid : Nat) : Str := 'P' :: (padRight 6 (idLabel pid) ++ [' ', ':', '|', '\t'])

/-- `prepend_pid(text)`: mpprint.py 15-17. -/
def prependPid (pid : Nat) (text : Str) : Str :=
  List.intercalate ['\n'] ((splitlines text).map (fun line => tag pid ++ line))

/-- What `print(prepend_pid(text))` writes: mpprint.py 10. -/
def block (pid : Nat) (text : Str) : Str := prependPid pid text ++ ['\n']

/-! ## Model: the processes -/

/-- Where a process is in `mpprint`: mpprint.py 8-12. -/
inductive Pc where
  /-- not in `mpprint` -/
  | idle
  /-- after `acquire()` -/
  | inside
  /-- after `print(…)` -/
  | printed
  /-- after `sys.stdout.flush()` -/
  | flushed
  /-- killed -/
  | dead
  deriving DecidableEq, Repr

/-- A process with the arguments of the calls still to be made (`none`: not a text) and the buffer of its
`sys.stdout`: mpprint.py 8-12. -/
structure Proc where
  pid : Nat
  todo : List (Option Str)
  pc : Pc
  buffer : Str
  deriving DecidableEq, Repr

/-- The processes, `mpprint_lock` and what has been written: mpprint.py 5. -/
structure Sys where
  lock : Bool
  out : Str
  procs : List Proc
  deriving DecidableEq, Repr

/-- What a process can do next: mpprint.py 8-17.  `spill k` writes out the first `k` characters of the buffer
before the flush. -/
inductive Act where
  | acquire
  | write
  /-- `text.splitlines` raises `AttributeError`; the caller may catch it -/
  | fail
  | spill (k : Nat)
  | flush
  | release
  | kill
  deriving DecidableEq, Repr

/-- One step of process number `i`; `none` if it cannot be made: mpprint.py 8-12. -/
def step (s : Sys) (i : Nat) (a : Act) : Option Sys :=
  match s.procs[i]? with
  | none => none
  | some p =>
    match a with
    | .acquire =>
      if p.pc = .idle ∧ p.todo ≠ [] ∧ s.lock = false then
        some { s with lock := true, procs := s.procs.set i { p with pc := .inside } }
      else none
    | .write =>
      match p.pc, p.todo with
      | .inside, some t :: _ =>
        some { s with procs := s.procs.set i { p with pc := .printed, buffer := p.buffer ++ block p.pid t } }
      | _, _ => none
    | .fail =>
      match p.pc, p.todo with
      | .inside, none :: rest => some { s with procs := s.procs.set i { p with pc := .idle, todo := rest } }
      | _, _ => none
    | .spill k =>
      if p.pc ≠ .dead ∧ 0 < k ∧ k ≤ p.buffer.length then
        some { s with out := s.out ++ p.buffer.take k, procs := s.procs.set i { p with buffer := p.buffer.drop k } }
      else none
    | .flush =>
      if p.pc = .printed then
        some { s with out := s.out ++ p.buffer, procs := s.procs.set i { p with pc := .flushed, buffer := [] } }
      else none
    | .release =>
      if p.pc = .flushed then
        some { s with lock := false, procs := s.procs.set i { p with pc := .idle, todo := p.todo.tail } }
      else none
    | .kill =>
      if p.pc ≠ .dead then some { s with procs := s.procs.set i { p with pc := .dead, buffer := [] } } else none

/-- A schedule; `none` if one of its steps cannot be made: mpprint.py 8-12. -/
def run (s : Sys) : List (Nat × Act) → Option Sys
  | [] => some s
  | (i, a) :: rest =>
    match step s i a with
    | none => none
    | some s' => run s' rest

/-! ## Specification -/

/-- Nothing has happened yet, and the processes have different numbers. (Specification.) -/
structure Started (s : Sys) : Prop where
  lock : s.lock = false
  out : s.out = []
  idle : ∀ (i : Nat) (p : Proc), s.procs[i]? = some p → p.pc = .idle ∧ p.buffer = []
  pids : ∀ (i j : Nat) (p q : Proc), s.procs[i]? = some p → s.procs[j]? = some q → p.pid = q.pid → i = j

/-- The texts among arguments. (Specification.) -/
def texts (l : List (Option Str)) : List Str := l.filterMap id

/-- The texts that process number `pid` printed, of the calls made. (Specification.) -/
def callsOf (calls : List (Nat × Str)) (pid : Nat) : List Str :=
  (calls.filter (fun c => c.1 = pid)).map (·.2)

/-- What a reader of the output takes for lines of a process: the lines that begin with its tag. (Specification.) -/
def linesFrom (pid : Nat) (out : Str) : List Str :=
  (splitlines out).filterMap (fun l => if (tag pid).isPrefixOf l then some (l.drop (tag pid).length) else none)

/-! ## Splitting lines -/

theorem splitlines_cons {c : Char} (h : c ≠ '\r') (t : Str) : splitlines (c :: t) =
    if c ∈ breaks then [] :: splitlines t
    else match splitlines t with
      | [] => [[c]]
      | l :: ls => (c :: l) :: ls := by
  rw [splitlines.eq_def]
  split
  · rename_i e; cases e
  · rename_i e; exact absurd (List.cons.inj e).1 h
  · rename_i e
    obtain ⟨rfl, rfl⟩ := List.cons.inj e
    rfl

theorem splitlines_line {l : Str} (h : ∀ c ∈ l, c ∉ breaks) (t : Str) :
    splitlines (l ++ '\n' :: t) = l :: splitlines t := by
  induction l with
  | nil => rw [List.nil_append, splitlines_cons (by decide), if_pos (by decide)]
  | cons c l ih =>
    have hc := h c (by simp)
    have hr : c ≠ '\r' := by rintro rfl; exact hc (by decide)
    rw [List.cons_append, splitlines_cons hr, if_neg hc, ih (fun d hd => h d (by simp [hd]))]

theorem splitlines_clean (s : Str) : ∀ l ∈ splitlines s, ∀ c ∈ l, c ∉ breaks := by
  fun_induction splitlines s with
  | case1 => simp
  | case2 t ih =>
    intro l hl
    rcases List.mem_cons.1 hl with rfl | hl
    · simp
    · exact ih l hl
  | case3 c t _ hc ih =>
    intro l hl
    rcases List.mem_cons.1 hl with rfl | hl
    · simp
    · exact ih l hl
  | case4 c t _ hc e ih =>
    intro l hl d hd
    rw [List.mem_singleton.1 hl] at hd
    rw [List.mem_singleton.1 hd]
    exact hc
  | case5 c t _ hc l0 ls e ih =>
    intro l hl d hd
    rcases List.mem_cons.1 hl with rfl | hl
    · rcases List.mem_cons.1 hd with rfl | hd
      · exact hc
      · exact ih l0 (by rw [e]; simp) d hd
    · exact ih l (by rw [e]; simp [hl]) d hd

theorem tag_clean (pid : Nat) : ∀ c ∈ tag pid, c ∉ breaks := by
  intro c hc
  unfold tag padRight at hc
  rcases List.mem_cons.1 hc with rfl | hc
  · decide
  · rcases List.mem_append.1 hc with hc | hc
    · rcases List.mem_append.1 hc with hc | hc
      · have hd : c.isDigit = true := Mbtk.Dataset.Rcv.idLabel_digit pid c hc
        intro hb
        revert hd
        simp only [breaks, List.mem_cons, List.not_mem_nil, or_false] at hb
        rcases hb with rfl | rfl | rfl | rfl | rfl | rfl | rfl | rfl | rfl | rfl <;> decide
      · rw [(List.mem_replicate.1 hc).2]; decide
    · simp only [List.mem_cons, List.not_mem_nil, or_false] at hc
      rcases hc with rfl | rfl | rfl | rfl <;> decide

/-- The lines of what one call prints: an empty line if the text has none. (Specification.) -/
def printedLines (pid : Nat) (text : Str) : List Str :=
  if splitlines text = [] then [[]] else (splitlines text).map (fun l => tag pid ++ l)

theorem splitlines_block (pid : Nat) (text t : Str) :
    splitlines (block pid text ++ t) = printedLines pid text ++ splitlines t := by
  unfold block prependPid printedLines
  have hall : ∀ l ∈ (splitlines text).map (fun l => tag pid ++ l), ∀ c ∈ l, c ∉ breaks := by
    intro l hl c hc
    obtain ⟨m, hm, rfl⟩ := List.mem_map.1 hl
    rcases List.mem_append.1 hc with hc | hc
    · exact tag_clean pid c hc
    · exact splitlines_clean text m hm c hc
  have key : ∀ ls : List Str, ls ≠ [] → (∀ l ∈ ls, ∀ c ∈ l, c ∉ breaks) →
      splitlines (List.intercalate ['\n'] ls ++ ['\n'] ++ t) = ls ++ splitlines t := by
    intro ls
    induction ls with
    | nil => intro h; exact absurd rfl h
    | cons l ls ih =>
      intro _ h
      cases ls with
      | nil =>
        have : List.intercalate ['\n'] [l] = l := by simp [List.intercalate]
        rw [this, List.append_assoc]
        exact splitlines_line (h l (by simp)) t
      | cons m ls =>
        have : List.intercalate ['\n'] (l :: m :: ls) = l ++ '\n' :: List.intercalate ['\n'] (m :: ls) := by
          simp [List.intercalate, List.intersperse]
        rw [this, List.append_assoc, List.append_assoc, List.cons_append, splitlines_line (h l (by simp))]
        have := ih (by simp) (fun l' hl' => h l' (by simp [hl']))
        rw [List.append_assoc] at this
        rw [this]; rfl
  by_cases h : splitlines text = []
  · rw [if_pos h, h]
    show splitlines ('\n' :: t) = _
    exact splitlines_line (l := []) (by simp) t
  · rw [if_neg h]
    exact key _ (by simpa using h) hall

theorem splitlines_blocks (calls : List (Nat × Str)) :
    splitlines (calls.flatMap (fun c => block c.1 c.2)) = calls.flatMap (fun c => printedLines c.1 c.2) := by
  induction calls with
  | nil => rfl
  | cons c calls ih => rw [List.flatMap_cons, List.flatMap_cons, splitlines_block, ih]

theorem tag_shape (pid : Nat) : ∃ u, tag pid = 'P' :: (idLabel pid ++ ' ' :: u) := by
  refine ⟨List.replicate (6 - (idLabel pid).length) ' ' ++ [':', '|', '\t'], ?_⟩
  unfold tag padRight
  have h : ∀ n (w : Str), List.replicate n ' ' ++ ' ' :: w = ' ' :: (List.replicate n ' ' ++ w) := by
    intro n w
    induction n with
    | zero => rfl
    | succ n ih => rw [List.replicate_succ, List.cons_append, ih]; rfl
  rw [List.append_assoc, h]

theorem tag_prefix {p q : Nat} {l : Str} (h : tag p <+: tag q ++ l) : p = q := by
  obtain ⟨u, hu⟩ := h
  obtain ⟨a, ha⟩ := tag_shape p
  obtain ⟨b, hb⟩ := tag_shape q
  rw [ha, hb] at hu
  simp only [List.cons_append, List.append_assoc, List.cons.injEq, true_and] at hu
  have hn : ∀ n, ' ' ∉ idLabel n := by
    intro n hm
    have := Mbtk.Dataset.Rcv.idLabel_digit n _ hm
    revert this; decide
  exact idLabel_injective (sep_inj (hn p) (hn q) hu).1

theorem linesFrom_blocks (calls : List (Nat × Str)) (pid : Nat) :
    linesFrom pid (calls.flatMap (fun c => block c.1 c.2)) = (callsOf calls pid).flatMap splitlines := by
  unfold linesFrom callsOf
  rw [splitlines_blocks]
  induction calls with
  | nil => rfl
  | cons c calls ih =>
    rw [List.flatMap_cons, List.filterMap_append, ih, List.filter_cons]
    have one : ∀ l : Str, (if (tag pid).isPrefixOf (tag c.1 ++ l) then some ((tag c.1 ++ l).drop (tag pid).length) else none)
        = if c.1 = pid then some l else none := by
      intro l
      by_cases h : c.1 = pid
      · subst h
        rw [if_pos (List.isPrefixOf_iff_prefix.2 ⟨l, rfl⟩), if_pos rfl, List.drop_left]
      · rw [if_neg h, if_neg]
        intro hp
        exact h (tag_prefix (List.isPrefixOf_iff_prefix.1 hp)).symm
    have first : (printedLines c.1 c.2).filterMap
        (fun l => if (tag pid).isPrefixOf l then some (l.drop (tag pid).length) else none) =
        if c.1 = pid then splitlines c.2 else [] := by
      unfold printedLines
      by_cases he : splitlines c.2 = []
      · rw [if_pos he, he]
        have : tag pid ≠ [] := by unfold tag; simp
        simp [this]
      · rw [if_neg he, List.filterMap_map]
        have : ((fun l => if (tag pid).isPrefixOf l then some (l.drop (tag pid).length) else none) ∘
            fun l => tag c.1 ++ l) = fun l => if c.1 = pid then some l else none := by
          funext l; exact one l
        rw [this]
        by_cases h : c.1 = pid
        · simp [h]
        · simp [h]
    rw [first]
    by_cases h : c.1 = pid
    · simp [h]
    · simp [h]

/-! ## The invariant -/

/-- Between `acquire()` and the end of `release()`. (Models no code: a notion for statements and proofs.) -/
def Active (p : Proc) : Prop := p.pc = .inside ∨ p.pc = .printed ∨ p.pc = .flushed

/-- How far a process has come with what it prints. (Models no code: a notion for statements and proofs.) -/
def Phase (p : Proc) (part : Str) : Prop :=
  (p.pc = .inside → p.buffer = [] ∧ part = []) ∧
  (p.pc = .printed → ∃ t rest, p.todo = some t :: rest ∧ part ++ p.buffer = block p.pid t) ∧
  (p.pc = .flushed → ∃ t rest, p.todo = some t :: rest ∧ p.buffer = [] ∧ part = block p.pid t) ∧
  (¬ Active p → p.buffer = [])

/-- What always holds. (Models no code: a notion for statements and proofs.) -/
structure Inv (s0 s : Sys) (calls : List (Nat × Str)) (part : Str) : Prop where
  out : s.out = calls.flatMap (fun c => block c.1 c.2) ++ part
  progress : ∀ (i : Nat) (p : Proc), s.procs[i]? = some p → ∃ p0 : Proc, s0.procs[i]? = some p0 ∧ p.pid = p0.pid ∧
    callsOf calls p.pid ++ texts p.todo = texts p0.todo
  single : ∀ (i j : Nat) (p q : Proc), s.procs[i]? = some p → s.procs[j]? = some q → Active p → Active q → i = j
  locked : ∀ (i : Nat) (p : Proc), s.procs[i]? = some p → Active p → s.lock = true
  phase : ∀ (i : Nat) (p : Proc), s.procs[i]? = some p → Phase p part
  free : s.lock = false → part = []
  owner : part = [] ∨ ∃ (i : Nat) (p : Proc) (t : Str) (rest : List (Option Str)), s.procs[i]? = some p ∧ p.todo = some t :: rest ∧ part <+: block p.pid t
  back : ∀ (i : Nat) (p0 : Proc), s0.procs[i]? = some p0 → ∃ p : Proc, s.procs[i]? = some p

theorem set_get {l : List Proc} {i : Nat} {p : Proc} (h : l[i]? = some p) (p' : Proc) (j : Nat) :
    (l.set i p')[j]? = if j = i then some p' else l[j]? := by
  obtain ⟨hi, -⟩ := List.getElem?_eq_some_iff.1 h
  rw [List.getElem?_set]
  by_cases e : i = j
  · rw [if_pos e, if_pos hi, if_pos e.symm]
  · rw [if_neg e, if_neg (fun h => e h.symm)]

theorem inv_step {s0 s : Sys} {calls calls' : List (Nat × Str)} {part part' : Str} (h : Inv s0 s calls part)
    (h0 : Started s0) {i : Nat} {p p' : Proc} (hp : s.procs[i]? = some p) (lock' : Bool) (out' : Str)
    (alone : Active p ∨ s.lock = false) (hpid : p'.pid = p.pid)
    (hout : out' = calls'.flatMap (fun c => block c.1 c.2) ++ part')
    (hmine : ∀ p0 : Proc, callsOf calls p.pid ++ texts p.todo = texts p0.todo →
      callsOf calls' p.pid ++ texts p'.todo = texts p0.todo)
    (hothers : ∀ q, q ≠ p.pid → callsOf calls' q = callsOf calls q)
    (hlock : Active p' → lock' = true) (hphase : Phase p' part') (hfree : lock' = false → part' = [])
    (howner : part' = [] ∨ ∃ t rest, p'.todo = some t :: rest ∧ part' <+: block p'.pid t) :
    Inv s0 ⟨lock', out', s.procs.set i p'⟩ calls' part' := by
  have others : ∀ j q, j ≠ i → s.procs[j]? = some q → ¬ Active q := by
    intro j q hj hq ha
    rcases alone with ha' | hl
    · exact hj (h.single j i q p hq hp ha ha')
    · have := h.locked j q hq ha; rw [hl] at this; cases this
  refine ⟨hout, ?_, ?_, ?_, ?_, hfree, ?_, ?_⟩
  · intro j q hq
    rw [set_get hp] at hq
    by_cases hj : j = i
    · rw [if_pos hj] at hq
      obtain rfl := Option.some.inj hq
      obtain ⟨p0, e0, e1, e2⟩ := h.progress i p hp
      exact ⟨p0, by rw [hj]; exact e0, hpid.trans e1, by rw [hpid]; exact hmine p0 e2⟩
    · rw [if_neg hj] at hq
      obtain ⟨q0, e0, e1, e2⟩ := h.progress j q hq
      refine ⟨q0, e0, e1, ?_⟩
      rw [hothers q.pid, e2]
      intro e
      obtain ⟨p0, f0, f1, -⟩ := h.progress i p hp
      exact hj (h0.pids j i q0 p0 e0 f0 (by rw [← e1, ← f1, e]))
  · intro j k q r hq hr ha hb
    rw [set_get hp] at hq hr
    by_cases hj : j = i
    · by_cases hk : k = i
      · rw [hj, hk]
      · rw [if_neg hk] at hr; exact absurd hb (others k r hk hr)
    · rw [if_neg hj] at hq; exact absurd ha (others j q hj hq)
  · intro j q hq ha
    rw [set_get hp] at hq
    by_cases hj : j = i
    · rw [if_pos hj] at hq; obtain rfl := Option.some.inj hq; exact hlock ha
    · rw [if_neg hj] at hq; exact absurd ha (others j q hj hq)
  · intro j q hq
    rw [set_get hp] at hq
    by_cases hj : j = i
    · rw [if_pos hj] at hq; obtain rfl := Option.some.inj hq; exact hphase
    · rw [if_neg hj] at hq
      have hn := others j q hj hq
      have hb := (h.phase j q hq).2.2.2 hn
      exact ⟨fun e => absurd (.inl e) hn, fun e => absurd (.inr (.inl e)) hn, fun e => absurd (.inr (.inr e)) hn,
        fun _ => hb⟩
  · rcases howner with e | ⟨t, rest, e1, e2⟩
    · exact .inl e
    · exact .inr ⟨i, p', t, rest, by rw [set_get hp, if_pos rfl], e1, e2⟩
  · intro j p0 hj
    obtain ⟨q, hq⟩ := h.back j p0 hj
    by_cases e : j = i
    · exact ⟨p', by rw [set_get hp, if_pos e]⟩
    · exact ⟨q, by rw [set_get hp, if_neg e]; exact hq⟩

theorem callsOf_append (calls : List (Nat × Str)) (c : Nat × Str) (q : Nat) :
    callsOf (calls ++ [c]) q = callsOf calls q ++ if c.1 = q then [c.2] else [] := by
  unfold callsOf
  rw [List.filter_append, List.map_append]
  by_cases h : c.1 = q
  · simp [h]
  · simp [h]

theorem inv_start {s0 : Sys} (h : Started s0) : Inv s0 s0 [] [] := by
  have hn : ∀ (i : Nat) (p : Proc), s0.procs[i]? = some p → ¬ Active p := by
    intro i p hp ha
    have := (h.idle i p hp).1
    rcases ha with e | e | e <;> rw [this] at e <;> cases e
  refine ⟨by rw [h.out]; rfl, fun i p hp => ⟨p, hp, rfl, rfl⟩, fun i j p q hp _ ha => absurd ha (hn i p hp),
    fun i p hp ha => absurd ha (hn i p hp), ?_, fun _ => rfl, .inl rfl, fun i p hp => ⟨p, hp⟩⟩
  intro i p hp
  have hni := hn i p hp
  exact ⟨fun e => absurd (.inl e) hni, fun e => absurd (.inr (.inl e)) hni, fun e => absurd (.inr (.inr e)) hni,
    fun _ => (h.idle i p hp).2⟩

/-- Every step keeps the invariant; `release` adds the call to the finished ones. -/
theorem inv_preserved {s0 s s' : Sys} {calls : List (Nat × Str)} {part : Str} (h0 : Started s0)
    (h : Inv s0 s calls part) {i : Nat} {a : Act} (hs : step s i a = some s') :
    ∃ calls' part', Inv s0 s' calls' part' := by
  unfold step at hs
  cases hp : s.procs[i]? with
  | none => rw [hp] at hs; cases hs
  | some p =>
    rw [hp] at hs
    have ph := h.phase i p hp
    cases a with
    | acquire =>
      simp only [] at hs
      by_cases hc : p.pc = .idle ∧ p.todo ≠ [] ∧ s.lock = false
      · rw [if_pos hc] at hs
        obtain rfl := Option.some.inj hs
        have hpart := h.free hc.2.2
        have hb : p.buffer = [] := ph.2.2.2 (by rintro (e | e | e) <;> rw [hc.1] at e <;> cases e)
        refine ⟨calls, part, inv_step h h0 hp true s.out (.inr hc.2.2) rfl h.out (fun _ e => e) (fun _ _ => rfl)
          (fun _ => rfl) ?_ (fun e => by cases e) (.inl hpart)⟩
        refine ⟨fun _ => ⟨hb, hpart⟩, fun e => (by cases e), fun e => (by cases e), fun _ => hb⟩
      · rw [if_neg hc] at hs; cases hs
    | write =>
      simp only [] at hs
      cases hpc : p.pc with
      | inside =>
        cases ht : p.todo with
        | nil => rw [hpc, ht] at hs; cases hs
        | cons o rest =>
          cases o with
          | none => rw [hpc, ht] at hs; cases hs
          | some t =>
            rw [hpc, ht] at hs
            obtain rfl := Option.some.inj hs
            have ha : Active p := .inl hpc
            obtain ⟨hb, hpart⟩ := ph.1 hpc
            refine ⟨calls, part, inv_step h h0 hp s.lock s.out (.inl ha) rfl h.out (fun _ e => by rw [ht] at e; exact e) (fun _ _ => rfl)
              (fun _ => h.locked i p hp ha) ?_ h.free (.inl hpart)⟩
            refine ⟨fun e => (by cases e), fun _ => ⟨t, rest, rfl, ?_⟩, fun e => (by cases e), fun e => ?_⟩
            · rw [hpart, hb]; rfl
            · exact absurd (.inr (.inl rfl)) e
      | idle => rw [hpc] at hs; cases hs
      | printed => rw [hpc] at hs; cases hs
      | flushed => rw [hpc] at hs; cases hs
      | dead => rw [hpc] at hs; cases hs
    | fail =>
      simp only [] at hs
      cases hpc : p.pc with
      | inside =>
        cases ht : p.todo with
        | nil => rw [hpc, ht] at hs; cases hs
        | cons o rest =>
          cases o with
          | some t => rw [hpc, ht] at hs; cases hs
          | none =>
            rw [hpc, ht] at hs
            obtain rfl := Option.some.inj hs
            have ha : Active p := .inl hpc
            obtain ⟨hb, hpart⟩ := ph.1 hpc
            refine ⟨calls, part, inv_step h h0 hp s.lock s.out (.inl ha) rfl h.out ?_ (fun _ _ => rfl)
              ?_ ?_ h.free (.inl hpart)⟩
            · intro p0 e
              rw [ht] at e
              exact e
            · rintro (e | e | e) <;> cases e
            · exact ⟨fun e => (by cases e), fun e => (by cases e), fun e => (by cases e), fun _ => hb⟩
      | idle => rw [hpc] at hs; cases hs
      | printed => rw [hpc] at hs; cases hs
      | flushed => rw [hpc] at hs; cases hs
      | dead => rw [hpc] at hs; cases hs
    | spill k =>
      simp only [] at hs
      by_cases hc : p.pc ≠ .dead ∧ 0 < k ∧ k ≤ p.buffer.length
      · rw [if_pos hc] at hs
        obtain rfl := Option.some.inj hs
        have hne : p.buffer ≠ [] := by
          intro e; rw [e] at hc; simp only [List.length_nil] at hc; omega
        have hpr : p.pc = .printed := by
          cases hpc : p.pc with
          | inside => exact absurd (ph.1 hpc).1 hne
          | printed => rfl
          | flushed => obtain ⟨t, rest, -, e, -⟩ := ph.2.2.1 hpc; exact absurd e hne
          | idle => exact absurd (ph.2.2.2 (by rintro (e | e | e) <;> rw [hpc] at e <;> cases e)) hne
          | dead => exact absurd hpc hc.1
        have ha : Active p := .inr (.inl hpr)
        obtain ⟨t, rest, ht, hb⟩ := ph.2.1 hpr
        have split : (part ++ p.buffer.take k) ++ p.buffer.drop k = block p.pid t := by
          rw [List.append_assoc, List.take_append_drop, hb]
        have hl := h.locked i p hp ha
        refine ⟨calls, part ++ p.buffer.take k, inv_step h h0 hp s.lock _ (.inl ha) rfl ?_ (fun _ e => e) (fun _ _ => rfl)
          (fun _ => hl) ?_ (fun e => ?_) (.inr ⟨t, rest, ht, ⟨_, split⟩⟩)⟩
        · rw [h.out, List.append_assoc]
        · refine ⟨fun e => ?_, fun _ => ⟨t, rest, ht, split⟩, fun e => ?_, fun e => ?_⟩
          · have e : p.pc = .inside := e
            rw [hpr] at e; cases e
          · have e : p.pc = .flushed := e
            rw [hpr] at e; cases e
          · exact absurd (.inr (.inl hpr)) e
        · rw [hl] at e; cases e
      · rw [if_neg hc] at hs; cases hs
    | flush =>
      simp only [] at hs
      by_cases hc : p.pc = .printed
      · rw [if_pos hc] at hs
        obtain rfl := Option.some.inj hs
        have ha : Active p := .inr (.inl hc)
        obtain ⟨t, rest, ht, hb⟩ := ph.2.1 hc
        have hl := h.locked i p hp ha
        refine ⟨calls, part ++ p.buffer, inv_step h h0 hp s.lock _ (.inl ha) rfl ?_ (fun _ e => e) (fun _ _ => rfl)
          (fun _ => hl) ?_ (fun e => ?_) (.inr ⟨t, rest, ht, ?_⟩)⟩
        · rw [h.out, List.append_assoc]
        · refine ⟨fun e => (by cases e), fun e => (by cases e), fun _ => ⟨t, rest, ht, rfl, hb⟩, fun _ => rfl⟩
        · rw [hl] at e; cases e
        · rw [hb]
      · rw [if_neg hc] at hs; cases hs
    | release =>
      simp only [] at hs
      by_cases hc : p.pc = .flushed
      · rw [if_pos hc] at hs
        obtain rfl := Option.some.inj hs
        have ha : Active p := .inr (.inr hc)
        obtain ⟨t, rest, ht, hb, hpart⟩ := ph.2.2.1 hc
        refine ⟨calls ++ [(p.pid, t)], [], inv_step h h0 hp false s.out (.inl ha) rfl ?_ ?_ ?_
          ?_ ?_ (fun _ => rfl) (.inl rfl)⟩
        · rw [h.out, hpart, List.flatMap_append]; simp
        · intro p0 e
          rw [callsOf_append, if_pos rfl, List.append_assoc, ← e, ht]
          rfl
        · intro q hq
          rw [callsOf_append, if_neg (fun e => hq e.symm), List.append_nil]
        · rintro (e | e | e) <;> cases e
        · exact ⟨fun e => (by cases e), fun e => (by cases e), fun e => (by cases e), fun _ => hb⟩
      · rw [if_neg hc] at hs; cases hs
    | kill =>
      simp only [] at hs
      by_cases hc : p.pc ≠ .dead
      · rw [if_pos hc] at hs
        obtain rfl := Option.some.inj hs
        have hnd : ¬ Active { p with pc := .dead, buffer := [] } := by rintro (e | e | e) <;> cases e
        refine ⟨calls, part, h.out, ?_, ?_, ?_, ?_, h.free, ?_, ?_⟩
        · intro j q hq
          rw [set_get hp] at hq
          by_cases hj : j = i
          · rw [if_pos hj] at hq
            obtain rfl := Option.some.inj hq
            rw [hj]; exact h.progress i p hp
          · rw [if_neg hj] at hq; exact h.progress j q hq
        · intro j k q r hq hr ha hb
          rw [set_get hp] at hq hr
          by_cases hj : j = i
          · rw [if_pos hj] at hq; obtain rfl := Option.some.inj hq; exact absurd ha hnd
          · by_cases hk : k = i
            · rw [if_pos hk] at hr; obtain rfl := Option.some.inj hr; exact absurd hb hnd
            · rw [if_neg hj] at hq; rw [if_neg hk] at hr; exact h.single j k q r hq hr ha hb
        · intro j q hq ha
          rw [set_get hp] at hq
          by_cases hj : j = i
          · rw [if_pos hj] at hq; obtain rfl := Option.some.inj hq; exact absurd ha hnd
          · rw [if_neg hj] at hq; exact h.locked j q hq ha
        · intro j q hq
          rw [set_get hp] at hq
          by_cases hj : j = i
          · rw [if_pos hj] at hq; obtain rfl := Option.some.inj hq
            exact ⟨fun e => (by cases e), fun e => (by cases e), fun e => (by cases e), fun _ => rfl⟩
          · rw [if_neg hj] at hq; exact h.phase j q hq
        · rcases h.owner with e | ⟨j, q, t, rest, hq, e1, e2⟩
          · exact .inl e
          · right
            by_cases hj : j = i
            · rw [hj] at hq
              rw [hp] at hq
              obtain rfl := Option.some.inj hq
              exact ⟨i, { p with pc := .dead, buffer := [] }, t, rest, by rw [set_get hp, if_pos rfl], e1, e2⟩
            · exact ⟨j, q, t, rest, by rw [set_get hp, if_neg hj]; exact hq, e1, e2⟩
        · intro j p0 hj
          obtain ⟨q, hq⟩ := h.back j p0 hj
          by_cases e : j = i
          · exact ⟨_, by rw [set_get hp, if_pos e]⟩
          · exact ⟨q, by rw [set_get hp, if_neg e]; exact hq⟩
      · rw [if_neg hc] at hs; cases hs

theorem inv_run {s0 : Sys} (h0 : Started s0) : ∀ (sched : List (Nat × Act)) (s s' : Sys),
    (∃ calls part, Inv s0 s calls part) → run s sched = some s' → ∃ calls part, Inv s0 s' calls part := by
  intro sched
  induction sched with
  | nil => intro s s' h e; obtain rfl := Option.some.inj e; exact h
  | cons x sched ih =>
    intro s s' h e
    obtain ⟨i, a⟩ := x
    unfold run at e
    cases hs : step s i a with
    | none => rw [hs] at e; cases e
    | some s1 =>
      rw [hs] at e
      obtain ⟨calls, part, hi⟩ := h
      exact ih s1 s' (inv_preserved h0 hi hs) e

/-! ## The theorems -/

/-- **C115.**  Whatever the processes print, in whatever order they are scheduled, wherever they are killed or get an
exception: what has been written is a sequence of whole texts, each with its process number in front of every
line, followed at most by the beginning of one more text; and the texts of a process stand there in the order in which it
printed them: those written and those still to be printed are together those of its program. -/
theorem whole_texts (s0 : Sys) (h0 : Started s0) (sched : List (Nat × Act)) (s : Sys) (h : run s0 sched = some s) :
    ∃ (calls : List (Nat × Str)) (part : Str),
      s.out = calls.flatMap (fun c => block c.1 c.2) ++ part ∧
      (part = [] ∨ s.lock = true ∧ ∃ p ∈ s.procs, ∃ (t : Str) (rest : List (Option Str)), p.todo = some t :: rest ∧ part <+: block p.pid t) ∧
      ∀ (i : Nat) (p0 p : Proc), s0.procs[i]? = some p0 → s.procs[i]? = some p →
        p.pid = p0.pid ∧ callsOf calls p.pid ++ texts p.todo = texts p0.todo := by
  obtain ⟨calls, part, hi⟩ := inv_run h0 sched s0 s ⟨[], [], inv_start h0⟩ h
  refine ⟨calls, part, hi.out, ?_, ?_⟩
  · by_cases hp : part = []
    · exact .inl hp
    · right
      refine ⟨?_, ?_⟩
      · cases hl : s.lock with
        | true => rfl
        | false => exact absurd (hi.free hl) hp
      · rcases hi.owner with e | ⟨i, p, t, rest, e0, e1, e2⟩
        · exact absurd e hp
        · exact ⟨p, List.mem_of_getElem? e0, t, rest, e1, e2⟩
  · intro i p0 p hp0 hp
    obtain ⟨q0, e0, e1, e2⟩ := hi.progress i p hp
    rw [hp0] at e0
    obtain rfl := Option.some.inj e0
    exact ⟨e1, e2⟩

/-- **C115.**  Whenever no process holds the lock, the lines of the output that begin with the tag of a process, without
the tag, are exactly the lines of the texts that it has printed so far, in order. -/
theorem lines_read_back (s0 : Sys) (h0 : Started s0) (sched : List (Nat × Act)) (s : Sys) (h : run s0 sched = some s)
    (hl : s.lock = false) (i : Nat) (p0 p : Proc) (hp0 : s0.procs[i]? = some p0) (hp : s.procs[i]? = some p) :
    ∃ printed, printed ++ texts p.todo = texts p0.todo ∧ linesFrom p0.pid s.out = printed.flatMap splitlines := by
  obtain ⟨calls, part, e1, e2, e3⟩ := whole_texts s0 h0 sched s h
  obtain ⟨a1, a2⟩ := e3 i p0 p hp0 hp
  have hpart : part = [] := by
    rcases e2 with e | ⟨e, -⟩
    · exact e
    · rw [hl] at e; cases e
  refine ⟨callsOf calls p.pid, a2, ?_⟩
  rw [e1, hpart, List.append_nil, ← a1]
  exact linesFrom_blocks calls p.pid

/-! ### Everything gets printed -/

/-- All arguments are texts. (Specification.) -/
def AllTexts (s : Sys) : Prop := ∀ (i : Nat) (p : Proc), s.procs[i]? = some p → none ∉ p.todo

/-- No process is killed. (Specification.) -/
def NoKill (sched : List (Nat × Act)) : Prop := ∀ x ∈ sched, x.2 ≠ .kill

/-- Where a run without exceptions and kills is. (Models no code: a notion for statements and proofs.) -/
structure Calm (s : Sys) : Prop where
  texts : AllTexts s
  alive : ∀ (i : Nat) (p : Proc), s.procs[i]? = some p → p.pc ≠ .dead
  held : s.lock = true → ∃ (i : Nat) (p : Proc), s.procs[i]? = some p ∧ Active p
  busy : ∀ (i : Nat) (p : Proc), s.procs[i]? = some p → Active p → p.todo ≠ []

/-- How many steps are left for a call. (Models no code: a notion for statements and proofs.) -/
def cost (pid : Nat) : List (Option Str) → Nat
  | [] => 0
  | none :: l => 2 + cost pid l
  | some t :: l => 4 + (block pid t).length + cost pid l

/-- How many steps are left for a process. (Models no code: a notion for statements and proofs.) -/
def left (p : Proc) : Nat :=
  match p.pc with
  | .idle => cost p.pid p.todo
  | .inside => cost p.pid p.todo - 1
  | .printed => 2 + p.buffer.length + cost p.pid p.todo.tail
  | .flushed => 1 + cost p.pid p.todo.tail
  | .dead => 0

/-- How many steps are left for all. (Models no code: a notion for statements and proofs.) -/
def total (s : Sys) : Nat := (s.procs.map left).sum

theorem sum_set {l : List Proc} {i : Nat} {p : Proc} (h : l[i]? = some p) (p' : Proc) :
    ((l.set i p').map left).sum + left p = (l.map left).sum + left p' := by
  induction l generalizing i with
  | nil => simp at h
  | cons q l ih =>
    cases i with
    | zero =>
      simp only [List.getElem?_cons_zero, Option.some.injEq] at h
      subst h
      simp only [List.set_cons_zero, List.map_cons, List.sum_cons]
      omega
    | succ i =>
      simp only [List.getElem?_cons_succ] at h
      have := ih h
      simp only [List.set_cons_succ, List.map_cons, List.sum_cons]
      omega

theorem calm_step {s0 s s' : Sys} {calls : List (Nat × Str)} {part : Str} (hi : Inv s0 s calls part) (hc : Calm s)
    {i : Nat} {a : Act} (ha : a ≠ .kill) (hs : step s i a = some s') : Calm s' ∧ total s' + 1 ≤ total s := by
  unfold step at hs
  cases hp : s.procs[i]? with
  | none => rw [hp] at hs; cases hs
  | some p =>
    rw [hp] at hs
    have mk : ∀ (lock' : Bool) (out' : Str) (p' : Proc), none ∉ p'.todo → p'.pc ≠ .dead →
        (lock' = true → Active p') → (Active p ∨ s.lock = false) → (Active p' → p'.todo ≠ []) →
        left p' + 1 ≤ left p → Calm ⟨lock', out', s.procs.set i p'⟩ ∧ total ⟨lock', out', s.procs.set i p'⟩ + 1 ≤ total s := by
      intro lock' out' p' h1 h2 h3 h4 h5 h6
      refine ⟨⟨?_, ?_, ?_, ?_⟩, ?_⟩
      · intro j q hq
        rw [set_get hp] at hq
        by_cases hj : j = i
        · rw [if_pos hj] at hq; obtain rfl := Option.some.inj hq; exact h1
        · rw [if_neg hj] at hq; exact hc.texts j q hq
      · intro j q hq
        rw [set_get hp] at hq
        by_cases hj : j = i
        · rw [if_pos hj] at hq; obtain rfl := Option.some.inj hq; exact h2
        · rw [if_neg hj] at hq; exact hc.alive j q hq
      · intro hl
        exact ⟨i, p', by rw [set_get hp, if_pos rfl], h3 hl⟩
      · intro j q hq hact
        rw [set_get hp] at hq
        by_cases hj : j = i
        · rw [if_pos hj] at hq; obtain rfl := Option.some.inj hq; exact h5 hact
        · rw [if_neg hj] at hq; exact hc.busy j q hq hact
      · have := sum_set hp p'
        unfold total
        show ((s.procs.set i p').map left).sum + 1 ≤ (s.procs.map left).sum
        omega
    have htx := hc.texts i p hp
    have ph := hi.phase i p hp
    cases a with
    | acquire =>
      simp only [] at hs
      by_cases hcond : p.pc = .idle ∧ p.todo ≠ [] ∧ s.lock = false
      · rw [if_pos hcond] at hs
        obtain rfl := Option.some.inj hs
        refine mk true s.out _ htx (fun e => by cases e) (fun _ => .inl rfl) (.inr hcond.2.2) (fun _ => hcond.2.1) ?_
        have : 1 ≤ cost p.pid p.todo := by
          cases ht : p.todo with
          | nil => exact absurd ht hcond.2.1
          | cons o l => cases o <;> simp only [cost] <;> omega
        simp only [left, hcond.1]
        omega
      · rw [if_neg hcond] at hs; cases hs
    | write =>
      simp only [] at hs
      cases hpc : p.pc with
      | inside =>
        cases ht : p.todo with
        | nil => rw [hpc, ht] at hs; cases hs
        | cons o rest =>
          cases o with
          | none => rw [hpc, ht] at hs; cases hs
          | some t =>
            rw [hpc, ht] at hs
            obtain rfl := Option.some.inj hs
            have hb := (ph.1 hpc).1
            refine mk s.lock s.out _ (by rw [← ht]; exact htx) (fun e => by cases e) (fun _ => .inr (.inl rfl)) (.inl (.inl hpc))
              (fun _ => by simp) ?_
            simp only [left, hpc, ht, hb, cost, List.tail_cons, List.nil_append]
            omega
      | idle => rw [hpc] at hs; cases hs
      | printed => rw [hpc] at hs; cases hs
      | flushed => rw [hpc] at hs; cases hs
      | dead => rw [hpc] at hs; cases hs
    | fail =>
      simp only [] at hs
      cases hpc : p.pc with
      | inside =>
        cases ht : p.todo with
        | nil => rw [hpc, ht] at hs; cases hs
        | cons o rest =>
          cases o with
          | some t => rw [hpc, ht] at hs; cases hs
          | none => exact absurd (by rw [ht]; simp) htx
      | idle => rw [hpc] at hs; cases hs
      | printed => rw [hpc] at hs; cases hs
      | flushed => rw [hpc] at hs; cases hs
      | dead => rw [hpc] at hs; cases hs
    | spill k =>
      simp only [] at hs
      by_cases hcond : p.pc ≠ .dead ∧ 0 < k ∧ k ≤ p.buffer.length
      · rw [if_pos hcond] at hs
        obtain rfl := Option.some.inj hs
        have hne : p.buffer ≠ [] := by
          intro e; rw [e] at hcond; simp only [List.length_nil] at hcond; omega
        have hpr : p.pc = .printed := by
          cases hpc : p.pc with
          | inside => exact absurd (ph.1 hpc).1 hne
          | printed => rfl
          | flushed => obtain ⟨t, rest, -, e, -⟩ := ph.2.2.1 hpc; exact absurd e hne
          | idle => exact absurd (ph.2.2.2 (by rintro (e | e | e) <;> rw [hpc] at e <;> cases e)) hne
          | dead => exact absurd hpc hcond.1
        refine mk s.lock _ _ htx (fun e => hcond.1 e) (fun _ => .inr (.inl hpr)) (.inl (.inr (.inl hpr)))
          (fun _ => hc.busy i p hp (.inr (.inl hpr))) ?_
        simp only [left, hpr, List.length_drop]
        omega
      · rw [if_neg hcond] at hs; cases hs
    | flush =>
      simp only [] at hs
      by_cases hcond : p.pc = .printed
      · rw [if_pos hcond] at hs
        obtain rfl := Option.some.inj hs
        refine mk s.lock _ _ htx (fun e => by cases e) (fun _ => .inr (.inr rfl)) (.inl (.inr (.inl hcond)))
          (fun _ => hc.busy i p hp (.inr (.inl hcond))) ?_
        simp only [left, hcond]
        omega
      · rw [if_neg hcond] at hs; cases hs
    | release =>
      simp only [] at hs
      by_cases hcond : p.pc = .flushed
      · rw [if_pos hcond] at hs
        obtain rfl := Option.some.inj hs
        refine mk false s.out _ (fun hm => htx (List.mem_of_mem_tail hm)) (fun e => by cases e) (fun e => by cases e)
          (.inl (.inr (.inr hcond))) ?_ ?_
        · rintro (e | e | e) <;> cases e
        · simp only [left, hcond]
          omega
      · rw [if_neg hcond] at hs; cases hs
    | kill => exact absurd rfl ha

theorem calm_run {s0 : Sys} (h0 : Started s0) : ∀ (sched : List (Nat × Act)) (s s' : Sys),
    (∃ calls part, Inv s0 s calls part) → Calm s → NoKill sched → run s sched = some s' →
      Calm s' ∧ total s' + sched.length ≤ total s := by
  intro sched
  induction sched with
  | nil => intro s s' _ hc _ e; obtain rfl := Option.some.inj e; exact ⟨hc, le_refl _⟩
  | cons x sched ih =>
    intro s s' h hc hk e
    obtain ⟨i, a⟩ := x
    unfold run at e
    cases hs : step s i a with
    | none => rw [hs] at e; cases e
    | some s1 =>
      rw [hs] at e
      obtain ⟨calls, part, hi⟩ := h
      obtain ⟨c1, c2⟩ := calm_step hi hc (hk (i, a) (by simp)) hs
      obtain ⟨c3, c4⟩ := ih s1 s' (inv_preserved h0 hi hs) c1 (fun x hx => hk x (by simp [hx])) e
      refine ⟨c3, ?_⟩
      rw [List.length_cons]
      omega

theorem calm_start {s0 : Sys} (h0 : Started s0) (ht : AllTexts s0) : Calm s0 := by
  refine ⟨ht, ?_, ?_, ?_⟩
  · intro i p hp e
    rw [(h0.idle i p hp).1] at e; cases e
  · intro hl; rw [h0.lock] at hl; cases hl
  · intro i p hp ha
    have := (h0.idle i p hp).1
    rcases ha with e | e | e <;> rw [this] at e <;> cases e

/-- **C115.**  If all arguments are texts and no process is killed, then under every schedule printing ends: no schedule has
more than `total s0` steps, and as long as a process still has something to print, some process can make a step;
when none has, the lines of each process can be read back in full. -/
theorem everything_printed (s0 : Sys) (h0 : Started s0) (ht : AllTexts s0) (sched : List (Nat × Act)) (s : Sys)
    (hk : NoKill sched) (h : run s0 sched = some s) :
    sched.length ≤ total s0 ∧
    ((∃ i a, a ≠ .kill ∧ (step s i a).isSome) ∨
      (s.lock = false ∧ ∀ (i : Nat) (p0 : Proc), s0.procs[i]? = some p0 →
        linesFrom p0.pid s.out = (texts p0.todo).flatMap splitlines)) := by
  obtain ⟨hc, hlen⟩ := calm_run h0 sched s0 s ⟨[], [], inv_start h0⟩ (calm_start h0 ht) hk h
  obtain ⟨calls, part, hi⟩ := inv_run h0 sched s0 s ⟨[], [], inv_start h0⟩ h
  refine ⟨by omega, ?_⟩
  cases hl : s.lock with
  | true =>
    left
    obtain ⟨i, p, hp, ha⟩ := hc.held hl
    rcases ha with e | e | e
    · have hb := hc.busy i p hp (.inl e)
      cases htodo : p.todo with
      | nil => exact absurd htodo hb
      | cons o rest =>
        cases o with
        | none => exact absurd (by rw [htodo]; simp) (hc.texts i p hp)
        | some t => exact ⟨i, .write, by decide, by simp only [step, hp, e, htodo, Option.isSome_some]⟩
    · exact ⟨i, .flush, by decide, by simp only [step, hp, e, if_true, Option.isSome_some]⟩
    · exact ⟨i, .release, by decide, by simp only [step, hp, e, if_true, Option.isSome_some]⟩
  | false =>
    by_cases hall : ∃ (i : Nat) (p : Proc), s.procs[i]? = some p ∧ p.todo ≠ []
    · left
      obtain ⟨i, p, hp, hne⟩ := hall
      have hna : ¬ Active p := fun ha => by
        have := hi.locked i p hp ha; rw [hl] at this; cases this
      have hpc : p.pc = .idle := by
        cases hpc : p.pc with
        | idle => rfl
        | inside => exact absurd (.inl hpc) hna
        | printed => exact absurd (.inr (.inl hpc)) hna
        | flushed => exact absurd (.inr (.inr hpc)) hna
        | dead => exact absurd hpc (hc.alive i p hp)
      refine ⟨i, .acquire, by decide, ?_⟩
      simp only [step, hp]
      rw [if_pos ⟨hpc, hne, hl⟩]
      rfl
    · right
      refine ⟨rfl, ?_⟩
      intro i p0 hp0
      obtain ⟨p, hp⟩ := hi.back i p0 hp0
      obtain ⟨printed, e1, e2⟩ := lines_read_back s0 h0 sched s h hl i p0 p hp0 hp
      have hnil : p.todo = [] := by
        by_contra hne
        exact hall ⟨i, p, hp, hne⟩
      rw [hnil] at e1
      have : printed = texts p0.todo := by rw [← e1]; simp [texts]
      rw [e2, this]

/-! ### The lock that is never released -/

/-- The lock is held by nobody who could release it. (Specification.) -/
def Lost (s : Sys) : Prop := s.lock = true ∧ ∀ (i : Nat) (p : Proc), s.procs[i]? = some p → (p.pc = .idle ∨ p.pc = .dead) ∧ p.buffer = []

theorem lost_step {s s' : Sys} (h : Lost s) {i : Nat} {a : Act} (hs : step s i a = some s') :
    a = .kill ∧ Lost s' ∧ s'.out = s.out ∧ ∀ (j : Nat) (q' : Proc), s'.procs[j]? = some q' → ∃ q : Proc, s.procs[j]? = some q ∧ q'.todo = q.todo := by
  unfold step at hs
  cases hp : s.procs[i]? with
  | none => rw [hp] at hs; cases hs
  | some p =>
    rw [hp] at hs
    obtain ⟨hpc, hb⟩ := h.2 i p hp
    cases a with
    | acquire =>
      simp only [] at hs
      rw [if_neg (fun hc => by have := hc.2.2; rw [h.1] at this; cases this)] at hs
      cases hs
    | write => rcases hpc with e | e <;> simp only [e] at hs <;> cases hs
    | fail => rcases hpc with e | e <;> simp only [e] at hs <;> cases hs
    | spill k =>
      simp only [] at hs
      rw [if_neg (fun hc => by rw [hb, List.length_nil] at hc; omega)] at hs
      cases hs
    | flush =>
      simp only [] at hs
      rw [if_neg (fun hc => by rcases hpc with e | e <;> rw [hc] at e <;> cases e)] at hs
      cases hs
    | release =>
      simp only [] at hs
      rw [if_neg (fun hc => by rcases hpc with e | e <;> rw [hc] at e <;> cases e)] at hs
      cases hs
    | kill =>
      simp only [] at hs
      by_cases hc : p.pc ≠ .dead
      · rw [if_pos hc] at hs
        obtain rfl := Option.some.inj hs
        refine ⟨rfl, ⟨h.1, ?_⟩, rfl, ?_⟩
        · intro j q hq
          rw [set_get hp] at hq
          by_cases hj : j = i
          · rw [if_pos hj] at hq; obtain rfl := Option.some.inj hq; exact ⟨.inr rfl, rfl⟩
          · rw [if_neg hj] at hq; exact h.2 j q hq
        · intro j q hq
          rw [set_get hp] at hq
          by_cases hj : j = i
          · rw [if_pos hj] at hq; obtain rfl := Option.some.inj hq; exact ⟨p, by rw [hj]; exact hp, rfl⟩
          · rw [if_neg hj] at hq; exact ⟨q, hq, rfl⟩
      · rw [if_neg hc] at hs; cases hs

/-- **C115 (finding).**  If `mpprint` gets something that is not a text, or a process is killed while it prints, the lock is
never released: from then on, under every schedule, nothing more is written and no call of `mpprint` returns, in
no process. -/
theorem lock_lost (s0 : Sys) (h0 : Started s0) (sched : List (Nat × Act)) (s s1 : Sys) (h : run s0 sched = some s)
    (i : Nat) (p : Proc) (a : Act) (hp : s.procs[i]? = some p)
    (ha : a = .fail ∨ (a = .kill ∧ (p.pc = .inside ∨ p.pc = .printed ∨ p.pc = .flushed)))
    (hs : step s i a = some s1) (later : List (Nat × Act)) (s2 : Sys) (h2 : run s1 later = some s2) :
    s2.lock = true ∧ s2.out = s.out ∧ (∀ x ∈ later, x.2 = .kill) ∧
    ∀ (j : Nat) (q1 q2 : Proc), s1.procs[j]? = some q1 → s2.procs[j]? = some q2 → q2.todo = q1.todo := by
  obtain ⟨calls, part, hi⟩ := inv_run h0 sched s0 s ⟨[], [], inv_start h0⟩ h
  have hout : s1.out = s.out ∧ Lost s1 := by
    have hact : Active p := by
      rcases ha with rfl | ⟨rfl, hact⟩
      · simp only [step, hp] at hs
        cases hpc : p.pc with
        | inside => exact .inl hpc
        | idle => rw [hpc] at hs; cases hs
        | printed => rw [hpc] at hs; cases hs
        | flushed => rw [hpc] at hs; cases hs
        | dead => rw [hpc] at hs; cases hs
      · exact hact
    have hl := hi.locked i p hp hact
    have others : ∀ j q, j ≠ i → s.procs[j]? = some q → (q.pc = .idle ∨ q.pc = .dead) ∧ q.buffer = [] := by
      intro j q hj hq
      have hn : ¬ Active q := fun hq' => hj (hi.single j i q p hq hp hq' hact)
      refine ⟨?_, (hi.phase j q hq).2.2.2 hn⟩
      cases hpc : q.pc with
      | idle => exact .inl rfl
      | dead => exact .inr rfl
      | inside => exact absurd (.inl hpc) hn
      | printed => exact absurd (.inr (.inl hpc)) hn
      | flushed => exact absurd (.inr (.inr hpc)) hn
    have mk : ∀ p' : Proc, (p'.pc = .idle ∨ p'.pc = .dead) ∧ p'.buffer = [] → s1 = { s with procs := s.procs.set i p' } →
        s1.out = s.out ∧ Lost s1 := by
      intro p' hp' e
      subst e
      refine ⟨rfl, hl, ?_⟩
      intro j q hq
      rw [set_get hp] at hq
      by_cases hj : j = i
      · rw [if_pos hj] at hq; obtain rfl := Option.some.inj hq; exact hp'
      · rw [if_neg hj] at hq; exact others j q hj hq
    rcases ha with rfl | ⟨rfl, -⟩
    · simp only [step, hp] at hs
      cases hpc : p.pc with
      | inside =>
        cases ht : p.todo with
        | nil => rw [hpc, ht] at hs; cases hs
        | cons o rest =>
          cases o with
          | some t => rw [hpc, ht] at hs; cases hs
          | none =>
            rw [hpc, ht] at hs
            exact mk { p with pc := .idle, todo := rest } ⟨.inl rfl, ((hi.phase i p hp).1 hpc).1⟩ (Option.some.inj hs).symm
      | idle => rw [hpc] at hs; cases hs
      | printed => rw [hpc] at hs; cases hs
      | flushed => rw [hpc] at hs; cases hs
      | dead => rw [hpc] at hs; cases hs
    · simp only [step, hp] at hs
      rw [if_pos (by rcases hact with e | e | e <;> rw [e] <;> decide)] at hs
      exact mk _ ⟨.inr rfl, rfl⟩ (Option.some.inj hs).symm
  rw [← hout.1]
  have key : ∀ (later : List (Nat × Act)) (s1 : Sys), Lost s1 → run s1 later = some s2 →
      s2.lock = true ∧ s2.out = s1.out ∧ (∀ x ∈ later, x.2 = .kill) ∧
      ∀ (j : Nat) (q1 q2 : Proc), s1.procs[j]? = some q1 → s2.procs[j]? = some q2 → q2.todo = q1.todo := by
    intro later
    induction later with
    | nil =>
      intro s1 hL e
      obtain rfl := Option.some.inj e
      refine ⟨hL.1, rfl, by simp, ?_⟩
      intro j q1 q2 e1 e2
      rw [e1] at e2
      rw [Option.some.inj e2]
    | cons x later ih =>
      intro s1 hL e
      obtain ⟨k, b⟩ := x
      unfold run at e
      cases hstep : step s1 k b with
      | none => rw [hstep] at e; cases e
      | some s3 =>
        rw [hstep] at e
        obtain ⟨a1, a2, a3, a4⟩ := lost_step hL hstep
        obtain ⟨b1, b2, b3, b4⟩ := ih s3 a2 e
        refine ⟨b1, b2.trans a3, ?_, ?_⟩
        · intro x hx
          rcases List.mem_cons.1 hx with rfl | hx
          · exact a1
          · exact b3 x hx
        · intro j q1 q2 e1 e2
          have hlt : j < s3.procs.length := by
            have hl2 : ∀ (l : List (Nat × Act)) (u v : Sys), run u l = some v → v.procs.length = u.procs.length := by
              intro l
              induction l with
              | nil => intro u v e; rw [← Option.some.inj e]
              | cons y l ihl =>
                intro u v e
                obtain ⟨m, c⟩ := y
                unfold run at e
                cases hst : step u m c with
                | none => rw [hst] at e; cases e
                | some w =>
                  rw [hst] at e
                  rw [ihl w v e]
                  unfold step at hst
                  cases hm : u.procs[m]? with
                  | none => rw [hm] at hst; cases hst
                  | some r =>
                    rw [hm] at hst
                    cases c <;> simp only [] at hst <;> split at hst <;>
                      first
                        | (cases hst; done)
                        | (obtain rfl := Option.some.inj hst; simp)
            rw [← hl2 later s3 s2 e]
            exact (List.getElem?_eq_some_iff.1 e2).1
          obtain ⟨q, hq, hqt⟩ := a4 j _ (List.getElem?_eq_getElem hlt)
          rw [b4 j _ q2 (List.getElem?_eq_getElem hlt) e2, hqt]
          rw [e1] at hq
          rw [Option.some.inj hq]
  exact key later s1 hout.2 h2

/-! ## Examples -/

/-- (Example.) Two processes. -/
def exSys : Sys :=
  ⟨false, [], [⟨12, [some "a\nb".toList, some "c".toList], .idle, []⟩, ⟨1234567, [some "P12 :|\tx".toList, none], .idle, []⟩]⟩

theorem exSys_started : Started exSys := by
  refine ⟨rfl, rfl, ?_, ?_⟩
  · intro i p hp
    match i with
    | 0 => cases hp; exact ⟨rfl, rfl⟩
    | 1 => cases hp; exact ⟨rfl, rfl⟩
    | n + 2 => cases hp
  · intro i j p q hp hq e
    match i, j with
    | 0, 0 => rfl
    | 1, 1 => rfl
    | 0, 1 => cases hp; cases hq; cases e
    | 1, 0 => cases hp; cases hq; cases e
    | n + 2, _ => cases hp
    | _, n + 2 => cases hq

/-- (Example.) A schedule, up to the point where the second process passes something that is not a text. -/
def exSched : List (Nat × Act) :=
  [(0, .acquire), (0, .write), (0, .spill 3), (0, .flush), (0, .release), (1, .acquire), (1, .write), (1, .flush),
    (1, .release), (1, .acquire)]

/-- What the example writes. -/
example : (run exSys exSched).map (·.out) =
    some "P12     :|\ta\nP12     :|\tb\nP1234567 :|\tP12 :|\tx\n".toList := by decide +kernel

example : (run exSys (exSched ++ [(1, .fail)])).isSome = true ∧ run exSys (exSched ++ [(1, .fail), (0, .acquire)]) = none ∧
    run exSys (exSched ++ [(0, .acquire)]) = none := by decide +kernel

example : AllTexts { exSys with procs := exSys.procs.take 1 } := by
  intro i p hp
  match i with
  | 0 => cases hp; decide
  | n + 1 => cases hp

end Mbtk.Mpprint
