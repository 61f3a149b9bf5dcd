import Verif.Stats.CiResult
import Mathlib.Tactic.Tauto
/-!
# Printing results of CI tests, and the log of the d-separation test (C105)

`CITestResult.__str__` and `DSeparationCITest.py`.  How Python writes a number (`'{:6.4f}'` etc.) is a
parameter (`Format`); that these functions accept numbers and raise `TypeError` for `None` is modelled.
-/
namespace Mbtk.CiResult
open Mbtk.Dataset Mbtk.Dataset.Rcv Mbtk.Exp
variable {P : Type} [DecidableEq P]

/-! ## Model: `__str__` -/

/-- `extra_info`: CITestResult.py 33; a text in G_test__unoptimized.py 132, a number in
DSeparationCITest.py 20, 56. -/
inductive Extra where
  | none
  | text (s : Str)
  | number (n : Int)
  deriving DecidableEq, Repr

/-- A result with the attributes that only `__str__` reads: CITestResult.py 17-40. -/
structure Shown (P : Type) where
  res : Res P
  index : Int
  duration : ℚ
  extra : Extra

/-- How numbers are written in the formats of CITestResult.py 233-236. -/
structure Format where
  significance : ℚ → Str
  statistic : ℚ → Str
  pValue : ℚ → Str
  duration : ℚ → Str

/-- `{:>n}`: CITestResult.py 232, 256. -/
def padLeft (n : Nat) (s : Str) : Str := List.replicate (n - s.length) ' ' ++ s

/-- `{:<n}`: CITestResult.py 232, 256. -/
def padRight (n : Nat) (s : Str) : Str := s ++ List.replicate (n - s.length) ' '

/-- `RED`, `YELLOW`, `ENDC`: colors.py 4-6 (mbtk/utilities/colors.py). -/
def colour (code : Str) : Str := ['\x1b', '['] ++ code ++ ['m']

/-- `str(None)` or the text, for `{statistic}` and `{test_distribution}`: CITestResult.py 234-235. -/
def orNone : Option Str → Str
  | none => "None".toList
  | some s => s

/-- `CI test {index}: {X:>4} ⊥ {Y:<4} | {Z:<20}: `; `TypeError` if the variables were not set (`None`
and a list have no such formats). CITestResult.py 232, 256. -/
def headText (r : Shown P) : Except Err Str :=
  match r.res.variables' with
  | none => .error .typeError
  | some (x, y, z) => .ok ("CI test ".toList ++ intStr r.index ++ ": ".toList ++ padLeft 4 x ++ " ⊥ ".toList ++
      padRight 4 y ++ " | ".toList ++ padRight 20 z ++ ": ".toList)

/-- `i_or_d`: CITestResult.py 211-226. -/
def mark (r : Res P) : Str :=
  (if r.independent = some true then ['I'] else ['D']) ++
    match accurate r with
    | none => []
    | some true => ['✔']
    | some false => ['✘']

/-- `startcode` and `endcode`: CITestResult.py 208-209, 219-225. -/
def codes (r : Res P) : Str × Str :=
  if accurate r = some false then (colour "91".toList, colour "0".toList) else ([], [])

/-- `render__sufficient_samples` and `format`: CITestResult.py 205-240. -/
def sufficientText (F : Format) (r : Shown P) : Except Err Str :=
  match headText r with
  | .error e => .error e
  | .ok head =>
    match r.res.significance, r.res.statisticValue, r.res.pValue with
    | some s, some g, some p =>
      .ok ((codes r.res).1 ++ head ++ mark r.res ++ " @ ".toList ++ F.significance s ++ " with ".toList ++
        orNone r.res.statistic ++ "=".toList ++ F.statistic g ++ " at p=".toList ++ F.pValue p ++ " on ".toList ++
        orNone r.res.distribution ++ ", Δt=".toList ++ F.duration r.duration ++ "s".toList ++ (codes r.res).2)
    | _, _, _ => .error .typeError

/-- `render__insufficient_samples` and `format`: CITestResult.py 243-261. -/
def insufficientText (F : Format) (r : Shown P) : Except Err Str :=
  match headText r with
  | .error e => .error e
  | .ok head => .ok (colour "93".toList ++ head ++ "INSUFFICIENT SAMPLES".toList ++ ", Δt=".toList ++
      F.duration r.duration ++ "s".toList ++ colour "0".toList)

/-- `__str__`: CITestResult.py 191-202. -/
def str (F : Format) (r : Shown P) : Except Err Str :=
  match (if r.res.insufficient = some true then insufficientText F r else sufficientText F r) with
  | .error e => .error e
  | .ok out => match r.extra with
    | .none => .ok out
    | .text s => .ok (out ++ s)
    | .number _ => .error .typeError

/-! ## When a result can be printed -/

omit [DecidableEq P] in
theorem headText_cases (r : Shown P) :
    (r.res.variables' = none ∧ headText r = .error .typeError) ∨
    (r.res.variables' ≠ none ∧ ∃ s, headText r = .ok s) := by
  unfold headText
  cases h : r.res.variables' with
  | none => exact .inl ⟨rfl, rfl⟩
  | some t => obtain ⟨x, y, z⟩ := t; exact .inr ⟨by simp, _, rfl⟩

omit [DecidableEq P] in
/-- **C105.**  `str(result)` works exactly if the variables are set, the significance, the statistic and the
p-value are set or the samples were insufficient, and `extra_info` is not a number; otherwise it
raises `TypeError`. -/
theorem str_ok_iff (F : Format) (r : Shown P) :
    ((∃ s, str F r = .ok s) ↔ r.res.variables' ≠ none ∧
      (r.res.insufficient = some true ∨
        (r.res.significance ≠ none ∧ r.res.statisticValue ≠ none ∧ r.res.pValue ≠ none)) ∧
      ∀ n, r.extra ≠ .number n) ∧
    ((¬ ∃ s, str F r = .ok s) → str F r = .error .typeError) := by
  unfold str
  rcases headText_cases r with ⟨hv, hh⟩ | ⟨hv, s, hh⟩
  · have e1 : (if r.res.insufficient = some true then insufficientText F r else sufficientText F r) =
        .error .typeError := by
      split
      · unfold insufficientText; rw [hh]
      · unfold sufficientText; rw [hh]
    rw [e1]
    exact ⟨⟨(by rintro ⟨s, h⟩; cases h), fun h => absurd hv h.1⟩, fun _ => rfl⟩
  · have key : (∃ out, (if r.res.insufficient = some true then insufficientText F r else sufficientText F r) = .ok out ∧
          (r.res.insufficient = some true ∨
            (r.res.significance ≠ none ∧ r.res.statisticValue ≠ none ∧ r.res.pValue ≠ none))) ∨
        ((if r.res.insufficient = some true then insufficientText F r else sufficientText F r) = .error .typeError ∧
          ¬ (r.res.insufficient = some true ∨
            (r.res.significance ≠ none ∧ r.res.statisticValue ≠ none ∧ r.res.pValue ≠ none))) := by
      by_cases hi : r.res.insufficient = some true
      · left
        rw [if_pos hi]
        unfold insufficientText
        rw [hh]
        exact ⟨_, rfl, .inl hi⟩
      · rw [if_neg hi]
        unfold sufficientText
        rw [hh]
        simp only []
        cases h1 : r.res.significance with
        | none => right; exact ⟨rfl, by simp [hi]⟩
        | some a =>
          cases h2 : r.res.statisticValue with
          | none => right; exact ⟨rfl, by simp [hi]⟩
          | some b =>
            cases h3 : r.res.pValue with
            | none => right; exact ⟨rfl, by simp [hi]⟩
            | some c => left; exact ⟨_, rfl, .inr ⟨by simp, by simp, by simp⟩⟩
    rcases key with ⟨out, ho, hc⟩ | ⟨ho, hc⟩
    · rw [ho]
      simp only []
      cases he : r.extra with
      | none => exact ⟨⟨fun _ => ⟨hv, hc, by simp⟩, fun _ => ⟨_, rfl⟩⟩, fun h => (h ⟨_, rfl⟩).elim⟩
      | text t => exact ⟨⟨fun _ => ⟨hv, hc, by simp⟩, fun _ => ⟨_, rfl⟩⟩, fun h => (h ⟨_, rfl⟩).elim⟩
      | number n =>
        exact ⟨⟨(by rintro ⟨s, h⟩; cases h), fun h => absurd rfl (h.2.2 n)⟩, fun _ => rfl⟩
    · rw [ho]
      exact ⟨⟨(by rintro ⟨s, h⟩; cases h), fun h => absurd h.2.1 hc⟩, fun _ => rfl⟩

/-- A setter that gives a verdict. (Specification.) -/
def Op.Verdict : Op P → Prop
  | .setIndependent _ _ => True
  | .setDependent _ _ => True
  | .setInsufficientSamples => True
  | _ => False

/-- What a history of setters leaves set. (Models no code: a notion for statements and proofs.) -/
structure Filled (ops : List (Op P)) (r : Res P) : Prop where
  vars : (∃ X Y Z, Op.setVariables X Y Z ∈ ops) → r.variables' ≠ none
  verdict : (∃ o ∈ ops, o.Verdict) → r.insufficient = some true ∨ r.significance ≠ none
  statistic : ((∃ n v p, Op.setStatistic n v p ∈ ops) ∨ Op.setInsufficientSamples ∈ ops) → r.statisticValue ≠ none
  pValue : ((∃ n v p, Op.setDistribution n v p ∈ ops) ∨ Op.setInsufficientSamples ∈ ops) → r.pValue ≠ none

omit [DecidableEq P] in
theorem filled (empty : P) (ops : List (Op P)) : Filled ops (history empty ops) := by
  unfold history
  have : ∀ (ops done : List (Op P)) (r : Res P), Filled done r → Filled (done ++ ops) (ops.foldl Op.apply r) := by
    intro ops
    induction ops with
    | nil => intro done r h; simpa using h
    | cons o ops ih =>
      intro done r h
      have hstep : Filled (done ++ [o]) (o.apply r) := by
        constructor
        · rintro ⟨X, Y, Z, hm⟩
          rcases List.mem_append.1 hm with hm | hm
          · have := h.vars ⟨X, Y, Z, hm⟩
            cases o <;> simp_all [Op.apply]
          · simp only [List.mem_singleton] at hm
            subst hm
            simp [Op.apply]
        · rintro ⟨v, hm, hv⟩
          rcases List.mem_append.1 hm with hm | hm
          · have := h.verdict ⟨v, hm, hv⟩
            cases o <;> simp_all [Op.apply]
          · simp only [List.mem_singleton] at hm
            subst hm
            cases v <;> simp_all [Op.apply, Op.Verdict]
        · intro hm
          cases o with
          | setStatistic => simp [Op.apply]
          | setInsufficientSamples => simp [Op.apply]
          | _ =>
            have := h.statistic (by simpa using hm)
            simpa [Op.apply] using this
        · intro hm
          cases o with
          | setDistribution => simp [Op.apply]
          | setInsufficientSamples => simp [Op.apply]
          | _ =>
            have := h.pValue (by simpa using hm)
            simpa [Op.apply] using this
      have := ih (done ++ [o]) (o.apply r) hstep
      simpa using this
  have h := this ops [] (fresh empty) ⟨by simp, by simp, by simp, by simp⟩
  simpa using h

omit [DecidableEq P] in
/-- **C105.**  After any history of setters, in any order, that includes the variables, a verdict, and a
statistic and a distribution (or insufficient samples), the result can be printed, if `extra_info` is
`None` or a text: this covers every result of every G-test. -/
theorem complete_result_prints (F : Format) (empty : P) (ops : List (Op P)) (index : Int) (duration : ℚ) (extra : Extra)
    (hv : ∃ X Y Z, Op.setVariables X Y Z ∈ ops) (hd : ∃ o ∈ ops, o.Verdict)
    (hs : ((∃ n v p, Op.setStatistic n v p ∈ ops) ∧ ∃ n v p, Op.setDistribution n v p ∈ ops) ∨
      Op.setInsufficientSamples ∈ ops)
    (he : ∀ n, extra ≠ .number n) :
    ∃ s, str F ⟨history empty ops, index, duration, extra⟩ = .ok s := by
  have h := filled empty ops
  rw [(str_ok_iff F ⟨history empty ops, index, duration, extra⟩).1]
  refine ⟨h.vars hv, ?_, he⟩
  rcases h.verdict hd with h1 | h1
  · exact .inl h1
  · right
    refine ⟨h1, h.statistic ?_, h.pValue ?_⟩
    · rcases hs with hs | hs
      · exact .inl hs.1
      · exact .inr hs
    · rcases hs with hs | hs
      · exact .inl hs.2
      · exact .inr hs

/-! ## What a printed result shows -/

/-- No check mark, cross or colour code in it. (Specification.) -/
def Plain (s : Str) : Prop := ∀ c ∈ s, c ≠ '✔' ∧ c ≠ '✘' ∧ c ≠ '\x1b'

/-- Numbers are written without such characters (as Python does). (Specification.) -/
structure Format.Sane (F : Format) : Prop where
  significance : ∀ q, Plain (F.significance q)
  statistic : ∀ q, Plain (F.statistic q)
  pValue : ∀ q, Plain (F.pValue q)
  duration : ∀ q, Plain (F.duration q)

/-- Nor are the names and texts in the result. (Specification.) -/
structure PlainTexts (r : Shown P) : Prop where
  vars : ∀ x y z, r.res.variables' = some (x, y, z) → Plain x ∧ Plain y ∧ Plain z
  statistic : ∀ s, r.res.statistic = some s → Plain s
  distribution : ∀ s, r.res.distribution = some s → Plain s
  extra : ∀ s, r.extra = .text s → Plain s

theorem Plain.append {s t : Str} (hs : Plain s) (ht : Plain t) : Plain (s ++ t) := by
  intro c hc
  rcases List.mem_append.1 hc with h | h
  · exact hs c h
  · exact ht c h

theorem plain_intStr (n : Int) : Plain (intStr n) := by
  intro c hc
  refine ⟨?_, ?_, ?_⟩
  · rintro rfl; exact notin_intStr (by decide) n hc
  · rintro rfl; exact notin_intStr (by decide) n hc
  · rintro rfl; exact notin_intStr (by decide) n hc

theorem plain_commaJoin (l : List Int) : Plain (commaJoin l) := by
  fun_induction commaJoin l with
  | case1 => intro c hc; simp at hc
  | case2 x => exact plain_intStr x
  | case3 x y rest ih =>
    refine ((plain_intStr x).append ?_).append ih
    intro c hc
    simp only [List.mem_cons, List.not_mem_nil, or_false] at hc
    rcases hc with rfl | rfl <;> decide

theorem plain_reprMany (l : List Int) : Plain (reprMany l) := by
  match l with
  | [] => intro c hc; simp only [reprMany, List.mem_singleton] at hc; subst hc; decide
  | [x] => exact plain_intStr x
  | x :: y :: rest =>
    refine (Plain.append ?_ (plain_commaJoin _)).append ?_
    · intro c hc; simp only [List.mem_singleton] at hc; subst hc; decide
    · intro c hc; simp only [List.mem_singleton] at hc; subst hc; decide

theorem plain_repr (a : VarArg) : Plain (repr a) := by
  have one : ∀ c : Char, c ≠ '✔' ∧ c ≠ '✘' ∧ c ≠ '\x1b' → Plain [c] := by
    intro c h d hd; simp only [List.mem_singleton] at hd; subst hd; exact h
  cases a with
  | none => exact one _ (by decide)
  | joint ids => exact plain_reprMany ids
  | omega => exact one _ (by decide)
  | single id =>
    simp only [repr]
    split
    · exact one _ (by decide)
    · exact plain_intStr _
  | int n =>
    simp only [repr]
    split
    · intro c hc; revert c; decide
    · split
      · exact one _ (by decide)
      · exact plain_intStr _
  | many l => exact plain_reprMany l

theorem plain_pad (n : Nat) {s : Str} (hs : Plain s) : Plain (padLeft n s) ∧ Plain (padRight n s) := by
  have hr : Plain (List.replicate (n - s.length) ' ') := by
    intro c hc
    rw [(List.mem_replicate.1 hc).2]
    decide
  exact ⟨hr.append hs, hs.append hr⟩

/-- Texts without check marks, crosses and colour codes, as a test. (Models no code: a notion for statements
and proofs.) -/
def plainB (s : Str) : Bool := s.all (fun c => c ≠ '✔' ∧ c ≠ '✘' ∧ c ≠ '\x1b')

theorem plain_of_B {s : Str} (h : plainB s = true) : Plain s := by
  intro c hc
  unfold plainB at h
  rw [List.all_eq_true] at h
  have := h c hc
  simpa using this

omit [DecidableEq P] in
theorem plain_head {r : Shown P} (hp : PlainTexts r) {s : Str} (h : headText r = .ok s) : Plain s := by
  unfold headText at h
  cases hv : r.res.variables' with
  | none => rw [hv] at h; cases h
  | some t =>
    obtain ⟨x, y, z⟩ := t
    rw [hv] at h
    cases h
    obtain ⟨h1, h2, h3⟩ := hp.vars x y z hv
    exact (((((((Plain.append (plain_of_B (by decide)) (plain_intStr _)).append (plain_of_B (by decide))).append
      (plain_pad 4 h1).1).append (plain_of_B (by decide))).append (plain_pad 4 h2).2).append
      (plain_of_B (by decide))).append (plain_pad 20 h3).2).append (plain_of_B (by decide))

theorem plain_orNone {o : Option Str} (h : ∀ s, o = some s → Plain s) : Plain (orNone o) := by
  cases o with
  | none => exact plain_of_B (by decide)
  | some s => exact h s rfl

omit [DecidableEq P] in
theorem plain_extra {r : Shown P} (hp : PlainTexts r) {out s : Str}
    (h : (match r.extra with
      | .none => (.ok out : Except Err Str)
      | .text s => .ok (out ++ s)
      | .number _ => .error .typeError) = .ok s) : ∃ e, Plain e ∧ s = out ++ e := by
  cases he : r.extra with
  | none => rw [he] at h; cases h; exact ⟨[], by intro c hc; simp at hc, by simp⟩
  | text t => rw [he] at h; cases h; exact ⟨t, hp.extra t he, rfl⟩
  | number n => rw [he] at h; cases h

theorem notin_plain {s : Str} (h : Plain s) : '✔' ∉ s ∧ '✘' ∉ s ∧ '\x1b' ∉ s :=
  ⟨fun hc => (h _ hc).1 rfl, fun hc => (h _ hc).2.1 rfl, fun hc => (h _ hc).2.2 rfl⟩

theorem red_not_yellow (t : Str) : ¬ colour "91".toList <+: colour "93".toList ++ t := by
  show ¬ ['\x1b', '[', '9', '1', 'm'] <+: '\x1b' :: '[' :: '9' :: '3' :: 'm' :: t
  simp [List.cons_prefix_cons]

theorem yellow_not_red (t : Str) : ¬ colour "93".toList <+: colour "91".toList ++ t := by
  show ¬ ['\x1b', '[', '9', '3', 'm'] <+: '\x1b' :: '[' :: '9' :: '1' :: 'm' :: t
  simp [List.cons_prefix_cons]

theorem esc_of_prefix {code s : Str} (h : colour code <+: s) : '\x1b' ∈ s :=
  h.subset (by simp [colour])

theorem colour_marks : ('✔' ∉ colour "93".toList ∧ '✘' ∉ colour "93".toList ∧ '\x1b' ∈ colour "93".toList) ∧
    ('✔' ∉ colour "91".toList ∧ '✘' ∉ colour "91".toList ∧ '\x1b' ∈ colour "91".toList) ∧
    ('✔' ∉ colour "0".toList ∧ '✘' ∉ colour "0".toList) := by decide

/-- What a text shows. (Models no code: a notion for statements and proofs.) -/
structure Shows (s : Str) (check cross yellow red esc : Prop) : Prop where
  check : '✔' ∈ s ↔ check
  cross : '✘' ∈ s ↔ cross
  yellow : (colour "93".toList) <+: s ↔ yellow
  red : (colour "91".toList) <+: s ↔ red
  esc : '\x1b' ∈ s ↔ esc

theorem shows_yellow {mid e : Str} (hm : Plain mid) (he : Plain e) :
    Shows (colour "93".toList ++ mid ++ colour "0".toList ++ e) False False True False True := by
  obtain ⟨m1, m2, m3⟩ := notin_plain hm
  obtain ⟨e1, e2, e3⟩ := notin_plain he
  obtain ⟨⟨a1, a2, a3⟩, -, c1, c2⟩ := colour_marks
  constructor
  · simp only [List.mem_append]; tauto
  · simp only [List.mem_append]; tauto
  · simp only [List.append_assoc, List.prefix_append]
  · rw [List.append_assoc, List.append_assoc]
    exact iff_false_intro (red_not_yellow _)
  · simp only [List.mem_append]; tauto

theorem shows_red {mid mid2 e : Str} (hm : Plain mid) (hm2 : Plain mid2) (he : Plain e) {c : Char} (hc : c ≠ '✔') :
    Shows (colour "91".toList ++ (mid ++ [c, '✘'] ++ mid2) ++ colour "0".toList ++ e) False True False True True := by
  obtain ⟨m1, m2, m3⟩ := notin_plain hm
  obtain ⟨o1, o2, o3⟩ := notin_plain hm2
  obtain ⟨e1, e2, e3⟩ := notin_plain he
  obtain ⟨-, ⟨a1, a2, a3⟩, c1, c2⟩ := colour_marks
  have d1 : '✔' ∉ [c, '✘'] := by simp [Ne.symm hc]
  have d2 : '✘' ∈ [c, '✘'] := by simp
  constructor
  · simp only [List.mem_append]; tauto
  · simp only [List.mem_append]; tauto
  · rw [List.append_assoc, List.append_assoc]
    exact iff_false_intro (yellow_not_red _)
  · simp only [List.append_assoc, List.prefix_append]
  · simp only [List.mem_append]; tauto

theorem shows_black {mid mid2 e tick : Str} (hm : Plain mid) (hm2 : Plain mid2) (he : Plain e)
    (ht : '✘' ∉ tick ∧ '\x1b' ∉ tick) :
    Shows (mid ++ tick ++ mid2 ++ e) ('✔' ∈ tick) False False False False := by
  obtain ⟨m1, m2, m3⟩ := notin_plain hm
  obtain ⟨o1, o2, o3⟩ := notin_plain hm2
  obtain ⟨e1, e2, e3⟩ := notin_plain he
  have hesc : '\x1b' ∉ mid ++ tick ++ mid2 ++ e := by simp only [List.mem_append]; tauto
  constructor
  · simp only [List.mem_append]; tauto
  · simp only [List.mem_append]; tauto
  · exact iff_false_intro (fun h => hesc (esc_of_prefix h))
  · exact iff_false_intro (fun h => hesc (esc_of_prefix h))
  · exact iff_false_intro hesc

theorem Shows.congr {s : Str} {a b c d e a' b' c' d' e' : Prop} (h : Shows s a b c d e)
    (ha : a ↔ a') (hb : b ↔ b') (hc : c ↔ c') (hd : d ↔ d') (he : e ↔ e') : Shows s a' b' c' d' e' :=
  ⟨h.check.trans ha, h.cross.trans hb, h.yellow.trans hc, h.red.trans hd, h.esc.trans he⟩

omit [DecidableEq P] in
theorem insufficient_shows (F : Format) (hF : F.Sane) (r : Shown P) (hp : PlainTexts r) (out : Str)
    (h : insufficientText F r = .ok out) (e : Str) (he : Plain e) :
    Shows (out ++ e) False False True False True := by
  unfold insufficientText at h
  cases hh : headText r with
  | error e => rw [hh] at h; cases h
  | ok head =>
    rw [hh] at h
    cases h
    have hmid : Plain (head ++ "INSUFFICIENT SAMPLES".toList ++ ", Δt=".toList ++ F.duration r.duration ++ "s".toList) :=
      ((((plain_head hp hh).append (plain_of_B (by decide))).append (plain_of_B (by decide))).append
        (hF.duration _)).append (plain_of_B (by decide))
    have := shows_yellow hmid he
    simpa only [List.append_assoc] using this

omit [DecidableEq P] in
theorem sufficient_shows (F : Format) (hF : F.Sane) (r : Shown P) (hp : PlainTexts r) (out : Str)
    (h : sufficientText F r = .ok out) (e : Str) (he : Plain e) :
    Shows (out ++ e) (accurate r.res = some true) (accurate r.res = some false) False
      (accurate r.res = some false) (accurate r.res = some false) := by
  unfold sufficientText at h
  cases hh : headText r with
  | error e => rw [hh] at h; cases h
  | ok head =>
    rw [hh] at h
    simp only [] at h
    cases h1 : r.res.significance with
    | none => rw [h1] at h; cases h
    | some a =>
      cases h2 : r.res.statisticValue with
      | none => rw [h1, h2] at h; cases h
      | some b =>
        cases h3 : r.res.pValue with
        | none => rw [h1, h2, h3] at h; cases h
        | some c =>
          rw [h1, h2, h3] at h
          simp only [Except.ok.injEq] at h
          subst h
          have hhead := plain_head hp hh
          have htail : Plain (" @ ".toList ++ F.significance a ++ " with ".toList ++
              orNone r.res.statistic ++ "=".toList ++ F.statistic b ++ " at p=".toList ++ F.pValue c ++ " on ".toList ++
              orNone r.res.distribution ++ ", Δt=".toList ++ F.duration r.duration ++ "s".toList) :=
            (((((((((((Plain.append (plain_of_B (by decide)) (hF.significance _)).append (plain_of_B (by decide))).append
              (plain_orNone hp.statistic)).append (plain_of_B (by decide))).append (hF.statistic _)).append
              (plain_of_B (by decide))).append (hF.pValue _)).append (plain_of_B (by decide))).append
              (plain_orNone hp.distribution)).append (plain_of_B (by decide))).append (hF.duration _)).append
              (plain_of_B (by decide))
          cases ha : accurate r.res with
          | none =>
            have e1 : codes r.res = ([], []) := by unfold codes; rw [ha]; rfl
            have e2 : ∃ c : Char, c ≠ '✔' ∧ c ≠ '✘' ∧ c ≠ '\x1b' ∧ mark r.res = [c] := by
              unfold mark
              rw [ha]
              split
              · exact ⟨'I', by decide, by decide, by decide, rfl⟩
              · exact ⟨'D', by decide, by decide, by decide, rfl⟩
            obtain ⟨d, d1, d2, d3, e2⟩ := e2
            have := shows_black (tick := [d]) hhead htail he (by simp [Ne.symm d2, Ne.symm d3])
            rw [e1, e2]
            refine Shows.congr (a := '✔' ∈ [d]) (b := False) (c := False) (d := False) (e := False) ?_ (by simp [Ne.symm d1])
              (by simp) Iff.rfl (by simp) (by simp)
            simpa only [List.append_assoc, List.nil_append, List.append_nil] using this
          | some ok =>
            cases ok with
            | true =>
              have e1 : codes r.res = ([], []) := by unfold codes; rw [ha]; rfl
              have e2 : ∃ c : Char, c ≠ '✔' ∧ c ≠ '✘' ∧ c ≠ '\x1b' ∧ mark r.res = [c, '✔'] := by
                unfold mark
                rw [ha]
                split
                · exact ⟨'I', by decide, by decide, by decide, rfl⟩
                · exact ⟨'D', by decide, by decide, by decide, rfl⟩
              obtain ⟨d, d1, d2, d3, e2⟩ := e2
              have := shows_black (tick := [d, '✔']) hhead htail he (by simp [Ne.symm d2, Ne.symm d3])
              rw [e1, e2]
              refine Shows.congr (a := '✔' ∈ [d, '✔']) (b := False) (c := False) (d := False) (e := False) ?_ (by simp)
                (by simp) Iff.rfl (by simp) (by simp)
              simpa only [List.append_assoc, List.nil_append, List.append_nil] using this
            | false =>
              have e1 : codes r.res = (colour "91".toList, colour "0".toList) := by unfold codes; rw [ha]; rfl
              have e2 : ∃ c : Char, c ≠ '✔' ∧ mark r.res = [c, '✘'] := by
                unfold mark
                rw [ha]
                split
                · exact ⟨'I', by decide, rfl⟩
                · exact ⟨'D', by decide, rfl⟩
              obtain ⟨d, d1, e2⟩ := e2
              have := shows_red hhead htail he d1
              rw [e1, e2]
              refine Shows.congr (a := False) (b := True) (c := False) (d := True) (e := True) ?_ (by simp)
                (by simp) Iff.rfl (by simp) (by simp)
              simpa only [List.append_assoc] using this

omit [DecidableEq P] in
/-- **C105.**  What a printed result shows: a check mark exactly if the test was decided, compared with
d-separation and agrees with it; a cross exactly if it disagrees; the text is coloured (red resp. yellow,
and back at the end) exactly if it disagrees resp. if the samples were insufficient, and in black
otherwise. -/
theorem printed_marks (F : Format) (hF : F.Sane) (r : Shown P) (hp : PlainTexts r) (s : Str)
    (h : str F r = .ok s) :
    ('✔' ∈ s ↔ r.res.insufficient ≠ some true ∧ accurate r.res = some true) ∧
    ('✘' ∈ s ↔ r.res.insufficient ≠ some true ∧ accurate r.res = some false) ∧
    ((colour "93".toList) <+: s ↔ r.res.insufficient = some true) ∧
    ((colour "91".toList) <+: s ↔ r.res.insufficient ≠ some true ∧ accurate r.res = some false) ∧
    ('\x1b' ∈ s ↔ r.res.insufficient = some true ∨ accurate r.res = some false) := by
  unfold str at h
  by_cases hi : r.res.insufficient = some true
  · rw [if_pos hi] at h
    cases ho : insufficientText F r with
    | error e => rw [ho] at h; cases h
    | ok out =>
      rw [ho] at h
      obtain ⟨e, he, rfl⟩ := plain_extra hp h
      have := insufficient_shows F hF r hp out ho e he
      exact ⟨this.check.trans (by simp [hi]), this.cross.trans (by simp [hi]), this.yellow.trans (by simp [hi]),
        this.red.trans (by simp [hi]), this.esc.trans (by simp [hi])⟩
  · rw [if_neg hi] at h
    cases ho : sufficientText F r with
    | error e => rw [ho] at h; cases h
    | ok out =>
      rw [ho] at h
      obtain ⟨e, he, rfl⟩ := plain_extra hp h
      have := sufficient_shows F hF r hp out ho e he
      exact ⟨this.check.trans (by simp [hi]), this.cross.trans (by simp [hi]), this.yellow.trans (by simp [hi]),
        this.red.trans (by simp [hi]), this.esc.trans (by simp [hi])⟩

/-! ## Model: the d-separation test and its log -/

/-- `conditionally_independent` of `DSeparationCITest`, or `compute` of
`DSeparationAsCorrelationHeuristic`, which inherits the former. DSeparationCITest.py 18-21, 54-61. -/
inductive Role where
  | test
  | heuristic
  deriving DecidableEq, Repr

/-- One call, with the time that it takes. DSeparationCITest.py 18-61. -/
structure Query where
  role : Role
  x : Int
  y : Int
  z : List Int
  duration : ℚ
  deriving DecidableEq, Repr

/-- What a call returns: `result.independent` (DSeparationCITest.py 21) or `0.0`/`1.0` (58-61). -/
inductive Answer where
  | verdict (b : Bool)
  | score (q : ℚ)
  deriving DecidableEq, Repr

/-- `ci_test_results`, and what was printed. DSeparationCITest.py 15, 39. -/
structure Log (P : Type) where
  results : List (Shown P)
  printed : List Str

/-- The result as it is when it is printed: DSeparationCITest.py 25-37. -/
def dsepResult (empty : P) (q : Query) (index : Nat) (b : Bool) : Shown P :=
  ⟨history empty [.setIndependent b 0, .setVariables (.int q.x) (.int q.y) (.many q.z), .setDSeparation b,
    .setStatistic "None".toList 0 empty, .setDistribution "None".toList 0 empty], index, q.duration, .none⟩

/-- `DSEP_CI_AsTest` and `DSEP_CI_ASHeuristic`: DSeparationCITest.py 5-6, 20, 56. -/
def Role.code : Role → Int
  | .test => 0
  | .heuristic => 1

/-- What is returned: DSeparationCITest.py 21, 58-61. -/
def Role.answer : Role → Bool → Answer
  | .test, b => .verdict b
  | .heuristic, b => .score (if b then 0 else 1)

/-- One call: DSeparationCITest.py 18-41, 54-61.  `ci` is the network's `conditionally_independent`.  The
result that is logged and the one whose `extra_info` is set afterwards are the same object. -/
def ask (F : Format) (debug : Bool) (empty : P) (ci : Int → Int → List Int → Except Err Bool)
    (s : Log P) (q : Query) : Log P × Except Err Answer :=
  match ci q.x q.y q.z with
  | .error e => (s, .error e)
  | .ok b =>
    let r := dsepResult empty q s.results.length b
    match (if debug then (str F r).map (fun t => s.printed ++ [t]) else .ok s.printed) with
    | .error e => (⟨s.results ++ [r], s.printed⟩, .error e)
    | .ok printed => (⟨s.results ++ [{ r with extra := .number q.role.code }], printed⟩, .ok (q.role.answer b))

/-- Several calls: DSeparationCITest.py 18-61. -/
def asks (F : Format) (debug : Bool) (empty : P) (ci : Int → Int → List Int → Except Err Bool) :
    Log P → List Query → Log P × List (Except Err Answer)
  | s, [] => (s, [])
  | s, q :: qs =>
    let a := ask F debug empty ci s q
    let rest := asks F debug empty ci a.1 qs
    (rest.1, a.2 :: rest.2)

/-- What a file holds after `end()`: DSeparationCITest.py 44-48, 64-68. -/
inductive Written (P : Type) where
  | untouched
  | truncated
  | results (l : List (Shown P))

/-- `end()` of the test (DSeparationCITest.py 44-48) and of the heuristic (64-68: there is no attribute
`heuristic_results`, and the file is already open for writing).  `save` tells if the parameter that this
`end` reads is set. -/
def finish (role : Role) (save : Bool) (s : Log P) : Written P × Except Err Unit :=
  match save, role with
  | false, _ => (.untouched, .ok ())
  | true, .test => (.results s.results, .ok ())
  | true, .heuristic => (.truncated, .error .attributeError)

/-! ## What the log holds -/

omit [DecidableEq P] in
theorem dsepResult_prints (F : Format) (empty : P) (q : Query) (index : Nat) (b : Bool) :
    ∃ t, str F (dsepResult empty q index b) = .ok t :=
  complete_result_prints F empty _ _ _ _ ⟨_, _, _, by simp; exact ⟨rfl, rfl, rfl⟩⟩
    ⟨.setIndependent b 0, by simp, trivial⟩
    (.inl ⟨⟨"None".toList, 0, empty, by simp⟩, ⟨"None".toList, 0, empty, by simp⟩⟩) (by simp)

omit [DecidableEq P] in
theorem ask_ok (F : Format) (debug : Bool) (empty : P) (ci : Int → Int → List Int → Except Err Bool)
    (s : Log P) (q : Query) (b : Bool) (h : ci q.x q.y q.z = .ok b) :
    ∃ t, str F (dsepResult empty q s.results.length b) = .ok t ∧
      ask F debug empty ci s q = (⟨s.results ++ [{ dsepResult empty q s.results.length b with extra := .number q.role.code }],
        s.printed ++ if debug then [t] else []⟩, .ok (q.role.answer b)) := by
  obtain ⟨t, ht⟩ := dsepResult_prints F empty q s.results.length b
  refine ⟨t, ht, ?_⟩
  unfold ask
  rw [h]
  simp only [ht]
  cases debug with
  | true => rfl
  | false => simp

omit [DecidableEq P] in
theorem ask_error (F : Format) (debug : Bool) (empty : P) (ci : Int → Int → List Int → Except Err Bool)
    (s : Log P) (q : Query) (e : Err) (h : ci q.x q.y q.z = .error e) :
    ask F debug empty ci s q = (s, .error e) := by
  unfold ask
  rw [h]

/-- The answer that the network gives to a query. (Specification.) -/
def expected (ci : Int → Int → List Int → Except Err Bool) (q : Query) : Except Err Answer :=
  match ci q.x q.y q.z with
  | .error e => .error e
  | .ok true => .ok (match q.role with | .test => .verdict true | .heuristic => .score 0)
  | .ok false => .ok (match q.role with | .test => .verdict false | .heuristic => .score 1)

/-- The queries that the network answers, with the answers. (Specification.) -/
def answered (ci : Int → Int → List Int → Except Err Bool) (qs : List Query) : List (Query × Bool) :=
  qs.filterMap (fun q => match ci q.x q.y q.z with | .ok b => some (q, b) | .error _ => none)

/-- The entry of the log for a query. (Specification.) -/
structure Entry (r : Shown P) (index : Nat) (q : Query) (b : Bool) : Prop where
  index : r.index = index
  duration : r.duration = q.duration
  vars : r.res.variables' = some (repr (.int q.x), repr (.int q.y), repr (.many q.z))
  independent : r.res.independent = some b
  dependent : r.res.dependent = some !b
  decided : r.res.insufficient = none
  dSeparation : r.res.dSeparation = some b
  accurate : accurate r.res = some true
  extra : r.extra = .number (match q.role with | .test => 0 | .heuristic => 1)

omit [DecidableEq P] in
theorem entry_dsepResult (empty : P) (q : Query) (index : Nat) (b : Bool) :
    Entry { dsepResult empty q index b with extra := .number q.role.code } index q b := by
  refine ⟨rfl, rfl, rfl, rfl, rfl, rfl, rfl, ?_, ?_⟩
  · cases b <;> rfl
  · show Extra.number q.role.code = _
    cases q.role <;> rfl

omit [DecidableEq P] in
theorem dsepResult_text (F : Format) (hF : F.Sane) (empty : P) (q : Query) (index : Nat) (b : Bool) {u : Str}
    (ht : str F (dsepResult empty q index b) = .ok u) : '✔' ∈ u ∧ '✘' ∉ u ∧ '\x1b' ∉ u := by
  have hplain : PlainTexts (dsepResult empty q index b) := by
    have hnone : ∀ x : Str, some "None".toList = some x → Plain x := by
      intro x hx
      cases hx
      exact plain_of_B (by decide)
    constructor
    · intro x y z hx
      have hx' : some (repr (.int q.x), repr (.int q.y), repr (.many q.z)) = some (x, y, z) := hx
      cases hx'
      exact ⟨plain_repr _, plain_repr _, plain_repr _⟩
    · exact hnone
    · exact hnone
    · intro x hx; cases hx
  obtain ⟨p1, p2, p3, p4, p5⟩ := printed_marks F hF _ hplain u ht
  have hi : (dsepResult empty q index b).res.insufficient ≠ some true := nofun
  have ha : accurate (dsepResult empty q index b).res = some true :=
    (entry_dsepResult empty q index b).accurate
  refine ⟨p1.2 ⟨hi, ha⟩, fun h => ?_, fun h => ?_⟩
  · have := (p2.1 h).2; rw [ha] at this; cases this
  · rcases p5.1 h with h | h
    · exact hi h
    · rw [ha] at h; cases h

omit [DecidableEq P] in
theorem asks_general (F : Format) (hF : F.Sane) (debug : Bool) (empty : P) (ci : Int → Int → List Int → Except Err Bool)
    (qs : List Query) : ∀ s : Log P,
    (asks F debug empty ci s qs).2 = qs.map (expected ci) ∧
    (∃ new, (asks F debug empty ci s qs).1.results = s.results ++ new ∧ new.length = (answered ci qs).length ∧
      ∀ i (hi : i < new.length) (hj : i < (answered ci qs).length),
        Entry new[i] (s.results.length + i) (answered ci qs)[i].1 (answered ci qs)[i].2) ∧
    (∃ texts, (asks F debug empty ci s qs).1.printed = s.printed ++ texts ∧
      texts.length = (if debug then (answered ci qs).length else 0) ∧
      ∀ t ∈ texts, '✔' ∈ t ∧ '✘' ∉ t ∧ '\x1b' ∉ t) := by
  induction qs with
  | nil => intro s; exact ⟨rfl, ⟨[], by simp [asks], rfl, fun i hi => by simp at hi⟩, ⟨[], by simp [asks], by simp [answered], by simp⟩⟩
  | cons q qs ih =>
    intro s
    cases hc : ci q.x q.y q.z with
    | error e =>
      have e1 := ask_error F debug empty ci s q e hc
      have e2 : answered ci (q :: qs) = answered ci qs := by simp [answered, hc]
      have e3 : asks F debug empty ci s (q :: qs) = ((asks F debug empty ci s qs).1, .error e :: (asks F debug empty ci s qs).2) := by
        simp only [asks, e1]
      obtain ⟨h1, h2, h3⟩ := ih s
      rw [e3, e2]
      refine ⟨?_, h2, h3⟩
      simp [h1, expected, hc]
    | ok b =>
      obtain ⟨t, ht, e1⟩ := ask_ok F debug empty ci s q b hc
      have e2 : answered ci (q :: qs) = (q, b) :: answered ci qs := by simp [answered, hc]
      have hen := entry_dsepResult empty q s.results.length b
      have htxt := dsepResult_text F hF empty q _ b ht
      clear ht
      generalize ({ dsepResult empty q s.results.length b with extra := .number q.role.code } : Shown P) = en at hen e1
      generalize hs' : (⟨s.results ++ [en],
        s.printed ++ if debug then [t] else []⟩ : Log P) = s' at e1
      have e3 : asks F debug empty ci s (q :: qs) =
          ((asks F debug empty ci s' qs).1, .ok (q.role.answer b) :: (asks F debug empty ci s' qs).2) := by
        simp only [asks, e1]
      obtain ⟨h1, ⟨new, hn1, hn2, hn3⟩, ⟨texts, ht1, ht2, ht3⟩⟩ := ih s'
      rw [e3, e2]
      refine ⟨?_, ⟨en :: new, ?_, ?_, ?_⟩,
        ⟨(if debug then [t] else []) ++ texts, ?_, ?_, ?_⟩⟩
      · simp only [List.map_cons, h1]
        congr 1
        unfold expected
        rw [hc]
        cases b <;> cases q.role <;> rfl
      · rw [hn1, ← hs', List.append_assoc]; rfl
      · simp [hn2]
      · intro i hi hj
        cases i with
        | zero => exact hen
        | succ i =>
          have := hn3 i (by simpa using hi) (by simpa using hj)
          rw [← hs'] at this
          have el : (s.results ++ [en]).length + i =
            s.results.length + (i + 1) := by simp; omega
          rw [← el]
          exact this
      · rw [ht1, ← hs', List.append_assoc]
      · cases debug <;> simp_all
      · intro u hu
        rcases List.mem_append.1 hu with hu | hu
        · cases debug with
          | false => simp at hu
          | true =>
            simp only [if_true, List.mem_singleton] at hu
            subst hu
            exact htxt
        · exact ht3 u hu

omit [DecidableEq P] in
/-- **C105.**  In any sequence of calls of the d-separation test and of the heuristic, each call returns what
the network says (the heuristic `0.0` for independent and `1.0` for dependent variables) or raises what
the network raises; with the debug output, too: printing a result never makes a call fail. -/
theorem dsep_answers (F : Format) (hF : F.Sane) (debug : Bool) (empty : P)
    (ci : Int → Int → List Int → Except Err Bool) (qs : List Query) :
    (asks F debug empty ci ⟨[], []⟩ qs).2 = qs.map (expected ci) :=
  (asks_general F hF debug empty ci qs ⟨[], []⟩).1

omit [DecidableEq P] in
/-- **C105.**  The log has exactly one entry for each call that the network answered, in order, indexed from 0
without gaps, with the variables, the verdict and the time of that call, and it counts as accurate. -/
theorem dsep_log (F : Format) (hF : F.Sane) (debug : Bool) (empty : P)
    (ci : Int → Int → List Int → Except Err Bool) (qs : List Query) :
    (asks F debug empty ci ⟨[], []⟩ qs).1.results.length = (answered ci qs).length ∧
    ∀ i (hi : i < (asks F debug empty ci ⟨[], []⟩ qs).1.results.length) (hj : i < (answered ci qs).length),
      Entry (asks F debug empty ci ⟨[], []⟩ qs).1.results[i] i (answered ci qs)[i].1 (answered ci qs)[i].2 := by
  obtain ⟨new, h1, h2, h3⟩ := (asks_general F hF debug empty ci qs ⟨[], []⟩).2.1
  simp only [List.nil_append] at h1
  refine ⟨by rw [h1, h2], ?_⟩
  intro i hi hj
  have := h3 i (by rw [h1] at hi; exact hi) hj
  simp only [List.length_nil, Nat.zero_add] at this
  simp only [h1]
  exact this

omit [DecidableEq P] in
/-- **C105.**  With the debug output each answered call prints exactly one text, with a check mark, no cross and
no colour; without it nothing is printed. -/
theorem dsep_prints (F : Format) (hF : F.Sane) (debug : Bool) (empty : P)
    (ci : Int → Int → List Int → Except Err Bool) (qs : List Query) :
    (asks F debug empty ci ⟨[], []⟩ qs).1.printed.length = (if debug then (answered ci qs).length else 0) ∧
    ∀ t ∈ (asks F debug empty ci ⟨[], []⟩ qs).1.printed, '✔' ∈ t ∧ '✘' ∉ t ∧ '\x1b' ∉ t := by
  obtain ⟨texts, h1, h2, h3⟩ := (asks_general F hF debug empty ci qs ⟨[], []⟩).2.2
  simp only [List.nil_append] at h1
  rw [h1]
  exact ⟨h2, h3⟩

omit [DecidableEq P] in
/-- **C105 (finding).**  But no logged result can be printed once its call has returned: `extra_info` is then
a number, and `str(result)` raises `TypeError`. -/
theorem dsep_logged_unprintable (F : Format) (hF : F.Sane) (debug : Bool) (empty : P)
    (ci : Int → Int → List Int → Except Err Bool) (qs : List Query) (r : Shown P)
    (hr : r ∈ (asks F debug empty ci ⟨[], []⟩ qs).1.results) : str F r = .error .typeError := by
  obtain ⟨h1, h2⟩ := dsep_log F hF debug empty ci qs
  obtain ⟨i, hi, rfl⟩ := List.mem_iff_getElem.1 hr
  have he := (h2 i hi (by omega)).extra
  apply (str_ok_iff F _).2
  rw [(str_ok_iff F _).1]
  intro h
  exact h.2.2 _ he

omit [DecidableEq P] in
/-- **C105 (finding).**  `end()` of the test saves the log if asked to and never fails; `end()` of the heuristic,
asked to save, raises `AttributeError` whatever was logged, after having emptied the file. -/
theorem dsep_end (s : Log P) :
    finish .test true s = (.results s.results, .ok ()) ∧ (∀ role, finish role false s = (.untouched, .ok ())) ∧
    finish .heuristic true s = (.truncated, .error .attributeError) :=
  ⟨rfl, fun _ => rfl, rfl⟩

/-! ## Examples -/

/-- (Example.) A format. -/
def exFormat : Format := ⟨fun _ => ['0'], fun _ => ['0'], fun _ => ['0'], fun _ => ['0']⟩

example : exFormat.Sane := by
  constructor <;> intro _ <;> exact plain_of_B (s := ['0']) (by decide)

/-- (Example.) A network on which only the empty set separates 1 and 2, and that does not know variable 9. -/
def exCi (x y : Int) (z : List Int) : Except Err Bool :=
  if x = 9 ∨ y = 9 then .error .keyError else .ok (decide (z = []))

/-- (Example.) Four calls, one of which fails. -/
def exQueries : List Query :=
  [⟨.test, 1, 2, [], 1⟩, ⟨.test, 1, 9, [], 1⟩, ⟨.heuristic, 1, 2, [3], 1⟩, ⟨.heuristic, 1, 2, [], 1⟩]

example : (asks exFormat true () exCi ⟨[], []⟩ exQueries).2 =
    [.ok (.verdict true), .error .keyError, .ok (.score 1), .ok (.score 0)] := by
  decide +kernel

example : ((asks exFormat true () exCi ⟨[], []⟩ exQueries).1.results.map (fun r => (r.index, r.extra))) =
    [(0, .number 0), (1, .number 1), (2, .number 1)] := by
  decide +kernel

/-- (Example.) A decided result that disagrees with d-separation. -/
def exWrong : Shown Unit :=
  ⟨history () [.setIndependent true (1/20), .setVariables (.int 1) (.int 2) (.many []), .setDSeparation false,
    .setStatistic ['G'] 3 (), .setDistribution ['c'] (1/2) ()], 7, 1, .text ['!']⟩

example : accurate exWrong.res = some false ∧ exWrong.res.insufficient ≠ some true ∧
    (∃ s, str exFormat exWrong = .ok s) := by
  refine ⟨by decide, by decide, (str_ok_iff _ _).1.2 ⟨by decide, .inr ⟨by decide, by decide, by decide⟩, by simp [exWrong]⟩⟩

example : ∃ s, str exFormat exWrong = .ok s ∧ '✘' ∈ s ∧ '✔' ∉ s := by
  refine ⟨_, rfl, ?_⟩
  decide +kernel

example : str exFormat (⟨history () [.setIndependent true 0], 0, 0, .none⟩ : Shown Unit) = .error .typeError := rfl

end Mbtk.CiResult
