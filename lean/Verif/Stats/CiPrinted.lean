import Verif.Stats.CiText
import Verif.Exp.NumberText
/-!
# A printed CI test names its test and its verdict (C105), and results are equal up to 1e-11 (C64)

What can be read back from `str(result)` (CITestResult.py 191-261), whatever the formats of the numbers; the
text with Python's formats; and `==` (CITestResult.py 43-59) of results made with the setters.
-/
namespace Mbtk.CiResult
open Mbtk.Dataset Mbtk.Dataset.Rcv Mbtk.Exp Spec
variable {P : Type} [DecidableEq P]

/-! ## Characters of a representation -/

/-- A character that a representation of variables can have. (Models no code: a notion for statements and
proofs.) -/
def ReprChar (c : Char) : Prop := NumChar c ∨ c ∈ ['∅', 'Ω', '{', '}', ',', ' ', 'u', 'n', 'a', 'm', 'e', 'd']

instance (c : Char) : Decidable (ReprChar c) := by unfold ReprChar; infer_instance

theorem reprChar_commaJoin (l : List Int) : ∀ c ∈ commaJoin l, ReprChar c := by
  fun_induction commaJoin l with
  | case1 => intro c hc; simp at hc
  | case2 x => exact fun c hc => .inl (intStr_chars x c hc)
  | case3 x y rest ih =>
    intro c hc
    rcases List.mem_append.1 hc with hc | hc
    · rcases List.mem_append.1 hc with hc | hc
      · exact .inl (intStr_chars x c hc)
      · right
        simp only [List.mem_cons, List.not_mem_nil, or_false] at hc
        rcases hc with rfl | rfl <;> decide
    · exact ih c hc

theorem reprChar_repr (a : VarArg) : ∀ c ∈ repr a, ReprChar c := by
  rw [repr_text]
  intro c hc
  cases h : meaning a with
  | nothing => rw [h] at hc; revert c; decide
  | empty => rw [h] at hc; revert c; decide
  | unnamed => rw [h] at hc; revert c; decide
  | ids x xs =>
    rw [h] at hc
    cases xs with
    | nil => exact .inl (intStr_chars x c hc)
    | cons y ys =>
      rcases List.mem_append.1 hc with hc | hc
      · rcases List.mem_append.1 hc with hc | hc
        · right; simp only [List.mem_singleton] at hc; subst hc; decide
        · exact reprChar_commaJoin _ c hc
      · right; simp only [List.mem_singleton] at hc; subst hc; decide

theorem notin_repr {c : Char} (hc : ¬ ReprChar c) (a : VarArg) : c ∉ repr a :=
  fun h => hc (reprChar_repr a c h)

/-- No space at either end. (Models no code: a notion for statements and proofs.) -/
def Trim (s : Str) : Prop := s.head? ≠ some ' ' ∧ s.getLast? ≠ some ' '

theorem trim_repr (a : VarArg) : Trim (repr a) := by
  rw [repr_text]
  have num : ∀ n : Int, Trim (intStr n) := fun n =>
    ⟨fun h => notin_intStr (by decide) n (List.mem_of_head? h),
      fun h => notin_intStr (by decide) n (List.mem_of_getLast? h)⟩
  cases h : meaning a with
  | nothing => exact ⟨by decide, by decide⟩
  | empty => exact ⟨by decide, by decide⟩
  | unnamed => exact ⟨by decide, by decide⟩
  | ids x xs =>
    cases xs with
    | nil => exact num x
    | cons y ys =>
      refine ⟨?_, ?_⟩
      · show (['{'] ++ commaJoin (x :: y :: ys) ++ ['}']).head? ≠ _
        simp
      · show (['{'] ++ commaJoin (x :: y :: ys) ++ ['}']).getLast? ≠ _
        rw [List.getLast?_concat]; decide

theorem spaces_inj : ∀ {n n' : Nat} {s s' : Str}, s.head? ≠ some ' ' → s'.head? ≠ some ' ' →
    List.replicate n ' ' ++ s = List.replicate n' ' ' ++ s' → s = s' := by
  intro n
  induction n with
  | zero =>
    intro n' s s' h h' e
    cases n' with
    | zero => simpa using e
    | succ n' =>
      exfalso; apply h
      rw [show List.replicate 0 ' ' ++ s = s from by simp] at e
      rw [e, List.replicate_succ]; rfl
  | succ n ih =>
    intro n' s s' h h' e
    cases n' with
    | zero =>
      exfalso; apply h'
      rw [show List.replicate 0 ' ' ++ s' = s' from by simp] at e
      rw [← e, List.replicate_succ]; rfl
    | succ n' =>
      rw [List.replicate_succ, List.replicate_succ, List.cons_append, List.cons_append] at e
      exact ih h h' (List.cons.inj e).2

theorem padLeft_inj {n : Nat} {s s' : Str} (h : Trim s) (h' : Trim s') (e : padLeft n s = padLeft n s') : s = s' :=
  spaces_inj h.1 h'.1 e

theorem padRight_inj {n : Nat} {s s' : Str} (h : Trim s) (h' : Trim s') (e : padRight n s = padRight n s') : s = s' := by
  have e2 := congrArg List.reverse e
  unfold padRight at e2
  rw [List.reverse_append, List.reverse_append, List.reverse_replicate, List.reverse_replicate] at e2
  have := spaces_inj (by rw [List.head?_reverse]; exact h.2) (by rw [List.head?_reverse]; exact h'.2) e2
  exact List.reverse_injective this

theorem notin_pad {c : Char} (hc : c ≠ ' ') {s : Str} (h : c ∉ s) (n : Nat) : c ∉ padLeft n s ∧ c ∉ padRight n s := by
  have hr : ∀ m, c ∉ List.replicate m ' ' := fun m hm => hc (List.mem_replicate.1 hm).2
  exact ⟨fun hm => (List.mem_append.1 hm).elim (hr _) h, fun hm => (List.mem_append.1 hm).elim h (hr _)⟩

/-! ## The head of the line -/

/-- The head of the line, as a text. (Models no code: a notion for statements and proofs.) -/
def headOf (i : Int) (x y z : Str) : Str :=
  "CI test ".toList ++ intStr i ++ ": ".toList ++ padLeft 4 x ++ " ⊥ ".toList ++
      padRight 4 y ++ " | ".toList ++ padRight 20 z ++ ": ".toList

theorem headOf_cons (i : Int) (x y z t : Str) : headOf i x y z ++ t =
    ['C', 'I', ' ', 't', 'e', 's', 't', ' '] ++ (intStr i ++ ':' :: (' ' :: (padLeft 4 x ++ ' ' ::
      ('⊥' :: ' ' :: (padRight 4 y ++ [' '] ++ '|' :: ' ' :: (padRight 20 z ++ ':' :: ' ' :: t)))))) := by
  have a1 : "CI test ".toList = ['C', 'I', ' ', 't', 'e', 's', 't', ' '] := by decide
  have a2 : ": ".toList = [':', ' '] := by decide
  have a3 : " ⊥ ".toList = [' ', '⊥', ' '] := by decide
  have a4 : " | ".toList = [' ', '|', ' '] := by decide
  unfold headOf
  rw [a1, a2, a3, a4]
  simp only [List.append_assoc, List.cons_append, List.nil_append]

theorem head_inj {i i' : Int} {X Y Z X' Y' Z' : VarArg} {t t' : Str}
    (h : headOf i (repr X) (repr Y) (repr Z) ++ t = headOf i' (repr X') (repr Y') (repr Z') ++ t') :
    i = i' ∧ meaning X = meaning X' ∧ meaning Y = meaning Y' ∧ meaning Z = meaning Z' ∧ t = t' := by
  rw [headOf_cons, headOf_cons] at h
  have h := List.append_cancel_left h
  obtain ⟨h1, h⟩ := sep_inj (notin_intStr (by decide) _) (notin_intStr (by decide) _) h
  have h := (List.cons.inj h).2
  have hx : ∀ A : VarArg, '⊥' ∉ padLeft 4 (repr A) ++ [' '] := fun A hm =>
    (List.mem_append.1 hm).elim (notin_pad (by decide) (notin_repr (by decide) A) 4).1 (by decide)
  have h : (padLeft 4 (repr X) ++ [' ']) ++ '⊥' :: ' ' :: (padRight 4 (repr Y) ++ [' '] ++ '|' :: ' ' ::
      (padRight 20 (repr Z) ++ ':' :: ' ' :: t)) = (padLeft 4 (repr X') ++ [' ']) ++ '⊥' :: ' ' ::
      (padRight 4 (repr Y') ++ [' '] ++ '|' :: ' ' :: (padRight 20 (repr Z') ++ ':' :: ' ' :: t')) := by
    simpa only [List.append_assoc, List.cons_append, List.nil_append] using h
  obtain ⟨h2, h⟩ := sep_inj (hx X) (hx X') h
  have h2 := padLeft_inj (trim_repr X) (trim_repr X') (List.append_cancel_right h2)
  have h := (List.cons.inj h).2
  have hy : ∀ A : VarArg, '|' ∉ padRight 4 (repr A) ++ [' '] := fun A hm =>
    (List.mem_append.1 hm).elim (notin_pad (by decide) (notin_repr (by decide) A) 4).2 (by decide)
  obtain ⟨h3, h⟩ := sep_inj (hy Y) (hy Y') h
  have h3 := padRight_inj (trim_repr Y) (trim_repr Y') (List.append_cancel_right h3)
  have h := (List.cons.inj h).2
  have hz : ∀ A : VarArg, ':' ∉ padRight 20 (repr A) := fun A => (notin_pad (by decide) (notin_repr (by decide) A) 20).2
  obtain ⟨h4, h⟩ := sep_inj (hz Z) (hz Z') h
  have h4 := padRight_inj (trim_repr Z) (trim_repr Z') h4
  exact ⟨intStr_injective h1, (repr_exact _ _).1 h2, (repr_exact _ _).1 h3, (repr_exact _ _).1 h4, (List.cons.inj h).2⟩

/-! ## The whole line -/

/-- What follows the head says whether the samples were insufficient, which verdict was taken, and how it
compares to d-separation. (Models no code: a notion for statements and proofs.) -/
def Tail (r : Res P) (t : Str) : Prop :=
  (r.insufficient = some true ∧ ∃ u, t = 'I' :: 'N' :: u) ∨
    (r.insufficient ≠ some true ∧ ∃ u, t = mark r ++ ' ' :: u)

omit [DecidableEq P] in
theorem mark_cases (r : Res P) : ∃ c : Char, (c = 'I' ↔ r.independent = some true) ∧ (c = 'I' ∨ c = 'D') ∧
    ((accurate r = none ∧ mark r = [c]) ∨ (accurate r = some true ∧ mark r = [c, '✔']) ∨
      (accurate r = some false ∧ mark r = [c, '✘'])) := by
  unfold mark
  by_cases hi : r.independent = some true
  · refine ⟨'I', by simp [hi], .inl rfl, ?_⟩
    rw [if_pos hi]
    rcases h : accurate r with _ | b
    · exact .inl ⟨rfl, rfl⟩
    · cases b
      · exact .inr (.inr ⟨rfl, rfl⟩)
      · exact .inr (.inl ⟨rfl, rfl⟩)
  · refine ⟨'D', by simp [hi], .inr rfl, ?_⟩
    rw [if_neg hi]
    rcases h : accurate r with _ | b
    · exact .inl ⟨rfl, rfl⟩
    · cases b
      · exact .inr (.inr ⟨rfl, rfl⟩)
      · exact .inr (.inl ⟨rfl, rfl⟩)

omit [DecidableEq P] in
theorem tail_inj {r r' : Res P} {t : Str} (h : Tail r t) (h' : Tail r' t) :
    (r.insufficient = some true ↔ r'.insufficient = some true) ∧
    (r.insufficient ≠ some true →
      (r.independent = some true ↔ r'.independent = some true) ∧ accurate r = accurate r') := by
  rcases h with ⟨h, u, e⟩ | ⟨h, u, e⟩
  · rcases h' with ⟨h', u', e'⟩ | ⟨h', u', e'⟩
    · exact ⟨by simp [h, h'], fun h2 => absurd h h2⟩
    · exfalso
      obtain ⟨c, -, -, hm⟩ := mark_cases r'
      rw [e] at e'
      rcases hm with ⟨-, hm⟩ | ⟨-, hm⟩ | ⟨-, hm⟩ <;> rw [hm] at e' <;> simp at e'
  · rcases h' with ⟨h', u', e'⟩ | ⟨h', u', e'⟩
    · exfalso
      obtain ⟨c, -, -, hm⟩ := mark_cases r
      rw [e'] at e
      rcases hm with ⟨-, hm⟩ | ⟨-, hm⟩ | ⟨-, hm⟩ <;> rw [hm] at e <;> simp at e
    · refine ⟨by simp [h, h'], fun _ => ?_⟩
      obtain ⟨c, hc, -, hm⟩ := mark_cases r
      obtain ⟨c', hc', -, hm'⟩ := mark_cases r'
      rw [e] at e'
      rcases hm with ⟨ha, hm⟩ | ⟨ha, hm⟩ | ⟨ha, hm⟩ <;> rcases hm' with ⟨ha', hm'⟩ | ⟨ha', hm'⟩ | ⟨ha', hm'⟩ <;>
        rw [hm, hm'] at e' <;> simp at e' <;> rw [← hc, ← hc', ha, ha'] <;> simp [e']

/-- The colour at the start of a line is none, yellow or red. (Models no code: a notion for statements and
proofs.) -/
def Start (c : Str) : Prop := c = [] ∨ c = colour "93".toList ∨ c = colour "91".toList

theorem start_C {c : Str} (h : Start c) : 'C' ∉ c := by
  rcases h with rfl | rfl | rfl <;> decide

omit [DecidableEq P] in
theorem str_shape (F : Format) (r : Shown P) {x y z s : Str} (hv : r.res.variables' = some (x, y, z))
    (h : str F r = .ok s) : ∃ c t, Start c ∧ s = c ++ (headOf r.index x y z ++ t) ∧ Tail r.res t := by
  have hh : headText r = .ok (headOf r.index x y z) := by unfold headText; rw [hv]; rfl
  have key : ∀ out, (if r.res.insufficient = some true then insufficientText F r else sufficientText F r) = .ok out →
      ∃ c t, Start c ∧ out = c ++ (headOf r.index x y z ++ t) ∧ Tail r.res t := by
    intro out ho
    by_cases hi : r.res.insufficient = some true
    · rw [if_pos hi] at ho
      unfold insufficientText at ho
      rw [hh] at ho
      have ho := Except.ok.inj ho
      refine ⟨_, 'I' :: 'N' :: ("SUFFICIENT SAMPLES".toList ++ ", Δt=".toList ++
        F.duration r.duration ++ "s".toList ++ colour "0".toList), .inr (.inl rfl), ?_, .inl ⟨hi, _, rfl⟩⟩
      rw [← ho]
      have : "INSUFFICIENT SAMPLES".toList = 'I' :: 'N' :: "SUFFICIENT SAMPLES".toList := by decide
      rw [this]
      simp only [List.append_assoc, List.cons_append]
    · rw [if_neg hi] at ho
      unfold sufficientText at ho
      rw [hh] at ho
      simp only [] at ho
      cases h1 : r.res.significance with
      | none => rw [h1] at ho; cases ho
      | some a =>
        cases h2 : r.res.statisticValue with
        | none => rw [h1, h2] at ho; cases ho
        | some b =>
          cases h3 : r.res.pValue with
          | none => rw [h1, h2, h3] at ho; cases ho
          | some d =>
            rw [h1, h2, h3] at ho
            have ho := Except.ok.inj ho
            refine ⟨(codes r.res).1, mark r.res ++ ' ' :: (['@', ' '] ++ F.significance a ++ " with ".toList ++
              orNone r.res.statistic ++ "=".toList ++ F.statistic b ++ " at p=".toList ++ F.pValue d ++ " on ".toList ++
              orNone r.res.distribution ++ ", Δt=".toList ++ F.duration r.duration ++ "s".toList ++ (codes r.res).2),
              ?_, ?_, .inr ⟨hi, _, rfl⟩⟩
            · unfold codes
              by_cases hc : accurate r.res = some false
              · rw [if_pos hc]; exact .inr (.inr rfl)
              · rw [if_neg hc]; exact .inl rfl
            · rw [← ho]
              have : " @ ".toList = [' ', '@', ' '] := by decide
              rw [this]
              simp only [List.append_assoc, List.cons_append, List.nil_append]
  unfold str at h
  cases ho : (if r.res.insufficient = some true then insufficientText F r else sufficientText F r) with
  | error e => rw [ho] at h; cases h
  | ok out =>
    rw [ho] at h
    obtain ⟨c, t, hc, rfl, ht⟩ := key out ho
    have more : ∀ e, Tail r.res (t ++ e) := by
      intro e
      rcases ht with ⟨hi, u, rfl⟩ | ⟨hi, u, rfl⟩
      · exact .inl ⟨hi, u ++ e, rfl⟩
      · exact .inr ⟨hi, u ++ e, by simp⟩
    cases he : r.extra with
    | none => rw [he] at h; exact ⟨c, t, hc, (Except.ok.inj h).symm, ht⟩
    | text e =>
      rw [he] at h
      exact ⟨c, t ++ e, hc, by rw [← Except.ok.inj h]; simp only [List.append_assoc], more e⟩
    | number n => rw [he] at h; cases h

omit [DecidableEq P] in
/-- **C105.**  The printed line identifies the test and its verdict: if two results print the same text, they
have the same index, the same variables (as far as their representations tell: C64), both or neither had
insufficient samples, and otherwise the same verdict and the same comparison with d-separation.  This holds
however numbers are written. -/
theorem printed_identifies (F F' : Format) (r r' : Shown P) (X Y Z X' Y' Z' : VarArg) (s : Str)
    (hv : r.res.variables' = some (repr X, repr Y, repr Z))
    (hv' : r'.res.variables' = some (repr X', repr Y', repr Z'))
    (h : str F r = .ok s) (h' : str F' r' = .ok s) :
    r.index = r'.index ∧ meaning X = meaning X' ∧ meaning Y = meaning Y' ∧ meaning Z = meaning Z' ∧
    (r.res.insufficient = some true ↔ r'.res.insufficient = some true) ∧
    (r.res.insufficient ≠ some true →
      (r.res.independent = some true ↔ r'.res.independent = some true) ∧ accurate r.res = accurate r'.res) := by
  obtain ⟨c, t, hc, e, ht⟩ := str_shape F r hv h
  obtain ⟨c', t', hc', e', ht'⟩ := str_shape F' r' hv' h'
  rw [e, headOf_cons, headOf_cons] at e'
  obtain ⟨rfl, h2⟩ := sep_inj (start_C hc) (start_C hc') e'
  have h3 : headOf r.index (repr X) (repr Y) (repr Z) ++ t = headOf r'.index (repr X') (repr Y') (repr Z') ++ t' := by
    rw [headOf_cons, headOf_cons]
    exact congrArg (List.cons 'C') h2
  obtain ⟨a1, a2, a3, a4, rfl⟩ := head_inj h3
  exact ⟨a1, a2, a3, a4, tail_inj ht ht'⟩

/-! ## Python's formats -/

/-- `'{:n.pf}'`, right-aligned, also for negative numbers. (Python itself.) -/
def signed (p : Nat) (x : ℚ) : Str := if x < 0 then '-' :: NumText.fixed p (-x) else NumText.fixed p x

/-- The formats of CITestResult.py 233-236, 258. -/
def pyFormat : Format where
  significance q := padLeft 6 (signed 4 q)
  statistic q := padLeft 8 (signed 6 q)
  pValue q := padRight 8 (signed 6 q)
  duration q := padLeft 10 (signed 4 q)

theorem plain_natText (n : Nat) : Plain (NumText.natText n) := by
  intro c hc
  have hd : c.isDigit = true := Nat.isDigit_of_mem_toDigits (by decide) (by decide) hc
  refine ⟨?_, ?_, ?_⟩ <;> rintro rfl <;> revert hd <;> decide

theorem plain_fixed (p : Nat) (x : ℚ) : Plain (NumText.fixed p x) := by
  unfold NumText.fixed NumText.zeroPad
  refine (plain_natText _).append ?_
  refine Plain.append (s := ['.']) (plain_of_B (by decide)) (Plain.append ?_ (plain_natText _))
  intro c hc
  rw [(List.mem_replicate.1 hc).2]
  decide

theorem plain_signed (p : Nat) (x : ℚ) : Plain (signed p x) := by
  unfold signed
  by_cases h : x < 0
  · rw [if_pos h]
    exact Plain.append (s := ['-']) (plain_of_B (by decide)) (plain_fixed p _)
  · rw [if_neg h]
    exact plain_fixed p x

/-- Python's formats meet the hypothesis of the theorems of C105. -/
theorem pyFormat_sane : pyFormat.Sane :=
  ⟨fun q => (plain_pad 6 (plain_signed 4 q)).1, fun q => (plain_pad 8 (plain_signed 6 q)).1,
    fun q => (plain_pad 8 (plain_signed 6 q)).2, fun q => (plain_pad 10 (plain_signed 4 q)).1⟩

/-- (Example.) A decided result that agrees with d-separation. -/
def exRight : Shown Unit :=
  ⟨history () [.setVariables (.int 1) (.int 2) (.many [3, 4]), .setStatistic "G".toList (1234567 / 100000) (),
    .setDistribution "chi2".toList (1 / 4) (), .setIndependent true (1 / 20), .setDSeparation true],
    7, 3 / 2, .none⟩

/-- The line that is printed for it, in full. -/
theorem exRight_line : str pyFormat exRight =
    .ok "CI test 7:    1 ⊥ 2    | {3, 4}              : I✔ @ 0.0500 with G=12.345670 at p=0.250000 on chi2, Δt=    1.5000s".toList := by
  have e : Except.toOption (str pyFormat exRight) = some
      "CI test 7:    1 ⊥ 2    | {3, 4}              : I✔ @ 0.0500 with G=12.345670 at p=0.250000 on chi2, Δt=    1.5000s".toList := by
    decide +kernel
  cases h : str pyFormat exRight with
  | error e' => rw [h] at e; cases e
  | ok s => rw [h] at e; exact congrArg Except.ok (Option.some.inj e)

/-- (Example.) Insufficient samples. -/
def exShort : Shown Unit :=
  ⟨history () [.setVariables (.single 5) (.int (-1)) .omega, .setInsufficientSamples], 12, 0, .text " !".toList⟩

theorem exShort_line : str pyFormat exShort =
    .ok "\x1b[93mCI test 12:    5 ⊥ unnamed | Ω                   : INSUFFICIENT SAMPLES, Δt=    0.0000s\x1b[0m !".toList := by
  have e : Except.toOption (str pyFormat exShort) = some
      "\x1b[93mCI test 12:    5 ⊥ unnamed | Ω                   : INSUFFICIENT SAMPLES, Δt=    0.0000s\x1b[0m !".toList := by
    decide +kernel
  cases h : str pyFormat exShort with
  | error e' => rw [h] at e; cases e
  | ok s => rw [h] at e; exact congrArg Except.ok (Option.some.inj e)

/-! ## Equality up to 1e-11 -/

omit [DecidableEq P] in
theorem tolerance_kept (empty : P) (ops : List (Op P)) :
    (history empty ops).tolStatistic = 1 / 10 ^ 11 ∧ (history empty ops).tolP = 1 / 10 ^ 11 := by
  have : ∀ (ops : List (Op P)) (r : Res P), (ops.foldl Op.apply r).tolStatistic = r.tolStatistic ∧
      (ops.foldl Op.apply r).tolP = r.tolP := by
    intro ops
    induction ops with
    | nil => intro r; exact ⟨rfl, rfl⟩
    | cons o ops ih =>
      intro r
      obtain ⟨h1, h2⟩ := ih (o.apply r)
      rw [List.foldl_cons, h1, h2]
      cases o <;> exact ⟨rfl, rfl⟩
  obtain ⟨h1, h2⟩ := this ops (fresh empty)
  refine ⟨h1.trans ?_, h2.trans ?_⟩ <;> norm_num [fresh]

/-- **C64.**  Two results made with the setters are equal exactly if all their attributes agree, except the
value of the statistic and the p-value, which may differ by 1e-11. -/
theorem eq_exact (empty : P) (ops ops' : List (Op P)) (s s' p p' : ℚ)
    (hs : (history empty ops).statisticValue = some s) (hs' : (history empty ops').statisticValue = some s')
    (hp : (history empty ops).pValue = some p) (hp' : (history empty ops').pValue = some p') :
    let a := history empty ops
    let b := history empty ops'
    (eq a b = .ok true ↔ a.independent = b.independent ∧ a.dependent = b.dependent ∧
      a.insufficient = b.insufficient ∧ a.variables' = b.variables' ∧ a.statistic = b.statistic ∧
      |s - s'| ≤ 1 / 10 ^ 11 ∧ a.statisticParameters = b.statisticParameters ∧ a.distribution = b.distribution ∧
      a.distributionParameters = b.distributionParameters ∧ |p - p'| ≤ 1 / 10 ^ 11 ∧
      a.significance = b.significance ∧ a.dSeparation = b.dSeparation) ∧
    (eq a b ≠ .ok true → eq a b = .ok false) := by
  intro a b
  obtain ⟨t1, t2⟩ := tolerance_kept empty ops
  have c1 : close a.statisticValue b.statisticValue a.tolStatistic = .ok (decide (|s - s'| ≤ 1 / 10 ^ 11)) := by
    show close (history empty ops).statisticValue (history empty ops').statisticValue _ = _
    rw [hs, hs', t1]; rfl
  have c2 : close a.pValue b.pValue a.tolP = .ok (decide (|p - p'| ≤ 1 / 10 ^ 11)) := by
    show close (history empty ops).pValue (history empty ops').pValue _ = _
    rw [hp, hp', t2]; rfl
  unfold eq
  rw [c1, c2]
  by_cases g1 : a.independent = b.independent ∧ a.dependent = b.dependent ∧ a.insufficient = b.insufficient ∧
      a.variables' = b.variables' ∧ a.statistic = b.statistic
  · rw [if_pos g1]
    by_cases g2 : |s - s'| ≤ 1 / 10 ^ 11
    · rw [decide_eq_true g2]
      simp only []
      by_cases g3 : a.statisticParameters = b.statisticParameters ∧ a.distribution = b.distribution ∧
          a.distributionParameters = b.distributionParameters
      · rw [if_pos g3]
        by_cases g4 : |p - p'| ≤ 1 / 10 ^ 11
        · rw [decide_eq_true g4]
          simp only [Except.ok.injEq, decide_eq_true_eq]
          refine ⟨by tauto, ?_⟩
          intro h
          simpa using h
        · rw [decide_eq_false g4]
          simp only [Except.ok.injEq]
          refine ⟨⟨fun h => (by cases h), fun h => (by tauto)⟩, by simp⟩
      · rw [if_neg g3]
        refine ⟨⟨fun h => (by cases h), fun h => (by tauto)⟩, fun _ => rfl⟩
    · rw [decide_eq_false g2]
      simp only []
      refine ⟨⟨fun h => (by cases h), fun h => (by tauto)⟩, by simp⟩
  · rw [if_neg g1]
    refine ⟨⟨fun h => (by cases h), fun h => (by tauto)⟩, fun _ => rfl⟩

/-- The hypotheses of `eq_exact` and of `printed_identifies` can be met. -/
example : (history () [.setStatistic ['G'] 3 (), .setDistribution ['c'] (1 / 2) (), .setIndependent true (1 / 20)]).statisticValue
      = some 3 ∧ exRight.res.variables' = some (repr (.int 1), repr (.int 2), repr (.many [3, 4])) ∧
    exShort.res.variables' = some (repr (.single 5), repr (.int (-1)), repr .omega) := ⟨rfl, rfl, rfl⟩

end Mbtk.CiResult
