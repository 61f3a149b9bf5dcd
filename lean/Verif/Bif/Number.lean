import Verif.Bif.Text
/-!
# The terminal `NUMBER` of lark's `common.lark`, as used by `utilities/bif/Grammar.py` (C110)
-/
namespace Mbtk.Bif.Text
open Mbtk Mbtk.Bif

/-- `INT: DIGIT+`. (Specification.) -/
def Digits (l : List Char) : Prop := l ≠ [] ∧ ∀ c ∈ l, '0' ≤ c ∧ c ≤ '9'

/-- `_EXP: ("e"|"E") ["+"|"-"] INT`. (Specification.) -/
def Exponent (l : List Char) : Prop :=
  ∃ e sign d, l = e :: (sign ++ d) ∧ (e = 'e' ∨ e = 'E') ∧ (sign = [] ∨ sign = ['+'] ∨ sign = ['-']) ∧ Digits d

/-- `DECIMAL: INT "." INT? | "." INT`. (Specification.) -/
def Decimal (l : List Char) : Prop :=
  ∃ a b, l = a ++ '.' :: b ∧ ((Digits a ∧ (b = [] ∨ Digits b)) ∨ (a = [] ∧ Digits b))

/-- `NUMBER: FLOAT | INT` with `FLOAT: INT _EXP | DECIMAL _EXP?`. (Specification.) -/
def LarkNumber (l : List Char) : Prop :=
  Digits l ∨ (∃ a e, l = a ++ e ∧ Digits a ∧ Exponent e) ∨ Decimal l ∨ ∃ a e, l = a ++ e ∧ Decimal a ∧ Exponent e

theorem isDig_iff (c : Char) : isDig c = true ↔ '0' ≤ c ∧ c ≤ '9' := by
  simp [isDig]

theorem isInt_iff (l : List Char) : isInt l = true ↔ Digits l := by
  simp [isInt, Digits, isDig_iff]

theorem digits_all {l : List Char} (h : Digits l) : l.all isDig = true := by
  rw [List.all_eq_true]; exact fun c hc => (isDig_iff c).mpr (h.2 c hc)

theorem isExp_iff (l : List Char) : isExp l = true ↔ Exponent l := by
  cases l with
  | nil => simp [isExp, Exponent]
  | cons c r =>
    cases r with
    | nil =>
      simp only [isExp, Bool.and_false, Bool.false_eq_true, false_iff]
      rintro ⟨e, sg, d, h, -, -, hd⟩
      simp only [List.cons.injEq] at h
      have := h.2.symm
      simp only [List.append_eq_nil_iff] at this
      exact hd.1 this.2
    | cons d t =>
      simp only [isExp, Bool.and_eq_true, Bool.or_eq_true, decide_eq_true_eq]
      by_cases hs : d = '+' ∨ d = '-'
      · rw [if_pos hs, isInt_iff]
        constructor
        · rintro ⟨h1, h2⟩
          refine ⟨c, [d], t, rfl, h1, ?_, h2⟩
          rcases hs with rfl | rfl
          · exact .inr (.inl rfl)
          · exact .inr (.inr rfl)
        · rintro ⟨e, sg, x, h, he, hsg, hx⟩
          simp only [List.cons.injEq] at h
          obtain ⟨rfl, h⟩ := h
          refine ⟨he, ?_⟩
          rcases hsg with rfl | rfl | rfl
          · simp only [List.nil_append] at h
            subst h
            have := hx.2 d (by simp)
            rcases hs with rfl | rfl <;> exact absurd this (by decide)
          · simp only [List.cons_append, List.nil_append, List.cons.injEq] at h; rw [h.2]; exact hx
          · simp only [List.cons_append, List.nil_append, List.cons.injEq] at h; rw [h.2]; exact hx
      · rw [if_neg hs, isInt_iff]
        constructor
        · rintro ⟨h1, h2⟩
          exact ⟨c, [], d :: t, rfl, h1, .inl rfl, h2⟩
        · rintro ⟨e, sg, x, h, he, hsg, hx⟩
          simp only [List.cons.injEq] at h
          obtain ⟨rfl, h⟩ := h
          refine ⟨he, ?_⟩
          rcases hsg with rfl | rfl | rfl
          · simp only [List.nil_append] at h; rw [h]; exact hx
          · simp only [List.cons_append, List.nil_append, List.cons.injEq] at h; exact absurd (.inl h.1) hs
          · simp only [List.cons_append, List.nil_append, List.cons.injEq] at h; exact absurd (.inr h.1) hs

theorem exp_head {l : List Char} (h : Exponent l) : ∀ c ∈ l.head?, isDig c = false ∧ c ≠ '.' := by
  obtain ⟨e, sg, d, rfl, he, -, -⟩ := h
  intro c hc
  simp only [List.head?_cons, Option.mem_def, Option.some.injEq] at hc
  subst hc
  rcases he with rfl | rfl <;> decide

theorem exp_ne {l : List Char} (h : Exponent l) : l ≠ [] := by
  obtain ⟨e, sg, d, rfl, -⟩ := h
  simp

theorem digits_takeWhile {l : List Char} (h : (l.takeWhile isDig).isEmpty = false) : Digits (l.takeWhile isDig) :=
  ⟨by simpa using h, fun c hc => (isDig_iff c).mp (mem_takeWhile hc)⟩

theorem isNumber_iff (l : List Char) : isNumber l = true ↔ LarkNumber l := by
  constructor
  · intro h
    have hl : l = l.takeWhile isDig ++ l.dropWhile isDig := (List.takeWhile_append_dropWhile).symm
    unfold isNumber at h
    cases hd : l.dropWhile isDig with
    | nil =>
      rw [hd] at h
      simp only [Bool.not_eq_true'] at h
      rw [hd, List.append_nil] at hl
      rw [hl]
      exact .inl (digits_takeWhile h)
    | cons c r =>
      rw [hd] at h
      simp only at h
      rw [hd] at hl
      by_cases hc : c = '.'
      · subst hc
        simp only [if_true, Bool.and_eq_true, Bool.or_eq_true, Bool.not_eq_true'] at h
        obtain ⟨h1, h2⟩ := h
        have hr : r = r.takeWhile isDig ++ r.dropWhile isDig := (List.takeWhile_append_dropWhile).symm
        have hdec : Decimal (l.takeWhile isDig ++ '.' :: r.takeWhile isDig) := by
          refine ⟨_, _, rfl, ?_⟩
          cases ha : (l.takeWhile isDig).isEmpty with
          | false =>
            refine .inl ⟨digits_takeWhile ha, ?_⟩
            cases hb : (r.takeWhile isDig).isEmpty with
            | true => exact .inl (by simpa using hb)
            | false => exact .inr (digits_takeWhile hb)
          | true =>
            refine .inr ⟨by simpa using ha, ?_⟩
            rcases h1 with h1 | h1
            · rw [ha] at h1; cases h1
            · exact digits_takeWhile h1
        rcases h2 with h2 | h2
        · have h3 : r.dropWhile isDig = [] := by simpa using h2
          rw [h3, List.append_nil] at hr
          rw [← hr] at hdec
          rw [hl]
          exact .inr (.inr (.inl hdec))
        · refine .inr (.inr (.inr ⟨_, _, ?_, hdec, (isExp_iff _).mp h2⟩))
          conv => lhs; rw [hl, hr]
          simp
      · rw [if_neg hc] at h
        simp only [Bool.and_eq_true, Bool.not_eq_true'] at h
        exact .inr (.inl ⟨_, _, hl, digits_takeWhile h.1, (isExp_iff _).mp h.2⟩)
  · have hdot : ∀ b : List Char, ∀ c ∈ ('.' :: b).head?, isDig c = false := by
      intro b c hc
      simp only [List.head?_cons, Option.mem_def, Option.some.injEq] at hc
      subst hc; decide
    have dec : ∀ a b e : List Char, ((Digits a ∧ (b = [] ∨ Digits b)) ∨ (a = [] ∧ Digits b)) →
        (e = [] ∨ Exponent e) → isNumber (a ++ '.' :: b ++ e) = true := by
      intro a b e hab he
      have ha : a.all isDig = true := by
        rcases hab with h | h
        · exact digits_all h.1
        · rw [h.1]; rfl
      have hb : b.all isDig = true := by
        rcases hab with ⟨_, rfl | h⟩ | h
        · rfl
        · exact digits_all h
        · exact digits_all h.2
      have hehead : ∀ c ∈ e.head?, isDig c = false := by
        rcases he with rfl | he
        · simp
        · exact fun c hc => (exp_head he c hc).1
      have e0 : a ++ '.' :: b ++ e = a ++ ('.' :: (b ++ e)) := by simp
      obtain ⟨e1, e2⟩ := takeWhile_run ha (hdot (b ++ e))
      obtain ⟨e3, e4⟩ := takeWhile_run hb hehead
      unfold isNumber
      rw [e0, e1, e2]
      simp only [if_true, e3, e4]
      rw [Bool.and_eq_true]
      constructor
      · rcases hab with h | h
        · have : a.isEmpty = false := by simpa using h.1.1
          rw [this]; rfl
        · have : b.isEmpty = false := by simpa using h.2.1
          rw [this]; simp
      · rcases he with rfl | he
        · rfl
        · rw [(isExp_iff e).mpr he]; simp
    rintro (h | ⟨a, e, rfl, ha, he⟩ | ⟨a, b, rfl, hab⟩ | ⟨_, e, rfl, ⟨a, b, rfl, hab⟩, he⟩)
    · obtain ⟨e1, e2⟩ := takeWhile_run (r := []) (digits_all h) (by simp)
      rw [List.append_nil] at e1 e2
      unfold isNumber
      rw [e1, e2]
      simpa using h.1
    · obtain ⟨e1, e2⟩ := takeWhile_run (digits_all ha) (fun c hc => (exp_head he c hc).1)
      unfold isNumber
      rw [e1, e2]
      cases e with
      | nil => exact absurd rfl (exp_ne he)
      | cons c r =>
        have hc : ¬ c = '.' := (exp_head he c (by simp)).2
        simp only [if_neg hc, (isExp_iff _).mpr he, Bool.and_true]
        simpa using ha.1
    · simpa using dec a b [] hab (.inl rfl)
    · exact dec a b e hab (.inr he)

theorem digits_numChar {l : List Char} (h : Digits l) : ∀ c ∈ l, isNumChar c = true := fun c hc => by
  have := (isDig_iff c).mpr (h.2 c hc)
  simp [isNumChar, this]

theorem exp_numChar {l : List Char} (h : Exponent l) : ∀ c ∈ l, isNumChar c = true := by
  obtain ⟨e, sg, d, rfl, he, hs, hd⟩ := h
  intro c hc
  simp only [List.mem_cons, List.mem_append] at hc
  rcases hc with rfl | hc | hc
  · rcases he with rfl | rfl <;> decide
  · rcases hs with rfl | rfl | rfl
    · cases hc
    · simp only [List.mem_singleton] at hc; subst hc; decide
    · simp only [List.mem_singleton] at hc; subst hc; decide
  · exact digits_numChar hd c hc

theorem decimal_numChar {l : List Char} (h : Decimal l) : ∀ c ∈ l, isNumChar c = true := by
  obtain ⟨a, b, rfl, h⟩ := h
  intro c hc
  simp only [List.mem_cons, List.mem_append] at hc
  rcases hc with hc | rfl | hc
  · rcases h with h | h
    · exact digits_numChar h.1 c hc
    · rw [h.1] at hc; cases hc
  · decide
  · rcases h with ⟨_, rfl | h⟩ | h
    · cases hc
    · exact digits_numChar h c hc
    · exact digits_numChar h.2 c hc

/-- **C110**: the numbers of the model are the texts of lark's terminal `NUMBER`. -/
theorem number_terminal (s : String) : (Tok.num s).Valid ↔ LarkNumber s.toList := by
  constructor
  · exact fun h => (isNumber_iff _).mp h.2
  · intro h
    refine ⟨?_, (isNumber_iff _).mpr h⟩
    rw [List.all_eq_true]
    intro c hc
    rcases h with h | ⟨a, e, h, ha, he⟩ | h | ⟨a, e, h, ha, he⟩
    · exact digits_numChar h c hc
    · rw [h] at hc
      rcases List.mem_append.mp hc with hc | hc
      · exact digits_numChar ha c hc
      · exact exp_numChar he c hc
    · exact decimal_numChar h c hc
    · rw [h] at hc
      rcases List.mem_append.mp hc with hc | hc
      · exact decimal_numChar ha c hc
      · exact exp_numChar he c hc

example : LarkNumber "1.5e-3".toList :=
  (number_terminal _).mp ⟨by decide +kernel, by decide +kernel⟩

end Mbtk.Bif.Text
