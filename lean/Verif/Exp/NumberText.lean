import Verif.Fp.Binary64
import Verif.Py
import Mathlib.Tactic.Positivity
import Mathlib.Tactic.FieldSimp
/-!
# How Python writes numbers (used by C112)

The formats `'{:.pf}'` and `'{:.p}'` of a non-negative float, as texts, with what a reader makes of them.
The value of a float is a rational number, and Python rounds it exactly, ties to an even last digit.
-/
namespace Mbtk.NumText
open Mbtk.Fp

/-! ## Model -/

/-- `str(n)` of a natural number. (Python itself.) -/
def natText (n : Nat) : List Char := Nat.toDigits 10 n

/-- A natural number with zeros in front, up to `k` digits. (Python itself.) -/
def zeroPad (k n : Nat) : List Char := List.replicate (k - (natText n).length) '0' ++ natText n

/-- `'{:.pf}'.format(x)` for `0 ≤ x`, `1 ≤ p`. (Python itself.) -/
def fixed (p : Nat) (x : ℚ) : List Char :=
  natText ((halfEven (x * 10 ^ p)).toNat / 10 ^ p) ++ '.' :: zeroPad p ((halfEven (x * 10 ^ p)).toNat % 10 ^ p)

/-- Without the zeros at the end. (Python itself.) -/
def stripZeros (s : List Char) : List Char := (s.reverse.dropWhile (· == '0')).reverse

/-- The significant digits, as a whole number, and the decimal exponent of the first of them.
(Python itself.) -/
def significand (p : Nat) (x : ℚ) : Nat × ℤ :=
  if (halfEven (x / 10 ^ (Int.log 10 x - ((p : ℤ) - 1)))).toNat = 10 ^ p then (10 ^ (p - 1), Int.log 10 x + 1)
  else ((halfEven (x / 10 ^ (Int.log 10 x - ((p : ℤ) - 1)))).toNat, Int.log 10 x)

/-- Digits after the point, at least one. (Python itself.) -/
def fraction (f : List Char) : List Char := if stripZeros f = [] then ['0'] else stripZeros f

/-- `m / 10 ^ d` in digits. (Python itself.) -/
def positional (m d : Nat) : List Char := natText (m / 10 ^ d) ++ '.' :: fraction (zeroPad d (m % 10 ^ d))

/-- The digits in the scientific notation: a point only if digits follow. (Python itself.) -/
def pointed : List Char → List Char
  | [] => []
  | c :: t => c :: (if stripZeros t = [] then [] else '.' :: stripZeros t)

/-- The exponent with its sign, of two digits or more. (Python itself.) -/
def exponentText (e : ℤ) : List Char := (if e < 0 then '-' else '+') :: zeroPad 2 e.natAbs

/-- `'{:.p}'.format(x)` for a float `0 ≤ x`, `1 ≤ p`: like `g`, but with at least one digit after the point,
and scientific from `10 ^ (p - 1)` on. (Python itself.) -/
def general (p : Nat) (x : ℚ) : List Char :=
  if x = 0 then ['0', '.', '0']
  else if -5 < (significand p x).2 ∧ (significand p x).2 < (p : ℤ) - 1 then
    positional (significand p x).1 ((p : ℤ) - 1 - (significand p x).2).toNat
  else pointed (natText (significand p x).1) ++ 'e' :: exponentText (significand p x).2

/-! ## Specification: reading a number -/

/-- The number that digits stand for. (Specification.) -/
def digitsNat (s : List Char) : Nat := Nat.ofDigitChars 10 s 0

/-- The number that digits with a point stand for. (Specification.) -/
def readDecimal (s : List Char) : ℚ :=
  (digitsNat (s.takeWhile (· ≠ '.') ++ (s.dropWhile (· ≠ '.')).drop 1) : ℚ) / 10 ^ ((s.dropWhile (· ≠ '.')).drop 1).length

/-- The number after an `e`. (Specification.) -/
def readExponent : List Char → ℤ
  | [] => 0
  | '-' :: s => -(digitsNat s : ℤ)
  | _ :: s => digitsNat s

/-- The number that a text such as `33.33` or `5e-05` stands for. (Specification.) -/
def readNumber (s : List Char) : ℚ :=
  readDecimal (s.takeWhile (· ≠ 'e')) * 10 ^ readExponent ((s.dropWhile (· ≠ 'e')).drop 1)

/-- `x` rounded to `p` significant digits, ties to even. (Specification.) -/
def roundSig (p : Nat) (x : ℚ) : ℚ :=
  (halfEven (x / 10 ^ (Int.log 10 x - ((p : ℤ) - 1))) : ℚ) * 10 ^ (Int.log 10 x - ((p : ℤ) - 1))

/-! ## Digits -/

theorem digits_nat (n : Nat) : digitsNat (natText n) = n := Nat.ofDigitChars_ten_toDigits

theorem digits_append (s t : List Char) : digitsNat (s ++ t) = digitsNat s * 10 ^ t.length + digitsNat t := by
  unfold digitsNat
  rw [Nat.ofDigitChars_append, Nat.ofDigitChars_eq_ofDigitChars_zero, Nat.mul_comm]

theorem digits_zeros (k : Nat) : digitsNat (List.replicate k '0') = 0 := by
  unfold digitsNat; simp

theorem digits_zeroPad (k n : Nat) : digitsNat (zeroPad k n) = n := by
  unfold zeroPad; rw [digits_append, digits_zeros, digits_nat]; simp

theorem zeroPad_length {k n : Nat} (hk : 0 < k) (h : n < 10 ^ k) : (zeroPad k n).length = k := by
  have : (natText n).length ≤ k := (Nat.length_toDigits_le_iff (by omega) hk).2 h
  unfold zeroPad
  simp; omega

theorem natText_digit {n : Nat} {c : Char} (h : c ∈ natText n) : c.isDigit = true :=
  Nat.isDigit_of_mem_toDigits (by omega) (by omega) h

theorem zeroPad_digit {k n : Nat} {c : Char} (h : c ∈ zeroPad k n) : c.isDigit = true := by
  unfold zeroPad at h
  rcases List.mem_append.1 h with h | h
  · rw [(List.mem_replicate.1 h).2]; decide
  · exact natText_digit h

theorem stripZeros_spec (s : List Char) : ∃ j, s = stripZeros s ++ List.replicate j '0' := by
  refine ⟨(s.reverse.takeWhile (· == '0')).length, ?_⟩
  have h1 : s.reverse.takeWhile (· == '0') = List.replicate (s.reverse.takeWhile (· == '0')).length '0' := by
    apply List.eq_replicate_of_mem
    intro c hc
    have := List.all_takeWhile (p := (· == '0')) (l := s.reverse)
    rw [List.all_eq_true] at this
    simpa using this c hc
  have h2 := List.takeWhile_append_dropWhile (p := (· == '0')) (l := s.reverse)
  have h3 := congrArg List.reverse h2
  rw [List.reverse_append, List.reverse_reverse, h1, List.reverse_replicate] at h3
  exact h3.symm

theorem stripZeros_digit {s : List Char} {c : Char} (h : c ∈ stripZeros s) : c ∈ s := by
  obtain ⟨j, hj⟩ := stripZeros_spec s
  rw [hj]; exact List.mem_append_left _ h

theorem strip_value (i t : List Char) :
    (digitsNat (i ++ stripZeros t) : ℚ) / 10 ^ (stripZeros t).length = (digitsNat (i ++ t) : ℚ) / 10 ^ t.length := by
  obtain ⟨j, hj⟩ := stripZeros_spec t
  have h1 : digitsNat (i ++ t) = digitsNat (i ++ stripZeros t) * 10 ^ j := by
    conv_lhs => rw [hj, ← List.append_assoc, digits_append, digits_zeros, List.length_replicate]
    simp
  have h2 : t.length = (stripZeros t).length + j := by
    conv_lhs => rw [hj, List.length_append, List.length_replicate]
  rw [h1, h2, pow_add]
  push_cast
  field_simp

theorem fraction_value (i t : List Char) :
    (digitsNat (i ++ fraction t) : ℚ) / 10 ^ (fraction t).length = (digitsNat (i ++ t) : ℚ) / 10 ^ t.length := by
  unfold fraction
  split
  · rename_i h
    rw [← strip_value i t, h, digits_append]
    simp [digitsNat, Nat.ofDigitChars]
  · exact strip_value i t

theorem fraction_digit {t : List Char} (ht : ∀ c ∈ t, c.isDigit = true) : ∀ c ∈ fraction t, c.isDigit = true := by
  intro c hc
  unfold fraction at hc
  split at hc
  · rw [List.mem_singleton.1 hc]; decide
  · exact ht _ (stripZeros_digit hc)

theorem takeWhile_stop {s t : List Char} {c : Char} (h : c ∉ s) :
    (s ++ c :: t).takeWhile (· ≠ c) = s ∧ (s ++ c :: t).dropWhile (· ≠ c) = c :: t := by
  induction s with
  | nil => simp
  | cons a s ih =>
    have ha : a ≠ c := fun e => h (by simp [e])
    have := ih (fun e => h (by simp [e]))
    simp only [List.cons_append, List.takeWhile_cons, List.dropWhile_cons, decide_eq_true ha, if_true, this, and_self]

theorem takeWhile_none {s : List Char} {c : Char} (h : c ∉ s) :
    s.takeWhile (· ≠ c) = s ∧ s.dropWhile (· ≠ c) = [] := by
  induction s with
  | nil => simp
  | cons a s ih =>
    have ha : a ≠ c := fun e => h (by simp [e])
    have := ih (fun e => h (by simp [e]))
    simp only [List.takeWhile_cons, List.dropWhile_cons, decide_eq_true ha, if_true, this, and_self]

theorem notin_digits {s : List Char} (h : ∀ c ∈ s, c.isDigit = true) {c : Char} (hc : c.isDigit = false) : c ∉ s := by
  intro hm; rw [h c hm] at hc; cases hc

theorem readDecimal_point {i f : List Char} (h : '.' ∉ i) :
    readDecimal (i ++ '.' :: f) = (digitsNat (i ++ f) : ℚ) / 10 ^ f.length := by
  unfold readDecimal
  rw [(takeWhile_stop h).1, (takeWhile_stop h).2]
  simp

theorem readDecimal_whole {i : List Char} (h : '.' ∉ i) : readDecimal i = digitsNat i := by
  unfold readDecimal
  rw [(takeWhile_none h).1, (takeWhile_none h).2]
  simp

theorem readNumber_plain {s : List Char} (h : 'e' ∉ s) : readNumber s = readDecimal s := by
  unfold readNumber
  rw [(takeWhile_none h).1, (takeWhile_none h).2]
  simp [readExponent]

theorem readNumber_sci {s t : List Char} (h : 'e' ∉ s) : readNumber (s ++ 'e' :: t) = readDecimal s * 10 ^ readExponent t := by
  unfold readNumber
  rw [(takeWhile_stop h).1, (takeWhile_stop h).2]
  rfl

theorem natText_no {n : Nat} {c : Char} (hc : c.isDigit = false) : c ∉ natText n :=
  notin_digits (fun _ => natText_digit) hc

theorem zeroPad_no {k n : Nat} {c : Char} (hc : c.isDigit = false) : c ∉ zeroPad k n :=
  notin_digits (fun _ => zeroPad_digit) hc

/-! ## `'{:.pf}'` -/

theorem fixed_reads {p : Nat} (hp : 0 < p) {x : ℚ} (hx : 0 ≤ x) :
    readNumber (fixed p x) = (halfEven (x * 10 ^ p) : ℚ) / 10 ^ p := by
  have hn : (0 : ℤ) ≤ halfEven (x * 10 ^ p) := int_le_halfEven (by push_cast; positivity)
  unfold fixed
  have hd : (1 : Nat) ≤ 10 ^ p := Nat.one_le_pow _ _ (by omega)
  rw [readNumber_plain, readDecimal_point (natText_no (by decide)), digits_append, digits_nat, digits_zeroPad,
    zeroPad_length hp (Nat.mod_lt _ (by omega)), Nat.div_add_mod']
  · congr 1
    have : ((halfEven (x * 10 ^ p)).toNat : ℤ) = halfEven (x * 10 ^ p) := Int.toNat_of_nonneg hn
    exact_mod_cast this
  · simp only [List.mem_append, List.mem_cons, not_or]
    exact ⟨natText_no (by decide), by decide, zeroPad_no (by decide)⟩

/-- What `'{:.pf}'` writes is within half a unit of the last digit. -/
theorem fixed_error {p : Nat} (hp : 0 < p) {x : ℚ} (hx : 0 ≤ x) :
    |readNumber (fixed p x) - x| ≤ 1 / 2 / 10 ^ p := by
  rw [fixed_reads hp hx]
  have h := halfEven_error (x * 10 ^ p)
  have hp' : (0 : ℚ) < 10 ^ p := by positivity
  rw [show (halfEven (x * 10 ^ p) : ℚ) / 10 ^ p - x = ((halfEven (x * 10 ^ p) : ℚ) - x * 10 ^ p) / 10 ^ p by
    field_simp, abs_div, abs_of_pos hp']
  exact div_le_div_of_nonneg_right h hp'.le

theorem fixed_mono {p : Nat} (hp : 0 < p) {x y : ℚ} (hx : 0 ≤ x) (h : x ≤ y) :
    readNumber (fixed p x) ≤ readNumber (fixed p y) := by
  rw [fixed_reads hp hx, fixed_reads hp (hx.trans h)]
  have hp' : (0 : ℚ) < 10 ^ p := by positivity
  refine div_le_div_of_nonneg_right ?_ hp'.le
  exact_mod_cast halfEven_mono (mul_le_mul_of_nonneg_right h hp'.le)

/-! ## `'{:.p}'` -/

theorem scale {p : Nat} {x : ℚ} (hx : 0 < x) (e : ℤ) (he : e = Int.log 10 x) :
    (10 : ℚ) ^ ((p : ℤ) - 1) ≤ x / 10 ^ (e - ((p : ℤ) - 1)) ∧ x / 10 ^ (e - ((p : ℤ) - 1)) < 10 ^ (p : ℤ) := by
  subst he
  have h1 : ((10 : ℕ) : ℚ) ^ Int.log 10 x ≤ x := Int.zpow_log_le_self (by norm_num) hx
  have h2 : x < ((10 : ℕ) : ℚ) ^ (Int.log 10 x + 1) := Int.lt_zpow_succ_log_self (by norm_num) x
  push_cast at h1 h2
  have hp : (0 : ℚ) < 10 ^ (Int.log 10 x - ((p : ℤ) - 1)) := zpow_pos (by norm_num) _
  constructor
  · rw [le_div_iff₀ hp, ← zpow_add₀ (by norm_num)]
    rw [show (p : ℤ) - 1 + (Int.log 10 x - ((p : ℤ) - 1)) = Int.log 10 x by ring]; exact h1
  · rw [div_lt_iff₀ hp, ← zpow_add₀ (by norm_num)]
    rw [show (p : ℤ) + (Int.log 10 x - ((p : ℤ) - 1)) = Int.log 10 x + 1 by ring]; exact h2

/-- The whole number of the significant digits has `p` digits, up to the carry. -/
theorem mantissa_bounds {p : Nat} (hp : 0 < p) {x : ℚ} (hx : 0 < x) :
    (10 : ℤ) ^ (p - 1) ≤ halfEven (x / 10 ^ (Int.log 10 x - ((p : ℤ) - 1))) ∧
    halfEven (x / 10 ^ (Int.log 10 x - ((p : ℤ) - 1))) ≤ 10 ^ p := by
  obtain ⟨h1, h2⟩ := scale (p := p) hx _ rfl
  constructor
  · apply int_le_halfEven
    refine le_trans (le_of_eq ?_) h1
    rw [show ((p : ℤ) - 1) = ((p - 1 : ℕ) : ℤ) by omega, zpow_natCast]; push_cast; rfl
  · apply halfEven_le_int
    refine le_trans h2.le (le_of_eq ?_)
    rw [zpow_natCast]; push_cast; rfl

theorem significand_spec {p : Nat} (hp : 0 < p) {x : ℚ} (hx : 0 < x) :
    10 ^ (p - 1) ≤ (significand p x).1 ∧ (significand p x).1 < 10 ^ p ∧
    ((significand p x).1 : ℚ) * 10 ^ ((significand p x).2 - ((p : ℤ) - 1)) = roundSig p x := by
  obtain ⟨h1, h2⟩ := mantissa_bounds hp hx
  have hc : ((halfEven (x / 10 ^ (Int.log 10 x - ((p : ℤ) - 1)))).toNat : ℤ) =
      halfEven (x / 10 ^ (Int.log 10 x - ((p : ℤ) - 1))) :=
    Int.toNat_of_nonneg (le_trans (by positivity) h1)
  unfold significand roundSig
  generalize halfEven (x / 10 ^ (Int.log 10 x - ((p : ℤ) - 1))) = m at h1 h2 hc ⊢
  generalize hm : m.toNat = n at hc ⊢
  subst hc
  have h1' : 10 ^ (p - 1) ≤ n := by exact_mod_cast h1
  have h2' : n ≤ 10 ^ p := by exact_mod_cast h2
  split
  · rename_i he
    refine ⟨le_refl _, Nat.pow_lt_pow_right (by omega) (by omega), ?_⟩
    subst he
    push_cast
    rw [← zpow_natCast, ← zpow_natCast, ← zpow_add₀ (by norm_num), ← zpow_add₀ (by norm_num)]
    congr 1
    omega
  · exact ⟨h1', by omega, by push_cast; rfl⟩

theorem positional_reads {m d : Nat} (hd : 0 < d) : readNumber (positional m d) = (m : ℚ) / 10 ^ d := by
  unfold positional
  have h10 : (1 : Nat) ≤ 10 ^ d := Nat.one_le_pow _ _ (by omega)
  rw [readNumber_plain, readDecimal_point (natText_no (by decide)), fraction_value, digits_append, digits_nat,
    digits_zeroPad, zeroPad_length hd (Nat.mod_lt _ (by omega)), Nat.div_add_mod']
  simp only [List.mem_append, List.mem_cons, not_or]
  exact ⟨natText_no (by decide), by decide,
    notin_digits (fraction_digit (fun _ => zeroPad_digit)) (by decide)⟩

theorem pointed_reads {p m : Nat} (hp : 0 < p) (h1 : 10 ^ (p - 1) ≤ m) (h2 : m < 10 ^ p) :
    readDecimal (pointed (natText m)) = (m : ℚ) / 10 ^ (p - 1) ∧ 'e' ∉ pointed (natText m) := by
  have hlen : (natText m).length = p := by
    have a : (natText m).length ≤ p := (Nat.length_toDigits_le_iff (by omega) hp).2 h2
    by_contra hne
    have a2 : (natText m).length ≤ p - 1 := by omega
    by_cases hz : p - 1 = 0
    · have := Nat.length_toDigits_pos (b := 10) (n := m)
      unfold natText at a2; omega
    · have := (Nat.length_toDigits_le_iff (n := m) (b := 10) (by omega) (by omega : 0 < p - 1)).1 a2
      omega
  have hdig : ∀ c ∈ natText m, c.isDigit = true := fun _ => natText_digit
  have hval := digits_nat m
  cases hs : natText m with
  | nil => rw [hs] at hlen; simp at hlen; omega
  | cons c t =>
    rw [hs] at hlen hdig hval
    have hc : c.isDigit = true := hdig c (by simp)
    have ht : ∀ a ∈ stripZeros t, a.isDigit = true := fun a ha => hdig a (List.mem_cons_of_mem _ (stripZeros_digit ha))
    have hlen' : t.length = p - 1 := by simp at hlen; omega
    have hsv := strip_value [c] t
    rw [hlen', List.singleton_append, List.singleton_append, hval] at hsv
    have hdot : '.' ≠ c := by rintro rfl; simp at hc
    have he : 'e' ≠ c := by rintro rfl; revert hc; decide
    show readDecimal (c :: (if stripZeros t = [] then [] else '.' :: stripZeros t)) = _ ∧
      'e' ∉ (c :: (if stripZeros t = [] then [] else '.' :: stripZeros t))
    split
    · rename_i h
      rw [h] at hsv
      refine ⟨?_, by simpa using he⟩
      rw [readDecimal_whole (by simpa using hdot), ← hsv]; simp
    · refine ⟨?_, ?_⟩
      · have := readDecimal_point (i := [c]) (f := stripZeros t) (by simpa using hdot)
        rw [List.singleton_append, List.singleton_append] at this
        rw [this, hsv]
      · simp only [List.mem_cons, not_or]
        exact ⟨he, by decide, notin_digits ht (by decide)⟩

theorem exponent_reads (e : ℤ) : readExponent (exponentText e) = e := by
  unfold exponentText
  split
  · rw [readExponent, digits_zeroPad]; omega
  · rw [readExponent, digits_zeroPad]
    · omega
    · decide

/-- What `'{:.p}'` writes is the number rounded to `p` significant digits. -/
theorem general_reads {p : Nat} (hp : 0 < p) {x : ℚ} (hx : 0 < x) : readNumber (general p x) = roundSig p x := by
  obtain ⟨h1, h2, h3⟩ := significand_spec hp hx
  unfold general
  rw [if_neg hx.ne', ← h3]
  generalize significand p x = s at h1 h2 ⊢
  split
  · rename_i h
    rw [positional_reads (by omega), div_eq_mul_inv, ← zpow_natCast, ← zpow_neg]
    congr 2
    omega
  · obtain ⟨a, b⟩ := pointed_reads hp h1 h2
    rw [readNumber_sci b, a, exponent_reads, zpow_sub₀ (by norm_num),
      show ((p : ℤ) - 1) = ((p - 1 : ℕ) : ℤ) by omega, zpow_natCast]
    ring

theorem general_zero (p : Nat) : general p 0 = ['0', '.', '0'] := by unfold general; rw [if_pos rfl]

theorem roundSig_error {p : Nat} {x : ℚ} (hx : 0 < x) : |roundSig p x - x| ≤ x / 2 / 10 ^ ((p : ℤ) - 1) := by
  unfold roundSig
  have h1 : ((10 : ℕ) : ℚ) ^ Int.log 10 x ≤ x := Int.zpow_log_le_self (by norm_num) hx
  push_cast at h1
  have hp : (0 : ℚ) < 10 ^ (Int.log 10 x - ((p : ℤ) - 1)) := zpow_pos (by norm_num) _
  have hq : (0 : ℚ) < 10 ^ ((p : ℤ) - 1) := zpow_pos (by norm_num) _
  have h := halfEven_error (x / 10 ^ (Int.log 10 x - ((p : ℤ) - 1)))
  have e : (10 : ℚ) ^ (Int.log 10 x - ((p : ℤ) - 1)) ≤ x / 10 ^ ((p : ℤ) - 1) := by
    rw [zpow_sub₀ (by norm_num)]; exact div_le_div_of_nonneg_right h1 hq.le
  generalize (10 : ℚ) ^ (Int.log 10 x - ((p : ℤ) - 1)) = t at hp h e ⊢
  rw [show (halfEven (x / t) : ℚ) * t - x = ((halfEven (x / t) : ℚ) - x / t) * t by field_simp, abs_mul, abs_of_pos hp]
  calc |(halfEven (x / t) : ℚ) - x / t| * t ≤ 1 / 2 * t := mul_le_mul_of_nonneg_right h hp.le
    _ ≤ 1 / 2 * (x / 10 ^ ((p : ℤ) - 1)) := by linarith
    _ = x / 2 / 10 ^ ((p : ℤ) - 1) := by ring

theorem roundSig_bounds {p : Nat} (hp : 0 < p) {x : ℚ} (hx : 0 < x) :
    (10 : ℚ) ^ Int.log 10 x ≤ roundSig p x ∧ roundSig p x ≤ 10 ^ (Int.log 10 x + 1) := by
  obtain ⟨h1, h2⟩ := mantissa_bounds hp hx
  unfold roundSig
  have ht : (0 : ℚ) < 10 ^ (Int.log 10 x - ((p : ℤ) - 1)) := zpow_pos (by norm_num) _
  generalize halfEven (x / 10 ^ (Int.log 10 x - ((p : ℤ) - 1))) = m at h1 h2 ⊢
  have h1' : (10 : ℚ) ^ (p - 1) ≤ m := by exact_mod_cast h1
  have h2' : (m : ℚ) ≤ 10 ^ p := by exact_mod_cast h2
  constructor
  · refine le_trans (le_of_eq ?_) (mul_le_mul_of_nonneg_right h1' ht.le)
    rw [← zpow_natCast, ← zpow_add₀ (by norm_num)]; congr 1; omega
  · refine le_trans (mul_le_mul_of_nonneg_right h2' ht.le) (le_of_eq ?_)
    rw [← zpow_natCast, ← zpow_add₀ (by norm_num)]; congr 1; omega

theorem roundSig_mono {p : Nat} (hp : 0 < p) {x y : ℚ} (hx : 0 < x) (h : x ≤ y) : roundSig p x ≤ roundSig p y := by
  have hl : Int.log 10 x ≤ Int.log 10 y := Int.log_mono_right hx h
  rcases hl.lt_or_eq with hl | hl
  · refine (roundSig_bounds hp hx).2.trans (le_trans ?_ (roundSig_bounds hp (hx.trans_le h)).1)
    exact zpow_le_zpow_right₀ (by norm_num) (by omega)
  · unfold roundSig
    rw [hl]
    have ht : (0 : ℚ) < 10 ^ (Int.log 10 y - ((p : ℤ) - 1)) := zpow_pos (by norm_num) _
    refine mul_le_mul_of_nonneg_right ?_ ht.le
    exact_mod_cast halfEven_mono (div_le_div_of_nonneg_right h ht.le)

theorem roundSig_pos {p : Nat} (hp : 0 < p) {x : ℚ} (hx : 0 < x) : 0 < roundSig p x :=
  lt_of_lt_of_le (zpow_pos (by norm_num) _) (roundSig_bounds hp hx).1

theorem read_zero : readNumber ['0', '.', '0'] = 0 := by
  have := readNumber_plain (s := ['0', '.', '0']) (by decide)
  rw [this, show (['0', '.', '0'] : List Char) = ['0'] ++ '.' :: ['0'] from rfl, readDecimal_point (by decide)]
  simp [digitsNat, Nat.ofDigitChars]

/-- What `'{:.p}'` writes grows with the number. -/
theorem general_mono {p : Nat} (hp : 0 < p) {x y : ℚ} (hx : 0 ≤ x) (h : x ≤ y) :
    readNumber (general p x) ≤ readNumber (general p y) := by
  rcases hx.eq_or_lt with rfl | hx
  · rw [general_zero, read_zero]
    rcases h.eq_or_lt with rfl | hy
    · rw [general_zero, read_zero]
    · rw [general_reads hp hy]; exact (roundSig_pos hp hy).le
  · rw [general_reads hp hx, general_reads hp (hx.trans_le h)]
    exact roundSig_mono hp hx h

/-! ## Examples -/

example : fixed 2 (12345 / 1000) = "12.34".toList ∧ fixed 3 (1414213562 / 1000000000) = "1.414".toList := by decide +kernel

example : general 4 (100 / 3) = "33.33".toList ∧ general 4 50 = "50.0".toList ∧ general 4 (1 / 100000) = "1e-05".toList ∧
    general 4 (99996 / 1000) = "100.0".toList ∧ general 4 1000 = "1e+03".toList ∧ general 4 (25 / 2) = "12.5".toList ∧
    general 4 (9999 / 100000000) = "9.999e-05".toList ∧ general 4 (1 / 10000) = "0.0001".toList := by decide +kernel

end Mbtk.NumText
