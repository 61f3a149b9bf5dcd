import Verif.Exp.NumberText
import Verif.Exp.Summary
import Verif.Stats.CiText
import Mathlib.Analysis.SpecialFunctions.Log.Base
/-!
# What the `summary` command of the d-separation experiment prints (C112)

The percentage of accurate tests (`analysis.py` 47, 52), the LaTeX row (`commands.py` 60-77) and the histogram
(`analysis.py` 136-144).  Not modelled: the layout of the other lines of the long form (`commands.py` 37-45), in
which Python writes floats in full.
-/
namespace Mbtk.DsepSummary
open Mbtk Mbtk.CiResult Mbtk.Dataset Mbtk.Dataset.Rcv Mbtk.Exp Mbtk.NumText Mbtk.Fp Spec

/-! ## Model -/

/-- `f'{accurate * 100 / tests:.4}%'`: analysis.py 47, 52. -/
def percentText (accurate tests : Nat) : Str := general 4 (fl ((accurate : ℚ) * 100 / tests)) ++ ['%']

/-- `.replace('%', '\\%')`: commands.py 68. -/
def escapePercent (s : Str) : Str := s.flatMap (fun c => if c = '%' then ['\\', '%'] else [c])

/-- `str(sample_count)`, `None` for a network: commands.py 62, 73, expsetup.py 52, 81. -/
def samplesText : Option Nat → Str
  | none => ['N', 'o', 'n', 'e']
  | some n => natText n

/-- The float of `calculate_condset_average`, from the numbers of the histogram: analysis.py 126-132. -/
def condsetFloat (h : Counter) : ℚ := fl ((((h.map (fun e => e.1 * e.2)).sum : ℕ) : ℚ) / (((h.map Prod.snd).sum : ℕ) : ℚ))

/-- `'\t& '`: commands.py 74. -/
def separator : Str := ['\t', '&', ' ']

/-- `render_tabular_summary(experimental_setup, analysis)`: commands.py 60-77.  `distance` is the float
'Avg. distance'; `name` is in ASCII. -/
noncomputable def tabularRow (name : Str) (samples : Option Nat) (s : Summary) (distance : ℚ) : Str :=
  separator.intercalate [name.map Char.toUpper, samplesText samples, natText s.tests,
    escapePercent (percentText s.accurate s.tests), padLeft 5 (fixed 2 (condsetFloat s.histogram)),
    padLeft 5 (fixed 3 distance)] ++ [' ', '\\', '\\']

/-- One line of the histogram, `log2` being `math.log2`; `ValueError` for 0: analysis.py 140-142. -/
def histogramLine (log2 : Nat → ℚ) (size count : Nat) : Except Err Str :=
  if count = 0 then .error .valueError
  else .ok (['\t', '\t'] ++ padLeft 2 (natText size) ++ [':', ' '] ++ padLeft 6 (natText count) ++ [' '] ++
    List.replicate ⌊log2 count⌋.toNat '-' ++ ['\n'])

/-- The loop of `render_condset_size_histogram`: analysis.py 138-142; `cond_counter[size]` is 0 for a missing
size. -/
def histogramLines (log2 : Nat → ℚ) (c : Counter) : List Nat → Str → Except Err Str
  | [], text => .ok text
  | size :: sizes, text =>
    match histogramLine log2 size ((dictGet c size).getD 0) with
    | .error e => .error e
    | .ok line => histogramLines log2 c sizes (text ++ line)

/-- `render_condset_size_histogram(cond_counter)`: analysis.py 136-144. -/
def histogramText (log2 : Nat → ℚ) (c : Counter) : Except Err Str :=
  histogramLines log2 c ((c.map Prod.fst).insertionSort (· ≤ ·)) ['\n']

/-- 'Total condset size histogram': analysis.py 18-49. -/
noncomputable def totalHistogram {P : Type} (log2 : Nat → ℚ) (ds : Bool) (runs : List (AlgRun P)) : Except Err Str :=
  match loop ds runs .zero with
  | .error e => .error e
  | .ok t => histogramText log2 t.counter

/-! ## Specification -/

/-- A space or a tab. (Specification.) -/
def blank (c : Char) : Bool := c == ' ' || c == '\t'

/-- Without the spaces and tabs at both ends. (Specification.) -/
def trim (s : Str) : Str := ((s.dropWhile blank).reverse.dropWhile blank).reverse

/-- The cells of a LaTeX table row that ends in a space and two backslashes. (Specification.) -/
def cellsOf (row : Str) : List Str := ((row.take (row.length - 3)).splitOn '&').map trim

/-- The size, the count and the length of the bar in a line of the histogram. (Specification.) -/
def readLine (line : Str) : Nat × Nat × Nat :=
  (digitsNat ((line.takeWhile (· ≠ ':')).filter Char.isDigit), digitsNat ((line.dropWhile (· ≠ ':')).filter Char.isDigit),
    line.count '-')

/-- The lines of a text that begins and ends with a new line. (Specification.) -/
def linesOf (text : Str) : List Str := ((text.splitOn '\n').drop 1).dropLast

/-- A base 2 logarithm that is exact for powers of two and otherwise wrong by `2 ^ -40` at most (the C library
is much better than that). (Specification.) -/
structure GoodLog2 (log2 : Nat → ℚ) : Prop where
  exact : ∀ k : Nat, log2 (2 ^ k) = k
  near : ∀ n : Nat, 0 < n → |(log2 n : ℝ) - Real.logb 2 n| ≤ 1 / 2 ^ 40

/-! ## The percentage -/

theorem fl_bounds {x : ℚ} (h0 : 0 ≤ x) (h : x ≤ 100) : |fl x - x| ≤ 1 / 10 ^ 13 := by
  refine (fl_error x).trans ?_
  rw [abs_of_nonneg h0]
  have h1 : (2 : ℚ) ^ (-53 : ℤ) * x ≤ (2 : ℚ) ^ (-53 : ℤ) * 100 := mul_le_mul_of_nonneg_left h (zpow_pos (by norm_num) _).le
  have h2 : (2 : ℚ) ^ (-1075 : ℤ) ≤ 2 ^ (-60 : ℤ) := zpow_le_zpow_right₀ (by norm_num) (by norm_num)
  have h3 : (2 : ℚ) ^ (-53 : ℤ) * 100 + 2 ^ (-60 : ℤ) ≤ 1 / 10 ^ 13 := by norm_num
  exact (add_le_add h1 h2).trans h3

theorem fl_le_hundred {x : ℚ} (h : x ≤ 100) : fl x ≤ 100 := by
  have := fl_mono h
  rwa [show (100 : ℚ) = ((100 : ℕ) : ℚ) by norm_num, fl_nat (by norm_num)] at this

theorem share_bounds {accurate tests : Nat} (ht : 0 < tests) (ha : accurate ≤ tests) :
    (0 : ℚ) ≤ (accurate : ℚ) * 100 / tests ∧ (accurate : ℚ) * 100 / tests ≤ 100 := by
  have : (0 : ℚ) < tests := by exact_mod_cast ht
  have h2 : (accurate : ℚ) ≤ tests := by exact_mod_cast ha
  refine ⟨by positivity, ?_⟩
  rw [div_le_iff₀ this]; linarith

/-- The number in front of the percent sign. (Models no code: a notion for statements and proofs.) -/
def percentNumber (accurate tests : Nat) : Str := (percentText accurate tests).dropLast

theorem percentText_eq (a t : Nat) : percentNumber a t = general 4 (fl ((a : ℚ) * 100 / t)) ∧
    percentText a t = percentNumber a t ++ ['%'] := by
  unfold percentNumber percentText
  rw [List.dropLast_concat]; simp

theorem roundSig4_error {x : ℚ} (h0 : 0 < x) (h : x ≤ 100) : |roundSig 4 x - x| ≤ 1 / 200 := by
  rcases h.eq_or_lt with rfl | hlt
  · have hl : Int.log 10 (100 : ℚ) = 2 := by decide +kernel
    unfold roundSig
    rw [hl]
    have : halfEven ((100 : ℚ) / 10 ^ ((2 : ℤ) - ((4 : ℕ) - 1))) = 1000 := by decide +kernel
    push_cast at this ⊢
    rw [this]; norm_num
  · unfold roundSig
    have hl : Int.log 10 x ≤ 1 := by
      have := Int.log_mono_right (b := 10) h0 hlt.le
      by_contra hc
      have h2 : (2 : ℤ) ≤ Int.log 10 x := by omega
      have h1 : ((10 : ℕ) : ℚ) ^ Int.log 10 x ≤ x := Int.zpow_log_le_self (by norm_num) h0
      have h3 : ((10 : ℕ) : ℚ) ^ (2 : ℤ) ≤ ((10 : ℕ) : ℚ) ^ Int.log 10 x := zpow_le_zpow_right₀ (by norm_num) h2
      norm_num at h3 h1
      linarith
    have ht : (0 : ℚ) < 10 ^ (Int.log 10 x - ((4 : ℕ) - 1)) := zpow_pos (by norm_num) _
    have hle : (10 : ℚ) ^ (Int.log 10 x - ((4 : ℕ) - 1)) ≤ 1 / 100 := by
      have : (10 : ℚ) ^ (Int.log 10 x - ((4 : ℕ) - 1)) ≤ 10 ^ (-2 : ℤ) := zpow_le_zpow_right₀ (by norm_num) (by push_cast; omega)
      norm_num at this ⊢; exact this
    generalize (10 : ℚ) ^ (Int.log 10 x - ((4 : ℕ) - 1)) = t at ht hle ⊢
    have he := halfEven_error (x / t)
    rw [show (halfEven (x / t) : ℚ) * t - x = ((halfEven (x / t) : ℚ) - x / t) * t by field_simp, abs_mul, abs_of_pos ht]
    calc |(halfEven (x / t) : ℚ) - x / t| * t ≤ 1 / 2 * t := mul_le_mul_of_nonneg_right he ht.le
      _ ≤ 1 / 200 := by linarith

theorem fl_pos {x : ℚ} (h : 1 / 10 ^ 12 ≤ x) (h1 : x ≤ 100) : 0 < fl x := by
  have := (abs_le.1 (fl_bounds (le_trans (by norm_num) h) h1)).1
  have e : (1 : ℚ) / 10 ^ 13 < 1 / 10 ^ 12 := by norm_num
  linarith

/-- **C112, the percentage.**  Whatever the numbers of tests, what is printed is within 0.0051 percentage points
of the share of accurate tests. -/
theorem percent_close (accurate tests : Nat) (ht : 0 < tests) (ha : accurate ≤ tests) :
    ∃ number, percentText accurate tests = number ++ ['%'] ∧
      |readNumber number - (accurate : ℚ) * 100 / tests| ≤ 51 / 10000 := by
  obtain ⟨h0, h1⟩ := share_bounds ht ha
  obtain ⟨e1, e2⟩ := percentText_eq accurate tests
  refine ⟨_, e2, ?_⟩
  rw [e1]
  generalize (accurate : ℚ) * 100 / tests = x at h0 h1 ⊢
  have hf := fl_bounds h0 h1
  have hn := fl_nonneg h0
  have e : (1 : ℚ) / 10 ^ 13 ≤ 1 / 10000 := by norm_num
  rcases hn.eq_or_lt with h | h
  · rw [← h, general_zero, read_zero] 
    rw [← h] at hf
    linarith
  · rw [general_reads (by norm_num) h]
    have := roundSig4_error h (fl_le_hundred h1)
    rw [abs_le] at this hf ⊢
    constructor <;> linarith

/-- **C112.**  A greater share is never shown by a smaller number. -/
theorem percent_monotone (a1 t1 a2 t2 : Nat) (h1 : 0 < t1) (h2 : 0 < t2) (h : a1 * t2 ≤ a2 * t1) :
    ∃ n1 n2, percentText a1 t1 = n1 ++ ['%'] ∧ percentText a2 t2 = n2 ++ ['%'] ∧ readNumber n1 ≤ readNumber n2 := by
  refine ⟨_, _, (percentText_eq a1 t1).2, (percentText_eq a2 t2).2, ?_⟩
  rw [(percentText_eq a1 t1).1, (percentText_eq a2 t2).1]
  apply general_mono (by norm_num)
  · exact fl_nonneg (by positivity)
  · apply fl_mono
    have h1' : (0 : ℚ) < t1 := by exact_mod_cast h1
    have h2' : (0 : ℚ) < t2 := by exact_mod_cast h2
    rw [div_le_div_iff₀ h1' h2']
    have : (a1 : ℚ) * t2 ≤ a2 * t1 := by exact_mod_cast h
    linarith

theorem roundSig4_hundred {x : ℚ} (h0 : 0 < x) (h : x ≤ 100) : roundSig 4 x = 100 ↔ 99995 / 1000 ≤ x := by
  constructor
  · intro he
    have := roundSig4_error h0 h
    rw [he, abs_le] at this
    linarith
  · intro hx
    refine le_antisymm ?_ ?_
    · have := roundSig_mono (p := 4) (by norm_num) h0 h
      rwa [show roundSig 4 100 = 100 by decide +kernel] at this
    · have := roundSig_mono (p := 4) (by norm_num) (by norm_num) hx
      rwa [show roundSig 4 (99995 / 1000) = 100 by decide +kernel] at this

theorem general_hundred {x : ℚ} (h0 : 0 < x) : general 4 x = "100.0".toList ↔ roundSig 4 x = 100 := by
  constructor
  · intro h
    rw [← general_reads (by norm_num) h0, h]
    decide +kernel
  · intro h
    obtain ⟨h1, h2, h3⟩ := significand_spec (p := 4) (by norm_num) h0
    rw [h] at h3
    have hs : significand 4 x = (1000, 2) := by
      generalize significand 4 x = s at h1 h2 h3
      obtain ⟨m, e⟩ := s
      simp only at h1 h2 h3
      have hm1 : (1000 : ℚ) ≤ m := by exact_mod_cast h1
      have hm2 : (m : ℚ) < 10000 := by exact_mod_cast h2
      have hpos : (0 : ℚ) < 10 ^ (e - ((4 : ℕ) - 1)) := zpow_pos (by norm_num) _
      have a : (10 : ℚ) ^ (e - ((4 : ℕ) - 1)) ≤ 10 ^ (-1 : ℤ) := by
        have : (1000 : ℚ) * 10 ^ (e - ((4 : ℕ) - 1)) ≤ 100 := by rw [← h3]; exact mul_le_mul_of_nonneg_right hm1 hpos.le
        norm_num at this ⊢; linarith
      have b : (10 : ℚ) ^ (-2 : ℤ) < 10 ^ (e - ((4 : ℕ) - 1)) := by
        have : (100 : ℚ) < 10000 * 10 ^ (e - ((4 : ℕ) - 1)) := by
          conv_lhs => rw [← h3]
          exact mul_lt_mul_of_pos_right hm2 hpos
        norm_num at this ⊢; linarith
      have a' := (zpow_le_zpow_iff_right₀ (by norm_num : (1 : ℚ) < 10)).1 a
      have b' := (zpow_lt_zpow_iff_right₀ (by norm_num : (1 : ℚ) < 10)).1 b
      push_cast at a' b'
      have he : e = 2 := by omega
      subst he
      norm_num at h3
      have : (m : ℚ) = 1000 := by linarith
      have : m = 1000 := by exact_mod_cast this
      rw [this]
    unfold general
    rw [if_neg h0.ne', hs]
    decide +kernel

theorem fl_edge : (99995 / 1000 : ℚ) ≤ fl (99995 / 1000) := by decide +kernel

/-- **C112, when `100.0%` is printed.**  For up to ten thousand million tests, exactly if at most one test in
20000 is wrong. -/
theorem hundred_percent_iff (accurate tests : Nat) (ht : 0 < tests) (hb : tests ≤ 10 ^ 10) (ha : accurate ≤ tests) :
    percentText accurate tests = "100.0%".toList ↔ 19999 * tests ≤ 20000 * accurate := by
  obtain ⟨h0, h1⟩ := share_bounds ht ha
  have ht' : (0 : ℚ) < tests := by exact_mod_cast ht
  have hb' : (tests : ℚ) ≤ 10 ^ 10 := by exact_mod_cast hb
  have hc : percentText accurate tests = "100.0%".toList ↔ general 4 (fl ((accurate : ℚ) * 100 / tests)) = "100.0".toList := by
    unfold percentText
    rw [show "100.0%".toList = "100.0".toList ++ ['%'] from rfl]
    constructor
    · exact List.append_cancel_right
    · intro h; rw [h]
  have hx : (99995 / 1000 : ℚ) ≤ (accurate : ℚ) * 100 / tests ↔ 19999 * tests ≤ 20000 * accurate := by
    rw [le_div_iff₀ ht']
    constructor
    · intro h
      have : (19999 : ℚ) * tests ≤ 20000 * accurate := by linarith
      exact_mod_cast this
    · intro h
      have : (19999 : ℚ) * tests ≤ 20000 * accurate := by exact_mod_cast h
      linarith
  rw [hc, ← hx]
  constructor
  · intro h
    have hpos : 0 < fl ((accurate : ℚ) * 100 / tests) := by
      rcases (fl_nonneg h0).eq_or_lt with e | e
      · rw [← e, general_zero] at h; exact absurd h (by decide)
      · exact e
    rw [general_hundred hpos, roundSig4_hundred hpos (fl_le_hundred h1)] at h
    by_contra hn
    have hn2 : ¬ 19999 * tests ≤ 20000 * accurate := fun hh => hn (hx.2 hh)
    have hn3 : 20000 * accurate + 1 ≤ 19999 * tests := by omega
    have hn4 : (20000 : ℚ) * accurate + 1 ≤ 19999 * tests := by exact_mod_cast hn3
    have hgap : (accurate : ℚ) * 100 / tests ≤ 99995 / 1000 - 1 / 200 / 10 ^ 10 := by
      rw [div_le_iff₀ ht']
      have : (1 : ℚ) / 200 / 10 ^ 10 * tests ≤ 1 / 200 := by
        have := mul_le_mul_of_nonneg_left hb' (by norm_num : (0 : ℚ) ≤ 1 / 200 / 10 ^ 10)
        norm_num at this ⊢; linarith
      linarith
    have hf := (abs_le.1 (fl_bounds h0 h1)).2
    have : (1 : ℚ) / 10 ^ 13 < 1 / 200 / 10 ^ 10 := by norm_num
    linarith
  · intro h
    have hpos : (0 : ℚ) < fl ((accurate : ℚ) * 100 / tests) :=
      lt_of_lt_of_le (by norm_num) (fl_edge.trans (fl_mono h))
    rw [general_hundred hpos, roundSig4_hundred hpos (fl_le_hundred h1)]
    exact fl_edge.trans (fl_mono h)

/-- **C112.**  With fewer than 20000 tests, `100.0%` means that no test is wrong. -/
theorem hundred_percent_small (accurate tests : Nat) (ht : 0 < tests) (hb : tests < 20000) (ha : accurate ≤ tests) :
    percentText accurate tests = "100.0%".toList ↔ accurate = tests := by
  rw [hundred_percent_iff accurate tests ht (by omega) ha]; omega

/-- **C112, finding.**  From 20000 tests on, `100.0%` is also printed if a test is wrong. -/
theorem hundred_percent_with_errors (tests : Nat) (h : 20000 ≤ tests) (hb : tests ≤ 10 ^ 10) :
    percentText (tests - 1) tests = "100.0%".toList := by
  rw [hundred_percent_iff (tests - 1) tests (by omega) hb (by omega)]; omega

/-- **C112.**  `0.0%` is printed exactly if no test is accurate. -/
theorem zero_percent_iff (accurate tests : Nat) (ht : 0 < tests) (hb : tests ≤ 10 ^ 10) (ha : accurate ≤ tests) :
    percentText accurate tests = "0.0%".toList ↔ accurate = 0 := by
  obtain ⟨h0, h1⟩ := share_bounds ht ha
  have ht' : (0 : ℚ) < tests := by exact_mod_cast ht
  have hb' : (tests : ℚ) ≤ 10 ^ 10 := by exact_mod_cast hb
  constructor
  · intro h
    by_contra hne
    have h1' : (1 : ℚ) ≤ accurate := by exact_mod_cast Nat.one_le_iff_ne_zero.2 hne
    have hpos : 0 < fl ((accurate : ℚ) * 100 / tests) := by
      apply fl_pos _ h1
      rw [le_div_iff₀ ht']
      have := mul_le_mul_of_nonneg_left hb' (by norm_num : (0 : ℚ) ≤ 1 / 10 ^ 12)
      norm_num at this ⊢; linarith
    have h2 : general 4 (fl ((accurate : ℚ) * 100 / tests)) = ['0', '.', '0'] := by
      unfold percentText at h
      rw [show "0.0%".toList = ['0', '.', '0'] ++ ['%'] from rfl] at h
      exact List.append_cancel_right h
    have h3 := general_reads (p := 4) (by norm_num) hpos
    rw [h2, read_zero] at h3
    exact absurd h3 (roundSig_pos (by norm_num) hpos).ne
  · rintro rfl
    unfold percentText
    rw [Nat.cast_zero, zero_mul, zero_div, fl_zero, general_zero]; rfl

/-! ## The row -/

/-- Characters of a cell. (Models no code: a notion for statements and proofs.) -/
def Solid (s : Str) : Prop := ∀ c ∈ s, blank c = false ∧ c ≠ '&'

theorem solid_digit {c : Char} (h : c.isDigit = true) : blank c = false ∧ c ≠ '&' ∧ c ≠ '%' := by
  refine ⟨?_, ?_, ?_⟩
  · unfold blank
    rw [Bool.or_eq_false_iff]
    constructor
    · rw [beq_eq_false_iff_ne]; rintro rfl; revert h; decide
    · rw [beq_eq_false_iff_ne]; rintro rfl; revert h; decide
  · rintro rfl; revert h; decide
  · rintro rfl; revert h; decide

theorem solid_append {s t : Str} (hs : Solid s) (ht : Solid t) : Solid (s ++ t) := fun c hc =>
  (List.mem_append.1 hc).elim (hs c) (ht c)

theorem solid_natText (n : Nat) : Solid (natText n) := fun _ hc =>
  ⟨(solid_digit (natText_digit hc)).1, (solid_digit (natText_digit hc)).2.1⟩

theorem solid_fixed (p : Nat) (x : ℚ) : Solid (fixed p x) := by
  intro c hc
  unfold fixed at hc
  rcases List.mem_append.1 hc with h | h
  · exact solid_natText _ c h
  · rcases List.mem_cons.1 h with rfl | h
    · decide
    · exact ⟨(solid_digit (zeroPad_digit h)).1, (solid_digit (zeroPad_digit h)).2.1⟩

theorem general_chars (p : Nat) (x : ℚ) : ∀ c ∈ general p x, c.isDigit = true ∨ c ∈ ['.', 'e', '+', '-'] := by
  intro c hc
  unfold general at hc
  split at hc
  · simp at hc; rcases hc with rfl | rfl | rfl <;> simp
  · split at hc
    · unfold positional at hc
      rcases List.mem_append.1 hc with h | h
      · exact .inl (natText_digit h)
      · rcases List.mem_cons.1 h with rfl | h
        · simp
        · exact .inl (fraction_digit (fun _ => zeroPad_digit) c h)
    · rcases List.mem_append.1 hc with h | h
      · have hd : ∀ a ∈ natText (significand p x).1, a.isDigit = true := fun _ => natText_digit
        cases hs : natText (significand p x).1 with
        | nil => rw [hs] at h; simp [pointed] at h
        | cons a t =>
          rw [hs] at h hd
          unfold pointed at h
          rcases List.mem_cons.1 h with rfl | h
          · exact .inl (hd _ (by simp))
          · split at h
            · simp at h
            · rcases List.mem_cons.1 h with rfl | h
              · simp
              · exact .inl (hd _ (List.mem_cons_of_mem _ (stripZeros_digit h)))
      · rcases List.mem_cons.1 h with rfl | h
        · simp
        · unfold exponentText at h
          rcases List.mem_cons.1 h with rfl | h
          · split <;> simp
          · exact .inl (zeroPad_digit h)

theorem general_solid (p : Nat) (x : ℚ) : Solid (general p x) ∧ '%' ∉ general p x := by
  constructor
  · intro c hc
    rcases general_chars p x c hc with h | h
    · exact ⟨(solid_digit h).1, (solid_digit h).2.1⟩
    · simp at h; rcases h with rfl | rfl | rfl | rfl <;> decide
  · intro hc
    rcases general_chars p x _ hc with h | h
    · exact absurd h (by decide)
    · exact absurd h (by decide)

theorem escape_none {s : Str} (h : '%' ∉ s) : escapePercent s = s := by
  unfold escapePercent
  induction s with
  | nil => rfl
  | cons a s ih =>
    rw [List.flatMap_cons, if_neg (fun e => h (by simp [e])), ih (fun e => h (by simp [e]))]; rfl

theorem escape_percent {s : Str} (h : '%' ∉ s) : escapePercent (s ++ ['%']) = s ++ ['\\', '%'] := by
  have := escape_none h
  unfold escapePercent at this ⊢
  rw [List.flatMap_append, this]; rfl

theorem dropWhile_blanks {a s : Str} (ha : ∀ c ∈ a, blank c = true) : (a ++ s).dropWhile blank = s.dropWhile blank := by
  induction a with
  | nil => rfl
  | cons c a ih =>
    rw [List.cons_append, List.dropWhile_cons, ha c (by simp), if_pos rfl, ih (fun x hx => ha x (by simp [hx]))]

theorem trim_pad {a s b : Str} (ha : ∀ c ∈ a, blank c = true) (hb : ∀ c ∈ b, blank c = true) (hs : Solid s) :
    trim (a ++ s ++ b) = s := by
  unfold trim
  rw [List.append_assoc, dropWhile_blanks ha]
  cases s with
  | nil =>
    have : ([] ++ b).dropWhile blank = [] := by
      have := dropWhile_blanks (s := []) hb
      simpa using this
    rw [this]; rfl
  | cons c t =>
    have hc := (hs c (by simp)).1
    rw [List.cons_append, List.dropWhile_cons, hc]
    simp only [Bool.false_eq_true, if_false]
    rw [← List.cons_append, List.reverse_append, dropWhile_blanks (by simpa using hb)]
    have hne : (c :: t).reverse ≠ [] := by simp
    obtain ⟨d, u, hdu⟩ := List.exists_cons_of_ne_nil hne
    have hd : blank d = false := (hs d (by rw [← List.mem_reverse, hdu]; simp)).1
    rw [hdu, List.dropWhile_cons, hd]
    simp only [Bool.false_eq_true, if_false]
    rw [← hdu, List.reverse_reverse]

theorem cells_of_row {c1 c2 c3 c4 c5 c6 : Str} {n5 n6 : Nat} (h1 : Solid c1) (h2 : Solid c2) (h3 : Solid c3) (h4 : Solid c4)
    (h5 : Solid c5) (h6 : Solid c6) :
    cellsOf (separator.intercalate [c1, c2, c3, c4, padLeft n5 c5, padLeft n6 c6] ++ [' ', '\\', '\\']) =
      [c1, c2, c3, c4, c5, c6] := by
  have hsp : ∀ n, ∀ c ∈ List.replicate n ' ', blank c = true := fun n c hc => by
    rw [(List.mem_replicate.1 hc).2]; rfl
  have hamp : ∀ {s : Str}, Solid s → '&' ∉ s := fun hs hm => (hs _ hm).2 rfl
  have hpad : ∀ n, '&' ∉ List.replicate n ' ' := fun n hm => absurd (List.mem_replicate.1 hm).2 (by decide)
  unfold cellsOf
  have hrow : (separator.intercalate [c1, c2, c3, c4, padLeft n5 c5, padLeft n6 c6]) = ['&'].intercalate
      [c1 ++ ['\t'], ' ' :: c2 ++ ['\t'], ' ' :: c3 ++ ['\t'], ' ' :: c4 ++ ['\t'], ' ' :: padLeft n5 c5 ++ ['\t'], ' ' :: padLeft n6 c6] := by
    simp [List.intercalate, separator]
  rw [List.length_append, show [' ', '\\', '\\'].length = 3 from rfl, Nat.add_sub_cancel, List.take_left' rfl, hrow,
    List.splitOn_intercalate]
  · simp only [List.map_cons, List.map_nil]
    have e1 : trim (c1 ++ ['\t']) = c1 := trim_pad (a := []) (by simp) (by simp [blank]) h1
    have e : ∀ {s : Str}, Solid s → trim (' ' :: s ++ ['\t']) = s := fun hs =>
      trim_pad (a := [' ']) (by simp [blank]) (by simp [blank]) hs
    have e5 : trim (' ' :: padLeft n5 c5 ++ ['\t']) = c5 := by
      have := trim_pad (a := ' ' :: List.replicate (n5 - c5.length) ' ') (b := ['\t']) (s := c5)
        (by intro c hc; rcases List.mem_cons.1 hc with rfl | hc; · rfl
            · exact hsp _ c hc) (by simp [blank]) h5
      refine Eq.trans (congrArg trim ?_) this
      unfold padLeft; simp
    have e6 : trim (' ' :: padLeft n6 c6) = c6 := by
      have := trim_pad (a := ' ' :: List.replicate (n6 - c6.length) ' ') (b := []) (s := c6)
        (by intro c hc; rcases List.mem_cons.1 hc with rfl | hc; · rfl
            · exact hsp _ c hc) (by simp) h6
      refine Eq.trans (congrArg trim ?_) this
      unfold padLeft; simp
    rw [e1, e h2, e h3, e h4, e5, e6]
  · intro l hl
    simp only [List.mem_cons, List.not_mem_nil, or_false] at hl
    rcases hl with rfl | rfl | rfl | rfl | rfl | rfl
    · simp [hamp h1]
    · simp [hamp h2]
    · simp [hamp h3]
    · simp [hamp h4]
    · simp [hamp h5, padLeft, hpad]
    · simp [hamp h6, padLeft, hpad]
  · simp

theorem upper_solid {name : Str} (h : ∀ c ∈ name, c.isAlpha = true) : Solid (name.map Char.toUpper) := by
  have key : ∀ n < 128, (Char.ofNat n).isAlpha = true →
      blank (Char.ofNat n).toUpper = false ∧ (Char.ofNat n).toUpper ≠ '&' := by decide +kernel
  intro c hc
  obtain ⟨d, hd, rfl⟩ := List.mem_map.1 hc
  have ha := h d hd
  have hlt : d.toNat < 128 := by
    unfold Char.isAlpha Char.isUpper Char.isLower at ha
    simp only [Bool.or_eq_true, Bool.and_eq_true, decide_eq_true_eq, ge_iff_le, UInt32.le_iff_toNat_le] at ha
    have e1 : (90 : UInt32).toNat = 90 := rfl
    have e2 : (122 : UInt32).toNat = 122 := rfl
    unfold Char.toNat
    rcases ha with ha | ha
    · have := ha.2; change d.val.toNat ≤ 90 at this; omega
    · have := ha.2; change d.val.toNat ≤ 122 at this; omega
  have := key d.toNat hlt
  rw [Char.ofNat_toNat] at this
  exact this ha

theorem samples_solid (n : Option Nat) : Solid (samplesText n) := by
  cases n with
  | none => intro c hc; simp [samplesText] at hc; rcases hc with rfl | rfl | rfl | rfl <;> decide
  | some n => exact solid_natText n

variable {P : Type}

theorem summary_loop {ds : Bool} {runs : List (AlgRun P)} {s : Summary} (h : summary ds runs = .ok s) :
    ∃ t, loop ds runs .zero = .ok t ∧ Counts t.counter ((allResults runs).map condsetLen) ∧
      s.histogram = t.counter.insertionSort (fun a b => a.1 ≤ b.1) := by
  have hc := (summary_ok_iff ds runs).1 ⟨s, h⟩
  obtain ⟨t, ht⟩ := (loop_ok ds runs .zero).2 (usable_of_complete hc)
  have ha := ((loop_ok ds runs .zero).1 t ht).2
  have hcn := ha.counter [] .nil
  refine ⟨t, ht, by simpa using hcn, ?_⟩
  unfold summary at h
  rw [ht] at h
  have h0 : t.count ≠ 0 := by
    rw [ha.count]; simpa [Totals.zero] using hc.some_test
  have hr : runs.length ≠ 0 := by
    intro e
    apply hc.some_test
    rw [List.length_eq_zero_iff.1 e]; rfl
  have h : (if t.count = 0 then _ else _) = Except.ok s := h
  rw [if_neg h0, average_of_counts hcn (by simpa using hc.some_test)] at h
  have h : (if runs.length = 0 then _ else _) = Except.ok s := h
  rw [if_neg hr] at h
  cases h
  rfl

theorem condsetFloat_eq {ds : Bool} {runs : List (AlgRun P)} {s : Summary} (h : summary ds runs = .ok s) :
    condsetFloat s.histogram = fl (((((allResults runs).map condsetLen).sum : ℕ) : ℚ) / ((allResults runs).length : ℕ)) := by
  obtain ⟨t, _, hc, hh⟩ := summary_loop h
  have hp : s.histogram.Perm t.counter := by rw [hh]; exact List.perm_insertionSort _ _
  have h1 : (s.histogram.map Prod.snd).sum = (allResults runs).length := by
    rw [(hp.map _).sum_eq, ← bag_length, hc.perm.length_eq, List.length_map]
  have h2 : (s.histogram.map (fun e => e.1 * e.2)).sum = ((allResults runs).map condsetLen).sum := by
    rw [(hp.map _).sum_eq, ← hc.perm.sum_eq]
    have := bag_sum t.counter
    have e : (((t.counter.map (fun e => e.1 * e.2)).sum : ℕ) : ℝ) = ((bag t.counter).sum : ℕ) := by
      rw [← this, Nat.cast_list_sum, List.map_map]
      congr 1
      apply List.map_congr_left; intro e _; simp
    exact_mod_cast e
  unfold condsetFloat
  rw [h1, h2]

theorem fl_bounds_large {x : ℚ} (h0 : 0 ≤ x) (h : x ≤ 10 ^ 9) : |fl x - x| ≤ 1 / 10 ^ 6 := by
  refine (fl_error x).trans ?_
  rw [abs_of_nonneg h0]
  have h1 : (2 : ℚ) ^ (-53 : ℤ) * x ≤ (2 : ℚ) ^ (-53 : ℤ) * 10 ^ 9 := mul_le_mul_of_nonneg_left h (zpow_pos (by norm_num) _).le
  have h2 : (2 : ℚ) ^ (-1075 : ℤ) ≤ 2 ^ (-60 : ℤ) := zpow_le_zpow_right₀ (by norm_num) (by norm_num)
  have h3 : (2 : ℚ) ^ (-53 : ℤ) * 10 ^ 9 + 2 ^ (-60 : ℤ) ≤ 1 / 10 ^ 6 := by norm_num
  exact (add_le_add h1 h2).trans h3

theorem cast_abs {a b : ℚ} {c : ℚ} (h : |a - b| ≤ c) : |(a : ℝ) - b| ≤ c := by exact_mod_cast h

/-- **C112, the LaTeX row.**  The row has six cells: the name in capitals, the number of samples, the number of
tests, the percentage with its percent sign escaped, and the two averages; the numbers in them are those of the
summary, up to rounding in the last place shown. -/
theorem tabular_row_reads {ds : Bool} {runs : List (AlgRun P)} {s : Summary} (h : summary ds runs = .ok s)
    (name : Str) (hname : ∀ c ∈ name, c.isAlpha = true) (samples : Option Nat) (distance : ℚ) (h0 : 0 ≤ distance)
    (hd : |(distance : ℝ) - s.avgDistance| ≤ 1 / 10 ^ 6) (hsize : s.avgCondset ≤ 10 ^ 9) :
    ∃ percent condset dist,
      cellsOf (tabularRow name samples s distance) = [name.map Char.toUpper, samplesText samples,
        natText (allResults runs).length, percent ++ ['\\', '%'], condset, dist] ∧
      |(readNumber percent : ℝ) - ((allResults runs).countP (fun r => decide (Right r)) : ℝ) * 100 / (allResults runs).length| ≤
        51 / 10000 ∧
      |(readNumber condset : ℝ) - mean (fun r => (condsetLen r : ℝ)) (allResults runs)| ≤ 51 / 10000 ∧
      |(readNumber dist : ℝ) - s.avgDistance| ≤ 6 / 10000 := by
  obtain ⟨e1, e2, _, _, e5, _⟩ := summary_exact h
  have hne : (allResults runs) ≠ [] := ((summary_ok_iff ds runs).1 ⟨s, h⟩).some_test
  have hlen : 0 < s.tests := by rw [e1]; exact List.length_pos_iff.2 hne
  have hacc : s.accurate ≤ s.tests := by rw [e1, e2]; exact List.countP_le_length
  obtain ⟨n, hn, hclose⟩ := percent_close s.accurate s.tests hlen hacc
  have hn2 : n = general 4 (fl ((s.accurate : ℚ) * 100 / s.tests)) := by
    unfold percentText at hn; exact (List.append_cancel_right hn).symm
  obtain ⟨gs, gp⟩ := general_solid 4 (fl ((s.accurate : ℚ) * 100 / s.tests))
  rw [← hn2] at gs gp
  refine ⟨n, fixed 2 (condsetFloat s.histogram), fixed 3 distance, ?_, ?_, ?_, ?_⟩
  · unfold tabularRow
    rw [hn, escape_percent gp, e1]
    apply cells_of_row (upper_solid hname) (samples_solid _) (solid_natText _) _ (solid_fixed _ _) (solid_fixed _ _)
    refine solid_append gs ?_
    intro c hc; simp at hc; rcases hc with rfl | rfl <;> decide
  · have := cast_abs hclose
    rw [e1, e2] at this
    push_cast at this
    refine le_trans this (le_of_eq (by norm_num))
  · have hm : mean (fun r => (condsetLen r : ℝ)) (allResults runs) =
        (((((allResults runs).map condsetLen).sum : ℕ) : ℚ) / ((allResults runs).length : ℕ) : ℚ) := by
      unfold mean
      rw [Rat.cast_div, Rat.cast_natCast, Rat.cast_natCast, Nat.cast_list_sum, List.map_map]; rfl
    rw [e5, hm] at hsize
    rw [hm, condsetFloat_eq h]
    have hx0 : (0 : ℚ) ≤ (((allResults runs).map condsetLen).sum : ℕ) / ((allResults runs).length : ℕ) := by positivity
    have hx1 : (((((allResults runs).map condsetLen).sum : ℕ) : ℚ) / ((allResults runs).length : ℕ)) ≤ 10 ^ 9 := by
      exact_mod_cast hsize
    generalize (((((allResults runs).map condsetLen).sum : ℕ) : ℚ) / ((allResults runs).length : ℕ)) = x at hx0 hx1 ⊢
    have a := fl_bounds_large hx0 hx1
    have b := fixed_error (p := 2) (by norm_num) (fl_nonneg hx0)
    have : |readNumber (fixed 2 (fl x)) - x| ≤ 51 / 10000 := by
      rw [abs_le] at a b ⊢
      norm_num at a b
      constructor <;> linarith
    refine le_trans (cast_abs this) (le_of_eq (by norm_num))
  · have b := cast_abs (fixed_error (p := 3) (by norm_num) h0)
    rw [abs_le] at b hd ⊢
    norm_num at b hd
    constructor <;> linarith

/-! ## The histogram -/

theorem floor_log2 {log2 : Nat → ℚ} (hl : GoodLog2 log2) {n : Nat} (h0 : 0 < n) (hb : n ≤ 2 ^ 35) :
    ⌊log2 n⌋.toNat = Nat.log 2 n := by
  set k := Nat.log 2 n with hk
  have h1 : 2 ^ k ≤ n := Nat.pow_log_le_self 2 h0.ne'
  have h2 : n < 2 ^ (k + 1) := Nat.lt_pow_succ_log_self (by norm_num) n
  have hk35 : k ≤ 35 := by
    have : k ≤ Nat.log 2 (2 ^ 35) := Nat.log_mono_right hb
    rwa [Nat.log_pow (by norm_num)] at this
  suffices hf : ⌊log2 n⌋ = (k : ℤ) by rw [hf]; simp
  rcases h1.eq_or_lt with he | hlt
  · rw [← he, hl.exact]; simp
  · rw [Int.floor_eq_iff]
    have hn := hl.near n h0
    have hlog2 : 0 < Real.log 2 := Real.log_pos (by norm_num)
    have hlog21 : Real.log 2 ≤ 1 := by
      have := Real.log_le_sub_one_of_pos (x := 2) (by norm_num); linarith
    have hnpos : (0 : ℝ) < n := by exact_mod_cast h0
    have hpow : ∀ j : Nat, Real.log ((2 : ℝ) ^ j) = j * Real.log 2 := fun j => by simp [Real.log_pow]
    -- from below
    have lo : (k : ℝ) + 1 / 2 ^ (k + 1) ≤ Real.logb 2 n := by
      unfold Real.logb
      rw [le_div_iff₀ hlog2]
      have a : Real.log ((2 : ℝ) ^ k / n) ≤ (2 : ℝ) ^ k / n - 1 :=
        Real.log_le_sub_one_of_pos (by positivity)
      rw [Real.log_div (by positivity) hnpos.ne', hpow] at a
      have b : (2 : ℝ) ^ k + 1 ≤ n := by exact_mod_cast hlt
      have c : (2 : ℝ) ^ k / n - 1 ≤ - (1 / 2 ^ (k + 1)) := by
        rw [show (2 : ℝ) ^ k / n - 1 = -((n - 2 ^ k) / n) by field_simp; ring]
        have : (1 : ℝ) / 2 ^ (k + 1) ≤ (n - 2 ^ k) / n := by
          have hn' : (n : ℝ) ≤ 2 ^ (k + 1) := by exact_mod_cast h2.le
          calc (1 : ℝ) / 2 ^ (k + 1) ≤ 1 / n := one_div_le_one_div_of_le hnpos hn'
            _ ≤ (n - 2 ^ k) / n := div_le_div_of_nonneg_right (by linarith) hnpos.le
        linarith
      have d : (1 : ℝ) / 2 ^ (k + 1) * Real.log 2 ≤ 1 / 2 ^ (k + 1) :=
        mul_le_of_le_one_right (by positivity) hlog21
      nlinarith
    -- from above
    have hi : Real.logb 2 n ≤ (k : ℝ) + 1 - 1 / 2 ^ (k + 1) := by
      unfold Real.logb
      rw [div_le_iff₀ hlog2]
      have a : Real.log ((n : ℝ) / 2 ^ (k + 1)) ≤ (n : ℝ) / 2 ^ (k + 1) - 1 :=
        Real.log_le_sub_one_of_pos (by positivity)
      rw [Real.log_div hnpos.ne' (by positivity), hpow] at a
      have b : (n : ℝ) + 1 ≤ 2 ^ (k + 1) := by exact_mod_cast h2
      have c : (n : ℝ) / 2 ^ (k + 1) - 1 ≤ - (1 / 2 ^ (k + 1)) := by
        have hp : (0 : ℝ) < 2 ^ (k + 1) := by positivity
        rw [show (n : ℝ) / 2 ^ (k + 1) - 1 = -((2 ^ (k + 1) - n) / 2 ^ (k + 1)) by field_simp; ring]
        have : (1 : ℝ) / 2 ^ (k + 1) ≤ (2 ^ (k + 1) - n) / 2 ^ (k + 1) := div_le_div_of_nonneg_right (by linarith) hp.le
        linarith
      have d : (1 : ℝ) / 2 ^ (k + 1) * Real.log 2 ≤ 1 / 2 ^ (k + 1) :=
        mul_le_of_le_one_right (by positivity) hlog21
      push_cast at a
      nlinarith
    have gap : (1 : ℝ) / 2 ^ 40 < 1 / 2 ^ (k + 1) :=
      one_div_lt_one_div_of_lt (by positivity) (pow_lt_pow_right₀ (by norm_num) (by omega))
    rw [abs_le] at hn
    constructor
    · have : (k : ℝ) ≤ log2 n := by linarith
      exact_mod_cast this
    · have : (log2 n : ℝ) < k + 1 := by linarith
      exact_mod_cast this

/-- A line of the histogram without its end. (Models no code: a notion for statements and proofs.) -/
def lineBody (e : Nat × Nat) : Str :=
  ['\t', '\t'] ++ padLeft 2 (natText e.1) ++ [':', ' '] ++ padLeft 6 (natText e.2) ++ [' '] ++ List.replicate (Nat.log 2 e.2) '-'

theorem histogramLines_eq {log2 : Nat → ℚ} (c : Counter) (f : Nat → Str) (ks : List Nat)
    (h : ∀ k ∈ ks, histogramLine log2 k ((dictGet c k).getD 0) = .ok (f k)) (text : Str) :
    histogramLines log2 c ks text = .ok (text ++ (ks.map f).flatten) := by
  induction ks generalizing text with
  | nil => simp [histogramLines]
  | cons k ks ih =>
    unfold histogramLines
    rw [h k (by simp)]
    simp only []
    rw [ih (fun x hx => h x (by simp [hx]))]
    simp

theorem no_newline_pad {n m : Nat} {c : Char} (hc : c.isDigit = false) (hs : c ≠ ' ') : c ∉ padLeft n (natText m) := by
  unfold padLeft
  simp only [List.mem_append, List.mem_replicate, not_or, not_and]
  exact ⟨fun _ => hs, natText_no hc⟩

theorem lines_back (ls : List Str) (h : ∀ l ∈ ls, '\n' ∉ l) :
    linesOf ('\n' :: (ls.map (· ++ ['\n'])).flatten) = ls := by
  have e : ('\n' :: (ls.map (· ++ ['\n'])).flatten) = ['\n'].intercalate ([] :: (ls ++ [[]])) := by
    have key : ∀ ls : List Str, (ls.map (· ++ ['\n'])).flatten = ['\n'].intercalate (ls ++ [[]]) := by
      intro ls
      induction ls with
      | nil => rfl
      | cons l ls ih =>
        have hne : ls ++ [[]] ≠ [] := by simp
        obtain ⟨x, xs, hx⟩ := List.exists_cons_of_ne_nil hne
        rw [List.map_cons, List.flatten_cons, ih, List.cons_append, hx]
        simp [List.intercalate]
    rw [key]
    have hne : ls ++ [[]] ≠ [] := by simp
    obtain ⟨x, xs, hx⟩ := List.exists_cons_of_ne_nil hne
    rw [hx]
    simp [List.intercalate]
  unfold linesOf
  rw [e, List.splitOn_intercalate]
  · simp
  · intro l hl
    rcases List.mem_cons.1 hl with rfl | hl
    · simp
    · rcases List.mem_append.1 hl with hl | hl
      · exact h l hl
      · rw [List.mem_singleton.1 hl]; simp
  · simp

theorem filter_pad (n m : Nat) : (padLeft n (natText m)).filter Char.isDigit = natText m := by
  unfold padLeft
  rw [List.filter_append, List.filter_eq_nil_iff.2 (by
    intro c hc; rw [(List.mem_replicate.1 hc).2]; decide), List.nil_append,
    List.filter_eq_self.2 (fun _ => natText_digit)]

theorem readLine_body (e : Nat × Nat) : readLine (lineBody e) = (e.1, e.2, Nat.log 2 e.2) := by
  have hpre : ':' ∉ (['\t', '\t'] ++ padLeft 2 (natText e.1)) := by
    rw [List.mem_append, not_or]; exact ⟨by decide, no_newline_pad (by decide) (by decide)⟩
  have hb : lineBody e = (['\t', '\t'] ++ padLeft 2 (natText e.1)) ++ ':' ::
      ([' '] ++ padLeft 6 (natText e.2) ++ [' '] ++ List.replicate (Nat.log 2 e.2) '-') := by
    simp [lineBody]
  have hc : ∀ n m, (padLeft n (natText m)).count '-' = 0 := fun n m =>
    List.count_eq_zero.2 (no_newline_pad (by decide) (by decide))
  unfold readLine
  rw [hb, (takeWhile_stop hpre).1, (takeWhile_stop hpre).2]
  refine Prod.ext ?_ (Prod.ext ?_ ?_)
  · simp only []
    rw [List.filter_append, filter_pad]
    exact digits_nat _
  · simp only []
    have hr : (List.replicate (Nat.log 2 e.2) '-').filter Char.isDigit = [] := by
      apply List.filter_eq_nil_iff.2
      intro c hc; rw [(List.mem_replicate.1 hc).2]; decide
    rw [List.filter_cons_of_neg (by decide), List.filter_append, List.filter_append, List.filter_append, filter_pad, hr]
    have : ([' '] : Str).filter Char.isDigit = [] := by decide
    rw [this]
    simp only [List.nil_append, List.append_nil]
    exact digits_nat _
  · simp only []
    simp [List.count_append, hc]

/-- **C112, the histogram.**  If there is a summary, the text of the histogram has one line for each length of the
text of a conditioning set that occurs, in increasing order, with the number of tests (see `summary_exact`)
and a bar as long as the whole part of the base 2 logarithm of that number. -/
theorem histogram_reads {ds : Bool} {runs : List (AlgRun P)} {s : Summary} (h : summary ds runs = .ok s)
    {log2 : Nat → ℚ} (hl : GoodLog2 log2) (hb : (allResults runs).length ≤ 2 ^ 35) :
    ∃ text, totalHistogram log2 ds runs = .ok text ∧
      (linesOf text).map readLine = s.histogram.map (fun e => (e.1, e.2, Nat.log 2 e.2)) := by
  obtain ⟨t, ht, hc, hh⟩ := summary_loop h
  obtain ⟨_, _, _, _, _, hmem, hsort, _⟩ := summary_exact h
  have hp : s.histogram.Perm t.counter := by rw [hh]; exact List.perm_insertionSort _ _
  have hkeys : (t.counter.map Prod.fst).insertionSort (· ≤ ·) = s.histogram.map Prod.fst := by
    have hs1 : ((t.counter.map Prod.fst).insertionSort (· ≤ ·)).Pairwise (· ≤ ·) := List.pairwise_insertionSort _ _
    have hs2 : (s.histogram.map Prod.fst).Pairwise (· ≤ ·) := by
      rw [List.pairwise_map]; exact hsort.imp (fun h => le_of_lt h)
    refine List.Perm.eq_of_pairwise (le := (· ≤ ·)) (fun a b _ _ h1 h2 => le_antisymm h1 h2) hs1 hs2 ?_
    exact (List.perm_insertionSort _ _).trans (hp.map Prod.fst).symm
  have hline : ∀ e ∈ s.histogram, histogramLine log2 e.1 ((dictGet t.counter e.1).getD 0) = .ok (lineBody e ++ ['\n']) := by
    intro e he
    have hg : dictGet t.counter e.1 = some e.2 := dictGet_of_mem hc.keys (hp.mem_iff.1 he)
    obtain ⟨hpos, hcount⟩ := (hmem e.1 e.2).1 he
    have hle : e.2 ≤ 2 ^ 35 := by rw [hcount]; exact le_trans List.countP_le_length hb
    unfold histogramLine
    rw [hg, Option.getD_some, if_neg hpos.ne', floor_log2 hl hpos hle]
    rfl
  have hmap : histogramLines log2 t.counter (s.histogram.map Prod.fst) ['\n'] =
      .ok (['\n'] ++ ((s.histogram.map Prod.fst).map (fun k => lineBody (k, (dictGet t.counter k).getD 0) ++ ['\n'])).flatten) := by
    apply histogramLines_eq
    intro k hk
    obtain ⟨e, he, rfl⟩ := List.mem_map.1 hk
    have hg : dictGet t.counter e.1 = some e.2 := dictGet_of_mem hc.keys (hp.mem_iff.1 he)
    rw [hline e he, hg]
    rfl
  have hmap2 : (s.histogram.map Prod.fst).map (fun k => lineBody (k, (dictGet t.counter k).getD 0) ++ ['\n']) =
      (s.histogram.map lineBody).map (· ++ ['\n']) := by
    rw [List.map_map, List.map_map]
    apply List.map_congr_left
    intro e he
    have hg : dictGet t.counter e.1 = some e.2 := dictGet_of_mem hc.keys (hp.mem_iff.1 he)
    simp only [Function.comp_apply, hg, Option.getD_some]
  refine ⟨'\n' :: ((s.histogram.map lineBody).map (· ++ ['\n'])).flatten, ?_, ?_⟩
  · unfold totalHistogram
    rw [ht]
    simp only []
    unfold histogramText
    rw [hkeys, hmap, hmap2]; rfl
  · rw [lines_back]
    · rw [List.map_map]
      apply List.map_congr_left
      intro e _
      exact readLine_body e
    · intro l hm
      obtain ⟨e, _, rfl⟩ := List.mem_map.1 hm
      unfold lineBody
      simp only [List.mem_append, not_or]
      refine ⟨⟨⟨⟨⟨by decide, no_newline_pad (by decide) (by decide)⟩, by decide⟩, no_newline_pad (by decide) (by decide)⟩, by decide⟩, ?_⟩
      intro hm; exact absurd (List.mem_replicate.1 hm).2 (by decide)

/-! ## Examples -/

/-- `2/3` of the tests; one wrong test in 20000 and one in 19999; one right test in two million. -/
example : percentText 2 3 = "66.67%".toList ∧ percentText 19999 20000 = "100.0%".toList ∧
    percentText 19998 19999 = "99.99%".toList ∧ percentText 1 2000000 = "5e-05%".toList := by decide +kernel

/-- A logarithm as required: the whole part for powers of two, and otherwise some close rational. -/
theorem good_log2_exists : ∃ log2, GoodLog2 log2 := by
  have h : ∀ n : Nat, ∃ q : ℚ, (∀ k : Nat, n = 2 ^ k → q = k) ∧ (0 < n → |(q : ℝ) - Real.logb 2 n| ≤ 1 / 2 ^ 40) := by
    intro n
    by_cases hp : ∃ k : Nat, n = 2 ^ k
    · obtain ⟨k, rfl⟩ := hp
      refine ⟨k, fun j hj => ?_, fun _ => ?_⟩
      · rw [Nat.pow_right_injective (le_refl 2) hj]
      · push_cast
        rw [← Real.rpow_natCast 2 k, Real.logb_rpow (by norm_num) (by norm_num)]
        simp
    · obtain ⟨q, h1, h2⟩ := exists_rat_btwn (show Real.logb 2 n - 1 / 2 ^ 40 < Real.logb 2 n by
        have : (0 : ℝ) < 1 / 2 ^ 40 := by positivity
        linarith)
      refine ⟨q, fun k hk => absurd ⟨k, hk⟩ hp, fun _ => ?_⟩
      rw [abs_le]; constructor <;> linarith
  choose f hf using h
  exact ⟨f, fun k => (hf _).1 k rfl, fun n hn => (hf n).2 hn⟩

/-- The two runs of the example of C76: they have a summary, and the row and the histogram can be read. -/
example : ∃ s, summary true exRuns = .ok s ∧ ∃ percent condset dist,
    cellsOf (tabularRow "alarm".toList (some 1000) s (1 / 4)) = ["ALARM".toList, "1000".toList, "3".toList,
      percent ++ ['\\', '%'], condset, dist] := by
  obtain ⟨s, hs⟩ := (summary_ok_iff true exRuns).2 exRuns_complete
  have hall : allResults exRuns = [exTest [] true, exTest [12] false, exTest [1, 2] true] := by
    simp [allResults, exRuns]
  obtain ⟨e1, _, _, _, e5, _, _, h8, _⟩ := summary_exact hs
  have l0 : condsetLen (exTest [] true) = 1 := by decide +kernel
  have l1 : condsetLen (exTest [12] false) = 2 := by decide +kernel
  have l2 : condsetLen (exTest [1, 2] true) = 6 := by decide +kernel
  have hd : |(((1 / 4 : ℚ)) : ℝ) - s.avgDistance| ≤ 1 / 10 ^ 6 := by
    rw [(h8 rfl).2.2.2]
    have f1 : found (⟨0, some [exTest [] true, exTest [12] false], some [1, 2], some [2, 1]⟩ : AlgRun Unit) = {1, 2} := by decide +kernel
    have f2 : truth (⟨0, some [exTest [] true, exTest [12] false], some [1, 2], some [2, 1]⟩ : AlgRun Unit) = {1, 2} := by decide +kernel
    have f3 : found (⟨3, some [exTest [1, 2] true], some [1, 2], some [1]⟩ : AlgRun Unit) = {1, 2} := by decide +kernel
    have f4 : truth (⟨3, some [exTest [1, 2] true], some [1, 2], some [1]⟩ : AlgRun Unit) = {1} := by decide +kernel
    simp only [mean, exRuns, List.map_cons, List.map_nil, precisionOf, recallOf, f1, f2, f3, f4, distance]
    have g1 : ((({1, 2} : Finset Nat) ∩ {1, 2}).card : ℝ) = 2 := by norm_num
    have g2 : ((({1, 2} : Finset Nat)).card : ℝ) = 2 := by norm_num
    have g3 : ((({1, 2} : Finset Nat) ∩ {1}).card : ℝ) = 1 := by norm_num
    have g4 : ((({1} : Finset Nat)).card : ℝ) = 1 := by norm_num
    rw [g1, g2, g3, g4]
    have : Real.sqrt ((1 - 1 / 2) ^ 2 + (1 - 1 / 1) ^ 2) = 1 / 2 := by
      rw [show ((1 - 1 / 2 : ℝ) ^ 2 + (1 - 1 / 1) ^ 2) = (1 / 2) ^ 2 by norm_num, Real.sqrt_sq (by norm_num)]
    rw [this]
    norm_num
  have hsize : s.avgCondset ≤ 10 ^ 9 := by
    rw [e5, hall]; simp [mean, l0, l1, l2]; norm_num
  obtain ⟨p, c, d, h1, _⟩ := tabular_row_reads hs "alarm".toList (by decide) (some 1000) (1 / 4) (by norm_num) hd hsize
  refine ⟨s, hs, p, c, d, ?_⟩
  rw [h1, hall]
  rfl

end Mbtk.DsepSummary
