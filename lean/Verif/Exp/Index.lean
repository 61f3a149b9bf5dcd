import Verif.Data.Rcv
/-!
# Model of the selection of runs by an index string (C47)

mbtk/utilities/experiment.py: `get_parameters_by_index`, `get_parameters_index`,
`create_slice_from_string`.  Simplifications: `int()` for ASCII digits only (Python also accepts other
decimal digits), without its limit on the number of digits.
-/
namespace Mbtk.Exp
open Mbtk Mbtk.Dataset Mbtk.Dataset.Rcv

/-- Digits with single underscores between them. utilities/experiment.py 371, 382. -/
def validDigits : Str → Bool
  | [] => false
  | [c] => c.isDigit
  | c :: '_' :: cs => c.isDigit && validDigits cs
  | c :: cs => c.isDigit && validDigits cs

/-- The value of a string of digits. utilities/experiment.py 371, 382. -/
def pyDigits (s : Str) : Option Nat :=
  if validDigits s then some (Nat.ofDigitChars 10 (s.filter (fun c => c ≠ '_')) 0) else none

/-- `int(s)`; none: `ValueError`. utilities/experiment.py 371, 382. -/
def pyInt (s : Str) : Option Int :=
  match strip s with
  | '-' :: ds => (pyDigits ds).map (fun n : Nat => -(n : Int))
  | '+' :: ds => (pyDigits ds).map (fun n : Nat => (n : Int))
  | ds => (pyDigits ds).map (fun n : Nat => (n : Int))

/-- `s.split('-')`. utilities/experiment.py 381. -/
def splitDash : Str → List Str
  | [] => [[]]
  | c :: cs =>
    if c = '-' then [] :: splitDash cs
    else match splitDash cs with
      | [] => [[c]]
      | p :: ps => (c :: p) :: ps

/-- `create_slice_from_string(s)`: experiment.py 380-382. -/
def createSlice (s : Str) : Except Err (Int × Int) :=
  match splitDash s with
  | p0 :: p1 :: _ => match pyInt p0 with
    | none => .error .valueError
    | some a => match pyInt p1 with
      | none => .error .valueError
      | some b => .ok (a, b + 1)
  | _ => .error .indexError

/-- `get_parameters_index`: experiment.py 364-377.  `none`: no index is given. -/
def parametersIndex (index : Option Str) : Except Err (Option (Int × Int)) :=
  match index with
  | none => .ok none
  | some s => match pyInt s with
    | some n => .ok (some (n, n + 1))
    | none =>
      if '-' ∈ s then
        match createSlice s with
        | .ok v => .ok (some v)
        | .error e => .error e
      else .error .valueError

/-- A bound of a slice of a list of length `n`. utilities/experiment.py 356-361. -/
def sliceBound (n : Nat) (i : Int) : Nat := if i < 0 then (i + n).toNat else min i.toNat n

/-- `l[slice(a, b)]`. utilities/experiment.py 356-361. -/
def pySlice {α : Type} (l : List α) (a b : Int) : List α :=
  (l.take (sliceBound l.length b)).drop (sliceBound l.length a)

/-- `get_parameters_by_index`: experiment.py 356-361. -/
def selectRuns {α : Type} (index : Option Str) (runs : List α) : Except Err (List α) :=
  match parametersIndex index with
  | .error e => .error e
  | .ok none => .ok runs
  | .ok (some (a, b)) => .ok (pySlice runs a b)

/-! ## Lemmas -/

theorem digit_ne {c : Char} (h : c.isDigit = true) : c ≠ '-' ∧ c ≠ '+' ∧ c ≠ '_' := by
  refine ⟨?_, ?_, ?_⟩ <;> rintro rfl <;> exact absurd h (by decide)

theorem validDigits_of {s : Str} (hne : s ≠ []) (h : ∀ c ∈ s, c.isDigit = true) : validDigits s = true := by
  induction s with
  | nil => exact absurd rfl hne
  | cons c cs ih =>
    have hc := h c (by simp)
    cases cs with
    | nil => exact hc
    | cons d ds =>
      have hd := (digit_ne (h d (by simp))).2.2
      have := ih (by simp) (fun x hx => h x (by simp [hx]))
      unfold validDigits
      split
      · simp_all
      · simp_all
      · simp_all
      · simp_all

theorem strip_idLabel (n : Nat) : strip (idLabel n) = idLabel n := by
  apply strip_fix
  refine ⟨fun c hc => ?_, fun c hc => ?_, fun c hc => ?_⟩
  · have := idLabel_digit n c hc
    constructor <;> rintro rfl <;> exact absurd this (by decide)
  · exact digit_not_space (idLabel_digit n c (List.mem_of_mem_head? hc))
  · exact digit_not_space (idLabel_digit n c (List.mem_of_mem_getLast? hc))

theorem pyDigits_idLabel (n : Nat) : pyDigits (idLabel n) = some n := by
  unfold pyDigits
  rw [if_pos (validDigits_of (idLabel_ne_nil n) (idLabel_digit n))]
  have hf : (idLabel n).filter (fun c => c ≠ '_') = idLabel n := by
    rw [List.filter_eq_self]
    intro c hc
    simpa using (digit_ne (idLabel_digit n c hc)).2.2
  rw [hf]
  unfold idLabel
  rw [Nat.toString_eq_ofList_toDigits, String.toList_ofList, Nat.ofDigitChars_toDigits (by decide) (by decide)]

/-- `int(str(n)) == n`. -/
theorem pyInt_idLabel (n : Nat) : pyInt (idLabel n) = some (n : Int) := by
  unfold pyInt
  rw [strip_idLabel]
  have hd := idLabel_digit n
  have hp := pyDigits_idLabel n
  generalize idLabel n = s at hd hp
  split
  · exact absurd rfl (digit_ne (hd '-' (by simp))).1
  · exact absurd rfl (digit_ne (hd '+' (by simp))).2.1
  · rw [hp]; rfl

theorem splitDash_nodash {s : Str} (h : '-' ∉ s) : splitDash s = [s] := by
  induction s with
  | nil => rfl
  | cons c cs ih =>
    have hc : c ≠ '-' := by rintro rfl; simp at h
    unfold splitDash
    rw [if_neg hc, ih (fun h' => h (by simp [h']))]

theorem splitDash_append {s : Str} (h : '-' ∉ s) (t : Str) : splitDash (s ++ '-' :: t) = s :: splitDash t := by
  induction s with
  | nil => simp [splitDash]
  | cons c cs ih =>
    have hc : c ≠ '-' := by rintro rfl; simp at h
    rw [List.cons_append]
    conv_lhs => unfold splitDash
    rw [if_neg hc, ih (fun h' => h (by simp [h']))]

theorem splitDash_ne (s : Str) : splitDash s ≠ [] := by
  cases s with
  | nil => simp [splitDash]
  | cons c cs =>
    unfold splitDash
    split
    · simp
    · split <;> simp

theorem splitDash_two {s : Str} (h : '-' ∈ s) : ∃ p0 p1 ps, splitDash s = p0 :: p1 :: ps := by
  induction s with
  | nil => simp at h
  | cons c cs ih =>
    unfold splitDash
    by_cases hc : c = '-'
    · rw [if_pos hc]
      cases h1 : splitDash cs with
      | nil => exact absurd h1 (splitDash_ne cs)
      | cons p ps => exact ⟨_, _, _, rfl⟩
    · rw [if_neg hc]
      rcases List.mem_cons.1 h with rfl | h
      · exact absurd rfl hc
      · obtain ⟨p0, p1, ps, e⟩ := ih h
        rw [e]
        exact ⟨_, _, _, rfl⟩

theorem idLabel_nodash (n : Nat) : '-' ∉ idLabel n := by
  intro h; exact absurd (idLabel_digit n _ h) (by decide)

theorem validDigits_chars {s : Str} (h : validDigits s = true) : '-' ∉ s := by
  intro hm
  induction s using validDigits.induct with
  | case1 => simp at hm
  | case2 c =>
    simp at hm; subst hm
    exact absurd h (by decide)
  | case3 c cs ih =>
    simp only [validDigits, Bool.and_eq_true] at h
    rcases List.mem_cons.1 hm with rfl | hm
    · exact absurd h.1 (by decide)
    rcases List.mem_cons.1 hm with hm | hm
    · exact absurd hm (by decide)
    · exact ih h.2 hm
  | case4 c cs hne hne2 ih =>
    rw [validDigits] at h
    · simp only [Bool.and_eq_true] at h
      rcases List.mem_cons.1 hm with rfl | hm
      · exact absurd h.1 (by decide)
      · exact ih h.2 hm
    · exact hne
    · exact hne2

theorem pyDigits_chars {s : Str} (h : '-' ∈ s) : pyDigits s = none := by
  unfold pyDigits
  rw [if_neg]
  exact fun h' => validDigits_chars h' h

/-- A range is not a number. -/
theorem pyInt_range (a : Nat) (t : Str) (ht : strip (idLabel a ++ '-' :: t) = idLabel a ++ '-' :: t) :
    pyInt (idLabel a ++ '-' :: t) = none := by
  unfold pyInt
  rw [ht]
  have hd := idLabel_digit a
  have hne := idLabel_ne_nil a
  generalize idLabel a = s at hd hne
  cases s with
  | nil => exact absurd rfl hne
  | cons c cs =>
    have hc := digit_ne (hd c (by simp))
    rw [List.cons_append]
    split
    · rename_i h; exact absurd (List.cons.inj h).1 hc.1
    · rename_i h; exact absurd (List.cons.inj h).1 hc.2.1
    · rw [pyDigits_chars (by simp)]; rfl

theorem strip_range (a b : Nat) (mid : Str) (hm : ∀ c ∈ mid, c ≠ '\n' ∧ c ≠ '\r') :
    strip (idLabel a ++ mid ++ idLabel b) = idLabel a ++ mid ++ idLabel b := by
  apply strip_fix
  have hda := idLabel_digit a
  have hdb := idLabel_digit b
  refine ⟨fun c hc => ?_, fun c hc => ?_, fun c hc => ?_⟩
  · rcases List.mem_append.1 hc with hc | hc
    · rcases List.mem_append.1 hc with hc | hc
      · have := hda c hc
        constructor <;> rintro rfl <;> exact absurd this (by decide)
      · exact hm c hc
    · have := hdb c hc
      constructor <;> rintro rfl <;> exact absurd this (by decide)
  · rw [List.append_assoc, List.head?_append_of_ne_nil _ (idLabel_ne_nil a)] at hc
    exact digit_not_space (hda c (List.mem_of_mem_head? hc))
  · rw [List.getLast?_append_of_ne_nil _ (idLabel_ne_nil b)] at hc
    exact digit_not_space (hdb c (List.mem_of_mem_getLast? hc))

/-! ## C47 -/

/-- **C47.**  Without an index all the runs are selected. -/
theorem select_all {α : Type} (runs : List α) : selectRuns none runs = .ok runs := rfl

/-- **C47.**  The index `a` selects only run `a`, and nothing if there is no such run. -/
theorem select_single {α : Type} (a : Nat) (runs : List α) :
    selectRuns (some (idLabel a)) runs = .ok (runs[a]?).toList := by
  unfold selectRuns parametersIndex
  simp only [pyInt_idLabel, pySlice, sliceBound]
  rw [if_neg (by omega), if_neg (by omega)]
  congr 1
  by_cases h : a < runs.length
  · rw [List.getElem?_eq_getElem h]
    have e1 : min ((a : Int) + 1).toNat runs.length = a + 1 := by omega
    have e2 : min ((a : Int)).toNat runs.length = a := by omega
    rw [e1, e2, List.take_add_one, List.drop_append, List.getElem?_eq_getElem h]
    have e3 : a - min a runs.length = 0 := by omega
    simp [e3]
  · rw [List.getElem?_eq_none (by omega)]
    have e2 : min ((a : Int)).toNat runs.length = runs.length := by omega
    rw [e2]
    simp

/-- **C47.**  The index `a-b` selects exactly the runs with the positions from `a` to `b`, both
included, in their order. -/
theorem select_range {α : Type} (a b : Nat) (runs : List α) :
    ∃ sel, selectRuns (some (idLabel a ++ ['-'] ++ idLabel b)) runs = .ok sel ∧
      sel.length = min (b + 1) runs.length - a ∧
      ∀ i, sel[i]? = if a + i ≤ b then runs[a + i]? else none := by
  have hs := strip_range a b ['-'] (by decide)
  have e : idLabel a ++ ['-'] ++ idLabel b = idLabel a ++ '-' :: idLabel b := by simp
  have hi := pyInt_range a (idLabel b) (by rw [← e]; exact hs)
  have hsp := splitDash_append (idLabel_nodash a) (idLabel b)
  rw [splitDash_nodash (idLabel_nodash b)] at hsp
  rw [e]
  refine ⟨pySlice runs a (b + 1), ?_, ?_, ?_⟩
  · unfold selectRuns parametersIndex
    simp only []
    rw [hi]
    simp only []
    rw [if_pos (by simp)]
    unfold createSlice
    rw [hsp]
    simp only [pyInt_idLabel]
  · unfold pySlice sliceBound
    rw [if_neg (by omega), if_neg (by omega), List.length_drop, List.length_take]
    omega
  · intro i
    unfold pySlice sliceBound
    rw [if_neg (by omega), if_neg (by omega), List.getElem?_drop, List.getElem?_take]
    by_cases h : a ≤ runs.length
    · have : min ((a : Int)).toNat runs.length = a := by omega
      rw [this]
      by_cases h1 : a + i < min ((b : Int) + 1).toNat runs.length
      · rw [if_pos h1, if_pos (by omega)]
      · rw [if_neg h1]
        split
        · rw [List.getElem?_eq_none (by omega)]
        · rfl
    · rw [if_neg (by omega)]
      split
      · rw [List.getElem?_eq_none (by omega)]
      · rfl

/-- **C47.**  Whatever the index, the selection is a contiguous part of the runs, or the index is
refused with `ValueError`. -/
theorem select_contiguous {α : Type} (index : Option Str) (runs : List α) :
    (∃ sel, selectRuns index runs = .ok sel ∧ sel <:+: runs) ∨
    selectRuns index runs = .error .valueError := by
  have hsl : ∀ a b : Int, pySlice runs a b <:+: runs := fun a b =>
    ((List.drop_suffix _ _).isInfix).trans ((List.take_prefix _ _).isInfix)
  unfold selectRuns parametersIndex
  cases index with
  | none => exact .inl ⟨runs, rfl, List.infix_refl _⟩
  | some s =>
    simp only []
    cases pyInt s with
    | some n => exact .inl ⟨_, rfl, hsl _ _⟩
    | none =>
      simp only []
      by_cases hd : '-' ∈ s
      · rw [if_pos hd]
        obtain ⟨p0, p1, ps, h⟩ := splitDash_two hd
        unfold createSlice
        rw [h]
        simp only []
        cases pyInt p0 with
        | none => exact .inr rfl
        | some a => cases pyInt p1 with
          | none => exact .inr rfl
          | some b => exact .inl ⟨_, rfl, hsl _ _⟩
      · rw [if_neg hd]; exact .inr rfl

/-- **Finding.**  A negative index `-k` counts from the end, except `-1`, which selects nothing. -/
theorem select_negative {α : Type} (k : Nat) (hk : 0 < k) (runs : List α) (hn : k ≤ runs.length) :
    selectRuns (some ('-' :: idLabel k)) runs =
      .ok (if k = 1 then [] else (runs[runs.length - k]?).toList) := by
  have hst : strip ('-' :: idLabel k) = '-' :: idLabel k := by
    apply strip_fix
    refine ⟨fun c hc => ?_, fun c hc => ?_, fun c hc => ?_⟩
    · rcases List.mem_cons.1 hc with rfl | hc
      · decide
      · have := idLabel_digit k c hc
        constructor <;> rintro rfl <;> exact absurd this (by decide)
    · simp at hc; subst hc; decide
    · have e : '-' :: idLabel k = ['-'] ++ idLabel k := rfl
      rw [e, List.getLast?_append_of_ne_nil _ (idLabel_ne_nil k)] at hc
      exact digit_not_space (idLabel_digit k c (List.mem_of_mem_getLast? hc))
  unfold selectRuns parametersIndex pyInt
  simp only [hst, pyDigits_idLabel, Option.map_some]
  congr 1
  unfold pySlice sliceBound
  by_cases h1 : k = 1
  · subst h1
    rw [if_pos rfl]
    have : ¬ (-((1 : Nat) : Int) + 1 < 0) := by omega
    rw [if_neg this]
    simp
  · rw [if_neg h1, if_pos (by omega), if_pos (by omega)]
    have e1 : (-(k : Int) + 1 + runs.length).toNat = (runs.length - k) + 1 := by omega
    have e2 : (-(k : Int) + runs.length).toNat = runs.length - k := by omega
    have hlt : runs.length - k < runs.length := by omega
    rw [e1, e2, List.take_add_one, List.drop_append, List.getElem?_eq_getElem hlt]
    simp

/-- **Finding.**  Whatever follows a second dash is ignored: `a-b-...` is read as `a-b`. -/
theorem select_ignores_rest {α : Type} (a b c : Nat) (runs : List α) :
    selectRuns (some (idLabel a ++ (['-'] ++ idLabel b ++ ['-']) ++ idLabel c)) runs =
      selectRuns (some (idLabel a ++ ['-'] ++ idLabel b)) runs := by
  have hb := idLabel_digit b
  have hs := strip_range a c (['-'] ++ idLabel b ++ ['-']) (by
    intro x hx
    simp only [List.mem_append, List.mem_singleton] at hx
    rcases hx with (rfl | hx) | rfl
    · decide
    · have := hb x hx
      constructor <;> rintro rfl <;> exact absurd this (by decide)
    · decide)
  have e : idLabel a ++ (['-'] ++ idLabel b ++ ['-']) ++ idLabel c =
      idLabel a ++ '-' :: (idLabel b ++ '-' :: idLabel c) := by simp
  have hi := pyInt_range a (idLabel b ++ '-' :: idLabel c) (by rw [← e]; exact hs)
  have hsp := splitDash_append (idLabel_nodash a) (idLabel b ++ '-' :: idLabel c)
  rw [splitDash_append (idLabel_nodash b)] at hsp
  have e' : idLabel a ++ ['-'] ++ idLabel b = idLabel a ++ '-' :: idLabel b := by simp
  have hs' := strip_range a b ['-'] (by decide)
  have hi' := pyInt_range a (idLabel b) (by rw [← e']; exact hs')
  have hsp' := splitDash_append (idLabel_nodash a) (idLabel b)
  rw [splitDash_nodash (idLabel_nodash b)] at hsp'
  rw [e, e']
  unfold selectRuns parametersIndex createSlice
  simp only [hi, hi', hsp, hsp', pyInt_idLabel]
  simp

example : (selectRuns (some "1-3".toList) ["r0", "r1", "r2", "r3", "r4"]).toOption =
    some ["r1", "r2", "r3"] := by decide +kernel

example : (selectRuns (some " 1_0 ".toList) (List.range 20)).toOption = some [10] ∧
    (selectRuns (some "2-".toList) (List.range 20)).toOption = none ∧
    (selectRuns (some "-1".toList) (List.range 20)).toOption = some [] := by decide +kernel

end Mbtk.Exp
