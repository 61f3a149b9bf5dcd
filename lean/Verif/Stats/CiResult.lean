import Verif.Exp.Index
import Mathlib.Data.Rat.Defs
import Mathlib.Tactic.Linarith
import Mathlib.Tactic.NormNum
/-!
# Results of CI tests (`mbtk/math/CITestResult.py`, `HeuristicResult.py`) (C64)

Floats are rationals; dictionaries of parameters are values of an arbitrary type compared with `==`
(their content is not inspected); times are not modelled.
-/
namespace Mbtk.CiResult
open Mbtk.Dataset Mbtk.Dataset.Rcv Mbtk.Exp

/-- `str(n)` of an integer. CITestResult.py 131-169. -/
def intStr : Int → Str
  | .ofNat n => idLabel n
  | .negSucc n => '-' :: idLabel (n + 1)

/-- What `set_variables` can be given. CITestResult.py 116-169. -/
inductive VarArg where
  /-- `None` -/
  | none
  /-- `JointVariables`, by its `IDs()` -/
  | joint (ids : List Int)
  | omega
  /-- a `Variable`, by its `ID` -/
  | single (id : Int)
  | int (n : Int)
  /-- a `list`, or a `set` in the order in which it is visited -/
  | many (l : List Int)
  deriving DecidableEq, Repr

/-- `', '.join(...)` CITestResult.py 131-169. -/
def commaJoin : List Int → Str
  | [] => []
  | [x] => intStr x
  | x :: y :: rest => intStr x ++ [',', ' '] ++ commaJoin (y :: rest)

/-- The case of lists and sets: CITestResult.py 156-163 and 168-169. -/
def reprMany : List Int → Str
  | [] => ['Ω']
  | [x] => intStr x
  | l => ['{'] ++ commaJoin l ++ ['}']

/-- `get_variable_representation(variable)`: CITestResult.py 131-165 (the same in
HeuristicResult.py 41-75). -/
def repr : VarArg → Str
  | .none => ['∅']
  | .joint ids => reprMany ids
  | .omega => ['Ω']
  | .single id => if id = -1024 then ['Ω'] else intStr id
  | .int n => if n = -1 then "unnamed".toList else if n = -1024 then ['Ω'] else intStr n
  | .many l => reprMany l

/-- The attributes of a `CITestResult`: CITestResult.py 17-40.  `X`, `Y`, `Z` are `None`/`[]` before
`set_variables`. -/
structure Res (P : Type) where
  independent : Option Bool
  dependent : Option Bool
  insufficient : Option Bool
  variables' : Option (Str × Str × Str)
  statistic : Option Str
  statisticValue : Option ℚ
  statisticParameters : P
  distribution : Option Str
  distributionParameters : P
  pValue : Option ℚ
  significance : Option ℚ
  dSeparation : Option Bool
  tolStatistic : ℚ
  tolP : ℚ

variable {P : Type} [DecidableEq P]

/-- `CITestResult()`: CITestResult.py 17-40; `empty` is the empty dictionary. -/
def fresh (empty : P) : Res P where
  independent := some false
  dependent := some false
  insufficient := none
  variables' := none
  statistic := none
  statisticValue := none
  statisticParameters := empty
  distribution := none
  distributionParameters := empty
  pValue := none
  significance := none
  dSeparation := none
  tolStatistic := 1 / 100000000000
  tolP := 1 / 100000000000

/-- `abs(a - b) <= tol`; `TypeError` if one of them is `None`. CITestResult.py 43-90. -/
def close (a b : Option ℚ) (tol : ℚ) : Except Err Bool :=
  match a, b with
  | some a, some b => .ok (decide (|a - b| ≤ tol))
  | _, _ => .error .typeError

/-- `a == b`: CITestResult.py 43-59.  `and` stops at the first comparison that fails. -/
def eq (a b : Res P) : Except Err Bool :=
  if a.independent = b.independent ∧ a.dependent = b.dependent ∧ a.insufficient = b.insufficient ∧
      a.variables' = b.variables' ∧ a.statistic = b.statistic then
    match close a.statisticValue b.statisticValue a.tolStatistic with
    | .error e => .error e
    | .ok false => .ok false
    | .ok true =>
      if a.statisticParameters = b.statisticParameters ∧ a.distribution = b.distribution ∧
          a.distributionParameters = b.distributionParameters then
        match close a.pValue b.pValue a.tolP with
        | .error e => .error e
        | .ok false => .ok false
        | .ok true => .ok (decide (a.significance = b.significance ∧ a.dSeparation = b.dSeparation))
      else .ok false
  else .ok false

/-- The attribute named in the text that `diff` returns. CITestResult.py 62-90. -/
inductive Field where
  | insufficient | independent | dependent | variables | statistic | statisticValue
  | statisticParameters | distribution | distributionParameters | pValue | significance | dSeparation
  deriving DecidableEq, Repr

/-- `a.diff(b)`: CITestResult.py 62-90; `none` is Python's `None`.  The three variables are compared
one after the other in the code; the model does not distinguish which one differs. -/
def diff (a b : Res P) : Except Err (Option Field) :=
  if a.insufficient ≠ b.insufficient then .ok (some .insufficient)
  else if a.independent ≠ b.independent then .ok (some .independent)
  else if a.dependent ≠ b.dependent then .ok (some .dependent)
  else if a.variables' ≠ b.variables' then .ok (some .variables)
  else if a.statistic ≠ b.statistic then .ok (some .statistic)
  else match close a.statisticValue b.statisticValue a.tolStatistic with
    | .error e => .error e
    | .ok false => .ok (some .statisticValue)
    | .ok true =>
      if a.statisticParameters ≠ b.statisticParameters then .ok (some .statisticParameters)
      else if a.distribution ≠ b.distribution then .ok (some .distribution)
      else if a.distributionParameters ≠ b.distributionParameters then .ok (some .distributionParameters)
      else match close a.pValue b.pValue a.tolP with
        | .error e => .error e
        | .ok false => .ok (some .pValue)
        | .ok true =>
          if a.significance ≠ b.significance then .ok (some .significance)
          else if a.dSeparation ≠ b.dSeparation then .ok (some .dSeparation)
          else .ok none

/-- `accurate()`: CITestResult.py 184-188. -/
def accurate (a : Res P) : Option Bool :=
  a.dSeparation.map (fun d => decide (a.independent = some d))

/-- The setters: CITestResult.py 93-119 and 172-181, and the assignment of `computed_d_separation`
(G_test__unoptimized.py 51). -/
inductive Op (P : Type) where
  | setIndependent (b : Bool) (significance : ℚ)
  | setDependent (b : Bool) (significance : ℚ)
  | setInsufficientSamples
  | setVariables (X Y Z : VarArg)
  | setStatistic (name : Str) (value : ℚ) (params : P)
  | setDistribution (name : Str) (p : ℚ) (params : P)
  | setDSeparation (b : Bool)

/-- What a setter does. CITestResult.py 93-181. -/
def Op.apply (r : Res P) : Op P → Res P
  | .setIndependent b s =>
    { r with independent := some b, dependent := some !b, significance := some s, insufficient := none }
  | .setDependent b s =>
    { r with dependent := some b, independent := some !b, significance := some s, insufficient := none }
  | .setInsufficientSamples =>
    { r with insufficient := some true, independent := none, dependent := none, significance := none,
             statisticValue := some (-1), pValue := some (-1) }
  | .setVariables X Y Z => { r with variables' := some (repr X, repr Y, repr Z) }
  | .setStatistic n v p => { r with statistic := some n, statisticValue := some v, statisticParameters := p }
  | .setDistribution n v p =>
    { r with distribution := some n, pValue := some v, distributionParameters := p }
  | .setDSeparation b => { r with dSeparation := some b }

/-- A history of setters on a new result. CITestResult.py 93-181, several calls. -/
def history (empty : P) (ops : List (Op P)) : Res P := ops.foldl Op.apply (fresh empty)

/-! ## Equality and differences -/

/-- **C64, `diff` and `==` agree**: `diff` returns `None` exactly if the results are equal, a text
exactly if they are not, and raises exactly if `==` raises. -/
theorem diff_iff_eq (a b : Res P) : eq a b = (diff a b).map (fun d => d.isNone) := by
  unfold eq diff
  by_cases h1 : a.insufficient = b.insufficient <;> by_cases h2 : a.independent = b.independent <;>
    by_cases h3 : a.dependent = b.dependent <;> by_cases h4 : a.variables' = b.variables' <;>
    by_cases h5 : a.statistic = b.statistic <;> simp only [h1, h2, h3, h4, h5, ne_eq, not_true_eq_false,
      not_false_eq_true, if_true, if_false, and_self, and_false, false_and, and_true, true_and,
      Except.map, Option.isNone] 
  cases close a.statisticValue b.statisticValue a.tolStatistic with
  | error e => rfl
  | ok v =>
    cases v with
    | false => rfl
    | true =>
      by_cases h6 : a.statisticParameters = b.statisticParameters <;>
        by_cases h7 : a.distribution = b.distribution <;>
        by_cases h8 : a.distributionParameters = b.distributionParameters <;>
        simp only [h6, h7, h8, not_true_eq_false, not_false_eq_true, if_true, if_false, and_self,
          and_false, false_and]
      cases close a.pValue b.pValue a.tolP with
      | error e => rfl
      | ok v =>
        cases v with
        | false => rfl
        | true =>
          by_cases h9 : a.significance = b.significance <;> by_cases h10 : a.dSeparation = b.dSeparation <;>
            simp [h9, h10]

/-- The statistic and the p-value have been set. (Specification.) -/
def Measured (a : Res P) : Prop := a.statisticValue ≠ none ∧ a.pValue ≠ none

theorem close_some {a b : Option ℚ} (ha : a ≠ none) (hb : b ≠ none) (t : ℚ) :
    ∃ x y, a = some x ∧ b = some y ∧ close a b t = .ok (decide (|x - y| ≤ t)) := by
  cases a with
  | none => exact absurd rfl ha
  | some x =>
    cases b with
    | none => exact absurd rfl hb
    | some y => exact ⟨x, y, rfl, rfl, rfl⟩

theorem close_comm (a b : Option ℚ) (t : ℚ) : close a b t = close b a t := by
  cases a <;> cases b <;> simp [close, abs_sub_comm]

/-- `==` is symmetric if the tolerances are (they are never changed in the code base). -/
theorem eq_symmetric (a b : Res P) (h1 : a.tolStatistic = b.tolStatistic) (h2 : a.tolP = b.tolP) :
    eq a b = eq b a := by
  unfold eq
  rw [close_comm a.statisticValue, close_comm a.pValue, h1, h2]
  simp only [eq_comm (a := a.independent), eq_comm (a := a.dependent), eq_comm (a := a.insufficient),
    eq_comm (a := a.variables'), eq_comm (a := a.statistic), eq_comm (a := a.statisticParameters),
    eq_comm (a := a.distribution), eq_comm (a := a.distributionParameters),
    eq_comm (a := a.significance), eq_comm (a := a.dSeparation)]

/-- A measured result equals itself. -/
theorem eq_reflexive (a : Res P) (h : Measured a) (h1 : 0 ≤ a.tolStatistic) (h2 : 0 ≤ a.tolP) :
    eq a a = .ok true := by
  obtain ⟨x, _, hx, _, hc⟩ := close_some h.1 h.1 a.tolStatistic
  obtain ⟨y, _, hy, _, hd⟩ := close_some h.2 h.2 a.tolP
  unfold eq
  simp only [hx, hy, close, sub_self, abs_zero, h1, h2, decide_true, and_self, if_true]

/-- Results equal in the sense of `==` agree on the verdict, on the variables, and up to the
tolerance on the numbers. -/
theorem eq_sound (a b : Res P) (h : eq a b = .ok true) :
    a.independent = b.independent ∧ a.dependent = b.dependent ∧ a.insufficient = b.insufficient ∧
    a.variables' = b.variables' ∧ a.significance = b.significance ∧ a.dSeparation = b.dSeparation ∧
    ∃ s s' p p', a.statisticValue = some s ∧ b.statisticValue = some s' ∧ a.pValue = some p ∧
      b.pValue = some p' ∧ |s - s'| ≤ a.tolStatistic ∧ |p - p'| ≤ a.tolP := by
  unfold eq at h
  split at h
  · rename_i h0
    cases hs : close a.statisticValue b.statisticValue a.tolStatistic with
    | error e => rw [hs] at h; cases h
    | ok v =>
      rw [hs] at h
      cases v with
      | false => cases h
      | true =>
        simp only [] at h
        split at h
        · cases hp : close a.pValue b.pValue a.tolP with
          | error e => rw [hp] at h; cases h
          | ok v =>
            rw [hp] at h
            cases v with
            | false => cases h
            | true =>
              simp only [Except.ok.injEq, decide_eq_true_eq] at h
              refine ⟨h0.1, h0.2.1, h0.2.2.1, h0.2.2.2.1, h.1, h.2, ?_⟩
              cases ha : a.statisticValue <;> cases hb : b.statisticValue <;> rw [ha, hb] at hs <;>
                simp [close] at hs
              cases hc : a.pValue <;> cases hd : b.pValue <;> rw [hc, hd] at hp <;> simp [close] at hp
              exact ⟨_, _, _, _, rfl, rfl, rfl, rfl, hs, hp⟩
        · cases h
  · cases h

/-- **Finding.**  Comparing a new result with itself raises `TypeError` (`None - None`). -/
theorem eq_fresh_raises (empty : P) : eq (fresh empty) (fresh empty) = .error .typeError := by
  simp [eq, fresh, close]

/-! ## Histories of setters -/

omit [DecidableEq P] in
/-- **C64, verdicts.**  After any history of setters exactly one of three holds: nothing was decided
yet, a decision was taken (then exactly one of `independent` and `dependent` is true and the
significance is set), or the samples were insufficient (then neither is true or false). -/
theorem verdict_consistent (empty : P) (ops : List (Op P)) :
    let r := history empty ops
    (r.independent = some false ∧ r.dependent = some false ∧ r.insufficient = none ∧
      r.significance = none) ∨
    (∃ b s, r.independent = some b ∧ r.dependent = some (!b) ∧ r.insufficient = none ∧
      r.significance = some s) ∨
    (r.independent = none ∧ r.dependent = none ∧ r.insufficient = some true ∧ r.significance = none) := by
  have step : ∀ (ops : List (Op P)) (r : Res P),
      ((r.independent = some false ∧ r.dependent = some false ∧ r.insufficient = none ∧
          r.significance = none) ∨
        (∃ b s, r.independent = some b ∧ r.dependent = some (!b) ∧ r.insufficient = none ∧
          r.significance = some s) ∨
        (r.independent = none ∧ r.dependent = none ∧ r.insufficient = some true ∧
          r.significance = none)) →
      (((ops.foldl Op.apply r).independent = some false ∧ (ops.foldl Op.apply r).dependent = some false ∧
          (ops.foldl Op.apply r).insufficient = none ∧ (ops.foldl Op.apply r).significance = none) ∨
        (∃ b s, (ops.foldl Op.apply r).independent = some b ∧ (ops.foldl Op.apply r).dependent = some (!b) ∧
          (ops.foldl Op.apply r).insufficient = none ∧ (ops.foldl Op.apply r).significance = some s) ∨
        ((ops.foldl Op.apply r).independent = none ∧ (ops.foldl Op.apply r).dependent = none ∧
          (ops.foldl Op.apply r).insufficient = some true ∧ (ops.foldl Op.apply r).significance = none)) := by
    intro ops
    induction ops with
    | nil => intro r h; exact h
    | cons op ops ih =>
      intro r h
      apply ih
      cases op with
      | setIndependent b s => exact .inr (.inl ⟨b, s, rfl, rfl, rfl, rfl⟩)
      | setDependent b s => exact .inr (.inl ⟨!b, s, rfl, by simp [Op.apply], rfl, rfl⟩)
      | setInsufficientSamples => exact .inr (.inr ⟨rfl, rfl, rfl, rfl⟩)
      | setVariables X Y Z => exact h
      | setStatistic n v p => exact h
      | setDistribution n v p => exact h
      | setDSeparation b => exact h
  exact step ops _ (.inl ⟨rfl, rfl, rfl, rfl⟩)

omit [DecidableEq P] in
/-- The last decision counts. -/
theorem last_decision (empty : P) (ops : List (Op P)) (b : Bool) (s : ℚ) :
    (history empty (ops ++ [.setIndependent b s])).independent = some b ∧
    (history empty (ops ++ [.setDependent b s])).independent = some (!b) ∧
    (history empty (ops ++ [.setInsufficientSamples])).independent = none := by
  simp [history, Op.apply]

omit [DecidableEq P] in
/-- `accurate()` is `None` without a reference; otherwise it says whether the verdict agrees with
the reference (a result without verdict does not). -/
theorem accurate_exact (a : Res P) :
    (a.dSeparation = none → accurate a = none) ∧
    ∀ d, a.dSeparation = some d → accurate a = some (decide (a.independent = some d)) := by
  constructor
  · intro h; simp [accurate, h]
  · intro d h; simp [accurate, h]

/-! ## Representation of variables -/

namespace Spec

/-- What a representation stands for. (Specification.) -/
inductive Meaning where
  /-- no variable was given -/
  | nothing
  /-- the empty set of variables -/
  | empty
  | unnamed
  | ids (first : Int) (rest : List Int)
  deriving DecidableEq, Repr

/-- The meaning of a list of IDs. (Specification.) -/
def ofList : List Int → Meaning
  | [] => .empty
  | x :: xs => .ids x xs

/-- The meaning of an argument: `Ω` (ID −1024) is the empty set, the bare integer −1 is "unnamed".
(Specification.) -/
def meaning : VarArg → Meaning
  | .none => .nothing
  | .omega => .empty
  | .joint l => ofList l
  | .many l => ofList l
  | .single id => if id = -1024 then .empty else .ids id []
  | .int n => if n = -1 then .unnamed else if n = -1024 then .empty else .ids n []

end Spec
open Spec

/-- The text of a meaning. (Specification.) -/
def text : Meaning → Str
  | .nothing => ['∅']
  | .empty => ['Ω']
  | .unnamed => "unnamed".toList
  | .ids x xs => reprMany (x :: xs)

theorem repr_text (a : VarArg) : repr a = text (meaning a) := by
  cases a with
  | none => rfl
  | omega => rfl
  | joint l => cases l <;> rfl
  | many l => cases l <;> rfl
  | single i =>
    by_cases h : i = -1024
    · simp [repr, meaning, h, text]
    · simp [repr, meaning, h, text, reprMany]
  | int n =>
    by_cases h : n = -1
    · simp [repr, meaning, h, text]
    · by_cases h' : n = -1024
      · simp [repr, meaning, h', text]
      · simp [repr, meaning, h, h', text, reprMany]

/-- A character of a number. (Models no code: a notion for statements and proofs.) -/
def NumChar (c : Char) : Prop := c.isDigit = true ∨ c = '-'

instance (c : Char) : Decidable (NumChar c) := by unfold NumChar; infer_instance

theorem intStr_chars (n : Int) : ∀ c ∈ intStr n, NumChar c := by
  intro c hc
  cases n with
  | ofNat n => exact .inl (idLabel_digit n c hc)
  | negSucc n =>
    rcases List.mem_cons.mp hc with h | h
    · exact .inr h
    · exact .inl (idLabel_digit _ c h)

theorem intStr_ne_nil (n : Int) : intStr n ≠ [] := by
  cases n with
  | ofNat n => exact idLabel_ne_nil n
  | negSucc n => simp [intStr]

theorem idLabel_injective {a b : Nat} (h : idLabel a = idLabel b) : a = b := by
  have := congrArg pyDigits h
  rw [pyDigits_idLabel, pyDigits_idLabel] at this
  exact Option.some.inj this

theorem intStr_injective {a b : Int} (h : intStr a = intStr b) : a = b := by
  cases a with
  | ofNat a =>
    cases b with
    | ofNat b => rw [idLabel_injective h]
    | negSucc b =>
      exfalso
      apply idLabel_nodash a
      change idLabel a = '-' :: idLabel (b + 1) at h
      rw [h]; exact List.mem_cons_self
  | negSucc a =>
    cases b with
    | ofNat b =>
      exfalso
      apply idLabel_nodash b
      change '-' :: idLabel (a + 1) = idLabel b at h
      rw [← h]; exact List.mem_cons_self
    | negSucc b =>
      change '-' :: idLabel (a + 1) = '-' :: idLabel (b + 1) at h
      have := idLabel_injective (List.cons.inj h).2
      have : a = b := by omega
      rw [this]

theorem sep_inj {c : Char} : ∀ {s s' t t' : Str}, c ∉ s → c ∉ s' →
    s ++ c :: t = s' ++ c :: t' → s = s' ∧ t = t' := by
  intro s
  induction s with
  | nil =>
    intro s' t t' _ h2 h
    cases s' with
    | nil => exact ⟨rfl, (List.cons.inj h).2⟩
    | cons d s' =>
      exfalso; apply h2
      rw [List.nil_append, List.cons_append] at h
      rw [(List.cons.inj h).1]; exact List.mem_cons_self
  | cons d s ih =>
    intro s' t t' h1 h2 h
    cases s' with
    | nil =>
      exfalso; apply h1
      rw [List.nil_append, List.cons_append] at h
      rw [(List.cons.inj h).1]; exact List.mem_cons_self
    | cons d' s' =>
      rw [List.cons_append, List.cons_append] at h
      obtain ⟨h3, h4⟩ := List.cons.inj h
      obtain ⟨h5, h6⟩ := ih (fun hc => h1 (List.mem_cons_of_mem _ hc))
        (fun hc => h2 (List.mem_cons_of_mem _ hc)) h4
      exact ⟨by rw [h3, h5], h6⟩

theorem notin_intStr {c : Char} (hc : ¬ NumChar c) (n : Int) : c ∉ intStr n :=
  fun h => hc (intStr_chars n c h)

theorem comma_notin (n : Int) : ',' ∉ intStr n := notin_intStr (by decide) n

theorem commaJoin_injective : ∀ (l l' : List Int), commaJoin l = commaJoin l' → l = l' := by
  intro l
  induction l with
  | nil =>
    intro l' h
    match l', h with
    | [], _ => rfl
    | [x], h => exact absurd h.symm (intStr_ne_nil x)
    | x :: y :: r, h => simp [commaJoin] at h
  | cons x l ih =>
    intro l' h
    match l, l', h with
    | [], [], h => exact absurd h (intStr_ne_nil x)
    | [], [y], h => rw [intStr_injective h]
    | [], y :: z :: r, h =>
      exfalso; apply comma_notin x
      change intStr x = intStr y ++ [',', ' '] ++ commaJoin (z :: r) at h
      rw [h]; simp
    | w :: t, [], h => simp [commaJoin] at h
    | w :: t, [y], h =>
      exfalso; apply comma_notin y
      change intStr x ++ [',', ' '] ++ commaJoin (w :: t) = intStr y at h
      rw [← h]; simp
    | w :: t, y :: z :: r, h =>
      change intStr x ++ [',', ' '] ++ commaJoin (w :: t) = intStr y ++ [',', ' '] ++ commaJoin (z :: r) at h
      rw [List.append_assoc, List.append_assoc] at h
      obtain ⟨h1, h2⟩ := sep_inj (comma_notin x) (comma_notin y) h
      rw [intStr_injective h1, ih _ (List.cons.inj h2).2]

theorem head_notin {c : Char} (hc : ¬ NumChar c) (n : Int) (t : Str) : intStr n ≠ c :: t := by
  intro h
  apply notin_intStr hc n
  rw [h]; exact List.mem_cons_self

/-- Every text of a non-empty list is a number or begins with a brace. -/
theorem ids_head (x : Int) (xs : List Int) {c : Char} (hc : ¬ NumChar c) (hb : c ≠ '{') (t : Str) :
    reprMany (x :: xs) ≠ c :: t := by
  cases xs with
  | nil => exact head_notin hc x t
  | cons y ys =>
    intro h
    exact hb (List.cons.inj h).1.symm

theorem many_injective {x y : Int} {xs ys : List Int} (h : reprMany (x :: xs) = reprMany (y :: ys)) :
    x :: xs = y :: ys := by
  match xs, ys, h with
  | [], [], h => rw [intStr_injective h]
  | [], z :: r, h => exact absurd h (head_notin (by decide) x _)
  | z :: r, [], h => exact absurd h.symm (head_notin (by decide) y _)
  | z :: r, w :: s, h =>
    change ['{'] ++ commaJoin (x :: z :: r) ++ ['}'] = ['{'] ++ commaJoin (y :: w :: s) ++ ['}'] at h
    exact commaJoin_injective _ _ (List.cons.inj (List.append_cancel_right h)).2

theorem text_injective {a b : Meaning} (h : text a = text b) : a = b := by
  cases a with
  | nothing =>
    cases b with
    | nothing => rfl
    | empty => exact absurd h (by decide)
    | unnamed => exact absurd h (by decide)
    | ids x xs => exact absurd h.symm (ids_head x xs (by decide) (by decide) _)
  | empty =>
    cases b with
    | nothing => exact absurd h (by decide)
    | empty => rfl
    | unnamed => exact absurd h (by decide)
    | ids x xs => exact absurd h.symm (ids_head x xs (by decide) (by decide) _)
  | unnamed =>
    cases b with
    | nothing => exact absurd h (by decide)
    | empty => exact absurd h (by decide)
    | unnamed => rfl
    | ids x xs =>
      exact absurd h.symm (ids_head (c := 'u') x xs (by decide) (by decide) "nnamed".toList)
  | ids x xs =>
    cases b with
    | nothing => exact absurd h (ids_head x xs (by decide) (by decide) _)
    | empty => exact absurd h (ids_head x xs (by decide) (by decide) _)
    | unnamed => exact absurd h (ids_head (c := 'u') x xs (by decide) (by decide) "nnamed".toList)
    | ids y ys =>
      obtain ⟨h1, h2⟩ := List.cons.inj (many_injective h)
      rw [h1, h2]

/-- **C64, representation.**  Two arguments have the same representation exactly if they mean the
same: the same IDs in the same order, however they were given; `Ω`, the empty list and ID −1024 are
the empty set. -/
theorem repr_exact (a b : VarArg) : repr a = repr b ↔ meaning a = meaning b := by
  rw [repr_text, repr_text]
  exact ⟨text_injective, fun h => by rw [h]⟩

omit [DecidableEq P] in
/-- The texts of a test of the variables `X`, `Y` given `Z` identify the test. -/
theorem variables_exact (X Y Z X' Y' Z' : VarArg) (r r' : Res P) :
    ((Op.setVariables X Y Z).apply r).variables' = ((Op.setVariables X' Y' Z').apply r').variables' ↔
      meaning X = meaning X' ∧ meaning Y = meaning Y' ∧ meaning Z = meaning Z' := by
  simp only [Op.apply, Option.some.injEq, Prod.mk.injEq, repr_exact]

/-- A variable, an integer and a list of one element have the same representation. -/
example : repr (.single 7) = repr (.int 7) ∧ repr (.int 7) = repr (.many [7]) ∧
    repr (.many []) = repr .omega ∧ repr (.joint [3, 12]) = repr (.many [3, 12]) ∧
    repr (.joint [3, 12]) ≠ repr (.many [31, 2]) := by decide

/-- **Finding.**  The order counts: results of the same test whose conditioning set was visited in
another order are different for `==`.  `X`, `Y` swapped likewise. -/
theorem order_counts (r : Res P) (X Y : VarArg) :
    eq ((Op.setVariables X Y (.many [1, 2])).apply r) ((Op.setVariables X Y (.many [2, 1])).apply r)
      = .ok false := by
  have h : ((Op.setVariables X Y (.many [1, 2])).apply r).variables' ≠
      ((Op.setVariables X Y (.many [2, 1])).apply r).variables' := by
    rw [Ne, variables_exact]
    exact fun h => absurd h.2.2 (by decide)
  unfold eq
  rw [if_neg (fun hh => h hh.2.2.2.1)]

/-- **Finding.**  −1 as an integer is `unnamed`, as a variable or in a list `-1`. -/
theorem unnamed_differs : repr (.int (-1)) ≠ repr (.single (-1)) ∧
    repr (.int (-1024)) = ['Ω'] ∧ repr (.many [-1024]) ≠ ['Ω'] := by decide

/-- A result with its numbers. (Example.) -/
def sample (s p : ℚ) : Res Unit :=
  history () [.setVariables (.int 1) (.int 2) (.many [3, 4]), .setStatistic "G".toList s (),
    .setDistribution "chi2".toList p (), .setIndependent (decide (p > 1 / 20)) (1 / 20)]

/-- **Finding.**  `==` is not transitive, because of its tolerance. -/
theorem eq_not_transitive :
    (eq (sample 0 1) (sample (1 / 100000000000) 1)).toOption = some true ∧
    (eq (sample (1 / 100000000000) 1) (sample (2 / 100000000000) 1)).toOption = some true ∧
    (eq (sample 0 1) (sample (2 / 100000000000) 1)).toOption = some false := by
  decide +kernel

/-- `Measured` and the conclusions hold of it. -/
example : Measured (sample 3 (1 / 10)) ∧ (sample 3 (1 / 10)).independent = some true ∧
    (diff (sample 3 (1 / 10)) (sample 3 (1 / 100))).toOption = some (some .independent) ∧
    (eq (sample 3 (1 / 10)) (sample 3 (1 / 10))).toOption = some true := by
  refine ⟨⟨?_, ?_⟩, ?_, ?_, ?_⟩ <;> decide +kernel

/-- After insufficient samples, two results of the same test are equal whatever was measured before. -/
theorem insufficient_equal (r : Res P) (h1 : 0 ≤ r.tolStatistic) (h2 : 0 ≤ r.tolP) (s p s' p' : ℚ) :
    eq ((Op.setInsufficientSamples).apply { r with statisticValue := some s, pValue := some p })
      ((Op.setInsufficientSamples).apply { r with statisticValue := some s', pValue := some p' })
      = .ok true := by
  simp [eq, Op.apply, close, h1, h2]

end Mbtk.CiResult
