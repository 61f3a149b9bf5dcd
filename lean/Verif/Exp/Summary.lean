import Verif.Stats.CiResult
import Verif.Exp.Fs
import Mathlib.Analysis.Real.Sqrt
import Mathlib.Data.Finset.SymmDiff
import Mathlib.Data.List.Dedup
import Mathlib.Algebra.BigOperators.Group.List.Basic
import Mathlib.Algebra.Order.BigOperators.Group.List
import Mathlib.Tactic.Positivity
import Mathlib.Tactic.FieldSimp
/-!
# The summary of the d-separation experiment (`experiments/experiment_dsep/analysis.py`) (C76)

What the `summary` command of the experiment computes from the files that the runs left behind.
Numbers are exact (reals).  Not modelled: the per-target entries that are only printed on demand,
and the text of the histogram (its numbers are `histogram`; for the text see C112).
-/
namespace Mbtk.DsepSummary
open Mbtk Mbtk.CiResult Mbtk.Dataset Mbtk.Dataset.Rcv Mbtk.Exp

/-- A `CITestResult` in a results file, with its `duration`: CITestResult.py 17-40, 122-128. -/
structure Logged (P : Type) where
  res : Res P
  duration : ℝ

/-- One element of `algorithm_run_parameters`, with what the files named in it contain (`none`: no
such file): analysis.py 146-160; `trueMb` is the blanket in the data point of the run with the same
target on the network itself (analysis.py 93-96). -/
structure AlgRun (P : Type) where
  target : Nat
  citr : Option (List (Logged P))
  mb : Option (List Nat)
  trueMb : Option (List Nat)

variable {P : Type}

/-- `path.open('rb')` and `pickle.load`: analysis.py 148-152, 156-160. -/
def load {α : Type} : Option α → Except Err α
  | none => .error Exp.fileNotFound
  | some a => .ok a

/-- `len(result.Z)`: analysis.py 117-120.  `Z` is the text made by `set_variables`
(CITestResult.py 116-119), and the empty list before. -/
def condsetLen (r : Logged P) : Nat :=
  match r.res.variables' with
  | none => 0
  | some (_, _, z) => z.length

/-- A `collections.Counter`: analysis.py 18, 120. -/
abbrev Counter := List (Nat × Nat)

/-- `counter[key] += count`: analysis.py 26, 120. -/
def Counter.add (c : Counter) (key count : Nat) : Counter :=
  dictSet c key ((dictGet c key).getD 0 + count)

/-- `create_condset_size_counter(results)`: analysis.py 117-122. -/
def sizeCounter (results : List (Logged P)) : Counter :=
  results.foldl (fun c r => c.add (condsetLen r) 1) []

/-- `total.update(counter)`: analysis.py 26. -/
def Counter.update (total c : Counter) : Counter :=
  c.foldl (fun t e => t.add e.1 e.2) total

/-- `sum(map(int, map(CITestResult.accurate, results)))`: analysis.py 68; `int(None)` is a
`TypeError`. -/
def accurateCount : List (Logged P) → Except Err Nat
  | [] => .ok 0
  | r :: rs =>
    match accurate r.res with
    | none => .error .typeError
    | some b =>
      match accurateCount rs with
      | .error e => .error e
      | .ok n => .ok (b.toNat + n)

/-- What `create_algrun_citr_analysis` returns: analysis.py 63-79. -/
structure CitrAnalysis where
  count : Nat
  accurate : Nat
  duration : ℝ
  counter : Counter

/-- `create_algrun_citr_analysis(arguments, algrun)`: analysis.py 63-79. -/
def citrAnalysis (run : AlgRun P) : Except Err CitrAnalysis :=
  load run.citr >>= fun results =>
  accurateCount results >>= fun n =>
  .ok ⟨results.length, n, (results.map Logged.duration).sum, sizeCounter results⟩

/-- The entries about the blanket that exist only for a dataset: analysis.py 93-111. -/
structure MbAnalysis where
  errors : Nat
  precision : ℝ
  recall : ℝ
  distance : ℝ

/-- `precision`: analysis.py 101-105; 0 for an empty blanket. -/
noncomputable def precision (mb trueMb : Finset Nat) : ℝ :=
  if mb.card = 0 then 0 else ((mb ∩ trueMb).card : ℝ) / mb.card

/-- `recall`: analysis.py 106; `ZeroDivisionError` if the true blanket is empty. -/
noncomputable def recall (mb trueMb : Finset Nat) : Except Err ℝ :=
  if trueMb.card = 0 then .error .zeroDivision else .ok (((mb ∩ trueMb).card : ℝ) / trueMb.card)

/-- `distance`: analysis.py 107. -/
noncomputable def distance (p r : ℝ) : ℝ := Real.sqrt ((1 - p) ^ 2 + (1 - r) ^ 2)

/-- `create_algrun_mb_analysis(experimental_setup, algrun)`: analysis.py 83-113; `ds` is
`source_type == 'ds'`. -/
noncomputable def mbAnalysis (ds : Bool) (run : AlgRun P) : Except Err (Option MbAnalysis) :=
  load run.mb >>= fun mb =>
  if ds then
    load run.trueMb >>= fun trueMb =>
    recall mb.toFinset trueMb.toFinset >>= fun r =>
    .ok (some ⟨(symmDiff mb.toFinset trueMb.toFinset).card, precision mb.toFinset trueMb.toFinset, r,
      distance (precision mb.toFinset trueMb.toFinset) r⟩)
  else .ok none

/-- The totals of the loop: analysis.py 15-22. -/
structure Totals where
  count : Nat
  accurate : Nat
  errors : Nat
  counter : Counter
  distance : ℝ
  precision : ℝ
  recall : ℝ
  duration : ℝ

/-- analysis.py 15-22. -/
def Totals.zero : Totals := ⟨0, 0, 0, [], 0, 0, 0, 0⟩

/-- The additions of one round, `KeyError` of a missing entry being caught: analysis.py 26, 34-43. -/
def Totals.add (t : Totals) (c : CitrAnalysis) (m : Option MbAnalysis) : Totals :=
  match m with
  | none =>
    { t with count := t.count + c.count, accurate := t.accurate + c.accurate,
             duration := t.duration + c.duration, counter := t.counter.update c.counter }
  | some m =>
    { count := t.count + c.count, accurate := t.accurate + c.accurate,
      duration := t.duration + c.duration, counter := t.counter.update c.counter,
      errors := t.errors + m.errors, precision := t.precision + m.precision,
      recall := t.recall + m.recall, distance := t.distance + m.distance }

/-- The loop: analysis.py 23-43. -/
noncomputable def loop (ds : Bool) : List (AlgRun P) → Totals → Except Err Totals
  | [], t => .ok t
  | run :: runs, t =>
    citrAnalysis run >>= fun c =>
    mbAnalysis ds run >>= fun m =>
    loop ds runs (t.add c m)

/-- `calculate_condset_average(cond_counter)`: analysis.py 126-132. -/
noncomputable def condsetAverage (c : Counter) : Except Err ℝ :=
  if (c.map Prod.snd).sum = 0 then .error .zeroDivision
  else .ok ((c.map (fun e => ((e.1 : ℝ) * e.2))).sum / ((c.map Prod.snd).sum : ℕ))

/-- The numbers in `analysis`: analysis.py 45-59. -/
structure Summary where
  /-- 'Total CI count' -/
  tests : Nat
  /-- 'Total accurate CI count' -/
  accurate : Nat
  /-- 'Total accurate CI count (%)' -/
  accuratePercent : ℝ
  /-- 'Total MB errors' -/
  errors : Nat
  /-- 'Avg. cond. set size' -/
  avgCondset : ℝ
  /-- 'Avg. precision' -/
  avgPrecision : ℝ
  /-- 'Avg. recall' -/
  avgRecall : ℝ
  /-- 'Avg. distance' -/
  avgDistance : ℝ
  /-- 'Duration' -/
  duration : ℝ
  /-- the numbers of 'Total condset size histogram' (analysis.py 136-144) -/
  histogram : Counter

/-- `create_citr_analysis(experimental_setup)`: analysis.py 9-59. -/
noncomputable def summary (ds : Bool) (runs : List (AlgRun P)) : Except Err Summary :=
  loop ds runs .zero >>= fun t =>
  if t.count = 0 then .error .zeroDivision
  else condsetAverage t.counter >>= fun avg =>
  if runs.length = 0 then .error .zeroDivision
  else .ok ⟨t.count, t.accurate, (t.accurate : ℝ) * 100 / t.count, t.errors, avg,
    t.precision / runs.length, t.recall / runs.length, t.distance / runs.length, t.duration,
    t.counter.insertionSort (fun a b => a.1 ≤ b.1)⟩

/-! ## Specification -/

namespace Spec

/-- All the test results in the files of the runs. (Specification.) -/
def allResults (runs : List (AlgRun P)) : List (Logged P) := runs.flatMap (fun r => r.citr.getD [])

/-- The test was checked against d-separation, and its verdict is right. (Specification.) -/
def Right (r : Logged P) : Prop := r.res.dSeparation ≠ none ∧ r.res.independent = r.res.dSeparation

instance (r : Logged P) : Decidable (Right r) := by unfold Right; infer_instance

/-- The blanket found by a run, as a set. (Specification.) -/
def found (r : AlgRun P) : Finset Nat := (r.mb.getD []).toFinset

/-- The true blanket of its target, as a set. (Specification.) -/
def truth (r : AlgRun P) : Finset Nat := (r.trueMb.getD []).toFinset

/-- The share of the found variables that are in the true blanket; 0 if nothing is found.
(Specification.) -/
noncomputable def precisionOf (r : AlgRun P) : ℝ :=
  ((found r ∩ truth r).card : ℝ) / (found r).card

/-- The share of the true blanket that is found. (Specification.) -/
noncomputable def recallOf (r : AlgRun P) : ℝ :=
  ((found r ∩ truth r).card : ℝ) / (truth r).card

/-- The mean of some numbers. (Specification.) -/
noncomputable def mean {α : Type} (f : α → ℝ) (l : List α) : ℝ := (l.map f).sum / l.length

/-- The files and results that the summary needs. (Specification.) -/
structure Complete (ds : Bool) (runs : List (AlgRun P)) : Prop where
  results : ∀ r ∈ runs, r.citr ≠ none
  blankets : ∀ r ∈ runs, r.mb ≠ none
  /-- with a dataset: the blankets found on the network itself are there, and none is empty -/
  references : ds = true → ∀ r ∈ runs, r.trueMb ≠ none ∧ truth r ≠ ∅
  /-- every test was checked against d-separation -/
  checked : ∀ l ∈ allResults runs, l.res.dSeparation ≠ none
  some_test : allResults runs ≠ []

end Spec
open Spec

/-! ## Counters -/

/-- The multiset a counter stands for. (Models no code: a notion for statements and proofs.) -/
def bag (c : Counter) : List Nat := c.flatMap (fun e => List.replicate e.2 e.1)

/-- A counter counts a list. (Models no code: a notion for statements and proofs.) -/
structure Counts (c : Counter) (l : List Nat) : Prop where
  keys : (c.map Prod.fst).Nodup
  pos : ∀ e ∈ c, 0 < e.2
  perm : (bag c).Perm l

theorem bag_add (c : Counter) (k n : Nat) : (bag (c.add k n)).Perm (bag c ++ List.replicate n k) := by
  unfold Counter.add
  induction c with
  | nil => simp [dictSet, dictGet, bag]
  | cons p c ih =>
    obtain ⟨k', v'⟩ := p
    by_cases h : k' = k
    · subst h
      simp only [dictSet, dictGet, if_true, Option.getD_some, bag, List.flatMap_cons]
      rw [List.replicate_add, List.append_assoc, List.append_assoc]
      exact List.Perm.append_left _ List.perm_append_comm
    · simp only [dictSet, dictGet, if_neg h, bag, List.flatMap_cons, List.append_assoc]
      exact List.Perm.append_left _ ih

theorem mem_dictSet {κ ν : Type} [DecidableEq κ] {d : List (κ × ν)} {k : κ} {v : ν} {e : κ × ν}
    (h : e ∈ dictSet d k v) : e ∈ d ∨ e = (k, v) := by
  induction d with
  | nil => simpa [dictSet] using h
  | cons p d ih =>
    obtain ⟨k', v'⟩ := p
    by_cases hk : k' = k
    · subst hk
      simp only [dictSet, if_true, List.mem_cons] at h
      rcases h with h | h
      · exact .inr h
      · exact .inl (List.mem_cons_of_mem _ h)
    · simp only [dictSet, if_neg hk, List.mem_cons] at h
      rcases h with h | h
      · exact .inl (by simp [h])
      · rcases ih h with h | h
        · exact .inl (List.mem_cons_of_mem _ h)
        · exact .inr h

theorem Counts.add {c : Counter} {l : List Nat} (h : Counts c l) (k : Nat) {n : Nat} (hn : 0 < n) :
    Counts (c.add k n) (l ++ List.replicate n k) where
  keys := by
    unfold Counter.add
    rw [dictSet_keys]
    split
    · exact h.keys
    · next hk => rw [List.nodup_append]; exact ⟨h.keys, by simp, by grind⟩
  pos := by
    intro e he
    rcases mem_dictSet he with he | he
    · exact h.pos e he
    · subst he; show 0 < _ + n; omega
  perm := (bag_add c k n).trans (h.perm.append_right _)

theorem Counts.nil : Counts [] [] := ⟨by simp, by simp, by simp [bag]⟩

theorem Counts.update {c : Counter} {l : List Nat} (h : Counts c l) {d : Counter} {m : List Nat}
    (hd : Counts d m) : Counts (c.update d) (l ++ m) := by
  have key : ∀ (d : Counter) (c : Counter) (l : List Nat), Counts c l → (∀ e ∈ d, 0 < e.2) →
      Counts (c.update d) (l ++ bag d) := by
    intro d
    induction d with
    | nil => intro c l h _; simpa [Counter.update, bag] using h
    | cons e d ih =>
      intro c l h hp
      have := ih _ _ (h.add e.1 (hp e (by simp))) (fun x hx => hp x (by simp [hx]))
      rw [List.append_assoc] at this
      exact this
  have := key d c l h hd.pos
  exact ⟨this.keys, this.pos, this.perm.trans (hd.perm.append_left _)⟩

theorem sizeCounter_counts (rs : List (Logged P)) : Counts (sizeCounter rs) (rs.map condsetLen) := by
  have key : ∀ (rs : List (Logged P)) (c : Counter) (l : List Nat), Counts c l →
      Counts (rs.foldl (fun c r => c.add (condsetLen r) 1) c) (l ++ rs.map condsetLen) := by
    intro rs
    induction rs with
    | nil => intro c l h; simpa using h
    | cons r rs ih =>
      intro c l h
      have := ih _ _ (h.add (condsetLen r) Nat.one_pos)
      rw [List.append_assoc] at this
      exact this
  exact key rs [] [] .nil

theorem bag_length (c : Counter) : (bag c).length = (c.map Prod.snd).sum := by
  induction c with
  | nil => rfl
  | cons e c ih => simp only [bag, List.flatMap_cons, List.length_append, List.length_replicate,
      List.map_cons, List.sum_cons] at *; rw [ih]

theorem bag_sum (c : Counter) :
    (c.map (fun e => ((e.1 : ℝ) * e.2))).sum = ((bag c).sum : ℕ) := by
  induction c with
  | nil => simp [bag]
  | cons e c ih =>
    simp only [bag, List.flatMap_cons, List.sum_append, List.map_cons, List.sum_cons,
      List.sum_replicate, smul_eq_mul] at *
    rw [ih]; push_cast; ring

theorem Counts.mem_iff {c : Counter} {l : List Nat} (h : Counts c l) (k n : Nat) :
    (k, n) ∈ c ↔ 0 < n ∧ n = l.count k := by
  have key : ∀ c : Counter, (c.map Prod.fst).Nodup → (∀ e ∈ c, 0 < e.2) →
      ((k, n) ∈ c ↔ 0 < n ∧ n = (bag c).count k) := by
    intro c
    induction c with
    | nil => intro _ _; simp [bag]; omega
    | cons e c ih =>
      intro hk hp
      obtain ⟨k', v'⟩ := e
      rw [List.map_cons, List.nodup_cons] at hk
      have ih := ih hk.2 (fun x hx => hp x (by simp [hx]))
      have hv : 0 < v' := hp (k', v') (by simp)
      simp only [bag, List.flatMap_cons, List.count_append, List.mem_cons, Prod.mk.injEq] at *
      by_cases e : k = k'
      · subst e
        have h0 : (c.flatMap (fun e => List.replicate e.2 e.1)).count k = 0 := by
          rw [List.count_eq_zero]
          intro hm
          obtain ⟨e, he, hm⟩ := List.mem_flatMap.1 hm
          exact hk.1 (List.mem_map.2 ⟨e, he, (List.eq_of_mem_replicate hm).symm⟩)
        rw [h0, List.count_replicate_self]
        constructor
        · rintro (⟨_, rfl⟩ | hm)
          · exact ⟨hv, by omega⟩
          · exact absurd (List.mem_map.2 ⟨_, hm, rfl⟩) hk.1
        · rintro ⟨_, rfl⟩; exact .inl ⟨rfl, by omega⟩
      · have : (List.replicate v' k').count k = 0 := by
          rw [List.count_eq_zero]; intro hm; exact e (List.eq_of_mem_replicate hm)
        rw [this, Nat.zero_add, ← ih]
        simp [e]
  rw [key c h.keys h.pos, h.perm.count_eq]

/-! ## The loop -/

theorem accurate_none (a : Res P) : accurate a = none ↔ a.dSeparation = none := by
  simp [accurate]

theorem accurate_some {a : Res P} {b : Bool} (h : accurate a = some b) :
    b = decide (a.dSeparation ≠ none ∧ a.independent = a.dSeparation) := by
  unfold accurate at h
  cases hd : a.dSeparation with
  | none => rw [hd] at h; cases h
  | some d => rw [hd] at h; simpa using h.symm

theorem accurateCount_ok (rs : List (Logged P)) (n : Nat) :
    accurateCount rs = .ok n ↔
      (∀ r ∈ rs, r.res.dSeparation ≠ none) ∧ n = rs.countP (fun r => decide (Right r)) := by
  induction rs generalizing n with
  | nil => simp [accurateCount, eq_comm]
  | cons r rs ih =>
    unfold accurateCount
    cases ha : accurate r.res with
    | none =>
      simp only [List.mem_cons, forall_eq_or_imp, (accurate_none _).1 ha]
      constructor
      · intro h; cases h
      · intro h; exact absurd rfl h.1.1
    | some b =>
      have hb := accurate_some ha
      have hd : r.res.dSeparation ≠ none := fun e => by
        rw [(accurate_none _).2 e] at ha; cases ha
      have hcount : (r :: rs).countP (fun r => decide (Right r)) =
          b.toNat + rs.countP (fun r => decide (Right r)) := by
        rw [List.countP_cons, hb]
        unfold Right
        by_cases hr : r.res.dSeparation ≠ none ∧ r.res.independent = r.res.dSeparation
        · rw [decide_eq_true hr, if_pos rfl]; simp only [Bool.toNat_true]; omega
        · rw [decide_eq_false hr, if_neg (by simp)]; simp
      simp only [List.mem_cons, forall_eq_or_imp]
      rw [hcount]
      cases hc : accurateCount rs with
      | error e =>
        simp only []
        constructor
        · intro h; cases h
        · rintro ⟨⟨_, h⟩, _⟩
          have := (ih _).2 ⟨h, rfl⟩
          rw [hc] at this; cases this
      | ok m =>
        have := (ih m).1 hc
        simp only [Except.ok.injEq]
        constructor
        · rintro rfl; exact ⟨⟨hd, this.1⟩, by rw [this.2]⟩
        · rintro ⟨_, rfl⟩; rw [this.2]

/-- What the loop needs of a run. (Models no code: a notion for statements and proofs.) -/
structure Usable (ds : Bool) (r : AlgRun P) : Prop where
  results : r.citr ≠ none
  blanket : r.mb ≠ none
  reference : ds = true → r.trueMb ≠ none ∧ truth r ≠ ∅
  checked : ∀ l ∈ r.citr.getD [], l.res.dSeparation ≠ none

theorem citrAnalysis_ok (r : AlgRun P) (c : CitrAnalysis) :
    citrAnalysis r = .ok c ↔ r.citr ≠ none ∧ (∀ l ∈ r.citr.getD [], l.res.dSeparation ≠ none) ∧
      c = ⟨(r.citr.getD []).length, (r.citr.getD []).countP (fun r => decide (Right r)),
        ((r.citr.getD []).map Logged.duration).sum, sizeCounter (r.citr.getD [])⟩ := by
  unfold citrAnalysis
  cases hc : r.citr with
  | none =>
    constructor
    · intro h; cases h
    · intro h; exact absurd rfl h.1
  | some rs =>
    show (accurateCount rs >>= _) = _ ↔ _
    simp only [Option.getD_some, ne_eq, reduceCtorEq, not_false_eq_true, true_and]
    cases ha : accurateCount rs with
    | error e =>
      constructor
      · intro h; cases h
      · rintro ⟨h, _⟩
        have := (accurateCount_ok rs _).2 ⟨h, rfl⟩
        rw [ha] at this; cases this
    | ok n =>
      have := (accurateCount_ok rs n).1 ha
      show Except.ok _ = _ ↔ _
      rw [Except.ok.injEq, ← this.2]
      constructor
      · rintro rfl; exact ⟨this.1, rfl⟩
      · rintro ⟨_, rfl⟩; rfl

theorem precision_eq (r : AlgRun P) : precision (found r) (truth r) = precisionOf r := by
  unfold precision precisionOf
  split
  · next h => rw [h]; simp
  · rfl

theorem mbAnalysis_ok (ds : Bool) (r : AlgRun P) (m : Option MbAnalysis) :
    mbAnalysis ds r = .ok m ↔ r.mb ≠ none ∧ (ds = true → r.trueMb ≠ none ∧ truth r ≠ ∅) ∧
      m = if ds then some ⟨(symmDiff (found r) (truth r)).card, precisionOf r, recallOf r,
        distance (precisionOf r) (recallOf r)⟩ else none := by
  unfold mbAnalysis
  cases hm : r.mb with
  | none =>
    constructor
    · intro h; cases h
    · intro h; exact absurd rfl h.1
  | some mb =>
    have hf : found r = mb.toFinset := by simp [found, hm]
    cases ds with
    | false =>
      show Except.ok none = _ ↔ _
      simp [eq_comm]
    | true =>
      cases ht : r.trueMb with
      | none =>
        constructor
        · intro h; cases h
        · intro h; exact absurd rfl (h.2.1 rfl).1
      | some tmb =>
        have htr : truth r = tmb.toFinset := by simp [truth, ht]
        show (recall mb.toFinset tmb.toFinset >>= _) = _ ↔ _
        rw [← hf, ← htr, precision_eq]
        by_cases hz : (truth r).card = 0
        · have : recall (found r) (truth r) = .error .zeroDivision := by unfold recall; rw [if_pos hz]
          rw [this]
          constructor
          · intro h; cases h
          · intro h; exact absurd (Finset.card_eq_zero.1 hz) (h.2.1 rfl).2
        · have : recall (found r) (truth r) = .ok (recallOf r) := by
            unfold recall; rw [if_neg hz]; rfl
          rw [this]
          show Except.ok _ = _ ↔ _
          rw [Except.ok.injEq]
          constructor
          · rintro rfl
            exact ⟨by simp, fun _ => ⟨by simp, fun e => hz (by rw [e]; rfl)⟩, by simp⟩
          · rintro ⟨_, _, rfl⟩; simp

/-- What the loop has added up. (Models no code: a notion for statements and proofs.) -/
structure Added (ds : Bool) (runs : List (AlgRun P)) (t t' : Totals) : Prop where
  count : t'.count = t.count + (allResults runs).length
  accurate : t'.accurate = t.accurate + (allResults runs).countP (fun r => decide (Right r))
  duration : t'.duration = t.duration + ((allResults runs).map Logged.duration).sum
  errors : t'.errors =
    t.errors + if ds then (runs.map (fun r => (symmDiff (found r) (truth r)).card)).sum else 0
  precision : t'.precision = t.precision + if ds then (runs.map precisionOf).sum else 0
  recall : t'.recall = t.recall + if ds then (runs.map recallOf).sum else 0
  distance : t'.distance = t.distance +
    if ds then (runs.map (fun r => DsepSummary.distance (precisionOf r) (recallOf r))).sum else 0
  counter : ∀ l, Counts t.counter l → Counts t'.counter (l ++ (allResults runs).map condsetLen)

theorem loop_ok (ds : Bool) (runs : List (AlgRun P)) (t : Totals) :
    (∀ t', loop ds runs t = .ok t' → (∀ r ∈ runs, Usable ds r) ∧ Added ds runs t t') ∧
    ((∀ r ∈ runs, Usable ds r) → ∃ t', loop ds runs t = .ok t') := by
  induction runs generalizing t with
  | nil =>
    refine ⟨?_, fun _ => ⟨t, rfl⟩⟩
    intro t' h
    cases h
    refine ⟨by simp, ?_⟩
    constructor <;> simp [allResults]
  | cons r runs ih =>
    constructor
    · intro t' h
      unfold loop at h
      cases hc : citrAnalysis r with
      | error e => rw [hc] at h; cases h
      | ok c =>
        rw [hc] at h
        cases hm : mbAnalysis ds r with
        | error e =>
          have h : (mbAnalysis ds r >>= fun m => loop ds runs (t.add c m)) = .ok t' := h
          rw [hm] at h; cases h
        | ok m =>
          have h : (mbAnalysis ds r >>= fun m => loop ds runs (t.add c m)) = .ok t' := h
          rw [hm] at h
          have h : loop ds runs (t.add c m) = .ok t' := h
          obtain ⟨hu, ha⟩ := (ih _).1 t' h
          obtain ⟨h1, h2, rfl⟩ := (citrAnalysis_ok r c).1 hc
          obtain ⟨h3, h4, rfl⟩ := (mbAnalysis_ok ds r m).1 hm
          refine ⟨?_, ?_⟩
          · intro x hx
            rcases List.mem_cons.1 hx with rfl | hx
            · exact ⟨h1, h3, h4, h2⟩
            · exact hu x hx
          · have hall : allResults (r :: runs) = r.citr.getD [] ++ allResults runs := by
              simp [allResults]
            constructor
            · rw [ha.count, hall]; cases ds <;> simp [Totals.add] <;> omega
            · rw [ha.accurate, hall]; cases ds <;> simp [Totals.add] <;> omega
            · rw [ha.duration, hall]; cases ds <;> simp [Totals.add] <;> ring
            · rw [ha.errors]; cases ds <;> simp [Totals.add]; omega
            · rw [ha.precision]; cases ds <;> simp [Totals.add]; ring
            · rw [ha.recall]; cases ds <;> simp [Totals.add]; ring
            · rw [ha.distance]; cases ds <;> simp [Totals.add]; ring
            · intro l hl
              rw [hall, List.map_append, ← List.append_assoc]
              apply ha.counter
              have := hl.update (sizeCounter_counts (r.citr.getD []))
              cases ds <;> exact this
    · intro hu
      have hr := hu r (by simp)
      unfold loop
      rw [(citrAnalysis_ok r _).2 ⟨hr.results, hr.checked, rfl⟩]
      show ∃ t', (mbAnalysis ds r >>= _) = _
      rw [(mbAnalysis_ok ds r _).2 ⟨hr.blanket, hr.reference, rfl⟩]
      exact (ih _).2 (fun x hx => hu x (by simp [hx]))

theorem usable_of_complete {ds : Bool} {runs : List (AlgRun P)} (h : Complete ds runs) :
    ∀ r ∈ runs, Usable ds r := fun r hr =>
  ⟨h.results r hr, h.blankets r hr, fun e => h.references e r hr,
    fun l hl => h.checked l (List.mem_flatMap.2 ⟨r, hr, hl⟩)⟩

theorem average_of_counts {c : Counter} {l : List Nat} (h : Counts c l) (hl : l ≠ []) :
    condsetAverage c = .ok (mean (fun n : Nat => (n : ℝ)) l) := by
  unfold condsetAverage
  have h1 : (c.map Prod.snd).sum = l.length := by rw [← bag_length, h.perm.length_eq]
  have h2 : l.length ≠ 0 := by simpa using hl
  rw [if_neg (by rw [h1]; exact h2), bag_sum, h1, h.perm.sum_eq]
  unfold mean
  rw [Nat.cast_list_sum]

/-! ## The theorems -/

/-- **C76, when there is a summary.**  The summary is produced exactly if every results file and
every data point is there, every test was checked against d-separation, there is at least one test,
and - for a dataset - every blanket found on the network itself is there and none of these is
empty; otherwise the command ends with an exception. -/
theorem summary_ok_iff (ds : Bool) (runs : List (AlgRun P)) :
    (∃ s, summary ds runs = .ok s) ↔ Complete ds runs := by
  constructor
  · rintro ⟨s, h⟩
    unfold summary at h
    cases hl : loop ds runs .zero with
    | error e => rw [hl] at h; cases h
    | ok t =>
      obtain ⟨hu, ha⟩ := (loop_ok ds runs .zero).1 t hl
      rw [hl] at h
      refine ⟨fun r hr => (hu r hr).results, fun r hr => (hu r hr).blanket,
        fun e r hr => (hu r hr).reference e, ?_, ?_⟩
      · intro l hl
        obtain ⟨r, hr, hl⟩ := List.mem_flatMap.1 hl
        exact (hu r hr).checked l hl
      · intro he
        have h0 : t.count = 0 := by rw [ha.count, he]; rfl
        have h : (if t.count = 0 then _ else _) = Except.ok s := h
        rw [if_pos h0] at h; cases h
  · intro hc
    obtain ⟨t, ht⟩ := (loop_ok ds runs .zero).2 (usable_of_complete hc)
    have ha := ((loop_ok ds runs .zero).1 t ht).2
    unfold summary
    rw [ht]
    have h0 : t.count ≠ 0 := by
      rw [ha.count]; simpa [Totals.zero] using hc.some_test
    have hr : runs.length ≠ 0 := by
      intro e
      apply hc.some_test
      rw [List.length_eq_zero_iff.1 e]; rfl
    show ∃ s, (if t.count = 0 then _ else _) = Except.ok s
    rw [if_neg h0, average_of_counts (ha.counter [] .nil) (by simpa using hc.some_test)]
    show ∃ s, (if runs.length = 0 then _ else _) = Except.ok s
    rw [if_neg hr]
    exact ⟨_, rfl⟩

/-- **C76, what the summary says.**  The counts, the percentage and the time are those of all the
tests of all runs; with a dataset, the errors are those variables that are in one of the two
blankets only, summed over the targets, and the averages are means over the targets; the histogram
lists, in increasing order, the lengths of the *texts* of the conditioning sets with the number of
tests that have it. -/
theorem summary_exact {ds : Bool} {runs : List (AlgRun P)} {s : Summary}
    (h : summary ds runs = .ok s) :
    s.tests = (allResults runs).length ∧
    s.accurate = (allResults runs).countP (fun r => decide (Right r)) ∧
    s.accuratePercent = (s.accurate : ℝ) * 100 / s.tests ∧
    s.duration = ((allResults runs).map Logged.duration).sum ∧
    s.avgCondset = mean (fun r => (condsetLen r : ℝ)) (allResults runs) ∧
    (∀ k n, (k, n) ∈ s.histogram ↔ 0 < n ∧ n = (allResults runs).countP (fun r => condsetLen r = k)) ∧
    s.histogram.Pairwise (fun a b => a.1 < b.1) ∧
    (ds = true →
      s.errors = (runs.map (fun r => (symmDiff (found r) (truth r)).card)).sum ∧
      s.avgPrecision = mean precisionOf runs ∧ s.avgRecall = mean recallOf runs ∧
      s.avgDistance = mean (fun r => distance (precisionOf r) (recallOf r)) runs) ∧
    (ds = false → s.errors = 0 ∧ s.avgPrecision = 0 ∧ s.avgRecall = 0 ∧ s.avgDistance = 0) := by
  have hc := (summary_ok_iff ds runs).1 ⟨s, h⟩
  obtain ⟨t, ht⟩ := (loop_ok ds runs .zero).2 (usable_of_complete hc)
  have ha := ((loop_ok ds runs .zero).1 t ht).2
  have hcn := ha.counter [] .nil
  unfold summary at h
  rw [ht] at h
  have h0 : t.count ≠ 0 := by
    rw [ha.count]; simpa [Totals.zero] using hc.some_test
  have hr : runs.length ≠ 0 := by
    intro e
    apply hc.some_test
    rw [List.length_eq_zero_iff.1 e]; rfl
  have h : (if t.count = 0 then _ else _) = Except.ok s := h
  rw [if_neg h0, average_of_counts hcn (by simpa using hc.some_test)] at h
  have h : (if runs.length = 0 then _ else _) = Except.ok s := h
  rw [if_neg hr] at h
  cases h
  simp only [List.nil_append] at hcn ⊢
  refine ⟨?_, ?_, ?_, ?_, ?_, ?_, ?_, ?_, ?_⟩
  · rw [ha.count]; simp [Totals.zero]
  · rw [ha.accurate]; simp [Totals.zero]
  · trivial
  · rw [ha.duration]; simp [Totals.zero]
  · simp only [mean, List.map_map, List.length_map]; rfl
  · intro k n
    rw [(List.perm_insertionSort _ _).mem_iff, hcn.mem_iff, List.count_eq_countP, List.countP_map]
    rfl
  · have hle : (t.counter.insertionSort (fun a b => a.1 ≤ b.1)).Pairwise (fun a b => a.1 ≤ b.1) := by
      have : Std.Total (fun a b : Nat × Nat => a.1 ≤ b.1) := ⟨fun a b => Nat.le_total _ _⟩
      have : IsTrans (Nat × Nat) (fun a b => a.1 ≤ b.1) := ⟨fun a b c => Nat.le_trans⟩
      exact List.pairwise_insertionSort _ _
    have hnd : ((t.counter.insertionSort (fun a b => a.1 ≤ b.1)).map Prod.fst).Nodup :=
      ((List.perm_insertionSort _ _).map _).nodup_iff.2 hcn.keys
    rw [List.Nodup, List.pairwise_map] at hnd
    exact (hle.and hnd).imp (fun h => lt_of_le_of_ne h.1 h.2)
  · rintro rfl
    refine ⟨?_, ?_, ?_, ?_⟩
    · rw [ha.errors]; simp [Totals.zero]
    · rw [ha.precision]; simp [Totals.zero, mean]
    · rw [ha.recall]; simp [Totals.zero, mean]
    · rw [ha.distance]; simp [Totals.zero, mean]
  · rintro rfl
    refine ⟨?_, ?_, ?_, ?_⟩
    · rw [ha.errors]; simp [Totals.zero]
    · rw [ha.precision]; simp [Totals.zero]
    · rw [ha.recall]; simp [Totals.zero]
    · rw [ha.distance]; simp [Totals.zero]

/-! ## The averages -/

theorem unit_of_card (a b : Finset Nat) :
    0 ≤ ((a ∩ b).card : ℝ) / a.card ∧ ((a ∩ b).card : ℝ) / a.card ≤ 1 := by
  refine ⟨by positivity, ?_⟩
  apply div_le_one_of_le₀ _ (by positivity)
  exact_mod_cast Finset.card_le_card Finset.inter_subset_left

theorem precisionOf_unit (r : AlgRun P) : 0 ≤ precisionOf r ∧ precisionOf r ≤ 1 := unit_of_card _ _

theorem recallOf_unit (r : AlgRun P) : 0 ≤ recallOf r ∧ recallOf r ≤ 1 := by
  unfold recallOf
  rw [Finset.inter_comm]
  exact unit_of_card _ _

theorem precision_one_iff (r : AlgRun P) (h : found r ≠ ∅) :
    precisionOf r = 1 ↔ found r ⊆ truth r := by
  unfold precisionOf
  have h0 : ((found r).card : ℝ) ≠ 0 := by
    exact_mod_cast fun e => h (Finset.card_eq_zero.1 e)
  rw [div_eq_one_iff_eq h0]
  constructor
  · intro e
    have : (found r ∩ truth r) = found r :=
      Finset.eq_of_subset_of_card_le Finset.inter_subset_left (by exact_mod_cast e.ge)
    exact Finset.inter_eq_left.1 this
  · intro e; rw [Finset.inter_eq_left.2 e]

theorem recall_one_iff (r : AlgRun P) (h : truth r ≠ ∅) :
    recallOf r = 1 ↔ truth r ⊆ found r := by
  unfold recallOf
  have h0 : ((truth r).card : ℝ) ≠ 0 := by
    exact_mod_cast fun e => h (Finset.card_eq_zero.1 e)
  rw [div_eq_one_iff_eq h0]
  constructor
  · intro e
    have : (found r ∩ truth r) = truth r :=
      Finset.eq_of_subset_of_card_le Finset.inter_subset_right (by exact_mod_cast e.ge)
    exact Finset.inter_eq_right.1 this
  · intro e; rw [Finset.inter_eq_right.2 e]

theorem distance_zero_iff (p q : ℝ) : distance p q = 0 ↔ p = 1 ∧ q = 1 := by
  unfold distance
  rw [Real.sqrt_eq_zero (by positivity)]
  constructor
  · intro h
    have h1 : (1 - p) ^ 2 = 0 := by nlinarith [sq_nonneg (1 - p), sq_nonneg (1 - q)]
    have h2 : (1 - q) ^ 2 = 0 := by nlinarith [sq_nonneg (1 - p), sq_nonneg (1 - q)]
    have h1 := pow_eq_zero_iff (two_ne_zero) |>.1 h1
    have h2 := pow_eq_zero_iff (two_ne_zero) |>.1 h2
    exact ⟨by linarith, by linarith⟩
  · rintro ⟨rfl, rfl⟩; norm_num

theorem distance_run_zero_iff (r : AlgRun P) (h : truth r ≠ ∅) :
    distance (precisionOf r) (recallOf r) = 0 ↔ found r = truth r := by
  rw [distance_zero_iff]
  constructor
  · rintro ⟨hp, hq⟩
    have hf : found r ≠ ∅ := by
      intro e
      unfold precisionOf at hp
      rw [e] at hp
      simp at hp
    exact Finset.Subset.antisymm ((precision_one_iff r hf).1 hp) ((recall_one_iff r h).1 hq)
  · intro e
    exact ⟨(precision_one_iff r (by rw [e]; exact h)).2 (by rw [e]),
      (recall_one_iff r h).2 (by rw [e])⟩

theorem mean_bounds {α : Type} (f : α → ℝ) (l : List α) (a b : ℝ) (hl : l ≠ [])
    (h : ∀ x ∈ l, a ≤ f x ∧ f x ≤ b) : a ≤ mean f l ∧ mean f l ≤ b := by
  have hn : (0 : ℝ) < l.length := by
    exact_mod_cast List.length_pos_of_ne_nil hl
  unfold mean
  rw [le_div_iff₀ hn, div_le_iff₀ hn]
  constructor
  · have := List.card_nsmul_le_sum (l.map f) a (by
      intro x hx; obtain ⟨y, hy, rfl⟩ := List.mem_map.1 hx; exact (h y hy).1)
    simpa [mul_comm] using this
  · have := List.sum_le_card_nsmul (l.map f) b (by
      intro x hx; obtain ⟨y, hy, rfl⟩ := List.mem_map.1 hx; exact (h y hy).2)
    simpa [mul_comm] using this

theorem mean_zero_iff {α : Type} (f : α → ℝ) (l : List α) (hl : l ≠ []) (h : ∀ x ∈ l, 0 ≤ f x) :
    mean f l = 0 ↔ ∀ x ∈ l, f x = 0 := by
  have hn : (l.length : ℝ) ≠ 0 := by
    exact_mod_cast (List.length_pos_of_ne_nil hl).ne'
  unfold mean
  rw [div_eq_zero_iff, or_iff_left hn]
  clear hn hl
  induction l with
  | nil => simp
  | cons a l ih =>
    have h1 := h a (by simp)
    have h2 : ∀ x ∈ l, 0 ≤ f x := fun x hx => h x (by simp [hx])
    have h3 : 0 ≤ (l.map f).sum := List.sum_nonneg (by
      intro x hx; obtain ⟨y, hy, rfl⟩ := List.mem_map.1 hx; exact h2 y hy)
    have ih := ih h2
    rw [List.map_cons, List.sum_cons, List.forall_mem_cons]
    constructor
    · intro e; exact ⟨by linarith, ih.1 (by linarith)⟩
    · rintro ⟨e1, e2⟩; have := ih.2 e2; linarith

theorem runs_ne_nil {ds : Bool} {runs : List (AlgRun P)} (h : Complete ds runs) : runs ≠ [] := by
  rintro rfl
  exact h.some_test rfl

/-- **C76, a perfect experiment.**  With a dataset, the average distance is 0 exactly if there are
no errors, which is exactly if every blanket found is the true one. -/
theorem distance_zero_iff_perfect {runs : List (AlgRun P)} {s : Summary}
    (h : summary true runs = .ok s) :
    (s.avgDistance = 0 ↔ ∀ r ∈ runs, found r = truth r) ∧
    (s.errors = 0 ↔ ∀ r ∈ runs, found r = truth r) := by
  have hc := (summary_ok_iff true runs).1 ⟨s, h⟩
  obtain ⟨_, _, _, _, _, _, _, hd, _⟩ := summary_exact h
  obtain ⟨he, _, _, hd⟩ := hd rfl
  constructor
  · rw [hd, mean_zero_iff (fun r => distance (precisionOf r) (recallOf r)) _ (runs_ne_nil hc)
      (fun r _ => Real.sqrt_nonneg _)]
    exact forall₂_congr (fun r hr => distance_run_zero_iff r (hc.references rfl r hr).2)
  · rw [he, List.sum_eq_zero_iff]
    simp only [List.mem_map, forall_exists_index, and_imp, forall_apply_eq_imp_iff₂,
      Finset.card_eq_zero]
    refine forall₂_congr (fun r hr => ?_)
    rw [← Finset.bot_eq_empty, symmDiff_eq_bot]

/-- **C76, ranges.**  Averages of precision and recall are between 0 and 1, the average distance is
between 0 and √2, the percentage between 0 and 100. -/
theorem summary_ranges {ds : Bool} {runs : List (AlgRun P)} {s : Summary}
    (h : summary ds runs = .ok s) :
    (0 ≤ s.avgPrecision ∧ s.avgPrecision ≤ 1) ∧ (0 ≤ s.avgRecall ∧ s.avgRecall ≤ 1) ∧
    (0 ≤ s.avgDistance ∧ s.avgDistance ≤ Real.sqrt 2) ∧
    (0 ≤ s.accuratePercent ∧ s.accuratePercent ≤ 100) := by
  have hc := (summary_ok_iff ds runs).1 ⟨s, h⟩
  have hr := runs_ne_nil hc
  obtain ⟨ht, hacc, hpc, _, _, _, _, hd, hb⟩ := summary_exact h
  have hlast : 0 ≤ s.accuratePercent ∧ s.accuratePercent ≤ 100 := by
    have hle : s.accurate ≤ s.tests := by rw [ht, hacc]; exact List.countP_le_length
    have hle : (s.accurate : ℝ) ≤ s.tests := by exact_mod_cast hle
    rw [hpc]
    refine ⟨by positivity, ?_⟩
    have hn : (0 : ℝ) < s.tests := by
      rw [ht]; exact_mod_cast List.length_pos_of_ne_nil hc.some_test
    rw [div_le_iff₀ hn]; linarith
  cases ds with
  | false =>
    obtain ⟨_, h1, h2, h3⟩ := hb rfl
    rw [h1, h2, h3]
    exact ⟨⟨le_refl _, zero_le_one⟩, ⟨le_refl _, zero_le_one⟩, ⟨le_refl _, Real.sqrt_nonneg _⟩, hlast⟩
  | true =>
    obtain ⟨_, h1, h2, h3⟩ := hd rfl
    rw [h1, h2, h3]
    refine ⟨mean_bounds _ _ _ _ hr (fun r _ => precisionOf_unit r),
      mean_bounds _ _ _ _ hr (fun r _ => recallOf_unit r),
      mean_bounds _ _ _ _ hr (fun r _ => ⟨Real.sqrt_nonneg _, ?_⟩), hlast⟩
    apply Real.sqrt_le_sqrt
    have hp := precisionOf_unit r
    have hq := recallOf_unit r
    nlinarith [hp.1, hp.2, hq.1, hq.2]

/-! ## The conditioning sets -/

namespace Spec

/-- The result is that of a test given the variables with the IDs `Z`, in whatever form they were
passed to `set_variables`. (Specification.) -/
def Given (r : Logged P) (Z : List Nat) : Prop :=
  ∃ X Y A, r.res.variables' = some (X, Y, CiResult.repr A) ∧
    CiResult.Spec.meaning A = CiResult.Spec.ofList (Z.map (fun n : Nat => (n : Int)))

end Spec

theorem idLabel_length (n : Nat) : 0 < (idLabel n).length ∧ ((idLabel n).length = 1 ↔ n < 10) := by
  have hpos := List.length_pos_of_ne_nil (idLabel_ne_nil n)
  refine ⟨hpos, ?_⟩
  have hle : (idLabel n).length ≤ 1 ↔ n < 10 := by
    unfold idLabel
    rw [Nat.toString_eq_ofList_toDigits, String.toList_ofList,
      Nat.length_toDigits_le_iff (by decide) (by decide)]
  omega

theorem commaJoin_length (x : Nat) (xs : List Nat) :
    3 * xs.length + 1 ≤ (commaJoin ((x :: xs).map (fun n : Nat => (n : Int)))).length := by
  induction xs generalizing x with
  | nil => exact (idLabel_length x).1
  | cons y ys ih =>
    have hx := (idLabel_length x).1
    have := ih y
    simp only [List.map_cons, commaJoin, List.length_append, List.length_cons, List.length_nil] at *
    have hx' : (intStr (x : Int)).length = (idLabel x).length := rfl
    omega

/-- The length of the text of a conditioning set: 1 for none, the number of digits for one variable,
and at least three times the number of variables for more. -/
theorem condsetLen_given {r : Logged P} {Z : List Nat} (h : Given r Z) :
    (Z = [] → condsetLen r = 1) ∧ (∀ x, Z = [x] → condsetLen r = (idLabel x).length) ∧
    (2 ≤ Z.length → 3 * Z.length ≤ condsetLen r) := by
  obtain ⟨X, Y, A, hv, hm⟩ := h
  have e : condsetLen r = (text (CiResult.Spec.ofList (Z.map (fun n : Nat => (n : Int))))).length := by
    unfold condsetLen; rw [hv]; simp only []; rw [repr_text, hm]
  rw [e]
  refine ⟨?_, ?_, ?_⟩
  · rintro rfl; rfl
  · rintro x rfl; rfl
  · intro hl
    match Z, hl with
    | x :: y :: zs, _ =>
      have := commaJoin_length x (y :: zs)
      simp only [List.map_cons, CiResult.Spec.ofList, text, reprMany, List.length_append,
        List.length_cons, List.length_nil] at *
      omega

theorem condsetLen_ge {r : Logged P} {Z : List Nat} (h : Given r Z) :
    Z.length ≤ condsetLen r ∧ (condsetLen r = Z.length ↔ ∃ x, x < 10 ∧ Z = [x]) := by
  obtain ⟨h0, h1, h2⟩ := condsetLen_given h
  match Z with
  | [] =>
    have := h0 rfl
    simp [this]
  | [x] =>
    have := h1 x rfl
    have hx := idLabel_length x
    constructor
    · simp only [List.length_cons, List.length_nil]; omega
    · rw [this]
      simp only [List.length_cons, List.length_nil, List.cons.injEq, and_true, exists_eq_right']
      exact hx.2
  | x :: y :: zs =>
    have := h2 (by simp)
    simp only [List.length_cons] at *
    refine ⟨by omega, ?_⟩
    constructor
    · intro e; omega
    · rintro ⟨_, _, e⟩; cases e

theorem sum_le_of_given {l : List (Logged P)} {Zs : List (List Nat)} (h : List.Forall₂ Given l Zs) :
    (Zs.map List.length).sum ≤ (l.map condsetLen).sum ∧
    ((l.map condsetLen).sum = (Zs.map List.length).sum ↔ ∀ Z ∈ Zs, ∃ x, x < 10 ∧ Z = [x]) := by
  induction h with
  | nil => simp
  | @cons r Z l Zs hr _ ih =>
    obtain ⟨g1, g2⟩ := condsetLen_ge hr
    obtain ⟨i1, i2⟩ := ih
    simp only [List.map_cons, List.sum_cons, List.forall_mem_cons]
    refine ⟨by omega, ?_⟩
    rw [← g2, ← i2]
    omega

/-- **C76, finding: the average size of the conditioning sets.**  'Avg. cond. set size' is not the
mean number of conditioning variables but the mean length of their *text*: it is never below the
true mean, and it is the true mean exactly if every test of the experiment had exactly one
conditioning variable and that variable's ID has one digit. -/
theorem condset_average_overestimates {ds : Bool} {runs : List (AlgRun P)} {s : Summary}
    (h : summary ds runs = .ok s) (Zs : List (List Nat))
    (hz : List.Forall₂ Given (allResults runs) Zs) :
    mean (fun Z => (Z.length : ℝ)) Zs ≤ s.avgCondset ∧
    (s.avgCondset = mean (fun Z => (Z.length : ℝ)) Zs ↔ ∀ Z ∈ Zs, ∃ x, x < 10 ∧ Z = [x]) := by
  have hc := (summary_ok_iff ds runs).1 ⟨s, h⟩
  obtain ⟨_, _, _, _, he, _⟩ := summary_exact h
  obtain ⟨h1, h2⟩ := sum_le_of_given hz
  have hn : (0 : ℝ) < (allResults runs).length := by
    exact_mod_cast List.length_pos_of_ne_nil hc.some_test
  have e1 : mean (fun r => (condsetLen r : ℝ)) (allResults runs) =
      ((allResults runs).map condsetLen).sum / (allResults runs).length := by
    unfold mean; rw [Nat.cast_list_sum, List.map_map]; rfl
  have e2 : mean (fun Z : List Nat => (Z.length : ℝ)) Zs =
      (Zs.map List.length).sum / (allResults runs).length := by
    unfold mean; rw [Nat.cast_list_sum, List.map_map, hz.length_eq]; rfl
  rw [he, e1, e2, ← h2, div_le_div_iff_of_pos_right hn, div_left_inj' hn.ne']
  constructor
  · exact_mod_cast h1
  · exact Nat.cast_inj

/-- **C76, finding.**  If all tests are unconditional, the reported average size is 1, not 0; if all
have at least two conditioning variables, it is at least three times the true mean. -/
theorem condset_average_extremes {ds : Bool} {runs : List (AlgRun P)} {s : Summary}
    (h : summary ds runs = .ok s) (Zs : List (List Nat))
    (hz : List.Forall₂ Given (allResults runs) Zs) :
    ((∀ Z ∈ Zs, Z = []) → s.avgCondset = 1) ∧
    ((∀ Z ∈ Zs, 2 ≤ Z.length) → 3 * mean (fun Z => (Z.length : ℝ)) Zs ≤ s.avgCondset) := by
  have hc := (summary_ok_iff ds runs).1 ⟨s, h⟩
  obtain ⟨_, _, _, _, he, _⟩ := summary_exact h
  have hn : (0 : ℝ) < (allResults runs).length := by
    exact_mod_cast List.length_pos_of_ne_nil hc.some_test
  constructor
  · intro h0
    have hall : ∀ (l : List (Logged P)) (Zs : List (List Nat)), List.Forall₂ Given l Zs →
        (∀ Z ∈ Zs, Z = []) → ∀ r ∈ l, condsetLen r = 1 := by
      intro l Zs hf
      induction hf with
      | nil => simp
      | @cons r Z l Zs hr _ ih =>
        intro h0 x hx
        rcases List.mem_cons.1 hx with rfl | hx
        · exact (condsetLen_given hr).1 (h0 _ (by simp))
        · exact ih (fun Z hZ => h0 Z (by simp [hZ])) x hx
    have h1 := hall _ _ hz h0
    have hb := mean_bounds (fun r => (condsetLen r : ℝ)) (allResults runs) 1 1 hc.some_test
      (fun r hr => by rw [h1 r hr]; simp)
    rw [he]; exact le_antisymm hb.2 hb.1
  · intro h2
    have hsum : ∀ (l : List (Logged P)) (Zs : List (List Nat)), List.Forall₂ Given l Zs →
        (∀ Z ∈ Zs, 2 ≤ Z.length) → 3 * (Zs.map List.length).sum ≤ (l.map condsetLen).sum := by
      intro l Zs hf
      induction hf with
      | nil => simp
      | @cons r Z l Zs hr _ ih =>
        intro h0
        have := (condsetLen_given hr).2.2 (h0 _ (by simp))
        have := ih (fun Z hZ => h0 Z (by simp [hZ]))
        simp only [List.map_cons, List.sum_cons]
        omega
    have h1 := hsum _ _ hz h2
    have e1 : mean (fun r => (condsetLen r : ℝ)) (allResults runs) =
        ((allResults runs).map condsetLen).sum / (allResults runs).length := by
      unfold mean; rw [Nat.cast_list_sum, List.map_map]; rfl
    have e2 : mean (fun Z : List Nat => (Z.length : ℝ)) Zs =
        (Zs.map List.length).sum / (allResults runs).length := by
      unfold mean; rw [Nat.cast_list_sum, List.map_map, hz.length_eq]; rfl
    rw [he, e1, e2, ← mul_div_assoc, div_le_div_iff_of_pos_right hn]
    exact_mod_cast h1

/-! ## Examples -/

/-- A test that found independence given `Z`, with the reference `d`. (Example.) -/
noncomputable def exTest (Z : List Int) (d : Bool) : Logged Unit :=
  ⟨history () [.setIndependent true 0, .setVariables (.int 0) (.int 3) (.many Z), .setDSeparation d], 2⟩

/-- Two runs: one finds the true blanket, the other one variable too many. (Example.) -/
noncomputable def exRuns : List (AlgRun Unit) :=
  [⟨0, some [exTest [] true, exTest [12] false], some [1, 2], some [2, 1]⟩,
   ⟨3, some [exTest [1, 2] true], some [1, 2], some [1]⟩]

theorem exRuns_complete : Complete true exRuns where
  results := by simp [exRuns]
  blankets := by simp [exRuns]
  references := by intro _; simp [exRuns, truth]
  checked := by simp [exRuns, allResults, exTest, history, Op.apply]
  some_test := by simp [exRuns, allResults]

/-- A summary exists; two of three tests are right, there is one error, and the reported average
size of the conditioning sets is 3 although the mean is 1. -/
example : ∃ s, summary true exRuns = .ok s ∧ s.tests = 3 ∧ s.accurate = 2 ∧ s.errors = 1 ∧
    s.duration = 6 ∧ s.avgCondset = 3 ∧ (6, 1) ∈ s.histogram := by
  obtain ⟨s, hs⟩ := (summary_ok_iff true exRuns).2 exRuns_complete
  obtain ⟨h1, h2, _, h4, h5, h6, _, h8, _⟩ := summary_exact hs
  have l0 : condsetLen (exTest [] true) = 1 := by decide +kernel
  have l1 : condsetLen (exTest [12] false) = 2 := by decide +kernel
  have l2 : condsetLen (exTest [1, 2] true) = 6 := by decide +kernel
  have r0 : Right (exTest [] true) := by decide +kernel
  have r1 : ¬ Right (exTest [12] false) := by decide +kernel
  have r2 : Right (exTest [1, 2] true) := by decide +kernel
  have hall : allResults exRuns = [exTest [] true, exTest [12] false, exTest [1, 2] true] := by
    simp [allResults, exRuns]
  refine ⟨s, hs, ?_, ?_, ?_, ?_, ?_, ?_⟩
  · rw [h1, hall]; rfl
  · rw [h2, hall]; simp [r0, r1, r2]
  · rw [(h8 rfl).1]; decide +kernel
  · rw [h4, hall]; simp [exTest]; norm_num
  · rw [h5, hall]; simp [mean, l0, l1, l2]; norm_num
  · rw [h6, hall]; simp [l0, l1, l2]

/-- The conditioning sets of that example: none, one with a two-digit ID, two. -/
example : List.Forall₂ Given (allResults exRuns) [[], [12], [1, 2]] := by
  have hall : allResults exRuns = [exTest [] true, exTest [12] false, exTest [1, 2] true] := by
    simp [allResults, exRuns]
  rw [hall]
  refine .cons ⟨_, _, .many [], rfl, rfl⟩ (.cons ⟨_, _, .many [12], rfl, rfl⟩
    (.cons ⟨_, _, .many [1, 2], rfl, rfl⟩ .nil))

/-- **Finding.**  A target whose true blanket is empty stops the command with `ZeroDivisionError`;
so does an experiment without tests; a test that was not checked gives `TypeError`. -/
theorem summary_errors :
    summary (P := Unit) true [⟨0, some [exTest [] true], some [], some []⟩] = .error .zeroDivision ∧
    summary (P := Unit) true [⟨0, some [], some [1], some [1]⟩] = .error .zeroDivision ∧
    summary (P := Unit) false [⟨0, some [⟨fresh (), 0⟩], some [1], none⟩] = .error .typeError := by
  refine ⟨?_, ?_, ?_⟩
  · rfl
  · rfl
  · rfl

end Mbtk.DsepSummary
