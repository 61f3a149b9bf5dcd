import Verif.Py
import Mathlib.Tactic.Tauto
/-!
# Model of the evaluation of a classifier (C46)

mbtk/experiment/AlgorithmRun.py 90-98.  `expected` and `predictions` are one-dimensional arrays.
-/
namespace Mbtk.Exp
open Mbtk

/-- `numpy.logical_not(a)`. AlgorithmRun.py 91-92. -/
def logicalNot (a : List Int) : List Bool := a.map (fun v => decide (v = 0))

/-- An array of numbers read as truth values. AlgorithmRun.py 91-97. -/
def truth (a : List Int) : List Bool := a.map (fun v => decide (v ≠ 0))

/-- `numpy.logical_and(a, b)` of one-dimensional arrays: arrays of length 1 are broadcast, other
different lengths raise `ValueError`. AlgorithmRun.py 94-97. -/
def logicalAnd (a b : List Bool) : Except Err (List Bool) :=
  if a.length = b.length then .ok (List.zipWith (· && ·) a b)
  else match a, b with
    | [x], b => .ok (b.map (fun y => x && y))
    | a, [y] => .ok (a.map (fun x => x && y))
    | _, _ => .error .valueError

/-- `numpy.sum(...).item()`. AlgorithmRun.py 94-97. -/
def sumTrue (a : List Bool) : Nat := a.count true

/-- AlgorithmRun.py 93-98. -/
structure Evaluation where
  TP : Nat
  TN : Nat
  FP : Nat
  FN : Nat
  deriving DecidableEq, Repr

/-- `evaluate_classifier_predictions(expected, predictions)`: AlgorithmRun.py 90-98. -/
def evaluate (expected predictions : List Int) : Except Err Evaluation := do
  let tp ← logicalAnd (truth expected) (truth predictions)
  let tn ← logicalAnd (logicalNot expected) (logicalNot predictions)
  let fp ← logicalAnd (logicalNot expected) (truth predictions)
  let fn ← logicalAnd (truth expected) (logicalNot predictions)
  pure ⟨sumTrue tp, sumTrue tn, sumTrue fp, sumTrue fn⟩

namespace Spec

/-- The number of positions at which the two arrays have values with the property.
(Specification.) -/
def positions (expected predictions : List Int) (P : Int → Int → Prop) [∀ a b, Decidable (P a b)] : Nat :=
  ((expected.zip predictions).filter (fun v => P v.1 v.2)).length

end Spec
open Spec

theorem evaluate_eq (expected predictions : List Int) (h : expected.length = predictions.length) :
    evaluate expected predictions = .ok
      ⟨positions expected predictions (fun a b => a ≠ 0 ∧ b ≠ 0),
       positions expected predictions (fun a b => a = 0 ∧ b = 0),
       positions expected predictions (fun a b => a = 0 ∧ b ≠ 0),
       positions expected predictions (fun a b => a ≠ 0 ∧ b = 0)⟩ := by
  have key : ∀ (f g : Int → Bool) (P : Int → Int → Prop) [∀ a b, Decidable (P a b)],
      (∀ a b, (f a && g b) = decide (P a b)) →
      (List.zipWith (· && ·) (expected.map f) (predictions.map g)).count true =
        positions expected predictions P := by
    intro f g P _ hfg
    clear h
    induction expected generalizing predictions with
    | nil => simp [positions]
    | cons a as ih =>
      cases predictions with
      | nil => simp [positions]
      | cons b bs =>
        have := ih bs
        simp only [positions, List.map_cons, List.zipWith_cons_cons, List.count_cons, this,
          List.zip_cons_cons, List.filter_cons, hfg]
        by_cases hp : P a b <;> simp [hp]
  unfold evaluate logicalAnd truth logicalNot sumTrue
  simp only [List.length_map, h, if_true]
  show Except.ok _ = Except.ok _
  congr 2
  · exact key _ _ _ (by simp)
  · exact key _ _ _ (by simp)
  · exact key _ _ _ (by simp)
  · exact key _ _ _ (by simp)

/-- **C46.**  For arrays of the same length, the four counts are the numbers of true positives, true
negatives, false positives and false negatives, and their sum is the number of instances. -/
theorem evaluation_counts (expected predictions : List Int) (h : expected.length = predictions.length) :
    ∃ e, evaluate expected predictions = .ok e ∧
      e.TP = positions expected predictions (fun a b => a ≠ 0 ∧ b ≠ 0) ∧
      e.TN = positions expected predictions (fun a b => a = 0 ∧ b = 0) ∧
      e.FP = positions expected predictions (fun a b => a = 0 ∧ b ≠ 0) ∧
      e.FN = positions expected predictions (fun a b => a ≠ 0 ∧ b = 0) ∧
      e.TP + e.TN + e.FP + e.FN = expected.length := by
  refine ⟨_, evaluate_eq expected predictions h, rfl, rfl, rfl, rfl, ?_⟩
  simp only [positions]
  induction expected generalizing predictions with
  | nil => simp
  | cons a as ih =>
    cases predictions with
    | nil => simp at h
    | cons b bs =>
      have := ih bs (by simpa using h)
      simp only [List.zip_cons_cons, List.filter_cons, List.length_cons]
      by_cases ha : a = 0 <;> by_cases hb : b = 0 <;> simp [ha, hb] <;> simp at this <;> omega

/-- **C46.**  The positive instances are the true positives and the false negatives, the predicted
positives the true and the false positives; there are no errors exactly if every prediction is
right. -/
theorem evaluation_margins (expected predictions : List Int) (h : expected.length = predictions.length)
    (e : Evaluation) (he : evaluate expected predictions = .ok e) :
    e.TP + e.FN = (expected.filter (fun v => v ≠ 0)).length ∧
    e.TP + e.FP = (predictions.filter (fun v => v ≠ 0)).length ∧
    (e.FP + e.FN = 0 ↔ ∀ v ∈ expected.zip predictions, (v.1 = 0 ↔ v.2 = 0)) := by
  rw [evaluate_eq expected predictions h] at he
  cases he
  refine ⟨?_, ?_, ?_⟩
  · simp only [positions]
    induction expected generalizing predictions with
    | nil => simp
    | cons a as ih =>
      cases predictions with
      | nil => simp at h
      | cons b bs =>
        have := ih bs (by simpa using h)
        simp only [List.zip_cons_cons, List.filter_cons]
        by_cases ha : a = 0 <;> by_cases hb : b = 0 <;> simp [ha, hb] <;> simp at this <;> omega
  · simp only [positions]
    induction expected generalizing predictions with
    | nil =>
      cases predictions with
      | nil => rfl
      | cons b bs => simp at h
    | cons a as ih =>
      cases predictions with
      | nil => simp at h
      | cons b bs =>
        have := ih bs (by simpa using h)
        simp only [List.zip_cons_cons, List.filter_cons]
        by_cases ha : a = 0 <;> by_cases hb : b = 0 <;> simp [ha, hb] <;> simp at this <;> omega
  · simp only [positions, Nat.add_eq_zero_iff, List.length_eq_zero_iff, List.filter_eq_nil_iff,
      decide_eq_true_eq]
    constructor
    · rintro ⟨h1, h2⟩ v hv
      have := h1 v hv
      have := h2 v hv
      tauto
    · intro hv
      refine ⟨fun v h => ?_, fun v h => ?_⟩ <;> have := hv v h <;> tauto

/-- **C46.**  Arrays of different lengths, neither of length 1, raise `ValueError`. -/
theorem evaluation_lengths_differ (expected predictions : List Int)
    (h : expected.length ≠ predictions.length) (h1 : expected.length ≠ 1) (h2 : predictions.length ≠ 1) :
    evaluate expected predictions = .error .valueError := by
  have : logicalAnd (truth expected) (truth predictions) = .error .valueError := by
    unfold logicalAnd truth
    rw [if_neg (by simpa using h)]
    match expected, predictions with
    | [_], _ => exact absurd rfl h1
    | _, [_] => exact absurd rfl h2
    | [], [] => exact absurd rfl h
    | [], _ :: _ :: _ => rfl
    | _ :: _ :: _, [] => rfl
    | _ :: _ :: _, _ :: _ :: _ => rfl
  unfold evaluate
  rw [this]
  rfl

/-- **Finding.**  A single prediction is compared with every instance, without an exception. -/
theorem evaluation_broadcasts : evaluate [1, 0, 1] [1] = .ok ⟨2, 0, 1, 0⟩ := rfl

example : evaluate [1, 0, 1, 0, 2] [1, 1, 0, 0, 1] = .ok ⟨2, 1, 1, 1⟩ := rfl

end Mbtk.Exp
