import Verif.Data.Persist
import Mathlib.Data.Rat.Floor
import Mathlib.Tactic.Linarith
import Mathlib.Tactic.FieldSimp
import Mathlib.Algebra.BigOperators.Group.List.Basic
/-!
# Model of the random train/test split and of the trimming by thresholds

`mbtk/dataset/ModelBuildingExperimentalDataset.py` 112-150 and
`mbtk/dataset/BinaryExperimentalDataset.py`.  `random.sample(rows, len(rows))` is an arbitrary
permutation of the rows.  `training_subset_size`, the thresholds and the proportions are exact
rational numbers.  A call that raises leaves no modelled result (the attributes that were set
before the exception are not described).
-/
namespace Mbtk.Dataset
open Spec

/-- `l[0:k]`. ModelBuildingExperimentalDataset.py 116-149. -/
def sliceTo {α : Type} (l : List α) (k : Int) : List α :=
  if 0 ≤ k then l.take k.toNat else l.take ((l.length : Int) + k).toNat

/-- `l[k:]`. ModelBuildingExperimentalDataset.py 116-149. -/
def sliceFrom {α : Type} (l : List α) (k : Int) : List α :=
  if 0 ≤ k then l.drop k.toNat else l.drop ((l.length : Int) + k).toNat

/-- `int(total_row_count * training_subset_size)`: ModelBuildingExperimentalDataset.py 132;
`int` cuts off towards zero. -/
def trainRowsCount (n : Nat) (fraction : ℚ) : Int :=
  if 0 ≤ fraction then ⌊(n : ℚ) * fraction⌋ else ⌈(n : ℚ) * fraction⌉

/-- The attributes that the split sets. ModelBuildingExperimentalDataset.py 116-149. -/
structure SplitResult where
  full : DM
  trainRows : List Nat
  testRows : List Nat
  train : DM
  test : DM

/-- Indices as Python integers. ModelBuildingExperimentalDataset.py 116-149. -/
def asInts (l : List Nat) : List Int := l.map (fun c : Nat => (c : Int))

/-- `perform_random_dataset_split`: ModelBuildingExperimentalDataset.py 116-149, where
`shuffled` is the result of `random.sample`. -/
def randomSplit (d : DM) (shuffled : List Nat) (fraction : ℚ) : Except Err SplitResult := do
  let train ← selectRows d
    (asInts ((sliceTo shuffled (trainRowsCount d.X.rows.length fraction)).insertionSort (· ≤ ·)))
    "dataset_train".toList
  let test ← selectRows d
    (asInts ((sliceFrom shuffled (trainRowsCount d.X.rows.length fraction)).insertionSort (· ≤ ·)))
    "dataset_test".toList
  .ok ⟨d, (sliceTo shuffled (trainRowsCount d.X.rows.length fraction)).insertionSort (· ≤ ·),
    (sliceFrom shuffled (trainRowsCount d.X.rows.length fraction)).insertionSort (· ≤ ·), train, test⟩

/-! ## Trimming -/

/-- The three matrices. ModelBuildingExperimentalDataset.py 45-50. -/
inductive Part where
  | full | train | test
  deriving DecidableEq, Repr

/-- The options of a binary dataset; a matrix without thresholds is not trimmed
(`except KeyError: return {}`). BinaryExperimentalDataset.py 25-70. -/
structure TrimOptions where
  removeFeatures : Bool
  removeObjectives : Bool
  featureThresholds : Part → Option (ℚ × ℚ)
  objectiveThresholds : Part → Option (ℚ × ℚ)
  fraction : ℚ

/-- `numpy.sum(column) / row_count`: BinaryExperimentalDataset.py 80. -/
def columnShare (m : Matrix) (c : Nat) : ℚ :=
  (((m.rows.map (fun row => row.getD c 0)).sum : Int) : ℚ) / m.rows.length

/-- `thresholded_columns_to_remove`: BinaryExperimentalDataset.py 73-85, and the lookup of the
thresholds 53-70.  Without rows the quotient is `nan`, which is neither below nor above. -/
def columnsToRemove (m : Matrix) (thresholds : Option (ℚ × ℚ)) : List Nat :=
  match thresholds with
  | none => []
  | some (pmin, pmax) => (List.range m.ncols).filter
      (fun c => m.rows.length ≠ 0 ∧ (columnShare m c < pmin ∨ pmax < columnShare m c))

/-- An exception ends the whole call. BinaryExperimentalDataset.py 25-50. -/
def raising (o : Outcome) : Except Err DM :=
  match o with
  | (d, none) => .ok d
  | (_, some e) => .error e

/-- Delete features if the option is set. BinaryExperimentalDataset.py 25-50. -/
def trimX (on : Bool) (cols : List Nat) (d : DM) : Except Err DM :=
  if on then raising (deleteColumnsX d (asInts cols)) else .ok d

/-- Delete objectives if the option is set. BinaryExperimentalDataset.py 25-50. -/
def trimY (on : Bool) (cols : List Nat) (d : DM) : Except Err DM :=
  if on then raising (deleteColumnsY d (asInts cols)) else .ok d

/-- `process_before_split`: BinaryExperimentalDataset.py 25-32. -/
def processBeforeSplit (o : TrimOptions) (d : DM) : Except Err DM := do
  let d1 ← trimX o.removeFeatures (columnsToRemove d.X (o.featureThresholds .full)) d
  trimY o.removeObjectives (columnsToRemove d1.Y (o.objectiveThresholds .full)) d1

/-- `a | b` of two sets of indices; the order does not matter, they are sorted afterwards.
BinaryExperimentalDataset.py 35-50. -/
def unionCols (a b : List Nat) : List Nat := a ++ b.filter (fun c => c ∉ a)

/-- `process_after_split`: BinaryExperimentalDataset.py 36-50. -/
def processAfterSplit (o : TrimOptions) (r : SplitResult) : Except Err SplitResult := do
  let full1 ← trimX o.removeFeatures (unionCols (columnsToRemove r.train.X (o.featureThresholds .train))
    (columnsToRemove r.test.X (o.featureThresholds .test))) r.full
  let train1 ← trimX o.removeFeatures (unionCols (columnsToRemove r.train.X (o.featureThresholds .train))
    (columnsToRemove r.test.X (o.featureThresholds .test))) r.train
  let test1 ← trimX o.removeFeatures (unionCols (columnsToRemove r.train.X (o.featureThresholds .train))
    (columnsToRemove r.test.X (o.featureThresholds .test))) r.test
  let full2 ← trimY o.removeObjectives (unionCols (columnsToRemove train1.Y (o.objectiveThresholds .train))
    (columnsToRemove test1.Y (o.objectiveThresholds .test))) full1
  let train2 ← trimY o.removeObjectives (unionCols (columnsToRemove train1.Y (o.objectiveThresholds .train))
    (columnsToRemove test1.Y (o.objectiveThresholds .test))) train1
  let test2 ← trimY o.removeObjectives (unionCols (columnsToRemove train1.Y (o.objectiveThresholds .train))
    (columnsToRemove test1.Y (o.objectiveThresholds .test))) test1
  .ok ⟨full2, r.trainRows, r.testRows, train2, test2⟩

/-- `BinaryExperimentalDataset.perform_random_dataset_split`: BinaryExperimentalDataset.py 19-22. -/
def binarySplit (o : TrimOptions) (d : DM) (shuffled : List Nat) : Except Err SplitResult := do
  let d1 ← processBeforeSplit o d
  let r ← randomSplit d1 shuffled o.fraction
  processAfterSplit o r

/-! ## Specification -/

namespace Spec

/-- Only the objectives at the positions `ps`. (Specification.) -/
def keepObjectives (ps : List Nat) (t : Table) : Table :=
  { t with objectives := elementsAt t.objectives ps,
           samples := t.samples.map (fun s => { s with objectives := elementsAt s.objectives ps }) }

/-- The mean over all samples of the value at position `c` (for binary data: the share of
samples with value 1). (Specification.) -/
def share (values : Sample → List (Str × Int)) (t : Table) (c : Nat) : ℚ :=
  (((t.samples.map (fun s => (((values s)[c]?).map Prod.snd).getD 0)).sum : Int) : ℚ) / t.samples.length

/-- The value lies outside the thresholds, if there are any. (Specification.) -/
def Outside (thresholds : Option (ℚ × ℚ)) (p : ℚ) : Prop :=
  ∃ b ∈ thresholds, p < b.1 ∨ b.2 < p

/-- What a correct trimming by thresholds yields: the positions of the variables to keep, given
the whole table and the samples of the training and of the test set. (Specification.) -/
def Kept (on : Bool) (thresholds : Part → Option (ℚ × ℚ)) (values : Sample → List (Str × Int))
    (t : Table) (trainRows testRows : List Nat) (c : Nat) : Prop :=
  on = true → ¬ Outside (thresholds .full) (share values t c) ∧
    ¬ Outside (thresholds .train) (share values (keepSamples trainRows t) c) ∧
    ¬ Outside (thresholds .test) (share values (keepSamples testRows t) c)

end Spec

/-! ## The split -/

theorem sliceTo_eq {α : Type} (l : List α) (k : Int) : ∃ j, j ≤ l.length ∧ sliceTo l k = l.take j ∧
    sliceFrom l k = l.drop j ∧ (0 ≤ k → (j : Int) = min k l.length) ∧
    (k < 0 → (j : Int) = max 0 (l.length + k)) := by
  unfold sliceTo sliceFrom
  by_cases hk : 0 ≤ k
  · simp only [if_pos hk]
    refine ⟨min k.toNat l.length, by omega, ?_, ?_, by omega, by omega⟩
    · rcases Nat.le_total k.toNat l.length with h | h
      · rw [Nat.min_eq_left h]
      · rw [Nat.min_eq_right h, List.take_of_length_le h, List.take_length]
    · rcases Nat.le_total k.toNat l.length with h | h
      · rw [Nat.min_eq_left h]
      · rw [Nat.min_eq_right h, List.drop_of_length_le h, List.drop_length]
  · simp only [if_neg hk]
    exact ⟨((l.length : Int) + k).toNat, by omega, rfl, rfl, by omega, by omega⟩

theorem asInts_sorted {l : List Nat} (h : l.Pairwise (· ≤ ·)) :
    (asInts l).insertionSort (· ≤ ·) = asInts l := by
  refine List.Pairwise.insertionSort_eq ?_
  unfold asInts
  rw [List.pairwise_map]
  exact h.imp (fun h => by exact_mod_cast h)

theorem asInts_means {n : Nat} {l : List Nat} (h : ∀ c ∈ l, c < n) :
    List.Forall₂ (IndexMeans n) (asInts l) l := by
  induction l with
  | nil => exact .nil
  | cons c l ih =>
    exact .cons ⟨h c (by simp), .inl rfl⟩ (ih (fun x hx => h x (by simp [hx])))

theorem select_sorted {d : DM} (h : WellShaped d) {l : List Nat} (hs : l.Pairwise (· ≤ ·))
    (hne : l ≠ []) (hl : ∀ c ∈ l, c < d.rowLabels.length) (label : Str) :
    ∃ d', selectRows d (asInts l) label = .ok d' ∧ WellShaped d' ∧ d'.final = false ∧
      d'.X.format = d.X.format ∧ d'.label = (if label = [] then d.label else label) ∧
      table d' = keepSamples l (table d) := by
  refine (select_rows_aligned d h (asInts l) label).2.2 ?_ l ?_
  · intro e; exact hne (by simpa [asInts] using e)
  · rw [asInts_sorted hs]; exact asInts_means hl

theorem insertionSort_ne_nil {l : List Nat} (h : l ≠ []) : l.insertionSort (· ≤ ·) ≠ [] := by
  intro e
  have := (List.perm_insertionSort (· ≤ ·) l).length_eq
  rw [e] at this
  exact h (List.length_eq_zero_iff.1 (by simpa using this.symm))

theorem elementsAt_append {α : Type} (l : List α) (ps qs : List Nat) :
    elementsAt l (ps ++ qs) = elementsAt l ps ++ elementsAt l qs := by
  simp [elementsAt]

theorem elementsAt_perm {α : Type} (l : List α) {ps qs : List Nat} (h : ps.Perm qs) :
    (elementsAt l ps).Perm (elementsAt l qs) := h.filterMap _

theorem table_samples_length {d : DM} (h : WellShaped d) :
    (table d).samples.length = d.rowLabels.length := by
  simp only [table, List.length_map, List.length_zip, h.rowsX, h.rowsY, Nat.min_self]

/-- **C41.**  Let `shuffled` be any permutation of the rows and let `k` be the number of training
rows asked for.  With `0 < k < N` the split succeeds: training and test rows are sorted, there
are `k` and `N - k` of them, together they are all rows, and the two datasets hold the samples
at those rows: together exactly the samples of the full dataset. -/
theorem split_is_partition (d : DM) (h : WellShaped d) (shuffled : List Nat) (fraction : ℚ)
    (hp : shuffled.Perm (List.range d.rowLabels.length)) (k : Nat)
    (hk : trainRowsCount d.rowLabels.length fraction = k) (h0 : 0 < k) (hN : k < d.rowLabels.length) :
    ∃ r, randomSplit d shuffled fraction = .ok r ∧ r.full = d ∧
      r.trainRows.Pairwise (· < ·) ∧ r.testRows.Pairwise (· < ·) ∧
      r.trainRows.length = k ∧ r.testRows.length = d.rowLabels.length - k ∧
      (r.trainRows ++ r.testRows).Perm (List.range d.rowLabels.length) ∧
      table r.train = keepSamples r.trainRows (table d) ∧
      table r.test = keepSamples r.testRows (table d) ∧
      ((table r.train).samples ++ (table r.test).samples).Perm (table d).samples ∧
      WellShaped r.train ∧ WellShaped r.test ∧ r.train.final = false ∧ r.test.final = false ∧
      r.train.X.format = d.X.format ∧ r.test.X.format = d.X.format ∧
      r.train.label = "dataset_train".toList ∧ r.test.label = "dataset_test".toList := by
  obtain ⟨j, hj, e1, e2, e3, _⟩ := sliceTo_eq shuffled (k : Int)
  have hlen : shuffled.length = d.rowLabels.length := by simpa using hp.length_eq
  have hjk : j = k := by have := e3 (by omega); rw [hlen] at this; omega
  subst hjk
  have hnd : shuffled.Nodup := hp.nodup_iff.2 List.nodup_range
  have hmem : ∀ c ∈ shuffled, c < d.rowLabels.length := fun c hc => by simpa using hp.mem_iff.1 hc
  have ptr := List.perm_insertionSort (· ≤ ·) (shuffled.take j)
  have pte := List.perm_insertionSort (· ≤ ·) (shuffled.drop j)
  have str : ((shuffled.take j).insertionSort (· ≤ ·)).Pairwise (· ≤ ·) :=
    List.pairwise_insertionSort _ _
  have ste : ((shuffled.drop j).insertionSort (· ≤ ·)).Pairwise (· ≤ ·) :=
    List.pairwise_insertionSort _ _
  have ntr : ((shuffled.take j).insertionSort (· ≤ ·)).Nodup :=
    ptr.nodup_iff.2 (hnd.sublist (List.take_sublist _ _))
  have nte : ((shuffled.drop j).insertionSort (· ≤ ·)).Nodup :=
    pte.nodup_iff.2 (hnd.sublist (List.drop_sublist _ _))
  have hall : ((shuffled.take j).insertionSort (· ≤ ·) ++ (shuffled.drop j).insertionSort (· ≤ ·)).Perm
      (List.range d.rowLabels.length) := by
    refine (ptr.append pte).trans ?_
    rw [List.take_append_drop]; exact hp
  have strict : ∀ l : List Nat, l.Pairwise (· ≤ ·) → l.Nodup → l.Pairwise (· < ·) := by
    intro l h1 h2
    exact (List.pairwise_and_iff.2 ⟨h1, h2⟩).imp (fun h => lt_of_le_of_ne h.1 h.2)
  obtain ⟨tr, t1, t2, t3, t4, t5, t6⟩ := select_sorted h str
    (insertionSort_ne_nil (by intro e; have := congrArg List.length e; rw [List.length_take, List.length_nil] at this; omega))
    (fun c hc => hmem c (List.mem_of_mem_take (ptr.mem_iff.1 hc))) "dataset_train".toList
  obtain ⟨te, u1, u2, u3, u4, u5, u6⟩ := select_sorted h ste
    (insertionSort_ne_nil (by intro e; have := congrArg List.length e; rw [List.length_drop, List.length_nil] at this; omega))
    (fun c hc => hmem c (List.mem_of_mem_drop (pte.mem_iff.1 hc))) "dataset_test".toList
  refine ⟨⟨d, (shuffled.take j).insertionSort (· ≤ ·), (shuffled.drop j).insertionSort (· ≤ ·), tr, te⟩, ?_, rfl, strict _ str ntr, strict _ ste nte, ?_, ?_, hall, t6, u6, ?_,
    t2, u2, t3, u3, t4, u4, t5, u5⟩
  · unfold randomSplit
    rw [h.rowsX, hk, e1, e2, t1]
    show (selectRows d _ _ >>= _) = _
    rw [u1]; rfl
  · show (List.insertionSort _ _).length = _
    rw [ptr.length_eq, List.length_take]; omega
  · show (List.insertionSort _ _).length = _
    rw [pte.length_eq, List.length_drop]; omega
  · show ((table tr).samples ++ (table te).samples).Perm _
    rw [t6, u6]
    simp only [keepSamples]
    rw [← elementsAt_append]
    refine (elementsAt_perm _ hall).trans ?_
    rw [← table_samples_length h, elementsAt_all]

/-- **C41.**  The number of training rows asked for is the integer part of `N * fraction`; for a
fraction between 0 and 1 it lies between 0 and `N`. -/
theorem train_rows_count (n : Nat) (fraction : ℚ) (h0 : 0 ≤ fraction) :
    ∃ k : Nat, trainRowsCount n fraction = k ∧ (k : ℚ) ≤ n * fraction ∧ n * fraction < k + 1 ∧
      (fraction ≤ 1 → k ≤ n) ∧ (fraction < 1 → 0 < n → k < n) := by
  have hnn : (0 : ℚ) ≤ n * fraction := mul_nonneg (Nat.cast_nonneg n) h0
  have hfl : 0 ≤ ⌊(n : ℚ) * fraction⌋ := Int.floor_nonneg.2 hnn
  refine ⟨⌊(n : ℚ) * fraction⌋.toNat, ?_, ?_, ?_, ?_, ?_⟩
  · unfold trainRowsCount; rw [if_pos h0]; omega
  · have : ((⌊(n : ℚ) * fraction⌋.toNat : Int) : ℚ) ≤ n * fraction := by
      rw [Int.toNat_of_nonneg hfl]; exact Int.floor_le _
    exact_mod_cast this
  · have : (n : ℚ) * fraction < ((⌊(n : ℚ) * fraction⌋.toNat : Int) : ℚ) + 1 := by
      rw [Int.toNat_of_nonneg hfl]; exact Int.lt_floor_add_one _
    exact_mod_cast this
  · intro h1
    have : ⌊(n : ℚ) * fraction⌋ ≤ (n : Int) := by
      have : (n : ℚ) * fraction ≤ (n : Int) := by
        push_cast; exact mul_le_of_le_one_right (Nat.cast_nonneg n) h1
      exact (Int.floor_le_floor this).trans (by rw [Int.floor_intCast])
    omega
  · intro h1 hn
    have : ⌊(n : ℚ) * fraction⌋ < (n : Int) := by
      rw [Int.floor_lt]
      push_cast
      have : (0 : ℚ) < n := by exact_mod_cast hn
      nlinarith
    omega

/-- **C41.**  If the number of training rows asked for is 0 (or `N` or more), one of the two sets
would be empty and the split raises `ValueError`. -/
theorem split_empty_raises (d : DM) (h : WellShaped d) (shuffled : List Nat) (fraction : ℚ)
    (hp : shuffled.Perm (List.range d.rowLabels.length)) (k : Nat)
    (hk : trainRowsCount d.rowLabels.length fraction = k)
    (hkN : k = 0 ∨ d.rowLabels.length ≤ k) :
    randomSplit d shuffled fraction = .error .valueError := by
  have hlen : shuffled.length = d.rowLabels.length := by simpa using hp.length_eq
  obtain ⟨j, hj, e1, e2, e3, _⟩ := sliceTo_eq shuffled (k : Int)
  have hje := e3 (by omega)
  rw [hlen] at hje hj
  have hmem : ∀ c ∈ shuffled, c < d.rowLabels.length := fun c hc => by simpa using hp.mem_iff.1 hc
  unfold randomSplit
  rw [h.rowsX, hk, e1, e2]
  by_cases hz : j = 0
  · subst hz
    rw [(select_rows_aligned d h _ _).1 (by simp [asInts])]
    rfl
  · have hjN : j = d.rowLabels.length := by omega
    have ptr := List.perm_insertionSort (· ≤ ·) (shuffled.take j)
    obtain ⟨tr, t1, _⟩ := select_sorted h (List.pairwise_insertionSort (· ≤ ·) (shuffled.take j))
      (insertionSort_ne_nil (by intro e; have := congrArg List.length e; rw [List.length_take, List.length_nil] at this; omega))
      (fun c hc => hmem c (List.mem_of_mem_take (ptr.mem_iff.1 hc))) "dataset_train".toList
    rw [t1]
    show (selectRows d _ _ >>= _) = _
    rw [(select_rows_aligned d h _ _).1 (by rw [List.drop_of_length_le (by omega)]; simp [asInts])]
    rfl

end Mbtk.Dataset
