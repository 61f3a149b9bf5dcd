import Verif.Data.Persist
/-!
# Comparing datasets, and choosing one of the three matrices (C108)

`DatasetMatrix.__eq__`, `DatasetMatrix.diff`, `ModelBuildingExperimentalDataset.get_datasetmatrix`.
-/
namespace Mbtk.Dataset
namespace Compare

/-! ## Model -/

/-- `if <differs>: output += word`: DatasetMatrix.py 587-596. -/
def addIf (differs : Bool) (word : Str) (output : Str) : Str := if differs then output ++ word else output

/-- `diff`: DatasetMatrix.py 581-597. -/
def diff (a b : DM) : Str :=
  let o := addIf (decide (a.rowLabels ≠ b.rowLabels)) "row_labels ".toList []
  let o := addIf (decide (a.colLabelsX ≠ b.colLabelsX)) "column_labels_X ".toList o
  let o := addIf (decide (a.colLabelsY ≠ b.colLabelsY)) "column_labels_Y ".toList o
  let o := addIf (!sparseEqual a.X b.X) "X ".toList o
  let o := addIf (!sparseEqual a.Y b.Y) "Y".toList o
  strip o

/-- The three matrices: ModelBuildingExperimentalDataset.py 45-50. -/
structure Three where
  full : DM
  train : DM
  test : DM

/-- `get_datasetmatrix(label)`: ModelBuildingExperimentalDataset.py 152-178. -/
def getMatrix (t : Three) (label : Str) : Except Err DM :=
  if label = "full".toList then .ok t.full
  else if label = "train".toList then .ok t.train
  else if label = "test".toList then .ok t.test
  else .error .valueError

/-! ## Specification -/

/-- The names of the parts in which two datasets differ. (Specification.) -/
def differing (a b : DM) : List Str :=
  (if a.rowLabels = b.rowLabels then [] else ["row_labels".toList]) ++
  (if a.colLabelsX = b.colLabelsX then [] else ["column_labels_X".toList]) ++
  (if a.colLabelsY = b.colLabelsY then [] else ["column_labels_Y".toList]) ++
  (if a.X.ncols = b.X.ncols ∧ a.X.rows = b.X.rows then [] else [['X']]) ++
  (if a.Y.ncols = b.Y.ncols ∧ a.Y.rows = b.Y.rows then [] else [['Y']])

/-- Words separated by one space. (Specification.) -/
def spaced : List Str → Str
  | [] => []
  | [w] => w
  | w :: w' :: ws => w ++ ' ' :: spaced (w' :: ws)

/-! ## Theorems -/

theorem sparseEqual_iff (m n : Matrix) : sparseEqual m n = true ↔ m.ncols = n.ncols ∧ m.rows = n.rows := by
  unfold sparseEqual
  simp only [Bool.and_eq_true, decide_eq_true_eq]
  constructor
  · rintro ⟨⟨_, h⟩, h'⟩; exact ⟨h, h'⟩
  · rintro ⟨h, h'⟩; exact ⟨⟨by rw [h'], h⟩, h'⟩

/-- The 32 possible texts. (Models no code: a notion for statements and proofs.) -/
def pattern (p q r s t : Bool) : Str :=
  strip (addIf t "Y".toList (addIf s "X ".toList (addIf r "column_labels_Y ".toList
    (addIf q "column_labels_X ".toList (addIf p "row_labels ".toList [])))))

/-- (Models no code: a notion for statements and proofs.) -/
def words (p q r s t : Bool) : List Str :=
  (if p then ["row_labels".toList] else []) ++ (if q then ["column_labels_X".toList] else []) ++
  (if r then ["column_labels_Y".toList] else []) ++ (if s then [['X']] else []) ++ (if t then [['Y']] else [])

theorem pattern_words : ∀ p q r s t : Bool, pattern p q r s t = spaced (words p q r s t) := by decide +kernel

/-- **C108.**  `diff` returns exactly the names of the parts in which the datasets differ, in a fixed order,
separated by single spaces. -/
theorem diff_exact (a b : DM) : diff a b = spaced (differing a b) := by
  have e1 : diff a b = pattern (decide (a.rowLabels ≠ b.rowLabels)) (decide (a.colLabelsX ≠ b.colLabelsX))
      (decide (a.colLabelsY ≠ b.colLabelsY)) (!sparseEqual a.X b.X) (!sparseEqual a.Y b.Y) := rfl
  have e2 : differing a b = words (decide (a.rowLabels ≠ b.rowLabels)) (decide (a.colLabelsX ≠ b.colLabelsX))
      (decide (a.colLabelsY ≠ b.colLabelsY)) (!sparseEqual a.X b.X) (!sparseEqual a.Y b.Y) := by
    have one : ∀ (c : Prop) [Decidable c] (p : Bool) (w : List Str), (p = true ↔ ¬ c) →
        (if c then [] else w) = if p = true then w else [] := by
      intro c _ p w h
      by_cases hc : c
      · rw [if_pos hc, if_neg (fun hp => h.1 hp hc)]
      · rw [if_neg hc, if_pos (h.2 hc)]
    unfold differing words
    rw [one _ (decide (a.rowLabels ≠ b.rowLabels)) _ (by simp), one _ (decide (a.colLabelsX ≠ b.colLabelsX)) _ (by simp),
      one _ (decide (a.colLabelsY ≠ b.colLabelsY)) _ (by simp),
      one _ (!sparseEqual a.X b.X) _ (by rw [← sparseEqual_iff]; simp),
      one _ (!sparseEqual a.Y b.Y) _ (by rw [← sparseEqual_iff]; simp)]
  rw [e1, e2, pattern_words]

/-- **C108.**  `==` is an equivalence relation on datasets; it does not depend on the labels of the datasets, on
the storage formats or on whether they are final. -/
theorem eq_equivalence (a b c : DM) :
    datasetEq a a = true ∧ datasetEq a b = datasetEq b a ∧
    (datasetEq a b = true → datasetEq b c = true → datasetEq a c = true) ∧
    (∀ (l l' : Str) (f f' : Bool) (x y x' y' : Format),
      datasetEq { a with label := l, final := f, X := { a.X with format := x }, Y := { a.Y with format := y } }
        { b with label := l', final := f', X := { b.X with format := x' }, Y := { b.Y with format := y' } } = datasetEq a b) := by
  have key : ∀ a b : DM, datasetEq a b = true ↔ a.rowLabels = b.rowLabels ∧ a.colLabelsX = b.colLabelsX ∧
      a.colLabelsY = b.colLabelsY ∧ (a.X.ncols = b.X.ncols ∧ a.X.rows = b.X.rows) ∧
      (a.Y.ncols = b.Y.ncols ∧ a.Y.rows = b.Y.rows) := by
    intro a b
    unfold datasetEq
    simp only [Bool.and_eq_true, decide_eq_true_eq, sparseEqual_iff]
    tauto
  refine ⟨(key a a).2 ⟨rfl, rfl, rfl, ⟨rfl, rfl⟩, rfl, rfl⟩, ?_, ?_, ?_⟩
  · rw [Bool.eq_iff_iff, key, key]
    constructor
    · rintro ⟨h1, h2, h3, ⟨h4, h5⟩, h6, h7⟩
      exact ⟨h1.symm, h2.symm, h3.symm, ⟨h4.symm, h5.symm⟩, h6.symm, h7.symm⟩
    · rintro ⟨h1, h2, h3, ⟨h4, h5⟩, h6, h7⟩
      exact ⟨h1.symm, h2.symm, h3.symm, ⟨h4.symm, h5.symm⟩, h6.symm, h7.symm⟩
  · rw [key, key, key]
    rintro ⟨h1, h2, h3, ⟨h4, h5⟩, h6, h7⟩ ⟨g1, g2, g3, ⟨g4, g5⟩, g6, g7⟩
    exact ⟨h1.trans g1, h2.trans g2, h3.trans g3, ⟨h4.trans g4, h5.trans g5⟩, h6.trans g6, h7.trans g7⟩
  · intro l l' f f' x y x' y'
    rfl

theorem spaced_eq_nil {ws : List Str} (h : ∀ w ∈ ws, w ≠ []) : spaced ws = [] ↔ ws = [] := by
  match ws with
  | [] => simp [spaced]
  | [w] => simpa [spaced] using h w (by simp)
  | w :: w' :: ws => simp [spaced]

/-- **C108.**  `diff` returns the empty text exactly if `==` says that the datasets are equal. -/
theorem diff_empty_iff_eq (a b : DM) : diff a b = [] ↔ datasetEq a b = true := by
  rw [diff_exact, spaced_eq_nil]
  · unfold differing datasetEq
    simp only [Bool.and_eq_true, decide_eq_true_eq, sparseEqual_iff, List.append_eq_nil_iff, ite_eq_left_iff]
    simp only [List.cons_ne_nil, imp_false, not_not]
  · intro w hw
    unfold differing at hw
    simp only [List.mem_append] at hw
    have one : ∀ (c : Prop) [Decidable c] (u : Str), u ≠ [] → w ∈ (if c then [] else [u]) → w ≠ [] := by
      intro c _ u hu hw
      split at hw
      · simp at hw
      · simp only [List.mem_singleton] at hw; rw [hw]; exact hu
    rcases hw with (((hw | hw) | hw) | hw) | hw
    · exact one _ _ (by decide) hw
    · exact one _ _ (by decide) hw
    · exact one _ _ (by decide) hw
    · exact one _ _ (by decide) hw
    · exact one _ _ (by decide) hw

/-- **C108.**  `get_datasetmatrix` returns the matrix of that name, and raises `ValueError` exactly for the other
names. -/
theorem get_matrix_exact (t : Three) (label : Str) :
    getMatrix t "full".toList = .ok t.full ∧ getMatrix t "train".toList = .ok t.train ∧
    getMatrix t "test".toList = .ok t.test ∧
    (label ∉ ["full".toList, "train".toList, "test".toList] → getMatrix t label = .error .valueError) := by
  refine ⟨rfl, rfl, rfl, ?_⟩
  intro h
  simp only [List.mem_cons, List.not_mem_nil, or_false, not_or] at h
  unfold getMatrix
  rw [if_neg h.1, if_neg h.2.1, if_neg h.2.2]

/-! ## Example -/

/-- (Example.) -/
def exA : DM := ⟨['a'], ⟨.csc, 1, [[1], [2]]⟩, ⟨.csc, 1, [[0], [0]]⟩, [['r'], ['s']], [['x']], [['y']], true⟩

/-- (Example.) Another cell and other column labels. -/
def exB : DM := { exA with label := ['b'], X := ⟨.csr, 1, [[1], [3]]⟩, colLabelsX := [['z']] }

example : diff exA exB = "column_labels_X X".toList ∧ datasetEq exA exB = false := by decide +kernel

end Compare
end Mbtk.Dataset
