import Verif.Data.Align
/-!
# Histories of operations on a dataset (C39)
-/
namespace Mbtk.Dataset
open Spec

/-- The operations of a `DatasetMatrix` that change it or derive a new one from it.
DatasetMatrix.py 265-457, 522-556. -/
inductive Op where
  | deleteRow (r : Int)
  | keepRows (rows : List Int)
  | deleteColumnsX (cols : List Int)
  | deleteColumnsY (cols : List Int)
  | deleteColumnX (c : Int)
  | deleteColumnY (c : Int)
  | finalize
  | unfinalize
  | selectRows (rows : List Int) (newLabel : Str)
  | selectColumnsX (cols : List Int) (newLabel : Str)

/-- One operation.  After `select_rows` and `select_columns_X` the user goes on with the new
dataset; a call that raised has been caught. DatasetMatrix.py 265-457, 522-556. -/
def step (d : DM) : Op → DM
  | .deleteRow r => (deleteRow d r).1
  | .keepRows l => (keepRows d l).1
  | .deleteColumnsX l => (deleteColumnsX d l).1
  | .deleteColumnsY l => (deleteColumnsY d l).1
  | .deleteColumnX c => (deleteColumnX d c).1
  | .deleteColumnY c => (deleteColumnY d c).1
  | .finalize => (Mbtk.Dataset.finalize d).1
  | .unfinalize => (Mbtk.Dataset.unfinalize d).1
  | .selectRows l n => match selectRows d l n with
    | .ok d' => d'
    | .error _ => d
  | .selectColumnsX l n => match selectColumnsX d l n with
    | .ok d' => d'
    | .error _ => d

/-- A history of operations. DatasetMatrix.py 265-457, 522-556, several calls. -/
def runOps (d : DM) (ops : List Op) : DM := ops.foldl step d

namespace Spec

/-- The arguments for which the in-place operations on several rows or columns are meant:
`keep_rows` with strictly increasing valid row indices (or an empty list, which it refuses),
`delete_columns_*` without negative indices.  All other operations take any argument.
(Specification.) -/
def Meant (d : DM) : Op → Prop
  | .keepRows l => l.Pairwise (· < ·) ∧ ∀ i ∈ l, 0 ≤ i ∧ i < d.rowLabels.length
  | .deleteColumnsX l => ∀ i ∈ l, 0 ≤ i
  | .deleteColumnsY l => ∀ i ∈ l, 0 ≤ i
  | _ => True

/-- Every operation of the history has meant arguments. (Specification.) -/
def MeantAll (d : DM) : List Op → Prop
  | [] => True
  | op :: ops => Meant d op ∧ MeantAll (step d op) ops

/-- Every sample of `t'` is a sample of `t`: it has the same label, and each of its values has
the label and the value it has in that sample of `t`. (Specification.) -/
structure DerivedFrom (t' t : Table) : Prop where
  samples : ∀ s' ∈ t'.samples, ∃ s ∈ t.samples, s'.label = s.label ∧
    (∀ x ∈ s'.features, x ∈ s.features) ∧ (∀ y ∈ s'.objectives, y ∈ s.objectives)
  features : ∀ l ∈ t'.features, l ∈ t.features
  objectives : ∀ l ∈ t'.objectives, l ∈ t.objectives

/-- The values of every sample carry exactly the labels of the table. (Specification.) -/
def Labelled (t : Table) : Prop :=
  ∀ s ∈ t.samples, s.features.map Prod.fst = t.features ∧ s.objectives.map Prod.fst = t.objectives

end Spec

theorem DerivedFrom.refl (t : Table) : DerivedFrom t t :=
  ⟨fun s hs => ⟨s, hs, rfl, fun _ h => h, fun _ h => h⟩, fun _ h => h, fun _ h => h⟩

theorem DerivedFrom.trans {a b c : Table} (h1 : DerivedFrom a b) (h2 : DerivedFrom b c) :
    DerivedFrom a c := by
  refine ⟨?_, fun l hl => h2.features l (h1.features l hl),
    fun l hl => h2.objectives l (h1.objectives l hl)⟩
  intro s hs
  obtain ⟨s1, hs1, e1, f1, g1⟩ := h1.samples s hs
  obtain ⟨s2, hs2, e2, f2, g2⟩ := h2.samples s1 hs1
  exact ⟨s2, hs2, e1.trans e2, fun x hx => f2 x (f1 x hx), fun y hy => g2 y (g1 y hy)⟩

theorem derived_keepSamples (ps : List Nat) (t : Table) : DerivedFrom (keepSamples ps t) t :=
  ⟨fun s hs => ⟨s, elementsAt_mem hs, rfl, fun _ h => h, fun _ h => h⟩, fun _ h => h, fun _ h => h⟩

theorem derived_dropSample (p : Nat) (t : Table) : DerivedFrom (dropSample p t) t :=
  ⟨fun s hs => ⟨s, List.mem_of_mem_eraseIdx hs, rfl, fun _ h => h, fun _ h => h⟩,
    fun _ h => h, fun _ h => h⟩

theorem dropAt_mem {α : Type} {l : List α} {ps : List Nat} {x : α} (h : x ∈ dropAt l ps) : x ∈ l :=
  elementsAt_mem h

theorem derived_dropFeatures (ps : List Nat) (t : Table) : DerivedFrom (dropFeatures ps t) t := by
  refine ⟨?_, fun l hl => dropAt_mem hl, fun _ h => h⟩
  intro s' hs'
  obtain ⟨s, hs, rfl⟩ := List.mem_map.1 hs'
  exact ⟨s, hs, rfl, fun x hx => dropAt_mem hx, fun _ h => h⟩

theorem derived_dropObjectives (ps : List Nat) (t : Table) :
    DerivedFrom (dropObjectives ps t) t := by
  refine ⟨?_, fun _ h => h, fun l hl => dropAt_mem hl⟩
  intro s' hs'
  obtain ⟨s, hs, rfl⟩ := List.mem_map.1 hs'
  exact ⟨s, hs, rfl, fun _ h => h, fun x hx => dropAt_mem hx⟩

theorem derived_keepFeatures (ps : List Nat) (t : Table) : DerivedFrom (keepFeatures ps t) t := by
  refine ⟨?_, fun l hl => elementsAt_mem hl, fun _ h => h⟩
  intro s' hs'
  obtain ⟨s, hs, rfl⟩ := List.mem_map.1 hs'
  exact ⟨s, hs, rfl, fun x hx => elementsAt_mem hx, fun _ h => h⟩

theorem labelled_of_shaped {d : DM} (h : WellShaped d) : Labelled (table d) := by
  intro s hs
  obtain ⟨⟨l, x, y⟩, hp, rfl⟩ := List.mem_map.1 hs
  have hx := (List.of_mem_zip (List.of_mem_zip hp).2).1
  have hy := (List.of_mem_zip (List.of_mem_zip hp).2).2
  refine ⟨?_, ?_⟩
  · exact List.map_fst_zip (by rw [h.rectX x hx, h.colsX])
  · exact List.map_fst_zip (by rw [h.rectY y hy, h.colsY])

theorem exists_index_or_not (n : Nat) (i : Int) :
    (∃ p, IndexMeans n i p) ∨ ∀ p, ¬ IndexMeans n i p := by
  by_cases h : ∃ p, IndexMeans n i p
  · exact .inl h
  · exact .inr (not_exists.1 h)

theorem positions_or_not (n : Nat) (is : List Int) :
    (∃ ps, List.Forall₂ (IndexMeans n) is ps) ∨ ∃ i ∈ is, ∀ p, ¬ IndexMeans n i p := by
  cases hp : pyPositions n is with
  | ok ps => exact .inl ⟨ps, (pyPositions_ok_iff _ _ _).1 hp⟩
  | error e => exact .inr (pyPositions_error hp).2

theorem step_ok (d : DM) (h : WellShaped d) (op : Op) (hm : Meant d op) :
    WellShaped (step d op) ∧ DerivedFrom (table (step d op)) (table d) := by
  have same : WellShaped d ∧ DerivedFrom (table d) (table d) := ⟨h, DerivedFrom.refl _⟩
  have hfin : d.final = true ∨ d.final = false := by cases d.final <;> simp
  have hfmt : d.X.format = .csc ∨ d.X.format = .csr := by cases d.X.format <;> simp
  cases op with
  | deleteRow r =>
    obtain ⟨a1, a2, a3, a4⟩ := delete_row_aligned d h r
    simp only [step]
    rcases hfin with hfin | hfin
    · rw [a1 hfin]; exact same
    rcases hfmt with hf | hf
    · rw [a2 hfin hf]; exact same
    rcases exists_index_or_not d.rowLabels.length r with ⟨p, hp⟩ | hno
    · obtain ⟨d', e, hw, _, _, _, ht⟩ := a4 hfin hf p hp
      rw [e]; exact ⟨hw, ht ▸ derived_dropSample p _⟩
    · rw [a3 hfin hf hno]; exact same
  | keepRows l =>
    obtain ⟨a1, a2, a3, a4⟩ := keep_rows_aligned d h l
    simp only [step]
    rcases hfin with hfin | hfin
    · rw [a1 hfin]; exact same
    by_cases hl : l = []
    · rw [a2 hfin hl]; exact same
    rcases hfmt with hf | hf
    · rw [a3 hfin hl hf]; exact same
    obtain ⟨d', e, hw, _, _, _, ht⟩ := a4 hfin hl hf hm
    rw [e]; exact ⟨hw, ht ▸ derived_keepSamples _ _⟩
  | deleteColumnsX l =>
    obtain ⟨a1, a2, a3, a4⟩ := delete_columns_X_aligned d h l
    simp only [step]
    rcases hfin with hfin | hfin
    · rw [a1 hfin]; exact same
    rcases hfmt with hf | hf
    · rw [a2 hfin hf]; exact same
    by_cases hv : ValidColumns d.colLabelsX.length l
    · obtain ⟨d', e, hw, _, _, _, ht⟩ := a4 hfin hf hv
      rw [e]; exact ⟨hw, ht ▸ derived_dropFeatures _ _⟩
    · unfold ValidColumns at hv
      push Not at hv
      obtain ⟨i, hi, hno⟩ := hv
      rw [a3 hfin hf ⟨i, hi, fun p ⟨hp, hc⟩ => by
        have := hm i hi
        have := hno this
        rcases hc with hc | hc <;> omega⟩]
      exact same
  | deleteColumnsY l =>
    obtain ⟨a1, a2, a3, a4⟩ := delete_columns_Y_aligned d h l
    simp only [step]
    rcases hfin with hfin | hfin
    · rw [a1 hfin]; exact same
    rcases hfmt with hf | hf
    · rw [a2 hfin hf]; exact same
    by_cases hv : ValidColumns d.colLabelsY.length l
    · obtain ⟨d', e, hw, _, _, _, ht⟩ := a4 hfin hf hv
      rw [e]; exact ⟨hw, ht ▸ derived_dropObjectives _ _⟩
    · unfold ValidColumns at hv
      push Not at hv
      obtain ⟨i, hi, hno⟩ := hv
      rw [a3 hfin hf ⟨i, hi, fun p ⟨hp, hc⟩ => by
        have := hm i hi
        have := hno this
        rcases hc with hc | hc <;> omega⟩]
      exact same
  | deleteColumnX c =>
    obtain ⟨a1, a2, a3, a4⟩ := delete_column_X_aligned d h c
    simp only [step]
    rcases hfin with hfin | hfin
    · rw [a1 hfin]; exact same
    rcases hfmt with hf | hf
    · rw [a2 hfin hf]; exact same
    rcases exists_index_or_not d.colLabelsX.length c with ⟨p, hp⟩ | hno
    · obtain ⟨d', e, hw, _, _, _, ht⟩ := a4 hfin hf p hp
      rw [e]; exact ⟨hw, ht ▸ derived_dropFeatures _ _⟩
    · rw [a3 hfin hf hno]; exact same
  | deleteColumnY c =>
    obtain ⟨a1, a2, a3, a4⟩ := delete_column_Y_aligned d h c
    simp only [step]
    rcases hfin with hfin | hfin
    · rw [a1 hfin]; exact same
    rcases hfmt with hf | hf
    · rw [a2 hfin hf]; exact same
    rcases exists_index_or_not d.colLabelsY.length c with ⟨p, hp⟩ | hno
    · obtain ⟨d', e, hw, _, _, _, ht⟩ := a4 hfin hf p hp
      rw [e]; exact ⟨hw, ht ▸ derived_dropObjectives _ _⟩
    · rw [a3 hfin hf hno]; exact same
  | finalize =>
    simp only [step, Mbtk.Dataset.finalize]
    split
    · exact same
    · exact ⟨⟨h.rowsX, h.rowsY, h.colsX, h.colsY, h.rectX, h.rectY, rfl⟩, DerivedFrom.refl _⟩
  | unfinalize =>
    exact ⟨⟨h.rowsX, h.rowsY, h.colsX, h.colsY, h.rectX, h.rectY, rfl⟩, DerivedFrom.refl _⟩
  | selectRows l n =>
    obtain ⟨a1, a2, a3⟩ := select_rows_aligned d h l n
    simp only [step]
    by_cases hl : l = []
    · rw [a1 hl]; exact same
    rcases positions_or_not d.rowLabels.length (l.insertionSort (· ≤ ·)) with ⟨ps, hps⟩ | ⟨i, hi, hno⟩
    · obtain ⟨d', e, hw, _, _, _, ht⟩ := a3 hl ps hps
      rw [e]; exact ⟨hw, ht ▸ derived_keepSamples _ _⟩
    · rw [a2 ⟨i, (sort_mem l i).1 hi, hno⟩]; exact same
  | selectColumnsX l n =>
    obtain ⟨a1, a2, a3⟩ := select_columns_X_aligned d h l n
    simp only [step]
    by_cases hl : l = []
    · rw [a1 hl]; exact same
    rcases positions_or_not d.colLabelsX.length (l.insertionSort (· ≤ ·)) with ⟨ps, hps⟩ | ⟨i, hi, hno⟩
    · obtain ⟨d', e, hw, _, _, _, ht⟩ := a3 hl ps hps
      rw [e]; exact ⟨hw, ht ▸ derived_keepFeatures _ _⟩
    · rw [a2 ⟨i, (sort_mem l i).1 hi, hno⟩]; exact same

/-- **C39.** After any history of operations with meant arguments (raising calls included) the
dataset is well shaped, every value carries the label of its column, and every sample is a
sample of the original dataset: same label, and each of its values has the label and the value
it had there. -/
theorem dataset_history_aligned (d : DM) (h : WellShaped d) (ops : List Op)
    (hm : MeantAll d ops) :
    WellShaped (runOps d ops) ∧ Labelled (table (runOps d ops)) ∧
      DerivedFrom (table (runOps d ops)) (table d) := by
  have key : WellShaped (runOps d ops) ∧ DerivedFrom (table (runOps d ops)) (table d) := by
    unfold runOps
    induction ops generalizing d with
    | nil => exact ⟨h, DerivedFrom.refl _⟩
    | cons op ops ih =>
      obtain ⟨hw, hd⟩ := step_ok d h op hm.1
      obtain ⟨hw', hd'⟩ := ih (step d op) hw hm.2
      exact ⟨hw', DerivedFrom.trans hd' hd⟩
  exact ⟨key.1, labelled_of_shaped key.1, key.2⟩

namespace Spec
/-- The operations that change a dataset in place. (Specification.) -/
def InPlace : Op → Prop
  | .deleteRow _ | .keepRows _ | .deleteColumnsX _ | .deleteColumnsY _ | .deleteColumnX _
  | .deleteColumnY _ | .finalize => True
  | _ => False
end Spec

/-- **C39, finalized datasets.** No history of in-place operations, with any arguments, changes
a finalized dataset. -/
theorem finalized_is_frozen (d : DM) (hfin : d.final = true) (ops : List Op)
    (hops : ∀ op ∈ ops, InPlace op) : runOps d ops = d := by
  unfold runOps
  induction ops with
  | nil => rfl
  | cons op ops ih =>
    have : step d op = d := by
      have := hops op (by simp)
      cases op <;> simp only [InPlace] at this <;>
        simp only [step, deleteRow, keepRows, deleteColumnsX, deleteColumnsY, deleteColumnX,
          deleteColumnY, Mbtk.Dataset.finalize, hfin, if_true]
    rw [List.foldl_cons, this]
    exact ih (fun op hop => hops op (by simp [hop]))

/-- **C39, finalized datasets.** Every deletion on a finalized dataset raises
`DatasetMatrixFinalizedError`, whatever its arguments. -/
theorem finalized_deletion_raises (d : DM) (hfin : d.final = true) (r c : Int) (l : List Int) :
    ∀ o ∈ [deleteRow d r, keepRows d l, deleteColumnsX d l, deleteColumnsY d l, deleteColumnX d c,
      deleteColumnY d c], o = (d, some (.custom "DatasetMatrixFinalizedError")) := by
  simp [deleteRow, keepRows, deleteColumnsX, deleteColumnsY, deleteColumnX, deleteColumnY, hfin,
    finalizedError]

/-- **C39, finalized datasets.** `finalize` and `unfinalize` never raise and change no sample, value or
label, only whether the dataset is final; after `unfinalize` every row with a valid index can be deleted,
even if the dataset was final before. -/
theorem finalize_unfinalize (d : DM) (h : WellShaped d) :
    (finalize d).2 = none ∧ (finalize d).1.final = true ∧ table (finalize d).1 = table d ∧
    (finalize d).1.label = d.label ∧
    (unfinalize d).2 = none ∧ (unfinalize d).1.final = false ∧ table (unfinalize d).1 = table d ∧
    (unfinalize d).1.label = d.label ∧
    ∀ r p, IndexMeans d.rowLabels.length r p →
      ∃ d', deleteRow (unfinalize d).1 r = (d', none) ∧ WellShaped d' ∧
        table d' = dropSample p (table d) := by
  refine ⟨?_, ?_, ?_, ?_, rfl, rfl, rfl, rfl, ?_⟩
  · unfold finalize; split <;> rfl
  · unfold finalize
    by_cases hf : d.final = true
    · rw [if_pos hf]; exact hf
    · rw [if_neg hf]
  · unfold finalize; split <;> rfl
  · unfold finalize; split <;> rfl
  · intro r p hp
    have hw : WellShaped (unfinalize d).1 :=
      ⟨h.rowsX, h.rowsY, h.colsX, h.colsY, h.rectX, h.rectY, rfl⟩
    obtain ⟨d', e, hw', _, _, _, ht⟩ := (delete_row_aligned (unfinalize d).1 hw r).2.2.2 rfl rfl p hp
    exact ⟨d', e, hw', ht⟩

/-! ## Witness and findings -/

/-- A dataset with three samples, two features and one objective. (Example.) -/
def exDM : DM where
  label := "d".toList
  X := ⟨.csr, 2, [[1, 2], [3, 4], [5, 6]]⟩
  Y := ⟨.csr, 1, [[7], [8], [9]]⟩
  rowLabels := ["r0".toList, "r1".toList, "r2".toList]
  colLabelsX := ["a".toList, "b".toList]
  colLabelsY := ["y".toList]
  final := false

theorem exDM_shaped : WellShaped exDM := by
  refine ⟨rfl, rfl, rfl, rfl, ?_, ?_, rfl⟩ <;> decide

/-- The hypotheses of `finalize_unfinalize` are met. -/
example : ∃ d', deleteRow (unfinalize (finalize exDM).1).1 (-1) = (d', none) ∧
    (table d').samples.map (·.label) = ["r0".toList, "r1".toList] := by
  have h : WellShaped (finalize exDM).1 := by
    refine ⟨rfl, rfl, rfl, rfl, ?_, ?_, rfl⟩ <;> decide
  obtain ⟨d', e, _, ht⟩ := (finalize_unfinalize _ h).2.2.2.2.2.2.2.2 (-1) 2 ⟨by decide, .inr (by decide)⟩
  exact ⟨d', e, by rw [ht]; decide⟩

/-- A history meeting the hypotheses of `dataset_history_aligned`. -/
example : MeantAll exDM [.keepRows [0, 2], .deleteColumnX (-1), .selectRows [1, 0, -2] [],
    .deleteRow 7, .finalize, .deleteRow 0] ∧
    (table (runOps exDM [.keepRows [0, 2], .deleteColumnX (-1), .selectRows [1, 0, -2] [],
      .deleteRow 7, .finalize, .deleteRow 0])).samples.map (·.label) =
        ["r0".toList, "r0".toList, "r2".toList] := by
  refine ⟨⟨⟨by decide, by decide⟩, trivial, trivial, trivial, trivial, trivial, trivial⟩, by decide⟩

/-- **Finding (C39).** `keep_rows` with unsorted indices swaps the labels: the rows stay in
their original order while the labels follow the argument. -/
theorem keep_rows_unsorted_misaligns :
    (table (keepRows exDM [2, 0]).1).samples.map (fun s => (s.label, s.features.map Prod.snd)) =
      [("r2".toList, [1, 2]), ("r0".toList, [5, 6])] ∧ (keepRows exDM [2, 0]).2 = none := by decide

/-- **Finding (C39).** `keep_rows` with a repeated index leaves more labels than rows. -/
theorem keep_rows_repeated_misshapen :
    (keepRows exDM [0, 0]).1.rowLabels.length = 2 ∧ (keepRows exDM [0, 0]).1.X.rows.length = 1 ∧
      (keepRows exDM [0, 0]).2 = none := by decide

/-- **Finding (C39).** `keep_rows` with an index out of range raises `IndexError` after it has
deleted rows from both matrices: the labels no longer fit. -/
theorem keep_rows_out_of_range_corrupts :
    (keepRows exDM [0, 9]).2 = some .indexError ∧ (keepRows exDM [0, 9]).1.X.rows = [[1, 2]] ∧
      (keepRows exDM [0, 9]).1.rowLabels.length = 3 := by decide

/-- **Finding (C39).** `keep_rows` with a negative index deletes the row it names and keeps its
label. -/
theorem keep_rows_negative_corrupts :
    (keepRows exDM [-1]).2 = none ∧ (keepRows exDM [-1]).1.X.rows = [] ∧
      (keepRows exDM [-1]).1.rowLabels = ["r2".toList] := by decide

/-- **Finding (C39).** `delete_columns_X` with a negative index deletes the column but not its
label, in general: the result is never well shaped. -/
theorem delete_columns_negative_corrupts (d : DM) (h : WellShaped d) (hfin : d.final = false)
    (hf : d.X.format = .csr) (c : Int) (p : Nat) (hc : c < 0)
    (hp : IndexMeans d.colLabelsX.length c p) :
    ∃ d', deleteColumnsX d [c] = (d', none) ∧ d'.colLabelsX = d.colLabelsX ∧
      d'.X.ncols + 1 = d.X.ncols ∧ ¬ WellShaped d' := by
  have hps : pyPositions d.X.ncols [c] = .ok [p] := by
    rw [h.colsX]; exact (pyPositions_ok_iff _ _ _).2 (.cons hp .nil)
  have hlab : labelsNotIn d.colLabelsX [c] = d.colLabelsX := by
    unfold labelsNotIn
    rw [List.filter_eq_self.2, List.zipIdx_map_fst]
    intro q _
    simp only [List.mem_singleton, decide_eq_true_eq]
    omega
  have hn : (dropAt (List.range d.X.ncols) [p]).length + 1 = d.X.ncols := by
    rw [← eraseIdx_eq_dropAt, List.length_eraseIdx, List.length_range, if_pos (by rw [h.colsX]; exact hp.1)]
    have := hp.1
    rw [← h.colsX] at this
    omega
  refine ⟨{ d with X := ⟨.csr, (dropAt (List.range d.X.ncols) [p]).length,
    d.X.rows.map (fun row => dropAt row [p])⟩, colLabelsX := d.colLabelsX }, ?_, rfl, hn, ?_⟩
  · unfold deleteColumnsX
    have hs : ([c] : List Int).insertionSort (· ≤ ·) = [c] := rfl
    rw [if_neg (by simp [hfin]), hs, deleteRowsCols_cols hf hps, hlab]
    rfl
  · intro hw
    have h1 := hw.colsX
    have h2 := h.colsX
    simp only at h1
    omega

/-- The hypotheses are met: the last column of the example. -/
example : ∃ d', deleteColumnsX exDM [-1] = (d', none) ∧ ¬ WellShaped d' := by
  obtain ⟨d', h1, _, _, h2⟩ := delete_columns_negative_corrupts exDM exDM_shaped rfl rfl (-1) 1
    (by decide) ⟨by decide, .inr (by decide)⟩
  exact ⟨d', h1, h2⟩

/-- **Finding (C39).** A dataset selected from a finalized one is not final, but every deletion
from it raises `ValueError`, because it is still in CSC format. -/
theorem selected_from_final_cannot_delete (d : DM) (h : WellShaped d) (hf : d.X.format = .csc)
    (rows : List Int) (n : Str) (d' : DM) (e : selectRows d rows n = .ok d') (r : Int) :
    d'.final = false ∧ deleteRow d' r = (d', some .valueError) := by
  obtain ⟨a1, a2, a3⟩ := select_rows_aligned d h rows n
  by_cases hl : rows = []
  · rw [a1 hl] at e; cases e
  rcases positions_or_not d.rowLabels.length (rows.insertionSort (· ≤ ·)) with ⟨ps, hps⟩ | ⟨i, hi, hno⟩
  · obtain ⟨d'', e', hw, hfin, hf', _, _⟩ := a3 hl ps hps
    rw [e] at e'
    cases e'
    exact ⟨hfin, (delete_row_aligned d' hw r).2.1 hfin (by rw [hf', hf])⟩
  · rw [a2 ⟨i, (sort_mem rows i).1 hi, hno⟩] at e; cases e

/-- The hypotheses are met by the finalized example. -/
example : ∃ d', selectRows (finalize exDM).1 [0] [] = .ok d' ∧
    deleteRow d' 0 = (d', some .valueError) := ⟨_, rfl, by decide⟩

end Mbtk.Dataset
