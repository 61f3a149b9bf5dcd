import Verif.Data.History
import Mathlib.Data.List.Dedup
/-!
# Reading columns and variables of a dataset (C60)
-/
namespace Mbtk.Dataset
open Spec

/-- The argument `matrix_label`. DatasetMatrix.py 75-91. -/
inductive Which where
  | x | y
  /-- anything that is neither `"X"` nor `"Y"` -/
  | other
  deriving DecidableEq, Repr

/-- `get_column(matrix_label, column)`: DatasetMatrix.py 104-125. -/
def getColumn (d : DM) (w : Which) (c : Int) : Except Err (List Int) :=
  match w with
  | .x => d.X.column c
  | .y => d.Y.column c
  | .other => .error .valueError

/-- `get_column_by_label(matrix_label, column_label)`: DatasetMatrix.py 128-137. -/
def getColumnByLabel (d : DM) (w : Which) (l : Str) : Except Err (List Int) :=
  match w with
  | .x => columnByLabel d.X d.colLabelsX l
  | .y => columnByLabel d.Y d.colLabelsY l
  | .other => .error .valueError

/-- `numpy.unique(column)`: the distinct values in increasing order.
DatasetMatrix.py 243-262, Variable.py 39-42. -/
def unique (l : List Int) : List Int := l.dedup.insertionSort (· ≤ ·)

/-- The loop of `get_values_per_column`: DatasetMatrix.py 256-260. -/
def valuesLoop (m : Matrix) : List Nat → Except Err (List (List Int))
  | [] => .ok []
  | c :: cs => match m.column c with
    | .error e => .error e
    | .ok col => match valuesLoop m cs with
      | .error e => .error e
      | .ok rest => .ok (unique col :: rest)

/-- `get_values_per_column(matrix_label)`: DatasetMatrix.py 243-262. -/
def valuesPerColumn (d : DM) (w : Which) : Except Err (List (List Int)) :=
  match w with
  | .x => valuesLoop d.X (List.range d.X.ncols)
  | .y => valuesLoop d.Y (List.range d.Y.ncols)
  | .other => .error .valueError

/-- A `Variable` made by `get_variable`: DatasetMatrix.py 218-222 and Variable.py 12-45.  The
getter is bound to the dataset object, not to its present content. -/
structure Var where
  which : Which
  column : Int
  name : Str
  /-- `instances_list`; `None` until the instances are loaded -/
  loaded : Option (List Int)
  deriving DecidableEq, Repr

/-- `labels[i]` DatasetMatrix.py 186-222. -/
def labelAt (labels : List Str) (i : Int) : Except Err Str :=
  match pyPos labels.length i with
  | .error e => .error e
  | .ok p => match labels[p]? with
    | none => .error .indexError
    | some l => .ok l

/-- `get_variable(matrix_label, column)`: DatasetMatrix.py 186-222. -/
def getVariable (d : DM) (w : Which) (c : Int) : Except Err Var :=
  match w with
  | .x => (labelAt d.colLabelsX c).map (fun l => ⟨.x, c, l, none⟩)
  | .y => (labelAt d.colLabelsY c).map (fun l => ⟨.y, c, l, none⟩)
  | .other => .error .valueError

/-- `variable.instances()` when the dataset object is `d`: Variable.py 31-40. -/
def Var.instances (v : Var) (d : DM) : Except Err (List Int) × Var :=
  match v.loaded with
  | some l => (.ok l, v)
  | none => match getColumn d v.which v.column with
    | .ok l => (.ok l, { v with loaded := some l })
    | .error e => (.error e, v)

/-- What can happen to a dataset object and a variable made from it.
A read is Variable.py 28-36; an operation is a method of DatasetMatrix.py. -/
inductive VarEvent where
  /-- an operation on the dataset object; `select_*` leave the object as it is -/
  | op (o : Op)
  /-- `variable.instances()` -/
  | read

/-- The dataset object after an operation.
The methods of DatasetMatrix.py that change the object, 265-457. -/
def stepObject (d : DM) : Op → DM
  | .selectRows _ _ => d
  | .selectColumnsX _ _ => d
  | o => step d o

/-- The results of the reads in a history. Variable.py 28-36. -/
def Var.reads (v : Var) (d : DM) : List VarEvent → List (Except Err (List Int))
  | [] => []
  | .op o :: es => v.reads (stepObject d o) es
  | .read :: es => (v.instances d).1 :: (v.instances d).2.reads d es

namespace Spec

/-- The labels of the features or of the objectives. (Specification.) -/
def labelsOf (t : Table) : Which → List Str
  | .x => t.features
  | .y => t.objectives
  | .other => []

/-- The labelled values of a sample. (Specification.) -/
def valuesOf (s : Sample) : Which → List (Str × Int)
  | .x => s.features
  | .y => s.objectives
  | .other => []

/-- `col` lists, sample after sample, the value that stands at position `p` under the label `l`.
(Specification.) -/
def IsColumn (t : Table) (w : Which) (p : Nat) (l : Str) (col : List Int) : Prop :=
  (labelsOf t w)[p]? = some l ∧ List.Forall₂ (fun s v => (valuesOf s w)[p]? = some (l, v)) t.samples col

end Spec

theorem forall₂_zip_map {α β γ : Type} (a : List α) (b : List β) (g : α × β → γ) (f : β → Int)
    (P : γ → Int → Prop) (hlen : b.length = a.length) (h : ∀ x ∈ a.zip b, P (g x) (f x.2)) :
    List.Forall₂ P ((a.zip b).map g) (b.map f) := by
  induction a generalizing b with
  | nil =>
    cases b with
    | nil => exact .nil
    | cons _ _ => simp at hlen
  | cons x a ih =>
    cases b with
    | nil => simp at hlen
    | cons y b =>
      simp only [List.zip_cons_cons, List.map_cons]
      exact .cons (h (x, y) (by simp)) (ih b (by simpa using hlen) (fun z hz => h z (by simp [hz])))

theorem column_x {d : DM} (h : WellShaped d) {c : Int} {p : Nat} (hp : IndexMeans d.colLabelsX.length c p) :
    ∃ l col, d.X.column c = .ok col ∧ IsColumn (table d) .x p l col := by
  have hpos : pyPos d.X.ncols c = .ok p := by rw [h.colsX]; exact (pyPos_ok_iff _ _ _).2 hp
  refine ⟨d.colLabelsX[p]'hp.1, d.X.rows.map (fun row => row.getD p 0), ?_, ?_, ?_⟩
  · show (pyPos d.X.ncols c >>= _) = _
    rw [hpos]; rfl
  · exact List.getElem?_eq_getElem hp.1
  · have e : d.X.rows.map (fun row => row.getD p 0)
        = (d.X.rows.zip d.Y.rows).map (fun q => q.1.getD p 0) := by
      conv_lhs => rw [← List.map_fst_zip (l₁ := d.X.rows) (l₂ := d.Y.rows) (by rw [h.rowsX, h.rowsY])]
      rw [List.map_map]; rfl
    rw [e]
    apply forall₂_zip_map (f := fun q : List Int × List Int => q.1.getD p 0)
    · simp [h.rowsX, h.rowsY]
    · intro q hq
      have hx := (List.of_mem_zip (List.of_mem_zip hq).2).1
      have hl : p < q.2.1.length := by rw [h.rectX _ hx, h.colsX]; exact hp.1
      simp only [valuesOf]
      rw [List.getElem?_eq_getElem (by simp; exact ⟨hp.1, hl⟩), List.getElem_zip,
        List.getD_eq_getElem?_getD, List.getElem?_eq_getElem hl]
      rfl

theorem column_y {d : DM} (h : WellShaped d) {c : Int} {p : Nat} (hp : IndexMeans d.colLabelsY.length c p) :
    ∃ l col, d.Y.column c = .ok col ∧ IsColumn (table d) .y p l col := by
  have hpos : pyPos d.Y.ncols c = .ok p := by rw [h.colsY]; exact (pyPos_ok_iff _ _ _).2 hp
  refine ⟨d.colLabelsY[p]'hp.1, d.Y.rows.map (fun row => row.getD p 0), ?_, ?_, ?_⟩
  · show (pyPos d.Y.ncols c >>= _) = _
    rw [hpos]; rfl
  · exact List.getElem?_eq_getElem hp.1
  · have e : d.Y.rows.map (fun row => row.getD p 0)
        = (d.X.rows.zip d.Y.rows).map (fun q => q.2.getD p 0) := by
      conv_lhs => rw [← List.map_snd_zip (l₁ := d.X.rows) (l₂ := d.Y.rows) (by rw [h.rowsX, h.rowsY])]
      rw [List.map_map]; rfl
    rw [e]
    apply forall₂_zip_map (f := fun q : List Int × List Int => q.2.getD p 0)
    · simp [h.rowsX, h.rowsY]
    · intro q hq
      have hy := (List.of_mem_zip (List.of_mem_zip hq).2).2
      have hl : p < q.2.2.length := by rw [h.rectY _ hy, h.colsY]; exact hp.1
      simp only [valuesOf]
      rw [List.getElem?_eq_getElem (by simp; exact ⟨hp.1, hl⟩), List.getElem_zip,
        List.getD_eq_getElem?_getD, List.getElem?_eq_getElem hl]
      rfl

theorem pyPos_not {n : Nat} {c : Int} (h : ∀ p, ¬ IndexMeans n c p) : pyPos n c = .error .indexError := by
  cases hp : pyPos n c with
  | ok p => exact absurd ((pyPos_ok_iff _ _ _).1 hp) (h p)
  | error e => rw [(pyPos_error hp).1]

/-- **C60.** A column of a well-shaped dataset, asked for by its index (from either end), lists
the values that the samples have under the label of that column; an index out of range raises
`IndexError`, an unknown matrix label `ValueError`. -/
theorem column_exact (d : DM) (h : WellShaped d) (w : Which) (hw : w ≠ .other) (c : Int) :
    (∀ p, IndexMeans (labelsOf (table d) w).length c p →
      ∃ l col, getColumn d w c = .ok col ∧ IsColumn (table d) w p l col) ∧
    ((∀ p, ¬ IndexMeans (labelsOf (table d) w).length c p) → getColumn d w c = .error .indexError) ∧
    getColumn d .other c = .error .valueError := by
  refine ⟨?_, ?_, rfl⟩
  · intro p hp
    cases w with
    | x => exact column_x h hp
    | y => exact column_y h hp
    | other => exact absurd rfl hw
  · intro hno
    cases w with
    | x =>
      show (pyPos d.X.ncols c >>= _) = _
      rw [h.colsX, pyPos_not (n := d.colLabelsX.length) hno]; rfl
    | y =>
      show (pyPos d.Y.ncols c >>= _) = _
      rw [h.colsY, pyPos_not (n := d.colLabelsY.length) hno]; rfl
    | other => exact absurd rfl hw

theorem columnByLabel_ok {m : Matrix} {labels : List Str} {l : Str} (h : l ∈ labels) :
    columnByLabel m labels l = m.column (labels.idxOf l : Nat) := by
  show (labelIndex labels l >>= _) = _
  rw [labelIndex, if_pos h]; rfl

/-- **C60.** A column asked for by its label is the first column with this label; a label that
does not exist raises `ValueError`. -/
theorem column_by_label_exact (d : DM) (h : WellShaped d) (w : Which) (l : Str) :
    (l ∈ labelsOf (table d) w → ∃ p col, getColumnByLabel d w l = .ok col ∧
      IsColumn (table d) w p l col ∧ ∀ q < p, (labelsOf (table d) w)[q]? ≠ some l) ∧
    (l ∉ labelsOf (table d) w → getColumnByLabel d w l = .error .valueError) := by
  have first : ∀ labels : List Str, ∀ q < labels.idxOf l, labels[q]? ≠ some l := by
    intro labels q hq he
    obtain ⟨hlt, e⟩ := List.getElem?_eq_some_iff.1 he
    have := List.not_of_lt_findIdx hq
    rw [e] at this
    simp at this
  have means : ∀ labels : List Str, l ∈ labels → IndexMeans labels.length (labels.idxOf l : Nat) (labels.idxOf l) :=
    fun labels hl => ⟨List.idxOf_lt_length_of_mem hl, .inl rfl⟩
  refine ⟨?_, ?_⟩
  · intro hl
    cases w with
    | x =>
      obtain ⟨l', col, e, hcol⟩ := column_x h (means _ hl)
      have hl' : l' = l := by
        have := hcol.1
        change d.colLabelsX[_]? = _ at this
        rw [List.getElem?_eq_getElem (means d.colLabelsX hl).1, List.getElem_idxOf] at this
        exact (Option.some.inj this).symm
      subst hl'
      exact ⟨_, col, (columnByLabel_ok (labels := d.colLabelsX) hl).trans e, hcol, first _⟩
    | y =>
      obtain ⟨l', col, e, hcol⟩ := column_y h (means _ hl)
      have hl' : l' = l := by
        have := hcol.1
        change d.colLabelsY[_]? = _ at this
        rw [List.getElem?_eq_getElem (means d.colLabelsY hl).1, List.getElem_idxOf] at this
        exact (Option.some.inj this).symm
      subst hl'
      exact ⟨_, col, (columnByLabel_ok (labels := d.colLabelsY) hl).trans e, hcol, first _⟩
    | other => simp [labelsOf] at hl
  · intro hl
    cases w with
    | x =>
      show (labelIndex d.colLabelsX l >>= _) = _
      have hl' : l ∉ d.colLabelsX := hl
      rw [labelIndex, if_neg hl']; rfl
    | y =>
      show (labelIndex d.colLabelsY l >>= _) = _
      have hl' : l ∉ d.colLabelsY := hl
      rw [labelIndex, if_neg hl']; rfl
    | other => rfl

theorem unique_spec (l : List Int) :
    (unique l).Pairwise (· < ·) ∧ ∀ v, v ∈ unique l ↔ v ∈ l := by
  refine ⟨?_, fun v => by rw [unique, List.mem_insertionSort, List.mem_dedup]⟩
  have h1 : (unique l).Pairwise (· ≤ ·) := List.pairwise_insertionSort (· ≤ ·) _
  have h2 : (unique l).Nodup := (List.perm_insertionSort _ _).nodup_iff.2 (List.nodup_dedup l)
  exact (h1.and h2).imp (fun ⟨a, b⟩ => lt_of_le_of_ne a b)

theorem valuesLoop_ok (m : Matrix) (cs : List Nat) (cols : Nat → List Int)
    (h : ∀ c ∈ cs, m.column (c : Nat) = .ok (cols c)) :
    valuesLoop m cs = .ok (cs.map (fun c => unique (cols c))) := by
  induction cs with
  | nil => rfl
  | cons c cs ih =>
    rw [valuesLoop, h c (by simp)]
    simp only []
    rw [ih (fun c hc => h c (by simp [hc]))]
    rfl

/-- **C60.** `get_values_per_column` gives one list per column: the distinct values of that
column in increasing order; a matrix label other than X and Y raises `ValueError`. -/
theorem values_per_column_exact (d : DM) (h : WellShaped d) (w : Which) :
    (w = .other → valuesPerColumn d w = .error .valueError) ∧ (w ≠ .other →
    ∃ vss, valuesPerColumn d w = .ok vss ∧ vss.length = (labelsOf (table d) w).length ∧
      ∀ p vs, vss[p]? = some vs → ∃ l col, IsColumn (table d) w p l col ∧
        vs.Pairwise (· < ·) ∧ ∀ v, v ∈ vs ↔ v ∈ col) := by
  refine ⟨by rintro rfl; rfl, fun hw => ?_⟩
  have key : ∀ (m : Matrix) (n : Nat), m.ncols = n →
      (∀ p < n, ∃ l col, m.column (p : Nat) = .ok col ∧ IsColumn (table d) w p l col) →
      ∃ vss, valuesLoop m (List.range m.ncols) = .ok vss ∧ vss.length = n ∧
        ∀ p vs, vss[p]? = some vs → ∃ l col, IsColumn (table d) w p l col ∧
          vs.Pairwise (· < ·) ∧ ∀ v, v ∈ vs ↔ v ∈ col := by
    intro m n hn hcol
    choose! ls cols hc using hcol
    refine ⟨(List.range n).map (fun c => unique (cols c)), ?_, by simp, ?_⟩
    · rw [hn]
      exact valuesLoop_ok m _ cols (fun c hc' => (hc c (by simpa using hc')).1)
    · intro p vs hvs
      rw [List.getElem?_map] at hvs
      obtain ⟨q, hq, rfl⟩ := Option.map_eq_some_iff.1 hvs
      obtain ⟨hlt, e⟩ := List.getElem?_eq_some_iff.1 hq
      rw [List.getElem_range] at e
      subst e
      have hlt' : p < n := by simpa using hlt
      exact ⟨ls p, cols p, (hc p hlt').2, unique_spec _⟩
  cases w with
  | x => exact key d.X _ h.colsX (fun p hp => column_x h ⟨hp, .inl rfl⟩)
  | y => exact key d.Y _ h.colsY (fun p hp => column_y h ⟨hp, .inl rfl⟩)
  | other => exact absurd rfl hw

/-! ## Lazily loaded variables -/

theorem labelAt_ok {labels : List Str} {c : Int} {p : Nat} {l : Str} (hp : IndexMeans labels.length c p)
    (hl : labels[p]? = some l) : labelAt labels c = .ok l := by
  rw [labelAt, (pyPos_ok_iff _ _ _).2 hp]
  simp only [hl]

theorem labelAt_cases {labels : List Str} {c : Int} {l : Str} (h : labelAt labels c = .ok l) :
    ∃ p, IndexMeans labels.length c p ∧ labels[p]? = some l := by
  unfold labelAt at h
  cases hp : pyPos labels.length c with
  | error e => rw [hp] at h; cases h
  | ok p =>
    rw [hp] at h
    simp only [] at h
    cases hl : labels[p]? with
    | none => rw [hl] at h; cases h
    | some l' =>
      rw [hl] at h
      cases h
      exact ⟨p, (pyPos_ok_iff _ _ _).1 hp, hl⟩

/-- **C60.** The variable at an index has the label of that column as its name, and is not loaded
yet. -/
theorem variable_named (d : DM) (w : Which) (c : Int) (v : Var) (e : getVariable d w c = .ok v) :
    v.which = w ∧ v.column = c ∧ v.loaded = none ∧ w ≠ .other ∧
      ∃ p, IndexMeans (labelsOf (table d) w).length c p ∧ (labelsOf (table d) w)[p]? = some v.name := by
  cases w with
  | x =>
    simp only [getVariable] at e
    cases hl : labelAt d.colLabelsX c with
    | error _ => rw [hl] at e; cases e
    | ok l => rw [hl] at e; cases e; exact ⟨rfl, rfl, rfl, by simp, labelAt_cases hl⟩
  | y =>
    simp only [getVariable] at e
    cases hl : labelAt d.colLabelsY c with
    | error _ => rw [hl] at e; cases e
    | ok l => rw [hl] at e; cases e; exact ⟨rfl, rfl, rfl, by simp, labelAt_cases hl⟩
  | other => cases e

theorem reads_loaded (v : Var) (col : List Int) (hv : v.loaded = some col) (d : DM) (es : List VarEvent) :
    ∀ r ∈ v.reads d es, r = .ok col := by
  induction es generalizing d with
  | nil => intro r hr; cases hr
  | cons ev es ih =>
    cases ev with
    | op o => exact ih (stepObject d o)
    | read =>
      intro r hr
      have e : v.instances d = (.ok col, v) := by rw [Var.instances, hv]
      rw [Var.reads, e] at hr
      rcases List.mem_cons.1 hr with rfl | hr
      · rfl
      · exact ih d r hr

/-- **C60.** Once a variable was read successfully, it gives the same instances for ever, whatever
happens to the dataset. -/
theorem variable_stable (v : Var) (d : DM) (col : List Int) (e : (v.instances d).1 = .ok col)
    (d' : DM) (es : List VarEvent) : ∀ r ∈ (v.instances d).2.reads d' es, r = .ok col := by
  apply reads_loaded
  unfold Var.instances at e ⊢
  cases hl : v.loaded with
  | some l => rw [hl] at e; cases e; exact hl
  | none =>
    rw [hl] at e
    simp only [] at e ⊢
    cases hc : getColumn d v.which v.column with
    | error _ => rw [hc] at e; cases e
    | ok l => rw [hc] at e; cases e; rfl

/-- **C60.** A variable made from a finalized dataset gives, in every history of reads and
operations on the dataset other than `unfinalize`, the values that the samples have under the name
of the variable. -/
theorem variable_of_final_exact (d : DM) (h : WellShaped d) (hfin : d.final = true) (w : Which)
    (c : Int) (v : Var) (e : getVariable d w c = .ok v) (es : List VarEvent)
    (hes : ∀ o, VarEvent.op o ∈ es → o ≠ .unfinalize) :
    ∃ p col, IsColumn (table d) w p v.name col ∧ ∀ r ∈ v.reads d es, r = .ok col := by
  obtain ⟨h1, h2, h3, hw, p, hp, hname⟩ := variable_named d w c v e
  obtain ⟨l, col, hcol, his⟩ := (column_exact d h w hw c).1 p hp
  have hl : l = v.name := Option.some.inj (his.1.symm.trans hname)
  subst hl
  refine ⟨p, col, his, ?_⟩
  have hread : v.instances d = (.ok col, { v with loaded := some col }) := by
    rw [Var.instances, h3, h1, h2, hcol]
  clear hname hp e
  induction es with
  | nil => intro r hr; cases hr
  | cons ev es ih =>
    cases ev with
    | op o =>
      have hstep : stepObject d o = d := by
        have hne := hes o (by simp)
        cases o <;> first
          | rfl
          | exact absurd rfl hne
          | simp [stepObject, step, deleteRow, keepRows, deleteColumnsX, deleteColumnsY, deleteColumnX,
              deleteColumnY, Mbtk.Dataset.finalize, hfin]
      rw [Var.reads, hstep]
      exact ih (fun o ho => hes o (by simp [ho]))
    | read =>
      intro r hr
      rw [Var.reads, hread] at hr
      rcases List.mem_cons.1 hr with rfl | hr
      · rfl
      · exact reads_loaded _ col rfl d es r hr

/-! ## Witnesses and findings -/

/-- Columns of the example by index, from the end and by label. -/
example : (getColumn exDM .x 1).toOption = some [2, 4, 6] ∧
    (getColumn exDM .x (-2)).toOption = some [1, 3, 5] ∧
    (getColumnByLabel exDM .x "b".toList).toOption = some [2, 4, 6] ∧
    (getColumnByLabel exDM .y "y".toList).toOption = some [7, 8, 9] ∧
    (valuesPerColumn exDM .x).toOption = some [[1, 3, 5], [2, 4, 6]] := by decide +kernel

/-- The hypotheses of `variable_of_final_exact` are met: a deletion is attempted between two reads. -/
example : ∃ v, getVariable (finalize exDM).1 .x 1 = .ok v ∧ v.name = "b".toList ∧
    (v.reads (finalize exDM).1 [.op (.deleteColumnX 0), .read, .op (.deleteRow 0), .read]).map
      Except.toOption = [some [2, 4, 6], some [2, 4, 6]] := ⟨⟨.x, 1, "b".toList, none⟩, by decide +kernel⟩

/-- **Finding (C60).** On a dataset that is not final the instances are loaded at the first read:
after the deletion of an earlier column the variable named `a` holds the values of `b`. -/
theorem lazy_variable_misnamed :
    ∃ v, getVariable exDM .x 0 = .ok v ∧ v.name = "a".toList ∧
      (v.reads exDM [.op (.deleteColumnX 0), .read]).map Except.toOption = [some [2, 4, 6]] ∧
      (getColumnByLabel exDM .x "b".toList).toOption = some [2, 4, 6] :=
  ⟨⟨.x, 0, "a".toList, none⟩, by decide +kernel⟩

end Mbtk.Dataset
