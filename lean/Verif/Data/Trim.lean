import Verif.Data.Split
/-!
# Trimming by thresholds (C42)
-/
namespace Mbtk.Dataset
open Spec

/-! ## Lists -/

theorem elementsAt_get {α : Type} (l : List α) (ks : List Nat) (h : ∀ k ∈ ks, k < l.length) (j : Nat) :
    (elementsAt l ks)[j]? = (ks[j]?).bind (fun k => l[k]?) := by
  induction ks generalizing j with
  | nil => simp [elementsAt]
  | cons k ks ih =>
    have hk := h k (by simp)
    have e : elementsAt l (k :: ks) = l[k] :: elementsAt l ks := by
      simp [elementsAt, List.getElem?_eq_getElem hk]
    rw [e]
    cases j with
    | zero => simp [List.getElem?_eq_getElem hk]
    | succ j => simpa using ih (fun x hx => h x (by simp [hx])) j

theorem elementsAt_elementsAt {α : Type} (l : List α) (ks js : List Nat) (h : ∀ k ∈ ks, k < l.length) :
    elementsAt (elementsAt l ks) js = elementsAt l (elementsAt ks js) := by
  induction js with
  | nil => simp [elementsAt]
  | cons j js ih =>
    have e1 : ∀ {β : Type} (m : List β), elementsAt m (j :: js) =
        (m[j]?).toList ++ elementsAt m js := by
      intro β m
      simp only [elementsAt, List.filterMap_cons]
      cases m[j]? <;> simp
    rw [e1, e1, elementsAt_append, ih, elementsAt_get l ks h]
    congr 1
    cases ks[j]? with
    | none => simp [elementsAt]
    | some k => simp only [Option.bind_some, Option.toList_some, elementsAt, List.filterMap_cons,
        List.filterMap_nil]; cases l[k]? <;> rfl

theorem dropAt_filter (ks cols : List Nat) (P : Nat → Bool)
    (h : ∀ j k, ks[j]? = some k → (j ∈ cols ↔ P k = false)) : dropAt ks cols = ks.filter P := by
  rw [← withoutPositions_eq]
  unfold withoutPositions
  have : ks.zipIdx.filter (fun p => decide (p.2 ∉ cols)) = ks.zipIdx.filter (fun p => P p.1) := by
    apply List.filter_congr
    rintro ⟨k, j⟩ hkj
    have := h j k (List.mem_zipIdx_iff_getElem?.1 hkj)
    by_cases hP : P k = true
    · simp [hP, this]
    · simp [this, Bool.eq_false_iff.2 hP]
  rw [this]
  conv_rhs => rw [← List.zipIdx_map_fst 0 ks]
  rw [List.filter_map]
  rfl

theorem dropAt_elementsAt {α : Type} (l : List α) (ks cols : List Nat) (hk : ∀ k ∈ ks, k < l.length)
    (P : Nat → Bool) (h : ∀ j k, ks[j]? = some k → (j ∈ cols ↔ P k = false)) :
    dropAt (elementsAt l ks) cols = elementsAt l (ks.filter P) := by
  rw [← dropAt_filter ks cols P h]
  unfold dropAt
  rw [elementsAt_elementsAt l ks _ hk, elementsAt_length l ks hk]

/-! ## Tables -/

theorem keepSamples_keepFeatures (ps ks : List Nat) (t : Table) :
    keepSamples ps (keepFeatures ks t) = keepFeatures ks (keepSamples ps t) := by
  simp [keepSamples, keepFeatures, elementsAt_map]

theorem keepSamples_keepObjectives (ps ks : List Nat) (t : Table) :
    keepSamples ps (keepObjectives ks t) = keepObjectives ks (keepSamples ps t) := by
  simp [keepSamples, keepObjectives, elementsAt_map]

theorem labelled_keepSamples {t : Table} (h : Labelled t) (ps : List Nat) :
    Labelled (keepSamples ps t) := fun s hs => h s (elementsAt_mem hs)

/-- Widths of the samples. -/
theorem labelled_lengths {t : Table} (h : Labelled t) {s : Sample} (hs : s ∈ t.samples) :
    s.features.length = t.features.length ∧ s.objectives.length = t.objectives.length := by
  have := h s hs
  rw [← this.1, ← this.2]; simp

/-- The table with the features `kx` and the objectives `ky` only. (Specification.) -/
def sub (kx ky : List Nat) (t : Table) : Table := keepObjectives ky (keepFeatures kx t)

theorem sub_samples (kx ky : List Nat) (t : Table) : (sub kx ky t).samples =
    t.samples.map (fun s => ⟨s.label, elementsAt s.features kx, elementsAt s.objectives ky⟩) := by
  simp [sub, keepObjectives, keepFeatures]

theorem keepSamples_sub (ps kx ky : List Nat) (t : Table) :
    keepSamples ps (sub kx ky t) = sub kx ky (keepSamples ps t) := by
  unfold sub; rw [keepSamples_keepObjectives, keepSamples_keepFeatures]

theorem sub_all {t : Table} (h : Labelled t) :
    sub (List.range t.features.length) (List.range t.objectives.length) t = t := by
  have e : (sub (List.range t.features.length) (List.range t.objectives.length) t).samples =
      t.samples := by
    rw [sub_samples]
    conv_rhs => rw [← List.map_id t.samples]
    apply List.map_congr_left
    intro s hs
    obtain ⟨h1, h2⟩ := labelled_lengths h hs
    rw [← h1, ← h2, elementsAt_all, elementsAt_all]; rfl
  obtain ⟨f, o, s⟩ := t
  simp only [sub, keepObjectives, keepFeatures, elementsAt_all] at e ⊢
  rw [e]

theorem dropFeatures_sub {t : Table} (h : Labelled t) (kx ky cols : List Nat)
    (hkx : ∀ k ∈ kx, k < t.features.length) (P : Nat → Bool)
    (hc : ∀ j k, kx[j]? = some k → (j ∈ cols ↔ P k = false)) :
    dropFeatures cols (sub kx ky t) = sub (kx.filter P) ky t := by
  have e : (sub kx ky t).samples.map (fun s => { s with features := dropAt s.features cols }) =
      (sub (kx.filter P) ky t).samples := by
    rw [sub_samples, sub_samples, List.map_map]
    apply List.map_congr_left
    intro s hs
    show Sample.mk _ (dropAt (elementsAt s.features kx) cols) _ = _
    rw [dropAt_elementsAt _ _ _ (by rw [(labelled_lengths h hs).1]; exact hkx) P hc]
  unfold dropFeatures
  rw [e]
  show Table.mk (dropAt (elementsAt t.features kx) cols) _ _ = _
  rw [dropAt_elementsAt _ _ _ hkx P hc]
  rfl

theorem dropObjectives_sub {t : Table} (h : Labelled t) (kx ky cols : List Nat)
    (hky : ∀ k ∈ ky, k < t.objectives.length) (P : Nat → Bool)
    (hc : ∀ j k, ky[j]? = some k → (j ∈ cols ↔ P k = false)) :
    dropObjectives cols (sub kx ky t) = sub kx (ky.filter P) t := by
  have e : (sub kx ky t).samples.map (fun s => { s with objectives := dropAt s.objectives cols }) =
      (sub kx (ky.filter P) t).samples := by
    rw [sub_samples, sub_samples, List.map_map]
    apply List.map_congr_left
    intro s hs
    show Sample.mk _ _ (dropAt (elementsAt s.objectives ky) cols) = _
    rw [dropAt_elementsAt _ _ _ (by rw [(labelled_lengths h hs).2]; exact hky) P hc]
  unfold dropObjectives
  rw [e]
  show Table.mk _ (dropAt (elementsAt t.objectives ky) cols) _ = _
  rw [dropAt_elementsAt _ _ _ hky P hc]
  rfl

/-! ## Shares -/

theorem zip_get_snd {α β : Type} (l : List α) (m : List β) (h : l.length = m.length) (c : Nat) :
    ((l.zip m)[c]?).map Prod.snd = m[c]? := by
  rw [← List.getElem?_map, List.map_snd_zip (by omega)]

theorem columnShare_X {d : DM} (h : WellShaped d) (c : Nat) :
    columnShare d.X c = share Sample.features (table d) c := by
  unfold columnShare share
  rw [table_samples_length h, h.rowsX]
  congr 3
  have e : (table d).samples.map (fun s => ((s.features[c]?).map Prod.snd).getD 0) =
      (d.rowLabels.zip (d.X.rows.zip d.Y.rows)).map (fun p => p.2.1.getD c 0) := by
    simp only [table, List.map_map]
    apply List.map_congr_left
    rintro ⟨l, x, y⟩ hp
    have hx := (List.of_mem_zip (List.of_mem_zip hp).2).1
    simp only [Function.comp]
    rw [zip_get_snd _ _ (by rw [h.rectX x hx, h.colsX])]
    simp [List.getD_eq_getElem?_getD]
  rw [e]
  have e2 : (d.rowLabels.zip (d.X.rows.zip d.Y.rows)).map (fun p => p.2.1.getD c 0) =
      (((d.rowLabels.zip (d.X.rows.zip d.Y.rows)).map Prod.snd).map Prod.fst).map
        (fun row => row.getD c 0) := by simp [List.map_map, Function.comp_def]
  rw [e2, List.map_snd_zip (by rw [List.length_zip, h.rowsX, h.rowsY]; omega),
    List.map_fst_zip (by rw [h.rowsX, h.rowsY])]

theorem columnShare_Y {d : DM} (h : WellShaped d) (c : Nat) :
    columnShare d.Y c = share Sample.objectives (table d) c := by
  unfold columnShare share
  rw [table_samples_length h, h.rowsY]
  congr 3
  have e : (table d).samples.map (fun s => ((s.objectives[c]?).map Prod.snd).getD 0) =
      (d.rowLabels.zip (d.X.rows.zip d.Y.rows)).map (fun p => p.2.2.getD c 0) := by
    simp only [table, List.map_map]
    apply List.map_congr_left
    rintro ⟨l, x, y⟩ hp
    have hy := (List.of_mem_zip (List.of_mem_zip hp).2).2
    simp only [Function.comp]
    rw [zip_get_snd _ _ (by rw [h.rectY y hy, h.colsY])]
    simp [List.getD_eq_getElem?_getD]
  rw [e]
  have e2 : (d.rowLabels.zip (d.X.rows.zip d.Y.rows)).map (fun p => p.2.2.getD c 0) =
      (((d.rowLabels.zip (d.X.rows.zip d.Y.rows)).map Prod.snd).map Prod.snd).map
        (fun row => row.getD c 0) := by simp [List.map_map, Function.comp_def]
  rw [e2, List.map_snd_zip (by rw [List.length_zip, h.rowsX, h.rowsY]; omega),
    List.map_snd_zip (by rw [h.rowsX, h.rowsY])]

theorem share_sub_X {t : Table} (h : Labelled t) (kx ky : List Nat)
    (hkx : ∀ k ∈ kx, k < t.features.length) (j k : Nat) (hj : kx[j]? = some k) :
    share Sample.features (sub kx ky t) j = share Sample.features t k := by
  unfold share
  rw [sub_samples, List.map_map, List.length_map]
  congr 3
  apply List.map_congr_left
  intro s hs
  simp only [Function.comp]
  rw [elementsAt_get _ _ (by rw [(labelled_lengths h hs).1]; exact hkx), hj]
  rfl

theorem share_sub_Y {t : Table} (h : Labelled t) (kx ky : List Nat)
    (hky : ∀ k ∈ ky, k < t.objectives.length) (j k : Nat) (hj : ky[j]? = some k) :
    share Sample.objectives (sub kx ky t) j = share Sample.objectives t k := by
  unfold share
  rw [sub_samples, List.map_map, List.length_map]
  congr 3
  apply List.map_congr_left
  intro s hs
  simp only [Function.comp]
  rw [elementsAt_get _ _ (by rw [(labelled_lengths h hs).2]; exact hky), hj]
  rfl

/-! ## One step of trimming -/

/-- A dataset that is ready to be trimmed and holds the columns `kx`, `ky` of the table `t`.
(Specification.) -/
structure Sub (t : Table) (kx ky : List Nat) (d : DM) : Prop where
  shaped : WellShaped d
  notFinal : d.final = false
  csr : d.X.format = .csr
  table_eq : table d = sub kx ky t

theorem elementsAt_length' {α : Type} (l : List α) (ks : List Nat) (h : ∀ k ∈ ks, k < l.length) :
    (elementsAt l ks).length = ks.length := elementsAt_length l ks h

theorem Sub.colsX {t : Table} {kx ky : List Nat} {d : DM} (h : Sub t kx ky d)
    (hkx : ∀ k ∈ kx, k < t.features.length) : d.colLabelsX.length = kx.length := by
  have : (table d).features = elementsAt t.features kx := by rw [h.table_eq]; rfl
  show (table d).features.length = _
  rw [this, elementsAt_length' _ _ hkx]

theorem Sub.colsY {t : Table} {kx ky : List Nat} {d : DM} (h : Sub t kx ky d)
    (hky : ∀ k ∈ ky, k < t.objectives.length) : d.colLabelsY.length = ky.length := by
  have : (table d).objectives = elementsAt t.objectives ky := by rw [h.table_eq]; rfl
  show (table d).objectives.length = _
  rw [this, elementsAt_length' _ _ hky]

theorem Sub.rows {t : Table} {kx ky : List Nat} {d : DM} (h : Sub t kx ky d) :
    d.rowLabels.length = t.samples.length := by
  rw [← table_samples_length h.shaped, h.table_eq, sub_samples, List.length_map]

theorem columnsToRemove_mem (m : Matrix) (thr : Option (ℚ × ℚ)) (hr : m.rows.length ≠ 0) (c : Nat) :
    c ∈ columnsToRemove m thr ↔ c < m.ncols ∧ Outside thr (columnShare m c) := by
  unfold columnsToRemove Outside
  cases thr with
  | none => simp
  | some b =>
    obtain ⟨pmin, pmax⟩ := b
    simp [hr]

theorem toRemove_X {t : Table} (hl : Labelled t) {kx ky : List Nat} {d : DM} (h : Sub t kx ky d)
    (hkx : ∀ k ∈ kx, k < t.features.length) (ht : t.samples.length ≠ 0) (thr : Option (ℚ × ℚ))
    (j : Nat) :
    (j ∈ columnsToRemove d.X thr → j < kx.length) ∧
    ∀ k, kx[j]? = some k →
      (j ∈ columnsToRemove d.X thr ↔ Outside thr (share Sample.features t k)) := by
  have hr : d.X.rows.length ≠ 0 := by rw [h.shaped.rowsX, h.rows]; exact ht
  have hm := columnsToRemove_mem d.X thr hr j
  rw [h.shaped.colsX, h.colsX hkx] at hm
  refine ⟨fun hj => (hm.1 hj).1, fun k hk => ?_⟩
  rw [hm, columnShare_X h.shaped, h.table_eq, share_sub_X hl kx ky hkx j k hk]
  exact ⟨fun x => x.2, fun x => ⟨(List.getElem?_eq_some_iff.1 hk).1, x⟩⟩

theorem toRemove_Y {t : Table} (hl : Labelled t) {kx ky : List Nat} {d : DM} (h : Sub t kx ky d)
    (hky : ∀ k ∈ ky, k < t.objectives.length) (ht : t.samples.length ≠ 0) (thr : Option (ℚ × ℚ))
    (j : Nat) :
    (j ∈ columnsToRemove d.Y thr → j < ky.length) ∧
    ∀ k, ky[j]? = some k →
      (j ∈ columnsToRemove d.Y thr ↔ Outside thr (share Sample.objectives t k)) := by
  have hr : d.Y.rows.length ≠ 0 := by rw [h.shaped.rowsY, h.rows]; exact ht
  have hm := columnsToRemove_mem d.Y thr hr j
  rw [h.shaped.colsY, h.colsY hky] at hm
  refine ⟨fun hj => (hm.1 hj).1, fun k hk => ?_⟩
  rw [hm, columnShare_Y h.shaped, h.table_eq, share_sub_Y hl kx ky hky j k hk]
  exact ⟨fun x => x.2, fun x => ⟨(List.getElem?_eq_some_iff.1 hk).1, x⟩⟩

theorem asInts_toNat (l : List Nat) : (asInts l).map Int.toNat = l := by
  unfold asInts
  rw [List.map_map]
  conv_rhs => rw [← List.map_id l]
  apply List.map_congr_left
  intro c _; simp

theorem trimX_ok {t : Table} (hl : Labelled t) {kx ky : List Nat} {d : DM} (h : Sub t kx ky d)
    (hkx : ∀ k ∈ kx, k < t.features.length) (on : Bool) (cols : List Nat)
    (hv : ∀ j ∈ cols, j < kx.length) (P : Nat → Bool)
    (hc : on = true → ∀ j k, kx[j]? = some k → (j ∈ cols ↔ P k = false))
    (hoff : on = false → ∀ k, P k = true) :
    ∃ d', trimX on cols d = .ok d' ∧ Sub t (kx.filter P) ky d' ∧ d'.label = d.label := by
  unfold trimX
  cases on with
  | false =>
    refine ⟨d, rfl, ?_, rfl⟩
    rw [List.filter_eq_self.2 (fun k _ => hoff rfl k)]; exact h
  | true =>
    obtain ⟨d', e, hw, hfin, hcsr, hlab, ht⟩ :=
      (delete_columns_X_aligned d h.shaped (asInts cols)).2.2.2 h.notFinal h.csr (by
        intro i hi
        obtain ⟨j, hj, rfl⟩ := List.mem_map.1 hi
        have := hv j hj
        rw [h.colsX hkx]; omega)
    refine ⟨d', ?_, ⟨hw, hfin, hcsr, ?_⟩, hlab⟩
    · rw [if_pos rfl, e]; rfl
    · rw [ht, asInts_toNat, h.table_eq, dropFeatures_sub hl kx ky cols hkx P (hc rfl)]

theorem trimY_ok {t : Table} (hl : Labelled t) {kx ky : List Nat} {d : DM} (h : Sub t kx ky d)
    (hky : ∀ k ∈ ky, k < t.objectives.length) (on : Bool) (cols : List Nat)
    (hv : ∀ j ∈ cols, j < ky.length) (P : Nat → Bool)
    (hc : on = true → ∀ j k, ky[j]? = some k → (j ∈ cols ↔ P k = false))
    (hoff : on = false → ∀ k, P k = true) :
    ∃ d', trimY on cols d = .ok d' ∧ Sub t kx (ky.filter P) d' ∧ d'.label = d.label := by
  unfold trimY
  cases on with
  | false =>
    refine ⟨d, rfl, ?_, rfl⟩
    rw [List.filter_eq_self.2 (fun k _ => hoff rfl k)]; exact h
  | true =>
    have hcsrY : d.Y.format = .csr := by rw [← h.shaped.storage]; exact h.csr
    obtain ⟨d', e, hw, hfin, hcsr, hlab, ht⟩ :=
      (delete_columns_Y_aligned d h.shaped (asInts cols)).2.2.2 h.notFinal h.csr (by
        intro i hi
        obtain ⟨j, hj, rfl⟩ := List.mem_map.1 hi
        have := hv j hj
        rw [h.colsY hky]; omega)
    refine ⟨d', ?_, ⟨hw, hfin, hcsr, ?_⟩, hlab⟩
    · rw [if_pos rfl, e]; rfl
    · rw [ht, asInts_toNat, h.table_eq, dropObjectives_sub hl kx ky cols hky P (hc rfl)]

/-! ## The whole trimming -/

open Classical in
/-- Decision by the thresholds for the full matrix. (Specification.) -/
noncomputable def keepFull (on : Bool) (thr : Part → Option (ℚ × ℚ))
    (values : Sample → List (Str × Int)) (t : Table) (c : Nat) : Bool :=
  decide (on = true → ¬ Outside (thr .full) (share values t c))

open Classical in
/-- Decision by the thresholds for the training and the test matrix. (Specification.) -/
noncomputable def keepParts (on : Bool) (thr : Part → Option (ℚ × ℚ))
    (values : Sample → List (Str × Int)) (t1 t2 : Table) (c : Nat) : Bool :=
  decide (on = true → ¬ Outside (thr .train) (share values t1 c) ∧
    ¬ Outside (thr .test) (share values t2 c))

theorem beforeSplit_ok (o : TrimOptions) (d : DM) (h : WellShaped d) (hfin : d.final = false)
    (hcsr : d.X.format = .csr) (hrows : d.rowLabels.length ≠ 0) :
    ∃ d', processBeforeSplit o d = .ok d' ∧ d'.label = d.label ∧
      Sub (table d)
        ((List.range d.colLabelsX.length).filter
          (keepFull o.removeFeatures o.featureThresholds Sample.features (table d)))
        ((List.range d.colLabelsY.length).filter
          (keepFull o.removeObjectives o.objectiveThresholds Sample.objectives (table d))) d' := by
  have hl := labelled_of_shaped h
  have h0 : Sub (table d) (List.range d.colLabelsX.length) (List.range d.colLabelsY.length) d :=
    ⟨h, hfin, hcsr, (sub_all hl).symm⟩
  have hkx : ∀ k ∈ List.range d.colLabelsX.length, k < (table d).features.length :=
    fun k hk => List.mem_range.1 hk
  have hky : ∀ k ∈ List.range d.colLabelsY.length, k < (table d).objectives.length :=
    fun k hk => List.mem_range.1 hk
  have hs : (table d).samples.length ≠ 0 := by rw [table_samples_length h]; exact hrows
  obtain ⟨d1, e1, h1, l1⟩ := trimX_ok hl h0 hkx o.removeFeatures
    (columnsToRemove d.X (o.featureThresholds .full))
    (fun j hj => (toRemove_X hl h0 hkx hs _ j).1 hj)
    (keepFull o.removeFeatures o.featureThresholds Sample.features (table d))
    (fun hon j k hk => by
      rw [(toRemove_X hl h0 hkx hs _ j).2 k hk]; simp [keepFull, hon])
    (fun hoff k => by simp [keepFull, hoff])
  obtain ⟨d2, e2, h2, l2⟩ := trimY_ok hl h1 hky o.removeObjectives
    (columnsToRemove d1.Y (o.objectiveThresholds .full))
    (fun j hj => (toRemove_Y hl h1 hky hs _ j).1 hj)
    (keepFull o.removeObjectives o.objectiveThresholds Sample.objectives (table d))
    (fun hon j k hk => by
      rw [(toRemove_Y hl h1 hky hs _ j).2 k hk]; simp [keepFull, hon])
    (fun hoff k => by simp [keepFull, hoff])
  refine ⟨d2, ?_, l2.trans l1, h2⟩
  unfold processBeforeSplit
  rw [e1]; exact e2

theorem unionCols_mem (a b : List Nat) (c : Nat) : c ∈ unionCols a b ↔ c ∈ a ∨ c ∈ b := by
  unfold unionCols
  rw [List.mem_append, List.mem_filter, decide_eq_true_eq]
  tauto

theorem afterSplit_ok (o : TrimOptions) (t t1 t2 : Table) (hl : Labelled t) (hl1 : Labelled t1)
    (hl2 : Labelled t2) (kx ky : List Nat) (r : SplitResult)
    (hf1 : t1.features = t.features) (hf2 : t2.features = t.features)
    (ho1 : t1.objectives = t.objectives) (ho2 : t2.objectives = t.objectives)
    (hs1 : t1.samples.length ≠ 0) (hs2 : t2.samples.length ≠ 0)
    (hkx : ∀ k ∈ kx, k < t.features.length) (hky : ∀ k ∈ ky, k < t.objectives.length)
    (hfull : Sub t kx ky r.full) (htrain : Sub t1 kx ky r.train) (htest : Sub t2 kx ky r.test) :
    ∃ r', processAfterSplit o r = .ok r' ∧ r'.trainRows = r.trainRows ∧ r'.testRows = r.testRows ∧
      r'.full.label = r.full.label ∧ r'.train.label = r.train.label ∧ r'.test.label = r.test.label ∧
      Sub t (kx.filter (keepParts o.removeFeatures o.featureThresholds Sample.features t1 t2))
        (ky.filter (keepParts o.removeObjectives o.objectiveThresholds Sample.objectives t1 t2)) r'.full ∧
      Sub t1 (kx.filter (keepParts o.removeFeatures o.featureThresholds Sample.features t1 t2))
        (ky.filter (keepParts o.removeObjectives o.objectiveThresholds Sample.objectives t1 t2)) r'.train ∧
      Sub t2 (kx.filter (keepParts o.removeFeatures o.featureThresholds Sample.features t1 t2))
        (ky.filter (keepParts o.removeObjectives o.objectiveThresholds Sample.objectives t1 t2)) r'.test := by
  have hkx1 : ∀ k ∈ kx, k < t1.features.length := by rw [hf1]; exact hkx
  have hkx2 : ∀ k ∈ kx, k < t2.features.length := by rw [hf2]; exact hkx
  have hky1 : ∀ k ∈ ky, k < t1.objectives.length := by rw [ho1]; exact hky
  have hky2 : ∀ k ∈ ky, k < t2.objectives.length := by rw [ho2]; exact hky
  have hvX : ∀ j ∈ unionCols (columnsToRemove r.train.X (o.featureThresholds .train))
      (columnsToRemove r.test.X (o.featureThresholds .test)), j < kx.length := by
    intro j hj
    rcases (unionCols_mem _ _ _).1 hj with hj | hj
    · exact (toRemove_X hl1 htrain hkx1 hs1 _ j).1 hj
    · exact (toRemove_X hl2 htest hkx2 hs2 _ j).1 hj
  have hcX : o.removeFeatures = true → ∀ j k, kx[j]? = some k →
      (j ∈ unionCols (columnsToRemove r.train.X (o.featureThresholds .train))
        (columnsToRemove r.test.X (o.featureThresholds .test)) ↔
        keepParts o.removeFeatures o.featureThresholds Sample.features t1 t2 k = false) := by
    intro hon j k hk
    rw [unionCols_mem, (toRemove_X hl1 htrain hkx1 hs1 _ j).2 k hk,
      (toRemove_X hl2 htest hkx2 hs2 _ j).2 k hk]
    simp only [keepParts, hon, decide_eq_false_iff_not]
    tauto
  have hoffX : o.removeFeatures = false → ∀ k,
      keepParts o.removeFeatures o.featureThresholds Sample.features t1 t2 k = true := by
    intro hoff k; simp [keepParts, hoff]
  obtain ⟨full1, ef1, hf1', lf1⟩ := trimX_ok hl hfull hkx o.removeFeatures _ hvX _ hcX hoffX
  obtain ⟨train1, et1, ht1', lt1⟩ := trimX_ok hl1 htrain hkx1 o.removeFeatures _ hvX _ hcX hoffX
  obtain ⟨test1, es1, hs1', ls1⟩ := trimX_ok hl2 htest hkx2 o.removeFeatures _ hvX _ hcX hoffX
  have hvY : ∀ j ∈ unionCols (columnsToRemove train1.Y (o.objectiveThresholds .train))
      (columnsToRemove test1.Y (o.objectiveThresholds .test)), j < ky.length := by
    intro j hj
    rcases (unionCols_mem _ _ _).1 hj with hj | hj
    · exact (toRemove_Y hl1 ht1' hky1 hs1 _ j).1 hj
    · exact (toRemove_Y hl2 hs1' hky2 hs2 _ j).1 hj
  have hcY : o.removeObjectives = true → ∀ j k, ky[j]? = some k →
      (j ∈ unionCols (columnsToRemove train1.Y (o.objectiveThresholds .train))
        (columnsToRemove test1.Y (o.objectiveThresholds .test)) ↔
        keepParts o.removeObjectives o.objectiveThresholds Sample.objectives t1 t2 k = false) := by
    intro hon j k hk
    rw [unionCols_mem, (toRemove_Y hl1 ht1' hky1 hs1 _ j).2 k hk,
      (toRemove_Y hl2 hs1' hky2 hs2 _ j).2 k hk]
    simp only [keepParts, hon, decide_eq_false_iff_not]
    tauto
  have hoffY : o.removeObjectives = false → ∀ k,
      keepParts o.removeObjectives o.objectiveThresholds Sample.objectives t1 t2 k = true := by
    intro hoff k; simp [keepParts, hoff]
  obtain ⟨full2, ef2, hf2', lf2⟩ := trimY_ok hl hf1' hky o.removeObjectives _ hvY _ hcY hoffY
  obtain ⟨train2, et2, ht2', lt2⟩ := trimY_ok hl1 ht1' hky1 o.removeObjectives _ hvY _ hcY hoffY
  obtain ⟨test2, es2, hs2', ls2⟩ := trimY_ok hl2 hs1' hky2 o.removeObjectives _ hvY _ hcY hoffY
  refine ⟨⟨full2, r.trainRows, r.testRows, train2, test2⟩, ?_, rfl, rfl, lf2.trans lf1,
    lt2.trans lt1, ls2.trans ls1, hf2', ht2', hs2'⟩
  unfold processAfterSplit
  rw [ef1, et1, es1]
  show (trimY _ _ full1 >>= _) = _
  rw [ef2]
  show (trimY _ _ train1 >>= _) = _
  rw [et2]
  show (trimY _ _ test1 >>= _) = _
  rw [es2]
  rfl

/-- **C42.**  Building a binary dataset with any thresholds, any permutation and `0 < k < N`
training rows: the split succeeds; the rows are partitioned as in C41; in the full dataset
exactly those features and objectives remain that lie within the thresholds in the full
dataset, in the training samples and in the test samples (all of them if the option is off);
the training and the test dataset are exactly the training and test samples of the trimmed full
dataset, so the three have the same columns. -/
theorem trimming_exact (o : TrimOptions) (d : DM) (h : WellShaped d) (hfin : d.final = false)
    (hcsr : d.X.format = .csr) (shuffled : List Nat)
    (hp : shuffled.Perm (List.range d.rowLabels.length)) (k : Nat)
    (hk : trainRowsCount d.rowLabels.length o.fraction = k) (h0 : 0 < k)
    (hN : k < d.rowLabels.length) :
    ∃ r, binarySplit o d shuffled = .ok r ∧
      r.trainRows.length = k ∧ r.testRows.length = d.rowLabels.length - k ∧
      (r.trainRows ++ r.testRows).Perm (List.range d.rowLabels.length) ∧
      (∃ kx ky : List Nat, kx.Pairwise (· < ·) ∧ ky.Pairwise (· < ·) ∧
        (∀ c, c ∈ kx ↔ c < d.colLabelsX.length ∧ Kept o.removeFeatures o.featureThresholds
          Sample.features (table d) r.trainRows r.testRows c) ∧
        (∀ c, c ∈ ky ↔ c < d.colLabelsY.length ∧ Kept o.removeObjectives o.objectiveThresholds
          Sample.objectives (table d) r.trainRows r.testRows c) ∧
        table r.full = keepObjectives ky (keepFeatures kx (table d))) ∧
      table r.train = keepSamples r.trainRows (table r.full) ∧
      table r.test = keepSamples r.testRows (table r.full) ∧
      r.full.label = d.label ∧ r.train.label = "dataset_train".toList ∧
      r.test.label = "dataset_test".toList ∧
      WellShaped r.full ∧ WellShaped r.train ∧ WellShaped r.test ∧
      r.full.final = false ∧ r.train.final = false ∧ r.test.final = false := by
  have hl := labelled_of_shaped h
  obtain ⟨d1, e1, l1, s1⟩ := beforeSplit_ok o d h hfin hcsr (by omega)
  have hr1 : d1.rowLabels.length = d.rowLabels.length := by
    rw [s1.rows, table_samples_length h]
  obtain ⟨r, er, rfull, _, _, len1, len2, hperm, tt, ts, _, wt, ws, ft, fs, ct, cs, lt, ls⟩ :=
    split_is_partition d1 s1.shaped shuffled o.fraction (by rw [hr1]; exact hp) k
      (by rw [hr1]; exact hk) h0 (by rw [hr1]; exact hN)
  rw [hr1] at len2 hperm
  have hlt : ∀ (rows : List Nat), (∀ p ∈ rows, p < d.rowLabels.length) →
      (keepSamples rows (table d)).samples.length = rows.length := by
    intro rows hrows
    show (elementsAt _ _).length = _
    rw [elementsAt_length _ _ (by rw [table_samples_length h]; exact hrows)]
  have hm1 : ∀ p ∈ r.trainRows, p < d.rowLabels.length := fun p hp' => by
    simpa using hperm.mem_iff.1 (List.mem_append_left _ hp')
  have hm2 : ∀ p ∈ r.testRows, p < d.rowLabels.length := fun p hp' => by
    simpa using hperm.mem_iff.1 (List.mem_append_right _ hp')
  obtain ⟨r', e', a1, a2, a3, a4, a5, sf, st, ss⟩ := afterSplit_ok o (table d)
    (keepSamples r.trainRows (table d)) (keepSamples r.testRows (table d)) hl
    (labelled_keepSamples hl _) (labelled_keepSamples hl _)
    ((List.range d.colLabelsX.length).filter
      (keepFull o.removeFeatures o.featureThresholds Sample.features (table d)))
    ((List.range d.colLabelsY.length).filter
      (keepFull o.removeObjectives o.objectiveThresholds Sample.objectives (table d))) r rfl rfl rfl rfl
    (by rw [hlt _ hm1]; omega) (by rw [hlt _ hm2]; omega)
    (by intro k hk; exact List.mem_range.1 (List.mem_filter.1 hk).1)
    (by intro k hk; exact List.mem_range.1 (List.mem_filter.1 hk).1)
    (by rw [rfull]; exact s1)
    ⟨wt, ft, by rw [ct]; exact s1.csr, by rw [tt, s1.table_eq, keepSamples_sub]⟩
    ⟨ws, fs, by rw [cs]; exact s1.csr, by rw [ts, s1.table_eq, keepSamples_sub]⟩
  refine ⟨r', ?_, by rw [a1]; exact len1, by rw [a2]; exact len2, by rw [a1, a2]; exact hperm,
    ⟨_, _, ?_, ?_, ?_, ?_, sf.table_eq⟩, ?_, ?_, by rw [a3, rfull, l1], by rw [a4, lt],
    by rw [a5, ls], sf.shaped, st.shaped, ss.shaped, sf.notFinal, st.notFinal, ss.notFinal⟩
  · unfold binarySplit
    rw [e1]
    show (randomSplit d1 _ _ >>= _) = _
    rw [er]; exact e'
  · exact (List.pairwise_lt_range.filter _).filter _
  · exact (List.pairwise_lt_range.filter _).filter _
  · intro c
    rw [List.mem_filter, List.mem_filter, List.mem_range, a1, a2]
    simp only [keepFull, keepParts, Kept, decide_eq_true_eq]
    tauto
  · intro c
    rw [List.mem_filter, List.mem_filter, List.mem_range, a1, a2]
    simp only [keepFull, keepParts, Kept, decide_eq_true_eq]
    tauto
  · rw [st.table_eq, sf.table_eq, keepSamples_sub, a1]
  · rw [ss.table_eq, sf.table_eq, keepSamples_sub, a2]

/-- **C42.**  After trimming every remaining feature lies within the thresholds in each of the
three datasets, and the three have the same column labels. -/
theorem trimmed_within_thresholds (o : TrimOptions) (d : DM) (h : WellShaped d)
    (hfin : d.final = false) (hcsr : d.X.format = .csr) (shuffled : List Nat)
    (hp : shuffled.Perm (List.range d.rowLabels.length)) (k : Nat)
    (hk : trainRowsCount d.rowLabels.length o.fraction = k) (h0 : 0 < k)
    (hN : k < d.rowLabels.length) (r : SplitResult) (hr : binarySplit o d shuffled = .ok r) :
    (o.removeFeatures = true → ∀ j < r.full.colLabelsX.length,
      ¬ Outside (o.featureThresholds .full) (share Sample.features (table r.full) j) ∧
      ¬ Outside (o.featureThresholds .train) (share Sample.features (table r.train) j) ∧
      ¬ Outside (o.featureThresholds .test) (share Sample.features (table r.test) j)) ∧
    (o.removeObjectives = true → ∀ j < r.full.colLabelsY.length,
      ¬ Outside (o.objectiveThresholds .full) (share Sample.objectives (table r.full) j) ∧
      ¬ Outside (o.objectiveThresholds .train) (share Sample.objectives (table r.train) j) ∧
      ¬ Outside (o.objectiveThresholds .test) (share Sample.objectives (table r.test) j)) ∧
    r.train.colLabelsX = r.full.colLabelsX ∧ r.test.colLabelsX = r.full.colLabelsX ∧
    r.train.colLabelsY = r.full.colLabelsY ∧ r.test.colLabelsY = r.full.colLabelsY := by
  have hl := labelled_of_shaped h
  obtain ⟨r', e, _, _, _, ⟨kx, ky, _, _, mx, my, tf⟩, tt, ts, _⟩ :=
    trimming_exact o d h hfin hcsr shuffled hp k hk h0 hN
  rw [e] at hr
  cases hr
  change table r.full = sub kx ky (table d) at tf
  have hkx : ∀ c ∈ kx, c < (table d).features.length := fun c hc => ((mx c).1 hc).1
  have hky : ∀ c ∈ ky, c < (table d).objectives.length := fun c hc => ((my c).1 hc).1
  have tt' : table r.train = sub kx ky (keepSamples r.trainRows (table d)) := by
    rw [tt, tf, keepSamples_sub]
  have ts' : table r.test = sub kx ky (keepSamples r.testRows (table d)) := by
    rw [ts, tf, keepSamples_sub]
  refine ⟨?_, ?_, ?_, ?_, ?_, ?_⟩
  · intro hon j hj
    have hj' : j < kx.length := by
      have : (table r.full).features.length = kx.length := by
        rw [tf]; exact elementsAt_length _ _ hkx
      rw [← this]; exact hj
    have hget : kx[j]? = some kx[j] := List.getElem?_eq_getElem hj'
    have := ((mx kx[j]).1 (List.getElem_mem hj')).2 hon
    rw [tf, tt', ts', share_sub_X hl kx ky hkx j _ hget,
      share_sub_X (labelled_keepSamples hl _) kx ky hkx j _ hget,
      share_sub_X (labelled_keepSamples hl _) kx ky hkx j _ hget]
    exact this
  · intro hon j hj
    have hj' : j < ky.length := by
      have : (table r.full).objectives.length = ky.length := by
        rw [tf]; exact elementsAt_length _ _ hky
      rw [← this]; exact hj
    have hget : ky[j]? = some ky[j] := List.getElem?_eq_getElem hj'
    have := ((my ky[j]).1 (List.getElem_mem hj')).2 hon
    rw [tf, tt', ts', share_sub_Y hl kx ky hky j _ hget,
      share_sub_Y (labelled_keepSamples hl _) kx ky hky j _ hget,
      share_sub_Y (labelled_keepSamples hl _) kx ky hky j _ hget]
    exact this
  · exact congrArg Table.features tt
  · exact congrArg Table.features ts
  · exact congrArg Table.objectives tt
  · exact congrArg Table.objectives ts

/-! ## Examples -/

/-- Four samples, three features (one of them always 1, one only 1 in the test samples), one
objective. (Example.) -/
def exTrim : DM where
  label := "dataset".toList
  X := ⟨.csr, 3, [[1, 1, 0], [0, 1, 0], [1, 1, 1], [0, 1, 1]]⟩
  Y := ⟨.csr, 1, [[1], [0], [0], [1]]⟩
  rowLabels := ["s0".toList, "s1".toList, "s2".toList, "s3".toList]
  colLabelsX := ["a".toList, "b".toList, "c".toList]
  colLabelsY := ["y".toList]
  final := false

/-- (Example.) -/
def exOptions : TrimOptions where
  removeFeatures := true
  removeObjectives := false
  featureThresholds := fun p => match p with
    | .full => some (1/10, 9/10)
    | .train => some (1/10, 9/10)
    | .test => none
  objectiveThresholds := fun _ => none
  fraction := 1/2

theorem exTrim_shaped : WellShaped exTrim := by
  constructor <;> decide

/-- The feature `b` falls to the thresholds of the full matrix, `c` to those of the training
matrix. -/
example : ((binarySplit exOptions exTrim [1, 0, 3, 2]).map
      (fun r => (r.trainRows, r.testRows, r.full.colLabelsX, r.train.X))).toOption =
    some ([0, 1], [2, 3], ["a".toList], ⟨.csr, 1, [[1], [0]]⟩) := by decide +kernel

example : ∃ r, binarySplit exOptions exTrim [1, 0, 3, 2] = .ok r ∧ r.trainRows.length = 2 :=
  (trimming_exact exOptions exTrim exTrim_shaped rfl rfl [1, 0, 3, 2] (by decide) 2
    (by decide +kernel) (by decide) (by decide)).imp (fun _ h => ⟨h.1, h.2.1⟩)

/-- A training fraction of 1 leaves no test rows: the split raises `ValueError`. -/
example : randomSplit exTrim [1, 0, 3, 2] 1 = .error .valueError :=
  split_empty_raises exTrim exTrim_shaped _ _ (by decide) 4 (by decide +kernel) (.inr (by decide))

/-- Finding: a negative training fraction is accepted: `-1/4` of four rows takes all rows but the
last one for training. -/
theorem negative_fraction_accepted :
    ((randomSplit exTrim [1, 0, 3, 2] (-1/4)).map (fun r => (r.trainRows, r.testRows))).toOption =
      some ([0, 1, 3], [2]) := by decide +kernel

end Mbtk.Dataset
