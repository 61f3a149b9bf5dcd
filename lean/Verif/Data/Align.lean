import Verif.Data.Spec
/-!
# Labels stay attached to their data (C39)
-/
namespace Mbtk.Dataset
open Spec

/-! ## Positions -/

theorem pyPos_ok_iff (n : Nat) (i : Int) (p : Nat) : pyPos n i = .ok p ↔ IndexMeans n i p := by
  unfold pyPos IndexMeans
  split
  · rename_i h
    simp only [Except.ok.injEq]
    omega
  · rename_i h
    split
    · rename_i h'
      simp only [Except.ok.injEq]
      omega
    · rename_i h'
      simp only [reduceCtorEq, false_iff]
      omega

theorem pyPos_error {n : Nat} {i : Int} {e : Err} (h : pyPos n i = .error e) :
    e = .indexError ∧ ∀ p, ¬ IndexMeans n i p := by
  constructor
  · unfold pyPos at h
    split at h
    · cases h
    · split at h
      · cases h
      · cases h; rfl
  · intro p hp
    rw [(pyPos_ok_iff n i p).2 hp] at h
    cases h

theorem pyPositions_ok_iff (n : Nat) (is : List Int) (ps : List Nat) :
    pyPositions n is = .ok ps ↔ List.Forall₂ (IndexMeans n) is ps := by
  induction is generalizing ps with
  | nil =>
    simp only [pyPositions, Except.ok.injEq]
    constructor
    · rintro rfl; exact .nil
    · intro h; cases h; rfl
  | cons i is ih =>
    simp only [pyPositions]
    constructor
    · intro h
      cases hp : pyPos n i with
      | error e => rw [hp] at h; cases h
      | ok p =>
        rw [hp] at h
        cases hps : pyPositions n is with
        | error e =>
          rw [show (Except.ok p >>= fun p => pyPositions n is >>= fun ps => Except.ok (p :: ps)) =
            (pyPositions n is >>= fun ps => Except.ok (p :: ps)) from rfl, hps] at h
          cases h
        | ok qs =>
          rw [show (Except.ok p >>= fun p => pyPositions n is >>= fun ps => Except.ok (p :: ps)) =
            (pyPositions n is >>= fun ps => Except.ok (p :: ps)) from rfl, hps] at h
          cases h
          exact .cons ((pyPos_ok_iff n i p).1 hp) ((ih qs).1 hps)
    · intro h
      cases h with
      | cons h1 h2 =>
        rw [(pyPos_ok_iff n i _).2 h1]
        show (pyPositions n is >>= _) = _
        rw [(ih _).2 h2]
        rfl

theorem pyPositions_error {n : Nat} {is : List Int} {e : Err} (h : pyPositions n is = .error e) :
    e = .indexError ∧ ∃ i ∈ is, ∀ p, ¬ IndexMeans n i p := by
  induction is with
  | nil => cases h
  | cons i is ih =>
    simp only [pyPositions] at h
    cases hp : pyPos n i with
    | error e' =>
      rw [hp] at h
      cases h
      exact ⟨(pyPos_error hp).1, i, by simp, (pyPos_error hp).2⟩
    | ok p =>
      rw [hp] at h
      have h' : (pyPositions n is >>= fun ps => Except.ok (p :: ps)) = .error e := h
      cases hps : pyPositions n is with
      | error e' =>
        rw [hps] at h'
        cases h'
        obtain ⟨h1, j, hj, h2⟩ := ih hps
        exact ⟨h1, j, by simp [hj], h2⟩
      | ok qs => rw [hps] at h'; cases h'

theorem forall₂_lt {n : Nat} {is : List Int} {ps : List Nat}
    (h : List.Forall₂ (IndexMeans n) is ps) : ∀ p ∈ ps, p < n := by
  induction h with
  | nil => simp
  | cons h1 _ ih =>
    intro p hp
    rcases List.mem_cons.1 hp with rfl | hp
    · exact h1.1
    · exact ih p hp

/-! ## Lists of positions -/

section lists
variable {α β : Type}

theorem elementsAt_map (f : α → β) (l : List α) (ps : List Nat) :
    elementsAt (l.map f) ps = (elementsAt l ps).map f := by
  unfold elementsAt
  rw [List.map_filterMap]
  congr 1
  funext p
  simp

theorem elementsAt_zip (l : List α) (m : List β) (h : l.length = m.length) (ps : List Nat) :
    elementsAt (l.zip m) ps = (elementsAt l ps).zip (elementsAt m ps) := by
  unfold elementsAt
  induction ps with
  | nil => rfl
  | cons p ps ih =>
    by_cases hp : p < l.length
    · have hp' : p < m.length := by omega
      have hz : p < (l.zip m).length := by simp; omega
      simp only [List.filterMap_cons, List.getElem?_eq_getElem hp, List.getElem?_eq_getElem hp',
        List.getElem?_eq_getElem hz, ih, List.zip_cons_cons, List.getElem_zip]
    · have hp' : ¬ p < m.length := by omega
      have hz : ¬ p < (l.zip m).length := by simp; omega
      simp only [List.filterMap_cons, List.getElem?_eq_none (not_lt.1 hp),
        List.getElem?_eq_none (not_lt.1 hp'), List.getElem?_eq_none (not_lt.1 hz), ih]

theorem elementsAt_length (l : List α) (ps : List Nat) (h : ∀ p ∈ ps, p < l.length) :
    (elementsAt l ps).length = ps.length := by
  unfold elementsAt
  induction ps with
  | nil => rfl
  | cons p ps ih =>
    simp only [List.filterMap_cons, List.getElem?_eq_getElem (h p (by simp)), List.length_cons]
    rw [ih (fun q hq => h q (by simp [hq]))]

theorem elementsAt_range (n : Nat) (ps : List Nat) (h : ∀ p ∈ ps, p < n) :
    elementsAt (List.range n) ps = ps := by
  unfold elementsAt
  induction ps with
  | nil => rfl
  | cons p ps ih =>
    have hp : p < (List.range n).length := by simpa using h p (by simp)
    simp only [List.filterMap_cons, List.getElem?_eq_getElem hp, List.getElem_range]
    rw [ih (fun q hq => h q (by simp [hq]))]

theorem elementsAt_mem {l : List α} {ps : List Nat} {x : α} (h : x ∈ elementsAt l ps) : x ∈ l := by
  unfold elementsAt at h
  obtain ⟨p, _, hp⟩ := List.mem_filterMap.1 h
  exact List.mem_of_getElem? hp

theorem elementsAt_all (l : List α) : elementsAt l (List.range l.length) = l := by
  induction l with
  | nil => rfl
  | cons x l ih =>
    unfold elementsAt at ih ⊢
    rw [List.length_cons, List.range_succ_eq_map, List.filterMap_cons]
    simp only [List.getElem?_cons_zero, List.filterMap_map]
    congr 1

theorem withoutPositions_eq (l : List α) (ps : List Nat) : withoutPositions l ps = dropAt l ps := by
  unfold withoutPositions dropAt
  have key : ∀ (k : Nat) (l : List α), ((l.zipIdx k).filter (fun p => p.2 ∉ ps)).map Prod.fst =
      elementsAt l ((List.range l.length).filter (fun p => p + k ∉ ps)) := by
    intro k l
    induction l generalizing k with
    | nil => rfl
    | cons x l ih =>
      have hr : (List.range (x :: l).length).filter (fun p => p + k ∉ ps) =
          (if k ∉ ps then [0] else []) ++
            ((List.range l.length).filter (fun p => p + (k + 1) ∉ ps)).map (· + 1) := by
        rw [List.length_cons, List.range_succ_eq_map, List.filter_cons, List.filter_map]
        have : ((fun p => decide (p + k ∉ ps)) ∘ Nat.succ) = fun p => decide (p + (k + 1) ∉ ps) := by
          funext p; simp only [Function.comp]; congr 2; rw [show p.succ + k = p + (k + 1) by omega]
        rw [this]
        by_cases h : k ∈ ps
        · simp [h]
        · simp [h]
      rw [hr]
      have hs : ∀ qs : List Nat, elementsAt (x :: l) (qs.map (· + 1)) = elementsAt l qs := by
        intro qs
        unfold elementsAt
        rw [List.filterMap_map]
        congr 1
      rw [List.zipIdx_cons, List.filter_cons]
      by_cases h : k ∈ ps
      · simp only [h, not_true_eq_false, decide_false, Bool.false_eq_true, if_false, List.nil_append]
        rw [hs, ih (k + 1)]
      · simp only [h, not_false_eq_true, decide_true, if_true, List.map_cons]
        rw [ih (k + 1)]
        show _ = elementsAt (x :: l) (0 :: _)
        rw [← hs]
        rfl
  exact (key 0 l).trans (by simp)

theorem dropAt_map (f : α → β) (l : List α) (ps : List Nat) :
    dropAt (l.map f) ps = (dropAt l ps).map f := by
  unfold dropAt
  rw [elementsAt_map, List.length_map]

theorem dropAt_zip (l : List α) (m : List β) (h : l.length = m.length) (ps : List Nat) :
    dropAt (l.zip m) ps = (dropAt l ps).zip (dropAt m ps) := by
  unfold dropAt
  rw [elementsAt_zip _ _ h]
  simp [h]

theorem dropAt_length (l : List α) (m : List β) (h : l.length = m.length) (ps : List Nat) :
    (dropAt l ps).length = (dropAt m ps).length := by
  unfold dropAt
  rw [elementsAt_length _ _ (fun p hp => by simpa using List.mem_of_mem_filter hp),
    elementsAt_length _ _ (fun p hp => by simpa using List.mem_of_mem_filter hp), h]

theorem eraseIdx_eq_dropAt (l : List α) (p : Nat) : l.eraseIdx p = dropAt l [p] := by
  rw [← withoutPositions_eq]
  unfold withoutPositions
  have key : ∀ (k : Nat) (l : List α), ((l.zipIdx k).filter (fun q => q.2 ∉ [p + k])).map Prod.fst =
      l.eraseIdx p := by
    induction p with
    | zero =>
      intro k l
      cases l with
      | nil => rfl
      | cons x l =>
        rw [List.zipIdx_cons, List.filter_cons]
        simp only [Nat.zero_add, List.mem_singleton, not_true_eq_false, decide_false,
          Bool.false_eq_true, if_false, List.eraseIdx_cons_zero]
        rw [List.filter_eq_self.2, List.zipIdx_map_fst]
        intro q hq
        have := List.le_snd_of_mem_zipIdx hq
        simp only [decide_eq_true_eq]
        omega
    | succ p ih =>
      intro k l
      cases l with
      | nil => rfl
      | cons x l =>
        rw [List.zipIdx_cons, List.filter_cons, if_pos (by simp), List.map_cons,
          List.eraseIdx_cons_succ, ← ih (k + 1) l, show p + 1 + k = p + (k + 1) by omega]
  exact (key 0 l).symm

theorem elementsAt_sublist (l : List α) (ps : List Nat) (h : ps.Pairwise (· < ·)) :
    (elementsAt l ps).Sublist l := by
  have hsub : ∀ n, (∀ p ∈ ps, p < n) → ps.Sublist (List.range n) := by
    intro n hn
    have e : ps = (List.range n).filter (fun p => p ∈ ps) := by
      refine List.Perm.eq_of_pairwise (le := (· < ·)) (fun a b _ _ h1 h2 => by omega) h
        (List.pairwise_lt_range.filter _) ?_
      refine (List.perm_ext_iff_of_nodup (h.imp (fun h => by omega))
        (List.nodup_range.filter _)).2 ?_
      intro a
      simp only [List.mem_filter, List.mem_range, decide_eq_true_eq]
      exact ⟨fun ha => ⟨hn a ha, ha⟩, fun ha => ha.2⟩
    rw [e]
    exact List.filter_sublist
  obtain ⟨N, hN⟩ : ∃ N, ∀ p ∈ ps, p < N := by
    clear h hsub
    induction ps with
    | nil => exact ⟨0, by simp⟩
    | cons q ps ih =>
      obtain ⟨N, hN⟩ := ih
      refine ⟨max N (q + 1), fun p hp => ?_⟩
      rcases List.mem_cons.1 hp with rfl | hp
      · omega
      · have := hN p hp; omega
  have h1 : (elementsAt l ps).Sublist (elementsAt l (List.range (max N l.length))) :=
    (hsub (max N l.length) (fun p hp => lt_of_lt_of_le (hN p hp) (le_max_left _ _))).filterMap _
  have h2 : elementsAt l (List.range (max N l.length)) = l := by
    conv_rhs => rw [← elementsAt_all l]
    obtain ⟨k, hk⟩ : ∃ k, max N l.length = l.length + k := ⟨max N l.length - l.length, by omega⟩
    rw [hk, List.range_add]
    unfold elementsAt
    rw [List.filterMap_append]
    have : ((List.range k).map (l.length + ·)).filterMap (fun p => l[p]?) = [] := by
      rw [List.filterMap_eq_nil_iff]
      intro p hp
      obtain ⟨j, _, rfl⟩ := List.mem_map.1 hp
      simp
    rw [this, List.append_nil]
  rwa [h2] at h1

theorem dropAt_sublist (l : List α) (ps : List Nat) : (dropAt l ps).Sublist l :=
  elementsAt_sublist l _ (List.pairwise_lt_range.filter _)

end lists

/-! ## Rows and columns of a table -/

theorem table_keepRows (d : DM) (h : WellShaped d) (ps : List Nat) :
    table { d with X := { d.X with format := .csr, rows := elementsAt d.X.rows ps },
                   Y := { d.Y with format := .csr, rows := elementsAt d.Y.rows ps },
                   rowLabels := elementsAt d.rowLabels ps } = keepSamples ps (table d) := by
  unfold table keepSamples
  simp only [Table.mk.injEq, true_and]
  rw [elementsAt_map, elementsAt_zip _ _ (by simp [h.rowsX, h.rowsY]),
    elementsAt_zip _ _ (by rw [h.rowsX, h.rowsY])]

theorem zip_map_right' {α β γ δ : Type} (f : β → γ) (g : α × γ → δ) (l : List α) (m : List β) :
    (l.zip (m.map f)).map g = (l.zip m).map (fun p => g (p.1, f p.2)) := by
  rw [List.zip_map_right, List.map_map]
  rfl

theorem table_selectX (d : DM) (h : WellShaped d) (fmt : Format) (n : Nat)
    (F : ∀ {α : Type}, List α → List α)
    (hz : ∀ {α β : Type} (l : List α) (m : List β), l.length = m.length →
      F (l.zip m) = (F l).zip (F m)) (lab : Str) (fin : Bool) :
    table { d with X := ⟨fmt, n, d.X.rows.map F⟩, colLabelsX := F d.colLabelsX, label := lab,
                   final := fin } =
      { table d with features := F d.colLabelsX,
                     samples := (table d).samples.map (fun s => { s with features := F s.features }) } := by
  unfold table
  simp only [Table.mk.injEq, true_and, List.map_map]
  rw [List.zip_map_left, List.zip_map_right, List.map_map]
  apply List.map_congr_left
  rintro ⟨l, x, y⟩ hp
  have hx : x ∈ d.X.rows := (List.of_mem_zip (List.of_mem_zip hp).2).1
  simp only [Function.comp, Prod.map, id]
  rw [hz _ _ (by rw [h.rectX x hx, h.colsX])]

theorem table_selectY (d : DM) (h : WellShaped d) (fmt : Format) (n : Nat)
    (F : ∀ {α : Type}, List α → List α)
    (hz : ∀ {α β : Type} (l : List α) (m : List β), l.length = m.length →
      F (l.zip m) = (F l).zip (F m)) :
    table { d with Y := ⟨fmt, n, d.Y.rows.map F⟩, colLabelsY := F d.colLabelsY } =
      { table d with objectives := F d.colLabelsY,
                     samples := (table d).samples.map
                       (fun s => { s with objectives := F s.objectives }) } := by
  unfold table
  simp only [Table.mk.injEq, true_and, List.map_map]
  rw [List.zip_map_right, List.zip_map_right, List.map_map]
  apply List.map_congr_left
  rintro ⟨l, x, y⟩ hp
  have hy : y ∈ d.Y.rows := (List.of_mem_zip (List.of_mem_zip hp).2).2
  simp only [Function.comp, Prod.map, id]
  rw [hz _ _ (by rw [h.rectY y hy, h.colsY])]

/-! ## Matrices -/

theorem dropAt_nil {α : Type} (l : List α) : dropAt l [] = l := by
  unfold dropAt
  simp [elementsAt_all]

theorem deleteRowsCols_rows {m : Matrix} (hf : m.format = .csr) {is : List Int} {ps : List Nat}
    (h : pyPositions m.rows.length is = .ok ps) :
    deleteRowsCols m is [] = .ok { m with rows := dropAt m.rows ps } := by
  unfold deleteRowsCols
  rw [if_neg (by simp [hf]), if_neg (by simp)]
  by_cases hn : is = []
  · subst hn
    cases h
    simp [dropAt_nil]
  · rw [if_pos hn]
    unfold Matrix.deleteRows maskDelete
    rw [h]
    show Except.ok { m with rows := withoutPositions m.rows ps } = _
    rw [withoutPositions_eq]

theorem deleteRowsCols_rows_error {m : Matrix} (hf : m.format = .csr) {is : List Int} {e : Err}
    (h : pyPositions m.rows.length is = .error e) : deleteRowsCols m is [] = .error e := by
  unfold deleteRowsCols
  rw [if_neg (by simp [hf]), if_neg (by simp), if_pos (by rintro rfl; cases h)]
  unfold Matrix.deleteRows maskDelete
  rw [h]
  rfl

theorem deleteRowsCols_cols {m : Matrix} (hf : m.format = .csr) {is : List Int} {ps : List Nat}
    (h : pyPositions m.ncols is = .ok ps) :
    deleteRowsCols m [] is = .ok ⟨m.format, (dropAt (List.range m.ncols) ps).length,
      m.rows.map (fun row => dropAt row ps)⟩ := by
  unfold deleteRowsCols
  rw [if_neg (by simp [hf]), if_neg (by simp), if_neg (by simp)]
  by_cases hn : is = []
  · subst hn
    cases h
    simp [dropAt_nil]
  · rw [if_pos hn]
    unfold Matrix.deleteCols
    rw [h]
    simp only [withoutPositions_eq]
    rfl

theorem deleteRowsCols_cols_error {m : Matrix} (hf : m.format = .csr) {is : List Int} {e : Err}
    (h : pyPositions m.ncols is = .error e) : deleteRowsCols m [] is = .error e := by
  unfold deleteRowsCols
  rw [if_neg (by simp [hf]), if_neg (by simp), if_neg (by simp), if_pos (by rintro rfl; cases h)]
  unfold Matrix.deleteCols
  rw [h]
  rfl

theorem deleteRowsCols_csc {m : Matrix} (hf : m.format = .csc) (is js : List Int) :
    deleteRowsCols m is js = .error .valueError := by
  unfold deleteRowsCols
  rw [if_pos (by simp [hf])]

/-- The dataset with the rows at the given positions only. (Specification.) -/
def withRows (d : DM) (ps : List Nat) : DM :=
  { d with X := { d.X with format := .csr, rows := elementsAt d.X.rows ps },
           Y := { d.Y with format := .csr, rows := elementsAt d.Y.rows ps },
           rowLabels := elementsAt d.rowLabels ps }

theorem withRows_shaped {d : DM} (h : WellShaped d) (ps : List Nat)
    (hps : ∀ p ∈ ps, p < d.rowLabels.length) : WellShaped (withRows d ps) := by
  have hx := h.rowsX
  have hy := h.rowsY
  refine ⟨?_, ?_, h.colsX, h.colsY, ?_, ?_, rfl⟩
  · show (elementsAt _ ps).length = (elementsAt _ ps).length
    rw [elementsAt_length _ _ (by rw [hx]; exact hps), elementsAt_length _ _ hps]
  · show (elementsAt _ ps).length = (elementsAt _ ps).length
    rw [elementsAt_length _ _ (by rw [hy]; exact hps), elementsAt_length _ _ hps]
  · exact fun row hrow => h.rectX row (elementsAt_mem hrow)
  · exact fun row hrow => h.rectY row (elementsAt_mem hrow)

/-- `self.X` and `self.Y` after deleting rows. -/
theorem deleteRowsXY_ok {d : DM} (h : WellShaped d) (hf : d.X.format = .csr) {is : List Int}
    {ps : List Nat} (hp : pyPositions d.rowLabels.length is = .ok ps) :
    deleteRowsXY d is = ({ d with
      X := { d.X with format := .csr, rows := dropAt d.X.rows ps },
      Y := { d.Y with format := .csr, rows := dropAt d.Y.rows ps } }, none) := by
  unfold deleteRowsXY
  rw [deleteRowsCols_rows hf (by rw [h.rowsX]; exact hp)]
  simp only
  rw [deleteRowsCols_rows (by rw [← h.storage]; exact hf) (by rw [h.rowsY]; exact hp)]
  rfl

/-- **C39, `delete_row`.** On a finalized dataset, on a dataset in CSC format and with an index
out of range the call raises and changes nothing; otherwise exactly the sample meant by the
index disappears, all others keep their label and their values. -/
theorem delete_row_aligned (d : DM) (h : WellShaped d) (r : Int) :
    (d.final = true → deleteRow d r = (d, some finalizedError)) ∧
    (d.final = false → d.X.format = .csc → deleteRow d r = (d, some .valueError)) ∧
    (d.final = false → d.X.format = .csr → (∀ p, ¬ IndexMeans d.rowLabels.length r p) →
      deleteRow d r = (d, some .indexError)) ∧
    (d.final = false → d.X.format = .csr → ∀ p, IndexMeans d.rowLabels.length r p →
      ∃ d', deleteRow d r = (d', none) ∧ WellShaped d' ∧ d'.final = false ∧
        d'.X.format = .csr ∧ d'.label = d.label ∧ table d' = dropSample p (table d)) := by
  refine ⟨?_, ?_, ?_, ?_⟩
  · intro hfin; unfold deleteRow; rw [if_pos hfin]
  · intro hfin hf
    unfold deleteRow deleteRowsXY
    rw [if_neg (by simp [hfin]), deleteRowsCols_csc hf]
  · intro hfin hf hno
    have he : pyPositions d.rowLabels.length [r] = .error .indexError := by
      cases hp : pyPositions d.rowLabels.length [r] with
      | error e => rw [(pyPositions_error hp).1]
      | ok ps =>
        rw [pyPositions_ok_iff] at hp
        cases hp with
        | cons h1 _ => exact absurd h1 (hno _)
    unfold deleteRow deleteRowsXY
    rw [if_neg (by simp [hfin]), deleteRowsCols_rows_error hf (by rw [h.rowsX]; exact he)]
  · intro hfin hf p hp
    have hps : pyPositions d.rowLabels.length [r] = .ok [p] :=
      (pyPositions_ok_iff _ _ _).2 (.cons hp .nil)
    refine ⟨withRows d ((List.range d.rowLabels.length).filter (fun q => q ∉ [p])), ?_,
      withRows_shaped h _ (fun q hq => by simpa using List.mem_of_mem_filter hq), hfin, rfl, rfl, ?_⟩
    · unfold deleteRow
      rw [if_neg (by simp [hfin]), deleteRowsXY_ok h hf hps]
      simp only
      unfold pyDel
      rw [(pyPos_ok_iff _ _ _).2 hp]
      show ({ d with X := _, Y := _, rowLabels := d.rowLabels.eraseIdx p }, none) = _
      rw [eraseIdx_eq_dropAt]
      unfold withRows dropAt
      rw [h.rowsX, h.rowsY]
    · refine (table_keepRows d h _).trans ?_
      unfold keepSamples dropSample
      rw [eraseIdx_eq_dropAt]
      unfold dropAt
      have : (table d).samples.length = d.rowLabels.length := by
        simp [table, h.rowsX, h.rowsY]
      rw [this]

/-- A strictly increasing list of valid row indices. (Specification.) -/
def IncreasingRows (n : Nat) (l : List Int) : Prop :=
  l.Pairwise (· < ·) ∧ ∀ i ∈ l, 0 ≤ i ∧ i < n

theorem positions_toNat {n : Nat} {l : List Int} (h : ∀ i ∈ l, 0 ≤ i ∧ i < n) :
    pyPositions n l = .ok (l.map Int.toNat) := by
  rw [pyPositions_ok_iff]
  induction l with
  | nil => exact .nil
  | cons i l ih =>
    have := h i (by simp)
    exact .cons ⟨by omega, by left; omega⟩ (ih (fun j hj => h j (by simp [hj])))

theorem pyTake_toNat {α : Type} {l : List α} {is : List Int} (h : ∀ i ∈ is, 0 ≤ i ∧ i < l.length) :
    pyTake l is = .ok (elementsAt l (is.map Int.toNat)) := by
  unfold pyTake
  rw [positions_toNat h]
  rfl

/-- The complement of an increasing list of rows, complemented again. -/
theorem complement_rows {n : Nat} {keep : List Int} (h : IncreasingRows n keep) :
    (List.range n).filter (fun q => q ∉ (rowsToDelete n keep).map Int.toNat) =
      keep.map Int.toNat := by
  refine List.Perm.eq_of_pairwise (le := (· < ·)) (fun a b _ _ h1 h2 => by omega)
    (List.pairwise_lt_range.filter _) ?_ ?_
  · rw [List.pairwise_map]
    refine List.Pairwise.imp_of_mem ?_ h.1
    intro a b ha hb hab
    have := h.2 a ha
    have := h.2 b hb
    omega
  · refine (List.perm_ext_iff_of_nodup (List.nodup_range.filter _) ?_).2 ?_
    · refine List.Nodup.map_on ?_ (h.1.imp (fun h => by omega))
      intro a ha b hb e
      have := h.2 a ha
      have := h.2 b hb
      omega
    · intro q
      rw [List.mem_filter, List.mem_range, decide_eq_true_eq]
      have hdel : ∀ q : Nat, q < n → (q ∈ (rowsToDelete n keep).map Int.toNat ↔ (q : Int) ∉ keep) := by
        intro q hq
        unfold rowsToDelete
        rw [List.mem_map]
        constructor
        · rintro ⟨i, hi, rfl⟩
          rw [List.mem_filter, decide_eq_true_eq] at hi
          obtain ⟨k, _, rfl⟩ := List.mem_map.1 hi.1
          simpa using hi.2
        · intro hq'
          refine ⟨q, ?_, by simp⟩
          rw [List.mem_filter, decide_eq_true_eq]
          exact ⟨List.mem_map.2 ⟨q, List.mem_range.2 hq, rfl⟩, hq'⟩
      constructor
      · rintro ⟨hq, hall⟩
        rw [hdel q hq, not_not] at hall
        exact List.mem_map.2 ⟨q, hall, by simp⟩
      · intro hq
        obtain ⟨i, hi, rfl⟩ := List.mem_map.1 hq
        have := h.2 i hi
        have hlt : i.toNat < n := by omega
        refine ⟨hlt, ?_⟩
        rw [hdel _ hlt, not_not, Int.toNat_of_nonneg this.1]
        exact hi

/-- **C39, `keep_rows`** with a strictly increasing list of valid row indices: exactly the
samples at these positions remain, with their labels and values. -/
theorem keep_rows_aligned (d : DM) (h : WellShaped d) (keep : List Int) :
    (d.final = true → keepRows d keep = (d, some finalizedError)) ∧
    (d.final = false → keep = [] → keepRows d keep = (d, some .valueError)) ∧
    (d.final = false → keep ≠ [] → d.X.format = .csc → keepRows d keep = (d, some .valueError)) ∧
    (d.final = false → keep ≠ [] → d.X.format = .csr →
      IncreasingRows d.rowLabels.length keep →
      ∃ d', keepRows d keep = (d', none) ∧ WellShaped d' ∧ d'.final = false ∧
        d'.X.format = .csr ∧ d'.label = d.label ∧
        table d' = keepSamples (keep.map Int.toNat) (table d)) := by
  refine ⟨?_, ?_, ?_, ?_⟩
  · intro hfin; unfold keepRows; rw [if_pos hfin]
  · intro hfin hk; unfold keepRows; rw [if_neg (by simp [hfin]), if_pos hk]
  · intro hfin hk hf
    unfold keepRows deleteRowsXY
    rw [if_neg (by simp [hfin]), if_neg hk, deleteRowsCols_csc hf]
  · intro hfin hk hf hinc
    have hdel : ∀ i ∈ rowsToDelete d.rowLabels.length keep, 0 ≤ i ∧ i < d.rowLabels.length := by
      intro i hi
      obtain ⟨k, hk, rfl⟩ := List.mem_map.1 (List.mem_of_mem_filter hi)
      have := List.mem_range.1 hk
      omega
    refine ⟨withRows d (keep.map Int.toNat), ?_, withRows_shaped h _ ?_, hfin, rfl, rfl, ?_⟩
    · unfold keepRows
      rw [if_neg (by simp [hfin]), if_neg hk, h.rowsX, deleteRowsXY_ok h hf (positions_toNat hdel)]
      simp only
      rw [pyTake_toNat hinc.2]
      simp only
      unfold withRows dropAt
      rw [h.rowsX, h.rowsY, complement_rows hinc]
    · intro p hp
      obtain ⟨i, hi, rfl⟩ := List.mem_map.1 hp
      have := hinc.2 i hi
      omega
    · exact table_keepRows d h _

/-! ## Columns -/

theorem dropAt_congr {α : Type} (l : List α) {ps qs : List Nat}
    (h : ∀ p, p < l.length → (p ∈ ps ↔ p ∈ qs)) : dropAt l ps = dropAt l qs := by
  unfold dropAt
  congr 1
  apply List.filter_congr
  intro p hp
  rw [decide_eq_decide, not_iff_not]
  exact h p (List.mem_range.1 hp)

theorem labelsNotIn_eq (labels : List Str) (cols : List Int) (h : ∀ i ∈ cols, 0 ≤ i) :
    labelsNotIn labels cols = dropAt labels (cols.map Int.toNat) := by
  rw [← withoutPositions_eq]
  unfold labelsNotIn withoutPositions
  congr 1
  apply List.filter_congr
  intro p _
  rw [decide_eq_decide, not_iff_not, List.mem_map]
  constructor
  · intro hm; exact ⟨_, hm, by simp⟩
  · rintro ⟨i, hi, e⟩
    have := h i hi
    have : (p.2 : Int) = i := by omega
    rwa [this]

theorem sort_mem (cols : List Int) (i : Int) : i ∈ cols.insertionSort (· ≤ ·) ↔ i ∈ cols :=
  (List.perm_insertionSort _ _).mem_iff

theorem dropAt_sort {α : Type} (l : List α) (cols : List Int) :
    dropAt l ((cols.insertionSort (· ≤ ·)).map Int.toNat) = dropAt l (cols.map Int.toNat) :=
  dropAt_congr l (fun p _ => by simp only [List.mem_map, sort_mem])

/-- The dataset without the feature columns at the given positions. (Specification.) -/
def withoutX (d : DM) (ps : List Nat) : DM :=
  { d with X := ⟨.csr, (dropAt (List.range d.X.ncols) ps).length,
                 d.X.rows.map (fun row => dropAt row ps)⟩,
           colLabelsX := dropAt d.colLabelsX ps }

/-- The dataset without the objective columns at the given positions. (Specification.) -/
def withoutY (d : DM) (ps : List Nat) : DM :=
  { d with Y := ⟨.csr, (dropAt (List.range d.Y.ncols) ps).length,
                 d.Y.rows.map (fun row => dropAt row ps)⟩,
           colLabelsY := dropAt d.colLabelsY ps }

theorem withoutX_shaped {d : DM} (h : WellShaped d) (hf : d.X.format = .csr) (ps : List Nat) :
    WellShaped (withoutX d ps) := by
  refine ⟨?_, h.rowsY, ?_, h.colsY, ?_, h.rectY, ?_⟩
  · show (d.X.rows.map _).length = _; rw [List.length_map, h.rowsX]; rfl
  · show (dropAt (List.range d.X.ncols) ps).length = (dropAt d.colLabelsX ps).length
    exact dropAt_length _ _ (by simp [h.colsX]) ps
  · intro row hrow
    obtain ⟨r, hr, rfl⟩ := List.mem_map.1 (show row ∈ d.X.rows.map _ from hrow)
    exact dropAt_length _ _ (by rw [h.rectX r hr, List.length_range]) ps
  · show Format.csr = d.Y.format; rw [← h.storage, hf]

theorem withoutY_shaped {d : DM} (h : WellShaped d) (hf : d.X.format = .csr) (ps : List Nat) :
    WellShaped (withoutY d ps) := by
  refine ⟨h.rowsX, ?_, h.colsX, ?_, h.rectX, ?_, hf⟩
  · show (d.Y.rows.map _).length = _; rw [List.length_map, h.rowsY]; rfl
  · show (dropAt (List.range d.Y.ncols) ps).length = (dropAt d.colLabelsY ps).length
    exact dropAt_length _ _ (by simp [h.colsY]) ps
  · intro row hrow
    obtain ⟨r, hr, rfl⟩ := List.mem_map.1 (show row ∈ d.Y.rows.map _ from hrow)
    exact dropAt_length _ _ (by rw [h.rectY r hr, List.length_range]) ps

theorem withoutX_table {d : DM} (h : WellShaped d) (ps : List Nat) :
    table (withoutX d ps) = dropFeatures ps (table d) :=
  table_selectX d h .csr _ (fun l => dropAt l ps) (fun l m hlm => dropAt_zip l m hlm ps) d.label
    d.final

theorem withoutY_table {d : DM} (h : WellShaped d) (ps : List Nat) :
    table (withoutY d ps) = dropObjectives ps (table d) :=
  table_selectY d h .csr _ (fun l => dropAt l ps) (fun l m hlm => dropAt_zip l m hlm ps)

/-- All indices are non-negative and below `n`. (Specification.) -/
def ValidColumns (n : Nat) (l : List Int) : Prop := ∀ i ∈ l, 0 ≤ i ∧ i < n

/-- **C39, `delete_columns_X`** with non-negative indices: the features at these positions
disappear from every sample, all other values stay with their labels.  An index that is too
large raises `IndexError` and changes nothing. -/
theorem delete_columns_X_aligned (d : DM) (h : WellShaped d) (cols : List Int) :
    (d.final = true → deleteColumnsX d cols = (d, some finalizedError)) ∧
    (d.final = false → d.X.format = .csc → deleteColumnsX d cols = (d, some .valueError)) ∧
    (d.final = false → d.X.format = .csr →
      (∃ i ∈ cols, ∀ p, ¬ IndexMeans d.colLabelsX.length i p) →
      deleteColumnsX d cols = (d, some .indexError)) ∧
    (d.final = false → d.X.format = .csr → ValidColumns d.colLabelsX.length cols →
      ∃ d', deleteColumnsX d cols = (d', none) ∧ WellShaped d' ∧ d'.final = false ∧
        d'.X.format = .csr ∧ d'.label = d.label ∧
        table d' = dropFeatures (cols.map Int.toNat) (table d)) := by
  refine ⟨?_, ?_, ?_, ?_⟩
  · intro hfin; unfold deleteColumnsX; rw [if_pos hfin]
  · intro hfin hf
    unfold deleteColumnsX
    rw [if_neg (by simp [hfin]), deleteRowsCols_csc hf]
  · rintro hfin hf ⟨i, hi, hno⟩
    have he : pyPositions d.X.ncols (cols.insertionSort (· ≤ ·)) = .error .indexError := by
      cases hp : pyPositions d.X.ncols (cols.insertionSort (· ≤ ·)) with
      | error e => rw [(pyPositions_error hp).1]
      | ok ps =>
        rw [pyPositions_ok_iff] at hp
        rw [h.colsX] at hp
        obtain ⟨hlen, hget⟩ := List.forall₂_iff_get.1 hp
        obtain ⟨k, hk, e⟩ := List.getElem_of_mem ((sort_mem cols i).2 hi)
        have := hget k hk (by omega)
        simp only [List.get_eq_getElem, e] at this
        exact absurd this (hno _)
    unfold deleteColumnsX
    rw [if_neg (by simp [hfin]), deleteRowsCols_cols_error hf he]
  · intro hfin hf hv
    have hps : pyPositions d.X.ncols (cols.insertionSort (· ≤ ·)) =
        .ok ((cols.insertionSort (· ≤ ·)).map Int.toNat) := by
      rw [h.colsX]
      exact positions_toNat (fun i hi => hv i ((sort_mem cols i).1 hi))
    refine ⟨withoutX d (cols.map Int.toNat), ?_, withoutX_shaped h hf _, hfin, rfl, rfl,
      withoutX_table h _⟩
    unfold deleteColumnsX
    rw [if_neg (by simp [hfin]), deleteRowsCols_cols hf hps]
    simp only
    rw [labelsNotIn_eq _ _ (fun i hi => (hv i ((sort_mem cols i).1 hi)).1)]
    simp only [dropAt_sort]
    rfl

/-- **C39, `delete_columns_Y`**, as `delete_columns_X_aligned`. -/
theorem delete_columns_Y_aligned (d : DM) (h : WellShaped d) (cols : List Int) :
    (d.final = true → deleteColumnsY d cols = (d, some finalizedError)) ∧
    (d.final = false → d.X.format = .csc → deleteColumnsY d cols = (d, some .valueError)) ∧
    (d.final = false → d.X.format = .csr →
      (∃ i ∈ cols, ∀ p, ¬ IndexMeans d.colLabelsY.length i p) →
      deleteColumnsY d cols = (d, some .indexError)) ∧
    (d.final = false → d.X.format = .csr → ValidColumns d.colLabelsY.length cols →
      ∃ d', deleteColumnsY d cols = (d', none) ∧ WellShaped d' ∧ d'.final = false ∧
        d'.X.format = .csr ∧ d'.label = d.label ∧
        table d' = dropObjectives (cols.map Int.toNat) (table d)) := by
  have hst := h.storage
  refine ⟨?_, ?_, ?_, ?_⟩
  · intro hfin; unfold deleteColumnsY; rw [if_pos hfin]
  · intro hfin hf
    unfold deleteColumnsY
    rw [if_neg (by simp [hfin]), deleteRowsCols_csc (by rw [← hst]; exact hf)]
  · rintro hfin hf ⟨i, hi, hno⟩
    have he : pyPositions d.Y.ncols (cols.insertionSort (· ≤ ·)) = .error .indexError := by
      cases hp : pyPositions d.Y.ncols (cols.insertionSort (· ≤ ·)) with
      | error e => rw [(pyPositions_error hp).1]
      | ok ps =>
        rw [pyPositions_ok_iff] at hp
        rw [h.colsY] at hp
        obtain ⟨hlen, hget⟩ := List.forall₂_iff_get.1 hp
        obtain ⟨k, hk, e⟩ := List.getElem_of_mem ((sort_mem cols i).2 hi)
        have := hget k hk (by omega)
        simp only [List.get_eq_getElem, e] at this
        exact absurd this (hno _)
    unfold deleteColumnsY
    rw [if_neg (by simp [hfin]), deleteRowsCols_cols_error (by rw [← hst]; exact hf) he]
  · intro hfin hf hv
    have hps : pyPositions d.Y.ncols (cols.insertionSort (· ≤ ·)) =
        .ok ((cols.insertionSort (· ≤ ·)).map Int.toNat) := by
      rw [h.colsY]
      exact positions_toNat (fun i hi => hv i ((sort_mem cols i).1 hi))
    refine ⟨withoutY d (cols.map Int.toNat), ?_, withoutY_shaped h hf _, hfin, hf, rfl,
      withoutY_table h _⟩
    unfold deleteColumnsY
    rw [if_neg (by simp [hfin]), deleteRowsCols_cols (by rw [← hst]; exact hf) hps]
    simp only
    rw [labelsNotIn_eq _ _ (fun i hi => (hv i ((sort_mem cols i).1 hi)).1)]
    simp only [dropAt_sort]
    rfl

/-- **C39, `delete_column_X`**, for every index, also negative ones. -/
theorem delete_column_X_aligned (d : DM) (h : WellShaped d) (c : Int) :
    (d.final = true → deleteColumnX d c = (d, some finalizedError)) ∧
    (d.final = false → d.X.format = .csc → deleteColumnX d c = (d, some .valueError)) ∧
    (d.final = false → d.X.format = .csr → (∀ p, ¬ IndexMeans d.colLabelsX.length c p) →
      deleteColumnX d c = (d, some .indexError)) ∧
    (d.final = false → d.X.format = .csr → ∀ p, IndexMeans d.colLabelsX.length c p →
      ∃ d', deleteColumnX d c = (d', none) ∧ WellShaped d' ∧ d'.final = false ∧
        d'.X.format = .csr ∧ d'.label = d.label ∧ table d' = dropFeatures [p] (table d)) := by
  refine ⟨?_, ?_, ?_, ?_⟩
  · intro hfin; unfold deleteColumnX; rw [if_pos hfin]
  · intro hfin hf
    unfold deleteColumnX
    rw [if_neg (by simp [hfin]), deleteRowsCols_csc hf]
  · intro hfin hf hno
    have he : pyPositions d.X.ncols [c] = .error .indexError := by
      cases hp : pyPositions d.X.ncols [c] with
      | error e => rw [(pyPositions_error hp).1]
      | ok ps =>
        rw [pyPositions_ok_iff, h.colsX] at hp
        cases hp with
        | cons h1 _ => exact absurd h1 (hno _)
    unfold deleteColumnX
    rw [if_neg (by simp [hfin]), deleteRowsCols_cols_error hf he]
  · intro hfin hf p hp
    have hps : pyPositions d.X.ncols [c] = .ok [p] := by
      rw [h.colsX]; exact (pyPositions_ok_iff _ _ _).2 (.cons hp .nil)
    refine ⟨withoutX d [p], ?_, withoutX_shaped h hf _, hfin, rfl, rfl, withoutX_table h _⟩
    unfold deleteColumnX
    rw [if_neg (by simp [hfin]), deleteRowsCols_cols hf hps]
    simp only
    unfold pyDel
    rw [(pyPos_ok_iff _ _ _).2 hp]
    show ({ d with X := _, colLabelsX := d.colLabelsX.eraseIdx p }, none) = _
    rw [eraseIdx_eq_dropAt]
    rfl

/-- **C39, `delete_column_Y`**, for every index, also negative ones. -/
theorem delete_column_Y_aligned (d : DM) (h : WellShaped d) (c : Int) :
    (d.final = true → deleteColumnY d c = (d, some finalizedError)) ∧
    (d.final = false → d.X.format = .csc → deleteColumnY d c = (d, some .valueError)) ∧
    (d.final = false → d.X.format = .csr → (∀ p, ¬ IndexMeans d.colLabelsY.length c p) →
      deleteColumnY d c = (d, some .indexError)) ∧
    (d.final = false → d.X.format = .csr → ∀ p, IndexMeans d.colLabelsY.length c p →
      ∃ d', deleteColumnY d c = (d', none) ∧ WellShaped d' ∧ d'.final = false ∧
        d'.X.format = .csr ∧ d'.label = d.label ∧ table d' = dropObjectives [p] (table d)) := by
  have hst := h.storage
  refine ⟨?_, ?_, ?_, ?_⟩
  · intro hfin; unfold deleteColumnY; rw [if_pos hfin]
  · intro hfin hf
    unfold deleteColumnY
    rw [if_neg (by simp [hfin]), deleteRowsCols_csc (by rw [← hst]; exact hf)]
  · intro hfin hf hno
    have he : pyPositions d.Y.ncols [c] = .error .indexError := by
      cases hp : pyPositions d.Y.ncols [c] with
      | error e => rw [(pyPositions_error hp).1]
      | ok ps =>
        rw [pyPositions_ok_iff, h.colsY] at hp
        cases hp with
        | cons h1 _ => exact absurd h1 (hno _)
    unfold deleteColumnY
    rw [if_neg (by simp [hfin]), deleteRowsCols_cols_error (by rw [← hst]; exact hf) he]
  · intro hfin hf p hp
    have hps : pyPositions d.Y.ncols [c] = .ok [p] := by
      rw [h.colsY]; exact (pyPositions_ok_iff _ _ _).2 (.cons hp .nil)
    refine ⟨withoutY d [p], ?_, withoutY_shaped h hf _, hfin, hf, rfl, withoutY_table h _⟩
    unfold deleteColumnY
    rw [if_neg (by simp [hfin]), deleteRowsCols_cols (by rw [← hst]; exact hf) hps]
    simp only
    unfold pyDel
    rw [(pyPos_ok_iff _ _ _).2 hp]
    show ({ d with Y := _, colLabelsY := d.colLabelsY.eraseIdx p }, none) = _
    rw [eraseIdx_eq_dropAt]
    rfl

/-! ## Selection -/

theorem pyTake_ok {α : Type} {l : List α} {is : List Int} {ps : List Nat}
    (h : List.Forall₂ (IndexMeans l.length) is ps) : pyTake l is = .ok (elementsAt l ps) := by
  unfold pyTake
  rw [(pyPositions_ok_iff _ _ _).2 h]
  rfl

/-- **C39, `select_rows`**, for every list of indices, also negative, unsorted or repeated ones:
the new dataset has exactly the samples meant by the sorted indices, with their labels and
values; the original is a value and cannot change.  An invalid index or an empty list raises. -/
theorem select_rows_aligned (d : DM) (h : WellShaped d) (keep : List Int) (newLabel : Str) :
    (keep = [] → selectRows d keep newLabel = .error .valueError) ∧
    ((∃ i ∈ keep, ∀ p, ¬ IndexMeans d.rowLabels.length i p) →
      selectRows d keep newLabel = .error .indexError) ∧
    (keep ≠ [] → ∀ ps, List.Forall₂ (IndexMeans d.rowLabels.length)
        (keep.insertionSort (· ≤ ·)) ps →
      ∃ d', selectRows d keep newLabel = .ok d' ∧ WellShaped d' ∧ d'.final = false ∧
        d'.X.format = d.X.format ∧ d'.label = (if newLabel = [] then d.label else newLabel) ∧
        table d' = keepSamples ps (table d)) := by
  refine ⟨?_, ?_, ?_⟩
  · intro hk; unfold selectRows; rw [if_pos hk]
  · rintro ⟨i, hi, hno⟩
    have hne : keep ≠ [] := List.ne_nil_of_mem hi
    have he : pyPositions d.X.rows.length (keep.insertionSort (· ≤ ·)) = .error .indexError := by
      cases hp : pyPositions d.X.rows.length (keep.insertionSort (· ≤ ·)) with
      | error e => rw [(pyPositions_error hp).1]
      | ok ps =>
        rw [pyPositions_ok_iff, h.rowsX] at hp
        obtain ⟨hlen, hget⟩ := List.forall₂_iff_get.1 hp
        obtain ⟨k, hk, e⟩ := List.getElem_of_mem ((sort_mem keep i).2 hi)
        have := hget k hk (by omega)
        simp only [List.get_eq_getElem, e] at this
        exact absurd this (hno _)
    unfold selectRows Matrix.selectRows pyTake
    rw [if_neg hne, he]
    rfl
  · intro hne ps hps
    refine ⟨{ d with X := { d.X with rows := elementsAt d.X.rows ps },
                     Y := { d.Y with rows := elementsAt d.Y.rows ps },
                     rowLabels := elementsAt d.rowLabels ps,
                     label := if newLabel = [] then d.label else newLabel, final := false },
      ?_, ?_, rfl, rfl, rfl, ?_⟩
    · unfold selectRows Matrix.selectRows
      rw [if_neg hne, pyTake_ok (by rw [h.rowsX]; exact hps)]
      show (((pyTake d.Y.rows _ >>= _) : Except Err Matrix) >>= _) = _
      rw [pyTake_ok (by rw [h.rowsY]; exact hps)]
      show (pyTake d.rowLabels _ >>= _) = _
      rw [pyTake_ok hps]
      rfl
    · have hw := withRows_shaped h ps (forall₂_lt hps)
      exact ⟨hw.rowsX, hw.rowsY, hw.colsX, hw.colsY, hw.rectX, hw.rectY, h.storage⟩
    · exact table_keepRows d h ps

/-- **C39, `select_columns_X`**, for every list of indices. -/
theorem select_columns_X_aligned (d : DM) (h : WellShaped d) (keep : List Int) (newLabel : Str) :
    (keep = [] → selectColumnsX d keep newLabel = .error .valueError) ∧
    ((∃ i ∈ keep, ∀ p, ¬ IndexMeans d.colLabelsX.length i p) →
      selectColumnsX d keep newLabel = .error .indexError) ∧
    (keep ≠ [] → ∀ ps, List.Forall₂ (IndexMeans d.colLabelsX.length)
        (keep.insertionSort (· ≤ ·)) ps →
      ∃ d', selectColumnsX d keep newLabel = .ok d' ∧ WellShaped d' ∧ d'.final = false ∧
        d'.X.format = d.X.format ∧ d'.label = (if newLabel = [] then d.label else newLabel) ∧
        table d' = keepFeatures ps (table d)) := by
  refine ⟨?_, ?_, ?_⟩
  · intro hk; unfold selectColumnsX; rw [if_pos hk]
  · rintro ⟨i, hi, hno⟩
    have hne : keep ≠ [] := List.ne_nil_of_mem hi
    have he : pyPositions d.X.ncols (keep.insertionSort (· ≤ ·)) = .error .indexError := by
      cases hp : pyPositions d.X.ncols (keep.insertionSort (· ≤ ·)) with
      | error e => rw [(pyPositions_error hp).1]
      | ok ps =>
        rw [pyPositions_ok_iff, h.colsX] at hp
        obtain ⟨hlen, hget⟩ := List.forall₂_iff_get.1 hp
        obtain ⟨k, hk, e⟩ := List.getElem_of_mem ((sort_mem keep i).2 hi)
        have := hget k hk (by omega)
        simp only [List.get_eq_getElem, e] at this
        exact absurd this (hno _)
    unfold selectColumnsX Matrix.selectCols
    rw [if_neg hne, he]
    rfl
  · intro hne ps hps
    have hlt := forall₂_lt hps
    refine ⟨{ d with X := ⟨d.X.format, ps.length, d.X.rows.map (fun row => elementsAt row ps)⟩,
                     colLabelsX := elementsAt d.colLabelsX ps,
                     label := if newLabel = [] then d.label else newLabel, final := false },
      ?_, ?_, rfl, rfl, rfl, ?_⟩
    · unfold selectColumnsX Matrix.selectCols
      rw [if_neg hne, h.colsX, (pyPositions_ok_iff _ _ _).2 hps]
      show (pyTake d.colLabelsX _ >>= _) = _
      rw [pyTake_ok hps]
      rfl
    · refine ⟨?_, h.rowsY, ?_, h.colsY, ?_, h.rectY, h.storage⟩
      · show (d.X.rows.map _).length = _; rw [List.length_map, h.rowsX]
      · exact (elementsAt_length _ _ hlt).symm
      · intro row hrow
        obtain ⟨r, hr, rfl⟩ := List.mem_map.1 (show row ∈ d.X.rows.map _ from hrow)
        exact elementsAt_length _ _ (by rw [h.rectX r hr, h.colsX]; exact hlt)
    · exact table_selectX d h d.X.format ps.length (fun l => elementsAt l ps)
        (fun l m hlm => elementsAt_zip l m hlm ps) _ _

end Mbtk.Dataset
