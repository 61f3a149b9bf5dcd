import Verif.Stats.GTest
import Verif.Stats.Dataset
/-!
# The tables of the unoptimised test are the empirical distributions
-/
namespace Mbtk.Stats
open Mbtk.ADTree (Data)
open Mbtk.ADTree.Spec (rowsWith)
open Spec

/-! ## Joint variables over dataset columns -/

theorem joint_instances (D : Data) (cols : List Nat) (h : cols ≠ []) :
    (Variable.joint (cols.map (column D))).instances =
      (List.range D.nrows).map (fun r => mkKey (cols.map (D.cell r))) := by
  match cols, h with
  | [c], _ =>
    simp only [List.map_cons, List.map_nil, Variable.instances, column, List.map_map]
    rfl
  | c :: c' :: cols, _ =>
    have e : (Variable.joint ((c :: c' :: cols).map (column D))).instances =
        (zipColumns (((c :: c' :: cols).map (column D)).map (·.instances))).map .tup := rfl
    rw [e, List.map_map]
    have := zipColumns_rows (List.range D.nrows)
      ((c :: c' :: cols).map (fun c r => D.cell r c)) (by simp)
    rw [List.map_map] at this
    have e2 : (fun f => List.map f (List.range D.nrows)) ∘ (fun (c : Nat) (r : Nat) => D.cell r c) =
        (fun x => x.instances) ∘ column D := rfl
    rw [e2] at this
    rw [this, List.map_map]
    apply List.map_congr_left
    intro r _
    simp [Function.comp_def, mkKey]

theorem count_rows (D : Data) (cols : List Nat) (l : List Int) :
    ((List.range D.nrows).map (fun r => mkKey (cols.map (D.cell r)))).count (mkKey l) =
      rowsWith D (fun r => cols.map (D.cell r) = l) := by
  unfold rowsWith
  rw [List.count, List.countP_map, List.countP_eq_length_filter]
  congr 1
  apply List.filter_congr
  intro r _
  simp only [Function.comp, beq_eq_decide]
  congr 1
  simp only [eq_iff_iff]
  exact ⟨fun h => mkKey_inj h, fun h => by rw [h]⟩

/-- A variable object that stands for the columns `cols`.
(Models no code: a notion for statements and proofs.) -/
def IsVarOf (D : Data) (cols : List Nat) (v : Variable) : Prop :=
  v = .joint (cols.map (column D)) ∨ ∃ c, cols = [c] ∧ v = .single (column D c)

theorem IsVarOf.instances {D : Data} {cols : List Nat} {v : Variable} (h : IsVarOf D cols v)
    (hne : cols ≠ []) :
    v.instances = (List.range D.nrows).map (fun r => mkKey (cols.map (D.cell r))) := by
  rcases h with rfl | ⟨c, rfl, rfl⟩
  · exact joint_instances D cols hne
  · simp only [Variable.instances, column, List.map_map]; rfl

theorem IsVarOf.len {D : Data} {cols : List Nat} {v : Variable} (h : IsVarOf D cols v)
    (hne : cols ≠ []) : v.len = .ok D.nrows := by
  rcases h with rfl | ⟨c, rfl, rfl⟩
  · match cols, hne with
    | c :: cols, _ => simp [Variable.len, column]
  · simp [Variable.len, column]

theorem IsVarOf.ids {D : Data} {cols : List Nat} {v : Variable} (h : IsVarOf D cols v) :
    v.ids = castIds cols := by
  rcases h with rfl | ⟨c, rfl, rfl⟩
  · simp [Variable.ids, castIds, column]
  · simp [Variable.ids, castIds, column]

theorem IsVarOf.flatten {D : Data} {cols : List Nat} {v : Variable} (h : IsVarOf D cols v) :
    flattenVariables [v] = cols.map (column D) := by
  rcases h with rfl | ⟨c, rfl, rfl⟩ <;> simp [flattenVariables]

theorem isVarOf_single (D : Data) (c : Nat) : IsVarOf D [c] (getVariable D c) :=
  .inr ⟨c, rfl, rfl⟩

theorem flattenVariables_cons (v : Variable) (vs : List Variable) :
    flattenVariables (v :: vs) = flattenVariables [v] ++ flattenVariables vs := by
  cases v <;> simp [flattenVariables]

theorem validateLengths_columns (D : Data) (cols : List Nat) :
    validateLengths (cols.map (column D)) = .ok () := by
  induction cols with
  | nil => rfl
  | cons c cols ih =>
    cases cols with
    | nil => rfl
    | cons c' cols =>
      simp only [List.map_cons] at ih ⊢
      rw [validateLengths, if_neg (by simp [column])]
      exact ih

/-- `JointVariables(...)` over columns of one dataset succeeds and stands for all of them. -/
theorem mkJoint_ok (D : Data) (args : List Variable) (cols : List Nat)
    (h : flattenVariables args = cols.map (column D)) :
    mkJoint args = .ok (.joint (cols.map (column D))) := by
  unfold mkJoint
  dsimp only
  rw [h, validateLengths_columns]
  split <;> rfl

theorem getVariables_ok (D : Data) (cols : List Nat) :
    ∃ v, getVariables D cols = .ok v ∧ IsVarOf D cols v := by
  match cols with
  | [c] => exact ⟨_, rfl, isVarOf_single D c⟩
  | [] => exact ⟨_, mkJoint_ok D [] [] rfl, .inl rfl⟩
  | c :: c' :: cols =>
    refine ⟨_, mkJoint_ok D _ (c :: c' :: cols) ?_, .inl rfl⟩
    have : ∀ l : List Nat, flattenVariables (l.map (getVariable D)) = l.map (column D) := by
      intro l
      induction l with
      | nil => rfl
      | cons c l ih => simp [flattenVariables, getVariable, ih]
    exact this _

theorem getVariablesOfSet_ok (D : Data) (cols : List Nat) :
    getVariablesOfSet D cols = .ok (.joint (cols.map (column D))) := by
  refine mkJoint_ok D _ cols ?_
  induction cols with
  | nil => rfl
  | cons c l ih => simp [flattenVariables, getVariable, ih]

/-- What is known about the PMF of some columns.
(Models no code: a notion for statements and proofs.) -/
structure PmfOf (D : Data) (cols : List Nat) (pmf : PMF) : Prop where
  ids : pmf.variableIDs = castIds cols
  tab : Tabulates pmf.probabilities mkKey cols.length (freq D cols)

/-- `PMF(variable)` for a variable that stands for columns of the dataset. -/
theorem pmf_ok (D : Data) (hr : D.nrows ≠ 0) {cols : List Nat} (hne : cols ≠ []) {v : Variable}
    (h : IsVarOf D cols v) :
    ∃ pmf, PMF.ofVariable v = .ok pmf ∧ PmfOf D cols pmf ∧ pmf.jointIDs = v.jointIDs := by
  obtain ⟨pmf, e, i, j, nd, ks, vs⟩ := ofVariable_ok v D.nrows (h.len hne) (.inl hr)
  refine ⟨pmf, e, ⟨i.trans h.ids, nd, ?_, ?_⟩, j⟩
  · intro k hk
    have := (ks k).1 hk
    rw [h.instances hne] at this
    obtain ⟨r, _, rfl⟩ := List.mem_map.1 this
    exact ⟨_, by simp, rfl⟩
  · intro l hl
    rw [vs, h.instances hne, count_rows]
    rfl

/-! ## Conditioning -/

theorem castIds_nodup {cols : List Nat} (h : cols.Nodup) : (castIds cols).Nodup :=
  h.map (fun a b hab => by simpa using hab)

theorem castIds_length (cols : List Nat) : (castIds cols).length = cols.length := by
  simp [castIds]

theorem mem_castIds {c : Nat} {cols : List Nat} : (c : Int) ∈ castIds cols ↔ c ∈ cols := by
  simp [castIds]

/-- Reading all variables of a joint key gives back the key. -/
theorem valueOf_all {ids l : List Int} (hn : ids.Nodup) (hl : l.length = ids.length) :
    ids.map (valueOf ids l) = l := by
  apply List.ext_getElem (by simp [hl])
  intro i h1 h2
  simp only [List.getElem_map, valueOf]
  rw [hn.idxOf_getElem i (by simpa using h1), List.getElem?_eq_getElem h2]
  rfl

theorem PmfOf.tuples {D : Data} {cols : List Nat} {pmf : PMF} (h : PmfOf D cols pmf)
    (h2 : 2 ≤ cols.length) : ∀ p ∈ pmf.probabilities, ∃ l, p.1 = .tup l ∧
      l.length = pmf.variableIDs.length := by
  intro p hp
  obtain ⟨l, hl, e⟩ := h.tab.shape p.1 (List.mem_map.2 ⟨p, hp, rfl⟩)
  exact ⟨l, by rw [e, mkKey_of_ne (by omega)], by rw [h.ids, castIds_length, hl]⟩

/-- Conditioning the joint PMF of `A ++ Z` on the PMF of `Z`: under each `z`, a table of the
conditional frequencies of `A`, with tuple keys. -/
theorem conditionOn_pmf {D : Data} {A Z : List Nat} (hn : (A ++ Z).Nodup) (hA : A ≠ [])
    (hZ : Z ≠ []) {joint cond : PMF} (hj : PmfOf D (A ++ Z) joint) (hc : PmfOf D Z cond) :
    ∃ r, joint.conditionOn cond = .ok r ∧ ∀ z, z.length = Z.length →
      Tabulates (CPMF.given r [(mkKey z).toVal]).probabilities .tup A.length
        (fun a => freq D (A ++ Z) (a ++ z) / freq D Z z) := by
  have hlen2 : 2 ≤ (A ++ Z).length := by
    cases A <;> cases Z <;> simp_all; omega
  have hids := castIds_nodup hn
  obtain ⟨r, e, w, _, v⟩ := conditionOn_ok joint cond (by rw [hj.ids]; exact hids) hj.tab.nodup
    (hj.tuples hlen2) (by rw [hc.ids]; simpa [castIds] using hZ)
    (by
      intro c hc'
      rw [hc.ids] at hc'
      rw [hj.ids]
      simp only [castIds, List.map_append, List.mem_append]
      exact .inr hc')
  refine ⟨r, e, fun z hz => ?_⟩
  have hgiven : CPMF.given r [(mkKey z).toVal] = (dictGet r (mkKey z)).getD PMF.empty := by
    rw [CPMF.given_key, mkKey_comps]
  have hfilter : (castIds (A ++ Z)).filter (fun v => v ∉ castIds Z) = castIds A := by
    unfold castIds
    rw [List.map_append, List.filter_append]
    have h1 : (A.map (fun c : Nat => (c : Int))).filter
        (fun v => decide (v ∉ Z.map (fun c : Nat => (c : Int)))) = A.map (fun c : Nat => (c : Int)) := by
      rw [List.filter_eq_self]
      intro v hv
      obtain ⟨c, hc', rfl⟩ := List.mem_map.1 hv
      simp only [decide_eq_true_eq]
      intro hm
      have hcz : c ∈ Z := by simpa using hm
      exact (List.disjoint_of_nodup_append hn) hc' hcz
    have h2 : (Z.map (fun c : Nat => (c : Int))).filter
        (fun v => decide (v ∉ Z.map (fun c : Nat => (c : Int)))) = [] := by
      rw [List.filter_eq_nil_iff]
      intro v hv; simpa using hv
    rw [h1, h2, List.append_nil]
  rw [hj.ids, hc.ids, hfilter] at w
  rw [hj.ids, hc.ids, hfilter] at v
  rw [hgiven]
  refine ⟨w.inner _, ?_, ?_⟩
  · intro k hk
    obtain ⟨xs, e1, e2⟩ := w.shape _ k hk
    exact ⟨xs, by rw [e2, castIds_length], e1⟩
  · intro a ha
    have hl : (a ++ z).length = (castIds (A ++ Z)).length := by
      simp [castIds, ha, hz]
    have hall := valueOf_all hids hl
    have hsplit : castIds (A ++ Z) = castIds A ++ castIds Z := by simp [castIds]
    rw [hsplit, List.map_append, ← hsplit] at hall
    have hAl : ((castIds A).map (valueOf (castIds (A ++ Z)) (a ++ z))).length = a.length := by
      simp [castIds, ha]
    obtain ⟨ea, ez⟩ := List.append_inj hall hAl
    have := v (a ++ z) hl
    rw [ea, ez] at this
    unfold val2 at this
    rw [this, hc.tab.value z hz]
    have := hj.tab.value (a ++ z) (by simp [ha, hz])
    rw [mkKey_of_ne (by simp at hlen2 ⊢; omega)] at this
    rw [this]

/-! ## The tables handed to the computation of G -/

/-- Tables for the columns `X`, `Y`, `Z` of the dataset.
(Models no code: a notion for statements and proofs.) -/
def GoodTables (D : Data) (X Y : Nat) (Z : List Nat) (t : Tables) : Prop :=
  ∃ eZ eX eY, CmiTables Z.length (joint3 D X Y Z) (values D X) (values D Y) (observed D Z)
    eZ eX eY t.PrXYcZ t.PrXcZ t.PrYcZ t.PrZ

/-- Common part of the constructions of `CmiTables`. -/
theorem cmiTables_mk {D : Data} {X Y : Nat} {Z : List Nat} {eZ eX eY : List Int → Key}
    {t : Tables}
    (keyZ_inj : ∀ l l' : List Int, l.length = Z.length → l'.length = Z.length →
      eZ l = eZ l' → l = l')
    (keyZ : ∀ z : List Int, z.length = Z.length → mkKey (eZ z).comps = eZ z)
    (keyX : ∀ l, (eX l).comps = l) (keyY : ∀ l, (eY l).comps = l)
    (tabZ : Tabulates t.PrZ.probabilities eZ Z.length (freq D Z))
    (tabX : ∀ z, z.length = Z.length → freq D Z z ≠ 0 →
      Tabulates (t.PrXcZ.given [(eZ z).toVal]).probabilities eX 1
        (fun l => freq D (X :: Z) (l.headD 0 :: z) / freq D Z z))
    (tabY : ∀ z, z.length = Z.length → freq D Z z ≠ 0 →
      Tabulates (t.PrYcZ.given [(eZ z).toVal]).probabilities eY 1
        (fun l => freq D (Y :: Z) (l.headD 0 :: z) / freq D Z z))
    (valXY : ∀ z, z.length = Z.length → freq D Z z ≠ 0 → ∀ x y,
      dictVal (t.PrXYcZ.given [(eZ z).toVal]).probabilities (.tup [x, y]) =
        freq D (X :: Y :: Z) (x :: y :: z) / freq D Z z) :
    CmiTables Z.length (joint3 D X Y Z) (values D X) (values D Y) (observed D Z)
      eZ eX eY t.PrXYcZ t.PrXcZ t.PrYcZ t.PrZ := by
  refine ⟨joint3_nonneg D X Y Z, fun z hz => observed_length D hz, ?_, ?_, ?_, keyZ_inj, keyZ,
    keyX, keyY, ?_, ?_, ?_, ?_⟩
  · intro x y z h; exact mem_values_of_freq D h
  · intro x y z h
    unfold joint3 at h
    rw [freq_swap] at h
    exact mem_values_of_freq D h
  · intro x y z _ h
    exact mem_observed_tail D (mem_observed_tail D ((freq_ne_zero_iff D _ _).1 h))
  · simp only [sum_joint3_xy]; exact tabZ
  · intro z hz h
    rw [sum_joint3_xy] at h
    rw [sum_joint3_xy]
    simp only [sum_joint3_y]
    exact tabX z hz h
  · intro z hz h
    rw [sum_joint3_xy] at h
    rw [sum_joint3_xy]
    simp only [sum_joint3_x]
    exact tabY z hz h
  · intro z hz h x y
    rw [sum_joint3_xy] at h
    rw [sum_joint3_xy]
    exact valXY z hz h x y

theorem _root_.Mbtk.Tabulates.congr {κ : Type} [DecidableEq κ] {d : List (κ × ℚ)} {e : List Int → κ} {n : Nat}
    {P Q : List Int → ℚ} (h : Tabulates d e n P) (hPQ : ∀ l, l.length = n → P l = Q l) :
    Tabulates d e n Q :=
  ⟨h.nodup, h.shape, fun l hl => by rw [h.value l hl, hPQ l hl]⟩

theorem tabulates_omega (D : Data) (hr : D.nrows ≠ 0) :
    Tabulates omegaPMF.probabilities (fun _ => Key.one 1) 0 (freq D []) := by
  refine ⟨by simp [omegaPMF], ?_, ?_⟩
  · intro k hk
    simp only [omegaPMF, List.map_cons, List.map_nil, List.mem_singleton] at hk
    exact ⟨[], rfl, hk⟩
  · intro l hl
    have : l = [] := by simpa using hl
    subst this
    rw [freq_nil D hr]
    simp [omegaPMF, dictVal, dictGet]

theorem given_omega (pmf : PMF) : CPMF.given (omegaCPMF pmf) [(Key.one 1).toVal] = pmf := by
  rw [CPMF.given_key]
  simp [Key.comps, mkKey, omegaCPMF, dictGet]

/-- Without conditioning variables: the marginal tables under the single value of Ω. -/
theorem goodTables_omega {D : Data} (hr : D.nrows ≠ 0) {X Y : Nat} {prXY prX prY : PMF}
    (hXY : Tabulates prXY.probabilities mkKey 2 (freq D [X, Y]))
    (hX : Tabulates prX.probabilities mkKey 1 (freq D [X]))
    (hY : Tabulates prY.probabilities mkKey 1 (freq D [Y])) :
    GoodTables D X Y [] ⟨omegaCPMF prXY, omegaCPMF prX, omegaCPMF prY, omegaPMF⟩ := by
  refine ⟨fun _ => .one 1, mkKey, mkKey, cmiTables_mk ?_ ?_ mkKey_comps mkKey_comps
    (tabulates_omega D hr) ?_ ?_ ?_⟩
  · intro l l' h h' _
    rw [List.length_eq_zero_iff.1 h, List.length_eq_zero_iff.1 h']
  · intro z _; rfl
  · intro z hz _
    have hz0 : z = [] := by simpa using hz
    subst hz0
    rw [given_omega]
    refine hX.congr (fun l hl => ?_)
    rw [freq_nil D hr, div_one, ← length_one hl]
  · intro z hz _
    have hz0 : z = [] := by simpa using hz
    subst hz0
    rw [given_omega]
    refine hY.congr (fun l hl => ?_)
    rw [freq_nil D hr, div_one, ← length_one hl]
  · intro z hz _ x y
    have hz0 : z = [] := by simpa using hz
    subst hz0
    rw [given_omega, freq_nil D hr, div_one]
    exact hXY.value [x, y] rfl

/-- With conditioning variables, from the conditional tables. -/
theorem goodTables_cond {D : Data} {X Y : Nat} {Z : List Nat} {cXY cX cY : CPMF} {prZ : PMF}
    {eX eY : List Int → Key} (kX : ∀ l, (eX l).comps = l) (kY : ∀ l, (eY l).comps = l)
    (hZ : Tabulates prZ.probabilities mkKey Z.length (freq D Z))
    (hXY : ∀ z, z.length = Z.length → freq D Z z ≠ 0 → ∀ x y,
      dictVal (CPMF.given cXY [(mkKey z).toVal]).probabilities (.tup [x, y]) =
        freq D (X :: Y :: Z) (x :: y :: z) / freq D Z z)
    (hX : ∀ z, z.length = Z.length → freq D Z z ≠ 0 →
      Tabulates (CPMF.given cX [(mkKey z).toVal]).probabilities eX 1
        (fun a => freq D (X :: Z) (a ++ z) / freq D Z z))
    (hY : ∀ z, z.length = Z.length → freq D Z z ≠ 0 →
      Tabulates (CPMF.given cY [(mkKey z).toVal]).probabilities eY 1
        (fun a => freq D (Y :: Z) (a ++ z) / freq D Z z)) :
    GoodTables D X Y Z ⟨cXY, cX, cY, prZ⟩ := by
  refine ⟨mkKey, eX, eY, cmiTables_mk (fun l l' _ _ h => mkKey_inj h) ?_ kX kY hZ ?_ ?_ hXY⟩
  · intro z _; rw [mkKey_comps]
  · intro z hz h0
    refine (hX z hz h0).congr (fun l hl => ?_)
    conv_lhs => rw [length_one hl]
    rfl
  · intro z hz h0
    refine (hY z hz h0).congr (fun l hl => ?_)
    conv_lhs => rw [length_one hl]
    rfl

end Mbtk.Stats
