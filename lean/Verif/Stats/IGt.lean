import Verif.Props.CITestProps
/-!
# Model and proofs for `mbtk/algorithms/basic/IGt.py`

Vectors are lists of integers, arithmetic is exact.
-/
namespace Mbtk.Stats
open Mbtk.ADTree (Data)
open Spec Real

/-! ## Model -/

/-- `l[0:Q]`; a negative `Q` counts from the end. IGt.py 25-42. -/
def sliceFromZero {α : Type} (l : List α) (Q : Int) : List α :=
  if 0 ≤ Q then l.take Q.toNat else l.take (l.length - (-Q).toNat)

open Classical in
/-- `sorted(IG_per_feature, key=itemgetter(1), reverse=True)`: IGt.py 39, 56; stable. -/
noncomputable def sortDescending (l : List (Nat × ℝ)) : List (Nat × ℝ) :=
  l.insertionSort (fun a b => b.2 ≤ a.2)

/-- `AlgorithmIGt.select_features()`: IGt.py 16-41.  `X` holds the features, the objective is
the column `objective` of `Y`. -/
noncomputable def igt (X Y : Data) (objective : Nat) (Q : Int) : Except Err (List Nat) := do
  let scores ← (List.range X.ncols).mapM (fun f => do
    let ig ← miOfVariables (.number 2 false) (getVariable X f) (getVariable Y objective)
    pure (f, ig))
  pure ((sliceFromZero (sortDescending scores) Q).map Prod.fst)

/-- `numpy.sum`. IGt.py 79-97. -/
def npSum (X : List Int) : Int := X.sum

/-- `numpy.logical_not`. IGt.py 88-97. -/
def npNot (X : List Int) : List Int := X.map (fun v => if v = 0 then 1 else 0)

/-- `numpy.logical_and`. IGt.py 88-97. -/
def npAnd (X Y : List Int) : List Int :=
  List.zipWith (fun a b => if a ≠ 0 ∧ b ≠ 0 then 1 else 0) X Y

/-- `calculate_pmf__binary(X)[v]`: IGt.py 79-84. -/
def binaryPmf (X : List Int) (v : Bool) : ℚ :=
  let p1 := (npSum X : ℚ) / X.length
  if v then p1 else 1 - p1

/-- `calculate_joint_pmf2__binary(X, Y)[(x, y)]`: IGt.py 88-97. -/
def binaryJoint (X Y : List Int) (x y : Bool) : ℚ :=
  (npSum (npAnd (if x then X else npNot X) (if y then Y else npNot Y)) : ℚ) / X.length

/-- `pmi(x, y)`: IGt.py 67-73. -/
noncomputable def binaryPmi (X Y : List Int) (x y : Bool) : ℝ :=
  let marginals := binaryPmf X x * binaryPmf Y y
  let joint := binaryJoint X Y x y
  if joint = 0 ∨ marginals = 0 then 0 else joint * (log (joint / marginals) / log 2)

/-- `MI__binary(X, Y)`: IGt.py 62-75. -/
noncomputable def miBinary (X Y : List Int) : ℝ :=
  binaryPmi X Y false false + binaryPmi X Y false true + binaryPmi X Y true false +
    binaryPmi X Y true true

/-- A column of a matrix as a vector: `get_column_X`/`get_column_Y`. IGt.py 25-59. -/
def columnVector (D : Data) (c : Nat) : List Int := (List.range D.nrows).map (fun r => D.cell r c)

/-- `algorithm_IGt__binary(datasetmatrix, parameters)`: IGt.py 45-58. -/
noncomputable def igtBinary (X Y : Data) (objective : Nat) (Q : Int) : List Nat :=
  let scores := (List.range X.ncols).map (fun f =>
    (f, miBinary (columnVector X f) (columnVector Y objective)))
  (sliceFromZero (sortDescending scores) Q).map Prod.fst

/-! ## Specification -/

namespace Spec

/-- Two vectors as a dataset with two columns. (Specification.) -/
def pairData (xs ys : List Int) : Data where
  nrows := xs.length
  ncols := 2
  cell r c := if c = 0 then xs.getD r 0 else ys.getD r 0
  values _ := []
  threshold := 0

/-- Mutual information of two vectors, in bits. (Specification.) -/
noncomputable def mi (xs ys : List Int) : ℝ := cmi (pairData xs ys) 0 1 [] / log 2

end Spec

/-! ## Proofs -/

theorem pmf_tab_of_instances {P : Data} (hr : P.nrows ≠ 0) {cols : List Nat} {v : Variable}
    (hl : v.len = .ok P.nrows)
    (hi : v.instances = (List.range P.nrows).map (fun r => mkKey (cols.map (P.cell r)))) :
    ∃ pmf, PMF.ofVariable v = .ok pmf ∧ Tabulates pmf.probabilities mkKey cols.length (freq P cols) := by
  obtain ⟨pmf, e, i, j, nd, ks, vs⟩ := ofVariable_ok v P.nrows hl (.inl hr)
  refine ⟨pmf, e, nd, ?_, ?_⟩
  · intro k hk
    have := (ks k).1 hk
    rw [hi] at this
    obtain ⟨r, _, rfl⟩ := List.mem_map.1 this
    exact ⟨_, by simp, rfl⟩
  · intro l hl
    rw [vs, hi, count_rows]
    rfl

/-- `mutual_information` of two plain variables with the same number of instances. -/
theorem mi_of_columns (a b : Column) (hne : a.instances ≠ [])
    (hlen : a.instances.length = b.instances.length) :
    miOfVariables (.number 2 false) (.single a) (.single b) =
      .ok (mi a.instances b.instances) := by
  set P := pairData a.instances b.instances with hP
  have hn : P.nrows = a.instances.length := rfl
  have hr : P.nrows ≠ 0 := by rw [hn]; simpa using hne
  have hj : mkJoint [.single a, .single b] = .ok (.joint [a, b]) := by
    unfold mkJoint
    simp only [flattenVariables, validateLengths, hlen]
    cases hl : [a, b].all (·.loaded)
    · rfl
    · simp only [ne_eq, not_true_eq_false, if_false, if_true]; rfl
  have hia : HasInstances (.single a) P.nrows := ⟨by simp [columns], by simp [columns, hn]⟩
  have hib : HasInstances (.single b) P.nrows := ⟨by simp [columns], by simp [columns, hn, hlen]⟩
  have hij : HasInstances (.joint [a, b]) P.nrows :=
    ⟨by simp [columns], by simp [columns, hn, hlen]⟩
  obtain ⟨pXY, e1, t1⟩ := pmf_tab_of_instances (cols := [0, 1]) hr (len_eq hij) (instances_eq hij)
  obtain ⟨pX, e2, t2⟩ := pmf_tab_of_instances (cols := [0]) hr (len_eq hia) (instances_eq hia)
  obtain ⟨pY, e3, t3⟩ := pmf_tab_of_instances (cols := [1]) hr (len_eq hib) (instances_eq hib)
  unfold miOfVariables
  rw [hj]
  show (PMF.ofVariable (.joint [a, b]) >>= _) = _
  rw [e1, e2, e3, createLogarithm_ok (b := 2) (.inr (.inl ⟨.inl rfl, rfl⟩))]
  show Except.ok _ = _
  rw [mutualInformation_eq hr t1 t2 t3 (log_pos (by norm_num))]
  rfl

/-! ### Binary vectors -/

theorem sum_indicator {α : Type} (l : List α) (p : α → Prop) [DecidablePred p] :
    (l.map (fun r => if p r then (1 : Int) else 0)).sum = (l.filter (fun r => p r)).length := by
  induction l with
  | nil => rfl
  | cons a l ih => by_cases h : p a <;> simp [h, ih] <;> omega

/-- The integer for a bit. (Models no code: a notion for statements and proofs.) -/
def bit (b : Bool) : Int := if b then 1 else 0

/-- Every entry is 0 or 1. (Specification.) -/
def IsBinary (xs : List Int) : Prop := ∀ v ∈ xs, v = 0 ∨ v = 1

theorem getD_binary {xs : List Int} (h : IsBinary xs) (r : Nat) : xs.getD r 0 = 0 ∨ xs.getD r 0 = 1 := by
  by_cases hr : r < xs.length
  · have : xs.getD r 0 = xs[r] := by simp [hr]
    rw [this]; exact h _ (List.getElem_mem hr)
  · left; simp [List.getD, List.getElem?_eq_none (Nat.le_of_not_lt hr)]

theorem choose_eq (xs : List Int) (h : IsBinary xs) (b : Bool) :
    (if b then xs else npNot xs) =
      (List.range xs.length).map (fun r => if xs.getD r 0 = bit b then (1 : Int) else 0) := by
  cases b with
  | true =>
    simp only [if_true]
    conv_lhs => rw [list_eq_range xs]
    apply List.map_congr_left
    intro r _
    rcases getD_binary h r with e | e <;> rw [e] <;> rfl
  | false =>
    simp only [Bool.false_eq_true, if_false, npNot]
    conv_lhs => rw [list_eq_range xs]
    rw [List.map_map]
    apply List.map_congr_left
    intro r _
    simp [bit]

theorem binaryJoint_eq {xs ys : List Int} (hx : IsBinary xs) (hy : IsBinary ys)
    (hl : xs.length = ys.length) (x y : Bool) :
    binaryJoint xs ys x y = freq (pairData xs ys) [0, 1] [bit x, bit y] := by
  unfold binaryJoint npAnd npSum freq Mbtk.ADTree.Spec.rowsWith
  rw [choose_eq xs hx, choose_eq ys hy, ← hl, List.zipWith_map, List.zipWith_self]
  have : (List.range xs.length).map (fun r =>
      if (if xs.getD r 0 = bit x then (1 : Int) else 0) ≠ 0 ∧
        (if ys.getD r 0 = bit y then (1 : Int) else 0) ≠ 0 then (1 : Int) else 0) =
      (List.range xs.length).map (fun r =>
        if [0, 1].map ((pairData xs ys).cell r) = [bit x, bit y] then (1 : Int) else 0) := by
    apply List.map_congr_left
    intro r _
    by_cases h1 : xs.getD r 0 = bit x <;> by_cases h2 : ys.getD r 0 = bit y <;>
      simp [pairData, h1, h2]
  rw [this, sum_indicator]
  rfl

theorem freq_single_add {xs ys : List Int} (hx : IsBinary xs) (hne : xs ≠ []) :
    freq (pairData xs ys) [0] [0] + freq (pairData xs ys) [0] [1] = 1 := by
  have h := sum_freq (pairData xs ys) 0 [] []
  have hn : (pairData xs ys).nrows ≠ 0 := by simpa [pairData] using hne
  rw [freq_nil _ hn] at h
  rw [← h]
  have hsub : Spec.values (pairData xs ys) 0 ⊆ {0, 1} := by
    intro v hv
    obtain ⟨r, _, rfl⟩ := Finset.mem_image.1 hv
    rcases getD_binary hx r with e | e <;> simp [pairData, ← List.getD_eq_getElem?_getD, e]
  rw [Finset.sum_subset hsub (fun v _ hv => by
    by_contra hne
    exact hv (mem_values_of_freq _ hne))]
  rw [Finset.sum_pair (by decide)]

theorem binaryPmf_eq {xs ys : List Int} (hx : IsBinary xs) (hne : xs ≠ []) (x : Bool) :
    binaryPmf xs x = freq (pairData xs ys) [0] [bit x] := by
  have h1 : (npSum xs : ℚ) / xs.length = freq (pairData xs ys) [0] [1] := by
    unfold npSum freq Mbtk.ADTree.Spec.rowsWith
    have := choose_eq xs hx true
    simp only [if_true] at this
    conv_lhs => rw [this]
    rw [sum_indicator]
    simp [pairData, bit]
  unfold binaryPmf
  dsimp only
  rw [h1]
  have := freq_single_add (ys := ys) hx hne
  cases x with
  | true => rfl
  | false => simp only [Bool.false_eq_true, if_false, bit]; linarith

theorem freq_second (xs ys : List Int) (hl : xs.length = ys.length) (v : Int) :
    freq (pairData xs ys) [1] [v] = freq (pairData ys xs) [0] [v] := by
  unfold freq Mbtk.ADTree.Spec.rowsWith
  simp [pairData, hl]

/-- **C24.** For binary vectors of the same non-zero length, `MI__binary` is their mutual
information in bits. -/
theorem mi_binary_exact (xs ys : List Int) (hx : IsBinary xs) (hy : IsBinary ys) (hne : xs ≠ [])
    (hl : xs.length = ys.length) : miBinary xs ys = mi xs ys := by
  have hn : (pairData xs ys).nrows ≠ 0 := by simpa [pairData] using hne
  have hney : ys ≠ [] := by
    intro e; rw [e] at hl; exact hne (List.length_eq_zero_iff.1 hl)
  have hterm : ∀ x y, binaryPmi xs ys x y =
      (freq (pairData xs ys) [0, 1] [bit x, bit y] : ℝ) *
        log ((freq (pairData xs ys) [0, 1] [bit x, bit y] : ℝ) *
          (freq (pairData xs ys) [] [] : ℝ) /
          ((freq (pairData xs ys) [0] [bit x] : ℝ) * (freq (pairData xs ys) [1] [bit y] : ℝ))) /
        log 2 := by
    intro x y
    unfold binaryPmi
    dsimp only
    rw [binaryJoint_eq hx hy hl, binaryPmf_eq (ys := ys) hx hne, binaryPmf_eq (ys := xs) hy hney,
      ← freq_second xs ys hl, freq_nil _ hn]
    split
    · rename_i h
      rcases h with h | h
      · simp [h]
      · have : ((freq (pairData xs ys) [0] [bit x] : ℝ) * (freq (pairData xs ys) [1] [bit y] : ℝ)) = 0 := by
          exact_mod_cast h
        simp [this]
    · push_cast
      rw [mul_one, mul_div_assoc]
  have hval : ∀ (D : Data) (c : Nat), (∀ r, D.cell r c = 0 ∨ D.cell r c = 1) →
      Spec.values D c ⊆ {0, 1} := by
    intro D c h v hv
    obtain ⟨r, _, rfl⟩ := Finset.mem_image.1 hv
    rcases h r with e | e <;> simp [e]
  have h0 := hval (pairData xs ys) 0 (fun r => getD_binary hx r)
  have h1 := hval (pairData xs ys) 1 (fun r => getD_binary hy r)
  have hobs : observed (pairData xs ys) [] = {[]} := by
    unfold observed
    ext k
    simp only [Finset.mem_image, List.map_nil, Finset.mem_singleton]
    exact ⟨fun ⟨_, _, h⟩ => h.symm, fun h => ⟨0, Finset.mem_range.2 (Nat.pos_of_ne_zero hn), h.symm⟩⟩
  unfold mi cmi
  rw [hobs, Finset.sum_singleton]
  rw [Finset.sum_subset h0 (fun x _ hx => Finset.sum_eq_zero (fun y _ => by
    have : freq (pairData xs ys) [0, 1] [x, y] = 0 := by
      by_contra hne; exact hx (mem_values_of_freq _ hne)
    simp [this]))]
  have hinner : ∀ x : Int, ∑ y ∈ Spec.values (pairData xs ys) 1,
      (freq (pairData xs ys) [0, 1] [x, y] : ℝ) *
        log ((freq (pairData xs ys) [0, 1] [x, y] : ℝ) * (freq (pairData xs ys) [] [] : ℝ) /
          ((freq (pairData xs ys) [0] [x] : ℝ) * (freq (pairData xs ys) [1] [y] : ℝ))) =
      ∑ y ∈ {0, 1}, (freq (pairData xs ys) [0, 1] [x, y] : ℝ) *
        log ((freq (pairData xs ys) [0, 1] [x, y] : ℝ) * (freq (pairData xs ys) [] [] : ℝ) /
          ((freq (pairData xs ys) [0] [x] : ℝ) * (freq (pairData xs ys) [1] [y] : ℝ))) := by
    intro x
    refine Finset.sum_subset h1 (fun y _ hy => ?_)
    have : freq (pairData xs ys) [0, 1] [x, y] = 0 := by
      by_contra hne
      rw [freq_swap] at hne
      exact hy (mem_values_of_freq _ hne)
    simp [this]
  rw [Finset.sum_congr rfl (fun x _ => hinner x)]
  unfold miBinary
  rw [hterm, hterm, hterm, hterm, Finset.sum_pair (by decide), Finset.sum_pair (by decide),
    Finset.sum_pair (by decide)]
  simp only [bit, if_true, Bool.false_eq_true, if_false]
  ring

example : IsBinary [0, 1, 1, 0] ∧ IsBinary [1, 1, 0, 0] := by unfold IsBinary; decide

/-- Finding: on vectors that are not binary, `MI__binary` is not the mutual information; it can
even be negative. -/
theorem mi_binary_not_binary : ∃ xs ys : List Int, xs.length = ys.length ∧ miBinary xs ys < 0 := by
  refine ⟨[2, 0], [2, 0], rfl, ?_⟩
  have h : miBinary [2, 0] [2, 0] = (1 / 2) * (log (1 / 2) / log 2) := by
    have e1 : binaryPmi [2, 0] [2, 0] false false = 0 := by
      have : binaryPmf [2, 0] false = 0 := by decide +kernel
      simp [binaryPmi, this]
    have e2 : binaryPmi [2, 0] [2, 0] false true = 0 := by
      have : binaryPmf [2, 0] false = 0 := by decide +kernel
      simp [binaryPmi, this]
    have e3 : binaryPmi [2, 0] [2, 0] true false = 0 := by
      have : binaryPmf [2, 0] false = 0 := by decide +kernel
      simp [binaryPmi, this]
    have e4 : binaryPmi [2, 0] [2, 0] true true = (1 / 2) * (log (1 / 2) / log 2) := by
      have h1 : binaryPmf [2, 0] true = 1 := by decide +kernel
      have h2 : binaryJoint [2, 0] [2, 0] true true = 1 / 2 := by decide +kernel
      simp [binaryPmi, h1, h2]
    rw [miBinary, e1, e2, e3, e4]; ring
  rw [h]
  have h2 : 0 < log 2 := log_pos (by norm_num)
  have h3 : log (1 / 2) < 0 := log_neg (by norm_num) (by norm_num)
  have : log (1 / 2) / log 2 < 0 := div_neg_of_neg_of_pos h3 h2
  linarith

/-! ### Selection -/

/-- Better score first; among equal scores, the smaller index first. (Specification.) -/
def Before (score : Nat → ℝ) (f g : Nat) : Prop := score g < score f ∨ score g = score f ∧ f < g

theorem sort_pairwise (l : List (Nat × ℝ)) (h : l.Pairwise (fun a b => a.1 < b.1)) :
    (sortDescending l).Pairwise (fun a b => b.2 < a.2 ∨ b.2 = a.2 ∧ a.1 < b.1) := by
  classical
  unfold sortDescending
  induction l with
  | nil => exact List.Pairwise.nil
  | cons a l ih =>
    rw [List.insertionSort_cons]
    have ih' := ih (List.pairwise_cons.1 h).2
    have hlt : ∀ b ∈ l.insertionSort (fun a b => b.2 ≤ a.2), a.1 < b.1 := by
      intro b hb
      exact (List.pairwise_cons.1 h).1 b ((List.mem_insertionSort _).1 hb)
    revert ih' hlt
    generalize l.insertionSort (fun a b => b.2 ≤ a.2) = s
    intro ih' hlt
    clear ih h
    induction s with
    | nil => simp
    | cons b s ih =>
      obtain ⟨hb, hs⟩ := List.pairwise_cons.1 ih'
      by_cases hab : b.2 ≤ a.2
      · rw [List.orderedInsert, if_pos hab]
        refine List.pairwise_cons.2 ⟨?_, ih'⟩
        intro c hc
        have hca := hlt c hc
        have hcb : c.2 ≤ b.2 := by
          rcases List.mem_cons.1 hc with rfl | hc
          · exact le_refl _
          · rcases hb c hc with h | h
            · exact h.le
            · exact h.1.le
        rcases (hcb.trans hab).lt_or_eq with h | h
        · exact .inl h
        · exact .inr ⟨h, hca⟩
      · rw [List.orderedInsert, if_neg hab]
        refine List.pairwise_cons.2 ⟨?_, ih hs (fun c hc => hlt c (List.mem_cons_of_mem _ hc))⟩
        intro c hc
        rcases (List.mem_orderedInsert _).1 hc with rfl | hc
        · exact .inl (not_le.1 hab)
        · exact hb c hc

/-- `sel` is the selection of `Q` out of `n` features by `score`. (Specification.) -/
structure IsTop (n : Nat) (score : Nat → ℝ) (Q : Nat) (sel : List Nat) : Prop where
  size : sel.length = min Q n
  nodup : sel.Nodup
  bound : ∀ f ∈ sel, f < n
  sorted : sel.Pairwise (Before score)
  best : ∀ f ∈ sel, ∀ g < n, g ∉ sel → Before score f g

theorem selection_top (n : Nat) (score : Nat → ℝ) (Q : Nat) :
    IsTop n score Q ((sliceFromZero (sortDescending
      ((List.range n).map (fun f => (f, score f)))) Q).map Prod.fst) := by
  classical
  set l := (List.range n).map (fun f => (f, score f)) with hl
  have hp : (sortDescending l).Perm l := List.perm_insertionSort _ _
  have hpw := sort_pairwise l (by
    rw [hl, List.pairwise_map]
    exact List.pairwise_lt_range)
  have hsc : ∀ p ∈ sortDescending l, p.2 = score p.1 ∧ p.1 < n := by
    intro p hm
    obtain ⟨f, hf, rfl⟩ := List.mem_map.1 (hp.mem_iff.1 hm)
    exact ⟨rfl, List.mem_range.1 hf⟩
  set s := (sortDescending l).map Prod.fst with hs
  have hperm : s.Perm (List.range n) := by
    have := hp.map Prod.fst
    rw [hl, List.map_map] at this
    simpa [Function.comp_def] using this
  have hbefore : s.Pairwise (Before score) := by
    rw [hs, List.pairwise_map]
    refine hpw.imp_of_mem ?_
    intro a b ha hb h
    unfold Before
    rw [← (hsc a ha).1, ← (hsc b hb).1]
    exact h
  have hsel : (sliceFromZero (sortDescending l) Q).map Prod.fst = s.take Q := by
    unfold sliceFromZero
    rw [if_pos (by omega), List.map_take]
    simp [hs]
  rw [hsel]
  have hnd : s.Nodup := hperm.nodup_iff.2 List.nodup_range
  refine ⟨?_, hnd.sublist (List.take_sublist _ _), ?_, hbefore.sublist (List.take_sublist _ _), ?_⟩
  · rw [List.length_take, hperm.length_eq, List.length_range]
  · intro f hf
    exact List.mem_range.1 (hperm.mem_iff.1 (List.mem_of_mem_take hf))
  · intro f hf g hg hgn
    have hgs : g ∈ s := hperm.mem_iff.2 (List.mem_range.2 hg)
    rw [← List.take_append_drop Q s] at hbefore hgs
    rcases List.mem_append.1 hgs with h | h
    · exact absurd h hgn
    · exact (List.pairwise_append.1 hbefore).2.2 f hf g h

theorem mapM_ok {α β : Type} (f : α → Except Err β) (g : α → β) (l : List α)
    (h : ∀ a ∈ l, f a = .ok (g a)) : l.mapM f = .ok (l.map g) := by
  induction l with
  | nil => rfl
  | cons a l ih =>
    rw [List.mapM_cons, h a (by simp), ih (fun b hb => h b (List.mem_cons_of_mem _ hb))]
    rfl

theorem igt_scores (X Y : Data) (objective : Nat) (hr : X.nrows ≠ 0) (hxy : X.nrows = Y.nrows)
    (Q : Int) : igt X Y objective Q = .ok ((sliceFromZero (sortDescending
      ((List.range X.ncols).map (fun f => (f, mi (columnVector X f) (columnVector Y objective)))))
      Q).map Prod.fst) := by
  unfold igt
  rw [mapM_ok _ (fun f => (f, mi (columnVector X f) (columnVector Y objective)))]
  · rfl
  · intro f _
    have := mi_of_columns (column X f) (column Y objective) (by simpa [column] using hr)
      (by simp [column, hxy])
    unfold getVariable
    rw [this]
    rfl

/-- **C23.** `AlgorithmIGt.select_features` returns `min(Q, #features)` distinct features, by
decreasing mutual information with the objective (ties by index), and every feature left out
comes after every selected one. -/
theorem igt_selects_top (X Y : Data) (objective : Nat) (hr : X.nrows ≠ 0) (hxy : X.nrows = Y.nrows)
    (Q : Nat) : ∃ sel, igt X Y objective Q = .ok sel ∧
      IsTop X.ncols (fun f => mi (columnVector X f) (columnVector Y objective)) Q sel :=
  ⟨_, igt_scores X Y objective hr hxy Q, selection_top _ _ _⟩

/-- **C24**, the binary variant of the algorithm selects the same features on binary data, for
every `Q` (also negative). -/
theorem igt_binary_agrees (X Y : Data) (objective : Nat) (hr : X.nrows ≠ 0) (hxy : X.nrows = Y.nrows)
    (hX : ∀ f < X.ncols, IsBinary (columnVector X f)) (hY : IsBinary (columnVector Y objective))
    (Q : Int) : igt X Y objective Q = .ok (igtBinary X Y objective Q) := by
  rw [igt_scores X Y objective hr hxy]
  unfold igtBinary
  dsimp only
  have : (List.range X.ncols).map (fun f =>
        (f, miBinary (columnVector X f) (columnVector Y objective))) =
      (List.range X.ncols).map (fun f => (f, mi (columnVector X f) (columnVector Y objective))) := by
    apply List.map_congr_left
    intro f hf
    rw [mi_binary_exact _ _ (hX f (List.mem_range.1 hf)) hY (by simpa [columnVector] using hr)
      (by simp [columnVector, hxy])]
  rw [this]

/-- Finding: a negative `Q` is taken as "all but the last |Q|". -/
theorem igt_negative_Q (l : List (Nat × ℝ)) (k : Nat) (hk : k ≠ 0) :
    sliceFromZero l (-(k : Int)) = l.take (l.length - k) := by
  unfold sliceFromZero
  rw [if_neg (by omega)]
  simp

open Mbtk.ADTree in
example : exampleData.nrows ≠ 0 ∧ exampleData.nrows = exampleData.nrows ∧
    IsBinary (columnVector exampleData 0) := by
  unfold IsBinary; decide

end Mbtk.Stats
