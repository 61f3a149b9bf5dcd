import Verif.Fp.Mi
import Verif.Fp.GStat
import Verif.Stats.IGt
/-!
# Mutual information and the selection of features (`IGt`) in floating point (C96)

`mbtk/math/infotheory.py` and `mbtk/algorithms/basic/IGt.py` with every operation on `float`s rounded to
binary64; the exact counterparts are C23, C24, C30.
-/
namespace Mbtk.Fp
open Mbtk Mbtk.Stats Mbtk.Stats.Spec
open Mbtk.ADTree (Data)
open Real (log)

/-! ## Model -/

/-- The body of the inner loop: infotheory.py 19-24. -/
def miStepF (flog2 : ℚ → ℚ) (s pxy px py : ℚ) : ℚ :=
  if pxy = 0 ∨ px = 0 ∨ py = 0 then s else fl (s + miTermF flog2 pxy px py)

/-- `mutual_information(PrXY, PrX, PrY)`, base 2: infotheory.py 8-25. -/
def miF (flog2 : ℚ → ℚ) (PrXY PrX PrY : PMF) : ℚ :=
  PrX.probabilities.foldl (fun s x =>
    PrY.probabilities.foldl (fun s y => miStepF flog2 s (PrXY.p [x.1.toVal, y.1.toVal]) x.2 y.2) s) 0

/-- `mutual_information(*calculate_pmf_for_mi(X, Y))`: infotheory.py 8-25, 51-58. -/
def miOfVariablesF (flog2 : ℚ → ℚ) (X Y : Variable) : Except Err ℚ := do
  let j ← mkJoint [X, Y]
  let prXY ← ofVariableF j
  let prX ← ofVariableF X
  let prY ← ofVariableF Y
  pure (miF flog2 prXY prX prY)

/-- `AlgorithmIGt.select_features()`: IGt.py 16-41; the scores are `float`s (sorting them as real
numbers or as rationals is the same). -/
noncomputable def igtF (flog2 : ℚ → ℚ) (X Y : Data) (objective : Nat) (Q : Int) :
    Except Err (List Nat) := do
  let scores ← (List.range X.ncols).mapM (fun f => do
    let ig ← miOfVariablesF flog2 (getVariable X f) (getVariable Y objective)
    pure (f, (ig : ℝ)))
  pure ((sliceFromZero (sortDescending scores) Q).map Prod.fst)

/-! ## Specification -/

/-- The error allowed for the mutual information of two vectors: the number of value pairs that occur (plus a
constant) times the binary logarithm of the length (plus a constant), in units of 2⁻⁵³. (Specification.) -/
noncomputable def miError (xs ys : List Int) : ℝ :=
  ((observed (pairData xs ys) [0, 1]).card + 17) * (log xs.length / log 2 + 2) / 2 ^ 53

/-! ## PMFs -/

/-- The same table, every probability rounded. (Models no code: a notion for statements and proofs.) -/
def rounded (pmf : PMF) : PMF :=
  { pmf with probabilities := pmf.probabilities.map (fun p => (p.1, fl p.2)) }

theorem rounded_p (pmf : PMF) (args : List PyVal) : (rounded pmf).p args = fl (pmf.p args) := by
  unfold PMF.p rounded
  simp only
  generalize processPmfKey args = k
  generalize pmf.probabilities = d
  induction d with
  | nil => simp [dictGet, fl_zero]
  | cons q d ih =>
    simp only [dictGet, List.map_cons] at ih ⊢
    by_cases h : q.1 = k
    · simp [h]
    · simpa [h] using ih

theorem ofVariable_table (v : Variable) (n : Nat) (hl : v.len = .ok n) (hn : n ≠ 0) :
    PMF.ofVariable v = .ok ⟨(countValues v).map (fun p => (p.1, (p.2 : ℚ) / n)), v.ids, v.jointIDs⟩ := by
  unfold PMF.ofVariable
  rw [hl]
  show (normalizeCounts n (countValues v) >>= _) = _
  have : ∀ d : List (Key × Nat), normalizeCounts n d = .ok (d.map (fun p => (p.1, (p.2 : ℚ) / n))) := by
    intro d
    induction d with
    | nil => rfl
    | cons p d ih =>
      obtain ⟨k, c⟩ := p
      unfold normalizeCounts
      rw [if_neg hn, ih]
      rfl
  rw [this]
  rfl

theorem ofVariableF_rounded (v : Variable) (n : Nat) (h : HasInstances v n) (hn : n ≠ 0)
    (h53 : n ≤ 2 ^ 53) {pmf : PMF} (he : PMF.ofVariable v = .ok pmf) :
    ofVariableF v = .ok (rounded pmf) := by
  obtain ⟨c1, c2, c3⟩ := countValues_spec v
  have hlen : v.instances.length = n := by rw [instances_eq h]; simp
  have hle : ∀ p ∈ countValues v, p.2 ≤ n := by
    intro p hp
    have hval : p.2 = v.instances.count p.1 := by
      rw [← c3, dictVal_of_mem c1 (show (p.1, p.2) ∈ countValues v from hp)]
    rw [hval, ← hlen]
    exact List.count_le_length
  rw [ofVariable_table v n (len_eq h) hn] at he
  cases he
  unfold ofVariableF
  rw [len_eq h]
  show (normalizeCountsF n (countValues v) >>= _) = _
  rw [normalizeCountsF_ok n _ hn h53 hle]
  show Except.ok _ = Except.ok _
  unfold rounded share
  simp [List.map_map, Function.comp_def]

/-! ## The error of the sum -/

theorem foldl_flatMap {α β S : Type} (l : List α) (f : α → List β) (g : S → β → S) (s : S) :
    (l.flatMap f).foldl g s = l.foldl (fun s a => (f a).foldl g s) s := by
  induction l generalizing s with
  | nil => rfl
  | cons a l ih => rw [List.flatMap_cons, List.foldl_append, ih]; rfl

/-- The tables of exact probabilities. (Models no code: a notion for statements and proofs.) -/
def omegaTables (prXY prX prY : PMF) : Tables :=
  ⟨omegaCPMF prXY, omegaCPMF prX, omegaCPMF prY, omegaPMF⟩

theorem cells_omega (prXY prX prY : PMF) : cells (omegaTables prXY prX prY) =
    prX.probabilities.flatMap (fun x => prY.probabilities.map (fun y =>
      ((1 : ℚ), prXY.p [x.1.toVal, y.1.toVal], x.2, y.2))) := by
  unfold cells omegaTables
  simp only [omegaPMF, List.flatMap_cons, List.flatMap_nil, List.append_nil, given_omega]

/-- The loops on rounded tables, cell by cell. -/
theorem miF_cells (flog2 : ℚ → ℚ) (prXY prX prY : PMF) :
    miF flog2 (rounded prXY) (rounded prX) (rounded prY) =
      (cells (omegaTables prXY prX prY)).foldl
        (fun s c => miStepF flog2 s (fl c.2.1) (fl c.2.2.1) (fl c.2.2.2)) 0 := by
  rw [cells_omega, foldl_flatMap]
  unfold miF
  simp only [rounded_p]
  unfold rounded
  simp only [List.foldl_map]

theorem fl_closeTo {n : Nat} (hn : n ≠ 0) (h : n ≤ 2 ^ 40) {x : ℚ} (hx : 1 / (n : ℚ) ≤ x) :
    CloseTo u (fl x) x ∧ fl x ≠ 0 ∧ 1 / 2 ^ 53 ≤ x := by
  have h1 : (0 : ℚ) < n := by exact_mod_cast Nat.pos_of_ne_zero hn
  have h3 : (n : ℚ) ≤ 2 ^ 40 := by exact_mod_cast h
  have h4 : (1 : ℚ) / 2 ^ 40 ≤ 1 / n := one_div_le_one_div_of_le h1 h3
  have h5 : (1 : ℚ) / 2 ^ 240 ≤ 1 / 2 ^ 40 := by norm_num
  have h6 : (1 : ℚ) / 2 ^ 53 ≤ 1 / 2 ^ 40 := by norm_num
  have hc := near_fl (h5.trans (h4.trans hx))
  refine ⟨hc, ?_, h6.trans (h4.trans hx)⟩
  have h7 : (0 : ℚ) < x := lt_of_lt_of_le (by positivity) hx
  exact (hc.pos (by rw [uR_eq]; norm_num) h7).ne'

theorem miSum_error {flog2 : ℚ → ℚ} (hlog : Log2Accurate flog2) {D : Data} (hr : D.nrows ≠ 0)
    (h40 : D.nrows ≤ 2 ^ 40) {X Y : Nat} {prXY prX prY : PMF}
    (hg : GoodTables D X Y [] (omegaTables prXY prX prY)) :
    Representable (miF flog2 (rounded prXY) (rounded prX) (rounded prY)) ∧
    |((miF flog2 (rounded prXY) (rounded prX) (rounded prY) : ℚ) : ℝ) - cmi D X Y [] / log 2| ≤
      ((observed D [X, Y]).card + 17) * (log D.nrows / log 2 + 2) / 2 ^ 53 := by
  obtain ⟨L0, L28⟩ := log_rows hr h40
  obtain ⟨i1, i2⟩ := inv_log_two
  set L := log D.nrows / log 2 with hL
  have hu := uR_pos
  have L0' : 0 ≤ L := by rw [hL, div_eq_mul_one_div]; positivity
  have L42 : L ≤ 42 := by rw [hL, div_eq_mul_one_div]; nlinarith
  have hdata := good_cells hg
  have hone : ∀ c ∈ cells (omegaTables prXY prX prY), c.1 = 1 := by
    rw [cells_omega]
    intro c hc
    obtain ⟨x, _, hc⟩ := List.mem_flatMap.1 hc
    obtain ⟨y, _, rfl⟩ := List.mem_map.1 hc
    rfl
  have hM : ((observed D [X, Y]).card : ℝ) ≤ 2 ^ 40 := by
    exact_mod_cast (card_observed_le D _).trans h40
  have hwt : ∀ c ∈ cells (omegaTables prXY prX prY), Active c → (0 : ℝ) ≤ c.2.1 := by
    intro c hc ha
    have : (0 : ℚ) ≤ 1 / D.nrows := by positivity
    exact_mod_cast this.trans (hdata c hc ha).q
  have hlogc : ∀ c ∈ cells (omegaTables prXY prX prY), Active c →
      |log ((c.2.1 : ℝ) / (c.2.2.1 * c.2.2.2)) / log 2| ≤ L := by
    intro c hc ha
    have := cell_log hr (hdata c hc ha)
    rw [abs_div, abs_of_pos (Real.log_pos (by norm_num : (1 : ℝ) < 2)), hL]
    exact div_le_div_of_nonneg_right this (Real.log_pos (by norm_num)).le
  have hval : ∀ c ∈ cells (omegaTables prXY prX prY), Active c →
      cellValue c / log 2 = (c.2.1 : ℝ) * (log ((c.2.1 : ℝ) / (c.2.2.1 * c.2.2.2)) / log 2) := by
    intro c hc ha
    unfold cellValue
    rw [if_pos ha, hone c hc]
    push_cast
    ring
  have hW : ((cells (omegaTables prXY prX prY)).map
      (fun c => if Active c then (c.2.1 : ℝ) else 0)).sum = 1 := by
    rw [← cells_weight hr hg]
    refine congrArg List.sum (List.map_congr_left (fun c hc => ?_))
    rw [hone c hc]
    simp
  have hV : ((cells (omegaTables prXY prX prY)).map (fun c => cellValue c / log 2)).sum =
      cmi D X Y [] / log 2 := by
    rw [← cells_value hg]
    simp only [div_eq_mul_inv]
    rw [List.sum_map_mul_right]
  have hbound : (u : ℝ) * (34 + 14 * L) + (observed D [X, Y]).card * (u * (L + 2)) ≤
      ((observed D [X, Y]).card + 17) * (L + 2) / 2 ^ 53 := by
    rw [uR_eq]
    norm_num
    nlinarith
  have hsmall : (u : ℝ) * (34 + 14 * L) + (observed D [X, Y]).card * (u * (L + 2)) ≤ 1 := by
    have h1 : (u : ℝ) * (34 + 14 * L) ≤ u * (34 + 14 * 42) := mul_le_mul_of_nonneg_left (by linarith) hu.le
    have h2 : ((observed D [X, Y]).card : ℝ) * (u * (L + 2)) ≤ 2 ^ 40 * (u * (42 + 2)) :=
      mul_le_mul hM (mul_le_mul_of_nonneg_left (by linarith) hu.le) (by positivity) (by norm_num)
    rw [uR_eq] at h1 h2 ⊢
    norm_num at h1 h2 ⊢
    linarith
  have key := fold_error
    (fun s (c : ℚ × ℚ × ℚ × ℚ) => miStepF flog2 s (fl c.2.1) (fl c.2.2.1) (fl c.2.2.2))
    (fun c => cellValue c / log 2) (fun c => if Active c then (c.2.1 : ℝ) else 0) Active
    (fun c => miTermF flog2 (fl c.2.1) (fl c.2.2.1) (fl c.2.2.2))
    (u * (34 + 14 * L)) L (by positivity) L0' (cells (omegaTables prXY prX prY))
    ?_ ?_ ?_ ?_ ?_ ?_ 0 0 0 0 ?_ ?_ ?_ ?_ ?_ ?_
  · obtain ⟨hrep, key⟩ := key
    rw [hV, hW, cells_count hg, zero_add, mul_one, zero_add] at key
    rw [miF_cells]
    exact ⟨hrep, key.trans hbound⟩
  · intro c hc ha s
    have hd := hdata c hc ha
    unfold miStepF
    rw [if_neg]
    rintro (h | h | h)
    · exact (fl_closeTo hr h40 hd.q).2.1 h
    · exact (fl_closeTo hr h40 hd.x).2.1 h
    · exact (fl_closeTo hr h40 hd.y).2.1 h
  · intro c hc ha s _
    unfold miStepF
    rw [if_pos]
    by_contra hne
    simp only [not_or] at hne
    apply ha
    refine ⟨by rw [hone c hc]; exact one_ne_zero, fun e => hne.1 ?_, fun e => hne.2.1 ?_, fun e => hne.2.2 ?_⟩ <;>
      rw [e, fl_zero]
  · intro c _ ha
    simp [cellValue, ha]
  · intro c hc
    by_cases ha : Active c
    · rw [if_pos ha]; exact hwt c hc ha
    · rw [if_neg ha]
  · intro c hc ha
    have hd := hdata c hc ha
    obtain ⟨q1, _, q3⟩ := fl_closeTo hr h40 hd.q
    obtain ⟨x1, _, x3⟩ := fl_closeTo hr h40 hd.x
    obtain ⟨y1, _, y3⟩ := fl_closeTo hr h40 hd.y
    have h16 : (u : ℝ) ≤ 1 / 16 := by rw [uR_eq]; norm_num
    have he := miTermF_error hlog q1 x1 y1 hu.le hu.le h16 h16 q3 x3 y3 hd.x1 hd.y1
    rw [hval c hc ha, if_pos ha]
    refine he.trans ?_
    have h1 := hwt c hc ha
    have h2 := hlogc c hc ha
    rw [← mul_add, mul_comm]
    refine mul_le_mul_of_nonneg_right ?_ h1
    nlinarith
  · intro c hc ha
    rw [hval c hc ha, if_pos ha, abs_mul, abs_of_nonneg (hwt c hc ha), mul_comm]
    exact mul_le_mul_of_nonneg_right (hlogc c hc ha) (hwt c hc ha)
  · exact ⟨0, 0, by norm_num, by norm_num, by simp⟩
  · simp
  · simp
  · rw [hW]; norm_num
  · exact le_refl _
  · rw [hW, cells_count hg]
    simpa using hsmall

/-- **C96, mutual information.**  For any two variables with the same number of instances (1 to 2⁴⁰),
`mutual_information` never fails and its `float` differs from the mutual information in bits by at most
`miError`. -/
theorem float_mutual_information {flog2 : ℚ → ℚ} (hlog : Log2Accurate flog2) (a b : Column)
    (hne : a.instances ≠ []) (h40 : a.instances.length ≤ 2 ^ 40)
    (hlen : a.instances.length = b.instances.length) :
    ∃ m, miOfVariablesF flog2 (.single a) (.single b) = .ok m ∧ Representable m ∧
      |(m : ℝ) - mi a.instances b.instances| ≤ miError a.instances b.instances := by
  set P := pairData a.instances b.instances with hP
  have hn : P.nrows = a.instances.length := rfl
  have hr : P.nrows ≠ 0 := by rw [hn]; simpa using hne
  have h53 : P.nrows ≤ 2 ^ 53 := le_trans h40 (by norm_num)
  have hj : mkJoint [.single a, .single b] = .ok (.joint [a, b]) := by
    unfold mkJoint
    simp only [flattenVariables, validateLengths, hlen]
    cases hl : [a, b].all (·.loaded)
    · rfl
    · simp only [ne_eq, not_true_eq_false, if_false, if_true]; rfl
  have hia : HasInstances (.single a) P.nrows := ⟨by simp [columns], by simp [columns, hn]⟩
  have hib : HasInstances (.single b) P.nrows := ⟨by simp [columns], by simp [columns, hn, hlen]⟩
  have hij : HasInstances (.joint [a, b]) P.nrows :=
    ⟨by simp [columns], by simp [columns, hn, hlen]⟩
  obtain ⟨pXY, e1, t1⟩ := pmf_tab_of_instances (cols := [0, 1]) hr (len_eq hij) (instances_eq hij)
  obtain ⟨pX, e2, t2⟩ := pmf_tab_of_instances (cols := [0]) hr (len_eq hia) (instances_eq hia)
  obtain ⟨pY, e3, t3⟩ := pmf_tab_of_instances (cols := [1]) hr (len_eq hib) (instances_eq hib)
  obtain ⟨k1, k2⟩ := miSum_error hlog hr h40 (goodTables_omega hr t1 t2 t3)
  refine ⟨miF flog2 (rounded pXY) (rounded pX) (rounded pY), ?_, k1, k2⟩
  unfold miOfVariablesF
  rw [hj]
  show (ofVariableF (.joint [a, b]) >>= _) = _
  rw [ofVariableF_rounded _ _ hij hr h53 e1, ofVariableF_rounded _ _ hia hr h53 e2,
    ofVariableF_rounded _ _ hib hr h53 e3]
  rfl

end Mbtk.Fp
