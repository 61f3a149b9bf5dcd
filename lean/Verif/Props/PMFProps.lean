import Verif.Stats.PMFLemmas
/-!
# C25–C29, C53: probability mass functions

The values of a variable are described by its columns: the `r`-th instance is the list of the
`r`-th entries of its columns.  `pmf.p(...)` takes any nesting of tuples; `leavesAll` lists
the values in it from left to right.
-/
namespace Mbtk.Stats

/-! ## Specification -/

namespace Spec

/-- The columns a variable is made of. (Specification.) -/
def columns : Variable → List (List Int)
  | .single c => [c.instances]
  | .omega n => [List.replicate n 1]
  | .joint cs => cs.map (·.instances)

/-- The values of instance number `r`. (Specification.) -/
def instanceAt (v : Variable) (r : Nat) : List Int := (columns v).map (fun c => c.getD r 0)

/-- A variable with `n` instances: at least one column, all of length `n`. (Specification.) -/
def HasInstances (v : Variable) (n : Nat) : Prop :=
  columns v ≠ [] ∧ ∀ c ∈ columns v, c.length = n

/-- How often the values `vals` occur among the first `n` instances. (Specification.) -/
def occurrences (v : Variable) (n : Nat) (vals : List Int) : Nat :=
  ((List.range n).filter (fun r => instanceAt v r = vals)).length

end Spec
open Spec

/-! ## C25 -/

theorem list_eq_range (l : List Int) : l = (List.range l.length).map (fun r => l.getD r 0) := by
  apply List.ext_getElem (by simp)
  intro i h1 h2
  simp [h1]

theorem instances_eq {v : Variable} {n : Nat} (h : HasInstances v n) :
    v.instances = (List.range n).map (fun r => mkKey (instanceAt v r)) := by
  have one : ∀ l : List Int, l.length = n →
      l.map Key.one = (List.range n).map (fun r => mkKey [l.getD r 0]) := by
    intro l hl
    conv_lhs => rw [list_eq_range l, hl, List.map_map]
    rfl
  obtain ⟨hne, hlen⟩ := h
  match v, hne, hlen with
  | .single c, _, hlen => exact one c.instances (hlen _ (by simp [columns]))
  | .omega m, _, hlen =>
    have := one (List.replicate m 1) (hlen _ (by simp [columns]))
    rw [List.map_replicate] at this
    exact this
  | .joint [], hne, _ => exact absurd rfl hne
  | .joint [c], _, hlen => exact one c.instances (hlen _ (by simp [columns]))
  | .joint (c :: c' :: cs), _, hlen =>
    have e : (Variable.joint (c :: c' :: cs)).instances =
        (zipColumns ((c :: c' :: cs).map (·.instances))).map .tup := rfl
    have hc : (c :: c' :: cs).map (·.instances) =
        ((c :: c' :: cs).map (fun c r => c.instances.getD r 0)).map
          (fun f => (List.range n).map f) := by
      rw [List.map_map]
      apply List.map_congr_left
      intro a ha
      have hl : a.instances.length = n := hlen _ (List.mem_map.2 ⟨a, ha, rfl⟩)
      show a.instances = (List.range n).map (fun r => a.instances.getD r 0)
      conv_lhs => rw [list_eq_range a.instances, hl]
    rw [e, hc, zipColumns_rows _ _ (by simp), List.map_map]
    apply List.map_congr_left
    intro r _
    simp [Function.comp_def, mkKey, instanceAt, columns]

theorem len_eq {v : Variable} {n : Nat} (h : HasInstances v n) : v.len = .ok n := by
  obtain ⟨hne, hlen⟩ := h
  match v, hne, hlen with
  | .single c, _, hlen => simp [Variable.len, hlen c.instances (by simp [columns])]
  | .omega m, _, hlen =>
    have := hlen (List.replicate m 1) (by simp [columns])
    simp only [List.length_replicate] at this
    simp [Variable.len, this]
  | .joint [], hne, _ => exact absurd rfl hne
  | .joint (c :: cs), _, hlen => simp [Variable.len, hlen c.instances (by simp [columns])]

theorem count_occurrences (v : Variable) (n : Nat) (l : List Int) :
    ((List.range n).map (fun r => mkKey (instanceAt v r))).count (mkKey l) =
      occurrences v n l := by
  unfold occurrences
  rw [List.count, List.countP_map, List.countP_eq_length_filter]
  congr 1
  apply List.filter_congr
  intro r _
  simp only [Function.comp, beq_eq_decide]
  congr 1
  simp only [eq_iff_iff]
  exact ⟨fun h => mkKey_inj h, fun h => by rw [h]⟩

/-- **C25.** For every variable with at least one instance, `PMF(variable).p(v)` is the
relative frequency of `v` (0 for values that do not occur), all stored probabilities are
positive and they sum to one. -/
theorem pmf_relative_frequency (v : Variable) (n : Nat) (h : HasInstances v n) (hn : n ≠ 0) :
    ∃ pmf, PMF.ofVariable v = .ok pmf ∧
      (∀ args, pmf.p args = (occurrences v n (leavesAll args) : ℚ) / n) ∧
      (pmf.probabilities.map Prod.snd).sum = 1 ∧
      (∀ item ∈ pmf.probabilities, 0 < item.2) := by
  obtain ⟨pmf, e, _, _, nd, ks, vs⟩ := ofVariable_ok v n (len_eq h) (.inl hn)
  refine ⟨pmf, e, ?_, ?_, ?_⟩
  · intro args
    rw [PMF.p_eq, vs, instances_eq h, count_occurrences]
  · rw [sum_count_values nd ks vs, instances_eq h]
    simp [hn]
  · intro item hi
    have hm := (ks item.1).1 (List.mem_map.2 ⟨item, hi, rfl⟩)
    have hv := dictVal_of_mem nd hi
    rw [← hv, vs]
    have := List.count_pos_iff.2 hm
    have hn' : 0 < n := by omega
    positivity

example : HasInstances (.joint [⟨4, [0, 1, 0], true, false⟩, ⟨7, [5, 5, 6], true, true⟩]) 3 ∧
    occurrences (.joint [⟨4, [0, 1, 0], true, false⟩, ⟨7, [5, 5, 6], true, true⟩]) 3 [0, 5] = 1 := by
  unfold HasInstances; decide

/-- A joint variable over loaded variables of different lengths is refused. -/
theorem joint_unequal_raises (a b : Column) (ha : a.loaded = true) (hb : b.loaded = true)
    (hne : a.instances.length ≠ b.instances.length) :
    mkJoint [.single a, .single b] = .error (.custom "VariableInstancesOfUnequalCount") := by
  simp [mkJoint, flattenVariables, ha, hb, validateLengths, hne]

/-- Finding: with a variable that is not loaded yet the lengths are not compared; the
instances are cut to the shortest but the total is the length of the first, so the
probabilities do not sum to one. -/
theorem joint_lazy_not_validated :
    ∃ (a b : Column) (j : Variable) (pmf : PMF), mkJoint [.single a, .single b] = .ok j ∧
      PMF.ofVariable j = .ok pmf ∧ (pmf.probabilities.map Prod.snd).sum = 1 / 2 := by
  refine ⟨⟨0, [0, 1], false, false⟩, ⟨1, [0], false, false⟩, _, _, rfl, rfl, ?_⟩
  decide +kernel

/-! ## C26 -/

theorem sum_filter_dictAdd {ν : Type} [AddCommMonoid ν] (d : List (Key × ν)) (k : Key) (v : ν)
    (P : Key → Prop) [DecidablePred P] :
    (((dictAdd d k v).filter (fun p => P p.1)).map Prod.snd).sum =
      ((d.filter (fun p => P p.1)).map Prod.snd).sum + if P k then v else 0 := by
  unfold dictAdd
  induction d with
  | nil => by_cases h : P k <;> simp [dictGet, dictSet, h]
  | cons p d ih =>
    obtain ⟨k', w⟩ := p
    by_cases e : k' = k
    · subst e
      by_cases h : P k'
      · simp [dictGet, dictSet, h]; abel
      · simp [dictGet, dictSet, h]
    · simp only [dictGet, e, if_false] at ih ⊢
      cases hg : dictGet d k with
      | none =>
        rw [hg] at ih
        simp only [dictSet, e, if_false, List.filter_cons] at ih ⊢
        by_cases h : P k'
        · simp only [h, decide_true, if_true, List.map_cons, List.sum_cons, ih]; abel
        · simp only [h, decide_false]; exact ih
      | some u =>
        rw [hg] at ih
        simp only [dictSet, e, if_false, List.filter_cons] at ih ⊢
        by_cases h : P k'
        · simp only [h, decide_true, if_true, List.map_cons, List.sum_cons, ih]; abel
        · simp only [h, decide_false]; exact ih

theorem sum_filter_dictAddAll {ν : Type} [AddCommMonoid ν] (d l : List (Key × ν))
    (P : Key → Prop) [DecidablePred P] :
    (((dictAddAll d l).filter (fun p => P p.1)).map Prod.snd).sum =
      ((d.filter (fun p => P p.1)).map Prod.snd).sum +
        ((l.filter (fun p => P p.1)).map Prod.snd).sum := by
  unfold dictAddAll
  induction l generalizing d with
  | nil => simp
  | cons p l ih =>
    rw [List.foldl_cons, ih, sum_filter_dictAdd, List.filter_cons]
    by_cases h : P p.1
    · simp only [h, decide_true, if_true, List.map_cons, List.sum_cons]; abel
    · simp [h]

/-- A joint PMF: distinct variables, and every key is a tuple with one value per variable.
(Specification.) -/
structure IsJoint (pmf : PMF) : Prop where
  ids : pmf.variableIDs.Nodup
  two : 2 ≤ pmf.variableIDs.length
  keys : (pmf.probabilities.map Prod.fst).Nodup
  tuples : ∀ p ∈ pmf.probabilities, ∃ l, p.1 = .tup l ∧ l.length = pmf.variableIDs.length

/-- Total probability of the entries of `pmf` whose values satisfy `P`. (Specification.) -/
def massWhere (pmf : PMF) (P : List Int → Prop) [DecidablePred P] : ℚ :=
  ((pmf.probabilities.filter (fun p => P p.1.comps)).map Prod.snd).sum

/-- Everything known about `sum_over`. -/
theorem sumOver_full (pmf : PMF) (hj : IsJoint pmf) (id : Int) (hid : id ∈ pmf.variableIDs) :
    ∃ r, pmf.sumOver id = .ok r ∧
      r.variableIDs = pmf.variableIDs.eraseIdx (pmf.variableIDs.idxOf id) ∧
      (r.probabilities.map Prod.fst).Nodup ∧
      (∀ k, k ∈ r.probabilities.map Prod.fst ↔ ∃ p ∈ pmf.probabilities,
        k = mkKey (p.1.comps.eraseIdx (pmf.variableIDs.idxOf id))) ∧
      (∀ (P : List Int → Prop) [DecidablePred P],
        massWhere r P = massWhere pmf (fun l => P (l.eraseIdx (pmf.variableIDs.idxOf id)))) := by
  have htup : ∀ p ∈ pmf.probabilities, ∃ vs, p.1 = .tup vs :=
    fun p hp => let ⟨l, e, _⟩ := hj.tuples p hp; ⟨l, e⟩
  obtain ⟨r, e, i, nd, ks, _⟩ := sumOver_ok pmf id hid htup
  refine ⟨r, e, i, nd, ks, ?_⟩
  have hr : r.probabilities = dictAddAll [] (pmf.probabilities.map
      (fun p => (mkKey (p.1.comps.eraseIdx (pmf.variableIDs.idxOf id)), p.2))) := by
    unfold PMF.sumOver pyIndex at e
    rw [if_pos hid] at e
    change (sumOverLoop _ [] pmf.probabilities >>= _) = _ at e
    rw [sumOverLoop_ok _ _ _ htup] at e
    change Except.ok _ = _ at e
    simp only [Except.ok.injEq] at e
    rw [← e]
  intro P _
  unfold massWhere
  rw [hr, sum_filter_dictAddAll _ _ (fun k => P k.comps)]
  simp only [List.filter_nil, List.map_nil, List.sum_nil, zero_add]
  rw [List.filter_map, List.map_map]
  congr 1
  simp only [Function.comp_def, mkKey_comps]

/-- **C26.** `sum_over(id)` is the marginal: the variable disappears, every combination of the
other values gets the total probability of the entries it agrees with, and the total is
preserved.  (`massWhere pmf P` adds up the entries of `pmf` whose values satisfy `P`.) -/
theorem sum_over_marginal (pmf : PMF) (hj : IsJoint pmf) (id : Int) (hid : id ∈ pmf.variableIDs) :
    ∃ r, pmf.sumOver id = .ok r ∧ r.variableIDs = pmf.variableIDs.erase id ∧
      (∀ args, r.p args = massWhere pmf (fun l =>
        l.eraseIdx (pmf.variableIDs.idxOf id) = leavesAll args)) ∧
      (r.probabilities.map Prod.snd).sum = (pmf.probabilities.map Prod.snd).sum := by
  obtain ⟨r, e, i, nd, ks, m⟩ := sumOver_full pmf hj id hid
  refine ⟨r, e, ?_, ?_, ?_⟩
  · rw [i, List.erase_eq_eraseIdx_of_idxOf rfl]
  · intro args
    rw [← m (fun l => l = leavesAll args), PMF.p_eq]
    unfold massWhere
    have hcanon : ∀ p ∈ r.probabilities, (p.1.comps = leavesAll args ↔ p.1 = mkKey (leavesAll args)) := by
      intro p hp
      obtain ⟨q, _, e⟩ := (ks p.1).1 (List.mem_map.2 ⟨p, hp, rfl⟩)
      rw [e, mkKey_comps]
      exact ⟨fun h => by rw [h], fun h => mkKey_inj h⟩
    rw [List.filter_congr (q := fun p => decide (p.1 = mkKey (leavesAll args)))
      (fun p hp => by rw [decide_eq_decide]; exact hcanon p hp)]
    clear * - nd
    generalize mkKey (leavesAll args) = k
    revert nd
    generalize r.probabilities = d
    intro nd
    have h1 := sum_items nd (fun k' v => if k' = k then v else 0)
    have h2 : ((d.filter (fun p => decide (p.1 = k))).map Prod.snd).sum =
        (d.map (fun p => if p.1 = k then p.2 else 0)).sum := by
      clear h1 nd
      induction d with
      | nil => rfl
      | cons p d ih => by_cases h : p.1 = k <;> simp [h, ih]
    rw [h2, h1, Finset.sum_ite_eq' (d.map Prod.fst).toFinset k]
    by_cases hk : k ∈ (d.map Prod.fst).toFinset
    · rw [if_pos hk]
    · rw [if_neg hk]
      exact dictVal_of_not_mem (by simpa using hk)
  · have := m (fun _ => True)
    unfold massWhere at this
    simpa using this

theorem eraseIdx_comm {α : Type} (l : List α) (i j : Nat) (h : i ≤ j) :
    (l.eraseIdx i).eraseIdx j = (l.eraseIdx (j + 1)).eraseIdx i := by
  induction l generalizing i j with
  | nil => simp
  | cons a l ih =>
    cases i with
    | zero => simp
    | succ i =>
      cases j with
      | zero => omega
      | succ j => simp [ih i j (by omega)]

theorem idxOf_eraseIdx {ids : List Int} (hn : ids.Nodup) {a b : Int} (ha : a ∈ ids) (hb : b ∈ ids)
    (hab : a ≠ b) :
    (ids.eraseIdx (ids.idxOf a)).idxOf b =
      if ids.idxOf a < ids.idxOf b then ids.idxOf b - 1 else ids.idxOf b := by
  induction ids with
  | nil => simp at ha
  | cons c ids ih =>
    by_cases hca : c = a
    · subst hca
      simp [hab]
    · by_cases hcb : c = b
      · subst hcb
        simp [hca]
      · have ha' : a ∈ ids := by
          rcases List.mem_cons.1 ha with h | h
          · exact absurd h.symm hca
          · exact h
        have hb' : b ∈ ids := by
          rcases List.mem_cons.1 hb with h | h
          · exact absurd h.symm hcb
          · exact h
        have := ih (List.nodup_cons.1 hn).2 ha' hb'
        have e1 : (c == a) = false := by simpa using hca
        have e2 : (c == b) = false := by simpa using hcb
        simp only [List.idxOf_cons, e1, e2, cond_false, List.eraseIdx_cons_succ] at this ⊢
        rw [this]
        split <;> split <;> omega

/-- The marginal of a joint PMF over at least three variables is a joint PMF. -/
theorem sumOver_isJoint {pmf r : PMF} (hj : IsJoint pmf) (h3 : 3 ≤ pmf.variableIDs.length)
    {id : Int} (hid : id ∈ pmf.variableIDs) (he : pmf.sumOver id = .ok r) : IsJoint r := by
  obtain ⟨r', e, i, nd, ks, _⟩ := sumOver_full pmf hj id hid
  rw [he] at e
  cases e
  have hi := List.idxOf_lt_length_of_mem hid
  have hlen : r.variableIDs.length = pmf.variableIDs.length - 1 := by
    rw [i, List.length_eraseIdx, if_pos hi]
  refine ⟨?_, by omega, nd, ?_⟩
  · rw [i]; exact hj.ids.sublist (List.eraseIdx_sublist _ _)
  · intro p hp
    obtain ⟨q, hq, e⟩ := (ks p.1).1 (List.mem_map.2 ⟨p, hp, rfl⟩)
    obtain ⟨l, el, hl⟩ := hj.tuples q hq
    have hl' : (q.1.comps.eraseIdx (pmf.variableIDs.idxOf id)).length = r.variableIDs.length := by
      rw [el, hlen, List.length_eraseIdx, Key.comps, hl, if_pos hi]
    exact ⟨_, by rw [e, mkKey_of_ne (by omega)], hl'⟩

/-- **C26.** Marginalising two variables gives the same distribution in both orders. -/
theorem sum_over_order_independent (pmf : PMF) (hj : IsJoint pmf)
    (h3 : 3 ≤ pmf.variableIDs.length) (a b : Int) (ha : a ∈ pmf.variableIDs)
    (hb : b ∈ pmf.variableIDs) (hab : a ≠ b) :
    ∃ ra rb rab rba, pmf.sumOver a = .ok ra ∧ ra.sumOver b = .ok rab ∧
      pmf.sumOver b = .ok rb ∧ rb.sumOver a = .ok rba ∧
      rab.variableIDs = rba.variableIDs ∧ ∀ args, rab.p args = rba.p args := by
  obtain ⟨ra, ea, ia, _, _, ma⟩ := sumOver_full pmf hj a ha
  obtain ⟨rb, eb, ib, _, _, mb⟩ := sumOver_full pmf hj b hb
  have hra := sumOver_isJoint hj h3 ha ea
  have hrb := sumOver_isJoint hj h3 hb eb
  have mem : ∀ {x y : Int}, x ∈ pmf.variableIDs → y ∈ pmf.variableIDs → x ≠ y →
      y ∈ pmf.variableIDs.eraseIdx (pmf.variableIDs.idxOf x) := by
    intro x y _ hy hxy
    rw [← List.erase_eq_eraseIdx_of_idxOf rfl]
    exact (List.mem_erase_of_ne hxy.symm).2 hy
  have hba : b ∈ ra.variableIDs := by rw [ia]; exact mem ha hb hab
  have hab' : a ∈ rb.variableIDs := by rw [ib]; exact mem hb ha hab.symm
  obtain ⟨rab, e1, i1, _, _⟩ := sumOver_full ra hra b hba
  obtain ⟨rba, e2, i2, _, _⟩ := sumOver_full rb hrb a hab'
  obtain ⟨rab', e1', _, p1, _⟩ := sum_over_marginal ra hra b hba
  obtain ⟨rba', e2', _, p2, _⟩ := sum_over_marginal rb hrb a hab'
  rw [e1] at e1'; cases e1'
  rw [e2] at e2'; cases e2'
  have comm : ∀ {α : Type} (l : List α),
      (l.eraseIdx (pmf.variableIDs.idxOf a)).eraseIdx (ra.variableIDs.idxOf b) =
      (l.eraseIdx (pmf.variableIDs.idxOf b)).eraseIdx (rb.variableIDs.idxOf a) := by
    intro α l
    have hne : pmf.variableIDs.idxOf a ≠ pmf.variableIDs.idxOf b :=
      fun e => hab ((List.idxOf_inj ha).1 e)
    rw [ia, ib, idxOf_eraseIdx hj.ids ha hb hab, idxOf_eraseIdx hj.ids hb ha hab.symm]
    rcases Nat.lt_or_ge (pmf.variableIDs.idxOf a) (pmf.variableIDs.idxOf b) with h | h
    · rw [if_pos h, if_neg (by omega), eraseIdx_comm l _ _ (by omega)]
      congr 2; omega
    · rw [if_neg (by omega), if_pos (by omega), eraseIdx_comm l (pmf.variableIDs.idxOf b)
        (pmf.variableIDs.idxOf a - 1) (by omega)]
      congr 2; omega
  refine ⟨ra, rb, rab, rba, ea, e1, eb, e2, ?_, ?_⟩
  · rw [i1, i2]
    have := comm pmf.variableIDs
    rwa [← ia, ← ib] at this
  · intro args
    rw [p1, p2, ma, mb]
    unfold massWhere
    simp only [comm]

/-- A joint PMF over three variables, with a zero entry. (Example.) -/
def examplePmf : PMF where
  probabilities := [(.tup [0, 0, 1], 1/2), (.tup [0, 1, 1], 1/4), (.tup [1, 0, 0], 1/4),
    (.tup [1, 1, 1], 0)]
  variableIDs := [3, 1, 2]

theorem examplePmf_joint : IsJoint examplePmf :=
  ⟨by decide, by decide, by decide, by
    intro p hp
    simp only [examplePmf, List.mem_cons, List.not_mem_nil, or_false] at hp
    rcases hp with rfl | rfl | rfl | rfl <;> exact ⟨_, rfl, rfl⟩⟩

example : (3 ≤ examplePmf.variableIDs.length) ∧ (1 : Int) ∈ examplePmf.variableIDs ∧
    massWhere examplePmf (fun l => l.eraseIdx 1 = [0, 1]) = 3/4 := by decide +kernel

/-- Finding: a PMF over a single variable has scalar keys, and `sum_over` slices the key. -/
theorem sum_over_single_raises (id : Int) (k : Int) (p : ℚ) (rest : List (Key × ℚ)) (j) :
    PMF.sumOver ⟨(.one k, p) :: rest, [id], j⟩ id = .error .typeError := by
  simp [PMF.sumOver, pyIndex, sumOverLoop, removeFromKey]
  rfl

/-! ## C27 -/

/-- Value of variable `v` in the values `l` of the joint variables `ids`. (Specification.) -/
def valueIn (ids l : List Int) (v : Int) : Int := l.getD (ids.idxOf v) 0

theorem valueIn_eq (ids l : List Int) : valueIn ids l = valueOf ids l := by
  funext v; simp [valueIn, valueOf, List.getD]

/-- **C27**, restricted to at least two remaining variables: `joint.condition_on(cond)` holds
conditional probabilities: `given(z).p(rest) * cond.p(z)` is the joint probability, for every
combination of values.  Missing: one remaining variable, where it is false
(`condition_on_single_unreachable`). -/
theorem condition_on_exact_partial (joint cond : PMF) (hj : IsJoint joint)
    (hc0 : cond.variableIDs ≠ []) (hcs : ∀ v ∈ cond.variableIDs, v ∈ joint.variableIDs)
    (hrest : 2 ≤ (joint.variableIDs.filter (fun v => v ∉ cond.variableIDs)).length)
    (hzero : ∀ l, l.length = joint.variableIDs.length →
      cond.p [.seq ((cond.variableIDs.map (valueIn joint.variableIDs l)).map .atom)] = 0 →
      joint.p [.seq (l.map .atom)] = 0) :
    ∃ r, joint.conditionOn cond = .ok r ∧ ∀ l, l.length = joint.variableIDs.length →
      (r.given [.seq ((cond.variableIDs.map (valueIn joint.variableIDs l)).map .atom)]).p
          [.seq (((joint.variableIDs.filter (fun v => v ∉ cond.variableIDs)).map
            (valueIn joint.variableIDs l)).map .atom)] *
        cond.p [.seq ((cond.variableIDs.map (valueIn joint.variableIDs l)).map .atom)] =
      joint.p [.seq (l.map .atom)] := by
  obtain ⟨r, e, _, _, v⟩ := conditionOn_ok joint cond hj.ids hj.keys hj.tuples hc0 hcs
  refine ⟨r, e, fun l hl => ?_⟩
  have hz := hzero l hl
  rw [valueIn_eq] at hz ⊢
  have hv := v l hl
  have hp : ∀ (pmf : PMF) (xs : List Int), pmf.p [.seq (xs.map .atom)] =
      dictVal pmf.probabilities (mkKey xs) := by
    intro pmf xs
    rw [PMF.p_eq]; simp [leavesAll, PyVal.leaves, leavesAll_atoms]
  have hg : ∀ xs : List Int, r.given [.seq (xs.map .atom)] =
      (dictGet r (mkKey xs)).getD PMF.empty := by
    intro xs
    unfold CPMF.given
    rw [processPmfKey_eq]
    simp only [leavesAll, PyVal.leaves, leavesAll_atoms, List.append_nil]
    cases dictGet r (mkKey xs) <;> rfl
  have h2 := hj.two
  rw [hp, hp] at hz
  rw [hp, hp, hp, hg, 
    mkKey_of_ne (l := (joint.variableIDs.filter (fun v => v ∉ cond.variableIDs)).map
      (valueOf joint.variableIDs l)) (by rw [List.length_map]; omega),
    mkKey_of_ne (by omega : l.length ≠ 1)]
  unfold val2 at hv
  rw [hv]
  rw [mkKey_of_ne (by omega : l.length ≠ 1)] at hz
  by_cases h0 : dictVal cond.probabilities
      (mkKey (cond.variableIDs.map (valueOf joint.variableIDs l))) = 0
  · rw [h0, mul_zero, hz h0]
  · rw [div_mul_cancel₀ _ h0]

/-- The same for the stored entries, whatever the number of remaining variables: under the key
of `z`, the entry for the tuple of the remaining values is the conditional probability. -/
theorem condition_on_items (joint cond : PMF) (hj : IsJoint joint)
    (hc0 : cond.variableIDs ≠ []) (hcs : ∀ v ∈ cond.variableIDs, v ∈ joint.variableIDs) :
    ∃ r, joint.conditionOn cond = .ok r ∧ ∀ l, l.length = joint.variableIDs.length →
      dictVal (r.given [.seq ((cond.variableIDs.map (valueIn joint.variableIDs l)).map .atom)]).probabilities
        (.tup ((joint.variableIDs.filter (fun v => v ∉ cond.variableIDs)).map
            (valueIn joint.variableIDs l))) =
      joint.p [.seq (l.map .atom)] /
        cond.p [.seq ((cond.variableIDs.map (valueIn joint.variableIDs l)).map .atom)] := by
  obtain ⟨r, e, _, _, v⟩ := conditionOn_ok joint cond hj.ids hj.keys hj.tuples hc0 hcs
  refine ⟨r, e, fun l hl => ?_⟩
  rw [valueIn_eq]
  have hv := v l hl
  have h2 := hj.two
  rw [PMF.p_eq, PMF.p_eq]
  unfold CPMF.given
  rw [processPmfKey_eq]
  simp only [leavesAll, PyVal.leaves, leavesAll_atoms, List.append_nil]
  rw [mkKey_of_ne (by omega : l.length ≠ 1), ← hv]
  unfold val2
  cases dictGet r (mkKey (cond.variableIDs.map (valueOf joint.variableIDs l))) <;> rfl

/-- Finding: with exactly one remaining variable the stored keys are 1-tuples, which `p` never
looks up: every conditional probability read through the API is 0. -/
theorem condition_on_single_unreachable (joint cond : PMF) (hj : IsJoint joint)
    (hc0 : cond.variableIDs ≠ []) (hcs : ∀ v ∈ cond.variableIDs, v ∈ joint.variableIDs)
    (hrest : (joint.variableIDs.filter (fun v => v ∉ cond.variableIDs)).length = 1) :
    ∃ r, joint.conditionOn cond = .ok r ∧ ∀ z args, (r.given z).p args = 0 := by
  obtain ⟨r, e, w, _, _⟩ := conditionOn_ok joint cond hj.ids hj.keys hj.tuples hc0 hcs
  refine ⟨r, e, fun z args => ?_⟩
  have hg : r.given z = (dictGet r (processPmfKey z)).getD PMF.empty := by
    unfold CPMF.given
    cases dictGet r (processPmfKey z) <;> rfl
  rw [hg, PMF.p_eq]
  apply dictVal_of_not_mem
  intro hm
  obtain ⟨xs, h1, h2⟩ := w.shape _ _ hm
  rw [hrest] at h2
  have h3 : leavesAll args = xs := by
    have := congrArg Key.comps h1
    rwa [mkKey_comps] at this
  rw [h3] at h1
  match xs, h2 with
  | [x], _ => simp [mkKey] at h1

/-- `cond` for the examples: the marginal of variable 2 (resp. of 1 and 2). -/
example : ∃ cond : PMF, cond.variableIDs = [2] ∧ cond.variableIDs ≠ [] ∧
    (∀ v ∈ cond.variableIDs, v ∈ examplePmf.variableIDs) ∧
    2 ≤ (examplePmf.variableIDs.filter (fun v => v ∉ cond.variableIDs)).length ∧
    (∀ p ∈ cond.probabilities, p.2 ≠ 0) ∧ cond.p [.atom 1] = 3/4 :=
  ⟨{ probabilities := [(.one 1, 3/4), (.one 0, 1/4)], variableIDs := [2] }, rfl, by decide,
    by decide, by decide, by decide +kernel, by rw [PMF.p_eq]; decide +kernel⟩

example : (examplePmf.variableIDs.filter (fun v => v ∉ [1, 2])).length = 1 := by decide

/-! ## C28 -/

/-- **C28.** Flattening a key gives its atoms from left to right, whatever the nesting. -/
theorem flatten_leaves (lst : List PyVal) : flatten lst = (leavesAll lst).map .atom :=
  flattenLoop_eq lst 0 (by simp)

/-- **C28.** Two ways of nesting the same values address the same probability. -/
theorem p_nesting_irrelevant (pmf : PMF) (args args' : List PyVal)
    (h : leavesAll args = leavesAll args') : pmf.p args = pmf.p args' := by
  rw [PMF.p_eq, PMF.p_eq, h]

example : leavesAll [.atom 3, .seq [.atom 1, .seq [], .seq [.seq [.atom 2], .atom 0]]] =
    leavesAll [.seq [.atom 3, .atom 1], .seq [.atom 2, .atom 0]] := by decide

/-! ## C29 -/

theorem valueCount_pos (n : Nat) (p : ℚ) : 1 ≤ valueCount n p := by
  unfold valueCount; omega

theorem instancesLoop_spec (n : Nat) (items : List (Key × ℚ)) (running : Nat) :
    (instancesLoop n running items).1.length + (instancesLoop n running items).2 = running ∧
    (∀ k ∈ (instancesLoop n running items).1, k ∈ items.map Prod.fst) ∧
    (items ≠ [] → running ≠ 0 → (instancesLoop n running items).2 < running) := by
  induction items generalizing running with
  | nil => simp [instancesLoop]
  | cons item items ih =>
    obtain ⟨k, p⟩ := item
    have hpos := valueCount_pos n p
    simp only [instancesLoop]
    set c := if valueCount n p > running then running else valueCount n p with hc
    have hcr : c ≤ running := by rw [hc]; split <;> omega
    have hc1 : running ≠ 0 → 1 ≤ c := by intro h; rw [hc]; split <;> omega
    by_cases h0 : running - c = 0
    · rw [if_pos h0]
      refine ⟨by simp; omega, ?_, by intros; dsimp only; omega⟩
      intro k' hk'
      simp [List.eq_of_mem_replicate hk']
    · rw [if_neg h0]
      obtain ⟨i1, i2, i3⟩ := ih (running - c)
      refine ⟨?_, ?_, ?_⟩
      · simp only [List.length_append, List.length_replicate]; omega
      · intro k' hk'
        rcases List.mem_append.1 hk' with h | h
        · simp [List.eq_of_mem_replicate h]
        · simp only [List.map_cons, List.mem_cons]; exact .inr (i2 k' h)
      · intro _ hr
        have := hc1 hr
        dsimp only
        omega

theorem instancesRec_ok (items : List (Key × ℚ)) (hne : items ≠ []) (n : Nat) :
    ∃ l, instancesRec items n = .ok l ∧ l.length = n ∧ ∀ k ∈ l, k ∈ items.map Prod.fst := by
  induction n using Nat.strong_induction_on with
  | _ n ih =>
    obtain ⟨h1, h2, h3⟩ := instancesLoop_spec n items n
    rw [instancesRec]
    by_cases h0 : (instancesLoop n n items).2 = 0
    · rw [if_pos h0]
      exact ⟨_, rfl, by omega, h2⟩
    · rw [if_neg h0]
      have hn : n ≠ 0 := by omega
      have hlt := h3 hne hn
      rw [dif_pos hlt]
      obtain ⟨l, e, hl, hk⟩ := ih _ hlt
      rw [e]
      refine ⟨_, rfl, by simp only [List.length_append]; omega, ?_⟩
      intro k hk'
      rcases List.mem_append.1 hk' with h | h
      · exact h2 k h
      · exact hk k h

/-- **C29.** `create_instances_list(n)` terminates with exactly `n` instances, all of them
values of the PMF, for every PMF with at least one entry. -/
theorem create_instances_list_length (pmf : PMF) (hne : pmf.probabilities ≠ []) (n : Nat) :
    ∃ l, pmf.createInstancesList n = .ok l ∧ l.length = n ∧
      ∀ k ∈ l, k ∈ pmf.probabilities.map Prod.fst := by
  have hp := List.perm_insertionSort (fun a b : Key × ℚ => b.2 ≤ a.2) pmf.probabilities
  obtain ⟨l, e, hl, hk⟩ := instancesRec_ok
    (pmf.probabilities.insertionSort (fun a b => b.2 ≤ a.2))
    (fun h => hne (by rw [h] at hp; exact hp.nil_eq.symm)) n
  exact ⟨l, e, hl, fun k hk' => (hp.map Prod.fst).mem_iff.1 (hk k hk')⟩

theorem pyRound_int (m : Int) : pyRound (m : ℚ) = m := by
  unfold pyRound
  simp

theorem instancesLoop_exact (n : Nat) (items : List (Key × ℚ)) (f : Key → Nat)
    (hf : ∀ p ∈ items, valueCount n p.2 = f p.1) (running : Nat)
    (hr : running = (items.map (fun p => f p.1)).sum) :
    instancesLoop n running items = (items.flatMap (fun p => List.replicate (f p.1) p.1), 0) := by
  induction items generalizing running with
  | nil => simp at hr; simp [instancesLoop, hr]
  | cons item items ih =>
    obtain ⟨k, p⟩ := item
    have hk := hf (k, p) (by simp)
    simp only at hk
    simp only [List.map_cons, List.sum_cons] at hr
    simp only [instancesLoop, hk]
    have hif : (if f k > running then running else f k) = f k := if_neg (by omega)
    simp only [hif]
    have hsub : running - f k = (items.map (fun p => f p.1)).sum := by omega
    by_cases h0 : running - f k = 0
    · rw [if_pos h0]
      have hnil : items = [] := by
        cases items with
        | nil => rfl
        | cons q items =>
          have := valueCount_pos n q.2
          rw [hf q (by simp)] at this
          rw [hsub] at h0
          simp at h0
          omega
      subst hnil
      simp
    · rw [if_neg h0, ih (fun p hp => hf p (List.mem_cons_of_mem _ hp)) _ hsub]
      simp

/-- **C29**, accuracy: if `n` times every probability is a positive whole number and the
probabilities sum to one, every value appears exactly `n` times its probability. -/
theorem create_instances_list_exact (pmf : PMF) (n : Nat)
    (hn : (pmf.probabilities.map Prod.fst).Nodup) (f : Key → Nat)
    (hf : ∀ p ∈ pmf.probabilities, (n : ℚ) * p.2 = f p.1 ∧ 1 ≤ f p.1)
    (hsum : (pmf.probabilities.map Prod.snd).sum = 1) :
    ∃ l, pmf.createInstancesList n = .ok l ∧ ∀ p ∈ pmf.probabilities, l.count p.1 = f p.1 := by
  have hp := List.perm_insertionSort (fun a b : Key × ℚ => b.2 ≤ a.2) pmf.probabilities
  unfold PMF.createInstancesList
  set items := pmf.probabilities.insertionSort (fun a b => b.2 ≤ a.2) with hitems
  have hvc : ∀ p ∈ items, valueCount n p.2 = f p.1 := by
    intro p hm
    obtain ⟨h1, h2⟩ := hf p (hp.mem_iff.1 hm)
    unfold valueCount
    rw [h1]
    have : pyRound ((f p.1 : ℕ) : ℚ) = f p.1 := by
      have := pyRound_int (f p.1 : Int)
      exact_mod_cast this
    rw [this]; omega
  have htot : n = (items.map (fun p => f p.1)).sum := by
    have h1 : ((items.map (fun p => f p.1)).sum : ℚ) = n := by
      have h2 : (items.map (fun p => f p.1)).sum = (pmf.probabilities.map (fun p => f p.1)).sum :=
        (hp.map _).sum_eq
      rw [h2]
      have h3 : ((pmf.probabilities.map (fun p => f p.1)).sum : ℚ) =
          (pmf.probabilities.map (fun p => (n : ℚ) * p.2)).sum := by
        clear * - hf
        generalize pmf.probabilities = d at hf
        induction d with
        | nil => simp
        | cons q d ih =>
          have := ih (fun p hp => hf p (List.mem_cons_of_mem _ hp))
          simp only [List.map_cons, List.sum_cons, Nat.cast_add, this]
          rw [(hf q (by simp)).1]
      rw [h3, List.sum_map_mul_left]
      have : (pmf.probabilities.map (fun p => p.2)).sum = 1 := hsum
      rw [this, mul_one]
    exact_mod_cast h1.symm
  rw [instancesRec]
  rw [instancesLoop_exact n items f hvc n htot, if_pos rfl]
  refine ⟨_, rfl, ?_⟩
  intro p hm
  have hm' := hp.mem_iff.2 hm
  have hn' : (items.map Prod.fst).Nodup := (hp.map Prod.fst).nodup_iff.2 hn
  clear * - hm' hn'
  generalize items = d at hm' hn'
  induction d with
  | nil => simp at hm'
  | cons q d ih =>
    simp only [List.map_cons, List.nodup_cons] at hn'
    rw [List.flatMap_cons, List.count_append]
    rcases List.mem_cons.1 hm' with rfl | h
    · rw [List.count_replicate_self, List.count_eq_zero.2]
      · omega
      · intro hc
        obtain ⟨q, hq, hqm⟩ := List.mem_flatMap.1 hc
        have := List.eq_of_mem_replicate hqm
        exact hn'.1 (this ▸ List.mem_map.2 ⟨q, hq, rfl⟩)
    · have hne : p.1 ≠ q.1 := fun e => hn'.1 (e ▸ List.mem_map.2 ⟨p, h, rfl⟩)
      rw [List.count_replicate, if_neg (by simpa using fun e => hne e.symm), ih h hn'.2]
      omega

example : ∀ p ∈ [((.one 7 : Key), (3/4 : ℚ)), (.one 8, 1/4)],
    ((8 : Nat) : ℚ) * p.2 = (if p.1 = .one 7 then 6 else 2 : Nat) ∧
      1 ≤ (if p.1 = .one 7 then 6 else 2 : Nat) := by decide +kernel

/-- Finding: an empty PMF recurses for ever. -/
theorem create_instances_list_empty (n : Nat) (hn : n ≠ 0) (ids j) :
    PMF.createInstancesList ⟨[], ids, j⟩ n = .error .recursion := by
  unfold PMF.createInstancesList
  rw [List.insertionSort_nil, instancesRec]
  simp [instancesLoop, hn]

/-- Finding: a value of probability zero can be emitted (every value gets at least one
instance while there is room). -/
theorem create_instances_list_zero_emitted :
    ∃ (pmf : PMF) (n : Nat) (k : Key) (l : List Key), (k, (0 : ℚ)) ∈ pmf.probabilities ∧
      (pmf.probabilities.map Prod.snd).sum = 1 ∧ pmf.createInstancesList n = .ok l ∧ k ∈ l := by
  refine ⟨{ probabilities := [(.one 1, 1/3), (.one 2, 1/3), (.one 3, 1/3), (.one 4, 0)] }, 4,
    .one 4, [.one 1, .one 2, .one 3, .one 4], by simp, by norm_num, ?_, by simp⟩
  unfold PMF.createInstancesList
  rw [instancesRec]
  decide +kernel

/-! ## C53 -/

theorem countConditionally_spec (pairs : List (Key × Key)) (acc : List (Key × List (Key × Nat)))
    (ha : (acc.map Prod.fst).Nodup)
    (hi : ∀ cv, (((dictGet acc cv).getD []).map Prod.fst).Nodup) :
    ((countConditionally acc pairs).map Prod.fst).Nodup ∧
    (∀ cv, (((dictGet (countConditionally acc pairs) cv).getD []).map Prod.fst).Nodup) ∧
    ∀ cv v, dictVal ((dictGet (countConditionally acc pairs) cv).getD []) v =
      dictVal ((dictGet acc cv).getD []) v + pairs.count (v, cv) := by
  induction pairs generalizing acc with
  | nil => simp [countConditionally, ha, hi]
  | cons p pairs ih =>
    obtain ⟨v0, cv0⟩ := p
    simp only [countConditionally]
    obtain ⟨h1, h2, h3⟩ := ih (dictSet acc cv0 (dictAdd ((dictGet acc cv0).getD []) v0 1))
      (dictSet_nodup _ _ _ ha) (by
        intro cv
        rw [dictGet_dictSet]
        by_cases e : cv0 = cv
        · rw [if_pos e, Option.getD_some]; exact dictAdd_nodup _ _ _ (hi cv0)
        · rw [if_neg e]; exact hi cv)
    refine ⟨h1, h2, fun cv v => ?_⟩
    rw [h3, dictGet_dictSet, List.count_cons]
    by_cases e : cv0 = cv
    · subst e
      rw [if_pos rfl, Option.getD_some, dictVal_dictAdd]
      by_cases e' : v0 = v
      · subst e'; simp; omega
      · have : ((v0, cv0) == (v, cv0)) = false := by simpa using e'
        simp [e', this]
    · rw [if_neg e]
      have : ((v0, cv0) == (v, cv)) = false := by simp [e]
      simp [this]

theorem sum_snd_of_counts {d : List (Key × Nat)} (hn : (d.map Prod.fst).Nodup)
    {l : List Key} (h : ∀ k, dictVal d k = l.count k) : (d.map Prod.snd).sum = l.length := by
  have h1 := sum_items hn (fun _ (v : Nat) => v)
  rw [h1]
  simp only [h]
  have hsub : l.toFinset ⊆ (d.map Prod.fst).toFinset := by
    intro k hk
    by_contra hc
    have := dictVal_of_not_mem (d := d) (k := k) (by simpa using hc)
    rw [h k] at this
    exact (List.count_pos_iff.2 (by simpa using hk)).ne' this
  rw [← Finset.sum_subset hsub (fun k _ hk => List.count_eq_zero.2 (by simpa using hk)),
    List.sum_toFinset_count_eq_length]

theorem dictGet_mapVal {κ ν μ : Type} [DecidableEq κ] (f : ν → μ) (d : List (κ × ν)) (k : κ) :
    dictGet (d.map (fun p => (p.1, f p.2))) k = (dictGet d k).map f := by
  induction d with
  | nil => rfl
  | cons p d ih => by_cases h : p.1 = k <;> simp [dictGet, h, ih]

/-- Counts divided by their total. (Specification.) -/
def normalised (item : List (Key × Nat)) : PMF :=
  { probabilities := item.map (fun kn => (kn.1, (kn.2 : ℚ) / ((item.map Prod.snd).sum : Nat))) }

/-- **C53.** `CPMF(variable, given)`: reading `given(z).p(x)` gives the share of the value `x`
among the instances where the conditioning variable shows `z` (0 if there are none). -/
theorem cpmf_conditional_frequency (v g : Variable) (n : Nat) (hv : HasInstances v n)
    (hg : HasInstances g n) (z x : List PyVal) :
    ((CPMF.ofVariables v g).given z).p x =
      (((List.range n).filter (fun r => instanceAt v r = leavesAll x ∧
        instanceAt g r = leavesAll z)).length : ℚ) /
      (((List.range n).filter (fun r => instanceAt g r = leavesAll z)).length : ℚ) := by
  set pairs := v.instances.zip g.instances with hpairs
  have hp : pairs = (List.range n).map (fun r => (mkKey (instanceAt v r), mkKey (instanceAt g r))) := by
    rw [hpairs, instances_eq hv, instances_eq hg, List.zip_map']
  obtain ⟨h1, h2, h3⟩ := countConditionally_spec pairs [] (by simp) (by simp [dictGet])
  have hcount : ∀ a b : List Int, pairs.count (mkKey a, mkKey b) =
      ((List.range n).filter (fun r => instanceAt v r = a ∧ instanceAt g r = b)).length := by
    intro a b
    rw [hp, List.count, List.countP_map, List.countP_eq_length_filter]
    congr 1
    apply List.filter_congr
    intro r _
    simp only [Function.comp, beq_eq_decide, Prod.mk.injEq]
    congr 1
    simp only [eq_iff_iff]
    exact ⟨fun h => ⟨mkKey_inj h.1, mkKey_inj h.2⟩, fun h => by rw [h.1, h.2]; exact ⟨rfl, rfl⟩⟩
  unfold CPMF.given CPMF.ofVariables
  rw [processPmfKey_eq, ← hpairs]
  have hdm := dictGet_mapVal (normalised) (countConditionally [] pairs) (mkKey (leavesAll z))
  unfold normalised at hdm
  rw [hdm]
  set d := (dictGet (countConditionally [] pairs) (mkKey (leavesAll z))).getD [] with hd
  have hval : ∀ k, dictVal d k = pairs.count (k, mkKey (leavesAll z)) := by
    intro k
    have := h3 (mkKey (leavesAll z)) k
    rw [← hd] at this
    rw [this]
    simp [dictGet, dictVal]
  have hlist : ∀ k, dictVal d k =
      ((pairs.filter (fun p => p.2 = mkKey (leavesAll z))).map Prod.fst).count k := by
    intro k
    rw [hval]
    clear * -
    induction pairs with
    | nil => rfl
    | cons p pairs ih =>
      obtain ⟨a, b⟩ := p
      by_cases e : b = mkKey (leavesAll z)
      · subst e
        by_cases e' : a = k
        · subst e'; simp [ih]
        · simp [e', ih]
      · simp [e, ih]
  have htot := sum_snd_of_counts (h2 (mkKey (leavesAll z))) hlist
  rw [← hd] at htot
  have hlen : ((pairs.filter (fun p => p.2 = mkKey (leavesAll z))).map Prod.fst).length =
      ((List.range n).filter (fun r => instanceAt g r = leavesAll z)).length := by
    rw [List.length_map, hp, List.filter_map, List.length_map]
    congr 1
    apply List.filter_congr
    intro r _
    simp only [Function.comp]
    congr 1
    simp only [eq_iff_iff]
    exact ⟨fun h => mkKey_inj h, fun h => by rw [h]⟩
  have key : ∀ pmf : PMF, pmf.probabilities = d.map (fun kn =>
      (kn.1, (kn.2 : ℚ) / ((d.map Prod.snd).sum : Nat))) →
      pmf.p x = (((List.range n).filter (fun r => instanceAt v r = leavesAll x ∧
        instanceAt g r = leavesAll z)).length : ℚ) /
      (((List.range n).filter (fun r => instanceAt g r = leavesAll z)).length : ℚ) := by
    intro pmf hpr
    rw [PMF.p_eq, hpr, dictVal_map (fun c : Nat => (c : ℚ) / ((d.map Prod.snd).sum : Nat)) (by simp),
      hval, hcount, htot, hlen]
  cases hc : dictGet (countConditionally [] pairs) (mkKey (leavesAll z)) with
  | none =>
    simp only [Option.map_none]
    apply key
    rw [hd, hc]; rfl
  | some d' =>
    simp only [Option.map_some]
    apply key
    rw [hd, hc]; rfl

example : HasInstances (.single ⟨4, [0, 1, 0], true, false⟩) 3 ∧
    HasInstances (.joint [⟨7, [5, 5, 6], true, true⟩, ⟨8, [1, 1, 1], true, true⟩]) 3 := by
  unfold HasInstances; decide

end Mbtk.Stats
