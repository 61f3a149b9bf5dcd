import Verif.Props.PMFProps
import Mathlib.Tactic.Linarith
import Mathlib.Tactic.FieldSimp
/-!
# C72: comparing PMFs (`==`, `pmf_diff`, `cpmf_diff`)

Models `PMF.__eq__`, `CPMF.__eq__`, `pmf_diff` and `cpmf_diff` (mbtk/math/PMF.py).
Probabilities are exact rationals; the tolerance `1e-10` is the rational `1/10^10`.
-/
namespace Mbtk.Stats
open Spec

/-! ## Model -/

/-- `tolerance_pdiff` and `pdiff_threshold`: PMF.py 18, 225, 340, 384. -/
def tolerance : ℚ := 1 / 10 ^ 10

/-- `set(a) == set(b)` for two lists of dictionary keys: PMF.py 203-207, 294-298. -/
def keySetsEqual (a b : List Key) : Bool := a.all (· ∈ b) && b.all (· ∈ a)

/-- `self == other`: PMF.py 202-213 (`PMF.__eq__`).  The loop runs over the union of the two
key sets and reads both probabilities through `p(key)`. -/
def PMF.eq (self other : PMF) : Bool :=
  if keySetsEqual (self.probabilities.map Prod.fst) (other.probabilities.map Prod.fst) then
    (self.probabilities.map Prod.fst ++ other.probabilities.map Prod.fst).all (fun key =>
      !decide (|self.p [key.toVal] - other.p [key.toVal]| > tolerance))
  else false

/-- `self == other` for two `CPMF`s: PMF.py 292-304.  The loop runs over the keys of `self`;
`!=` on PMFs is the negation of `PMF.__eq__`. -/
def CPMF.eq (self other : CPMF) : Bool :=
  if keySetsEqual (self.map Prod.fst) (other.map Prod.fst) then
    (self.map Prod.fst).all (fun key =>
      PMF.eq (CPMF.given self [key.toVal]) (CPMF.given other [key.toVal]))
  else false

/-- Whether a key is a scalar. PMF.py 336-415. -/
def Key.isOne : Key → Bool
  | .one _ => true
  | .tup _ => false

/-- `sorted(set(keys))`: PMF.py 342, 349, 386.  Scalars and tuples cannot be compared:
`TypeError`. -/
def sortedKeys (keys : List Key) : Except Err (List Key) :=
  if keys.all Key.isOne || keys.all (fun k => !k.isOne) then
    .ok (keys.dedup.insertionSort (fun a b => keyLe a b = true))
  else .error .typeError

/-- A row of the tables printed by `pmf_diff` and `cpmf_diff`: the key, the two probabilities,
and whether the row is printed in red.  The layout of the text is not modelled.
PMF.py 336-415. -/
structure DiffRow where
  key : Key
  left : ℚ
  right : ℚ
  red : Bool
  deriving DecidableEq, Repr

/-- One row: PMF.py 399-404 and 368-373. -/
def diffRow (a b : PMF) (key : Key) : DiffRow :=
  ⟨key, a.p [key.toVal], b.p [key.toVal],
    decide (|a.p [key.toVal] - b.p [key.toVal]| > tolerance)⟩

/-- `pmf_diff(A, B)`: PMF.py 385-415; `max([])` is a `ValueError` (PMF.py 388). -/
def pmfDiff (a b : PMF) : Except Err (List DiffRow) := do
  let keys ← sortedKeys (a.probabilities.map Prod.fst ++ b.probabilities.map Prod.fst)
  if keys = [] then .error .valueError else .ok (keys.map (diffRow a b))

/-- `cpmf_diff(A, B)`: PMF.py 336-378: one block of rows per conditioning value, all blocks
over the same keys (those of any conditional PMF of either side). -/
def cpmfDiff (a b : CPMF) : Except Err (List (Key × List DiffRow)) := do
  let condKeys ← sortedKeys (a.map Prod.fst ++ b.map Prod.fst)
  let keys ← sortedKeys
    (condKeys.flatMap (fun ck => (CPMF.given a [ck.toVal]).probabilities.map Prod.fst) ++
     condKeys.flatMap (fun ck => (CPMF.given b [ck.toVal]).probabilities.map Prod.fst))
  if condKeys = [] then .error .valueError
  else if keys = [] then .error .valueError
  else .ok (condKeys.map (fun ck =>
    (ck, keys.map (diffRow (CPMF.given a [ck.toVal]) (CPMF.given b [ck.toVal])))))

/-! ## Specification -/

namespace Spec

/-- The two PMFs list the same keys. (Specification.) -/
def SameKeys (a b : PMF) : Prop :=
  ∀ k, k ∈ a.probabilities.map Prod.fst ↔ k ∈ b.probabilities.map Prod.fst

/-- Whatever is asked, the two answers differ by at most `ε`. (Specification.) -/
def Within (ε : ℚ) (a b : PMF) : Prop := ∀ args, |a.p args - b.p args| ≤ ε

end Spec

/-! ## Proofs -/

theorem keySetsEqual_iff (a b : List Key) : keySetsEqual a b = true ↔ ∀ k, k ∈ a ↔ k ∈ b := by
  unfold keySetsEqual
  simp only [Bool.and_eq_true, List.all_eq_true, decide_eq_true_eq]
  exact ⟨fun h k => ⟨h.1 k, h.2 k⟩, fun h => ⟨fun k => (h k).1, fun k => (h k).2⟩⟩

theorem tolerance_pos : 0 < tolerance := by unfold tolerance; norm_num

theorem p_zero_of_not_mem (pmf : PMF) (args : List PyVal)
    (h : mkKey (leavesAll args) ∉ pmf.probabilities.map Prod.fst) : pmf.p args = 0 := by
  rw [PMF.p_eq]; exact dictVal_of_not_mem h

theorem mkKey_comps_mkKey (l : List Int) : mkKey (mkKey l).comps = mkKey l := by
  rw [mkKey_comps]

/-- **C72.** `a == b` holds exactly when the two PMFs list the same keys and no probability that
can be asked for differs by more than the tolerance. -/
theorem pmf_eq_iff (a b : PMF) : a.eq b = true ↔ SameKeys a b ∧ Within tolerance a b := by
  unfold PMF.eq
  by_cases hk : keySetsEqual (a.probabilities.map Prod.fst) (b.probabilities.map Prod.fst) = true
  · rw [if_pos hk]
    rw [keySetsEqual_iff] at hk
    simp only [List.all_eq_true, List.mem_append, Bool.not_eq_true', decide_eq_false_iff_not,
      gt_iff_lt, not_lt]
    constructor
    · intro h
      refine ⟨hk, fun args => ?_⟩
      by_cases hm : mkKey (leavesAll args) ∈ a.probabilities.map Prod.fst
      · have := h _ (.inl hm)
        rw [PMF.p_key, PMF.p_key, mkKey_comps] at this
        rw [PMF.p_eq, PMF.p_eq]; exact this
      · rw [p_zero_of_not_mem a args hm,
          p_zero_of_not_mem b args (fun h' => hm ((hk _).2 h'))]
        simpa using tolerance_pos.le
    · rintro ⟨_, h⟩ k _
      exact h _
  · rw [if_neg hk]
    rw [keySetsEqual_iff] at hk
    constructor
    · intro h; cases h
    · rintro ⟨h, _⟩; exact absurd h hk

/-- **C72.** `==` is reflexive. -/
theorem pmf_eq_refl (a : PMF) : a.eq a = true := by
  rw [pmf_eq_iff]
  exact ⟨fun _ => Iff.rfl, fun _ => by simpa using tolerance_pos.le⟩

/-- **C72.** `==` is symmetric. -/
theorem pmf_eq_symm (a b : PMF) : a.eq b = b.eq a := by
  rw [Bool.eq_iff_iff, pmf_eq_iff, pmf_eq_iff]
  constructor
  · rintro ⟨h1, h2⟩
    exact ⟨fun k => (h1 k).symm, fun args => by rw [abs_sub_comm]; exact h2 args⟩
  · rintro ⟨h1, h2⟩
    exact ⟨fun k => (h1 k).symm, fun args => by rw [abs_sub_comm]; exact h2 args⟩

/-- **C72.** What remains of transitivity: along a chain of `n` equalities the keys stay the same
and the probabilities drift by at most `n` tolerances. -/
theorem pmf_eq_chain (l : List PMF) (a : PMF) (h : List.IsChain (fun x y => PMF.eq x y = true) (a :: l)) :
    SameKeys a ((a :: l).getLast (by simp)) ∧
      Within (l.length * tolerance) a ((a :: l).getLast (by simp)) := by
  induction l generalizing a with
  | nil => exact ⟨fun _ => Iff.rfl, fun _ => by simp⟩
  | cons b l ih =>
    rw [List.isChain_cons_cons] at h
    obtain ⟨h1, h2⟩ := ih b h.2
    obtain ⟨h3, h4⟩ := (pmf_eq_iff a b).1 h.1
    rw [List.getLast_cons (by simp)]
    refine ⟨fun k => (h3 k).trans (h1 k), fun args => ?_⟩
    have e1 := h4 args
    have e2 := h2 args
    have := abs_sub_le (a.p args) (b.p args) (((b :: l).getLast (by simp)).p args)
    simp only [List.length_cons, Nat.cast_add, Nat.cast_one]
    linarith

/-- Finding: `==` is not transitive, even between distributions. -/
theorem pmf_eq_not_transitive : ∃ a b c : PMF,
    (a.probabilities.map Prod.snd).sum = 1 ∧ (b.probabilities.map Prod.snd).sum = 1 ∧
    (c.probabilities.map Prod.snd).sum = 1 ∧
    a.eq b = true ∧ b.eq c = true ∧ a.eq c = false := by
  refine ⟨{ probabilities := [(.one 0, 1/2), (.one 1, 1/2)] },
    { probabilities := [(.one 0, 1/2 + 1/10^10), (.one 1, 1/2 - 1/10^10)] },
    { probabilities := [(.one 0, 1/2 + 2/10^10), (.one 1, 1/2 - 2/10^10)] },
    by norm_num, by norm_num, by norm_num, ?_, ?_, ?_⟩
  all_goals
    simp only [PMF.eq, keySetsEqual, PMF.p_key]
    decide +kernel

/-- **C72.** The variables a PMF is about do not matter to `==`, only its dictionary does. -/
theorem pmf_eq_ignores_ids (a b : PMF) (ids ids' : List Int) (j j' : Option (List Int)) :
    PMF.eq { a with variableIDs := ids, jointIDs := j } { b with variableIDs := ids', jointIDs := j' } =
      a.eq b := rfl

/-- **C72.** A key of one side only, even with probability zero, makes the PMFs unequal. -/
theorem pmf_eq_false_of_key (a b : PMF) (k : Key) (h : k ∈ a.probabilities.map Prod.fst)
    (h' : k ∉ b.probabilities.map Prod.fst) : a.eq b = false := by
  rw [Bool.eq_false_iff]
  intro e
  exact h' ((((pmf_eq_iff a b).1 e).1 k).1 h)

/-- Finding: two PMFs that answer every question alike are unequal when one of them lists a
value of probability zero; removing the zeros makes them equal. -/
theorem pmf_eq_zero_key : ∃ a b : PMF, (∀ args, a.p args = b.p args) ∧ a.eq b = false ∧
    a.removeZeros.eq b.removeZeros = true := by
  refine ⟨{ probabilities := [(.one 0, 1), (.one 1, 0)] }, { probabilities := [(.one 0, 1)] },
    fun args => ?_, by simp only [PMF.eq, keySetsEqual]; decide +kernel, ?_⟩
  · rw [PMF.p_eq, PMF.p_eq]
    simp only [dictVal, dictGet]
    split
    · rfl
    · split <;> rfl
  · have : PMF.removeZeros { probabilities := [(.one 0, 1), (.one 1, 0)] } =
        PMF.removeZeros { probabilities := [(.one 0, 1)] } := by
      simp [PMF.removeZeros]
    rw [this]; exact pmf_eq_refl _

theorem removeZeros_keys (a : PMF) (hn : (a.probabilities.map Prod.fst).Nodup) (k : Key) :
    k ∈ a.removeZeros.probabilities.map Prod.fst ↔ dictVal a.probabilities k ≠ 0 := by
  unfold PMF.removeZeros
  simp only [List.mem_map, List.mem_filter, decide_eq_true_eq]
  constructor
  · rintro ⟨⟨k', p⟩, ⟨h1, h2⟩, rfl⟩
    rw [dictVal_of_mem hn h1]; exact h2
  · intro h
    unfold dictVal at h
    cases hd : dictGet a.probabilities k with
    | none => rw [hd] at h; exact absurd rfl h
    | some p =>
      rw [hd] at h
      exact ⟨(k, p), ⟨dictGet_mem hd, h⟩, rfl⟩

theorem removeZeros_val (a : PMF) (hn : (a.probabilities.map Prod.fst).Nodup) (k : Key) :
    dictVal a.removeZeros.probabilities k = dictVal a.probabilities k := by
  by_cases h : dictVal a.probabilities k = 0
  · rw [h]
    exact dictVal_of_not_mem (fun hm => ((removeZeros_keys a hn k).1 hm) h)
  · obtain ⟨⟨k', p⟩, hm, e⟩ := List.mem_map.1 ((removeZeros_keys a hn k).2 h)
    simp only at e; subst e
    have hn' : (a.removeZeros.probabilities.map Prod.fst).Nodup := by
      unfold PMF.removeZeros
      exact (List.filter_sublist.map Prod.fst).nodup hn
    rw [dictVal_of_mem hn' hm]
    unfold PMF.removeZeros at hm
    rw [dictVal_of_mem hn (List.mem_filter.1 hm).1]

/-- **C72.** After `remove_zeros` on both sides, PMFs with
the same probabilities are equal, however they were listed. -/
theorem pmf_eq_after_remove_zeros (a b : PMF) (ha : (a.probabilities.map Prod.fst).Nodup)
    (hb : (b.probabilities.map Prod.fst).Nodup)
    (h : ∀ k, dictVal a.probabilities k = dictVal b.probabilities k) :
    a.removeZeros.eq b.removeZeros = true := by
  rw [pmf_eq_iff]
  refine ⟨fun k => ?_, fun args => ?_⟩
  · rw [removeZeros_keys a ha, removeZeros_keys b hb, h]
  · rw [PMF.p_eq, PMF.p_eq, removeZeros_val a ha, removeZeros_val b hb, h]
    simpa using tolerance_pos.le

/-- Finding: if every key is a one-element tuple (this is what `condition_on` makes when one
variable is left, see `condition_on_single_unreachable`), `==` compares the keys only: any two
such PMFs over the same keys are equal, whatever their probabilities. -/
theorem pmf_eq_blind_on_single_tuples (a b : PMF)
    (ha : ∀ k ∈ a.probabilities.map Prod.fst, ∃ v, k = .tup [v])
    (hb : ∀ k ∈ b.probabilities.map Prod.fst, ∃ v, k = .tup [v]) :
    a.eq b = true ↔ SameKeys a b := by
  have hz : ∀ pmf : PMF, (∀ k ∈ pmf.probabilities.map Prod.fst, ∃ v, k = .tup [v]) →
      ∀ args, pmf.p args = 0 := by
    intro pmf h args
    refine p_zero_of_not_mem pmf args (fun hm => ?_)
    obtain ⟨v, e⟩ := h _ hm
    have : (leavesAll args) = [v] := by
      have := congrArg Key.comps e
      rwa [mkKey_comps] at this
    rw [this] at e
    cases e
  rw [pmf_eq_iff]
  refine ⟨fun h => h.1, fun h => ⟨h, fun args => ?_⟩⟩
  rw [hz a ha, hz b hb]
  simpa using tolerance_pos.le

/-- `P(X | Z)` and its opposite, as `condition_on` builds them, are "equal". -/
example : PMF.eq { probabilities := [(.tup [0], 1), (.tup [1], 0)] }
    { probabilities := [(.tup [0], 0), (.tup [1], 1)] } = true := by
  simp only [PMF.eq, keySetsEqual, PMF.p_key]
  decide +kernel

/-! ### PMFs of variables -/

theorem ofVariable_facts {v : Variable} {n : Nat} {pmf : PMF} (h : HasInstances v n) (hn : n ≠ 0)
    (e : PMF.ofVariable v = .ok pmf) :
    (∀ k, k ∈ pmf.probabilities.map Prod.fst ↔ k ∈ v.instances) ∧
    (∀ args, pmf.p args = (occurrences v n (leavesAll args) : ℚ) / n) := by
  obtain ⟨pmf', e', _, _, nd, ks, vs⟩ := ofVariable_ok v n (len_eq h) (.inl hn)
  rw [e] at e'
  cases e'
  refine ⟨ks, fun args => ?_⟩
  rw [PMF.p_eq, vs, instances_eq h, count_occurrences]

theorem mem_instances_iff {v : Variable} {n : Nat} (h : HasInstances v n) (k : Key) :
    k ∈ v.instances ↔ ∃ l, k = mkKey l ∧ occurrences v n l ≠ 0 := by
  rw [instances_eq h]
  constructor
  · intro hm
    obtain ⟨r, hr, rfl⟩ := List.mem_map.1 hm
    refine ⟨_, rfl, ?_⟩
    rw [← count_occurrences]
    exact (List.count_pos_iff.2 hm).ne'
  · rintro ⟨l, rfl, h0⟩
    rw [← count_occurrences] at h0
    exact List.count_pos_iff.1 (Nat.pos_of_ne_zero h0)

/-- **C72.** The PMFs of two variables are `==` exactly when the variables take the same values
and no relative frequency differs by more than the tolerance.  (So the order of the instances,
the container they are kept in and the way the columns are grouped play no role.) -/
theorem pmf_eq_of_variables (v w : Variable) (n m : Nat) (hv : HasInstances v n)
    (hw : HasInstances w m) (hn : n ≠ 0) (hm : m ≠ 0) (a b : PMF)
    (ea : PMF.ofVariable v = .ok a) (eb : PMF.ofVariable w = .ok b) :
    a.eq b = true ↔
      (∀ vals, occurrences v n vals ≠ 0 ↔ occurrences w m vals ≠ 0) ∧
      ∀ vals, |(occurrences v n vals : ℚ) / n - occurrences w m vals / m| ≤ tolerance := by
  obtain ⟨ka, pa⟩ := ofVariable_facts hv hn ea
  obtain ⟨kb, pb⟩ := ofVariable_facts hw hm eb
  have key : ∀ {u : Variable} {j : Nat}, HasInstances u j → ∀ vals,
      (mkKey vals ∈ u.instances ↔ occurrences u j vals ≠ 0) := by
    intro u j hu vals
    rw [mem_instances_iff hu]
    exact ⟨fun ⟨l, e, h⟩ => by rw [mkKey_inj e]; exact h, fun h => ⟨vals, rfl, h⟩⟩
  rw [pmf_eq_iff]
  constructor
  · rintro ⟨h1, h2⟩
    refine ⟨fun vals => ?_, fun vals => ?_⟩
    · rw [← key hv, ← key hw, ← ka, ← kb]; exact h1 _
    · have := h2 (vals.map .atom)
      rwa [pa, pb, leavesAll_atoms] at this
  · rintro ⟨h1, h2⟩
    refine ⟨fun k => ?_, fun args => ?_⟩
    · rw [ka, kb, mem_instances_iff hv, mem_instances_iff hw]
      exact ⟨fun ⟨l, e, h⟩ => ⟨l, e, (h1 l).1 h⟩, fun ⟨l, e, h⟩ => ⟨l, e, (h1 l).2 h⟩⟩
    · rw [pa, pb]; exact h2 _

/-- **C72.** For samples whose sizes multiply to less than 10^10 the tolerance is harmless:
the PMFs are `==` exactly when all relative frequencies are the same. -/
theorem pmf_eq_exact_on_small_samples (v w : Variable) (n m : Nat) (hv : HasInstances v n)
    (hw : HasInstances w m) (hn : n ≠ 0) (hm : m ≠ 0) (hsmall : n * m < 10 ^ 10) (a b : PMF)
    (ea : PMF.ofVariable v = .ok a) (eb : PMF.ofVariable w = .ok b) :
    a.eq b = true ↔ ∀ vals, occurrences v n vals * m = occurrences w m vals * n := by
  rw [pmf_eq_of_variables v w n m hv hw hn hm a b ea eb]
  have hn' : (0 : ℚ) < n := by exact_mod_cast Nat.pos_of_ne_zero hn
  have hm' : (0 : ℚ) < m := by exact_mod_cast Nat.pos_of_ne_zero hm
  constructor
  · rintro ⟨_, h⟩ vals
    have h := h vals
    by_contra hne
    set x := occurrences v n vals
    set y := occurrences w m vals
    have hz : (1 : ℤ) ≤ |(x : ℤ) * m - y * n| := by
      apply Int.one_le_abs
      intro h0
      apply hne
      have : (x : ℤ) * m = y * n := by linarith
      exact_mod_cast this
    have hq : (1 : ℚ) ≤ |(x : ℚ) * m - y * n| := by exact_mod_cast hz
    have e : (x : ℚ) / n - y / m = ((x : ℚ) * m - y * n) / (n * m) := by
      field_simp
    rw [e, abs_div, abs_of_pos (mul_pos hn' hm')] at h
    have h2 : |(x : ℚ) * m - y * n| ≤ tolerance * (n * m) :=
      (div_le_iff₀ (mul_pos hn' hm')).1 h
    have h3 : ((n : ℚ) * m) < 10 ^ 10 := by exact_mod_cast hsmall
    unfold tolerance at h2
    linarith
  · intro h
    refine ⟨fun vals => ?_, fun vals => ?_⟩
    · have := h vals
      constructor
      · intro hx hy
        rw [hy, Nat.zero_mul] at this
        rcases Nat.mul_eq_zero.1 this with h | h
        · exact hx h
        · exact hm h
      · intro hy hx
        rw [hx, Nat.zero_mul] at this
        rcases Nat.mul_eq_zero.1 this.symm with h | h
        · exact hy h
        · exact hn h
    · have h1 : (occurrences v n vals : ℚ) * m = occurrences w m vals * n := by
        exact_mod_cast h vals
      have e : (occurrences v n vals : ℚ) / n = occurrences w m vals / m := by
        rw [div_eq_div_iff hn'.ne' hm'.ne']; exact h1
      rw [e, sub_self, abs_zero]; exact tolerance_pos.le

/-- The hypotheses are met by two orderings of the same instances, one a numpy array. -/
example : ∃ a b, PMF.ofVariable (.single ⟨1, [4, 5, 4], true, false⟩) = .ok a ∧
    PMF.ofVariable (.joint [⟨2, [5, 4, 4], true, true⟩]) = .ok b ∧
    (3 * 3 < 10 ^ 10) ∧ a.eq b = true := by
  refine ⟨_, _, rfl, rfl, by norm_num, ?_⟩
  simp only [PMF.eq, keySetsEqual, PMF.p_key]
  decide +kernel

theorem instances_one_zero (id : Int) (N : Nat) :
    PMF.ofVariable (.single ⟨id, 0 :: List.replicate (N + 1) 1, true, true⟩) =
      .ok ⟨[(.one 0, 1 / (N + 2 : Nat)), (.one 1, (N + 1 : Nat) / (N + 2 : Nat))], [id], none⟩ := by
  have hc : countValues (.single ⟨id, 0 :: List.replicate (N + 1) 1, true, true⟩) =
      [(.one 0, 1), (.one 1, N + 1)] := by
    have hi : Variable.instances (.single ⟨id, 0 :: List.replicate (N + 1) 1, true, true⟩) =
        Key.one 0 :: List.replicate (N + 1) (Key.one 1) := by
      simp [Variable.instances]
    have hd : (Key.one 0 :: List.replicate (N + 1) (Key.one 1)).dedup = [Key.one 0, Key.one 1] := by
      rw [List.dedup_cons_of_notMem (by simp), List.replicate_dedup (by omega)]
    unfold countValues
    rw [if_pos (by rfl), hi]
    unfold numpyUnique
    rw [hd]
    simp [List.insertionSort, List.orderedInsert, keyLe, List.count_cons, List.count_replicate]
  unfold PMF.ofVariable
  rw [hc]
  have hl : Variable.len (.single ⟨id, 0 :: List.replicate (N + 1) 1, true, true⟩) = .ok (N + 2) := by
    simp [Variable.len]
  rw [hl]
  show (normalizeCounts (N + 2) [(.one 0, 1), (.one 1, N + 1)] >>= fun p => _) = _
  rw [normalizeCounts_ok _ _ (.inl (by omega))]
  show Except.ok _ = _
  congr 1

/-- Finding: beyond that size, samples with different frequencies compare equal (one zero among
100001 instances, one zero among 100002 instances). -/
theorem pmf_eq_large_samples : ∃ (v w : Variable) (n m : Nat) (a b : PMF),
    HasInstances v n ∧ HasInstances w m ∧ PMF.ofVariable v = .ok a ∧ PMF.ofVariable w = .ok b ∧
    a.p [.atom 0] ≠ b.p [.atom 0] ∧ a.eq b = true := by
  refine ⟨.single ⟨1, 0 :: List.replicate (99999 + 1) 1, true, true⟩,
    .single ⟨1, 0 :: List.replicate (100000 + 1) 1, true, true⟩, 100001, 100002, _, _,
    ⟨List.cons_ne_nil _ _, ?_⟩, ⟨List.cons_ne_nil _ _, ?_⟩,
    instances_one_zero 1 99999, instances_one_zero 1 100000, ?_, ?_⟩
  · intro c hc
    simp only [columns, List.mem_singleton] at hc
    rw [hc, List.length_cons, List.length_replicate]
  · intro c hc
    simp only [columns, List.mem_singleton] at hc
    rw [hc, List.length_cons, List.length_replicate]
  · simp only [PMF.p_eq, leavesAll, PyVal.leaves]
    decide +kernel
  · simp only [PMF.eq, keySetsEqual, PMF.p_key]
    decide +kernel

/-! ### CPMFs -/

/-- **C72.** Two CPMFs are `==` exactly when they list the same conditioning values and their
conditional PMFs are `==` for every conditioning value that can be asked for. -/
theorem cpmf_eq_iff (a b : CPMF) :
    CPMF.eq a b = true ↔ (∀ k, k ∈ a.map Prod.fst ↔ k ∈ b.map Prod.fst) ∧
      ∀ args, PMF.eq (CPMF.given a args) (CPMF.given b args) = true := by
  have hg : ∀ (c : CPMF) (args : List PyVal), CPMF.given c args =
      (dictGet c (mkKey (leavesAll args))).getD PMF.empty := by
    intro c args
    unfold CPMF.given
    rw [processPmfKey_eq]
    cases dictGet c (mkKey (leavesAll args)) <;> rfl
  unfold CPMF.eq
  by_cases hk : keySetsEqual (a.map Prod.fst) (b.map Prod.fst) = true
  · rw [if_pos hk]
    rw [keySetsEqual_iff] at hk
    simp only [List.all_eq_true]
    constructor
    · intro h
      refine ⟨hk, fun args => ?_⟩
      by_cases hm : mkKey (leavesAll args) ∈ a.map Prod.fst
      · have := h _ hm
        rw [hg, hg] at this ⊢
        have e : leavesAll [(mkKey (leavesAll args)).toVal] = leavesAll args := by
          simp [leavesAll, Key.leaves_toVal, mkKey_comps]
        rwa [e] at this
      · have hm' : mkKey (leavesAll args) ∉ b.map Prod.fst := fun h' => hm ((hk _).2 h')
        rw [hg, hg, (dictGet_none_iff _ _).2 hm, (dictGet_none_iff _ _).2 hm']
        exact pmf_eq_refl _
    · rintro ⟨_, h⟩ k _
      exact h _
  · rw [if_neg hk]
    rw [keySetsEqual_iff] at hk
    constructor
    · intro h; cases h
    · rintro ⟨h, _⟩; exact absurd h hk

/-- **C72.** `==` on CPMFs is reflexive. -/
theorem cpmf_eq_refl (a : CPMF) : CPMF.eq a a = true :=
  (cpmf_eq_iff a a).2 ⟨fun _ => Iff.rfl, fun _ => pmf_eq_refl _⟩

/-- **C72.** `==` on CPMFs is symmetric. -/
theorem cpmf_eq_symm (a b : CPMF) : CPMF.eq a b = CPMF.eq b a := by
  rw [Bool.eq_iff_iff, cpmf_eq_iff, cpmf_eq_iff]
  constructor
  · rintro ⟨h1, h2⟩
    exact ⟨fun k => (h1 k).symm, fun args => by rw [pmf_eq_symm]; exact h2 args⟩
  · rintro ⟨h1, h2⟩
    exact ⟨fun k => (h1 k).symm, fun args => by rw [pmf_eq_symm]; exact h2 args⟩

/-! ### The printed differences -/

theorem keyLe_total (a b : Key) : keyLe a b = true ∨ keyLe b a = true := by
  cases a <;> cases b <;> simp [keyLe]
  · exact le_total _ _
  · exact le_total _ _

theorem keyLe_trans (a b c : Key) (h1 : keyLe a b = true) (h2 : keyLe b c = true) :
    keyLe a c = true := by
  cases a <;> cases b <;> cases c <;> simp_all [keyLe]
  · exact h1.trans h2
  · exact h1.trans h2

theorem sortedKeys_ok {keys l : List Key} (h : sortedKeys keys = .ok l) :
    l.Nodup ∧ (∀ k, k ∈ l ↔ k ∈ keys) ∧ l.Pairwise (fun a b => keyLe a b = true) := by
  unfold sortedKeys at h
  split at h
  · cases h
    refine ⟨(List.perm_insertionSort _ _).nodup_iff.2 (List.nodup_dedup _), fun k => ?_, ?_⟩
    · rw [(List.perm_insertionSort _ _).mem_iff, List.mem_dedup]
    · have : Std.Total (fun a b : Key => keyLe a b = true) := ⟨keyLe_total⟩
      have : IsTrans Key (fun a b : Key => keyLe a b = true) := ⟨keyLe_trans⟩
      exact List.pairwise_insertionSort _ _
  · cases h

/-- **C72.** `pmf_diff` prints one row per key of either PMF, in key order, with the two
probabilities; a row is red exactly when they differ by more than the tolerance. -/
theorem pmf_diff_exact (a b : PMF) (rows : List DiffRow) (e : pmfDiff a b = .ok rows) :
    (rows.map (·.key)).Nodup ∧
    (rows.map (·.key)).Pairwise (fun x y => keyLe x y = true) ∧
    (∀ k, k ∈ rows.map (·.key) ↔
      k ∈ a.probabilities.map Prod.fst ∨ k ∈ b.probabilities.map Prod.fst) ∧
    ∀ r ∈ rows, r.left = a.p [r.key.toVal] ∧ r.right = b.p [r.key.toVal] ∧
      (r.red = true ↔ tolerance < |r.left - r.right|) := by
  unfold pmfDiff at e
  cases hk : sortedKeys (a.probabilities.map Prod.fst ++ b.probabilities.map Prod.fst) with
  | error x => rw [hk] at e; cases e
  | ok keys =>
    rw [hk] at e
    change (if keys = [] then _ else Except.ok (keys.map (diffRow a b))) = _ at e
    split at e
    · cases e
    · cases e
      obtain ⟨h1, h2, h3⟩ := sortedKeys_ok hk
      have hm : (keys.map (diffRow a b)).map (·.key) = keys := by
        rw [List.map_map]; exact List.map_id _
      rw [hm]
      refine ⟨h1, h3, fun k => by rw [h2, List.mem_append], fun r hr => ?_⟩
      obtain ⟨k, _, rfl⟩ := List.mem_map.1 hr
      simp [diffRow]

/-- **C72.** `pmf_diff` agrees with `==`: when the two list the same keys, they are equal
exactly when no row is red. -/
theorem pmf_diff_agrees (a b : PMF) (rows : List DiffRow) (e : pmfDiff a b = .ok rows)
    (hk : SameKeys a b) : a.eq b = true ↔ ∀ r ∈ rows, r.red = false := by
  obtain ⟨_, _, h3, h4⟩ := pmf_diff_exact a b rows e
  rw [pmf_eq_iff]
  constructor
  · rintro ⟨_, h⟩ r hr
    obtain ⟨h5, h6, h7⟩ := h4 r hr
    rw [Bool.eq_false_iff]
    intro hred
    have := h7.1 hred
    rw [h5, h6] at this
    exact absurd (h [r.key.toVal]) (not_le.2 this)
  · intro h
    refine ⟨hk, fun args => ?_⟩
    by_cases hm : mkKey (leavesAll args) ∈ a.probabilities.map Prod.fst
    · obtain ⟨r, hr, ek⟩ := List.mem_map.1 ((h3 _).2 (.inl hm))
      obtain ⟨h5, h6, h7⟩ := h4 r hr
      have hnr : ¬ tolerance < |r.left - r.right| := fun hlt => by
        have := h7.2 hlt
        rw [h r hr] at this
        cases this
      rw [h5, h6, ek, PMF.p_key, PMF.p_key, mkKey_comps, not_lt] at hnr
      rw [PMF.p_eq, PMF.p_eq]; exact hnr
    · rw [p_zero_of_not_mem a args hm, p_zero_of_not_mem b args (fun h' => hm ((hk _).2 h'))]
      simpa using tolerance_pos.le

/-- **C72.** `pmf_diff` succeeds exactly when there is a key and no scalar key is mixed with a
tuple key. -/
theorem pmf_diff_defined (a b : PMF) : (∃ rows, pmfDiff a b = .ok rows) ↔
    (a.probabilities ≠ [] ∨ b.probabilities ≠ []) ∧
    ¬ ∃ (v : Int) (vs : List Int),
      Key.one v ∈ (a.probabilities ++ b.probabilities).map Prod.fst ∧
      Key.tup vs ∈ (a.probabilities ++ b.probabilities).map Prod.fst := by
  unfold pmfDiff
  rw [← List.map_append]
  have hs : ∀ keys : List Key, (keys.all Key.isOne || keys.all (fun k => !k.isOne)) = true ↔
      ¬ ∃ (v : Int) (vs : List Int), Key.one v ∈ keys ∧ Key.tup vs ∈ keys := by
    intro keys
    rw [Bool.or_eq_true, List.all_eq_true, List.all_eq_true]
    constructor
    · rintro (h | h) ⟨v, vs, h1, h2⟩
      · exact absurd (h _ h2) (by simp [Key.isOne])
      · exact absurd (h _ h1) (by simp [Key.isOne])
    · intro h
      by_cases h1 : ∃ v, Key.one v ∈ keys
      · obtain ⟨v, hv⟩ := h1
        left
        intro k hk
        cases k with
        | one _ => rfl
        | tup vs => exact absurd ⟨v, vs, hv, hk⟩ h
      · right
        intro k hk
        cases k with
        | one v => exact absurd ⟨v, hk⟩ h1
        | tup _ => rfl
  unfold sortedKeys
  by_cases hc : (((a.probabilities ++ b.probabilities).map Prod.fst).all Key.isOne ||
      ((a.probabilities ++ b.probabilities).map Prod.fst).all (fun k => !k.isOne)) = true
  · rw [if_pos hc]
    rw [hs] at hc
    generalize hl : ((a.probabilities ++ b.probabilities).map Prod.fst).dedup.insertionSort
      (fun a b => keyLe a b = true) = l
    have hnil : l = [] ↔ a.probabilities = [] ∧ b.probabilities = [] := by
      rw [← List.append_eq_nil_iff, List.eq_nil_iff_forall_not_mem]
      subst hl
      simp only [(List.perm_insertionSort _ _).mem_iff, List.mem_dedup]
      rw [← List.eq_nil_iff_forall_not_mem, List.map_eq_nil_iff]
    change (∃ rows, (if l = [] then (Except.error Err.valueError : Except Err (List DiffRow))
      else Except.ok (l.map (diffRow a b))) = Except.ok rows) ↔ _
    by_cases h0 : l = []
    · rw [if_pos h0]
      constructor
      · rintro ⟨_, h⟩; cases h
      · rintro ⟨h, _⟩
        obtain ⟨h1, h2⟩ := hnil.1 h0
        rcases h with h | h
        · exact absurd h1 h
        · exact absurd h2 h
    · rw [if_neg h0]
      refine ⟨fun _ => ⟨?_, hc⟩, fun _ => ⟨_, rfl⟩⟩
      by_contra hcon
      simp only [not_or, not_not] at hcon
      exact h0 (hnil.2 hcon)
  · rw [if_neg hc]
    rw [hs] at hc
    constructor
    · rintro ⟨_, h⟩; cases h
    · rintro ⟨_, h⟩; exact absurd h hc

/-- **C72.** `cpmf_diff` prints, for every conditioning value of either side, one row for every
key of any conditional PMF, with the two conditional probabilities. -/
theorem cpmf_diff_exact (a b : CPMF) (blocks : List (Key × List DiffRow))
    (e : cpmfDiff a b = .ok blocks) :
    (blocks.map Prod.fst).Nodup ∧
    (∀ ck, ck ∈ blocks.map Prod.fst ↔ ck ∈ a.map Prod.fst ∨ ck ∈ b.map Prod.fst) ∧
    ∀ block ∈ blocks, (block.2.map (·.key)).Nodup ∧
      (∀ k, k ∈ block.2.map (·.key) ↔ ∃ ck ∈ blocks.map Prod.fst,
        k ∈ (CPMF.given a [ck.toVal]).probabilities.map Prod.fst ∨
        k ∈ (CPMF.given b [ck.toVal]).probabilities.map Prod.fst) ∧
      ∀ r ∈ block.2, r.left = (CPMF.given a [block.1.toVal]).p [r.key.toVal] ∧
        r.right = (CPMF.given b [block.1.toVal]).p [r.key.toVal] ∧
        (r.red = true ↔ tolerance < |r.left - r.right|) := by
  unfold cpmfDiff at e
  cases hc : sortedKeys (a.map Prod.fst ++ b.map Prod.fst) with
  | error x => rw [hc] at e; cases e
  | ok cks =>
    rw [hc] at e
    change (sortedKeys
      (cks.flatMap (fun ck => (CPMF.given a [ck.toVal]).probabilities.map Prod.fst) ++
       cks.flatMap (fun ck => (CPMF.given b [ck.toVal]).probabilities.map Prod.fst)) >>= _) = _ at e
    cases hk : sortedKeys
      (cks.flatMap (fun ck => (CPMF.given a [ck.toVal]).probabilities.map Prod.fst) ++
       cks.flatMap (fun ck => (CPMF.given b [ck.toVal]).probabilities.map Prod.fst)) with
    | error x => rw [hk] at e; cases e
    | ok keys =>
      rw [hk] at e
      change (if cks = [] then _ else if keys = [] then _ else Except.ok (cks.map _)) = _ at e
      split at e
      · cases e
      · split at e
        · cases e
        · cases e
          obtain ⟨h1, h2, _⟩ := sortedKeys_ok hc
          obtain ⟨h4, h5, _⟩ := sortedKeys_ok hk
          rw [List.map_map, show (Prod.fst ∘ fun ck : Key => (ck, keys.map (diffRow
            (CPMF.given a [ck.toVal]) (CPMF.given b [ck.toVal])))) = id from rfl, List.map_id]
          refine ⟨h1, fun ck => by rw [h2, List.mem_append], fun block hb => ?_⟩
          obtain ⟨ck, hck, rfl⟩ := List.mem_map.1 hb
          have hm : (keys.map (diffRow (CPMF.given a [ck.toVal])
              (CPMF.given b [ck.toVal]))).map (·.key) = keys := by
            rw [List.map_map]; exact List.map_id _
          refine ⟨by rw [hm]; exact h4, fun k => ?_, fun r hr => ?_⟩
          · rw [hm, h5, List.mem_append, List.mem_flatMap, List.mem_flatMap]
            constructor
            · rintro (⟨c, hc1, hc2⟩ | ⟨c, hc1, hc2⟩)
              · exact ⟨c, hc1, .inl hc2⟩
              · exact ⟨c, hc1, .inr hc2⟩
            · rintro ⟨c, hc1, hc2 | hc2⟩
              · exact .inl ⟨c, hc1, hc2⟩
              · exact .inr ⟨c, hc1, hc2⟩
          · obtain ⟨k, _, rfl⟩ := List.mem_map.1 hr
            simp [diffRow]

end Mbtk.Stats
