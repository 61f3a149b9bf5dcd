import Verif.Stats.PMF
import Mathlib.Algebra.BigOperators.Group.List.Lemmas
import Mathlib.Algebra.BigOperators.Field
import Mathlib.Tactic.FieldSimp
import Mathlib.Tactic.Linarith
/-!
# Lemmas about the PMF model
-/
namespace Mbtk.Stats

/-! ## Counting -/

theorem counter_nodup (l : List Key) : ((counter l).map Prod.fst).Nodup :=
  dictAddAll_nodup _ _ (by simp)

theorem mem_counter_keys (l : List Key) (k : Key) : k ∈ (counter l).map Prod.fst ↔ k ∈ l := by
  unfold counter
  rw [mem_dictAddAll_keys]
  simp

theorem counter_val (l : List Key) (k : Key) : dictVal (counter l) k = l.count k := by
  unfold counter
  rw [dictVal_dictAddAll]
  simp only [dictVal, dictGet, Option.getD_none, zero_add]
  induction l with
  | nil => rfl
  | cons x l ih =>
    by_cases h : x = k
    · subst h; simp [Nat.add_comm] at ih ⊢; omega
    · simp [h, List.count_cons] at ih ⊢; exact ih

theorem numpyUnique_nodup (l : List Key) : ((numpyUnique l).map Prod.fst).Nodup := by
  unfold numpyUnique
  rw [List.map_map]
  have : (Prod.fst ∘ fun k : Key => (k, l.count k)) = id := rfl
  rw [this, List.map_id]
  exact (List.perm_insertionSort _ _).nodup_iff.2 (List.nodup_dedup l)

theorem mem_numpyUnique_keys (l : List Key) (k : Key) :
    k ∈ (numpyUnique l).map Prod.fst ↔ k ∈ l := by
  unfold numpyUnique
  rw [List.map_map]
  have : (Prod.fst ∘ fun k : Key => (k, l.count k)) = id := rfl
  rw [this, List.map_id, (List.perm_insertionSort _ _).mem_iff, List.mem_dedup]

theorem numpyUnique_val (l : List Key) (k : Key) : dictVal (numpyUnique l) k = l.count k := by
  by_cases h : k ∈ l
  · refine dictVal_of_mem (numpyUnique_nodup l) ?_
    have h1 := (mem_numpyUnique_keys l k).2 h
    obtain ⟨⟨k', c⟩, hm, rfl⟩ := List.mem_map.1 h1
    have := List.mem_map.1 hm
    obtain ⟨a, _, ha⟩ := this
    cases ha
    exact hm
  · rw [dictVal_of_not_mem (fun h' => h ((mem_numpyUnique_keys l k).1 h')),
      List.count_eq_zero_of_not_mem h]

theorem countValues_spec (v : Variable) :
    ((countValues v).map Prod.fst).Nodup ∧
    (∀ k, k ∈ (countValues v).map Prod.fst ↔ k ∈ v.instances) ∧
    ∀ k, dictVal (countValues v) k = v.instances.count k := by
  unfold countValues
  split
  · exact ⟨numpyUnique_nodup _, mem_numpyUnique_keys _, numpyUnique_val _⟩
  · exact ⟨counter_nodup _, mem_counter_keys _, counter_val _⟩

theorem normalizeCounts_ok (total : Nat) (d : List (Key × Nat)) (h : total ≠ 0 ∨ d = []) :
    normalizeCounts total d = .ok (d.map (fun p => (p.1, (p.2 : ℚ) / total))) := by
  induction d with
  | nil => rfl
  | cons p d ih =>
    obtain ⟨k, n⟩ := p
    rcases h with h | h
    · simp [normalizeCounts, h, ih (.inl h)]; rfl
    · simp at h

theorem dictVal_map {κ ν μ : Type} [DecidableEq κ] [Zero ν] [Zero μ] (f : ν → μ) (h0 : f 0 = 0)
    (d : List (κ × ν)) (k : κ) :
    dictVal (d.map (fun p => (p.1, f p.2))) k = f (dictVal d k) := by
  induction d with
  | nil => simp [dictVal, dictGet, h0]
  | cons p d ih =>
    obtain ⟨k', v⟩ := p
    unfold dictVal at *
    by_cases h : k' = k <;> simp [dictGet, h, ih]

/-- `PMF(variable)`: every key's probability is its relative frequency. -/
theorem ofVariable_ok (v : Variable) (n : Nat) (hlen : v.len = .ok n)
    (hpos : n ≠ 0 ∨ v.instances = []) :
    ∃ pmf, PMF.ofVariable v = .ok pmf ∧ pmf.variableIDs = v.ids ∧ pmf.jointIDs = v.jointIDs ∧
      (pmf.probabilities.map Prod.fst).Nodup ∧
      (∀ k, k ∈ pmf.probabilities.map Prod.fst ↔ k ∈ v.instances) ∧
      (∀ k, dictVal pmf.probabilities k = (v.instances.count k : ℚ) / n) := by
  obtain ⟨c1, c2, c3⟩ := countValues_spec v
  have hc : n ≠ 0 ∨ countValues v = [] := by
    rcases hpos with h | h
    · exact .inl h
    · right
      cases hv : countValues v with
      | nil => rfl
      | cons p d =>
        have := (c2 p.1).1 (by rw [hv]; simp)
        rw [h] at this; simp at this
  refine ⟨⟨(countValues v).map (fun p => (p.1, (p.2 : ℚ) / n)), v.ids, v.jointIDs⟩, ?_, rfl, rfl,
    ?_, ?_, ?_⟩
  · unfold PMF.ofVariable
    rw [hlen]
    show (do let p ← normalizeCounts n (countValues v); _) = _
    rw [normalizeCounts_ok _ _ hc]; rfl
  · rw [List.map_map]; exact c1
  · intro k
    rw [List.map_map]
    exact c2 k
  · intro k
    have := dictVal_map (fun x : Nat => (x : ℚ) / n) (by simp) (countValues v) k
    simp only at this ⊢
    rw [this, c3]

theorem PMF.p_eq (pmf : PMF) (args : List PyVal) :
    pmf.p args = dictVal pmf.probabilities (mkKey (leavesAll args)) := by
  unfold PMF.p dictVal
  rw [processPmfKey_eq]
  cases dictGet pmf.probabilities (mkKey (leavesAll args)) <;> rfl

theorem PMF.p_key (pmf : PMF) (k : Key) :
    pmf.p [k.toVal] = dictVal pmf.probabilities (mkKey k.comps) := by
  rw [PMF.p_eq]
  simp [leavesAll, Key.leaves_toVal]

theorem PMF.p_pair (pmf : PMF) (k k' : Key) :
    pmf.p [k.toVal, k'.toVal] = dictVal pmf.probabilities (mkKey (k.comps ++ k'.comps)) := by
  rw [PMF.p_eq]
  simp [leavesAll, Key.leaves_toVal]

/-- The probabilities of a list of counted instances sum to one. -/
theorem sum_count_values {d : List (Key × ℚ)} {l : List Key} {n : Nat}
    (hn : (d.map Prod.fst).Nodup) (hk : ∀ k, k ∈ d.map Prod.fst ↔ k ∈ l)
    (hv : ∀ k, dictVal d k = (l.count k : ℚ) / n) :
    (d.map Prod.snd).sum = (l.length : ℚ) / n := by
  have h1 := sum_items hn (fun _ (v : ℚ) => v)
  rw [h1]
  simp only [hv]
  have h2 : (d.map Prod.fst).toFinset = l.toFinset := by
    ext k; simp only [List.mem_toFinset]; exact hk k
  rw [h2, ← Finset.sum_div, ← Nat.cast_sum, List.sum_toFinset_count_eq_length]

/-! ## Joint variables -/

/-- `zip(*columns)` on columns that come from a common list of rows. -/
theorem zipColumns_rows {ρ : Type} (rows : List ρ) (cols : List (ρ → Int)) (h : cols ≠ []) :
    zipColumns (cols.map (fun f => rows.map f)) = rows.map (fun r => cols.map (fun f => f r)) := by
  induction cols with
  | nil => exact absurd rfl h
  | cons f cols ih =>
    cases cols with
    | nil => simp [zipColumns]
    | cons g cols =>
      have e := ih (by simp)
      simp only [List.map_cons] at e ⊢
      rw [zipColumns, e]
      · clear e ih
        induction rows with
        | nil => rfl
        | cons r rows ih => simp
      · simp

/-! ## Marginalisation -/

/-- The remaining values after dropping position `i`. -/
theorem sumOverLoop_ok (i : Nat) (acc items : List (Key × ℚ))
    (h : ∀ p ∈ items, ∃ vs, p.1 = .tup vs) :
    sumOverLoop i acc items =
      .ok (dictAddAll acc (items.map (fun p => (mkKey (p.1.comps.eraseIdx i), p.2)))) := by
  induction items generalizing acc with
  | nil => rfl
  | cons p items ih =>
    obtain ⟨k, v⟩ := p
    obtain ⟨vs, rfl⟩ := h (k, v) (by simp)
    simp only [sumOverLoop, removeFromKey]
    show sumOverLoop i (dictAdd acc (processPmfKey ((vs.take i ++ vs.drop (i + 1)).map .atom)) v)
      items = _
    rw [ih _ (fun p hp => h p (List.mem_cons_of_mem _ hp)), processPmfKey_eq, leavesAll_atoms,
      ← List.eraseIdx_eq_take_drop_succ]
    rfl

theorem filter_mkKey {ν : Type} (items : List (List Int × ν)) (l : List Int) :
    ((items.map (fun p => (mkKey p.1, p.2))).filter (fun p => p.1 = mkKey l)).map Prod.snd =
      (items.filter (fun p => p.1 = l)).map Prod.snd := by
  induction items with
  | nil => rfl
  | cons p items ih =>
    by_cases h : p.1 = l
    · simp [h, ih]
    · have : mkKey p.1 ≠ mkKey l := fun e => h (mkKey_inj e)
      simp [h, this, ih]

/-- `sum_over`: what it does to a PMF whose keys are tuples. -/
theorem sumOver_ok (pmf : PMF) (id : Int) (hid : id ∈ pmf.variableIDs)
    (hk : ∀ p ∈ pmf.probabilities, ∃ vs, p.1 = .tup vs) :
    ∃ r, pmf.sumOver id = .ok r ∧
      r.variableIDs = pmf.variableIDs.eraseIdx (pmf.variableIDs.idxOf id) ∧
      (r.probabilities.map Prod.fst).Nodup ∧
      (∀ k, k ∈ r.probabilities.map Prod.fst ↔ ∃ p ∈ pmf.probabilities,
        k = mkKey (p.1.comps.eraseIdx (pmf.variableIDs.idxOf id))) ∧
      ∀ l, dictVal r.probabilities (mkKey l) = ((pmf.probabilities.filter
        (fun p => p.1.comps.eraseIdx (pmf.variableIDs.idxOf id) = l)).map Prod.snd).sum := by
  refine ⟨⟨dictAddAll [] (pmf.probabilities.map (fun p =>
      (mkKey (p.1.comps.eraseIdx (pmf.variableIDs.idxOf id)), p.2))),
    pmf.variableIDs.eraseIdx (pmf.variableIDs.idxOf id), none⟩, ?_, rfl, ?_, ?_, ?_⟩
  · unfold PMF.sumOver pyIndex
    rw [if_pos hid]
    show (do let p ← sumOverLoop _ [] pmf.probabilities; _) = _
    rw [sumOverLoop_ok _ _ _ hk, List.eraseIdx_eq_take_drop_succ]
    rfl
  · exact dictAddAll_nodup _ _ (by simp)
  · intro k
    rw [mem_dictAddAll_keys]
    simp only [List.map_map, List.mem_map, Function.comp, List.map_nil, List.not_mem_nil, or_false]
    constructor
    · rintro ⟨p, hp, rfl⟩; exact ⟨p, hp, rfl⟩
    · rintro ⟨p, hp, rfl⟩; exact ⟨p, hp, rfl⟩
  · intro l
    simp only
    rw [dictVal_dictAddAll]
    simp only [dictVal, dictGet, Option.getD_none, zero_add]
    have := filter_mkKey (pmf.probabilities.map (fun p =>
      (p.1.comps.eraseIdx (pmf.variableIDs.idxOf id), p.2))) l
    rw [List.map_map] at this
    have e : ((fun p : List Int × ℚ => (mkKey p.1, p.2)) ∘ fun p : Key × ℚ =>
      (p.1.comps.eraseIdx (pmf.variableIDs.idxOf id), p.2)) =
      fun p => (mkKey (p.1.comps.eraseIdx (pmf.variableIDs.idxOf id)), p.2) := rfl
    rw [e] at this
    rw [this, List.filter_map, List.map_map]
    rfl

/-! ## Conditioning -/

/-- The inner value of a conditional dictionary.
(Models no code: a notion for statements and proofs.) -/
def val2 (c : CPMF) (ck rk : Key) : ℚ :=
  dictVal ((dictGet c ck).getD PMF.empty).probabilities rk

/-- What is known about a conditional dictionary while it is being filled: outer and inner
keys are unique and inner keys have the given shape.
(Models no code: a notion for statements and proofs.) -/
structure CWF (shape : Key → Prop) (c : CPMF) : Prop where
  outer : (c.map Prod.fst).Nodup
  inner : ∀ ck, (((dictGet c ck).getD PMF.empty).probabilities.map Prod.fst).Nodup
  shape : ∀ ck, ∀ rk ∈ ((dictGet c ck).getD PMF.empty).probabilities.map Prod.fst, shape rk

/-- Pure version of one iteration. (Models no code: a notion for statements and proofs.) -/
def cput (c : CPMF) (ck rk : Key) (p pc : ℚ) : CPMF :=
  let pmf := (dictGet c ck).getD PMF.empty
  if pc = 0 then dictSet c ck pmf
  else dictSet c ck { pmf with probabilities := dictSet pmf.probabilities rk (p / pc) }

theorem cput_val2 (c : CPMF) (ck rk : Key) (p pc : ℚ) (ck' rk' : Key) :
    val2 (cput c ck rk p pc) ck' rk' =
      if ck = ck' ∧ rk = rk' ∧ pc ≠ 0 then p / pc else val2 c ck' rk' := by
  unfold cput val2
  by_cases h : pc = 0
  · simp only [h, if_true, dictGet_dictSet, ne_eq, not_true_eq_false, and_false, if_false]
    by_cases e : ck = ck' <;> simp [e]
  · simp only [h, if_false, dictGet_dictSet, ne_eq, not_false_eq_true, and_true]
    by_cases e : ck = ck'
    · subst e
      simp only [if_true, Option.getD_some, true_and, dictVal, dictGet_dictSet]
      by_cases e2 : rk = rk' <;> simp [e2]
    · simp [e]

theorem cput_wf {shape : Key → Prop} {c : CPMF} (h : CWF shape c) (ck rk : Key) (p pc : ℚ)
    (hs : shape rk) : CWF shape (cput c ck rk p pc) := by
  unfold cput
  by_cases h0 : pc = 0
  · simp only [h0, if_true]
    refine ⟨dictSet_nodup _ _ _ h.outer, ?_, ?_⟩
    · intro ck'
      rw [dictGet_dictSet]
      by_cases e : ck = ck'
      · subst e; simpa using h.inner ck
      · simpa [e] using h.inner ck'
    · intro ck' rk' hm
      rw [dictGet_dictSet] at hm
      by_cases e : ck = ck'
      · subst e; simp only [if_true, Option.getD_some] at hm; exact h.shape ck rk' hm
      · simp only [e, if_false] at hm; exact h.shape ck' rk' hm
  · simp only [h0, if_false]
    refine ⟨dictSet_nodup _ _ _ h.outer, ?_, ?_⟩
    · intro ck'
      rw [dictGet_dictSet]
      by_cases e : ck = ck'
      · subst e
        simp only [if_true, Option.getD_some]
        exact dictSet_nodup _ _ _ (h.inner ck)
      · simpa [e] using h.inner ck'
    · intro ck' rk' hm
      rw [dictGet_dictSet] at hm
      by_cases e : ck = ck'
      · subst e
        simp only [if_true, Option.getD_some] at hm
        rw [mem_dictSet_keys] at hm
        rcases hm with rfl | hm
        · exact hs
        · exact h.shape ck rk' hm
      · simp only [e, if_false] at hm; exact h.shape ck' rk' hm

theorem cput_keys (c : CPMF) (ck rk : Key) (p pc : ℚ) (k : Key) :
    k ∈ (cput c ck rk p pc).map Prod.fst ↔ k = ck ∨ k ∈ c.map Prod.fst := by
  unfold cput
  dsimp only
  split <;> exact mem_dictSet_keys _ _ _ _

/-- The loop of `condition_on`/`make_cpmf_*`: if the two key functions succeed on every joint
key and together determine the joint key, the result holds, for every joint entry, its
probability divided by the probability of the conditioning part. -/
theorem conditionLoop_ok (condKey restKey : Key → Except Err Key) (ck rk : Key → Key)
    (cond : PMF) (items : List (Key × ℚ)) (shape : Key → Prop)
    (hn : (items.map Prod.fst).Nodup)
    (hc : ∀ p ∈ items, condKey p.1 = .ok (ck p.1))
    (hr : ∀ p ∈ items, restKey p.1 = .ok (rk p.1))
    (hinj : ∀ p ∈ items, ∀ q ∈ items, ck p.1 = ck q.1 → rk p.1 = rk q.1 → p.1 = q.1)
    (hs : ∀ p ∈ items, shape (rk p.1)) (acc : CPMF) (hacc : CWF shape acc) :
    ∃ r, conditionLoop condKey restKey cond acc items = .ok r ∧ CWF shape r ∧
      (∀ k, k ∈ r.map Prod.fst ↔ k ∈ acc.map Prod.fst ∨ ∃ p ∈ items, k = ck p.1) ∧
      (∀ p ∈ items, cond.p [(ck p.1).toVal] ≠ 0 →
        val2 r (ck p.1) (rk p.1) = p.2 / cond.p [(ck p.1).toVal]) ∧
      (∀ k k', (∀ p ∈ items, ck p.1 = k → rk p.1 = k' → cond.p [k.toVal] = 0) →
        val2 r k k' = val2 acc k k') := by
  induction items generalizing acc with
  | nil => exact ⟨acc, rfl, hacc, by simp, by simp, by simp⟩
  | cons q items ih =>
    simp only [List.map_cons, List.nodup_cons] at hn
    have hstep : conditionStep condKey restKey cond acc q =
        .ok (cput acc (ck q.1) (rk q.1) q.2 (cond.p [(ck q.1).toVal])) := by
      unfold conditionStep
      rw [hc q (by simp), hr q (by simp)]
      show (if _ then _ else _) = _
      unfold cput
      dsimp only
      split <;> rfl
    obtain ⟨r, e, w, k1, v1, v2⟩ := ih hn.2 (fun p hp => hc p (List.mem_cons_of_mem _ hp))
      (fun p hp => hr p (List.mem_cons_of_mem _ hp))
      (fun p hp p' hp' => hinj p (List.mem_cons_of_mem _ hp) p' (List.mem_cons_of_mem _ hp'))
      (fun p hp => hs p (List.mem_cons_of_mem _ hp))
      (cput acc (ck q.1) (rk q.1) q.2 (cond.p [(ck q.1).toVal]))
      (cput_wf hacc _ _ _ _ (hs q (by simp)))
    refine ⟨r, ?_, w, ?_, ?_, ?_⟩
    · show (do let a ← conditionStep condKey restKey cond acc q; conditionLoop _ _ _ a items) = _
      rw [hstep]; exact e
    · intro k
      rw [k1, cput_keys]
      simp only [List.mem_cons, exists_eq_or_imp]
      tauto
    · intro p hp h0
      rcases List.mem_cons.1 hp with rfl | hp
      · rw [v2]
        · rw [cput_val2]; simp [h0]
        · intro p' hp' h1 h2
          exfalso
          have := hinj p (by simp) p' (List.mem_cons_of_mem _ hp') h1.symm h2.symm
          exact hn.1 (List.mem_map.2 ⟨p', hp', this.symm⟩)
      · exact v1 p hp h0
    · intro k k' h
      rw [v2 k k' (fun p hp => h p (List.mem_cons_of_mem _ hp)), cput_val2]
      split
      · next hh =>
        exact absurd (h q (by simp) hh.1 hh.2.1) (by rw [← hh.1]; exact hh.2.2)
      · rfl

/-- The value of variable `v` in a joint key.
(Models no code: a notion for statements and proofs.) -/
def valueOf (ids l : List Int) (v : Int) : Int := (l[ids.idxOf v]?).getD 0

theorem pick_ok (ids l vars : List Int) (hl : l.length = ids.length) (hv : ∀ v ∈ vars, v ∈ ids) :
    pick ids (.tup l) vars = .ok (vars.map (valueOf ids l)) := by
  induction vars with
  | nil => rfl
  | cons v vars ih =>
    have h1 := hv v (by simp)
    have hi : ids.idxOf v < l.length := by rw [hl]; exact List.idxOf_lt_length_of_mem h1
    simp only [pick, h1, if_true, Key.item]
    rw [List.getElem?_eq_getElem hi]
    show (do let xs ← pick ids (.tup l) vars; _) = _
    rw [ih (fun v hv' => hv v (List.mem_cons_of_mem _ hv'))]
    simp [valueOf, List.getElem?_eq_getElem hi]
    rfl

theorem condKeyOf_ok (ids l vars : List Int) (hl : l.length = ids.length)
    (hv : ∀ v ∈ vars, v ∈ ids) :
    condKeyOf ids vars (.tup l) = .ok (mkKey (vars.map (valueOf ids l))) := by
  unfold condKeyOf
  rw [pick_ok ids l vars hl hv]
  show Except.ok _ = _
  rfl

theorem restKeyOf_ok (ids l vars : List Int) (hl : l.length = ids.length)
    (hv : ∀ v ∈ vars, v ∈ ids) :
    restKeyOf ids vars (.tup l) = .ok (.tup (vars.map (valueOf ids l))) := by
  unfold restKeyOf
  rw [pick_ok ids l vars hl hv]
  rfl

/-- A joint key is determined by its values. -/
theorem ext_valueOf {ids l l' : List Int} (hn : ids.Nodup) (hl : l.length = ids.length)
    (hl' : l'.length = ids.length) (h : ∀ v ∈ ids, valueOf ids l v = valueOf ids l' v) :
    l = l' := by
  apply List.ext_getElem (by omega)
  intro i h1 h2
  have hi : i < ids.length := by omega
  have := h ids[i] (List.getElem_mem hi)
  unfold valueOf at this
  rw [hn.idxOf_getElem i hi, List.getElem?_eq_getElem h1, List.getElem?_eq_getElem h2] at this
  simpa using this

theorem CPMF.given_key (c : CPMF) (k : Key) :
    c.given [k.toVal] = (dictGet c (mkKey k.comps)).getD PMF.empty := by
  unfold CPMF.given
  rw [processPmfKey_eq]
  simp only [leavesAll, Key.leaves_toVal, List.append_nil]
  cases dictGet c (mkKey k.comps) <;> rfl

/-- `condition_on`: for a joint PMF with tuple keys over distinct variables, and a
conditioning PMF over some of them, every joint entry appears, divided by the probability of
its conditioning part, under the key of its conditioning part. -/
theorem conditionOn_ok (joint cond : PMF) (hids : joint.variableIDs.Nodup)
    (hjn : (joint.probabilities.map Prod.fst).Nodup)
    (hjk : ∀ p ∈ joint.probabilities, ∃ l, p.1 = .tup l ∧ l.length = joint.variableIDs.length)
    (hc0 : cond.variableIDs ≠ []) (hcs : ∀ v ∈ cond.variableIDs, v ∈ joint.variableIDs) :
    ∃ r, joint.conditionOn cond = .ok r ∧
      CWF (fun rk => ∃ xs, rk = .tup xs ∧ xs.length =
        (joint.variableIDs.filter (fun v => v ∉ cond.variableIDs)).length) r ∧
      (∀ k, k ∈ r.map Prod.fst ↔ ∃ l, .tup l ∈ joint.probabilities.map Prod.fst ∧
        k = mkKey (cond.variableIDs.map (valueOf joint.variableIDs l))) ∧
      ∀ l, l.length = joint.variableIDs.length →
        val2 r (mkKey (cond.variableIDs.map (valueOf joint.variableIDs l)))
          (.tup ((joint.variableIDs.filter (fun v => v ∉ cond.variableIDs)).map
            (valueOf joint.variableIDs l))) =
        dictVal joint.probabilities (.tup l) /
          dictVal cond.probabilities (mkKey (cond.variableIDs.map (valueOf joint.variableIDs l)))
      := by
  set ids := joint.variableIDs with hids'
  set cv := cond.variableIDs with hcv
  set rv := ids.filter (fun v => v ∉ cv) with hrv
  have hrs : ∀ v ∈ rv, v ∈ ids := fun v hv => (List.mem_filter.1 hv).1
  have hcl : ∀ p ∈ joint.probabilities, p.1 = .tup p.1.comps ∧ p.1.comps.length = ids.length := by
    intro p hp
    obtain ⟨l, e, hl⟩ := hjk p hp
    rw [e]; exact ⟨rfl, hl⟩
  have hdet : ∀ l l' : List Int, l.length = ids.length → l'.length = ids.length →
      cv.map (valueOf ids l) = cv.map (valueOf ids l') →
      rv.map (valueOf ids l) = rv.map (valueOf ids l') → l = l' := by
    intro l l' hl hl' h1 h2
    refine ext_valueOf hids hl hl' (fun v hv => ?_)
    by_cases hvc : v ∈ cv
    · exact List.map_inj_left.1 h1 v hvc
    · exact List.map_inj_left.1 h2 v (List.mem_filter.2 ⟨hv, by simpa using hvc⟩)
  obtain ⟨r, e, w, k1, v1, v2⟩ := conditionLoop_ok (condKeyOf ids cv) (restKeyOf ids rv)
    (fun k => mkKey (cv.map (valueOf ids k.comps))) (fun k => .tup (rv.map (valueOf ids k.comps)))
    cond joint.probabilities (fun rk => ∃ xs, rk = .tup xs ∧ xs.length = rv.length) hjn
    (fun p hp => by
      obtain ⟨l, e, hl⟩ := hjk p hp
      rw [e]; exact condKeyOf_ok ids l cv hl hcs)
    (fun p hp => by
      obtain ⟨l, e, hl⟩ := hjk p hp
      rw [e]; exact restKeyOf_ok ids l rv hl hrs)
    (fun p hp q hq h1 h2 => by
      obtain ⟨e1, l1⟩ := hcl p hp
      obtain ⟨e2, l2⟩ := hcl q hq
      rw [e1, e2]
      rw [hdet _ _ l1 l2 (mkKey_inj h1) (by injection h2)])
    (fun p hp => ⟨_, rfl, by simp⟩) [] ⟨by simp, by simp [dictGet, PMF.empty],
      by simp [dictGet, PMF.empty]⟩
  refine ⟨r, ?_, w, ?_, ?_⟩
  · unfold PMF.conditionOn
    rw [if_neg hc0]
    exact e
  · intro k
    rw [k1]
    simp only [List.map_nil, List.not_mem_nil, false_or]
    constructor
    · rintro ⟨p, hp, rfl⟩
      obtain ⟨e1, _⟩ := hcl p hp
      exact ⟨p.1.comps, by rw [← e1]; exact List.mem_map.2 ⟨p, hp, rfl⟩, rfl⟩
    · rintro ⟨l, hl, rfl⟩
      obtain ⟨p, hp, e1⟩ := List.mem_map.1 hl
      exact ⟨p, hp, by rw [e1]; rfl⟩
  · intro l hl
    have hpc : cond.p [(mkKey (cv.map (valueOf ids l))).toVal] =
        dictVal cond.probabilities (mkKey (cv.map (valueOf ids l))) := by
      rw [PMF.p_key, mkKey_comps]
    have base : val2 ([] : CPMF) (mkKey (cv.map (valueOf ids l)))
        (.tup (rv.map (valueOf ids l))) = 0 := by
      simp [val2, dictGet, PMF.empty, dictVal]
    by_cases hm : .tup l ∈ joint.probabilities.map Prod.fst
    · obtain ⟨⟨k, v⟩, hp, e1⟩ := List.mem_map.1 hm
      simp only at e1
      subst e1
      rw [dictVal_of_mem hjn hp]
      by_cases h0 : cond.p [(mkKey (cv.map (valueOf ids l))).toVal] = 0
      · rw [v2, base, ← hpc, h0, div_zero]
        intro p hp h1 h2
        exact h0
      · have := v1 _ hp h0
        simp only [Key.comps] at this
        rw [this, hpc]
    · rw [dictVal_of_not_mem hm, zero_div, v2, base]
      intro p hp h1 h2
      obtain ⟨e1, l1⟩ := hcl p hp
      exfalso
      have := hdet _ _ l1 hl (mkKey_inj h1) (by injection h2)
      rw [this] at e1
      exact hm (List.mem_map.2 ⟨p, hp, e1⟩)

end Mbtk.Stats
