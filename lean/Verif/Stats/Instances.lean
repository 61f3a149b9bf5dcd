import Verif.Stats.PMFEq
/-!
# C73: exact lists of instances, with zero probabilities; `min_instance_count_for_accuracy`
-/
namespace Mbtk.Stats

/-! ## Model -/

/-- `min(list)`: `ValueError` on an empty list (Python built-in). PMF.py 139-143. -/
def pyMin : List ℚ → Except Err ℚ
  | [] => .error .valueError
  | x :: xs => .ok (xs.foldl min x)

/-- `pmf.min_instance_count_for_accuracy()`: PMF.py 139-143 (`filter(None, …)` drops zeros). -/
def PMF.minInstanceCount (pmf : PMF) : Except Err Int := do
  let m ← pyMin ((pmf.probabilities.map Prod.snd).filter (fun p => p ≠ 0))
  .ok (pyRound (1 / m))

/-! ## `min_instance_count_for_accuracy` -/

theorem foldl_min_spec (xs : List ℚ) (x : ℚ) :
    xs.foldl min x ∈ x :: xs ∧ ∀ y ∈ x :: xs, xs.foldl min x ≤ y := by
  induction xs generalizing x with
  | nil => simp
  | cons z xs ih =>
    obtain ⟨h1, h2⟩ := ih (min x z)
    rw [List.foldl_cons]
    refine ⟨?_, ?_⟩
    · rcases List.mem_cons.1 h1 with h | h
      · rcases min_choice x z with h' | h' <;> rw [h, h'] <;> simp
      · simp [h]
    · have hm := h2 (min x z) (by simp)
      intro y hy
      rcases List.mem_cons.1 hy with rfl | hy
      · exact hm.trans (min_le_left _ _)
      · rcases List.mem_cons.1 hy with rfl | hy
        · exact hm.trans (min_le_right _ _)
        · exact h2 y (by simp [hy])

theorem pyMin_spec (l : List ℚ) (h : l ≠ []) :
    ∃ m, pyMin l = .ok m ∧ m ∈ l ∧ ∀ y ∈ l, m ≤ y := by
  cases l with
  | nil => exact absurd rfl h
  | cons x xs => exact ⟨_, rfl, foldl_min_spec xs x⟩

/-- `round` is off by at most one half. -/
theorem pyRound_near (q : ℚ) : |(pyRound q : ℚ) - q| ≤ 1 / 2 := by
  have h1 := Int.floor_le q
  have h2 := Int.lt_floor_add_one q
  unfold pyRound
  simp only
  rw [abs_le]
  split
  · next h => constructor <;> linarith
  · next h =>
    split
    · next h' => push_cast; constructor <;> linarith
    · next h' =>
      have : q - ⌊q⌋ = 1 / 2 := le_antisymm (not_lt.1 h') (not_lt.1 h)
      split
      · constructor <;> linarith
      · push_cast; constructor <;> linarith

/-- **C73.** `min_instance_count_for_accuracy` is the number of instances that gives the rarest
value of non-zero probability about one expected instance: it is off by at most half that
probability. -/
theorem min_instance_count_spec (pmf : PMF) (h0 : ∀ p ∈ pmf.probabilities, 0 ≤ p.2)
    (hne : ∃ p ∈ pmf.probabilities, p.2 ≠ 0) :
    ∃ (c : Int) (item : Key × ℚ), pmf.minInstanceCount = .ok c ∧ item ∈ pmf.probabilities ∧
      0 < item.2 ∧ (∀ p ∈ pmf.probabilities, p.2 ≠ 0 → item.2 ≤ p.2) ∧
      |(c : ℚ) * item.2 - 1| ≤ item.2 / 2 := by
  obtain ⟨p, hp, hp0⟩ := hne
  obtain ⟨m, e, hm, hmin⟩ := pyMin_spec
    ((pmf.probabilities.map Prod.snd).filter (fun p => p ≠ 0))
    (List.ne_nil_of_mem (List.mem_filter.2 ⟨List.mem_map.2 ⟨p, hp, rfl⟩, by simpa using hp0⟩))
  obtain ⟨hm1, hm2⟩ := List.mem_filter.1 hm
  obtain ⟨item, hi, rfl⟩ := List.mem_map.1 hm1
  have hpos : 0 < item.2 := lt_of_le_of_ne (h0 item hi) (Ne.symm (by simpa using hm2))
  refine ⟨pyRound (1 / item.2), item, ?_, hi, hpos, ?_, ?_⟩
  · unfold PMF.minInstanceCount; rw [e]; rfl
  · intro q hq hq0
    exact hmin _ (List.mem_filter.2 ⟨List.mem_map.2 ⟨q, hq, rfl⟩, by simpa using hq0⟩)
  · have := pyRound_near (1 / item.2)
    have e1 : (pyRound (1 / item.2) : ℚ) * item.2 - 1 =
        ((pyRound (1 / item.2) : ℚ) - 1 / item.2) * item.2 := by
      field_simp
    rw [e1, abs_mul, abs_of_pos hpos]
    calc _ ≤ 1 / 2 * item.2 := mul_le_mul_of_nonneg_right this hpos.le
      _ = item.2 / 2 := by ring

/-- **C73.** Without a non-zero probability there is no such number. -/
theorem min_instance_count_error (pmf : PMF) (h : ∀ p ∈ pmf.probabilities, p.2 = 0) :
    pmf.minInstanceCount = .error .valueError := by
  unfold PMF.minInstanceCount
  have : (pmf.probabilities.map Prod.snd).filter (fun p => p ≠ 0) = [] := by
    rw [List.filter_eq_nil_iff]
    intro q hq
    obtain ⟨p, hp, rfl⟩ := List.mem_map.1 hq
    simp [h p hp]
  rw [this]; rfl

example : PMF.minInstanceCount { probabilities := [(.one 0, 7/8), (.one 1, 0), (.one 2, 1/8)] } =
    .ok 8 := by decide +kernel

/-! ## `create_instances_list` with zero probabilities -/

/-- A loop that runs out of instances before the zeros never sees them. -/
theorem instancesLoop_append (n : Nat) (items zeros : List (Key × ℚ)) (f : Key → Nat)
    (hne : items ≠ []) (hf : ∀ p ∈ items, valueCount n p.2 = f p.1) (running : Nat)
    (hr : running = (items.map (fun p => f p.1)).sum) :
    instancesLoop n running (items ++ zeros) =
      (items.flatMap (fun p => List.replicate (f p.1) p.1), 0) := by
  induction items generalizing running with
  | nil => exact absurd rfl hne
  | cons item items ih =>
    obtain ⟨k, p⟩ := item
    have hk := hf (k, p) (by simp)
    simp only at hk
    simp only [List.map_cons, List.sum_cons] at hr
    rw [List.cons_append]
    simp only [instancesLoop, hk]
    have hif : (if f k > running then running else f k) = f k := if_neg (by omega)
    simp only [hif]
    have hsub : running - f k = (items.map (fun p => f p.1)).sum := by omega
    cases items with
    | nil =>
      have h0 : running - f k = 0 := by simpa using hsub
      rw [if_pos h0]
      simp
    | cons q items =>
      have hq : 1 ≤ f q.1 := by
        rw [← hf q (by simp)]; exact valueCount_pos n q.2
      have h0 : running - f k ≠ 0 := by
        rw [hsub, List.map_cons, List.sum_cons]; omega
      rw [if_neg h0, ih (by simp) (fun p hp => hf p (List.mem_cons_of_mem _ hp)) _ hsub]
      simp

theorem count_flatMap_replicate (d : List (Key × ℚ)) (f : Key → Nat)
    (hn : (d.map Prod.fst).Nodup) (k : Key) :
    (d.flatMap (fun p => List.replicate (f p.1) p.1)).count k =
      if k ∈ d.map Prod.fst then f k else 0 := by
  induction d with
  | nil => simp
  | cons q d ih =>
    simp only [List.map_cons, List.nodup_cons] at hn
    rw [List.flatMap_cons, List.count_append, ih hn.2, List.count_replicate]
    by_cases h : q.1 = k
    · subst h
      simp [hn.1]
    · have h' : ¬ k = q.1 := fun e => h e.symm
      rw [if_neg (by simpa using h), List.map_cons]
      simp only [List.mem_cons, h', false_or, Nat.zero_add]

/-- **C73.** If `n` times every probability is a whole number (zero included) and the
probabilities sum to one, `create_instances_list(n)` consists of every value exactly `n` times
its probability; in particular values of probability zero do not appear. -/
theorem create_instances_list_exact_zeros (pmf : PMF) (n : Nat) (hn0 : n ≠ 0)
    (hn : (pmf.probabilities.map Prod.fst).Nodup) (f : Key → Nat)
    (hf : ∀ p ∈ pmf.probabilities, (n : ℚ) * p.2 = f p.1)
    (hsum : (pmf.probabilities.map Prod.snd).sum = 1) :
    ∃ l, pmf.createInstancesList n = .ok l ∧ l.length = n ∧
      (∀ p ∈ pmf.probabilities, l.count p.1 = f p.1) ∧
      ∀ k, k ∉ pmf.probabilities.map Prod.fst → l.count k = 0 := by
  have hnq : (0 : ℚ) < n := by exact_mod_cast Nat.pos_of_ne_zero hn0
  have hnonneg : ∀ p ∈ pmf.probabilities, 0 ≤ p.2 := by
    intro p hp
    have := hf p hp
    by_contra hc
    have h1 : (n : ℚ) * p.2 < 0 := mul_neg_of_pos_of_neg hnq (not_le.1 hc)
    rw [this] at h1
    exact absurd h1 (not_lt.2 (by positivity))
  have hp := List.perm_insertionSort (fun a b : Key × ℚ => b.2 ≤ a.2) pmf.probabilities
  have hsorted : (pmf.probabilities.insertionSort (fun a b => b.2 ≤ a.2)).Pairwise
      (fun a b => b.2 ≤ a.2) := by
    have : Std.Total (fun a b : Key × ℚ => b.2 ≤ a.2) := ⟨fun a b => le_total b.2 a.2⟩
    have : IsTrans (Key × ℚ) (fun a b : Key × ℚ => b.2 ≤ a.2) := ⟨fun a b c h1 h2 => h2.trans h1⟩
    exact List.pairwise_insertionSort _ _
  unfold PMF.createInstancesList
  generalize hitems : pmf.probabilities.insertionSort (fun a b => b.2 ≤ a.2) = items at *
  -- a sorted list of non-negative numbers is its positive part followed by zeros
  have hsplit : items = items.filter (fun p => p.2 ≠ 0) ++ items.filter (fun p => p.2 = 0) := by
    have hnn : ∀ p ∈ items, 0 ≤ p.2 := fun p hm => hnonneg p (hp.mem_iff.1 hm)
    clear * - hsorted hnn
    induction items with
    | nil => rfl
    | cons q items ih =>
      rw [List.pairwise_cons] at hsorted
      have ih := ih hsorted.2 (fun p hm => hnn p (List.mem_cons_of_mem _ hm))
      by_cases h : q.2 = 0
      · have hz : ∀ p ∈ items, p.2 = 0 := fun p hm =>
          le_antisymm (h ▸ hsorted.1 p hm) (hnn p (List.mem_cons_of_mem _ hm))
        have h1 : items.filter (fun p => p.2 ≠ 0) = [] := by
          rw [List.filter_eq_nil_iff]; intro p hm; simp [hz p hm]
        have h2 : items.filter (fun p => p.2 = 0) = items := by
          rw [List.filter_eq_self]; intro p hm; simp [hz p hm]
        rw [List.filter_cons_of_neg (by simpa using h), List.filter_cons_of_pos (by simpa using h),
          h1, h2]; rfl
      · rw [List.filter_cons_of_pos (by simpa using h), List.filter_cons_of_neg (by simpa using h),
          List.cons_append, ← ih]
  set pos := items.filter (fun p => p.2 ≠ 0) with hpos
  set zs := items.filter (fun p => p.2 = 0) with hzs
  have hposmem : ∀ p ∈ pos, p ∈ pmf.probabilities ∧ p.2 ≠ 0 := by
    intro p hm
    obtain ⟨h1, h2⟩ := List.mem_filter.1 hm
    exact ⟨hp.mem_iff.1 h1, by simpa using h2⟩
  have hvc : ∀ p ∈ pos, valueCount n p.2 = f p.1 := by
    intro p hm
    obtain ⟨h1, h2⟩ := hposmem p hm
    have h3 := hf p h1
    have h4 : 1 ≤ f p.1 := by
      have h5 : (0 : ℚ) < n * p.2 := mul_pos hnq (lt_of_le_of_ne (hnonneg p h1) (Ne.symm h2))
      rw [h3] at h5
      have : 0 < f p.1 := by exact_mod_cast h5
      omega
    unfold valueCount
    rw [h3]
    have : pyRound ((f p.1 : ℕ) : ℚ) = f p.1 := by
      have := pyRound_int (f p.1 : Int)
      exact_mod_cast this
    rw [this]; omega
  have hcast : ∀ d : List (Key × ℚ), (∀ p ∈ d, (n : ℚ) * p.2 = f p.1) →
      ((d.map (fun p => f p.1)).sum : ℚ) = n * (d.map Prod.snd).sum := by
    intro d hd
    induction d with
    | nil => simp
    | cons q d ih =>
      have := ih (fun p hp => hd p (List.mem_cons_of_mem _ hp))
      simp only [List.map_cons, List.sum_cons, Nat.cast_add, this]
      rw [← hd q (by simp)]; ring
  have hzsum : (zs.map (fun p => p.2)).sum = 0 := by
    apply List.sum_eq_zero
    intro x hx
    obtain ⟨p, hm, rfl⟩ := List.mem_map.1 hx
    simpa using (List.mem_filter.1 hm).2
  have hitsum : (items.map Prod.snd).sum = 1 := by rw [(hp.map _).sum_eq]; exact hsum
  have hpossum : (pos.map Prod.snd).sum = 1 := by
    rw [hsplit, List.map_append, List.sum_append] at hitsum
    have hz' : (zs.map Prod.snd).sum = 0 := hzsum
    rw [hz', add_zero] at hitsum; exact hitsum
  have htot : n = (pos.map (fun p => f p.1)).sum := by
    have := hcast pos (fun p hm => hf p (hposmem p hm).1)
    rw [hpossum, mul_one] at this
    exact_mod_cast this.symm
  have hposne : pos ≠ [] := by
    intro h; rw [h] at hpossum; simp at hpossum
  have hndi : (items.map Prod.fst).Nodup := (hp.map Prod.fst).nodup_iff.2 hn
  have hndp : (pos.map Prod.fst).Nodup := (List.filter_sublist.map Prod.fst).nodup hndi
  rw [instancesRec]
  conv =>
    arg 1; ext l; rw [hsplit]
  rw [instancesLoop_append n pos zs f hposne hvc n htot, if_pos rfl]
  refine ⟨_, rfl, ?_, ?_, ?_⟩
  · conv_rhs => rw [htot]
    rw [List.length_flatMap]
    simp
  · intro p hm
    rw [count_flatMap_replicate pos f hndp]
    by_cases h0 : p.2 = 0
    · have hfz : f p.1 = 0 := by
        have := hf p hm
        rw [h0, mul_zero] at this
        exact_mod_cast this.symm
      rw [hfz]; simp
    · rw [if_pos]
      exact List.mem_map.2 ⟨p, List.mem_filter.2 ⟨hp.mem_iff.2 hm, by simpa using h0⟩, rfl⟩
  · intro k hk
    rw [count_flatMap_replicate pos f hndp, if_neg]
    intro hm
    obtain ⟨p, hm', rfl⟩ := List.mem_map.1 hm
    exact hk (List.mem_map.2 ⟨p, (hposmem p hm').1, rfl⟩)

/-- **C73.** When every probability is a multiple of the smallest non-zero one, the count that
`min_instance_count_for_accuracy` returns is accurate: the list made of that many instances
contains every value in exact proportion. -/
theorem min_instance_count_accurate (pmf : PMF) (hn : (pmf.probabilities.map Prod.fst).Nodup)
    (hsum : (pmf.probabilities.map Prod.snd).sum = 1) (m : ℚ) (hm0 : 0 < m)
    (hm : ∃ p ∈ pmf.probabilities, p.2 = m) (g : Key → Nat)
    (hmul : ∀ p ∈ pmf.probabilities, p.2 = g p.1 * m) :
    ∃ (c : Nat) (l : List Key), pmf.minInstanceCount = .ok (c : Int) ∧ (c : ℚ) * m = 1 ∧
      pmf.createInstancesList c = .ok l ∧ l.length = c ∧
      ∀ p ∈ pmf.probabilities, l.count p.1 = g p.1 := by
  obtain ⟨pm, hpm, hpme⟩ := hm
  have hge : ∀ p ∈ pmf.probabilities, 0 ≤ p.2 := fun p hp => by
    rw [hmul p hp]; positivity
  obtain ⟨c, item, e, hi, hipos, himin, _⟩ := min_instance_count_spec pmf hge
    ⟨pm, hpm, by rw [hpme]; exact hm0.ne'⟩
  have hitem : item.2 = m := by
    apply le_antisymm
    · rw [← hpme]; exact himin pm hpm (by rw [hpme]; exact hm0.ne')
    · rw [hmul item hi]
      have h1 : 1 ≤ g item.1 := by
        by_contra hc
        have : g item.1 = 0 := by omega
        rw [hmul item hi, this] at hipos
        simp at hipos
      have h1' : (1 : ℚ) ≤ g item.1 := by exact_mod_cast h1
      nlinarith
  -- the number of instances
  have hN : ((pmf.probabilities.map (fun p => g p.1)).sum : ℚ) * m = 1 := by
    rw [← hsum]
    clear * - hmul
    generalize pmf.probabilities = d at hmul
    induction d with
    | nil => simp
    | cons q d ih =>
      have := ih (fun p hp => hmul p (List.mem_cons_of_mem _ hp))
      simp only [List.map_cons, List.sum_cons, Nat.cast_add, ← this]
      rw [hmul q (by simp)]; ring
  set N := (pmf.probabilities.map (fun p => g p.1)).sum with hNdef
  have hNm : 1 / m = (N : ℚ) := by
    rw [div_eq_iff hm0.ne']; exact hN.symm
  have hcN : pmf.minInstanceCount = .ok (N : Int) := by
    obtain ⟨m', e', hm', hmin'⟩ := pyMin_spec
      ((pmf.probabilities.map Prod.snd).filter (fun p => p ≠ 0))
      (List.ne_nil_of_mem (List.mem_filter.2 ⟨List.mem_map.2 ⟨pm, hpm, rfl⟩, by
        simpa [hpme] using hm0.ne'⟩))
    have hmm : m' = m := by
      apply le_antisymm
      · rw [← hpme]
        exact hmin' _ (List.mem_filter.2 ⟨List.mem_map.2 ⟨pm, hpm, rfl⟩, by
          simpa [hpme] using hm0.ne'⟩)
      · obtain ⟨h1, h2⟩ := List.mem_filter.1 hm'
        obtain ⟨q, hq, rfl⟩ := List.mem_map.1 h1
        rw [← hitem]
        exact himin q hq (by simpa using h2)
    unfold PMF.minInstanceCount
    rw [e', hmm]
    show Except.ok (pyRound (1 / m)) = _
    rw [hNm]
    have := pyRound_int (N : Int)
    congr 1
  have hN0 : N ≠ 0 := by
    intro h; rw [h] at hN; simp at hN
  obtain ⟨l, el, hl, hc, _⟩ := create_instances_list_exact_zeros pmf N hN0 hn g (fun p hp => by
    rw [hmul p hp]
    calc (N : ℚ) * (g p.1 * m) = g p.1 * (N * m) := by ring
      _ = g p.1 := by rw [hN, mul_one]) hsum
  exact ⟨N, l, hcN, hN, el, hl, hc⟩

/-- The hypotheses are met by a distribution with a zero. -/
example : ∃ (c : Nat) (l : List Key),
    PMF.minInstanceCount { probabilities := [(.one 0, 1/4), (.one 1, 0), (.one 2, 3/4)] } =
      .ok (c : Int) ∧ (c : ℚ) * (1/4) = 1 ∧
    PMF.createInstancesList { probabilities := [(.one 0, 1/4), (.one 1, 0), (.one 2, 3/4)] } c =
      .ok l ∧ l.length = c ∧ l.count (.one 1) = 0 ∧ l.count (.one 2) = 3 := by
  obtain ⟨c, l, h1, h2, h3, h4, h5⟩ := min_instance_count_accurate
    { probabilities := [(.one 0, 1/4), (.one 1, 0), (.one 2, 3/4)] } (by decide) (by norm_num)
    (1/4) (by norm_num) ⟨(.one 0, 1/4), by simp, rfl⟩
    (fun k => if k = .one 0 then 1 else if k = .one 2 then 3 else 0)
    (by simp; norm_num)
  exact ⟨c, l, h1, h2, h3, h4, h5 (.one 1, 0) (by simp), h5 (.one 2, 3/4) (by simp)⟩

/-- Finding: otherwise the count is not enough: with probabilities .28, .28, .28, .16 it is 6, and
the list made of 6 instances does not contain the fourth value at all. -/
theorem min_instance_count_not_accurate : ∃ (pmf : PMF) (l : List Key),
    (pmf.probabilities.map Prod.snd).sum = 1 ∧ pmf.minInstanceCount = .ok 6 ∧
    (Key.one 3, 4/25) ∈ pmf.probabilities ∧
    pmf.createInstancesList 6 = .ok l ∧ Key.one 3 ∉ l := by
  refine ⟨{ probabilities := [(.one 0, 7/25), (.one 1, 7/25), (.one 2, 7/25), (.one 3, 4/25)] },
    [.one 0, .one 0, .one 1, .one 1, .one 2, .one 2], by norm_num, by decide +kernel,
    by simp, ?_, by simp⟩
  unfold PMF.createInstancesList
  rw [instancesRec]
  decide +kernel

end Mbtk.Stats
