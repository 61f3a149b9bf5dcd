import Verif.Fp.Binary64
import Verif.Stats.Instances
/-!
# Probabilities from data in floating point (C80)

The functions of `mbtk/math/PMF.py` that turn data into probabilities and back, with every operation
on `float`s rounded to binary64 (`fl`).  Whole numbers are converted to `float` (rounded) before an
operation with a `float`; `sorted`, `min`, `max`, comparisons, `abs` and `round` of a `float` are
exact.  The exact counterparts are C25, C29, C72, C73.
-/
namespace Mbtk.Fp
open Mbtk Mbtk.Stats Mbtk.Stats.Spec

/-! ## Model -/

/-- `(count * 1.0) / self.total_count`, one value: PMF.py 124-132. -/
def normalizeCountsF (total : Nat) : List (Key × Nat) → Except Err (List (Key × ℚ))
  | [] => .ok []
  | (k, n) :: rest =>
    if total = 0 then .error .zeroDivision
    else do
      let rest' ← normalizeCountsF total rest
      .ok ((k, fl (fl (fl (n : ℚ) * 1) / fl (total : ℚ))) :: rest')

/-- `PMF(variable)`: PMF.py 17-24. -/
def ofVariableF (v : Variable) : Except Err PMF := do
  let total ← v.len
  let probabilities ← normalizeCountsF total (countValues v)
  pure ⟨probabilities, v.ids, v.jointIDs⟩

/-- `max(1, round(n * probability))`: PMF.py 154. -/
def valueCountF (n : Nat) (probability : ℚ) : Nat :=
  (max 1 (pyRound (fl (fl (n : ℚ) * probability)))).toNat

/-- The `for` loop: PMF.py 152-160. -/
def instancesLoopF (n : Nat) : Nat → List (Key × ℚ) → List Key × Nat
  | running, [] => ([], running)
  | running, (k, p) :: rest =>
    let c := if valueCountF n p > running then running else valueCountF n p
    let running := running - c
    if running = 0 then (List.replicate c k, 0)
    else
      let (more, left) := instancesLoopF n running rest
      (List.replicate c k ++ more, left)

/-- The recursion: PMF.py 162-166. -/
def instancesRecF (items : List (Key × ℚ)) (n : Nat) : Except Err (List Key) :=
  let r := instancesLoopF n n items
  if r.2 = 0 then .ok r.1
  else if _h : r.2 < n then do
    let extra ← instancesRecF items r.2
    .ok (r.1 ++ extra)
  else .error .recursion
termination_by n

/-- `pmf.create_instances_list(n)`: PMF.py 146-166. -/
def createInstancesListF (pmf : PMF) (n : Nat) : Except Err (List Key) :=
  instancesRecF (pmf.probabilities.insertionSort (fun a b => b.2 ≤ a.2)) n

/-- `pmf.min_instance_count_for_accuracy()`: PMF.py 139-143. -/
def minInstanceCountF (pmf : PMF) : Except Err Int := do
  let m ← pyMin ((pmf.probabilities.map Prod.snd).filter (fun p => p ≠ 0))
  .ok (pyRound (fl (1 / m)))

/-- `self == other`: PMF.py 202-213; the tolerance is the `float` nearest to 1e-10. -/
def eqF (self other : PMF) : Bool :=
  if keySetsEqual (self.probabilities.map Prod.fst) (other.probabilities.map Prod.fst) then
    (self.probabilities.map Prod.fst ++ other.probabilities.map Prod.fst).all (fun key =>
      !decide (|fl (self.p [key.toVal] - other.p [key.toVal])| > fl tolerance))
  else false

/-! ## Rounding of shares -/

theorem pyRound_eq (q : ℚ) : pyRound q = halfEven q := rfl

/-- The unit roundoff. (Specification.) -/
def u : ℚ := 2 ^ (-53 : ℤ)

theorem u_pos : 0 < u := by unfold u; exact two_zpow_pos _

theorem u_eq : u = 1 / 9007199254740992 := by unfold u; norm_num

theorem tiny_le {x : ℚ} (h : 1 / 2 ^ 64 ≤ x) : (2 : ℚ) ^ (-1022 : ℤ) ≤ |x| := by
  have h1 : (2 : ℚ) ^ (-1022 : ℤ) ≤ 2 ^ (-64 : ℤ) := zpow_le_zpow_right₀ (by norm_num) (by norm_num)
  have h2 : (2 : ℚ) ^ (-64 : ℤ) = 1 / 2 ^ 64 := by norm_num
  exact le_trans (le_trans h1 h2.le) (h.trans (le_abs_self x))

/-- The relative error of rounding a number that is zero or not tiny. -/
theorem fl_rel {x : ℚ} (h : x = 0 ∨ 1 / 2 ^ 64 ≤ x) : |fl x - x| ≤ u * x := by
  rcases h with h | h
  · subst h; rw [fl_zero]; simp
  · have := fl_error_normal (tiny_le h)
    rwa [abs_of_pos (lt_of_lt_of_le (by norm_num) h)] at this

theorem share_range {c n : Nat} (hn : n ≠ 0) (h : n ≤ 2 ^ 53) :
    (c : ℚ) / n = 0 ∨ 1 / 2 ^ 64 ≤ (c : ℚ) / n := by
  by_cases hc : c = 0
  · left; simp [hc]
  · right
    have h1 : (0 : ℚ) < n := by exact_mod_cast Nat.pos_of_ne_zero hn
    have h2 : (1 : ℚ) ≤ c := by exact_mod_cast Nat.one_le_iff_ne_zero.2 hc
    have h3 : (n : ℚ) ≤ 2 ^ 53 := by exact_mod_cast h
    rw [le_div_iff₀ h1]
    have : (1 : ℚ) / 2 ^ 64 * n ≤ 1 / 2 ^ 64 * 2 ^ 53 := mul_le_mul_of_nonneg_left h3 (by norm_num)
    have : (1 : ℚ) / 2 ^ 64 * 2 ^ 53 ≤ 1 := by norm_num
    linarith

/-- A share of data as a `float`. (Models no code: a notion for statements and proofs.) -/
def share (c n : Nat) : ℚ := fl ((c : ℚ) / n)

theorem normalized_share {c n : Nat} (hc : c ≤ n) (h : n ≤ 2 ^ 53) :
    fl (fl (fl (c : ℚ) * 1) / fl (n : ℚ)) = share c n := by
  rw [mul_one, fl_nat (le_trans hc h), fl_nat (le_trans hc h), fl_nat h]; rfl

theorem share_error {c n : Nat} (hn : n ≠ 0) (h : n ≤ 2 ^ 53) :
    |share c n - (c : ℚ) / n| ≤ u * ((c : ℚ) / n) := fl_rel (share_range hn h)

theorem share_nonneg (c n : Nat) : 0 ≤ share c n := fl_nonneg (by positivity)

theorem share_zero_iff {c n : Nat} (hn : n ≠ 0) (h : n ≤ 2 ^ 53) : share c n = 0 ↔ c = 0 := by
  constructor
  · intro h0
    by_contra hc
    have h1 := share_error (c := c) hn h
    have h2 : (0 : ℚ) < (c : ℚ) / n := by
      have : 0 < c := Nat.pos_of_ne_zero hc
      have : 0 < n := Nat.pos_of_ne_zero hn
      positivity
    rw [h0, zero_sub, abs_neg, abs_of_pos h2] at h1
    have h3 : u * ((c : ℚ) / n) < 1 * ((c : ℚ) / n) :=
      mul_lt_mul_of_pos_right (by rw [u_eq]; norm_num) h2
    linarith
  · intro hc; subst hc; unfold share; simp [fl_zero]

theorem share_lt {a b n : Nat} (hn : n ≠ 0) (h : n ≤ 2 ^ 52) (hb : b ≤ n) (hab : a < b) :
    share a n < share b n := by
  have h53 : n ≤ 2 ^ 53 := le_trans h (by norm_num)
  have h1 := share_error (c := a) hn h53
  have h2 := share_error (c := b) hn h53
  rw [abs_le] at h1 h2
  have hnq : (0 : ℚ) < n := by exact_mod_cast Nat.pos_of_ne_zero hn
  have e1 : (b : ℚ) / n - (a : ℚ) / n ≥ 1 / n := by
    rw [ge_iff_le, ← sub_div]
    apply div_le_div_of_nonneg_right _ hnq.le
    have : (a : ℚ) + 1 ≤ b := by exact_mod_cast hab
    linarith
  have e2 : u * ((a : ℚ) / n) + u * ((b : ℚ) / n) < 1 / n := by
    rw [← mul_add, ← add_div, ← mul_div_assoc]
    apply div_lt_div_of_pos_right _ hnq
    have ha' : (a : ℚ) + 1 ≤ b := by exact_mod_cast hab
    have hb' : (b : ℚ) ≤ 2 ^ 52 := by exact_mod_cast le_trans hb h
    rw [u_eq]
    linarith
  linarith [h1.1, h1.2, h2.1, h2.2]

/-! ## `create_instances_list` -/

theorem valueCountF_pos (n : Nat) (p : ℚ) : 1 ≤ valueCountF n p := by
  unfold valueCountF; omega

theorem instancesLoopF_append (n : Nat) (items zeros : List (Key × ℚ)) (f : Key → Nat)
    (hne : items ≠ []) (hf : ∀ p ∈ items, valueCountF n p.2 = f p.1) (running : Nat)
    (hr : running = (items.map (fun p => f p.1)).sum) :
    instancesLoopF n running (items ++ zeros) =
      (items.flatMap (fun p => List.replicate (f p.1) p.1), 0) := by
  induction items generalizing running with
  | nil => exact absurd rfl hne
  | cons item items ih =>
    obtain ⟨k, p⟩ := item
    have hk := hf (k, p) (by simp)
    simp only at hk
    simp only [List.map_cons, List.sum_cons] at hr
    rw [List.cons_append]
    simp only [instancesLoopF, hk]
    have hif : (if f k > running then running else f k) = f k := if_neg (by omega)
    simp only [hif]
    have hsub : running - f k = (items.map (fun p => f p.1)).sum := by omega
    cases items with
    | nil =>
      have h0 : running - f k = 0 := by simpa using hsub
      rw [if_pos h0]
      simp
    | cons q items =>
      have hq : 1 ≤ f q.1 := by
        rw [← hf q (by simp)]; exact valueCountF_pos n q.2
      have h0 : running - f k ≠ 0 := by
        rw [hsub, List.map_cons, List.sum_cons]; omega
      rw [if_neg h0, ih (by simp) (fun p hp => hf p (List.mem_cons_of_mem _ hp)) _ hsub]
      simp

theorem split_zeros (items : List (Key × ℚ)) (hs : items.Pairwise (fun a b => b.2 ≤ a.2))
    (hnn : ∀ p ∈ items, 0 ≤ p.2) :
    items = items.filter (fun p => p.2 ≠ 0) ++ items.filter (fun p => p.2 = 0) := by
  induction items with
  | nil => rfl
  | cons q items ih =>
    rw [List.pairwise_cons] at hs
    have ih := ih hs.2 (fun p hm => hnn p (List.mem_cons_of_mem _ hm))
    by_cases h : q.2 = 0
    · have hz : ∀ p ∈ items, p.2 = 0 := fun p hm =>
        le_antisymm (h ▸ hs.1 p hm) (hnn p (List.mem_cons_of_mem _ hm))
      have h1 : items.filter (fun p => p.2 ≠ 0) = [] := by
        rw [List.filter_eq_nil_iff]; intro p hm; simp [hz p hm]
      have h2 : items.filter (fun p => p.2 = 0) = items := by
        rw [List.filter_eq_self]; intro p hm; simp [hz p hm]
      rw [List.filter_cons_of_neg (by simpa using h), List.filter_cons_of_pos (by simpa using h),
        h1, h2]; rfl
    · rw [List.filter_cons_of_pos (by simpa using h), List.filter_cons_of_neg (by simpa using h),
        List.cons_append, ← ih]

/-- **C80, instances of any table.**  Let the counts `f` add up to `n`, and let the rounded product of
`n` with each probability be closer to the count than one half (and be zero exactly for count
zero).  Then `create_instances_list(n)` lists every value exactly as often as `f` says. -/
theorem instances_near_counts (pmf : PMF) (n : Nat) (hn0 : n ≠ 0)
    (hn : (pmf.probabilities.map Prod.fst).Nodup) (f : Key → Nat)
    (hsum : (pmf.probabilities.map (fun p => f p.1)).sum = n)
    (h0 : ∀ p ∈ pmf.probabilities, 0 ≤ p.2) (hz : ∀ p ∈ pmf.probabilities, p.2 = 0 ↔ f p.1 = 0)
    (hnear : ∀ p ∈ pmf.probabilities, |fl (fl (n : ℚ) * p.2) - f p.1| < 1 / 2) :
    ∃ l, createInstancesListF pmf n = .ok l ∧ l.length = n ∧
      (∀ p ∈ pmf.probabilities, l.count p.1 = f p.1) ∧
      ∀ k, k ∉ pmf.probabilities.map Prod.fst → l.count k = 0 := by
  have hp := List.perm_insertionSort (fun a b : Key × ℚ => b.2 ≤ a.2) pmf.probabilities
  have hsorted : (pmf.probabilities.insertionSort (fun a b => b.2 ≤ a.2)).Pairwise
      (fun a b => b.2 ≤ a.2) := by
    have : Std.Total (fun a b : Key × ℚ => b.2 ≤ a.2) := ⟨fun a b => le_total b.2 a.2⟩
    have : IsTrans (Key × ℚ) (fun a b : Key × ℚ => b.2 ≤ a.2) := ⟨fun a b c h1 h2 => h2.trans h1⟩
    exact List.pairwise_insertionSort _ _
  unfold createInstancesListF
  generalize hitems : pmf.probabilities.insertionSort (fun a b => b.2 ≤ a.2) = items at *
  have hsplit := split_zeros items hsorted (fun p hm => h0 p (hp.mem_iff.1 hm))
  set pos := items.filter (fun p => p.2 ≠ 0) with hpos
  set zs := items.filter (fun p => p.2 = 0) with hzs
  have hposmem : ∀ p ∈ pos, p ∈ pmf.probabilities ∧ p.2 ≠ 0 := by
    intro p hm
    obtain ⟨h1, h2⟩ := List.mem_filter.1 hm
    exact ⟨hp.mem_iff.1 h1, by simpa using h2⟩
  have hvc : ∀ p ∈ pos, valueCountF n p.2 = f p.1 := by
    intro p hm
    obtain ⟨h1, h2⟩ := hposmem p hm
    have h3 := hnear p h1
    have h4 : f p.1 ≠ 0 := fun e => h2 ((hz p h1).2 e)
    unfold valueCountF
    rw [pyRound_eq, halfEven_near (n := (f p.1 : ℤ)) (by exact_mod_cast h3)]
    omega
  have htot : n = (pos.map (fun p => f p.1)).sum := by
    have h1 : (items.map (fun p => f p.1)).sum = n := by
      rw [(hp.map _).sum_eq]; exact hsum
    rw [hsplit, List.map_append, List.sum_append] at h1
    have h2 : (zs.map (fun p => f p.1)).sum = 0 := by
      apply List.sum_eq_zero
      intro x hx
      obtain ⟨p, hm, rfl⟩ := List.mem_map.1 hx
      obtain ⟨hm1, hm2⟩ := List.mem_filter.1 hm
      exact (hz p (hp.mem_iff.1 hm1)).1 (by simpa using hm2)
    omega
  have hposne : pos ≠ [] := by
    intro h; rw [h] at htot; simp at htot; exact hn0 htot
  have hndi : (items.map Prod.fst).Nodup := (hp.map Prod.fst).nodup_iff.2 hn
  have hndp : (pos.map Prod.fst).Nodup := (List.filter_sublist.map Prod.fst).nodup hndi
  rw [instancesRecF]
  conv =>
    arg 1; ext l; rw [hsplit]
  rw [instancesLoopF_append n pos zs f hposne hvc n htot, if_pos rfl]
  refine ⟨_, rfl, ?_, ?_, ?_⟩
  · conv_rhs => rw [htot]
    rw [List.length_flatMap]
    simp
  · intro p hm
    rw [count_flatMap_replicate pos f hndp]
    by_cases hp0 : p.2 = 0
    · rw [(hz p hm).1 hp0]; simp
    · rw [if_pos]
      exact List.mem_map.2 ⟨p, List.mem_filter.2 ⟨hp.mem_iff.2 hm, by simpa using hp0⟩, rfl⟩
  · intro k hk
    rw [count_flatMap_replicate pos f hndp, if_neg]
    intro hm
    obtain ⟨p, hm', rfl⟩ := List.mem_map.1 hm
    exact hk (List.mem_map.2 ⟨p, (hposmem p hm').1, rfl⟩)

/-! ## PMFs of data -/

theorem normalizeCountsF_ok (total : Nat) (d : List (Key × Nat)) (h : total ≠ 0) (ht : total ≤ 2 ^ 53)
    (hd : ∀ p ∈ d, p.2 ≤ total) :
    normalizeCountsF total d = .ok (d.map (fun p => (p.1, share p.2 total))) := by
  induction d with
  | nil => rfl
  | cons p d ih =>
    obtain ⟨k, n⟩ := p
    have hk := hd (k, n) (by simp)
    simp only at hk
    unfold normalizeCountsF
    rw [if_neg h, ih (fun p hp => hd p (by simp [hp])), normalized_share hk ht]
    rfl

/-- The table of a PMF computed with `float`s. (Models no code: a notion for statements and proofs.) -/
theorem ofVariableF_table (v : Variable) (n : Nat) (h : HasInstances v n) (hn : n ≠ 0)
    (h53 : n ≤ 2 ^ 53) :
    ∃ pmf, ofVariableF v = .ok pmf ∧
      (pmf.probabilities.map Prod.fst).Nodup ∧
      (∀ k, k ∈ pmf.probabilities.map Prod.fst ↔ k ∈ v.instances) ∧
      ∀ p ∈ pmf.probabilities, p.2 = share (v.instances.count p.1) n := by
  obtain ⟨c1, c2, c3⟩ := countValues_spec v
  have hlen : v.instances.length = n := by rw [instances_eq h]; simp
  have hval : ∀ p ∈ countValues v, p.2 = v.instances.count p.1 := by
    intro p hp
    rw [← c3, dictVal_of_mem c1 (show (p.1, p.2) ∈ countValues v from hp)]
  have hle : ∀ p ∈ countValues v, p.2 ≤ n := by
    intro p hp
    rw [hval p hp, ← hlen]
    exact List.count_le_length
  refine ⟨⟨(countValues v).map (fun p => (p.1, share p.2 n)), v.ids, v.jointIDs⟩, ?_, ?_, ?_, ?_⟩
  · unfold ofVariableF
    rw [len_eq h]
    show (normalizeCountsF n (countValues v) >>= _) = _
    rw [normalizeCountsF_ok n _ hn h53 hle]
    rfl
  · rw [List.map_map]; exact c1
  · intro k; rw [List.map_map]; exact c2 k
  · intro p hp
    obtain ⟨q, hq, rfl⟩ := List.mem_map.1 hp
    simp only
    rw [hval q hq]

/-- **C80, probabilities of data.**  For every variable with 1 to 2⁵³ instances, the `float` that
`PMF(variable).p(v)` returns is the relative frequency of `v` rounded once: its relative error is at
most 2⁻⁵³, it is zero exactly for values that do not occur, the sum of all stored probabilities
differs from one by at most 2⁻⁵³, and (up to 2⁵² instances) a more frequent value has a larger
probability. -/
theorem float_pmf (v : Variable) (n : Nat) (h : HasInstances v n) (hn : n ≠ 0) (h53 : n ≤ 2 ^ 53) :
    ∃ pmf, ofVariableF v = .ok pmf ∧
      (∀ args, |pmf.p args - (occurrences v n (leavesAll args) : ℚ) / n| ≤
        1 / 2 ^ 53 * ((occurrences v n (leavesAll args) : ℚ) / n)) ∧
      (∀ args, pmf.p args = 0 ↔ occurrences v n (leavesAll args) = 0) ∧
      |(pmf.probabilities.map Prod.snd).sum - 1| ≤ 1 / 2 ^ 53 ∧
      (n ≤ 2 ^ 52 → ∀ args args', occurrences v n (leavesAll args) < occurrences v n (leavesAll args') →
        pmf.p args < pmf.p args') := by
  obtain ⟨pmf, e, nd, ks, vs⟩ := ofVariableF_table v n h hn h53
  have hu : (1 : ℚ) / 2 ^ 53 = u := by rw [u_eq]; norm_num
  have hlen : v.instances.length = n := by rw [instances_eq h]; simp
  have hp : ∀ args, pmf.p args = share (occurrences v n (leavesAll args)) n := by
    intro args
    rw [PMF.p_eq, ← count_occurrences, ← instances_eq h]
    set k := mkKey (leavesAll args)
    by_cases hk : k ∈ pmf.probabilities.map Prod.fst
    · obtain ⟨p, hp, hpk⟩ := List.mem_map.1 hk
      rw [← hpk, dictVal_of_mem nd (show (p.1, p.2) ∈ pmf.probabilities from hp), vs p hp]
    · rw [dictVal_of_not_mem hk, List.count_eq_zero.2 (fun hm => hk ((ks k).2 hm))]
      exact ((share_zero_iff hn h53).2 rfl).symm
  refine ⟨pmf, e, ?_, ?_, ?_, ?_⟩
  · intro args
    rw [hp, hu]
    exact share_error hn h53
  · intro args
    rw [hp]
    exact share_zero_iff hn h53
  · -- compare with the exact table
    have key : ∀ d : List (Key × ℚ), (∀ p ∈ d, p.2 = share (v.instances.count p.1) n) →
        |(d.map Prod.snd).sum - (d.map (fun p => (v.instances.count p.1 : ℚ) / n)).sum| ≤
          u * (d.map (fun p => (v.instances.count p.1 : ℚ) / n)).sum := by
      intro d hd
      induction d with
      | nil => simp
      | cons p d ih =>
        have h1 := ih (fun q hq => hd q (by simp [hq]))
        have h2 := share_error (c := v.instances.count p.1) hn h53
        rw [← hd p (by simp)] at h2
        simp only [List.map_cons, List.sum_cons]
        rw [abs_le] at h1 h2 ⊢
        constructor <;> linarith [h1.1, h1.2, h2.1, h2.2]
    have hs : (pmf.probabilities.map (fun p => (v.instances.count p.1 : ℚ) / n)).sum = 1 := by
      have hv : ∀ k, dictVal (pmf.probabilities.map (fun p => (p.1, (v.instances.count p.1 : ℚ) / n))) k =
          (v.instances.count k : ℚ) / n := by
        intro k
        by_cases hk : k ∈ pmf.probabilities.map Prod.fst
        · obtain ⟨p, hp, hpk⟩ := List.mem_map.1 hk
          rw [← hpk]
          exact dictVal_of_mem (by rw [List.map_map]; exact nd)
            (List.mem_map.2 ⟨p, hp, rfl⟩)
        · rw [dictVal_of_not_mem (by rw [List.map_map]; exact hk),
            List.count_eq_zero.2 (fun hm => hk ((ks k).2 hm))]
          simp
      have := sum_count_values (d := pmf.probabilities.map (fun p => (p.1, (v.instances.count p.1 : ℚ) / n)))
        (l := v.instances) (n := n) (by rw [List.map_map]; exact nd)
        (by intro k; rw [List.map_map]; exact ks k) hv
      rw [List.map_map, hlen] at this
      rw [show (fun p : Key × ℚ => (v.instances.count p.1 : ℚ) / n) =
        Prod.snd ∘ (fun p : Key × ℚ => (p.1, (v.instances.count p.1 : ℚ) / n)) from rfl, this]
      have : (n : ℚ) ≠ 0 := by exact_mod_cast hn
      field_simp
    have := key pmf.probabilities vs
    rw [hs, mul_one] at this
    rw [hu]; exact this
  · intro h52 args args' hlt
    rw [hp, hp]
    refine share_lt hn h52 ?_ hlt
    rw [← count_occurrences, ← instances_eq h, ← hlen]
    exact List.count_le_length

theorem product_near {c n : Nat} (hn : n ≠ 0) (h : n ≤ 2 ^ 50) (hc : c ≤ n) :
    |fl (fl (n : ℚ) * share c n) - c| < 1 / 2 := by
  have h53 : n ≤ 2 ^ 53 := le_trans h (by norm_num)
  rw [fl_nat h53]
  have hnq : (0 : ℚ) < n := by exact_mod_cast Nat.pos_of_ne_zero hn
  have hcq : (0 : ℚ) ≤ c := by positivity
  have hc50 : (c : ℚ) ≤ 2 ^ 50 := by exact_mod_cast le_trans hc h
  have h1 := share_error (c := c) hn h53
  have e1 : |(n : ℚ) * share c n - c| ≤ u * c := by
    have : (n : ℚ) * share c n - c = n * (share c n - (c : ℚ) / n) := by field_simp
    rw [this, abs_mul, abs_of_pos hnq]
    calc (n : ℚ) * |share c n - (c : ℚ) / n| ≤ n * (u * ((c : ℚ) / n)) :=
          mul_le_mul_of_nonneg_left h1 hnq.le
      _ = u * c := by field_simp
  have h2 : |fl ((n : ℚ) * share c n) - (n : ℚ) * share c n| ≤ u * ((n : ℚ) * share c n) := by
    apply fl_rel
    by_cases h0 : c = 0
    · left; rw [(share_zero_iff hn h53).2 h0, mul_zero]
    · right
      have : (1 : ℚ) ≤ c := by exact_mod_cast Nat.one_le_iff_ne_zero.2 h0
      rw [abs_le] at e1
      have : u * (c : ℚ) ≤ 1 / 8 := by rw [u_eq]; linarith
      have : (1 : ℚ) / 2 ^ 64 ≤ 7 / 8 := by norm_num
      linarith [e1.1]
  rw [abs_le] at e1 h2
  have h3 : (n : ℚ) * share c n ≤ 2 * 2 ^ 50 := by
    have : u * (c : ℚ) ≤ 1 := by rw [u_eq]; linarith
    linarith [e1.2]
  have h4 : u * ((n : ℚ) * share c n) ≤ 1 / 4 := by
    rw [u_eq]; linarith
  have h5 : u * (c : ℚ) ≤ 1 / 8 := by rw [u_eq]; linarith
  rw [abs_lt]
  constructor <;> linarith [e1.1, e1.2, h2.1, h2.2]

/-- **C80, back from probabilities to data.**  For every variable with 1 to 2⁵⁰ instances, the list of
instances made from its PMF and the number of instances, all computed with `float`s, has every value
exactly as often as the data. -/
theorem float_instances_exact (v : Variable) (n : Nat) (h : HasInstances v n) (hn : n ≠ 0)
    (h50 : n ≤ 2 ^ 50) :
    ∃ pmf l, ofVariableF v = .ok pmf ∧ createInstancesListF pmf n = .ok l ∧ l.Perm v.instances := by
  have h53 : n ≤ 2 ^ 53 := le_trans h50 (by norm_num)
  obtain ⟨pmf, e, nd, ks, vs⟩ := ofVariableF_table v n h hn h53
  have hlen : v.instances.length = n := by rw [instances_eq h]; simp
  have hcnt : ∀ k, v.instances.count k ≤ n := fun k => by rw [← hlen]; exact List.count_le_length
  have hsum : (pmf.probabilities.map (fun p => v.instances.count p.1)).sum = n := by
    have h1 : (pmf.probabilities.map (fun p => v.instances.count p.1)) =
        (pmf.probabilities.map Prod.fst).map (fun k => v.instances.count k) := by
      rw [List.map_map]; rfl
    rw [h1]
    have hperm : (pmf.probabilities.map Prod.fst).Perm v.instances.dedup := by
      rw [List.perm_ext_iff_of_nodup nd (List.nodup_dedup _)]
      intro k; rw [ks, List.mem_dedup]
    rw [(hperm.map _).sum_eq, List.sum_map_count_dedup_eq_length, hlen]
  obtain ⟨l, hl, _, hin, hout⟩ := instances_near_counts pmf n hn nd (fun k => v.instances.count k) hsum
    (fun p hp => by rw [vs p hp]; exact share_nonneg _ _)
    (fun p hp => by rw [vs p hp]; exact share_zero_iff hn h53)
    (fun p hp => by rw [vs p hp]; exact product_near hn h50 (hcnt _))
  refine ⟨pmf, l, e, hl, ?_⟩
  rw [List.perm_iff_count]
  intro k
  by_cases hk : k ∈ pmf.probabilities.map Prod.fst
  · obtain ⟨p, hp, hpk⟩ := List.mem_map.1 hk
    rw [← hpk]; exact hin p hp
  · rw [hout k hk, List.count_eq_zero.2 (fun hm => hk ((ks k).2 hm))]

/-! ## Equality -/

theorem float_p (v : Variable) (n : Nat) (h : HasInstances v n) (hn : n ≠ 0) (h53 : n ≤ 2 ^ 53)
    (pmf : PMF) (e : ofVariableF v = .ok pmf) :
    (∀ k, k ∈ pmf.probabilities.map Prod.fst ↔ k ∈ v.instances) ∧
      ∀ args, pmf.p args = share (occurrences v n (leavesAll args)) n := by
  obtain ⟨pmf', e', nd, ks, vs⟩ := ofVariableF_table v n h hn h53
  rw [e] at e'
  cases e'
  refine ⟨ks, ?_⟩
  intro args
  rw [PMF.p_eq, ← count_occurrences, ← instances_eq h]
  set k := mkKey (leavesAll args)
  by_cases hk : k ∈ pmf.probabilities.map Prod.fst
  · obtain ⟨p, hp, hpk⟩ := List.mem_map.1 hk
    rw [← hpk, dictVal_of_mem nd (show (p.1, p.2) ∈ pmf.probabilities from hp), vs p hp]
  · rw [dictVal_of_not_mem hk, List.count_eq_zero.2 (fun hm => hk ((ks k).2 hm))]
    exact ((share_zero_iff hn h53).2 rfl).symm

theorem share_le_one {c n : Nat} (h : c ≤ n) : share c n ≤ 1 := by
  have h1 : (c : ℚ) / n ≤ 1 := by
    apply div_le_one_of_le₀ (by exact_mod_cast h) (by positivity)
  have := fl_mono h1
  rwa [fl_one] at this

/-- Two shares that differ, differ visibly. -/
theorem share_apart {c n d m : Nat} (hn : n ≠ 0) (hm : m ≠ 0) (hc : c ≤ n) (hd : d ≤ m)
    (hsmall : n * m ≤ 9 * 10 ^ 9) (hne : c * m ≠ d * n) :
    fl tolerance < |fl (share c n - share d m)| := by
  have hn1 : 1 ≤ n := Nat.one_le_iff_ne_zero.2 hn
  have hm1 : 1 ≤ m := Nat.one_le_iff_ne_zero.2 hm
  have hn53 : n ≤ 2 ^ 53 := by
    have : n * 1 ≤ n * m := Nat.mul_le_mul_left n hm1
    omega
  have hm53 : m ≤ 2 ^ 53 := by
    have : 1 * m ≤ n * m := Nat.mul_le_mul_right m hn1
    omega
  have hn' : (0 : ℚ) < n := by exact_mod_cast hn1
  have hm' : (0 : ℚ) < m := by exact_mod_cast hm1
  have h1 := share_error (c := c) hn hn53
  have h2 := share_error (c := d) hm hm53
  have hc1 : (c : ℚ) / n ≤ 1 := div_le_one_of_le₀ (by exact_mod_cast hc) (by positivity)
  have hd1 : (d : ℚ) / m ≤ 1 := div_le_one_of_le₀ (by exact_mod_cast hd) (by positivity)
  have hsep : 1 / (9 * 10 ^ 9) ≤ |(c : ℚ) / n - (d : ℚ) / m| := by
    have hz : (1 : ℤ) ≤ |(c : ℤ) * m - d * n| := by
      apply Int.one_le_abs
      intro h0
      apply hne
      have : (c : ℤ) * m = d * n := by linarith
      exact_mod_cast this
    have hq : (1 : ℚ) ≤ |(c : ℚ) * m - d * n| := by exact_mod_cast hz
    have e : (c : ℚ) / n - d / m = ((c : ℚ) * m - d * n) / (n * m) := by field_simp
    rw [e, abs_div, abs_of_pos (mul_pos hn' hm')]
    have h3 : ((n : ℚ) * m) ≤ 9 * 10 ^ 9 := by exact_mod_cast hsmall
    exact div_le_div₀ (abs_nonneg _) hq (mul_pos hn' hm') h3
  have hu : u = 1 / 9007199254740992 := u_eq
  have e1 : |share c n - (c : ℚ) / n| ≤ u := h1.trans (by
    have := mul_le_mul_of_nonneg_left hc1 u_pos.le; linarith)
  have e2 : |share d m - (d : ℚ) / m| ≤ u := h2.trans (by
    have := mul_le_mul_of_nonneg_left hd1 u_pos.le; linarith)
  have hdiff : 1 / (9 * 10 ^ 9) - 2 * u ≤ |share c n - share d m| := by
    have t : |(c : ℚ) / n - (d : ℚ) / m| ≤
        |share c n - (c : ℚ) / n| + |share c n - share d m| + |share d m - (d : ℚ) / m| := by
      have : (c : ℚ) / n - (d : ℚ) / m = -(share c n - (c : ℚ) / n) + (share c n - share d m) +
          (share d m - (d : ℚ) / m) := by ring
      rw [this]
      refine (abs_add_le _ _).trans (add_le_add_left ((abs_add_le _ _).trans ?_) _)
      rw [abs_neg]
    linarith
  have hbig : 1 / 2 ^ 64 ≤ |share c n - share d m| := by
    refine le_trans ?_ hdiff
    rw [hu]; norm_num
  have hfl : |fl (share c n - share d m)| = fl |share c n - share d m| := by
    rcases le_total 0 (share c n - share d m) with hs | hs
    · rw [abs_of_nonneg hs, abs_of_nonneg (fl_nonneg hs)]
    · rw [abs_of_nonpos hs, fl_neg, abs_of_nonpos]
      have := fl_nonneg (x := -(share c n - share d m)) (by linarith)
      rw [fl_neg] at this; linarith
  rw [hfl]
  have f1 := fl_rel (.inr hbig)
  have f2 := fl_rel (x := tolerance) (.inr (by unfold tolerance; norm_num))
  rw [abs_le] at f1 f2
  have t1 : fl tolerance ≤ tolerance + u * tolerance := by linarith [f2.2]
  have t2 : |share c n - share d m| - u * |share c n - share d m| ≤ fl |share c n - share d m| := by
    linarith [f1.1]
  have t3 : (1 - u) * (1 / (9 * 10 ^ 9) - 2 * u) ≤ (1 - u) * |share c n - share d m| :=
    mul_le_mul_of_nonneg_left hdiff (by rw [hu]; norm_num)
  have t4 : tolerance + u * tolerance < (1 - u) * (1 / (9 * 10 ^ 9) - 2 * u) := by
    rw [hu]; unfold tolerance; norm_num
  linarith

/-- **C80, equality of distributions.**  For two variables whose sample sizes multiply to at most
9·10⁹, the PMFs computed with `float`s are `==` exactly when all relative frequencies are the same:
neither rounding nor the tolerance of the comparison changes the answer. -/
theorem float_pmf_eq (v w : Variable) (n m : Nat) (hv : HasInstances v n) (hw : HasInstances w m)
    (hn : n ≠ 0) (hm : m ≠ 0) (hsmall : n * m ≤ 9 * 10 ^ 9) (a b : PMF)
    (ea : ofVariableF v = .ok a) (eb : ofVariableF w = .ok b) :
    eqF a b = true ↔ ∀ vals, occurrences v n vals * m = occurrences w m vals * n := by
  have hn1 : 1 ≤ n := Nat.one_le_iff_ne_zero.2 hn
  have hm1 : 1 ≤ m := Nat.one_le_iff_ne_zero.2 hm
  have hn53 : n ≤ 2 ^ 53 := by
    have : n * 1 ≤ n * m := Nat.mul_le_mul_left n hm1
    omega
  have hm53 : m ≤ 2 ^ 53 := by
    have : 1 * m ≤ n * m := Nat.mul_le_mul_right m hn1
    omega
  obtain ⟨ka, pa⟩ := float_p v n hv hn hn53 a ea
  obtain ⟨kb, pb⟩ := float_p w m hw hm hm53 b eb
  have key : ∀ {x : Variable} {j : Nat}, HasInstances x j → ∀ vals,
      (mkKey vals ∈ x.instances ↔ occurrences x j vals ≠ 0) := by
    intro x j hx vals
    rw [mem_instances_iff hx]
    exact ⟨fun ⟨l, e, h⟩ => by rw [mkKey_inj e]; exact h, fun h => ⟨vals, rfl, h⟩⟩
  have hle : ∀ {x : Variable} {j : Nat}, HasInstances x j → ∀ vals, occurrences x j vals ≤ j := by
    intro x j hx vals
    have hl : x.instances.length = j := by rw [instances_eq hx]; simp
    rw [← count_occurrences, ← instances_eq hx]
    conv_rhs => rw [← hl]
    exact List.count_le_length
  unfold eqF
  by_cases hk : keySetsEqual (a.probabilities.map Prod.fst) (b.probabilities.map Prod.fst) = true
  · rw [if_pos hk]
    rw [keySetsEqual_iff] at hk
    simp only [List.all_eq_true, List.mem_append, Bool.not_eq_true', decide_eq_false_iff_not,
      gt_iff_lt, not_lt]
    constructor
    · intro h vals
      by_cases hmem : mkKey vals ∈ a.probabilities.map Prod.fst
      · have := h _ (.inl hmem)
        rw [pa, pb] at this
        by_contra hne
        have hl : leavesAll [(mkKey vals).toVal] = vals := by
          simp [leavesAll, Key.leaves_toVal, mkKey_comps]
        rw [hl] at this
        exact absurd (share_apart hn hm (hle hv _) (hle hw _) hsmall hne) (not_lt.2 this)
      · have h1 : occurrences v n vals = 0 := by
          by_contra h0
          exact hmem ((ka _).2 ((key hv vals).2 h0))
        have h2 : occurrences w m vals = 0 := by
          by_contra h0
          exact hmem ((hk _).2 ((kb _).2 ((key hw vals).2 h0)))
        rw [h1, h2, Nat.zero_mul, Nat.zero_mul]
    · intro h k _
      rw [pa, pb]
      have hs : share (occurrences v n (leavesAll [k.toVal])) n =
          share (occurrences w m (leavesAll [k.toVal])) m := by
        unfold share
        congr 1
        have h1 : (occurrences v n (leavesAll [k.toVal]) : ℚ) * m =
            occurrences w m (leavesAll [k.toVal]) * n := by exact_mod_cast h _
        rw [div_eq_div_iff (by exact_mod_cast hn) (by exact_mod_cast hm)]; exact h1
      rw [hs, sub_self, fl_zero, abs_zero]
      exact fl_nonneg tolerance_pos.le
  · rw [if_neg hk]
    rw [keySetsEqual_iff] at hk
    constructor
    · intro h; cases h
    · intro h
      exfalso
      apply hk
      intro k
      rw [ka, kb, mem_instances_iff hv, mem_instances_iff hw]
      constructor
      · rintro ⟨l, e, h0⟩
        refine ⟨l, e, fun h1 => ?_⟩
        have := h l
        rw [h1, Nat.zero_mul] at this
        rcases Nat.mul_eq_zero.1 this with h' | h'
        · exact h0 h'
        · exact hm h'
      · rintro ⟨l, e, h0⟩
        refine ⟨l, e, fun h1 => ?_⟩
        have := h l
        rw [h1, Nat.zero_mul] at this
        rcases Nat.mul_eq_zero.1 this.symm with h' | h'
        · exact h0 h'
        · exact hn h'

/-! ## The number of instances for accuracy -/

/-- **C80, `min_instance_count_for_accuracy`.**  For every variable with 1 to 2⁵⁰ instances the answer
is a whole number nearest to `n / c`, where `c` is the number of instances of the rarest value. -/
theorem float_min_instance_count (v : Variable) (n : Nat) (h : HasInstances v n) (hn : n ≠ 0)
    (h50 : n ≤ 2 ^ 50) :
    ∃ pmf r rarest, ofVariableF v = .ok pmf ∧ minInstanceCountF pmf = .ok r ∧
      occurrences v n rarest ≠ 0 ∧
      (∀ vals, occurrences v n vals ≠ 0 → occurrences v n rarest ≤ occurrences v n vals) ∧
      |(r : ℚ) - (n : ℚ) / occurrences v n rarest| ≤ 1 / 2 := by
  have h53 : n ≤ 2 ^ 53 := le_trans h50 (by norm_num)
  obtain ⟨pmf, e, nd, ks, vs⟩ := ofVariableF_table v n h hn h53
  have hlen : v.instances.length = n := by rw [instances_eq h]; simp
  have hcnt : ∀ k, v.instances.count k ≤ n := fun k => by rw [← hlen]; exact List.count_le_length
  have hocc : ∀ l, v.instances.count (mkKey l) = occurrences v n l := fun l => by
    rw [instances_eq h, count_occurrences]
  have hne : (pmf.probabilities.map Prod.snd).filter (fun p => p ≠ 0) ≠ [] := by
    have : v.instances ≠ [] := by intro h0; rw [h0] at hlen; exact hn hlen.symm
    obtain ⟨k, hk⟩ := List.exists_mem_of_ne_nil _ this
    obtain ⟨p, hp, hpk⟩ := List.mem_map.1 ((ks k).2 hk)
    refine List.ne_nil_of_mem (List.mem_filter.2 ⟨List.mem_map.2 ⟨p, hp, rfl⟩, ?_⟩)
    simp only [ne_eq, decide_not, Bool.not_eq_true', decide_eq_false_iff_not]
    rw [vs p hp, share_zero_iff hn h53, hpk]
    exact (List.count_pos_iff.2 hk).ne'
  obtain ⟨m, em, hm, hmin⟩ := pyMin_spec _ hne
  obtain ⟨hm1, hm2⟩ := List.mem_filter.1 hm
  obtain ⟨item, hi, rfl⟩ := List.mem_map.1 hm1
  have hik : item.1 ∈ v.instances := (ks _).1 (List.mem_map.2 ⟨item, hi, rfl⟩)
  obtain ⟨rare, hrare, hr0⟩ := (mem_instances_iff h item.1).1 hik
  have hcr : v.instances.count item.1 = occurrences v n rare := by rw [hrare, hocc]
  refine ⟨pmf, pyRound (fl (1 / item.2)), rare, e, ?_, hr0, ?_, ?_⟩
  · unfold minInstanceCountF; rw [em]; rfl
  · intro vals h0
    have hk : mkKey vals ∈ v.instances := (mem_instances_iff h _).2 ⟨vals, rfl, h0⟩
    obtain ⟨p, hp, hpk⟩ := List.mem_map.1 ((ks _).2 hk)
    have h1 : item.2 ≤ p.2 := hmin _ (List.mem_filter.2 ⟨List.mem_map.2 ⟨p, hp, rfl⟩, by
      simp only [ne_eq, decide_not, Bool.not_eq_true', decide_eq_false_iff_not]
      rw [vs p hp, share_zero_iff hn h53, hpk, hocc]; exact h0⟩)
    rw [vs p hp, vs item hi, hcr, hpk, hocc] at h1
    by_contra hlt
    push Not at hlt
    have : occurrences v n rare ≤ n := by rw [← hcr]; exact hcnt _
    exact absurd (share_lt hn (le_trans h50 (by norm_num)) this hlt) (not_lt.2 h1)
  · rw [vs item hi, hcr]
    set c := occurrences v n rare
    have hcn : c ≤ n := by rw [← hcr]; exact hcnt _
    have hc1 : 1 ≤ c := Nat.one_le_iff_ne_zero.2 hr0
    have hcq : (1 : ℚ) ≤ c := by exact_mod_cast hc1
    have hnq : (1 : ℚ) ≤ n := by exact_mod_cast Nat.one_le_iff_ne_zero.2 hn
    have hn50 : (n : ℚ) ≤ 2 ^ 50 := by exact_mod_cast h50
    have hcnq : (c : ℚ) ≤ n := by exact_mod_cast hcn
    have hse := share_error (c := c) hn h53
    have hup := u_eq
    have hs0 : 0 < share c n := lt_of_le_of_ne (share_nonneg _ _)
      (fun h0 => hr0 ((share_zero_iff hn h53).1 h0.symm))
    -- the reciprocal of the share
    have hprod : |(n : ℚ) * share c n - c| ≤ u * c := by
      have : (n : ℚ) * share c n - c = n * (share c n - (c : ℚ) / n) := by field_simp
      rw [this, abs_mul, abs_of_pos (by linarith : (0:ℚ) < n)]
      calc (n : ℚ) * |share c n - (c : ℚ) / n| ≤ n * (u * ((c : ℚ) / n)) :=
            mul_le_mul_of_nonneg_left hse (by linarith)
        _ = u * c := by field_simp
    set s := share c n
    rw [abs_le] at hprod
    -- c * (1/s) is within 2 u n of n
    have hcs_lo : (n : ℚ) * (1 - 2 * u) ≤ c / s := by
      rw [le_div_iff₀ hs0]
      have h1 : (n : ℚ) * s ≤ c * (1 + u) := by linarith [hprod.2]
      have h2 : (n : ℚ) * s * (1 - 2 * u) ≤ c * (1 + u) * (1 - 2 * u) :=
        mul_le_mul_of_nonneg_right h1 (by rw [hup]; norm_num)
      have h3 : (c : ℚ) * ((1 + u) * (1 - 2 * u)) ≤ c * 1 :=
        mul_le_mul_of_nonneg_left (by rw [hup]; norm_num) (by linarith)
      nlinarith
    have hcs_hi : c / s ≤ (n : ℚ) * (1 + 2 * u) := by
      rw [div_le_iff₀ hs0]
      have h1 : (c : ℚ) * (1 - u) ≤ n * s := by linarith [hprod.1]
      have h2 : (c : ℚ) * (1 - u) * (1 + 2 * u) ≤ n * s * (1 + 2 * u) :=
        mul_le_mul_of_nonneg_right h1 (by rw [hup]; norm_num)
      have h3 : (c : ℚ) * 1 ≤ c * ((1 - u) * (1 + 2 * u)) :=
        mul_le_mul_of_nonneg_left (by rw [hup]; norm_num) (by linarith)
      nlinarith
    have hinv : (1 : ℚ) ≤ 1 / s := by
      rw [le_div_iff₀ hs0, one_mul]; exact share_le_one hcn
    have hfl := fl_rel (x := 1 / s) (.inr (le_trans (by norm_num) hinv))
    have hrd := pyRound_near (fl (1 / s))
    set r := pyRound (fl (1 / s))
    set F := fl (1 / s)
    -- multiply everything by c
    have e1 : (c : ℚ) * (1 / s) = c / s := by ring
    have g1 : |(c : ℚ) * F - c / s| ≤ u * (c / s) := by
      rw [← e1, ← mul_sub, abs_mul, abs_of_pos (by linarith : (0 : ℚ) < c)]
      calc (c : ℚ) * |F - 1 / s| ≤ c * (u * (1 / s)) := mul_le_mul_of_nonneg_left hfl (by linarith)
        _ = u * (c * (1 / s)) := by ring
    have g2 : |(c : ℚ) * r - c * F| ≤ c / 2 := by
      rw [← mul_sub, abs_mul, abs_of_pos (by linarith : (0 : ℚ) < c)]
      calc (c : ℚ) * |(r : ℚ) - F| ≤ c * (1 / 2) := mul_le_mul_of_nonneg_left hrd (by linarith)
        _ = c / 2 := by ring
    have g3 : u * (c / s) ≤ u * (n * (1 + 2 * u)) := mul_le_mul_of_nonneg_left hcs_hi u_pos.le
    rw [abs_le] at g1 g2
    have hbound : |2 * (c : ℚ) * r - 2 * n| < c + 1 := by
      have k1 : (n : ℚ) * u ≤ 1 / 8 := by rw [hup]; linarith
      have k2 : u * ((n : ℚ) * (1 + 2 * u)) ≤ 1 / 8 + 1 / 1000 := by
        have : u * ((n : ℚ) * (1 + 2 * u)) = (n * u) * (1 + 2 * u) := by ring
        rw [this]
        calc (n : ℚ) * u * (1 + 2 * u) ≤ 1 / 8 * (1 + 2 * u) :=
              mul_le_mul_of_nonneg_right k1 (by rw [hup]; norm_num)
          _ ≤ 1 / 8 + 1 / 1000 := by rw [hup]; norm_num
      rw [abs_lt]
      constructor <;> nlinarith [g1.1, g1.2, g2.1, g2.2]
    have hint : |2 * (c : ℤ) * r - 2 * n| ≤ c := by
      have : |2 * (c : ℤ) * r - 2 * n| < c + 1 := by exact_mod_cast hbound
      omega
    have hq : |2 * (c : ℚ) * r - 2 * n| ≤ c := by exact_mod_cast hint
    have hfin : (r : ℚ) - (n : ℚ) / c = (2 * c * r - 2 * n) / (2 * c) := by
      field_simp
    rw [hfin, abs_div, abs_of_pos (by linarith : (0 : ℚ) < 2 * c), div_le_iff₀ (by linarith)]
    linarith

/-! ## Examples -/

/-- Ten instances: the probability 1/10 is not a `float`. (Example.) -/
def tenths : Variable := .single ⟨1, [3, 3, 3, 4, 4, 4, 4, 4, 4, 5], true, false⟩

theorem tenths_has : HasInstances tenths 10 := ⟨by simp [tenths, columns], by simp [tenths, columns]⟩

/-- The probabilities of `tenths` are the `float`s 0.3, 0.6 and 0.1, none of them exact. -/
theorem tenths_pmf : (ofVariableF tenths).map PMF.probabilities = .ok
    [(.one 3, 5404319552844595 / 2 ^ 54), (.one 4, 5404319552844595 / 2 ^ 53),
      (.one 5, 3602879701896397 / 2 ^ 55)] := by decide +kernel

/-- The hypotheses of `float_pmf` are met by `tenths`. -/
example : ∃ pmf, ofVariableF tenths = .ok pmf ∧ |(pmf.probabilities.map Prod.snd).sum - 1| ≤ 1 / 2 ^ 53 := by
  obtain ⟨pmf, h1, _, _, h2, _⟩ := float_pmf tenths 10 tenths_has (by norm_num) (by norm_num)
  exact ⟨pmf, h1, h2⟩

/-- The hypotheses of `float_instances_exact` are met by `tenths`. -/
example : ∃ pmf l, ofVariableF tenths = .ok pmf ∧ createInstancesListF pmf 10 = .ok l ∧
    l.count (.one 3) = 3 := by
  obtain ⟨pmf, l, h1, h2, h3⟩ := float_instances_exact tenths 10 tenths_has (by norm_num) (by norm_num)
  refine ⟨pmf, l, h1, h2, ?_⟩
  rw [h3.count_eq]
  decide +kernel

/-- The hypotheses of `float_pmf_eq` are met by `tenths` and the same data in another order; and by
`tenths` and other data, which are not `==`. -/
example (a b c : PMF) (ha : ofVariableF tenths = .ok a)
    (hb : ofVariableF (.single ⟨2, [5, 3, 3, 4, 4, 4, 3, 4, 4, 4], true, false⟩) = .ok b)
    (hc : ofVariableF (.single ⟨2, [5, 3, 4], true, false⟩) = .ok c) :
    eqF a b = true ∧ eqF a c = false := by
  constructor
  · rw [float_pmf_eq tenths _ 10 10 tenths_has ⟨by simp [columns], by simp [columns]⟩
      (by norm_num) (by norm_num) (by norm_num) a b ha hb]
    intro vals
    rw [← count_occurrences, ← count_occurrences, ← instances_eq tenths_has,
      ← instances_eq (v := .single ⟨2, [5, 3, 3, 4, 4, 4, 3, 4, 4, 4], true, false⟩)
        ⟨by simp [columns], by simp [columns]⟩]
    congr 1
    apply List.Perm.count_eq
    decide +kernel
  · rw [Bool.eq_false_iff, ne_eq, float_pmf_eq tenths _ 10 3 tenths_has
      ⟨by simp [columns], by simp [columns]⟩
      (by norm_num) (by norm_num) (by norm_num) a c ha hc]
    intro h
    have := h [5]
    revert this
    decide +kernel

example : (ofVariableF tenths >>= minInstanceCountF) = .ok 10 := by decide +kernel

end Mbtk.Fp
