import Verif.Fp.Data
import Verif.Props.BNProps
import Mathlib.SetTheory.Cardinal.Finite
/-!
# Sampling in floating point (C81)

`itertools.accumulate` over `float`s rounds after every addition, the probabilities of a BIF file are
rounded when they are read, and `random.random()` returns one of the 2⁵³ multiples of 2⁻⁵³ in
`[0, 1)`.  Comparisons are exact.  Compare C38 and C67 (exact numbers, real random numbers).
-/
namespace Mbtk.Fp
open Mbtk Mbtk.BN Mbtk.BN.Spec
variable {ν β : Type} [LinearOrder ν] [DecidableEq β]

/-! ## Model -/

/-- `itertools.accumulate` after the first element: BayesianNetwork.py 692-696. -/
def accumulateFrom (s : ℚ) : List ℚ → List ℚ
  | [] => []
  | p :: ps => fl (s + p) :: accumulateFrom (fl (s + p)) ps

/-- `list(itertools.accumulate(probs, func=operator.add))`: BayesianNetwork.py 692-696. -/
def accumulateF : List ℚ → List ℚ
  | [] => []
  | p :: ps => p :: accumulateFrom p ps

/-- `create_cummulative_probabilities`: BayesianNetwork.py 692-696. -/
def cumulativeOfF (probabilities : List (CondKey β × List ℚ)) : List (CondKey β × List ℚ) :=
  probabilities.map (fun p => (p.1, accumulateF p.2))

/-- `probdist.finalize()`: BayesianNetwork.py 686-689. -/
def finalizeNodeF (nodes : List (Node ν β)) (n : Node ν β) : Except Err (Node ν β) :=
  if CondKey.unconditioned ∈ n.probabilities.map Prod.fst then
    .ok { n with cumulative := cumulativeOfF n.probabilities }
  else do
    let t ← indexedTable nodes n.parents n.probabilities []
    .ok { n with cumulative := cumulativeOfF n.probabilities, indexed := t }

/-- `for variable in ...: variable.probdist.finalize()`: BayesianNetwork.py 278-279. -/
def finalizeNodesF (nodes : List (Node ν β)) : List (Node ν β) → Except Err (List (Node ν β))
  | [] => .ok []
  | n :: rest => do
    let n' ← finalizeNodeF nodes n
    let rest' ← finalizeNodesF nodes rest
    .ok (n' :: rest')

/-- `finalize()`: BayesianNetwork.py 277-299 (without the graphs and `joint_pmf_size`). -/
def finalizeF (net : Net ν β) : Except Err (Net ν β) := do
  let nodes ← finalizeNodesF net.nodes net.nodes
  let order ← chosenOrder net
  let net ← assignIDs (names nodes) 0
    { net with nodes := nodes, namesOrder := order, nodeOrder := net.nodeOrder ++ order }
  .ok { net with finalized := true }

/-- `float(items[0])` for every number of a table: Transformers.py 75-76. -/
def readNode (n : Node ν β) : Node ν β :=
  { n with probabilities := n.probabilities.map (fun p => (p.1, p.2.map fl)) }

/-- The `m`-th possible result of `random.random()`. (Python itself.) -/
def random (m : Fin (2 ^ 53)) : ℚ := (m : ℕ) / 2 ^ 53

/-! ## Cumulative sums -/

theorem accumulateFrom_length (s : ℚ) (ps : List ℚ) : (accumulateFrom s ps).length = ps.length := by
  induction ps generalizing s with
  | nil => rfl
  | cons p ps ih => simp [accumulateFrom, ih]

theorem accumulateF_length (ps : List ℚ) : (accumulateF ps).length = ps.length := by
  cases ps with
  | nil => rfl
  | cons p ps => simp [accumulateF, accumulateFrom_length]

theorem accumulate_getElem? (s : ℚ) (ps : List ℚ) (i : Nat) (hi : i < ps.length) :
    (accumulate s ps)[i]? = some (s + (ps.take (i + 1)).sum) := by
  induction ps generalizing s i with
  | nil => simp at hi
  | cons p ps ih =>
    cases i with
    | zero => simp [accumulate]
    | succ i =>
      simp only [accumulate, List.getElem?_cons_succ, List.take_succ_cons, List.sum_cons]
      rw [ih (s + p) i (by simpa using hi), add_assoc]

/-- The absolute error of one rounding of a number of at most 5/4. -/
theorem fl_abs {x : ℚ} : |fl x - x| ≤ u * |x| + u / 8 := by
  refine (fl_error x).trans ?_
  have : (2 : ℚ) ^ (-1075 : ℤ) ≤ 2 ^ (-56 : ℤ) := zpow_le_zpow_right₀ (by norm_num) (by norm_num)
  have e : (2 : ℚ) ^ (-56 : ℤ) = u / 8 := by rw [u_eq]; norm_num
  have e2 : (2 : ℚ) ^ (-53 : ℤ) = u := rfl
  rw [e] at this
  rw [e2]
  exact add_le_add_right this _

theorem accumulateFrom_error (qs : List ℚ) (h0 : ∀ q ∈ qs, 0 ≤ q) (s t E : ℚ) (hs : |s - t| ≤ E)
    (ht : 0 ≤ t) (hT : t + qs.sum ≤ 1) (hsm : E + 3 * u * qs.length ≤ 1 / 8) (i : Nat) (a : ℚ)
    (ha : (accumulateFrom s (qs.map fl))[i]? = some a) :
    |a - (t + (qs.take (i + 1)).sum)| ≤ E + u * (qs.take (i + 1)).sum + 3 / 2 * u * (i + 1) := by
  induction qs generalizing s t E i with
  | nil => simp [accumulateFrom] at ha
  | cons q qs ih =>
    have hq0 : 0 ≤ q := h0 q (by simp)
    have hqs : ∀ x ∈ qs, 0 ≤ x := fun x hx => h0 x (by simp [hx])
    have hsum : 0 ≤ qs.sum := List.sum_nonneg hqs
    simp only [List.sum_cons] at hT
    have hq1 : q ≤ 1 := by linarith
    have hE : 0 ≤ E := (abs_nonneg _).trans hs
    have hu := u_eq
    have hlen : (0 : ℚ) ≤ qs.length := by positivity
    simp only [List.length_cons, Nat.cast_add, Nat.cast_one] at hsm
    have hE8 : E ≤ 1 / 8 := by
      have : 0 ≤ 3 * u * (qs.length + 1 : ℚ) := by rw [hu]; positivity
      linarith
    have e1 : |fl q - q| ≤ u * q + u / 8 := by
      have := fl_abs (x := q); rwa [abs_of_nonneg hq0] at this
    have hmid : |s + fl q - (t + q)| ≤ E + (u * q + u / 8) := by
      have : s + fl q - (t + q) = (s - t) + (fl q - q) := by ring
      rw [this]
      exact (abs_add_le _ _).trans (add_le_add hs e1)
    have hbig : |s + fl q| ≤ 5 / 4 := by
      have h1 : |s + fl q| ≤ |s + fl q - (t + q)| + |t + q| := by
        have := abs_add_le (s + fl q - (t + q)) (t + q); simpa using this
      rw [abs_of_nonneg (by linarith : 0 ≤ t + q)] at h1
      have h2 : u * q + u / 8 ≤ 1 / 16 := by rw [hu]; linarith
      linarith
    have hfl : |fl (s + fl q) - (s + fl q)| ≤ u * (5 / 4) + u / 8 :=
      fl_abs.trans (add_le_add_left (mul_le_mul_of_nonneg_left hbig u_pos.le) _)
    have hstep : |fl (s + fl q) - (t + q)| ≤ E + u * q + 3 / 2 * u := by
      have h1 := abs_add_le (fl (s + fl q) - (s + fl q)) (s + fl q - (t + q))
      rw [sub_add_sub_cancel] at h1
      linarith
    simp only [List.map_cons, accumulateFrom] at ha
    cases i with
    | zero =>
      simp only [List.getElem?_cons_zero, Option.some.injEq] at ha
      subst ha
      simpa using hstep
    | succ i =>
      rw [List.getElem?_cons_succ] at ha
      have hsm' : E + u * q + 3 / 2 * u + 3 * u * qs.length ≤ 1 / 8 := by
        have : u * q ≤ u * 1 := mul_le_mul_of_nonneg_left hq1 u_pos.le
        have := u_pos
        linarith
      have := ih hqs (fl (s + fl q)) (t + q) (E + u * q + 3 / 2 * u) hstep (by linarith) (by linarith)
        hsm' i ha
      simp only [List.take_succ_cons, List.sum_cons]
      push_cast
      rw [show t + (q + (qs.take (i + 1)).sum) = t + q + (qs.take (i + 1)).sum by ring]
      refine this.trans (le_of_eq ?_)
      ring

/-- The cumulative sums of a row of a table, read from a file. (Models no code: a notion for
statements and proofs.) -/
def cumF (row : List ℚ) : List ℚ := accumulateF (row.map fl)

theorem cumF_length (row : List ℚ) : (cumF row).length = row.length := by
  simp [cumF, accumulateF_length]

/-- Every cumulative sum is off by at most `k · 2⁻⁵²` in a row of `k` probabilities. -/
theorem cumF_error {row : List ℚ} (h0 : ∀ q ∈ row, 0 ≤ q) (hs : row.sum = 1)
    (hk : row.length ≤ 2 ^ 40) (i : Nat) (a : ℚ) (ha : (cumF row)[i]? = some a) :
    |a - (row.take (i + 1)).sum| ≤ row.length / 2 ^ 52 := by
  cases row with
  | nil => simp [cumF, accumulateF] at ha
  | cons q qs =>
    have hq0 : 0 ≤ q := h0 q (by simp)
    have hqs : ∀ x ∈ qs, 0 ≤ x := fun x hx => h0 x (by simp [hx])
    have hsum : 0 ≤ qs.sum := List.sum_nonneg hqs
    simp only [List.sum_cons] at hs
    have hu := u_eq
    have e1 : |fl q - q| ≤ u * q + u / 8 := by
      have := fl_abs (x := q); rwa [abs_of_nonneg hq0] at this
    have hkl : (qs.length : ℚ) + 1 ≤ 2 ^ 40 := by exact_mod_cast hk
    have hk52 : ((q :: qs).length : ℚ) / 2 ^ 52 = 2 * u * (qs.length + 1) := by
      rw [hu]; simp only [List.length_cons]; push_cast; ring
    rw [hk52]
    simp only [cumF, List.map_cons, accumulateF] at ha
    have hlen : (0 : ℚ) ≤ qs.length := by positivity
    have huq : u * q ≤ u := by
      have := mul_le_mul_of_nonneg_left (by linarith : q ≤ 1) u_pos.le; linarith
    cases i with
    | zero =>
      simp only [List.getElem?_cons_zero, Option.some.injEq] at ha
      subst ha
      simp only [Nat.zero_add, List.take_succ_cons, List.take_zero, List.sum_cons, List.sum_nil, add_zero]
      have : 0 ≤ u * qs.length := mul_nonneg u_pos.le hlen
      have := u_pos
      linarith
    | succ i =>
      rw [List.getElem?_cons_succ] at ha
      have hi : i < qs.length := by
        have := (List.getElem?_eq_some_iff.1 ha).1
        simpa [accumulateFrom_length] using this
      have hsm : u * q + u / 8 + 3 * u * qs.length ≤ 1 / 8 := by
        have : 3 * u * qs.length ≤ 3 * u * 2 ^ 40 :=
          mul_le_mul_of_nonneg_left (by linarith) (by rw [hu]; norm_num)
        have h3 : 3 * u * 2 ^ 40 + u + u / 8 ≤ 1 / 8 := by rw [hu]; norm_num
        linarith
      have := accumulateFrom_error qs hqs (fl q) q (u * q + u / 8) e1 hq0 (by linarith) hsm i a ha
      simp only [List.take_succ_cons, List.sum_cons]
      refine this.trans ?_
      have hts : (qs.take (i + 1)).sum ≤ qs.sum := by
        have := take_sum_mono hqs (i := i + 1) (j := qs.length) (by omega)
        simpa using this
      have h4 : u * (q + (qs.take (i + 1)).sum) ≤ u * 1 :=
        mul_le_mul_of_nonneg_left (by linarith) u_pos.le
      have h5 : (i : ℚ) + 1 ≤ qs.length := by exact_mod_cast hi
      have h6 : 3 / 2 * u * ((i : ℚ) + 1) ≤ 3 / 2 * u * qs.length :=
        mul_le_mul_of_nonneg_left h5 (by rw [hu]; norm_num)
      have h7 : 0 ≤ u * (qs.length : ℚ) := mul_nonneg u_pos.le hlen
      have := u_pos
      linarith

theorem accumulateFrom_sorted (ps : List ℚ) (h0 : ∀ p ∈ ps, 0 ≤ p) (s : ℚ) (hs : fl s = s) :
    (s :: accumulateFrom s ps).Pairwise (· ≤ ·) := by
  induction ps generalizing s with
  | nil => simp [accumulateFrom]
  | cons p ps ih =>
    have h1 : s ≤ fl (s + p) := by
      have := fl_mono (x := s) (y := s + p) (by linarith [h0 p (by simp)])
      rwa [hs] at this
    have h2 := ih (fun x hx => h0 x (by simp [hx])) (fl (s + p)) (fl_idem _)
    simp only [accumulateFrom]
    rw [List.pairwise_cons]
    refine ⟨?_, h2⟩
    rw [List.pairwise_cons] at h2
    intro x hx
    rcases List.mem_cons.1 hx with rfl | hx
    · exact h1
    · exact h1.trans (h2.1 x hx)

/-- The cumulative sums never decrease. -/
theorem cumF_sorted {row : List ℚ} (h0 : ∀ q ∈ row, 0 ≤ q) : (cumF row).Pairwise (· ≤ ·) := by
  cases row with
  | nil => simp [cumF, accumulateF]
  | cons q qs =>
    simp only [cumF, List.map_cons, accumulateF]
    refine accumulateFrom_sorted _ ?_ _ (fl_idem q)
    intro p hp
    obtain ⟨x, hx, rfl⟩ := List.mem_map.1 hp
    exact fl_nonneg (h0 x (by simp [hx]))

theorem cumF_nonneg {row : List ℚ} (h0 : ∀ q ∈ row, 0 ≤ q) : ∀ c ∈ cumF row, 0 ≤ c := by
  cases row with
  | nil => simp [cumF, accumulateF]
  | cons q qs =>
    have hs := cumF_sorted h0
    simp only [cumF, List.map_cons, accumulateF] at hs ⊢
    have hq := fl_nonneg (h0 q (by simp))
    rw [List.pairwise_cons] at hs
    intro c hc
    rcases List.mem_cons.1 hc with rfl | hc
    · exact hq
    · exact hq.trans (hs.1 c hc)

/-! ## Drawing one value -/

theorem sampleRoll_sorted (cs : List ℚ) (hs : cs.Pairwise (· ≤ ·)) (r : ℚ) (j : Nat) :
    sampleRoll r cs = some j ↔
      ∃ c, cs[j]? = some c ∧ r ≤ c ∧ ∀ i, i < j → ∀ c', cs[i]? = some c' → c' < r := by
  induction cs generalizing j with
  | nil => simp [sampleRoll]
  | cons c cs ih =>
    rw [List.pairwise_cons] at hs
    simp only [sampleRoll, Rat.cast_id]
    by_cases h : r ≤ c
    · rw [if_pos h]
      cases j with
      | zero => simpa using h
      | succ j =>
        simp only [Option.some.injEq]
        constructor
        · intro e; omega
        · rintro ⟨_, _, _, h3⟩
          exact absurd (h3 0 (by omega) c (by simp)) (not_lt.2 h)
    · rw [if_neg h]
      cases j with
      | zero =>
        simp only [Option.map_eq_some_iff, Nat.add_one_ne_zero, and_false, exists_false, false_iff]
        rintro ⟨c', h1, h2, _⟩
        simp only [List.getElem?_cons_zero, Option.some.injEq] at h1
        exact h (h1 ▸ h2)
      | succ j =>
        have e1 : (sampleRoll r cs).map (· + 1) = some (j + 1) ↔ sampleRoll r cs = some j := by
          cases sampleRoll r cs <;> simp
        rw [e1, ih hs.2]
        constructor
        · rintro ⟨c', h1, h2, h3⟩
          refine ⟨c', by simpa using h1, h2, ?_⟩
          intro i hi x hx
          cases i with
          | zero => simp only [List.getElem?_cons_zero, Option.some.injEq] at hx; subst hx; exact not_le.1 h
          | succ i => exact h3 i (by omega) x (by simpa using hx)
        · rintro ⟨c', h1, h2, h3⟩
          exact ⟨c', by simpa using h1, h2, fun i hi x hx => h3 (i + 1) (by omega) x (by simpa using hx)⟩

theorem sampleRoll_none (cs : List ℚ) (r : ℚ) :
    sampleRoll r cs = none ↔ ∀ c ∈ cs, c < r := by
  induction cs with
  | nil => simp [sampleRoll]
  | cons c cs ih =>
    simp only [sampleRoll, Rat.cast_id]
    by_cases h : r ≤ c
    · rw [if_pos h]
      constructor
      · intro e; cases e
      · intro hc; exact absurd (hc c (by simp)) (not_lt.2 h)
    · rw [if_neg h]
      simp only [Option.map_eq_none_iff, List.mem_cons, forall_eq_or_imp]
      rw [ih]
      exact ⟨fun hc => ⟨not_le.1 h, hc⟩, fun hc => hc.2⟩

/-- How many of `M` equidistant numbers in `[0, 1)` are at most `c`. (Specification.) -/
def atMost (M : Nat) (c : ℚ) : Nat := ((Finset.range M).filter (fun m : Nat => (m : ℚ) / M ≤ c)).card

theorem atMost_eq (M : Nat) (hM : 0 < M) {c : ℚ} (hc : 0 ≤ c) : atMost M c = min M (⌊c * M⌋₊ + 1) := by
  have hMq : (0 : ℚ) < M := by exact_mod_cast hM
  have : (Finset.range M).filter (fun m : Nat => (m : ℚ) / M ≤ c) = Finset.range (min M (⌊c * M⌋₊ + 1)) := by
    ext m
    simp only [Finset.mem_filter, Finset.mem_range, lt_min_iff, Nat.lt_succ_iff]
    refine and_congr_right (fun _ => ?_)
    rw [div_le_iff₀ hMq, Nat.le_floor_iff (by positivity)]
  rw [atMost, this, Finset.card_range]

theorem atMost_near (M : Nat) (hM : 0 < M) {c t d : ℚ} (hc : 0 ≤ c) (ht1 : t ≤ 1)
    (h : |c - t| ≤ d) : |(atMost M c : ℚ) - t * M| ≤ d * M + 1 := by
  have hMq : (0 : ℚ) < M := by exact_mod_cast hM
  have hd : 0 ≤ d := (abs_nonneg _).trans h
  rw [atMost_eq M hM hc]
  have h1 := Nat.floor_le (show 0 ≤ c * M by positivity)
  have h2 := Nat.lt_floor_add_one (c * (M : ℚ))
  rw [abs_le] at h
  have h3 : c * M - t * M ≤ d * M := by
    rw [← sub_mul]; exact mul_le_mul_of_nonneg_right h.2 hMq.le
  have h4 : -(d * M) ≤ c * M - t * M := by
    rw [← sub_mul, ← neg_mul]; exact mul_le_mul_of_nonneg_right h.1 hMq.le
  have h5 : t * M ≤ M := by
    have := mul_le_mul_of_nonneg_right ht1 hMq.le; linarith
  have h6 : 0 ≤ d * M := by positivity
  rw [abs_le]
  rcases le_total M (⌊c * M⌋₊ + 1) with hle | hle
  · rw [min_eq_left hle]
    have : (M : ℚ) ≤ ⌊c * M⌋₊ + 1 := by exact_mod_cast hle
    constructor <;> linarith
  · rw [min_eq_right hle]
    push_cast
    constructor <;> linarith

theorem card_fin_eq (M : Nat) (P : Nat → Prop) [DecidablePred P] :
    Nat.card {m : Fin M // P m} = ((Finset.range M).filter P).card := by
  rw [Nat.card_eq_fintype_card, Fintype.card_subtype, ← Finset.card_map Fin.valEmbedding]
  congr 1
  ext m
  simp only [Finset.mem_map, Finset.mem_filter, Finset.mem_univ, true_and, Fin.valEmbedding_apply,
    Finset.mem_range]
  constructor
  · rintro ⟨x, hx, rfl⟩; exact ⟨x.2, hx⟩
  · rintro ⟨hm, hP⟩; exact ⟨⟨m, hm⟩, hP, rfl⟩

/-- For how many of the 2⁵³ random numbers the value at position `j` is drawn. (Specification.) -/
noncomputable def draws (row : List ℚ) (j : Option Nat) : Nat :=
  Nat.card {m : Fin (2 ^ 53) // sampleRoll (random m) (cumF row) = j}

theorem draws_eq (M : Nat) (cs : List ℚ) (j : Option Nat) :
    Nat.card {m : Fin M // sampleRoll (((m : ℕ) : ℚ) / M) cs = j} =
      ((Finset.range M).filter (fun m : Nat => sampleRoll ((m : ℚ) / M) cs = j)).card :=
  card_fin_eq M (fun m => sampleRoll ((m : ℚ) / M) cs = j)

theorem count_first (M : Nat) (c : ℚ) (cs : List ℚ) :
    ((Finset.range M).filter (fun m : Nat => sampleRoll ((m : ℚ) / M) (c :: cs) = some 0)).card =
      atMost M c := by
  unfold atMost
  congr 1
  apply Finset.filter_congr
  intro m _
  simp only [sampleRoll, Rat.cast_id]
  by_cases h : (m : ℚ) / M ≤ c
  · simp [h]
  · simp only [h, iff_false]
    cases sampleRoll ((m : ℚ) / M) cs <;> simp

theorem count_next (M : Nat) (cs : List ℚ) (hs : cs.Pairwise (· ≤ ·)) (j : Nat) (c c' : ℚ)
    (hc : cs[j]? = some c) (hc' : cs[j + 1]? = some c') :
    ((Finset.range M).filter (fun m : Nat => sampleRoll ((m : ℚ) / M) cs = some (j + 1))).card +
      atMost M c = atMost M c' := by
  obtain ⟨h1, e1⟩ := List.getElem?_eq_some_iff.1 hc
  obtain ⟨h2, e2⟩ := List.getElem?_eq_some_iff.1 hc'
  have hcc : c ≤ c' := by
    rw [← e1, ← e2]
    exact List.pairwise_iff_getElem.1 hs j (j + 1) h1 h2 (by omega)
  have hiff : ∀ r : ℚ, sampleRoll r cs = some (j + 1) ↔ r ≤ c' ∧ ¬ r ≤ c := by
    intro r
    rw [sampleRoll_sorted cs hs]
    constructor
    · rintro ⟨x, hx, hr, hall⟩
      rw [hc'] at hx
      cases hx
      exact ⟨hr, not_le.2 (hall j (by omega) c hc)⟩
    · rintro ⟨hr, hn⟩
      refine ⟨c', hc', hr, ?_⟩
      intro i hi x hx
      obtain ⟨h3, e3⟩ := List.getElem?_eq_some_iff.1 hx
      have : x ≤ c := by
        rw [← e3, ← e1]
        rcases eq_or_lt_of_le (Nat.le_of_lt_succ hi) with h | h
        · subst h; exact le_rfl
        · exact List.pairwise_iff_getElem.1 hs i j h3 h1 h
      exact lt_of_le_of_lt this (not_le.1 hn)
  have e : (Finset.range M).filter (fun m : Nat => sampleRoll ((m : ℚ) / M) cs = some (j + 1)) =
      ((Finset.range M).filter (fun m : Nat => (m : ℚ) / M ≤ c')).filter
        (fun m : Nat => ¬ (m : ℚ) / M ≤ c) := by
    rw [Finset.filter_filter]
    exact Finset.filter_congr (fun m _ => hiff _)
  have e2 : (Finset.range M).filter (fun m : Nat => (m : ℚ) / M ≤ c) =
      ((Finset.range M).filter (fun m : Nat => (m : ℚ) / M ≤ c')).filter
        (fun m : Nat => (m : ℚ) / M ≤ c) := by
    rw [Finset.filter_filter]
    exact Finset.filter_congr (fun m _ => ⟨fun h => ⟨h.trans hcc, h⟩, fun h => h.2⟩)
  unfold atMost
  rw [e, e2, add_comm]
  exact Finset.card_filter_add_card_filter_not _

theorem count_none (M : Nat) (cs : List ℚ) (hs : cs.Pairwise (· ≤ ·)) (c : ℚ)
    (hc : cs[cs.length - 1]? = some c) :
    ((Finset.range M).filter (fun m : Nat => sampleRoll ((m : ℚ) / M) cs = none)).card +
      atMost M c = M := by
  obtain ⟨h1, e1⟩ := List.getElem?_eq_some_iff.1 hc
  have hiff : ∀ r : ℚ, sampleRoll r cs = none ↔ ¬ r ≤ c := by
    intro r
    rw [sampleRoll_none]
    constructor
    · intro h; exact not_le.2 (h c (List.mem_of_getElem? hc))
    · intro h x hx
      obtain ⟨i, hi, rfl⟩ := List.getElem_of_mem hx
      refine lt_of_le_of_lt ?_ (not_le.1 h)
      rw [← e1]
      rcases eq_or_lt_of_le (Nat.le_sub_one_of_lt hi) with h | h
      · subst h; exact le_rfl
      · exact List.pairwise_iff_getElem.1 hs i _ hi h1 h
  have e : (Finset.range M).filter (fun m : Nat => sampleRoll ((m : ℚ) / M) cs = none) =
      (Finset.range M).filter (fun m : Nat => ¬ (m : ℚ) / M ≤ c) :=
    Finset.filter_congr (fun m _ => hiff _)
  unfold atMost
  rw [e, add_comm]
  refine (Finset.card_filter_add_card_filter_not _).trans (Finset.card_range M)

theorem draws_range (row : List ℚ) (j : Option Nat) :
    draws row j = ((Finset.range (2 ^ 53)).filter
      (fun m : Nat => sampleRoll ((m : ℚ) / ((2 ^ 53 : Nat) : ℚ)) (cumF row) = j)).card := by
  rw [← draws_eq]
  unfold draws random
  norm_num

/-- **C81, one value.**  In a row of `k` probabilities that sum to one, the value at position `j` is
drawn for a share of the 2⁵³ random numbers that differs from its probability by at most
`(4 k + 2) · 2⁻⁵³`. -/
theorem draws_near {row : List ℚ} (h0 : ∀ q ∈ row, 0 ≤ q) (hs : row.sum = 1)
    (hk : row.length ≤ 2 ^ 40) (j : Nat) (hj : j < row.length) :
    |(draws row (some j) : ℚ) - row.getD j 0 * 2 ^ 53| ≤ 4 * (row.length : ℚ) + 2 := by
  rw [draws_range]
  generalize hM : (2 ^ 53 : Nat) = M
  have hMpos : 0 < M := by rw [← hM]; norm_num
  have hMq : (2 : ℚ) ^ 53 = M := by rw [← hM]; norm_num
  rw [hMq]
  have hlen := cumF_length row
  have hsorted := cumF_sorted h0
  have near : ∀ i c, (cumF row)[i]? = some c →
      |(atMost M c : ℚ) - (row.take (i + 1)).sum * M| ≤ 2 * row.length + 1 := by
    intro i c hc
    have h1 := cumF_error h0 hs hk i c hc
    have h2 := atMost_near M hMpos (cumF_nonneg h0 c (List.mem_of_getElem? hc)) (by
      rw [← hs]
      have hi : i < row.length := by
        rw [← hlen]; exact (List.getElem?_eq_some_iff.1 hc).1
      have := take_sum_mono h0 (i := i + 1) (j := row.length) (by omega)
      simpa using this) h1
    refine h2.trans (le_of_eq ?_)
    rw [← hMq]; ring
  cases j with
  | zero =>
    obtain ⟨c, cs, hcs⟩ : ∃ c cs, cumF row = c :: cs := by
      cases h : cumF row with
      | nil => rw [h] at hlen; simp at hlen; omega
      | cons c cs => exact ⟨c, cs, rfl⟩
    rw [hcs, count_first]
    have := near 0 c (by rw [hcs]; rfl)
    have e : (row.take (0 + 1)).sum = row.getD 0 0 := by
      cases row with
      | nil => simp at hj
      | cons q qs => simp
    rw [e] at this
    have h9 : (0 : ℚ) ≤ row.length := by positivity
    exact this.trans (by linarith)
  | succ j =>
    obtain ⟨c, hc⟩ : ∃ c, (cumF row)[j]? = some c := ⟨_, List.getElem?_eq_getElem (by omega)⟩
    obtain ⟨c', hc'⟩ : ∃ c, (cumF row)[j + 1]? = some c := ⟨_, List.getElem?_eq_getElem (by omega)⟩
    have hcount := count_next M (cumF row) hsorted j c c' hc hc'
    have n1 := near j c hc
    have n2 := near (j + 1) c' hc'
    have e : (row.take (j + 1 + 1)).sum = (row.take (j + 1)).sum + row.getD (j + 1) 0 := by
      rw [List.take_add_one, List.sum_append]
      congr 1
      rw [List.getD_eq_getElem?_getD, List.getElem?_eq_getElem hj]
      simp
    rw [e] at n2
    have hcq : (((Finset.range M).filter (fun m : Nat => sampleRoll ((m : ℚ) / M) (cumF row) =
        some (j + 1))).card : ℚ) + atMost M c = atMost M c' := by exact_mod_cast hcount
    rw [abs_le] at n1 n2 ⊢
    constructor <;> linarith [n1.1, n1.2, n2.1, n2.2]

/-- **C81, no value.**  At most `2 k + 1` of the 2⁵³ random numbers select no value at all. -/
theorem draws_none {row : List ℚ} (h0 : ∀ q ∈ row, 0 ≤ q) (hs : row.sum = 1)
    (hk : row.length ≤ 2 ^ 40) : draws row none ≤ 2 * row.length + 1 := by
  rw [draws_range]
  generalize hM : (2 ^ 53 : Nat) = M
  have hMpos : 0 < M := by rw [← hM]; norm_num
  have hMq : (2 : ℚ) ^ 53 = M := by rw [← hM]; norm_num
  have hlen := cumF_length row
  have hpos : 0 < row.length := by
    cases row with
    | nil => simp at hs
    | cons q qs => simp
  obtain ⟨c, hc⟩ : ∃ c, (cumF row)[(cumF row).length - 1]? = some c :=
    ⟨_, List.getElem?_eq_getElem (by omega)⟩
  have hcount := count_none M (cumF row) (cumF_sorted h0) c hc
  have h1 := cumF_error h0 hs hk _ c hc
  have htake : row.take ((cumF row).length - 1 + 1) = row := by
    rw [hlen, Nat.sub_add_cancel hpos, List.take_length]
  rw [htake, hs] at h1
  have h2 := atMost_near M hMpos (cumF_nonneg h0 c (List.mem_of_getElem? hc)) le_rfl h1
  have h3 : (row.length : ℚ) / 2 ^ 52 * M = 2 * row.length := by rw [← hMq]; ring
  rw [h3, abs_le] at h2
  have hcq : (((Finset.range M).filter (fun m : Nat => sampleRoll ((m : ℚ) / M) (cumF row) =
        none)).card : ℚ) + atMost M c = M := by exact_mod_cast hcount
  have : (((Finset.range M).filter (fun m : Nat => sampleRoll ((m : ℚ) / M) (cumF row) =
        none)).card : ℚ) ≤ 2 * row.length + 1 := by linarith [h2.1]
  exact_mod_cast this

theorem accumulateFrom_step (ps : List ℚ) (s : ℚ) (j : Nat) (c p : ℚ)
    (hc : (s :: accumulateFrom s ps)[j]? = some c) (hp : ps[j]? = some p) :
    (accumulateFrom s ps)[j]? = some (fl (c + p)) := by
  induction ps generalizing s j with
  | nil => simp at hp
  | cons q ps ih =>
    cases j with
    | zero =>
      simp only [List.getElem?_cons_zero, Option.some.injEq] at hc hp
      subst hc hp
      simp [accumulateFrom]
    | succ j =>
      simp only [accumulateFrom, List.getElem?_cons_succ] at hc hp ⊢
      exact ih (fl (s + q)) j hc hp

theorem cumF_step (row : List ℚ) (j : Nat) (c q : ℚ) (hc : (cumF row)[j]? = some c)
    (hq : row[j + 1]? = some q) : (cumF row)[j + 1]? = some (fl (c + fl q)) := by
  cases row with
  | nil => simp at hq
  | cons x xs =>
    simp only [cumF, List.map_cons, accumulateF, List.getElem?_cons_succ] at hc hq ⊢
    exact accumulateFrom_step _ _ j c (fl q) hc (by simp [hq])

theorem accumulateFrom_float (ps : List ℚ) (s : ℚ) : ∀ c ∈ accumulateFrom s ps, fl c = c := by
  induction ps generalizing s with
  | nil => simp [accumulateFrom]
  | cons p ps ih =>
    intro c hc
    simp only [accumulateFrom, List.mem_cons] at hc
    rcases hc with rfl | hc
    · exact fl_idem _
    · exact ih _ c hc

theorem cumF_float (row : List ℚ) : ∀ c ∈ cumF row, fl c = c := by
  cases row with
  | nil => simp [cumF, accumulateF]
  | cons q qs =>
    intro c hc
    simp only [cumF, List.map_cons, accumulateF, List.mem_cons] at hc
    rcases hc with rfl | hc
    · exact fl_idem _
    · exact accumulateFrom_float _ _ c hc

/-- **C81, impossible values.**  A value of probability zero is never drawn, except the first value of
a variable, which is drawn for the random number `0.0` only. -/
theorem draws_zero {row : List ℚ} (h0 : ∀ q ∈ row, 0 ≤ q) (j : Nat) (hj : row[j]? = some 0) :
    draws row (some j) = if j = 0 then 1 else 0 := by
  rw [draws_range]
  generalize hM : (2 ^ 53 : Nat) = M
  have hMpos : 0 < M := by rw [← hM]; norm_num
  cases j with
  | zero =>
    cases row with
    | nil => simp at hj
    | cons q qs =>
      simp only [List.getElem?_cons_zero, Option.some.injEq] at hj
      subst hj
      have : cumF (0 :: qs) = 0 :: accumulateFrom 0 (qs.map fl) := by
        simp [cumF, accumulateF, fl_zero]
      rw [this, count_first, atMost_eq M hMpos le_rfl]
      simp
      omega
  | succ j =>
    have hlt := (List.getElem?_eq_some_iff.1 hj).1
    have hlen := cumF_length row
    obtain ⟨c, hc⟩ : ∃ c, (cumF row)[j]? = some c := ⟨_, List.getElem?_eq_getElem (by omega)⟩
    have hc' := cumF_step row j c 0 hc hj
    rw [fl_zero, add_zero, cumF_float row c (List.mem_of_getElem? hc)] at hc'
    have := count_next M (cumF row) (cumF_sorted h0) j c c hc hc'
    simp only [Nat.add_one_ne_zero, if_false]
    omega

/-- **C81, the same value.**  A random number further than `k · 2⁻⁵²` from every exact cumulative sum
of a row of `k` probabilities selects the same value as in exact arithmetic. -/
theorem sampleRoll_agrees {row : List ℚ} (h0 : ∀ q ∈ row, 0 ≤ q) (hs : row.sum = 1)
    (hk : row.length ≤ 2 ^ 40) (r : ℚ)
    (hr : ∀ i, i < row.length → (row.length : ℚ) / 2 ^ 52 < |r - (row.take (i + 1)).sum|) :
    sampleRoll r (cumF row) = sampleRoll r (accumulate 0 row) := by
  have key : ∀ cs ds : List ℚ, cs.length = ds.length →
      (∀ (i : Nat) (c d : ℚ), cs[i]? = some c → ds[i]? = some d → (r ≤ c ↔ r ≤ d)) →
      sampleRoll r cs = sampleRoll r ds := by
    intro cs
    induction cs with
    | nil => intro ds hl _; cases ds with
      | nil => rfl
      | cons d ds => simp at hl
    | cons c cs ih =>
      intro ds hl hcd
      cases ds with
      | nil => simp at hl
      | cons d ds =>
        have h1 := hcd 0 c d rfl rfl
        have h2 := ih ds (by simpa using hl) (fun i c' d' hc hd => hcd (i + 1) c' d' (by simpa using hc)
          (by simpa using hd))
        simp only [sampleRoll, Rat.cast_id]
        by_cases h : r ≤ c
        · rw [if_pos h, if_pos (h1.1 h)]
        · rw [if_neg h, if_neg (fun h' => h (h1.2 h')), h2]
  have hlen := accumulate_length 0 row
  apply key _ _ (by rw [cumF_length, hlen])
  intro i c d hc hd
  have hi : i < row.length := by
    rw [← cumF_length row]; exact (List.getElem?_eq_some_iff.1 hc).1
  have h1 := cumF_error h0 hs hk i c hc
  have h2 := hr i hi
  rw [accumulate_getElem? 0 row i hi, Option.some.injEq, zero_add] at hd
  rw [hd] at h1 h2
  rw [abs_le] at h1
  rcases lt_abs.1 h2 with h3 | h3
  · constructor <;> intro h4 <;> linarith [h1.1, h1.2]
  · constructor <;> intro h4 <;> linarith [h1.1, h1.2]

/-- A random number of at most `1 - k · 2⁻⁵²` selects some value. -/
theorem sampleRoll_some {row : List ℚ} (h0 : ∀ q ∈ row, 0 ≤ q) (hs : row.sum = 1)
    (hk : row.length ≤ 2 ^ 40) (r : ℚ) (hr : r ≤ 1 - (row.length : ℚ) / 2 ^ 52) :
    ∃ j, j < row.length ∧ sampleRoll r (cumF row) = some j := by
  cases hx : sampleRoll r (cumF row) with
  | some j =>
    obtain ⟨c, hc, _⟩ := (sampleRoll_sorted _ (cumF_sorted h0) r j).1 hx
    refine ⟨j, ?_, rfl⟩
    rw [← cumF_length row]; exact (List.getElem?_eq_some_iff.1 hc).1
  | none =>
    exfalso
    rw [sampleRoll_none] at hx
    have hpos : 0 < row.length := by
      cases row with
      | nil => simp at hs
      | cons q qs => simp
    have hlen := cumF_length row
    obtain ⟨c, hc⟩ : ∃ c, (cumF row)[row.length - 1]? = some c :=
      ⟨_, List.getElem?_eq_getElem (by omega)⟩
    have h1 := cumF_error h0 hs hk _ c hc
    rw [Nat.sub_add_cancel hpos, List.take_length, hs, abs_le] at h1
    have := hx c (List.mem_of_getElem? hc)
    linarith [h1.1]

/-! ## The network -/

/-- A finalized node with rounded cumulative sums. (Models no code: a notion for statements and
proofs.) -/
def recumNode (n : Node ν β) : Node ν β := { n with cumulative := cumulativeOfF n.probabilities }

/-- The same for all nodes. (Models no code: a notion for statements and proofs.) -/
def recum (net : Net ν β) : Net ν β := { net with nodes := net.nodes.map recumNode }

omit [LinearOrder ν] in
theorem finalizeNodeF_eq [LinearOrder ν] (nodes : List (Node ν β)) (n : Node ν β) :
    finalizeNodeF nodes n = (finalizeNode nodes n).map recumNode := by
  unfold finalizeNodeF finalizeNode
  split
  · rfl
  · cases indexedTable nodes n.parents n.probabilities [] <;> rfl

theorem finalizeNodesF_eq (nodes l : List (Node ν β)) :
    finalizeNodesF nodes l = (finalizeNodes nodes l).map (List.map recumNode) := by
  induction l with
  | nil => rfl
  | cons n l ih =>
    simp only [finalizeNodesF, finalizeNodes, finalizeNodeF_eq, ih]
    cases finalizeNode nodes n with
    | error e => rfl
    | ok n' => cases finalizeNodes nodes l <;> rfl

omit [DecidableEq β] in
theorem names_recum (nodes : List (Node ν β)) : names (nodes.map recumNode) = names nodes := by
  unfold names; rw [List.map_map]; rfl

omit [DecidableEq β] in
theorem getNode_recum (nodes : List (Node ν β)) (v : ν) :
    getNode (nodes.map recumNode) v = (getNode nodes v).map recumNode := by
  unfold getNode
  rw [List.find?_map]
  have : ((fun n : Node ν β => decide (n.name = v)) ∘ recumNode) = fun n => decide (n.name = v) := rfl
  rw [this]
  cases nodes.find? (fun n => decide (n.name = v)) <;> rfl

omit [DecidableEq β] in
theorem setID_recum (v : ν) (i : Nat) (n : Node ν β) :
    setID v i (recumNode n) = recumNode (setID v i n) := by
  unfold setID
  by_cases h : n.name = v ∧ n.id = -1
  · rw [if_pos h, if_pos (show (recumNode n).name = v ∧ (recumNode n).id = -1 from h)]; rfl
  · rw [if_neg h, if_neg (show ¬ ((recumNode n).name = v ∧ (recumNode n).id = -1) from h)]

omit [DecidableEq β] in
theorem assignIDs_recum (vs : List ν) (i : Nat) (net : Net ν β) :
    assignIDs vs i (recum net) = (assignIDs vs i net).map recum := by
  induction vs generalizing i net with
  | nil => rfl
  | cons v vs ih =>
    have e : (recum net).nodes.map (setID v i) = (net.nodes.map (setID v i)).map recumNode := by
      show (net.nodes.map recumNode).map (setID v i) = _
      rw [List.map_map, List.map_map]
      exact List.map_congr_left (fun n _ => setID_recum v i n)
    simp only [assignIDs, e, getNode_recum]
    cases getNode (net.nodes.map (setID v i)) v with
    | error _ => rfl
    | ok n =>
      have := ih (i + 1)
        { net with nodes := net.nodes.map (setID v i), byID := dictSet net.byID n.id v, ids := net.ids ++ [n.id] }
      exact this

theorem finalizeF_eq (net : Net ν β) : finalizeF net = (finalize net).map recum := by
  unfold finalizeF finalize
  rw [finalizeNodesF_eq]
  cases finalizeNodes net.nodes net.nodes with
  | error _ => rfl
  | ok nodes =>
    show (chosenOrder net >>= _) = Except.map recum (chosenOrder net >>= _)
    cases chosenOrder net with
    | error _ => rfl
    | ok order =>
      show (assignIDs (names (nodes.map recumNode)) 0 _ >>= _) = Except.map recum (assignIDs (names nodes) 0 _ >>= _)
      rw [names_recum]
      have := assignIDs_recum (names nodes) 0
        { net with nodes := nodes, namesOrder := order, nodeOrder := net.nodeOrder ++ order }
      have e : recum { net with nodes := nodes, namesOrder := order, nodeOrder := net.nodeOrder ++ order } =
        { net with nodes := nodes.map recumNode, namesOrder := order, nodeOrder := net.nodeOrder ++ order } := rfl
      rw [e] at this
      rw [this]
      cases assignIDs (names nodes) 0
        { net with nodes := nodes, namesOrder := order, nodeOrder := net.nodeOrder ++ order } <;> rfl

theorem dictGet_mapRows (d : List (CondKey β × List ℚ)) (f : List ℚ → List ℚ) (k : CondKey β) :
    dictGet (d.map (fun p => (p.1, f p.2))) k = (dictGet d k).map f :=
  dictGet_map_key (fun _ => f) d k

omit [LinearOrder ν] in
theorem row_read (n : Node ν β) (pv : List β) : row (readNode n) pv = (row n pv).map fl := by
  unfold row readNode
  rw [dictGet_mapRows]
  cases dictGet n.probabilities (tableKey pv) <;> rfl

omit [LinearOrder ν] [DecidableEq β] in
theorem declaredFor_read (nodes : List (Node ν β)) (ps : List ν) (vs : List β) :
    DeclaredFor (nodes.map readNode) ps vs ↔ DeclaredFor nodes ps vs := by
  unfold DeclaredFor
  have : (fun (p : ν) (v : β) => ∃ n ∈ nodes.map readNode, n.name = p ∧ v ∈ n.values) =
      (fun p v => ∃ n ∈ nodes, n.name = p ∧ v ∈ n.values) := by
    funext p v
    apply propext
    constructor
    · rintro ⟨m, hm, e, hv⟩
      obtain ⟨n, hn, rfl⟩ := List.mem_map.1 hm
      exact ⟨n, hn, e, hv⟩
    · rintro ⟨n, hn, e, hv⟩
      exact ⟨readNode n, List.mem_map.2 ⟨n, hn, rfl⟩, e, hv⟩
  rw [this]

omit [LinearOrder ν] [DecidableEq β] in
theorem names_read (nodes : List (Node ν β)) :
    (nodes.map readNode).map (·.name) = nodes.map (·.name) := by
  rw [List.map_map]; rfl

omit [LinearOrder ν] [DecidableEq β] in
theorem parentOf_read (nodes : List (Node ν β)) : ParentOf (nodes.map readNode) = ParentOf nodes := by
  funext p c
  apply propext
  constructor
  · rintro ⟨m, hm, e, hp⟩
    obtain ⟨n, hn, rfl⟩ := List.mem_map.1 hm
    exact ⟨n, hn, e, hp⟩
  · rintro ⟨n, hn, e, hp⟩
    exact ⟨readNode n, List.mem_map.2 ⟨n, hn, rfl⟩, e, hp⟩

omit [LinearOrder ν] in
theorem wellFormed_read {nodes : List (Node ν β)} (h : WellFormed nodes) :
    WellFormed (nodes.map readNode) := by
  have hkeys : ∀ n : Node ν β, (readNode n).probabilities.map Prod.fst = n.probabilities.map Prod.fst := by
    intro n; unfold readNode; rw [List.map_map]; rfl
  refine ⟨?_, ?_, ?_, ?_, ?_, ?_⟩
  · unfold UniqueNames; rw [names_read]; exact h.unique
  · intro m hm p hp
    obtain ⟨n, hn, rfl⟩ := List.mem_map.1 hm
    rw [names_read]
    exact h.known n hn p hp
  · intro v hv
    rw [parentOf_read] at hv
    exact h.acyclic v hv
  · intro m hm
    obtain ⟨n, hn, rfl⟩ := List.mem_map.1 hm
    exact h.values n hn
  · intro m hm k hk
    obtain ⟨n, hn, rfl⟩ := List.mem_map.1 hm
    rw [hkeys] at hk
    obtain ⟨vs, h1, h2⟩ := h.table_keys n hn k hk
    exact ⟨vs, (declaredFor_read nodes _ _).2 h1, h2⟩
  · intro m hm vs hvs
    obtain ⟨n, hn, rfl⟩ := List.mem_map.1 hm
    have := h.table_rows n hn vs ((declaredFor_read nodes _ _).1 hvs)
    rw [hkeys, row_read, List.length_map]
    exact this

/-- What is known about a network finalized with rounded sums. (Models no code: a notion for
statements and proofs.) -/
structure FinalizedF (nodes : List (Node ν β)) (net : Net ν β) (f : Node ν β → Node ν β) : Prop where
  nodes_eq : net.nodes = nodes.map f
  name : ∀ n ∈ nodes, (f n).name = n.name
  values : ∀ n ∈ nodes, (f n).values = n.values
  parents : ∀ n ∈ nodes, (f n).parents = n.parents
  row : ∀ n ∈ nodes, ∀ pv, Spec.row (f n) pv = (Spec.row n pv).map fl
  cumulative : ∀ n ∈ nodes, (f n).cumulative = cumulativeOfF (f n).probabilities
  order : TopologicalOrder net.nodes net.nodeOrder
  wf : WellFormed net.nodes
  finalized : net.finalized = true

theorem finalizeF_ok {nodes : List (Node ν β)} (h : WellFormed nodes) :
    ∃ net, finalizeF { nodes := nodes.map readNode } = .ok net ∧ ∃ f, FinalizedF nodes net f := by
  obtain ⟨net, e, hf⟩ := finalize_ok (wellFormed_read h)
  obtain ⟨g, hnodes, hg⟩ := hf.nodes_eq
  refine ⟨recum net, by rw [finalizeF_eq, e]; rfl, fun n => recumNode (g (readNode n)), ?_⟩
  have hsd : ∀ n ∈ nodes.map readNode, SameDecl n (g n) := fun n hn => (hg n hn).1
  have hmem : ∀ n ∈ nodes, readNode n ∈ nodes.map readNode := fun n hn => List.mem_map.2 ⟨n, hn, rfl⟩
  have hsd2 : ∀ n ∈ net.nodes, SameDecl n (recumNode n) := fun n _ => ⟨rfl, rfl, rfl, rfl⟩
  have hwf : WellFormed net.nodes := by rw [hnodes]; exact wellFormed_map hsd (wellFormed_read h)
  have hto : TopologicalOrder net.nodes net.nodeOrder := by
    rw [hnodes]; exact topologicalOrder_map hsd hf.order
  refine ⟨?_, ?_, ?_, ?_, ?_, ?_, ?_, ?_, hf.finalized⟩
  · show net.nodes.map recumNode = _
    rw [hnodes, List.map_map, List.map_map]; rfl
  · intro n hn; exact (hsd _ (hmem n hn)).name
  · intro n hn; exact (hsd _ (hmem n hn)).values
  · intro n hn; exact (hsd _ (hmem n hn)).parents
  · intro n hn pv
    have : Spec.row (recumNode (g (readNode n))) pv = Spec.row (g (readNode n)) pv := rfl
    rw [this, (hsd _ (hmem n hn)).row, row_read]
  · intro n hn; rfl
  · exact topologicalOrder_map hsd2 hto
  · exact wellFormed_map hsd2 hwf

theorem finalizeF_unique {nodes : List (Node ν β)} (h : WellFormed nodes) {net : Net ν β}
    (e : finalizeF { nodes := nodes.map readNode } = .ok net) : ∃ f, FinalizedF nodes net f := by
  obtain ⟨net', e', hf⟩ := finalizeF_ok h
  rw [e] at e'
  cases e'
  exact hf

theorem dictGet_cumulativeOfF (d : List (CondKey β × List ℚ)) (k : CondKey β) :
    dictGet (cumulativeOfF d) k = (dictGet d k).map accumulateF := dictGet_mapRows d accumulateF k

/-- Sampling one variable whose parents have been sampled. -/
theorem nodeSampleF {nodes : List (Node ν β)} (h : WellFormed nodes)
    {done : List ν} {s : List (ν × β)} {a : ν → β} (hs : PartialSample nodes done s a)
    {n : Node ν β} (hn : n ∈ nodes) (hcum : n.cumulative = cumulativeOfF n.probabilities)
    (hp : ∀ p ∈ n.parents, p ∈ done) (hname : n.name ∉ done) (r : ℚ) (recursive : Bool) :
    nodeSample n s recursive r =
      match sampleRoll r (accumulateF (row n (n.parents.map a))) with
      | none => .error .typeError
      | some j => match n.values[j]? with
        | some v => .ok (dictSet s n.name v, true)
        | none => .error .indexError := by
  have hdf := declaredFor_of hs.declared n.parents hp (fun q hq => h.known n hn q hq)
  obtain ⟨hk, hl⟩ := h.table_rows n hn _ hdf
  have hkey : conditioningKey n s recursive = .ok (tableKey (n.parents.map a)) := by
    unfold conditioningKey
    by_cases hnil : n.parents = []
    · rw [if_pos hnil, hnil]; rfl
    · rw [if_neg hnil, if_neg, sampleGets_ok n.parents (fun q hq => hs.vals q (hp q hq))]
      · obtain ⟨p, ps, e⟩ := List.exists_cons_of_ne_nil hnil
        rw [e]; rfl
      · rintro ⟨_, p, hpp, hpn⟩
        exact hpn (by rw [hs.keys]; exact hp p hpp)
  have hrow : dictGet n.cumulative (tableKey (n.parents.map a)) =
      some (accumulateF (row n (n.parents.map a))) := by
    rw [hcum, dictGet_cumulativeOfF]
    unfold row
    cases hg : dictGet n.probabilities (tableKey (n.parents.map a)) with
    | none => exact absurd hk ((dictGet_none_iff _ _).1 hg)
    | some r => rfl
  unfold nodeSample
  rw [if_neg (by rw [hs.keys]; exact hname), hkey]
  show (probdistSample n (tableKey (n.parents.map a)) r >>= _) = _
  unfold probdistSample
  rw [hrow]
  show (valueAt n (sampleRoll r (accumulateF (row n (n.parents.map a)))) >>= _) = _
  cases sampleRoll r (accumulateF (row n (n.parents.map a))) with
  | none => rfl
  | some j =>
    simp only [valueAt]
    cases n.values[j]? <;> rfl

/-- If the random numbers select the values of `b`, the sample is `b`. -/
theorem sampleLoopF_of {nodes : List (Node ν β)} (h : WellFormed nodes)
    (hcum : ∀ n ∈ nodes, n.cumulative = cumulativeOfF n.probabilities) (rolls : Nat → ℚ)
    (b : ν → β) (rest : List (Node ν β)) (hrest : ∀ n ∈ rest, n ∈ nodes)
    (hb : ∀ n ∈ rest, b n.name ∈ n.values)
    (done : List ν) (s : List (ν × β)) (hr : Ready done rest) (hs : PartialSample nodes done s b)
    (hsel : ∀ n ∈ rest, sampleRoll (rolls ((done ++ rest.map (·.name)).idxOf n.name))
      (accumulateF (row n (n.parents.map b))) = some (n.values.idxOf (b n.name))) :
    ∃ s', sampleLoop nodes rolls (rest.map (·.name)) done.length s = .ok s' ∧
      PartialSample nodes (done ++ rest.map (·.name)) s' b := by
  induction rest generalizing done s with
  | nil => exact ⟨s, rfl, by simpa using hs⟩
  | cons n rest ih =>
    obtain ⟨hp, hname, hr'⟩ := hr
    have hn := hrest n (by simp)
    have hbn := hb n (by simp)
    have hidx : (done ++ (n :: rest).map (·.name)).idxOf n.name = done.length := by
      rw [List.idxOf_append_of_notMem hname]; simp
    have h1 := hsel n (by simp)
    rw [hidx] at h1
    have hstep := nodeSampleF h hs hn (hcum n hn) hp hname (rolls done.length) false
    rw [h1] at hstep
    have hlt := List.idxOf_lt_length_of_mem hbn
    have hval : n.values[n.values.idxOf (b n.name)]? = some (b n.name) := by
      rw [List.getElem?_eq_getElem hlt, List.getElem_idxOf hlt]
    simp only [hval] at hstep
    have hext := hs.extend h.unique hn hname hbn
    rw [Function.update_eq_self] at hext
    obtain ⟨s', e, hps⟩ := ih (fun m hm => hrest m (by simp [hm])) (fun m hm => hb m (by simp [hm]))
      (done ++ [n.name]) (dictSet s n.name (b n.name)) hr' hext (by
        intro m hm
        have := hsel m (by simp [hm])
        simpa using this)
    refine ⟨s', ?_, by simpa using hps⟩
    simp only [List.map_cons, sampleLoop, getNode_mem h.unique hn]
    show (nodeSample n s false (rolls done.length) >>= _) = _
    rw [hstep]
    show sampleLoop nodes rolls (rest.map (·.name)) (done.length + 1) (dictSet s n.name (b n.name)) = _
    rw [← e]; simp

/-- The sample consists of values selected by the random numbers. -/
theorem sampleLoopF_to {nodes : List (Node ν β)} (h : WellFormed nodes)
    (hcum : ∀ n ∈ nodes, n.cumulative = cumulativeOfF n.probabilities) (rolls : Nat → ℚ)
    (rest : List (Node ν β)) (hrest : ∀ n ∈ rest, n ∈ nodes)
    (done : List ν) (s s' : List (ν × β)) (a : ν → β) (hr : Ready done rest)
    (hs : PartialSample nodes done s a)
    (e : sampleLoop nodes rolls (rest.map (·.name)) done.length s = .ok s') :
    ∃ b, PartialSample nodes (done ++ rest.map (·.name)) s' b ∧ (∀ v ∈ done, b v = a v) ∧
      ∀ n ∈ rest, sampleRoll (rolls ((done ++ rest.map (·.name)).idxOf n.name))
        (accumulateF (row n (n.parents.map b))) = some (n.values.idxOf (b n.name)) := by
  induction rest generalizing done s a with
  | nil =>
    cases e
    exact ⟨a, by simpa using hs, fun _ _ => rfl, by simp⟩
  | cons n rest ih =>
    obtain ⟨hp, hname, hr'⟩ := hr
    have hn := hrest n (by simp)
    have hidx : (done ++ (n :: rest).map (·.name)).idxOf n.name = done.length := by
      rw [List.idxOf_append_of_notMem hname]; simp
    have hstep := nodeSampleF h hs hn (hcum n hn) hp hname (rolls done.length) false
    simp only [List.map_cons, sampleLoop, getNode_mem h.unique hn] at e
    change (nodeSample n s false (rolls done.length) >>= _) = _ at e
    rw [hstep] at e
    cases hroll : sampleRoll (rolls done.length) (accumulateF (row n (n.parents.map a))) with
    | none => rw [hroll] at e; cases e
    | some j =>
      rw [hroll] at e
      cases hv : n.values[j]? with
      | none => simp only [hv] at e; cases e
      | some v =>
        simp only [hv] at e
        change sampleLoop nodes rolls (rest.map (·.name)) (done.length + 1) (dictSet s n.name v) = _ at e
        have hvm := List.mem_of_getElem? hv
        obtain ⟨hjl, hjv⟩ := List.getElem?_eq_some_iff.1 hv
        obtain ⟨b, hps, hb, hall⟩ := ih (fun m hm => hrest m (by simp [hm])) (done ++ [n.name])
          (dictSet s n.name v) (Function.update a n.name v) hr' (hs.extend h.unique hn hname hvm)
          (by simpa using e)
        have hbd : ∀ w ∈ done, b w = a w := by
          intro w hw
          rw [hb w (by simp [hw]), Function.update_of_ne]
          rintro rfl; exact hname hw
        have hbn : b n.name = v := by rw [hb n.name (by simp)]; simp
        refine ⟨b, by simpa using hps, hbd, ?_⟩
        intro m hm
        rcases List.mem_cons.1 hm with rfl | hm
        · have hpar : m.parents.map b = m.parents.map a :=
            List.map_congr_left (fun q hq => hbd q (hp q hq))
          rw [hpar, hidx, hbn, hroll, ← hjv, (h.values m hn).1.idxOf_getElem j hjl]
        · have := hall m hm
          simpa using this

/-- If every random number selects some value, there is a sample. -/
theorem sampleLoopF_ok {nodes : List (Node ν β)} (h : WellFormed nodes)
    (hcum : ∀ n ∈ nodes, n.cumulative = cumulativeOfF n.probabilities) (rolls : Nat → ℚ)
    (rest : List (Node ν β)) (hrest : ∀ n ∈ rest, n ∈ nodes)
    (hsel : ∀ n ∈ rest, ∀ k vs, DeclaredFor nodes n.parents vs →
      ∃ j, j < n.values.length ∧ sampleRoll (rolls k) (accumulateF (row n vs)) = some j)
    (done : List ν) (s : List (ν × β)) (a : ν → β) (hr : Ready done rest)
    (hs : PartialSample nodes done s a) :
    ∃ s', sampleLoop nodes rolls (rest.map (·.name)) done.length s = .ok s' := by
  induction rest generalizing done s a with
  | nil => exact ⟨s, rfl⟩
  | cons n rest ih =>
    obtain ⟨hp, hname, hr'⟩ := hr
    have hn := hrest n (by simp)
    have hstep := nodeSampleF h hs hn (hcum n hn) hp hname (rolls done.length) false
    have hdf := declaredFor_of hs.declared n.parents hp (fun q hq => h.known n hn q hq)
    obtain ⟨j, hj, hroll⟩ := hsel n (by simp) done.length _ hdf
    rw [hroll] at hstep
    have hv : n.values[j]? = some n.values[j] := List.getElem?_eq_getElem hj
    simp only [hv] at hstep
    obtain ⟨s', e⟩ := ih (fun m hm => hrest m (by simp [hm])) (fun m hm => hsel m (by simp [hm]))
      (done ++ [n.name]) (dictSet s n.name n.values[j]) (Function.update a n.name n.values[j]) hr'
      (hs.extend h.unique hn hname (List.getElem_mem hj))
    refine ⟨s', ?_⟩
    simp only [List.map_cons, sampleLoop, getNode_mem h.unique hn]
    show (nodeSample n s false (rolls done.length) >>= _) = _
    rw [hstep]
    show sampleLoop nodes rolls (rest.map (·.name)) (done.length + 1) (dictSet s n.name n.values[j]) = _
    rw [← e]; simp

section network
variable {nodes : List (Node ν β)} [Nonempty β]

omit [LinearOrder ν] [Nonempty β] in
theorem order_idxOf_lt {net : Net ν β} {f : Node ν β → Node ν β} (hf : FinalizedF nodes net f)
    {n : Node ν β} (hn : n ∈ nodes) : n.name ∈ net.nodeOrder := by
  rw [hf.order.perm.mem_iff, hf.nodes_eq, List.map_map]
  exact List.mem_map.2 ⟨n, hn, hf.name n hn⟩

/-- **C81, samples.**  The sample of a network is `a` exactly when every variable's random number
selects the value of `a` among the rounded cumulative sums of the row for the values of `a` of its
parents. -/
theorem float_sample_iff (h : WellFormed nodes) {net : Net ν β}
    (e : finalizeF { nodes := nodes.map readNode } = .ok net) (rolls : Nat → ℚ) (a : ν → β)
    (ha : Assignment nodes a) :
    (∃ s, sample net rolls = .ok s ∧ ∀ n ∈ nodes, dictGet s n.name = some (a n.name)) ↔
      ∀ n ∈ nodes, sampleRoll (rolls (net.nodeOrder.idxOf n.name)) (cumF (row n (n.parents.map a))) =
        some (n.values.idxOf (a n.name)) := by
  obtain ⟨f, hf⟩ := finalizeF_unique h e
  have hpk := pickNodes_spec net.nodeOrder (fun v hv => hf.order.perm.mem_iff.1 hv)
  have hready := ready_of_topological hf.wf.unique hf.order
  have hcum : ∀ n ∈ net.nodes, n.cumulative = cumulativeOfF n.probabilities := by
    intro m hm
    rw [hf.nodes_eq] at hm
    obtain ⟨n, hn, rfl⟩ := List.mem_map.1 hm
    exact hf.cumulative n hn
  have hsample : ∀ s, sample net rolls = .ok s ↔
      sampleLoop net.nodes rolls ((pickNodes net.nodes net.nodeOrder).map (·.name)) 0 [] = .ok s := by
    intro s
    unfold sample requireFinal
    rw [if_pos hf.finalized, hpk.1]
  have hrowf : ∀ n ∈ nodes, ∀ b : ν → β, accumulateF (row (f n) ((f n).parents.map b)) =
      cumF (row n (n.parents.map b)) := by
    intro n hn b
    rw [hf.row n hn, hf.parents n hn]; rfl
  constructor
  · rintro ⟨s, es, hs⟩
    rw [hsample] at es
    obtain ⟨b, hps, _, hall⟩ := sampleLoopF_to hf.wf hcum rolls _ hpk.2 [] [] s
      (fun _ => Classical.arbitrary β) hready
      ⟨rfl, by simp, by simp, by simp, by intro n _ h'; simp at h'⟩ es
    rw [hpk.1, List.nil_append] at hps hall
    have hab : ∀ n ∈ nodes, b n.name = a n.name := by
      intro n hn
      have h1 := hps.vals n.name (order_idxOf_lt hf hn)
      rw [hs n hn] at h1
      exact (Option.some.inj h1).symm
    intro n hn
    have hfn : f n ∈ pickNodes net.nodes net.nodeOrder := by
      rw [(pickNodes_perm hf.wf.unique hf.order.perm).mem_iff, hf.nodes_eq]
      exact List.mem_map.2 ⟨n, hn, rfl⟩
    have := hall (f n) hfn
    rw [hrowf n hn, hf.name n hn, hf.values n hn, hab n hn] at this
    have hpar : n.parents.map b = n.parents.map a := by
      apply List.map_congr_left
      intro p hp
      obtain ⟨m, hm, rfl⟩ := List.mem_map.1 (h.known n hn p hp)
      exact hab m hm
    rwa [hpar] at this
  · intro hsel
    obtain ⟨s, es, hps⟩ := sampleLoopF_of hf.wf hcum rolls a _ hpk.2 (by
        intro m hm
        have := hpk.2 m hm
        rw [hf.nodes_eq] at this
        obtain ⟨n, hn, rfl⟩ := List.mem_map.1 this
        rw [hf.name n hn, hf.values n hn]
        exact ha n hn) [] [] hready
      ⟨rfl, by simp, by simp, by simp, by intro n _ h'; simp at h'⟩ (by
        intro m hm
        have := hpk.2 m hm
        rw [hf.nodes_eq] at this
        obtain ⟨n, hn, rfl⟩ := List.mem_map.1 this
        rw [hrowf n hn, hf.name n hn, hf.values n hn, hpk.1, List.nil_append]
        exact hsel n hn)
    refine ⟨s, (hsample s).2 es, ?_⟩
    intro n hn
    refine hps.vals n.name ?_
    rw [hpk.1, List.nil_append]
    exact order_idxOf_lt hf hn

/-- The random numbers `m 0`, `m 1`, … as a sequence. (Specification.) -/
def rollsOf {N : Nat} (m : Fin N → Fin (2 ^ 53)) (k : Nat) : ℚ :=
  if h : k < N then random (m ⟨k, h⟩) else 0

theorem card_box {N M : Nat} (P : Fin N → Fin M → Prop) :
    Nat.card {m : Fin N → Fin M // ∀ k, P k (m k)} = ∏ k, Nat.card {x : Fin M // P k x} := by
  rw [Nat.card_congr (Equiv.subtypePiEquivPi (p := P)), Nat.card_pi]

/-- **C81, distribution of the samples.**  Of the sequences of as many 53-bit random numbers as there
are variables, exactly `∏ c n` give the sample `a`, where the number `c n` for the variable `n`
differs from `2⁵³ · P(n = a n | parents of n as in a)` by at most `4 k + 2`, `k` the number of values
of `n`; and `c n` is zero if that probability is zero, unless `a n` is the first value of `n`, when it
is one. -/
theorem float_sample_distribution (h : WellFormed nodes) (hN : Normalised nodes) {net : Net ν β}
    (e : finalizeF { nodes := nodes.map readNode } = .ok net)
    (hk : ∀ n ∈ nodes, n.values.length ≤ 2 ^ 40) (a : ν → β) (ha : Assignment nodes a) :
    ∃ c : Node ν β → Nat,
      Nat.card {m : Fin nodes.length → Fin (2 ^ 53) // ∃ s, sample net (rollsOf m) = .ok s ∧
        ∀ n ∈ nodes, dictGet s n.name = some (a n.name)} = (nodes.map c).prod ∧
      ∀ n ∈ nodes,
        |(c n : ℚ) - 2 ^ 53 * cpt n (n.parents.map a) (a n.name)| ≤ 4 * (n.values.length : ℚ) + 2 ∧
        (cpt n (n.parents.map a) (a n.name) = 0 →
          c n = if n.values.idxOf (a n.name) = 0 then 1 else 0) := by
  obtain ⟨f, hf⟩ := finalizeF_unique h e
  set order := net.nodeOrder with horder
  have hperm : order.Perm (nodes.map (·.name)) := by
    have := hf.order.perm
    rw [hf.nodes_eq, List.map_map] at this
    have e2 : nodes.map ((·.name) ∘ f) = nodes.map (·.name) :=
      List.map_congr_left (fun n hn => hf.name n hn)
    rwa [e2] at this
  have hlen : order.length = nodes.length := by rw [hperm.length_eq, List.length_map]
  have hnd : order.Nodup := hperm.nodup_iff.2 h.unique
  refine ⟨fun n => draws (row n (n.parents.map a)) (some (n.values.idxOf (a n.name))), ?_, ?_⟩
  · -- the event is a box
    set P : Fin nodes.length → Fin (2 ^ 53) → Prop := fun k x =>
      ∀ n ∈ nodes, order.idxOf n.name = k →
        sampleRoll (random x) (cumF (row n (n.parents.map a))) = some (n.values.idxOf (a n.name)) with hP
    have hev : ∀ m : Fin nodes.length → Fin (2 ^ 53),
        (∃ s, sample net (rollsOf m) = .ok s ∧ ∀ n ∈ nodes, dictGet s n.name = some (a n.name)) ↔
          ∀ k, P k (m k) := by
      intro m
      rw [float_sample_iff h e _ a ha]
      constructor
      · intro hall k n hn hidx
        have := hall n hn
        rw [← horder, hidx] at this
        unfold rollsOf at this
        rwa [dif_pos k.2] at this
      · intro hall n hn
        have hlt : order.idxOf n.name < nodes.length := by
          rw [← hlen]
          exact List.idxOf_lt_length_of_mem (order_idxOf_lt hf hn)
        have := hall ⟨order.idxOf n.name, hlt⟩ n hn rfl
        unfold rollsOf
        rw [← horder, dif_pos hlt]
        exact this
    rw [Nat.card_congr (Equiv.subtypeEquivRight hev), card_box]
    -- the factor of a position is that of the node there
    have hfac : ∀ n ∈ nodes, ∀ k : Fin nodes.length, order.idxOf n.name = k →
        Nat.card {x : Fin (2 ^ 53) // P k x} =
          draws (row n (n.parents.map a)) (some (n.values.idxOf (a n.name))) := by
      intro n hn k hidx
      unfold draws
      apply Nat.card_congr
      apply Equiv.subtypeEquivRight
      intro x
      constructor
      · intro hx; exact hx n hn hidx
      · intro hx n' hn' hidx'
        have : n'.name = n.name := by
          have h1 := order_idxOf_lt hf hn'
          have h2 : order.idxOf n'.name = order.idxOf n.name := by rw [hidx', hidx]
          exact (List.idxOf_inj h1).1 h2
        have := unique_node h.unique hn' hn this
        subst this
        exact hx
    have hex : ∀ v : ν, ∃ n : Node ν β, v ∈ nodes.map (·.name) → n ∈ nodes ∧ n.name = v := by
      intro v
      by_cases hv : v ∈ nodes.map (·.name)
      · obtain ⟨n, hn, hne⟩ := List.mem_map.1 hv
        exact ⟨n, fun _ => ⟨hn, hne⟩⟩
      · exact ⟨{ name := v, values := [], parents := [], probabilities := [] }, fun h' => absurd h' hv⟩
    choose node hnode using hex
    set g : ν → Nat := fun v => draws (row (node v) ((node v).parents.map a))
      (some ((node v).values.idxOf (a (node v).name))) with hg
    have h1 : ∏ k : Fin nodes.length, Nat.card {x : Fin (2 ^ 53) // P k x} = (order.map g).prod := by
      have : order.map g = List.ofFn (fun k : Fin nodes.length =>
          Nat.card {x : Fin (2 ^ 53) // P k x}) := by
        apply List.ext_getElem
        · simp [hlen]
        · intro i hi1 hi2
          have hi : i < order.length := by simpa using hi1
          simp only [List.getElem_map, List.getElem_ofFn]
          have hv : order[i] ∈ nodes.map (·.name) := hperm.mem_iff.1 (List.getElem_mem hi)
          obtain ⟨hnm, hne⟩ := hnode _ hv
          rw [hfac (node order[i]) hnm ⟨i, by omega⟩ (by
            rw [hne]; exact hnd.idxOf_getElem i hi)]
      rw [this, List.prod_ofFn]
    rw [h1, (hperm.map g).prod_eq, List.map_map]
    congr 1
    apply List.map_congr_left
    intro n hn
    have hv : n.name ∈ nodes.map (·.name) := List.mem_map.2 ⟨n, hn, rfl⟩
    obtain ⟨hnm, hne⟩ := hnode _ hv
    have := unique_node h.unique hnm hn hne
    simp only [Function.comp, hg, this]
  · intro n hn
    have hd : DeclaredFor nodes n.parents (n.parents.map a) :=
      declaredFor_of (done := nodes.map (·.name)) (fun m hm _ => ha m hm) n.parents
        (h.known n hn) (h.known n hn)
    obtain ⟨hnn, hsum⟩ := hN n hn _ hd
    obtain ⟨_, hl⟩ := h.table_rows n hn _ hd
    have hlt := List.idxOf_lt_length_of_mem (ha n hn)
    constructor
    · have := draws_near hnn hsum (by rw [hl]; exact hk n hn) (n.values.idxOf (a n.name)) (by omega)
      rw [hl] at this
      rw [mul_comm]
      exact this
    · intro h0
      apply draws_zero hnn
      unfold cpt at h0
      rw [List.getD_eq_getElem?_getD, List.getElem?_eq_getElem (by omega)] at h0
      rw [List.getElem?_eq_getElem (by omega)]
      simpa using h0

/-- **C81, no failure.**  If every random number is at most `1 - K · 2⁻⁵²`, `K` the largest number of
values of a variable, then a sample is drawn. -/
theorem float_sample_ok (h : WellFormed nodes) (hN : Normalised nodes) {net : Net ν β}
    (e : finalizeF { nodes := nodes.map readNode } = .ok net) (K : Nat) (hK : K ≤ 2 ^ 40)
    (hk : ∀ n ∈ nodes, n.values.length ≤ K) (rolls : Nat → ℚ)
    (hr : ∀ i, rolls i ≤ 1 - (K : ℚ) / 2 ^ 52) : ∃ s, sample net rolls = .ok s := by
  obtain ⟨f, hf⟩ := finalizeF_unique h e
  have hpk := pickNodes_spec net.nodeOrder (fun v hv => hf.order.perm.mem_iff.1 hv)
  have hready := ready_of_topological hf.wf.unique hf.order
  have hcum : ∀ n ∈ net.nodes, n.cumulative = cumulativeOfF n.probabilities := by
    intro m hm
    rw [hf.nodes_eq] at hm
    obtain ⟨n, hn, rfl⟩ := List.mem_map.1 hm
    exact hf.cumulative n hn
  have hdecl : ∀ ps vs, DeclaredFor net.nodes ps vs → DeclaredFor nodes ps vs := by
    intro ps vs hd
    unfold DeclaredFor at hd ⊢
    refine hd.imp ?_
    rintro p v ⟨m, hm, e1, hv⟩
    rw [hf.nodes_eq] at hm
    obtain ⟨n, hn, rfl⟩ := List.mem_map.1 hm
    exact ⟨n, hn, by rw [← hf.name n hn]; exact e1, by rw [← hf.values n hn]; exact hv⟩
  obtain ⟨s, es⟩ := sampleLoopF_ok hf.wf hcum rolls _ hpk.2 (by
      intro m hm k vs hvs
      have := hpk.2 m hm
      rw [hf.nodes_eq] at this
      obtain ⟨n, hn, rfl⟩ := List.mem_map.1 this
      have hd := hdecl _ _ hvs
      rw [hf.parents n hn] at hd
      obtain ⟨hnn, hsum⟩ := hN n hn _ hd
      obtain ⟨_, hl⟩ := h.table_rows n hn _ hd
      obtain ⟨j, hj, hx⟩ := sampleRoll_some hnn hsum (by rw [hl]; exact (hk n hn).trans hK) (rolls k) (by
        refine (hr k).trans ?_
        rw [hl]
        have : (n.values.length : ℚ) ≤ K := by exact_mod_cast hk n hn
        have : (n.values.length : ℚ) / 2 ^ 52 ≤ (K : ℚ) / 2 ^ 52 :=
          div_le_div_of_nonneg_right this (by norm_num)
        linarith)
      refine ⟨j, by rw [hf.values n hn, ← hl]; exact hj, ?_⟩
      rw [hf.row n hn]
      exact hx) [] [] (fun _ => Classical.arbitrary β) hready
    ⟨rfl, by simp, by simp, by simp, by intro n _ h'; simp at h'⟩
  refine ⟨s, ?_⟩
  unfold sample requireFinal
  rw [if_pos hf.finalized]
  rw [hpk.1] at es
  exact es

end network

/-! ## Findings and examples -/

/-- A table row whose exact probabilities sum to one. (Example.) -/
def shortRow : List ℚ := [29 / 100, 57 / 100, 8 / 100, 6 / 100]

theorem shortRow_sum : shortRow.sum = 1 := by decide +kernel

/-- **C81, finding.**  With the probabilities 0.29, 0.57, 0.08, 0.06 the largest random number selects
no value: `node.sample` indexes a list with `None`. -/
theorem float_sample_can_fail :
    sampleRoll (random ⟨2 ^ 53 - 1, by norm_num⟩) (cumF shortRow) = none := by decide +kernel

/-- The same row in exact arithmetic selects a value for every random number. -/
example : sampleRoll (random ⟨2 ^ 53 - 1, by norm_num⟩) (accumulate 0 shortRow) = some 3 := by
  decide +kernel

/-- **C81, finding.**  A first value of probability zero is drawn for the random number `0.0`. -/
theorem float_sample_impossible :
    sampleRoll (random ⟨0, by norm_num⟩) (cumF [0, 1 / 3, 2 / 3]) = some 0 := by decide +kernel

/-- A network of one variable with that row. (Example.) -/
def exShort : List (Node Nat Nat) :=
  [{ name := 0, values := [1, 2, 3, 4], parents := [], probabilities := [(.unconditioned, shortRow)] }]

/-- The largest random number makes `sample` of that network raise a `TypeError`. -/
theorem exShort_fails :
    (finalizeF { nodes := exShort.map readNode } >>= fun net =>
      sample net (fun _ => random ⟨2 ^ 53 - 1, by norm_num⟩)) = .error .typeError := by decide +kernel

/-- The hypotheses of `float_sample_distribution` hold for the example network of C36. -/
example : ∃ net, finalizeF { nodes := exNodes.map readNode } = .ok net ∧ ∃ c : Node Nat Nat → Nat,
    Nat.card {m : Fin 3 → Fin (2 ^ 53) // ∃ s, sample net (rollsOf m) = .ok s ∧
      ∀ n ∈ exNodes, dictGet s n.name = some ((fun v => if v = 1 then 7 else 9 : Nat → Nat) n.name)} =
        (exNodes.map c).prod ∧
    ∀ n ∈ exNodes, |(c n : ℚ) - 2 ^ 53 *
      cpt n (n.parents.map (fun v => if v = 1 then 7 else 9)) (if n.name = 1 then 7 else 9)| ≤ 10 := by
  obtain ⟨net, e, _⟩ := finalizeF_ok exNodes_wf
  obtain ⟨c, h1, h2⟩ := float_sample_distribution exNodes_wf exNodes_normalised e
    (by intro n hn; revert n; decide) (fun v => if v = 1 then 7 else 9) (by intro n hn; revert n; decide)
  refine ⟨net, e, c, h1, fun n hn => ?_⟩
  refine ((h2 n hn).1).trans ?_
  have : n.values.length = 2 := by revert n; decide
  rw [this]; norm_num

/-- The hypotheses of `float_sample_ok` hold for the example network of C36. -/
example : ∃ net, finalizeF { nodes := exNodes.map readNode } = .ok net ∧
    ∃ s, sample net (fun _ => random ⟨2 ^ 53 - 5, by norm_num⟩) = .ok s := by
  obtain ⟨net, e, _⟩ := finalizeF_ok exNodes_wf
  exact ⟨net, e, float_sample_ok exNodes_wf exNodes_normalised e 2 (by norm_num) (by decide) _
    (fun _ => by decide +kernel)⟩

/-- The hypotheses of `sampleRoll_agrees` hold for the failing row and a random number of one half. -/
example : sampleRoll (1 / 2 : ℚ) (cumF shortRow) = sampleRoll (1 / 2 : ℚ) (accumulate 0 shortRow) :=
  sampleRoll_agrees (by decide +kernel) shortRow_sum (by decide) _ (by decide +kernel)

end Mbtk.Fp
