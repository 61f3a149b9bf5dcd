import Verif.MB.Correct
import Verif.Props.GraphProps
import Verif.Stats.CiResult
/-!
# The correlation estimator of a known network (`mbtk/math/BNCorrelationEstimator.py`) (C109)

The constructor, histories of `compute`, the log of `HeuristicResult`s and `end`.  Times are not
modelled; what `pickle` writes is the list itself.
-/
namespace Mbtk.MB.Estimator
open Mbtk Mbtk.Graph Mbtk.Dataset Mbtk.Dataset.Rcv Mbtk.Exp Mbtk.MB

/-! ## Model -/

/-- The attributes of a `HeuristicResult` that `compute` sets: HeuristicResult.py 8-18, 36-38;
BNCorrelationEstimator.py 33-35. -/
structure Entry where
  index : Nat
  X : Str
  Y : Str
  Z : Str
  heuristic : Str
  value : ℚ
  deriving DecidableEq

/-- A `BNCorrelationEstimator`: BNCorrelationEstimator.py 9-15, 41 (the parameter
`heuristic_results_path__save`). -/
structure Est (File : Type) where
  net : Net
  save : Option File
  log : List Entry

variable {File : Type}

/-- `BNCorrelationEstimator(_, parameters)`: BNCorrelationEstimator.py 9-15. -/
def create (net : Option Net) (save : Option File) : Except Err (Est File) :=
  match net with
  | none => .error (.custom "NotImplementedError")
  | some N => .ok ⟨N, save, []⟩

/-- What is recorded about a call: HeuristicResult.py 21-24, 36-38; BNCorrelationEstimator.py 33-35. -/
def entryOf (index : Nat) (X Y : Nat) (Z : List Nat) (value : ℚ) : Entry :=
  ⟨index, CiResult.repr (.int X), CiResult.repr (.int Y), CiResult.repr (.many (Z.map (fun z : Nat => (z : Int)))),
    "BNCorrelationEstimator".toList, value⟩

/-- `compute(X, Y, Z)`: BNCorrelationEstimator.py 18-37; `Z` in the order in which it is visited. -/
def compute (X Y : Nat) (Z : List Nat) (e : Est File) : Except Err ℚ × Est File :=
  match (if Z.length > 0 then condIndependent e.net X Y Z else .ok false) with
  | .error err => (.error err, e)
  | .ok true => (.ok 0, e)
  | .ok false =>
    match shortest (allPaths e.net.gu X Y) with
    | .error err => (.error err, e)
    | .ok n => (.ok (1 / (n : ℚ)), { e with log := e.log ++ [entryOf e.log.length X Y Z (1 / (n : ℚ))] })

/-- `end()`: BNCorrelationEstimator.py 40-44: the file written and its content, if any. -/
def finish (e : Est File) : Option (File × List Entry) := e.save.map (fun f => (f, e.log))

/-- A history of calls of `compute`, an exception being caught by the caller: the returned values or
exceptions, and the estimator afterwards. BNCorrelationEstimator.py 18-37. -/
def session (e : Est File) : List (Nat × Nat × List Nat) → List (Except Err ℚ) × Est File
  | [] => ([], e)
  | c :: cs =>
    ((compute c.1 c.2.1 c.2.2 e).1 :: (session (compute c.1 c.2.1 c.2.2 e).2 cs).1,
      (session (compute c.1 c.2.1 c.2.2 e).2 cs).2)

/-! ## Specification -/

/-- `y` can be reached from `x` by `k` links of the network, whatever their directions. (Specification.) -/
inductive Reach (E : Nat → Nat → Prop) : Nat → Nat → Nat → Prop
  | here (x : Nat) : Reach E x x 0
  | link {x n y k : Nat} : Linked E x n → Reach E n y k → Reach E x y (k + 1)

/-- The distance of `x` and `y`, regardless of the directions of the edges, is `d` links. (Specification.) -/
def Distance (E : Nat → Nat → Prop) (x y d : Nat) : Prop :=
  Reach E x y d ∧ ∀ k, Reach E x y k → d ≤ k

/-- The calls that returned a value other than 0, with the value. (Specification.) -/
def correlated (calls : List (Nat × Nat × List Nat)) (out : List (Except Err ℚ)) :
    List ((Nat × Nat × List Nat) × ℚ) :=
  (calls.zip out).filterMap (fun c => match c.2 with
    | .ok v => if v = 0 then none else some (c.1, v)
    | .error _ => none)

/-! ## Facts -/

theorem Reach.of_simple {E : Nat → Nat → Prop} : ∀ (p : List Nat) {x y : Nat}, SimplePath (Linked E) x y p →
    Reach E x y (p.length - 1)
  | [], _, _, h => absurd rfl h.ne_nil
  | a :: q, x, y, h => by
    obtain ⟨rfl, h⟩ := simplePath_cons_iff.1 h
    rcases h with ⟨rfl, rfl⟩ | ⟨n, h1, -, -, h4⟩
    · exact Reach.here _
    · have := Reach.of_simple q h4
      cases q with
      | nil => exact absurd rfl h4.ne_nil
      | cons b q => exact Reach.link h1 this

theorem simple_suffix {A : Nat → Nat → Prop} : ∀ (p : List Nat) {n x y : Nat}, SimplePath A n y p → x ∈ p →
    ∃ q, SimplePath A x y q ∧ q.length ≤ p.length
  | [], _, _, _, h, _ => absurd rfl h.ne_nil
  | a :: q, n, x, y, h, hx => by
    obtain ⟨rfl, h'⟩ := simplePath_cons_iff.1 h
    by_cases hax : x = a
    · subst hax; exact ⟨x :: q, h, le_refl _⟩
    · have hq : x ∈ q := (List.mem_cons.1 hx).resolve_left hax
      rcases h' with ⟨rfl, -⟩ | ⟨m, -, -, -, h4⟩
      · cases hq
      · obtain ⟨r, hr, hl⟩ := simple_suffix q h4 hq
        exact ⟨r, hr, by simp; omega⟩

theorem Reach.simple {E : Nat → Nat → Prop} {x y k : Nat} (h : Reach E x y k) :
    ∃ p, SimplePath (Linked E) x y p ∧ p.length ≤ k + 1 := by
  induction h with
  | here x => exact ⟨[x], simplePath_cons_iff.2 ⟨rfl, .inl ⟨rfl, rfl⟩⟩, by simp⟩
  | @link x n y k h1 _ ih =>
    obtain ⟨p, hp, hl⟩ := ih
    by_cases hx : x ∈ p
    · obtain ⟨q, hq, hql⟩ := simple_suffix p hp hx
      exact ⟨q, hq, by omega⟩
    · have hxy : x ≠ y := by
        rintro rfl
        exact hx (List.mem_of_getLast? hp.last)
      exact ⟨x :: p, simplePath_cons_iff.2 ⟨rfl, .inr ⟨n, h1, hx, hxy, hp⟩⟩, by simp; omega⟩

/-- The value is that of the heuristic used in the model of the algorithms. -/
theorem compute_value (e : Est File) (X Y : Nat) (Z : List Nat) :
    (compute X Y Z e).1 = bnHeur e.net X Y Z := by
  unfold compute bnHeur
  by_cases hz : Z.length > 0
  · simp only [if_pos hz]
    cases h : condIndependent e.net X Y Z with
    | error err => rfl
    | ok b =>
      cases b with
      | true => rfl
      | false =>
        simp only []
        cases h2 : shortest (allPaths e.net.gu X Y) with
        | error err => simp [bind, Except.bind]
        | ok n => simp [bind, Except.bind]
  · simp only [if_neg hz]
    cases h2 : shortest (allPaths e.net.gu X Y) with
    | error err => simp [bind, Except.bind]
    | ok n => simp [bind, Except.bind]

theorem compute_net (e : Est File) (X Y : Nat) (Z : List Nat) :
    (compute X Y Z e).2.net = e.net ∧ (compute X Y Z e).2.save = e.save := by
  unfold compute
  split
  · exact ⟨rfl, rfl⟩
  · exact ⟨rfl, rfl⟩
  · split <;> exact ⟨rfl, rfl⟩

theorem shortest_distance {N : Net} {V : List Nat} {E : Nat → Nat → Prop} (h : Represents N V E) (X Y : Nat) :
    (∃ d, Distance E X Y d ∧ shortest (allPaths N.gu X Y) = .ok (d + 1)) ∨
    ((∀ k, ¬ Reach E X Y k) ∧ shortest (allPaths N.gu X Y) = .error .valueError) := by
  by_cases hne : allPaths N.gu X Y = []
  · right
    refine ⟨fun k hk => ?_, by rw [hne]; rfl⟩
    obtain ⟨p, hp, -⟩ := hk.simple
    have := (mem_network_paths h).2 hp
    rw [hne] at this
    cases this
  · left
    obtain ⟨n, h1, h2, q, hq, h3⟩ := shortest_spec hne
    have hsq := (mem_network_paths h).1 hq
    have hpos : 0 < q.length := List.length_pos_iff.2 hsq.ne_nil
    refine ⟨n - 1, ⟨?_, fun k hk => ?_⟩, by rw [h1]; congr 1; omega⟩
    · have := Reach.of_simple q hsq
      rwa [← h3] at this
    · obtain ⟨p, hp, hl⟩ := hk.simple
      have := h2 p ((mem_network_paths h).2 hp)
      omega

/-- **C109, one call.**  If `Z` is not empty and separates `X` from `Y` in the sense of the shipped d-separation
test, `compute` returns 0 and records nothing.  Otherwise, if `X` and `Y` are at a distance of `d` links
(in either direction), it returns `1 / (d + 1)` and records the call with that value under the next index;
if they are not connected it raises `ValueError` and records nothing. -/
theorem estimator_call {V : List Nat} {E : Nat → Nat → Prop} (e : Est File) (h : Represents e.net V E)
    (X Y : Nat) (Z : List Nat) :
    (Z ≠ [] → ShippedSep E X Y {z | z ∈ Z} → compute X Y Z e = (.ok 0, e)) ∧
    ((Z = [] ∨ ¬ ShippedSep E X Y {z | z ∈ Z}) →
      (∀ d, Distance E X Y d → compute X Y Z e = (.ok (1 / ((d : ℚ) + 1)),
        { e with log := e.log ++ [entryOf e.log.length X Y Z (1 / ((d : ℚ) + 1))] })) ∧
      ((∀ k, ¬ Reach E X Y k) → compute X Y Z e = (.error .valueError, e))) := by
  obtain ⟨r, h1, h2⟩ := dSeparated_spec h X Y Z
  have h2' : r = true ↔ ShippedSep E X Y {z | z ∈ Z} := h2
  have hci : condIndependent e.net X Y Z = .ok r := by simp [condIndependent, h1]
  constructor
  · intro hz hs
    have hl : Z.length > 0 := List.length_pos_iff.2 hz
    unfold compute
    rw [if_pos hl, hci, h2'.2 hs]
  · intro hns
    have hc : (if Z.length > 0 then condIndependent e.net X Y Z else .ok false) = .ok false := by
      by_cases hl : Z.length > 0
      · rw [if_pos hl, hci]
        rcases hns with rfl | hns
        · simp at hl
        · cases r with
          | true => exact absurd (h2'.1 rfl) hns
          | false => rfl
      · rw [if_neg hl]
    constructor
    · intro d hd
      rcases shortest_distance h X Y with ⟨d', hd', hs⟩ | ⟨hno, -⟩
      · have : d' = d := Nat.le_antisymm (hd'.2 d hd.1) (hd.2 d' hd'.1)
        subst this
        unfold compute
        rw [hc, hs]
        simp
      · exact absurd hd.1 (hno d)
    · intro hno
      rcases shortest_distance h X Y with ⟨d', hd', -⟩ | ⟨-, hs⟩
      · exact absurd hd'.1 (hno d')
      · unfold compute
        rw [hc, hs]

/-- **C109, which values.**  Whatever the network and the call, a value lies between 0 and 1; the value of two
different variables is at most 1/2, and 1/2 exactly if they are linked and not reported separated. -/
theorem estimator_range {V : List Nat} {E : Nat → Nat → Prop} (e : Est File) (h : Represents e.net V E)
    (X Y : Nat) (hXY : X ≠ Y) (Z : List Nat) (v : ℚ) (hv : (compute X Y Z e).1 = .ok v) :
    0 ≤ v ∧ v ≤ 1 / 2 ∧
    (v = 1 / 2 ↔ Linked E X Y ∧ (Z = [] ∨ ¬ ShippedSep E X Y {z | z ∈ Z})) ∧
    (v = 0 ↔ Z ≠ [] ∧ ShippedSep E X Y {z | z ∈ Z}) := by
  obtain ⟨c1, c2⟩ := estimator_call e h X Y Z
  by_cases hs : Z ≠ [] ∧ ShippedSep E X Y {z | z ∈ Z}
  · rw [c1 hs.1 hs.2] at hv
    simp only [Except.ok.injEq] at hv
    subst hv
    refine ⟨le_refl _, by norm_num, ⟨fun hh => by norm_num at hh, ?_⟩, ⟨fun _ => hs, fun _ => rfl⟩⟩
    rintro ⟨-, hh | hh⟩
    · exact absurd hh hs.1
    · exact absurd hs.2 hh
  · have hns : Z = [] ∨ ¬ ShippedSep E X Y {z | z ∈ Z} := by
      by_cases hz : Z = []
      · exact .inl hz
      · exact .inr (fun hh => hs ⟨hz, hh⟩)
    obtain ⟨c3, c4⟩ := c2 hns
    rcases shortest_distance h X Y with ⟨d, hd, -⟩ | ⟨hno, -⟩
    · rw [c3 d hd] at hv
      simp only [Except.ok.injEq] at hv
      have hd1 : 1 ≤ d := by
        rcases Nat.eq_zero_or_pos d with h0 | h0
        · subst h0
          cases hd.1
          exact absurd rfl hXY
        · exact h0
      have hdq : (1 : ℚ) ≤ d := by exact_mod_cast hd1
      have hpos : (0 : ℚ) < (d : ℚ) + 1 := by linarith
      have hv0 : 0 < v := by rw [← hv]; positivity
      refine ⟨hv0.le, ?_, ?_, ⟨fun h0 => absurd h0 hv0.ne', fun hh => absurd hh hs⟩⟩
      · rw [← hv, div_le_div_iff₀ hpos (by norm_num)]
        linarith
      · constructor
        · intro hh
          rw [← hv, div_eq_div_iff hpos.ne' (by norm_num)] at hh
          have hdd : (d : ℚ) = 1 := by linarith
          have hd' : d = 1 := by exact_mod_cast hdd
          subst hd'
          refine ⟨?_, hns⟩
          have hr := hd.1
          cases hr with
          | link hl hr' => cases hr'; exact hl
        · rintro ⟨hl, -⟩
          have : d ≤ 1 := hd.2 1 (.link hl (.here _))
          have hd' : d = 1 := by omega
          rw [← hv, hd']
          norm_num
    · rw [c4 hno] at hv
      cases hv

/-! ## The log -/

/-- What one call does to the log, whatever the network. -/
theorem compute_cases (e : Est File) (X Y : Nat) (Z : List Nat) :
    ((∃ v, v ≠ 0 ∧ compute X Y Z e =
        (.ok v, { e with log := e.log ++ [entryOf e.log.length X Y Z v] })) ∨
      compute X Y Z e = (.ok 0, e) ∨ ∃ err, compute X Y Z e = (.error err, e)) := by
  unfold compute
  split
  · exact .inr (.inr ⟨_, rfl⟩)
  · exact .inr (.inl rfl)
  · split
    · exact .inr (.inr ⟨_, rfl⟩)
    · rename_i n hn
      left
      refine ⟨1 / (n : ℚ), ?_, rfl⟩
      have hne : allPaths e.net.gu X Y ≠ [] := by
        intro h0; rw [h0] at hn; cases hn
      obtain ⟨m, h1, -, q, hq, h3⟩ := shortest_spec hne
      rw [hn] at h1
      cases h1
      have := List.length_pos_iff.2 ((mem_allPaths.1 hq).ne_nil)
      have hq' : (n : ℚ) ≠ 0 := by
        rw [h3]
        exact_mod_cast this.ne'
      exact one_div_ne_zero hq'

/-- **C109, the log.**  After any history of calls on a new estimator, whatever the network and also if some
calls raised: the log has one entry for each call that returned a value other than 0, in the order of the
calls, with the position in the log as index and the returned value; nothing else is recorded. -/
theorem log_exact (N : Net) (save : Option File) (calls : List (Nat × Nat × List Nat)) :
    ∃ e, create (some N) save = .ok e ∧
      (session e calls).2.log =
        (correlated calls (session e calls).1).mapIdx (fun i c => entryOf i c.1.1 c.1.2.1 c.1.2.2 c.2) ∧
      (session e calls).1.length = calls.length := by
  refine ⟨⟨N, save, []⟩, rfl, ?_⟩
  have key : ∀ (calls : List (Nat × Nat × List Nat)) (e : Est File),
      (session e calls).2.log = e.log ++
        (correlated calls (session e calls).1).mapIdx
          (fun i c => entryOf (i + e.log.length) c.1.1 c.1.2.1 c.1.2.2 c.2) ∧
      (session e calls).1.length = calls.length := by
    intro calls
    induction calls with
    | nil => intro e; simp [session, correlated]
    | cons c cs ih =>
      intro e
      rcases compute_cases e c.1 c.2.1 c.2.2 with ⟨v, hv, hc⟩ | hc | ⟨err, hc⟩
      · obtain ⟨i1, i2⟩ := ih { e with log := e.log ++ [entryOf e.log.length c.1 c.2.1 c.2.2 v] }
        simp only [session, hc]
        refine ⟨?_, by simp [i2]⟩
        rw [i1]
        simp [correlated, hv, List.mapIdx_cons, Nat.add_assoc, Nat.add_comm 1]
      · obtain ⟨i1, i2⟩ := ih e
        simp only [session, hc]
        refine ⟨?_, by simp [i2]⟩
        rw [i1]
        simp [correlated]
      · obtain ⟨i1, i2⟩ := ih e
        simp only [session, hc]
        refine ⟨?_, by simp [i2]⟩
        rw [i1]
        simp [correlated]
  obtain ⟨k1, k2⟩ := key calls ⟨N, save, []⟩
  exact ⟨by simpa using k1, k2⟩

/-- **C109, independence of history.**  A call returns the same whatever was computed before. -/
theorem history_irrelevant (e : Est File) (calls : List (Nat × Nat × List Nat)) (X Y : Nat) (Z : List Nat) :
    (compute X Y Z (session e calls).2).1 = (compute X Y Z e).1 := by
  have : ∀ (calls : List (Nat × Nat × List Nat)) (e : Est File), (session e calls).2.net = e.net := by
    intro calls
    induction calls with
    | nil => intro e; rfl
    | cons c cs ih => intro e; simp only [session]; rw [ih, (compute_net e _ _ _).1]
  rw [compute_value, compute_value, this]

/-- **C109, saving.**  `end` writes the whole log to the configured file, and nothing without one; without a
source network the estimator cannot be made. -/
theorem end_saves (N : Net) (save : Option File) (calls : List (Nat × Nat × List Nat)) (e : Est File)
    (he : create (some N) save = .ok e) :
    finish (session e calls).2 = save.map (fun f => (f, (session e calls).2.log)) ∧
    create (none : Option Net) save = .error (.custom "NotImplementedError") := by
  refine ⟨?_, rfl⟩
  have : ∀ (calls : List (Nat × Nat × List Nat)) (e : Est File), (session e calls).2.save = e.save := by
    intro calls
    induction calls with
    | nil => intro e; rfl
    | cons c cs ih => intro e; simp only [session]; rw [ih, (compute_net e _ _ _).2]
  unfold finish
  rw [this]
  simp only [create, Except.ok.injEq] at he
  rw [← he]

/-! ## IAMB with this estimator -/

theorem bnHeur_empty {N : Net} {V : List Nat} {E : Nat → Nat → Prop} (h : Represents N V E) (T y : Nat) :
    ((∀ k, ¬ Reach E T y k) → bnHeur N T y [] = .error .valueError) ∧
    ((∃ v, bnHeur N T y [] = .ok v) ∨ bnHeur N T y [] = .error .valueError) := by
  have hv := compute_value (⟨N, none, []⟩ : Est Unit) T y []
  obtain ⟨c1, c2⟩ := (estimator_call (⟨N, none, []⟩ : Est Unit) h T y []).2 (.inl rfl)
  refine ⟨fun hno => ?_, ?_⟩
  · rw [c2 hno] at hv; exact hv.symm
  · rcases shortest_distance h T y with ⟨d, hd, -⟩ | ⟨hno, -⟩
    · rw [c1 d hd] at hv; exact .inl ⟨_, hv.symm⟩
    · rw [c2 hno] at hv; exact .inr hv.symm

theorem maxScan_raises {σ : Type} {N : Net} {V : List Nat} {E : Nat → Nat → Prop} (h : Represents N V E)
    (o : List Nat → σ → List Nat × σ) (T y : Nat) (hno : ∀ k, ¬ Reach E T y k) :
    ∀ (l : List Nat) (best : Nat) (key : ℚ) (s : St σ), y ∈ l →
      maxScan (bnWorld N o) T [] l best key s = .error .valueError := by
  intro l
  induction l with
  | nil => intro _ _ _ hy; cases hy
  | cons x xs ih =>
    intro best key s hy
    rw [maxScan]
    show (heur (bnWorld N o) T x [] s >>= _) = _
    rcases (bnHeur_empty h T x).2 with ⟨v, hv⟩ | hv
    · have hx : x ≠ y := by
        rintro rfl
        rw [(bnHeur_empty h T x).1 hno] at hv
        cases hv
      have hy' : y ∈ xs := (List.mem_cons.1 hy).resolve_left (Ne.symm hx)
      have : heur (bnWorld N o) T x [] s = .ok (v, s) := by
        simp [heur, bnWorld, hv, Except.map]
      rw [this]
      simp only [bind, Except.bind]
      split
      · exact ih _ _ _ hy'
      · exact ih _ _ _ hy'
    · have : heur (bnWorld N o) T x [] s = .error .valueError := by
        simp [heur, bnWorld, hv, Except.map]
      rw [this]
      rfl

/-- **C52, C109.**  With this estimator, IAMB raises `ValueError` as soon as one variable other than the target
is not connected with the target, whatever the iteration order. -/
theorem iamb_unconnected_raises {σ : Type} {N : Net} {V : List Nat} {E : Nat → Nat → Prop} (h : Represents N V E)
    (o : List Nat → σ → List Nat × σ) (ho : ∀ l s, (o l s).1.Perm l) (U : List Nat) (T y : Nat) (hy : y ∈ U)
    (hyT : y ≠ T) (hno : ∀ k, ¬ Reach E T y k) (s : St σ) :
    iamb (bnWorld N o) U T s = .error .valueError := by
  have hyc : y ∈ without U T := List.mem_filter.2 ⟨hy, by simpa using hyT⟩
  have hhigh : ∀ s : St σ, highest (bnWorld N o) T (without U T) [] s = .error .valueError := by
    intro s
    unfold highest
    have hp : (o (without U T) s.w).1.Perm (without U T) := ho _ _
    have hm : y ∈ (o (without U T) s.w).1 := hp.mem_iff.2 hyc
    have hi : iter (bnWorld N o) (without U T) s =
        .ok ((o (without U T) s.w).1, { s with w := (o (without U T) s.w).2 }) := rfl
    simp only [bind, StateT.bind, hi, Except.bind]
    generalize (o (without U T) s.w).1 = l at hm
    generalize ({ s with w := (o (without U T) s.w).2 } : St σ) = s2
    cases l with
    | nil => cases hm
    | cons x xs =>
      simp only []
      show (heur (bnWorld N o) T x [] s2 >>= _) = _
      rcases (bnHeur_empty h T x).2 with ⟨v, hv⟩ | hv
      · have hx : x ≠ y := by
          rintro rfl
          rw [(bnHeur_empty h T x).1 hno] at hv
          cases hv
        have hy' : y ∈ xs := (List.mem_cons.1 hm).resolve_left (Ne.symm hx)
        have : heur (bnWorld N o) T x [] s2 = .ok (v, s2) := by
          simp [heur, bnWorld, hv, Except.map]
        rw [this]
        exact maxScan_raises h o T y hno xs x v s2 hy'
      · have : heur (bnWorld N o) T x [] s2 = .error .valueError := by
          simp [heur, bnWorld, hv, Except.map]
        rw [this]
        rfl
  have hgrow : grow (bnWorld N o) T U s = .error .valueError := by
    unfold grow growLoop
    have hl : (without U T).length ≠ 0 := by
      intro h0
      rw [List.length_eq_zero_iff.1 h0] at hyc
      cases hyc
    rw [if_neg hl]
    show (highest (bnWorld N o) T (without U T) [] s >>= _) = _
    rw [hhigh]
    rfl
  unfold iamb
  show (grow (bnWorld N o) T U s >>= _) = _
  rw [hgrow]
  rfl

/-! ## Example -/

/-- Two variables in different components, asked about without a conditioning set: `ValueError`.  Here in
the network `0 → 1`, `2`: the distance of 0 and 1 is one link, and 2 cannot be reached. -/
example : (session (⟨ofNodes [(0, []), (1, [0]), (2, [])], some "f", []⟩ : Est String)
    [(0, 1, []), (0, 2, []), (0, 2, [1]), (1, 0, [2])]).1 =
      [.ok (1 / 2), .error .valueError, .ok 0, .ok (1 / 2)] ∧
  ((session (⟨ofNodes [(0, []), (1, [0]), (2, [])], some "f", []⟩ : Est String)
    [(0, 1, []), (0, 2, []), (0, 2, [1]), (1, 0, [2])]).2.log.map (fun x => (x.index, x.X, x.Y, x.Z))) =
      [(0, ['0'], ['1'], ['Ω']), (1, ['1'], ['0'], ['2'])] := by
  decide +kernel

/-- The hypotheses of the theorems hold for the diamond; its ends are two links apart. -/
example : (∃ V E, Represents (⟨ofNodes diamond, none, []⟩ : Est String).net V E) ∧
    (compute 0 3 [] (⟨ofNodes diamond, none, []⟩ : Est String)).1 = .ok (1 / 3) :=
  ⟨⟨_, _, diamond_represents⟩, by decide +kernel⟩

/-- The isolated node 4 of the diamond makes IAMB raise, whatever the target 1 is connected with. -/
example (s : St Unit) :
    iamb (bnWorld (ofNodes diamond) (fun l u => (l.reverse, u))) [0, 1, 2, 3, 4] 1 s = .error .valueError := by
  refine iamb_unconnected_raises diamond_represents _ (fun l _ => List.reverse_perm l) _ 1 4 (by simp) (by decide) ?_ s
  rcases shortest_distance diamond_represents 1 4 with ⟨d, -, hd⟩ | ⟨h, -⟩
  · have : shortest (allPaths (ofNodes diamond).gu 1 4) = .error .valueError := by decide +kernel
    rw [this] at hd
    cases hd
  · exact h

end Mbtk.MB.Estimator
