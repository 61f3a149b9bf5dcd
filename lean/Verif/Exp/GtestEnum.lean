import Verif.Props.CITestProps
import Mathlib.Data.List.Sublists
import Mathlib.Data.List.Sort
import Mathlib.Data.Nat.Choose.Cast
import Mathlib.Data.Finset.Powerset
import Mathlib.Data.Rat.Defs
import Mathlib.Tactic.Ring
import Mathlib.Tactic.FieldSimp
import Mathlib.Tactic.Linarith
/-!
# C101: the enumeration of all conditional independence tests (`experiments/gtest_enum.py`)

Which tests, and which joint entropies, exist for `M` features, and how often each entropy is used:
the figures behind the design of the dcMI test.
-/
namespace Mbtk.Exp.GtestEnum
open Mbtk.Stats (IsOrder)

/-! ## The model -/

/-- `make_features(count)`: consecutive characters from `'A'`, as code points.
Models experiments/gtest_enum.py 10-12.  Simplified: no `ValueError` past the last code point; the
result is a Python set, so the functions below take any ordering of it. -/
def makeFeatures (count : Nat) : List Nat := (List.range count).map (· + 65)

/-- `itertools.combinations(l, k)`: the sublists of length `k`, in the order of positions.
(Python itself.) -/
def combinations {α : Type} : List α → Nat → List (List α)
  | _, 0 => [[]]
  | [], _ + 1 => []
  | a :: l, k + 1 => (combinations l k).map (a :: ·) ++ combinations l (k + 1)

/-- An instance of `Test`: two features and a conditioning set.
Models experiments/gtest_enum.py 16-30 (the attributes `X`, `Y`, `Z`; the other three are the
functions below). -/
structure Test where
  X : Nat
  Y : Nat
  Z : Finset Nat
  deriving DecidableEq

/-- `Test(x, y, z)`: the smaller feature becomes `X`. Models experiments/gtest_enum.py 18-26. -/
def Test.make (x y : Nat) (z : List Nat) : Test :=
  if x > y then ⟨y, x, z.toFinset⟩ else ⟨x, y, z.toFinset⟩

/-- `test.XZ`. Models experiments/gtest_enum.py 28. -/
def Test.XZ (t : Test) : Finset Nat := t.Z ∪ {t.X}

/-- `test.YZ`. Models experiments/gtest_enum.py 29. -/
def Test.YZ (t : Test) : Finset Nat := t.Z ∪ {t.Y}

/-- `test.XYZ`. Models experiments/gtest_enum.py 30. -/
def Test.XYZ (t : Test) : Finset Nat := t.Z ∪ {t.X} ∪ {t.Y}

/-- `test.joint_entropy_terms()`. Models experiments/gtest_enum.py 52-53. -/
def Test.terms (t : Test) : List (Finset Nat) := [t.XZ, t.YZ, t.XYZ, t.Z]

/-- `count_tests_of_cond_set_size`. Models experiments/gtest_enum.py 69-74. -/
def countTestsOfCondSetSize (tests : List Test) (size : Nat) : Nat :=
  tests.foldl (fun count t => if t.Z.card = size then count + 1 else count) 0

/-- `cond_set_sizes(features)`. Models experiments/gtest_enum.py 77-78 (`range(-1)` is empty too). -/
def condSetSizes (features : List Nat) : List Nat := List.range (features.length - 1)

/-- `for X, Y in …: yield Test(X, Y, Z)`: one pair. Models experiments/gtest_enum.py 85-86. -/
def yieldTest (Z : List Nat) : List Nat → List Test
  | [X, Y] => [Test.make X Y Z]
  | _ => []

/-- `iter_tests(features)`, where the set iterates as the list `features`, and the set differences
as `order` says. Models experiments/gtest_enum.py 81-86. -/
def iterTests (features : List Nat) (order : Finset Nat → List Nat) : List Test :=
  (condSetSizes features).flatMap fun size =>
    ((combinations features size).insertionSort (· ≤ ·)).flatMap fun Z =>
      ((combinations (order (features.toFinset \ Z.toFinset)) 2).insertionSort (· ≤ ·)).flatMap
        (yieldTest Z)

/-- `d[k].append(v)` on a `defaultdict(list)`. (Python itself.) -/
def dictAppend {κ ν : Type} [DecidableEq κ] (d : List (κ × List ν)) (k : κ) (v : ν) :
    List (κ × List ν) :=
  dictSet d k ((dictGet d k).getD [] ++ [v])

/-- `d[k] += 1` on a `defaultdict(int)` or a `Counter`. (Python itself.) -/
def dictInc {κ : Type} [DecidableEq κ] (d : List (κ × Nat)) (k : κ) : List (κ × Nat) :=
  dictSet d k ((dictGet d k).getD 0 + 1)

/-- `==` on dictionaries (their order does not count). (Python itself.) -/
def dictEq {κ ν : Type} [DecidableEq κ] [DecidableEq ν] (d e : List (κ × ν)) : Bool :=
  d.length == e.length && d.all (fun p => dictGet e p.1 == some p.2)

/-- `all_tests_by_features`. Models experiments/gtest_enum.py 158, 162-164. -/
def testsByFeatures (tests : List Test) : List (Finset Nat × List Test) :=
  tests.foldl (fun d t => dictAppend d {t.X, t.Y} t) []

/-- `jht_counter`. Models experiments/gtest_enum.py 159, 166-167. -/
def jhtCounter (tests : List Test) : List (Finset Nat × Nat) :=
  tests.foldl (fun d t => t.terms.foldl dictInc d) []

/-- `jht_index`. Models experiments/gtest_enum.py 160, 166-170. -/
def jhtIndex (tests : List Test) : List (Finset Nat × List Test) :=
  tests.foldl (fun d t => t.terms.foldl (fun d S => dictAppend d S t) d) []

/-- The counts of one entropy term. Models experiments/gtest_enum.py 93-95. -/
def condSizes (tests : List Test) : List (Nat × Nat) :=
  tests.foldl (fun d t => dictInc d t.Z.card) []

/-- `make_jht_index_summary`. Models experiments/gtest_enum.py 89-99 (the keys of a dictionary are
distinct, so that writing them in order is a map). -/
def indexSummary (index : List (Finset Nat × List Test)) : List (Finset Nat × List (Nat × Nat)) :=
  index.map (fun p => (p.1, condSizes p.2))

/-- One step of `validate_and_flatten_summary`: the `assert` raises, a missing key is filled in.
Models experiments/gtest_enum.py 105-110. -/
def flattenStep (flat : List (Nat × List (Nat × Nat))) (p : Finset Nat × List (Nat × Nat)) :
    Except Err (List (Nat × List (Nat × Nat))) :=
  match dictGet flat p.1.card with
  | some existing => if dictEq existing p.2 then .ok flat else .error (.custom "AssertionError")
  | none => .ok (dictSet flat p.1.card p.2)

/-- `validate_and_flatten_summary`. Models experiments/gtest_enum.py 102-112. -/
def flatten (summary : List (Finset Nat × List (Nat × Nat))) :
    Except Err (List (Nat × List (Nat × Nat))) :=
  summary.foldlM flattenStep []

/-- `expected_jht_count_by_cond_size(M, jht_size)`. Models experiments/gtest_enum.py 115-129
(`math.comb` raises for a negative argument: not with `jht_size ≤ M`). -/
def expectedByCondSize (M j : Nat) : List (Nat × Nat) :=
  let d := dictSet [] j (Nat.choose (M - j) 2)
  let d := if 1 ≤ j then dictSet d (j - 1) (j * (M - j)) else d
  if 2 ≤ j then dictSet d (j - 2) (Nat.choose j 2) else d

/-- `expected_total_counts_for_jht_size(M, j)`. Models experiments/gtest_enum.py 132-133 (a rational
number instead of a float). -/
def expectedTotal (M _j : Nat) : ℚ := M * ((M : ℚ) - 1) / 2

/-- `expected_tests`. Models experiments/gtest_enum.py 177 (a rational number instead of a float). -/
def expectedTests (M : Nat) : ℚ := (1 / 2) * M * ((M : ℚ) - 1) * 2 ^ ((M : ℤ) - 2)

/-- One line of the comparison printed for an entropy size: conditioning size, count, and expected
count, whose lookup may raise. Models experiments/gtest_enum.py 213-215. -/
def reportLine (expected : List (Nat × Nat)) (p : Nat × Nat) : Except Err (Nat × Nat × Nat) :=
  match dictGet expected p.1 with
  | some e => .ok (p.1, p.2, e)
  | none => .error .keyError

/-- The report of one entropy size: size, total, expected total, lines.
Models experiments/gtest_enum.py 208-215. -/
def reportSize (M : Nat) (p : Nat × List (Nat × Nat)) :
    Except Err (Nat × Nat × ℚ × List (Nat × Nat × Nat)) := do
  let lines ← p.2.mapM (reportLine (expectedByCondSize M p.1))
  pure (p.1, (p.2.map Prod.snd).sum, expectedTotal M p.1, lines)

/-- The run with the option `flat-index-summary`. Models experiments/gtest_enum.py 156-172, 205-215
(the sizes are printed in increasing order; the model keeps the order of the dictionary). -/
def flatReport (M : Nat) (features : List Nat) (order : Finset Nat → List Nat) :
    Except Err (List (Nat × Nat × ℚ × List (Nat × Nat × Nat))) := do
  let flat ← flatten (indexSummary (jhtIndex (iterTests features order)))
  flat.mapM (reportSize M)

/-! ## Combinations -/

theorem combinations_perm {α : Type} (l : List α) (k : Nat) :
    (combinations l k).Perm (List.sublistsLen k l) := by
  induction l generalizing k with
  | nil => cases k <;> simp [combinations]
  | cons a l ih =>
    cases k with
    | zero => simp [combinations]
    | succ k =>
      rw [combinations, List.sublistsLen_succ_cons]
      exact (List.perm_append_comm).trans ((ih (k + 1)).append ((ih k).map _))

theorem mem_combinations {α : Type} {l c : List α} {k : Nat} :
    c ∈ combinations l k ↔ c.Sublist l ∧ c.length = k := by
  rw [(combinations_perm l k).mem_iff, List.mem_sublistsLen]

theorem combinations_nodup {α : Type} {l : List α} (h : l.Nodup) (k : Nat) :
    (combinations l k).Nodup :=
  (combinations_perm l k).nodup_iff.2 (List.nodup_sublistsLen k h)

theorem combinations_length {α : Type} (l : List α) (k : Nat) :
    (combinations l k).length = l.length.choose k := by
  rw [(combinations_perm l k).length_eq, List.length_sublistsLen]

/-- A sublist of a list without repetitions is determined by its elements. -/
theorem sublist_eq_filter {l c : List Nat} (h : l.Nodup) (hc : c.Sublist l) :
    c = l.filter (· ∈ c) := by
  induction hc with
  | slnil => rfl
  | @cons c l a hc ih =>
    have ha : a ∉ c := fun hm => (List.nodup_cons.1 h).1 (hc.subset hm)
    rw [List.filter_cons_of_neg (by simpa using ha)]
    exact ih (List.nodup_cons.1 h).2
  | @cons_cons c l a hc ih =>
    rw [List.filter_cons_of_pos (by simp)]
    conv_lhs => rw [ih (List.nodup_cons.1 h).2]
    congr 1
    apply List.filter_congr
    intro b hb
    have : b ≠ a := fun e => (List.nodup_cons.1 h).1 (e ▸ hb)
    simp [this]

theorem sublist_ext {l c d : List Nat} (h : l.Nodup) (hc : c.Sublist l) (hd : d.Sublist l)
    (he : c.toFinset = d.toFinset) : c = d := by
  rw [sublist_eq_filter h hc, sublist_eq_filter h hd]
  apply List.filter_congr
  intro b _
  have : b ∈ c ↔ b ∈ d := by rw [← List.mem_toFinset, he, List.mem_toFinset]
  simp [this]

theorem sublist_pair {l : List Nat} {x y : Nat} (hx : x ∈ l) (hy : y ∈ l) (hxy : x ≠ y) :
    [x, y].Sublist l ∨ [y, x].Sublist l := by
  induction l with
  | nil => simp at hx
  | cons a l ih =>
    rcases List.mem_cons.1 hx with rfl | hx
    · rcases List.mem_cons.1 hy with rfl | hy
      · exact absurd rfl hxy
      · exact .inl (List.Sublist.cons_cons _ (List.singleton_sublist.2 hy))
    · rcases List.mem_cons.1 hy with rfl | hy
      · rcases List.mem_cons.1 hx with rfl | hx
        · exact absurd rfl hxy
        · exact .inr (List.Sublist.cons_cons _ (List.singleton_sublist.2 hx))
      · rename_i hx
        rcases ih hx hy with h | h
        · exact .inl (h.cons _)
        · exact .inr (h.cons _)

/-! ## The enumeration -/

theorem Test.make_Z (x y : Nat) (z : List Nat) : (Test.make x y z).Z = z.toFinset := by
  unfold Test.make; split <;> rfl

theorem Test.make_pair (x y : Nat) (z : List Nat) :
    ({(Test.make x y z).X, (Test.make x y z).Y} : Finset Nat) = {x, y} := by
  unfold Test.make
  split
  · exact Finset.pair_comm _ _
  · rfl

theorem mem_yieldTest {Z c : List Nat} {t : Test} :
    t ∈ yieldTest Z c ↔ ∃ x y, c = [x, y] ∧ t = Test.make x y Z := by
  unfold yieldTest
  split
  · next x y => simp
  · next h =>
    simp only [List.not_mem_nil, false_iff]
    rintro ⟨x, y, rfl, -⟩
    exact h x y rfl

/-- A test over the features `F`: two different ones, in order, and a set of others.
(Specification.) -/
def IsTest (F : Finset Nat) (t : Test) : Prop :=
  t.X < t.Y ∧ t.X ∈ F ∧ t.Y ∈ F ∧ t.Z ⊆ F ∧ t.X ∉ t.Z ∧ t.Y ∉ t.Z

theorem order_length {order : Finset Nat → List Nat} (ho : IsOrder order) (S : Finset Nat) :
    (order S).length = S.card := by
  conv_rhs => rw [← (ho S).2]
  exact (List.toFinset_card_of_nodup (ho S).1).symm

theorem mem_iterTests {F : List Nat} (hF : F.Nodup) {order : Finset Nat → List Nat}
    (ho : IsOrder order) (t : Test) :
    t ∈ iterTests F order ↔ IsTest F.toFinset t := by
  simp only [iterTests, List.mem_flatMap, condSetSizes, List.mem_range, List.mem_insertionSort,
    mem_combinations, mem_yieldTest]
  constructor
  · rintro ⟨c, -, Z, ⟨hZ, -⟩, -, ⟨hp, -⟩, x, y, rfl, rfl⟩
    have hn := hp.nodup (ho _).1
    have hxy : x ≠ y := by simpa using hn
    have hx := (ho.mem _ _).1 (hp.subset (by simp : x ∈ [x, y]))
    have hy := (ho.mem _ _).1 (hp.subset (by simp : y ∈ [x, y]))
    rw [Finset.mem_sdiff] at hx hy
    have hZF : Z.toFinset ⊆ F.toFinset := by
      intro a ha
      exact List.mem_toFinset.2 (hZ.subset (List.mem_toFinset.1 ha))
    unfold Test.make
    split
    · next h => exact ⟨h, hy.1, hx.1, hZF, hy.2, hx.2⟩
    · next h => exact ⟨by dsimp only; omega, hx.1, hy.1, hZF, hx.2, hy.2⟩
  · rintro ⟨h1, h2, h3, h4, h5, h6⟩
    have hset : (F.filter (· ∈ t.Z)).toFinset = t.Z := by
      ext a
      simp only [List.mem_toFinset, List.mem_filter, decide_eq_true_eq]
      exact ⟨fun h => h.2, fun h => ⟨List.mem_toFinset.1 (h4 h), h⟩⟩
    have hlen : (F.filter (· ∈ t.Z)).length = t.Z.card := by
      rw [← List.toFinset_card_of_nodup (hF.filter _), hset]
    have hcard : t.Z.card + 2 ≤ F.length := by
      have : (insert t.X (insert t.Y t.Z)).card ≤ F.toFinset.card := by
        apply Finset.card_le_card
        intro a ha
        simp only [Finset.mem_insert] at ha
        rcases ha with rfl | rfl | ha
        · exact h2
        · exact h3
        · exact h4 ha
      rw [Finset.card_insert_of_notMem (by simp [h5, Nat.ne_of_lt h1]),
        Finset.card_insert_of_notMem h6, List.toFinset_card_of_nodup hF] at this
      omega
    have hm : ∀ a, a ∈ F.toFinset → a ∉ t.Z → a ∈ order (F.toFinset \ (F.filter (· ∈ t.Z)).toFinset) := by
      intro a ha hn
      rw [ho.mem, hset, Finset.mem_sdiff]
      exact ⟨ha, hn⟩
    have hp := sublist_pair (hm _ h2 h5) (hm _ h3 h6) (Nat.ne_of_lt h1)
    refine ⟨t.Z.card, by omega, F.filter (· ∈ t.Z), ⟨List.filter_sublist, hlen⟩, ?_⟩
    rcases hp with hp | hp
    · refine ⟨[t.X, t.Y], ⟨hp, rfl⟩, _, _, rfl, ?_⟩
      unfold Test.make
      rw [if_neg (by omega), hset]
    · refine ⟨[t.Y, t.X], ⟨hp, rfl⟩, _, _, rfl, ?_⟩
      unfold Test.make
      rw [if_pos (by omega), hset]

theorem iterTests_nodup {F : List Nat} (hF : F.Nodup) {order : Finset Nat → List Nat}
    (ho : IsOrder order) : (iterTests F order).Nodup := by
  unfold iterTests condSetSizes
  have hZof : ∀ {Z : List Nat} {l : List (List Nat)} {t : Test},
      t ∈ l.flatMap (yieldTest Z) → t.Z = Z.toFinset := by
    intro Z l t ht
    simp only [List.mem_flatMap, mem_yieldTest] at ht
    obtain ⟨_, -, x, y, -, rfl⟩ := ht
    exact Test.make_Z _ _ _
  refine List.nodup_flatMap.2 ⟨fun c _ => List.nodup_flatMap.2 ⟨fun Z _ => List.nodup_flatMap.2
    ⟨fun p hp => ?_, ?_⟩, ?_⟩, ?_⟩
  · unfold yieldTest; split <;> simp
  · have hn := ((List.perm_insertionSort (· ≤ ·) _).nodup_iff).2
      (combinations_nodup (ho (F.toFinset \ Z.toFinset)).1 2)
    refine (hn.imp_of_mem (fun {a b} ha hb hab => ?_))
    rw [List.mem_insertionSort, mem_combinations] at ha hb
    intro t hta htb
    obtain ⟨x, y, rfl, rfl⟩ := mem_yieldTest.1 hta
    obtain ⟨x', y', rfl, he⟩ := mem_yieldTest.1 htb
    apply hab
    refine sublist_ext (ho _).1 ha.1 hb.1 ?_
    have := Test.make_pair x y Z
    rw [he, Test.make_pair] at this
    simpa using this.symm
  · have hn := ((List.perm_insertionSort (· ≤ ·) _).nodup_iff).2 (combinations_nodup hF c)
    refine (hn.imp_of_mem (fun {a b} ha hb hab => ?_))
    rw [List.mem_insertionSort, mem_combinations] at ha hb
    intro t hta htb
    exact hab (sublist_ext hF ha.1 hb.1 ((hZof hta).symm.trans (hZof htb)))
  · refine (List.nodup_range.imp_of_mem (fun {a b} _ _ hab => ?_))
    intro t hta htb
    have key : ∀ {c : Nat}, t ∈ ((combinations F c).insertionSort (· ≤ ·)).flatMap (fun Z =>
      ((combinations (order (F.toFinset \ Z.toFinset)) 2).insertionSort (· ≤ ·)).flatMap
        (yieldTest Z)) → t.Z.card = c := by
      intro c h
      obtain ⟨Z, hZ, h⟩ := List.mem_flatMap.1 h
      rw [List.mem_insertionSort, mem_combinations] at hZ
      rw [hZof h, List.toFinset_card_of_nodup (hZ.1.nodup hF), hZ.2]
    exact hab ((key hta).symm.trans (key htb))

/-! ## Counting -/

/-- The tests over the features `F`.
(Models no code: a notion for statements and proofs.) -/
def AllTests (F : Finset Nat) (T : Finset Test) : Prop := ∀ t, t ∈ T ↔ IsTest F t

theorem pair_inj {a b c d : Nat} (h1 : a < b) (h2 : c < d) (h : ({a, b} : Finset Nat) = {c, d}) :
    a = c ∧ b = d := by
  have ha : a ∈ ({c, d} : Finset Nat) := h ▸ by simp
  have hb : b ∈ ({c, d} : Finset Nat) := h ▸ by simp
  have hc : c ∈ ({a, b} : Finset Nat) := h ▸ by simp
  simp only [Finset.mem_insert, Finset.mem_singleton] at ha hb hc
  omega

theorem exists_pair {S p : Finset Nat} (h : p ∈ S.powersetCard 2) :
    ∃ a b, a < b ∧ a ∈ S ∧ b ∈ S ∧ p = {a, b} := by
  rw [Finset.mem_powersetCard] at h
  obtain ⟨a, b, hab, rfl⟩ := Finset.card_eq_two.1 h.2
  have ha := h.1 (by simp : a ∈ ({a, b} : Finset Nat))
  have hb := h.1 (by simp : b ∈ ({a, b} : Finset Nat))
  rcases Nat.lt_or_gt_of_ne hab with h | h
  · exact ⟨a, b, h, ha, hb, rfl⟩
  · exact ⟨b, a, h, hb, ha, Finset.pair_comm _ _⟩

theorem pair_mem {S : Finset Nat} {a b : Nat} (hab : a < b) (ha : a ∈ S) (hb : b ∈ S) :
    ({a, b} : Finset Nat) ∈ S.powersetCard 2 := by
  rw [Finset.mem_powersetCard]
  refine ⟨?_, Finset.card_pair (Nat.ne_of_lt hab)⟩
  intro c hc
  simp only [Finset.mem_insert, Finset.mem_singleton] at hc
  rcases hc with rfl | rfl <;> assumption

/-- As many tests with the conditioning set `S` as pairs of other features. -/
theorem card_cond {F : Finset Nat} {T : Finset Test} (hT : AllTests F T) {S : Finset Nat}
    (hS : S ⊆ F) : (T.filter (fun t => t.Z = S)).card = (F.card - S.card).choose 2 := by
  rw [← Finset.card_sdiff_of_subset hS, ← Finset.card_powersetCard]
  refine Finset.card_bij (fun t _ => {t.X, t.Y}) ?_ ?_ ?_
  · intro t ht
    obtain ⟨ht, hZ⟩ := Finset.mem_filter.1 ht
    obtain ⟨h1, h2, h3, h4, h5, h6⟩ := (hT t).1 ht
    rw [hZ] at h5 h6
    exact pair_mem h1 (Finset.mem_sdiff.2 ⟨h2, h5⟩) (Finset.mem_sdiff.2 ⟨h3, h6⟩)
  · rintro ⟨x, y, z⟩ ht ⟨x', y', z'⟩ ht' he
    obtain ⟨ht, hZ⟩ := Finset.mem_filter.1 ht
    obtain ⟨ht', hZ'⟩ := Finset.mem_filter.1 ht'
    obtain ⟨rfl, rfl⟩ := pair_inj ((hT _).1 ht).1 ((hT _).1 ht').1 he
    dsimp only at hZ hZ'
    rw [hZ, hZ']
  · intro p hp
    obtain ⟨a, b, hab, ha, hb, rfl⟩ := exists_pair hp
    rw [Finset.mem_sdiff] at ha hb
    exact ⟨⟨a, b, S⟩, Finset.mem_filter.2 ⟨(hT _).2 ⟨hab, ha.1, hb.1, hS, ha.2, hb.2⟩, rfl⟩, rfl⟩

/-- As many tests of one pair as sets of other features. -/
theorem card_pair_tests {F : Finset Nat} {T : Finset Test} (hT : AllTests F T) {p : Finset Nat}
    (hp : p ∈ F.powersetCard 2) :
    (T.filter (fun t => ({t.X, t.Y} : Finset Nat) = p)).card = 2 ^ (F.card - 2) := by
  obtain ⟨a, b, hab, ha, hb, rfl⟩ := exists_pair hp
  have hcard : (F \ {a, b}).card = F.card - 2 := by
    rw [Finset.card_sdiff_of_subset (Finset.mem_powersetCard.1 hp).1,
      (Finset.mem_powersetCard.1 hp).2]
  rw [← hcard, ← Finset.card_powerset]
  refine Finset.card_bij (fun t _ => t.Z) ?_ ?_ ?_
  · intro t ht
    obtain ⟨ht, hp⟩ := Finset.mem_filter.1 ht
    obtain ⟨h1, h2, h3, h4, h5, h6⟩ := (hT t).1 ht
    obtain ⟨rfl, rfl⟩ := pair_inj h1 hab hp
    rw [Finset.mem_powerset]
    intro c hc
    rw [Finset.mem_sdiff]
    refine ⟨h4 hc, ?_⟩
    simp only [Finset.mem_insert, Finset.mem_singleton]
    rintro (rfl | rfl)
    · exact h5 hc
    · exact h6 hc
  · rintro ⟨x, y, z⟩ ht ⟨x', y', z'⟩ ht' he
    obtain ⟨ht, hp⟩ := Finset.mem_filter.1 ht
    obtain ⟨ht', hp'⟩ := Finset.mem_filter.1 ht'
    obtain ⟨rfl, rfl⟩ := pair_inj ((hT _).1 ht).1 ((hT _).1 ht').1 (hp.trans hp'.symm)
    dsimp only at he
    rw [he]
  · intro Z hZ
    rw [Finset.mem_powerset] at hZ
    have hn : ∀ c ∈ Z, c ∈ F ∧ c ≠ a ∧ c ≠ b := by
      intro c hc
      simpa using Finset.mem_sdiff.1 (hZ hc)
    exact ⟨⟨a, b, Z⟩, Finset.mem_filter.2 ⟨(hT _).2 ⟨hab, ha, hb, fun c hc => (hn c hc).1,
      fun h => (hn a h).2.1 rfl, fun h => (hn b h).2.2 rfl⟩, rfl⟩, rfl⟩

theorem card_tests {F : Finset Nat} {T : Finset Test} (hT : AllTests F T) :
    T.card = F.card.choose 2 * 2 ^ (F.card - 2) := by
  rw [Finset.card_eq_sum_card_fiberwise (f := fun t => ({t.X, t.Y} : Finset Nat))
    (t := F.powersetCard 2)]
  · rw [Finset.sum_congr rfl (fun p hp => card_pair_tests hT hp), Finset.sum_const,
      Finset.card_powersetCard]
    rfl
  · intro t ht
    have h := (hT t).1 ht
    exact pair_mem h.1 h.2.1 h.2.2.1

theorem card_size {F : Finset Nat} {T : Finset Test} (hT : AllTests F T) (c : Nat) :
    (T.filter (fun t => t.Z.card = c)).card = F.card.choose c * (F.card - c).choose 2 := by
  rw [Finset.card_eq_sum_card_fiberwise (f := fun t => t.Z) (t := F.powersetCard c)]
  · rw [Finset.sum_congr rfl (g := fun _ => (F.card - c).choose 2)]
    · rw [Finset.sum_const, Finset.card_powersetCard]; rfl
    · intro S hS
      rw [Finset.mem_powersetCard] at hS
      rw [Finset.filter_filter, ← hS.2, ← card_cond hT hS.1]
      congr 1
      apply Finset.filter_congr
      intro t _
      exact ⟨fun h => h.2, fun h => ⟨by rw [h], h⟩⟩
  · intro t ht
    obtain ⟨ht, hc⟩ := Finset.mem_filter.1 ht
    exact Finset.mem_powersetCard.2 ⟨((hT t).1 ht).2.2.2.1, hc⟩

theorem card_XZ {F : Finset Nat} {t : Test} (h : IsTest F t) : t.XZ.card = t.Z.card + 1 := by
  unfold Test.XZ
  rw [Finset.union_comm, ← Finset.insert_eq, Finset.card_insert_of_notMem h.2.2.2.2.1]

theorem card_YZ {F : Finset Nat} {t : Test} (h : IsTest F t) : t.YZ.card = t.Z.card + 1 := by
  unfold Test.YZ
  rw [Finset.union_comm, ← Finset.insert_eq, Finset.card_insert_of_notMem h.2.2.2.2.2]

theorem card_XYZ {F : Finset Nat} {t : Test} (h : IsTest F t) : t.XYZ.card = t.Z.card + 2 := by
  unfold Test.XYZ
  rw [Finset.union_comm, ← Finset.insert_eq, Finset.card_insert_of_notMem]
  · exact congrArg (· + 1) (card_XZ h)
  · have := Nat.ne_of_gt h.1
    simp [h.2.2.2.2.2, this]

theorem XZ_ne_YZ {F : Finset Nat} {t : Test} (h : IsTest F t) : t.XZ ≠ t.YZ := by
  intro he
  have : t.X ∈ t.YZ := he ▸ by simp [Test.XZ]
  have h1 := Nat.ne_of_lt h.1
  simp [Test.YZ, h.2.2.2.2.1, h1] at this

/-- The four entropies of a test are different. -/
theorem terms_nodup {F : Finset Nat} {t : Test} (h : IsTest F t) : t.terms.Nodup := by
  have h1 := card_XZ h
  have h2 := card_YZ h
  have h3 := card_XYZ h
  have h4 := XZ_ne_YZ h
  have hc : ∀ {A B : Finset Nat}, A.card ≠ B.card → A ≠ B := fun hn e => hn (congrArg _ e)
  unfold Test.terms
  simp only [List.nodup_cons, List.mem_cons, List.not_mem_nil, not_or, or_false, not_false_eq_true,
    List.nodup_nil, and_true]
  exact ⟨⟨h4, hc (by omega), hc (by omega)⟩, ⟨hc (by omega), hc (by omega)⟩, hc (by omega)⟩

/-- The tests that need the entropy of `S` and condition on as many features as `S` has. -/
theorem use_same {F : Finset Nat} {t : Test} (h : IsTest F t) (S : Finset Nat) :
    (S ∈ t.terms ∧ t.Z.card = S.card) ↔ t.Z = S := by
  have h1 := card_XZ h
  have h2 := card_YZ h
  have h3 := card_XYZ h
  constructor
  · rintro ⟨hm, hc⟩
    simp only [Test.terms, List.mem_cons, List.not_mem_nil, or_false] at hm
    rcases hm with rfl | rfl | rfl | rfl
    · omega
    · omega
    · omega
    · rfl
  · rintro rfl
    simp [Test.terms]

theorem use_one {F : Finset Nat} {t : Test} (h : IsTest F t) (S : Finset Nat) :
    (S ∈ t.terms ∧ t.Z.card + 1 = S.card) ↔ (t.XZ = S ∨ t.YZ = S) := by
  have h1 := card_XZ h
  have h2 := card_YZ h
  have h3 := card_XYZ h
  constructor
  · rintro ⟨hm, hc⟩
    simp only [Test.terms, List.mem_cons, List.not_mem_nil, or_false] at hm
    rcases hm with rfl | rfl | rfl | rfl
    · exact .inl rfl
    · exact .inr rfl
    · omega
    · omega
  · rintro (rfl | rfl)
    · exact ⟨by simp [Test.terms], by omega⟩
    · exact ⟨by simp [Test.terms], by omega⟩

theorem use_two {F : Finset Nat} {t : Test} (h : IsTest F t) (S : Finset Nat) :
    (S ∈ t.terms ∧ t.Z.card + 2 = S.card) ↔ t.XYZ = S := by
  have h1 := card_XZ h
  have h2 := card_YZ h
  have h3 := card_XYZ h
  constructor
  · rintro ⟨hm, hc⟩
    simp only [Test.terms, List.mem_cons, List.not_mem_nil, or_false] at hm
    rcases hm with rfl | rfl | rfl | rfl
    · omega
    · omega
    · rfl
    · omega
  · rintro rfl
    exact ⟨by simp [Test.terms], by omega⟩

theorem use_sizes {F : Finset Nat} {t : Test} (h : IsTest F t) {S : Finset Nat} (hm : S ∈ t.terms) :
    t.Z.card = S.card ∨ t.Z.card + 1 = S.card ∨ t.Z.card + 2 = S.card := by
  have h1 := card_XZ h
  have h2 := card_YZ h
  have h3 := card_XYZ h
  simp only [Test.terms, List.mem_cons, List.not_mem_nil, or_false] at hm
  rcases hm with rfl | rfl | rfl | rfl <;> omega

theorem card_one {F : Finset Nat} {T : Finset Test} (hT : AllTests F T) {S : Finset Nat}
    (hS : S ⊆ F) :
    (T.filter (fun t => t.XZ = S ∨ t.YZ = S)).card = S.card * (F.card - S.card) := by
  rw [← Finset.card_sdiff_of_subset hS, ← Finset.card_product]
  have hX : ∀ t, IsTest F t → (t.XZ = S ↔ t.X ∈ S ∧ t.Y ∉ S ∧ t.Z = S.erase t.X) := by
    intro t h
    have hne := Nat.ne_of_gt h.1
    constructor
    · rintro rfl
      refine ⟨by simp [Test.XZ], by simp [Test.XZ, h.2.2.2.2.2, hne], ?_⟩
      unfold Test.XZ
      rw [Finset.union_comm, ← Finset.insert_eq, Finset.erase_insert h.2.2.2.2.1]
    · rintro ⟨h1, -, h3⟩
      unfold Test.XZ
      rw [Finset.union_comm, ← Finset.insert_eq, h3, Finset.insert_erase h1]
  have hY : ∀ t, IsTest F t → (t.YZ = S ↔ t.Y ∈ S ∧ t.X ∉ S ∧ t.Z = S.erase t.Y) := by
    intro t h
    have hne := Nat.ne_of_lt h.1
    constructor
    · rintro rfl
      refine ⟨by simp [Test.YZ], by simp [Test.YZ, h.2.2.2.2.1, hne], ?_⟩
      unfold Test.YZ
      rw [Finset.union_comm, ← Finset.insert_eq, Finset.erase_insert h.2.2.2.2.2]
    · rintro ⟨h1, -, h3⟩
      unfold Test.YZ
      rw [Finset.union_comm, ← Finset.insert_eq, h3, Finset.insert_erase h1]
  refine Finset.card_bij (fun t _ => if t.X ∈ S then (t.X, t.Y) else (t.Y, t.X)) ?_ ?_ ?_
  · intro t ht
    obtain ⟨ht, hp⟩ := Finset.mem_filter.1 ht
    have h := (hT t).1 ht
    rw [hX t h, hY t h] at hp
    rcases hp with ⟨h1, h2, -⟩ | ⟨h1, h2, -⟩
    · simp [h1, h2, h.2.2.1]
    · simp [h1, h2, h.2.1]
  · rintro ⟨x, y, z⟩ ht ⟨x', y', z'⟩ ht' he
    obtain ⟨ht, hp⟩ := Finset.mem_filter.1 ht
    obtain ⟨ht', hp'⟩ := Finset.mem_filter.1 ht'
    have h := (hT _).1 ht
    have h' := (hT _).1 ht'
    rw [hX _ h, hY _ h] at hp
    rw [hX _ h', hY _ h'] at hp'
    have hlt := h.1
    have hlt' := h'.1
    dsimp only at hp hp' he hlt hlt'
    rcases hp with ⟨h1, h2, h3⟩ | ⟨h1, h2, h3⟩
    · rcases hp' with ⟨h1', h2', h3'⟩ | ⟨h1', h2', h3'⟩
      · rw [if_pos h1, if_pos h1', Prod.mk.injEq] at he
        obtain ⟨rfl, rfl⟩ := he
        rw [h3, h3']
      · rw [if_pos h1, if_neg h2', Prod.mk.injEq] at he
        omega
    · rcases hp' with ⟨h1', h2', h3'⟩ | ⟨h1', h2', h3'⟩
      · rw [if_neg h2, if_pos h1', Prod.mk.injEq] at he
        omega
      · rw [if_neg h2, if_neg h2', Prod.mk.injEq] at he
        obtain ⟨rfl, rfl⟩ := he
        rw [h3, h3']
  · rintro ⟨a, b⟩ hp
    rw [Finset.mem_product, Finset.mem_sdiff] at hp
    obtain ⟨ha, hb, hbS⟩ := hp
    dsimp only at ha hb hbS
    have hab : a ≠ b := fun e => hbS (e ▸ ha)
    have hsub : S.erase a ⊆ F := (Finset.erase_subset _ _).trans hS
    have hbn : b ∉ S.erase a := fun h => hbS (Finset.mem_of_mem_erase h)
    have han : a ∉ S.erase a := Finset.notMem_erase _ _
    rcases Nat.lt_or_gt_of_ne hab with hlt | hlt
    · have ht : IsTest F ⟨a, b, S.erase a⟩ := ⟨hlt, hS ha, hb, hsub, han, hbn⟩
      exact ⟨_, Finset.mem_filter.2 ⟨(hT _).2 ht, .inl ((hX _ ht).2 ⟨ha, hbS, rfl⟩)⟩, if_pos ha⟩
    · have ht : IsTest F ⟨b, a, S.erase a⟩ := ⟨hlt, hb, hS ha, hsub, hbn, han⟩
      exact ⟨_, Finset.mem_filter.2 ⟨(hT _).2 ht, .inr ((hY _ ht).2 ⟨ha, hbS, rfl⟩)⟩, if_neg hbS⟩

theorem card_two {F : Finset Nat} {T : Finset Test} (hT : AllTests F T) {S : Finset Nat}
    (hS : S ⊆ F) : (T.filter (fun t => t.XYZ = S)).card = S.card.choose 2 := by
  rw [← Finset.card_powersetCard]
  have hX : ∀ t, IsTest F t → (t.XYZ = S ↔ t.X ∈ S ∧ t.Y ∈ S ∧ t.Z = S \ {t.X, t.Y}) := by
    intro t h
    constructor
    · rintro rfl
      refine ⟨by simp [Test.XYZ], by simp [Test.XYZ], ?_⟩
      ext a
      simp only [Test.XYZ, Finset.mem_sdiff, Finset.mem_union, Finset.mem_singleton,
        Finset.mem_insert, not_or]
      constructor
      · intro ha
        exact ⟨.inl (.inl ha), fun e => h.2.2.2.2.1 (e ▸ ha), fun e => h.2.2.2.2.2 (e ▸ ha)⟩
      · rintro ⟨(ha | ha) | ha, h1, h2⟩
        · exact ha
        · exact absurd ha h1
        · exact absurd ha h2
    · rintro ⟨h1, h2, h3⟩
      ext a
      simp only [Test.XYZ, h3, Finset.mem_sdiff, Finset.mem_union, Finset.mem_singleton,
        Finset.mem_insert, not_or]
      constructor
      · rintro ((ha | rfl) | rfl)
        · exact ha.1
        · exact h1
        · exact h2
      · intro ha
        by_cases e1 : a = t.X
        · exact .inl (.inr e1)
        · by_cases e2 : a = t.Y
          · exact .inr e2
          · exact .inl (.inl ⟨ha, e1, e2⟩)
  refine Finset.card_bij (fun t _ => {t.X, t.Y}) ?_ ?_ ?_
  · intro t ht
    obtain ⟨ht, hp⟩ := Finset.mem_filter.1 ht
    have h := (hT t).1 ht
    obtain ⟨h1, h2, -⟩ := (hX t h).1 hp
    exact pair_mem h.1 h1 h2
  · rintro ⟨x, y, z⟩ ht ⟨x', y', z'⟩ ht' he
    obtain ⟨ht, hp⟩ := Finset.mem_filter.1 ht
    obtain ⟨ht', hp'⟩ := Finset.mem_filter.1 ht'
    have h := (hT _).1 ht
    have h' := (hT _).1 ht'
    obtain ⟨-, -, h3⟩ := (hX _ h).1 hp
    obtain ⟨-, -, h3'⟩ := (hX _ h').1 hp'
    obtain ⟨rfl, rfl⟩ := pair_inj h.1 h'.1 he
    dsimp only at h3 h3'
    rw [h3, h3']
  · intro p hp
    obtain ⟨a, b, hab, ha, hb, rfl⟩ := exists_pair hp
    have ht : IsTest F ⟨a, b, S \ {a, b}⟩ :=
      ⟨hab, hS ha, hS hb, Finset.sdiff_subset.trans hS, by simp, by simp⟩
    exact ⟨_, Finset.mem_filter.2 ⟨(hT _).2 ht, (hX _ ht).2 ⟨ha, hb, rfl⟩⟩, rfl⟩

/-- How many tests use the entropy of `j` out of `M` features with `c` conditioning features.
(Specification.) -/
def uses (M j c : Nat) : Nat :=
  if c = j then (M - j).choose 2
  else if c + 1 = j then j * (M - j)
  else if c + 2 = j then j.choose 2
  else 0

theorem card_uses {F : Finset Nat} {T : Finset Test} (hT : AllTests F T) {S : Finset Nat}
    (hS : S ⊆ F) (c : Nat) :
    (T.filter (fun t => S ∈ t.terms ∧ t.Z.card = c)).card = uses F.card S.card c := by
  unfold uses
  by_cases h0 : c = S.card
  · rw [if_pos h0, h0, ← card_cond hT hS]
    congr 1
    exact Finset.filter_congr (fun t ht => use_same ((hT t).1 ht) S)
  · rw [if_neg h0]
    by_cases h1 : c + 1 = S.card
    · rw [if_pos h1, ← card_one hT hS]
      congr 1
      refine Finset.filter_congr (fun t ht => ?_)
      rw [← use_one ((hT t).1 ht) S]
      exact and_congr_right (fun _ => by omega)
    · rw [if_neg h1]
      by_cases h2 : c + 2 = S.card
      · rw [if_pos h2, ← card_two hT hS]
        congr 1
        refine Finset.filter_congr (fun t ht => ?_)
        rw [← use_two ((hT t).1 ht) S]
        exact and_congr_right (fun _ => by omega)
      · rw [if_neg h2, Finset.card_eq_zero, Finset.filter_eq_empty_iff]
        rintro t ht ⟨hm, hc⟩
        have := use_sizes ((hT t).1 ht) hm
        omega

theorem choose_split {M j : Nat} (h : j ≤ M) :
    (M - j).choose 2 + j * (M - j) + j.choose 2 = M.choose 2 := by
  obtain ⟨k, rfl⟩ := Nat.exists_eq_add_of_le h
  rw [Nat.add_sub_cancel_left]
  clear h
  induction j with
  | zero => simp
  | succ j ih =>
    rw [show j + 1 + k = (j + k) + 1 by omega, Nat.choose_succ_succ' (j + k) 1,
      Nat.choose_succ_succ' j 1, ← ih, Nat.choose_one_right, Nat.choose_one_right]
    ring

/-- Every entropy is used by as many tests as there are pairs of features. -/
theorem card_total {F : Finset Nat} {T : Finset Test} (hT : AllTests F T) {S : Finset Nat}
    (hS : S ⊆ F) : (T.filter (fun t => S ∈ t.terms)).card = F.card.choose 2 := by
  rw [← choose_split (Finset.card_le_card hS), ← card_cond hT hS, ← card_one hT hS,
    ← card_two hT hS, ← Finset.card_union_of_disjoint, ← Finset.card_union_of_disjoint]
  · congr 1
    ext t
    simp only [Finset.mem_filter, Finset.mem_union]
    constructor
    · rintro ⟨ht, hm⟩
      have h := (hT t).1 ht
      rcases use_sizes h hm with hc | hc | hc
      · exact .inl (.inl ⟨ht, (use_same h S).1 ⟨hm, hc⟩⟩)
      · exact .inl (.inr ⟨ht, (use_one h S).1 ⟨hm, hc⟩⟩)
      · exact .inr ⟨ht, (use_two h S).1 ⟨hm, hc⟩⟩
    · rintro ((⟨ht, hc⟩ | ⟨ht, hc⟩) | ⟨ht, hc⟩)
      · exact ⟨ht, ((use_same ((hT t).1 ht) S).2 hc).1⟩
      · exact ⟨ht, ((use_one ((hT t).1 ht) S).2 hc).1⟩
      · exact ⟨ht, ((use_two ((hT t).1 ht) S).2 hc).1⟩
  · rw [Finset.disjoint_left]
    intro t ht ht'
    simp only [Finset.mem_filter, Finset.mem_union] at ht ht'
    have h := (hT t).1 ht'.1
    have := ((use_two h S).2 ht'.2).2
    rcases ht with ht | ht
    · have := ((use_same h S).2 ht.2).2
      omega
    · have := ((use_one h S).2 ht.2).2
      omega
  · rw [Finset.disjoint_left]
    intro t ht ht'
    simp only [Finset.mem_filter] at ht ht'
    have h := (hT t).1 ht'.1
    have := ((use_same h S).2 ht.2).2
    have := ((use_one h S).2 ht'.2).2
    omega

theorem allTests_iterTests {F : List Nat} (hF : F.Nodup) {order : Finset Nat → List Nat}
    (ho : IsOrder order) : AllTests F.toFinset (iterTests F order).toFinset := by
  intro t
  rw [List.mem_toFinset, mem_iterTests hF ho]

theorem filter_length {F : List Nat} (hF : F.Nodup) {order : Finset Nat → List Nat}
    (ho : IsOrder order) (p : Test → Prop) [DecidablePred p] :
    ((iterTests F order).filter (fun t => decide (p t))).length =
      ((iterTests F order).toFinset.filter p).card := by
  rw [← List.toFinset_card_of_nodup ((iterTests_nodup hF ho).filter _), List.toFinset_filter]
  simp

/-! ## Dictionaries -/

theorem dictGet_append {κ ν : Type} [DecidableEq κ] (d : List (κ × List ν)) (k k2 : κ) (v : ν) :
    dictGet (dictAppend d k v) k2 =
      if k = k2 then some ((dictGet d k2).getD [] ++ [v]) else dictGet d k2 := by
  unfold dictAppend
  rw [dictGet_dictSet]
  split
  · next h => rw [h]
  · rfl

theorem dictGet_inc {κ : Type} [DecidableEq κ] (d : List (κ × Nat)) (k k2 : κ) :
    dictGet (dictInc d k) k2 =
      if k = k2 then some ((dictGet d k2).getD 0 + 1) else dictGet d k2 := by
  unfold dictInc
  rw [dictGet_dictSet]
  split
  · next h => rw [h]
  · rfl

theorem dictSet_nodup {κ ν : Type} [DecidableEq κ] {d : List (κ × ν)} (h : (d.map Prod.fst).Nodup)
    (k : κ) (v : ν) : ((dictSet d k v).map Prod.fst).Nodup := by
  rw [dictSet_keys]
  split
  · exact h
  · next hk => exact List.nodup_append.2 ⟨h, by simp, by rintro a ha b hb rfl; simp at hb; exact hk (hb ▸ ha)⟩

/-- Dictionaries with the same contents are equal for Python. -/
theorem dictEq_of_get {κ ν : Type} [DecidableEq κ] [DecidableEq ν] {d e : List (κ × ν)}
    (hd : (d.map Prod.fst).Nodup) (he : (e.map Prod.fst).Nodup)
    (h : ∀ k, dictGet d k = dictGet e k) : dictEq d e = true := by
  have hp : (d.map Prod.fst).Perm (e.map Prod.fst) := by
    rw [List.perm_ext_iff_of_nodup hd he]
    intro k
    have h1 := dictGet_none_iff d k
    have h2 := dictGet_none_iff e k
    rw [h k] at h1
    exact not_iff_not.1 (h1.symm.trans h2)
  have hl := hp.length_eq
  simp only [List.length_map] at hl
  simp only [dictEq, Bool.and_eq_true, beq_iff_eq, List.all_eq_true]
  refine ⟨hl, fun p hp => ?_⟩
  rw [← h]
  exact dictGet_of_mem hd hp

theorem sum_dictInc {κ : Type} [DecidableEq κ] (d : List (κ × Nat)) (k : κ) :
    ((dictInc d k).map Prod.snd).sum = (d.map Prod.snd).sum + 1 := by
  unfold dictInc
  induction d with
  | nil => simp [dictSet, dictGet]
  | cons p d ih =>
    obtain ⟨k', v⟩ := p
    by_cases h : k' = k
    · simp [dictSet, dictGet, h]; omega
    · simp only [dictSet, dictGet, h, if_false, List.map_cons, List.sum_cons] at ih ⊢
      omega

theorem index_terms (t : Test) (S : Finset Nat) (l : List (Finset Nat)) (hn : l.Nodup)
    (d : List (Finset Nat × List Test)) :
    dictGet (l.foldl (fun d S => dictAppend d S t) d) S =
      if S ∈ l then some ((dictGet d S).getD [] ++ [t]) else dictGet d S := by
  induction l generalizing d with
  | nil => simp
  | cons a l ih =>
    rw [List.nodup_cons] at hn
    rw [List.foldl_cons, ih hn.2, dictGet_append]
    by_cases h : a = S
    · subst h; simp [hn.1]
    · by_cases h2 : S ∈ l
      · simp [h, h2]
      · simp [h, h2, Ne.symm h]

theorem counter_terms (S : Finset Nat) (l : List (Finset Nat)) (hn : l.Nodup)
    (d : List (Finset Nat × Nat)) :
    dictGet (l.foldl dictInc d) S =
      if S ∈ l then some ((dictGet d S).getD 0 + 1) else dictGet d S := by
  induction l generalizing d with
  | nil => simp
  | cons a l ih =>
    rw [List.nodup_cons] at hn
    rw [List.foldl_cons, ih hn.2, dictGet_inc]
    by_cases h : a = S
    · subst h; simp [hn.1]
    · by_cases h2 : S ∈ l
      · simp [h, h2]
      · simp [h, h2, Ne.symm h]

theorem foldl_append_get {κ : Type} [DecidableEq κ] (tests : List Test)
    (step : List (κ × List Test) → Test → List (κ × List Test)) (p : Test → κ → Prop)
    [∀ t k, Decidable (p t k)]
    (hs : ∀ d, ∀ t ∈ tests, ∀ k, dictGet (step d t) k =
      if p t k then some ((dictGet d k).getD [] ++ [t]) else dictGet d k)
    (d : List (κ × List Test)) (k : κ) :
    dictGet (tests.foldl step d) k =
      if tests.filter (fun t => p t k) = [] then dictGet d k
      else some ((dictGet d k).getD [] ++ tests.filter (fun t => p t k)) := by
  induction tests generalizing d with
  | nil => simp
  | cons t tests ih =>
    rw [List.foldl_cons, ih (fun d t ht k => hs d t (List.mem_cons_of_mem _ ht) k),
      hs d t List.mem_cons_self]
    by_cases h : p t k
    · rw [List.filter_cons_of_pos (by simpa using h)]
      simp only [h, if_true]
      by_cases h2 : tests.filter (fun t => p t k) = []
      · simp [h2]
      · simp [h2]
    · rw [List.filter_cons_of_neg (by simpa using h)]
      simp only [h, if_false]

theorem foldl_inc_get {κ : Type} [DecidableEq κ] (tests : List Test)
    (step : List (κ × Nat) → Test → List (κ × Nat)) (p : Test → κ → Prop)
    [∀ t k, Decidable (p t k)]
    (hs : ∀ d, ∀ t ∈ tests, ∀ k, dictGet (step d t) k =
      if p t k then some ((dictGet d k).getD 0 + 1) else dictGet d k)
    (d : List (κ × Nat)) (k : κ) :
    dictGet (tests.foldl step d) k =
      if (tests.filter (fun t => p t k)).length = 0 then dictGet d k
      else some ((dictGet d k).getD 0 + (tests.filter (fun t => p t k)).length) := by
  induction tests generalizing d with
  | nil => simp
  | cons t tests ih =>
    rw [List.foldl_cons, ih (fun d t ht k => hs d t (List.mem_cons_of_mem _ ht) k),
      hs d t List.mem_cons_self]
    by_cases h : p t k
    · rw [List.filter_cons_of_pos (by simpa using h)]
      simp only [h, if_true, List.length_cons]
      by_cases h2 : (tests.filter (fun t => p t k)).length = 0
      · simp only [h2, if_true]; simp
      · rw [if_neg h2, if_neg (by omega)]; simp only [Option.getD_some]; congr 1; omega
    · rw [List.filter_cons_of_neg (by simpa using h)]
      simp only [h, if_false]

theorem jhtIndex_get {tests : List Test} (hn : ∀ t ∈ tests, t.terms.Nodup) (S : Finset Nat) :
    dictGet (jhtIndex tests) S =
      if tests.filter (fun t => S ∈ t.terms) = [] then none
      else some (tests.filter (fun t => S ∈ t.terms)) := by
  unfold jhtIndex
  rw [foldl_append_get tests _ (fun t S => S ∈ t.terms)
    (fun d t ht k => index_terms t k t.terms (hn t ht) d)]
  simp [dictGet]

theorem jhtCounter_get {tests : List Test} (hn : ∀ t ∈ tests, t.terms.Nodup) (S : Finset Nat) :
    dictGet (jhtCounter tests) S =
      if (tests.filter (fun t => S ∈ t.terms)).length = 0 then none
      else some (tests.filter (fun t => S ∈ t.terms)).length := by
  unfold jhtCounter
  rw [foldl_inc_get tests _ (fun t S => S ∈ t.terms)
    (fun d t ht k => counter_terms k t.terms (hn t ht) d)]
  simp [dictGet]

theorem testsByFeatures_get (tests : List Test) (p : Finset Nat) :
    dictGet (testsByFeatures tests) p =
      if tests.filter (fun t => ({t.X, t.Y} : Finset Nat) = p) = [] then none
      else some (tests.filter (fun t => ({t.X, t.Y} : Finset Nat) = p)) := by
  unfold testsByFeatures
  rw [foldl_append_get tests _ (fun t p => ({t.X, t.Y} : Finset Nat) = p)
    (fun d t _ k => dictGet_append d _ k t)]
  simp [dictGet]

theorem condSizes_get (tests : List Test) (c : Nat) :
    dictGet (condSizes tests) c =
      if (tests.filter (fun t => t.Z.card = c)).length = 0 then none
      else some (tests.filter (fun t => t.Z.card = c)).length := by
  unfold condSizes
  rw [foldl_inc_get tests _ (fun t c => t.Z.card = c) (fun d t _ k => dictGet_inc d _ k)]
  simp [dictGet]

theorem condSizes_nodup (tests : List Test) : ((condSizes tests).map Prod.fst).Nodup := by
  unfold condSizes
  suffices ∀ d : List (Nat × Nat), (d.map Prod.fst).Nodup →
      ((tests.foldl (fun d t => dictInc d t.Z.card) d).map Prod.fst).Nodup from this [] (by simp)
  induction tests with
  | nil => exact fun d h => h
  | cons t tests ih => exact fun d h => ih _ (dictSet_nodup h _ _)

theorem condSizes_sum (tests : List Test) :
    ((condSizes tests).map Prod.snd).sum = tests.length := by
  unfold condSizes
  suffices ∀ d : List (Nat × Nat),
      ((tests.foldl (fun d t => dictInc d t.Z.card) d).map Prod.snd).sum =
        (d.map Prod.snd).sum + tests.length by simpa using this []
  induction tests with
  | nil => simp
  | cons t tests ih =>
    intro d
    rw [List.foldl_cons, ih, sum_dictInc, List.length_cons]
    omega

theorem jhtIndex_nodup (tests : List Test) : ((jhtIndex tests).map Prod.fst).Nodup := by
  unfold jhtIndex
  have h1 : ∀ (t : Test) (l : List (Finset Nat)) (d : List (Finset Nat × List Test)),
      (d.map Prod.fst).Nodup →
      ((l.foldl (fun d S => dictAppend d S t) d).map Prod.fst).Nodup := by
    intro t l
    induction l with
    | nil => exact fun d h => h
    | cons a l ih => exact fun d h => ih _ (dictSet_nodup h _ _)
  suffices ∀ d : List (Finset Nat × List Test), (d.map Prod.fst).Nodup →
      ((tests.foldl (fun d t => t.terms.foldl (fun d S => dictAppend d S t) d) d).map
        Prod.fst).Nodup from this [] (by simp)
  induction tests with
  | nil => exact fun d h => h
  | cons t tests ih => exact fun d h => ih _ (h1 _ _ _ h)

theorem flatten_ok (summary : List (Finset Nat × List (Nat × Nat))) (P : Nat → List (Nat × Nat) → Prop)
    (hs : ∀ p ∈ summary, P p.1.card p.2)
    (hP : ∀ j d e, P j d → P j e → dictEq d e = true) (flat : List (Nat × List (Nat × Nat)))
    (hn : (flat.map Prod.fst).Nodup) (hf : ∀ q ∈ flat, P q.1 q.2) :
    ∃ out, summary.foldlM flattenStep flat = .ok out ∧ (out.map Prod.fst).Nodup ∧
      (∀ q ∈ out, P q.1 q.2) ∧
      ∀ j, j ∈ out.map Prod.fst ↔ j ∈ flat.map Prod.fst ∨ ∃ p ∈ summary, p.1.card = j := by
  induction summary generalizing flat with
  | nil => exact ⟨flat, rfl, hn, hf, by simp⟩
  | cons p summary ih =>
    rw [List.foldlM_cons]
    have hp := hs p List.mem_cons_self
    have hs' : ∀ p ∈ summary, P p.1.card p.2 := fun q hq => hs q (List.mem_cons_of_mem _ hq)
    cases hg : dictGet flat p.1.card with
    | some existing =>
      have hm := dictGet_mem hg
      have hstep : flattenStep flat p = .ok flat := by
        unfold flattenStep
        rw [hg]
        simp only []
        rw [if_pos (hP _ _ _ (hf _ hm) hp)]
      obtain ⟨out, h1, h2, h3, h4⟩ := ih hs' flat hn hf
      refine ⟨out, by rw [hstep]; exact h1, h2, h3, fun j => ?_⟩
      rw [h4]
      constructor
      · rintro (h | ⟨q, hq, h⟩)
        · exact .inl h
        · exact .inr ⟨q, List.mem_cons_of_mem _ hq, h⟩
      · rintro (h | ⟨q, hq, h⟩)
        · exact .inl h
        · rcases List.mem_cons.1 hq with rfl | hq
          · exact .inl (List.mem_map.2 ⟨_, hm, h⟩)
          · exact .inr ⟨q, hq, h⟩
    | none =>
      have hstep : flattenStep flat p = .ok (dictSet flat p.1.card p.2) := by
        unfold flattenStep
        rw [hg]
      have hk : p.1.card ∉ flat.map Prod.fst := (dictGet_none_iff _ _).1 hg
      obtain ⟨out, h1, h2, h3, h4⟩ := ih hs' (dictSet flat p.1.card p.2) (dictSet_nodup hn _ _) (by
        intro q hq
        have hget := dictGet_of_mem (dictSet_nodup hn _ _) hq
        rw [dictGet_dictSet] at hget
        by_cases h : p.1.card = q.1
        · rw [if_pos h] at hget
          rw [← h, ← Option.some.inj hget]; exact hp
        · rw [if_neg h] at hget
          exact hf _ (dictGet_mem hget))
      refine ⟨out, by rw [hstep]; exact h1, h2, h3, fun j => ?_⟩
      rw [h4, dictSet_keys, if_neg hk]
      constructor
      · rintro (h | ⟨q, hq, h⟩)
        · rcases List.mem_append.1 h with h | h
          · exact .inl h
          · exact .inr ⟨p, List.mem_cons_self, (List.mem_singleton.1 h).symm⟩
        · exact .inr ⟨q, List.mem_cons_of_mem _ hq, h⟩
      · rintro (h | ⟨q, hq, h⟩)
        · exact .inl (List.mem_append_left _ h)
        · rcases List.mem_cons.1 hq with rfl | hq
          · exact .inl (List.mem_append_right _ (by simp [h]))
          · exact .inr ⟨q, hq, h⟩

theorem expected_get {M j c : Nat} (h : uses M j c ≠ 0) :
    dictGet (expectedByCondSize M j) c = some (uses M j c) := by
  have hc : c = j ∨ c + 1 = j ∨ c + 2 = j := by
    by_contra hn
    apply h
    unfold uses
    rw [if_neg (by omega), if_neg (by omega), if_neg (by omega)]
  have u0 : uses M j j = (M - j).choose 2 := if_pos rfl
  have u1 : ∀ c, c + 1 = j → uses M j c = j * (M - j) := fun c h => by
    unfold uses; rw [if_neg (by omega), if_pos h]
  have u2 : ∀ c, c + 2 = j → uses M j c = j.choose 2 := fun c h => by
    unfold uses; rw [if_neg (by omega), if_neg (by omega), if_pos h]
  unfold expectedByCondSize
  simp only []
  rcases hc with hc | hc | hc
  · subst hc
    rw [u0]
    by_cases h1 : 1 ≤ c
    · by_cases h2 : 2 ≤ c
      · rw [if_pos h2, if_pos h1, dictGet_dictSet, if_neg (by omega), dictGet_dictSet,
          if_neg (by omega), dictGet_dictSet, if_pos rfl]
      · rw [if_neg h2, if_pos h1, dictGet_dictSet, if_neg (by omega), dictGet_dictSet, if_pos rfl]
    · rw [if_neg (show ¬ 2 ≤ c by omega), if_neg h1, dictGet_dictSet, if_pos rfl]
  · rw [u1 c hc]
    by_cases h2 : 2 ≤ j
    · rw [if_pos h2, if_pos (show 1 ≤ j by omega), dictGet_dictSet, if_neg (by omega),
        dictGet_dictSet, if_pos (by omega)]
    · rw [if_neg h2, if_pos (show 1 ≤ j by omega), dictGet_dictSet, if_pos (by omega)]
  · rw [u2 c hc, if_pos (show 2 ≤ j by omega), dictGet_dictSet, if_pos (by omega)]

theorem mapM_ok {α β : Type} (f : α → Except Err β) (g : α → β) (l : List α)
    (h : ∀ a ∈ l, f a = .ok (g a)) : l.mapM f = .ok (l.map g) := by
  induction l with
  | nil => rfl
  | cons a l ih =>
    rw [List.mapM_cons, h a List.mem_cons_self, ih (fun b hb => h b (List.mem_cons_of_mem _ hb))]
    rfl

/-! ## The properties -/

theorem foldl_count (tests : List Test) (c n : Nat) :
    tests.foldl (fun count t => if t.Z.card = c then count + 1 else count) n =
      n + (tests.filter (fun t => t.Z.card = c)).length := by
  induction tests generalizing n with
  | nil => simp
  | cons t tests ih =>
    rw [List.foldl_cons, ih]
    by_cases h : t.Z.card = c
    · rw [if_pos h, List.filter_cons_of_pos (by simpa using h), List.length_cons]; omega
    · rw [if_neg h, List.filter_cons_of_neg (by simpa using h)]

/-- **C101**, the enumeration: whatever the iteration orders of the sets, `iter_tests` yields exactly
the tests of two different features (the smaller one first) given a set of other features, each of
them once, those with fewer conditioning features first. -/
theorem enum_tests_exact (F : List Nat) (hF : F.Nodup) (order : Finset Nat → List Nat)
    (ho : IsOrder order) :
    (∀ t, t ∈ iterTests F order ↔ t.X < t.Y ∧ t.X ∈ F ∧ t.Y ∈ F ∧ (∀ z ∈ t.Z, z ∈ F) ∧
      t.X ∉ t.Z ∧ t.Y ∉ t.Z) ∧
    (iterTests F order).Nodup ∧
    (iterTests F order).Pairwise (fun s t => s.Z.card ≤ t.Z.card) := by
  refine ⟨fun t => ?_, iterTests_nodup hF ho, ?_⟩
  · rw [mem_iterTests hF ho]
    unfold IsTest
    simp only [List.mem_toFinset, Finset.subset_iff]
  · have key : ∀ {c : Nat} {t : Test}, t ∈ ((combinations F c).insertionSort (· ≤ ·)).flatMap (fun Z =>
      ((combinations (order (F.toFinset \ Z.toFinset)) 2).insertionSort (· ≤ ·)).flatMap
        (yieldTest Z)) → t.Z.card = c := by
      intro c t h
      simp only [List.mem_flatMap, mem_yieldTest, List.mem_insertionSort, mem_combinations] at h
      obtain ⟨Z, hZ, _, -, x, y, -, rfl⟩ := h
      rw [Test.make_Z, List.toFinset_card_of_nodup (hZ.1.nodup hF), hZ.2]
    unfold iterTests condSetSizes
    rw [List.pairwise_flatMap]
    refine ⟨fun c _ => ?_, ?_⟩
    · exact List.pairwise_of_forall_mem_list (fun s hs t ht => by rw [key hs, key ht])
    · refine List.pairwise_lt_range.imp (fun {a b} hab s hs t ht => ?_)
      rw [key hs, key ht]
      omega

/-- **C101**, how many: the printed `expected tests` is the number of tests; `c` conditioning
features occur in `C(M, c) · C(M - c, 2)` of them; every pair of features has `2^(M-2)` of them. -/
theorem enum_tests_count (F : List Nat) (hF : F.Nodup) (order : Finset Nat → List Nat)
    (ho : IsOrder order) :
    ((iterTests F order).length : ℚ) = expectedTests F.length ∧
    (∀ c, countTestsOfCondSetSize (iterTests F order) c =
      F.length.choose c * (F.length - c).choose 2) ∧
    (∀ x y, x ∈ F → y ∈ F → x ≠ y →
      (dictGet (testsByFeatures (iterTests F order)) {x, y}).map List.length =
        some (2 ^ (F.length - 2))) := by
  have hT := allTests_iterTests hF ho
  have hcard : F.toFinset.card = F.length := List.toFinset_card_of_nodup hF
  refine ⟨?_, fun c => ?_, fun x y hx hy hxy => ?_⟩
  · rw [← List.toFinset_card_of_nodup (iterTests_nodup hF ho), card_tests hT, hcard]
    push_cast
    rw [Nat.cast_choose_two]
    unfold expectedTests
    by_cases h2 : 2 ≤ F.length
    · obtain ⟨k, hk⟩ := Nat.exists_eq_add_of_le h2
      rw [hk, Nat.add_sub_cancel_left, show ((2 + k : ℕ) : ℤ) - 2 = (k : ℤ) by push_cast; ring,
        zpow_natCast]
      ring
    · have : F.length = 0 ∨ F.length = 1 := by omega
      rcases this with h | h <;> rw [h] <;> simp
  · unfold countTestsOfCondSetSize
    rw [foldl_count, filter_length hF ho (fun t => t.Z.card = c), card_size hT, hcard, Nat.zero_add]
  · have hp : ({x, y} : Finset Nat) ∈ F.toFinset.powersetCard 2 := by
      rw [Finset.mem_powersetCard]
      refine ⟨?_, Finset.card_pair hxy⟩
      intro a ha
      simp only [Finset.mem_insert, Finset.mem_singleton] at ha
      rcases ha with rfl | rfl <;> simpa
    have hl := card_pair_tests hT hp
    rw [← filter_length hF ho (fun t => ({t.X, t.Y} : Finset Nat) = {x, y}), hcard] at hl
    rw [testsByFeatures_get, if_neg, Option.map_some, hl]
    intro h
    rw [h] at hl
    have := Nat.two_pow_pos (F.length - 2)
    simp only [List.length_nil] at hl
    omega

theorem tests_terms_nodup {F : List Nat} (hF : F.Nodup) {order : Finset Nat → List Nat}
    (ho : IsOrder order) : ∀ t ∈ iterTests F order, t.terms.Nodup :=
  fun t ht => terms_nodup ((mem_iterTests hF ho t).1 ht)

/-- The joint entropies that the index knows: of all subsets, if there is a test at all. -/
theorem index_keys {F : List Nat} (hF : F.Nodup) {order : Finset Nat → List Nat}
    (ho : IsOrder order) (S : Finset Nat) :
    (iterTests F order).filter (fun t => S ∈ t.terms) = [] ↔ ¬ (2 ≤ F.length ∧ S ⊆ F.toFinset) := by
  have hT := allTests_iterTests hF ho
  have hcard : F.toFinset.card = F.length := List.toFinset_card_of_nodup hF
  by_cases hS : S ⊆ F.toFinset
  · have hl := card_total hT hS
    rw [← filter_length hF ho (fun t => S ∈ t.terms), hcard] at hl
    rw [← List.length_eq_zero_iff, hl, Nat.choose_eq_zero_iff]
    simp only [hS, and_true]
    omega
  · simp only [hS, and_false, not_false_eq_true, iff_true, List.filter_eq_nil_iff,
      decide_eq_true_eq]
    intro t ht hm
    apply hS
    obtain ⟨-, h2, h3, h4, -, -⟩ := (mem_iterTests hF ho t).1 ht
    intro a ha
    simp only [Test.terms, List.mem_cons, List.not_mem_nil, or_false] at hm
    rcases hm with rfl | rfl | rfl | rfl
    · simp only [Test.XZ, Finset.mem_union, Finset.mem_singleton] at ha
      rcases ha with ha | rfl
      · exact h4 ha
      · exact h2
    · simp only [Test.YZ, Finset.mem_union, Finset.mem_singleton] at ha
      rcases ha with ha | rfl
      · exact h4 ha
      · exact h3
    · simp only [Test.XYZ, Finset.mem_union, Finset.mem_singleton] at ha
      rcases ha with (ha | rfl) | rfl
      · exact h4 ha
      · exact h2
      · exact h3
    · exact h4 ha

/-- **C101**, the entropies: with at least two features, the index has exactly the subsets of the
features as keys, each with the tests that need its entropy, in order; the counter has their number,
which is `C(M, 2)` whatever the subset; with `j` features in the subset and `c` in the conditioning
set it is `C(M - j, 2)` for `c = j`, `j · (M - j)` for `c = j - 1`, `C(j, 2)` for `c = j - 2` and 0
otherwise. -/
theorem enum_entropy_use (F : List Nat) (hF : F.Nodup) (order : Finset Nat → List Nat)
    (ho : IsOrder order) (h2 : 2 ≤ F.length) (S : Finset Nat) :
    dictGet (jhtIndex (iterTests F order)) S =
      (if S ⊆ F.toFinset then some ((iterTests F order).filter (fun t =>
        S = t.Z ∨ S = insert t.X t.Z ∨ S = insert t.Y t.Z ∨ S = insert t.X (insert t.Y t.Z)))
      else none) ∧
    dictGet (jhtCounter (iterTests F order)) S =
      (if S ⊆ F.toFinset then some (F.length.choose 2) else none) ∧
    (S ⊆ F.toFinset → ∀ c, ((iterTests F order).filter (fun t =>
        (S = t.Z ∨ S = insert t.X t.Z ∨ S = insert t.Y t.Z ∨ S = insert t.X (insert t.Y t.Z)) ∧
          t.Z.card = c)).length =
      if c = S.card then (F.length - S.card).choose 2
      else if c + 1 = S.card then S.card * (F.length - S.card)
      else if c + 2 = S.card then S.card.choose 2 else 0) := by
  have hT := allTests_iterTests hF ho
  have hcard : F.toFinset.card = F.length := List.toFinset_card_of_nodup hF
  have hterm : ∀ t : Test, S ∈ t.terms ↔ (S = t.Z ∨ S = insert t.X t.Z ∨ S = insert t.Y t.Z ∨
      S = insert t.X (insert t.Y t.Z)) := by
    intro t
    have e1 : t.XZ = insert t.X t.Z := by
      unfold Test.XZ; rw [Finset.union_comm, ← Finset.insert_eq]
    have e2 : t.YZ = insert t.Y t.Z := by
      unfold Test.YZ; rw [Finset.union_comm, ← Finset.insert_eq]
    have e3 : t.XYZ = insert t.X (insert t.Y t.Z) := by
      show t.XZ ∪ {t.Y} = _
      rw [e1, Finset.union_comm, ← Finset.insert_eq, Finset.insert_comm]
    simp only [Test.terms, List.mem_cons, List.not_mem_nil, or_false, e1, e2, e3]
    constructor
    · rintro (h | h | h | h)
      · exact .inr (.inl h)
      · exact .inr (.inr (.inl h))
      · exact .inr (.inr (.inr h))
      · exact .inl h
    · rintro (h | h | h | h)
      · exact .inr (.inr (.inr h))
      · exact .inl h
      · exact .inr (.inl h)
      · exact .inr (.inr (.inl h))
  have hk := index_keys hF ho S
  simp only [← hterm]
  refine ⟨?_, ?_, fun hS c => ?_⟩
  · rw [jhtIndex_get (tests_terms_nodup hF ho)]
    by_cases hS : S ⊆ F.toFinset
    · rw [if_pos hS, if_neg (fun h => hk.1 h ⟨h2, hS⟩)]
    · rw [if_neg hS, if_pos (hk.2 (fun h => hS h.2))]
  · rw [jhtCounter_get (tests_terms_nodup hF ho)]
    by_cases hS : S ⊆ F.toFinset
    · rw [if_pos hS, if_neg (fun h => hk.1 (List.length_eq_zero_iff.1 h) ⟨h2, hS⟩),
        filter_length hF ho (fun t => S ∈ t.terms), card_total hT hS, hcard]
    · rw [if_neg hS, if_pos (List.length_eq_zero_iff.2 (hk.2 (fun h => hS h.2)))]
  · rw [filter_length hF ho (fun t => S ∈ t.terms ∧ t.Z.card = c), card_uses hT hS, hcard]
    rfl

/-- **C101**, fewer than two features: no tests and no entropies. -/
theorem enum_no_tests (F : List Nat) (order : Finset Nat → List Nat)
    (h2 : F.length < 2) :
    iterTests F order = [] ∧ jhtIndex (iterTests F order) = [] := by
  have : iterTests F order = [] := by
    unfold iterTests condSetSizes
    rw [show F.length - 1 = 0 by omega]
    rfl
  rw [this]
  exact ⟨rfl, rfl⟩

/-- What the summary says about one entropy.
(Models no code: a notion for statements and proofs.) -/
def GoodCounts (M j : Nat) (d : List (Nat × Nat)) : Prop :=
  j ≤ M ∧ (d.map Prod.fst).Nodup ∧
    (∀ c, dictGet d c = if uses M j c = 0 then none else some (uses M j c)) ∧
    (d.map Prod.snd).sum = M.choose 2

theorem summary_good {F : List Nat} (hF : F.Nodup) {order : Finset Nat → List Nat}
    (ho : IsOrder order) (p : Finset Nat × List (Nat × Nat))
    (hp : p ∈ indexSummary (jhtIndex (iterTests F order))) :
    GoodCounts F.length p.1.card p.2 ∧ 2 ≤ F.length ∧ p.1 ⊆ F.toFinset := by
  have hT := allTests_iterTests hF ho
  have hcard : F.toFinset.card = F.length := List.toFinset_card_of_nodup hF
  obtain ⟨q, hq, rfl⟩ := List.mem_map.1 hp
  have hget := dictGet_of_mem (jhtIndex_nodup _) hq
  rw [jhtIndex_get (tests_terms_nodup hF ho)] at hget
  have hne : ¬ (iterTests F order).filter (fun t => q.1 ∈ t.terms) = [] := by
    intro h
    rw [if_pos h] at hget
    cases hget
  rw [if_neg hne] at hget
  obtain ⟨h2, hS⟩ := not_not.1 (fun h => hne ((index_keys hF ho q.1).2 h))
  have hq2 := Option.some.inj hget
  refine ⟨⟨?_, condSizes_nodup _, fun c => ?_, ?_⟩, h2, hS⟩
  · rw [← hcard]; exact Finset.card_le_card hS
  · dsimp only
    rw [condSizes_get, ← hq2, List.filter_filter]
    have : ((iterTests F order).filter (fun t => decide (t.Z.card = c) && decide (q.1 ∈ t.terms))).length =
        uses F.length q.1.card c := by
      rw [← hcard, ← card_uses hT hS c, ← filter_length hF ho (fun t => q.1 ∈ t.terms ∧ t.Z.card = c)]
      congr 1
      apply List.filter_congr
      intro t _
      simp [and_comm]
    rw [this]
  · dsimp only
    rw [condSizes_sum, ← hq2, filter_length hF ho (fun t => q.1 ∈ t.terms), card_total hT hS, hcard]

/-- **C101**, the option `flat-index-summary`: for `M` features the assertion holds, every expected
count is found, and the report has one entry for each entropy size from 0 to `M` (none if `M < 2`);
the total of an entry is the expected one, and its lines are the conditioning sizes that occur, each
with a positive count that is the expected one. -/
theorem enum_flat_report (M : Nat) (F : List Nat) (hF : F.Perm (makeFeatures M))
    (order : Finset Nat → List Nat) (ho : IsOrder order) :
    ∃ rows, flatReport M F order = .ok rows ∧ (rows.map Prod.fst).Nodup ∧
      (∀ j, j ∈ rows.map Prod.fst ↔ 2 ≤ M ∧ j ≤ M) ∧
      ∀ row ∈ rows, (row.2.1 : ℚ) = row.2.2.1 ∧ (row.2.1 : ℚ) = M * (M - 1) / 2 ∧
        (row.2.2.2.map Prod.fst).Nodup ∧
        ∀ c n e, (c, n, e) ∈ row.2.2.2 ↔ n = e ∧ 0 < n ∧ n =
          if c = row.1 then (M - row.1).choose 2
          else if c + 1 = row.1 then row.1 * (M - row.1)
          else if c + 2 = row.1 then row.1.choose 2 else 0 := by
  have hlen : F.length = M := by rw [hF.length_eq]; simp [makeFeatures]
  have hn : F.Nodup := hF.nodup_iff.2 (by
    unfold makeFeatures
    exact List.nodup_range.map (fun a b h => by simpa using h))
  have hcard : F.toFinset.card = F.length := List.toFinset_card_of_nodup hn
  have hgood := summary_good hn ho
  rw [hlen] at hgood
  obtain ⟨flat, h1, h2, h3, h4⟩ := flatten_ok (indexSummary (jhtIndex (iterTests F order)))
    (GoodCounts M) (fun p hp => (hgood p hp).1)
    (fun j d e hd he => dictEq_of_get hd.2.1 he.2.1 (fun k => by rw [hd.2.2.1, he.2.2.1])) []
    (by simp) (by simp)
  have hline : ∀ q ∈ flat, q.2.mapM (reportLine (expectedByCondSize M q.1)) =
      .ok (q.2.map (fun p => (p.1, p.2, p.2))) := by
    intro q hq
    refine mapM_ok _ _ _ (fun p hp => ?_)
    have hg := dictGet_of_mem (h3 q hq).2.1 hp
    rw [(h3 q hq).2.2.1] at hg
    have hu : uses M q.1 p.1 ≠ 0 := fun h => by rw [if_pos h] at hg; cases hg
    rw [if_neg hu] at hg
    unfold reportLine
    rw [expected_get hu, Option.some.inj hg]
  have hrow : ∀ q ∈ flat, reportSize M q = .ok (q.1, (q.2.map Prod.snd).sum, expectedTotal M q.1,
      q.2.map (fun p => (p.1, p.2, p.2))) := by
    intro q hq
    unfold reportSize
    rw [hline q hq]
    rfl
  refine ⟨flat.map (fun q => (q.1, (q.2.map Prod.snd).sum, expectedTotal M q.1,
    q.2.map (fun p => (p.1, p.2, p.2)))), ?_, ?_, ?_, ?_⟩
  · unfold flatReport flatten
    rw [h1]
    exact mapM_ok _ _ _ hrow
  · rw [List.map_map]
    exact h2
  · intro j
    rw [List.map_map]
    show j ∈ flat.map Prod.fst ↔ _
    rw [h4]
    simp only [List.map_nil, List.not_mem_nil, false_or]
    constructor
    · rintro ⟨p, hp, rfl⟩
      exact ⟨(hgood p hp).2.1, (hgood p hp).1.1⟩
    · rintro ⟨hM, hj⟩
      obtain ⟨S, hS, hSj⟩ := Finset.exists_subset_card_eq (s := F.toFinset) (n := j)
        (by rw [hcard, hlen]; exact hj)
      have hk := jhtIndex_get (tests_terms_nodup hn ho) S
      rw [if_neg (fun h => (index_keys hn ho S).1 h ⟨by omega, hS⟩)] at hk
      exact ⟨_, List.mem_map.2 ⟨_, dictGet_mem hk, rfl⟩, hSj⟩
  · intro row hr
    obtain ⟨q, hq, rfl⟩ := List.mem_map.1 hr
    have hg := h3 q hq
    have htot : (((q.2.map Prod.snd).sum : ℕ) : ℚ) = M * (M - 1) / 2 := by
      rw [hg.2.2.2, Nat.cast_choose_two]
    refine ⟨htot, htot, ?_, ?_⟩
    · rw [List.map_map]; exact hg.2.1
    · intro c n e
      show (c, n, e) ∈ q.2.map (fun p => (p.1, p.2, p.2)) ↔ n = e ∧ 0 < n ∧ n = uses M q.1 c
      have hc := hg.2.2.1 c
      constructor
      · intro hm
        obtain ⟨p, hp, he⟩ := List.mem_map.1 hm
        cases he
        have := dictGet_of_mem hg.2.1 hp
        rw [hc] at this
        by_cases h0 : uses M q.1 p.1 = 0
        · rw [if_pos h0] at this; cases this
        · rw [if_neg h0] at this
          have := Option.some.inj this
          exact ⟨rfl, by omega, this.symm⟩
      · rintro ⟨rfl, hpos, rfl⟩
        rw [if_neg (by omega)] at hc
        exact List.mem_map.2 ⟨_, dictGet_mem hc, rfl⟩

/-! ## The cost of all tests with the dcMI test -/

open Mbtk.ADTree (Data)
open Mbtk.Stats (dcCall Config ValidCall)
open Mbtk.Stats.Spec (Call entropyRequests entropySets)

/-- The call of a CI test object for an enumerated test, with the conditioning features in any
order. (Specification.) -/
def callOf (order : Finset Nat → List Nat) (t : Test) : Call := (t.X, t.Y, order t.Z)

theorem entropySets_callOf {order : Finset Nat → List Nat} (ho : IsOrder order) (t : Test)
    (S : Finset Nat) : S ∈ entropySets (callOf order t) ↔ S ∈ t.terms := by
  have e0 : (order t.Z).toFinset = t.Z := (ho t.Z).2
  have e1 : t.XZ = insert t.X t.Z := by
    unfold Test.XZ; rw [Finset.union_comm, ← Finset.insert_eq]
  have e2 : t.YZ = insert t.Y t.Z := by
    unfold Test.YZ; rw [Finset.union_comm, ← Finset.insert_eq]
  have e3 : t.XYZ = insert t.X (insert t.Y t.Z) := by
    show t.XZ ∪ {t.Y} = _
    rw [e1, Finset.union_comm, ← Finset.insert_eq, Finset.insert_comm]
  simp only [entropySets, callOf, Test.terms, List.mem_cons, List.not_mem_nil, or_false,
    List.toFinset_cons, e0, e1, e2, e3]
  constructor
  · rintro (h | h | h | h)
    · exact .inr (.inr (.inl h))
    · exact .inl h
    · exact .inr (.inl h)
    · exact .inr (.inr (.inr h))
  · rintro (h | h | h | h)
    · exact .inr (.inl h)
    · exact .inr (.inr (.inl h))
    · exact .inl h
    · exact .inr (.inr (.inr h))

theorem requests_length {order : Finset Nat → List Nat} (ho : IsOrder order) (tests : List Test) :
    (entropyRequests (tests.map (callOf order))).length +
      (tests.filter (fun t => t.Z = ∅)).length = 4 * tests.length := by
  unfold entropyRequests
  induction tests with
  | nil => simp
  | cons t tests ih =>
    have e0 : (order t.Z).toFinset = t.Z := (ho t.Z).2
    rw [List.map_cons, List.flatMap_cons, List.filter_append, List.length_append, List.length_cons]
    by_cases h : t.Z = ∅
    · have : ((entropySets (callOf order t)).filter (fun S => S ≠ ∅)).length = 3 := by
        simp only [entropySets, callOf, List.toFinset_cons, e0]
        rw [List.filter_cons_of_pos (by simp), List.filter_cons_of_pos (by simp),
          List.filter_cons_of_pos (by simp), List.filter_cons_of_neg (by simpa using h)]
        rfl
      rw [this, List.filter_cons_of_pos (by simpa using h), List.length_cons]
      omega
    · have : ((entropySets (callOf order t)).filter (fun S => S ≠ ∅)).length = 4 := by
        simp only [entropySets, callOf, List.toFinset_cons, e0]
        rw [List.filter_cons_of_pos (by simp), List.filter_cons_of_pos (by simp),
          List.filter_cons_of_pos (by simp), List.filter_cons_of_pos (by simpa using h)]
        rfl
      rw [this, List.filter_cons_of_neg (by simpa using h)]
      omega

/-- **C101**, what the enumeration means for the dcMI test: a test object that is asked all the tests
over `M ≥ 2` columns, in any order, computes each of the `2^M - 1` joint entropies once, and reads
`4 · C(M, 2) · 2^(M-2) - C(M, 2)` times. -/
theorem all_tests_dcmi_cost (D : Data) (cfg : Config) (hk : cfg.kind ≠ .structural)
    (hr : D.nrows ≠ 0) (F : List Nat) (hF : F.Nodup) (h2 : 2 ≤ F.length)
    (hv : ∀ x ∈ F, 1 ≤ (D.values x).length) (order order' order'' : Finset Nat → List Nat)
    (ho : IsOrder order) (ho' : IsOrder order') (ho'' : IsOrder order'') (calls : List Call)
    (hc : calls.Perm ((iterTests F order).map (callOf order'))) :
    Ok (mapList (dcCall D cfg order'') calls) {} (fun _ s =>
      (∀ S, (dictGet s.jht S).isSome ↔ S ⊆ F.toFinset ∧ S ≠ ∅) ∧
      (∀ cols H, dictGet s.jht cols.toFinset = some H → H = Mbtk.Stats.Spec.entropy D cols) ∧
      s.misses = 2 ^ F.length - 1 ∧
      s.reads + F.length.choose 2 = 4 * (F.length.choose 2 * 2 ^ (F.length - 2))) := by
  have hT := allTests_iterTests hF ho
  have hcard : F.toFinset.card = F.length := List.toFinset_card_of_nodup hF
  have hvalid : ∀ c ∈ calls, ValidCall D c := by
    intro c hcm
    obtain ⟨t, ht, rfl⟩ := List.mem_map.1 (hc.mem_iff.1 hcm)
    obtain ⟨h1, hx, hy, hZ, hxn, hyn⟩ := (mem_iterTests hF ho t).1 ht
    have hmem := ho'.mem t.Z
    refine ⟨?_, ?_⟩
    · show (t.X :: t.Y :: order' t.Z).Nodup
      rw [List.nodup_cons, List.nodup_cons, List.mem_cons, hmem, hmem]
      exact ⟨fun h => h.elim (fun e => by omega) hxn, hyn, (ho' _).1⟩
    · intro x hxm
      apply hv
      have hxm : x ∈ t.X :: t.Y :: order' t.Z := hxm
      rw [List.mem_cons, List.mem_cons, hmem] at hxm
      rw [← List.mem_toFinset]
      rcases hxm with rfl | rfl | h
      · exact hx
      · exact hy
      · exact hZ h
  have hperm : (entropyRequests calls).Perm
      (entropyRequests ((iterTests F order).map (callOf order'))) := by
    unfold entropyRequests
    exact (hc.flatMap_right _).filter _
  have hreq : ∀ S, S ∈ entropyRequests calls ↔ S ⊆ F.toFinset ∧ S ≠ ∅ := by
    intro S
    rw [hperm.mem_iff]
    unfold entropyRequests
    simp only [List.mem_filter, List.mem_flatMap, List.mem_map, exists_exists_and_eq_and,
      entropySets_callOf ho', decide_eq_true_eq]
    have hk := index_keys hF ho S
    rw [List.filter_eq_nil_iff] at hk
    refine and_congr_left (fun _ => ?_)
    constructor
    · rintro ⟨t, ht, hm⟩
      by_contra hn
      exact hk.2 (fun h => hn h.2) t ht (by simpa using hm)
    · intro hS
      by_contra hn
      refine hk.1 ?_ ⟨h2, hS⟩
      intro t ht hm
      exact hn ⟨t, ht, by simpa using hm⟩
  refine (Mbtk.Stats.entropy_table_exact D cfg hk hr order'' ho'' calls hvalid).mono ?_
  rintro _ s ⟨h1, h3, h4, h5⟩
  refine ⟨fun S => (h3 S).trans (hreq S), h1, ?_, ?_⟩
  · have : (entropyRequests calls).toFinset = F.toFinset.powerset.erase ∅ := by
      ext S
      rw [List.mem_toFinset, hreq, Finset.mem_erase, Finset.mem_powerset, and_comm]
    rw [h5, this, Finset.card_erase_of_mem (Finset.empty_mem_powerset _), Finset.card_powerset, hcard]
  · have hl := requests_length ho' (iterTests F order)
    have hz := card_cond hT (Finset.empty_subset _)
    rw [← filter_length hF ho (fun t => t.Z = ∅), hcard, Finset.card_empty, Nat.sub_zero] at hz
    rw [h4, hperm.length_eq, ← hcard, ← card_tests hT, hcard,
      List.toFinset_card_of_nodup (iterTests_nodup hF ho), ← hz]
    exact hl

/-! ## Examples -/

theorem sortOrder : IsOrder (fun S => S.sort) :=
  fun S => ⟨Finset.sort_nodup S (fun a b => a ≤ b), Finset.sort_toFinset S (fun a b => a ≤ b)⟩

/-- An order in which `{A, B, C}` iterates as `C, A, B`. (Example.) -/
def exOrder (S : Finset Nat) : List Nat :=
  if S ⊆ {65, 66, 67} then [67, 65, 66].filter (· ∈ S) else S.sort

theorem exOrder_isOrder : IsOrder exOrder := by
  intro S
  unfold exOrder
  by_cases h : S ⊆ {65, 66, 67}
  · rw [if_pos h]
    refine ⟨List.Nodup.filter _ (by decide), ?_⟩
    ext a
    simp only [List.mem_toFinset, List.mem_filter, decide_eq_true_eq]
    refine ⟨fun h => h.2, fun ha => ⟨?_, ha⟩⟩
    have := h ha
    simp only [Finset.mem_insert, Finset.mem_singleton] at this
    simp only [List.mem_cons, List.not_mem_nil, or_false]
    omega
  · rw [if_neg h]
    exact sortOrder S

/-- Three features: six tests, and the report of the program. -/
example : [67, 65, 66].Perm (makeFeatures 3) ∧
    (iterTests [67, 65, 66] exOrder).map (fun t => (t.X, t.Y)) =
      [(65, 66), (65, 67), (66, 67), (66, 67), (65, 67), (65, 66)] ∧
    countTestsOfCondSetSize (iterTests [67, 65, 66] exOrder) 1 = 3 := by
  refine ⟨by decide, by decide +kernel, by decide +kernel⟩

/-- The hypotheses of the cost theorem hold for the example dataset: seven entropies, 21 reads. -/
example : Mbtk.ADTree.exampleData.nrows ≠ 0 ∧ [0, 1, 2].Nodup ∧ 2 ≤ [0, 1, 2].length ∧
    (∀ x ∈ [0, 1, 2], 1 ≤ (Mbtk.ADTree.exampleData.values x).length) ∧ 2 ^ 3 - 1 = 7 ∧
    21 + Nat.choose 3 2 = 4 * (Nat.choose 3 2 * 2 ^ (3 - 2)) :=
  ⟨by decide, by decide, by decide, by decide, by decide, by decide⟩

end Mbtk.Exp.GtestEnum
