import Verif.Data.Rcv
import Mathlib.Algebra.Order.Floor.Ring
import Mathlib.Data.Rat.Floor
/-!
# Model of the generating dataset sources and their correctness (C50, C55, C56)

`mbtk/dataset/sources/BinarySyntheticDatasetSource.py` and
`mbtk/dataset/sources/SampledBayesianNetworkDatasetSource.py`.

The state of Python's global `random` generator is an element of an arbitrary type `σ`.
Probabilities are exact rationals: the rounding of `row_count * p_one` is not modelled.
-/
namespace Mbtk.Dataset.Synth
open Mbtk Mbtk.Dataset Mbtk.Dataset.Spec Mbtk.Dataset.Rcv

/-! ## The random generator and its seeding -/

/-- The global generator of Python's `random` module.
BinarySyntheticDatasetSource.py 20-26, 65. -/
structure Rng (σ : Type) where
  /-- `random.seed(n)` -/
  seed : Int → σ
  /-- `random.shuffle(list)` -/
  shuffle : σ → List Int → List Int × σ

/-- The seeding step of `create_dataset_matrix`: BinarySyntheticDatasetSource.py 20-26,
SampledBayesianNetworkDatasetSource.py 75-80.  The state is the global generator and
`self.reset_random_seed`; `other` is `other_random_seed`. -/
def seeding {σ : Type} (rng : Rng σ) (configured : Int) (other : Int) (s : σ × Bool) : σ × Bool :=
  if s.2 = true ∨ (other ≠ -1 ∧ other ≠ configured) then
    if other = -1 then (rng.seed configured, false) else (rng.seed other, false)
  else s

/-- A call of `create_dataset_matrix(other_random_seed=other)`: seed, then generate.
BinarySyntheticDatasetSource.py 20-45. -/
def call {σ α : Type} (rng : Rng σ) (configured : Int) (generate : σ → α × σ) (other : Int)
    (s : σ × Bool) : α × (σ × Bool) :=
  ((generate (seeding rng configured other s).1).1,
   ((generate (seeding rng configured other s).1).2, (seeding rng configured other s).2))

/-- Several calls one after the other, without any other use of `random` in between.
BinarySyntheticDatasetSource.py 20-45, several calls. -/
def calls {σ α : Type} (rng : Rng σ) (configured : Int) (generate : σ → α × σ) :
    List Int → σ × Bool → List α
  | [], _ => []
  | o :: os, s => (call rng configured generate o s).1 ::
      calls rng configured generate os (call rng configured generate o s).2

/-- **C55.**  The datasets that a new source generates by a sequence of calls depend only on its
configuration and on the seeds given to the calls, not on the earlier use of `random` by the
program. -/
theorem source_reproducible {σ α : Type} (rng : Rng σ) (configured : Int) (generate : σ → α × σ)
    (seeds : List Int) (s t : σ) :
    calls rng configured generate seeds (s, true) = calls rng configured generate seeds (t, true) := by
  cases seeds with
  | nil => rfl
  | cons o os =>
    have : seeding rng configured o (s, true) = seeding rng configured o (t, true) := by
      unfold seeding; simp
    simp only [calls, call, this]

/-- **C55.**  A call with a seed of its own (other than the configured one and -1) always generates
the same dataset: whatever the state of `random`, whatever calls were made before. -/
theorem other_seed_reproducible {σ α : Type} (rng : Rng σ) (configured other : Int)
    (generate : σ → α × σ) (h1 : other ≠ -1) (h2 : other ≠ configured) (s t : σ × Bool) :
    call rng configured generate other s = call rng configured generate other t := by
  have : ∀ u : σ × Bool, seeding rng configured other u = (rng.seed other, false) := by
    intro u; unfold seeding; rw [if_pos (.inr ⟨h1, h2⟩), if_neg h1]
  unfold call
  rw [this s, this t]

/-- **C55.**  The first call of a new source without a seed is the call with the configured one. -/
theorem default_seed {σ α : Type} (rng : Rng σ) (configured : Int) (generate : σ → α × σ)
    (s t : σ) (hc : configured ≠ -1) :
    call rng configured generate (-1) (s, true) = call rng configured generate configured (t, true) := by
  have h1 : seeding rng configured (-1) (s, true) = (rng.seed configured, false) := by
    simp [seeding]
  have h2 : seeding rng configured configured (t, true) = (rng.seed configured, false) := by
    simp [seeding, hc]
  unfold call
  rw [h1, h2]

/-! ## The binary synthetic source -/

/-- `int(row_count * p_one)`: truncation. BinarySyntheticDatasetSource.py 63. -/
def onesCount (rowCount : Nat) (p : ℚ) : Int :=
  if 0 ≤ p then ⌊(rowCount : ℚ) * p⌋ else ⌈(rowCount : ℚ) * p⌉

/-- `create_shuffled_binary_column`: BinarySyntheticDatasetSource.py 62-67; a negative multiple
of a list is empty. -/
def shuffledColumn {σ : Type} (rng : Rng σ) (rowCount : Nat) (p : ℚ) (s : σ) : List Int × σ :=
  rng.shuffle s (List.replicate (onesCount rowCount p).toNat 1 ++
    List.replicate ((rowCount : Int) - onesCount rowCount p).toNat 0)

/-- The loop of `create_random_binary_matrix`: BinarySyntheticDatasetSource.py 52-56. -/
def randomColumns {σ : Type} (rng : Rng σ) (rowCount : Nat) : List (Str × ℚ) → σ → List (List Int) × σ
  | [], s => ([], s)
  | (_, p) :: rest, s =>
    ((shuffledColumn rng rowCount p s).1 ::
      (randomColumns rng rowCount rest (shuffledColumn rng rowCount p s).2).1,
     (randomColumns rng rowCount rest (shuffledColumn rng rowCount p s).2).2)

/-- `scipy.sparse.hstack` of columns: `ValueError` without columns and for columns of different
lengths. BinarySyntheticDatasetSource.py 58. -/
def hstack : List (List Int) → Except Err (List (List Int))
  | [] => .error .valueError
  | c :: cs => if ∀ d ∈ cs, d.length = c.length then
      .ok ((List.range c.length).map (fun i => (c :: cs).map (fun d => d.getD i 0)))
    else .error .valueError

/-- `sorted(probabilities_per_column.keys())`, each with its probability:
BinarySyntheticDatasetSource.py 52-53. -/
def sortedItems (d : List (Str × ℚ)) : List (Str × ℚ) :=
  d.insertionSort (fun a b => strLe a.1 b.1 = true)

/-- `'row{}'.format(i)`. BinarySyntheticDatasetSource.py 40. -/
def rowLabel (i : Nat) : Str := ['r', 'o', 'w'] ++ idLabel i

/-- `configuration` of the source. BinarySyntheticDatasetSource.py 15-42. -/
structure Config where
  rowCount : Nat
  features : List (Str × ℚ)
  objectives : List (Str × ℚ)
  seed : Int

/-- `create_dataset_matrix` after the seeding: BinarySyntheticDatasetSource.py 27-45,
`create_random_binary_matrix` 48-59.  When building the features raises, the objectives are not
generated. -/
def generate {σ : Type} (rng : Rng σ) (c : Config) (label : Str) (s : σ) : Except Err DM × σ :=
  match hstack (randomColumns rng c.rowCount (sortedItems c.features) s).1 with
  | .error e => (.error e, (randomColumns rng c.rowCount (sortedItems c.features) s).2)
  | .ok x =>
    ((hstack (randomColumns rng c.rowCount (sortedItems c.objectives)
        (randomColumns rng c.rowCount (sortedItems c.features) s).2).1).map (fun y =>
      ⟨label, ⟨.csr, c.features.length, x⟩, ⟨.csr, c.objectives.length, y⟩,
        (List.range c.rowCount).map rowLabel, (sortedItems c.features).map Prod.fst,
        (sortedItems c.objectives).map Prod.fst, false⟩),
     (randomColumns rng c.rowCount (sortedItems c.objectives)
        (randomColumns rng c.rowCount (sortedItems c.features) s).2).2)

/-! ### Proofs -/

/-- `random.shuffle` only reorders. (Specification.) -/
def Fair {σ : Type} (rng : Rng σ) : Prop := ∀ s l, (rng.shuffle s l).1.Perm l

theorem onesCount_bounds {n : Nat} {p : ℚ} (h0 : 0 ≤ p) (h1 : p ≤ 1) :
    0 ≤ onesCount n p ∧ onesCount n p ≤ n ∧ onesCount n p = ⌊(n : ℚ) * p⌋ := by
  unfold onesCount
  rw [if_pos h0]
  have hn : (0 : ℚ) ≤ n := Nat.cast_nonneg n
  refine ⟨Int.floor_nonneg.2 (mul_nonneg hn h0), ?_, rfl⟩
  have : (n : ℚ) * p ≤ ((n : Int) : ℚ) := by
    have := mul_le_mul_of_nonneg_left h1 hn
    simpa using this
  have := Int.floor_le_floor this
  simpa using this

theorem column_ok {σ : Type} (rng : Rng σ) (hf : Fair rng) (n : Nat) (p : ℚ) (h0 : 0 ≤ p) (h1 : p ≤ 1)
    (s : σ) : (shuffledColumn rng n p s).1.length = n ∧
      ((shuffledColumn rng n p s).1.count 1 : Int) = ⌊(n : ℚ) * p⌋ ∧
      ∀ x ∈ (shuffledColumn rng n p s).1, x = 0 ∨ x = 1 := by
  obtain ⟨b0, b1, b2⟩ := onesCount_bounds (n := n) h0 h1
  have hp := hf s (List.replicate (onesCount n p).toNat 1 ++
    List.replicate ((n : Int) - onesCount n p).toNat 0)
  unfold shuffledColumn
  refine ⟨?_, ?_, ?_⟩
  · rw [hp.length_eq]; simp; omega
  · rw [hp.count_eq, List.count_append, List.count_replicate_self, List.count_replicate]
    simp [← b2, b0]
  · intro x hx
    rw [hp.mem_iff] at hx
    simp only [List.mem_append, List.mem_replicate] at hx
    rcases hx with hx | hx
    · exact .inr hx.2
    · exact .inl hx.2

theorem randomColumns_ok {σ : Type} (rng : Rng σ) (hf : Fair rng) (n : Nat) (d : List (Str × ℚ))
    (hd : ∀ q ∈ d, 0 ≤ q.2 ∧ q.2 ≤ 1) (s : σ) :
    List.Forall₂ (fun col q => col.length = n ∧ (col.count 1 : Int) = ⌊(n : ℚ) * q.2⌋ ∧
      ∀ x ∈ col, x = 0 ∨ x = 1) (randomColumns rng n d s).1 d := by
  induction d generalizing s with
  | nil => exact .nil
  | cons q d ih =>
    obtain ⟨k, p⟩ := q
    refine .cons ?_ (ih (fun q hq => hd q (by simp [hq])) _)
    have := hd (k, p) (by simp)
    exact column_ok rng hf n p this.1 this.2 s

theorem column_back {n : Nat} (cols : List (List Int)) (hc : ∀ c ∈ cols, c.length = n) (j : Nat)
    (hj : j < cols.length) :
    ((List.range n).map (fun i => cols.map (fun d => d.getD i 0))).map (fun row => row.getD j 0) =
      cols[j] := by
  rw [List.map_map]
  apply List.ext_getElem
  · simp [hc cols[j] (List.getElem_mem hj)]
  · intro i h1 h2
    simp [List.getD_eq_getElem?_getD, hj, h2]

theorem hstack_ok {n : Nat} (cols : List (List Int)) (hc : ∀ c ∈ cols, c.length = n)
    (hne : cols ≠ []) :
    hstack cols = .ok ((List.range n).map (fun i => cols.map (fun d => d.getD i 0))) := by
  cases cols with
  | nil => exact absurd rfl hne
  | cons c cs =>
    have h1 := hc c (by simp)
    have h2 : ∀ d ∈ cs, d.length = c.length := fun d hd => by rw [h1, hc d (by simp [hd])]
    simp only [hstack]
    rw [if_pos h2, h1]

/-- The values of the `j`-th feature (objective) over all samples. (Specification.) -/
def columnOf (f : Sample → List (Str × Int)) (t : Table) (j : Nat) : List Int :=
  t.samples.filterMap (fun s => ((f s)[j]?).map Prod.snd)

theorem filterMap_some {α β : Type} (l : List α) (f : α → Option β) (g : α → β)
    (h : ∀ a ∈ l, f a = some (g a)) : l.filterMap f = l.map g := by
  induction l with
  | nil => rfl
  | cons a l ih =>
    rw [List.filterMap_cons, h a (by simp), List.map_cons, ih (fun x hx => h x (by simp [hx]))]

theorem sortedItems_perm (d : List (Str × ℚ)) : (sortedItems d).Perm d := List.perm_insertionSort _ _

theorem sortedItems_sorted (d : List (Str × ℚ)) :
    ((sortedItems d).map Prod.fst).Pairwise (fun a b => strLe a b = true) := by
  unfold sortedItems
  rw [List.pairwise_map]
  have : Std.Total (fun a b : Str × ℚ => strLe a.1 b.1 = true) := ⟨fun a b => strLe_total a.1 b.1⟩
  have : IsTrans (Str × ℚ) (fun a b => strLe a.1 b.1 = true) := ⟨fun _ _ _ => strLe_trans⟩
  exact List.pairwise_insertionSort (fun a b : Str × ℚ => strLe a.1 b.1 = true) d

/-- **C50.**  For every configuration with probabilities between 0 and 1, at least one feature
and one objective, and for every shuffle: the dataset has the samples `row0`, `row1`, …, as many
as configured; its features and objectives are the configured ones, sorted by name; and the
column of each consists of zeros and exactly `⌊row_count * p⌋` ones, `p` being the probability
configured for that name. -/
theorem synthetic_exact {σ : Type} (rng : Rng σ) (hf : Fair rng) (c : Config) (label : Str) (s : σ)
    (hx : ∀ q ∈ c.features, 0 ≤ q.2 ∧ q.2 ≤ 1) (hy : ∀ q ∈ c.objectives, 0 ≤ q.2 ∧ q.2 ≤ 1)
    (hnx : c.features ≠ []) (hny : c.objectives ≠ []) :
    ∃ dm, (generate rng c label s).1 = .ok dm ∧ WellShaped dm ∧ dm.label = label ∧
      dm.final = false ∧
      (table dm).samples.map Sample.label = (List.range c.rowCount).map rowLabel ∧
      dm.colLabelsX.Perm (c.features.map Prod.fst) ∧
      dm.colLabelsX.Pairwise (fun a b => strLe a b = true) ∧
      dm.colLabelsY.Perm (c.objectives.map Prod.fst) ∧
      dm.colLabelsY.Pairwise (fun a b => strLe a b = true) ∧
      (∀ j v, dm.colLabelsX[j]? = some v → ∃ p, (v, p) ∈ c.features ∧
        (columnOf Sample.features (table dm) j).length = c.rowCount ∧
        ((columnOf Sample.features (table dm) j).count 1 : Int) = ⌊(c.rowCount : ℚ) * p⌋ ∧
        ∀ x ∈ columnOf Sample.features (table dm) j, x = 0 ∨ x = 1) ∧
      (∀ j v, dm.colLabelsY[j]? = some v → ∃ p, (v, p) ∈ c.objectives ∧
        (columnOf Sample.objectives (table dm) j).length = c.rowCount ∧
        ((columnOf Sample.objectives (table dm) j).count 1 : Int) = ⌊(c.rowCount : ℚ) * p⌋ ∧
        ∀ x ∈ columnOf Sample.objectives (table dm) j, x = 0 ∨ x = 1) := by
  have hX := randomColumns_ok rng hf c.rowCount (sortedItems c.features)
    (fun q hq => hx q ((sortedItems_perm _).mem_iff.1 hq)) s
  have hY := randomColumns_ok rng hf c.rowCount (sortedItems c.objectives)
    (fun q hq => hy q ((sortedItems_perm _).mem_iff.1 hq))
    (randomColumns rng c.rowCount (sortedItems c.features) s).2
  generalize eX : (randomColumns rng c.rowCount (sortedItems c.features) s).1 = colsX at hX
  generalize eY : (randomColumns rng c.rowCount (sortedItems c.objectives)
    (randomColumns rng c.rowCount (sortedItems c.features) s).2).1 = colsY at hY
  have lX : colsX.length = c.features.length := by
    rw [hX.length_eq, (sortedItems_perm _).length_eq]
  have lY : colsY.length = c.objectives.length := by
    rw [hY.length_eq, (sortedItems_perm _).length_eq]
  have cX : ∀ col ∈ colsX, col.length = c.rowCount := by
    intro col hc
    obtain ⟨i, hi, rfl⟩ := List.getElem_of_mem hc
    exact ((List.forall₂_iff_get.1 hX).2 i hi (by rw [← hX.length_eq]; exact hi)).1
  have cY : ∀ col ∈ colsY, col.length = c.rowCount := by
    intro col hc
    obtain ⟨i, hi, rfl⟩ := List.getElem_of_mem hc
    exact ((List.forall₂_iff_get.1 hY).2 i hi (by rw [← hY.length_eq]; exact hi)).1
  have nX : colsX ≠ [] := by
    intro h; subst h; exact hnx (List.length_eq_zero_iff.1 lX.symm)
  have nY : colsY ≠ [] := by
    intro h; subst h; exact hny (List.length_eq_zero_iff.1 lY.symm)
  refine ⟨⟨label, ⟨.csr, c.features.length, (List.range c.rowCount).map (fun i => colsX.map (fun d => d.getD i 0))⟩,
    ⟨.csr, c.objectives.length, (List.range c.rowCount).map (fun i => colsY.map (fun d => d.getD i 0))⟩,
    (List.range c.rowCount).map rowLabel, (sortedItems c.features).map Prod.fst,
    (sortedItems c.objectives).map Prod.fst, false⟩, ?_, ?_, rfl, rfl, ?_,
    (sortedItems_perm _).map _, sortedItems_sorted _, (sortedItems_perm _).map _,
    sortedItems_sorted _, ?_, ?_⟩
  · unfold generate
    rw [eX, hstack_ok colsX cX nX]
    simp only []
    rw [eY, hstack_ok colsY cY nY]
    rfl
  · constructor <;> simp [lX, lY, (sortedItems_perm _).length_eq]
  · simp only [table]
    rw [List.zip_map', List.zip_map', List.map_map, List.map_map]
    rfl
  · intro j v hv
    simp only [List.getElem?_map, Option.map_eq_some_iff] at hv
    obtain ⟨⟨v', p⟩, hq, rfl⟩ := hv
    obtain ⟨hj, hjq⟩ := List.getElem?_eq_some_iff.1 hq
    have hjX : j < colsX.length := by rw [hX.length_eq]; exact hj
    refine ⟨p, (sortedItems_perm _).mem_iff.1 (List.mem_of_getElem? hq), ?_⟩
    have hcol := (List.forall₂_iff_get.1 hX).2 j hjX hj
    simp only [List.get_eq_getElem, hjq] at hcol
    have : columnOf Sample.features (table ⟨label, ⟨.csr, c.features.length, (List.range c.rowCount).map (fun i => colsX.map (fun d => d.getD i 0))⟩,
      ⟨.csr, c.objectives.length, (List.range c.rowCount).map (fun i => colsY.map (fun d => d.getD i 0))⟩,
      (List.range c.rowCount).map rowLabel, (sortedItems c.features).map Prod.fst,
      (sortedItems c.objectives).map Prod.fst, false⟩) j = colsX[j] := by
      rw [← column_back colsX cX j hjX, List.map_map]
      unfold columnOf
      simp only [table]
      rw [List.zip_map', List.zip_map', List.map_map, List.filterMap_map]
      apply filterMap_some
      intro i _
      simp [hq, hjX, List.zip_eq_zipWith, List.getElem?_zipWith]
    rw [this]
    exact hcol
  · intro j v hv
    simp only [List.getElem?_map, Option.map_eq_some_iff] at hv
    obtain ⟨⟨v', p⟩, hq, rfl⟩ := hv
    obtain ⟨hj, hjq⟩ := List.getElem?_eq_some_iff.1 hq
    have hjY : j < colsY.length := by rw [hY.length_eq]; exact hj
    refine ⟨p, (sortedItems_perm _).mem_iff.1 (List.mem_of_getElem? hq), ?_⟩
    have hcol := (List.forall₂_iff_get.1 hY).2 j hjY hj
    simp only [List.get_eq_getElem, hjq] at hcol
    have : columnOf Sample.objectives (table ⟨label, ⟨.csr, c.features.length, (List.range c.rowCount).map (fun i => colsX.map (fun d => d.getD i 0))⟩,
      ⟨.csr, c.objectives.length, (List.range c.rowCount).map (fun i => colsY.map (fun d => d.getD i 0))⟩,
      (List.range c.rowCount).map rowLabel, (sortedItems c.features).map Prod.fst,
      (sortedItems c.objectives).map Prod.fst, false⟩) j = colsY[j] := by
      rw [← column_back colsY cY j hjY, List.map_map]
      unfold columnOf
      simp only [table]
      rw [List.zip_map', List.zip_map', List.map_map, List.filterMap_map]
      apply filterMap_some
      intro i _
      simp [hq, hjY, List.zip_eq_zipWith, List.getElem?_zipWith]
    rw [this]
    exact hcol

/-- **C50.**  Without features (or without objectives) no dataset is made: `ValueError`. -/
theorem synthetic_no_columns {σ : Type} (rng : Rng σ) (c : Config) (label : Str) (s : σ)
    (h : c.features = [] ∨ (c.objectives = [] ∧ ∃ x, hstack (randomColumns rng c.rowCount
      (sortedItems c.features) s).1 = .ok x)) :
    (generate rng c label s).1 = .error .valueError := by
  rcases h with h | ⟨h, x, hx⟩
  · unfold generate; rw [h]; rfl
  · unfold generate; rw [hx, h]; rfl

/-! ### Concrete cases -/

/-- A generator whose shuffle rotates the list, by a different amount each time. (Example.) -/
def exRng : Rng Nat := ⟨Int.toNat, fun s l => (l.rotate s, s + 1)⟩

theorem exRng_fair : Fair exRng := fun s l => List.rotate_perm l s

/-- (Example.) -/
def exConfig : Config := ⟨4, [("b".toList, 1/2), ("a".toList, 3/10)], [("t".toList, 1)], 1⟩

example : (∀ q ∈ exConfig.features, 0 ≤ q.2 ∧ q.2 ≤ 1) ∧ (∀ q ∈ exConfig.objectives, 0 ≤ q.2 ∧ q.2 ≤ 1) ∧
    exConfig.features ≠ [] ∧ exConfig.objectives ≠ [] := by decide +kernel

example : ((generate exRng exConfig [] 1).1.toOption.map (fun d => (d.colLabelsX, d.X.rows, d.Y.rows))) =
    some (["a".toList, "b".toList], [[0, 0], [0, 0], [0, 1], [1, 1]], [[1], [1], [1], [1]]) := by
  decide +kernel

/-- **Finding (repeated seed).**  A call with the configured seed, given explicitly, is not
reseeded when it is not the first call: with the same seed the same source generates two
different datasets. -/
theorem configured_seed_not_reseeded :
    (calls exRng exConfig.seed (generate exRng exConfig []) [1, 1] (0, true)).map
      (fun r => r.toOption.map (fun d => d.X.rows)) =
    [some [[0, 0], [0, 0], [0, 1], [1, 1]], some [[1, 1], [0, 0], [0, 0], [0, 1]]] := by
  decide +kernel

/-- **Finding (probability above 1).**  A single feature with probability 2 is not rejected: the
matrix gets twice as many rows as there are row labels. -/
theorem probability_above_one_misshapen :
    ((generate exRng ⟨2, [("a".toList, 2)], [("t".toList, 1)], 1⟩ [] 1).1.toOption.map
      (fun d => (d.X.rows, d.Y.rows, d.rowLabels))) =
      some ([[1], [1], [1], [1]], [[1], [1]], ["row0".toList, "row1".toList]) := by
  decide +kernel

/-! ## The sampled Bayesian network source -/

/-- The columns of the matrix of instances that belong to the names, in that order:
SampledBayesianNetworkDatasetSource.py 41-49.  Without instances the matrix has one dimension and
cannot be indexed by column (`IndexError`); a name that is not in the network is a `ValueError` of
`index`, and so is stacking a column of the wrong length. -/
def takeColumns (names : List Str) (instances : List (List Int)) (sampleCount : Nat) :
    List Str → Except Err (List (List Int))
  | [] => .ok []
  | v :: vs =>
    if v ∉ names then .error .valueError
    else if instances = [] then .error .indexError
    else if instances.length ≠ sampleCount then .error .valueError
    else do
      let cols ← takeColumns names instances sampleCount vs
      .ok (instances.map (fun row => row.getD (names.idxOf v) 0) :: cols)

/-- The rows of a matrix with the given columns.
(Models no code: a notion for statements and proofs.) -/
def rowsOf (sampleCount : Nat) (cols : List (List Int)) : List (List Int) :=
  (List.range sampleCount).map (fun i => cols.map (fun c => c.getD i 0))

/-- `sorted(set(names) - set(objectives))`: SampledBayesianNetworkDatasetSource.py 39. -/
def featureNames (names objectives : List Str) : List Str :=
  sortedSet (names.filter (fun v => v ∉ objectives))

/-- `sorted(objectives)`: SampledBayesianNetworkDatasetSource.py 38. -/
def objectiveNames (objectives : List Str) : List Str :=
  objectives.insertionSort (fun a b => strLe a b = true)

/-- `create_dataset_matrix` after the instances were made:
SampledBayesianNetworkDatasetSource.py 32-59.  `names` is `variable_node_names()`; a row of
`instances` lists the values of the variables in that order. -/
def createSampled (names objectives : List Str) (instances : List (List Int)) (sampleCount : Nat)
    (label : Str) : Except Err DM := do
  let x ← takeColumns names instances sampleCount (featureNames names objectives)
  let y ← takeColumns names instances sampleCount (objectiveNames objectives)
  .ok ⟨label, ⟨.csr, (featureNames names objectives).length, rowsOf sampleCount x⟩,
    ⟨.csr, (objectiveNames objectives).length, rowsOf sampleCount y⟩,
    (List.range sampleCount).map rowLabel, featureNames names objectives,
    objectiveNames objectives, false⟩

theorem takeColumns_ok (names : List Str) (instances : List (List Int)) (n : Nat)
    (hl : instances.length = n) (hn : n ≠ 0) (vs : List Str) (hv : ∀ v ∈ vs, v ∈ names) :
    takeColumns names instances n vs =
      .ok (vs.map (fun v => instances.map (fun row => row.getD (names.idxOf v) 0))) := by
  induction vs with
  | nil => rfl
  | cons v vs ih =>
    have hne : instances ≠ [] := by intro h; subst h; simp at hl; omega
    unfold takeColumns
    rw [if_neg (by simpa using hv v (by simp)), if_neg hne, if_neg (by simpa using hl),
      ih (fun x hx => hv x (by simp [hx]))]
    rfl

theorem rowsOf_columns (names : List Str) (instances : List (List Int)) (vs : List Str) :
    rowsOf instances.length (vs.map (fun v => instances.map (fun row => row.getD (names.idxOf v) 0))) =
      instances.map (fun row => vs.map (fun v => row.getD (names.idxOf v) 0)) := by
  unfold rowsOf
  apply List.ext_getElem
  · simp
  · intro i h1 h2
    simp only [List.length_map, List.length_range] at h1
    simp [List.getD_eq_getElem?_getD, h1]

/-- **C56.**  For every matrix of instances (one column per variable of the network, in name
order) and every list of objectives of the network: the dataset has one sample per instance, in
order, labelled `row0`, `row1`, …; its objectives are the configured ones and its features all
other variables, both sorted by name; and each has in each sample exactly the value that the
instance gives to the variable of that name. -/
theorem sampled_dataset_exact (names objectives : List Str)
    (ho : ∀ v ∈ objectives, v ∈ names) (instances : List (List Int))
    (hne : instances ≠ []) (label : Str) :
    ∃ dm, createSampled names objectives instances instances.length label = .ok dm ∧
      WellShaped dm ∧ dm.label = label ∧ dm.final = false ∧
      dm.colLabelsX.Nodup ∧ dm.colLabelsX.Pairwise (fun a b => strLe a b = true) ∧
      (∀ v, v ∈ dm.colLabelsX ↔ v ∈ names ∧ v ∉ objectives) ∧
      dm.colLabelsY.Perm objectives ∧ dm.colLabelsY.Pairwise (fun a b => strLe a b = true) ∧
      (table dm).samples = instances.zipIdx.map (fun p => ⟨rowLabel p.2,
        dm.colLabelsX.map (fun v => (v, p.1.getD (names.idxOf v) 0)),
        dm.colLabelsY.map (fun v => (v, p.1.getD (names.idxOf v) 0))⟩) := by
  have hlen : instances.length ≠ 0 := by simpa using hne
  have hfm : ∀ v, v ∈ featureNames names objectives ↔ v ∈ names ∧ v ∉ objectives := by
    intro v
    unfold featureNames
    rw [sortedSet_mem, List.mem_filter, decide_eq_true_eq]
  have hop : (objectiveNames objectives).Perm objectives := List.perm_insertionSort _ _
  refine ⟨⟨label, ⟨.csr, (featureNames names objectives).length,
      instances.map (fun row => (featureNames names objectives).map (fun v => row.getD (names.idxOf v) 0))⟩,
    ⟨.csr, (objectiveNames objectives).length,
      instances.map (fun row => (objectiveNames objectives).map (fun v => row.getD (names.idxOf v) 0))⟩,
    (List.range instances.length).map rowLabel, featureNames names objectives,
    objectiveNames objectives, false⟩, ?_, ?_, rfl, rfl, sortedSet_nodup _, sortedSet_sorted _, hfm,
    hop, List.pairwise_insertionSort _ _, ?_⟩
  · unfold createSampled
    rw [takeColumns_ok names instances _ rfl hlen _ (fun v hv => ((hfm v).1 hv).1),
      takeColumns_ok names instances _ rfl hlen _ (fun v hv => ho v (hop.mem_iff.1 hv))]
    show Except.ok _ = _
    rw [rowsOf_columns, rowsOf_columns]
  · constructor <;> simp
  · simp only [table]
    rw [List.zip_map']
    apply List.ext_getElem
    · simp
    · intro i h1 h2
      simp [zip_with_map]

/-- **C56.**  An objective that is not a variable of the network raises `ValueError`. -/
theorem unknown_objective_valueError (names objectives : List Str) (instances : List (List Int))
    (hne : instances ≠ []) (label : Str) (h : ∃ v ∈ objectives, v ∉ names) :
    createSampled names objectives instances instances.length label = .error .valueError := by
  have hlen : instances.length ≠ 0 := by simpa using hne
  have hfm : ∀ v, v ∈ featureNames names objectives ↔ v ∈ names ∧ v ∉ objectives := by
    intro v
    unfold featureNames
    rw [sortedSet_mem, List.mem_filter, decide_eq_true_eq]
  unfold createSampled
  rw [takeColumns_ok names instances _ rfl hlen _ (fun v hv => ((hfm v).1 hv).1)]
  have key : ∀ vs : List Str, (∃ v ∈ vs, v ∉ names) →
      takeColumns names instances instances.length vs = .error .valueError := by
    intro vs
    induction vs with
    | nil => simp
    | cons v vs ih =>
      intro hv
      unfold takeColumns
      by_cases hvn : v ∈ names
      · rw [if_neg (by simpa using hvn), if_neg hne, if_neg (by simp)]
        rw [ih ?_]
        · rfl
        · obtain ⟨w, hw, hwn⟩ := hv
          rcases List.mem_cons.1 hw with rfl | hw
          · exact absurd hvn hwn
          · exact ⟨w, hw, hwn⟩
      · rw [if_pos hvn]
  obtain ⟨v, hv, hvn⟩ := h
  have := key (objectiveNames objectives) ⟨v, (List.perm_insertionSort _ _).mem_iff.2 hv, hvn⟩
  show (takeColumns names instances instances.length (objectiveNames objectives) >>= _) = _
  rw [this]
  rfl

/-- **Finding (no samples).**  Asking for no samples raises `IndexError` as soon as there is a
feature. -/
theorem no_samples_indexError (names objectives : List Str) (label : Str)
    (h : ∃ v ∈ names, v ∉ objectives) :
    createSampled names objectives [] 0 label = .error .indexError := by
  have hfm : ∀ v, v ∈ featureNames names objectives ↔ v ∈ names ∧ v ∉ objectives := by
    intro v
    unfold featureNames
    rw [sortedSet_mem, List.mem_filter, decide_eq_true_eq]
  unfold createSampled
  cases hf : featureNames names objectives with
  | nil =>
    obtain ⟨v, hv⟩ := h
    have := (hfm v).2 hv
    rw [hf] at this
    simp at this
  | cons v vs =>
    have hv : v ∈ names := ((hfm v).1 (by rw [hf]; simp)).1
    have : takeColumns names [] 0 (v :: vs) = .error .indexError := by
      unfold takeColumns; rw [if_neg (by simpa using hv), if_pos rfl]
    rw [this]
    rfl

/-- (Example.) -/
def exNames : List Str := ["A".toList, "B".toList, "C".toList]

example : exNames.Nodup ∧ (∀ v ∈ ["B".toList], v ∈ exNames) := by decide +kernel

example : (createSampled exNames ["B".toList] [[0, 1, 2], [3, 4, 5]] 2 []).toOption.map
    (fun d => (d.colLabelsX, d.X.rows, d.Y.rows, d.rowLabels)) =
    some (["A".toList, "C".toList], [[0, 2], [3, 5]], [[1], [4]], ["row0".toList, "row1".toList]) := by
  decide +kernel

end Mbtk.Dataset.Synth
