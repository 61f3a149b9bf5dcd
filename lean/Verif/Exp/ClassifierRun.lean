import Verif.Data.Align
import Verif.Data.Split
import Verif.Exp.Eval
/-!
# A run with a classifier, and data points of runs (C78)

`mbtk/experiment/AlgorithmRun.py` and `mbtk/experiment/AlgorithmRunDatapoint.py`.  The algorithm is an
arbitrary function of the dataset it is given (its parameters are fixed), the classifier an arbitrary
pair of `fit` and `predict`.  Not modelled: times, `gc.collect()`, the text of a data point.
-/
namespace Mbtk.ClassifierRun
open Mbtk Mbtk.Dataset Mbtk.Dataset.Spec Mbtk.Exp

/-- An instance of `classifier_class` seen through `fit` and `predict`; `M` is what it has learnt.
A new instance is made for each run. AlgorithmRun.py 83-85. -/
structure Classifier (M : Type) where
  fit : Matrix → List Int → Except Err M
  predict : M → Matrix → Except Err (List Int)

/-- An experimental dataset; `train` and `test` are `none` if the class has no such attributes.
ExperimentalDataset.py 30-35, ModelBuildingExperimentalDataset.py 45-50. -/
structure ExDs where
  matrix : DM
  train : Option DM
  test : Option DM

variable {M : Type}

/-- What a run with a classifier has found. AlgorithmRun.py 8-25, 48-66. -/
structure Finished (M : Type) where
  mb : List Nat
  model : M
  predictions : List Int
  evaluation : Evaluation

/-- `evaluate_classifier()`: AlgorithmRun.py 73-87, for datasets that are there. -/
def evaluateClassifier (c : Classifier M) (train test : DM) (mb : List Nat) (objective : Int) :
    Except Err (M × List Int × Evaluation) :=
  selectColumnsX train (asInts mb) [] >>= fun dtrain =>
  selectColumnsX test (asInts mb) [] >>= fun dtest =>
  dtrain.Y.column objective >>= fun ytrain =>
  dtest.Y.column objective >>= fun ytest =>
  c.fit dtrain.X ytrain >>= fun model =>
  c.predict model dtest.X >>= fun predictions =>
  evaluate ytest predictions >>= fun e =>
  .ok (model, predictions, e)

/-- `discover_mb()`: AlgorithmRun.py 36-41. -/
def discoverMb (algorithm : Option DM → Except Err (List Nat)) (exds : Option ExDs) :
    Except Err (List Nat) :=
  match exds with
  | some e => algorithm (some e.matrix)
  | none => algorithm none

/-- `AlgorithmAndClassifierRun.run()`: AlgorithmRun.py 28-33 and 64-71.  Without a dataset, or with
one that has no training matrix, the access raises `AttributeError`. -/
def run (algorithm : Option DM → Except Err (List Nat)) (c : Classifier M) (objective : Int)
    (exds : Option ExDs) : Except Err (Finished M) :=
  discoverMb algorithm exds >>= fun mb =>
  match exds with
  | none => .error .attributeError
  | some e =>
    match e.train with
    | none => .error .attributeError
    | some train =>
      match e.test with
      | none =>
        -- the training part of line 74 is evaluated first
        match selectColumnsX train (asInts mb) [] with
        | .error err => .error err
        | .ok _ => .error .attributeError
      | some test =>
        evaluateClassifier c train test mb objective >>= fun r =>
        .ok ⟨mb, r.1, r.2.1, r.2.2⟩

/-! ## Specification -/

namespace Spec

/-- The columns of a blanket in increasing order. (Specification.) -/
def increasing (mb : List Nat) : List Nat := mb.insertionSort (· ≤ ·)

/-- The features of the samples, restricted to the given columns. (Specification.) -/
def featuresOf (d : DM) (cols : List Nat) : List (List Int) :=
  d.X.rows.map (fun row => cols.map (fun c => row.getD c 0))

/-- The objective of each sample. (Specification.) -/
def objectiveOf (d : DM) (p : Nat) : List Int := d.Y.rows.map (fun row => row.getD p 0)

/-- The columns exist in the dataset. (Specification.) -/
def Has (d : DM) (cols : List Nat) : Prop := ∀ c ∈ cols, c < d.X.ncols

/-- Two datasets have the same samples as far as the blanket and the objective go. (Specification.) -/
structure SameOn (mb : List Nat) (p : Nat) (d d' : DM) : Prop where
  features : ∀ cols : List Nat, (∀ c ∈ cols, c ∈ mb) → featuresOf d cols = featuresOf d' cols
  objective : objectiveOf d p = objectiveOf d' p
  storage : d.X.format = d'.X.format

end Spec
open Spec

/-! ## Selection -/

theorem asInts_sort (mb : List Nat) :
    (asInts mb).insertionSort (· ≤ ·) = asInts (mb.insertionSort (· ≤ ·)) := by
  unfold asInts
  exact (List.map_insertionSort (· ≤ ·) (· ≤ ·) (fun c : Nat => (c : Int)) mb
    (fun a _ b _ => by exact_mod_cast Iff.rfl)).symm

theorem asInts_means {n : Nat} {ps : List Nat} (h : ∀ p ∈ ps, p < n) :
    List.Forall₂ (IndexMeans n) (asInts ps) ps := by
  induction ps with
  | nil => exact .nil
  | cons p ps ih =>
    exact .cons ⟨h p (by simp), .inl rfl⟩ (ih (fun q hq => h q (by simp [hq])))

theorem elementsAt_getD (row : List Int) (ps : List Nat) (h : ∀ p ∈ ps, p < row.length) :
    elementsAt row ps = ps.map (fun c => row.getD c 0) := by
  unfold elementsAt
  induction ps with
  | nil => rfl
  | cons p ps ih =>
    have hp := h p (by simp)
    rw [List.filterMap_cons, List.map_cons, ← ih (fun q hq => h q (by simp [hq]))]
    simp [hp]

theorem mem_increasing {mb : List Nat} {p : Nat} : p ∈ increasing mb ↔ p ∈ mb :=
  (List.perm_insertionSort _ _).mem_iff

/-- What the selected dataset is. -/
theorem select_ok {d : DM} (h : WellShaped d) {mb : List Nat} (hne : mb ≠ []) (hm : Has d mb) :
    ∃ d', selectColumnsX d (asInts mb) [] = .ok d' ∧ d'.Y = d.Y ∧
      d'.X = ⟨d.X.format, (increasing mb).length, featuresOf d (increasing mb)⟩ := by
  have hlt : ∀ p ∈ increasing mb, p < d.X.ncols := fun p hp => hm p (mem_increasing.1 hp)
  have hps := asInts_means hlt
  unfold selectColumnsX Matrix.selectCols
  rw [if_neg (by simpa [asInts] using hne), asInts_sort]
  have : mb.insertionSort (· ≤ ·) = increasing mb := rfl
  rw [this, (pyPositions_ok_iff _ _ _).2 hps]
  have hps' : List.Forall₂ (IndexMeans d.colLabelsX.length) (asInts (increasing mb)) (increasing mb) := by
    rw [← h.colsX]; exact hps
  show ∃ d', (pyTake d.colLabelsX _ >>= _) = _ ∧ _
  rw [pyTake_ok hps']
  refine ⟨_, rfl, rfl, ?_⟩
  show Matrix.mk _ _ _ = _
  congr 1
  unfold featuresOf
  apply List.map_congr_left
  intro row hrow
  exact elementsAt_getD row _ (by rw [h.rectX row hrow]; exact hlt)

theorem column_ok {m : Matrix} {i : Int} {p : Nat} (h : IndexMeans m.ncols i p) :
    m.column i = .ok (m.rows.map (fun row => row.getD p 0)) := by
  unfold Matrix.column
  rw [(pyPos_ok_iff _ _ _).2 h]
  rfl

/-! ## The theorems -/

/-- **C78, what the classifier sees.**  With well-shaped training and test data in which the columns of
the blanket and the objective exist, the classifier is fitted to exactly the training samples
restricted to the blanket (columns in increasing order) and the objective of each, predicts for
exactly the test samples restricted in the same way, and the evaluation compares its predictions
with the objective of the test samples. -/
theorem evaluation_exact (c : Classifier M) (train test : DM) (mb : List Nat) (objective : Int)
    {p q : Nat} (ht : WellShaped train) (hs : WellShaped test) (hne : mb ≠ [])
    (hmt : Has train mb) (hms : Has test mb) (hp : IndexMeans train.Y.ncols objective p)
    (hq : IndexMeans test.Y.ncols objective q) :
    evaluateClassifier c train test mb objective =
      (c.fit ⟨train.X.format, (increasing mb).length, featuresOf train (increasing mb)⟩
          (objectiveOf train p) >>= fun model =>
        c.predict model ⟨test.X.format, (increasing mb).length, featuresOf test (increasing mb)⟩
          >>= fun predictions =>
        evaluate (objectiveOf test q) predictions >>= fun e => .ok (model, predictions, e)) := by
  obtain ⟨d1, h1, hy1, hx1⟩ := select_ok ht hne hmt
  obtain ⟨d2, h2, hy2, hx2⟩ := select_ok hs hne hms
  unfold evaluateClassifier
  rw [h1]
  show (selectColumnsX test (asInts mb) [] >>= _) = _
  rw [h2]
  show (d1.Y.column objective >>= _) = _
  rw [hy1, column_ok hp]
  show (d2.Y.column objective >>= _) = _
  rw [hy2, column_ok hq, hx1, hx2]
  rfl

/-- **C78, nothing else matters.**  Two pairs of training and test data that agree on the columns of
the blanket and on the objective give the same learnt model, the same predictions and the same
evaluation. -/
theorem only_blanket_matters (c : Classifier M) {train train' test test' : DM} (mb : List Nat)
    (objective : Int) {p q : Nat}
    (ht : WellShaped train) (hs : WellShaped test) (ht' : WellShaped train') (hs' : WellShaped test')
    (hne : mb ≠ []) (hmt : Has train mb) (hms : Has test mb) (hmt' : Has train' mb)
    (hms' : Has test' mb)
    (hp : IndexMeans train.Y.ncols objective p) (hq : IndexMeans test.Y.ncols objective q)
    (hp' : IndexMeans train'.Y.ncols objective p) (hq' : IndexMeans test'.Y.ncols objective q)
    (st : SameOn mb p train train') (ss : SameOn mb q test test') :
    evaluateClassifier c train test mb objective = evaluateClassifier c train' test' mb objective := by
  have hin : ∀ x ∈ increasing mb, x ∈ mb := fun x hx => mem_increasing.1 hx
  rw [evaluation_exact c train test mb objective ht hs hne hmt hms hp hq,
    evaluation_exact c train' test' mb objective ht' hs' hne hmt' hms' hp' hq',
    st.features _ hin, ss.features _ hin, st.objective, ss.objective, st.storage, ss.storage]

theorem increasing_perm {mb mb' : List Nat} (h : mb.Perm mb') : increasing mb = increasing mb' := by
  apply List.Perm.eq_of_pairwise (le := fun a b : Nat => a ≤ b)
  · intro a b _ _ h1 h2; exact Nat.le_antisymm h1 h2
  · exact List.pairwise_insertionSort _ _
  · exact List.pairwise_insertionSort _ _
  · exact ((List.perm_insertionSort _ _).trans h).trans (List.perm_insertionSort _ _).symm

/-- **C78, the order of the blanket does not matter.** -/
theorem blanket_order_irrelevant (c : Classifier M) (train test : DM) {mb mb' : List Nat}
    (objective : Int) (h : mb.Perm mb') :
    evaluateClassifier c train test mb objective = evaluateClassifier c train test mb' objective := by
  have e : ∀ d : DM, selectColumnsX d (asInts mb) [] = selectColumnsX d (asInts mb') [] := by
    intro d
    unfold selectColumnsX
    rw [asInts_sort, asInts_sort, show mb.insertionSort (· ≤ ·) = mb'.insertionSort (· ≤ ·) from
      increasing_perm h]
    have : (asInts mb = []) ↔ (asInts mb' = []) := by
      simp only [asInts, List.map_eq_nil_iff]
      constructor
      · intro hh; subst hh; exact h.nil_eq.symm
      · intro hh; subst hh; exact h.symm.nil_eq.symm
    by_cases hh : asInts mb = []
    · rw [if_pos hh, if_pos (this.1 hh)]
    · rw [if_neg hh, if_neg (fun x => hh (this.2 x))]
  unfold evaluateClassifier
  rw [e train, e test]

/-- **C78, evaluation counts.**  If the classifier predicts one value per sample, the four counts of a
finished run add up to the number of test samples. -/
theorem counts_are_test_samples (c : Classifier M) (train test : DM) (mb : List Nat) (objective : Int)
    {p q : Nat} (ht : WellShaped train) (hs : WellShaped test) (hne : mb ≠ [])
    (hmt : Has train mb) (hms : Has test mb) (hp : IndexMeans train.Y.ncols objective p)
    (hq : IndexMeans test.Y.ncols objective q)
    (hc : ∀ m x ys, c.predict m x = .ok ys → ys.length = x.rows.length)
    {r : M × List Int × Evaluation} (h : evaluateClassifier c train test mb objective = .ok r) :
    r.2.2.TP + r.2.2.TN + r.2.2.FP + r.2.2.FN = test.X.rows.length := by
  rw [evaluation_exact c train test mb objective ht hs hne hmt hms hp hq] at h
  cases hf : c.fit ⟨train.X.format, (increasing mb).length, featuresOf train (increasing mb)⟩
      (objectiveOf train p) with
  | error e => rw [hf] at h; cases h
  | ok model =>
    rw [hf] at h
    cases hpr : c.predict model ⟨test.X.format, (increasing mb).length, featuresOf test (increasing mb)⟩ with
    | error e =>
      have h : (c.predict model _ >>= _) = Except.ok r := h
      rw [hpr] at h; cases h
    | ok ys =>
      have h : (c.predict model _ >>= _) = Except.ok r := h
      rw [hpr] at h
      have hl : (objectiveOf test q).length = ys.length := by
        rw [hc _ _ _ hpr]
        simp [objectiveOf, featuresOf, hs.rowsX, hs.rowsY]
      obtain ⟨e, he, _, _, _, _, hsum⟩ := evaluation_counts (objectiveOf test q) ys hl
      have h : (evaluate (objectiveOf test q) ys >>= _) = Except.ok r := h
      rw [he] at h
      cases h
      show e.TP + e.TN + e.FP + e.FN = _
      rw [hsum]
      simp [objectiveOf, hs.rowsX, hs.rowsY]

/-- **C78, the whole run.**  A run on a dataset with training and test data gives the blanket that the
algorithm finds in the *whole* dataset, and the evaluation of the classifier with this blanket. -/
theorem run_exact (algorithm : Option DM → Except Err (List Nat)) (c : Classifier M) (objective : Int)
    (d train test : DM) (f : Finished M) :
    run algorithm c objective (some ⟨d, some train, some test⟩) = .ok f ↔
      algorithm (some d) = .ok f.mb ∧
      evaluateClassifier c train test f.mb objective = .ok (f.model, f.predictions, f.evaluation) := by
  show (algorithm (some d) >>= fun mb => evaluateClassifier c train test mb objective >>= fun r =>
    Except.ok (⟨mb, r.1, r.2.1, r.2.2⟩ : Finished M)) = _ ↔ _
  cases ha : algorithm (some d) with
  | error e =>
    constructor
    · intro h; cases h
    · intro h; cases h.1
  | ok mb =>
    show (evaluateClassifier c train test mb objective >>= _) = _ ↔ _
    rw [Except.ok.injEq]
    constructor
    · intro h
      cases he : evaluateClassifier c train test mb objective with
      | error e => rw [he] at h; cases h
      | ok r =>
        rw [he] at h
        cases h
        exact ⟨rfl, he⟩
    · rintro ⟨rfl, he⟩
      rw [he]
      rfl

/-- **C78, finding: an empty blanket.**  If the algorithm finds an empty blanket, the run ends with
`ValueError` (and with it the whole experiment, see C57). -/
theorem empty_blanket_raises (algorithm : Option DM → Except Err (List Nat)) (c : Classifier M)
    (objective : Int) (d train test : DM) (h : algorithm (some d) = .ok []) :
    run algorithm c objective (some ⟨d, some train, some test⟩) = .error .valueError := by
  unfold run discoverMb
  simp only [h]
  rfl

/-- Without a dataset, or with one without training data, the run ends with `AttributeError`, after the
blanket was found. -/
theorem no_training_data (algorithm : Option DM → Except Err (List Nat)) (c : Classifier M)
    (objective : Int) (mb : List Nat) :
    (algorithm none = .ok mb → run algorithm c objective none = .error .attributeError) ∧
    ∀ d t, algorithm (some d) = .ok mb →
      run algorithm c objective (some ⟨d, none, t⟩) = .error .attributeError := by
  constructor
  · intro h; unfold run discoverMb; simp only [h]; rfl
  · intro d t h; unfold run discoverMb; simp only [h]; rfl

/-! ## Data points -/

/-- A value in the dictionary of parameters: callable or not, with its text. (Python itself.) -/
inductive Value where
  | callable (name : Str)
  | other (text : Str)
  /-- a string -/
  | str (s : Str)
  deriving DecidableEq, Repr

/-- `str(v)`. AlgorithmRunDatapoint.py 22. -/
def Value.text : Value → Str
  | .callable n => n
  | .other t => t
  | .str s => s

/-- `callable(v)`. AlgorithmRunDatapoint.py 21. -/
def Value.isCallable : Value → Bool
  | .callable _ => true
  | _ => false

/-- `pickleable_parameters(parameters)`: AlgorithmRunDatapoint.py 18-24; the loop assigns to the keys
that it visits, in a copy of the dictionary. -/
def pickleable (params : List (Str × Value)) : List (Str × Value) :=
  params.foldl (fun d kv => if kv.2.isCallable then d else dictSet d kv.1 (.str kv.2.text)) params

/-- `AlgorithmRunDatapoint(algorithm_run)`: AlgorithmRunDatapoint.py 8-15, without the times. -/
structure Datapoint where
  parameters : List (Str × Value)
  id : Str
  algorithmName : Str
  mb : List Nat
  deriving DecidableEq, Repr

theorem dictSet_self_map (params : List (Str × Value)) (hn : (params.map Prod.fst).Nodup)
    (f : Str × Value → Value) (g : Str × Value → Bool) :
    params.foldl (fun d kv => if g kv then d else dictSet d kv.1 (f kv)) params =
      params.map (fun kv => if g kv then kv else (kv.1, f kv)) := by
  have key : ∀ (post pre : List (Str × Value)), ((pre ++ post).map Prod.fst).Nodup →
      post.foldl (fun d kv => if g kv then d else dictSet d kv.1 (f kv)) (pre ++ post) =
        pre ++ post.map (fun kv => if g kv then kv else (kv.1, f kv)) := by
    intro post
    induction post with
    | nil => intro pre _; simp
    | cons kv post ih =>
      intro pre hn
      have hset : ∀ (pre : List (Str × Value)) (v : Value), kv.1 ∉ pre.map Prod.fst →
          dictSet (pre ++ kv :: post) kv.1 v = pre ++ (kv.1, v) :: post := by
        intro pre v hk
        induction pre with
        | nil =>
          obtain ⟨k, w⟩ := kv
          simp [dictSet]
        | cons p pre ihp =>
          obtain ⟨k', v'⟩ := p
          have hne : k' ≠ kv.1 := fun e => hk (by simp [e])
          simp only [List.cons_append, dictSet, if_neg hne]
          rw [ihp (fun hh => hk (by simp only [List.map_cons, List.mem_cons]; exact .inr hh))]
      have hk : kv.1 ∉ pre.map Prod.fst := by
        intro hm
        rw [List.map_append, List.nodup_append] at hn
        exact hn.2.2 _ hm _ (by simp) rfl
      rw [List.foldl_cons, List.map_cons]
      cases hg : g kv with
      | true =>
        have := ih (pre ++ [kv]) (by simpa using hn)
        simpa [hg] using this
      | false =>
        simp only [Bool.false_eq_true, if_false]
        rw [hset pre (f kv) hk]
        have := ih (pre ++ [(kv.1, f kv)]) (by simpa using hn)
        simpa using this
  exact key params [] hn

/-- **C78, data points.**  The parameters in a data point are those of the run, in the same order:
callables unchanged, everything else replaced by its text.  Doing it again changes nothing. -/
theorem datapoint_parameters (params : List (Str × Value)) (hn : (params.map Prod.fst).Nodup) :
    pickleable params = params.map (fun kv => (kv.1, match kv.2 with
      | .callable n => .callable n
      | .other t => .str t
      | .str s => .str s)) ∧
    (pickleable params).map Prod.fst = params.map Prod.fst ∧
    pickleable (pickleable params) = pickleable params := by
  have key : ∀ params : List (Str × Value), (params.map Prod.fst).Nodup →
      pickleable params = params.map (fun kv => (kv.1, match kv.2 with
      | .callable n => .callable n
      | .other t => .str t
      | .str s => .str s)) := by
    intro params hn
    unfold pickleable
    rw [dictSet_self_map params hn (fun kv => .str kv.2.text) (fun kv => kv.2.isCallable)]
    apply List.map_congr_left
    rintro ⟨k, v⟩ _
    cases v <;> rfl
  have hk : (pickleable params).map Prod.fst = params.map Prod.fst := by
    rw [key params hn, List.map_map]; rfl
  refine ⟨key params hn, hk, ?_⟩
  rw [key (pickleable params) (by rw [hk]; exact hn), key params hn, List.map_map]
  apply List.map_congr_left
  rintro ⟨k, v⟩ _
  cases v <;> rfl

/-! ## Examples -/

/-- A dataset with two features and one objective. (Example.) -/
def exDM (rows : List (Int × Int × Int)) : DM where
  label := "d".toList
  X := ⟨.csr, 2, rows.map (fun r => [r.1, r.2.1])⟩
  Y := ⟨.csr, 1, rows.map (fun r => [r.2.2])⟩
  rowLabels := rows.map (fun _ => "r".toList)
  colLabelsX := ["a".toList, "b".toList]
  colLabelsY := ["y".toList]
  final := false

theorem exDM_shaped (rows : List (Int × Int × Int)) : WellShaped (exDM rows) := by
  constructor <;> simp [exDM]
  · intro row a b c _ e; subst e; rfl
  · intro row a b c _ e; subst e; rfl

/-- A classifier that remembers which column it was given and predicts its values. (Example.) -/
def exClassifier : Classifier (List (List Int)) where
  fit := fun x _ => .ok x.rows
  predict := fun _ x => .ok (x.rows.map (fun r => r.getD 0 0))

/-- An algorithm that takes the feature that agrees more often with the objective. (Example.) -/
def exAlgorithm : Option DM → Except Err (List Nat)
  | none => .error .attributeError
  | some d =>
    let agree := fun c => ((d.X.rows.zip d.Y.rows).filter
      (fun r => r.1.getD c 0 = r.2.getD 0 0)).length
    .ok [if agree 1 < agree 0 then 0 else 1]

/-- A run that ends: the blanket is the first feature, evaluated on two test samples. -/
example : (run exAlgorithm exClassifier 0
    (some ⟨exDM [(1, 0, 1), (0, 1, 0), (1, 1, 1), (0, 0, 1)], some (exDM [(1, 0, 1), (0, 1, 0)]),
      some (exDM [(1, 1, 1), (0, 0, 1)])⟩)).map (fun f => (f.mb, f.evaluation)) =
    .ok ([0], ⟨1, 0, 0, 1⟩) := by decide +kernel

/-- The hypotheses of `evaluation_exact` are met by this example. -/
example : Has (exDM [(1, 0, 1)]) [0] ∧ IndexMeans (exDM [(1, 0, 1)]).Y.ncols 0 0 := by
  constructor
  · intro c hc; simp at hc; subst hc; decide
  · exact ⟨by decide, .inl rfl⟩

/-- **C78, finding: test samples take part in learning.**  The blanket is discovered in the whole
dataset, test samples included: two experiments with the same training data, the same algorithm and
the same classifier learn different models because their test samples differ. -/
theorem test_data_leaks : ∃ train test test' : List (Int × Int × Int),
    ∃ f f' : Finished (List (List Int)),
    run exAlgorithm exClassifier 0
      (some ⟨exDM (train ++ test), some (exDM train), some (exDM test)⟩) = .ok f ∧
    run exAlgorithm exClassifier 0
      (some ⟨exDM (train ++ test'), some (exDM train), some (exDM test')⟩) = .ok f' ∧
    f.model ≠ f'.model := by
  refine ⟨[(1, 0, 1), (0, 1, 1)], [(1, 0, 1)], [(0, 1, 1)],
    ⟨[0], [[1], [0]], [1], ⟨1, 0, 0, 0⟩⟩, ⟨[1], [[0], [1]], [1], ⟨1, 0, 0, 0⟩⟩, ?_, ?_, by decide⟩
  · rw [run_exact]; exact ⟨by rfl, by rfl⟩
  · rw [run_exact]; exact ⟨by rfl, by rfl⟩

/-- The parameters of a data point. -/
example : pickleable [("ID".toList, .str "r1".toList), ("target".toList, .other "3".toList),
    ("ci_test_class".toList, .callable "G_test".toList)] =
    [("ID".toList, .str "r1".toList), ("target".toList, .str "3".toList),
      ("ci_test_class".toList, .callable "G_test".toList)] := by decide +kernel

end Mbtk.ClassifierRun
