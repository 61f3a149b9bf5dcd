import Verif.Exp.DcmiSetup
import Mathlib.Data.Real.Basic
import Mathlib.Data.List.Sort
import Mathlib.Data.List.Lex
import Mathlib.Data.Char
import Mathlib.Algebra.BigOperators.Group.List.Basic
import Mathlib.Algebra.Order.BigOperators.Group.List
import Mathlib.Tactic.FieldSimp
import Mathlib.Tactic.Positivity
/-!
# The summary and the plots of the dcMI experiment (`experiments/experiment_dcmi/commands.py`) (C89)

What `summary show` and `plot create` make of the files that the runs left behind.  Numbers are exact
(reals).  Not modelled: sizes of objects (`asizeof`, given with the file) and their text (`naturalsize`),
the layout of the printed text, drawing.
-/
namespace Mbtk.DcmiSummary
open Mbtk Mbtk.Dataset Mbtk.Dataset.Rcv Mbtk.DcmiSetup
open Mbtk.DsepSetup (subfolder)
open Mbtk.Exp (Path)

/-- What `adtree analyze` saved about a tree. experiment_dcmi/commands.py 161-167. -/
structure Analysis where
  llt : Int
  nodes : Nat
  duration : ℝ
  size : Nat

/-- A table of joint entropies in a file: its size in memory, the numbers of reads and misses, and the sizes
of its other keys. experiment_dcmi/commands.py 300-309. -/
structure Jht where
  size : Nat
  reads : Int
  misses : Int
  keySizes : List Nat

/-- A cache of degrees of freedom in a file. experiment_dcmi/commands.py 318-321. -/
structure DofCache where
  size : Nat
  keySizes : List Nat

/-- What the runs and `adtree analyze` left in files: of CI test results and data points, only the
durations. experiment_dcmi/commands.py 330-422, 443-447. -/
structure Files where
  citr : Path → Option (List ℝ)
  datapoint : Path → Option ℝ
  analysis : Path → Option Analysis
  jht : Path → Option Jht
  dof : Path → Option DofCache

/-- `statistics.median(data)`. (Python itself.) -/
noncomputable def median (data : List ℝ) : ℝ :=
  let s := data.insertionSort (· ≤ ·)
  if data.length % 2 = 1 then s.getD (data.length / 2) 0
  else (s.getD (data.length / 2 - 1) 0 + s.getD (data.length / 2) 0) / 2

/-- `max(data)`; `ValueError` if there is nothing. (Python itself.) -/
def maximum {α : Type} [Max α] : List α → Except Err α
  | [] => .error .valueError
  | a :: rest => .ok (rest.foldl max a)

/-- `list(load_citr_for_algrun_list(algruns))`: experiment_dcmi/commands.py 357-361, 443-447. -/
def loadCitr (F : Files) : List Params → Except Err (List ℝ)
  | [] => .ok []
  | p :: ps =>
    match F.citr p.citr with
    | none => .error Exp.fileNotFound
    | some r =>
      match loadCitr F ps with
      | .error e => .error e
      | .ok rs => .ok (r ++ rs)

/-- `load_datapoints(experimental_setup, algruns)`: experiment_dcmi/commands.py 330-343. -/
def loadDatapoints (F : Files) (S : Setup) (algruns : List Params) : List ℝ :=
  algruns.filterMap (fun p => F.datapoint (datapointFile S p))

/-- The file of the analysis of a tree: `analysis_path / tree_path.name`.
experiment_dcmi/commands.py 151-153, 366-371. -/
def analysisFile (S : Setup) (tree : Path) : Path :=
  subfolder (definition S) "adtree_analysis".toList ++ [tree.getLastD []]

/-- `load_adtrees_analysis(experimental_setup)`: experiment_dcmi/commands.py 365-385 (the runs that have a
tree have both other entries). -/
def loadAnalyses (F : Files) (S : Setup) : List Params → List (Str × Analysis) → List (Str × Analysis)
  | [], d => d
  | p :: ps, d =>
    match p.treeLoad with
    | none => loadAnalyses F S ps d
    | some path =>
      match F.analysis (analysisFile S path) with
      | none => loadAnalyses F S ps d
      | some a =>
        loadAnalyses F S ps (dictSet d ("adtree-".toList ++ (p.treeType.getD [] ++ ("-llt".toList ++
          p.llt.getD []))) a)

/-- `load_jht(experimental_setup)`: experiment_dcmi/commands.py 389-403 (the first run that has the entry
decides). -/
def loadJht (F : Files) : List Params → Except Err (Option Jht)
  | [] => .ok none
  | p :: ps =>
    match p.jhtSave with
    | none => loadJht F ps
    | some path =>
      match F.jht path with
      | none => .error Exp.fileNotFound
      | some j => .ok (some j)

/-- `load_dof_cache(experimental_setup)`: experiment_dcmi/commands.py 407-422. -/
def loadDof (F : Files) : List Params → Except Err (Option DofCache)
  | [] => .ok none
  | p :: ps =>
    match p.dofSave with
    | none => loadDof F ps
    | some path =>
      match F.dof path with
      | none => .error Exp.fileNotFound
      | some j => .ok (some j)

/-- The entries about the caches of dcMI: experiment_dcmi/commands.py 310-324. -/
structure CacheNumbers where
  jhtSize : Nat
  entries : Nat
  reads : Int
  hits : Int
  misses : Int
  hitRate : ℝ
  maxKey : Nat
  dofSize : Nat
  dofEntries : Nat
  dofMaxKey : Nat

/-- The numbers of a summary: experiment_dcmi/commands.py 283-324. -/
structure Numbers where
  datapoints : Nat
  tests : Nat
  duration : ℝ
  ciDuration : ℝ
  average : ℝ
  perSecond : ℝ
  longest : ℝ
  median : ℝ
  tree : Option Analysis
  caches : Option CacheNumbers

/-- A summary; without numbers it has the entry 'Error': 'No CI tests found'.
experiment_dcmi/commands.py 259-276. -/
structure Summary where
  runs : Nat
  numbers : Option Numbers

/-- experiment_dcmi/commands.py 262, 292, 246. -/
def isTreeTag (tag : Str) : Bool := "adtree".toList.isPrefixOf tag

/-- The part for the tag `dcmi`; `None` cannot be subscripted, and has no length.
experiment_dcmi/commands.py 299-324. -/
noncomputable def cacheNumbers (F : Files) (ps : List Params) : Except Err CacheNumbers :=
  loadJht F ps >>= fun jht =>
  match jht with
  | none => .error .typeError
  | some j =>
    if j.reads = 0 then .error .zeroDivision
    else maximum j.keySizes >>= fun k =>
      loadDof F ps >>= fun dof =>
      match dof with
      | none => .error .typeError
      | some d => maximum d.keySizes >>= fun l =>
        .ok ⟨j.size, j.keySizes.length, j.reads, j.reads - j.misses, j.misses,
          ((j.reads - j.misses : ℤ) : ℝ) / ((j.reads : ℤ) : ℝ), k, d.size, d.keySizes.length, l⟩

/-- The numbers about tests that were found: experiment_dcmi/commands.py 278-326. -/
noncomputable def testNumbers (F : Files) (S : Setup) (ps algruns : List Params) (tag : Str)
    (analysis : Option Analysis) (citr : List ℝ) : Except Err Numbers :=
  if citr.sum = 0 then .error .zeroDivision
  else maximum citr >>= fun m =>
    (if tag = "dcmi".toList then (cacheNumbers F ps).map some else .ok none) >>= fun caches =>
    .ok ⟨(loadDatapoints F S algruns).length, citr.length, (loadDatapoints F S algruns).sum, citr.sum,
      citr.sum / citr.length, citr.length / citr.sum, m, DcmiSummary.median citr, analysis, caches⟩

/-- `create_summary(experimental_setup, tag, adtree_analysis)`: experiment_dcmi/commands.py 258-326.  `ps` are
the runs of the set-up. -/
noncomputable def createSummary (F : Files) (S : Setup) (ps : List Params) (analyses : List (Str × Analysis))
    (tag : Str) : Except Err Summary :=
  if isTreeTag tag = true ∧ dictGet analyses tag = none then .error .keyError
  else
    match (loadCitr F (byTag tag ps)).toOption.getD [] with
    | [] => .ok ⟨(byTag tag ps).length, none⟩
    | c :: cs =>
      testNumbers F S ps (byTag tag ps) tag (if isTreeTag tag then dictGet analyses tag else none) (c :: cs)
        >>= fun numbers => .ok ⟨(byTag tag ps).length, some numbers⟩

/-- What is printed for a tag: experiment_dcmi/commands.py 243-254. -/
structure Shown where
  tag : Str
  cached : Bool
  summary : Summary
  /-- the entry 'AD-tree absolute size (B):' -/
  treeSize : Option Nat

/-- The file of a summary (a tag with a slash would name a folder). experiment_dcmi/commands.py 224, 228. -/
def summaryFile (S : Setup) (tag : Str) : Path :=
  subfolder (definition S) "summaries".toList ++ [tag ++ ".pickle".toList]

/-- One turn of the loop of `command_summary_show`: experiment_dcmi/commands.py 228-254.  `saved` are the
files of summaries. -/
noncomputable def showTag (F : Files) (S : Setup) (ps : List Params) (analyses : List (Str × Analysis))
    (refresh : Bool) (saved : List (Path × Summary)) (tag : Str) :
    Except Err (List (Path × Summary) × Shown) :=
  match (if refresh then none else dictGet saved (summaryFile S tag)) with
  | some s => .ok (saved, ⟨tag, true, s, if isTreeTag tag then (dictGet analyses tag).map Analysis.size else none⟩)
  | none =>
    match createSummary F S ps analyses tag with
    | .error e => .error e
    | .ok s => .ok (dictSet saved (summaryFile S tag) s,
        ⟨tag, false, s, if isTreeTag tag then (dictGet analyses tag).map Analysis.size else none⟩)

/-- The loop: experiment_dcmi/commands.py 227-254; what was saved and printed before an exception stays. -/
noncomputable def showLoop (F : Files) (S : Setup) (ps : List Params) (analyses : List (Str × Analysis))
    (refresh : Bool) :
    List (Path × Summary) → List Str → List (Path × Summary) × List Shown × Option Err
  | saved, [] => (saved, [], none)
  | saved, tag :: tags =>
    match showTag F S ps analyses refresh saved tag with
    | .error e => (saved, [], some e)
    | .ok (saved', shown) =>
      let r := showLoop F S ps analyses refresh saved' tags
      (r.1, shown :: r.2.1, r.2.2)

/-- `tags.split(',')`, or the default tags: experiment_dcmi/commands.py 218-222. -/
def tagsOfArgument : Option Str → List Str
  | none => defaultTags
  | some s => s.splitOn ','

/-- `command_summary_show(experimental_setup)`: experiment_dcmi/commands.py 217-254. -/
noncomputable def summaryShow (F : Files) (S : Setup) (ps : List Params) (tags : Option Str) (refresh : Bool)
    (saved : List (Path × Summary)) : List (Path × Summary) × List Shown × Option Err :=
  showLoop F S ps (loadAnalyses F S ps []) refresh saved (tagsOfArgument tags)

/-! ## Plots -/

/-- `itertools.accumulate(durations)` from a total so far. (Python itself.) -/
def accumulate : ℝ → List ℝ → List ℝ
  | _, [] => []
  | s, x :: xs => (s + x) :: accumulate (s + x) xs

/-- The values of the generators of results, which raise when they are consumed. (Python itself.) -/
abbrev Lazy := List (Str × Except Err (List ℝ))

/-- `load_citr(experimental_setup)`, for the tags of the argument: experiment_dcmi/commands.py 347-361. -/
def loadByTag (F : Files) (ps : List Params) (tags : Str) : Lazy :=
  (tags.splitOn ',').foldl (fun d tag => dictSet d tag (loadCitr F (byTag tag ps))) []

/-- `make_plot_data(metric, citr)`: plotting.py 5-16; another metric gives no data. -/
def plotData (metric : Str) (citr : Lazy) : Lazy :=
  if metric = "duration".toList then citr
  else if metric = "duration-cummulative".toList then citr.map (fun e => (e.1, e.2.map (accumulate 0)))
  else []

/-- The loop of `plot`: the lines that are drawn.  A line needs as many values as the axis, which has the
length of the first (`ValueError` of the plotting library otherwise). plotting.py 43-49. -/
def drawLines : Option Nat → Lazy → Except Err (List (List ℝ))
  | _, [] => .ok []
  | _, (_, .error e) :: _ => .error e
  | axis, (_, .ok ys) :: rest =>
    if ys.length = 0 then drawLines (some (axis.getD ys.length)) rest
    else if axis.getD ys.length = ys.length then
      match drawLines (some (axis.getD ys.length)) rest with
      | .error e => .error e
      | .ok ls => .ok (ys :: ls)
    else .error .valueError

/-- The plot: lines and the entries of the legend (here the tags), which the plotting library assigns to
the lines in order. plotting.py 43-52, 65-75. -/
structure Plot where
  lines : List (List ℝ)
  legend : List Str

/-- `sorted(data.keys())`: plotting.py 44, 67. -/
def sortedKeys (data : Lazy) : List Str := (data.map Prod.fst).insertionSort (· ≤ ·)

/-- `plot(data, ...)`: plotting.py 30-61, 65-75. -/
def plot (data : Lazy) : Except Err Plot :=
  match drawLines none ((sortedKeys data).map (fun key => (key, (dictGet data key).getD (.error .keyError)))) with
  | .error e => .error e
  | .ok ls => .ok ⟨ls, sortedKeys data⟩

/-- `command_plot_create(experimental_setup)`: experiment_dcmi/commands.py 191-208. -/
def plotCreate (F : Files) (ps : List Params) (metric tags : Str) : Except Err Plot :=
  plot (plotData metric (loadByTag F ps tags))

/-- The line to which the legend assigns a tag: the one at the same position. plotting.py 51-52. -/
def Plot.lineOf (p : Plot) (tag : Str) : Option (List ℝ) := dictGet (p.legend.zip p.lines) tag

/-! ## Specification -/

namespace Spec

/-- All durations of CI tests in the files of some runs. (Specification.) -/
def allDurations (F : Files) (runs : List Params) : List ℝ := runs.flatMap (fun p => (F.citr p.citr).getD [])

/-- At least half of the numbers are not above, and at least half not below. (Specification.) -/
def IsMedian (m : ℝ) (l : List ℝ) : Prop :=
  l.length ≤ 2 * l.countP (fun x => decide (x ≤ m)) ∧ l.length ≤ 2 * l.countP (fun x => decide (m ≤ x))

/-- The greatest element. (Specification.) -/
def IsGreatestOf {α : Type} [LE α] (m : α) (l : List α) : Prop := m ∈ l ∧ ∀ x ∈ l, x ≤ m

/-- The numbers of a summary fit the files of the runs. (Specification.) -/
structure Describes (F : Files) (S : Setup) (runs : List Params) (N : Numbers) : Prop where
  tests : N.tests = (allDurations F runs).length
  ciDuration : N.ciDuration = (allDurations F runs).sum
  average : N.average = (allDurations F runs).sum / (allDurations F runs).length
  perSecond : N.perSecond = (allDurations F runs).length / (allDurations F runs).sum
  longest : IsGreatestOf N.longest (allDurations F runs)
  median : IsMedian N.median (allDurations F runs)
  datapoints : N.datapoints = runs.countP (fun p => (F.datapoint (datapointFile S p)).isSome)
  duration : N.duration = (runs.map (fun p => (F.datapoint (datapointFile S p)).getD 0)).sum

/-- All files of CI test results are there, with some test in them. (Specification.) -/
def Complete (F : Files) (runs : List Params) : Prop :=
  (∀ p ∈ runs, F.citr p.citr ≠ none) ∧ allDurations F runs ≠ []

/-- What the summary of a dcMI experiment says about the caches in its files. (Specification.) -/
structure DescribesCaches (j : Jht) (d : DofCache) (C : CacheNumbers) : Prop where
  sizes : C.jhtSize = j.size ∧ C.dofSize = d.size
  entries : C.entries = j.keySizes.length ∧ C.dofEntries = d.keySizes.length
  reads : C.reads = j.reads ∧ C.misses = j.misses ∧ C.hits = j.reads - j.misses
  hitRate : C.hitRate * j.reads = C.hits
  keys : IsGreatestOf C.maxKey j.keySizes ∧ IsGreatestOf C.dofMaxKey d.keySizes

end Spec
open Spec

/-! ## Proofs: lists -/

theorem maximum_spec {α : Type} [LinearOrder α] {l : List α} {m : α} (h : maximum l = .ok m) :
    IsGreatestOf m l := by
  cases l with
  | nil => cases h
  | cons a rest =>
    simp only [maximum, Except.ok.injEq] at h
    have key : ∀ (r : List α) (a : α), (r.foldl max a ∈ a :: r) ∧ ∀ x ∈ a :: r, x ≤ r.foldl max a := by
      intro r
      induction r with
      | nil => intro a; exact ⟨by simp, by simp⟩
      | cons b r ih =>
        intro a
        obtain ⟨h1, h2⟩ := ih (max a b)
        rw [List.foldl_cons]
        refine ⟨?_, ?_⟩
        · rcases List.mem_cons.1 h1 with e | e
          · rw [e]
            rcases max_choice a b with hc | hc <;> rw [hc] <;> simp
          · simp [e]
        · intro x hx
          have hm := h2 (max a b) (by simp)
          rcases List.mem_cons.1 hx with e | hx
          · exact le_trans (by rw [e]; exact le_max_left _ _) hm
          · rcases List.mem_cons.1 hx with e | hx
            · exact le_trans (by rw [e]; exact le_max_right _ _) hm
            · exact h2 x (by simp [hx])
    rw [← h]
    exact key rest a

theorem maximum_ok_iff {α : Type} [Max α] {l : List α} : (∃ m, maximum l = .ok m) ↔ l ≠ [] := by
  cases l <;> simp [maximum]

theorem countP_le_getElem {s : List ℝ} (hs : s.Pairwise (· ≤ ·)) {i : Nat} (hi : i < s.length) {m : ℝ}
    (hm : s[i] ≤ m) : i + 1 ≤ s.countP (fun x => decide (x ≤ m)) := by
  have h1 : s.countP (fun x => decide (x ≤ m)) = (s.take (i+1)).countP (fun x => decide (x ≤ m)) +
      (s.drop (i+1)).countP (fun x => decide (x ≤ m)) := by
    rw [← List.countP_append, List.take_append_drop]
  have h2 : (s.take (i+1)).countP (fun x => decide (x ≤ m)) = (s.take (i+1)).length := by
    rw [List.countP_eq_length]
    intro x hx
    obtain ⟨j, hj, rfl⟩ := List.mem_iff_getElem.1 hx
    rw [List.length_take] at hj
    rw [List.getElem_take]
    simp only [decide_eq_true_eq]
    refine le_trans ?_ hm
    rcases Nat.lt_or_ge j i with h | h
    · exact List.pairwise_iff_getElem.1 hs j i _ _ h
    · have : j = i := by omega
      subst this; exact le_refl _
  rw [h1, h2, List.length_take]
  omega

theorem countP_ge_getElem {s : List ℝ} (hs : s.Pairwise (· ≤ ·)) {i : Nat} (hi : i < s.length) {m : ℝ}
    (hm : m ≤ s[i]) : s.length - i ≤ s.countP (fun x => decide (m ≤ x)) := by
  have h1 : s.countP (fun x => decide (m ≤ x)) = (s.take i).countP (fun x => decide (m ≤ x)) +
      (s.drop i).countP (fun x => decide (m ≤ x)) := by
    rw [← List.countP_append, List.take_append_drop]
  have h2 : (s.drop i).countP (fun x => decide (m ≤ x)) = (s.drop i).length := by
    rw [List.countP_eq_length]
    intro x hx
    obtain ⟨j, hj, rfl⟩ := List.mem_iff_getElem.1 hx
    rw [List.getElem_drop]
    simp only [decide_eq_true_eq]
    refine le_trans hm ?_
    rcases Nat.eq_zero_or_pos j with h | h
    · subst h; exact le_refl _
    · exact List.pairwise_iff_getElem.1 hs _ _ _ _ (by omega)
  rw [h1, h2, List.length_drop]
  omega

/-- **C89**: `median` is a median. -/
theorem median_spec {l : List ℝ} (h : l ≠ []) : IsMedian (DcmiSummary.median l) l := by
  have hp := List.perm_insertionSort (· ≤ ·) l
  have hs : (l.insertionSort (· ≤ ·)).Pairwise (· ≤ ·) := List.pairwise_insertionSort _ l
  have hl : (l.insertionSort (· ≤ ·)).length = l.length := hp.length_eq
  have hpos := List.length_pos_iff.2 h
  unfold IsMedian
  rw [← hp.countP_eq, ← hp.countP_eq]
  unfold DcmiSummary.median
  generalize l.insertionSort (· ≤ ·) = s at *
  simp only []
  have i2 : l.length / 2 < s.length := by omega
  have i1 : l.length / 2 - 1 < s.length := by omega
  have g : ∀ (i : Nat) (hi : i < s.length), s.getD i 0 = s[i] := by
    intro i hi; rw [List.getD_eq_getElem?_getD, List.getElem?_eq_getElem hi]; rfl
  simp only [g _ i2, g _ i1]
  by_cases ho : l.length % 2 = 1
  · rw [if_pos ho]
    have a := countP_le_getElem hs i2 (le_refl _)
    have b := countP_ge_getElem hs i2 (le_refl _)
    omega
  · rw [if_neg ho]
    have hle : s[l.length / 2 - 1] ≤ s[l.length / 2] :=
      List.pairwise_iff_getElem.1 hs _ _ _ _ (by omega)
    have a := countP_le_getElem hs i1 (m := (s[l.length / 2 - 1] + s[l.length / 2]) / 2) (by linarith)
    have b := countP_ge_getElem hs i2 (m := (s[l.length / 2 - 1] + s[l.length / 2]) / 2) (by linarith)
    omega

theorem loadCitr_spec (F : Files) (runs : List Params) :
    ((∀ p ∈ runs, F.citr p.citr ≠ none) → loadCitr F runs = .ok (allDurations F runs)) ∧
    ((∃ p ∈ runs, F.citr p.citr = none) → loadCitr F runs = .error Exp.fileNotFound) := by
  induction runs with
  | nil => exact ⟨fun _ => rfl, by simp⟩
  | cons p runs ih =>
    unfold loadCitr
    cases hp : F.citr p.citr with
    | none =>
      refine ⟨fun h => absurd hp (h p (by simp)), fun _ => rfl⟩
    | some r =>
      simp only []
      constructor
      · intro h
        rw [ih.1 (fun q hq => h q (by simp [hq]))]
        simp [allDurations, hp]
      · rintro ⟨q, hq, e⟩
        rcases List.mem_cons.1 hq with rfl | hq
        · rw [hp] at e; cases e
        · rw [ih.2 ⟨q, hq, e⟩]

theorem datapoints_count (F : Files) (S : Setup) (runs : List Params) :
    (loadDatapoints F S runs).length = runs.countP (fun p => (F.datapoint (datapointFile S p)).isSome) ∧
    (loadDatapoints F S runs).sum = (runs.map (fun p => (F.datapoint (datapointFile S p)).getD 0)).sum := by
  induction runs with
  | nil => simp [loadDatapoints]
  | cons p runs ih =>
    unfold loadDatapoints at *
    cases hp : F.datapoint (datapointFile S p) with
    | none =>
      simp only [List.filterMap_cons, hp]
      simp [hp, ih.1, ih.2]
    | some r =>
      simp only [List.filterMap_cons, hp]
      simp [hp, ih.1, ih.2]

/-! ## Proofs: what is loaded -/

/-- The key of the analysis of the tree of a run. (Models no code: a notion for statements and proofs.) -/
def treeKey (p : Params) : Str := "adtree-".toList ++ (p.treeType.getD [] ++ ("-llt".toList ++ p.llt.getD []))

theorem loadAnalyses_get (F : Files) (S : Setup) (tag : Str) (P : Path) (ps : List Params) :
    ∀ (d : List (Str × Analysis)), (∀ p ∈ ps, ∀ path, p.treeLoad = some path → treeKey p = tag → path = P) →
      dictGet (loadAnalyses F S ps d) tag =
        if ∃ p ∈ ps, p.treeLoad ≠ none ∧ treeKey p = tag then
          (F.analysis (analysisFile S P)).or (dictGet d tag) else dictGet d tag := by
  induction ps with
  | nil => intro d _; simp [loadAnalyses]
  | cons p ps ih =>
    intro d h
    have hps : ∀ q ∈ ps, ∀ path, q.treeLoad = some path → treeKey q = tag → path = P :=
      fun q hq => h q (List.mem_cons_of_mem _ hq)
    unfold loadAnalyses
    cases ht : p.treeLoad with
    | none =>
      simp only [List.exists_mem_cons_iff, ht, ne_eq, not_true_eq_false, false_and, false_or]
      exact ih d hps
    | some path =>
      simp only [List.exists_mem_cons_iff, ht, ne_eq, reduceCtorEq, not_false_eq_true, true_and]
      by_cases hk : treeKey p = tag
      · rw [if_pos (.inl hk)]
        have hP := h p (by simp) path ht hk
        subst hP
        cases ha : F.analysis (analysisFile S path) with
        | none =>
          simp only []
          rw [ih d hps, ha]
          simp
        | some a =>
          simp only []
          rw [ih _ hps, dictGet_dictSet]
          have : "adtree-".toList ++ (p.treeType.getD [] ++ ("-llt".toList ++ p.llt.getD [])) = tag := hk
          rw [if_pos this, ha]
          simp
      · simp only [hk, false_or]
        cases ha : F.analysis (analysisFile S path) with
        | none => exact ih d hps
        | some a =>
          simp only []
          rw [ih _ hps, dictGet_dictSet]
          have : ¬ "adtree-".toList ++ (p.treeType.getD [] ++ ("-llt".toList ++ p.llt.getD [])) = tag := hk
          rw [if_neg this]

theorem treeKey_run (S : Setup) (type llt : Str) (t i : Nat) :
    treeKey (run S (.adtree type llt) t i) = tagOf (.adtree type llt) := rfl

theorem tagOf_inj : ∀ k ∈ kinds, ∀ k' ∈ kinds, tagOf k = tagOf k' → k = k' := by decide +kernel

theorem analyses_get (F : Files) {S : Setup} {n : Nat} {ps : List Params} (h : createParams S n = .ok ps)
    {type llt : Str} (hk : RunKind.adtree type llt ∈ kinds) (hn : 0 < n) :
    dictGet (loadAnalyses F S ps []) (tagOf (.adtree type llt)) =
      F.analysis (analysisFile S (builtTree S type llt).1) := by
  rw [loadAnalyses_get F S _ (treePath S type llt)]
  · rw [if_pos]
    · simp [dictGet, builtTree]
    · obtain ⟨i, hi⟩ := List.mem_iff_getElem?.1 ((mem_subjects n _ 0).2 ⟨hk, hn⟩)
      exact ⟨_, (mem_created h _).2 ⟨_, _, i, hi, rfl⟩, by simp [run, blank, adtreeParam], rfl⟩
  · intro p hp path ht he
    obtain ⟨k, t, i, hi, rfl⟩ := (mem_created h p).1 hp
    have hk' := ((mem_subjects _ _ _).1 (List.mem_of_getElem? hi)).1
    cases k with
    | adtree x y =>
      have := tagOf_inj _ hk' _ hk he
      simp only [RunKind.adtree.injEq] at this
      obtain ⟨rfl, rfl⟩ := this
      exact (Option.some.inj ht).symm
    | dSeparation => cases ht
    | unoptimized => cases ht
    | dcmi => cases ht

/-- No other tag with this beginning has an analysis. (Models no code: a notion for statements and
proofs.) -/
theorem analyses_other (F : Files) {S : Setup} {n : Nat} {ps : List Params} (h : createParams S n = .ok ps)
    {tag : Str} (ht : ∀ k ∈ kinds, tagOf k ≠ tag) : dictGet (loadAnalyses F S ps []) tag = none := by
  rw [loadAnalyses_get F S _ []]
  · rw [if_neg]
    · rfl
    · rintro ⟨p, hp, hl, hk⟩
      obtain ⟨k, t, i, hi, rfl⟩ := (mem_created h p).1 hp
      have hk' := ((mem_subjects _ _ _).1 (List.mem_of_getElem? hi)).1
      cases k with
      | adtree x y => exact ht _ hk' hk
      | dSeparation => exact hl rfl
      | unoptimized => exact hl rfl
      | dcmi => exact hl rfl
  · intro p hp path hpath hk
    obtain ⟨k, t, i, hi, rfl⟩ := (mem_created h p).1 hp
    have hk' := ((mem_subjects _ _ _).1 (List.mem_of_getElem? hi)).1
    cases k with
    | adtree x y => exact absurd hk (ht _ hk')
    | dSeparation => cases hpath
    | unoptimized => cases hpath
    | dcmi => cases hpath

theorem loadJht_first (F : Files) (P : Path) (ps : List Params)
    (h : ∀ p ∈ ps, p.jhtSave = none ∨ p.jhtSave = some P) (he : ∃ p ∈ ps, p.jhtSave = some P) :
    loadJht F ps = match F.jht P with
      | none => .error Exp.fileNotFound
      | some j => .ok (some j) := by
  induction ps with
  | nil => obtain ⟨p, hp, _⟩ := he; cases hp
  | cons p ps ih =>
    unfold loadJht
    rcases h p (by simp) with e | e
    · rw [e]
      simp only []
      refine ih (fun q hq => h q (by simp [hq])) ?_
      obtain ⟨q, hq, e'⟩ := he
      rcases List.mem_cons.1 hq with rfl | hq
      · rw [e] at e'; cases e'
      · exact ⟨q, hq, e'⟩
    · rw [e]

theorem loadDof_first (F : Files) (P : Path) (ps : List Params)
    (h : ∀ p ∈ ps, p.dofSave = none ∨ p.dofSave = some P) (he : ∃ p ∈ ps, p.dofSave = some P) :
    loadDof F ps = match F.dof P with
      | none => .error Exp.fileNotFound
      | some j => .ok (some j) := by
  induction ps with
  | nil => obtain ⟨p, hp, _⟩ := he; cases hp
  | cons p ps ih =>
    unfold loadDof
    rcases h p (by simp) with e | e
    · rw [e]
      simp only []
      refine ih (fun q hq => h q (by simp [hq])) ?_
      obtain ⟨q, hq, e'⟩ := he
      rcases List.mem_cons.1 hq with rfl | hq
      · rw [e] at e'; cases e'
      · exact ⟨q, hq, e'⟩
    · rw [e]

theorem caches_loaded (F : Files) {S : Setup} {n : Nat} {ps : List Params} (h : createParams S n = .ok ps)
    (hn : 0 < n) :
    (loadJht F ps = match F.jht (jhtPath S) with
      | none => .error Exp.fileNotFound
      | some j => .ok (some j)) ∧
    (loadDof F ps = match F.dof (dofCachePath S) with
      | none => .error Exp.fileNotFound
      | some j => .ok (some j)) := by
  have hm : RunKind.dcmi ∈ kinds := by decide
  obtain ⟨i, hi⟩ := List.mem_iff_getElem?.1 ((mem_subjects n _ 0).2 ⟨hm, hn⟩)
  have hp := (mem_created h _).2 ⟨_, _, i, hi, rfl⟩
  constructor
  · refine loadJht_first F _ ps ?_ ⟨_, hp, rfl⟩
    intro p hp
    obtain ⟨k, t, i, hi, rfl⟩ := (mem_created h p).1 hp
    cases k <;> first | exact .inl rfl | exact .inr rfl
  · refine loadDof_first F _ ps ?_ ⟨_, hp, rfl⟩
    intro p hp
    obtain ⟨k, t, i, hi, rfl⟩ := (mem_created h p).1 hp
    cases k <;> first | exact .inl rfl | exact .inr rfl

/-- The caches can be summarised. (Specification.) -/
def CachesUsable (F : Files) (S : Setup) : Prop :=
  ∃ j d, F.jht (jhtPath S) = some j ∧ F.dof (dofCachePath S) = some d ∧ j.reads ≠ 0 ∧ j.keySizes ≠ [] ∧
    d.keySizes ≠ []

theorem cacheNumbers_spec (F : Files) {S : Setup} {n : Nat} {ps : List Params} (h : createParams S n = .ok ps)
    (hn : 0 < n) :
    ((∃ C, cacheNumbers F ps = .ok C) ↔ CachesUsable F S) ∧
    ∀ C, cacheNumbers F ps = .ok C → ∀ j d, F.jht (jhtPath S) = some j → F.dof (dofCachePath S) = some d →
      DescribesCaches j d C := by
  obtain ⟨h1, h2⟩ := caches_loaded F h hn
  unfold cacheNumbers CachesUsable
  rw [h1, h2]
  cases hj : F.jht (jhtPath S) with
  | none => simp [bind, Except.bind]
  | some j =>
    by_cases hr : j.reads = 0
    · simp [bind, Except.bind, hr]
    · cases hm : maximum j.keySizes with
      | error e =>
        have : j.keySizes = [] := by
          by_contra hne
          obtain ⟨m, e'⟩ := maximum_ok_iff.2 hne
          rw [e'] at hm; cases hm
        simp [bind, Except.bind, hr, maximum, this]
      | ok m =>
        have hne : j.keySizes ≠ [] := maximum_ok_iff.1 ⟨m, hm⟩
        cases hd : F.dof (dofCachePath S) with
        | none => simp [bind, Except.bind, hr, hm]
        | some d =>
          cases hl : maximum d.keySizes with
          | error e =>
            have : d.keySizes = [] := by
              by_contra hne
              obtain ⟨m, e'⟩ := maximum_ok_iff.2 hne
              rw [e'] at hl; cases hl
            have hl' : maximum ([] : List Nat) = .error e := by rw [← this]; exact hl
            simp [bind, Except.bind, hr, hm, hl', this]
          | ok l =>
            have hne' : d.keySizes ≠ [] := maximum_ok_iff.1 ⟨l, hl⟩
            simp only [bind, Except.bind, hr, hm, hl, if_false]
            refine ⟨⟨fun _ => ⟨j, d, rfl, rfl, hr, hne, hne'⟩, fun _ => ⟨_, rfl⟩⟩, ?_⟩
            intro C hC j' d' ej ed
            cases ej
            cases ed
            cases hC
            refine ⟨⟨rfl, rfl⟩, ⟨rfl, rfl⟩, ⟨rfl, rfl, rfl⟩, ?_, ⟨maximum_spec hm, maximum_spec hl⟩⟩
            have : ((j.reads : ℤ) : ℝ) ≠ 0 := by exact_mod_cast hr
            simp only []
            field_simp

/-! ## What a summary says -/

/-- What was saved about the tree that the runs of a kind use. (Specification.) -/
def treeOf (F : Files) (S : Setup) : RunKind → Option Analysis
  | .adtree type llt => F.analysis (analysisFile S (builtTree S type llt).1)
  | _ => none

/-- The kinds of run that use a tree. (Specification.) -/
def usesTree : RunKind → Bool
  | .adtree _ _ => true
  | _ => false

theorem isTreeTag_iff : ∀ k ∈ kinds, isTreeTag (tagOf k) = usesTree k := by decide +kernel

theorem dcmiTag_iff : ∀ k ∈ kinds, tagOf k = "dcmi".toList ↔ k = .dcmi := by decide +kernel

theorem analyses_treeOf (F : Files) {S : Setup} {n : Nat} {ps : List Params} (h : createParams S n = .ok ps)
    {k : RunKind} (hk : k ∈ kinds) (hn : 0 < n) (hu : usesTree k = true) :
    dictGet (loadAnalyses F S ps []) (tagOf k) = treeOf F S k := by
  cases k with
  | adtree type llt => exact analyses_get F h hk hn
  | _ => cases hu

theorem runs_length {S : Setup} {n : Nat} {ps : List Params} (h : createParams S n = .ok ps) {k : RunKind}
    (hk : k ∈ kinds) : (byTag (tagOf k) ps).length = n := by
  have := congrArg List.length (tag_selects h hk).1
  simpa using this

theorem citr_loaded (F : Files) (runs : List Params) :
    (Complete F runs → (loadCitr F runs).toOption.getD [] = allDurations F runs) ∧
    (¬ Complete F runs → (loadCitr F runs).toOption.getD [] = []) := by
  constructor
  · intro h; rw [(loadCitr_spec F runs).1 h.1]; rfl
  · intro h
    by_cases hp : ∀ p ∈ runs, F.citr p.citr ≠ none
    · rw [(loadCitr_spec F runs).1 hp]
      by_contra hne
      exact h ⟨hp, hne⟩
    · have : ∃ p ∈ runs, F.citr p.citr = none := by
        by_contra hc
        exact hp (fun p hm e => hc ⟨p, hm, e⟩)
      rw [(loadCitr_spec F runs).2 this]; rfl

theorem testNumbers_spec (F : Files) (S : Setup) (ps runs : List Params) (tag : Str) (a : Option Analysis)
    {c : Option CacheNumbers} (h : Complete F runs) (h0 : (allDurations F runs).sum ≠ 0)
    (hc : (if tag = "dcmi".toList then (cacheNumbers F ps).map some else .ok none) = .ok c) :
    ∃ N, testNumbers F S ps runs tag a (allDurations F runs) = .ok N ∧ Describes F S runs N ∧ N.tree = a ∧
      N.caches = c := by
  obtain ⟨m, hm⟩ := maximum_ok_iff.2 h.2
  unfold testNumbers
  rw [if_neg h0, hm, hc]
  exact ⟨_, rfl, ⟨rfl, rfl, rfl, rfl, maximum_spec hm, median_spec h.2, (datapoints_count F S runs).1,
    (datapoints_count F S runs).2⟩, rfl, rfl⟩

theorem createSummary_complete (F : Files) (S : Setup) (ps : List Params) (d : List (Str × Analysis)) (tag : Str)
    (ht : ¬ (isTreeTag tag = true ∧ dictGet d tag = none)) (h : Complete F (byTag tag ps)) :
    createSummary F S ps d tag = (testNumbers F S ps (byTag tag ps) tag (if isTreeTag tag then dictGet d tag else none)
      (allDurations F (byTag tag ps)) >>= fun numbers => .ok ⟨(byTag tag ps).length, some numbers⟩) := by
  unfold createSummary
  rw [if_neg ht, (citr_loaded F _).1 h]
  have := h.2
  cases he : allDurations F (byTag tag ps) with
  | nil => exact absurd he this
  | cons c cs => rfl

/-- **C89**: the summary of a kind of run, as a case distinction over the files. -/
theorem dcmi_summary_exact (F : Files) {S : Setup} {n : Nat} {ps : List Params} (h : createParams S n = .ok ps)
    (hn : 0 < n) {k : RunKind} (hk : k ∈ kinds) :
    let runs := byTag (tagOf k) ps
    let r := createSummary F S ps (loadAnalyses F S ps []) (tagOf k)
    let stop := usesTree k = true ∧ treeOf F S k = none
    (stop → r = .error .keyError) ∧
    (¬ stop → ¬ Complete F runs → r = .ok ⟨n, none⟩) ∧
    (¬ stop → Complete F runs → (allDurations F runs).sum = 0 → r = .error .zeroDivision) ∧
    (¬ stop → Complete F runs → (allDurations F runs).sum ≠ 0 → k = .dcmi → ¬ CachesUsable F S →
      ∃ e, r = .error e) ∧
    (¬ stop → Complete F runs → (allDurations F runs).sum ≠ 0 → (k = .dcmi → CachesUsable F S) →
      ∃ N, r = .ok ⟨n, some N⟩ ∧ Describes F S runs N ∧ N.tree = treeOf F S k ∧
        (k ≠ .dcmi → N.caches = none) ∧
        (k = .dcmi → ∃ j d C, F.jht (jhtPath S) = some j ∧ F.dof (dofCachePath S) = some d ∧
          N.caches = some C ∧ DescribesCaches j d C)) := by
  intro runs r stop
  have hlen := runs_length h hk
  have hstop : (isTreeTag (tagOf k) = true ∧ dictGet (loadAnalyses F S ps []) (tagOf k) = none) ↔ stop := by
    rw [isTreeTag_iff k hk]
    constructor
    · rintro ⟨a, b⟩; exact ⟨a, by rw [← analyses_treeOf F h hk hn a]; exact b⟩
    · rintro ⟨a, b⟩; exact ⟨a, by rw [analyses_treeOf F h hk hn a]; exact b⟩
  have htree : (if isTreeTag (tagOf k) then dictGet (loadAnalyses F S ps []) (tagOf k) else none) = treeOf F S k := by
    rw [isTreeTag_iff k hk]
    by_cases hu : usesTree k = true
    · rw [if_pos hu, analyses_treeOf F h hk hn hu]
    · rw [if_neg hu]; cases k <;> first | rfl | exact absurd rfl hu
  refine ⟨?_, ?_, ?_, ?_, ?_⟩
  · intro hs
    show createSummary _ _ _ _ _ = _
    unfold createSummary
    rw [if_pos (hstop.2 hs)]
  · intro hs hc
    show createSummary _ _ _ _ _ = _
    unfold createSummary
    rw [if_neg (fun e => hs (hstop.1 e)), (citr_loaded F _).2 hc, hlen]
  · intro hs hc h0
    show createSummary _ _ _ _ _ = _
    rw [createSummary_complete F S ps _ _ (fun e => hs (hstop.1 e)) hc]
    unfold testNumbers
    rw [if_pos h0]; rfl
  · intro hs hc h0 hd hu
    show ∃ e, createSummary _ _ _ _ _ = .error e
    rw [createSummary_complete F S ps _ _ (fun e => hs (hstop.1 e)) hc]
    unfold testNumbers
    obtain ⟨m, hm⟩ := maximum_ok_iff.2 hc.2
    rw [if_neg h0, hm, if_pos ((dcmiTag_iff k hk).2 hd)]
    cases hcn : cacheNumbers F ps with
    | error e => exact ⟨e, rfl⟩
    | ok C => exact absurd ((cacheNumbers_spec F h hn).1.1 ⟨C, hcn⟩) hu
  · intro hs hc h0 hu
    show ∃ N, createSummary _ _ _ _ _ = .ok ⟨n, some N⟩ ∧ _
    rw [createSummary_complete F S ps _ _ (fun e => hs (hstop.1 e)) hc, htree, hlen]
    by_cases hd : k = .dcmi
    · obtain ⟨C, hC⟩ := (cacheNumbers_spec F h hn).1.2 (hu hd)
      obtain ⟨N, h1, h2, h3, h4⟩ := testNumbers_spec F S ps (byTag (tagOf k) ps) (tagOf k) (treeOf F S k)
        (c := some C) hc h0 (by rw [if_pos ((dcmiTag_iff k hk).2 hd), hC]; rfl)
      rw [h1]
      obtain ⟨j, d, ej, ed, -⟩ := hu hd
      exact ⟨N, rfl, h2, h3, fun e => absurd hd e, fun _ => ⟨j, d, C, ej, ed, h4,
        (cacheNumbers_spec F h hn).2 C hC j d ej ed⟩⟩
    · obtain ⟨N, h1, h2, h3, h4⟩ := testNumbers_spec F S ps (byTag (tagOf k) ps) (tagOf k) (treeOf F S k)
        (c := none) hc h0 (by rw [if_neg (fun e => hd ((dcmiTag_iff k hk).1 e))])
      rw [h1]
      exact ⟨N, rfl, h2, h3, fun _ => h4, fun e => absurd e hd⟩

/-- **C89**: the trees of different experiments, types and thresholds have different files for their
analyses; these are not the files of trees. -/
theorem analysis_files_apart {root : Path} {d c d' c' : Str} {S S' : Setup} (h : setArguments root d c = .ok S)
    (h' : setArguments root d' c' = .ok S') {type llt type' llt' : Str} (hk : RunKind.adtree type llt ∈ kinds)
    (hk' : RunKind.adtree type' llt' ∈ kinds) :
    (analysisFile S (builtTree S type llt).1 = analysisFile S' (builtTree S' type' llt').1 ↔
      (d, c, type, llt) = (d', c', type', llt')) ∧
    analysisFile S (builtTree S type llt).1 ≠ (builtTree S' type' llt').1 := by
  obtain ⟨a1, _, a3, a4, a5, a6⟩ := setArguments_fields h
  obtain ⟨b1, _, b3, b4, b5, b6⟩ := setArguments_fields h'
  have m1 := kinds_adtree hk
  have m2 := kinds_adtree hk'
  refine ⟨⟨?_, ?_⟩, ?_⟩
  · intro e
    obtain ⟨_, _, e2, e3⟩ := append2_inj e
    obtain ⟨f1, f2⟩ := sub_inj (by rw [a4]; exact a1) (by rw [b4]; exact b1) e2
    have l : ∀ (a : Path) (x : Str), (a ++ [x]).getLastD [] = x := by intro a x; simp
    simp only [builtTree, treePath, l] at e3
    obtain ⟨g1, g2⟩ := treeName_inj _ m1.1 _ m2.1 _ m1.2 _ m2.2 e3
    rw [← a4, ← a5, ← b4, ← b5, f1, f2, g1, g2]
  · intro e
    simp only [Prod.mk.injEq] at e
    obtain ⟨rfl, rfl, rfl, rfl⟩ := e
    rw [Except.ok.inj (h.symm.trans h')]
  · intro e
    obtain ⟨_, e1, _⟩ := append2_inj e
    revert e1
    decide

/-- **C89**: `summary show --tags adtree`, or any other tag with this beginning, always fails. -/
theorem summary_other_tree_tag (F : Files) {S : Setup} {n : Nat} {ps : List Params}
    (h : createParams S n = .ok ps) {tag : Str} (ht : isTreeTag tag = true) (hk : ∀ k ∈ kinds, tagOf k ≠ tag) :
    createSummary F S ps (loadAnalyses F S ps []) tag = .error .keyError := by
  unfold createSummary
  rw [if_pos ⟨ht, analyses_other F h hk⟩]

/-- **C89**: one missing file of CI test results is enough for `No CI tests found`. -/
theorem one_missing_file (F : Files) {runs : List Params} {p : Params} (hp : p ∈ runs)
    (h : F.citr p.citr = none) : ¬ Complete F runs := fun hc => hc.1 p hp h

/-! ## Cached summaries -/

/-- One invocation of `summary show`: the experiment, its runs, what the files of the runs are then, and the
options. (Models no code: a notion for statements and proofs.) -/
structure Invocation where
  setup : Setup
  runs : List Params
  files : Files
  tags : Option Str
  refresh : Bool

/-- A summary that was shown, and the invocation that did. (Models no code: a notion for statements and
proofs.) -/
structure Event where
  by_ : Invocation
  shown : Shown

/-- A series of invocations of `summary show`, of several experiments, with any other commands changing the
other files in between: experiments/main.py 14-68, experiment_dcmi/commands.py 217-254. -/
noncomputable def history : List (Path × Summary) → List Invocation → List (Path × Summary) × List Event
  | saved, [] => (saved, [])
  | saved, v :: vs =>
    let r := summaryShow v.files v.setup v.runs v.tags v.refresh saved
    let rest := history r.1 vs
    (rest.1, r.2.1.map (Event.mk v) ++ rest.2)

/-- The last summary that was shown for a tag of an experiment. (Specification.) -/
def lastShown (S : Setup) (tag : Str) (log : List Event) : Option Summary :=
  ((log.filter (fun e => decide (e.by_.setup = S ∧ e.shown.tag = tag))).getLast?).map (fun e => e.shown.summary)

/-- What is shown is the last one again, or made from the files of now; the latter if it is asked for or
nothing was shown before. (Specification.) -/
structure Shows (before : List Event) (e : Event) : Prop where
  cached : e.shown.cached = true → lastShown e.by_.setup e.shown.tag before = some e.shown.summary
  fresh : e.shown.cached = false → createSummary e.by_.files e.by_.setup e.by_.runs
    (loadAnalyses e.by_.files e.by_.setup e.by_.runs []) e.shown.tag = .ok e.shown.summary
  which : e.shown.cached = true ↔ e.by_.refresh = false ∧
    ∃ f ∈ before, f.by_.setup = e.by_.setup ∧ f.shown.tag = e.shown.tag

theorem summaryFile_inj {root : Path} {d c d' c' : Str} {S S' : Setup} (h : setArguments root d c = .ok S)
    (h' : setArguments root d' c' = .ok S') (tag tag' : Str) :
    summaryFile S tag = summaryFile S' tag' ↔ S = S' ∧ tag = tag' := by
  obtain ⟨a1, _, a3, a4, a5, a6⟩ := setArguments_fields h
  obtain ⟨b1, _, b3, b4, b5, b6⟩ := setArguments_fields h'
  constructor
  · intro e
    obtain ⟨_, _, e2, e3⟩ := append2_inj e
    obtain ⟨f1, f2⟩ := sub_inj (by rw [a4]; exact a1) (by rw [b4]; exact b1) e2
    refine ⟨?_, List.append_cancel_right e3⟩
    have hd : d = d' := by rw [← a4, ← b4, f1]
    have hc : c = c' := by rw [← a5, ← b5, f2]
    subst hd; subst hc
    exact Except.ok.inj (h.symm.trans h')
  · rintro ⟨rfl, rfl⟩; rfl

/-- An experiment under a folder. (Specification.) -/
def Under (root : Path) (S : Setup) : Prop := ∃ d c, setArguments root d c = .ok S

theorem summaryFile_inj' {root : Path} {S S' : Setup} (h : Under root S) (h' : Under root S') (tag tag' : Str) :
    summaryFile S tag = summaryFile S' tag' ↔ S = S' ∧ tag = tag' := by
  obtain ⟨d, c, h⟩ := h
  obtain ⟨d', c', h'⟩ := h'
  exact summaryFile_inj h h' tag tag'

/-- The files of summaries hold what was shown last. (Specification.) -/
def Kept (root : Path) (saved : List (Path × Summary)) (log : List Event) : Prop :=
  ∀ S, Under root S → ∀ tag, dictGet saved (summaryFile S tag) = lastShown S tag log

theorem lastShown_append (S : Setup) (tag : Str) (log : List Event) (e : Event) :
    lastShown S tag (log ++ [e]) = if e.by_.setup = S ∧ e.shown.tag = tag then some e.shown.summary
      else lastShown S tag log := by
  unfold lastShown
  rw [List.filter_append]
  by_cases h : e.by_.setup = S ∧ e.shown.tag = tag
  · rw [if_pos h, List.filter_cons, if_pos (by simpa using h)]
    simp
  · rw [if_neg h, List.filter_cons, if_neg (by simpa using h)]
    simp

theorem lastShown_isSome (S : Setup) (tag : Str) (log : List Event) :
    lastShown S tag log ≠ none ↔ ∃ f ∈ log, f.by_.setup = S ∧ f.shown.tag = tag := by
  unfold lastShown
  rw [ne_eq, Option.map_eq_none_iff, List.getLast?_eq_none_iff, List.filter_eq_nil_iff]
  simp

/-- Each shown summary is right, given the ones before. (Models no code: a notion for statements and
proofs.) -/
def AllShow : List Event → List Event → Prop
  | _, [] => True
  | before, e :: es => Shows before e ∧ AllShow (before ++ [e]) es

theorem allShow_append (before l m : List Event) :
    AllShow before (l ++ m) ↔ AllShow before l ∧ AllShow (before ++ l) m := by
  induction l generalizing before with
  | nil => simp [AllShow]
  | cons e l ih =>
    simp only [List.cons_append, AllShow, ih, List.append_assoc, List.nil_append]
    exact and_assoc.symm

theorem allShow_get {before l : List Event} (h : AllShow before l) (i : Nat) (hi : i < l.length) :
    Shows (before ++ l.take i) l[i] := by
  induction l generalizing before i with
  | nil => simp at hi
  | cons e l ih =>
    cases i with
    | zero => simpa using h.1
    | succ i =>
      have := ih h.2 i (by simpa using hi)
      simpa using this

theorem showTag_step {root : Path} {v : Invocation} (hv : Under root v.setup) {saved saved' : List (Path × Summary)}
    {log : List Event} (hk : Kept root saved log) {tag : Str} {s : Shown}
    (h : showTag v.files v.setup v.runs (loadAnalyses v.files v.setup v.runs []) v.refresh saved tag =
      .ok (saved', s)) :
    s.tag = tag ∧ Shows log ⟨v, s⟩ ∧ Kept root saved' (log ++ [⟨v, s⟩]) := by
  unfold showTag at h
  have hl := hk v.setup hv tag
  cases hc : (if v.refresh then none else dictGet saved (summaryFile v.setup tag)) with
  | some y =>
    rw [hc] at h
    simp only [Except.ok.injEq, Prod.mk.injEq] at h
    obtain ⟨rfl, rfl⟩ := h
    have hr : v.refresh = false := by
      cases hr : v.refresh with
      | false => rfl
      | true => rw [hr] at hc; simp at hc
    rw [hr] at hc
    simp only [Bool.false_eq_true, if_false] at hc
    rw [hc] at hl
    refine ⟨rfl, ⟨fun _ => hl.symm, fun e => by simp at e, ?_⟩, ?_⟩
    · simp only [true_iff]
      exact ⟨hr, (lastShown_isSome _ _ _).1 (by rw [← hl]; simp)⟩
    · intro S hS t
      rw [lastShown_append, hk S hS t]
      by_cases he : v.setup = S ∧ tag = t
      · rw [if_pos he, ← he.1, ← he.2, hl]
      · rw [if_neg he]
  | none =>
    rw [hc] at h
    cases hs : createSummary v.files v.setup v.runs (loadAnalyses v.files v.setup v.runs []) tag with
    | error e => rw [hs] at h; cases h
    | ok y =>
      rw [hs] at h
      simp only [Except.ok.injEq, Prod.mk.injEq] at h
      obtain ⟨rfl, rfl⟩ := h
      refine ⟨rfl, ⟨fun e => by simp at e, fun _ => hs, ?_⟩, ?_⟩
      · simp only [Bool.false_eq_true, false_iff]
        rintro ⟨hr, hf⟩
        rw [hr] at hc
        simp only [Bool.false_eq_true, if_false] at hc
        exact (lastShown_isSome _ _ _).2 hf (by rw [← hl, hc])
      · intro S hS t
        rw [lastShown_append, dictGet_dictSet, hk S hS t]
        simp only [summaryFile_inj' hv hS]

theorem showLoop_step {root : Path} {v : Invocation} (hv : Under root v.setup) (tags : List Str) :
    ∀ {saved : List (Path × Summary)} {log : List Event}, Kept root saved log →
      let r := showLoop v.files v.setup v.runs (loadAnalyses v.files v.setup v.runs []) v.refresh saved tags
      AllShow log (r.2.1.map (Event.mk v)) ∧ Kept root r.1 (log ++ r.2.1.map (Event.mk v)) := by
  induction tags with
  | nil => intro saved log hk; exact ⟨trivial, by simpa [showLoop] using hk⟩
  | cons tag tags ih =>
    intro saved log hk
    unfold showLoop
    cases hs : showTag v.files v.setup v.runs (loadAnalyses v.files v.setup v.runs []) v.refresh saved tag with
    | error e => exact ⟨trivial, by simpa using hk⟩
    | ok x =>
      obtain ⟨saved', s⟩ := x
      obtain ⟨_, h1, h2⟩ := showTag_step hv hk hs
      obtain ⟨i1, i2⟩ := ih h2
      refine ⟨⟨h1, i1⟩, ?_⟩
      simpa using i2

theorem history_step {root : Path} (vs : List Invocation) (hv : ∀ v ∈ vs, Under root v.setup) :
    ∀ {saved : List (Path × Summary)} {log : List Event}, Kept root saved log →
      AllShow log (history saved vs).2 ∧ Kept root (history saved vs).1 (log ++ (history saved vs).2) := by
  induction vs with
  | nil => intro saved log hk; exact ⟨trivial, by simpa [history] using hk⟩
  | cons v vs ih =>
    intro saved log hk
    unfold history
    obtain ⟨h1, h2⟩ := showLoop_step (hv v (by simp)) (tagsOfArgument v.tags) hk
    obtain ⟨i1, i2⟩ := ih (fun w hw => hv w (by simp [hw])) h2
    refine ⟨(allShow_append _ _ _).2 ⟨h1, i1⟩, ?_⟩
    rw [← List.append_assoc]
    exact i2

/-- **C89**: through any series of `summary show` of any experiments under a folder, with the files of the runs
changing in any way in between: each summary is either marked as cached and the same as the last one
shown for this tag of this experiment, or made from the files of the moment; it is cached exactly if no
refresh is asked for and one was shown before. -/
theorem summaries_through_history {root : Path} {vs : List Invocation} (hv : ∀ v ∈ vs, Under root v.setup)
    (i : Nat) (hi : i < (history [] vs).2.length) :
    Shows ((history [] vs).2.take i) (history [] vs).2[i] := by
  have h0 : Kept root [] [] := fun S _ tag => rfl
  simpa using allShow_get (history_step vs hv h0).1 i hi

theorem event_invocation (saved : List (Path × Summary)) (vs : List Invocation) :
    ∀ e ∈ (history saved vs).2, e.by_ ∈ vs := by
  induction vs generalizing saved with
  | nil => intro e he; cases he
  | cons v vs ih =>
    intro e he
    unfold history at he
    rcases List.mem_append.1 he with h | h
    · obtain ⟨s, _, rfl⟩ := List.mem_map.1 h; simp
    · exact List.mem_cons_of_mem _ (ih _ e h)

theorem last_is_first {L : List Event} (hs : ∀ k (hk : k < L.length), Shows (L.take k) L[k])
    (hr : ∀ k (hk : k < L.length), L[k].by_.refresh = false) (i : Nat) (hi : i < L.length) (n : Nat) (hn : i < n)
    (hl : n ≤ L.length) :
    lastShown L[i].by_.setup L[i].shown.tag (L.take n) = some L[i].shown.summary := by
  induction n with
  | zero => omega
  | succ n ih =>
    rw [List.take_succ_eq_append_getElem (by omega), lastShown_append]
    by_cases hk : L[n].by_.setup = L[i].by_.setup ∧ L[n].shown.tag = L[i].shown.tag
    · rw [if_pos hk]
      rcases Nat.eq_or_lt_of_le (Nat.lt_succ_iff.1 hn) with e | hlt
      · subst e; rfl
      · have hS := hs n (by omega)
        have hc : L[n].shown.cached = true := by
          refine hS.which.2 ⟨hr n (by omega), L[i], ?_, hk.1.symm, hk.2.symm⟩
          rw [List.mem_take_iff_getElem]
          exact ⟨i, by omega, rfl⟩
        have h1 := hS.cached hc
        rw [hk.1, hk.2, ih hlt (by omega)] at h1
        exact h1.symm
    · rw [if_neg hk]
      refine ih ?_ (by omega)
      rcases Nat.eq_or_lt_of_le (Nat.lt_succ_iff.1 hn) with e | hlt
      · subst e; exact absurd ⟨rfl, rfl⟩ hk
      · exact hlt

/-- **C89 (finding: summaries get stale).**  Without a refresh, what was first shown for a tag is shown for
good, whatever becomes of the files. -/
theorem summary_never_updated {root : Path} {vs : List Invocation} (hv : ∀ v ∈ vs, Under root v.setup)
    (hr : ∀ v ∈ vs, v.refresh = false) (i j : Nat) (hij : i < j) (hj : j < (history [] vs).2.length)
    (hs : (history [] vs).2[j].by_.setup = (history [] vs).2[i].by_.setup)
    (ht : (history [] vs).2[j].shown.tag = (history [] vs).2[i].shown.tag) :
    (history [] vs).2[j].shown.summary = (history [] vs).2[i].shown.summary := by
  have hnr : ∀ k (hk : k < (history [] vs).2.length), (history [] vs).2[k].by_.refresh = false :=
    fun k hk => hr _ (event_invocation _ _ _ (List.getElem_mem hk))
  have h1 := last_is_first (fun k hk => summaries_through_history hv k hk) hnr i (by omega) (j+1) (by omega) hj
  rw [List.take_succ_eq_append_getElem hj, lastShown_append, if_pos ⟨hs, ht⟩] at h1
  exact Option.some.inj h1

/-- **C89**: `summary show` goes through its tags in order; it stops early exactly if it raises, with what
making the summary of the next tag raises. -/
theorem shown_tags (F : Files) (S : Setup) (ps : List Params) (tags : Option Str) (refresh : Bool)
    (saved : List (Path × Summary)) :
    let r := summaryShow F S ps tags refresh saved
    (r.2.2 = none → r.2.1.map Shown.tag = tagsOfArgument tags) ∧
    (∀ e, r.2.2 = some e → ∃ tag rest, tagsOfArgument tags = r.2.1.map Shown.tag ++ tag :: rest ∧
      createSummary F S ps (loadAnalyses F S ps []) tag = .error e) := by
  intro r
  show ((summaryShow F S ps tags refresh saved).2.2 = none → _) ∧ (∀ e, (summaryShow F S ps tags refresh saved).2.2 = _ → _)
  simp only [r]
  unfold summaryShow
  generalize tagsOfArgument tags = L
  clear r
  induction L generalizing saved with
  | nil => exact ⟨fun _ => rfl, fun e h => by cases h⟩
  | cons tag L ih =>
    unfold showLoop
    cases hs : showTag F S ps (loadAnalyses F S ps []) refresh saved tag with
    | error e =>
      refine ⟨fun h => (by cases h), fun e' h => ⟨tag, L, rfl, ?_⟩⟩
      cases h
      unfold showTag at hs
      cases hc : (if refresh then none else dictGet saved (summaryFile S tag)) with
      | some y => rw [hc] at hs; cases hs
      | none =>
        rw [hc] at hs
        cases hy : createSummary F S ps (loadAnalyses F S ps []) tag with
        | error e' => rw [hy] at hs; cases hs; rfl
        | ok y => rw [hy] at hs; cases hs
    | ok x =>
      obtain ⟨saved', s⟩ := x
      have htag : s.tag = tag := by
        unfold showTag at hs
        cases hc : (if refresh then none else dictGet saved (summaryFile S tag)) with
        | some y => rw [hc] at hs; cases hs; rfl
        | none =>
          rw [hc] at hs
          cases hy : createSummary F S ps (loadAnalyses F S ps []) tag with
          | error e' => rw [hy] at hs; cases hs
          | ok y => rw [hy] at hs; cases hs; rfl
      obtain ⟨i1, i2⟩ := ih saved'
      refine ⟨fun h => ?_, fun e h => ?_⟩
      · simp only [List.map_cons, htag]
        rw [i1 h]
      · obtain ⟨t, rest, h1, h2⟩ := i2 e h
        refine ⟨t, rest, ?_, h2⟩
        simp only [List.map_cons, htag, List.cons_append]
        exact congrArg (tag :: ·) h1

/-! ## Plots -/

/-- The running totals. (Specification.) -/
def totals (l : List ℝ) : List ℝ := (List.range l.length).map (fun i => (l.take (i+1)).sum)

theorem accumulate_totals (s : ℝ) (l : List ℝ) : accumulate s l = (totals l).map (s + ·) := by
  induction l generalizing s with
  | nil => rfl
  | cons x l ih =>
    rw [accumulate, ih]
    unfold totals
    rw [List.length_cons, List.range_succ_eq_map]
    simp only [List.map_cons, List.map_map]
    refine List.cons_eq_cons.2 ⟨by simp, ?_⟩
    apply List.map_congr_left
    intro i _
    simp [add_assoc]

theorem accumulate_spec (l : List ℝ) : accumulate 0 l = totals l := by
  rw [accumulate_totals]; simp

/-- What a plot shows of some durations. (Specification.) -/
def curve (metric : Str) (l : List ℝ) : List ℝ := if metric = "duration".toList then l else totals l

/-- The metrics that are known. (Specification.) -/
def metrics : List Str := ["duration".toList, "duration-cummulative".toList]

theorem loadByTag_aux (F : Files) (ps : List Params) (L : List Str) (d : Lazy) (hd : (d.map Prod.fst).Nodup) :
    let r := L.foldl (fun d tag => dictSet d tag (loadCitr F (byTag tag ps))) d
    (r.map Prod.fst).Nodup ∧ ∀ t, dictGet r t = if t ∈ L then some (loadCitr F (byTag t ps)) else dictGet d t := by
  induction L generalizing d with
  | nil => exact ⟨hd, fun t => by simp⟩
  | cons x L ih =>
    have hn : ((dictSet d x (loadCitr F (byTag x ps))).map Prod.fst).Nodup := by
      rw [dictSet_keys]
      split
      · exact hd
      · rename_i h
        rw [List.nodup_append]
        refine ⟨hd, by simp, ?_⟩
        intro a ha b hb
        rw [List.mem_singleton] at hb
        subst hb
        rintro rfl
        exact h ha
    obtain ⟨h1, h2⟩ := ih _ hn
    refine ⟨h1, fun t => ?_⟩
    simp only [List.foldl_cons]
    rw [h2 t, dictGet_dictSet]
    by_cases ht : t ∈ L
    · simp [ht]
    · by_cases hx : x = t
      · subst hx; simp
      · simp [ht, hx, Ne.symm hx]

theorem loadByTag_spec (F : Files) (ps : List Params) (tags : Str) :
    ((loadByTag F ps tags).map Prod.fst).Nodup ∧
    ∀ t, dictGet (loadByTag F ps tags) t = if t ∈ tags.splitOn ',' then some (loadCitr F (byTag t ps)) else none :=
  loadByTag_aux F ps (tags.splitOn ',') [] (by simp)

theorem dictGet_map_values {κ ν μ : Type} [DecidableEq κ] (f : ν → μ) (d : List (κ × ν)) (k : κ) :
    dictGet (d.map (fun p => (p.1, f p.2))) k = (dictGet d k).map f := by
  induction d with
  | nil => rfl
  | cons p d ih =>
    simp only [List.map_cons, dictGet]
    by_cases h : p.1 = k
    · rw [if_pos h, if_pos h]; rfl
    · rw [if_neg h, if_neg h, ih]

theorem plotData_spec {metric : Str} (hm : metric ∈ metrics) (data : Lazy) :
    (plotData metric data).map Prod.fst = data.map Prod.fst ∧
    ∀ t, dictGet (plotData metric data) t = (dictGet data t).map (fun r => r.map (curve metric)) := by
  unfold plotData curve
  by_cases h : metric = "duration".toList
  · rw [if_pos h]
    refine ⟨rfl, fun t => ?_⟩
    cases dictGet data t with
    | none => rfl
    | some r => cases r <;> simp [Except.map, h]
  · rw [if_neg h]
    have h2 : metric = "duration-cummulative".toList := by
      simp only [metrics, List.mem_cons, List.not_mem_nil, or_false] at hm
      exact hm.resolve_left h
    rw [if_pos h2]
    refine ⟨by simp, fun t => ?_⟩
    rw [dictGet_map_values (fun r => Except.map (accumulate 0) r)]
    congr 1
    funext r
    cases r with
    | error e => rfl
    | ok l => simp only [Except.map]; rw [accumulate_spec, if_neg h]

theorem curve_length (metric : Str) (l : List ℝ) : (curve metric l).length = l.length := by
  unfold curve totals
  split <;> simp

/-- The lines of a plot, given the tags in order. (Models no code: a notion for statements and proofs.) -/
theorem drawLines_ok (c : Str → List ℝ) (L : List Str) (m : Nat) :
    ((∀ t ∈ L, c t = [] ∨ (c t).length = m) →
      drawLines (some m) (L.map (fun t => (t, .ok (c t)))) = .ok ((L.map c).filter (fun l => decide (l ≠ [])))) ∧
    ((∃ t ∈ L, c t ≠ [] ∧ (c t).length ≠ m) → drawLines (some m) (L.map (fun t => (t, .ok (c t)))) = .error .valueError) := by
  induction L with
  | nil => exact ⟨fun _ => rfl, by simp⟩
  | cons t L ih =>
    simp only [List.map_cons]
    rw [drawLines]
    simp only [Option.getD_some]
    by_cases h0 : c t = []
    · rw [if_pos (by rw [h0]; rfl)]
      refine ⟨fun h => ?_, fun h => ?_⟩
      · rw [ih.1 (fun x hx => h x (by simp [hx])), h0]; simp
      · refine ih.2 ?_
        obtain ⟨x, hx, h1, h2⟩ := h
        rcases List.mem_cons.1 hx with rfl | hx
        · exact absurd h0 h1
        · exact ⟨x, hx, h1, h2⟩
    · rw [if_neg (by rw [List.length_eq_zero_iff]; exact h0)]
      by_cases hl : m = (c t).length
      · rw [if_pos hl]
        refine ⟨fun h => ?_, fun h => ?_⟩
        · rw [ih.1 (fun x hx => h x (by simp [hx]))]; simp [h0]
        · rw [ih.2]
          obtain ⟨x, hx, h1, h2⟩ := h
          rcases List.mem_cons.1 hx with rfl | hx
          · exact absurd hl.symm h2
          · exact ⟨x, hx, h1, h2⟩
      · rw [if_neg hl]
        refine ⟨fun h => ?_, fun _ => rfl⟩
        rcases h t (by simp) with e | e
        · exact absurd e h0
        · exact absurd e.symm hl

theorem drawLines_first (c : Str → List ℝ) (t : Str) (L : List Str) :
    drawLines none ((t :: L).map (fun t => (t, .ok (c t)))) =
      drawLines (some (c t).length) ((t :: L).map (fun t => (t, .ok (c t)))) := by
  simp only [List.map_cons]
  rw [drawLines, drawLines]
  simp

theorem drawLines_error (L : List Str) (g : Str → Except Err (List ℝ)) (t : Str) (ht : t ∈ L) (e : Err)
    (he : g t = .error e) (axis : Option Nat) : ∃ e', drawLines axis (L.map (fun t => (t, g t))) = .error e' := by
  induction L generalizing axis with
  | nil => cases ht
  | cons x L ih =>
    simp only [List.map_cons]
    cases hx : g x with
    | error e' => exact ⟨e', by rw [drawLines]⟩
    | ok ys =>
      have ht' : t ∈ L := by
        rcases List.mem_cons.1 ht with rfl | h
        · rw [hx] at he; cases he
        · exact h
      rw [drawLines]
      by_cases h0 : ys.length = 0
      · rw [if_pos h0]; exact ih ht' _
      · rw [if_neg h0]
        by_cases hl : axis.getD ys.length = ys.length
        · rw [if_pos hl]
          obtain ⟨e', h⟩ := ih ht' (some (axis.getD ys.length))
          rw [h]; exact ⟨e', rfl⟩
        · rw [if_neg hl]; exact ⟨_, rfl⟩

/-- The tags of a plot, each once and in order. (Specification.) -/
def IsLegend (tags : Str) (L : List Str) : Prop :=
  L.Pairwise (· < ·) ∧ ∀ t, t ∈ L ↔ t ∈ tags.splitOn ','

theorem sortedKeys_spec (F : Files) (ps : List Params) (tags : Str) {metric : Str} (hm : metric ∈ metrics) :
    IsLegend tags (sortedKeys (plotData metric (loadByTag F ps tags))) := by
  obtain ⟨h1, h2⟩ := loadByTag_spec F ps tags
  unfold sortedKeys
  rw [(plotData_spec hm _).1]
  constructor
  · have hs : (((loadByTag F ps tags).map Prod.fst).insertionSort (· ≤ ·)).Pairwise (· ≤ ·) :=
      List.pairwise_insertionSort _ _
    have hn : (((loadByTag F ps tags).map Prod.fst).insertionSort (· ≤ ·)).Nodup :=
      (List.perm_insertionSort (· ≤ ·) _).nodup_iff.2 h1
    exact (hs.and hn).imp (fun h => lt_of_le_of_ne h.1 h.2)
  · intro t
    rw [(List.perm_insertionSort (· ≤ ·) _).mem_iff]
    have := dictGet_none_iff (loadByTag F ps tags) t
    rw [h2] at this
    by_cases ht : t ∈ tags.splitOn ','
    · rw [if_pos ht] at this
      simp only [reduceCtorEq, false_iff, not_not] at this
      exact ⟨fun _ => ht, fun _ => this⟩
    · rw [if_neg ht] at this
      simp only [true_iff] at this
      exact ⟨fun h => absurd h this, fun h => absurd h ht⟩

/-- The values of a tag in a plot. (Specification.) -/
def curveOf (F : Files) (ps : List Params) (metric t : Str) : List ℝ := curve metric (allDurations F (byTag t ps))

theorem legend_unique {tags : Str} {L M : List Str} (h : IsLegend tags L) (h' : IsLegend tags M) : L = M := by
  have hL : L.Nodup := h.1.imp (fun h => ne_of_lt h)
  have hM : M.Nodup := h'.1.imp (fun h => ne_of_lt h)
  have hp : L.Perm M := (List.perm_ext_iff_of_nodup hL hM).2 (fun t => by rw [h.2, h'.2])
  exact hp.eq_of_pairwise' h.1 h'.1

theorem plot_drawn (F : Files) (ps : List Params) (tags : Str) {metric : Str} (hm : metric ∈ metrics)
    {L : List Str} (hL : IsLegend tags L) :
    plotCreate F ps metric tags =
      match drawLines none (L.map (fun t => (t, (loadCitr F (byTag t ps)).map (curve metric)))) with
      | .error e => .error e
      | .ok ls => .ok ⟨ls, L⟩ := by
  have hk : sortedKeys (plotData metric (loadByTag F ps tags)) = L :=
    legend_unique (sortedKeys_spec F ps tags hm) hL
  unfold plotCreate plot
  rw [hk]
  have : L.map (fun key => (key, (dictGet (plotData metric (loadByTag F ps tags)) key).getD (.error .keyError))) =
      L.map (fun t => (t, (loadCitr F (byTag t ps)).map (curve metric))) := by
    apply List.map_congr_left
    intro t ht
    rw [(plotData_spec hm _).2, (loadByTag_spec F ps tags).2, if_pos ((hL.2 t).1 ht)]
    rfl
  rw [this]

theorem legend_ne_nil {tags : Str} {L : List Str} (hL : IsLegend tags L) : L ≠ [] := by
  rintro rfl
  cases h : tags.splitOn ',' with
  | nil => exact absurd h (by simp)
  | cons a l =>
    have := (hL.2 a).2 (by rw [h]; simp)
    cases this

/-- **C89**: `plot create` draws, for each tag in the order of the tags, the durations of its runs (or their
running totals), without those that have none; it fails if a file is missing or if two tags have different
numbers of tests. -/
theorem plot_exact (F : Files) (ps : List Params) (tags : Str) {metric : Str} (hm : metric ∈ metrics)
    {t₀ : Str} {L : List Str} (hL : IsLegend tags (t₀ :: L)) :
    let good := (∀ t ∈ t₀ :: L, ∀ p ∈ byTag t ps, F.citr p.citr ≠ none) ∧
      ∀ t ∈ L, curveOf F ps metric t = [] ∨
        (curveOf F ps metric t).length = (curveOf F ps metric t₀).length
    (good → plotCreate F ps metric tags =
      .ok ⟨((t₀ :: L).map (curveOf F ps metric)).filter (fun l => decide (l ≠ [])), t₀ :: L⟩) ∧
    (¬ good → ∃ e, plotCreate F ps metric tags = .error e) := by
  intro good
  rw [plot_drawn F ps tags hm hL]
  by_cases hf : ∀ t ∈ t₀ :: L, ∀ p ∈ byTag t ps, F.citr p.citr ≠ none
  · have he : (t₀ :: L).map (fun t => (t, (loadCitr F (byTag t ps)).map (curve metric))) =
        (t₀ :: L).map (fun t => (t, Except.ok (curveOf F ps metric t))) := by
      apply List.map_congr_left
      intro t ht
      rw [(loadCitr_spec F _).1 (hf t ht)]; rfl
    rw [he, drawLines_first]
    obtain ⟨d1, d2⟩ := drawLines_ok (curveOf F ps metric) (t₀ :: L) (curveOf F ps metric t₀).length
    constructor
    · intro hg
      rw [d1]
      intro t ht
      rcases List.mem_cons.1 ht with rfl | ht
      · exact .inr rfl
      · exact hg.2 t ht
    · intro hg
      rw [d2]
      · exact ⟨_, rfl⟩
      · by_contra hc
        refine hg ⟨hf, fun t ht => ?_⟩
        by_contra h
        rw [not_or] at h
        exact hc ⟨t, by simp [ht], h.1, h.2⟩
  · refine ⟨fun hg => absurd hg.1 hf, fun _ => ?_⟩
    simp only [not_forall, not_not] at hf
    obtain ⟨t, ht, p, hp, e⟩ := hf
    obtain ⟨e', he'⟩ := drawLines_error (t₀ :: L) (fun t => (loadCitr F (byTag t ps)).map (curve metric)) t ht
      Exp.fileNotFound (by rw [(loadCitr_spec F _).2 ⟨p, hp, e⟩]; rfl) none
    rw [he']
    exact ⟨e', rfl⟩

theorem zip_get (c : Str → List ℝ) (L : List Str) (hn : L.Nodup)
    (hb : ∀ i j (hi : i < L.length) (hj : j < L.length), i < j → c L[i] = [] → c L[j] = []) (t : Str) (ht : t ∈ L) :
    dictGet (L.zip ((L.map c).filter (fun l => decide (l ≠ [])))) t = if c t = [] then none else some (c t) := by
  induction L with
  | nil => cases ht
  | cons x L ih =>
    by_cases hx : c x = []
    · have hall : ∀ y ∈ x :: L, c y = [] := by
        intro y hy
        obtain ⟨j, hj, rfl⟩ := List.mem_iff_getElem.1 hy
        cases j with
        | zero => exact hx
        | succ j => exact hb 0 (j+1) (by simp) hj (by omega) hx
      have : ((x :: L).map c).filter (fun l => decide (l ≠ [])) = [] := by
        rw [List.filter_eq_nil_iff]
        intro l hl
        obtain ⟨y, hy, rfl⟩ := List.mem_map.1 hl
        simp [hall y hy]
      rw [this, if_pos (hall t ht)]
      rfl
    · rw [List.map_cons, List.filter_cons, if_pos (by simpa using hx), List.zip_cons_cons]
      simp only [dictGet]
      by_cases hxt : x = t
      · subst hxt; rw [if_pos rfl, if_neg hx]
      · rw [if_neg hxt]
        refine ih (List.nodup_cons.1 hn).2 ?_ ((List.mem_cons.1 ht).resolve_left (fun e => hxt e.symm))
        intro i j hi hj hij
        exact hb (i+1) (j+1) (by simpa using hi) (by simpa using hj) (by omega)

theorem zip_wrong (c : Str → List ℝ) (L : List Str) (hn : L.Nodup) (i j : Nat) (hi : i < L.length)
    (hj : j < L.length) (hij : i < j) (h0 : c L[i] = []) (h1 : c L[j] ≠ []) :
    ∃ t ∈ L, c t = [] ∧ dictGet (L.zip ((L.map c).filter (fun l => decide (l ≠ [])))) t ≠ none := by
  induction L generalizing i j with
  | nil => simp at hi
  | cons x L ih =>
    by_cases hx : c x = []
    · refine ⟨x, by simp, hx, ?_⟩
      have hmem : c (x :: L)[j] ∈ ((x :: L).map c).filter (fun l => decide (l ≠ [])) := by
        rw [List.mem_filter]
        exact ⟨List.mem_map.2 ⟨_, List.getElem_mem hj, rfl⟩, by simpa using h1⟩
      cases hl : ((x :: L).map c).filter (fun l => decide (l ≠ [])) with
      | nil => rw [hl] at hmem; cases hmem
      | cons a l => simp [dictGet]
    · cases i with
      | zero => exact absurd h0 hx
      | succ i =>
        cases j with
        | zero => omega
        | succ j =>
          obtain ⟨t, ht, h2, h3⟩ := ih (List.nodup_cons.1 hn).2 i j (by simpa using hi) (by simpa using hj)
            (by omega) (by simpa using h0) (by simpa using h1)
          refine ⟨t, by simp [ht], h2, ?_⟩
          rw [List.map_cons, List.filter_cons, if_pos (by simpa using hx), List.zip_cons_cons]
          simp only [dictGet]
          rw [if_neg]
          · exact h3
          · rintro rfl
            exact (List.nodup_cons.1 hn).1 ht

/-- **C89 (finding: the legend can name the wrong line).**  The legend of a plot gives each tag its own line
(and none to a tag without tests) exactly if no tag without tests comes before one with tests. -/
theorem legend_right_iff (F : Files) (ps : List Params) (tags : Str) {metric : Str} (hm : metric ∈ metrics)
    {P : Plot} (h : plotCreate F ps metric tags = .ok P) :
    (∀ t ∈ tags.splitOn ',', P.lineOf t = if curveOf F ps metric t = [] then none
      else some (curveOf F ps metric t)) ↔
    ∀ t ∈ tags.splitOn ',', ∀ t' ∈ tags.splitOn ',', t < t' → curveOf F ps metric t = [] →
      curveOf F ps metric t' = [] := by
  have hL := sortedKeys_spec F ps tags hm
  generalize sortedKeys (plotData metric (loadByTag F ps tags)) = M at hL
  cases M with
  | nil => exact absurd rfl (legend_ne_nil hL)
  | cons t₀ L =>
    obtain ⟨p1, p2⟩ := plot_exact F ps tags hm hL
    have hP : P = ⟨((t₀ :: L).map (curveOf F ps metric)).filter (fun l => decide (l ≠ [])), t₀ :: L⟩ := by
      by_contra hne
      by_cases hg : (∀ t ∈ t₀ :: L, ∀ p ∈ byTag t ps, F.citr p.citr ≠ none) ∧
          ∀ t ∈ L, curveOf F ps metric t = [] ∨ (curveOf F ps metric t).length = (curveOf F ps metric t₀).length
      · rw [p1 hg] at h; exact hne (Except.ok.inj h).symm
      · obtain ⟨e, he⟩ := p2 hg; rw [he] at h; cases h
    subst hP
    have hn : (t₀ :: L).Nodup := hL.1.imp (fun h => ne_of_lt h)
    constructor
    · intro hr t ht t' ht' hlt h0
      by_contra h1
      obtain ⟨i, hi, rfl⟩ := List.mem_iff_getElem.1 ((hL.2 t).2 ht)
      obtain ⟨j, hj, rfl⟩ := List.mem_iff_getElem.1 ((hL.2 t').2 ht')
      have hij : i < j := by
        by_contra hc
        rcases Nat.eq_or_lt_of_le (Nat.le_of_not_lt hc) with e | hlt'
        · subst e; exact lt_irrefl _ hlt
        · exact lt_asymm hlt (List.pairwise_iff_getElem.1 hL.1 j i hj hi hlt')
      obtain ⟨t, ht, h2, h3⟩ := zip_wrong (curveOf F ps metric) (t₀ :: L) hn i j hi hj hij h0 h1
      have := hr t ((hL.2 t).1 ht)
      rw [if_pos h2] at this
      exact h3 this
    · intro hb t ht
      refine zip_get (curveOf F ps metric) (t₀ :: L) hn ?_ t ((hL.2 t).2 ht)
      intro i j hi hj hij h0
      exact hb _ ((hL.2 _).1 (List.getElem_mem hi)) _ ((hL.2 _).1 (List.getElem_mem hj))
        (List.pairwise_iff_getElem.1 hL.1 i j hi hj hij) h0

/-! ## Examples -/

/-- Each run made two tests, of one and of three seconds. (Example.) -/
def exFiles : Files where
  citr := fun _ => some [1, 3]
  datapoint := fun _ => some 5
  analysis := fun _ => some ⟨2, 100, 7, 4096⟩
  jht := fun _ => some ⟨1000, 10, 4, [2, 3]⟩
  dof := fun _ => some ⟨500, [2]⟩

/-- Nothing has been run. (Example.) -/
def noFiles : Files where
  citr := fun _ => none
  datapoint := fun _ => none
  analysis := fun _ => none
  jht := fun _ => none
  dof := fun _ => none

/-- The runs of the example, for a network with two variables. (Example.) -/
def exRuns : List Params := ((subjects 2).zipIdx).map (fun x => run exSetup x.1.1 x.1.2 x.2)

theorem exRuns_created : createParams exSetup 2 = .ok exRuns := createParams_eq exSetup 2

theorem exSetup_under : Under ["r".toList] exSetup :=
  ⟨_, _, sample_count_exact ["r".toList] "alarm".toList (by decide) 4 2 (by norm_num)⟩

theorem ex_durations (tag : Str) : allDurations exFiles (byTag tag exRuns) =
    (List.replicate (byTag tag exRuns).length [1, 3]).flatten := by
  unfold allDurations
  generalize byTag tag exRuns = l
  induction l with
  | nil => rfl
  | cons p l ih => rw [List.flatMap_cons, ih]; rfl

theorem ex_complete {k : RunKind} (hk : k ∈ kinds) :
    Complete exFiles (byTag (tagOf k) exRuns) ∧ (allDurations exFiles (byTag (tagOf k) exRuns)).sum = 8 ∧
    (allDurations exFiles (byTag (tagOf k) exRuns)).length = 4 := by
  have hl := runs_length exRuns_created hk
  refine ⟨⟨fun p _ h => (by cases h), ?_⟩, ?_, ?_⟩ <;> rw [ex_durations, hl]
  · simp [List.replicate]
  · simp [List.replicate]; norm_num
  · simp [List.replicate]

/-- The hypotheses of `dcmi_summary_exact` are met: two runs, four tests, two seconds each on average; all dcMI
caches are there. -/
example : ∃ N, createSummary exFiles exSetup exRuns (loadAnalyses exFiles exSetup exRuns []) (tagOf .dcmi) =
    .ok ⟨2, some N⟩ ∧ N.tests = 4 ∧ N.average = 2 := by
  have hk : RunKind.dcmi ∈ kinds := by decide
  obtain ⟨c1, c2, c3⟩ := ex_complete hk
  obtain ⟨N, h1, h2, -⟩ := (dcmi_summary_exact exFiles exRuns_created (by norm_num) hk).2.2.2.2 (by decide) c1
    (by rw [c2]; norm_num) (fun _ => ⟨_, _, rfl, rfl, by decide, by decide, by decide⟩)
  refine ⟨N, h1, by rw [h2.tests, c3], ?_⟩
  rw [h2.average, c2, c3]; norm_num

/-- A tree whose analysis is missing. -/
example : createSummary noFiles exSetup exRuns (loadAnalyses noFiles exSetup exRuns [])
    (tagOf (.adtree "static".toList "5".toList)) = .error .keyError :=
  (dcmi_summary_exact noFiles exRuns_created (by norm_num) (by decide +kernel)).1 ⟨rfl, rfl⟩

/-- `summary show adtree` always fails. -/
example (F : Files) : createSummary F exSetup exRuns (loadAnalyses F exSetup exRuns []) "adtree".toList =
    .error .keyError :=
  summary_other_tree_tag F exRuns_created (by decide) (by decide +kernel)

/-- Shown too early, and shown again when all is there. (Example.) -/
def exInvocations : List Invocation :=
  [⟨exSetup, exRuns, noFiles, some "unoptimized".toList, false⟩,
   ⟨exSetup, exRuns, exFiles, some "unoptimized".toList, false⟩]

theorem ex_early : createSummary noFiles exSetup exRuns (loadAnalyses noFiles exSetup exRuns []) "unoptimized".toList =
    .ok ⟨2, none⟩ := by
  have hk : RunKind.unoptimized ∈ kinds := by decide
  refine (dcmi_summary_exact noFiles exRuns_created (by norm_num) hk).2.1 (by decide) ?_
  have hl := runs_length exRuns_created hk
  cases he : byTag (tagOf .unoptimized) exRuns with
  | nil => rw [he] at hl; cases hl
  | cons p l => exact one_missing_file noFiles (p := p) (by simp) rfl

theorem ex_tags : tagsOfArgument (some "unoptimized".toList) = ["unoptimized".toList] := by decide +kernel

/-- The finding on an instance: no tests found, although all results are there. -/
theorem stale_summary : (history [] exInvocations).2.map (fun e => (e.shown.cached, e.shown.summary)) =
    [(false, ⟨2, none⟩), (true, ⟨2, none⟩)] ∧
    createSummary exFiles exSetup exRuns (loadAnalyses exFiles exSetup exRuns []) "unoptimized".toList ≠
      .ok ⟨2, none⟩ := by
  constructor
  · have h1 : showTag noFiles exSetup exRuns (loadAnalyses noFiles exSetup exRuns []) false [] "unoptimized".toList =
        .ok ([(summaryFile exSetup "unoptimized".toList, ⟨2, none⟩)], ⟨"unoptimized".toList, false, ⟨2, none⟩,
          none⟩) := by
      unfold showTag
      rw [ex_early]; rfl
    have h2 : showTag exFiles exSetup exRuns (loadAnalyses exFiles exSetup exRuns []) false
        [(summaryFile exSetup "unoptimized".toList, ⟨2, none⟩)] "unoptimized".toList =
        .ok ([(summaryFile exSetup "unoptimized".toList, ⟨2, none⟩)], ⟨"unoptimized".toList, true, ⟨2, none⟩,
          none⟩) := by
      unfold showTag
      simp only [Bool.false_eq_true, if_false, dictGet, if_true]
      rfl
    simp only [history, exInvocations, summaryShow, ex_tags, showLoop, h1, h2, List.map_cons, List.map_nil,
      List.append_nil, List.cons_append, List.nil_append]
  · have hk : RunKind.unoptimized ∈ kinds := by decide
    obtain ⟨c1, c2, c3⟩ := ex_complete hk
    obtain ⟨N, h1, -⟩ := (dcmi_summary_exact exFiles exRuns_created (by norm_num) hk).2.2.2.2 (by decide) c1
      (by rw [c2]; norm_num) (fun h => by cases h)
    have h1 : createSummary exFiles exSetup exRuns (loadAnalyses exFiles exSetup exRuns []) "unoptimized".toList = _ := h1
    rw [h1]
    simp

theorem ex_split : "dcmi,typo,unoptimized".toList.splitOn ',' =
    ["dcmi".toList, "typo".toList, "unoptimized".toList] := by decide +kernel

theorem ex_typo (F : Files) (metric : Str) : curveOf F exRuns metric "typo".toList = [] := by
  have : byTag "typo".toList exRuns = [] := by
    rw [byTag, List.filter_eq_nil_iff]
    intro p hp
    obtain ⟨k, t, i, hi, rfl⟩ := (mem_created exRuns_created p).1 hp
    have hk := ((mem_subjects _ _ _).1 (List.mem_of_getElem? hi)).1
    rw [run_tags]
    clear hi hp
    revert k
    decide +kernel
  unfold curveOf
  rw [this]
  apply List.eq_nil_of_length_eq_zero
  rw [curve_length]; rfl

theorem ex_legend : IsLegend "dcmi,typo,unoptimized".toList ["dcmi".toList, "typo".toList, "unoptimized".toList] := by
  refine ⟨by decide +kernel, fun t => by rw [ex_split]⟩

theorem three_lines (c : Str → List ℝ) {a b d : Str} (hab : a ≠ b) (had : a ≠ d) (hbd : b ≠ d) {x y : List ℝ}
    (ha : c a = x) (hb : c b = []) (hd : c d = y) (hx : x ≠ []) (hy : y ≠ []) :
    (Plot.mk (([a, b, d].map c).filter (fun l => decide (l ≠ []))) [a, b, d]).lineOf b = some y ∧
    (Plot.mk (([a, b, d].map c).filter (fun l => decide (l ≠ []))) [a, b, d]).lineOf d = none := by
  simp [Plot.lineOf, ha, hb, hd, hx, hy, dictGet, hab, had, hbd]

/-- The finding on an instance: a misspelt tag gets the line of another. -/
theorem wrong_legend : ∃ P, plotCreate exFiles exRuns "duration".toList "dcmi,typo,unoptimized".toList = .ok P ∧
    P.lineOf "typo".toList = some [1, 3, 1, 3] ∧ P.lineOf "unoptimized".toList = none := by
  have hd : ∀ k ∈ kinds, curveOf exFiles exRuns "duration".toList (tagOf k) = [1, 3, 1, 3] := by
    intro k hk
    unfold curveOf curve
    rw [if_pos rfl, ex_durations, runs_length exRuns_created hk]
    rfl
  have h1 := hd .dcmi (by decide)
  have h2 := hd .unoptimized (by decide)
  have h3 := ex_typo exFiles "duration".toList
  have h1 : curveOf exFiles exRuns "duration".toList "dcmi".toList = [1, 3, 1, 3] := h1
  have h2 : curveOf exFiles exRuns "duration".toList "unoptimized".toList = [1, 3, 1, 3] := h2
  refine ⟨_, (plot_exact exFiles exRuns _ (by decide) ex_legend).1 ⟨fun t _ p _ h => (by cases h), ?_⟩,
    three_lines _ (by decide) (by decide) (by decide) h1 h3 h2 (by simp) (by simp)⟩
  intro t ht
  simp only [List.mem_cons, List.not_mem_nil, or_false] at ht
  rcases ht with rfl | rfl
  · exact .inl h3
  · exact .inr (by rw [h1, h2])

end Mbtk.DcmiSummary
