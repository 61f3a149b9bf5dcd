import Verif.Exp.DsepSetup
import Verif.Fp.Binary64
import Mathlib.Tactic.Tauto
import Mathlib.Data.List.TakeWhile
/-!
# The runs of the dcMI experiment (`experiments/experiment_dcmi`) (C88)

Arguments, names and paths, the parameters of the runs, their tags, and the preloading of AD-trees.
Not modelled: reading the network (its outcome, the number of variables, is given), the matrices, and
the classes put into the parameters (only which of them).
-/
namespace Mbtk.DcmiSetup
open Mbtk Mbtk.Dataset Mbtk.Dataset.Rcv Mbtk.Exp
open Mbtk.DsepSetup (split_front split_back target_no_underscore subfolder matchesFormat)

/-! ## Arguments -/

/-- `AllowedDatasetNames`: expsetup.py 24. -/
def allowedDatasets : List Str := ["alarm".toList, "andes".toList, "munin".toList]
/-- `AllowedADTreeTypes`: expsetup.py 25. -/
def allowedTypes : List Str := ["static".toList, "dynamic".toList]
/-- `AllowedLLT`: expsetup.py 26. -/
def allowedLLT : List Str := ["0".toList, "5".toList, "10".toList]
/-- `DefaultTags`: expsetup.py 27-30. -/
def defaultTags : List Str := ["unoptimized".toList, "adtree-static-llt0".toList,
  "adtree-static-llt5".toList, "adtree-static-llt10".toList, "adtree-dynamic-llt0".toList,
  "adtree-dynamic-llt5".toList, "adtree-dynamic-llt10".toList, "dcmi".toList]

/-- `re.match(r"^[0-9]+e[0-9]+$", text)`; `$` also matches before a final newline.
experiment_dcmi/expsetup.py 91-95. -/
def matchesCount (s : Str) : Bool :=
  matchesFormat s || (s.getLast? == some '\n' && matchesFormat s.dropLast)

/-- The value of a string of decimal digits, as `int` reads it. (Python itself.) -/
def numeral (s : Str) : Nat := s.foldl (fun n c => 10 * n + (c.toNat - '0'.toNat)) 0

/-- The number that a text in exponential notation denotes. (Python itself.) -/
def denoted (s : Str) : Nat :=
  numeral (s.takeWhile (fun c => c.isDigit)) *
    10 ^ numeral (((s.dropWhile (fun c => c.isDigit)).drop 1).takeWhile (fun c => c.isDigit))

/-- `int(float(text))` of such a text: the nearest `float` (`OverflowError` from `int` if it is
infinite), which is a whole number. experiment_dcmi/expsetup.py 39. -/
def intFloat (s : Str) : Except Err Int :=
  if (2 : ℚ) ^ 1024 ≤ Fp.fl (denoted s : ℚ) then .error (.custom "OverflowError")
  else .ok ⌊Fp.fl (denoted s : ℚ)⌋

/-- What `set_arguments(arguments)` sets, and the folders. experiment_dcmi/expsetup.py 15-40;
experiment.py 7-12. -/
structure Setup where
  root : Path
  dataset : Str
  countString : Str
  count : Int
  deriving DecidableEq, Repr

/-- `set_arguments(arguments)` with `validate_arguments`: experiment_dcmi/expsetup.py 33-40, 78-95. -/
def setArguments (root : Path) (dataset countString : Str) : Except Err Setup :=
  if dataset ∉ allowedDatasets then .error .valueError
  else if matchesCount countString = false then .error .valueError
  else do
    let k ← intFloat countString
    .ok ⟨root, dataset, countString, k⟩

/-- `calculate_absolute_LLT(llt)`: experiment_dcmi/expsetup.py 43-44; `/` gives the nearest `float`,
`int` truncates (the count is never negative). -/
def absoluteLLT (S : Setup) (llt : Str) : Int := ⌊Fp.fl (((S.count * numeral llt : ℤ) : ℚ) / 1000)⌋

/-- `exds_name`: definitions.py 27, experiment_dcmi/algrun_parameters.py 79. -/
def exdsName (S : Setup) : Str := "synthetic_".toList ++ (S.dataset ++ '_' :: S.countString)

/-- `experiment_definition(experimental_setup)`: definitions.py 50-73. -/
def definition (S : Setup) : Exp.Config where
  path := S.root ++ ["exprun_repository".toList, "dcMIEvExpII".toList]
  sub := S.dataset ++ '_' :: S.countString
  saveDatapoints := true
  logFile := true
  autoLock := true

/-- `get_ADTree_path(tree_type, llt)`: experiment_dcmi/expsetup.py 50, 59-61. -/
def treePath (S : Setup) (type llt : Str) : Path :=
  subfolder (definition S) "adtrees".toList ++
    ["adtree_".toList ++ (type ++ ("_llt".toList ++ (llt ++ ".pickle".toList)))]

/-! ## Parameters -/

/-- Which class tests conditional independence: experiment_dcmi/algrun_parameters.py 79, 102, 128, 169. -/
inductive TestClass where
  | dSeparation | unoptimized | withADTree | withDcMI
  deriving DecidableEq, Repr

/-- Which class calculates degrees of freedom: experiment_dcmi/algrun_parameters.py 103, 129, 170. -/
inductive DofClass where
  | structural | cached
  deriving DecidableEq, Repr

/-- A piece of a format string: text, or the name of a parameter in braces. (Python itself.) -/
inductive Piece where
  | text (s : Str)
  | index | target | treeType | llt
  deriving DecidableEq, Repr

/-- A dictionary of parameters (only the entries that tell runs apart; the entries of the defaults are the
same in all of them). An absent entry is `none`. experiment_dcmi/algrun_parameters.py 75-199. -/
structure Params where
  target : Nat
  test : TestClass
  dof : Option DofClass := none
  treeType : Option Str := none
  threshold : Option Int := none
  llt : Option Str := none
  treeLoad : Option Path := none
  treeSave : Option Path := none
  jhtLoad : Option Path := none
  jhtSave : Option Path := none
  dofLoad : Option Path := none
  dofSave : Option Path := none
  citr : Path
  tags : List Str
  idFormat : List Piece
  index : Option Nat := none
  id : Str := []
  /-- the object put under `ci_test_ad_tree_preloaded`, by its identity -/
  preloaded : Option Nat := none
  deriving DecidableEq, Repr

/-- `format.format(**parameters)`; `KeyError` for an absent entry.
experiment_dcmi/algrun_parameters.py 51-52. -/
def format (p : Params) : List Piece → Except Err Str
  | [] => .ok []
  | piece :: rest => do
    let s ← (match piece with
      | .text s => .ok s
      | .index => match p.index with
        | some i => .ok (idLabel i)
        | none => .error .keyError
      | .target => .ok (idLabel p.target)
      | .treeType => match p.treeType with
        | some t => .ok t
        | none => .error .keyError
      | .llt => match p.llt with
        | some t => .ok t
        | none => .error .keyError : Except Err Str)
    let t ← format p rest
    .ok (s ++ t)

/-- `citrrepo / 'ci_test_results_{}_T{}_{...}.pickle'`: experiment_dcmi/algrun_parameters.py 84, 108, 144,
181. -/
def citrPath (S : Setup) (target : Nat) (suffix : Str) : Path :=
  subfolder (definition S) "ci_test_results".toList ++
    ["ci_test_results_".toList ++ (exdsName S ++ '_' :: (('T' :: idLabel target) ++ '_' ::
      (suffix ++ ".pickle".toList)))]

/-- `create_algrun_parameters__dsep`: experiment_dcmi/algrun_parameters.py 75-95. -/
def dsepParams (S : Setup) (n : Nat) : List Params :=
  (List.range n).map (fun t =>
    { target := t
      test := .dSeparation
      citr := citrPath S t "dsep".toList
      tags := ["dsep".toList, "fast".toList, "no_dependencies".toList]
      idFormat := [.text "run_".toList, .index, .text "_T".toList, .target, .text "__dsep".toList] })

/-- `create_algrun_parameters__unoptimized`: experiment_dcmi/algrun_parameters.py 99-121. -/
def unoptimizedParams (S : Setup) (n : Nat) : List Params :=
  (List.range n).map (fun t =>
    { target := t
      test := .unoptimized
      dof := some .structural
      citr := citrPath S t "unoptimized".toList
      tags := ["unoptimized".toList, "slow".toList, "no_dependencies".toList]
      idFormat := [.text "run_".toList, .index, .text "_T".toList, .target, .text "__unoptimized".toList] })

/-- One turn of the inner loop of `create_algrun_parameters__adtree`:
experiment_dcmi/algrun_parameters.py 141-160. -/
def adtreeParam (S : Setup) (type : Str) (t : Nat) (llt : Str) : Params :=
  { target := t
    test := .withADTree
    dof := some .structural
    treeType := some type
    threshold := some (absoluteLLT S llt)
    llt := some llt
    treeLoad := some (treePath S type llt)
    treeSave := some (treePath S type llt)
    citr := citrPath S t ("ADtree_".toList ++ (type ++ '_' :: ("LLT".toList ++ llt)))
    tags := ["adtree".toList, "adtree-".toList ++ type,
      "adtree-".toList ++ (type ++ ("-llt".toList ++ llt)), "fast".toList, "has_dependencies".toList]
    idFormat := [.text "run_".toList, .index, .text "_T".toList, .target, .text "__adtree_".toList, .treeType,
      .text "_@LLT=".toList, .llt] }

/-- `create_algrun_parameters__adtree`: experiment_dcmi/algrun_parameters.py 125-162. -/
def adtreeParams (S : Setup) (n : Nat) (type : Str) : List Params :=
  (List.range n).flatMap (fun t => allowedLLT.map (adtreeParam S type t))

/-- `jht_path`: experiment_dcmi/algrun_parameters.py 173-174. -/
def jhtPath (S : Setup) : Path :=
  subfolder (definition S) "jht".toList ++ ["jht_".toList ++ (exdsName S ++ ".pickle".toList)]

/-- `dof_cache_path`: experiment_dcmi/algrun_parameters.py 176-177. -/
def dofCachePath (S : Setup) : Path :=
  subfolder (definition S) "dof_cache".toList ++ ["dofcache_".toList ++ (exdsName S ++ ".pickle".toList)]

/-- `create_algrun_parameters__dcmi`: experiment_dcmi/algrun_parameters.py 166-199. -/
def dcmiParams (S : Setup) (n : Nat) : List Params :=
  (List.range n).map (fun t =>
    { target := t
      test := .withDcMI
      dof := some .cached
      jhtLoad := some (jhtPath S)
      jhtSave := some (jhtPath S)
      dofLoad := some (dofCachePath S)
      dofSave := some (dofCachePath S)
      citr := citrPath S t "dcMI".toList
      tags := ["dcmi".toList, "fast".toList, "no_dependencies".toList]
      idFormat := [.text "run_".toList, .index, .text "_T".toList, .target, .text "__dcMI".toList] })

/-- The loop that numbers the runs and formats their IDs: experiment_dcmi/algrun_parameters.py 45-52. -/
def number : Nat → List Params → Except Err (List Params)
  | _, [] => .ok []
  | i, p :: ps => do
    let id ← format { p with index := some i } p.idFormat
    let ps ← number (i + 1) ps
    .ok ({ p with index := some i, id := id } :: ps)

/-- `create_algrun_parameters(experimental_setup)`: experiment_dcmi/algrun_parameters.py 29-54; `n` is the
number of variables of the network. -/
def createParams (S : Setup) (n : Nat) : Except Err (List Params) :=
  number 0 (dsepParams S n ++ unoptimizedParams S n ++ adtreeParams S n "static".toList ++
    adtreeParams S n "dynamic".toList ++ dcmiParams S n)

/-- `get_algruns_by_tag(tag)`, `filter_algruns_by_tag(tag)`: experiment.py 62-69. -/
def byTag (tag : Str) (ps : List Params) : List Params := ps.filter (fun p => decide (tag ∈ p.tags))

/-- `is_tag_present_in_any_algrun(tag)`: experiment.py 72-76. -/
def tagPresent (tag : Str) : List Params → Bool
  | [] => false
  | p :: ps => if tag ∈ p.tags then true else tagPresent tag ps

/-- `preload_ADTrees()`: experiment_dcmi/expsetup.py 64-76.  `files` says which paths can be opened;
the first component is `preloaded_adtrees`, in which the objects are numbered in the order of
loading. -/
def preload (files : Path → Bool) :
    List (Path × Nat) → List Params → Except Err (List (Path × Nat) × List Params)
  | loaded, [] => .ok (loaded, [])
  | loaded, p :: ps =>
    if "adtree".toList ∈ p.tags then
      match p.treeLoad with
      | none => do
        let (loaded, ps) ← preload files loaded ps
        .ok (loaded, p :: ps)
      | some path =>
        match dictGet loaded path with
        | some k => do
          let (loaded, ps) ← preload files loaded ps
          .ok (loaded, { p with preloaded := some k, treeLoad := none } :: ps)
        | none =>
          if files path then do
            let k := loaded.length
            let (loaded, ps) ← preload files (dictSet loaded path k) ps
            .ok (loaded, { p with preloaded := some k, treeLoad := none } :: ps)
          else .error (.custom "FileNotFoundError")
    else do
      let (loaded, ps) ← preload files loaded ps
      .ok (loaded, p :: ps)

/-- The data point of a run: ExperimentRun.py 90-94; read by `load_datapoints`,
experiment_dcmi/commands.py 314-328. -/
def datapointFile (S : Setup) (p : Params) : Path := (definition S).datapointFile p.id

/-- What `adtree build --tree-type --llt` does: the file that it writes and the leaf-list threshold with
which it builds the tree. experiment_dcmi/commands.py 102-140. -/
def builtTree (S : Setup) (type llt : Str) : Path × Int := (treePath S type llt, absoluteLLT S llt)

/-! ## Specification -/

namespace Spec

/-- What tests conditional independence in a run. (Specification.) -/
inductive RunKind where
  | dSeparation | unoptimized
  | adtree (type llt : Str)
  | dcmi
  deriving DecidableEq, Repr

/-- The kinds of run, in order. (Specification.) -/
def kinds : List RunKind := [.dSeparation, .unoptimized] ++ allowedLLT.map (.adtree "static".toList) ++
  allowedLLT.map (.adtree "dynamic".toList) ++ [.dcmi]

/-- The run for a target with a kind of test: parameters that fit the kind. (Specification.) -/
structure IsRunFor (S : Setup) (k : RunKind) (t : Nat) (p : Params) : Prop where
  target : p.target = t
  test : p.test = match k with
    | .dSeparation => .dSeparation | .unoptimized => .unoptimized
    | .adtree _ _ => .withADTree | .dcmi => .withDcMI
  dof : p.dof = match k with
    | .dSeparation => none | .unoptimized => some .structural
    | .adtree _ _ => some .structural | .dcmi => some .cached
  tree : match k with
    | .adtree type llt => p.treeType = some type ∧ p.llt = some llt ∧
        p.treeLoad = some (builtTree S type llt).1 ∧ p.treeSave = some (builtTree S type llt).1 ∧
        p.threshold = some (builtTree S type llt).2
    | _ => p.treeType = none ∧ p.llt = none ∧ p.treeLoad = none ∧ p.treeSave = none ∧ p.threshold = none
  caches : match k with
    | .dcmi => p.jhtLoad = some (jhtPath S) ∧ p.jhtSave = some (jhtPath S) ∧
        p.dofLoad = some (dofCachePath S) ∧ p.dofSave = some (dofCachePath S)
    | _ => p.jhtLoad = none ∧ p.jhtSave = none ∧ p.dofLoad = none ∧ p.dofSave = none

/-- The runs of an experiment on a network with `n` variables, in order: each kind of run for every
target, all trees of one type for a target together. (Specification.) -/
def subjects (n : Nat) : List (RunKind × Nat) :=
  (List.range n).map (Prod.mk .dSeparation) ++ (List.range n).map (Prod.mk .unoptimized) ++
  (List.range n).flatMap (fun t => allowedLLT.map (fun llt => (.adtree "static".toList llt, t))) ++
  (List.range n).flatMap (fun t => allowedLLT.map (fun llt => (.adtree "dynamic".toList llt, t))) ++
  (List.range n).map (Prod.mk .dcmi)

/-- The file of an AD-tree that a run loads, if it does. (Specification.) -/
def needs (p : Params) : Option Path := if "adtree".toList ∈ p.tags then p.treeLoad else none

/-- The tag under which a kind of run is reported. (Specification.) -/
def tagOf : RunKind → Str
  | .dSeparation => "dsep".toList
  | .unoptimized => "unoptimized".toList
  | .adtree type llt => "adtree-".toList ++ (type ++ ("-llt".toList ++ llt))
  | .dcmi => "dcmi".toList

end Spec
open Spec

/-! ## Proofs: the list of runs -/

/-- What follows `T<target>__` in the ID of a run. (Models no code: a notion for statements and proofs.) -/
def kindText : RunKind → Str
  | .dSeparation => "dsep".toList
  | .unoptimized => "unoptimized".toList
  | .adtree type llt => "adtree_".toList ++ (type ++ ("_@LLT=".toList ++ llt))
  | .dcmi => "dcMI".toList

/-- The end of the name of the file of CI results. (Models no code: a notion for statements and proofs.) -/
def citrText : RunKind → Str
  | .dSeparation => "dsep".toList
  | .unoptimized => "unoptimized".toList
  | .adtree type llt => "ADtree_".toList ++ (type ++ '_' :: ("LLT".toList ++ llt))
  | .dcmi => "dcMI".toList

/-- The parameters of a run before it is numbered. (Models no code: a notion for statements and proofs.) -/
def blank (S : Setup) : RunKind → Nat → Params
  | .dSeparation, t => 
    { target := t
      test := .dSeparation
      citr := citrPath S t "dsep".toList
      tags := ["dsep".toList, "fast".toList, "no_dependencies".toList]
      idFormat := [.text "run_".toList, .index, .text "_T".toList, .target, .text "__dsep".toList] }
  | .unoptimized, t =>
    { target := t
      test := .unoptimized
      dof := some .structural
      citr := citrPath S t "unoptimized".toList
      tags := ["unoptimized".toList, "slow".toList, "no_dependencies".toList]
      idFormat := [.text "run_".toList, .index, .text "_T".toList, .target, .text "__unoptimized".toList] }
  | .adtree type llt, t => adtreeParam S type t llt
  | .dcmi, t =>
    { target := t
      test := .withDcMI
      dof := some .cached
      jhtLoad := some (jhtPath S)
      jhtSave := some (jhtPath S)
      dofLoad := some (dofCachePath S)
      dofSave := some (dofCachePath S)
      citr := citrPath S t "dcMI".toList
      tags := ["dcmi".toList, "fast".toList, "no_dependencies".toList]
      idFormat := [.text "run_".toList, .index, .text "_T".toList, .target, .text "__dcMI".toList] }

/-- The ID of a run. (Models no code: a notion for statements and proofs.) -/
def runId (k : RunKind) (t i : Nat) : Str :=
  "run_".toList ++ (idLabel i ++ '_' :: (('T' :: idLabel t) ++ '_' :: ('_' :: kindText k)))

/-- A numbered run. (Models no code: a notion for statements and proofs.) -/
def run (S : Setup) (k : RunKind) (t i : Nat) : Params :=
  { blank S k t with index := some i, id := runId k t i }

theorem lists_eq (S : Setup) (n : Nat) : dsepParams S n ++ unoptimizedParams S n ++
    adtreeParams S n "static".toList ++ adtreeParams S n "dynamic".toList ++ dcmiParams S n =
    (subjects n).map (fun kt => blank S kt.1 kt.2) := by
  simp only [subjects, List.map_append, List.map_map, List.map_flatMap]
  rfl

theorem format_text (p : Params) (s : Str) (rest : List Piece) {r : Str} (h : format p rest = .ok r) :
    format p (.text s :: rest) = .ok (s ++ r) := by
  rw [format, h]; rfl

theorem format_index (p : Params) (rest : List Piece) {i : Nat} {r : Str} (hi : p.index = some i)
    (h : format p rest = .ok r) : format p (.index :: rest) = .ok (idLabel i ++ r) := by
  rw [format, h]; simp only [hi]; rfl

theorem format_target (p : Params) (rest : List Piece) {r : Str}
    (h : format p rest = .ok r) : format p (.target :: rest) = .ok (idLabel p.target ++ r) := by
  rw [format, h]; rfl

theorem format_type (p : Params) (rest : List Piece) {t r : Str} (hi : p.treeType = some t)
    (h : format p rest = .ok r) : format p (.treeType :: rest) = .ok (t ++ r) := by
  rw [format, h]; simp only [hi]; rfl

theorem format_llt (p : Params) (rest : List Piece) {t r : Str} (hi : p.llt = some t)
    (h : format p rest = .ok r) : format p (.llt :: rest) = .ok (t ++ r) := by
  rw [format, h]; simp only [hi]; rfl

theorem format_simple (p : Params) (i : Nat) (s : Str) (hi : p.index = some i) :
    format p [.text "run_".toList, .index, .text "_T".toList, .target, .text s] =
      .ok ("run_".toList ++ (idLabel i ++ ("_T".toList ++ (idLabel p.target ++ (s ++ []))))) :=
  format_text _ _ _ (format_index _ _ hi (format_text _ _ _ (format_target _ _ (format_text _ _ _ rfl))))

theorem format_tree (p : Params) (i : Nat) (t l : Str) (hi : p.index = some i) (ht : p.treeType = some t)
    (hl : p.llt = some l) :
    format p [.text "run_".toList, .index, .text "_T".toList, .target, .text "__adtree_".toList, .treeType,
      .text "_@LLT=".toList, .llt] =
      .ok ("run_".toList ++ (idLabel i ++ ("_T".toList ++ (idLabel p.target ++ ("__adtree_".toList ++
        (t ++ ("_@LLT=".toList ++ (l ++ [])))))))) :=
  format_text _ _ _ (format_index _ _ hi (format_text _ _ _ (format_target _ _
    (format_text _ _ _ (format_type _ _ ht (format_text _ _ _ (format_llt _ _ hl rfl)))))))

theorem runId_text (k : RunKind) (t i : Nat) {s : Str} (h : s = '_' :: '_' :: kindText k) :
    runId k t i = "run_".toList ++ (idLabel i ++ ("_T".toList ++ (idLabel t ++ (s ++ [])))) := by
  have e1 : ("_T".toList : Str) = ['_','T'] := by decide
  rw [e1, h]
  simp only [runId, List.cons_append, List.nil_append, List.append_nil]

theorem tree_text (x t type llt : Str) (A B C : Str) (a b : Char) :
    A ++ (x ++ a :: (('T' :: t) ++ b :: (b :: (B ++ (type ++ (C ++ llt)))))) =
    A ++ (x ++ ((a :: ['T']) ++ (t ++ ((b :: b :: B) ++ (type ++ (C ++ (llt ++ []))))))) := by
  simp only [List.cons_append, List.nil_append, List.append_nil]

theorem runId_tree (type llt : Str) (t i : Nat) :
    runId (.adtree type llt) t i = "run_".toList ++ (idLabel i ++ ("_T".toList ++ (idLabel t ++
        ("__adtree_".toList ++ (type ++ ("_@LLT=".toList ++ (llt ++ []))))))) :=
  tree_text (idLabel i) (idLabel t) type llt _ _ _ '_' '_'

theorem format_blank (S : Setup) (k : RunKind) (t i : Nat) :
    format { blank S k t with index := some i } (blank S k t).idFormat = .ok (runId k t i) := by
  cases k with
  | dSeparation =>
    have h := format_simple { blank S .dSeparation t with index := some i } i "__dsep".toList rfl
    have e : runId .dSeparation t i = "run_".toList ++ (idLabel i ++ ("_T".toList ++ (idLabel t ++
        ("__dsep".toList ++ [])))) := runId_text _ _ _ (by decide)
    rw [e]
    exact h
  | unoptimized =>
    have h := format_simple { blank S .unoptimized t with index := some i } i "__unoptimized".toList rfl
    have e : runId .unoptimized t i = "run_".toList ++ (idLabel i ++ ("_T".toList ++ (idLabel t ++
        ("__unoptimized".toList ++ [])))) := runId_text _ _ _ (by decide)
    rw [e]
    exact h
  | dcmi =>
    have h := format_simple { blank S .dcmi t with index := some i } i "__dcMI".toList rfl
    have e : runId .dcmi t i = "run_".toList ++ (idLabel i ++ ("_T".toList ++ (idLabel t ++
        ("__dcMI".toList ++ [])))) := runId_text _ _ _ (by decide)
    rw [e]
    exact h
  | adtree type llt =>
    have h := format_tree { adtreeParam S type t llt with index := some i } i type llt rfl rfl rfl
    rw [runId_tree]
    exact h

theorem number_blank (S : Setup) (L : List (RunKind × Nat)) (i : Nat) :
    number i (L.map (fun kt => blank S kt.1 kt.2)) =
      .ok ((L.zipIdx i).map (fun x => run S x.1.1 x.1.2 x.2)) := by
  induction L generalizing i with
  | nil => rfl
  | cons kt L ih =>
    simp only [List.map_cons, number, List.zipIdx_cons, format_blank, ih]
    rfl

theorem createParams_eq (S : Setup) (n : Nat) : createParams S n =
    .ok (((subjects n).zipIdx).map (fun x => run S x.1.1 x.1.2 x.2)) := by
  unfold createParams
  rw [lists_eq, number_blank]

theorem run_isRunFor (S : Setup) (k : RunKind) (t i : Nat) : IsRunFor S k t (run S k t i) := by
  cases k <;> constructor <;> simp [run, blank, adtreeParam, builtTree]

theorem mem_subjects (n : Nat) (k : RunKind) (t : Nat) : (k, t) ∈ subjects n ↔ k ∈ kinds ∧ t < n := by
  simp only [subjects, kinds, List.mem_append, List.mem_map, List.mem_flatMap, List.mem_range,
    Prod.mk.injEq, List.mem_cons, List.not_mem_nil, or_false]
  constructor
  · rintro ((((⟨a, h, rfl, rfl⟩ | ⟨a, h, rfl, rfl⟩) | ⟨a, h, l, hl, rfl, rfl⟩) | ⟨a, h, l, hl, rfl, rfl⟩) |
      ⟨a, h, rfl, rfl⟩)
    · exact ⟨by simp, h⟩
    · exact ⟨by simp, h⟩
    · exact ⟨.inl (.inl (.inr ⟨l, hl, rfl⟩)), h⟩
    · exact ⟨.inl (.inr ⟨l, hl, rfl⟩), h⟩
    · exact ⟨by simp, h⟩
  · rintro ⟨((((rfl | rfl) | ⟨l, hl, rfl⟩) | ⟨l, hl, rfl⟩) | rfl), h⟩
    · exact .inl (.inl (.inl (.inl ⟨t, h, rfl, rfl⟩)))
    · exact .inl (.inl (.inl (.inr ⟨t, h, rfl, rfl⟩)))
    · exact .inl (.inl (.inr ⟨t, h, l, hl, rfl, rfl⟩))
    · exact .inl (.inr ⟨t, h, l, hl, rfl, rfl⟩)
    · exact .inr ⟨t, h, rfl, rfl⟩

theorem subjects_nodup (n : Nat) : (subjects n).Nodup := by
  have hr := List.nodup_range (n := n)
  have h1 : ∀ k : RunKind, ((List.range n).map (Prod.mk k)).Nodup := fun k =>
    hr.map (fun a b h => (Prod.mk.inj h).2)
  have h2 : ∀ type : Str, ((List.range n).flatMap (fun t => allowedLLT.map
      (fun llt => (RunKind.adtree type llt, t)))).Nodup := by
    intro type
    rw [List.nodup_flatMap]
    refine ⟨fun t _ => ?_, ?_⟩
    · exact List.Nodup.map (fun a b h => by simpa using h) (by decide)
    · refine hr.imp ?_
      intro a b hab
      simp only [Function.onFun, List.disjoint_left, List.mem_map]
      rintro x ⟨l, _, rfl⟩ ⟨l', _, e⟩
      exact hab (Prod.mk.inj e).2.symm
  have hd : ("static".toList : Str) ≠ "dynamic".toList := by decide
  unfold subjects
  refine List.Nodup.append (List.Nodup.append (List.Nodup.append (List.Nodup.append (h1 _) (h1 _) ?_)
    (h2 _) ?_) (h2 _) ?_) (h1 _) ?_ <;>
  · rw [List.disjoint_left]
    simp only [List.mem_append, List.mem_map, List.mem_flatMap]
    rintro ⟨k, t⟩ h h'
    simp only [Prod.mk.injEq] at h h'
    simp only [String.reduceToList] at h h' hd
    grind

/-! ## The theorems -/

/-- **C88, the runs.**  Creating the parameters never raises.  The runs are those listed in `subjects`, in
this order - each kind of test with each target exactly once -, numbered from 0, and each has exactly
the class of test, the degrees of freedom, the tree and the caches of its kind. -/
theorem runs_created (S : Setup) (n : Nat) :
    (∃ ps, createParams S n = .ok ps ∧
      List.Forall₂ (fun kt p => IsRunFor S kt.1 kt.2 p) (subjects n) ps ∧
      ps.map Params.index = (List.range ps.length).map some) ∧
    (subjects n).Nodup ∧ (∀ k t, (k, t) ∈ subjects n ↔ k ∈ kinds ∧ t < n) ∧
    (subjects n).length = 9 * n := by
  refine ⟨⟨_, createParams_eq S n, ?_, ?_⟩, subjects_nodup n, mem_subjects n, ?_⟩
  · rw [List.forall₂_map_right_iff]
    have key : ∀ (L : List (RunKind × Nat)) (i : Nat), List.Forall₂
        (fun (kt : RunKind × Nat) (x : (RunKind × Nat) × Nat) =>
          IsRunFor S kt.1 kt.2 (run S x.1.1 x.1.2 x.2)) L (L.zipIdx i) := by
      intro L
      induction L with
      | nil => intro i; exact .nil
      | cons a L ih => intro i; exact .cons (run_isRunFor _ _ _ _) (ih _)
    exact key _ 0
  · rw [List.map_map, List.length_map, List.length_zipIdx]
    have : (Params.index ∘ fun x : (RunKind × Nat) × Nat => run S x.1.1 x.1.2 x.2) = some ∘ Prod.snd := rfl
    rw [this, ← List.map_map, List.zipIdx_map_snd, List.range_eq_range']
  · simp only [subjects, List.length_append, List.length_map, List.length_range, List.length_flatMap,
      allowedLLT, List.length_cons, List.length_nil]
    simp
    omega

theorem mem_created {S : Setup} {n : Nat} {ps : List Params} (h : createParams S n = .ok ps) (p : Params) :
    p ∈ ps ↔ ∃ k t i, (subjects n)[i]? = some (k, t) ∧ p = run S k t i := by
  rw [createParams_eq] at h
  cases h
  simp only [List.mem_map]
  constructor
  · rintro ⟨⟨⟨k, t⟩, i⟩, hm, rfl⟩
    exact ⟨k, t, i, by simpa using List.mem_zipIdx_iff_getElem?.1 hm, rfl⟩
  · rintro ⟨k, t, i, hi, rfl⟩
    exact ⟨((k, t), i), List.mem_zipIdx_iff_getElem?.2 hi, rfl⟩

theorem isRunFor_unique {S : Setup} {k k' : RunKind} {t t' : Nat} {p : Params} (h : IsRunFor S k t p)
    (h' : IsRunFor S k' t' p) : k = k' ∧ t = t' := by
  refine ⟨?_, h.target.symm.trans h'.target⟩
  have e := h.test.symm.trans h'.test
  have a := h.tree
  have b := h'.tree
  cases k <;> cases k' <;> simp_all

theorem setArguments_fields {root : Path} {d c : Str} {S : Setup} (h : setArguments root d c = .ok S) :
    d ∈ allowedDatasets ∧ matchesCount c = true ∧ S.root = root ∧ S.dataset = d ∧ S.countString = c ∧
    intFloat c = .ok S.count := by
  unfold setArguments at h
  by_cases h1 : d ∈ allowedDatasets
  · rw [if_neg (by simpa using h1)] at h
    by_cases h2 : matchesCount c = false
    · rw [if_pos h2] at h; cases h
    · rw [if_neg h2] at h
      cases hi : intFloat c with
      | error e => rw [hi] at h; cases h
      | ok k =>
        rw [hi] at h
        cases h
        exact ⟨h1, by simpa using h2, rfl, rfl, rfl, rfl⟩
  · rw [if_pos h1] at h; cases h

theorem dataset_no_underscore {s : Str} (h : s ∈ allowedDatasets) : '_' ∉ s := by
  revert s; decide

theorem idLabel_no_underscore (t : Nat) : '_' ∉ idLabel t := by
  intro h; have := idLabel_digit t _ h; revert this; decide

theorem runId_inj {k k' : RunKind} {t t' i i' : Nat} (e : runId k t i = runId k' t' i') :
    i = i' ∧ t = t' ∧ kindText k = kindText k' := by
  have e := List.append_cancel_left e
  obtain ⟨e1, e⟩ := split_front (idLabel_no_underscore i) (idLabel_no_underscore i') e
  obtain ⟨e2, e⟩ := split_front (target_no_underscore t) (target_no_underscore t') e
  exact ⟨CiResult.idLabel_injective e1, CiResult.idLabel_injective (List.cons.inj e2).2, (List.cons.inj e).2⟩

theorem kindText_inj : ∀ k ∈ kinds, ∀ k' ∈ kinds, kindText k = kindText k' → k = k' := by decide +kernel

theorem citrText_inj : ∀ k ∈ kinds, ∀ k' ∈ kinds, citrText k = citrText k' → k = k' := by decide +kernel

theorem run_citr (S : Setup) (k : RunKind) (t i : Nat) : (run S k t i).citr = citrPath S t (citrText k) := by
  cases k <;> rfl

theorem sub_inj {d d' c c' : Str} (h : d ∈ allowedDatasets) (h' : d' ∈ allowedDatasets)
    (e : d ++ '_' :: c = d' ++ '_' :: c') : d = d' ∧ c = c' :=
  split_front (dataset_no_underscore h) (dataset_no_underscore h') e

theorem append2_inj {α : Type} {p q : List α} {a b c d e f : α} (h : p ++ [a, b] ++ [c] = q ++ [d, e] ++ [f]) :
    p = q ∧ a = d ∧ b = e ∧ c = f := by
  obtain ⟨h1, h2⟩ := List.append_inj' h rfl
  obtain ⟨h3, h4⟩ := List.append_inj' h1 rfl
  simp only [List.cons.injEq, and_true] at h2 h4
  exact ⟨h3, h4.1, h4.2, h2⟩

/-- **C88, runs have their own IDs.**  The IDs of the runs of an experiment are pairwise different. -/
theorem run_ids_distinct {S : Setup} {n : Nat} {ps : List Params} (h : createParams S n = .ok ps) :
    (ps.map Params.id).Nodup := by
  rw [createParams_eq] at h
  cases h
  rw [List.map_map, List.nodup_iff_injective_getElem]
  intro a b e
  simp only [List.getElem_map, List.getElem_zipIdx, Function.comp, run] at e
  have := (runId_inj e).1
  exact Fin.ext (by omega)

/-- **C88, no run overwrites the files of another.**  Take two experiments (with the same root), and a run
of each.  Their data point files coincide exactly if dataset, text of the sample count, kind of test and
target do, and so do the files of their CI test results.  `nodes` gives the number of variables of each
network. -/
theorem files_kept_apart {root : Path} (nodes : Str → Nat) {d c d' c' : Str} {S S' : Setup}
    (h : setArguments root d c = .ok S) (h' : setArguments root d' c' = .ok S')
    {ps ps' : List Params} (hp : createParams S (nodes d) = .ok ps)
    (hp' : createParams S' (nodes d') = .ok ps') {p q : Params} (hm : p ∈ ps) (hm' : q ∈ ps')
    {k k' : RunKind} {t t' : Nat} (hk : IsRunFor S k t p) (hk' : IsRunFor S' k' t' q) :
    (datapointFile S p = datapointFile S' q ↔ (d, c, k, t) = (d', c', k', t')) ∧
    (p.citr = q.citr ↔ (d, c, k, t) = (d', c', k', t')) := by
  obtain ⟨a1, _, a3, a4, a5, a6⟩ := setArguments_fields h
  obtain ⟨b1, _, b3, b4, b5, b6⟩ := setArguments_fields h'
  obtain ⟨k1, t1, i, hi, rfl⟩ := (mem_created hp p).1 hm
  obtain ⟨k2, t2, j, hj, rfl⟩ := (mem_created hp' q).1 hm'
  obtain ⟨rfl, rfl⟩ := isRunFor_unique (run_isRunFor _ _ _ _) hk
  obtain ⟨rfl, rfl⟩ := isRunFor_unique (run_isRunFor _ _ _ _) hk'
  have m1 := (mem_subjects _ _ _).1 (List.mem_of_getElem? hi)
  have m2 := (mem_subjects _ _ _).1 (List.mem_of_getElem? hj)
  have same : (d, c, k1, t1) = (d', c', k2, t2) → S = S' ∧ i = j := by
    intro e
    simp only [Prod.mk.injEq] at e
    obtain ⟨rfl, rfl, rfl, rfl⟩ := e
    refine ⟨Except.ok.inj (h.symm.trans h'), ?_⟩
    obtain ⟨x, hx⟩ := List.getElem?_eq_some_iff.1 hi
    obtain ⟨y, hy⟩ := List.getElem?_eq_some_iff.1 hj
    exact (subjects_nodup _).getElem_inj_iff.1 (hx.trans hy.symm)
  refine ⟨⟨fun e => ?_, fun e => ?_⟩, ⟨fun e => ?_, fun e => ?_⟩⟩
  · obtain ⟨_, _, e2, e3⟩ := append2_inj e
    obtain ⟨f1, f2⟩ := sub_inj (by rw [a4]; exact a1) (by rw [b4]; exact b1) e2
    obtain ⟨_, g2, g3⟩ := runId_inj (List.append_cancel_right e3)
    rw [← a4, ← a5, ← b4, ← b5, f1, f2, g2, kindText_inj _ m1.1 _ m2.1 g3]
  · obtain ⟨r1, r2⟩ := same e
    simp only [Prod.mk.injEq] at e
    rw [r1, r2, e.2.2.1, e.2.2.2]
  · rw [run_citr, run_citr] at e
    obtain ⟨_, _, e2, e3⟩ := append2_inj e
    obtain ⟨f1, f2⟩ := sub_inj (by rw [a4]; exact a1) (by rw [b4]; exact b1) e2
    have e3 := List.append_cancel_left e3
    have hx : exdsName S = exdsName S' := by unfold exdsName; rw [f1, f2]
    rw [hx] at e3
    have e3 := (List.cons.inj (List.append_cancel_left e3)).2
    obtain ⟨g1, g2⟩ := split_front (target_no_underscore t1) (target_no_underscore t2) e3
    have g3 := citrText_inj _ m1.1 _ m2.1 (List.append_cancel_right g2)
    rw [← a4, ← a5, ← b4, ← b5, f1, f2, g3, CiResult.idLabel_injective (List.cons.inj g1).2]
  · obtain ⟨r1, r2⟩ := same e
    simp only [Prod.mk.injEq] at e
    rw [r1, r2, e.2.2.1, e.2.2.2]

theorem treeName_inj : ∀ k ∈ allowedTypes, ∀ k' ∈ allowedTypes, ∀ l ∈ allowedLLT, ∀ l' ∈ allowedLLT,
    "adtree_".toList ++ (k ++ ("_llt".toList ++ (l ++ ".pickle".toList))) =
      "adtree_".toList ++ (k' ++ ("_llt".toList ++ (l' ++ ".pickle".toList))) → k = k' ∧ l = l' := by
  decide +kernel

theorem kinds_adtree {type llt : Str} (h : RunKind.adtree type llt ∈ kinds) :
    type ∈ allowedTypes ∧ llt ∈ allowedLLT := by
  simp only [kinds, List.mem_append, List.mem_map, List.mem_cons, List.not_mem_nil, or_false,
    RunKind.adtree.injEq, reduceCtorEq, false_or] at h
  rcases h with ⟨l, hl, rfl, rfl⟩ | ⟨l, hl, rfl, rfl⟩
  · exact ⟨by simp [allowedTypes], hl⟩
  · exact ⟨by simp [allowedTypes], hl⟩

/-- **C88, which runs share a tree.**  Two runs with AD-trees (of two experiments with the same root) load
the same file exactly if dataset, text of the sample count, type of the tree and threshold argument
coincide - whatever the targets are. -/
theorem tree_shared_iff {root : Path} {n n' : Nat} {d c d' c' : Str} {S S' : Setup}
    (h : setArguments root d c = .ok S) (h' : setArguments root d' c' = .ok S')
    {ps ps' : List Params} (hp : createParams S n = .ok ps) (hp' : createParams S' n' = .ok ps')
    {p q : Params} (hm : p ∈ ps) (hm' : q ∈ ps') {x y x' y' : Str} {t t' : Nat}
    (hk : IsRunFor S (.adtree x y) t p) (hk' : IsRunFor S' (.adtree x' y') t' q) :
    p.treeLoad = q.treeLoad ↔ (d, c, x, y) = (d', c', x', y') := by
  obtain ⟨a1, _, a3, a4, a5, a6⟩ := setArguments_fields h
  obtain ⟨b1, _, b3, b4, b5, b6⟩ := setArguments_fields h'
  obtain ⟨k1, t1, i, hi, rfl⟩ := (mem_created hp p).1 hm
  obtain ⟨k2, t2, j, hj, rfl⟩ := (mem_created hp' q).1 hm'
  obtain ⟨rfl, rfl⟩ := isRunFor_unique (run_isRunFor _ _ _ _) hk
  obtain ⟨rfl, rfl⟩ := isRunFor_unique (run_isRunFor _ _ _ _) hk'
  have m1 := kinds_adtree ((mem_subjects _ _ _).1 (List.mem_of_getElem? hi)).1
  have m2 := kinds_adtree ((mem_subjects _ _ _).1 (List.mem_of_getElem? hj)).1
  rw [hk.tree.2.2.1, hk'.tree.2.2.1]
  constructor
  · intro e
    obtain ⟨_, _, e2, e3⟩ := append2_inj (Option.some.inj e)
    obtain ⟨f1, f2⟩ := sub_inj (by rw [a4]; exact a1) (by rw [b4]; exact b1) e2
    obtain ⟨g1, g2⟩ := treeName_inj _ m1.1 _ m2.1 _ m1.2 _ m2.2 e3
    rw [← a4, ← a5, ← b4, ← b5, f1, f2, g1, g2]
  · intro e
    simp only [Prod.mk.injEq] at e
    obtain ⟨rfl, rfl, rfl, rfl⟩ := e
    rw [Except.ok.inj (h.symm.trans h')]

/-- **C88, which runs share the caches of dcMI.**  The runs with dcMI of two experiments load and save the
same table of joint entropies, and the same cache of degrees of freedom, exactly if dataset and text of the
sample count coincide; no other run has such a file. -/
theorem caches_shared_iff {root : Path} {n n' : Nat} {d c d' c' : Str} {S S' : Setup}
    (h : setArguments root d c = .ok S) (h' : setArguments root d' c' = .ok S')
    {ps ps' : List Params} (hp : createParams S n = .ok ps) (hp' : createParams S' n' = .ok ps')
    {p q : Params} (hm : p ∈ ps) (hm' : q ∈ ps') (hk : p.test = .withDcMI) (hk' : q.test = .withDcMI) :
    (p.jhtLoad = q.jhtLoad ↔ (d, c) = (d', c')) ∧ (p.dofLoad = q.dofLoad ↔ (d, c) = (d', c')) ∧
    p.jhtSave = p.jhtLoad ∧ p.dofSave = p.dofLoad ∧
    ∀ r ∈ ps, r.test ≠ .withDcMI → r.jhtLoad = none ∧ r.dofLoad = none := by
  obtain ⟨a1, _, a3, a4, a5, a6⟩ := setArguments_fields h
  obtain ⟨b1, _, b3, b4, b5, b6⟩ := setArguments_fields h'
  obtain ⟨k1, t1, i, hi, rfl⟩ := (mem_created hp p).1 hm
  obtain ⟨k2, t2, j, hj, rfl⟩ := (mem_created hp' q).1 hm'
  have isD : ∀ (S : Setup) (k : RunKind) (t i : Nat), (run S k t i).test = .withDcMI → k = .dcmi := by
    intro S k t i e; cases k <;> first | rfl | cases e
  obtain rfl := isD _ _ _ _ hk
  obtain rfl := isD _ _ _ _ hk'
  have back : (d, c) = (d', c') → S = S' := by
    intro e
    simp only [Prod.mk.injEq] at e
    obtain ⟨rfl, rfl⟩ := e
    exact Except.ok.inj (h.symm.trans h')
  refine ⟨⟨fun e => ?_, fun e => ?_⟩, ⟨fun e => ?_, fun e => ?_⟩, rfl, rfl, ?_⟩
  · obtain ⟨_, _, e2, _⟩ := append2_inj (Option.some.inj e)
    obtain ⟨f1, f2⟩ := sub_inj (by rw [a4]; exact a1) (by rw [b4]; exact b1) e2
    rw [← a4, ← a5, ← b4, ← b5, f1, f2]
  · show some (jhtPath S) = some (jhtPath S'); rw [back e]
  · obtain ⟨_, _, e2, _⟩ := append2_inj (Option.some.inj e)
    obtain ⟨f1, f2⟩ := sub_inj (by rw [a4]; exact a1) (by rw [b4]; exact b1) e2
    rw [← a4, ← a5, ← b4, ← b5, f1, f2]
  · show some (dofCachePath S) = some (dofCachePath S'); rw [back e]
  · intro r hr hne
    obtain ⟨k3, t3, l, hl, rfl⟩ := (mem_created hp r).1 hr
    cases k3 <;> first | exact ⟨rfl, rfl⟩ | exact absurd rfl hne

/-! ## Numbers -/

theorem numeral_idLabel (n : Nat) : numeral (idLabel n) = n := by
  unfold idLabel
  rw [Nat.toString_eq_ofList_toDigits, String.toList_ofList]
  exact Nat.ofDigitChars_toDigits (by decide) (by decide)

theorem span_digits {m x : Str} (h : ∀ c ∈ m, c.isDigit = true) :
    (m ++ 'e' :: x).takeWhile (fun c => c.isDigit) = m ∧
    (m ++ 'e' :: x).dropWhile (fun c => c.isDigit) = 'e' :: x := by
  constructor
  · rw [List.takeWhile_append_of_pos h]
    rw [List.takeWhile_cons_of_neg (by decide), List.append_nil]
  · rw [List.dropWhile_append_of_pos h]
    rw [List.dropWhile_cons_of_neg (by decide)]

theorem matchesFormat_iff (s : Str) : matchesFormat s = true ↔
    ∃ m x : Str, s = m ++ 'e' :: x ∧ m ≠ [] ∧ x ≠ [] ∧ (∀ c ∈ m, c.isDigit = true) ∧
      ∀ c ∈ x, c.isDigit = true := by
  unfold matchesFormat
  rw [List.span_eq_takeWhile_dropWhile]
  constructor
  · intro h
    have hs := List.takeWhile_append_dropWhile (p := fun c : Char => c.isDigit) (l := s)
    have hd := List.all_takeWhile (p := fun c : Char => c.isDigit) (l := s)
    generalize s.takeWhile (fun c => c.isDigit) = m at *
    generalize s.dropWhile (fun c => c.isDigit) = r at *
    split at h
    · rename_i m' x heq
      simp only [Prod.mk.injEq] at heq
      obtain ⟨rfl, rfl⟩ := heq
      simp only [Bool.and_eq_true, Bool.not_eq_eq_eq_not, Bool.not_true, List.isEmpty_eq_false_iff,
        List.all_eq_true] at h hd
      exact ⟨m, x, hs.symm, h.1.1, h.1.2, hd, h.2⟩
    · cases h
  · rintro ⟨m, x, rfl, hm, hx, dm, dx⟩
    obtain ⟨e1, e2⟩ := span_digits (x := x) dm
    rw [e1, e2]
    simp only [Bool.and_eq_true, Bool.not_eq_eq_eq_not, Bool.not_true, List.isEmpty_eq_false_iff,
        List.all_eq_true]
    exact ⟨⟨hm, hx⟩, dx⟩

/-- **C88, which arguments are accepted.**  The dataset must be one of the three, and the sample count
digits, the letter e, digits - and possibly a newline (which `$` permits); otherwise `ValueError`.
With such arguments the only failure is `OverflowError`, if the number is too large for a `float`. -/
theorem arguments_ok_iff (root : Path) (d c : Str) :
    ((∃ S, setArguments root d c = .ok S) ∨ setArguments root d c = .error (.custom "OverflowError") ↔
      (d = "alarm".toList ∨ d = "andes".toList ∨ d = "munin".toList) ∧
      ∃ m x : Str, (c = m ++ 'e' :: x ∨ c = m ++ 'e' :: x ++ ['\n']) ∧
        m ≠ [] ∧ x ≠ [] ∧ (∀ c ∈ m, c.isDigit = true) ∧ ∀ c ∈ x, c.isDigit = true) ∧
    (¬ ((∃ S, setArguments root d c = .ok S) ∨ setArguments root d c = .error (.custom "OverflowError")) →
      setArguments root d c = .error .valueError) := by
  have hallowed : (d = "alarm".toList ∨ d = "andes".toList ∨ d = "munin".toList) ↔ d ∈ allowedDatasets := by
    simp only [allowedDatasets, List.mem_cons, List.not_mem_nil, or_false]
  rw [hallowed]
  have hmc : matchesCount c = true ↔ ∃ m x : Str, (c = m ++ 'e' :: x ∨ c = m ++ 'e' :: x ++ ['\n']) ∧
        m ≠ [] ∧ x ≠ [] ∧ (∀ c ∈ m, c.isDigit = true) ∧ ∀ c ∈ x, c.isDigit = true := by
    unfold matchesCount
    rw [Bool.or_eq_true, Bool.and_eq_true, matchesFormat_iff, matchesFormat_iff, beq_iff_eq]
    constructor
    · rintro (⟨m, x, e, r⟩ | ⟨hl, m, x, e, r⟩)
      · exact ⟨m, x, .inl e, r⟩
      · refine ⟨m, x, .inr ?_, r⟩
        rw [← e]
        exact (List.dropLast_append_getLast? _ hl).symm
    · rintro ⟨m, x, e | e, r⟩
      · exact .inl ⟨m, x, e, r⟩
      · refine .inr ⟨?_, m, x, ?_, r⟩
        · rw [e, List.getLast?_append]; simp
        · rw [e, List.dropLast_concat]
  rw [← hmc]
  unfold setArguments
  by_cases h1 : d ∈ allowedDatasets
  · rw [if_neg (by simpa using h1)]
    by_cases h2 : matchesCount c = false
    · rw [if_pos h2]; simp [h2]
    · rw [if_neg h2]
      have h2 : matchesCount c = true := by simpa using h2
      unfold intFloat
      split
      · simp [h1, h2, bind, Except.bind]
      · simp [h1, h2, bind, Except.bind]
  · rw [if_pos h1]; simp [h1]

/-- **C88, the number of samples.**  The text `<a>e<b>` gives exactly a·10^b samples, if this is at most
2^53. -/
theorem sample_count_exact (root : Path) (d : Str) (hd : d ∈ allowedDatasets) (a b : Nat)
    (h : a * 10 ^ b ≤ 2 ^ 53) :
    setArguments root d (idLabel a ++ 'e' :: idLabel b) =
      .ok ⟨root, d, idLabel a ++ 'e' :: idLabel b, a * 10 ^ b⟩ := by
  have hden : denoted (idLabel a ++ 'e' :: idLabel b) = a * 10 ^ b := by
    unfold denoted
    obtain ⟨e1, e2⟩ := span_digits (x := idLabel b) (idLabel_digit a)
    rw [e1, e2, List.drop_one, List.tail_cons, numeral_idLabel]
    have : (idLabel b).takeWhile (fun c => c.isDigit) = idLabel b := by
      rw [List.takeWhile_eq_self_iff]; exact idLabel_digit b
    rw [this, numeral_idLabel]
  have hf : Fp.fl ((a * 10 ^ b : Nat) : ℚ) = ((a * 10 ^ b : Nat) : ℚ) := Fp.fl_nat h
  have hi : intFloat (idLabel a ++ 'e' :: idLabel b) = .ok ((a : Int) * 10 ^ b) := by
    unfold intFloat
    rw [hden, hf, if_neg]
    · rw [Int.floor_natCast]; push_cast; rfl
    · intro hh
      have h2 : ((2 ^ 1024 : Nat) : ℚ) ≤ ((a * 10 ^ b : Nat) : ℚ) := by
        rw [Nat.cast_pow, Nat.cast_ofNat]; exact hh
      have h3 := (Nat.cast_le (α := ℚ)).1 h2
      have h4 : (2 : Nat) ^ 53 < 2 ^ 1024 := Nat.pow_lt_pow_right (by decide) (by decide)
      omega
  have hm : matchesCount (idLabel a ++ 'e' :: idLabel b) = true := by
    unfold matchesCount
    rw [Bool.or_eq_true]
    exact .inl ((matchesFormat_iff _).2 ⟨_, _, rfl, idLabel_ne_nil a, idLabel_ne_nil b, idLabel_digit a,
      idLabel_digit b⟩)
  unfold setArguments
  rw [if_neg (by simpa using hd), if_neg (by rw [hm]; decide), hi]
  rfl

/-- **C88, the leaf-list threshold.**  The argument is in thousandths of the number of samples: the
threshold is the quotient, rounded down - exactly, although the division is one of `float`s, if it is at
most 2^43. -/
theorem threshold_exact (S : Setup) (llt : Str) (k : Nat) (hk : S.count = k)
    (h : k * numeral llt ≤ 1000 * 2 ^ 43) : absoluteLLT S llt = ((k * numeral llt / 1000 : Nat) : Int) := by
  unfold absoluteLLT
  rw [hk]
  generalize hx : k * numeral llt = x at h
  have e : (((k : Int) * (numeral llt : Int) : ℤ) : ℚ) = (x : ℚ) := by rw [← hx]; push_cast; rfl
  rw [e]
  have hdm := Nat.div_add_mod x 1000
  have hml := Nat.mod_lt x (show 0 < 1000 by decide)
  generalize x / 1000 = q at *
  generalize x % 1000 = r at *
  have hxq : (x : ℚ) / 1000 = q + r / 1000 := by
    rw [← hdm]; push_cast; field_simp
  have hq : q ≤ 2 ^ 53 := by
    have : (2 : Nat) ^ 43 ≤ 2 ^ 53 := by norm_num
    omega
  have hr0 : (0 : ℚ) ≤ r := by exact_mod_cast Nat.zero_le r
  have hr1 : (r : ℚ) ≤ 999 := by exact_mod_cast (by omega : r ≤ 999)
  rw [Int.floor_eq_iff]
  constructor
  · have := Fp.fl_mono (K := ℚ) (x := q) (y := (x : ℚ) / 1000) (by rw [hxq]; linarith)
    rw [Fp.fl_nat hq] at this
    exact_mod_cast this
  · have he := Fp.fl_error ((x : ℚ) / 1000)
    have hx0 : (0 : ℚ) ≤ (x : ℚ) / 1000 := by positivity
    rw [abs_of_nonneg hx0] at he
    have hb : (x : ℚ) / 1000 ≤ 2 ^ 43 := by
      have : (x : ℚ) ≤ 1000 * 2 ^ 43 := by exact_mod_cast h
      linarith
    have h1 := (abs_le.1 he).2
    have h2 : (2 : ℚ) ^ (-53 : ℤ) * ((x : ℚ) / 1000) ≤ 2 ^ (-53 : ℤ) * 2 ^ 43 :=
      mul_le_mul_of_nonneg_left hb (by positivity)
    have h3 : (2 : ℚ) ^ (-53 : ℤ) * 2 ^ 43 = 1 / 1024 := by norm_num
    have h4 : (2 : ℚ) ^ (-1075 : ℤ) ≤ 2 ^ (-20 : ℤ) := zpow_le_zpow_right₀ (by norm_num) (by norm_num)
    have h5 : (2 : ℚ) ^ (-20 : ℤ) = 1 / 1048576 := by norm_num
    have h6 : ((q : ℤ) : ℚ) = (q : ℚ) := by norm_num
    rw [h6]
    have h7 : (2 : ℚ) ^ (-53 : ℤ) * ((x : ℚ) / 1000) ≤ 1 / 1024 := h3 ▸ h2
    rw [h5] at h4
    have h8 : (x : ℚ) / 1000 ≤ q + 999 / 1000 := by rw [hxq]; linarith
    linarith

/-! ## Tags -/

/-- The tags of a kind of run. (Models no code: a notion for statements and proofs.) -/
def tagsOf (k : RunKind) : List Str := (blank ⟨[], [], [], 0⟩ k 0).tags

theorem run_tags (S : Setup) (k : RunKind) (t i : Nat) : (run S k t i).tags = tagsOf k := by
  cases k <;> rfl

theorem tagOf_iff : ∀ k ∈ kinds, ∀ k' ∈ kinds, tagOf k ∈ tagsOf k' ↔ k' = k := by decide +kernel

theorem default_tags : ∀ k ∈ kinds, (defaultTags.filter (fun tag => decide (tag ∈ tagsOf k))) =
    if k = .dSeparation then [] else [tagOf k] := by decide +kernel

theorem tagPresent_iff (tag : Str) (ps : List Params) : tagPresent tag ps = true ↔ byTag tag ps ≠ [] := by
  induction ps with
  | nil => simp [tagPresent, byTag]
  | cons p ps ih =>
    unfold tagPresent byTag
    by_cases h : tag ∈ p.tags
    · simp [h]
    · simp only [List.filter_cons, h, decide_false, Bool.false_eq_true, if_false]
      exact ih

/-- The positions of a kind in the list of runs, by target. (Models no code: a notion for statements and
proofs.) -/
theorem filter_subjects (n : Nat) : ∀ k ∈ kinds, ((subjects n).filter (fun kt => decide (kt.1 = k))).map Prod.snd =
    List.range n := by
  intro k hk
  have h1 : ∀ k' : RunKind, ((List.range n).map (Prod.mk k')).filter (fun kt => decide (kt.1 = k)) =
      if k' = k then (List.range n).map (Prod.mk k') else [] := by
    intro k'
    by_cases h : k' = k
    · rw [if_pos h, List.filter_eq_self]; simp [h]
    · rw [if_neg h, List.filter_eq_nil_iff]; simp [h]
  have h2 : ∀ type : Str, ((List.range n).flatMap (fun t => allowedLLT.map
      (fun llt => (RunKind.adtree type llt, t)))).filter (fun kt => decide (kt.1 = k)) =
      (List.range n).flatMap (fun t => (allowedLLT.filter (fun llt => decide (RunKind.adtree type llt = k))).map
        (fun llt => (RunKind.adtree type llt, t))) := by
    intro type
    rw [List.filter_flatMap]
    congr 1
    funext t
    rw [List.filter_map]
    rfl
  unfold subjects
  simp only [List.filter_append, h1, h2]
  simp only [kinds, allowedLLT, List.map_cons, List.map_nil, List.mem_append, List.mem_cons, List.not_mem_nil,
    or_false] at hk
  have hs : ("static".toList : Str) ≠ "dynamic".toList := by decide
  have l1 : ("0".toList : Str) ≠ "5".toList := by decide
  have l2 : ("0".toList : Str) ≠ "10".toList := by decide
  have l3 : ("5".toList : Str) ≠ "10".toList := by decide
  have fm : ∀ f : Nat → RunKind × Nat, (∀ t, (f t).2 = t) → ((List.range n).flatMap (fun t => [f t])).map Prod.snd =
      List.range n := by
    intro f hf
    rw [List.map_flatMap]
    simp only [List.map_cons, List.map_nil, hf]
    simp
  have mp : ∀ k : RunKind, ((List.range n).map (Prod.mk k)).map Prod.snd = List.range n := by
    intro k; rw [List.map_map]; exact List.map_id _
  have fe : (List.range n).flatMap (fun _ => ([] : List (RunKind × Nat))) = [] := by simp
  rcases hk with (((rfl | rfl) | rfl | rfl | rfl) | rfl | rfl | rfl) | rfl <;>
    simp only [allowedLLT, RunKind.adtree.injEq, reduceCtorEq, decide_false, decide_true, hs, hs.symm, l1, l2, l3,
      l1.symm, l2.symm, l3.symm, if_true, if_false, List.filter_cons, List.filter_nil,
      false_and, true_and, List.map_nil, List.map_cons, List.append_nil, List.nil_append,
      Bool.false_eq_true, mp, fm, implies_true, fe]

theorem filter_zipIdx {α : Type} (f : α → Bool) (L : List α) (i : Nat) :
    ((L.zipIdx i).filter (fun x => f x.1)).map Prod.fst = L.filter f := by
  induction L generalizing i with
  | nil => rfl
  | cons a L ih =>
    rw [List.zipIdx_cons, List.filter_cons, List.filter_cons]
    by_cases h : f a = true
    · rw [if_pos h, if_pos h, List.map_cons, ih]
    · rw [if_neg h, if_neg h, ih]

/-- **C88, selecting runs by tag.**  The tag of a kind of run selects exactly the runs of this kind, one for
each target, in the order of the targets.  Every run except those with d-separation has exactly one of the
default tags, the one of its kind; those with d-separation have none (so `summary`, which reads the
default tags, leaves them out). -/
theorem tag_selects {S : Setup} {n : Nat} {ps : List Params} (h : createParams S n = .ok ps)
    {k : RunKind} (hk : k ∈ kinds) :
    ((byTag (tagOf k) ps).map Params.target = List.range n) ∧
    (∀ p ∈ byTag (tagOf k) ps, ∃ t, IsRunFor S k t p) ∧
    (tagPresent (tagOf k) ps = true ↔ 0 < n) ∧
    (∀ p ∈ ps, ∀ t, IsRunFor S k t p → defaultTags.filter (fun tag => decide (tag ∈ p.tags)) =
      if k = .dSeparation then [] else [tagOf k]) := by
  have h0 := h
  rw [createParams_eq] at h
  have he := Except.ok.inj h
  have hb : byTag (tagOf k) ps = (((subjects n).zipIdx).filter (fun x => decide (x.1.1 = k))).map
      (fun x => run S x.1.1 x.1.2 x.2) := by
    rw [← he]
    unfold byTag
    rw [List.filter_map]
    congr 1
    apply List.filter_congr
    rintro ⟨⟨k', t⟩, i⟩ hm
    have hm := (mem_subjects _ _ _).1 (List.fst_mem_of_mem_zipIdx hm)
    simp only [Function.comp, run_tags, decide_eq_decide]
    exact tagOf_iff _ hk _ hm.1
  have ht : (byTag (tagOf k) ps).map Params.target = List.range n := by
    rw [hb, List.map_map, ← filter_subjects n k hk, ← filter_zipIdx (fun kt => decide (kt.1 = k)) (subjects n) 0,
      List.map_map]
    apply List.map_congr_left
    rintro ⟨⟨k', t⟩, i⟩ _
    cases k' <;> rfl
  refine ⟨ht, ?_, ?_, ?_⟩
  · rw [hb]
    intro p hp
    obtain ⟨⟨⟨k', t⟩, i⟩, hm, rfl⟩ := List.mem_map.1 hp
    have := (List.mem_filter.1 hm).2
    simp only [decide_eq_true_eq] at this
    subst this
    exact ⟨t, run_isRunFor _ _ _ _⟩
  · rw [tagPresent_iff, ← List.length_pos_iff, ← List.length_map (f := Params.target), ht, List.length_range]
  · intro p hp t hr
    obtain ⟨k', t', i, hi, rfl⟩ := (mem_created h0 p).1 hp
    obtain ⟨rfl, rfl⟩ := isRunFor_unique (run_isRunFor _ _ _ _) hr
    rw [run_tags]
    exact default_tags _ hk

/-! ## Preloading -/

theorem preload_skip {files : Path → Bool} {loaded : List (Path × Nat)} {p : Params} {ps : List Params}
    (h : needs p = none) : preload files loaded (p :: ps) =
      (preload files loaded ps).map (fun r => (r.1, p :: r.2)) := by
  unfold needs at h
  rw [preload]
  by_cases ht : "adtree".toList ∈ p.tags
  · rw [if_pos ht] at h ⊢
    rw [h]
    cases preload files loaded ps <;> rfl
  · rw [if_neg ht]
    cases preload files loaded ps <;> rfl

theorem preload_take {files : Path → Bool} {loaded : List (Path × Nat)} {p : Params} {ps : List Params}
    {path : Path} (h : needs p = some path) : preload files loaded (p :: ps) =
      match dictGet loaded path with
      | some k => (preload files loaded ps).map (fun r =>
          (r.1, { p with preloaded := some k, treeLoad := none } :: r.2))
      | none => if files path then (preload files (dictSet loaded path loaded.length) ps).map (fun r =>
          (r.1, { p with preloaded := some loaded.length, treeLoad := none } :: r.2))
        else .error (.custom "FileNotFoundError") := by
  unfold needs at h
  rw [preload]
  by_cases ht : "adtree".toList ∈ p.tags
  · rw [if_pos ht] at h ⊢
    rw [h]
    simp only []
    cases dictGet loaded path with
    | some k =>
      simp only []
      cases preload files loaded ps <;> rfl
    | none =>
      simp only []
      by_cases hf : files path = true
      · rw [if_pos hf, if_pos hf]
        cases preload files (dictSet loaded path loaded.length) ps <;> rfl
      · rw [if_neg hf, if_neg hf]
  · rw [if_neg ht] at h; cases h

theorem dictSet_end (d : List (Path × Nat)) (k : Path) (v : Nat) (h : dictGet d k = none) :
    dictSet d k v = d ++ [(k, v)] := by
  induction d with
  | nil => rfl
  | cons p d ih =>
    obtain ⟨k', v'⟩ := p
    rw [dictGet] at h
    by_cases e : k' = k
    · rw [if_pos e] at h; cases h
    · rw [if_neg e] at h
      rw [dictSet, if_neg e, ih h]; rfl

/-- The trees loaded so far: each under one path, numbered in order. (Models no code: a notion for
statements and proofs.) -/
structure Loaded (l : List (Path × Nat)) : Prop where
  keys : (l.map Prod.fst).Nodup
  values : l.map Prod.snd = List.range l.length

theorem Loaded.add {l : List (Path × Nat)} (h : Loaded l) {path : Path} (hn : dictGet l path = none) :
    Loaded (l ++ [(path, l.length)]) := by
  constructor
  · rw [List.map_append, List.nodup_append]
    refine ⟨h.keys, by simp, ?_⟩
    intro a ha b hb e
    simp only [List.map_cons, List.map_nil, List.mem_singleton] at hb
    exact (dictGet_none_iff l path).1 hn (by rw [← hb, ← e]; exact ha)
  · rw [List.map_append, h.values, List.length_append]
    simp [List.range_succ]

/-- What preloading makes of a run. (Models no code: a notion for statements and proofs.) -/
def Preloaded (loaded : List (Path × Nat)) (p p' : Params) : Prop :=
  match needs p with
  | none => p' = p
  | some path => ∃ k, (path, k) ∈ loaded ∧ p' = { p with preloaded := some k, treeLoad := none }

theorem Preloaded.mono {l l' : List (Path × Nat)} {p p' : Params} (h : Preloaded l p p') (hl : l ⊆ l') :
    Preloaded l' p p' := by
  unfold Preloaded at *
  cases hn : needs p with
  | none => rw [hn] at h; exact h
  | some path => rw [hn] at h; obtain ⟨k, hk, e⟩ := h; exact ⟨k, hl hk, e⟩

theorem preload_aux (files : Path → Bool) (ps : List Params) : ∀ (l : List (Path × Nat)), Loaded l →
    ((∀ p ∈ ps, ∀ path, needs p = some path → path ∉ l.map Prod.fst → files path = true) →
      ∃ l' ps', preload files l ps = .ok (l', ps') ∧ Loaded l' ∧ l ⊆ l' ∧
        List.Forall₂ (Preloaded l') ps ps' ∧
        ∀ path, path ∈ l'.map Prod.fst ↔ path ∈ l.map Prod.fst ∨ ∃ p ∈ ps, needs p = some path) ∧
    ((∃ p ∈ ps, ∃ path, needs p = some path ∧ path ∉ l.map Prod.fst ∧ files path = false) →
      preload files l ps = .error (.custom "FileNotFoundError")) := by
  induction ps with
  | nil =>
    intro l hl
    refine ⟨fun _ => ⟨l, [], rfl, hl, fun _ h => h, .nil, by simp⟩, ?_⟩
    rintro ⟨p, hp, _⟩; cases hp
  | cons p ps ih =>
    intro l hl
    cases hn : needs p with
    | none =>
      obtain ⟨i1, i2⟩ := ih l hl
      constructor
      · intro hf
        obtain ⟨l', ps', e, h1, h2, h3, h4⟩ := i1 (fun q hq => hf q (List.mem_cons_of_mem _ hq))
        refine ⟨l', p :: ps', by rw [preload_skip hn, e]; rfl, h1, h2, .cons ?_ h3, ?_⟩
        · unfold Preloaded; rw [hn]
        · intro path
          rw [h4, List.exists_mem_cons_iff, hn]; simp
      · rintro ⟨q, hq, path, e, hx⟩
        rcases List.mem_cons.1 hq with rfl | hq
        · rw [hn] at e; cases e
        · rw [preload_skip hn, i2 ⟨q, hq, path, e, hx⟩]; rfl
    | some path =>
      cases hd : dictGet l path with
      | some k =>
        obtain ⟨i1, i2⟩ := ih l hl
        have hkm := dictGet_mem hd
        have hpm : path ∈ l.map Prod.fst := List.mem_map.2 ⟨_, hkm, rfl⟩
        constructor
        · intro hf
          obtain ⟨l', ps', e, h1, h2, h3, h4⟩ := i1 (fun q hq => hf q (List.mem_cons_of_mem _ hq))
          refine ⟨l', _, by rw [preload_take hn, hd]; simp only []; rw [e]; rfl, h1, h2, .cons ?_ h3, ?_⟩
          · unfold Preloaded; rw [hn]; exact ⟨k, h2 hkm, rfl⟩
          · intro path'
            rw [h4, List.exists_mem_cons_iff, hn]
            constructor
            · rintro (h | h)
              · exact .inl h
              · exact .inr (.inr h)
            · rintro (h | h | h)
              · exact .inl h
              · rw [← Option.some.inj h]; exact .inl hpm
              · exact .inr h
        · rintro ⟨q, hq, path', e, hx, hf⟩
          rw [preload_take hn, hd]
          simp only []
          rcases List.mem_cons.1 hq with rfl | hq
          · rw [hn] at e
            rw [← Option.some.inj e] at hx
            exact absurd hpm hx
          · rw [i2 ⟨q, hq, path', e, hx, hf⟩]; rfl
      | none =>
        have hpm := (dictGet_none_iff l path).1 hd
        obtain ⟨i1, i2⟩ := ih _ (hl.add hd)
        have hset := dictSet_end l path l.length hd
        have hkeys : ∀ path' : Path, path' ∈ (l ++ [(path, l.length)]).map Prod.fst ↔
            path' ∈ l.map Prod.fst ∨ path' = path := by
          intro path'; rw [List.map_append, List.mem_append]; simp
        constructor
        · intro hf
          have hfp := hf p (List.mem_cons_self ..) path hn hpm
          obtain ⟨l', ps', e, h1, h2, h3, h4⟩ := i1 (fun q hq path' hq' hx =>
            hf q (List.mem_cons_of_mem _ hq) path' hq' (fun hh => hx ((hkeys _).2 (.inl hh))))
          refine ⟨l', _, by rw [preload_take hn, hd]; simp only []; rw [if_pos hfp, hset, e]; rfl, h1,
            fun x hx => h2 (List.mem_append_left _ hx), .cons ?_ h3, ?_⟩
          · unfold Preloaded; rw [hn]
            exact ⟨_, h2 (List.mem_append_right _ (List.mem_singleton.2 rfl)), rfl⟩
          · intro path'
            rw [h4, hkeys, List.exists_mem_cons_iff, hn, or_assoc]
            constructor
            · rintro (h | h | h)
              · exact .inl h
              · exact .inr (.inl (by rw [h]))
              · exact .inr (.inr h)
            · rintro (h | h | h)
              · exact .inl h
              · exact .inr (.inl (Option.some.inj h).symm)
              · exact .inr (.inr h)
        · rintro ⟨q, hq, path', e, hx, hf⟩
          rw [preload_take hn, hd]
          simp only []
          by_cases hfp : files path = true
          · rw [if_pos hfp, hset]
            rcases List.mem_cons.1 hq with rfl | hq
            · rw [hn] at e
              rw [← Option.some.inj e, hfp] at hf; cases hf
            · rw [i2 ⟨q, hq, path', e, ?_, hf⟩]
              · rfl
              · rw [hkeys]
                rintro (h | h)
                · exact hx h
                · rw [h, hfp] at hf; cases hf
          · rw [if_neg hfp]

/-- **C88, preloading the AD-trees.**  It succeeds exactly if the file of every tree that some run needs can
be opened; otherwise it raises `FileNotFoundError`.  Each file is opened once (the keys of `loaded`, which are
exactly the needed paths, are pairwise different).  Afterwards a run that needs a tree has it in memory
and no path to load it from, everything else in it unchanged; the other runs are unchanged; and two
runs have the same object exactly if they need the same file. -/
theorem preload_correct (files : Path → Bool) (ps : List Params) :
    ((∀ p ∈ ps, ∀ path, needs p = some path → files path = true) →
      ∃ loaded ps', preload files [] ps = .ok (loaded, ps') ∧
        (loaded.map Prod.fst).Nodup ∧ (loaded.map Prod.snd).Nodup ∧
        (∀ path, path ∈ loaded.map Prod.fst ↔ ∃ p ∈ ps, needs p = some path) ∧
        List.Forall₂ (fun p p' => match needs p with
          | none => p' = p
          | some path => ∃ k, (path, k) ∈ loaded ∧ p' = { p with preloaded := some k, treeLoad := none }) ps ps') ∧
    ((∃ p ∈ ps, ∃ path, needs p = some path ∧ files path = false) →
      preload files [] ps = .error (.custom "FileNotFoundError")) := by
  obtain ⟨h1, h2⟩ := preload_aux files ps [] ⟨by simp, by simp⟩
  constructor
  · intro h
    obtain ⟨l', ps', e, hl, _, hf, hk⟩ := h1 (fun p hp path hq _ => h p hp path hq)
    refine ⟨l', ps', e, hl.keys, by rw [hl.values]; exact List.nodup_range, ?_, hf⟩
    intro path; rw [hk]; simp
  · rintro ⟨p, hp, path, e, hf⟩
    exact h2 ⟨p, hp, path, e, by simp, hf⟩

theorem run_needs (S : Setup) (k : RunKind) (t i : Nat) : needs (run S k t i) = match k with
    | .adtree type llt => some (treePath S type llt)
    | _ => none := by
  cases k with
  | adtree type llt =>
    unfold needs
    have : "adtree".toList ∈ (run S (.adtree type llt) t i).tags := by
      simp [run, blank, adtreeParam]
    rw [if_pos this]; rfl
  | dSeparation => unfold needs; rw [ite_eq_right_iff]; intro h; rfl
  | unoptimized => unfold needs; rw [ite_eq_right_iff]; intro h; rfl
  | dcmi => unfold needs; rw [ite_eq_right_iff]; intro h; rfl

/-- **C88, what the runs need.**  Exactly the runs with AD-trees need a file: the one that `adtree build`
writes for the same type and threshold argument. -/
theorem runs_need_built_trees {S : Setup} {n : Nat} {ps : List Params} (h : createParams S n = .ok ps)
    {p : Params} (hp : p ∈ ps) {k : RunKind} {t : Nat} (hk : IsRunFor S k t p) :
    (∀ type llt, k = .adtree type llt → needs p = some (builtTree S type llt).1) ∧
    ((∀ type llt, k ≠ .adtree type llt) → needs p = none) := by
  obtain ⟨k', t', i, hi, rfl⟩ := (mem_created h p).1 hp
  obtain ⟨rfl, rfl⟩ := isRunFor_unique (run_isRunFor _ _ _ _) hk
  constructor
  · rintro type llt rfl; rw [run_needs]; rfl
  · intro hne
    rw [run_needs]
    cases k' with
    | adtree type llt => exact absurd rfl (hne type llt)
    | _ => rfl

/-- The folder of a kind of files of an experiment. (Specification.) -/
def specFolder (S : Setup) (kind : String) : Path :=
  S.root ++ ["exprun_repository".toList, "dcMIEvExpII".toList, kind.toList,
    S.dataset ++ "_".toList ++ S.countString]

/-- Where every run of an experiment keeps its files: the folders, and the names of the files letter for
letter. -/
theorem file_names (S : Setup) (n : Nat) :
    (∀ p ∈ dsepParams S n, p.citr = specFolder S "ci_test_results" ++
      ["ci_test_results_synthetic_".toList ++ S.dataset ++ "_".toList ++ S.countString ++ "_T".toList ++
        idLabel p.target ++ "_dsep.pickle".toList]) ∧
    (∀ p ∈ unoptimizedParams S n, p.citr = specFolder S "ci_test_results" ++
      ["ci_test_results_synthetic_".toList ++ S.dataset ++ "_".toList ++ S.countString ++ "_T".toList ++
        idLabel p.target ++ "_unoptimized.pickle".toList]) ∧
    (∀ p ∈ dcmiParams S n,
      p.citr = specFolder S "ci_test_results" ++
        ["ci_test_results_synthetic_".toList ++ S.dataset ++ "_".toList ++ S.countString ++ "_T".toList ++
          idLabel p.target ++ "_dcMI.pickle".toList] ∧
      p.jhtLoad = some (specFolder S "jht" ++
        ["jht_synthetic_".toList ++ S.dataset ++ "_".toList ++ S.countString ++ ".pickle".toList]) ∧
      p.jhtSave = p.jhtLoad ∧
      p.dofLoad = some (specFolder S "dof_cache" ++
        ["dofcache_synthetic_".toList ++ S.dataset ++ "_".toList ++ S.countString ++ ".pickle".toList]) ∧
      p.dofSave = p.dofLoad) ∧
    (∀ type, ∀ p ∈ adtreeParams S n type, ∃ llt ∈ allowedLLT, p.llt = some llt ∧
      p.citr = specFolder S "ci_test_results" ++
        ["ci_test_results_synthetic_".toList ++ S.dataset ++ "_".toList ++ S.countString ++ "_T".toList ++
          idLabel p.target ++ "_ADtree_".toList ++ type ++ "_LLT".toList ++ llt ++ ".pickle".toList] ∧
      p.treeLoad = some (specFolder S "adtrees" ++
        ["adtree_".toList ++ type ++ "_llt".toList ++ llt ++ ".pickle".toList]) ∧
      p.treeSave = p.treeLoad) := by
  have u : ∀ x : Str, "_".toList ++ x = '_' :: x := fun _ => rfl
  have uT : ∀ x : Str, "_T".toList ++ x = '_' :: 'T' :: x := fun _ => rfl
  have n1 : "ci_test_results_synthetic_".toList = "ci_test_results_".toList ++ "synthetic_".toList := by decide +kernel
  have n2 : "jht_synthetic_".toList = "jht_".toList ++ "synthetic_".toList := by decide +kernel
  have n3 : "dofcache_synthetic_".toList = "dofcache_".toList ++ "synthetic_".toList := by decide +kernel
  have e1 : "_dsep.pickle".toList = '_' :: ("dsep".toList ++ ".pickle".toList) := by decide +kernel
  have e2 : "_unoptimized.pickle".toList = '_' :: ("unoptimized".toList ++ ".pickle".toList) := by decide +kernel
  have e3 : "_dcMI.pickle".toList = '_' :: ("dcMI".toList ++ ".pickle".toList) := by decide +kernel
  have e4 : "_ADtree_".toList = '_' :: "ADtree_".toList := by decide +kernel
  have e5 : "_LLT".toList = '_' :: "LLT".toList := by decide +kernel
  have hcitr : ∀ (t : Nat) (suffix : Str), citrPath S t suffix = specFolder S "ci_test_results" ++
      ["ci_test_results_synthetic_".toList ++ S.dataset ++ "_".toList ++ S.countString ++ "_T".toList ++
        idLabel t ++ ('_' :: (suffix ++ ".pickle".toList))] := by
    intro t suffix
    unfold citrPath specFolder subfolder definition exdsName
    simp only [n1, List.append_assoc, List.cons_append, List.nil_append, u, uT]
  have hjht : jhtPath S = specFolder S "jht" ++
        ["jht_synthetic_".toList ++ S.dataset ++ "_".toList ++ S.countString ++ ".pickle".toList] := by
    unfold jhtPath specFolder subfolder definition exdsName
    simp only [n2, List.append_assoc, List.cons_append, List.nil_append, u]
  have hdof : dofCachePath S = specFolder S "dof_cache" ++
        ["dofcache_synthetic_".toList ++ S.dataset ++ "_".toList ++ S.countString ++ ".pickle".toList] := by
    unfold dofCachePath specFolder subfolder definition exdsName
    simp only [n3, List.append_assoc, List.cons_append, List.nil_append, u]
  have htree : ∀ type llt, treePath S type llt = specFolder S "adtrees" ++
        ["adtree_".toList ++ type ++ "_llt".toList ++ llt ++ ".pickle".toList] := by
    intro type llt
    unfold treePath specFolder subfolder definition
    simp only [List.append_assoc, List.cons_append, List.nil_append, u]
  refine ⟨fun p hp => ?_, fun p hp => ?_, fun p hp => ?_, fun type p hp => ?_⟩
  · obtain ⟨t, -, rfl⟩ := List.mem_map.1 hp
    rw [e1]; exact hcitr t _
  · obtain ⟨t, -, rfl⟩ := List.mem_map.1 hp
    rw [e2]; exact hcitr t _
  · obtain ⟨t, -, rfl⟩ := List.mem_map.1 hp
    rw [e3]; exact ⟨hcitr t _, congrArg some hjht, rfl, congrArg some hdof, rfl⟩
  · obtain ⟨t, -, hp⟩ := List.mem_flatMap.1 hp
    obtain ⟨llt, hl, rfl⟩ := List.mem_map.1 hp
    refine ⟨llt, hl, rfl, ?_, congrArg some (htree type llt), rfl⟩
    refine (hcitr t _).trans ?_
    rw [e4, e5]
    simp only [List.append_assoc, List.cons_append, adtreeParam]

/-! ## Examples -/

/-- Arguments that are accepted, the threshold in thousandths, and texts that are not. -/
example : setArguments [] "alarm".toList "25e3".toList = .ok ⟨[], "alarm".toList, "25e3".toList, 25000⟩ ∧
    absoluteLLT ⟨[], "alarm".toList, "25e3".toList, 25000⟩ "5".toList = 125 ∧
    setArguments [] "alarm".toList "25000".toList = .error .valueError ∧
    setArguments [] "child".toList "25e3".toList = .error .valueError ∧
    setArguments [] "alarm".toList "1e400".toList = .error (.custom "OverflowError") := by
  refine ⟨?_, ?_, ?_, ?_, ?_⟩
  · exact sample_count_exact [] "alarm".toList (by decide) 25 3 (by norm_num)
  · exact threshold_exact _ _ 25000 rfl (by decide)
  · decide +kernel
  · decide +kernel
  · decide +kernel

/-- A set-up for examples. (Example.) -/
def exSetup : Setup := ⟨["r".toList], "alarm".toList, "4e2".toList, 400⟩

/-- The IDs of an experiment on a network with one variable. -/
example : (createParams exSetup 1).map (fun ps => ps.map Params.id) = .ok
    ["run_0_T0__dsep".toList, "run_1_T0__unoptimized".toList, "run_2_T0__adtree_static_@LLT=0".toList,
      "run_3_T0__adtree_static_@LLT=5".toList, "run_4_T0__adtree_static_@LLT=10".toList,
      "run_5_T0__adtree_dynamic_@LLT=0".toList, "run_6_T0__adtree_dynamic_@LLT=5".toList,
      "run_7_T0__adtree_dynamic_@LLT=10".toList, "run_8_T0__dcMI".toList] := by decide +kernel

/-- Preloading for two targets: six files, opened once each. -/
example : ((createParams exSetup 2).bind (fun ps => preload (fun _ => true) [] ps)).map
    (fun r => (r.1.length, r.2.map Params.preloaded)) = .ok (6, [none, none, none, none,
      some 0, some 1, some 2, some 0, some 1, some 2, some 3, some 4, some 5, some 3, some 4, some 5,
      none, none]) := by decide +kernel

/-- The tree and the results of one run. -/
example : ((adtreeParams exSetup 1 "static".toList)[1]?).map (fun p => (p.treeLoad, p.citr)) =
    some (some ["r".toList, "exprun_repository".toList, "dcMIEvExpII".toList, "adtrees".toList,
        "alarm_4e2".toList, "adtree_static_llt5.pickle".toList],
      ["r".toList, "exprun_repository".toList, "dcMIEvExpII".toList, "ci_test_results".toList,
        "alarm_4e2".toList, "ci_test_results_synthetic_alarm_4e2_T0_ADtree_static_LLT5.pickle".toList]) := by
  decide +kernel

end Mbtk.DcmiSetup
