import Verif.Exp.Run
import Verif.Stats.CiResult
/-!
# The set-up of the d-separation experiment (`experiments/experiment_dsep/expsetup.py`) (C77)

Names and paths of everything the experiment reads and writes, and the validation of its arguments.
Not modelled: reading the network (its outcome `nodes`, the number of variables, is given), the
conversion `int(float(text))` (any function `parse`), and the classes put into the parameters (only
their names `g_test` / `d_separation` are, as `oracle`).
-/
namespace Mbtk.DsepSetup
open Mbtk Mbtk.Dataset Mbtk.Dataset.Rcv Mbtk.Exp

/-- The arguments of the command line. expsetup.py 63-82; main.py 40-61. -/
structure Args where
  algorithm : Str
  sourceType : Str
  sourceName : Str
  sampleCount : Option Str
  deriving DecidableEq, Repr

/-- `SOURCES`: expsetup.py 21. -/
def sources : List Str := ["bn".toList, "ds".toList]
/-- `BAYESIAN_NETWORKS`: expsetup.py 22. -/
def networks : List Str := ["alarm".toList, "mildew".toList, "child".toList]
/-- `ALGORITHMS`: expsetup.py 23. -/
def algorithms : List Str := ["iamb".toList, "ipcmb".toList]

/-- The text matches `^[0-9]+e[0-9]+$` (a final newline, which `$` permits, is not considered).
expsetup.py 232-236. -/
def matchesFormat (s : Str) : Bool :=
  match s.span (fun c => c.isDigit) with
  | (m, 'e' :: x) => !m.isEmpty && !x.isEmpty && x.all (fun c => c.isDigit)
  | _ => false

/-- `validate_sample_count_string`: expsetup.py 232-236; not a string: `TypeError`. -/
def validateSampleCount : Option Str → Except Err Unit
  | none => .error .typeError
  | some s => if matchesFormat s then .ok () else .error .valueError

/-- A Python value of the arguments: a string, or a list. (Python itself.) -/
inductive PyVal where
  | str (s : Str)
  | list (l : List Str)
  deriving DecidableEq

/-- `validate_arguments(arguments)`: expsetup.py 205-229.  The last test compares the string with
the *list* `['ds']` (line 209). -/
def validate (a : Args) : Except Err Unit :=
  if a.algorithm ∉ algorithms then .error .valueError
  else if a.sourceType ∉ sources then .error .valueError
  else if a.sourceName ∉ networks then .error .valueError
  else if PyVal.str a.sourceType = PyVal.list ["ds".toList] then validateSampleCount a.sampleCount
  else .ok ()

/-- The attributes set by `setup(arguments)`: expsetup.py 63-82. -/
structure Attrs where
  algorithm : Str
  source : Str
  network : Str
  /-- `sample_count_string` (empty for the source 'bn') -/
  countString : Str
  /-- `sample_count` -/
  count : Option Int
  deriving DecidableEq, Repr

/-- `setup(arguments)`: expsetup.py 63-82; `nodes` is the outcome of reading the network. -/
def setupAttrs (parse : Str → Except Err Int) (nodes : Str → Except Err Nat) (a : Args) :
    Except Err (Attrs × Nat) :=
  match nodes a.sourceName with
  | .error e => .error e
  | .ok n =>
    if a.sourceType = "ds".toList then
      match a.sampleCount with
      | none => .error .valueError
      | some s =>
        match parse s with
        | .error e => .error e
        | .ok k => .ok (⟨a.algorithm, a.sourceType, a.sourceName, s, some k⟩, n)
    else .ok (⟨a.algorithm, a.sourceType, a.sourceName, [], none⟩, n)

/-- `create_experiment_run_stem(source_type)`: expsetup.py 176-185 (`None` for another source). -/
def stem (at' : Attrs) (source : Str) : Option Str :=
  if source = "bn".toList then
    some (source ++ '_' :: (at'.network ++ '_' :: at'.algorithm))
  else if source = "ds".toList then
    some (source ++ '_' :: (at'.network ++ '_' :: (at'.countString ++ '_' :: at'.algorithm)))
  else none

/-- `create_algrun_ID(parameters, source_type)`: expsetup.py 188-202 (`UnboundLocalError`, here
`none`, for another source). -/
def algrunID (at' : Attrs) (target : Nat) (source : Str) : Option Str :=
  if source = "bn".toList then
    some ("bn".toList ++ '_' :: (at'.network ++ '_' :: (at'.algorithm ++ '_' :: ('T' :: idLabel target))))
  else if source = "ds".toList then
    some ("ds".toList ++ '_' :: (at'.network ++ '_' :: (at'.countString ++ '_' ::
      (at'.algorithm ++ '_' :: ('T' :: idLabel target)))))
  else none

/-- `ExperimentDefinition(ExpRunRepository, 'DsepAlgsEval', stem)`, the fields that a run reads:
expsetup.py 95-111, 244-248; experiment.py 7-12. -/
def expDefinition (root : Path) (sub : Str) : Exp.Config where
  path := root ++ ["exprun_repository".toList, "DsepAlgsEval".toList]
  sub := sub
  saveDatapoints := true
  logFile := false
  autoLock := true

/-- `exds_name` and the entries of `source_configuration` that depend on the arguments:
expsetup.py 114-134. -/
structure Exds where
  name : Str
  network : Str
  sampleCount : Int
  randomSeed : Int
  deriving DecidableEq, Repr

/-- `define_source()`: expsetup.py 114-134. -/
def exds (at' : Attrs) : Option Exds :=
  at'.count.map (fun k =>
    ⟨"synthetic_".toList ++ (at'.network ++ '_' :: at'.countString), at'.network, k, 81628965211 + k⟩)

/-- The oracle of a run: `get_ci_test_class`, expsetup.py 251-255. -/
inductive Oracle where
  | dSeparation | gTest
  deriving DecidableEq, Repr

/-- The entries of a dictionary in `algorithm_run_parameters` that differ between runs:
expsetup.py 137-172. -/
structure Run where
  target : Nat
  index : Nat
  id : Str
  citrPath : Path
  hrPath : Path
  oracle : Oracle
  deriving DecidableEq, Repr

/-- The set-up object. expsetup.py 41-60. -/
structure Setup where
  attrs : Attrs
  definition : Exp.Config
  exds : Option Exds
  runs : List Run
  deriving DecidableEq, Repr

/-- `definition.subfolder(name)`: ExperimentDefinition.py 33-37, LockablePath.py 80-81. -/
def subfolder (d : Exp.Config) (name : Str) : Path := d.path ++ [name, d.sub]

/-- One turn of the loop of `create_algrun_parameters`: expsetup.py 145-169. -/
def makeRun (d : Exp.Config) (source : Str) (id : Str) (target : Nat) : Run where
  target := target
  index := target
  id := "run_".toList ++ id
  citrPath := subfolder d "ci_test_results".toList ++ ["citr_".toList ++ id ++ ".pickle".toList]
  hrPath := subfolder d "heuristic_results".toList ++ ["hr_".toList ++ id ++ ".pickle".toList]
  oracle := if source = "bn".toList then .dSeparation else .gTest

/-- `DsepAlgsEvalExpSetup(root, arguments)`: expsetup.py 41-60. -/
def setup (root : Path) (parse : Str → Except Err Int) (nodes : Str → Except Err Nat) (a : Args) :
    Except Err Setup :=
  match validate a with
  | .error e => .error e
  | .ok () =>
    match setupAttrs parse nodes a with
    | .error e => .error e
    | .ok (at', n) =>
      let d := expDefinition root ((stem at' at'.source).getD [])
      .ok ⟨at', d, exds at', (List.range n).map (fun t =>
        makeRun d at'.source ((algrunID at' t at'.source).getD []) t)⟩

/-- The data point of a run: ExperimentRun.py 90-94, with the folder of expsetup.py 88. -/
def Setup.datapointFile (s : Setup) (r : Run) : Path := s.definition.datapointFile r.id

/-- The file from which the summary reads the true blanket of a target: analysis.py 92-96, 156-160;
expsetup.py 239-248. -/
def Setup.referenceFile (s : Setup) (root : Path) (target : Nat) : Path :=
  (expDefinition root ((stem s.attrs "bn".toList).getD [])).datapointDir ++
    ["run_".toList ++ ((algrunID s.attrs target "bn".toList).getD []) ++ ".pickle".toList]

/-! ## Specification -/

namespace Spec

/-- What a run is about. (Specification.) -/
structure Subject where
  network : Str
  algorithm : Str
  target : Nat
  /-- `none`: the network itself is asked; `some s`: a dataset of `s` samples is -/
  samples : Option Str
  deriving DecidableEq, Repr

/-- What the run for a target is about, given the arguments. (Specification.) -/
def subject (a : Args) (target : Nat) : Subject :=
  ⟨a.sourceName, a.algorithm, target, if a.sourceType = "ds".toList then a.sampleCount else none⟩

end Spec
open Spec

/-! ## Strings with separators -/

theorem split_front {a a' x x' : Str} (h : '_' ∉ a) (h' : '_' ∉ a')
    (e : a ++ '_' :: x = a' ++ '_' :: x') : a = a' ∧ x = x' := by
  induction a generalizing a' with
  | nil =>
    cases a' with
    | nil => simpa using e
    | cons c a' =>
      simp only [List.nil_append, List.cons_append, List.cons.injEq] at e
      exact absurd (by rw [← e.1]; simp) h'
  | cons c a ih =>
    cases a' with
    | nil =>
      simp only [List.nil_append, List.cons_append, List.cons.injEq] at e
      exact absurd (by rw [e.1]; simp) h
    | cons c' a' =>
      simp only [List.cons_append, List.cons.injEq] at e
      have := ih (fun hh => h (List.mem_cons_of_mem _ hh)) (fun hh => h' (List.mem_cons_of_mem _ hh)) e.2
      exact ⟨by rw [e.1, this.1], this.2⟩

theorem split_back {a a' x x' : Str} (h : '_' ∉ a) (h' : '_' ∉ a')
    (e : x ++ '_' :: a = x' ++ '_' :: a') : a = a' ∧ x = x' := by
  have e := congrArg List.reverse e
  simp only [List.reverse_append, List.reverse_cons, List.append_assoc, List.cons_append,
    List.nil_append] at e
  have := split_front (by simpa using h) (by simpa using h') e
  exact ⟨List.reverse_injective this.1, List.reverse_injective this.2⟩

theorem target_no_underscore (t : Nat) : '_' ∉ ('T' :: idLabel t) := by
  intro h
  rcases List.mem_cons.1 h with h | h
  · cases h
  · have := idLabel_digit t _ h; revert this; decide

theorem network_no_underscore {s : Str} (h : s ∈ networks) : '_' ∉ s := by
  revert s; decide

theorem algorithm_no_underscore {s : Str} (h : s ∈ algorithms) : '_' ∉ s := by
  revert s; decide

/-! ## What the set-up is -/

theorem validate_ok_iff (a : Args) : validate a = .ok () ↔
    a.algorithm ∈ algorithms ∧ a.sourceType ∈ sources ∧ a.sourceName ∈ networks := by
  unfold validate
  by_cases h1 : a.algorithm ∈ algorithms <;> by_cases h2 : a.sourceType ∈ sources <;>
    by_cases h3 : a.sourceName ∈ networks <;> simp [h1, h2, h3]

/-- **C77, when the experiment can be set up**: exactly if the algorithm, the kind of source and the
network are among the known ones, the network can be read and - for a dataset - the sample count is
given and `int(float(...))` accepts it.  Otherwise the constructor raises. -/
theorem setup_ok_iff (root : Path) (parse : Str → Except Err Int) (nodes : Str → Except Err Nat)
    (a : Args) :
    (∃ s, setup root parse nodes a = .ok s) ↔
      a.algorithm ∈ algorithms ∧ a.sourceType ∈ sources ∧ a.sourceName ∈ networks ∧
      (∃ n, nodes a.sourceName = .ok n) ∧
      (a.sourceType = "ds".toList → ∃ t k, a.sampleCount = some t ∧ parse t = .ok k) := by
  unfold setup
  cases hv : validate a with
  | error e =>
    have : ¬ (validate a = .ok ()) := by rw [hv]; simp
    rw [validate_ok_iff] at this
    simp only [reduceCtorEq, exists_false, false_iff]
    rintro ⟨h1, h2, h3, _⟩
    exact this ⟨h1, h2, h3⟩
  | ok u =>
    have h := (validate_ok_iff a).1 hv
    simp only [h, true_and]
    unfold setupAttrs
    cases hn : nodes a.sourceName with
    | error e => simp
    | ok n =>
      by_cases hs : a.sourceType = "ds".toList
      · simp only [if_pos hs]
        cases hc : a.sampleCount with
        | none => simp [hs]
        | some t =>
          cases hp : parse t with
          | error e => simp [hs, hp]
          | ok k => simp [hp]
      · simp only [if_neg hs]
        exact ⟨fun _ => ⟨⟨n, rfl⟩, fun hh => absurd hh hs⟩, fun _ => ⟨_, rfl⟩⟩

/-- A set-up, field by field. (Models no code: a notion for statements and proofs.) -/
theorem setup_fields {root : Path} {parse : Str → Except Err Int} {nodes : Str → Except Err Nat}
    {a : Args} {s : Setup} (h : setup root parse nodes a = .ok s) :
    a.algorithm ∈ algorithms ∧ a.sourceType ∈ sources ∧ a.sourceName ∈ networks ∧
    s.attrs.algorithm = a.algorithm ∧ s.attrs.source = a.sourceType ∧ s.attrs.network = a.sourceName ∧
    (a.sourceType = "ds".toList → a.sampleCount = some s.attrs.countString ∧
      ∃ k, parse s.attrs.countString = .ok k ∧ s.attrs.count = some k) ∧
    (a.sourceType ≠ "ds".toList → s.attrs.countString = [] ∧ s.attrs.count = none) ∧
    s.definition = expDefinition root ((stem s.attrs s.attrs.source).getD []) ∧
    s.exds = exds s.attrs ∧
    ∃ n, nodes a.sourceName = .ok n ∧ s.runs = (List.range n).map (fun t =>
        makeRun s.definition s.attrs.source ((algrunID s.attrs t s.attrs.source).getD []) t) := by
  unfold setup at h
  cases hv : validate a with
  | error e => rw [hv] at h; cases h
  | ok u =>
    rw [hv] at h
    obtain ⟨v1, v2, v3⟩ := (validate_ok_iff a).1 hv
    simp only [] at h
    unfold setupAttrs at h
    cases hn : nodes a.sourceName with
    | error e => rw [hn] at h; cases h
    | ok n =>
      rw [hn] at h
      by_cases hs : a.sourceType = "ds".toList
      · simp only [if_pos hs] at h
        cases hc : a.sampleCount with
        | none => rw [hc] at h; cases h
        | some t =>
          rw [hc] at h
          simp only [] at h
          cases hp : parse t with
          | error e => rw [hp] at h; cases h
          | ok k =>
            rw [hp] at h
            cases h
            exact ⟨v1, v2, v3, rfl, rfl, rfl, fun _ => ⟨rfl, k, hp, rfl⟩, fun hh => absurd hs hh,
              rfl, rfl, n, rfl, rfl⟩
      · simp only [if_neg hs] at h
        cases h
        exact ⟨v1, v2, v3, rfl, rfl, rfl, fun hh => absurd hh hs, fun _ => ⟨rfl, rfl⟩,
          rfl, rfl, n, rfl, rfl⟩

/-- **C77, one run per variable.**  The runs are those for the targets 0, 1, …, in this order, each
with its position as index, and with the oracle that belongs to the kind of source. -/
theorem one_run_per_variable {root : Path} {parse : Str → Except Err Int}
    {nodes : Str → Except Err Nat} {a : Args} {s : Setup} (h : setup root parse nodes a = .ok s) :
    ∃ n, nodes a.sourceName = .ok n ∧ s.runs.map Run.target = List.range n ∧
      s.runs.map Run.index = List.range n ∧
      ∀ r ∈ s.runs, r.oracle = if a.sourceType = "bn".toList then .dSeparation else .gTest := by
  obtain ⟨_, _, _, _, hsrc, _, _, _, _, _, n, hn, hr⟩ := setup_fields h
  refine ⟨n, hn, ?_, ?_, ?_⟩
  · rw [hr, List.map_map]; exact (List.map_congr_left (fun t _ => rfl)).trans (List.map_id _)
  · rw [hr, List.map_map]; exact (List.map_congr_left (fun t _ => rfl)).trans (List.map_id _)
  · intro r hm
    rw [hr] at hm
    obtain ⟨t, _, rfl⟩ := List.mem_map.1 hm
    rw [hsrc]; rfl

theorem source_cases {x : Str} (h : x ∈ sources) : x = "bn".toList ∨ x = "ds".toList := by
  simpa [sources] using h

/-- Identifiers tell everything apart. (Models no code: a notion for statements and proofs.) -/
theorem algrunID_inj {p q : Attrs} {t u : Nat}
    (hpa : p.algorithm ∈ algorithms) (hqa : q.algorithm ∈ algorithms)
    (hpn : p.network ∈ networks) (hqn : q.network ∈ networks)
    (hps : p.source ∈ sources) (hqs : q.source ∈ sources)
    (e : (algrunID p t p.source).getD [] = (algrunID q u q.source).getD []) :
    p.source = q.source ∧ p.network = q.network ∧ p.algorithm = q.algorithm ∧ t = u ∧
    (p.source = "ds".toList → p.countString = q.countString) := by
  have key : ∀ {x y : Str} {A B : Str}, '_' ∉ A → '_' ∉ B →
      x ++ '_' :: (A ++ '_' :: ('T' :: idLabel t)) = y ++ '_' :: (B ++ '_' :: ('T' :: idLabel u)) →
      x = y ∧ A = B ∧ t = u := by
    intro x y A B hA hB e
    have e : (x ++ '_' :: A) ++ '_' :: ('T' :: idLabel t) = (y ++ '_' :: B) ++ '_' :: ('T' :: idLabel u) := by
      simpa using e
    obtain ⟨e1, e2⟩ := split_back (target_no_underscore t) (target_no_underscore u) e
    obtain ⟨e3, e4⟩ := split_back hA hB e2
    exact ⟨e4, e3, CiResult.idLabel_injective (List.cons.inj e1).2⟩
  have hpn' := network_no_underscore hpn
  have hqn' := network_no_underscore hqn
  have hpa' := algorithm_no_underscore hpa
  have hqa' := algorithm_no_underscore hqa
  rcases source_cases hps with hp | hp <;> rcases source_cases hqs with hq | hq
  · rw [hp, hq] at e ⊢
    simp only [algrunID, if_true, Option.getD_some] at e
    obtain ⟨_, e⟩ := split_front (by decide) (by decide) e
    obtain ⟨e1, e2, e3⟩ := key hpa' hqa' e
    exact ⟨rfl, e1, e2, e3, fun h => absurd h (by decide)⟩
  · exfalso
    rw [hp, hq] at e
    have hne : ¬ ("ds".toList = "bn".toList) := by decide
    simp only [algrunID, if_true, if_neg hne, Option.getD_some] at e
    have := (split_front (by decide) (by decide) e).1
    exact absurd this (by decide)
  · exfalso
    rw [hp, hq] at e
    have hne : ¬ ("ds".toList = "bn".toList) := by decide
    simp only [algrunID, if_true, if_neg hne, Option.getD_some] at e
    have := (split_front (by decide) (by decide) e).1
    exact absurd this (by decide)
  · rw [hp, hq] at e ⊢
    have hne : ¬ ("ds".toList = "bn".toList) := by decide
    simp only [algrunID, if_true, if_neg hne, Option.getD_some] at e
    obtain ⟨_, e⟩ := split_front (by decide) (by decide) e
    obtain ⟨e1, e⟩ := split_front hpn' hqn' e
    obtain ⟨e2, e3, e4⟩ := key hpa' hqa' e
    exact ⟨rfl, e1, e3, e4, fun _ => e2⟩

/-- **C77, no run overwrites the files of another.**  Take two set-ups (of the same root) and a run
of each.  If the IDs of the runs, or their data point files, or the files of their test results, or
those of their heuristic results coincide, then the runs are about the same network, algorithm,
target and - for a dataset - the same text of the sample count; and the other way round. -/
theorem runs_kept_apart {root : Path} {parse : Str → Except Err Int} {nodes : Str → Except Err Nat}
    {a b : Args} {s s' : Setup} (h : setup root parse nodes a = .ok s)
    (h' : setup root parse nodes b = .ok s') {r r' : Run} (hr : r ∈ s.runs) (hr' : r' ∈ s'.runs) :
    (subject a r.target = subject b r'.target ↔ r.id = r'.id) ∧
    (subject a r.target = subject b r'.target ↔ s.datapointFile r = s'.datapointFile r') ∧
    (subject a r.target = subject b r'.target ↔ r.citrPath = r'.citrPath) ∧
    (subject a r.target = subject b r'.target ↔ r.hrPath = r'.hrPath) := by
  obtain ⟨a1, a2, a3, a4, a5, a6, a7, a8, a9, _, n, hn, ar⟩ := setup_fields h
  obtain ⟨b1, b2, b3, b4, b5, b6, b7, b8, b9, _, m, hm, br⟩ := setup_fields h'
  rw [ar] at hr
  rw [br] at hr'
  obtain ⟨t, _, rfl⟩ := List.mem_map.1 hr
  obtain ⟨u, _, rfl⟩ := List.mem_map.1 hr'
  have back : (algrunID s.attrs t s.attrs.source).getD [] =
      (algrunID s'.attrs u s'.attrs.source).getD [] → subject a t = subject b u := by
    intro e
    obtain ⟨e1, e2, e3, e4, e5⟩ := algrunID_inj (by rw [a4]; exact a1) (by rw [b4]; exact b1)
      (by rw [a6]; exact a3) (by rw [b6]; exact b3) (by rw [a5]; exact a2) (by rw [b5]; exact b2) e
    rw [a5, b5] at e1
    rw [a6, b6] at e2
    rw [a4, b4] at e3
    unfold subject
    rw [e1, e2, e3, e4]
    by_cases hd : b.sourceType = "ds".toList
    · rw [if_pos hd, if_pos hd, (a7 (e1.trans hd)).1, (b7 hd).1, e5 (by rw [a5]; exact e1.trans hd)]
    · rw [if_neg hd, if_neg hd]
  have src : ∀ {x y : Args}, x.sourceType ∈ sources → y.sourceType ∈ sources →
      (x.sourceType = "ds".toList → ∃ c, x.sampleCount = some c) →
      (y.sourceType = "ds".toList → ∃ c, y.sampleCount = some c) →
      (if x.sourceType = "ds".toList then x.sampleCount else none) =
        (if y.sourceType = "ds".toList then y.sampleCount else none) → x.sourceType = y.sourceType := by
    intro x y hx hy cx cy e
    rcases source_cases hx with ex | ex <;> rcases source_cases hy with ey | ey
    · rw [ex, ey]
    · obtain ⟨c, hc⟩ := cy ey
      rw [ex, ey, if_neg (by decide), if_pos rfl, hc] at e; cases e
    · obtain ⟨c, hc⟩ := cx ex
      rw [if_pos ex, ey, if_neg (by decide), hc] at e; cases e
    · rw [ex, ey]
  have forth : subject a t = subject b u → t = u ∧ s.attrs = s'.attrs := by
    intro e
    simp only [subject, Subject.mk.injEq] at e
    obtain ⟨e1, e2, e3, e4⟩ := e
    have e5 := src a2 b2 (fun hh => ⟨_, (a7 hh).1⟩) (fun hh => ⟨_, (b7 hh).1⟩) e4
    refine ⟨e3, ?_⟩
    have hcs : s.attrs.countString = s'.attrs.countString ∧ s.attrs.count = s'.attrs.count := by
      by_cases hd : b.sourceType = "ds".toList
      · obtain ⟨c1, k1, p1, q1⟩ := a7 (e5.trans hd)
        obtain ⟨c2, k2, p2, q2⟩ := b7 hd
        rw [if_pos (e5.trans hd), if_pos hd, c1, c2] at e4
        have e4 := Option.some.inj e4
        rw [e4] at p1
        rw [p1] at p2
        exact ⟨e4, by rw [q1, q2, Except.ok.inj p2]⟩
      · obtain ⟨c1, k1⟩ := a8 (fun hh => hd (e5.symm.trans hh))
        obtain ⟨c2, k2⟩ := b8 hd
        exact ⟨by rw [c1, c2], by rw [k1, k2]⟩
    obtain ⟨⟨p1, p2, p3, p4, p5⟩, _, _, _⟩ := s
    obtain ⟨⟨q1, q2, q3, q4, q5⟩, _, _, _⟩ := s'
    simp only [Attrs.mk.injEq] at *
    exact ⟨by rw [a4, b4, e2], by rw [a5, b5, e5], by rw [a6, b6, e1], hcs.1, hcs.2⟩
  have fd : subject a t = subject b u → s.definition = s'.definition := by
    intro e; rw [a9, b9, (forth e).2]
  have ff : subject a t = subject b u → makeRun s.definition s.attrs.source
      ((algrunID s.attrs t s.attrs.source).getD []) t = makeRun s'.definition s'.attrs.source
      ((algrunID s'.attrs u s'.attrs.source).getD []) u := by
    intro e; rw [fd e, (forth e).2, (forth e).1]
  have hta : ∀ (d : Exp.Config) (x i : Str) (t : Nat), (makeRun d x i t).target = t := fun _ _ _ _ => rfl
  rw [hta, hta]
  refine ⟨⟨fun e => by rw [ff e], fun e => back ?_⟩, ⟨fun e => ?_, fun e => back ?_⟩,
    ⟨fun e => by rw [ff e], fun e => back ?_⟩, ⟨fun e => by rw [ff e], fun e => back ?_⟩⟩
  · exact List.append_cancel_left e
  · unfold Setup.datapointFile; rw [ff e, fd e]
  · have e := (List.append_inj' e rfl).2
    have e := (List.cons.inj e).1
    exact List.append_cancel_left (List.append_cancel_right e)
  · have e := (List.append_inj' e rfl).2
    have e := (List.cons.inj e).1
    exact List.append_cancel_left (List.append_cancel_right e)
  · have e := (List.append_inj' e rfl).2
    have e := (List.cons.inj e).1
    exact List.append_cancel_left (List.append_cancel_right e)

/-- **C77, the reference of the summary.**  For a dataset experiment, the file from which the
summary reads the true blanket of a target is the data point file of the run for the same target of
the experiment with the same network and algorithm on the network itself. -/
theorem reference_is_network_run {root : Path} {parse : Str → Except Err Int}
    {nodes : Str → Except Err Nat} {a : Args} {s s' : Setup} {c : Option Str}
    (h : setup root parse nodes a = .ok s)
    (h' : setup root parse nodes ⟨a.algorithm, "bn".toList, a.sourceName, c⟩ = .ok s') :
    ∀ r' ∈ s'.runs, s.referenceFile root r'.target = s'.datapointFile r' := by
  obtain ⟨a1, a2, a3, a4, a5, a6, a7, a8, a9, _, n, hn, ar⟩ := setup_fields h
  obtain ⟨b1, b2, b3, b4, b5, b6, b7, b8, b9, _, m, hm, br⟩ := setup_fields h'
  intro r' hr'
  rw [br] at hr'
  obtain ⟨u, _, rfl⟩ := List.mem_map.1 hr'
  unfold Setup.referenceFile Setup.datapointFile
  have e1 : stem s.attrs "bn".toList = stem s'.attrs s'.attrs.source := by
    rw [b5]; simp only [stem, if_true]; rw [a6, a4, b6, b4]
  have e2 : ∀ t, algrunID s.attrs t "bn".toList = algrunID s'.attrs t s'.attrs.source := by
    intro t
    rw [b5]; simp only [algrunID, if_true]; rw [a6, a4, b6, b4]
  rw [e1, b9]
  simp only [makeRun, e2]
  rfl

/-- **C77, finding.**  The format of the sample count is never checked: a set-up for a dataset
succeeds with any text that `int(float(...))` accepts, such as `1000`, although the validation
accepts only texts like `3e5`. -/
theorem format_never_checked (root : Path) (parse : Str → Except Err Int)
    (nodes : Str → Except Err Nat) (n : Nat) (hn : nodes "alarm".toList = .ok n)
    (hp : parse "1000".toList = .ok 1000) :
    validateSampleCount (some "1000".toList) = .error .valueError ∧
    validateSampleCount (some "1e3".toList) = .ok () ∧
    ∃ s, setup root parse nodes
      ⟨"iamb".toList, "ds".toList, "alarm".toList, some "1000".toList⟩ = .ok s := by
  refine ⟨by decide, by decide, ?_⟩
  rw [setup_ok_iff]
  exact ⟨by simp [algorithms], by simp [sources], by simp [networks], ⟨n, hn⟩,
    fun _ => ⟨_, _, rfl, hp⟩⟩

/-- **C77, the datasets.**  Two set-ups for datasets use the same dataset folder exactly if network
and text of the sample count are the same; the samples drawn (network, number, seed) are the same
exactly if network and *number* are: texts for the same number give the same data twice, in two
folders. -/
theorem datasets_kept_apart {root : Path} {parse : Str → Except Err Int}
    {nodes : Str → Except Err Nat} {a b : Args} {s s' : Setup}
    (h : setup root parse nodes a = .ok s) (h' : setup root parse nodes b = .ok s')
    (ha : a.sourceType = "ds".toList) (hb : b.sourceType = "ds".toList) :
    ∃ d d', s.exds = some d ∧ s'.exds = some d' ∧
      (d.name = d'.name ↔ a.sourceName = b.sourceName ∧ a.sampleCount = b.sampleCount) ∧
      ((d.network = d'.network ∧ d.sampleCount = d'.sampleCount ∧ d.randomSeed = d'.randomSeed) ↔
        a.sourceName = b.sourceName ∧ a.sampleCount.map parse = b.sampleCount.map parse) := by
  obtain ⟨a1, a2, a3, a4, a5, a6, a7, a8, a9, ax, n, hn, ar⟩ := setup_fields h
  obtain ⟨b1, b2, b3, b4, b5, b6, b7, b8, b9, bx, m, hm, br⟩ := setup_fields h'
  obtain ⟨c1, k1, p1, q1⟩ := a7 ha
  obtain ⟨c2, k2, p2, q2⟩ := b7 hb
  rw [ax, bx]
  unfold exds
  rw [q1, q2]
  refine ⟨_, _, rfl, rfl, ?_, ?_⟩
  · simp only []
    rw [a6, b6, c1, c2]
    constructor
    · intro e
      have e := List.append_cancel_left e
      obtain ⟨e1, e2⟩ := split_front (network_no_underscore a3) (network_no_underscore b3) e
      exact ⟨e1, by rw [e2]⟩
    · rintro ⟨e1, e2⟩; rw [e1, Option.some.inj e2]
  · simp only []
    rw [a6, b6, c1, c2, Option.map_some, Option.map_some, p1, p2]
    simp only [Option.some.injEq, Except.ok.injEq]
    constructor
    · rintro ⟨e1, e2, _⟩; exact ⟨e1, e2⟩
    · rintro ⟨e1, e2⟩; exact ⟨e1, e2, by rw [e2]⟩

/-! ## Examples -/

/-- A parser for two texts. (Example.) -/
def exParse (s : Str) : Except Err Int :=
  if s = "1e3".toList ∨ s = "1000".toList then .ok 1000 else .error .valueError

/-- Two dataset experiments and one on the network can be set up, and the first run of the dataset
experiment has this ID. -/
example : (setup [] exParse (fun _ => .ok 2)
      ⟨"iamb".toList, "ds".toList, "alarm".toList, some "1e3".toList⟩).map
        (fun s => s.runs.map Run.id) =
    .ok ["run_ds_alarm_1e3_iamb_T0".toList, "run_ds_alarm_1e3_iamb_T1".toList] := by decide +kernel

/-- The same number written in two ways: equal data, two folders. -/
example :
    (setup [] exParse (fun _ => .ok 2)
      ⟨"iamb".toList, "ds".toList, "alarm".toList, some "1e3".toList⟩).map (fun s => s.exds) =
      .ok (some ⟨"synthetic_alarm_1e3".toList, "alarm".toList, 1000, 81628966211⟩) ∧
    (setup [] exParse (fun _ => .ok 2)
      ⟨"iamb".toList, "ds".toList, "alarm".toList, some "1000".toList⟩).map (fun s => s.exds) =
      .ok (some ⟨"synthetic_alarm_1000".toList, "alarm".toList, 1000, 81628966211⟩) := by
  decide +kernel

/-- The reference file of target 1. -/
example :
    (setup ["r".toList] exParse (fun _ => .ok 2)
      ⟨"iamb".toList, "ds".toList, "alarm".toList, some "1e3".toList⟩).map
        (fun s => s.referenceFile ["r".toList] 1) =
      .ok ["r".toList, "exprun_repository".toList, "DsepAlgsEval".toList,
        "algorithm_run_datapoints".toList, "bn_alarm_iamb".toList,
        "run_bn_alarm_iamb_T1.pickle".toList] := by
  decide +kernel

end Mbtk.DsepSetup
