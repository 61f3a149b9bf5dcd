import Verif.ADTree.Debug
import Verif.Props.CITestProps
/-!
# The debug versions of the G-tests (C100): `mbtk/math/debug/*.py`

The three classes `G_test_debug` print the results of CI tests.  Timing and the exact text
of what is printed are not modelled; of a printed line we keep the result object and its
`extra_info` at that moment.
-/
namespace Mbtk.Stats
open Mbtk.ADTree (Data ADNode Counters TM makePmf)
open Mbtk.ADTree.Debug (QueryStats countPmf noLeafLists)
open Mbtk.ADTree.Spec (Usable)
open Mbtk.Stats.Spec
open Mbtk.MB (Answer)

namespace DebugTest

/-! ## Model -/

/-- `accurate()`: CITestResult.py 184-188. -/
def accurateOf (r : Result) : Option Bool :=
  match r.dSeparated with
  | some d => some (decide (r.independent = some d))
  | none => none

/-- `extra_info` of a result: the degrees of freedom (G_test__with_AD_tree.py 95, 114) or
the counters of the tree (G_test__with_AD_tree__debug.py 47-52). -/
inductive Extra where
  | dof (d : Int)
  | tree (nPmf nPmfLL nQueries nQueriesLL : Nat)
  deriving DecidableEq

/-- The parameters that a debug test reads: G_test__with_AD_tree__debug.py 8, 69, 72. -/
structure Flags where
  debug : Nat := 0
  printAccurate : Bool := true
  printInaccurate : Bool := true

/-- The class of an AD-tree: ADTree.py 32, DynamicADTree.py 5, ADTree__debug.py 6. -/
inductive TreeClass where
  | plain (dyn : Bool)
  | debug
  deriving DecidableEq

/-- The data as a tree of this class sees it: ADTree__debug.py 8-10. -/
def TreeClass.data (D : Data) : TreeClass → Data
  | .plain _ => D
  | .debug => noLeafLists D

/-- Whether a tree of this class grows on demand: DynamicADTree.py 5-48, ADTree__debug.py 6. -/
def TreeClass.dyn : TreeClass → Bool
  | .plain d => d
  | .debug => false

/-- The debug attributes of a tree object, which Python allows on any object; `none`: there
is no such attribute. ADTree__debug.py 9, 61-65; G_test__with_AD_tree__debug.py 15, 25. -/
structure TreeDbg where
  level : Option Nat := none
  stats : Option QueryStats := none
  deriving DecidableEq

/-- The AD-tree debug test object. G_test__with_AD_tree__debug.py 4-9.  `extras` are the
`extra_info` of the results, in the order of the tests; `printed` is the console. -/
structure DTest where
  ad : AdState
  tree : TreeDbg := {}
  extras : List Extra := []
  printed : List (Result × Extra) := []

/-- What `ADTreeDebug.make_pmf` does before the tables are made: ADTree__debug.py 29-31. -/
def countCall (cls : TreeClass) : PyM DTest Unit := fun s =>
  match cls with
  | .plain _ => .ok ((), s)
  | .debug =>
    match s.tree.level with
    | none => .error .attributeError
    | some l =>
      if 1 ≤ l then
        match s.tree.stats with
        | none => .error .attributeError
        | some t => .ok ((), { s with tree := { s.tree with stats := some (countPmf t) } })
      else .ok ((), s)

/-- A method of the base class. G_test__with_AD_tree.py 15, 79-214. -/
def liftAd {α : Type} (m : PyM AdState α) : PyM DTest α := fun s =>
  match m s.ad with
  | .error e => .error e
  | .ok (a, ad) => .ok (a, { s with ad := ad })

/-- `self.AD_tree.make_pmf(variables)`: ADTree__debug.py 28-39, ADTree.py 79-90. -/
def dPmf (D : Data) (cls : TreeClass) (cols : List Nat) : PyM DTest PMF := do
  countCall cls
  liftAd (adPmf (cls.data D) cls.dyn cols)

/-- `make_cpmf_PrXYcZ`: G_test__with_AD_tree.py 157-184. -/
def dCpmfXY (D : Data) (cls : TreeClass) (X Y : Nat) (Z : List Nat) (prZ : PMF) :
    PyM DTest (CPMF × PMF) := do
  let prXYZ ← dPmf D cls (X :: Y :: Z).mergeSort
  let c ← liftM (conditionLoop (condKeyOf (castIds (X :: Y :: Z).mergeSort) (castIds Z))
    (restKeyOf (castIds (X :: Y :: Z).mergeSort)
      (castIds ((X :: Y :: Z).filter (fun v => v ∉ Z)))) prZ [] prXYZ.probabilities)
  pure (c, prXYZ)

/-- `make_cpmf_PrXcZ`: G_test__with_AD_tree.py 187-214. -/
def dCpmfX (D : Data) (cls : TreeClass) (X : Nat) (Z : List Nat) (prZ : PMF) :
    PyM DTest (CPMF × PMF) := do
  let prXZ ← dPmf D cls (X :: Z).mergeSort
  let c ← liftM (conditionLoop (condKeyOf (castIds (X :: Z).mergeSort) (castIds Z))
    (scalarKeyOf (castIds (X :: Z).mergeSort)
      (castIds ((X :: Z).filter (fun v => v ∉ Z)))) prZ [] prXZ.probabilities)
  pure (c, prXZ)

/-- `calculate_pmf_from_AD_tree`: G_test__with_AD_tree.py 124-154. -/
def dTables (D : Data) (cls : TreeClass) (kind : DofKind) (X Y : Nat) (Z : List Nat) :
    PyM DTest Tables := do
  if Z = [] then
    let prXY ← dPmf D cls [X, Y].mergeSort
    let prXY ← liftAd (adOrder X Y prXY)
    let prX ← dPmf D cls [X]
    let prY ← dPmf D cls [Y]
    let prXY ← liftAd (adContext kind prXY)
    let prX ← liftAd (adContext kind prX)
    let prY ← liftAd (adContext kind prY)
    pure ⟨omegaCPMF prXY, omegaCPMF prX, omegaCPMF prY, omegaPMF⟩
  else
    let Z := Z.mergeSort
    let prZ ← dPmf D cls Z
    let (prXYcZ, prXYZ) ← dCpmfXY D cls X Y Z prZ
    let (prXcZ, prXZ) ← dCpmfX D cls X Z prZ
    let (prYcZ, prYZ) ← dCpmfX D cls Y Z prZ
    let _ ← liftAd (adContext kind prXYZ)
    let _ ← liftAd (adContext kind prXZ)
    let _ ← liftAd (adContext kind prYZ)
    let prZ ← liftAd (adContext kind prZ)
    pure ⟨prXYcZ, prXcZ, prYcZ, prZ⟩

/-- `super().G_test_conditionally_independent`: G_test__with_AD_tree.py 79-116. -/
noncomputable def dSuperTest (D : Data) (cls : TreeClass) (cfg : Config) (X Y : Nat)
    (Z : List Nat) : PyM DTest Result := fun s => do
  let N := s.ad.root.count.toNat
  let (t, s) ← dTables D cls cfg.kind X Y Z s
  let (dof, t) ← calculateDof D cfg.kind s.ad.base.cache X Y Z t
  pure (makeResult cfg N s.ad.base.counter X Y Z (gValue N t) dof, s)

/-- The `try` statement of `G_test_conditionally_independent`:
G_test__with_AD_tree__debug.py 45-54.  A tree without `debug` attribute raises the caught
`AttributeError`; missing counters make `format` raise `KeyError`, which is not caught. -/
def annotate (r : Result) : PyM DTest Extra := fun s =>
  match s.tree.level with
  | none => .ok (.dof r.dof, s)
  | some l =>
    if 1 ≤ l then
      match s.tree.stats with
      | none => .error .keyError
      | some t => .ok (.tree t.nPmf t.nPmfLL t.nQueries t.nQueriesLL, s)
    else .ok (.dof r.dof, s)

/-- `print_ci_test_result(result)`, as a change of the console:
G_test__with_AD_tree__debug.py 66-73; `None` is false. -/
def printResult (flags : Flags) (r : Result) (x : Extra) (out : List (Result × Extra)) :
    List (Result × Extra) :=
  if 1 ≤ flags.debug then
    if accurateOf r = some true then
      if flags.printAccurate then out ++ [(r, x)] else out
    else
      if flags.printInaccurate then out ++ [(r, x)] else out
  else out

/-- The result gets its `extra_info` and is printed: G_test__with_AD_tree__debug.py 47-56. -/
def DTest.note (flags : Flags) (r : Result) (x : Extra) (s : DTest) : DTest :=
  { s with extras := s.extras ++ [x], printed := printResult flags r x s.printed }

/-- `G_test_conditionally_independent`: G_test__with_AD_tree__debug.py 42-57. -/
noncomputable def dTestCI (D : Data) (cls : TreeClass) (flags : Flags) (cfg : Config)
    (X Y : Nat) (Z : List Nat) : PyM DTest Result := do
  let r ← dSuperTest D cls cfg X Y Z
  let x ← annotate r
  modify (DTest.note flags r x)
  pure r

/-- A call of the debug AD-tree test: G_test__unoptimized.py 45-62,
G_test__with_AD_tree__debug.py 42-57. -/
noncomputable def dCall (D : Data) (cls : TreeClass) (flags : Flags) (cfg : Config)
    (c : Nat × Nat × List Nat) : PyM DTest Answer :=
  conditionallyIndependent cfg (dTestCI D cls flags cfg)
    (fun r s => { s with ad := { s.ad with base := s.ad.base.log r } }) c.1 c.2.1 c.2.2

/-- A tree object handed to the constructor, or read from a file. ADTree.py 32-76.
G_test__with_AD_tree.py 54-60. -/
structure TreeObj where
  cls : TreeClass
  root : ADNode
  counters : Counters
  dbg : TreeDbg := {}

/-- `use_preloaded_AD_tree`, `load_AD_tree`: G_test__with_AD_tree__debug.py 12-27; with what
becomes of the debug attributes of the tree, also if the constructor raises. -/
def prepareTree (flags : Flags) (cls : TreeClass) (dbg : TreeDbg) : Except Err Unit × TreeDbg :=
  if 2 ≤ flags.debug then
    match cls with
    | .plain _ => (.error .attributeError, { dbg with level := some (flags.debug - 1) })
    | .debug => (.ok (), { level := some (flags.debug - 1), stats := some {} })
  else (.ok (), dbg)

/-- `self.AD_tree.query_count(dict())` counts one query: G_test__with_AD_tree.py 51,
ADTree__debug.py 118-122. -/
def countRootQuery (cls : TreeClass) (dbg : TreeDbg) : Except Err TreeDbg :=
  match cls with
  | .plain _ => .ok dbg
  | .debug =>
    match dbg.level with
    | none => .error .attributeError
    | some l =>
      if 1 ≤ l then
        match dbg.stats with
        | none => .error .attributeError
        | some t => .ok { dbg with stats := some { t with nQueries := t.nQueries + 1 } }
      else .ok dbg

/-- The constructor for a given tree: G_test__with_AD_tree__debug.py 6-27. -/
def newFromTree (flags : Flags) (t : TreeObj) : Except Err DTest × TreeDbg :=
  match prepareTree flags t.cls t.dbg with
  | (.error e, dbg) => (.error e, dbg)
  | (.ok (), dbg) =>
    match countRootQuery t.cls dbg with
    | .error e => (.error e, dbg)
    | .ok dbg => (.ok { ad := { root := t.root, counters := t.counters }, tree := dbg }, dbg)

/-- The debug attributes of a tree built by a test: G_test__with_AD_tree.py 67,
ADTree__debug.py 8-9. -/
def builtDbg : TreeClass → TreeDbg
  | .plain _ => {}
  | .debug => { level := some 0 }

/-- The constructor that builds a tree: G_test__with_AD_tree__debug.py 30-33,
G_test__with_AD_tree.py 63-69: `debug` is not passed on to the tree, whose level is 0. -/
def newBuilding (D : Data) (cls : TreeClass) : Except Err DTest := do
  let (root, counters) ← Mbtk.ADTree.create (cls.data D) cls.dyn ⟨0, 0⟩
  pure { ad := { root := root, counters := counters }, tree := builtDbg cls }

/-- A call of the debug version of the unoptimised test: G_test__unoptimized__debug.py 11-14,
23-30.  `super().conditionally_independent` returns a Boolean, which has no `accurate`
(`AttributeError`); the exception for insufficient samples passes through before.  The second
component is the object afterwards (simplification: unchanged if the test itself raises). -/
noncomputable def unoptDebugCall (flags : Flags) (D : Data) (cfg : Config)
    (c : Nat × Nat × List Nat) (b : Base) : Except Err Answer × Base :=
  match unoptCall D cfg c b with
  | .error e => (.error e, b)
  | .ok (.insufficient, b) => (.ok .insufficient, b)
  | .ok (a, b) => if 1 ≤ flags.debug then (.error .attributeError, b) else (.ok a, b)

/-- The constructor of the debug version of the dcMI test: G_test__with_dcMI__debug.py 6-21
around G_test__with_dcMI.py 13-38; `prepare` is what the base class's `prepare_JHT` does.
`self.debug` is read before it is set. -/
def newDcDebug (kind : DofKind) (prepare : PyM DcState Unit) : Except Err DcState :=
  if kind = .structural then .error .valueError
  else match prepare {} with
    | .error e => .error e
    | .ok _ => .error .attributeError

/-! ## Specification -/

/-- How many contingency tables a CI test needs. (Specification.) -/
def tablesFor (c : Nat × Nat × List Nat) : Nat := if c.2.2 = [] then 3 else 4

/-- The running total of contingency tables after each call, starting with `n`.
(Specification.) -/
def totals (n : Nat) : List (Nat × Nat × List Nat) → List Nat
  | [] => []
  | c :: cs => (n + tablesFor c) :: totals (n + tablesFor c) cs

/-- The `extra_info` of the results of a series of calls: the degrees of freedom, or, if the
tree counts and has made `n` tables before, the total of tables, no table from a leaf list
and no query. (Specification.) -/
def expectedExtras (counting : Option Nat) (calls : List (Nat × Nat × List Nat)) (results : List Result) :
    List Extra :=
  match counting with
  | none => results.map (fun r => .dof r.dof)
  | some n => (totals n calls).map (fun k => .tree k 0 0 0)

/-- The number of tables made so far, if the tree counts them. (Specification.) -/
def TreeDbg.counting (t : TreeDbg) : Option Nat :=
  match t.level, t.stats with
  | some l, some u => if 1 ≤ l then some u.nPmf else none
  | _, _ => none

/-- A tree whose debug attributes are as its own class leaves them: a plain tree has none; a
debug tree has counters if it counts. (Specification.) -/
def Prepared (cls : TreeClass) (t : TreeDbg) : Prop :=
  match cls with
  | .plain _ => t.level = none
  | .debug => ∃ l, t.level = some l ∧ (1 ≤ l → ∃ u, t.stats = some u)

/-- The lines printed for some results: all of them, before the d-separation was looked up,
if `ci_test_debug >= 1` and `ci_test_results__print_inaccurate`; else none.
(Specification.) -/
def expectedLines (flags : Flags) (results : List Result) (extras : List Extra) :
    List (Result × Extra) :=
  if 1 ≤ flags.debug ∧ flags.printInaccurate = true then
    (results.map (fun r => { r with dSeparated := none })).zip extras
  else []

/-! ## Simulation -/

theorem ok_bind {α β : Type} (a : α) (f : α → Except Err β) :
    ((Except.ok a : Except Err α) >>= f) = f a := rfl

theorem error_bind {α β : Type} (e : Err) (f : α → Except Err β) :
    ((Except.error e : Except Err α) >>= f) = .error e := rfl

/-- One `make_pmf`, on the debug attributes. (Models no code: a notion for statements and
proofs.) -/
def tick (cls : TreeClass) (t : TreeDbg) : TreeDbg :=
  match cls with
  | .plain _ => t
  | .debug => if 1 ≤ t.level.getD 0 then { t with stats := t.stats.map countPmf } else t

theorem tick_level (cls : TreeClass) (t : TreeDbg) : (tick cls t).level = t.level := by
  cases cls with
  | plain d => rfl
  | debug => unfold tick; dsimp only; split <;> rfl

theorem tick_prepared {cls : TreeClass} {t : TreeDbg} (h : Prepared cls t) :
    Prepared cls (tick cls t) := by
  cases cls with
  | plain d => exact h
  | debug =>
    obtain ⟨l, h1, h2⟩ := h
    refine ⟨l, by rw [tick_level, h1], fun hl => ?_⟩
    obtain ⟨u, hu⟩ := h2 hl
    refine ⟨countPmf u, ?_⟩
    simp [tick, h1, hl, hu]

/-- `make_pmf` can count. (Models no code: a notion for statements and proofs.) -/
def Countable (cls : TreeClass) (t : TreeDbg) : Prop :=
  match cls with
  | .plain _ => True
  | .debug => ∃ l, t.level = some l ∧ (1 ≤ l → ∃ u, t.stats = some u)

theorem Prepared.countable {cls : TreeClass} {t : TreeDbg} (h : Prepared cls t) :
    Countable cls t := by
  cases cls with
  | plain d => trivial
  | debug => exact h

theorem ticks_countable {cls : TreeClass} {t : TreeDbg} (k : Nat) (h : Countable cls t) :
    Countable cls ((tick cls)^[k] t) := by
  cases cls with
  | plain d => trivial
  | debug =>
    induction k generalizing t with
    | zero => exact h
    | succ k ih => exact ih (tick_prepared (cls := .debug) h)

theorem ticks_prepared {cls : TreeClass} {t : TreeDbg} (k : Nat) (h : Prepared cls t) :
    Prepared cls ((tick cls)^[k] t) := by
  induction k generalizing t with
  | zero => exact h
  | succ k ih => exact ih (tick_prepared h)

/-- The debug method does what the plain one does, and `k` times `make_pmf`.
(Models no code: a notion for statements and proofs.) -/
def Sims {α : Type} (cls : TreeClass) (k : Nat) (m : PyM AdState α) (md : PyM DTest α) : Prop :=
  ∀ s, Countable cls s.tree → md s =
    match m s.ad with
    | .error e => .error e
    | .ok (a, ad) => .ok (a, { s with ad := ad, tree := (tick cls)^[k] s.tree })

theorem Sims.bind {α β : Type} {cls : TreeClass} {k l : Nat} {m : PyM AdState α}
    {md : PyM DTest α} {f : α → PyM AdState β} {fd : α → PyM DTest β}
    (h : Sims cls k m md) (hf : ∀ a, Sims cls l (f a) (fd a)) :
    Sims cls (k + l) (m >>= f) (md >>= fd) := by
  intro s hs
  show (md s >>= fun p => fd p.1 p.2) = match (m s.ad >>= fun p => f p.1 p.2) with
    | .error e => .error e
    | .ok (a, ad) => .ok (a, { s with ad := ad, tree := (tick cls)^[k + l] s.tree })
  rw [h s hs]
  cases m s.ad with
  | error e => rfl
  | ok p =>
    show fd p.1 _ = match f p.1 p.2 with
      | .error e => .error e
      | .ok (a, ad) => .ok (a, { s with ad := ad, tree := (tick cls)^[k + l] s.tree })
    rw [hf p.1 _ (ticks_countable k hs)]
    cases f p.1 p.2 with
    | error e => rfl
    | ok q =>
      show Except.ok _ = Except.ok _
      rw [Nat.add_comm k l, Function.iterate_add_apply]

theorem Sims.lift {α : Type} (cls : TreeClass) (m : PyM AdState α) :
    Sims cls 0 m (liftAd m) := fun s _ => by
  unfold liftAd
  cases m s.ad with
  | error e => rfl
  | ok p => rfl

theorem Sims.pure {α : Type} (cls : TreeClass) (a : α) :
    Sims cls 0 (Pure.pure a) (Pure.pure a) := fun _ _ => rfl

theorem Sims.except {α : Type} (cls : TreeClass) (m : Except Err α) :
    Sims cls 0 (liftM m) (liftM m) := fun s _ => by
  cases m <;> rfl

theorem Sims.pmf (D : Data) (cls : TreeClass) (cols : List Nat) :
    Sims cls 1 (adPmf (cls.data D) cls.dyn cols) (dPmf D cls cols) := by
  intro s hs
  have h : countCall cls s = .ok ((), { s with tree := tick cls s.tree }) := by
    unfold countCall tick
    cases cls with
    | plain d => rfl
    | debug =>
      obtain ⟨l, h1, h2⟩ := hs
      simp only [h1, Option.getD_some]
      by_cases hl : 1 ≤ l
      · obtain ⟨u, hu⟩ := h2 hl
        rw [if_pos hl, if_pos hl]
        simp only [hu, Option.map_some]
      · rw [if_neg hl, if_neg hl]
  show (countCall cls s >>= fun p => liftAd (adPmf (cls.data D) cls.dyn cols) p.2) = _
  rw [h]
  show liftAd _ _ = _
  unfold liftAd
  dsimp only
  cases adPmf (cls.data D) cls.dyn cols s.ad with
  | error e => rfl
  | ok p => rfl

theorem Sims.cpmfXY (D : Data) (cls : TreeClass) (X Y : Nat) (Z : List Nat) (prZ : PMF) :
    Sims cls 1 (adCpmfXY (cls.data D) cls.dyn X Y Z prZ) (dCpmfXY D cls X Y Z prZ) := by
  unfold adCpmfXY dCpmfXY
  exact (Sims.pmf D cls _).bind fun p =>
    ((Sims.except cls _).bind fun c => Sims.pure cls _ : Sims cls (0 + 0) _ _)

theorem Sims.cpmfX (D : Data) (cls : TreeClass) (X : Nat) (Z : List Nat) (prZ : PMF) :
    Sims cls 1 (adCpmfX (cls.data D) cls.dyn X Z prZ) (dCpmfX D cls X Z prZ) := by
  unfold adCpmfX dCpmfX
  exact (Sims.pmf D cls _).bind fun p =>
    ((Sims.except cls _).bind fun c => Sims.pure cls _ : Sims cls (0 + 0) _ _)

theorem Sims.tables (D : Data) (cls : TreeClass) (kind : DofKind) (X Y : Nat) (Z : List Nat) :
    Sims cls (tablesFor (X, Y, Z)) (adTables (cls.data D) cls.dyn kind X Y Z)
      (dTables D cls kind X Y Z) := by
  unfold adTables dTables tablesFor
  by_cases hZ : Z = []
  · rw [if_pos hZ, if_pos hZ, if_pos hZ]
    have l := fun {α : Type} (m : PyM AdState α) => Sims.lift cls m
    exact (Sims.pmf D cls _).bind fun _ => (l _).bind (k := 0) (l := 2) fun _ =>
      (Sims.pmf D cls _).bind (l := 1) fun _ => (Sims.pmf D cls _).bind (l := 0) fun _ =>
      (l _).bind (l := 0) fun _ => (l _).bind (l := 0) fun _ => (l _).bind (l := 0) fun _ =>
      Sims.pure cls _
  · rw [if_neg hZ, if_neg hZ, if_neg hZ]
    have l := fun {α : Type} (m : PyM AdState α) => Sims.lift cls m
    exact (Sims.pmf D cls _).bind (l := 3) fun _ => (Sims.cpmfXY D cls _ _ _ _).bind (l := 2) fun _ =>
      (Sims.cpmfX D cls _ _ _).bind (l := 1) fun _ => (Sims.cpmfX D cls _ _ _).bind (l := 0) fun _ =>
      (l _).bind (l := 0) fun _ => (l _).bind (l := 0) fun _ => (l _).bind (l := 0) fun _ =>
      (l _).bind (l := 0) fun _ => Sims.pure cls _

theorem calculateDof_data (D : Data) (cls : TreeClass) (kind : DofKind) (cache : DofCache)
    (X Y : Nat) (Z : List Nat) (t : Tables) :
    calculateDof (cls.data D) kind cache X Y Z t = calculateDof D kind cache X Y Z t := by
  cases cls <;> rfl

theorem Sims.superTest (D : Data) (cls : TreeClass) (cfg : Config) (X Y : Nat) (Z : List Nat) :
    Sims cls (tablesFor (X, Y, Z)) (adTest (cls.data D) cls.dyn cfg X Y Z)
      (dSuperTest D cls cfg X Y Z) := by
  intro s hs
  unfold adTest dSuperTest
  dsimp only
  rw [Sims.tables D cls cfg.kind X Y Z s hs]
  cases adTables (cls.data D) cls.dyn cfg.kind X Y Z s.ad with
  | error e => rfl
  | ok p =>
    have h := calculateDof_data D cls cfg.kind p.2.base.cache X Y Z p.1
    cases h2 : calculateDof D cfg.kind p.2.base.cache X Y Z p.1 with
    | error e =>
      rw [h2] at h
      simp only [ok_bind, error_bind, h, h2]
    | ok q =>
      rw [h2] at h
      simp only [ok_bind, h, h2]
      rfl

theorem tick_counting (cls : TreeClass) {t : TreeDbg} (h : Prepared cls t) :
    (tick cls t).counting = t.counting.map (· + 1) ∧
    (1 ≤ t.level.getD 0 → ∃ n, (tick cls t).stats = some ⟨0, 0, n, 0⟩ ∧
      (tick cls t).counting = some n) := by
  cases cls with
  | plain d =>
    have h' : t.level = none := h
    have h2 : t.counting = none := by unfold TreeDbg.counting; rw [h']
    refine ⟨by show t.counting = _; rw [h2]; rfl, fun hl => ?_⟩
    rw [h'] at hl; simp at hl
  | debug =>
    obtain ⟨l, h1, h2⟩ := h
    unfold tick TreeDbg.counting
    simp only [h1, Option.getD_some]
    by_cases hl : 1 ≤ l
    · obtain ⟨u, hu⟩ := h2 hl
      rw [if_pos hl]
      simp only [hu, Option.map_some, if_pos hl]
      exact ⟨rfl, fun _ => ⟨u.nPmf + 1, rfl, rfl⟩⟩
    · rw [if_neg hl]
      simp only [h1]
      refine ⟨?_, fun h => absurd h hl⟩
      cases t.stats with
      | none => rfl
      | some u => simp only [if_neg hl, Option.map_none]

theorem ticks_counting (cls : TreeClass) (k : Nat) {t : TreeDbg} (h : Prepared cls t) :
    ((tick cls)^[k] t).level = t.level ∧
    ((tick cls)^[k] t).counting = t.counting.map (· + k) := by
  induction k generalizing t with
  | zero => exact ⟨rfl, by show t.counting = _; cases t.counting <;> rfl⟩
  | succ k ih =>
    obtain ⟨a, b⟩ := ih (tick_prepared h)
    refine ⟨by rw [Function.iterate_succ_apply, a, tick_level], ?_⟩
    rw [Function.iterate_succ_apply, b, (tick_counting cls h).1]
    cases t.counting with
    | none => rfl
    | some n => show some (n + 1 + k) = some (n + (k + 1)); congr 1; omega

/-- The annotation after at least one `make_pmf`. -/
theorem annotate_ok (cls : TreeClass) (k : Nat) {t : TreeDbg} (h : Prepared cls t) (r : Result)
    (s : DTest) (hs : s.tree = (tick cls)^[k + 1] t) :
    annotate r s = .ok (match t.counting with
      | none => .dof r.dof
      | some n => .tree (n + (k + 1)) 0 0 0, s) := by
  have hp := ticks_prepared k h
  obtain ⟨a, b⟩ := ticks_counting cls k h
  obtain ⟨c, d⟩ := tick_counting cls hp
  have hl : ((tick cls)^[k + 1] t).level = t.level := (ticks_counting cls (k + 1) h).1
  unfold annotate
  rw [hs]
  by_cases h1 : 1 ≤ t.level.getD 0
  · obtain ⟨n, e, e2⟩ := d (by rw [a]; exact h1)
    rw [Function.iterate_succ_apply'] at hl ⊢
    cases ht : t.level with
    | none => rw [ht] at h1; simp at h1
    | some l =>
      rw [ht] at h1 hl
      rw [c, b] at e2
      simp only [hl, e]
      rw [if_pos (by simpa using h1)]
      cases hc : t.counting with
      | none => rw [hc] at e2; simp at e2
      | some m =>
        rw [hc] at e2
        simp only [Option.map_some, Option.some.injEq] at e2
        simp only
        rw [← e2]; rfl
  · have hc : t.counting = none := by
      unfold TreeDbg.counting
      cases ht : t.level with
      | none => rfl
      | some l =>
        rw [ht] at h1
        cases t.stats with
        | none => rfl
        | some u => simp only; rw [if_neg (by simpa using h1)]
    rw [hc]
    simp only [hl]
    cases ht : t.level with
    | none => rfl
    | some l =>
      rw [ht] at h1
      simp only
      rw [if_neg (by simpa using h1)]

theorem makeResult_dSeparated (cfg : Config) (N counter X Y : Nat) (Z : List Nat) (G : ℝ)
    (dof : Int) : (makeResult cfg N counter X Y Z G dof).dSeparated = none := by
  unfold makeResult
  split <;> rfl

theorem adTest_dSeparated {D : Data} {dyn : Bool} {cfg : Config} {X Y : Nat} {Z : List Nat}
    {s s' : AdState} {r : Result} (h : adTest D dyn cfg X Y Z s = .ok (r, s')) :
    r.dSeparated = none := by
  unfold adTest at h
  dsimp only at h
  cases h1 : adTables D dyn cfg.kind X Y Z s with
  | error e => rw [h1] at h; cases h
  | ok p =>
    simp only [h1, ok_bind] at h
    cases h2 : calculateDof D cfg.kind p.2.base.cache X Y Z p.1 with
    | error e => rw [h2] at h; cases h
    | ok q =>
      simp only [h2, ok_bind] at h
      cases h
      exact makeResult_dSeparated ..

/-- The result as it is logged. (Models no code: a notion for statements and proofs.) -/
def looked (cfg : Config) (c : Nat × Nat × List Nat) (r : Result) : Result :=
  match cfg.sourceBn with
  | some bn => { r with dSeparated := some (bn c.1 c.2.2 c.2.1) }
  | none => r

/-- The answer of a result. (Models no code: a notion for statements and proofs.) -/
def answerOf (r : Result) : Answer :=
  if r.insufficient then .insufficient
  else if r.independent = some true then .independent else .dependent

theorem conditionallyIndependent_eq {σ : Type} (cfg : Config)
    (test : Nat → Nat → List Nat → PyM σ Result) (log : Result → σ → σ)
    (c : Nat × Nat × List Nat) (s : σ) :
    conditionallyIndependent cfg test log c.1 c.2.1 c.2.2 s =
      match test c.1 c.2.1 c.2.2 s with
      | .error e => .error e
      | .ok (r, s') => .ok (answerOf (looked cfg c r), log (looked cfg c r) s') := by
  unfold conditionallyIndependent
  show (test c.1 c.2.1 c.2.2 s >>= _) = _
  cases test c.1 c.2.1 c.2.2 s with
  | error e => rfl
  | ok p => rfl

/-- The annotation of the result of a call. (Models no code: a notion for statements and
proofs.) -/
def extraOf (t : TreeDbg) (c : Nat × Nat × List Nat) (r : Result) : Extra :=
  match t.counting with
  | none => .dof r.dof
  | some n => .tree (n + tablesFor c) 0 0 0

/-- The console after a result. (Models no code: a notion for statements and proofs.) -/
def linesOf (flags : Flags) (r : Result) (x : Extra) : List (Result × Extra) :=
  if 1 ≤ flags.debug ∧ flags.printInaccurate = true then [(r, x)] else []

theorem printResult_eq (flags : Flags) (r : Result) (x : Extra) (out : List (Result × Extra))
    (h : r.dSeparated = none) : printResult flags r x out = out ++ linesOf flags r x := by
  unfold printResult linesOf accurateOf
  rw [h]
  by_cases h1 : 1 ≤ flags.debug <;> by_cases h2 : flags.printInaccurate = true <;> simp [h1, h2]

/-- One call. -/
theorem dCall_step (D : Data) (cls : TreeClass) (flags : Flags) (cfg : Config)
    (c : Nat × Nat × List Nat) (s : DTest) (hs : Prepared cls s.tree) :
    dCall D cls flags cfg c s =
      match adTest (cls.data D) cls.dyn cfg c.1 c.2.1 c.2.2 s.ad with
      | .error e => .error e
      | .ok (r, ad) => .ok (answerOf (looked cfg c r),
        { ad := { ad with base := ad.base.log (looked cfg c r) },
          tree := (tick cls)^[tablesFor c] s.tree,
          extras := s.extras ++ [extraOf s.tree c r],
          printed := s.printed ++ linesOf flags r (extraOf s.tree c r) }) := by
  unfold dCall
  rw [conditionallyIndependent_eq]
  have h : dTestCI D cls flags cfg c.1 c.2.1 c.2.2 s =
      match adTest (cls.data D) cls.dyn cfg c.1 c.2.1 c.2.2 s.ad with
      | .error e => .error e
      | .ok (r, ad) => .ok (r,
        { ad := ad, tree := (tick cls)^[tablesFor c] s.tree,
          extras := s.extras ++ [extraOf s.tree c r],
          printed := s.printed ++ linesOf flags r (extraOf s.tree c r) }) := by
    unfold dTestCI
    show (dSuperTest D cls cfg c.1 c.2.1 c.2.2 s >>= fun p => (annotate p.1 p.2 >>= fun q =>
      Except.ok (p.1, DTest.note flags p.1 q.1 q.2))) = _
    rw [Sims.superTest D cls cfg c.1 c.2.1 c.2.2 s hs.countable]
    cases he : adTest (cls.data D) cls.dyn cfg c.1 c.2.1 c.2.2 s.ad with
    | error e => rfl
    | ok p =>
      simp only [ok_bind]
      obtain ⟨k, hk⟩ : ∃ k, tablesFor c = k + 1 := by
        unfold tablesFor; split
        · exact ⟨2, rfl⟩
        · exact ⟨3, rfl⟩
      rw [annotate_ok cls k hs p.1 _ (by rw [← hk])]
      simp only [ok_bind]
      have hx : (match s.tree.counting with
        | none => Extra.dof p.1.dof
        | some n => Extra.tree (n + (k + 1)) 0 0 0) = extraOf s.tree c p.1 := by
        unfold extraOf; rw [hk]
      rw [hx]
      unfold DTest.note
      simp only
      rw [printResult_eq _ _ _ _ (adTest_dSeparated he)]
  rw [h]
  cases adTest (cls.data D) cls.dyn cfg c.1 c.2.1 c.2.2 s.ad with
  | error e => rfl
  | ok p => rfl

theorem adCall_step (D : Data) (dyn : Bool) (cfg : Config) (c : Nat × Nat × List Nat)
    (s : AdState) : adCall D dyn cfg c s =
      match adTest D dyn cfg c.1 c.2.1 c.2.2 s with
      | .error e => .error e
      | .ok (r, ad) => .ok (answerOf (looked cfg c r),
        { ad with base := ad.base.log (looked cfg c r) }) := by
  unfold adCall
  rw [conditionallyIndependent_eq]
  cases adTest D dyn cfg c.1 c.2.1 c.2.2 s with
  | error e => rfl
  | ok p => rfl

/-- The log stays as it is. (Models no code: a notion for statements and proofs.) -/
def Keeps {α : Type} (m : PyM AdState α) : Prop :=
  ∀ s a s', m s = .ok (a, s') → s'.base.results = s.base.results

theorem Keeps.bind {α β : Type} {m : PyM AdState α} {f : α → PyM AdState β} (h : Keeps m)
    (hf : ∀ a, Keeps (f a)) : Keeps (m >>= f) := by
  intro s b s' hb
  have hb : (m s >>= fun p => f p.1 p.2) = .ok (b, s') := hb
  cases hm : m s with
  | error e => rw [hm] at hb; cases hb
  | ok p =>
    rw [hm, ok_bind] at hb
    rw [hf _ _ _ _ hb, h _ _ _ hm]

theorem Keeps.pure {α : Type} (a : α) : Keeps (Pure.pure a : PyM AdState α) := by
  intro s b s' h; cases h; rfl

theorem Keeps.except {α : Type} (m : Except Err α) : Keeps (liftM m : PyM AdState α) := by
  intro s b s' h
  cases m with
  | error e => cases h
  | ok a => cases h; rfl

theorem Keeps.pmf (D : Data) (dyn : Bool) (cols : List Nat) : Keeps (adPmf D dyn cols) := by
  intro s b s' h
  unfold adPmf at h
  cases hm : makePmf D dyn cols s.root s.counters with
  | error e => rw [hm] at h; cases h
  | ok p => rw [hm] at h; cases h; rfl

theorem Keeps.context (kind : DofKind) (p : PMF) : Keeps (adContext kind p) := by
  intro s b s' h; cases h; rfl

theorem Keeps.order (X Y : Nat) (p : PMF) : Keeps (adOrder X Y p) := by
  unfold adOrder
  split
  · exact (Keeps.except _).bind fun _ => Keeps.pure _
  · exact Keeps.pure _

theorem Keeps.tables (D : Data) (dyn : Bool) (kind : DofKind) (X Y : Nat) (Z : List Nat) :
    Keeps (adTables D dyn kind X Y Z) := by
  have hp : ∀ cols, Keeps (adPmf D dyn cols) := Keeps.pmf D dyn
  have hc : ∀ p, Keeps (adContext kind p) := Keeps.context kind
  have ho : ∀ p, Keeps (adOrder X Y p) := Keeps.order X Y
  have hx : ∀ X Z p, Keeps (adCpmfX D dyn X Z p) := fun X Z p =>
    (hp _).bind fun _ => (Keeps.except _).bind fun _ => Keeps.pure _
  have hxy : ∀ X Y Z p, Keeps (adCpmfXY D dyn X Y Z p) := fun X Y Z p =>
    (hp _).bind fun _ => (Keeps.except _).bind fun _ => Keeps.pure _
  unfold adTables
  split
  · exact (hp _).bind fun _ => (ho _).bind fun _ => (hp _).bind fun _ =>
      (hp _).bind fun _ => (hc _).bind fun _ => (hc _).bind fun _ =>
      (hc _).bind fun _ => Keeps.pure _
  · exact (hp _).bind fun _ => (hxy _ _ _ _).bind fun _ => (hx _ _ _).bind fun _ =>
      (hx _ _ _).bind fun _ => (hc _).bind fun _ => (hc _).bind fun _ =>
      (hc _).bind fun _ => (hc _).bind fun _ => Keeps.pure _

theorem Keeps.test (D : Data) (dyn : Bool) (cfg : Config) (X Y : Nat) (Z : List Nat) :
    Keeps (adTest D dyn cfg X Y Z) := by
  intro s r s' h
  unfold adTest at h
  dsimp only at h
  cases h1 : adTables D dyn cfg.kind X Y Z s with
  | error e => rw [h1] at h; cases h
  | ok p =>
    simp only [h1, ok_bind] at h
    cases h2 : calculateDof D cfg.kind p.2.base.cache X Y Z p.1 with
    | error e => rw [h2] at h; cases h
    | ok q =>
      simp only [h2, ok_bind] at h
      cases h
      exact Keeps.tables _ _ _ _ _ _ _ _ _ h1

/-- A series of calls. (Models no code: a notion for statements and proofs.) -/
def Follows (D : Data) (cls : TreeClass) (flags : Flags) (cfg : Config)
    (calls : List (Nat × Nat × List Nat)) (s0 : DTest) : Prop :=
  match mapList (adCall (cls.data D) cls.dyn cfg) calls s0.ad with
  | .error e => mapList (dCall D cls flags cfg) calls s0 = .error e
  | .ok (answers, ad) => ∃ s new, mapList (dCall D cls flags cfg) calls s0 = .ok (answers, s) ∧
      s.ad = ad ∧ ad.base.results = s0.ad.base.results ++ new ∧
      s.extras = s0.extras ++ expectedExtras s0.tree.counting calls new ∧
      s.printed = s0.printed ++
        expectedLines flags new (expectedExtras s0.tree.counting calls new)

theorem looked_forget (cfg : Config) (c : Nat × Nat × List Nat) {r : Result}
    (h : r.dSeparated = none) :
    ({ looked cfg c r with dSeparated := none } : Result) = r ∧ (looked cfg c r).dof = r.dof := by
  unfold looked
  cases r
  simp only at h
  subst h
  cases cfg.sourceBn <;> exact ⟨rfl, rfl⟩

theorem expected_cons (t : TreeDbg) (cls : TreeClass) (h : Prepared cls t) (cfg : Config)
    (c : Nat × Nat × List Nat) (cs : List (Nat × Nat × List Nat)) (r : Result)
    (hr : r.dSeparated = none) (new : List Result) :
    expectedExtras t.counting (c :: cs) (looked cfg c r :: new) =
      extraOf t c r :: expectedExtras ((tick cls)^[tablesFor c] t).counting cs new := by
  rw [(ticks_counting cls _ h).2]
  unfold expectedExtras extraOf
  cases t.counting with
  | none => simp [(looked_forget cfg c hr).2]
  | some n => simp [totals]

theorem follows (D : Data) (cls : TreeClass) (flags : Flags) (cfg : Config)
    (calls : List (Nat × Nat × List Nat)) (s0 : DTest) (h : Prepared cls s0.tree) :
    Follows D cls flags cfg calls s0 := by
  induction calls generalizing s0 with
  | nil =>
    refine ⟨s0, [], rfl, rfl, by simp, ?_, ?_⟩
    · unfold expectedExtras; cases s0.tree.counting <;> simp [totals]
    · unfold expectedLines; split <;> simp
  | cons c cs ih =>
    unfold Follows
    show (match (adCall (cls.data D) cls.dyn cfg c s0.ad >>= fun p =>
      (mapList (adCall (cls.data D) cls.dyn cfg) cs p.2 >>= fun q =>
        Except.ok (p.1 :: q.1, q.2))) with
      | .error e => (dCall D cls flags cfg c s0 >>= fun p =>
        (mapList (dCall D cls flags cfg) cs p.2 >>= fun q =>
        Except.ok (p.1 :: q.1, q.2))) = .error e
      | .ok (answers, ad) => ∃ s new, (dCall D cls flags cfg c s0 >>= fun p =>
        (mapList (dCall D cls flags cfg) cs p.2 >>= fun q =>
        Except.ok (p.1 :: q.1, q.2))) = .ok (answers, s) ∧ _)
    rw [dCall_step D cls flags cfg c s0 h, adCall_step]
    cases he : adTest (cls.data D) cls.dyn cfg c.1 c.2.1 c.2.2 s0.ad with
    | error e => rfl
    | ok p =>
      simp only [ok_bind]
      obtain ⟨s1, hs1⟩ : ∃ s1 : DTest, s1 = ⟨⟨p.2.base.log (looked cfg c p.1), p.2.root,
        p.2.counters⟩, (tick cls)^[tablesFor c] s0.tree, s0.extras ++ [extraOf s0.tree c p.1],
        s0.printed ++ linesOf flags p.1 (extraOf s0.tree c p.1)⟩ := ⟨_, rfl⟩
      rw [← hs1]
      have := ih s1 (by rw [hs1]; exact ticks_prepared _ h)
      unfold Follows at this
      have e1 : s1.ad = { p.2 with base := p.2.base.log (looked cfg c p.1) } := by rw [hs1]
      rw [e1] at this
      cases hm : mapList (adCall (cls.data D) cls.dyn cfg) cs
          { p.2 with base := p.2.base.log (looked cfg c p.1) } with
      | error e =>
        rw [hm] at this
        simp only at this
        simp only [this, error_bind]
      | ok q =>
        rw [hm] at this
        obtain ⟨s, new, i1, i2, i3, i4, i5⟩ := this
        simp only [ok_bind, i1]
        have hr := adTest_dSeparated he
        have hc := expected_cons s0.tree cls h cfg c cs p.1 hr new
        refine ⟨s, looked cfg c p.1 :: new, rfl, i2, ?_, ?_, ?_⟩
        · rw [i3]
          show (p.2.base.results ++ [looked cfg c p.1]) ++ new = _
          rw [Keeps.test _ _ _ _ _ _ _ _ _ he]; simp
        · rw [i4, hc]; simp [hs1]
        · rw [i5, hc]
          have hf := (looked_forget cfg c hr).1
          unfold expectedLines
          simp only [hs1, linesOf]
          split
          · simp [hf]
          · simp

theorem logFrom_data (D : Data) (cls : TreeClass) (cfg : Config) (calls : List Call) (n : Nat) :
    logFrom (cls.data D) cfg n calls = logFrom D cfg n calls := by
  cases cls with
  | plain d => rfl
  | debug =>
    induction calls generalizing n with
    | nil => rfl
    | cons c cs ih =>
      show _ :: _ = _ :: _
      rw [ih]
      rfl

theorem areAnswers_data (D : Data) (cls : TreeClass) (cfg : Config) (calls : List Call)
    (as : List Answer) :
    AreAnswers (cls.data D) cfg calls as → AreAnswers D cfg calls as := by
  cases cls with
  | plain d => exact id
  | debug =>
    induction calls generalizing as with
    | nil => cases as <;> exact id
    | cons c cs ih =>
      cases as with
      | nil => exact id
      | cons a as => exact fun h => ⟨⟨h.1.1, h.1.2, h.1.3⟩, ih as h.2⟩

/-! ## The theorems -/

/-- **C100.** The debug test on an AD-tree: for any tree whose attributes are as its class
leaves them, at any point of its life, and every series of calls, valid or not, it raises
what the plain test on this tree raises, and otherwise gives the same answers, logs the same
results and leaves the same tree; the results' `extra_info` and the lines on the console are
as expected. -/
theorem ad_debug_test_transparent (D : Data) (cls : TreeClass) (flags : Flags) (cfg : Config)
    (calls : List Call) (s0 : DTest) (h : Prepared cls s0.tree) :
    match mapList (adCall (cls.data D) cls.dyn cfg) calls s0.ad with
    | .error e => mapList (dCall D cls flags cfg) calls s0 = .error e
    | .ok (answers, ad) =>
      ∃ s new, mapList (dCall D cls flags cfg) calls s0 = .ok (answers, s) ∧
        s.ad = ad ∧ ad.base.results = s0.ad.base.results ++ new ∧
        s.extras = s0.extras ++ expectedExtras s0.tree.counting calls new ∧
        s.printed = s0.printed ++
          expectedLines flags new (expectedExtras s0.tree.counting calls new) :=
  follows D cls flags cfg calls s0 h

/-- **C100.** The constructor for a preloaded or loaded tree: it succeeds unless
`ci_test_debug >= 2` and the tree is not a debug tree; then it raises `AttributeError`, after
having given the tree a `debug` attribute. -/
theorem ad_debug_constructor (flags : Flags) (t : TreeObj) (h : Prepared t.cls t.dbg) :
    (¬ (2 ≤ flags.debug ∧ t.cls ≠ .debug) →
      ∃ s0, newFromTree flags t = (.ok s0, s0.tree) ∧ Prepared t.cls s0.tree ∧
        s0.ad = { root := t.root, counters := t.counters } ∧ s0.extras = [] ∧ s0.printed = [] ∧
        s0.tree.counting = if 2 ≤ flags.debug then some 0 else t.dbg.counting) ∧
    (2 ≤ flags.debug ∧ t.cls ≠ .debug →
      newFromTree flags t = (.error .attributeError,
        { t.dbg with level := some (flags.debug - 1) })) := by
  obtain ⟨cls, root, counters, dbg⟩ := t
  simp only at h ⊢
  constructor
  · intro hn
    cases cls with
    | plain d =>
      have h2 : ¬ 2 ≤ flags.debug := fun h2 => hn ⟨h2, by simp⟩
      refine ⟨{ ad := { root := root, counters := counters }, tree := dbg }, ?_, h, rfl, rfl,
        rfl, ?_⟩
      · simp only [newFromTree, prepareTree, if_neg h2, countRootQuery]
      · rw [if_neg h2]
    | debug =>
      by_cases h2 : 2 ≤ flags.debug
      · refine ⟨⟨⟨{}, root, counters⟩, ⟨some (flags.debug - 1), some { nQueries := 1 }⟩, [], []⟩, ?_,
          ⟨_, rfl, fun _ => ⟨_, rfl⟩⟩, rfl, rfl, rfl, ?_⟩
        · have : 1 ≤ flags.debug - 1 := by omega
          simp only [newFromTree, prepareTree, if_pos h2, countRootQuery, if_pos this]
        · have : 1 ≤ flags.debug - 1 := by omega
          rw [if_pos h2]
          simp only [TreeDbg.counting, if_pos this]
      · obtain ⟨l, h3, h4⟩ := h
        by_cases hl : 1 ≤ l
        · obtain ⟨u, hu⟩ := h4 hl
          refine ⟨⟨⟨{}, root, counters⟩, ⟨some l, some { u with nQueries := u.nQueries + 1 }⟩, [], []⟩, ?_,
            ⟨_, rfl, fun _ => ⟨_, rfl⟩⟩, rfl, rfl, rfl, ?_⟩
          · simp only [newFromTree, prepareTree, if_neg h2, countRootQuery, h3, if_pos hl, hu]
          · rw [if_neg h2]
            simp only [TreeDbg.counting, h3, hu, if_pos hl]
        · refine ⟨{ ad := { root := root, counters := counters }, tree := dbg }, ?_,
            ⟨l, h3, h4⟩, rfl, rfl, rfl, ?_⟩
          · simp only [newFromTree, prepareTree, if_neg h2, countRootQuery, h3, if_neg hl]
          · rw [if_neg h2]
  · rintro ⟨h2, hc⟩
    cases cls with
    | plain d => simp only [newFromTree, prepareTree, if_pos h2]
    | debug => exact absurd rfl hc

/-- **C100.** The `debug` attribute that a failed constructor leaves on a plain tree makes
every later debug test on this tree raise `KeyError` in each call that the plain test
answers. -/
theorem ad_debug_poisoned_tree (D : Data) (flags later : Flags) (h2 : 2 ≤ flags.debug)
    (hl : later.debug ≤ 1) (t : TreeObj) (hp : Prepared t.cls t.dbg) (hc : t.cls ≠ .debug)
    (hs : t.dbg.stats = none) (cfg : Config) :
    ∃ s0, (newFromTree later { t with dbg := (newFromTree flags t).2 }).1 = .ok s0 ∧
      s0.ad = { root := t.root, counters := t.counters } ∧
      ∀ c ad a ad', adCall D t.cls.dyn cfg c ad = .ok (a, ad') →
        dCall D t.cls later cfg c { s0 with ad := ad } = .error .keyError := by
  have e := (ad_debug_constructor flags t hp).2 ⟨h2, hc⟩
  obtain ⟨cls, root, counters, dbg⟩ := t
  cases cls with
  | debug => exact absurd rfl hc
  | plain d =>
    simp only at hs hp
    have hl' : ¬ 2 ≤ later.debug := by omega
    refine ⟨⟨⟨{}, root, counters⟩, { dbg with level := some (flags.debug - 1) }, [], []⟩,
      ?_, rfl, ?_⟩
    · rw [e]
      simp only [newFromTree, prepareTree, if_neg hl', countRootQuery]
    · intro c ad a ad' ha
      rw [adCall_step] at ha
      unfold dCall
      rw [conditionallyIndependent_eq]
      cases he : adTest D d cfg c.1 c.2.1 c.2.2 ad with
      | error x => rw [show TreeClass.dyn (.plain d) = d from rfl, he] at ha; cases ha
      | ok p =>
        have h : dTestCI D (.plain d) later cfg c.1 c.2.1 c.2.2
            ⟨ad, { dbg with level := some (flags.debug - 1) }, [], []⟩ = .error .keyError := by
          unfold dTestCI
          show (dSuperTest D (.plain d) cfg c.1 c.2.1 c.2.2
              ⟨ad, { dbg with level := some (flags.debug - 1) }, [], []⟩ >>= fun p =>
              (annotate p.1 p.2 >>= fun q =>
            Except.ok (p.1, DTest.note later p.1 q.1 q.2))) = _
          rw [Sims.superTest D (.plain d) cfg c.1 c.2.1 c.2.2 _ trivial]
          have he' : adTest (TreeClass.data D (.plain d)) (TreeClass.dyn (.plain d)) cfg
            c.1 c.2.1 c.2.2 ad = .ok p := he
          simp only [he', ok_bind]
          have ht : (tick (.plain d))^[tablesFor (c.1, c.2.1, c.2.2)]
              { dbg with level := some (flags.debug - 1) } =
              { dbg with level := some (flags.debug - 1) } := by
            generalize tablesFor (c.1, c.2.1, c.2.2) = k
            induction k with
            | zero => rfl
            | succ k ih => exact ih
          rw [ht]
          have h1 : 1 ≤ flags.debug - 1 := by omega
          simp only [annotate, if_pos h1, hs, error_bind]
        dsimp only
        rw [h]

/-- **C100.** The debug test that builds its tree (of any class): no exception on valid
calls, right answers, the log of the plain test; all `extra_info` are the degrees of freedom
(the built tree does not count), and every result is printed, or none. -/
theorem ad_debug_test_right (D : Data) (cls : TreeClass) (hD : Usable (cls.data D))
    (flags : Flags) (cfg : Config) (calls : List Call) (hv : ∀ c ∈ calls, ValidAdCall D c) :
    ∃ s0 answers s, newBuilding D cls = .ok s0 ∧
      mapList (dCall D cls flags cfg) calls s0 = .ok (answers, s) ∧
      AreAnswers D cfg calls answers ∧ s.ad.base.results = logFrom D cfg 0 calls ∧
      s.extras = s.ad.base.results.map (fun r => .dof r.dof) ∧
      s.printed = expectedLines flags s.ad.base.results s.extras := by
  obtain ⟨s1, e1, answers, ad, e2, h1, h2, h3, h4⟩ := adtree_session (cls.data D) cfg hD cls.dyn calls
    (by cases cls <;> exact hv)
  have e3 : Mbtk.ADTree.create (cls.data D) cls.dyn ⟨0, 0⟩ = .ok (s1.root, s1.counters) ∧
      s1.base = {} := by
    unfold newAdTest at e1
    cases hc : Mbtk.ADTree.create (cls.data D) cls.dyn ⟨0, 0⟩ with
    | error e => rw [hc] at e1; cases e1
    | ok p => rw [hc] at e1; cases e1; exact ⟨rfl, rfl⟩
  obtain ⟨s0, hs0⟩ : ∃ s0 : DTest, s0 = ⟨⟨{}, s1.root, s1.counters⟩, builtDbg cls, [], []⟩ :=
    ⟨_, rfl⟩
  have e4 : newBuilding D cls = .ok s0 := by
    unfold newBuilding
    rw [e3.1, hs0]
    rfl
  have hp : Prepared cls s0.tree ∧ s0.tree.counting = none := by
    rw [hs0]
    cases cls with
    | plain d => exact ⟨rfl, rfl⟩
    | debug => exact ⟨⟨0, rfl, by omega⟩, rfl⟩
  have e5 : s0.ad = s1 := by
    rw [hs0]
    show (⟨{}, s1.root, s1.counters⟩ : AdState) = s1
    rw [← e3.2]
  have f := ad_debug_test_transparent D cls flags cfg calls s0 hp.1
  rw [e5, e2] at f
  obtain ⟨s, new, f1, f2, f3, f4, f5⟩ := f
  have hn : new = ad.base.results := by rw [f3, e3.2]; rfl
  rw [hp.2] at f4 f5
  have hx : s.extras = s.ad.base.results.map (fun r => Extra.dof r.dof) := by
    rw [f4, hs0, f2, hn]; rfl
  refine ⟨s0, answers, s, e4, f1, areAnswers_data D cls cfg calls _ h1, ?_, hx, ?_⟩
  · rw [f2, h4, logFrom_data]
  · rw [f5, hx, f2, hn, hs0]; rfl

/-- A series of calls of the unoptimised debug test; the client carries on after an
exception. (Specification.) -/
noncomputable def unoptDebugCalls (flags : Flags) (D : Data) (cfg : Config) :
    List Call → Base → List (Except Err Answer) × Base
  | [], b => ([], b)
  | c :: cs, b =>
    let (a, b) := unoptDebugCall flags D cfg c b
    let (as, b) := unoptDebugCalls flags D cfg cs b
    (a :: as, b)

/-- What the client of the unoptimised debug test gets instead of an answer. (Specification.) -/
def spoilt (flags : Flags) (a : Answer) : Except Err Answer :=
  if 1 ≤ flags.debug ∧ a ≠ .insufficient then .error .attributeError else .ok a

/-- **C100.** The debug version of the unoptimised test logs what the plain test logs, and
with `ci_test_debug = 0` answers as the plain test; with `ci_test_debug >= 1` every test that
comes to a decision raises `AttributeError` after logging it. -/
theorem unopt_debug_test (flags : Flags) (D : Data) (cfg : Config) (hr : D.nrows ≠ 0)
    (calls : List Call) (hv : ∀ c ∈ calls, ValidCall D c) :
    ∃ answers, AreAnswers D cfg calls answers ∧
      (unoptDebugCalls flags D cfg calls {}).1 = answers.map (spoilt flags) ∧
      (unoptDebugCalls flags D cfg calls {}).2.results = logFrom D cfg 0 calls := by
  obtain ⟨answers, b, e, h1, h2, h3, h4⟩ := unoptimized_session D cfg hr calls hv
  have key : ∀ (calls : List Call) (b0 b : Base) (answers : List Answer),
      mapList (unoptCall D cfg) calls b0 = .ok (answers, b) →
      unoptDebugCalls flags D cfg calls b0 = (answers.map (spoilt flags), b) := by
    intro calls
    induction calls with
    | nil => intro b0 b answers h; cases h; rfl
    | cons c cs ih =>
      intro b0 b answers h
      have h : (unoptCall D cfg c b0 >>= fun p => (mapList (unoptCall D cfg) cs p.2 >>= fun q =>
        Except.ok (p.1 :: q.1, q.2))) = .ok (answers, b) := h
      cases hu : unoptCall D cfg c b0 with
      | error e => rw [hu] at h; cases h
      | ok p =>
        rw [hu, ok_bind] at h
        cases hm : mapList (unoptCall D cfg) cs p.2 with
        | error e => rw [hm] at h; cases h
        | ok q =>
          rw [hm, ok_bind] at h
          cases h
          have hd : unoptDebugCall flags D cfg c b0 = (spoilt flags p.1, p.2) := by
            unfold unoptDebugCall spoilt
            rw [hu]
            obtain ⟨a, b'⟩ := p
            cases a <;> by_cases hf : 1 ≤ flags.debug <;> simp [hf]
          unfold unoptDebugCalls
          rw [hd]
          simp only
          rw [ih _ _ _ hm]
          rfl
  rw [key _ _ _ _ e]
  exact ⟨answers, h1, rfl, h4⟩

/-- **C100.** The debug version of the dcMI test cannot be constructed. -/
theorem dc_debug_test_unusable (kind : DofKind) (prepare : PyM DcState Unit) :
    ∃ e, newDcDebug kind prepare = .error e := by
  unfold newDcDebug
  split
  · exact ⟨_, rfl⟩
  · split <;> exact ⟨_, rfl⟩

open Mbtk.ADTree in
/-- The hypotheses hold for the example data with every class of tree, and for a threshold
above the number of rows with a debug tree. -/
example : Usable (TreeClass.data exampleData (.plain true)) ∧
    Usable (TreeClass.data exampleData .debug) ∧
    Usable (TreeClass.data { exampleData with threshold := 16 } .debug) ∧
    exampleData.nrows ≠ 0 ∧
    (∀ c ∈ [((0, 1, [2]) : Call), (2, 0, [])], ValidAdCall exampleData c) :=
  ⟨exampleData_usable, ⟨exampleData_usable.1, exampleData_usable.2, exampleData_usable.3,
    Nat.zero_le _⟩, ⟨exampleData_usable.1, exampleData_usable.2, exampleData_usable.3,
    Nat.zero_le _⟩, by decide, by unfold ValidAdCall; decide⟩

/-- A debug tree that counts, one that does not, and a plain tree are prepared. -/
example : Prepared .debug { level := some 1, stats := some { nPmf := 5 } } ∧
    Prepared .debug { level := some 0 } ∧ Prepared (.plain true) {} ∧
    expectedExtras (TreeDbg.counting { level := some 1, stats := some { nPmf := 5 } })
      [(0, 1, []), (0, 1, [2])] [] = [.tree 8 0 0 0, .tree 12 0 0 0] :=
  ⟨⟨1, rfl, fun _ => ⟨_, rfl⟩⟩, ⟨0, rfl, fun h => absurd h (by decide)⟩, rfl, rfl⟩

end DebugTest
end Mbtk.Stats
