import Verif.Py
import Verif.Graph.Model
import Mathlib.Data.List.Dedup
import Mathlib.Data.List.Sort
import Mathlib.Data.Rat.Defs
import Mathlib.Algebra.Order.Ring.Rat
/-!
# Model of the Markov blanket algorithms (`mbtk/algorithms/mb`)

Variables are column numbers.  A Python `set` is a duplicate-free list; whenever the code
iterates over a set, the order is chosen by the environment (`World.iter`), so theorems hold
for every iteration order.  The CI test and the correlation heuristic are arbitrary effectful
procedures of the environment.
-/
namespace Mbtk.MB

/-- Outcome of `CITest.conditionally_independent`: `True`, `False`, or the exception
`InsufficientSamplesForCITest` that the algorithms catch.
G_test__unoptimized.py 45-62, DSeparationCITest.py 18-21. -/
inductive Answer where
  | independent | dependent | insufficient
  deriving DecidableEq, Repr

/-- `frozenset(elements)`: a canonical list of the elements. setcache.py 7-17. -/
def fkey (l : List Nat) : List Nat := l.dedup.insertionSort (· ≤ ·)

/-- `SetCache.cache`: setcache.py 3-4. -/
abbrev SetCache (ν : Type) := List (List Nat × ν)

/-- `SetCache.add`: setcache.py 7-8. -/
def SetCache.add {ν : Type} (c : SetCache ν) (cset : ν) (elements : List Nat) : SetCache ν :=
  dictSet c (fkey elements) cset

/-- `SetCache.get`: setcache.py 11-12. -/
def SetCache.get {ν : Type} (c : SetCache ν) (elements : List Nat) : Except Err ν :=
  match dictGet c (fkey elements) with
  | some v => .ok v
  | none => .error .keyError

/-- `SetCache.contains`: setcache.py 15-16. -/
def SetCache.contains {ν : Type} (c : SetCache ν) (elements : List Nat) : Bool :=
  (dictGet c (fkey elements)).isSome

/-- One call of the CI test: `(X, Y, Z)`. ipcmb.py 109-150, iamb.py 61-114. -/
abbrev Query := Nat × Nat × List Nat

/-- State of a run: the CI tests made so far (oldest first), `self.SepSetCache` of
AlgorithmIPCMB, and the state of the environment. ipcmb.py 16-40, iamb.py 7-42. -/
structure St (σ : Type) where
  log : List Query
  sep : SetCache (List Nat)
  w : σ

/-- The environment of an algorithm; `κ` is the type of the numbers that the heuristic returns.
ipcmb.py 16-40, iamb.py 7-42: the CI test and the heuristic of the parameters. -/
structure World (σ : Type) (κ : Type := ℚ) where
  /-- `CITest.conditionally_independent(X, Y, Z)`. -/
  ask : Nat → Nat → List Nat → σ → Except Err (Answer × σ)
  /-- `dep_heuristic.compute(X, Y, Z)`. -/
  heur : Nat → Nat → List Nat → σ → Except Err (κ × σ)
  /-- The order in which the elements of a set are visited. -/
  iter : List Nat → σ → List Nat × σ

variable {σ κ : Type}

/-- Call the CI test, recording the call. ipcmb.py 58-150, iamb.py 74-114. -/
def ask (W : World σ κ) (X Y : Nat) (Z : List Nat) : PyM (St σ) Answer := fun s =>
  match W.ask X Y Z s.w with
  | .ok (a, w) => .ok (a, { s with log := s.log ++ [(X, Y, Z)], w := w })
  | .error e => .error e

/-- Call the heuristic. iamb.py 117-122. -/
def heur (W : World σ κ) (X Y : Nat) (Z : List Nat) : PyM (St σ) κ := fun s =>
  match W.heur X Y Z s.w with
  | .ok (a, w) => .ok (a, { s with w := w })
  | .error e => .error e

/-- List the elements of a set in iteration order.
Iteration over sets in ipcmb.py 58-150, iamb.py 74-119. -/
def iter (W : World σ κ) (l : List Nat) : PyM (St σ) (List Nat) := fun s =>
  .ok ((W.iter l s.w).1, { s with w := (W.iter l s.w).2 })

/-- `set - {x}`. ipcmb.py 58-150, iamb.py 102-114. -/
def without (l : List Nat) (x : Nat) : List Nat := l.filter (fun y => decide (y ≠ x))

/-- `a - b` on sets. iamb.py 74-99, ipcmb.py 58-106. -/
def diff (a b : List Nat) : List Nat := a.filter (fun y => decide (y ∉ b))

/-- `s.add(x)`. iamb.py 74-99, ipcmb.py 58-150. -/
def setAdd (l : List Nat) (x : Nat) : List Nat := if x ∈ l then l else l ++ [x]

/-- `sorted(list(s))`. iamb.py 50-58, ipcmb.py 48-55. -/
def pySorted (l : List Nat) : List Nat := l.insertionSort (· ≤ ·)

/-! ## IAMB -/

/-- The scan of `max(..., key=...)` after its first element: keys are computed in order, and
the best so far is replaced only by a strictly larger key. iamb.py 117-118. -/
def maxScan [LinearOrder κ] (W : World σ κ) (T : Nat) (cmb : List Nat) :
    List Nat → Nat → κ → PyM (St σ) Nat
  | [], best, _ => pure best
  | y :: ys, best, bestKey => do
    let k ← heur W T y cmb
    if bestKey < k then maxScan W T cmb ys y k else maxScan W T cmb ys best bestKey

/-- `highest_correlated_candidate`, with `dep`: iamb.py 116-122. -/
def highest [LinearOrder κ] (W : World σ κ) (T : Nat) (cands cmb : List Nat) : PyM (St σ) Nat := do
  let l ← iter W cands
  match l with
  | [] => throw .valueError
  | x :: xs => do
    let k ← heur W T x cmb
    maxScan W T cmb xs x k

/-- The loop of `compute_candidate_Markov_boundary`: iamb.py 79-98.  Each pass that does not
leave the loop removes a candidate; `fuel` is the number of passes allowed, exceeding it is
reported as an error (proved not to happen). -/
def growLoop [LinearOrder κ] (W : World σ κ) (T : Nat) : Nat → List Nat → List Nat → PyM (St σ) (List Nat)
  | 0, _, _ => throw .recursion
  | fuel + 1, cands, cmb =>
    if cands.length = 0 then pure cmb
    else do
      let c ← highest W T cands cmb
      let a ← ask W T c cmb
      match a with
      | .dependent => growLoop W T fuel (without cands c) (setAdd cmb c)
      | .independent => pure cmb
      | .insufficient => growLoop W T fuel (without cands c) cmb

/-- `compute_candidate_Markov_boundary`: iamb.py 74-98. -/
def grow [LinearOrder κ] (W : World σ κ) (T : Nat) (U : List Nat) : PyM (St σ) (List Nat) :=
  growLoop W T ((without U T).length + 1) (without U T) []

/-- The loop of `remove_false_positives_from_Markov_boundary`: iamb.py 102-110. -/
def shrinkLoop (W : World σ κ) (T : Nat) (cmb : List Nat) :
    List Nat → List Nat → PyM (St σ) (List Nat)
  | [], fp => pure fp
  | c :: cs, fp => do
    let a ← ask W T c (without (diff cmb fp) c)
    match a with
    | .independent => shrinkLoop W T cmb cs (setAdd fp c)
    | .dependent => shrinkLoop W T cmb cs fp
    | .insufficient => shrinkLoop W T cmb cs fp

/-- `remove_false_positives_from_Markov_boundary`: iamb.py 102-114. -/
def shrink (W : World σ κ) (T : Nat) (cmb : List Nat) : PyM (St σ) (List Nat) := do
  let l ← iter W cmb
  let fp ← shrinkLoop W T cmb l []
  pure (diff cmb fp)

/-- `AlgorithmIAMB.select_features`: iamb.py 45-72 (the `end()` calls, which only save logs,
are not modelled).  `U` is the set of all variables (18-22). -/
def iamb [LinearOrder κ] (W : World σ κ) (U : List Nat) (T : Nat) : PyM (St σ) (List Nat) := do
  let cmb ← grow W T U
  let mb ← shrink W T cmb
  pure (pySorted mb)

/-! ## IPC-MB -/

/-- `itertools.combinations(l, k)`, in its lexicographic order. ipcmb.py 109-150. -/
def combinations {α : Type} : Nat → List α → List (List α)
  | 0, _ => [[]]
  | _ + 1, [] => []
  | k + 1, x :: xs => (combinations k xs).map (x :: ·) ++ combinations (k + 1) xs

/-- `self.SepSetCache.add(Z, T, X)`. ipcmb.py 109-150, setcache.py 7-9. -/
def sepAdd (Z : List Nat) (T X : Nat) : PyM (St σ) Unit :=
  modify (fun s => { s with sep := s.sep.add Z [T, X] })

/-- `self.SepSetCache.get(T, Y)`. ipcmb.py 58-106, setcache.py 11-13. -/
def sepGet (T Y : Nat) : PyM (St σ) (List Nat) := do
  let s ← get
  liftM (s.sep.get [T, Y])

/-- The loop over conditioning sets: ipcmb.py 124-141.  Returns whether `X` was put into
`NonPC`. -/
def sepSearch (W : World σ κ) (T X : Nat) : List (List Nat) → Bool → PyM (St σ) Bool
  | [], non => pure non
  | Z :: Zs, non => do
    let a ← ask W X T Z
    match a with
    | .independent => do
      sepAdd Z T X
      pure true
    | .dependent => sepSearch W T X Zs non
    | .insufficient => sepSearch W T X Zs true

/-- `if not self.SepSetCache.contains(T, X): self.SepSetCache.add(set(), T, X)`:
ipcmb.py 142-143. -/
def sepDefault (T X : Nat) : PyM (St σ) Unit :=
  modify (fun s => if s.sep.contains [T, X] then s else { s with sep := s.sep.add [] [T, X] })

/-- The loop over `X in AdjacentNodes` for one cut set size: ipcmb.py 122-143. -/
def pcRound (W : World σ κ) (T : Nat) (adj : List Nat) (k : Nat) :
    List Nat → List Nat → PyM (St σ) (List Nat)
  | [], nonPC => pure nonPC
  | X :: Xs, nonPC => do
    let base ← iter W (without adj X)
    let non ← sepSearch W T X (combinations k base) false
    sepDefault T X
    pcRound W T adj k Xs (if non then setAdd nonPC X else nonPC)

/-- The `while True` loop of `RecognizePC`: ipcmb.py 118-148; `fuel` as in `growLoop`. -/
def pcLoop (W : World σ κ) (T : Nat) : Nat → Nat → List Nat → PyM (St σ) (List Nat)
  | 0, _, _ => throw .recursion
  | fuel + 1, k, adj => do
    let l ← iter W adj
    let nonPC ← pcRound W T adj k l []
    let adj := diff adj nonPC
    if adj.length ≤ k + 1 then pure adj
    else pcLoop W T fuel (k + 1) adj

/-- `RecognizePC(T, AdjacentNodes)`: ipcmb.py 109-151. -/
def recognizePC (W : World σ κ) (T : Nat) (adj : List Nat) : PyM (St σ) (List Nat) :=
  pcLoop W T (adj.length + 1) 0 adj

/-- The loop over `CandidatePC_T`: ipcmb.py 67-74; returns `PC` and `CandidateSpouses`. -/
def pcSymmetric (W : World σ κ) (U : List Nat) (T : Nat) :
    List Nat → List Nat → SetCache (List Nat) → PyM (St σ) (List Nat × SetCache (List Nat))
  | [], pc, sp => pure (pc, sp)
  | X :: Xs, pc, sp => do
    let cx ← recognizePC W X (without U X)
    if T ∈ cx then pcSymmetric W U T Xs (setAdd pc X) (sp.add (without cx T) [T, X])
    else pcSymmetric W U T Xs pc sp

/-- The loop over the candidate spouses of one `X`: ipcmb.py 90-102; the loop variable `mb`
is the set `MB` built so far. -/
def spouseInner (W : World σ κ) (T X : Nat) : List Nat → List Nat → PyM (St σ) (List Nat)
  | [], mb => pure mb
  | Y :: Ys, mb =>
    if Y ∈ mb then spouseInner W T X Ys mb
    else do
      let z ← sepGet T Y
      let a ← ask W T Y (setAdd z X)
      match a with
      | .dependent => spouseInner W T X Ys (setAdd mb Y)
      | .independent => spouseInner W T X Ys mb
      | .insufficient => spouseInner W T X Ys mb

/-- The loop over `X in PC`: ipcmb.py 88-102. -/
def spouseOuter (W : World σ κ) (T : Nat) (sp : SetCache (List Nat)) :
    List Nat → List Nat → PyM (St σ) (List Nat)
  | [], mb => pure mb
  | X :: Xs, mb => do
    let cs ← liftM (sp.get [T, X])
    let l ← iter W cs
    let mb ← spouseInner W T X l mb
    spouseOuter W T sp Xs mb

/-- `IPCMB(T)`: ipcmb.py 58-105; `pcOnly` is the parameter `pc_only`. -/
def ipcmbSet (W : World σ κ) (U : List Nat) (T : Nat) (pcOnly : Bool) : PyM (St σ) (List Nat) := do
  modify (fun s => { s with sep := [] })
  let cand ← recognizePC W T (without U T)
  let l ← iter W cand
  let (pc, sp) ← pcSymmetric W U T l [] []
  if pcOnly then pure pc
  else do
    let l ← iter W pc
    spouseOuter W T sp l pc

/-- `AlgorithmIPCMB.select_features`: ipcmb.py 42-55. -/
def ipcmb (W : World σ κ) (U : List Nat) (T : Nat) (pcOnly : Bool) : PyM (St σ) (List Nat) := do
  let mb ← ipcmbSet W U T pcOnly
  pure (pySorted mb)

/-! ## The shipped CI test and heuristics over a known network -/

/-- `DSeparationCITest.conditionally_independent`: DSeparationCITest.py 18-41. -/
def dsepAsk (N : Graph.Net) (X Y : Nat) (Z : List Nat) : Except Err Answer := do
  let b ← Graph.condIndependent N X Y Z
  .ok (if b then .independent else .dependent)

/-- `DSeparationAsCorrelationHeuristic.compute`: DSeparationCITest.py 54-61. -/
def dsepHeur (N : Graph.Net) (X Y : Nat) (Z : List Nat) : Except Err ℚ := do
  let b ← Graph.condIndependent N X Y Z
  .ok (if b then 0 else 1)

/-- Length of the shortest list: `min(paths, key=len)`, `ValueError` if there is none.
BNCorrelationEstimator.py 18-37. -/
def shortest : List (List Nat) → Except Err Nat
  | [] => .error .valueError
  | p :: ps => .ok (ps.foldl (fun m q => min m q.length) p.length)

/-- `BNCorrelationEstimator.compute`: BNCorrelationEstimator.py 19-37. -/
def bnHeur (N : Graph.Net) (X Y : Nat) (Z : List Nat) : Except Err ℚ := do
  let sepd ← if Z.length > 0 then Graph.condIndependent N X Y Z else .ok false
  if sepd then .ok 0
  else do
    let n ← shortest (Graph.allPaths N.gu X Y)
    .ok (1 / (n : ℚ))

/-- Environment with the shipped d-separation test, the d-separation heuristic and the
iteration order `o`. DSeparationCITest.py 18-61. -/
def dsepWorld (N : Graph.Net) (o : List Nat → σ → List Nat × σ) : World σ where
  ask X Y Z s := (dsepAsk N X Y Z).map (·, s)
  heur X Y Z s := (dsepHeur N X Y Z).map (·, s)
  iter := o

/-- The same with `BNCorrelationEstimator` as heuristic. BNCorrelationEstimator.py 18-37. -/
def bnWorld (N : Graph.Net) (o : List Nat → σ → List Nat × σ) : World σ where
  ask X Y Z s := (dsepAsk N X Y Z).map (·, s)
  heur X Y Z s := (bnHeur N X Y Z).map (·, s)
  iter := o

end Mbtk.MB
