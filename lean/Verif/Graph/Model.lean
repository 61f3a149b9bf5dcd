import Verif.Py
import Mathlib.Data.List.Dedup
import Mathlib.Data.List.Sort
/-!
# Model of the graph part of `mbtk/structures/BayesianNetwork.py`

Node identifiers are natural numbers.  A graph is the adjacency dictionary the code uses
(`graph_d`, `graph_u`): an insertion-ordered association list.
-/
namespace Mbtk.Graph

/-- A dictionary of adjacency lists: BayesianNetwork.py 318-361. -/
abbrev Adj := List (Nat × List Nat)

/-- The two adjacency dictionaries of a network object. BayesianNetwork.py 364-397. -/
structure Net where
  gd : Adj
  gu : Adj
  deriving DecidableEq, Repr

/-- `try: g[a].append(b) except KeyError: g[a] = [b]`: BayesianNetwork.py 324-327. -/
def appendTo (g : Adj) (a b : Nat) : Adj :=
  match dictGet g a with
  | some l => dictSet g a (l ++ [b])
  | none => dictSet g a [b]

/-- `try: if b not in g[a]: g[a].append(b) except KeyError: g[a] = [b]`:
BayesianNetwork.py 344-353, 377-386. -/
def addTo (g : Adj) (a b : Nat) : Adj :=
  match dictGet g a with
  | some l => if b ∈ l then g else dictSet g a (l ++ [b])
  | none => dictSet g a [b]

/-- `sorted(l)` on a list of integers. BayesianNetwork.py 318-361. -/
def sortedNat (l : List Nat) : List Nat := l.insertionSort (· ≤ ·)

/-- `for i in graph: graph[i] = sorted(graph[i])`: BayesianNetwork.py 328-329, 354-355. -/
def sortAll (g : Adj) : Adj := g.map (fun p => (p.1, sortedNat p.2))

/-- `if node.ID not in graph: graph[node.ID] = []`: BayesianNetwork.py 331-333, 357-359. -/
def addMissing (nodes : List Nat) (g : Adj) : Adj :=
  nodes.foldl (fun g n => if (dictGet g n).isSome then g else dictSet g n []) g

/-- `as_directed_graph`: BayesianNetwork.py 318-335.  `nodes` lists, in the order of
`variable_nodes`, each node ID with the IDs of its conditioning nodes. -/
def asDirected (nodes : List (Nat × List Nat)) : Adj :=
  addMissing (nodes.map Prod.fst)
    (sortAll (nodes.foldl (fun g n => n.2.foldl (fun g c => appendTo g c n.1) g) []))

/-- `as_undirected_graph`: BayesianNetwork.py 338-361. -/
def asUndirected (nodes : List (Nat × List Nat)) : Adj :=
  addMissing (nodes.map Prod.fst)
    (sortAll (nodes.foldl
      (fun g n => n.2.foldl (fun g c => addTo (addTo g c n.1) n.1 c) g) []))

/-- The two graphs computed by `finalize`: BayesianNetwork.py 294-295. -/
def ofNodes (nodes : List (Nat × List Nat)) : Net := ⟨asDirected nodes, asUndirected nodes⟩

/-- `all_nodes` of `from_directed_graph`: BayesianNetwork.py 367-372 (a set; the order in
which it is iterated only affects the key order of the dictionaries, which nothing reads). -/
def allNodes (g : Adj) : List Nat := (g.flatMap (fun p => p.1 :: p.2)).dedup

/-- `try: g[n] = sorted(g[n]) except KeyError: g[n] = []`: BayesianNetwork.py 389-397. -/
def sortOrEmpty (g : Adj) (n : Nat) : Adj :=
  match dictGet g n with
  | some l => dictSet g n (sortedNat l)
  | none => dictSet g n []

/-- `from_directed_graph`: BayesianNetwork.py 364-397. -/
def fromDirected (g : Adj) : Net :=
  let gu := g.foldl (fun gu p => p.2.foldl (fun gu d => addTo (addTo gu p.1 d) d p.1) gu) []
  ⟨(allNodes g).foldl sortOrEmpty g, (allNodes g).foldl sortOrEmpty gu⟩

/-- `find_all_paths_recursive`: BayesianNetwork.py 458-473; the cached variant 476-492
computes the same.  `fuel` bounds the recursion depth, see `pathFuel`. -/
def pathsRec (g : Adj) (stop : Nat) : Nat → Nat → List Nat → List (List Nat)
  | 0, _, _ => []
  | fuel + 1, start, path =>
    let path := path ++ [start]
    if start = stop then [path]
    else match dictGet g start with
      | none => []
      | some ns => ns.flatMap (fun n => if n ∈ path then [] else pathsRec g stop fuel n path)

/-- Every recursive call extends the path by a node of the graph not yet on it, so the
recursion is never deeper than this. BayesianNetwork.py 458-474. -/
def pathFuel (g : Adj) : Nat := (allNodes g).length + 2

/-- `find_all_paths(graph, start, end)`: BayesianNetwork.py 454-455. -/
def allPaths (g : Adj) (start stop : Nat) : List (List Nat) :=
  pathsRec g stop (pathFuel g) start []

/-- `graph[n]`. BayesianNetwork.py 458-527. -/
def lookup (g : Adj) (n : Nat) : Except Err (List Nat) :=
  match dictGet g n with
  | some l => .ok l
  | none => .error .keyError

/-- `is_node_collider` on the triple of nodes around a position: BayesianNetwork.py
434-442 (`and` does not evaluate its second operand when the first is false). -/
def isCollider (gd : Adj) (prev this next : Nat) : Except Err Bool := do
  let a ← lookup gd prev
  if this ∈ a then do
    let b ← lookup gd next
    .ok (decide (this ∈ b))
  else .ok false

/-- `is_path_blocked_by_nodes`: BayesianNetwork.py 414-431; the loop over the interior
nodes of the path, written over the remaining suffix `prev :: this :: next :: rest`. -/
def isBlocked (gd : Adj) (Z : List Nat) : List Nat → Except Err Bool
  | prev :: this :: next :: rest => do
    let descendants ← lookup gd this
    let collider ← isCollider gd prev this next
    let conditioned := decide (this ∈ Z)
    let hasDescendant := descendants.any (fun d => decide (d ∈ Z))
    if collider = true ∧ conditioned = false ∧ hasDescendant = false then .ok true
    else if collider = false ∧ conditioned = true then .ok true
    else isBlocked gd Z (this :: next :: rest)
  | _ => .ok false

/-- The loop of `d_separated` over the paths: BayesianNetwork.py 408-411. -/
def allBlocked (gd : Adj) (Z : List Nat) : List (List Nat) → Except Err Bool
  | [] => .ok true
  | p :: ps => do
    let b ← isBlocked gd Z p
    if b then allBlocked gd Z ps else .ok false

/-- `d_separated(x, separators, y)`: BayesianNetwork.py 404-411. -/
def dSeparated (N : Net) (x : Nat) (Z : List Nat) (y : Nat) : Except Err Bool :=
  allBlocked N.gd Z (allPaths N.gu x y)

/-- `conditionally_independent(x, y, Z)`: BayesianNetwork.py 400-401. -/
def condIndependent (N : Net) (x y : Nat) (Z : List Nat) : Except Err Bool :=
  dSeparated N x Z y

/-! ## The generator `find_all_paths_nonrecursive` -/

/-- Local variables of the generator: BayesianNetwork.py 497-503 (`nodestack` and
`indexstack` are pushed and popped together: one stack of pairs, top first). -/
structure Machine where
  visited : List Nat
  stack : List (Nat × Nat)
  current : Nat
  i : Nat
  out : List (List Nat)
  deriving DecidableEq, Repr

/-- One iteration of `while True`: BayesianNetwork.py 505-528.  The Boolean
component says whether the generator has stopped (`break`). -/
def Machine.step (g : Adj) (stop : Nat) (m : Machine) : Except Err (Machine × Bool) := do
  let neighbors ← lookup g m.current
  -- line 510: skip visited neighbours
  let rest := (neighbors.drop m.i).dropWhile (fun n => decide (n ∈ m.visited))
  let i := neighbors.length - rest.length
  match rest with
  | [] =>
    let visited := m.visited.erase m.current
    match m.stack with
    | [] => .ok ({ m with visited := visited, i := max m.i i }, true)
    | (c, j) :: stack =>
      .ok ({ m with visited := visited, stack := stack, current := c, i := j }, false)
  | n :: _ =>
    if n = stop then
      .ok ({ m with out := m.out ++ [(m.stack.reverse.map Prod.fst) ++ [m.current, stop]],
                    i := i + 1 }, false)
    else
      .ok ({ m with stack := (m.current, i + 1) :: m.stack, visited := n :: m.visited,
                    current := n, i := 0 }, false)

/-- The state in which the generator starts: BayesianNetwork.py 497-503. -/
def Machine.init (start : Nat) : Machine := ⟨[start], [], start, 0, []⟩

/-- Running the generator to the end, collecting what it yields.
BayesianNetwork.py 495-527. -/
def Machine.run (g : Adj) (stop : Nat) : Nat → Machine → Except Err (Option (List (List Nat)))
  | 0, _ => .ok none
  | fuel + 1, m => do
    let (m, halted) ← m.step g stop
    if halted then .ok (some m.out) else Machine.run g stop fuel m

end Mbtk.Graph
