import Verif.BN.Model
import Mathlib.Logic.Relation
/-!
# What a Bayesian network means

Textbook notions for a list of nodes: parents, acyclicity, conditional probability tables and
the product of their entries.  Only the fields `name`, `values`, `parents` and `probabilities`
of a node (what the BIF file declares) are used.
-/
namespace Mbtk.BN.Spec
variable {ν β : Type} [LinearOrder ν] [DecidableEq β]

/-- `p` is a parent of `c`. (Specification.) -/
def ParentOf (nodes : List (Node ν β)) (p c : ν) : Prop :=
  ∃ n ∈ nodes, n.name = c ∧ p ∈ n.parents

/-- No directed cycle. (Specification.) -/
def Acyclic (nodes : List (Node ν β)) : Prop :=
  ∀ v, ¬ Relation.TransGen (ParentOf nodes) v v

/-- The parents of every node are nodes. (Specification.) -/
def ParentsKnown (nodes : List (Node ν β)) : Prop :=
  ∀ n ∈ nodes, ∀ p ∈ n.parents, p ∈ nodes.map (·.name)

/-- Names are unique (they are the keys of a dictionary). (Specification.) -/
def UniqueNames (nodes : List (Node ν β)) : Prop := (nodes.map (·.name)).Nodup

/-- `l` lists every variable exactly once, each one after all of its parents.
(Specification.) -/
structure TopologicalOrder (nodes : List (Node ν β)) (l : List ν) : Prop where
  perm : l.Perm (nodes.map (·.name))
  parents_first : ∀ l₁ v l₂, l = l₁ ++ v :: l₂ → ∀ p, ParentOf nodes p v → p ∈ l₁

/-- The key under which the table of a node stores the row for given parent values.
(Specification.) -/
def tableKey : List β → CondKey β
  | [] => .unconditioned
  | l => .values l

/-- The row of the conditional table of `n` for the parent values `pv`. (Specification.) -/
def row (n : Node ν β) (pv : List β) : List ℚ := (dictGet n.probabilities (tableKey pv)).getD []

/-- `P(n = v | parents = pv)`, read from the table. (Specification.) -/
def cpt (n : Node ν β) (pv : List β) (v : β) : ℚ := (row n pv).getD (n.values.idxOf v) 0

/-- The chain rule: the product of the table entries selected by the assignment `a`.
(Specification.) -/
def jointProb (nodes : List (Node ν β)) (a : ν → β) : ℚ :=
  (nodes.map (fun n => cpt n (n.parents.map a) (a n.name))).prod

/-- An assignment of a declared value to every variable. (Specification.) -/
def Assignment (nodes : List (Node ν β)) (a : ν → β) : Prop := ∀ n ∈ nodes, a n.name ∈ n.values

/-- `vs` are declared values of the nodes called `ps`, in that order. (Specification.) -/
def DeclaredFor (nodes : List (Node ν β)) (ps : List ν) (vs : List β) : Prop :=
  List.Forall₂ (fun p v => ∃ n ∈ nodes, n.name = p ∧ v ∈ n.values) ps vs

/-- A well-formed network: unique names, known parents, no cycle, every variable has distinct
declared values, and its table has exactly the rows for the combinations of declared parent
values, each with one entry per value. (Specification.) -/
structure WellFormed (nodes : List (Node ν β)) : Prop where
  unique : UniqueNames nodes
  known : ParentsKnown nodes
  acyclic : Acyclic nodes
  values : ∀ n ∈ nodes, n.values.Nodup ∧ n.values ≠ []
  table_keys : ∀ n ∈ nodes, ∀ k ∈ n.probabilities.map Prod.fst,
    ∃ vs, DeclaredFor nodes n.parents vs ∧ k = tableKey vs
  table_rows : ∀ n ∈ nodes, ∀ vs, DeclaredFor nodes n.parents vs →
    tableKey vs ∈ n.probabilities.map Prod.fst ∧ (row n vs).length = n.values.length

/-- Every row of every table is a probability distribution. (Specification.) -/
def Normalised (nodes : List (Node ν β)) : Prop :=
  ∀ n ∈ nodes, ∀ vs, DeclaredFor nodes n.parents vs →
    (∀ p ∈ row n vs, 0 ≤ p) ∧ (row n vs).sum = 1

/-- Position of the value `x` in the declaration of the variable `v`. (Specification.) -/
def position (nodes : List (Node ν β)) (v : ν) (x : β) : Nat :=
  match nodes.find? (fun n => n.name = v) with
  | some n => n.values.idxOf x
  | none => 0

/-- The assignment `a` as a row of value positions, the variables sorted by name.
(Specification.) -/
def indices (nodes : List (Node ν β)) (a : ν → β) : List Int :=
  ((nodes.map (·.name)).insertionSort (· ≤ ·)).map (fun v => (position nodes v (a v) : Int))

/-- The coordinates of `l` (one per entry of `ids`) that belong to the wanted variables.
(Specification.) -/
def coordinates (ids : List Int) (wanted : Int → Prop) [DecidablePred wanted] (l : List Int) :
    List Int :=
  ((ids.zip l).filter (fun p => wanted p.1)).map Prod.snd

/-- `d` is `v` or an ancestor of `v`. (Specification.) -/
def AncestorOrSelf (nodes : List (Node ν β)) (d v : ν) : Prop :=
  Relation.ReflTransGen (ParentOf nodes) d v

/-- No ID has been assigned yet (the state of a network read from a file). (Specification.) -/
def NoIDs (nodes : List (Node ν β)) : Prop := ∀ n ∈ nodes, n.id = -1

end Mbtk.BN.Spec
