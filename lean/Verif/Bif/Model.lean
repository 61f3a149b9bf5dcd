import Verif.Py
import Mathlib.Data.Rat.Defs
import Mathlib.Data.List.Basic
/-!
# Model of the transformation of BIF parse trees (`mbtk/utilities/bif/Transformers.py`)

A parse tree is what lark builds from the grammar (Grammar.py 1-46): a tree node carries the name of
a rule, tokens of unnamed keywords are dropped, rules that begin with `?` are replaced by their only
child.  Python objects that occur during the transformation are values of `Obj`.  `float()` and
`int()` are arbitrary functions of the text (a `NUMBER` or `INT` token always converts).  lark wraps an exception raised in a callback into a
`VisitError`; the model keeps the exception itself.
-/
namespace Mbtk.Bif

/-- The rules of the grammar that appear in trees: Grammar.py 12-45. -/
inductive Rule where
  | network_definition | network_block | variable_block | probability_block
  | identifier | string_value | property_value | property | property_list | network_name
  | variable_identifier | variable_list | variable_value_list | probability_value
  | probabilities_list | variable_value_count | variable_type_def | conditioning_variable_names
  | variable_value_tuple | variable_value_probabilities | variable_value_probabilities__simple
  | variable_value_probabilities__cond | variable_value_probabilities__cond_line
  deriving DecidableEq, Repr

/-- Keys of dictionaries: strings and tuples of strings. bif/Transformers.py 30-35, 84-100. -/
inductive PKey where
  | str (s : String)
  | tup (l : List String)
  deriving DecidableEq, Repr

/-- Python objects.  A `VariableNode` and a `ProbabilityDistributionOfVariableNode` are given by the
attributes that the transformers set; a network by its name, its properties and its nodes.
bif/Transformers.py 16-146; `lark` trees and tokens. -/
inductive Obj where
  /-- a lark `Token` -/
  | tok (s : String)
  | str (s : String)
  | int (n : Int)
  | num (q : ℚ)
  | tup (l : List Obj)
  | list (l : List Obj)
  | dict (d : List (PKey × Obj))
  /-- `VariableNode`: name, `values`, `properties` -/
  | node (name : Obj) (values properties : Obj)
  /-- `ProbabilityDistributionOfVariableNode`: variable name, `probabilities`, keys of
  `conditioning_variable_nodes`, `properties` -/
  | pd (name : Obj) (probabilities : Obj) (conditioning : List String) (properties : Obj)
  /-- a lark `Tree` -/
  | tree (r : Rule) (children : List Obj)
  /-- a `BayesianNetwork`: name, properties, `variable_nodes` with the `probdist` of each -/
  | net (name properties : Obj) (nodes : List (String × Obj × Option Obj))

/-- What the callbacks of one transformer class do; `none` if the class has no method for the
rule. bif/Transformers.py 16-146. -/
abbrev Methods := Rule → Option (List Obj → Except Err Obj)

mutual
/-- `Transformer.transform`: the children first, from left to right; then the callback for the rule,
or a new tree with the transformed children if there is none.  Anything that is not a tree is left
alone. `lark.Transformer`, as used by bif/Transformers.py 7-12. -/
def transform (M : Methods) : Obj → Except Err Obj
  | .tree r children => match transformAll M children with
    | .error e => .error e
    | .ok cs => match M r with
      | some f => f cs
      | none => .ok (.tree r cs)
  | .tok s => .ok (.tok s)
  | .str s => .ok (.str s)
  | .int n => .ok (.int n)
  | .num q => .ok (.num q)
  | .tup l => .ok (.tup l)
  | .list l => .ok (.list l)
  | .dict d => .ok (.dict d)
  | .node a b c => .ok (.node a b c)
  | .pd a b c d => .ok (.pd a b c d)
  | .net a b c => .ok (.net a b c)
/-- The children of a tree. `lark.Transformer`, as used by bif/Transformers.py 7-12. -/
def transformAll (M : Methods) : List Obj → Except Err (List Obj)
  | [] => .ok []
  | c :: cs => match transform M c with
    | .error e => .error e
    | .ok c' => match transformAll M cs with
      | .error e => .error e
      | .ok cs' => .ok (c' :: cs')
end

/-! ## Helpers for the callbacks -/

/-- `items[i]` on the list of children. bif/Transformers.py 18-35, 75-96. -/
def item (items : List Obj) (i : Nat) : Except Err Obj :=
  match items[i]? with
  | some x => .ok x
  | none => .error .indexError

/-- `x[i]` for a list or a tuple. bif/Transformers.py 66, 80. -/
def index : Obj → Nat → Except Err Obj
  | .tup l, i => item l i
  | .list l, i => item l i
  | _, _ => .error .typeError

/-- `str(x)`.  Only needed for tokens and strings; anything else is an error in the model.
bif/Transformers.py 18-27, 42, 117. -/
def pyStr : Obj → Except Err Obj
  | .tok s => .ok (.str s)
  | .str s => .ok (.str s)
  | _ => .error (.custom "str of another object")

/-- The text of a string or token. bif/Transformers.py 42, 59, 105. -/
def text : Obj → Except Err String
  | .tok s => .ok s
  | .str s => .ok s
  | _ => .error .typeError

/-- The texts of several strings. bif/Transformers.py 92, 108. -/
def texts : List Obj → Except Err (List String)
  | [] => .ok []
  | x :: xs => match text x with
    | .error e => .error e
    | .ok s => match texts xs with
      | .error e => .error e
      | .ok ss => .ok (s :: ss)

/-- Hashing a key. bif/Transformers.py 35, 58, 100, 104. -/
def asKey : Obj → Except Err PKey
  | .tok s => .ok (.str s)
  | .str s => .ok (.str s)
  | .tup l => match texts l with
    | .error e => .error e
    | .ok ss => .ok (.tup ss)
  | _ => .error .typeError

/-- The elements of a list or a tuple. bif/Transformers.py 58, 104, 121. -/
def elements : Obj → Except Err (List Obj)
  | .tup l => .ok l
  | .list l => .ok l
  | _ => .error .typeError

/-- `dict(pairs)`: pairs from left to right, a later value replaces an earlier one.
bif/Transformers.py 35, 58, 100, 104, 121. -/
def dictFrom : List Obj → List (PKey × Obj) → Except Err (List (PKey × Obj))
  | [], d => .ok d
  | .tup [k, v] :: rest, d => match asKey k with
    | .error e => .error e
    | .ok k => dictFrom rest (dictSet d k v)
  | _ :: _, _ => .error .valueError

/-- `[item for sublist in items for item in sublist]` bif/Transformers.py 58, 104, 121. -/
def concatAll : List Obj → Except Err (List Obj)
  | [] => .ok []
  | x :: xs => match elements x with
    | .error e => .error e
    | .ok l => match concatAll xs with
      | .error e => .error e
      | .ok rest => .ok (l ++ rest)

/-- `dict([item for sublist in items for item in sublist])`: Transformers.py 58, 104, 121. -/
def attributes (items : List Obj) : Except Err (List (PKey × Obj)) :=
  match concatAll items with
  | .error e => .error e
  | .ok l => dictFrom l []

/-- `attributes[name]` bif/Transformers.py 59-61, 105-109. -/
def attr (d : List (PKey × Obj)) (name : String) : Except Err Obj :=
  match dictGet d (.str name) with
  | some v => .ok v
  | none => .error .keyError

/-! ## The four transformer classes -/

/-- `identifier`, `string_value`, `property_value`: Transformers.py 18-27. -/
def cbStr (items : List Obj) : Except Err Obj :=
  match item items 0 with
  | .error e => .error e
  | .ok x => pyStr x

/-- `property`: Transformers.py 30-31. -/
def cbProperty (items : List Obj) : Except Err Obj :=
  match item items 0, item items 1 with
  | .ok a, .ok b => .ok (.tup [a, b])
  | .error e, _ => .error e
  | _, .error e => .error e

/-- `property_list`: Transformers.py 34-35. -/
def cbPropertyList (items : List Obj) : Except Err Obj :=
  match dictFrom items [] with
  | .error e => .error e
  | .ok d => .ok (.list [.tup [.str "properties", .dict d]])

/-- `BIFTransformerBasic`: Transformers.py 16-35. -/
def basic : Methods
  | .identifier => some cbStr
  | .string_value => some cbStr
  | .property_value => some cbStr
  | .property => some cbProperty
  | .property_list => some cbPropertyList
  | _ => none

/-- `[(label, str(items[0]))]`: Transformers.py 41-42 and 116-117. -/
def cbNamed (label : String) (items : List Obj) : Except Err Obj :=
  match item items 0 with
  | .error e => .error e
  | .ok x => match pyStr x with
    | .error e => .error e
    | .ok s => .ok (.list [.tup [.str label, s]])

/-- `variable_value_count`: Transformers.py 45-46. -/
def cbValueCount (intOf : String → Int) (items : List Obj) : Except Err Obj :=
  match item items 0 with
  | .error e => .error e
  | .ok x => match text x with
    | .error e => .error e
    | .ok s => .ok (.tup [.str "value_count", .int (intOf s)])

/-- `variable_value_list`: Transformers.py 49-50. -/
def cbValueList (items : List Obj) : Except Err Obj := .ok (.tup [.str "value_list", .list items])

/-- `variable_block`: Transformers.py 57-62. -/
def cbVariableBlock (items : List Obj) : Except Err Obj := do
  let d ← attributes items
  let name ← attr d "variable_name"
  let values ← attr d "value_list"
  let properties ← attr d "properties"
  .ok (.node name values properties)

/-- `[item[0][1] for item in items]`: Transformers.py 65-66. -/
def firstSeconds : List Obj → Except Err (List Obj)
  | [] => .ok []
  | x :: xs => do
    let p ← index x 0
    let v ← index p 1
    let rest ← firstSeconds xs
    .ok (v :: rest)

/-- `variable_list`: Transformers.py 65-66. -/
def cbVariableList (items : List Obj) : Except Err Obj :=
  match firstSeconds items with
  | .error e => .error e
  | .ok l => .ok (.list l)

/-- `BIFTransformerVariables`: Transformers.py 39-66. -/
def variables' (intOf : String → Int) : Methods
  | .variable_identifier => some (cbNamed "variable_name")
  | .variable_value_count => some (cbValueCount intOf)
  | .variable_value_list => some cbValueList
  | .variable_type_def => some (fun items => .ok (.list items))
  | .variable_block => some cbVariableBlock
  | .variable_list => some cbVariableList
  | _ => none

/-- `probability_value`: Transformers.py 75-76. -/
def cbProbability (floatOf : String → ℚ) (items : List Obj) : Except Err Obj :=
  match item items 0 with
  | .error e => .error e
  | .ok x => match text x with
    | .error e => .error e
    | .ok s => .ok (.num (floatOf s))

/-- `variable_value_tuple`: Transformers.py 79-80. -/
def cbValueTuple (items : List Obj) : Except Err Obj :=
  match item items 0 with
  | .error e => .error e
  | .ok x => index x 1

/-- `[(label, items[0])]`: Transformers.py 83-84 and 95-96. -/
def cbLabelled (label : String) (items : List Obj) : Except Err Obj :=
  match item items 0 with
  | .error e => .error e
  | .ok x => .ok (.list [.tup [.str label, x]])

/-- `variable_value_probabilities__cond_line`: Transformers.py 91-92. -/
def cbCondLine (items : List Obj) : Except Err Obj := do
  let a ← item items 0
  let l ← elements a
  let b ← item items 1
  .ok (.tup [.tup l, b])

/-- `variable_value_probabilities`: Transformers.py 99-100. -/
def cbProbabilities (items : List Obj) : Except Err Obj := do
  let x ← item items 0
  let l ← elements x
  let d ← dictFrom l []
  .ok (.list [.tup [.str "probabilities", .dict d]])

/-- `OrderedDict.fromkeys(names)`, the keys. bif/Transformers.py 108. -/
def fromKeys : List String → List String → List String
  | [], acc => acc
  | x :: xs, acc => if x ∈ acc then fromKeys xs acc else fromKeys xs (acc ++ [x])

/-- `attributes.get('conditioning_variable_names', [])`: Transformers.py 107. -/
def conditioningOf (d : List (PKey × Obj)) : Except Err (List String) :=
  match dictGet d (.str "conditioning_variable_names") with
  | none => .ok []
  | some x => match elements x with
    | .error e => .error e
    | .ok l => texts l

/-- `probability_block`: Transformers.py 103-110. -/
def cbProbabilityBlock (items : List Obj) : Except Err Obj := do
  let d ← attributes items
  let name ← attr d "variable_name"
  let probabilities ← attr d "probabilities"
  let cond ← conditioningOf d
  let properties ← attr d "properties"
  .ok (.pd name probabilities (fromKeys cond []) properties)

/-- `BIFTransformerProbabilities`: Transformers.py 70-110. -/
def probabilities' (floatOf : String → ℚ) : Methods
  | .probabilities_list => some (fun items => .ok (.list items))
  | .probability_value => some (cbProbability floatOf)
  | .variable_value_tuple => some cbValueTuple
  | .variable_value_probabilities__simple => some (cbLabelled "<unconditioned>")
  | .variable_value_probabilities__cond => some (fun items => .ok (.list items))
  | .variable_value_probabilities__cond_line => some cbCondLine
  | .conditioning_variable_names => some (cbLabelled "conditioning_variable_names")
  | .variable_value_probabilities => some cbProbabilities
  | .probability_block => some cbProbabilityBlock
  | _ => none

/-- `network_block`: Transformers.py 120-122. -/
def cbNetworkBlock (items : List Obj) : Except Err Obj :=
  match attributes items with
  | .error e => .error e
  | .ok d => .ok (.dict d)

/-- The network under construction: name, properties, `variable_nodes` with the `probdist` of each.
bif/Transformers.py 125-146. -/
structure Bn where
  name : Obj
  properties : Obj
  nodes : List (String × Obj × Option Obj)

/-- The first loop of `network_definition`: Transformers.py 128-133. -/
def gather : List Obj → Bn → Except Err Bn
  | [], bn => .ok bn
  | .dict d :: rest, bn => match attr d "network_name" with
    | .error e => .error e
    | .ok n => gather rest ⟨n, (dictGet d (.str "properties")).getD (.dict []), bn.nodes⟩
  | .node name values properties :: rest, bn => match text name with
    | .error e => .error e
    | .ok s => gather rest { bn with nodes := dictSet bn.nodes s (.node name values properties, none) }
  | _ :: rest, bn => gather rest bn

/-- `for varname in ...: ... = bn.variable_nodes[varname]`: Transformers.py 143-144.  References to
nodes are by name, so only the check that they exist remains. -/
def allKnown (nodes : List (String × Obj × Option Obj)) : List String → Except Err Unit
  | [] => .ok ()
  | p :: ps => match dictGet nodes p with
    | none => .error .keyError
    | some _ => allKnown nodes ps

/-- The second loop: Transformers.py 136-144. -/
def attach : List Obj → List (String × Obj × Option Obj) →
    Except Err (List (String × Obj × Option Obj))
  | [], nodes => .ok nodes
  | .pd name probabilities cond properties :: rest, nodes => match text name with
    | .error e => .error e
    | .ok s => match dictGet nodes s with
      | none => .error .keyError
      | some (node, _) =>
        match allKnown (dictSet nodes s (node, some (.pd name probabilities cond properties))) cond with
        | .error e => .error e
        | .ok () => attach rest (dictSet nodes s (node, some (.pd name probabilities cond properties)))
  | _ :: rest, nodes => attach rest nodes

/-- `network_definition`: Transformers.py 125-146. -/
def cbNetwork (items : List Obj) : Except Err Obj :=
  match gather items ⟨.str "", .dict [], []⟩ with
  | .error e => .error e
  | .ok bn => match attach items bn.nodes with
    | .error e => .error e
    | .ok nodes => .ok (.net bn.name bn.properties nodes)

/-- `BIFTransformerNetwork`: Transformers.py 114-146. -/
def network : Methods
  | .network_name => some (cbNamed "network_name")
  | .network_block => some cbNetworkBlock
  | .network_definition => some cbNetwork
  | _ => none

/-- `get_transformer_chain().transform(tree)`: Transformers.py 7-12, BayesianNetwork.py 784. -/
def chain (intOf : String → Int) (floatOf : String → ℚ) (t : Obj) : Except Err Obj :=
  match transform basic t with
  | .error e => .error e
  | .ok t => match transform (variables' intOf) t with
    | .error e => .error e
    | .ok t => match transform (probabilities' floatOf) t with
      | .error e => .error e
      | .ok t => transform network t

end Mbtk.Bif
