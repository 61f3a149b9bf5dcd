import Verif.Bif.Model
import Verif.BN.Spec
import Mathlib.Data.String.Basic
/-!
# Reading a BIF document gives the network it declares (C62)
-/
namespace Mbtk.Bif

/-! ## Documents and their parse trees -/

/-- The value of a property: a quoted string (the quotes are part of the text) or a plain one:
Grammar.py 22-23. -/
inductive PropValue where
  | quoted (s : String)
  | plain (s : String)
  deriving DecidableEq, Repr

/-- The characters in the file. (The texts of `property_value` in bif/Grammar.py.) -/
def PropValue.text : PropValue → String
  | .quoted s => s
  | .plain s => s

/-- The probabilities of a block: Grammar.py 42-45.  Numbers are given by their text. -/
inductive Table where
  | simple (row : List String)
  | cond (lines : List (List String × List String))
  deriving DecidableEq, Repr

/-- A block of a document: Grammar.py 13-19. -/
inductive Block where
  | network (name : String) (props : List (String × PropValue))
  | var (name count : String) (values : List String) (props : List (String × PropValue))
  | prob (name : String) (parents : List String) (table : Table) (props : List (String × PropValue))
  deriving DecidableEq, Repr

/-- `identifier`: Grammar.py 21. -/
def identT (s : String) : Obj := .tree .identifier [.tok s]

/-- `property_value`: Grammar.py 22-23. -/
def propValueT : PropValue → Obj
  | .quoted s => .tree .property_value [.tok s]
  | .plain s => .tree .property_value [.tree .string_value [.tok s]]

/-- `property`: Grammar.py 24. -/
def propT (p : String × PropValue) : Obj := .tree .property [identT p.1, propValueT p.2]

/-- `property_list`: Grammar.py 25. -/
def propsT (ps : List (String × PropValue)) : Obj := .tree .property_list (ps.map propT)

/-- `variable_identifier`: Grammar.py 28. -/
def varIdT (s : String) : Obj := .tree .variable_identifier [identT s]

/-- `variable_value_list`: Grammar.py 29 and 32. -/
def valueListT (vs : List String) : Obj := .tree .variable_value_list (vs.map identT)

/-- `variable_type_def`: Grammar.py 37-38. -/
def typeT (count : String) (vs : List String) : Obj :=
  .tree .variable_type_def [.tree .variable_value_count [.tok count], valueListT vs]

/-- `probabilities_list`: Grammar.py 33-34. -/
def rowT (row : List String) : Obj :=
  .tree .probabilities_list (row.map (fun s => .tree .probability_value [.tok s]))

/-- `variable_value_probabilities__cond_line`: Grammar.py 41 and 45. -/
def lineT (l : List String × List String) : Obj :=
  .tree .variable_value_probabilities__cond_line
    [.tree .variable_value_tuple [valueListT l.1], rowT l.2]

/-- `variable_value_probabilities`: Grammar.py 42-44. -/
def tableT : Table → Obj
  | .simple row => .tree .variable_value_probabilities
      [.tree .variable_value_probabilities__simple [rowT row]]
  | .cond lines => .tree .variable_value_probabilities
      [.tree .variable_value_probabilities__cond (lines.map lineT)]

/-- The part `("|" conditioning_variable_names)?`: Grammar.py 19, 31, 40.  Absent when there are no
parents. -/
def parentsT : List String → List Obj
  | [] => []
  | ps => [.tree .conditioning_variable_names [.tree .variable_list (ps.map varIdT)]]

/-- A block: Grammar.py 17-19. -/
def blockT : Block → Obj
  | .network name props =>
    .tree .network_block [.tree .network_name [identT name], propsT props]
  | .var name count values props => .tree .variable_block [varIdT name, typeT count values, propsT props]
  | .prob name parents table props =>
    .tree .probability_block (varIdT name :: (parentsT parents ++ [tableT table, propsT props]))

/-- The parse tree of a document: Grammar.py 10-12. -/
def docT (doc : List Block) : Obj := .tree .network_definition (doc.map blockT)

/-! ## What the transformers make of each part -/

theorem transformAll_map {α : Type} {M : Methods} {f g : α → Obj} (l : List α)
    (h : ∀ a, a ∈ l → transform M (f a) = .ok (g a)) : transformAll M (l.map f) = .ok (l.map g) := by
  induction l with
  | nil => simp [transformAll]
  | cons a l ih =>
    simp only [List.map_cons, transformAll]
    rw [h a (by simp), ih (fun a ha => h a (by simp [ha]))]

theorem transformAll_append {M : Methods} {a b a' b' : List Obj} (ha : transformAll M a = .ok a')
    (hb : transformAll M b = .ok b') : transformAll M (a ++ b) = .ok (a' ++ b') := by
  induction a generalizing a' with
  | nil => simp only [transformAll] at ha; cases ha; exact hb
  | cons x xs ih =>
    simp only [transformAll] at ha
    cases hx : transform M x with
    | error e => rw [hx] at ha; cases ha
    | ok x' =>
      rw [hx] at ha
      simp only [] at ha
      cases hxs : transformAll M xs with
      | error e => rw [hxs] at ha; cases ha
      | ok xs' =>
        rw [hxs] at ha; cases ha
        simp only [List.cons_append, transformAll]
        rw [hx, ih hxs]

/-- Strings as objects. (Models no code: a notion for statements and proofs.) -/
def strs (l : List String) : List Obj := l.map .str

theorem texts_strs (l : List String) : texts (strs l) = .ok l := by
  induction l with
  | nil => rfl
  | cons a l ih => simp only [strs, List.map_cons, texts, text] at *; rw [ih]

theorem ident_basic (s : String) : transform basic (identT s) = .ok (.str s) := by
  simp [identT, transform, transformAll, basic, cbStr, item, pyStr]

theorem varId_basic (s : String) :
    transform basic (varIdT s) = .ok (.tree .variable_identifier [.str s]) := by
  simp [varIdT, transform, transformAll, ident_basic, basic]

theorem propValue_basic (v : PropValue) : transform basic (propValueT v) = .ok (.str v.text) := by
  cases v <;> simp [propValueT, transform, transformAll, basic, cbStr, item, pyStr, PropValue.text]

theorem prop_basic (p : String × PropValue) :
    transform basic (propT p) = .ok (.tup [.str p.1, .str p.2.text]) := by
  simp [propT, transform, transformAll, ident_basic, propValue_basic, basic, cbProperty, item]

/-- The properties of a block: the last one of a name counts. (Specification.) -/
def propsOf (ps : List (String × PropValue)) : List (PKey × Obj) :=
  ps.foldl (fun d p => dictSet d (.str p.1) (.str p.2.text)) []

theorem dictFrom_props (ps : List (String × PropValue)) (d : List (PKey × Obj)) :
    dictFrom (ps.map (fun p => .tup [.str p.1, .str p.2.text])) d =
      .ok (ps.foldl (fun d p => dictSet d (.str p.1) (.str p.2.text)) d) := by
  induction ps generalizing d with
  | nil => rfl
  | cons p ps ih => simp only [List.map_cons, dictFrom, asKey, List.foldl_cons]; exact ih _

/-- `[('properties', {...})]` What bif/Transformers.py 34-35 returns. -/
def propsObj (ps : List (String × PropValue)) : Obj := .list [.tup [.str "properties", .dict (propsOf ps)]]

theorem props_basic (ps : List (String × PropValue)) : transform basic (propsT ps) = .ok (propsObj ps) := by
  rw [propsT, transform, transformAll_map _ (fun p _ => prop_basic p)]
  simp only [basic, cbPropertyList]
  rw [dictFrom_props]
  rfl

theorem valueList_basic (vs : List String) :
    transform basic (valueListT vs) = .ok (.tree .variable_value_list (strs vs)) := by
  rw [valueListT, transform, transformAll_map _ (fun p _ => ident_basic p)]
  rfl

theorem row_basic (row : List String) : transform basic (rowT row) = .ok (rowT row) := by
  rw [rowT, transform, transformAll_map _ (fun p _ => by
    simp only [transform, transformAll, basic]; rfl)]
  rfl

/-- The tree of a line after the first transformer. After bif/Transformers.py 16-35. -/
def lineT1 (l : List String × List String) : Obj :=
  .tree .variable_value_probabilities__cond_line
    [.tree .variable_value_tuple [.tree .variable_value_list (strs l.1)], rowT l.2]

theorem line_basic (l : List String × List String) : transform basic (lineT l) = .ok (lineT1 l) := by
  simp [lineT, lineT1, transform, transformAll, basic, valueList_basic, row_basic]

/-- The tree of a table after the first transformer. After bif/Transformers.py 16-35. -/
def tableT1 : Table → Obj
  | .simple row => .tree .variable_value_probabilities
      [.tree .variable_value_probabilities__simple [rowT row]]
  | .cond lines => .tree .variable_value_probabilities
      [.tree .variable_value_probabilities__cond (lines.map lineT1)]

theorem table_basic (t : Table) : transform basic (tableT t) = .ok (tableT1 t) := by
  cases t with
  | simple row => simp [tableT, tableT1, transform, transformAll, basic, row_basic]
  | cond lines =>
    simp only [tableT, tableT1, transform, transformAll]
    rw [transformAll_map _ (fun l _ => line_basic l)]
    simp [basic]

/-- The parents after the first transformer. After bif/Transformers.py 16-35. -/
def parentsT1 : List String → List Obj
  | [] => []
  | ps => [.tree .conditioning_variable_names
      [.tree .variable_list (ps.map (fun s => .tree .variable_identifier [.str s]))]]

theorem parents_basic (ps : List String) : transformAll basic (parentsT ps) = .ok (parentsT1 ps) := by
  cases ps with
  | nil => simp [parentsT, parentsT1, transformAll]
  | cons p ps =>
    simp only [parentsT, parentsT1, transform, transformAll]
    rw [transformAll_map _ (fun l _ => varId_basic l)]
    simp [basic]

/-- A block after the first transformer. After bif/Transformers.py 16-35. -/
def blockT1 : Block → Obj
  | .network name props => .tree .network_block [.tree .network_name [.str name], propsObj props]
  | .var name count values props => .tree .variable_block
      [.tree .variable_identifier [.str name],
        .tree .variable_type_def [.tree .variable_value_count [.tok count],
          .tree .variable_value_list (strs values)], propsObj props]
  | .prob name parents table props => .tree .probability_block
      (.tree .variable_identifier [.str name] :: (parentsT1 parents ++ [tableT1 table, propsObj props]))

theorem block_basic (b : Block) : transform basic (blockT b) = .ok (blockT1 b) := by
  cases b with
  | network name props =>
    simp [blockT, blockT1, transform, transformAll, basic, ident_basic, props_basic]
  | var name count values props =>
    simp [blockT, blockT1, transform, transformAll, basic, varId_basic, props_basic, typeT,
      valueList_basic]
  | prob name parents table props =>
    simp only [blockT, blockT1, transform, transformAll, varId_basic]
    rw [transformAll_append (parents_basic parents) (b' := [tableT1 table, propsObj props])
      (by simp [transformAll, table_basic, props_basic])]
    simp [basic]

/-- The parents after the second transformer. After bif/Transformers.py 39-66. -/
def parentsT2 : List String → List Obj
  | [] => []
  | ps => [.tree .conditioning_variable_names [.list (strs ps)]]

theorem firstSeconds_named (ps : List String) :
    firstSeconds (ps.map (fun s => .list [.tup [.str "variable_name", .str s]])) = .ok (strs ps) := by
  induction ps with
  | nil => rfl
  | cons p ps ih =>
    simp only [List.map_cons, firstSeconds]
    rw [ih]
    rfl

theorem varId_variables (intOf : String → Int) (s : String) :
    transform (variables' intOf) (.tree .variable_identifier [.str s]) =
      .ok (.list [.tup [.str "variable_name", .str s]]) := by
  simp [transform, transformAll, variables', cbNamed, item, pyStr]

theorem parents_variables (intOf : String → Int) (ps : List String) :
    transformAll (variables' intOf) (parentsT1 ps) = .ok (parentsT2 ps) := by
  cases ps with
  | nil => simp [parentsT1, parentsT2, transformAll]
  | cons p ps =>
    simp only [parentsT1, parentsT2, transform, transformAll]
    rw [transformAll_map _ (fun l _ => varId_variables intOf l)]
    simp only [variables', cbVariableList]
    rw [firstSeconds_named]

/-- The tree of a line after the second transformer. After bif/Transformers.py 39-66. -/
def lineT2 (l : List String × List String) : Obj :=
  .tree .variable_value_probabilities__cond_line
    [.tree .variable_value_tuple [.tup [.str "value_list", .list (strs l.1)]], rowT l.2]

theorem transformAll_strs (M : Methods) (l : List String) : transformAll M (strs l) = .ok (strs l) :=
  transformAll_map (f := Obj.str) (g := Obj.str) l (fun _ _ => by simp [transform])

theorem row_variables (intOf : String → Int) (row : List String) :
    transform (variables' intOf) (rowT row) = .ok (rowT row) := by
  rw [rowT, transform, transformAll_map _ (fun p _ => by
    simp only [transform, transformAll, variables']; rfl)]
  rfl

theorem line_variables (intOf : String → Int) (l : List String × List String) :
    transform (variables' intOf) (lineT1 l) = .ok (lineT2 l) := by
  simp [lineT1, lineT2, transform, transformAll, variables', transformAll_strs, row_variables,
    cbValueList]

/-- The tree of a table after the second transformer. After bif/Transformers.py 39-66. -/
def tableT2 : Table → Obj
  | .simple row => .tree .variable_value_probabilities
      [.tree .variable_value_probabilities__simple [rowT row]]
  | .cond lines => .tree .variable_value_probabilities
      [.tree .variable_value_probabilities__cond (lines.map lineT2)]

theorem table_variables (intOf : String → Int) (t : Table) :
    transform (variables' intOf) (tableT1 t) = .ok (tableT2 t) := by
  cases t with
  | simple row => simp [tableT1, tableT2, transform, transformAll, variables', row_variables]
  | cond lines =>
    simp only [tableT1, tableT2, transform, transformAll]
    rw [transformAll_map _ (fun l _ => line_variables intOf l)]
    simp [variables']

/-- A block after the second transformer. After bif/Transformers.py 39-66. -/
def blockT2 : Block → Obj
  | .network name props => .tree .network_block [.tree .network_name [.str name], propsObj props]
  | .var name _ values props => .node (.str name) (.list (strs values)) (.dict (propsOf props))
  | .prob name parents table props => .tree .probability_block
      (.list [.tup [.str "variable_name", .str name]] ::
        (parentsT2 parents ++ [tableT2 table, propsObj props]))

theorem props_any (M : Methods) (ps : List (String × PropValue)) :
    transform M (propsObj ps) = .ok (propsObj ps) := by simp [propsObj, transform]

theorem block_variables (intOf : String → Int) (b : Block) :
    transform (variables' intOf) (blockT1 b) = .ok (blockT2 b) := by
  cases b with
  | network name props =>
    simp [blockT1, blockT2, transform, transformAll, variables', props_any]
  | var name count values props =>
    simp [blockT1, blockT2, transform, transformAll, variables', transformAll_strs,
      cbNamed, cbValueList, cbValueCount, cbVariableBlock, item, pyStr, text, attributes, concatAll,
      elements, propsObj, dictFrom, asKey, dictSet, attr, dictGet, bind, Except.bind]
  | prob name parents table props =>
    simp only [blockT1, blockT2, transform, transformAll]
    have : transformAll (variables' intOf) [Obj.str name] = .ok [Obj.str name] := by
      simp [transformAll, transform]
    rw [transformAll_append (parents_variables intOf parents) (b' := [tableT2 table, propsObj props])
      (by simp [transformAll, table_variables, props_any])]
    simp [variables', cbNamed, item, pyStr]

/-! ## The third and fourth transformer -/

theorem dictSet_embed {κ ν κ' ν' : Type} [DecidableEq κ] [DecidableEq κ'] (f : κ → κ')
    (hf : Function.Injective f) (g : κ → ν → ν') (d : List (κ × ν)) (k : κ) (v : ν) :
    dictSet (d.map (fun p => (f p.1, g p.1 p.2))) (f k) (g k v) =
      (dictSet d k v).map (fun p => (f p.1, g p.1 p.2)) := by
  induction d with
  | nil => rfl
  | cons p d ih =>
    obtain ⟨a, b⟩ := p
    by_cases h : a = k
    · subst h; simp [dictSet]
    · have : f a ≠ f k := fun hc => h (hf hc)
      simp [dictSet, h, this, ih]

theorem dictGet_embed {κ ν κ' ν' : Type} [DecidableEq κ] [DecidableEq κ'] (f : κ → κ')
    (hf : Function.Injective f) (g : κ → ν → ν') (d : List (κ × ν)) (k : κ) :
    dictGet (d.map (fun p => (f p.1, g p.1 p.2))) (f k) = (dictGet d k).map (g k) := by
  induction d with
  | nil => rfl
  | cons p d ih =>
    obtain ⟨a, b⟩ := p
    by_cases h : a = k
    · subst h; simp [dictGet]
    · have : f a ≠ f k := fun hc => h (hf hc)
      simp [dictGet, h, this, ih]

/-- `dict(pairs)` bif/Transformers.py 100. -/
def pyDict {κ ν : Type} [DecidableEq κ] (l : List (κ × ν)) : List (κ × ν) :=
  l.foldl (fun d p => dictSet d p.1 p.2) []

theorem foldl_embed {α κ ν κ' ν' : Type} [DecidableEq κ] [DecidableEq κ'] (f : κ → κ')
    (hf : Function.Injective f) (g : κ → ν → ν') (l : List α) (key : α → κ) (val : α → ν)
    (d : List (κ × ν)) :
    l.foldl (fun d a => dictSet d (f (key a)) (g (key a) (val a))) (d.map (fun p => (f p.1, g p.1 p.2))) =
      (l.foldl (fun d a => dictSet d (key a) (val a)) d).map (fun p => (f p.1, g p.1 p.2)) := by
  induction l generalizing d with
  | nil => rfl
  | cons a l ih => simp only [List.foldl_cons]; rw [dictSet_embed f hf g]; exact ih _

/-- Properties as a dictionary of strings. bif/Transformers.py 34-35. -/
def propsDict (ps : List (String × PropValue)) : List (String × String) :=
  pyDict (ps.map (fun p => (p.1, p.2.text)))

/-- A dictionary of strings as an object.
(Models no code: a notion for statements and proofs.) -/
def strDict (d : List (String × String)) : List (PKey × Obj) := d.map (fun p => (.str p.1, .str p.2))

theorem pkeyStr_inj : Function.Injective PKey.str := fun _ _ h => by cases h; rfl

theorem propsOf_eq (ps : List (String × PropValue)) : propsOf ps = strDict (propsDict ps) := by
  have h := foldl_embed PKey.str pkeyStr_inj (fun _ (v : String) => Obj.str v) ps
    (fun p => p.1) (fun p => p.2.text) []
  unfold propsOf strDict propsDict pyDict
  rw [List.foldl_map]
  exact h

open Mbtk.BN (CondKey)

/-- The rows of a table, as numbers; of several lines with the same values the last one counts, at
the place of the first. bif/Transformers.py 99-100. -/
def tableDict (val : String → ℚ) : Table → List (CondKey String × List ℚ)
  | .simple row => [(.unconditioned, row.map val)]
  | .cond lines => pyDict (lines.map (fun l => (.values l.1, l.2.map val)))

/-- A key of a table as an object. bif/Transformers.py 84, 92. -/
def condKey : CondKey String → PKey
  | .unconditioned => .str "<unconditioned>"
  | .values l => .tup l

theorem condKey_inj : Function.Injective condKey := by
  intro a b h
  cases a <;> cases b <;> simp_all [condKey]

/-- A list of numbers as an object. bif/Transformers.py 72-76. -/
def numList (r : List ℚ) : Obj := .list (r.map .num)

/-- A table as an object. bif/Transformers.py 99-100. -/
def tableObj (t : List (CondKey String × List ℚ)) : List (PKey × Obj) :=
  t.map (fun p => (condKey p.1, numList p.2))

theorem row_probabilities (val : String → ℚ) (row : List String) :
    transform (probabilities' val) (rowT row) = .ok (numList (row.map val)) := by
  rw [rowT, transform, transformAll_map (g := fun s => .num (val s)) _ (fun p _ => by
    simp [transform, transformAll, probabilities', cbProbability, item, text])]
  simp [probabilities', numList]

theorem line_probabilities (val : String → ℚ) (l : List String × List String) :
    transform (probabilities' val) (lineT2 l) =
      .ok (.tup [.tup (strs l.1), numList (l.2.map val)]) := by
  simp only [lineT2, transform, transformAll, row_probabilities]
  rfl

theorem dictFrom_lines (val : String → ℚ) (lines : List (List String × List String))
    (d : List (PKey × Obj)) :
    dictFrom (lines.map (fun l => .tup [.tup (strs l.1), numList (l.2.map val)])) d =
      .ok (lines.foldl (fun d l => dictSet d (.tup l.1) (numList (l.2.map val))) d) := by
  induction lines generalizing d with
  | nil => rfl
  | cons p ps ih =>
    simp only [List.map_cons, dictFrom, asKey, List.foldl_cons, texts_strs]; exact ih _

/-- `[('probabilities', {...})]` What bif/Transformers.py 99-100 returns. -/
def probsObj (val : String → ℚ) (t : Table) : Obj :=
  .list [.tup [.str "probabilities", .dict (tableObj (tableDict val t))]]

theorem table_probabilities (val : String → ℚ) (t : Table) :
    transform (probabilities' val) (tableT2 t) = .ok (probsObj val t) := by
  cases t with
  | simple row =>
    simp only [tableT2, transform, transformAll, row_probabilities]
    rfl
  | cond lines =>
    simp only [tableT2, transform, transformAll]
    rw [transformAll_map _ (fun l _ => line_probabilities val l)]
    simp only [probabilities', cbProbabilities, item, List.getElem?_cons_zero]
    show (dictFrom (lines.map (fun l => .tup [.tup (strs l.1), numList (l.2.map val)])) [] >>= _) = _
    rw [dictFrom_lines]
    show Except.ok (Obj.list [.tup [.str "probabilities", .dict _]]) = _
    simp only [probsObj, tableDict, tableObj, pyDict, Except.ok.injEq, Obj.list.injEq, List.cons.injEq,
      and_true, Obj.tup.injEq, true_and, Obj.dict.injEq]
    rw [List.foldl_map]
    exact foldl_embed condKey condKey_inj (fun _ v => numList v) lines (fun l => .values l.1)
      (fun l => l.2.map val) []

/-- The parents after the third transformer. After bif/Transformers.py 70-110. -/
def parentsT3 : List String → List Obj
  | [] => []
  | ps => [.list [.tup [.str "conditioning_variable_names", .list (strs ps)]]]

theorem parents_probabilities (val : String → ℚ) (ps : List String) :
    transformAll (probabilities' val) (parentsT2 ps) = .ok (parentsT3 ps) := by
  cases ps with
  | nil => simp [parentsT2, parentsT3, transformAll]
  | cons p ps =>
    simp [parentsT2, parentsT3, transformAll, transform, probabilities', cbLabelled, item]

/-- A block after the third transformer. After bif/Transformers.py 70-110. -/
def blockT3 (val : String → ℚ) : Block → Obj
  | .network name props => .tree .network_block [.tree .network_name [.str name], propsObj props]
  | .var name _ values props => .node (.str name) (.list (strs values)) (.dict (propsOf props))
  | .prob name parents table props =>
    .pd (.str name) (.dict (tableObj (tableDict val table))) (fromKeys parents []) (.dict (propsOf props))

theorem block_probabilities (val : String → ℚ) (b : Block) :
    transform (probabilities' val) (blockT2 b) = .ok (blockT3 val b) := by
  cases b with
  | network name props => simp [blockT2, blockT3, transform, transformAll, probabilities', props_any]
  | var name count values props => simp [blockT2, blockT3, transform]
  | prob name parents table props =>
    simp only [blockT2, transform, transformAll]
    rw [transformAll_append (parents_probabilities val parents) (b' := [probsObj val table, propsObj props])
      (by simp [transformAll, table_probabilities, props_any])]
    simp only [probabilities', cbProbabilityBlock]
    cases parents with
    | nil =>
      simp [parentsT3, attributes, concatAll, elements, propsObj, probsObj, dictFrom, asKey, dictSet, attr,
        dictGet, conditioningOf, fromKeys, blockT3, bind, Except.bind]
    | cons p ps =>
      have ht := texts_strs (p :: ps)
      simp [parentsT3, attributes, concatAll, elements, propsObj, probsObj, dictFrom, asKey, dictSet, attr,
        dictGet, conditioningOf, blockT3, bind, Except.bind, ht]

/-- A block when `network_definition` is called. After bif/Transformers.py 114-122. -/
def blockT4 (val : String → ℚ) : Block → Obj
  | .network name props =>
    .dict [(.str "network_name", .str name), (.str "properties", .dict (propsOf props))]
  | .var name _ values props => .node (.str name) (.list (strs values)) (.dict (propsOf props))
  | .prob name parents table props =>
    .pd (.str name) (.dict (tableObj (tableDict val table))) (fromKeys parents []) (.dict (propsOf props))

theorem block_network (val : String → ℚ) (b : Block) :
    transform network (blockT3 val b) = .ok (blockT4 val b) := by
  cases b with
  | network name props =>
    simp [blockT3, blockT4, transform, transformAll, network, cbNamed, item, pyStr, propsObj,
      cbNetworkBlock, attributes, concatAll, elements, dictFrom, asKey, dictSet]
  | var name count values props => simp [blockT3, blockT4, transform]
  | prob name parents table props => simp [blockT3, blockT4, transform]

/-- The chain of transformers, up to the callback that builds the network. -/
theorem chain_doc (intOf : String → Int) (val : String → ℚ) (doc : List Block) :
    chain intOf val (docT doc) = cbNetwork (doc.map (blockT4 val)) := by
  have h1 : transform basic (docT doc) = .ok (.tree .network_definition (doc.map blockT1)) := by
    rw [docT, transform, transformAll_map _ (fun b _ => block_basic b)]
    rfl
  have h2 : transform (variables' intOf) (.tree .network_definition (doc.map blockT1)) =
      .ok (.tree .network_definition (doc.map blockT2)) := by
    rw [transform, transformAll_map _ (fun b _ => block_variables intOf b)]
    rfl
  have h3 : transform (probabilities' val) (.tree .network_definition (doc.map blockT2)) =
      .ok (.tree .network_definition (doc.map (blockT3 val))) := by
    rw [transform, transformAll_map _ (fun b _ => block_probabilities val b)]
    rfl
  rw [chain, h1]
  simp only []
  rw [h2]
  simp only []
  rw [h3]
  simp only []
  rw [transform, transformAll_map _ (fun b _ => block_network val b)]
  rfl

end Mbtk.Bif
