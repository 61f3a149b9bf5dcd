import Verif.Bif.Doc
import Mathlib.Tactic.Tauto
/-!
# Reading a BIF document gives the network it declares (C62): statements
-/
namespace Mbtk.Bif
open Mbtk.BN (CondKey)

/-! ## Networks as read -/

/-- A `VariableNode` as read: its values and properties.
What bif/Transformers.py 57-62 makes. -/
structure VarDecl where
  values : List String
  props : List (String × String)
  deriving DecidableEq, Repr

/-- A `ProbabilityDistributionOfVariableNode` as read: the keys of `conditioning_variable_nodes`,
`probabilities`, `properties`. What bif/Transformers.py 103-110 makes. -/
structure ProbDecl where
  parents : List String
  table : List (CondKey String × List ℚ)
  props : List (String × String)
  deriving DecidableEq

/-- A network as read: `variable_nodes` with the `probdist` of each (`none` is Python's `None`).
What bif/Transformers.py 125-146 makes. -/
structure ReadNet where
  name : String
  props : List (String × String)
  nodes : List (String × VarDecl × Option ProbDecl)
  deriving DecidableEq

/-- A node as a Python object. (Models no code: a notion for statements and proofs.) -/
def nodeObj (n : String) (v : VarDecl) : Obj := .node (.str n) (.list (strs v.values)) (.dict (strDict v.props))

/-- A distribution as a Python object.
(Models no code: a notion for statements and proofs.) -/
def pdObj (n : String) (p : ProbDecl) : Obj :=
  .pd (.str n) (.dict (tableObj p.table)) p.parents (.dict (strDict p.props))

/-- The entry of a node in `variable_nodes`.
(Models no code: a notion for statements and proofs.) -/
def entryObj (n : String) (e : VarDecl × Option ProbDecl) : Obj × Option Obj :=
  (nodeObj n e.1, e.2.map (pdObj n))

/-- A network as a Python object. (Models no code: a notion for statements and proofs.) -/
def netObj (R : ReadNet) : Obj :=
  .net (.str R.name) (.dict (strDict R.props)) (R.nodes.map (fun p => (p.1, entryObj p.1 p.2)))

/-! ## Specification -/

namespace Spec

/-- The network blocks of a document, in order. (Specification.) -/
def networks : List Block → List (String × List (String × PropValue))
  | [] => []
  | .network n ps :: rest => (n, ps) :: networks rest
  | _ :: rest => networks rest

/-- The variable blocks of a document: name, values, properties. (Specification.) -/
def varBlocks : List Block → List (String × List String × List (String × PropValue))
  | [] => []
  | .var n _ vs ps :: rest => (n, vs, ps) :: varBlocks rest
  | _ :: rest => varBlocks rest

/-- The probability blocks of a document: name, parents, table, properties.
(Specification.) -/
def probBlocks : List Block → List (String × List String × Table × List (String × PropValue))
  | [] => []
  | .prob n pa t ps :: rest => (n, pa, t, ps) :: probBlocks rest
  | _ :: rest => probBlocks rest

/-- The last entry of a name in a list of named things. (Specification.) -/
def lastOf {α : Type} (l : List (String × α)) (n : String) : Option α :=
  ((l.filter (fun p => p.1 = n)).getLast?).map Prod.snd

/-- Every variable named in a probability block is declared. (Specification.) -/
def AllDeclared (doc : List Block) : Prop :=
  ∀ b ∈ probBlocks doc, b.1 ∈ (varBlocks doc).map Prod.fst ∧
    ∀ p ∈ b.2.1, p ∈ (varBlocks doc).map Prod.fst

/-- The network `R` is what the document says; where it says something twice the last one counts.
(Specification.) -/
structure Reads (val : String → ℚ) (doc : List Block) (R : ReadNet) : Prop where
  header : (R.name, R.props) = match (networks doc).getLast? with
    | some b => (b.1, propsDict b.2)
    | none => ("", [])
  unique : (R.nodes.map Prod.fst).Nodup
  names : ∀ n, n ∈ R.nodes.map Prod.fst ↔ n ∈ (varBlocks doc).map Prod.fst
  node : ∀ n v p, (n, v, p) ∈ R.nodes → ∃ vs ps, lastOf (varBlocks doc) n = some (vs, ps) ∧
    v = ⟨vs, propsDict ps⟩
  table : ∀ n v p, (n, v, p) ∈ R.nodes → p = (lastOf (probBlocks doc) n).map (fun b =>
    ⟨fromKeys b.1 [], tableDict val b.2.1, propsDict b.2.2⟩)

/-- Nothing is said twice, every variable has a table, parents are distinct.
(Specification.) -/
structure Unambiguous (doc : List Block) : Prop where
  vars : ((varBlocks doc).map Prod.fst).Nodup
  probs : ((probBlocks doc).map Prod.fst).Nodup
  covered : ∀ b ∈ varBlocks doc, b.1 ∈ (probBlocks doc).map Prod.fst
  parents : ∀ b ∈ probBlocks doc, b.2.1.Nodup

end Spec
open Spec

/-! ## Proofs -/

theorem lastOf_nil {α : Type} (n : String) : lastOf ([] : List (String × α)) n = none := rfl

theorem lastOf_cons {α : Type} (m : String) (a : α) (l : List (String × α)) (n : String) :
    lastOf ((m, a) :: l) n = (lastOf l n).or (if m = n then some a else none) := by
  unfold lastOf
  by_cases h : m = n
  · subst h
    simp only [List.filter_cons, decide_true, if_true]
    cases hl : (l.filter (fun p => p.1 = m)) with
    | nil => rfl
    | cons x xs =>
      have : ((m, a) :: x :: xs).getLast? = (x :: xs).getLast? := by
        rw [List.getLast?_cons_cons]
      rw [this]
      cases h2 : (x :: xs).getLast? with
      | none => simp at h2
      | some y => rfl
  · simp [h]

theorem lastOf_none {α : Type} (l : List (String × α)) (n : String) :
    lastOf l n = none ↔ n ∉ l.map Prod.fst := by
  induction l with
  | nil => simp [lastOf_nil]
  | cons p l ih =>
    obtain ⟨m, a⟩ := p
    rw [lastOf_cons, Option.or_eq_none_iff, ih]
    simp only [List.map_cons, List.mem_cons, not_or]
    constructor
    · rintro ⟨h1, h2⟩
      refine ⟨fun h => ?_, h1⟩
      rw [if_pos h.symm] at h2; cases h2
    · rintro ⟨h1, h2⟩
      exact ⟨h2, if_neg (fun h => h1 h.symm)⟩

/-- The variables of a document, as they are collected.
The outcome of the first loop, bif/Transformers.py 128-133. -/
def collect (doc : List Block) (d : List (String × VarDecl × Option ProbDecl)) :
    List (String × VarDecl × Option ProbDecl) :=
  (varBlocks doc).foldl (fun d b => dictSet d b.1 (⟨b.2.1, propsDict b.2.2⟩, none)) d

/-- The name and the properties of the network. The outcome of bif/Transformers.py 129-131. -/
def headerOf (doc : List Block) (h : String × List (String × String)) : String × List (String × String) :=
  (networks doc).foldl (fun _ b => (b.1, propsDict b.2)) h

theorem entry_embed_set (d : List (String × VarDecl × Option ProbDecl)) (n : String)
    (e : VarDecl × Option ProbDecl) :
    dictSet (d.map (fun p => (p.1, entryObj p.1 p.2))) n (entryObj n e) =
      (dictSet d n e).map (fun p => (p.1, entryObj p.1 p.2)) :=
  dictSet_embed id Function.injective_id entryObj d n e

theorem entry_embed_get (d : List (String × VarDecl × Option ProbDecl)) (n : String) :
    dictGet (d.map (fun p => (p.1, entryObj p.1 p.2))) n = (dictGet d n).map (entryObj n) :=
  dictGet_embed id Function.injective_id entryObj d n

theorem gather_doc (val : String → ℚ) (doc : List Block) (h : String × List (String × String))
    (d : List (String × VarDecl × Option ProbDecl)) :
    gather (doc.map (blockT4 val)) ⟨.str h.1, .dict (strDict h.2), d.map (fun p => (p.1, entryObj p.1 p.2))⟩ =
      .ok ⟨.str (headerOf doc h).1, .dict (strDict (headerOf doc h).2),
        (collect doc d).map (fun p => (p.1, entryObj p.1 p.2))⟩ := by
  induction doc generalizing h d with
  | nil => rfl
  | cons b doc ih =>
    cases b with
    | network n ps =>
      simp only [List.map_cons, blockT4, gather, attr, dictGet, if_true, PKey.str.injEq]
      rw [propsOf_eq]
      exact ih (n, propsDict ps) d
    | var n c vs ps =>
      simp only [List.map_cons, blockT4, gather, text]
      rw [propsOf_eq]
      have he : (Obj.node (.str n) (.list (strs vs)) (.dict (strDict (propsDict ps))), (none : Option Obj)) =
          entryObj n (⟨vs, propsDict ps⟩, none) := rfl
      rw [he, entry_embed_set, ih]
      rfl
    | prob n pa t ps =>
      simp only [List.map_cons, blockT4, gather]
      exact ih h d

/-- The distribution that a probability block declares.
The outcome of bif/Transformers.py 103-110. -/
def declOf (val : String → ℚ) (b : List String × Table × List (String × PropValue)) : ProbDecl :=
  ⟨fromKeys b.1 [], tableDict val b.2.1, propsDict b.2.2⟩

/-- The second loop on the network as read. The outcome of bif/Transformers.py 136-144. -/
def attachT (val : String → ℚ) : List (String × List String × Table × List (String × PropValue)) →
    List (String × VarDecl × Option ProbDecl) → List (String × VarDecl × Option ProbDecl)
  | [], d => d
  | b :: bs, d => attachT val bs (match dictGet d b.1 with
    | none => d
    | some e => dictSet d b.1 (e.1, some (declOf val b.2)))

theorem fromKeys_mem (l acc : List String) (x : String) : x ∈ fromKeys l acc ↔ x ∈ l ∨ x ∈ acc := by
  induction l generalizing acc with
  | nil => simp [fromKeys]
  | cons a l ih =>
    rw [fromKeys]
    split
    · rename_i h
      rw [ih]
      constructor
      · rintro (h1 | h1) <;> simp [h1]
      · rintro (h1 | h1)
        · rcases List.mem_cons.1 h1 with rfl | h1
          · exact .inr h
          · exact .inl h1
        · exact .inr h1
    · rw [ih]
      simp only [List.mem_append, List.mem_cons, List.not_mem_nil, or_false]
      tauto

theorem fromKeys_nodup (l acc : List String) (h : acc.Nodup) : (fromKeys l acc).Nodup := by
  induction l generalizing acc with
  | nil => exact h
  | cons a l ih =>
    rw [fromKeys]
    split
    · exact ih acc h
    · rename_i hn
      refine ih _ (List.nodup_append.2 ⟨h, by simp, ?_⟩)
      intro x hx y hy hxy
      simp at hy; subst hy; subst hxy; exact hn hx

theorem fromKeys_of_nodup (l acc : List String) (h : (acc ++ l).Nodup) : fromKeys l acc = acc ++ l := by
  induction l generalizing acc with
  | nil => simp [fromKeys]
  | cons a l ih =>
    have ha : a ∉ acc := by
      intro hc
      exact (List.nodup_append.1 h).2.2 a hc a (by simp) rfl
    rw [fromKeys, if_neg ha, ih _ (by simpa using h)]
    simp

theorem dictSet_keys_of_mem {κ ν : Type} [DecidableEq κ] {d : List (κ × ν)} {k : κ} {e : ν} (v : ν)
    (h : dictGet d k = some e) : (dictSet d k v).map Prod.fst = d.map Prod.fst := by
  rw [dictSet_keys, if_pos]
  by_contra hc
  rw [(dictGet_none_iff d k).2 hc] at h; cases h

theorem allKnown_embed (d : List (String × VarDecl × Option ProbDecl)) (ps : List String) :
    allKnown (d.map (fun p => (p.1, entryObj p.1 p.2))) ps =
      if ∀ p ∈ ps, p ∈ d.map Prod.fst then .ok () else .error .keyError := by
  induction ps with
  | nil => simp [allKnown]
  | cons p ps ih =>
    rw [allKnown, entry_embed_get]
    cases hg : dictGet d p with
    | none =>
      have : p ∉ d.map Prod.fst := (dictGet_none_iff d p).1 hg
      rw [if_neg (fun h => this (h p (by simp)))]
      rfl
    | some e =>
      have hp : p ∈ d.map Prod.fst := by
        by_contra hc; rw [(dictGet_none_iff d p).2 hc] at hg; cases hg
      simp only [Option.map_some]
      rw [ih]
      by_cases hall : ∀ q ∈ ps, q ∈ d.map Prod.fst
      · rw [if_pos hall, if_pos]
        intro q hq
        rcases List.mem_cons.1 hq with rfl | hq
        · exact hp
        · exact hall q hq
      · rw [if_neg hall, if_neg (fun h => hall (fun q hq => h q (by simp [hq])))]

theorem attach_doc (val : String → ℚ) (doc : List Block) (d : List (String × VarDecl × Option ProbDecl)) :
    attach (doc.map (blockT4 val)) (d.map (fun p => (p.1, entryObj p.1 p.2))) =
      if ∀ b ∈ probBlocks doc, b.1 ∈ d.map Prod.fst ∧ ∀ p ∈ b.2.1, p ∈ d.map Prod.fst then
        .ok ((attachT val (probBlocks doc) d).map (fun p => (p.1, entryObj p.1 p.2)))
      else .error .keyError := by
  induction doc generalizing d with
  | nil => simp [attach, probBlocks, attachT]
  | cons b doc ih =>
    cases b with
    | network n ps => simp only [List.map_cons, blockT4, attach]; exact ih d
    | var n c vs ps => simp only [List.map_cons, blockT4, attach]; exact ih d
    | prob n pa t ps =>
      simp only [List.map_cons, blockT4, attach, text]
      rw [entry_embed_get, propsOf_eq]
      cases hg : dictGet d n with
      | none =>
        have : n ∉ d.map Prod.fst := (dictGet_none_iff d n).1 hg
        rw [if_neg (fun h => this (h (n, pa, t, ps) (by simp [probBlocks])).1)]
        rfl
      | some e =>
        have hn : n ∈ d.map Prod.fst := by
          by_contra hc; rw [(dictGet_none_iff d n).2 hc] at hg; cases hg
        obtain ⟨v, o⟩ := e
        simp only [Option.map_some, entryObj]
        have he : (nodeObj n v, some (Obj.pd (.str n) (.dict (tableObj (tableDict val t))) (fromKeys pa [])
            (.dict (strDict (propsDict ps))))) = entryObj n (v, some (declOf val (pa, t, ps))) := rfl
        have hset := entry_embed_set d n (v, some (declOf val (pa, t, ps)))
        unfold entryObj at hset he
        simp only [Option.map_some] at hset he
        rw [he, hset]
        have hkeys := dictSet_keys_of_mem (v, some (declOf val (pa, t, ps))) hg
        have hk := allKnown_embed (dictSet d n (v, some (declOf val (pa, t, ps)))) (fromKeys pa [])
        unfold entryObj at hk
        rw [hk, hkeys]
        by_cases hpa : ∀ p ∈ pa, p ∈ d.map Prod.fst
        · rw [if_pos (fun p hp => hpa p (by simpa [fromKeys_mem] using hp))]
          simp only []
          have hi := ih (dictSet d n (v, some (declOf val (pa, t, ps))))
          unfold entryObj at hi
          rw [hi, hkeys]
          by_cases hall : ∀ b ∈ probBlocks doc, b.1 ∈ d.map Prod.fst ∧ ∀ p ∈ b.2.1, p ∈ d.map Prod.fst
          · rw [if_pos hall, if_pos]
            · simp only [probBlocks, attachT, hg]
            · intro b hb
              rcases List.mem_cons.1 hb with rfl | hb
              · exact ⟨hn, hpa⟩
              · exact hall b hb
          · rw [if_neg hall, if_neg (fun h => hall (fun b hb => h b (by simp [probBlocks, hb])))]
        · rw [if_neg (fun h => hpa (fun p hp => h p (by simpa [fromKeys_mem] using hp))),
            if_neg (fun h => hpa (h (n, pa, t, ps) (by simp [probBlocks])).2)]

theorem collect_get (bs : List (String × List String × List (String × PropValue)))
    (d : List (String × VarDecl × Option ProbDecl)) (n : String) :
    dictGet (bs.foldl (fun d b => dictSet d b.1 (⟨b.2.1, propsDict b.2.2⟩, none)) d) n =
      ((lastOf bs n).map (fun b => (⟨b.1, propsDict b.2⟩, none))).or (dictGet d n) := by
  induction bs generalizing d with
  | nil => simp [lastOf_nil]
  | cons b bs ih =>
    obtain ⟨m, vs, ps⟩ := b
    rw [List.foldl_cons, ih, lastOf_cons, dictGet_dictSet]
    cases lastOf bs n with
    | some x => rfl
    | none =>
      by_cases h : m = n
      · simp [h]
      · simp [h]

theorem collect_nodup (bs : List (String × List String × List (String × PropValue)))
    (d : List (String × VarDecl × Option ProbDecl)) (h : (d.map Prod.fst).Nodup) :
    ((bs.foldl (fun d b => dictSet d b.1 ((⟨b.2.1, propsDict b.2.2⟩ : VarDecl), (none : Option ProbDecl))) d).map
      Prod.fst).Nodup := by
  induction bs generalizing d with
  | nil => exact h
  | cons b bs ih =>
    rw [List.foldl_cons]
    apply ih
    rw [dictSet_keys]
    split
    · exact h
    · rename_i hn
      refine List.nodup_append.2 ⟨h, by simp, ?_⟩
      intro x hx y hy hxy
      simp at hy; subst hy; subst hxy; exact hn hx

theorem attachT_keys (val : String → ℚ) (bs : List (String × List String × Table × List (String × PropValue)))
    (d : List (String × VarDecl × Option ProbDecl)) : (attachT val bs d).map Prod.fst = d.map Prod.fst := by
  induction bs generalizing d with
  | nil => rfl
  | cons b bs ih =>
    rw [attachT, ih]
    cases hg : dictGet d b.1 with
    | none => rfl
    | some e => exact dictSet_keys_of_mem _ hg

theorem attachT_get (val : String → ℚ) (bs : List (String × List String × Table × List (String × PropValue)))
    (d : List (String × VarDecl × Option ProbDecl)) (n : String) :
    dictGet (attachT val bs d) n = (dictGet d n).map (fun e =>
      (e.1, ((lastOf bs n).map (declOf val)).or e.2)) := by
  induction bs generalizing d with
  | nil => simp [attachT, lastOf_nil]
  | cons b bs ih =>
    obtain ⟨m, b⟩ := b
    rw [attachT, ih, lastOf_cons]
    by_cases h : m = n
    · subst h
      cases hg : dictGet d m with
      | none => simp [hg]
      | some e =>
        simp only [dictGet_dictSet, if_true, Option.map_some, Option.some.injEq, Prod.mk.injEq, true_and]
        cases lastOf bs m <;> simp
    · have hsame : dictGet (match dictGet d m with
          | none => d
          | some e => dictSet d m (e.1, some (declOf val b))) n = dictGet d n := by
        cases dictGet d m with
        | none => rfl
        | some e => simp only [dictGet_dictSet, if_neg h]
      rw [hsame, if_neg h, Option.or_none]

theorem headerOf_last (doc : List Block) (h : String × List (String × String)) :
    headerOf doc h = match (networks doc).getLast? with
      | some b => (b.1, propsDict b.2)
      | none => h := by
  unfold headerOf
  generalize networks doc = l
  induction l generalizing h with
  | nil => rfl
  | cons b l ih =>
    rw [List.foldl_cons, ih]
    cases l with
    | nil => rfl
    | cons c l =>
      rw [List.getLast?_cons_cons]
      cases hg : (c :: l).getLast? with
      | none => simp at hg
      | some x => rfl

/-- The network that is read from a document. The outcome of bif/Transformers.py 125-146. -/
def readNet (val : String → ℚ) (doc : List Block) : ReadNet :=
  ⟨(headerOf doc ("", [])).1, (headerOf doc ("", [])).2, attachT val (probBlocks doc) (collect doc [])⟩

theorem collect_keys_mem (doc : List Block) (n : String) :
    n ∈ (collect doc []).map Prod.fst ↔ n ∈ (varBlocks doc).map Prod.fst := by
  have h1 := dictGet_none_iff (collect doc []) n
  have h2 := lastOf_none (varBlocks doc) n
  rw [collect, collect_get] at h1
  rw [← not_iff_not, collect, ← h1, ← h2]
  cases lastOf (varBlocks doc) n <;> simp [dictGet]

theorem chain_doc_eq (intOf : String → Int) (val : String → ℚ) (doc : List Block) :
    (AllDeclared doc → chain intOf val (docT doc) = .ok (netObj (readNet val doc))) ∧
    (¬ AllDeclared doc → chain intOf val (docT doc) = .error .keyError) := by
  have hg := gather_doc val doc ("", []) []
  have ha := attach_doc val doc (collect doc [])
  simp only [collect_keys_mem] at ha
  rw [chain_doc, cbNetwork]
  change gather _ ⟨.str "", .dict [], []⟩ = _ at hg
  rw [hg]
  simp only []
  rw [ha]
  constructor
  · intro h
    unfold AllDeclared at h
    rw [if_pos h]
    rfl
  · intro h
    unfold AllDeclared at h
    rw [if_neg h]

/-- **C62.** A document is read if and only if its probability blocks mention declared variables
only (otherwise `KeyError`), and then the network is what the document says: the name and
properties of the network, exactly the declared variables, each with its values and properties,
its parents in the order of the document, and its table with the probabilities of the document. -/
theorem bif_read_exact (intOf : String → Int) (val : String → ℚ) (doc : List Block) :
    (AllDeclared doc → ∃ R, chain intOf val (docT doc) = .ok (netObj R) ∧ Reads val doc R) ∧
    (¬ AllDeclared doc → chain intOf val (docT doc) = .error .keyError) := by
  refine ⟨fun h => ⟨readNet val doc, (chain_doc_eq intOf val doc).1 h, ?_⟩, (chain_doc_eq intOf val doc).2⟩
  have hk : (readNet val doc).nodes.map Prod.fst = (collect doc []).map Prod.fst := attachT_keys _ _ _
  have hu : ((readNet val doc).nodes.map Prod.fst).Nodup := by
    rw [hk]; exact collect_nodup _ _ (by simp)
  have hget : ∀ n v p, (n, v, p) ∈ (readNet val doc).nodes →
      ∃ b, lastOf (varBlocks doc) n = some b ∧ v = ⟨b.1, propsDict b.2⟩ ∧
        p = (lastOf (probBlocks doc) n).map (declOf val) := by
    intro n v p hm
    have hg := dictGet_of_mem hu hm
    change dictGet (attachT val (probBlocks doc) (collect doc [])) n = _ at hg
    rw [attachT_get, collect, collect_get] at hg
    cases hl : lastOf (varBlocks doc) n with
    | none => rw [hl] at hg; cases hg
    | some b =>
      rw [hl] at hg
      simp only [Option.map_some, Option.some_or, Option.some.injEq, Prod.mk.injEq, Option.or_none] at hg
      exact ⟨b, rfl, hg.1.symm, hg.2.symm⟩
  refine ⟨?_, hu, fun n => by rw [hk]; exact collect_keys_mem doc n, ?_, ?_⟩
  · exact headerOf_last doc ("", [])
  · intro n v p hm
    obtain ⟨b, h1, h2, _⟩ := hget n v p hm
    exact ⟨b.1, b.2, h1, h2⟩
  · intro n v p hm
    exact (hget n v p hm).choose_spec.2.2

theorem pyDict_of_nodup_aux {κ ν : Type} [DecidableEq κ] (l d : List (κ × ν))
    (h : ((d ++ l).map Prod.fst).Nodup) : l.foldl (fun d p => dictSet d p.1 p.2) d = d ++ l := by
  induction l generalizing d with
  | nil => simp
  | cons p l ih =>
    obtain ⟨k, v⟩ := p
    have hk : k ∉ d.map Prod.fst := by
      rw [List.map_append, List.map_cons] at h
      intro hc
      exact (List.nodup_append.1 h).2.2 k hc k (by simp) rfl
    have hs : dictSet d k v = d ++ [(k, v)] := by
      clear ih h
      induction d with
      | nil => rfl
      | cons q d ih =>
        obtain ⟨a, b⟩ := q
        simp only [List.map_cons, List.mem_cons, not_or] at hk
        simp [dictSet, Ne.symm hk.1, ih hk.2]
    rw [List.foldl_cons, hs, ih _ (by simpa using h)]
    simp

/-- Distinct keys: nothing is overwritten. -/
theorem pyDict_of_nodup {κ ν : Type} [DecidableEq κ] (l : List (κ × ν)) (h : (l.map Prod.fst).Nodup) :
    pyDict l = l := by
  have := pyDict_of_nodup_aux l [] (by simpa using h)
  simpa [pyDict] using this

theorem lastOf_of_nodup {α : Type} {l : List (String × α)} {n : String} {a : α}
    (hn : (l.map Prod.fst).Nodup) (h : (n, a) ∈ l) : lastOf l n = some a := by
  induction l with
  | nil => cases h
  | cons p l ih =>
    obtain ⟨m, b⟩ := p
    simp only [List.map_cons, List.nodup_cons] at hn
    rw [lastOf_cons]
    rcases List.mem_cons.1 h with h | h
    · cases h
      rw [(lastOf_none l n).2 hn.1]
      simp
    · rw [ih hn.2 h]
      rfl

theorem collect_of_nodup (doc : List Block) (h : ((varBlocks doc).map Prod.fst).Nodup) :
    collect doc [] = (varBlocks doc).map (fun b => (b.1, ⟨b.2.1, propsDict b.2.2⟩, none)) := by
  have := pyDict_of_nodup ((varBlocks doc).map (fun b =>
    (b.1, ((⟨b.2.1, propsDict b.2.2⟩ : VarDecl), (none : Option ProbDecl)))))
    (by rw [List.map_map]; exact h)
  rw [← this, pyDict, List.foldl_map]
  rfl

theorem eq_of_keys {κ ν : Type} [DecidableEq κ] {a b : List (κ × ν)} (hk : a.map Prod.fst = b.map Prod.fst)
    (hn : (b.map Prod.fst).Nodup) (hg : ∀ k, dictGet a k = dictGet b k) : a = b := by
  induction a generalizing b with
  | nil =>
    cases b with
    | nil => rfl
    | cons => simp at hk
  | cons p a ih =>
    cases b with
    | nil => simp at hk
    | cons q b =>
      obtain ⟨k, v⟩ := p; obtain ⟨k', v'⟩ := q
      simp only [List.map_cons, List.cons.injEq] at hk
      obtain ⟨rfl, hk⟩ := hk
      simp only [List.map_cons, List.nodup_cons] at hn
      have h0 := hg k
      simp only [dictGet, if_true, Option.some.injEq] at h0
      subst h0
      congr 1
      apply ih hk hn.2
      intro x
      by_cases hx : k = x
      · subst hx
        rw [(dictGet_none_iff a k).2 (hk ▸ hn.1), (dictGet_none_iff b k).2 hn.1]
      · have := hg x
        simpa [dictGet, hx] using this

/-- The distribution of the variable `n` in a document. (Specification.) -/
def Spec.distOf (val : String → ℚ) (doc : List Block) (n : String) : Option ProbDecl :=
  (lastOf (probBlocks doc) n).map (fun b => ⟨b.1, tableDict val b.2.1, propsDict b.2.2⟩)

/-- **C62, documents that say nothing twice.**  The nodes of the network are the variables of the
document in its order, each with its values and its distribution, the parents in the order of the
document. -/
theorem bif_read_unambiguous (intOf : String → Int) (val : String → ℚ) (doc : List Block)
    (hd : AllDeclared doc) (hu : Unambiguous doc) :
    ∃ R, chain intOf val (docT doc) = .ok (netObj R) ∧
      R.nodes = (varBlocks doc).map (fun b => (b.1, ⟨b.2.1, propsDict b.2.2⟩, distOf val doc b.1)) ∧
      ∀ b ∈ varBlocks doc, ∃ pb ∈ probBlocks doc, pb.1 = b.1 ∧
        distOf val doc b.1 = some ⟨pb.2.1, tableDict val pb.2.2.1, propsDict pb.2.2.2⟩ := by
  refine ⟨readNet val doc, (chain_doc_eq intOf val doc).1 hd, ?_, ?_⟩
  · have hc := collect_of_nodup doc hu.vars
    apply eq_of_keys
    · have : (readNet val doc).nodes.map Prod.fst = (collect doc []).map Prod.fst := attachT_keys _ _ _
      rw [this, hc, List.map_map, List.map_map]
      rfl
    · rw [List.map_map]; exact hu.vars
    · intro n
      change dictGet (attachT val (probBlocks doc) (collect doc [])) n = _
      rw [attachT_get, hc]
      have hdist : (lastOf (probBlocks doc) n).map (declOf val) = distOf val doc n := by
        unfold distOf
        cases hl : lastOf (probBlocks doc) n with
        | none => rfl
        | some b =>
          have hb : (n, b) ∈ probBlocks doc := by
            unfold lastOf at hl
            cases hg : ((probBlocks doc).filter (fun p => p.1 = n)).getLast? with
            | none => rw [hg] at hl; cases hl
            | some q =>
              rw [hg] at hl; cases hl
              have := List.mem_of_getLast? hg
              have h2 := List.mem_filter.1 this
              have h3 : q.1 = n := by simpa using h2.2
              rw [← h3]; exact h2.1
          have hn := hu.parents _ hb
          simp only [Option.map_some, declOf, Option.some.injEq, ProbDecl.mk.injEq, and_true]
          rw [fromKeys_of_nodup b.1 [] (by simpa using hn)]
          rfl
      rw [hdist]
      generalize varBlocks doc = bs
      induction bs with
      | nil => rfl
      | cons b bs ih =>
        simp only [List.map_cons, dictGet]
        by_cases h : b.1 = n
        · simp [h]
        · simp only [if_neg h]; exact ih
  · intro b hb
    obtain ⟨pb, hpb, hname⟩ := List.mem_map.1 (hu.covered b hb)
    refine ⟨pb, hpb, hname, ?_⟩
    unfold distOf
    rw [← hname, lastOf_of_nodup hu.probs (show (pb.1, pb.2) ∈ probBlocks doc from hpb)]
    rfl

/-- The network as the other parts of the model see it (`Verif/BN/Model.lean`).
(Models no code: a notion for statements and proofs.) -/
def ReadNet.bnNodes (R : ReadNet) : List (BN.Node String String) :=
  R.nodes.filterMap (fun e => e.2.2.map (fun p =>
    { name := e.1, values := e.2.1.values, parents := p.parents, probabilities := p.table }))

/-- The numbers of values written in the file are not used: documents that differ only there give
the same result. -/
theorem bif_value_count_ignored (intOf : String → Int) (val : String → ℚ) (doc doc' : List Block)
    (h : doc.map (fun b => match b with | .var n _ vs ps => Block.var n "" vs ps | b => b) =
      doc'.map (fun b => match b with | .var n _ vs ps => Block.var n "" vs ps | b => b)) :
    chain intOf val (docT doc) = chain intOf val (docT doc') := by
  rw [chain_doc, chain_doc]
  congr 1
  induction doc generalizing doc' with
  | nil =>
    cases doc' with
    | nil => rfl
    | cons => simp at h
  | cons b doc ih =>
    cases doc' with
    | nil => simp at h
    | cons b' doc' =>
      simp only [List.map_cons, List.cons.injEq] at h
      simp only [List.map_cons, List.cons.injEq]
      refine ⟨?_, ih doc' h.2⟩
      have h1 := h.1
      cases b <;> cases b' <;> simp_all [blockT4]

/-! ## A concrete document -/

/-- `rain` and `wet`, the table of `wet` before the declaration of `rain`. (Example.) -/
def exDoc : List Block :=
  [.network "garden" [("author", .quoted "\"me\"")],
   .var "wet" "2" ["yes", "no"] [],
   .prob "wet" ["rain"] (.cond [(["y"], ["0.9", "0.1"]), (["n"], ["0.2", "0.8"])]) [],
   .var "rain" "2" ["y", "n"] [("unit", .plain "mm")],
   .prob "rain" [] (.simple ["0.3", "0.7"]) []]

/-- `float()` on the texts of the example. (Example.) -/
def exVal (s : String) : ℚ :=
  if s = "0.9" then 9/10 else if s = "0.1" then 1/10 else if s = "0.2" then 1/5
  else if s = "0.8" then 4/5 else if s = "0.3" then 3/10 else 7/10

example : AllDeclared exDoc ∧ Unambiguous exDoc :=
  ⟨by unfold AllDeclared; decide, ⟨by decide, by decide, by decide, by decide⟩⟩

example : readNet exVal exDoc = ⟨"garden", [("author", "\"me\"")],
    [("wet", ⟨["yes", "no"], []⟩,
        some ⟨["rain"], [(.values ["y"], [9/10, 1/10]), (.values ["n"], [1/5, 4/5])], []⟩),
     ("rain", ⟨["y", "n"], [("unit", "mm")]⟩, some ⟨[], [(.unconditioned, [3/10, 7/10])], []⟩)]⟩ := by
  decide +kernel

/-- A parent that is not declared. -/
example : chain (fun _ => 0) exVal (docT [.var "a" "1" ["x"] [],
    .prob "a" ["b"] (.cond [(["x"], ["0.7"])]) []]) = .error .keyError :=
  (bif_read_exact _ _ _).2 (by unfold AllDeclared; decide)

/-- A variable declared twice: the second declaration replaces the values, silently. -/
example : (readNet exVal [.var "a" "1" ["x"] [], .var "a" "1" ["y"] []]).nodes =
    [("a", ⟨["y"], []⟩, none)] := by decide +kernel

end Mbtk.Bif
