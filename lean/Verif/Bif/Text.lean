import Verif.Bif.Read
/-!
# The text of a BIF file (`utilities/bif/Grammar.py`) (C110)

`Spells` says how a sequence of tokens may be written (any white space between them), `docTok` is the grammar
as the sequence of tokens of a document.  As `Lark(bif_grammar)` uses lark's default (Earley parser, dynamic
lexer), each terminal matches as much as its regular expression can: an identifier is never split.
`parseText` is a recursive-descent parser for the grammar, proved equivalent to it; lark itself is trusted to
return the tree of a derivation if there is one and to raise otherwise.  The terminals `NUMBER`, `INT`, `WS`
and `ESCAPED_STRING` are those of lark's `common.lark`.
-/
namespace Mbtk.Bif.Text
open Mbtk Mbtk.Bif

/-! ## Specification: terminals -/

/-- `WS`: Grammar.py 7-8. -/
def isWs (c : Char) : Bool := c = ' ' || c = '\t' || c = '\x0c' || c = '\r' || c = '\n'

/-- `DIGIT` of lark, in `INT` and `NUMBER`: Grammar.py 4-6. -/
def isDig (c : Char) : Bool := '0' ≤ c && c ≤ '9'

/-- `[a-zA-Z0-9-_]`: Grammar.py 21. -/
def isWord (c : Char) : Bool :=
  ('a' ≤ c && c ≤ 'z') || ('A' ≤ c && c ≤ 'Z') || isDig c || c = '-' || c = '_'

/-- `[a-zA-Z0-9-_.]`: Grammar.py 22. -/
def isPlain (c : Char) : Bool := isWord c || c = '.'

/-- The characters of numbers.  In the grammar a number is always followed by white space, `,` or `;`, so
that it must extend over all of these: Grammar.py 5, 33-34, 43-45. -/
def isNumChar (c : Char) : Bool := isDig c || c = '.' || c = 'e' || c = 'E' || c = '+' || c = '-'

/-- `INT`: Grammar.py 6. -/
def isInt (s : List Char) : Bool := !s.isEmpty && s.all isDig

/-- The exponent of a number: Grammar.py 5. -/
def isExp : List Char → Bool
  | [] => false
  | c :: r => (c = 'e' || c = 'E') && match r with
    | [] => false
    | d :: t => if d = '+' || d = '-' then isInt t else isInt (d :: t)

/-- `NUMBER`: digits with an optional exponent, or with a decimal point, digits before or after it and an
optional exponent: Grammar.py 5. -/
def isNumber (s : List Char) : Bool :=
  match s.dropWhile isDig with
  | [] => !(s.takeWhile isDig).isEmpty
  | c :: r =>
    if c = '.' then
      (!(s.takeWhile isDig).isEmpty || !(r.takeWhile isDig).isEmpty) &&
        ((r.dropWhile isDig).isEmpty || isExp (r.dropWhile isDig))
    else !(s.takeWhile isDig).isEmpty && isExp (c :: r)

/-- What may stand between the quotes of `ESCAPED_STRING`: no line break, no quote without a backslash before
it: Grammar.py 2. -/
inductive Inner : List Char → Prop
  | nil : Inner []
  | char {c : Char} {r : List Char} : c ≠ '"' → c ≠ '\\' → c ≠ '\n' → Inner r → Inner (c :: r)
  | escape {c : Char} {r : List Char} : c ≠ '\n' → Inner r → Inner ('\\' :: c :: r)

/-- `ESCAPED_STRING`: Grammar.py 2. -/
def IsQuoted (s : List Char) : Prop := ∃ inner, Inner inner ∧ s = '"' :: (inner ++ ['"'])

/-! ## Specification: tokens and layout -/

/-- The terminals of the grammar: Grammar.py 17-45. -/
inductive Tok where
  /-- a keyword or a punctuation mark -/
  | kw (k : List Char)
  /-- `identifier` -/
  | word (s : String)
  /-- `string_value` -/
  | plain (s : String)
  /-- `ESCAPED_STRING` -/
  | quoted (s : String)
  /-- `NUMBER` -/
  | num (s : String)
  /-- `INT` -/
  | int (s : String)

/-- The characters of a token. (Specification.) -/
def Tok.text : Tok → List Char
  | .kw k => k
  | .word s => s.toList
  | .plain s => s.toList
  | .quoted s => s.toList
  | .num s => s.toList
  | .int s => s.toList

/-- The text has the form of the terminal: Grammar.py 2-6, 21-22. -/
def Tok.Valid : Tok → Prop
  | .kw k => k ≠ [] ∧ ∀ c ∈ k.head?, isWs c = false
  | .word s => s.toList ≠ [] ∧ s.toList.all isWord = true
  | .plain s => s.toList ≠ [] ∧ s.toList.all isPlain = true
  | .quoted s => IsQuoted s.toList
  | .num s => s.toList.all isNumChar = true ∧ isNumber s.toList = true
  | .int s => s.toList ≠ [] ∧ s.toList.all isDig = true

/-- The characters with which the token could be continued: Grammar.py 2-6, 21-22. -/
def Tok.more : Tok → Char → Bool
  | .kw _ => fun _ => false
  | .word _ => isWord
  | .plain _ => isPlain
  | .quoted _ => fun _ => false
  | .num _ => isNumChar
  | .int _ => isDig

/-- The text begins with a way to write the tokens, and what remains meets `R`: any white space before each
token; no token stops where it could be continued.  Grammar.py 8 (`%ignore WS`); lark's dynamic lexer. -/
inductive SpellsThen (R : List Char → Prop) : List Tok → List Char → Prop
  | nil {w : List Char} : R w → SpellsThen R [] w
  | cons {w rest : List Char} {t : Tok} {ts : List Tok} : w.all isWs = true → t.Valid →
      (∀ c ∈ rest.head?, t.more c = false) → SpellsThen R ts rest → SpellsThen R (t :: ts) (w ++ (t.text ++ rest))

/-- The text is a way to write the tokens, with only white space after them: Grammar.py 8. -/
abbrev Spells : List Tok → List Char → Prop := SpellsThen (fun w => w.all isWs = true)

/-! ## Specification: the grammar -/

/-- `x ("," x)*`: Grammar.py 31, 32, 34. -/
def commaTok {α : Type} (f : α → Tok) : List α → List Tok
  | [] => []
  | [x] => [f x]
  | x :: y :: r => f x :: .kw [','] :: commaTok f (y :: r)

/-- `property_value`: Grammar.py 23. -/
def valueTok : PropValue → Tok
  | .quoted s => .quoted s
  | .plain s => .plain s

/-- `property`: Grammar.py 24. -/
def propTok (p : String × PropValue) : List Tok :=
  [.kw ['p', 'r', 'o', 'p', 'e', 'r', 't', 'y'], .word p.1, valueTok p.2, .kw [';']]

/-- `property_list`: Grammar.py 25. -/
def propsTok (ps : List (String × PropValue)) : List Tok := ps.flatMap propTok

/-- `variable_type_def`: Grammar.py 37-38. -/
def typeTok (count : String) (vs : List String) : List Tok :=
  .kw ['t', 'y', 'p', 'e'] :: .kw ['d', 'i', 's', 'c', 'r', 'e', 't', 'e'] :: .kw ['['] :: .int count ::
    .kw [']'] :: .kw ['{'] :: (commaTok .word vs ++ [.kw ['}'], .kw [';']])

/-- `variable_value_probabilities__cond_line`: Grammar.py 41, 45. -/
def lineTok (l : List String × List String) : List Tok :=
  .kw ['('] :: (commaTok .word l.1 ++ .kw [')'] :: (commaTok .num l.2 ++ [.kw [';']]))

/-- `variable_value_probabilities`: Grammar.py 42-44. -/
def tableTok : Table → List Tok
  | .simple row => .kw ['t', 'a', 'b', 'l', 'e'] :: (commaTok .num row ++ [.kw [';']])
  | .cond lines => lines.flatMap lineTok

/-- `("|" conditioning_variable_names)?`: Grammar.py 19, 31, 40. -/
def parentsTok : List String → List Tok
  | [] => []
  | p :: ps => .kw ['|'] :: commaTok .word (p :: ps)

/-- A block: Grammar.py 13-19. -/
def blockTok : Block → List Tok
  | .network name props => .kw ['n', 'e', 't', 'w', 'o', 'r', 'k'] :: .word name :: .kw ['{'] ::
      (propsTok props ++ [.kw ['}']])
  | .var name count values props => .kw ['v', 'a', 'r', 'i', 'a', 'b', 'l', 'e'] :: .word name :: .kw ['{'] ::
      (typeTok count values ++ (propsTok props ++ [.kw ['}']]))
  | .prob name parents table props =>
      .kw ['p', 'r', 'o', 'b', 'a', 'b', 'i', 'l', 'i', 't', 'y'] :: .kw ['('] :: .word name ::
        (parentsTok parents ++ .kw [')'] :: .kw ['{'] :: (tableTok table ++ (propsTok props ++ [.kw ['}']])))

/-- `network_definition`: Grammar.py 12. -/
def docTok (doc : List Block) : List Tok := doc.flatMap blockTok

/-- The lists that the grammar wants non-empty are: Grammar.py 31-34, 44. -/
def TableOk : Table → Prop
  | .simple row => row ≠ []
  | .cond lines => lines ≠ [] ∧ ∀ l ∈ lines, l.1 ≠ [] ∧ l.2 ≠ []

/-- The lists that the grammar wants non-empty are: Grammar.py 31-34, 38, 44. -/
def BlockOk : Block → Prop
  | .network _ _ => True
  | .var _ _ values _ => values ≠ []
  | .prob _ _ table _ => TableOk table

/-- The text is one of the document according to the grammar: Grammar.py 10-45. -/
def Derives (doc : List Block) (s : List Char) : Prop := (∀ b ∈ doc, BlockOk b) ∧ Spells (docTok doc) s

/-! ## The parser -/

/-- White space is skipped: Grammar.py 8. -/
def skip (s : List Char) : List Char := s.dropWhile isWs

/-- Removing an expected beginning. (Python itself.) -/
def strip : List Char → List Char → Option (List Char)
  | [], s => some s
  | _ :: _, [] => none
  | k :: ks, c :: s => if k = c then strip ks s else none

/-- A keyword: Grammar.py 17-45. -/
def kwP (k : List Char) (s : List Char) : Option (List Char) := strip k (skip s)

/-- A terminal given by a class of characters, taken as long as possible: Grammar.py 5, 6, 21, 22. -/
def classP (p : Char → Bool) (ok : List Char → Bool) (s : List Char) : Option (String × List Char) :=
  if ok ((skip s).takeWhile p) then some (String.ofList ((skip s).takeWhile p), (skip s).dropWhile p) else none

/-- Not empty. (Python itself.) -/
def nonempty (s : List Char) : Bool := !s.isEmpty

/-- The rest of a quoted text, after the opening quote; the closing quote is included in the result:
Grammar.py 2. -/
def quotedRest : List Char → Option (List Char × List Char)
  | [] => none
  | c :: r =>
    if c = '"' then some ([c], r)
    else if c = '\n' then none
    else if c = '\\' then
      match r with
      | [] => none
      | d :: r' => if d = '\n' then none else (quotedRest r').map (fun q => (c :: d :: q.1, q.2))
    else (quotedRest r).map (fun q => (c :: q.1, q.2))

/-- `property_value`: Grammar.py 23. -/
def valueP (s : List Char) : Option (PropValue × List Char) :=
  match skip s with
  | [] => none
  | c :: r =>
    if c = '"' then (quotedRest r).map (fun q => (.quoted (String.ofList (c :: q.1)), q.2))
    else (classP isPlain nonempty s).map (fun q => (.plain q.1, q.2))

/-- `x ("," x)*`: Grammar.py 31, 32, 34; `fuel` bounds the number of elements. -/
def commaP {α : Type} (item : List Char → Option (α × List Char)) : Nat → List Char → Option (List α × List Char)
  | 0, _ => none
  | fuel + 1, s =>
    match item s with
    | none => none
    | some (x, r) =>
      match kwP [','] r with
      | none => some ([x], r)
      | some r' => (commaP item fuel r').map (fun q => (x :: q.1, q.2))

/-- `identifier`: Grammar.py 21. -/
def wordP : List Char → Option (String × List Char) := classP isWord nonempty

/-- `NUMBER`: Grammar.py 33. -/
def numP : List Char → Option (String × List Char) := classP isNumChar isNumber

/-- `INT`: Grammar.py 37. -/
def intP : List Char → Option (String × List Char) := classP isDig nonempty

/-- Something followed by a keyword. (Python itself.) -/
def thenKw {α : Type} (p : List Char → Option (α × List Char)) (k : List Char) (s : List Char) :
    Option (α × List Char) :=
  match p s with
  | none => none
  | some (a, r) => (kwP k r).map (fun r' => (a, r'))

/-- A keyword followed by something. (Python itself.) -/
def kwThen {α : Type} (k : List Char) (p : List Char → Option (α × List Char)) (s : List Char) :
    Option (α × List Char) :=
  match kwP k s with
  | none => none
  | some r => p r

/-- Two things after each other. (Python itself.) -/
def both {α β : Type} (p : List Char → Option (α × List Char)) (q : List Char → Option (β × List Char))
    (s : List Char) : Option ((α × β) × List Char) :=
  match p s with
  | none => none
  | some (a, r) => (q r).map (fun b => ((a, b.1), b.2))

/-- Things that begin with a keyword, as many as there are: Grammar.py 12, 25, 44; `fuel` bounds their
number. -/
def manyP {α : Type} (k : List Char) (item : List Char → Option (α × List Char)) :
    Nat → List Char → Option (List α × List Char)
  | 0, _ => none
  | fuel + 1, s =>
    match kwP k s with
    | none => some ([], s)
    | some r =>
      match item r with
      | none => none
      | some (x, r') => (manyP k item fuel r').map (fun q => (x :: q.1, q.2))

/-- `property` after its keyword: Grammar.py 24. -/
def propP : List Char → Option ((String × PropValue) × List Char) := thenKw (both wordP valueP) [';']

/-- `property_list` and the closing brace: Grammar.py 17-19, 25. -/
def propsP (fuel : Nat) : List Char → Option (List (String × PropValue) × List Char) :=
  thenKw (manyP ['p', 'r', 'o', 'p', 'e', 'r', 't', 'y'] propP fuel) ['}']

/-- `variable_type_def`: Grammar.py 37-38. -/
def typeP (fuel : Nat) : List Char → Option ((String × List String) × List Char) :=
  kwThen ['t', 'y', 'p', 'e'] (kwThen ['d', 'i', 's', 'c', 'r', 'e', 't', 'e'] (kwThen ['[']
    (both (thenKw intP [']']) (thenKw (thenKw (kwThen ['{'] (commaP wordP fuel)) ['}']) [';']))))

/-- A line of a table after the opening parenthesis: Grammar.py 41, 45. -/
def lineP (fuel : Nat) : List Char → Option ((List String × List String) × List Char) :=
  both (thenKw (commaP wordP fuel) [')']) (thenKw (commaP numP fuel) [';'])

/-- `variable_value_probabilities`: Grammar.py 42-44. -/
def tableP (fuel : Nat) (s : List Char) : Option (Table × List Char) :=
  match kwP ['t', 'a', 'b', 'l', 'e'] s with
  | some r => (thenKw (commaP numP fuel) [';'] r).map (fun q => (.simple q.1, q.2))
  | none =>
    match manyP ['('] (lineP fuel) fuel s with
    | none => none
    | some (lines, r) => if lines.isEmpty then none else some (.cond lines, r)

/-- `("|" conditioning_variable_names)?`: Grammar.py 19, 31, 40. -/
def parentsP (fuel : Nat) (s : List Char) : Option (List String × List Char) :=
  match kwP ['|'] s with
  | none => some ([], s)
  | some r => commaP wordP fuel r

/-- `network_definition`: Grammar.py 12-19; `fuel` bounds the number of blocks. -/
def blocksP (n : Nat) : Nat → List Char → Option (List Block)
  | 0, _ => none
  | fuel + 1, s =>
    match kwP ['n', 'e', 't', 'w', 'o', 'r', 'k'] s with
    | some r =>
      match both (thenKw wordP ['{']) (propsP n) r with
      | none => none
      | some (b, r') => (blocksP n fuel r').map (fun bs => .network b.1 b.2 :: bs)
    | none =>
      match kwP ['v', 'a', 'r', 'i', 'a', 'b', 'l', 'e'] s with
      | some r =>
        match both (thenKw wordP ['{']) (both (typeP n) (propsP n)) r with
        | none => none
        | some (b, r') => (blocksP n fuel r').map (fun bs => .var b.1 b.2.1.1 b.2.1.2 b.2.2 :: bs)
      | none =>
        match kwP ['p', 'r', 'o', 'b', 'a', 'b', 'i', 'l', 'i', 't', 'y'] s with
        | some r =>
          match both (both (kwThen ['('] wordP) (thenKw (thenKw (parentsP n) [')']) ['{']))
              (both (tableP n) (propsP n)) r with
          | none => none
          | some (b, r') => (blocksP n fuel r').map (fun bs => .prob b.1.1 b.1.2 b.2.1 b.2.2 :: bs)
        | none => if (skip s).isEmpty then some [] else none

/-- The document of a text, if there is one: Grammar.py 10-45. -/
def parseText (s : List Char) : Option (List Block) := blocksP (s.length + 1) (s.length + 1) s

/-! ## The parser and the grammar -/

/-- A parser accepts only what the tokens spell. (Models no code: a notion for statements and proofs.) -/
def Sound {α : Type} (p : List Char → Option (α × List Char)) (tk : α → List Tok) (V : α → Prop) : Prop :=
  ∀ s a r, p s = some (a, r) → V a ∧ ∀ ts, Spells ts r → Spells (tk a ++ ts) s

/-- A parser finds whatever fewer than `n` tokens spell, if what follows meets `F`.
(Models no code: a notion for statements and proofs.) -/
def Complete {α : Type} (n : Nat) (p : List Char → Option (α × List Char)) (tk : α → List Tok) (V : α → Prop)
    (F : List Tok → Prop) : Prop :=
  ∀ ⦃R : List Char → Prop⦄ a ts s, V a → F ts → (tk a ++ ts).length < n → SpellsThen R (tk a ++ ts) s →
    ∃ r, p s = some (a, r) ∧ SpellsThen R ts r

/-- Nothing is required. (Models no code: a notion for statements and proofs.) -/
def Any {α : Type} (_ : α) : Prop := True

/-- What follows does not begin with the character. (Models no code: a notion for statements and proofs.) -/
def Avoids (c : Char) (ts : List Tok) : Prop := ∃ d k ts', ts = .kw (d :: k) :: ts' ∧ d ≠ c

theorem skip_append {w r : List Char} (hw : w.all isWs = true) (hr : ∀ c ∈ r.head?, isWs c = false) :
    skip (w ++ r) = r := by
  induction w with
  | nil =>
    cases r with
    | nil => rfl
    | cons c r => simp [skip, hr c (by simp)]
  | cons a w ih =>
    simp only [List.all_cons, Bool.and_eq_true] at hw
    simpa [skip, hw.1] using ih hw.2

theorem mem_takeWhile {p : Char → Bool} {s : List Char} {c : Char} (h : c ∈ s.takeWhile p) : p c = true := by
  induction s with
  | nil => simp at h
  | cons a s ih =>
    by_cases ha : p a = true
    · rw [List.takeWhile_cons_of_pos ha] at h
      rcases List.mem_cons.mp h with rfl | h
      · exact ha
      · exact ih h
    · rw [List.takeWhile_cons_of_neg ha] at h
      simp at h

theorem skip_split (s : List Char) : s = s.takeWhile isWs ++ skip s ∧ (s.takeWhile isWs).all isWs = true := by
  refine ⟨(List.takeWhile_append_dropWhile).symm, ?_⟩
  rw [List.all_eq_true]
  intro c hc
  exact mem_takeWhile hc

theorem strip_iff (k s r : List Char) : strip k s = some r ↔ s = k ++ r := by
  induction k generalizing s with
  | nil => simp [strip]
  | cons a k ih =>
    cases s with
    | nil => simp [strip]
    | cons c s =>
      simp only [strip]
      by_cases h : a = c
      · subst h; simp [ih]
      · rw [if_neg h]; simp [Ne.symm h]

theorem kw_sound {k s r : List Char} (hk : (Tok.kw k).Valid) (h : kwP k s = some r) {ts : List Tok}
    (hr : Spells ts r) : Spells (.kw k :: ts) s := by
  rw [kwP, strip_iff] at h
  obtain ⟨h1, h2⟩ := skip_split s
  rw [h1, h]
  exact .cons (t := .kw k) h2 hk (fun _ _ => rfl) hr

theorem kw_complete {k s : List Char} {ts : List Tok} (h : SpellsThen R (.kw k :: ts) s) :
    ∃ r, kwP k s = some r ∧ SpellsThen R ts r := by
  cases h with
  | @cons w rest _ _ hw hv hm hr =>
    refine ⟨rest, ?_, hr⟩
    rw [kwP, strip_iff]
    obtain ⟨hne, hh⟩ := hv
    refine skip_append hw ?_
    cases k with
    | nil => exact absurd rfl hne
    | cons c k =>
      intro d hd
      simp only [Tok.text, List.cons_append, List.head?_cons, Option.mem_def, Option.some.injEq] at hd
      exact hh d (by simp [hd])

theorem kw_none {c : Char} {k s : List Char} {ts : List Tok} (ha : Avoids c ts) (h : SpellsThen R ts s) :
    kwP (c :: k) s = none := by
  obtain ⟨d, k', ts', rfl, hd⟩ := ha
  obtain ⟨r, hr, -⟩ := kw_complete h
  rw [kwP, strip_iff] at hr
  rw [kwP, hr]
  simp [strip, Ne.symm hd]

theorem takeWhile_run {p : Char → Bool} {a r : List Char} (ha : a.all p = true)
    (hr : ∀ c ∈ r.head?, p c = false) : (a ++ r).takeWhile p = a ∧ (a ++ r).dropWhile p = r := by
  induction a with
  | nil =>
    cases r with
    | nil => simp
    | cons c r => simp [hr c (by simp)]
  | cons c a ih =>
    simp only [List.all_cons, Bool.and_eq_true] at ha
    obtain ⟨h1, h2⟩ := ih ha.2
    simp [ha.1, h1, h2]

theorem dropWhile_head (p : Char → Bool) (s : List Char) : ∀ c ∈ (s.dropWhile p).head?, p c = false := by
  induction s with
  | nil => simp
  | cons a s ih =>
    by_cases h : p a = true
    · simpa [List.dropWhile_cons, h] using ih
    · intro c hc
      simp only [List.dropWhile_cons, h] at hc
      simp at hc
      subst hc
      simpa using h

theorem class_sound {p : Char → Bool} {ok : List Char → Bool} {s r : List Char} {a : String}
    (h : classP p ok s = some (a, r)) {t : Tok} (ht : t.text = a.toList) (hm : t.more = p)
    (hv : a.toList.all p = true → ok a.toList = true → t.Valid) {ts : List Tok}
    (hr : Spells ts r) : Spells (t :: ts) s := by
  unfold classP at h
  split at h
  · rename_i hok
    simp only [Option.some.injEq, Prod.mk.injEq] at h
    obtain ⟨rfl, rfl⟩ := h
    obtain ⟨h1, h2⟩ := skip_split s
    have h3 : skip s = t.text ++ (skip s).dropWhile p := by
      rw [ht, String.toList_ofList]; exact (List.takeWhile_append_dropWhile).symm
    rw [h1]
    conv => rhs; rw [h3]
    refine .cons h2 (hv ?_ ?_) ?_ hr
    · rw [String.toList_ofList, List.all_eq_true]
      intro c hc
      exact mem_takeWhile hc
    · rw [String.toList_ofList]; exact hok
    · rw [hm]; exact dropWhile_head p _
  · cases h

theorem class_complete {p : Char → Bool} {ok : List Char → Bool} {s : List Char} {a : String} {t : Tok}
    (ht : t.text = a.toList) (hm : t.more = p) (hv : t.Valid → a.toList.all p = true ∧ ok a.toList = true ∧ a.toList ≠ [])
    (hp : ∀ c, p c = true → isWs c = false) {ts : List Tok} (h : SpellsThen R (t :: ts) s) :
    ∃ r, classP p ok s = some (a, r) ∧ SpellsThen R ts r := by
  cases h with
  | @cons w rest _ _ hw hval hmore hr =>
    obtain ⟨h1, h2, h3⟩ := hv hval
    rw [ht]
    rw [hm] at hmore
    have hskip : skip (w ++ (a.toList ++ rest)) = a.toList ++ rest := by
      refine skip_append hw ?_
      cases hl : a.toList with
      | nil => exact absurd hl h3
      | cons c l =>
        intro d hd
        simp only [List.cons_append, List.head?_cons, Option.mem_def, Option.some.injEq] at hd
        subst hd
        rw [hl] at h1
        simp only [List.all_cons, Bool.and_eq_true] at h1
        exact hp _ h1.1
    obtain ⟨e1, e2⟩ := takeWhile_run h1 hmore
    refine ⟨rest, ?_, hr⟩
    unfold classP
    rw [hskip, e1, e2, if_pos h2, String.ofList_toList]



theorem ws_of {p : Char → Bool} (h : p ' ' = false ∧ p '\t' = false ∧ p '\x0c' = false ∧ p '\r' = false ∧ p '\n' = false)
    (c : Char) (hc : p c = true) : isWs c = false := by
  cases hw : isWs c with
  | false => rfl
  | true =>
    obtain ⟨h1, h2, h3, h4, h5⟩ := h
    simp only [isWs, Bool.or_eq_true, decide_eq_true_eq] at hw
    rcases hw with (((rfl | rfl) | rfl) | rfl) | rfl <;> simp_all

theorem word_sound : Sound wordP (fun a => [.word a]) Any := by
  intro s a r h
  refine ⟨trivial, fun ts hr => class_sound (t := .word a) h rfl rfl (fun h1 h2 => ⟨?_, h1⟩) hr⟩
  intro h3; rw [h3] at h2; simp [nonempty] at h2

theorem word_complete (n : Nat) : Complete n wordP (fun a => [.word a]) Any Any := by
  intro R a ts s _ _ _ h
  exact class_complete (t := .word a) rfl rfl
    (fun hv => ⟨hv.2, by simpa [nonempty] using hv.1, hv.1⟩) (ws_of (p := isWord) (by decide)) h

theorem int_sound : Sound intP (fun a => [.int a]) Any := by
  intro s a r h
  refine ⟨trivial, fun ts hr => class_sound (t := .int a) h rfl rfl (fun h1 h2 => ⟨?_, h1⟩) hr⟩
  intro h3; rw [h3] at h2; simp [nonempty] at h2

theorem int_complete (n : Nat) : Complete n intP (fun a => [.int a]) Any Any := by
  intro R a ts s _ _ _ h
  exact class_complete (t := .int a) rfl rfl
    (fun hv => ⟨hv.2, by simpa [nonempty] using hv.1, hv.1⟩) (ws_of (p := isDig) (by decide)) h

theorem num_sound : Sound numP (fun a => [.num a]) Any := by
  intro s a r h
  exact ⟨trivial, fun ts hr => class_sound (t := .num a) h rfl rfl (fun h1 h2 => ⟨h1, h2⟩) hr⟩

theorem isNumber_ne {l : List Char} (h : isNumber l = true) : l ≠ [] := by
  rintro rfl
  revert h; decide

theorem num_complete (n : Nat) : Complete n numP (fun a => [.num a]) Any Any := by
  intro R a ts s _ _ _ h
  exact class_complete (t := .num a) rfl rfl
    (fun hv => ⟨hv.1, hv.2, isNumber_ne hv.2⟩) (ws_of (p := isNumChar) (by decide)) h

theorem quotedRest_sound (s q r : List Char) (h : quotedRest s = some (q, r)) :
    ∃ inner, Inner inner ∧ q = inner ++ ['"'] ∧ s = q ++ r := by
  induction hn : s.length using Nat.strong_induction_on generalizing s q r with
  | _ n ih =>
  subst hn
  unfold quotedRest at h
  cases s with
  | nil => cases h
  | cons c t =>
    simp only at h
    by_cases h1 : c = '"'
    · rw [if_pos h1] at h
      simp only [Option.some.injEq, Prod.mk.injEq] at h
      obtain ⟨rfl, rfl⟩ := h
      exact ⟨[], .nil, by simp [h1], rfl⟩
    rw [if_neg h1] at h
    by_cases h2 : c = '\n'
    · rw [if_pos h2] at h; cases h
    rw [if_neg h2] at h
    by_cases h3 : c = '\\'
    · rw [if_pos h3] at h
      cases t with
      | nil => cases h
      | cons d t =>
        simp only at h
        by_cases h4 : d = '\n'
        · rw [if_pos h4] at h; cases h
        rw [if_neg h4] at h
        cases hq : quotedRest t with
        | none => rw [hq] at h; cases h
        | some x =>
          rw [hq] at h
          obtain ⟨q', r'⟩ := x
          simp only [Option.map_some, Option.some.injEq, Prod.mk.injEq] at h
          obtain ⟨rfl, rfl⟩ := h
          obtain ⟨inner, hi, e1, e2⟩ := ih t.length (by simp only [List.length_cons]; omega) t q' r' hq rfl
          exact ⟨'\\' :: d :: inner, .escape h4 hi, by simp [h3, e1], by simp [e2]⟩
    · rw [if_neg h3] at h
      cases hq : quotedRest t with
      | none => rw [hq] at h; cases h
      | some x =>
        rw [hq] at h
        obtain ⟨q', r'⟩ := x
        simp only [Option.map_some, Option.some.injEq, Prod.mk.injEq] at h
        obtain ⟨rfl, rfl⟩ := h
        obtain ⟨inner, hi, e1, e2⟩ := ih t.length (by simp) t q' r' hq rfl
        exact ⟨c :: inner, .char h1 h3 h2 hi, by simp [e1], by simp [e2]⟩

theorem quotedRest_complete {inner : List Char} (h : Inner inner) (r : List Char) :
    quotedRest (inner ++ ('"' :: r)) = some (inner ++ ['"'], r) := by
  induction h with
  | nil => rw [List.nil_append, quotedRest.eq_def]; simp only [if_true, List.nil_append]
  | char h1 h2 h3 _ ih => 
    rw [List.cons_append, quotedRest.eq_def]; simp only [if_neg h1, if_neg h3, if_neg h2, ih]; rfl
  | escape h1 _ ih =>
    rw [List.cons_append, List.cons_append, quotedRest.eq_def]
    simp only [if_neg (show ¬ '\\' = '"' by decide), if_neg (show ¬ '\\' = '\n' by decide), if_true, if_neg h1, ih]
    rfl

theorem value_sound : Sound valueP (fun a => [valueTok a]) Any := by
  intro s a r h
  refine ⟨trivial, fun ts hr => ?_⟩
  unfold valueP at h
  cases hs : skip s with
  | nil => rw [hs] at h; cases h
  | cons c t =>
    rw [hs] at h
    simp only at h
    by_cases hc : c = '"'
    · rw [if_pos hc] at h
      cases hq : quotedRest t with
      | none => rw [hq] at h; cases h
      | some x =>
        rw [hq] at h
        obtain ⟨q, r'⟩ := x
        simp only [Option.map_some, Option.some.injEq, Prod.mk.injEq] at h
        obtain ⟨rfl, rfl⟩ := h
        obtain ⟨inner, hi, e1, e2⟩ := quotedRest_sound _ _ _ hq
        obtain ⟨k1, k2⟩ := skip_split s
        have : s = s.takeWhile isWs ++ ((valueTok (.quoted (String.ofList (c :: q)))).text ++ r') := by
          conv => lhs; rw [k1, hs, e2]
          simp [valueTok, Tok.text]
        rw [this]
        refine .cons k2 ?_ (fun _ _ => rfl) hr
        refine ⟨inner, hi, ?_⟩
        rw [String.toList_ofList, hc, e1]
    · rw [if_neg hc] at h
      cases hq : classP isPlain nonempty s with
      | none => rw [hq] at h; cases h
      | some x =>
        rw [hq] at h
        obtain ⟨q, r'⟩ := x
        simp only [Option.map_some, Option.some.injEq, Prod.mk.injEq] at h
        obtain ⟨rfl, rfl⟩ := h
        refine class_sound (t := .plain q) hq rfl rfl (fun h1 h2 => ⟨?_, h1⟩) hr
        intro h3; rw [h3] at h2; simp [nonempty] at h2

theorem value_complete (n : Nat) : Complete n valueP (fun a => [valueTok a]) Any Any := by
  intro R a ts s _ _ _ h
  cases a with
  | quoted q =>
    cases h with
    | @cons w rest _ _ hw hv hm hr =>
      refine ⟨rest, ?_, hr⟩
      obtain ⟨inner, hi, e⟩ := hv
      have hk : skip (w ++ ((valueTok (.quoted q)).text ++ rest)) = '"' :: (inner ++ ('"' :: rest)) := by
        have : (valueTok (.quoted q)).text ++ rest = '"' :: (inner ++ ('"' :: rest)) := by
          simp [valueTok, Tok.text, e]
        rw [this]
        exact skip_append hw (by intro c hc; simp at hc; subst hc; decide)
      unfold valueP
      rw [hk]
      simp only [if_pos, quotedRest_complete hi rest, Option.map_some]
      rw [← e, String.ofList_toList]
  | plain q =>
    have hq := class_complete (p := isPlain) (ok := nonempty) (t := .plain q) rfl rfl
      (fun hv => ⟨hv.2, by simpa [nonempty] using hv.1, hv.1⟩) (ws_of (p := isPlain) (by decide)) h
    obtain ⟨r, h1, h2⟩ := hq
    refine ⟨r, ?_, h2⟩
    have h0 := h1
    unfold classP at h0
    split at h0
    · rename_i hok
      unfold valueP
      cases hs : skip s with
      | nil => rw [hs] at hok; exact absurd hok (by decide)
      | cons c t =>
        have hc : ¬ c = '"' := by
          rintro rfl
          rw [hs] at hok
          revert hok
          rw [List.takeWhile_cons_of_neg (by decide)]
          decide
        simp only [if_neg hc, h1, Option.map_some]
    · cases h0

/-! ### Combinators -/

theorem thenKw_sound {α : Type} {p : List Char → Option (α × List Char)} {tk : α → List Tok} {V : α → Prop}
    {k : List Char} (hk : (Tok.kw k).Valid) (hp : Sound p tk V) :
    Sound (thenKw p k) (fun a => tk a ++ [.kw k]) V := by
  intro s a r h
  unfold thenKw at h
  cases hs : p s with
  | none => rw [hs] at h; cases h
  | some x =>
    obtain ⟨a', r'⟩ := x
    rw [hs] at h
    simp only at h
    cases hr : kwP k r' with
    | none => rw [hr] at h; cases h
    | some r'' =>
      rw [hr] at h
      simp only [Option.map_some, Option.some.injEq, Prod.mk.injEq] at h
      obtain ⟨rfl, rfl⟩ := h
      obtain ⟨h1, h2⟩ := hp _ _ _ hs
      refine ⟨h1, fun ts ht => ?_⟩
      simpa using h2 _ (kw_sound hk hr ht)

theorem thenKw_complete {α : Type} {n : Nat} {p : List Char → Option (α × List Char)} {tk : α → List Tok}
    {V : α → Prop} {F : List Tok → Prop} {k : List Char} (hp : Complete n p tk V F)
    (hF : ∀ ts, F (.kw k :: ts)) : Complete n (thenKw p k) (fun a => tk a ++ [.kw k]) V Any := by
  intro R a ts s hv _ hn h
  obtain ⟨r, h1, h2⟩ := hp a (.kw k :: ts) s hv (hF ts) (by simpa using hn) (by simpa using h)
  obtain ⟨r', h3, h4⟩ := kw_complete h2
  exact ⟨r', by simp [thenKw, h1, h3], h4⟩

theorem kwThen_sound {α : Type} {p : List Char → Option (α × List Char)} {tk : α → List Tok} {V : α → Prop}
    {k : List Char} (hk : (Tok.kw k).Valid) (hp : Sound p tk V) :
    Sound (kwThen k p) (fun a => .kw k :: tk a) V := by
  intro s a r h
  unfold kwThen at h
  cases hs : kwP k s with
  | none => rw [hs] at h; cases h
  | some r' =>
    rw [hs] at h
    obtain ⟨h1, h2⟩ := hp _ _ _ h
    exact ⟨h1, fun ts ht => kw_sound hk hs (h2 _ ht)⟩

theorem kwThen_complete {α : Type} {n : Nat} {p : List Char → Option (α × List Char)} {tk : α → List Tok}
    {V : α → Prop} {F : List Tok → Prop} {k : List Char} (hp : Complete n p tk V F) :
    Complete n (kwThen k p) (fun a => .kw k :: tk a) V F := by
  intro R a ts s hv hF hn h
  obtain ⟨r, h1, h2⟩ := kw_complete h
  simp only [List.cons_append, List.length_cons] at hn
  obtain ⟨r', h3, h4⟩ := hp a ts r hv hF (by omega) h2
  exact ⟨r', by simp [kwThen, h1, h3], h4⟩

theorem both_sound {α β : Type} {p : List Char → Option (α × List Char)} {tk : α → List Tok} {V : α → Prop}
    {q : List Char → Option (β × List Char)} {tk' : β → List Tok} {V' : β → Prop}
    (hp : Sound p tk V) (hq : Sound q tk' V') :
    Sound (both p q) (fun a => tk a.1 ++ tk' a.2) (fun a => V a.1 ∧ V' a.2) := by
  intro s a r h
  unfold both at h
  cases hs : p s with
  | none => rw [hs] at h; cases h
  | some x =>
    obtain ⟨a', r'⟩ := x
    rw [hs] at h
    simp only at h
    cases hr : q r' with
    | none => rw [hr] at h; cases h
    | some y =>
      rw [hr] at h
      obtain ⟨b, r''⟩ := y
      simp only [Option.map_some, Option.some.injEq, Prod.mk.injEq] at h
      obtain ⟨rfl, rfl⟩ := h
      obtain ⟨h1, h2⟩ := hp _ _ _ hs
      obtain ⟨h3, h4⟩ := hq _ _ _ hr
      refine ⟨⟨h1, h3⟩, fun ts ht => ?_⟩
      simpa using h2 _ (h4 _ ht)

theorem both_complete {α β : Type} {n : Nat} {p : List Char → Option (α × List Char)} {tk : α → List Tok}
    {V : α → Prop} {q : List Char → Option (β × List Char)} {tk' : β → List Tok} {V' : β → Prop}
    {F F' : List Tok → Prop} (hp : Complete n p tk V F) (hq : Complete n q tk' V' F')
    (hF : ∀ b ts, V' b → F' ts → F (tk' b ++ ts)) :
    Complete n (both p q) (fun a => tk a.1 ++ tk' a.2) (fun a => V a.1 ∧ V' a.2) F' := by
  intro R a ts s hv hF' hn h
  simp only [List.append_assoc] at hn h
  obtain ⟨r, h1, h2⟩ := hp a.1 _ s hv.1 (hF a.2 ts hv.2 hF') hn h
  obtain ⟨r', h3, h4⟩ := hq a.2 ts r hv.2 hF' (by simp only [List.length_append] at hn ⊢; omega) h2
  exact ⟨r', by simp [both, h1, h3], h4⟩

theorem comma_sound {α : Type} {item : List Char → Option (α × List Char)} {f : α → Tok}
    (hi : Sound item (fun a => [f a]) Any) (n : Nat) : Sound (commaP item n) (commaTok f) (· ≠ []) := by
  induction n with
  | zero => intro s a r h; cases h
  | succ n ih =>
    intro s a r h
    simp only [commaP] at h
    cases hs : item s with
    | none => rw [hs] at h; cases h
    | some x =>
      obtain ⟨x, r'⟩ := x
      rw [hs] at h
      simp only at h
      cases hc : kwP [','] r' with
      | none =>
        rw [hc] at h
        simp only [Option.some.injEq, Prod.mk.injEq] at h
        obtain ⟨rfl, rfl⟩ := h
        exact ⟨by simp, fun ts ht => (hi _ _ _ hs).2 ts ht⟩
      | some r'' =>
        rw [hc] at h
        simp only at h
        cases hq : commaP item n r'' with
        | none => rw [hq] at h; cases h
        | some y =>
          obtain ⟨l, r3⟩ := y
          rw [hq] at h
          simp only [Option.map_some, Option.some.injEq, Prod.mk.injEq] at h
          obtain ⟨rfl, rfl⟩ := h
          obtain ⟨h1, h2⟩ := ih _ _ _ hq
          refine ⟨by simp, fun ts ht => ?_⟩
          cases l with
          | nil => exact absurd rfl h1
          | cons y l =>
            exact (hi _ _ _ hs).2 _ (kw_sound ⟨by simp, by simp; decide⟩ hc (h2 ts ht))

theorem comma_complete {α : Type} {N : Nat} {item : List Char → Option (α × List Char)} {f : α → Tok}
    (hi : Complete N item (fun a => [f a]) Any Any) (n : Nat) (a : List α) (ts : List Tok) (s : List Char)
    (ha : a ≠ []) (hF : Avoids ',' ts) (hN : (commaTok f a ++ ts).length < N) (hn : a.length ≤ n)
    (h : SpellsThen R (commaTok f a ++ ts) s) : ∃ r, commaP item n s = some (a, r) ∧ SpellsThen R ts r := by
  induction n generalizing a s with
  | zero => exact absurd (List.length_eq_zero_iff.mp (by omega)) ha
  | succ n ih =>
    match a, ha, hN, hn, h with
    | [x], _, hN, _, h =>
      obtain ⟨r, h1, h2⟩ := hi x ts s trivial trivial hN h
      exact ⟨r, by simp [commaP, h1, kw_none hF h2], h2⟩
    | x :: y :: l, _, hN, hn, h =>
      obtain ⟨r, h1, h2⟩ := hi x (.kw [','] :: (commaTok f (y :: l) ++ ts)) s trivial trivial hN h
      obtain ⟨r', h3, h4⟩ := kw_complete h2
      obtain ⟨r'', h5, h6⟩ := ih (y :: l) r' (by simp)
        (by simp only [commaTok, List.cons_append, List.length_cons] at hN ⊢; omega) (by simpa using hn) h4
      exact ⟨r'', by simp [commaP, h1, h3, h5], h6⟩

theorem comma_length {α : Type} (f : α → Tok) (l : List α) : l.length ≤ (commaTok f l).length := by
  induction l with
  | nil => simp
  | cons x l ih =>
    cases l with
    | nil => simp [commaTok]
    | cons y l => simp only [commaTok, List.length_cons] at ih ⊢; omega

theorem comma_complete' {α : Type} {n : Nat} {item : List Char → Option (α × List Char)} {f : α → Tok}
    (hi : Complete n item (fun a => [f a]) Any Any) :
    Complete n (commaP item n) (commaTok f) (· ≠ []) (Avoids ',') := by
  intro R a ts s ha hF hn h
  have := comma_length f a
  simp only [List.length_append] at hn
  exact comma_complete hi n a ts s ha hF (by simpa using hn) (by omega) h

theorem many_sound {α : Type} {item : List Char → Option (α × List Char)} {tk : α → List Tok} {V : α → Prop}
    {k : List Char} (hk : (Tok.kw k).Valid) (hi : Sound item tk V) (n : Nat) :
    Sound (manyP k item n) (fun l => l.flatMap (fun a => .kw k :: tk a)) (fun l => ∀ a ∈ l, V a) := by
  induction n with
  | zero => intro s a r h; cases h
  | succ n ih =>
    intro s a r h
    simp only [manyP] at h
    cases hs : kwP k s with
    | none =>
      rw [hs] at h
      simp only [Option.some.injEq, Prod.mk.injEq] at h
      obtain ⟨rfl, rfl⟩ := h
      exact ⟨by simp, fun ts ht => by simpa using ht⟩
    | some r' =>
      rw [hs] at h
      simp only at h
      cases hx : item r' with
      | none => rw [hx] at h; cases h
      | some x =>
        obtain ⟨x, r2⟩ := x
        rw [hx] at h
        simp only at h
        cases hq : manyP k item n r2 with
        | none => rw [hq] at h; cases h
        | some y =>
          obtain ⟨l, r3⟩ := y
          rw [hq] at h
          simp only [Option.map_some, Option.some.injEq, Prod.mk.injEq] at h
          obtain ⟨rfl, rfl⟩ := h
          obtain ⟨h1, h2⟩ := ih _ _ _ hq
          obtain ⟨h3, h4⟩ := hi _ _ _ hx
          refine ⟨by simpa using ⟨h3, h1⟩, fun ts ht => ?_⟩
          have := kw_sound hk hs (h4 _ (h2 ts ht))
          simpa using this

theorem many_complete {α : Type} {N : Nat} {item : List Char → Option (α × List Char)} {tk : α → List Tok}
    {V : α → Prop} {c : Char} {k : List Char} (hi : Complete N item tk V Any) (n : Nat) (a : List α)
    (ts : List Tok) (s : List Char) (ha : ∀ x ∈ a, V x) (hF : Avoids c ts)
    (hN : (a.flatMap (fun a => .kw (c :: k) :: tk a) ++ ts).length < N) (hn : a.length < n)
    (h : SpellsThen R (a.flatMap (fun a => .kw (c :: k) :: tk a) ++ ts) s) :
    ∃ r, manyP (c :: k) item n s = some (a, r) ∧ SpellsThen R ts r := by
  induction n generalizing a s with
  | zero => omega
  | succ n ih =>
    cases a with
    | nil => exact ⟨s, by simp [manyP, kw_none hF h], h⟩
    | cons x l =>
      simp only [List.flatMap_cons, List.cons_append, List.append_assoc, List.length_cons] at hN h
      obtain ⟨r, h1, h2⟩ := kw_complete h
      obtain ⟨r', h3, h4⟩ := hi x _ r (ha x (by simp)) trivial (by omega) h2
      obtain ⟨r'', h5, h6⟩ := ih l r' (fun y hy => ha y (by simp [hy]))
        (by simp only [List.length_append] at hN ⊢; omega) (by simpa using hn) h4
      exact ⟨r'', by simp [manyP, h1, h3, h5], h6⟩

theorem flat_length {α : Type} (k : Tok) (tk : α → List Tok) (l : List α) :
    l.length ≤ (l.flatMap (fun a => k :: tk a)).length := by
  induction l with
  | nil => simp
  | cons x l ih => simp only [List.flatMap_cons, List.length_append, List.length_cons] at ih ⊢; omega

theorem many_complete' {α : Type} {n : Nat} {item : List Char → Option (α × List Char)} {tk : α → List Tok}
    {V : α → Prop} {c : Char} {k : List Char} (hi : Complete n item tk V Any) :
    Complete n (manyP (c :: k) item n) (fun l => l.flatMap (fun a => .kw (c :: k) :: tk a))
      (fun l => ∀ a ∈ l, V a) (Avoids c) := by
  intro R a ts s ha hF hn h
  have := flat_length (.kw (c :: k)) tk a
  simp only [List.length_append] at hn
  exact many_complete hi n a ts s ha hF (by simpa using hn) (by omega) h

/-! ### The rules of the grammar -/

theorem Sound.congr {α : Type} {p : List Char → Option (α × List Char)} {tk tk' : α → List Tok} {V V' : α → Prop}
    (h : Sound p tk V) (ht : ∀ a, tk a = tk' a) (hv : ∀ a, V a → V' a) : Sound p tk' V' := by
  intro s a r hs
  obtain ⟨h1, h2⟩ := h s a r hs
  exact ⟨hv a h1, ht a ▸ h2⟩

theorem Complete.congr {α : Type} {n : Nat} {p : List Char → Option (α × List Char)} {tk tk' : α → List Tok}
    {V V' : α → Prop} {F F' : List Tok → Prop} (h : Complete n p tk V F) (ht : ∀ a, tk a = tk' a)
    (hv : ∀ a, V' a → V a) (hF : ∀ ts, F' ts → F ts) : Complete n p tk' V' F' := by
  intro R a ts s h1 h2 h3 h4
  rw [← ht a] at h3 h4
  exact h a ts s (hv a h1) (hF ts h2) h3 h4

theorem props_sound (n : Nat) : Sound (propsP n) (fun ps => propsTok ps ++ [.kw ['}']]) Any :=
  (thenKw_sound (by simp [Tok.Valid]; decide) (many_sound (by simp [Tok.Valid]; decide)
    (thenKw_sound (by simp [Tok.Valid]; decide) (both_sound word_sound value_sound)) n)).congr
    (fun _ => rfl) (fun _ _ => trivial)

theorem props_complete (n : Nat) : Complete n (propsP n) (fun ps => propsTok ps ++ [.kw ['}']]) Any Any :=
  (thenKw_complete (many_complete' (thenKw_complete (both_complete (word_complete n) (value_complete n)
    (fun _ _ _ _ => trivial)) (fun _ => trivial)))
    (fun _ => ⟨_, _, _, rfl, by decide⟩)).congr
    (fun _ => rfl) (fun _ _ => fun _ _ => ⟨trivial, trivial⟩) (fun _ h => h)

theorem type_sound (n : Nat) : Sound (typeP n) (fun a => typeTok a.1 a.2) (fun a => a.2 ≠ []) :=
  (kwThen_sound (by simp [Tok.Valid]; decide) (kwThen_sound (by simp [Tok.Valid]; decide)
    (kwThen_sound (by simp [Tok.Valid]; decide) (both_sound (thenKw_sound (by simp [Tok.Valid]; decide) int_sound)
      (thenKw_sound (by simp [Tok.Valid]; decide) (thenKw_sound (by simp [Tok.Valid]; decide)
        (kwThen_sound (by simp [Tok.Valid]; decide) (comma_sound word_sound n)))))))).congr
    (fun a => by simp [typeTok]) (fun _ h => h.2)

theorem type_complete (n : Nat) : Complete n (typeP n) (fun a => typeTok a.1 a.2) (fun a => a.2 ≠ []) Any :=
  (kwThen_complete (kwThen_complete (kwThen_complete (both_complete
    (thenKw_complete (int_complete n) (fun _ => trivial))
    (thenKw_complete (thenKw_complete (kwThen_complete (comma_complete' (word_complete n)))
      (fun _ => ⟨_, _, _, rfl, by decide⟩)) (fun _ => trivial)) (fun _ _ _ _ => trivial))))).congr
    (fun a => by simp [typeTok]) (fun _ h => ⟨trivial, h⟩) (fun _ h => h)

theorem line_sound (n : Nat) : Sound (lineP n) (fun l => (commaTok .word l.1 ++ [.kw [')']]) ++
    (commaTok .num l.2 ++ [.kw [';']])) (fun l => l.1 ≠ [] ∧ l.2 ≠ []) :=
  both_sound (thenKw_sound (by simp [Tok.Valid]; decide) (comma_sound word_sound n))
    (thenKw_sound (by simp [Tok.Valid]; decide) (comma_sound num_sound n))

theorem line_complete (n : Nat) : Complete n (lineP n) (fun l => (commaTok .word l.1 ++ [.kw [')']]) ++
    (commaTok .num l.2 ++ [.kw [';']])) (fun l => l.1 ≠ [] ∧ l.2 ≠ []) Any :=
  both_complete (thenKw_complete (comma_complete' (word_complete n)) (fun _ => ⟨_, _, _, rfl, by decide⟩))
    (thenKw_complete (comma_complete' (num_complete n)) (fun _ => ⟨_, _, _, rfl, by decide⟩))
    (fun _ _ _ _ => trivial)

theorem lines_tok (lines : List (List String × List String)) : tableTok (.cond lines) =
    lines.flatMap (fun l => .kw ['('] :: ((commaTok .word l.1 ++ [.kw [')']]) ++ (commaTok .num l.2 ++ [.kw [';']]))) := by
  simp only [tableTok]
  congr 1
  funext l
  simp [lineTok]

theorem table_sound (n : Nat) : Sound (tableP n) tableTok TableOk := by
  intro s t r h
  unfold tableP at h
  cases hk : kwP ['t', 'a', 'b', 'l', 'e'] s with
  | some r' =>
    rw [hk] at h
    simp only at h
    cases hq : thenKw (commaP numP n) [';'] r' with
    | none => rw [hq] at h; cases h
    | some x =>
      obtain ⟨row, r2⟩ := x
      rw [hq] at h
      simp only [Option.map_some, Option.some.injEq, Prod.mk.injEq] at h
      obtain ⟨rfl, rfl⟩ := h
      obtain ⟨h1, h2⟩ := thenKw_sound (by simp [Tok.Valid]; decide) (comma_sound num_sound n) _ _ _ hq
      exact ⟨h1, fun ts ht => kw_sound (by simp [Tok.Valid]; decide) hk (h2 ts ht)⟩
  | none =>
    rw [hk] at h
    simp only at h
    cases hq : manyP ['('] (lineP n) n s with
    | none => rw [hq] at h; cases h
    | some x =>
      obtain ⟨lines, r2⟩ := x
      rw [hq] at h
      simp only at h
      obtain ⟨h1, h2⟩ := many_sound (by simp [Tok.Valid]; decide) (line_sound n) n _ _ _ hq
      cases hl : lines.isEmpty with
      | true => rw [hl] at h; cases h
      | false =>
        rw [hl] at h
        simp only [Bool.false_eq_true, if_false, Option.some.injEq, Prod.mk.injEq] at h
        obtain ⟨rfl, rfl⟩ := h
        refine ⟨⟨by simpa using hl, h1⟩, fun ts ht => ?_⟩
        rw [lines_tok]
        exact h2 ts ht

theorem table_complete (n : Nat) : Complete n (tableP n) tableTok TableOk (Avoids '(') := by
  intro R t ts s ht hF hn h
  cases t with
  | simple row =>
    simp only [tableTok, List.cons_append, List.length_cons] at hn h
    obtain ⟨r, h1, h2⟩ := kw_complete h
    obtain ⟨r', h3, h4⟩ := thenKw_complete (comma_complete' (num_complete n))
      (fun _ => ⟨_, _, _, rfl, by decide⟩) row ts r ht trivial
      (by show (commaTok Tok.num row ++ [Tok.kw [';']] ++ ts).length < n; omega) h2
    exact ⟨r', by simp [tableP, h1, h3], h4⟩
  | cond lines =>
    obtain ⟨hne, hl⟩ := ht
    have hk : kwP ['t', 'a', 'b', 'l', 'e'] s = none := by
      refine kw_none ?_ h
      cases lines with
      | nil => exact absurd rfl hne
      | cons l ls =>
        exact ⟨'(', [], _, rfl, by decide⟩
    rw [lines_tok] at hn h
    obtain ⟨r, h1, h2⟩ := many_complete' (line_complete n) lines ts s hl hF hn h
    refine ⟨r, ?_, h2⟩
    unfold tableP
    simp only [hk, h1]
    rw [if_neg (by simpa using hne)]

theorem parents_sound (n : Nat) : Sound (parentsP n) parentsTok Any := by
  intro s ps r h
  refine ⟨trivial, fun ts ht => ?_⟩
  unfold parentsP at h
  cases hk : kwP ['|'] s with
  | none =>
    rw [hk] at h
    simp only [Option.some.injEq, Prod.mk.injEq] at h
    obtain ⟨rfl, rfl⟩ := h
    exact ht
  | some r' =>
    rw [hk] at h
    obtain ⟨h1, h2⟩ := comma_sound word_sound n _ _ _ h
    cases ps with
    | nil => exact absurd rfl h1
    | cons p ps => exact kw_sound (by simp [Tok.Valid]; decide) hk (h2 ts ht)

theorem parents_complete (n : Nat) :
    Complete n (parentsP n) parentsTok Any (fun ts => Avoids ',' ts ∧ Avoids '|' ts) := by
  intro R ps ts s _ hF hn h
  cases ps with
  | nil => exact ⟨s, by simp [parentsP, kw_none hF.2 h], h⟩
  | cons p ps =>
    simp only [parentsTok, List.cons_append, List.length_cons] at hn h
    obtain ⟨r, h1, h2⟩ := kw_complete h
    obtain ⟨r', h3, h4⟩ := comma_complete' (word_complete n) (p :: ps) ts r (by simp) hF.1 (by omega) h2
    exact ⟨r', by simp [parentsP, h1, h3], h4⟩

theorem network_sound (n : Nat) : Sound (both (thenKw wordP ['{']) (propsP n))
    (fun b => ([.word b.1] ++ [.kw ['{']]) ++ (propsTok b.2 ++ [.kw ['}']])) Any :=
  (both_sound (thenKw_sound (by simp [Tok.Valid]; decide) word_sound) (props_sound n)).congr
    (fun _ => rfl) (fun _ _ => trivial)

theorem network_complete (n : Nat) : Complete n (both (thenKw wordP ['{']) (propsP n))
    (fun b => ([.word b.1] ++ [.kw ['{']]) ++ (propsTok b.2 ++ [.kw ['}']])) Any Any :=
  (both_complete (thenKw_complete (word_complete n) (fun _ => trivial)) (props_complete n)
    (fun _ _ _ _ => trivial)).congr (fun _ => rfl) (fun _ _ => ⟨trivial, trivial⟩) (fun _ h => h)

theorem var_sound (n : Nat) : Sound (both (thenKw wordP ['{']) (both (typeP n) (propsP n)))
    (fun b => ([.word b.1] ++ [.kw ['{']]) ++ (typeTok b.2.1.1 b.2.1.2 ++ (propsTok b.2.2 ++ [.kw ['}']])))
    (fun b => b.2.1.2 ≠ []) :=
  (both_sound (thenKw_sound (by simp [Tok.Valid]; decide) word_sound) (both_sound (type_sound n) (props_sound n))).congr
    (fun _ => rfl) (fun _ h => h.2.1)

theorem var_complete (n : Nat) : Complete n (both (thenKw wordP ['{']) (both (typeP n) (propsP n)))
    (fun b => ([.word b.1] ++ [.kw ['{']]) ++ (typeTok b.2.1.1 b.2.1.2 ++ (propsTok b.2.2 ++ [.kw ['}']])))
    (fun b => b.2.1.2 ≠ []) Any :=
  (both_complete (thenKw_complete (word_complete n) (fun _ => trivial))
    (both_complete (type_complete n) (props_complete n) (fun _ _ _ _ => trivial))
    (fun _ _ _ _ => trivial)).congr (fun _ => rfl) (fun _ h => ⟨trivial, h, trivial⟩) (fun _ h => h)

theorem prob_sound (n : Nat) : Sound
    (both (both (kwThen ['('] wordP) (thenKw (thenKw (parentsP n) [')']) ['{'])) (both (tableP n) (propsP n)))
    (fun b => ((.kw ['('] :: [.word b.1.1]) ++ ((parentsTok b.1.2 ++ [.kw [')']]) ++ [.kw ['{']])) ++
      (tableTok b.2.1 ++ (propsTok b.2.2 ++ [.kw ['}']]))) (fun b => TableOk b.2.1) :=
  (both_sound (both_sound (kwThen_sound (by simp [Tok.Valid]; decide) word_sound)
    (thenKw_sound (by simp [Tok.Valid]; decide) (thenKw_sound (by simp [Tok.Valid]; decide) (parents_sound n))))
    (both_sound (table_sound n) (props_sound n))).congr (fun _ => rfl) (fun _ h => h.2.1)

theorem prob_complete (n : Nat) : Complete n
    (both (both (kwThen ['('] wordP) (thenKw (thenKw (parentsP n) [')']) ['{'])) (both (tableP n) (propsP n)))
    (fun b => ((.kw ['('] :: [.word b.1.1]) ++ ((parentsTok b.1.2 ++ [.kw [')']]) ++ [.kw ['{']])) ++
      (tableTok b.2.1 ++ (propsTok b.2.2 ++ [.kw ['}']]))) (fun b => TableOk b.2.1) Any :=
  (both_complete (both_complete (kwThen_complete (word_complete n))
    (thenKw_complete (thenKw_complete (parents_complete n)
      (fun _ => ⟨⟨_, _, _, rfl, by decide⟩, ⟨_, _, _, rfl, by decide⟩⟩)) (fun _ => trivial))
    (fun _ _ _ _ => trivial))
    (both_complete (table_complete n) (props_complete n) (fun ps ts _ _ => by
      cases ps with
      | nil => exact ⟨_, _, _, rfl, by decide⟩
      | cons p ps => exact ⟨_, _, _, rfl, by decide⟩))
    (fun _ _ _ _ => trivial)).congr (fun _ => rfl) (fun _ h => ⟨⟨trivial, trivial⟩, h, trivial⟩) (fun _ h => h)

theorem skip_empty {s : List Char} (h : skip s = []) : s.all isWs = true := by
  obtain ⟨h1, h2⟩ := skip_split s
  rw [h, List.append_nil] at h1
  rw [h1]; exact h2

theorem blocks_sound (n m : Nat) (s : List Char) (doc : List Block) (h : blocksP n m s = some doc) :
    Derives doc s := by
  induction m generalizing s doc with
  | zero => cases h
  | succ m ih =>
    simp only [blocksP] at h
    cases h1 : kwP ['n', 'e', 't', 'w', 'o', 'r', 'k'] s with
    | some r =>
      rw [h1] at h
      simp only at h
      cases h2 : both (thenKw wordP ['{']) (propsP n) r with
      | none => rw [h2] at h; cases h
      | some x =>
        obtain ⟨b, r'⟩ := x
        rw [h2] at h
        simp only at h
        cases h3 : blocksP n m r' with
        | none => rw [h3] at h; cases h
        | some bs =>
          rw [h3] at h
          simp only [Option.map_some, Option.some.injEq] at h
          subst h
          obtain ⟨k1, k2⟩ := ih _ _ h3
          obtain ⟨-, k3⟩ := network_sound n _ _ _ h2
          refine ⟨by simpa using ⟨trivial, k1⟩, ?_⟩
          have := kw_sound (by simp [Tok.Valid]; decide) h1 (k3 _ k2)
          simpa [docTok, blockTok] using this
    | none =>
      rw [h1] at h
      simp only at h
      cases h2 : kwP ['v', 'a', 'r', 'i', 'a', 'b', 'l', 'e'] s with
      | some r =>
        rw [h2] at h
        simp only at h
        cases h3 : both (thenKw wordP ['{']) (both (typeP n) (propsP n)) r with
        | none => rw [h3] at h; cases h
        | some x =>
          obtain ⟨b, r'⟩ := x
          rw [h3] at h
          simp only at h
          cases h4 : blocksP n m r' with
          | none => rw [h4] at h; cases h
          | some bs =>
            rw [h4] at h
            simp only [Option.map_some, Option.some.injEq] at h
            subst h
            obtain ⟨k1, k2⟩ := ih _ _ h4
            obtain ⟨k0, k3⟩ := var_sound n _ _ _ h3
            refine ⟨fun x hx => ?_, ?_⟩
            · rcases List.mem_cons.mp hx with rfl | hx
              · exact k0
              · exact k1 x hx
            · have := kw_sound (by simp [Tok.Valid]; decide) h2 (k3 _ k2)
              simpa [docTok, blockTok] using this
      | none =>
        rw [h2] at h
        simp only at h
        cases h3 : kwP ['p', 'r', 'o', 'b', 'a', 'b', 'i', 'l', 'i', 't', 'y'] s with
        | some r =>
          rw [h3] at h
          simp only at h
          cases h4 : both (both (kwThen ['('] wordP) (thenKw (thenKw (parentsP n) [')']) ['{']))
              (both (tableP n) (propsP n)) r with
          | none => rw [h4] at h; cases h
          | some x =>
            obtain ⟨b, r'⟩ := x
            rw [h4] at h
            simp only at h
            cases h5 : blocksP n m r' with
            | none => rw [h5] at h; cases h
            | some bs =>
              rw [h5] at h
              simp only [Option.map_some, Option.some.injEq] at h
              subst h
              obtain ⟨k1, k2⟩ := ih _ _ h5
              obtain ⟨k0, k3⟩ := prob_sound n _ _ _ h4
              refine ⟨fun x hx => ?_, ?_⟩
              · rcases List.mem_cons.mp hx with rfl | hx
                · exact k0
                · exact k1 x hx
              · have := kw_sound (by simp [Tok.Valid]; decide) h3 (k3 _ k2)
                simpa [docTok, blockTok] using this
        | none =>
          rw [h3] at h
          simp only at h
          cases h4 : (skip s).isEmpty with
          | false => rw [h4] at h; cases h
          | true =>
            rw [h4] at h
            simp only [if_true, Option.some.injEq] at h
            subst h
            exact ⟨by simp, .nil (skip_empty (by simpa using h4))⟩

theorem block_step {n m : Nat} {R : List Char → Prop} {s : List Char} {b : Block} {ts : List Tok} (hb : BlockOk b)
    (hn : (blockTok b ++ ts).length < n) (hs : SpellsThen R (blockTok b ++ ts) s) :
    ∃ r, SpellsThen R ts r ∧ blocksP n (m + 1) s = (blocksP n m r).map (b :: ·) := by
  cases b with
  | network name props =>
    simp only [blockTok, List.cons_append, List.append_assoc, List.nil_append] at hs hn
    obtain ⟨r, h1, h2⟩ := kw_complete hs
    obtain ⟨r', h3, h4⟩ := network_complete n (name, props) ts r trivial trivial
      (by simp only [List.length_cons, List.length_append, List.cons_append, List.nil_append, List.length_nil] at hn ⊢; omega)
      (by simpa using h2)
    exact ⟨r', h4, by simp only [blocksP, h1, h3]⟩
  | var name count values props =>
    simp only [blockTok, List.cons_append, List.append_assoc, List.nil_append] at hs hn
    have e1 : kwP ['n', 'e', 't', 'w', 'o', 'r', 'k'] s = none := kw_none ⟨_, _, _, rfl, by decide⟩ hs
    obtain ⟨r, h1, h2⟩ := kw_complete hs
    obtain ⟨r', h3, h4⟩ := var_complete n (name, (count, values), props) ts r hb trivial
      (by simp only [List.length_cons, List.length_append, List.cons_append, List.nil_append, List.length_nil] at hn ⊢; omega)
      (by simpa using h2)
    exact ⟨r', h4, by simp only [blocksP, e1, h1, h3]⟩
  | prob name parents table props =>
    simp only [blockTok, List.cons_append, List.append_assoc, List.nil_append] at hs hn
    have e1 : kwP ['n', 'e', 't', 'w', 'o', 'r', 'k'] s = none := kw_none ⟨_, _, _, rfl, by decide⟩ hs
    have e2 : kwP ['v', 'a', 'r', 'i', 'a', 'b', 'l', 'e'] s = none := kw_none ⟨_, _, _, rfl, by decide⟩ hs
    obtain ⟨r, h1, h2⟩ := kw_complete hs
    obtain ⟨r', h3, h4⟩ := prob_complete n ((name, parents), table, props) ts r hb trivial
      (by simp only [List.length_cons, List.length_append, List.cons_append, List.nil_append, List.length_nil] at hn ⊢; omega)
      (by simpa using h2)
    exact ⟨r', h4, by simp only [blocksP, e1, e2, h1, h3]⟩

theorem docTok_cons (b : Block) (bs : List Block) : docTok (b :: bs) = blockTok b ++ docTok bs := by simp [docTok]

theorem docTok_append (a b : List Block) : docTok (a ++ b) = docTok a ++ docTok b := by simp [docTok]

theorem blocks_then {n : Nat} {R : List Char → Prop} (m : Nat) (s : List Char) (doc : List Block)
    (hb : ∀ b ∈ doc, BlockOk b) (hn : (docTok doc).length < n) (hs : SpellsThen R (docTok doc) s) :
    ∃ r, R r ∧ blocksP n (m + doc.length) s = (blocksP n m r).map (doc ++ ·) := by
  induction doc generalizing s with
  | nil =>
    cases hs with
    | nil h => exact ⟨s, h, by cases blocksP n m s <;> simp⟩
  | cons b bs ih =>
    rw [docTok_cons] at hn hs
    obtain ⟨r, h1, h2⟩ := block_step (m := m + bs.length) (hb b (by simp)) hn hs
    obtain ⟨r', h3, h4⟩ := ih r (fun x hx => hb x (by simp [hx]))
      (by simp only [List.length_append] at hn; omega) h1
    refine ⟨r', h3, ?_⟩
    rw [List.length_cons, ← Nat.add_assoc, h2, h4]
    cases blocksP n m r' <;> simp

theorem blocks_ws (n m : Nat) (s : List Char) (h : s.all isWs = true) : blocksP n (m + 1) s = some [] := by
  have e4 : skip s = [] := by simpa using skip_append (r := []) h (by simp)
  have hk : ∀ c k, kwP (c :: k) s = none := fun c k => by rw [kwP, e4]; rfl
  simp only [blocksP, hk, e4]
  rfl

theorem blocks_complete (n m : Nat) (s : List Char) (doc : List Block) (hm : doc.length < m)
    (hn : (docTok doc).length < n) (h : Derives doc s) : blocksP n m s = some doc := by
  obtain ⟨k, rfl⟩ : ∃ k, m = (k + 1) + doc.length := ⟨m - doc.length - 1, by omega⟩
  obtain ⟨r, h1, h2⟩ := blocks_then (k + 1) s doc h.1 hn h.2
  rw [h2, blocks_ws n k r h1]
  simp

theorem valid_ne {t : Tok} (h : t.Valid) : 1 ≤ t.text.length := by
  cases t with
  | kw k => exact List.length_pos_iff.mpr h.1
  | word s => exact List.length_pos_iff.mpr h.1
  | plain s => exact List.length_pos_iff.mpr h.1
  | quoted s => obtain ⟨i, _, e⟩ := h; simp only [Tok.text, e, List.length_cons]; omega
  | num s => exact List.length_pos_iff.mpr (isNumber_ne h.2)
  | int s => exact List.length_pos_iff.mpr h.1

theorem spells_length {ts : List Tok} {s : List Char} (h : Spells ts s) : ts.length ≤ s.length := by
  induction h with
  | nil _ => simp
  | cons _ hv _ _ ih =>
    have := valid_ne hv
    simp only [List.length_cons, List.length_append]
    omega

theorem doc_length (doc : List Block) : doc.length ≤ (docTok doc).length := by
  induction doc with
  | nil => simp
  | cons b bs ih =>
    have : 1 ≤ (blockTok b).length := by
      cases b <;> (simp only [blockTok, List.length_cons]; omega)
    have hd : docTok (b :: bs) = blockTok b ++ docTok bs := by simp [docTok]
    rw [hd, List.length_append, List.length_cons]
    omega

/-! ## The theorems -/

/-- **C110**: the recursive-descent parser accepts exactly the texts of the grammar, and gives the document
they are derived from. -/
theorem bif_parser_exact (s : List Char) (doc : List Block) : parseText s = some doc ↔ Derives doc s := by
  refine ⟨blocks_sound _ _ _ _, fun h => ?_⟩
  have h1 := spells_length h.2
  have h2 := doc_length doc
  exact blocks_complete _ _ _ _ (by omega) (by omega) h

/-- **C110**: the grammar is unambiguous: a text is a text of at most one document. -/
theorem bif_grammar_unambiguous (s : List Char) (doc doc' : List Block) (h : Derives doc s) (h' : Derives doc' s) :
    doc = doc' := by
  rw [← bif_parser_exact] at h h'
  rw [h] at h'
  exact Option.some.inj h'

/-! ## Cutting and joining texts -/

theorem spells_valid {R : List Char → Prop} {ts : List Tok} {s : List Char} (h : SpellsThen R ts s) :
    ∀ t ∈ ts, t.Valid := by
  induction h with
  | nil _ => simp
  | cons _ hv _ _ ih => simpa using ⟨hv, ih⟩

theorem spells_cut {R : List Char → Prop} (a b : List Tok) (s : List Char) (h : SpellsThen R (a ++ b) s) :
    ∃ s' t, s = s' ++ t ∧ Spells a s' ∧ SpellsThen R b t := by
  induction a generalizing s with
  | nil => exact ⟨[], s, rfl, .nil rfl, h⟩
  | cons x a ih =>
    cases h with
    | @cons w rest _ _ hw hv hm hr =>
      obtain ⟨s', t, rfl, h1, h2⟩ := ih rest hr
      refine ⟨w ++ (x.text ++ s'), t, by simp, .cons hw hv (fun c hc => hm c ?_) h1, h2⟩
      cases s' with
      | nil => simp at hc
      | cons d s' => simpa using hc

/-- The last token, if any, is a keyword or a punctuation mark.
(Models no code: a notion for statements and proofs.) -/
def Closed (ts : List Tok) : Prop := ∀ t ∈ ts.getLast?, t.more = fun _ => false

theorem spells_join {R R' : List Char → Prop} (a : List Tok) (s t : List Char) (ha : Closed a)
    (h : SpellsThen R a s) (hR : ∀ w, R w → R' (w ++ t)) : SpellsThen R' a (s ++ t) := by
  induction h with
  | nil hw => exact .nil (hR _ hw)
  | @cons w rest x ts hw hv hm hr ih =>
    have e : w ++ (x.text ++ rest) ++ t = w ++ (x.text ++ (rest ++ t)) := by simp
    rw [e]
    cases ts with
    | nil =>
      refine .cons hw hv (fun c _ => ?_) (ih (by simp [Closed]))
      rw [ha x (by simp)]
    | cons y ts =>
      refine .cons hw hv (fun c hc => hm c ?_) (ih (by
        intro u hu
        exact ha u (by simpa [List.getLast?_cons_cons] using hu)))
      cases hr with
      | @cons w' rest' _ _ _ hv' _ _ =>
        have := valid_ne hv'
        cases w' with
        | nil =>
          cases hx : y.text with
          | nil => rw [hx] at this; simp at this
          | cons d l => rw [hx] at hc; simpa using hc
        | cons d l => simpa using hc

theorem blockTok_last (b : Block) : ∃ l, blockTok b = l ++ [.kw ['}']] := by
  have hc : ∀ (x : Tok) (l : List Tok), (∃ m, l = m ++ [Tok.kw ['}']]) → ∃ m, x :: l = m ++ [Tok.kw ['}']] :=
    fun x l ⟨m, e⟩ => ⟨x :: m, by simp [e]⟩
  have ha : ∀ (k l : List Tok), (∃ m, l = m ++ [Tok.kw ['}']]) → ∃ m, k ++ l = m ++ [Tok.kw ['}']] :=
    fun k l ⟨m, e⟩ => ⟨k ++ m, by simp [e]⟩
  have h0 : ∃ m, [Tok.kw ['}']] = m ++ [Tok.kw ['}']] := ⟨[], rfl⟩
  cases b with
  | network name props => exact hc _ _ (hc _ _ (hc _ _ (ha _ _ h0)))
  | var name count values props => exact hc _ _ (hc _ _ (hc _ _ (ha _ _ (ha _ _ h0))))
  | prob name parents table props =>
    exact hc _ _ (hc _ _ (hc _ _ (ha _ _ (hc _ _ (hc _ _ (ha _ _ (ha _ _ h0)))))))

theorem doc_closed (doc : List Block) : Closed (docTok doc) := by
  rcases List.eq_nil_or_concat doc with rfl | ⟨l, b, rfl⟩
  · simp [Closed, docTok]
  · obtain ⟨m, hm⟩ := blockTok_last b
    have e : docTok (l ++ [b]) = (docTok l ++ m) ++ [.kw ['}']] := by simp [docTok, hm]
    intro t ht
    rw [List.concat_eq_append, e, List.getLast?_append] at ht
    simp at ht
    subst ht
    rfl

theorem spells_ws {ts : List Tok} {w s : List Char} (hw : w.all isWs = true) (h : Spells ts s) : Spells ts (w ++ s) := by
  cases h with
  | nil hs => exact .nil (by rw [List.all_append, hw]; simpa using hs)
  | @cons w' rest _ _ hw' hv hm hr =>
    rw [← List.append_assoc]
    exact .cons (by rw [List.all_append, hw, hw']; rfl) hv hm hr

theorem spells_append {R : List Char → Prop} (a b : List Tok) (s : List Char)
    (h : SpellsThen (fun r => SpellsThen R b r) a s) : SpellsThen R (a ++ b) s := by
  induction a generalizing s with
  | nil => cases h with | nil h => exact h
  | cons x a ih =>
    cases h with
    | @cons w rest _ _ hw hv hm hr => exact .cons hw hv hm (ih rest hr)

/-- **C110**: two texts after each other are a text of the two documents after each other. -/
theorem bif_texts_join (a b : List Block) (s t : List Char) (ha : Derives a s) (hb : Derives b t) :
    Derives (a ++ b) (s ++ t) := by
  refine ⟨fun x hx => ?_, ?_⟩
  · rcases List.mem_append.mp hx with hx | hx
    · exact ha.1 x hx
    · exact hb.1 x hx
  · rw [docTok_append]
    exact spells_append _ _ _ (spells_join _ s t (doc_closed a) ha.2 (fun w hw => spells_ws hw hb.2))

/-- **C110**: a file that was cut off is either refused or read as a document of the first blocks of the whole:
whatever the text after the cut, if the beginning is accepted then its blocks are the first blocks. -/
theorem bif_truncated_is_prefix (s t : List Char) (doc doc' : List Block) (h : Derives doc (s ++ t))
    (h' : Derives doc' s) : doc' <+: doc := by
  have hs : SpellsThen (fun _ => True) (docTok doc') (s ++ t) :=
    spells_join _ s t (doc_closed doc') h'.2 (fun _ _ => trivial)
  have h1 := spells_length h'.2
  have h2 := doc_length doc'
  obtain ⟨k, hk⟩ : ∃ k, (s ++ t).length + 1 = k + doc'.length :=
    ⟨(s ++ t).length + 1 - doc'.length, by simp only [List.length_append]; omega⟩
  obtain ⟨r, -, h3⟩ := blocks_then (n := (s ++ t).length + 1) k (s ++ t) doc' h'.1
    (by simp only [List.length_append]; omega) hs
  rw [← bif_parser_exact, parseText] at h
  conv at h => lhs; arg 2; rw [hk]
  rw [h3] at h
  cases hq : blocksP ((s ++ t).length + 1) k r with
  | none => rw [hq] at h; cases h
  | some bs =>
    rw [hq] at h
    simp only [Option.map_some, Option.some.injEq] at h
    exact ⟨bs, h⟩

/-- **C110**: and every sequence of first blocks is what is read after some cut. -/
theorem bif_every_prefix_is_a_truncation (s : List Char) (a b : List Block) (h : Derives (a ++ b) s) :
    ∃ s' t, s = s' ++ t ∧ Derives a s' := by
  have hs := h.2
  rw [docTok_append] at hs
  obtain ⟨s', t, e, h1, -⟩ := spells_cut _ _ _ hs
  exact ⟨s', t, e, fun x hx => h.1 x (by simp [hx]), h1⟩

/-! ## Which documents have a text -/

/-- Every token after a space. (Specification.) -/
def spaced (ts : List Tok) : List Char := ts.flatMap (fun t => ' ' :: t.text)

theorem more_space (t : Tok) : t.more ' ' = false := by cases t <;> rfl

theorem spaced_spells (ts : List Tok) (h : ∀ t ∈ ts, t.Valid) : Spells ts (spaced ts) := by
  induction ts with
  | nil => exact .nil rfl
  | cons x ts ih =>
    have e : spaced (x :: ts) = [' '] ++ (x.text ++ spaced ts) := by simp [spaced]
    rw [e]
    refine .cons (by decide) (h x (by simp)) (fun c hc => ?_) (ih (fun t ht => h t (by simp [ht])))
    cases ts with
    | nil => simp [spaced] at hc
    | cons y ts =>
      simp [spaced] at hc
      subst hc
      exact more_space x

/-- **C110**: the documents that have a text are those whose names, values and numbers have the form of the
grammar's terminals and whose lists are not empty where the grammar wants an element. -/
theorem bif_text_exists (doc : List Block) :
    (∃ s, Derives doc s) ↔ (∀ b ∈ doc, BlockOk b) ∧ ∀ t ∈ docTok doc, t.Valid :=
  ⟨fun ⟨_, h⟩ => ⟨h.1, spells_valid h.2⟩, fun h => ⟨_, h.1, spaced_spells _ h.2⟩⟩

end Mbtk.Bif.Text
