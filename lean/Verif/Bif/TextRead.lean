import Verif.Bif.Text
import Mathlib.Tactic.Tauto
/-!
# Reading the text of a BIF file (C110)

`parse_bif_file` as a function of the text: lark's parser, then the chain of transformers (C62).  lark is any
function that returns the tree of the document of a text that the grammar derives, and raises for any other
text; by `bif_grammar_unambiguous` that determines what it returns.
-/
namespace Mbtk.Bif.Text
open Mbtk Mbtk.Bif Mbtk.Bif.Spec

/-! ## Specification -/

/-- What is trusted of lark: it parses texts of the grammar and raises for other texts.  (The call is
BayesianNetwork.py 781-782.) (Specification.) -/
structure CorrectLark (lark : List Char → Except Err Obj) : Prop where
  accepts : ∀ s doc, Derives doc s → lark s = .ok (docT doc)
  refuses : ∀ s, (¬ ∃ doc, Derives doc s) → ∃ e, lark s = .error e

/-- `parse_bif_file`: BayesianNetwork.py 777-785. -/
def readText (lark : List Char → Except Err Obj) (intOf : String → Int) (val : String → ℚ) (s : List Char) :
    Except Err Obj :=
  match lark s with
  | .error e => .error e
  | .ok tree => chain intOf val tree

/-- The parser of this model as a lark: BayesianNetwork.py 781-782. -/
def larkOf (s : List Char) : Except Err Obj :=
  match parseText s with
  | none => .error (.custom "UnexpectedInput")
  | some doc => .ok (docT doc)

/-- A name or a value of a variable: not empty, only letters, digits, `-` and `_`. (Specification.) -/
def IsName (s : String) : Prop :=
  s.toList ≠ [] ∧ ∀ c ∈ s.toList, ('a' ≤ c ∧ c ≤ 'z') ∨ ('A' ≤ c ∧ c ≤ 'Z') ∨ ('0' ≤ c ∧ c ≤ '9') ∨ c = '-' ∨ c = '_'

/-! ## Proofs -/

theorem larkOf_correct : CorrectLark larkOf := by
  constructor
  · intro s doc h
    rw [← bif_parser_exact] at h
    simp only [larkOf, h]
  · intro s h
    unfold larkOf
    cases hp : parseText s with
    | none => exact ⟨_, rfl⟩
    | some doc => exact absurd ⟨doc, (bif_parser_exact s doc).mp hp⟩ h

/-- **C110**: reading a text.  A text that the grammar does not derive raises; for any other text there is one
document, and the result is `KeyError` if a probability block mentions an undeclared variable, else the network
of the document. -/
theorem bif_text_read {lark : List Char → Except Err Obj} (hl : CorrectLark lark) (intOf : String → Int)
    (val : String → ℚ) (s : List Char) :
    ((¬ ∃ doc, Derives doc s) → ∃ e, readText lark intOf val s = .error e) ∧
    ∀ doc, Derives doc s →
      (AllDeclared doc → ∃ R, readText lark intOf val s = .ok (netObj R) ∧ Reads val doc R) ∧
      (¬ AllDeclared doc → readText lark intOf val s = .error .keyError) := by
  refine ⟨fun h => ?_, fun doc h => ?_⟩
  · obtain ⟨e, he⟩ := hl.refuses s h
    exact ⟨e, by simp only [readText, he]⟩
  · have : readText lark intOf val s = chain intOf val (docT doc) := by simp only [readText, hl.accepts s doc h]
    rw [this]
    exact bif_read_exact intOf val doc

/-- **C110**: the layout does not matter: two texts of the same document are read alike, by any lark. -/
theorem bif_layout_irrelevant {lark lark' : List Char → Except Err Obj} (hl : CorrectLark lark)
    (hl' : CorrectLark lark') (intOf : String → Int) (val : String → ℚ) {s s' : List Char} {doc : List Block}
    (h : Derives doc s) (h' : Derives doc s') : readText lark intOf val s = readText lark' intOf val s' := by
  simp only [readText, hl.accepts s doc h, hl'.accepts s' doc h']

theorem word_isName {s : String} (h : (Tok.word s).Valid) : IsName s := by
  refine ⟨h.1, fun c hc => ?_⟩
  have := List.all_eq_true.mp h.2 c hc
  simp only [isWord, isDig, Bool.or_eq_true, Bool.and_eq_true, decide_eq_true_eq] at this
  tauto

theorem comma_mem {α : Type} (f : α → Tok) (l : List α) (x : α) (hx : x ∈ l) : f x ∈ commaTok f l := by
  induction l with
  | nil => cases hx
  | cons y l ih =>
    cases l with
    | nil => simp only [List.mem_singleton] at hx; subst hx; simp [commaTok]
    | cons z l =>
      rcases List.mem_cons.mp hx with rfl | hx
      · simp [commaTok]
      · have := ih hx; simp only [commaTok, List.mem_cons]; exact .inr (.inr this)

/-- **C110**: every name of a variable, every value and every parent in an accepted text consists of letters,
digits, `-` and `_`: a file with a value like `0.5` or a name with a dot is refused. -/
theorem bif_names {s : List Char} {doc : List Block} (h : Derives doc s) :
    (∀ n vs, (n, vs) ∈ (varBlocks doc).map (fun b => (b.1, b.2.1)) → IsName n ∧ vs ≠ [] ∧ ∀ v ∈ vs, IsName v) ∧
    ∀ n ps, (n, ps) ∈ (probBlocks doc).map (fun b => (b.1, b.2.1)) → IsName n ∧ ∀ p ∈ ps, IsName p := by
  have hv := spells_valid h.2
  have hb := h.1
  clear h
  induction doc with
  | nil => exact ⟨fun n vs hm => absurd hm (by simp [varBlocks]), fun n ps hm => absurd hm (by simp [probBlocks])⟩
  | cons b bs ih =>
    have hd : docTok (b :: bs) = blockTok b ++ docTok bs := docTok_cons b bs
    have hv' : ∀ t ∈ blockTok b, t.Valid := fun t ht => hv t (by rw [hd]; simp [ht])
    obtain ⟨i1, i2⟩ := ih (fun t ht => hv t (by rw [hd]; simp [ht])) (fun x hx => hb x (by simp [hx]))
    have hb0 := hb b (by simp)
    cases b with
    | network name props => exact ⟨i1, i2⟩
    | var name count values props =>
      refine ⟨fun n vs hm => ?_, i2⟩
      simp only [varBlocks, List.map_cons, List.mem_cons, Prod.mk.injEq] at hm
      rcases hm with ⟨rfl, rfl⟩ | hm
      · refine ⟨word_isName (hv' _ (by simp [blockTok])), hb0, fun v hv2 => word_isName (hv' _ ?_)⟩
        have := comma_mem Tok.word vs v hv2
        simp only [blockTok, typeTok, List.mem_cons, List.mem_append]
        tauto
      · exact i1 n vs hm
    | prob name parents table props =>
      refine ⟨i1, fun n ps hm => ?_⟩
      simp only [probBlocks, List.map_cons, List.mem_cons, Prod.mk.injEq] at hm
      rcases hm with ⟨rfl, rfl⟩ | hm
      · refine ⟨word_isName (hv' _ (by simp [blockTok])), fun v hv2 => word_isName (hv' _ ?_)⟩
        have := comma_mem Tok.word ps v hv2
        have h2 : Tok.word v ∈ parentsTok ps := by
          cases ps with
          | nil => cases hv2
          | cons p ps => simp only [parentsTok, List.mem_cons]; exact .inr this
        simp only [blockTok, List.mem_cons, List.mem_append]
        tauto
      · exact i2 n ps hm

/-- **C110**: a file that was cut off anywhere and is still read gives the network of the first blocks of the
whole file. -/
theorem bif_truncated_read {lark : List Char → Except Err Obj} (hl : CorrectLark lark) (intOf : String → Int)
    (val : String → ℚ) (s t : List Char) (doc : List Block) (h : Derives doc (s ++ t)) (N : Obj)
    (hN : readText lark intOf val s = .ok N) :
    ∃ doc' R, doc' <+: doc ∧ AllDeclared doc' ∧ N = netObj R ∧ Reads val doc' R := by
  obtain ⟨h1, h2⟩ := bif_text_read hl intOf val s
  by_cases hd : ∃ doc', Derives doc' s
  · obtain ⟨doc', hd⟩ := hd
    obtain ⟨h3, h4⟩ := h2 doc' hd
    by_cases ha : AllDeclared doc'
    · obtain ⟨R, e, hR⟩ := h3 ha
      rw [e] at hN
      exact ⟨doc', R, bif_truncated_is_prefix s t doc doc' h hd, ha, (Except.ok.inj hN).symm, hR⟩
    · rw [h4 ha] at hN; cases hN
  · obtain ⟨e, he⟩ := h1 hd
    rw [he] at hN; cases hN

/-- **C110**: losing the tables is not noticed: if the first blocks of a file contain no probability block, then
there is a cut after which the file is read without an error, and the network has the declared variables and no
distribution at all. -/
theorem bif_cut_before_tables {lark : List Char → Except Err Obj} (hl : CorrectLark lark) (intOf : String → Int)
    (val : String → ℚ) (s : List Char) (a b : List Block) (h : Derives (a ++ b) s) (ha : probBlocks a = []) :
    ∃ s' t R, s = s' ++ t ∧ readText lark intOf val s' = .ok (netObj R) ∧
      (∀ n, n ∈ R.nodes.map Prod.fst ↔ n ∈ (varBlocks a).map Prod.fst) ∧ ∀ n v p, (n, v, p) ∈ R.nodes → p = none := by
  obtain ⟨s', t, e, h1⟩ := bif_every_prefix_is_a_truncation s a b h
  have had : AllDeclared a := by intro x hx; rw [ha] at hx; cases hx
  obtain ⟨R, h2, h3⟩ := ((bif_text_read hl intOf val s').2 a h1).1 had
  refine ⟨s', t, R, e, h2, h3.names, fun n v p hm => ?_⟩
  rw [h3.table n v p hm, ha]
  rfl

/-! ## A file of the repository, and texts that are refused -/

/-- Lines of text. (Example.) -/
def ofLines (l : List String) : List Char := l.flatMap (fun s => s.toList ++ ['\n'])

/-- The text of `tests/bif_files/survey.bif` 1-54: the lines of each block. (Example.) -/
def surveyParts : List (List String) :=
  [["network survey {", "  property testing yes;", "}"],
   ["variable AGE {", "  type discrete [ 3 ] { young, adult, old };", "  property label age;", "}"],
   ["variable SEX {", "  type discrete [ 2 ] { M, F };", "  property label sex;", "}"],
   ["variable EDU {", "  type discrete [ 2 ] { highschool, uni };", "  property label education;", "}"],
   ["variable OCC {", "  type discrete [ 2 ] { emp, self };", "  property label occupation;", "}"],
   ["variable R {", "  type discrete [ 2 ] { small, big };", "  property label unknown;", "}"],
   ["variable TRN {", "  type discrete [ 3 ] { car, train, other };", "  property label transportation;", "}"],
   ["probability ( AGE ) {", "  table 0.3, 0.5, 0.2;", "}"],
   ["probability ( SEX ) {", "  table 0.49, 0.51;", "}"],
   ["probability ( EDU | AGE, SEX ) {", "  (young, M) 0.75, 0.25;", "  (adult, M) 0.72, 0.28;", "  (old, M) 0.88, 0.12;", "  (young, F) 0.64, 0.36;", "  (adult, F) 0.7, 0.3;", "  (old, F) 0.9, 0.1;", "}"],
   ["probability ( OCC | EDU ) {", "  (highschool) 0.96, 0.04;", "  (uni) 0.92, 0.08;", "}"],
   ["probability ( R | EDU ) {", "  (highschool) 0.25, 0.75;", "  (uni) 0.2, 0.8;", "}"],
   ["probability ( TRN | OCC, R ) {", "  (emp, small) 0.48, 0.42, 0.10;", "  (self, small) 0.56, 0.36, 0.08;", "  (emp, big) 0.58, 0.24, 0.18;", "  (self, big) 0.70, 0.21, 0.09;", "}"]]

/-- The text of `tests/bif_files/survey.bif` 1-54. (Example.) -/
def surveyText : List Char := surveyParts.flatMap ofLines

/-- The document of that text. (Example.) -/
def surveyDoc : List Block :=
  [.network "survey" [("testing", .plain "yes")],
   .var "AGE" "3" ["young", "adult", "old"] [("label", .plain "age")],
   .var "SEX" "2" ["M", "F"] [("label", .plain "sex")],
   .var "EDU" "2" ["highschool", "uni"] [("label", .plain "education")],
   .var "OCC" "2" ["emp", "self"] [("label", .plain "occupation")],
   .var "R" "2" ["small", "big"] [("label", .plain "unknown")],
   .var "TRN" "3" ["car", "train", "other"] [("label", .plain "transportation")],
   .prob "AGE" [] (.simple ["0.3", "0.5", "0.2"]) [],
   .prob "SEX" [] (.simple ["0.49", "0.51"]) [],
   .prob
     "EDU"
     ["AGE", "SEX"]
     (.cond
       [(["young", "M"], ["0.75", "0.25"]),
        (["adult", "M"], ["0.72", "0.28"]),
        (["old", "M"], ["0.88", "0.12"]),
        (["young", "F"], ["0.64", "0.36"]),
        (["adult", "F"], ["0.7", "0.3"]),
        (["old", "F"], ["0.9", "0.1"])])
     [],
   .prob
     "OCC"
     ["EDU"]
     (.cond [(["highschool"], ["0.96", "0.04"]), (["uni"], ["0.92", "0.08"])])
     [],
   .prob
     "R"
     ["EDU"]
     (.cond [(["highschool"], ["0.25", "0.75"]), (["uni"], ["0.2", "0.8"])])
     [],
   .prob
     "TRN"
     ["OCC", "R"]
     (.cond
       [(["emp", "small"], ["0.48", "0.42", "0.10"]),
        (["self", "small"], ["0.56", "0.36", "0.08"]),
        (["emp", "big"], ["0.58", "0.24", "0.18"]),
        (["self", "big"], ["0.70", "0.21", "0.09"])])
     []]

theorem derives_parts : ∀ (parts : List (List String)) (doc : List Block),
    List.Forall₂ (fun p b => parseText (ofLines p) = some [b]) parts doc → Derives doc (parts.flatMap ofLines)
  | _, _, .nil => ⟨by simp, .nil rfl⟩
  | _, _, .cons h hs => by
    rw [List.flatMap_cons]
    exact bif_texts_join [_] _ _ _ ((bif_parser_exact _ _).mp h) (derives_parts _ _ hs)

set_option maxRecDepth 100000 in
/-- The file of the repository is a text of the grammar. -/
theorem survey_derives : Derives surveyDoc surveyText := by
  refine derives_parts _ _ ?_
  decide +kernel

/-- Its network. -/
example (intOf : String → Int) (val : String → ℚ) : ∃ R, readText larkOf intOf val surveyText = .ok (netObj R) ∧
    Reads val surveyDoc R :=
  ((bif_text_read larkOf_correct intOf val _).2 _ survey_derives).1 (by unfold AllDeclared; decide)

/-- Cut before the tables it is read as a network of six variables without distributions. -/
example (intOf : String → Int) (val : String → ℚ) : ∃ s' t R, surveyText = s' ++ t ∧
    readText larkOf intOf val s' = .ok (netObj R) ∧
    (∀ n, n ∈ R.nodes.map Prod.fst ↔ n ∈ (varBlocks (surveyDoc.take 7)).map Prod.fst) ∧
    ∀ n v p, (n, v, p) ∈ R.nodes → p = none :=
  bif_cut_before_tables larkOf_correct intOf val _ (surveyDoc.take 7) (surveyDoc.drop 7)
    (by rw [List.take_append_drop]; exact survey_derives) (by decide)

/-- Keywords need no space after them, and blocks may be on one line. -/
theorem bif_no_space_needed :
    Derives [.network "x" [], .var "a" "1" ["b"] []] "networkx{}variablea{typediscrete[1]{b};}".toList := by
  rw [← bif_parser_exact]
  decide +kernel

/-- Refused: a value with a decimal point. -/
theorem bif_refuses_decimal_values : ¬ ∃ doc, Derives doc "variable a { type discrete [ 1 ] { 0.5 }; }".toList := by
  rintro ⟨doc, h⟩
  rw [← bif_parser_exact] at h
  have : parseText "variable a { type discrete [ 1 ] { 0.5 }; }".toList = none := by decide +kernel
  rw [this] at h; cases h

/-- Refused: comments. -/
theorem bif_refuses_comments : ¬ ∃ doc, Derives doc "// a comment\nnetwork x { }".toList := by
  rintro ⟨doc, h⟩
  rw [← bif_parser_exact] at h
  have : parseText "// a comment\nnetwork x { }".toList = none := by decide +kernel
  rw [this] at h; cases h

/-- Refused: a property whose value has several words, as in the BIF format's own examples. -/
theorem bif_refuses_words : ¬ ∃ doc, Derives doc "network x { property position = (1, 2) ; }".toList := by
  rintro ⟨doc, h⟩
  rw [← bif_parser_exact] at h
  have : parseText "network x { property position = (1, 2) ; }".toList = none := by decide +kernel
  rw [this] at h; cases h

/-- Refused: a negative probability. -/
theorem bif_refuses_negative : ¬ ∃ doc, Derives doc "probability ( a ) { table -0.5, 1.5; }".toList := by
  rintro ⟨doc, h⟩
  rw [← bif_parser_exact] at h
  have : parseText "probability ( a ) { table -0.5, 1.5; }".toList = none := by decide +kernel
  rw [this] at h; cases h

/-- Accepted: probabilities above 1, and a number of values that is not the announced one. -/
example : Derives [.var "a" "7" ["b"] [], .prob "a" [] (.simple ["1.5e3", "2.", ".25"]) []]
    "variable a { type discrete [7] { b }; } probability (a) { table 1.5e3, 2., .25; }".toList := by
  rw [← bif_parser_exact]
  decide +kernel

end Mbtk.Bif.Text
