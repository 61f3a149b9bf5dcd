import Verif.Data.Trim
import Verif.Stats.Dict
/-!
# Model of `mbtk/dataset/sources/RCV1v2DatasetSource.py` and its correctness (C49)

Modelled: reading the token file line by line, the document dictionary, the word counts, the
topics, the word list and the topic list, the two matrices and the labels.
`int` on a piece of text is a parameter.  The files of document IDs, industries and topics are
lists of their already split lines.  Building a `dok_matrix` of any size is assumed to work.
-/
namespace Mbtk.Dataset.Rcv
open Mbtk Mbtk.Dataset Mbtk.Dataset.Spec

/-! ## Strings -/

/-- Order of Python strings: lexicographic by code point.
RCV1v2DatasetSource.py 112, 128, 140, 151. -/
def strLe : Str → Str → Bool
  | [], _ => true
  | _ :: _, [] => false
  | a :: s, b :: t => decide (a.toNat < b.toNat) || (decide (a = b) && strLe s t)

/-- One step of `str.split`: the word that starts here (possibly empty) and the words after.
RCV1v2DatasetSource.py 125, 273, 317. -/
def splitAux : Str → Str × List Str
  | [] => ([], [])
  | c :: s =>
    if isSpace c then
      ([], if (splitAux s).1 = [] then (splitAux s).2 else (splitAux s).1 :: (splitAux s).2)
    else (c :: (splitAux s).1, (splitAux s).2)

/-- `str.split()`. RCV1v2DatasetSource.py 125, 273, 317. -/
def splitWords (s : Str) : List Str :=
  if (splitAux s).1 = [] then (splitAux s).2 else (splitAux s).1 :: (splitAux s).2

/-- `sorted(list(set(l)))`. RCV1v2DatasetSource.py 140, 151. -/
def sortedSet (l : List Str) : List Str := l.dedup.insertionSort (fun a b => strLe a b = true)

/-! ## The token file -/

/-- What a line of the token file means to the reader. RCV1v2DatasetSource.py 212-248. -/
inductive Line where
  | header (id : Nat)
  | marker
  | blank
  | tokens (words : List Str)
  deriving DecidableEq, Repr

/-- The classification of a line: RCV1v2DatasetSource.py 213-248. -/
def classify (parseInt : Str → Except Err Nat) (line : Str) : Except Err Line :=
  if (strip line).take 3 = ['.', 'I', ' '] then
    (parseInt (strip ((strip line).drop 3))).map Line.header
  else if (strip line).take 2 = ['.', 'W'] then .ok .marker
  else if strip line = [] then .ok .blank
  else .ok (.tokens (splitWords (strip line)))

/-- All lines of the file. RCV1v2DatasetSource.py 212-248. -/
def classifyAll (parseInt : Str → Except Err Nat) : List Str → Except Err (List Line)
  | [] => .ok []
  | l :: ls => do
    let x ← classify parseInt l
    let xs ← classifyAll parseInt ls
    .ok (x :: xs)

/-- `RCV1v2Document`: RCV1v2DatasetSource.py 283-306.  `words` are the keys of
`word_frequencies`; `topic_values` is 1 for every topic in `topics`. -/
structure Doc where
  did : Nat
  frequencies : List (Str × Nat)
  topics : List Str
  deriving DecidableEq, Repr

/-- `read_line_with_tokens`: RCV1v2DatasetSource.py 309-323. -/
def Doc.readTokens (d : Doc) (words : List Str) : Doc :=
  { d with frequencies := words.foldl (fun f w => dictAdd f w 1) d.frequencies }

/-- `if document is not None: documents[document.did] = document`:
RCV1v2DatasetSource.py 221-222, 251-252. -/
def flush (current : Option Doc) (documents : List (Nat × Doc)) : List (Nat × Doc) :=
  match current with
  | none => documents
  | some d => dictSet documents d.did d

/-- One line of the token file: RCV1v2DatasetSource.py 213-248. -/
def readLine (requested : List Nat) (s : Option Doc × List (Nat × Doc)) (l : Line) :
    Option Doc × List (Nat × Doc) :=
  match l with
  | .header id => (if id ∈ requested then some ⟨id, [], []⟩ else none, flush s.1 s.2)
  | .marker => s
  | .blank => s
  | .tokens ws => (s.1.map (fun d => d.readTokens ws), s.2)

/-- `add_topic`: RCV1v2DatasetSource.py 326-334. -/
def Doc.addTopic (d : Doc) (topic : Str) : Doc := { d with topics := d.topics ++ [topic] }

/-- `assign_topics_to_documents`: RCV1v2DatasetSource.py 261-279; a line is a pair of a topic and a
document ID. -/
def assignTopics (documents : List (Nat × Doc)) (assignments : List (Str × Nat)) : List (Nat × Doc) :=
  assignments.foldl (fun ds a => match dictGet ds a.2 with
    | some d => dictSet ds a.2 (d.addTopic a.1)
    | none => ds) documents

/-- `read_documents`: RCV1v2DatasetSource.py 195-258. -/
def readDocuments (lines : List Line) (assignments : List (Str × Nat)) (requested : List Nat) :
    List (Nat × Doc) :=
  if requested = [] then []
  else assignTopics (flush (lines.foldl (readLine requested) (none, [])).1
    (lines.foldl (readLine requested) (none, [])).2) assignments

/-! ## The matrices -/

/-- `gather_complete_word_list`: RCV1v2DatasetSource.py 131-140. -/
def wordList (documents : List (Nat × Doc)) : List Str :=
  sortedSet (documents.flatMap (fun p => p.2.frequencies.map Prod.fst))

/-- `gather_complete_topic_list`: RCV1v2DatasetSource.py 143-151. -/
def topicList (documents : List (Nat × Doc)) : List Str :=
  sortedSet (documents.flatMap (fun p => p.2.topics))

/-- `feature_type`. RCV1v2DatasetSource.py 178-186. -/
inductive FeatureType where
  | wordcount | binary | other
  deriving DecidableEq, Repr

/-- `index[x]` of an index made by `create_index`: functions.py 33-34 (the entries of the list
are distinct). -/
def indexOf (l : List Str) (x : Str) : Except Err Nat :=
  if x ∈ l then .ok (l.idxOf x) else .error .keyError

/-- The columns and values that are written into one row. RCV1v2DatasetSource.py 178-186. -/
def cellsOf (index : List Str) (value : Str → Int) : List Str → Except Err (List (Nat × Int))
  | [] => .ok []
  | w :: ws => do
    let c ← indexOf index w
    let cs ← cellsOf index value ws
    .ok ((c, value w) :: cs)

/-- The words and the value of each that is written: RCV1v2DatasetSource.py 178-186. -/
def featureCells (ft : FeatureType) (words : List Str) (d : Doc) : Except Err (List (Nat × Int)) :=
  match ft with
  | .wordcount => cellsOf words (fun w => (dictVal d.frequencies w : Nat)) (d.frequencies.map Prod.fst)
  | .binary => cellsOf words (fun _ => 1) (d.frequencies.map Prod.fst)
  | .other => .ok []

/-- `matrix[row, column] = value` for several columns; `IndexError` when the row does not exist.
RCV1v2DatasetSource.py 181, 186, 190. -/
def writeCells (m : List (List Int)) (row : Nat) (cells : List (Nat × Int)) :
    Except Err (List (List Int)) :=
  if cells = [] then .ok m
  else if row < m.length then
    .ok (m.set row (cells.foldl (fun r c => r.set c.1 c.2) (m.getD row [])))
  else .error .indexError

/-- The loop of `create_dok_matrices`: RCV1v2DatasetSource.py 174-192. -/
def fillRows (documents : List (Nat × Doc)) (words topics : List Str) (ft : FeatureType) :
    List Nat → Nat → List (List Int) × List (List Int) → Except Err (List (List Int) × List (List Int))
  | [], _, m => .ok m
  | id :: ids, row, m => do
    let d ← match dictGet documents id with
      | some d => Except.ok d
      | none => Except.error Err.keyError
    let cx ← featureCells ft words d
    let mx ← writeCells m.1 row cx
    let cy ← cellsOf topics (fun _ => 1) d.topics
    let my ← writeCells m.2 row cy
    fillRows documents words topics ft ids (row + 1) (mx, my)

/-- `str(id)`. RCV1v2DatasetSource.py 39-100. -/
def idLabel (id : Nat) : Str := (toString id).toList

/-- `create_dataset_matrix`: RCV1v2DatasetSource.py 39-100, once the document IDs are known. -/
def createMatrix (lines : List Line) (assignments : List (Str × Nat)) (ft : FeatureType)
    (label : Str) (ids : List Nat) : Except Err DM := do
  let m ← fillRows (readDocuments lines assignments ids)
    (wordList (readDocuments lines assignments ids)) (topicList (readDocuments lines assignments ids)) ft
    ids 0
    (List.replicate (readDocuments lines assignments ids).length
      (List.replicate (wordList (readDocuments lines assignments ids)).length 0),
     List.replicate (readDocuments lines assignments ids).length
      (List.replicate (topicList (readDocuments lines assignments ids)).length 0))
  .ok { label := label,
        X := ⟨.csr, (wordList (readDocuments lines assignments ids)).length, m.1⟩,
        Y := ⟨.csr, (topicList (readDocuments lines assignments ids)).length, m.2⟩,
        rowLabels := ids.map idLabel,
        colLabelsX := wordList (readDocuments lines assignments ids),
        colLabelsY := topicList (readDocuments lines assignments ids),
        final := false }

/-- `read_documentIDs_in_industry`: RCV1v2DatasetSource.py 115-128. -/
def idsInIndustry (industries : List (Str × Nat)) (industry : Str) : List Nat :=
  ((industries.filter (fun a => a.1 = industry)).map Prod.snd).insertionSort (· ≤ ·)

/-- The `filters` argument. RCV1v2DatasetSource.py 39-100. -/
inductive Filter where
  | none
  | industry (i : Str)
  | unsupported

/-- `create_dataset_matrix` with its filter: RCV1v2DatasetSource.py 39-100, `read_all_documentIDs`
100-109. -/
def createFiltered (lines : List Line) (allIds : List Nat) (industries assignments : List (Str × Nat))
    (ft : FeatureType) (label : Str) : Filter → Except Err DM
  | .none => createMatrix lines assignments ft label (allIds.insertionSort (· ≤ ·))
  | .industry i => createMatrix lines assignments ft label (idsInIndustry industries i)
  | .unsupported => .error .valueError

/-! ## Specification -/

/-- A document of the token file: its ID and the lines after its header. (Specification.) -/
structure SrcDoc where
  id : Nat
  body : List Line

/-- No line of the body is a header. (Specification.) -/
def SrcDoc.Plain (d : SrcDoc) : Prop := ∀ l ∈ d.body, ∀ id, l ≠ .header id

/-- The words of a document in file order. (Specification.) -/
def SrcDoc.words (d : SrcDoc) : List Str :=
  d.body.flatMap (fun l => match l with
    | .tokens ws => ws
    | _ => [])

/-- The lines of a token file with the given documents. (Specification.) -/
def fileOf (docs : List SrcDoc) : List Line := docs.flatMap (fun d => .header d.id :: d.body)

/-- The value of a word in a document. (Specification.) -/
def termValue (ft : FeatureType) (d : SrcDoc) (w : Str) : Int :=
  match ft with
  | .wordcount => d.words.count w
  | .binary => if w ∈ d.words then 1 else 0
  | .other => 0

/-! ## Proofs: order -/

theorem strLe_refl (s : Str) : strLe s s = true := by
  induction s with
  | nil => rfl
  | cons a s ih => simp [strLe, ih]

theorem strLe_total (s t : Str) : strLe s t = true ∨ strLe t s = true := by
  induction s generalizing t with
  | nil => exact .inl (by simp [strLe])
  | cons a s ih =>
    cases t with
    | nil => exact .inr (by simp [strLe])
    | cons b t =>
      simp only [strLe, Bool.or_eq_true, Bool.and_eq_true, decide_eq_true_eq]
      rcases Nat.lt_trichotomy a.toNat b.toNat with h | h | h
      · exact .inl (.inl h)
      · have : a = b := by
          apply Char.ext; apply UInt32.toNat_inj.1; exact h
        subst this
        rcases ih t with h' | h'
        · exact .inl (.inr ⟨rfl, h'⟩)
        · exact .inr (.inr ⟨rfl, h'⟩)
      · exact .inr (.inl h)

theorem strLe_trans {s t u : Str} (h1 : strLe s t = true) (h2 : strLe t u = true) :
    strLe s u = true := by
  induction s generalizing t u with
  | nil => simp [strLe]
  | cons a s ih =>
    cases t with
    | nil => simp [strLe] at h1
    | cons b t =>
      cases u with
      | nil => simp [strLe] at h2
      | cons c u =>
        simp only [strLe, Bool.or_eq_true, Bool.and_eq_true, decide_eq_true_eq] at h1 h2 ⊢
        rcases h1 with h1 | ⟨rfl, h1⟩
        · rcases h2 with h2 | ⟨rfl, h2⟩
          · exact .inl (by omega)
          · exact .inl h1
        · rcases h2 with h2 | ⟨rfl, h2⟩
          · exact .inl h2
          · exact .inr ⟨rfl, ih h1 h2⟩

theorem strLe_antisymm {s t : Str} (h1 : strLe s t = true) (h2 : strLe t s = true) : s = t := by
  induction s generalizing t with
  | nil => cases t with
    | nil => rfl
    | cons b t => simp [strLe] at h2
  | cons a s ih =>
    cases t with
    | nil => simp [strLe] at h1
    | cons b t =>
      simp only [strLe, Bool.or_eq_true, Bool.and_eq_true, decide_eq_true_eq] at h1 h2
      rcases h1 with h1 | ⟨rfl, h1⟩
      · rcases h2 with h2 | ⟨rfl, h2⟩
        · omega
        · omega
      · rcases h2 with h2 | ⟨_, h2⟩
        · omega
        · rw [ih h1 h2]

instance : Std.Total (fun a b : Str => strLe a b = true) := ⟨strLe_total⟩
instance : IsTrans Str (fun a b : Str => strLe a b = true) := ⟨fun _ _ _ => strLe_trans⟩

theorem sortedSet_mem (l : List Str) (x : Str) : x ∈ sortedSet l ↔ x ∈ l := by
  unfold sortedSet
  rw [(List.perm_insertionSort _ _).mem_iff, List.mem_dedup]

theorem sortedSet_nodup (l : List Str) : (sortedSet l).Nodup := by
  unfold sortedSet
  exact (List.perm_insertionSort _ _).nodup_iff.2 l.nodup_dedup

theorem sortedSet_sorted (l : List Str) :
    (sortedSet l).Pairwise (fun a b => strLe a b = true) := by
  unfold sortedSet
  exact List.pairwise_insertionSort _ _

/-! ## Proofs: the dictionary of documents -/

theorem dictSet_new {κ ν : Type} [DecidableEq κ] (d : List (κ × ν)) (k : κ) (v : ν)
    (h : k ∉ d.map Prod.fst) : dictSet d k v = d ++ [(k, v)] := by
  induction d with
  | nil => rfl
  | cons p d ih =>
    obtain ⟨k', v'⟩ := p
    have hk : k' ≠ k := fun e => h (by simp [e])
    simp only [dictSet, if_neg hk, ih (fun x => h (by simp only [List.map_cons, List.mem_cons]; exact .inr x)),
      List.cons_append]

theorem dictSet_map {κ ν : Type} [DecidableEq κ] (d : List (κ × ν)) (k : κ) (v : ν)
    (hn : (d.map Prod.fst).Nodup) (hk : k ∈ d.map Prod.fst) :
    dictSet d k v = d.map (fun p => if p.1 = k then (k, v) else p) := by
  induction d with
  | nil => simp at hk
  | cons p d ih =>
    obtain ⟨k', v'⟩ := p
    rw [List.map_cons, List.nodup_cons] at hn
    by_cases e : k' = k
    · subst e
      simp only [dictSet, if_true, List.map_cons]
      congr 1
      conv_lhs => rw [← List.map_id d]
      apply List.map_congr_left
      intro q hq
      have : q.1 ≠ k' := fun e => hn.1 (List.mem_map.2 ⟨q, hq, e⟩)
      simp [this]
    · simp only [dictSet, if_neg e, List.map_cons]
      rw [ih hn.2]
      simp only [List.map_cons, List.mem_cons] at hk
      rcases hk with hk | hk
      · exact absurd hk.symm e
      · exact hk

/-- The counts of a list of words. (Specification.) -/
def counts (ws : List Str) : List (Str × Nat) := ws.foldl (fun f w => dictAdd f w 1) []

theorem foldl_dictAdd (ws : List Str) (f : List (Str × Nat)) :
    ws.foldl (fun f w => dictAdd f w 1) f = dictAddAll f (ws.map (fun w => (w, 1))) := by
  unfold dictAddAll
  rw [List.foldl_map]

theorem counts_nodup (ws : List Str) : ((counts ws).map Prod.fst).Nodup := by
  unfold counts; rw [foldl_dictAdd]; exact dictAddAll_nodup _ _ (by simp)

theorem counts_keys (ws : List Str) (w : Str) : w ∈ (counts ws).map Prod.fst ↔ w ∈ ws := by
  unfold counts
  rw [foldl_dictAdd, mem_dictAddAll_keys]
  simp [Function.comp_def]

theorem counts_val (ws : List Str) (w : Str) : dictVal (counts ws) w = ws.count w := by
  unfold counts
  rw [foldl_dictAdd, dictVal_dictAddAll]
  have : dictVal ([] : List (Str × Nat)) w = 0 := rfl
  rw [this, Nat.zero_add, List.count_eq_length_filter]
  induction ws with
  | nil => rfl
  | cons x xs ih =>
    by_cases e : x = w
    · subst e; simp only [List.map_cons, List.filter_cons, decide_true, if_true, List.sum_cons, ih,
        BEq.rfl, List.length_cons]; omega
    · simp only [List.map_cons, List.filter_cons, e, decide_false, Bool.false_eq_true, if_false, ih,
        beq_iff_eq]

/-- The document that reading yields. (Specification.) -/
def docOf (d : SrcDoc) : Doc := ⟨d.id, counts d.words, []⟩

theorem read_body (req : List Nat) (body : List Line) (hp : ∀ l ∈ body, ∀ id, l ≠ .header id)
    (id : Nat) (ws : List Str) (D : List (Nat × Doc)) :
    body.foldl (readLine req) (some ⟨id, counts ws, []⟩, D) =
      (some ⟨id, counts (ws ++ (SrcDoc.mk id body).words), []⟩, D) := by
  induction body generalizing ws with
  | nil => simp [SrcDoc.words]
  | cons l ls ih =>
    have hp' : ∀ l ∈ ls, ∀ id, l ≠ .header id := fun x hx => hp x (by simp [hx])
    rw [List.foldl_cons]
    cases l with
    | header i => exact absurd rfl (hp _ (by simp) i)
    | marker => exact ih hp' ws
    | blank => exact ih hp' ws
    | tokens w =>
      have : readLine req (some ⟨id, counts ws, []⟩, D) (.tokens w) =
          (some ⟨id, counts (ws ++ w), []⟩, D) := by
        simp [readLine, Doc.readTokens, counts, List.foldl_append]
      rw [this, ih hp' (ws ++ w)]
      simp [SrcDoc.words, List.append_assoc]

theorem read_body_none (req : List Nat) (body : List Line) (hp : ∀ l ∈ body, ∀ id, l ≠ .header id)
    (D : List (Nat × Doc)) : body.foldl (readLine req) (none, D) = (none, D) := by
  induction body with
  | nil => rfl
  | cons l ls ih =>
    have hp' : ∀ l ∈ ls, ∀ id, l ≠ .header id := fun x hx => hp x (by simp [hx])
    rw [List.foldl_cons]
    cases l with
    | header i => exact absurd rfl (hp _ (by simp) i)
    | marker => exact ih hp'
    | blank => exact ih hp'
    | tokens w => exact ih hp'

/-- The requested documents of the file, in file order. (Specification.) -/
def wanted (docs : List SrcDoc) (req : List Nat) : List (Nat × Doc) :=
  (docs.filter (fun d => d.id ∈ req)).map (fun d => (d.id, docOf d))

theorem wanted_keys (docs : List SrcDoc) (req : List Nat) :
    (wanted docs req).map Prod.fst = (docs.map SrcDoc.id).filter (fun i => i ∈ req) := by
  unfold wanted
  rw [List.map_map, List.filter_map]
  rfl

theorem read_docs (req : List Nat) (docs : List SrcDoc) (hp : ∀ d ∈ docs, d.Plain)
    (hn : (docs.map SrcDoc.id).Nodup) (s : Option Doc × List (Nat × Doc))
    (hs : ∀ i ∈ docs.map SrcDoc.id, i ∉ (flush s.1 s.2).map Prod.fst) :
    flush ((fileOf docs).foldl (readLine req) s).1 ((fileOf docs).foldl (readLine req) s).2 =
      flush s.1 s.2 ++ wanted docs req := by
  induction docs generalizing s with
  | nil => simp [fileOf, wanted]
  | cons d ds ih =>
    rw [List.map_cons, List.nodup_cons] at hn
    have hd := hp d (by simp)
    have e : fileOf (d :: ds) = .header d.id :: d.body ++ fileOf ds := rfl
    rw [e, List.foldl_append, List.foldl_cons]
    have hh : readLine req s (.header d.id) =
        (if d.id ∈ req then some ⟨d.id, [], []⟩ else none, flush s.1 s.2) := rfl
    rw [hh]
    have hdk : d.id ∉ (flush s.1 s.2).map Prod.fst := hs d.id (by simp)
    by_cases hr : d.id ∈ req
    · rw [if_pos hr]
      have hb := read_body req d.body hd d.id [] (flush s.1 s.2)
      have hc : counts [] = [] := rfl
      rw [hc, List.nil_append] at hb
      rw [hb]
      have hf : flush (some ⟨d.id, counts (SrcDoc.mk d.id d.body).words, []⟩) (flush s.1 s.2) =
          flush s.1 s.2 ++ [(d.id, docOf d)] := dictSet_new _ _ _ hdk
      rw [ih (fun x hx => hp x (by simp [hx])) hn.2]
      · simp only []
        rw [hf]
        simp [wanted, hr]
      · intro i hi
        simp only []
        rw [hf, List.map_append, List.mem_append]
        rintro (h | h)
        · exact hs i (by simp only [List.map_cons, List.mem_cons]; exact .inr hi) h
        · simp at h; subst h; exact hn.1 hi
    · rw [if_neg hr, read_body_none req d.body hd]
      rw [ih (fun x hx => hp x (by simp [hx])) hn.2]
      · simp [flush, wanted, hr]
      · intro i hi
        exact hs i (by simp only [List.map_cons, List.mem_cons]; exact .inr hi)

/-- The topics of a document. (Specification.) -/
def topicsOf (assignments : List (Str × Nat)) (id : Nat) : List Str :=
  (assignments.filter (fun a => a.2 = id)).map Prod.fst

theorem assignTopics_eq (assignments : List (Str × Nat)) (D : List (Nat × Doc))
    (hn : (D.map Prod.fst).Nodup) :
    assignTopics D assignments =
      D.map (fun p => (p.1, { p.2 with topics := p.2.topics ++ topicsOf assignments p.1 })) := by
  induction assignments generalizing D with
  | nil => simp [assignTopics, topicsOf]
  | cons a as ih =>
    have step : assignTopics D (a :: as) = assignTopics (match dictGet D a.2 with
      | some d => dictSet D a.2 (d.addTopic a.1)
      | none => D) as := rfl
    rw [step]
    cases hg : dictGet D a.2 with
    | none =>
      simp only []
      rw [ih D hn]
      apply List.map_congr_left
      intro p hp
      have : a.2 ≠ p.1 := fun e => (dictGet_none_iff D a.2).1 hg (by rw [e]; exact List.mem_map_of_mem hp)
      simp [topicsOf, this]
    | some d =>
      simp only []
      have hk : a.2 ∈ D.map Prod.fst := by
        by_contra h; rw [(dictGet_none_iff D a.2).2 h] at hg; cases hg
      rw [ih _ (dictSet_nodup _ _ _ hn), dictSet_map D _ _ hn hk, List.map_map]
      apply List.map_congr_left
      rintro ⟨i, e⟩ hp
      simp only [Function.comp]
      by_cases hi : i = a.2
      · subst hi
        have : e = d := by
          have := dictGet_of_mem hn hp; rw [hg] at this; exact (Option.some.inj this).symm
        subst this
        simp [topicsOf, Doc.addTopic]
      · have : a.2 ≠ i := fun x => hi x.symm
        simp [hi, topicsOf, this]

/-- The document with its topics. (Specification.) -/
def fullDoc (assignments : List (Str × Nat)) (d : SrcDoc) : Doc :=
  ⟨d.id, counts d.words, topicsOf assignments d.id⟩

theorem readDocuments_eq (docs : List SrcDoc) (hp : ∀ d ∈ docs, d.Plain)
    (hn : (docs.map SrcDoc.id).Nodup) (assignments : List (Str × Nat)) (req : List Nat) :
    readDocuments (fileOf docs) assignments req =
      (docs.filter (fun d => d.id ∈ req)).map (fun d => (d.id, fullDoc assignments d)) := by
  unfold readDocuments
  by_cases hr : req = []
  · subst hr; simp
  rw [if_neg hr, read_docs req docs hp hn (none, []) (by simp [flush])]
  have hw : ((wanted docs req).map Prod.fst).Nodup := by
    rw [wanted_keys]; exact hn.sublist List.filter_sublist
  show assignTopics ([] ++ wanted docs req) assignments = _
  rw [List.nil_append, assignTopics_eq _ _ hw]
  unfold wanted
  rw [List.map_map]
  apply List.map_congr_left
  intro d _
  simp [docOf, fullDoc]

/-! ## Proofs: the matrices -/

theorem cellsOf_ok (index : List Str) (value : Str → Int) (ws : List Str) (h : ∀ w ∈ ws, w ∈ index) :
    cellsOf index value ws = .ok (ws.map (fun w => (index.idxOf w, value w))) := by
  induction ws with
  | nil => rfl
  | cons w ws ih =>
    unfold cellsOf indexOf
    rw [if_pos (h w (by simp)), ih (fun x hx => h x (by simp [hx]))]
    rfl

theorem foldl_set_length (cells : List (Nat × Int)) (r : List Int) :
    (cells.foldl (fun r c => r.set c.1 c.2) r).length = r.length := by
  induction cells generalizing r with
  | nil => rfl
  | cons c cs ih => rw [List.foldl_cons, ih]; simp

/-- The row that is written for a document. -/
theorem row_eq (index : List Str) (hn : index.Nodup) (value : Str → Int) (ws : List Str) :
    (ws.map (fun w => (index.idxOf w, value w))).foldl (fun r c => r.set c.1 c.2)
      (List.replicate index.length 0) = index.map (fun w => if w ∈ ws then value w else 0) := by
  apply List.ext_getElem?
  intro j
  by_cases hj : j < index.length
  · have key : ∀ (vs : List Str) (r : List Int), j < r.length →
        r.length = index.length →
        ((vs.map (fun w => (index.idxOf w, value w))).foldl (fun r c => r.set c.1 c.2) r)[j]? =
          some (if index[j] ∈ vs then value index[j] else r[j]!) := by
      intro vs
      induction vs with
      | nil => intro r hr _; simp [hr]
      | cons v vs ih =>
        intro r hr hl
        rw [List.map_cons, List.foldl_cons, ih _ (by simpa using hr) (by simpa using hl)]
        by_cases h1 : index[j] ∈ vs
        · simp [h1]
        · rw [if_neg h1]
          by_cases e : v = index[j]
          · subst e
            rw [hn.idxOf_getElem j hj]
            simp [hr]
          · have hne : index.idxOf v ≠ j := by
              intro e2
              have : index.idxOf v < index.length := by omega
              exact e (by rw [← List.getElem_idxOf this]; simp [e2])
            have h2 : index[j] ∉ v :: vs := by
              simp only [List.mem_cons, not_or]; exact ⟨fun x => e x.symm, h1⟩
            rw [if_neg h2]
            simp [hne, List.getElem!_eq_getElem?_getD]
    rw [key ws _ (by simpa using hj) (by simp)]
    simp [hj]
  · rw [List.getElem?_eq_none (by rw [foldl_set_length]; simp; omega),
      List.getElem?_eq_none (by simp; omega)]

theorem set_block {α : Type} (done rest : List α) (z r : α) :
    (done ++ z :: rest).set done.length r = done ++ r :: rest := by
  rw [List.set_append_right _ _ (Nat.le_refl _)]; simp

theorem writeCells_ok (index : List Str) (hn : index.Nodup) (value : Str → Int) (ws : List Str)
    (done : List (List Int)) (k : Nat) :
    writeCells (done ++ List.replicate (k + 1) (List.replicate index.length 0)) done.length
      (ws.map (fun w => (index.idxOf w, value w))) =
      .ok (done ++ index.map (fun w => if w ∈ ws then value w else 0) ::
        List.replicate k (List.replicate index.length 0)) := by
  rw [← row_eq index hn value ws]
  unfold writeCells
  by_cases hw : ws = []
  · subst hw; simp [List.replicate_succ]
  rw [if_neg (by simpa using hw), if_pos (by simp)]
  rw [List.replicate_succ, set_block]
  simp [List.getD_eq_getElem?_getD]

/-- The row of a document in the document-term matrix. (Specification.) -/
def featureRow (ft : FeatureType) (words : List Str) (d : Doc) : List Int :=
  words.map (fun w => if w ∈ d.frequencies.map Prod.fst then
    (match ft with
      | .wordcount => (dictVal d.frequencies w : Nat)
      | .binary => 1
      | .other => 0) else 0)

theorem featureRow_ok (ft : FeatureType) (words : List Str) (hn : words.Nodup) (d : Doc)
    (hd : ∀ w ∈ d.frequencies.map Prod.fst, w ∈ words) (done : List (List Int)) (k : Nat) :
    (featureCells ft words d >>= fun cx =>
      writeCells (done ++ List.replicate (k + 1) (List.replicate words.length 0)) done.length cx) =
      .ok (done ++ featureRow ft words d :: List.replicate k (List.replicate words.length 0)) := by
  cases ft with
  | wordcount =>
    show (cellsOf _ _ _ >>= _) = _
    rw [cellsOf_ok _ _ _ hd]
    exact writeCells_ok words hn _ _ done k
  | binary =>
    show (cellsOf _ _ _ >>= _) = _
    rw [cellsOf_ok _ _ _ hd]
    exact writeCells_ok words hn _ _ done k
  | other =>
    show writeCells (done ++ List.replicate (k + 1) (List.replicate words.length 0)) done.length [] = _
    unfold writeCells featureRow
    rw [if_pos rfl]
    simp [List.replicate_succ, List.map_const']

theorem fillRows_ok (D : List (Nat × Doc)) (words topics : List Str) (hw : words.Nodup)
    (ht : topics.Nodup) (ft : FeatureType) (docAt : Nat → Doc) (ids : List Nat)
    (hD : ∀ i ∈ ids, dictGet D i = some (docAt i))
    (hdw : ∀ i ∈ ids, ∀ w ∈ (docAt i).frequencies.map Prod.fst, w ∈ words)
    (hdt : ∀ i ∈ ids, ∀ t ∈ (docAt i).topics, t ∈ topics)
    (k : Nat) (doneX doneY : List (List Int)) (hl : doneX.length = doneY.length) (more : List Nat) :
    fillRows D words topics ft (ids ++ more) doneX.length
      (doneX ++ List.replicate (ids.length + k) (List.replicate words.length 0),
       doneY ++ List.replicate (ids.length + k) (List.replicate topics.length 0)) =
      fillRows D words topics ft more (doneX.length + ids.length)
        (doneX ++ ids.map (fun i => featureRow ft words (docAt i)) ++
          List.replicate k (List.replicate words.length 0),
         doneY ++ ids.map (fun i => topics.map (fun t => if t ∈ (docAt i).topics then 1 else 0)) ++
          List.replicate k (List.replicate topics.length 0)) := by
  induction ids generalizing doneX doneY with
  | nil => simp
  | cons i ids ih =>
    have hg := hD i (by simp)
    have hx := featureRow_ok ft words hw (docAt i) (hdw i (by simp)) doneX (ids.length + k)
    have hy := writeCells_ok topics ht (fun _ => 1) (docAt i).topics doneY (ids.length + k)
    have hc := cellsOf_ok topics (fun _ => 1) (docAt i).topics (hdt i (by simp))
    rw [List.cons_append]
    conv_lhs => unfold fillRows
    rw [hg]
    show (featureCells ft words (docAt i) >>= fun cx => writeCells _ doneX.length cx >>= _) = _
    rw [← bind_assoc]
    rw [List.length_cons, Nat.add_right_comm]
    simp only []
    rw [hx]
    show (cellsOf topics (fun _ => 1) (docAt i).topics >>= _) = _
    rw [hc]
    show (writeCells _ doneX.length _ >>= _) = _
    rw [hl, hy]
    show fillRows D words topics ft (ids ++ more) (doneY.length + 1) _ = _
    have := ih (fun x hx => hD x (by simp [hx])) (fun x hx => hdw x (by simp [hx]))
      (fun x hx => hdt x (by simp [hx]))
      (doneX ++ [featureRow ft words (docAt i)])
      (doneY ++ [topics.map (fun t => if t ∈ (docAt i).topics then 1 else 0)]) (by simp [hl])
    simp only [List.append_assoc, List.singleton_append, List.length_append, List.length_singleton,
      hl] at this
    rw [this]
    simp [Nat.add_assoc, Nat.add_comm 1]

/-! ## The theorem -/

/-- The document of the file with the given ID. (Specification.) -/
def docWithId (docs : List SrcDoc) (id : Nat) : SrcDoc :=
  (docs.find? (fun d => d.id = id)).getD ⟨id, []⟩

theorem docWithId_eq {docs : List SrcDoc} (hn : (docs.map SrcDoc.id).Nodup) {d : SrcDoc}
    (hd : d ∈ docs) : docWithId docs d.id = d := by
  unfold docWithId
  induction docs with
  | nil => simp at hd
  | cons e es ih =>
    rw [List.map_cons, List.nodup_cons] at hn
    rcases List.mem_cons.1 hd with rfl | hd
    · simp
    · have : e.id ≠ d.id := fun x => hn.1 (by rw [x]; exact List.mem_map_of_mem hd)
      rw [List.find?_cons_of_neg (by simpa using this)]
      exact ih hn.2 hd

theorem docWithId_id {docs : List SrcDoc} {i : Nat} (hi : i ∈ docs.map SrcDoc.id) :
    docWithId docs i ∈ docs ∧ (docWithId docs i).id = i := by
  unfold docWithId
  cases h : docs.find? (fun d => d.id = i) with
  | none =>
    rw [List.find?_eq_none] at h
    obtain ⟨d, hd, e⟩ := List.mem_map.1 hi
    exact absurd (by simpa using e) (h d hd)
  | some d =>
    refine ⟨List.mem_of_find?_eq_some h, ?_⟩
    simpa using List.find?_some h

section
variable {docs : List SrcDoc} (hp : ∀ d ∈ docs, d.Plain) (hn : (docs.map SrcDoc.id).Nodup)
  (assignments : List (Str × Nat)) (ids : List Nat)

include hp hn in
theorem documents_get {i : Nat} (hi : i ∈ ids) (hin : i ∈ docs.map SrcDoc.id) :
    dictGet (readDocuments (fileOf docs) assignments ids) i =
      some (fullDoc assignments (docWithId docs i)) := by
  rw [readDocuments_eq docs hp hn]
  refine dictGet_of_mem ?_ ?_
  · rw [List.map_map]
    exact (hn.sublist (List.filter_sublist.map SrcDoc.id))
  · obtain ⟨h1, h2⟩ := docWithId_id hin
    refine List.mem_map.2 ⟨docWithId docs i, ?_, by rw [h2]⟩
    rw [List.mem_filter, decide_eq_true_eq, h2]
    exact ⟨h1, hi⟩

include hp hn in
theorem documents_none {i : Nat} (hin : i ∉ docs.map SrcDoc.id) :
    dictGet (readDocuments (fileOf docs) assignments ids) i = none := by
  rw [readDocuments_eq docs hp hn, dictGet_none_iff]
  intro h
  rw [List.map_map] at h
  obtain ⟨d, hd, e⟩ := List.mem_map.1 h
  exact hin (List.mem_map.2 ⟨d, (List.mem_filter.1 hd).1, e⟩)

include hp hn in
theorem documents_length (hi : ids.Nodup) :
    (readDocuments (fileOf docs) assignments ids).length =
      (ids.filter (fun i => i ∈ docs.map SrcDoc.id)).length := by
  rw [readDocuments_eq docs hp hn, List.length_map]
  have h1 : (docs.filter (fun d => decide (d.id ∈ ids))).length =
      ((docs.map SrcDoc.id).filter (fun i => decide (i ∈ ids))).length := by
    rw [List.filter_map, List.length_map]; rfl
  rw [h1]
  apply List.Perm.length_eq
  rw [List.perm_ext_iff_of_nodup (hn.sublist List.filter_sublist) (hi.sublist List.filter_sublist)]
  intro i
  simp only [List.mem_filter, decide_eq_true_eq]
  exact ⟨fun h => ⟨h.2, h.1⟩, fun h => ⟨h.2, h.1⟩⟩

include hp hn in
theorem wordList_mem (w : Str) :
    w ∈ wordList (readDocuments (fileOf docs) assignments ids) ↔
      ∃ i ∈ ids, i ∈ docs.map SrcDoc.id ∧ w ∈ (docWithId docs i).words := by
  unfold wordList
  rw [sortedSet_mem, readDocuments_eq docs hp hn, List.mem_flatMap]
  constructor
  · rintro ⟨p, hpm, hw⟩
    obtain ⟨d, hd, rfl⟩ := List.mem_map.1 hpm
    obtain ⟨hd, hr⟩ := List.mem_filter.1 hd
    refine ⟨d.id, by simpa using hr, List.mem_map_of_mem hd, ?_⟩
    rw [docWithId_eq hn hd]
    exact (counts_keys _ _).1 hw
  · rintro ⟨i, hi, hin, hw⟩
    obtain ⟨h1, h2⟩ := docWithId_id hin
    refine ⟨((docWithId docs i).id, fullDoc assignments (docWithId docs i)), ?_, (counts_keys _ _).2 hw⟩
    refine List.mem_map.2 ⟨docWithId docs i, ?_, rfl⟩
    rw [List.mem_filter, decide_eq_true_eq, h2]; exact ⟨h1, hi⟩

theorem topicsOf_mem (t : Str) (i : Nat) : t ∈ topicsOf assignments i ↔ (t, i) ∈ assignments := by
  unfold topicsOf
  simp only [List.mem_map, List.mem_filter, decide_eq_true_eq]
  constructor
  · rintro ⟨⟨a, b⟩, ⟨h, rfl⟩, rfl⟩; exact h
  · intro h; exact ⟨(t, i), ⟨h, rfl⟩, rfl⟩

include hp hn in
theorem topicList_mem (t : Str) :
    t ∈ topicList (readDocuments (fileOf docs) assignments ids) ↔
      ∃ i ∈ ids, i ∈ docs.map SrcDoc.id ∧ (t, i) ∈ assignments := by
  unfold topicList
  rw [sortedSet_mem, readDocuments_eq docs hp hn, List.mem_flatMap]
  constructor
  · rintro ⟨p, hpm, hw⟩
    obtain ⟨d, hd, rfl⟩ := List.mem_map.1 hpm
    obtain ⟨hd, hr⟩ := List.mem_filter.1 hd
    exact ⟨d.id, by simpa using hr, List.mem_map_of_mem hd, (topicsOf_mem _ _ _).1 hw⟩
  · rintro ⟨i, hi, hin, hw⟩
    obtain ⟨h1, h2⟩ := docWithId_id hin
    refine ⟨((docWithId docs i).id, fullDoc assignments (docWithId docs i)), ?_, ?_⟩
    · refine List.mem_map.2 ⟨docWithId docs i, ?_, rfl⟩
      rw [List.mem_filter, decide_eq_true_eq, h2]; exact ⟨h1, hi⟩
    · show t ∈ topicsOf _ _
      rw [topicsOf_mem, h2]; exact hw

theorem featureRow_eq (ft : FeatureType) (words : List Str) (d : SrcDoc) :
    featureRow ft words (fullDoc assignments d) = words.map (termValue ft d) := by
  unfold featureRow
  apply List.map_congr_left
  intro w _
  have hk : w ∈ (fullDoc assignments d).frequencies.map Prod.fst ↔ w ∈ d.words := counts_keys _ _
  cases ft with
  | wordcount =>
    simp only [hk, termValue]
    by_cases h : w ∈ d.words
    · rw [if_pos h]; show ((dictVal (counts d.words) w : Nat) : Int) = _; rw [counts_val]
    · rw [if_neg h, List.count_eq_zero_of_not_mem h]; rfl
  | binary => simp only [hk, termValue]
  | other => simp [termValue]

end

theorem zip_with_map {α β : Type} (l : List α) (f : α → β) :
    l.zip (l.map f) = l.map (fun a => (a, f a)) := by
  induction l with
  | nil => rfl
  | cons a l ih => simp [ih]

/-- **C49.**  Take any token file whose documents have different IDs, any topic assignments and
any list of different document IDs that all occur in the file.  Then the dataset has one sample
per requested document, in the requested order and labelled with its ID; its features are
exactly the words of the requested documents, sorted; the value of a word is the number of its
occurrences in the document (`wordcount`) or whether it occurs (`binary`); its objectives are
exactly the topics assigned to a requested document, sorted, with value 1 if the document is
assigned to the topic and 0 otherwise. -/
theorem rcv_matrix_exact (docs : List SrcDoc) (hp : ∀ d ∈ docs, d.Plain)
    (hn : (docs.map SrcDoc.id).Nodup) (assignments : List (Str × Nat)) (ft : FeatureType)
    (label : Str) (ids : List Nat) (hi : ids.Nodup) (hin : ∀ i ∈ ids, i ∈ docs.map SrcDoc.id) :
    ∃ dm, createMatrix (fileOf docs) assignments ft label ids = .ok dm ∧ WellShaped dm ∧
      dm.label = label ∧ dm.final = false ∧ dm.X.format = .csr ∧
      dm.colLabelsX.Nodup ∧ dm.colLabelsX.Pairwise (fun a b => strLe a b = true) ∧
      (∀ w, w ∈ dm.colLabelsX ↔ ∃ i ∈ ids, w ∈ (docWithId docs i).words) ∧
      dm.colLabelsY.Nodup ∧ dm.colLabelsY.Pairwise (fun a b => strLe a b = true) ∧
      (∀ t, t ∈ dm.colLabelsY ↔ ∃ i ∈ ids, (t, i) ∈ assignments) ∧
      (table dm).samples = ids.map (fun i => ⟨idLabel i,
        dm.colLabelsX.map (fun w => (w, termValue ft (docWithId docs i) w)),
        dm.colLabelsY.map (fun t => (t, if (t, i) ∈ assignments then 1 else 0))⟩) := by
  have hlen : (readDocuments (fileOf docs) assignments ids).length = ids.length := by
    rw [documents_length hp hn assignments ids hi, List.filter_eq_self.2]
    intro i h; simpa using hin i h
  have hfill := fillRows_ok (readDocuments (fileOf docs) assignments ids)
    (wordList (readDocuments (fileOf docs) assignments ids))
    (topicList (readDocuments (fileOf docs) assignments ids)) (sortedSet_nodup _) (sortedSet_nodup _)
    ft (fun i => fullDoc assignments (docWithId docs i)) ids
    (fun i h => documents_get hp hn assignments ids h (hin i h))
    (fun i h w hw => (wordList_mem hp hn assignments ids w).2
      ⟨i, h, hin i h, (counts_keys _ _).1 hw⟩)
    (fun i h t ht => (topicList_mem hp hn assignments ids t).2
      ⟨i, h, hin i h, by rw [← (docWithId_id (hin i h)).2]; exact (topicsOf_mem _ _ _).1 ht⟩)
    0 [] [] rfl []
  simp only [List.append_nil, List.nil_append, Nat.add_zero, List.length_nil, List.replicate_zero,
    featureRow_eq, fillRows] at hfill
  have hY : ∀ i ∈ ids, (topicList (readDocuments (fileOf docs) assignments ids)).map
      (fun t => if t ∈ (fullDoc assignments (docWithId docs i)).topics then (1 : Int) else 0) =
      (topicList (readDocuments (fileOf docs) assignments ids)).map
        (fun t => if (t, i) ∈ assignments then 1 else 0) := by
    intro i h
    apply List.map_congr_left
    intro t _
    have : t ∈ (fullDoc assignments (docWithId docs i)).topics ↔ (t, i) ∈ assignments := by
      show t ∈ topicsOf _ _ ↔ _
      rw [topicsOf_mem, (docWithId_id (hin i h)).2]
    simp [this]
  rw [List.map_congr_left hY] at hfill
  refine ⟨⟨label, ⟨.csr, (wordList (readDocuments (fileOf docs) assignments ids)).length,
      ids.map (fun i => (wordList (readDocuments (fileOf docs) assignments ids)).map
        (termValue ft (docWithId docs i)))⟩,
    ⟨.csr, (topicList (readDocuments (fileOf docs) assignments ids)).length,
      ids.map (fun i => (topicList (readDocuments (fileOf docs) assignments ids)).map
        (fun t => if (t, i) ∈ assignments then 1 else 0))⟩,
    ids.map idLabel, wordList (readDocuments (fileOf docs) assignments ids),
    topicList (readDocuments (fileOf docs) assignments ids), false⟩,
    ?_, ?_, rfl, rfl, rfl, sortedSet_nodup _, sortedSet_sorted _, ?_, sortedSet_nodup _,
    sortedSet_sorted _, ?_, ?_⟩
  · unfold createMatrix
    rw [hlen, hfill]
    rfl
  · constructor <;> simp [wordList, topicList]
  · intro w
    refine (wordList_mem hp hn assignments ids w).trans ⟨?_, ?_⟩
    · rintro ⟨i, h, _, hw⟩; exact ⟨i, h, hw⟩
    · rintro ⟨i, h, hw⟩; exact ⟨i, h, hin i h, hw⟩
  · intro t
    refine (topicList_mem hp hn assignments ids t).trans ⟨?_, ?_⟩
    · rintro ⟨i, h, _, hw⟩; exact ⟨i, h, hw⟩
    · rintro ⟨i, h, hw⟩; exact ⟨i, h, hin i h, hw⟩
  · simp only [table]
    rw [List.zip_map', List.zip_map', List.map_map]
    apply List.map_congr_left
    intro i _
    simp only [Function.comp, Sample.mk.injEq, true_and]
    exact ⟨zip_with_map _ _, zip_with_map _ _⟩


section
variable {docs : List SrcDoc} (hp : ∀ d ∈ docs, d.Plain) (hn : (docs.map SrcDoc.id).Nodup)
  (assignments : List (Str × Nat)) (ft : FeatureType) (label : Str)

include hp hn in
/-- The rows of present documents before anything else. -/
theorem fill_prefix (ids pre more : List Nat) (k : Nat) (he : ids = pre ++ more)
    (hpre : ∀ i ∈ pre, i ∈ docs.map SrcDoc.id)
    (hlen : (readDocuments (fileOf docs) assignments ids).length = pre.length + k) :
    createMatrix (fileOf docs) assignments ft label ids =
      (fillRows (readDocuments (fileOf docs) assignments ids)
        (wordList (readDocuments (fileOf docs) assignments ids))
        (topicList (readDocuments (fileOf docs) assignments ids)) ft more pre.length
        (pre.map (fun i => featureRow ft (wordList (readDocuments (fileOf docs) assignments ids))
            (fullDoc assignments (docWithId docs i))) ++
          List.replicate k (List.replicate
            (wordList (readDocuments (fileOf docs) assignments ids)).length 0),
         pre.map (fun i => (topicList (readDocuments (fileOf docs) assignments ids)).map
            (fun t => if t ∈ (fullDoc assignments (docWithId docs i)).topics then 1 else 0)) ++
          List.replicate k (List.replicate
            (topicList (readDocuments (fileOf docs) assignments ids)).length 0)) >>= fun m =>
      .ok { label := label,
            X := ⟨.csr, (wordList (readDocuments (fileOf docs) assignments ids)).length, m.1⟩,
            Y := ⟨.csr, (topicList (readDocuments (fileOf docs) assignments ids)).length, m.2⟩,
            rowLabels := ids.map idLabel,
            colLabelsX := wordList (readDocuments (fileOf docs) assignments ids),
            colLabelsY := topicList (readDocuments (fileOf docs) assignments ids),
            final := false }) := by
  have hmem : ∀ i ∈ pre, i ∈ ids := fun i h => by rw [he]; simp [h]
  have hfill := fillRows_ok (readDocuments (fileOf docs) assignments ids)
    (wordList (readDocuments (fileOf docs) assignments ids))
    (topicList (readDocuments (fileOf docs) assignments ids)) (sortedSet_nodup _) (sortedSet_nodup _)
    ft (fun i => fullDoc assignments (docWithId docs i)) pre
    (fun i h => documents_get hp hn assignments ids (hmem i h) (hpre i h))
    (fun i h w hw => (wordList_mem hp hn assignments ids w).2
      ⟨i, hmem i h, hpre i h, (counts_keys _ _).1 hw⟩)
    (fun i h t ht => (topicList_mem hp hn assignments ids t).2
      ⟨i, hmem i h, hpre i h, by rw [← (docWithId_id (hpre i h)).2]; exact (topicsOf_mem _ _ _).1 ht⟩)
    k [] [] rfl more
  simp only [List.nil_append, List.length_nil, Nat.zero_add] at hfill
  unfold createMatrix
  rw [hlen]
  conv_lhs => rw [show fillRows (readDocuments (fileOf docs) assignments ids)
    (wordList (readDocuments (fileOf docs) assignments ids))
    (topicList (readDocuments (fileOf docs) assignments ids)) ft ids 0 =
    fillRows (readDocuments (fileOf docs) assignments ids)
    (wordList (readDocuments (fileOf docs) assignments ids))
    (topicList (readDocuments (fileOf docs) assignments ids)) ft (pre ++ more) 0 from
    congrArg (fun l => fillRows (readDocuments (fileOf docs) assignments ids)
    (wordList (readDocuments (fileOf docs) assignments ids))
    (topicList (readDocuments (fileOf docs) assignments ids)) ft l 0) he]
  rw [hfill]

/-- A list with an element that fails the test splits at the first such element. -/
theorem first_failing {P : Nat → Prop} [DecidablePred P] (l : List Nat) (h : ∃ x ∈ l, ¬ P x) :
    ∃ pre x post, l = pre ++ x :: post ∧ (∀ y ∈ pre, P y) ∧ ¬ P x := by
  induction l with
  | nil => simp at h
  | cons a l ih =>
    by_cases ha : P a
    · obtain ⟨x, hx, hxp⟩ := h
      rcases List.mem_cons.1 hx with rfl | hx
      · exact absurd ha hxp
      · obtain ⟨pre, y, post, e, h1, h2⟩ := ih ⟨x, hx, hxp⟩
        refine ⟨a :: pre, y, post, by rw [e]; rfl, ?_, h2⟩
        intro z hz
        rcases List.mem_cons.1 hz with rfl | hz
        · exact ha
        · exact h1 z hz
    · exact ⟨[], a, l, rfl, by simp, ha⟩

include hp hn in
/-- **C49, missing document.**  If a requested document (all requested IDs being different) is not
in the token file, no dataset is made: `KeyError`. -/
theorem missing_document_keyError (ids : List Nat) (hi : ids.Nodup)
    (hm : ∃ i ∈ ids, i ∉ docs.map SrcDoc.id) :
    createMatrix (fileOf docs) assignments ft label ids = .error .keyError := by
  obtain ⟨pre, x, post, e, h1, h2⟩ := first_failing (P := fun i => i ∈ docs.map SrcDoc.id) ids hm
  have hl := documents_length hp hn assignments ids hi
  have hle : pre.length ≤ (readDocuments (fileOf docs) assignments ids).length := by
    rw [hl, e, List.filter_append, List.filter_eq_self.2 (by intro a ha; simpa using h1 a ha)]
    simp
  obtain ⟨k, hk⟩ := Nat.exists_eq_add_of_le hle
  rw [fill_prefix hp hn assignments ft label ids pre (x :: post) k e h1 hk]
  have hx := documents_none hp hn assignments ids h2
  conv_lhs => unfold fillRows
  rw [hx]
  rfl

include hp hn in
/-- **Finding (duplicate requests).**  If some document is requested twice (for example because it
is listed twice for the industry), and every requested document is in the file and has a word,
the matrix has too few rows and no dataset is made: `IndexError`. -/
theorem duplicate_request_indexError (ids : List Nat) (hi : ¬ ids.Nodup)
    (hin : ∀ i ∈ ids, i ∈ docs.map SrcDoc.id) (hft : ft ≠ .other)
    (hwords : ∀ i ∈ ids, (docWithId docs i).words ≠ []) :
    createMatrix (fileOf docs) assignments ft label ids = .error .indexError := by
  have hlt : (readDocuments (fileOf docs) assignments ids).length < ids.length := by
    have h1 : (readDocuments (fileOf docs) assignments ids).length = ids.dedup.length := by
      rw [readDocuments_eq docs hp hn, List.length_map]
      have h1 : (docs.filter (fun d => decide (d.id ∈ ids))).length =
          ((docs.map SrcDoc.id).filter (fun i => decide (i ∈ ids))).length := by
        rw [List.filter_map, List.length_map]; rfl
      rw [h1]
      apply List.Perm.length_eq
      rw [List.perm_ext_iff_of_nodup (hn.sublist List.filter_sublist) ids.nodup_dedup]
      intro i
      simp only [List.mem_filter, decide_eq_true_eq, List.mem_dedup]
      exact ⟨fun h => h.2, fun h => ⟨hin i h, h⟩⟩
    rw [h1]
    have h2 := (List.dedup_sublist ids).length_le
    rcases Nat.lt_or_ge ids.dedup.length ids.length with h | h
    · exact h
    · have := (List.dedup_sublist ids).eq_of_length_le h
      exact absurd (this ▸ ids.nodup_dedup) hi
  obtain ⟨x, post, hd⟩ : ∃ x post,
      ids.drop (readDocuments (fileOf docs) assignments ids).length = x :: post := by
    cases h : ids.drop (readDocuments (fileOf docs) assignments ids).length with
    | nil => rw [List.drop_eq_nil_iff] at h; omega
    | cons x post => exact ⟨x, post, rfl⟩
  have e : ids = ids.take (readDocuments (fileOf docs) assignments ids).length ++ x :: post := by
    rw [← hd, List.take_append_drop]
  have hxm : x ∈ ids := by rw [e]; simp
  have htl : (ids.take (readDocuments (fileOf docs) assignments ids).length).length =
      (readDocuments (fileOf docs) assignments ids).length := by
    rw [List.length_take]; omega
  rw [fill_prefix hp hn assignments ft label ids _ (x :: post) 0 e
    (fun i h => hin i (List.mem_of_mem_take h)) (by omega)]
  have hx := documents_get hp hn assignments ids hxm (hin x hxm)
  conv_lhs => unfold fillRows
  rw [hx]
  have hsub : ∀ w ∈ (fullDoc assignments (docWithId docs x)).frequencies.map Prod.fst,
      w ∈ wordList (readDocuments (fileOf docs) assignments ids) := fun w hw =>
    (wordList_mem hp hn assignments ids w).2 ⟨x, hxm, hin x hxm, (counts_keys _ _).1 hw⟩
  have hne : (fullDoc assignments (docWithId docs x)).frequencies.map Prod.fst ≠ [] := by
    intro h
    obtain ⟨w, hw⟩ := List.exists_mem_of_ne_nil _ (hwords x hxm)
    have : w ∈ (fullDoc assignments (docWithId docs x)).frequencies.map Prod.fst :=
      (counts_keys _ _).2 hw
    rw [h] at this
    simp at this
  have hcells : ∃ f : Str → Nat × Int, featureCells ft
      (wordList (readDocuments (fileOf docs) assignments ids))
      (fullDoc assignments (docWithId docs x)) =
      .ok (((fullDoc assignments (docWithId docs x)).frequencies.map Prod.fst).map f) := by
    cases ft with
    | wordcount => exact ⟨_, cellsOf_ok _ _ _ hsub⟩
    | binary => exact ⟨_, cellsOf_ok _ _ _ hsub⟩
    | other => exact absurd rfl hft
  obtain ⟨f, hf⟩ := hcells
  show ((featureCells ft _ _ >>= _) >>= _) = _
  rw [hf]
  show ((writeCells _ _ _ >>= _) >>= _) = _
  have hw : ∀ m : List (List Int), m.length = (readDocuments (fileOf docs) assignments ids).length →
      writeCells m (ids.take (readDocuments (fileOf docs) assignments ids).length).length
        (((fullDoc assignments (docWithId docs x)).frequencies.map Prod.fst).map f) =
        .error .indexError := by
    intro m hml
    unfold writeCells
    rw [if_neg (by simpa using hne), if_neg (by omega)]
  rw [hw _ (by simp; omega)]
  rfl

end

/-- **Finding (unknown feature type).**  A misspelt feature type is not rejected: the dataset is
made, and every feature of every sample is 0. -/
theorem unknown_feature_type_zeros (docs : List SrcDoc) (hp : ∀ d ∈ docs, d.Plain)
    (hn : (docs.map SrcDoc.id).Nodup) (assignments : List (Str × Nat))
    (label : Str) (ids : List Nat) (hi : ids.Nodup) (hin : ∀ i ∈ ids, i ∈ docs.map SrcDoc.id) :
    ∃ dm, createMatrix (fileOf docs) assignments .other label ids = .ok dm ∧
      ∀ s ∈ (table dm).samples, ∀ p ∈ s.features, p.2 = 0 := by
  obtain ⟨dm, h, _, _, _, _, _, _, _, _, _, _, ht⟩ :=
    rcv_matrix_exact docs hp hn assignments .other label ids hi hin
  refine ⟨dm, h, ?_⟩
  rw [ht]
  intro s hs p hp
  obtain ⟨i, _, rfl⟩ := List.mem_map.1 hs
  obtain ⟨w, _, rfl⟩ := List.mem_map.1 hp
  rfl

/-- Which documents a filter selects: all of the ID file, or those assigned to the industry, in
ascending order. -/
theorem filter_ids (lines : List Line) (allIds : List Nat) (industries assignments : List (Str × Nat))
    (ft : FeatureType) (label : Str) :
    createFiltered lines allIds industries assignments ft label .unsupported = .error .valueError ∧
    (∃ ids, createFiltered lines allIds industries assignments ft label .none =
        createMatrix lines assignments ft label ids ∧ ids.Perm allIds ∧ ids.Pairwise (· ≤ ·)) ∧
    (∀ i, ∃ ids, createFiltered lines allIds industries assignments ft label (.industry i) =
        createMatrix lines assignments ft label ids ∧ ids.Pairwise (· ≤ ·) ∧
        ∀ n, ids.count n = industries.count (i, n)) := by
  refine ⟨rfl, ⟨_, rfl, List.perm_insertionSort _ _, List.pairwise_insertionSort _ _⟩, fun i => ⟨_, rfl,
    List.pairwise_insertionSort _ _, fun n => ?_⟩⟩
  unfold idsInIndustry
  rw [(List.perm_insertionSort _ _).count_eq]
  induction industries with
  | nil => rfl
  | cons a as ih =>
    obtain ⟨j, m⟩ := a
    by_cases e : j = i
    · subst e
      simp [List.count_cons, ih]
    · simp [ih, e]

/-! ## The text of the token file -/

/-- A word: not empty, no white space. (Specification.) -/
def Word (w : Str) : Prop := w ≠ [] ∧ ∀ c ∈ w, isSpace c = false

/-- `' '.join(words)`. (Specification.) -/
def joinWords : List Str → Str
  | [] => []
  | [w] => w
  | w :: w' :: ws => w ++ ' ' :: joinWords (w' :: ws)

/-- A document as it is written in the token file: its ID and its lines of words.
(Specification.) -/
structure TextDoc where
  id : Nat
  lines : List (List Str)

/-- The text lines of a document, as `readlines` yields them: `.I id`, `.W`, the lines of words, an
empty line; each with its line break. (Specification.) -/
def TextDoc.text (d : TextDoc) : List Str :=
  ((['.', 'I', ' '] ++ idLabel d.id) :: ['.', 'W'] :: (d.lines.map joinWords ++ [[]])).map (· ++ ['\n'])

/-- A line of words that is read as such: it has a word, its words are words, its first word does
not start with `.W`, and is not `.I` (when there are more words). (Specification.) -/
def PlainLine (ws : List Str) : Prop :=
  ws ≠ [] ∧ (∀ w ∈ ws, Word w) ∧ (joinWords ws).take 2 ≠ ['.', 'W'] ∧
    (joinWords ws).take 3 ≠ ['.', 'I', ' ']

theorem splitAux_word (w rest : Str) (hw : ∀ c ∈ w, isSpace c = false) :
    splitAux (w ++ rest) = (w ++ (splitAux rest).1, (splitAux rest).2) := by
  induction w with
  | nil => rfl
  | cons c w ih =>
    have hc : isSpace c = false := hw c (by simp)
    simp only [List.cons_append, splitAux, hc, ih (fun x hx => hw x (by simp [hx]))]
    rfl

theorem splitWords_join (ws : List Str) (hw : ∀ w ∈ ws, Word w) : splitWords (joinWords ws) = ws := by
  suffices h : ws ≠ [] → splitAux (joinWords ws) = (ws.headD [], ws.tail) by
    by_cases he : ws = []
    · subst he; rfl
    · cases ws with
      | nil => exact absurd rfl he
      | cons w ws =>
        have := h he
        unfold splitWords
        rw [this]
        simp [(hw w (by simp)).1]
  induction ws with
  | nil => intro h; exact absurd rfl h
  | cons w ws ih =>
    intro _
    have hww := hw w (by simp)
    cases ws with
    | nil =>
      have := splitAux_word w [] hww.2
      simpa [joinWords, splitAux] using this
    | cons w' ws =>
      have h2 := ih (fun x hx => hw x (by simp [hx])) (by simp)
      have hne : w' ≠ [] := (hw w' (by simp)).1
      have hsp : isSpace ' ' = true := by decide
      show splitAux (w ++ ' ' :: joinWords (w' :: ws)) = _
      rw [splitAux_word w _ hww.2]
      simp only [splitAux, hsp, if_true, h2]
      simp [hne]

theorem joinWords_head (ws : List Str) (hw : ∀ w ∈ ws, Word w) :
    ∀ c ∈ (joinWords ws).head?, isSpace c = false := by
  cases ws with
  | nil => simp [joinWords]
  | cons w ws =>
    obtain ⟨h1, h2⟩ := hw w (by simp)
    cases w with
    | nil => exact absurd rfl h1
    | cons a w =>
      intro c hc
      have : c = a := by
        cases ws with
        | nil => simpa [joinWords, eq_comm] using hc
        | cons w' ws => simpa [joinWords, eq_comm] using hc
      subst this
      exact h2 c (by simp)

theorem joinWords_last (ws : List Str) (hw : ∀ w ∈ ws, Word w) :
    ∀ c ∈ (joinWords ws).getLast?, isSpace c = false := by
  induction ws with
  | nil => simp [joinWords]
  | cons w ws ih =>
    cases ws with
    | nil =>
      intro c hc
      exact (hw w (by simp)).2 c (List.mem_of_getLast? hc)
    | cons w' ws =>
      intro c hc
      have hne : joinWords (w' :: ws) ≠ [] := by
        have := (hw w' (by simp)).1
        cases ws with
        | nil => simpa [joinWords] using this
        | cons _ _ => simp [joinWords]
      have : (joinWords (w :: w' :: ws)).getLast? = (joinWords (w' :: ws)).getLast? := by
        show (w ++ ' ' :: joinWords (w' :: ws)).getLast? = _
        rw [List.getLast?_append]
        cases hj : joinWords (w' :: ws) with
        | nil => exact absurd hj hne
        | cons a s => simp [List.getLast?_cons]
      rw [this] at hc
      exact ih (fun x hx => hw x (by simp [hx])) c hc

theorem strip_of_ends {l : Str} (h1 : ∀ c ∈ l.head?, isSpace c = false)
    (h2 : ∀ c ∈ l.getLast?, isSpace c = false) : strip l = l := by
  unfold strip
  rw [dropWhile_fix h1, dropWhile_fix, List.reverse_reverse]
  intro c hc; rw [List.head?_reverse] at hc; exact h2 c hc

theorem strip_line {l : Str} (h1 : ∀ c ∈ l.head?, isSpace c = false)
    (h2 : ∀ c ∈ l.getLast?, isSpace c = false) : strip (l ++ ['\n']) = l := by
  by_cases hl : l = []
  · subst hl; decide
  · have h3 : (l ++ ['\n']).dropWhile isSpace = l ++ ['\n'] := by
      apply dropWhile_fix
      intro c hc
      apply h1 c
      cases l with
      | nil => exact absurd rfl hl
      | cons a l => simpa using hc
    unfold strip
    rw [h3, List.reverse_append]
    have e : ['\n'].reverse ++ l.reverse = '\n' :: l.reverse := rfl
    rw [e, List.dropWhile_cons_of_pos isSpace_newline, dropWhile_fix, List.reverse_reverse]
    intro c hc; rw [List.head?_reverse] at hc; exact h2 c hc

theorem idLabel_digit (n : Nat) : ∀ c ∈ idLabel n, c.isDigit = true := by
  intro c hc
  unfold idLabel at hc
  rw [Nat.toString_eq_ofList_toDigits] at hc
  simp only [String.toList_ofList] at hc
  exact Nat.isDigit_of_mem_toDigits (by decide) (by decide) hc

theorem idLabel_ne_nil (n : Nat) : idLabel n ≠ [] := by
  unfold idLabel
  rw [Nat.toString_eq_ofList_toDigits]
  simp only [String.toList_ofList]
  exact Nat.toDigits_ne_nil

theorem digit_not_space {c : Char} (h : c.isDigit = true) : isSpace c = false := by
  have h1 : 48 ≤ c.toNat ∧ c.toNat ≤ 57 := by
    simp only [Char.isDigit, Bool.and_eq_true, decide_eq_true_eq] at h
    exact ⟨by simpa using UInt32.le_iff_toNat_le.1 h.1, by simpa using UInt32.le_iff_toNat_le.1 h.2⟩
  unfold isSpace
  simp only [decide_eq_false_iff_not, List.mem_cons, List.not_mem_nil, or_false]
  omega

/-- Reading a decimal number: what `int` does with plain digits.
RCV1v2DatasetSource.py 229, 274. -/
def parseDigits (s : Str) : Except Err Nat :=
  if s ≠ [] ∧ ∀ c ∈ s, c.isDigit = true then .ok (s.foldl (fun n c => 10 * n + (c.toNat - 48)) 0)
  else .error .valueError

theorem parseDigits_idLabel (n : Nat) : parseDigits (idLabel n) = .ok n := by
  unfold parseDigits
  rw [if_pos ⟨idLabel_ne_nil n, idLabel_digit n⟩]
  unfold idLabel
  rw [Nat.toString_eq_ofList_toDigits]
  simp only [String.toList_ofList]
  congr 1
  induction n using Nat.strongRecOn with
  | ind n ih =>
    by_cases h : n < 10
    · rw [Nat.toDigits_of_lt_base h]
      simp [Nat.toNat_digitChar_sub_48_of_lt_ten h]
    · rw [Nat.toDigits_of_base_le (by decide) (by omega), List.foldl_append, ih (n / 10) (by omega)]
      simp [Nat.toNat_digitChar_sub_48_of_lt_ten (Nat.mod_lt n (by decide : 10 > 0))]
      omega

/-- The document the reader sees. (Specification.) -/
def TextDoc.src (d : TextDoc) : SrcDoc := ⟨d.id, .marker :: (d.lines.map Line.tokens ++ [.blank])⟩

theorem classifyAll_append (p : Str → Except Err Nat) (a b : List Str) (x y : List Line)
    (ha : classifyAll p a = .ok x) (hb : classifyAll p b = .ok y) :
    classifyAll p (a ++ b) = .ok (x ++ y) := by
  induction a generalizing x with
  | nil => cases ha; exact hb
  | cons l ls ih =>
    rw [List.cons_append]
    unfold classifyAll at ha ⊢
    cases h1 : classify p l with
    | error e => rw [h1] at ha; cases ha
    | ok z =>
      rw [h1] at ha
      cases h2 : classifyAll p ls with
      | error e => rw [h2] at ha; cases ha
      | ok zs =>
        rw [h2] at ha
        cases ha
        show (classifyAll p (ls ++ b) >>= _) = _
        rw [ih zs h2]
        rfl

theorem classify_tokens (p : Str → Except Err Nat) (ws : List Str) (h : PlainLine ws) :
    classify p (joinWords ws ++ ['\n']) = .ok (.tokens ws) := by
  obtain ⟨h1, h2, h3, h4⟩ := h
  unfold classify
  rw [strip_line (joinWords_head ws h2) (joinWords_last ws h2), if_neg h4, if_neg h3,
    splitWords_join ws h2]
  have : joinWords ws ≠ [] := by
    cases ws with
    | nil => exact absurd rfl h1
    | cons w ws =>
      have := (h2 w (by simp)).1
      cases ws with
      | nil => simpa [joinWords] using this
      | cons _ _ => simp [joinWords]
  rw [if_neg this]

theorem classify_doc (p : Str → Except Err Nat) (hpi : ∀ n, p (idLabel n) = .ok n) (d : TextDoc)
    (hd : ∀ ws ∈ d.lines, PlainLine ws) :
    classifyAll p d.text = .ok (.header d.id :: d.src.body) := by
  have hi1 : ∀ c ∈ (idLabel d.id).head?, isSpace c = false := fun c hc =>
    digit_not_space (idLabel_digit d.id c (List.mem_of_head? hc))
  have hi2 : ∀ c ∈ (idLabel d.id).getLast?, isSpace c = false := fun c hc =>
    digit_not_space (idLabel_digit d.id c (List.mem_of_getLast? hc))
  have hhead : classify p (['.', 'I', ' '] ++ idLabel d.id ++ ['\n']) = .ok (.header d.id) := by
    unfold classify
    rw [strip_line]
    · have e1 : (['.', 'I', ' '] ++ idLabel d.id).take 3 = ['.', 'I', ' '] := rfl
      have e2 : (['.', 'I', ' '] ++ idLabel d.id).drop 3 = idLabel d.id := rfl
      rw [if_pos e1, e2, strip_of_ends hi1 hi2, hpi]
      rfl
    · intro c hc
      have : c = '.' := by simpa [eq_comm] using hc
      subst this; decide
    · intro c hc
      apply hi2 c
      rw [List.getLast?_append] at hc
      cases h : (idLabel d.id).getLast? with
      | none => rw [List.getLast?_eq_none_iff] at h; exact absurd h (idLabel_ne_nil _)
      | some x => rw [h] at hc; simpa using hc
  have hmark : classify p (['.', 'W'] ++ ['\n']) = .ok .marker := by
    have : strip (['.', 'W'] ++ ['\n']) = ['.', 'W'] := by decide
    unfold classify; rw [this, if_neg (by decide), if_pos (by decide)]
  have hblank : classify p ([] ++ ['\n']) = .ok .blank := by
    have : strip ([] ++ ['\n']) = [] := by decide
    unfold classify; rw [this, if_neg (by decide), if_neg (by decide), if_pos rfl]
  have hlines : ∀ ls : List (List Str), (∀ ws ∈ ls, PlainLine ws) →
      classifyAll p ((ls.map joinWords).map (· ++ ['\n'])) = .ok (ls.map Line.tokens) := by
    intro ls
    induction ls with
    | nil => intro _; rfl
    | cons l ls ih =>
      intro h
      show (classify p (joinWords l ++ ['\n']) >>= _) = _
      rw [classify_tokens p l (h l (by simp))]
      show (classifyAll p ((ls.map joinWords).map (· ++ ['\n'])) >>= _) = _
      rw [ih (fun x hx => h x (by simp [hx]))]
      rfl
  have hrest : classifyAll p ((d.lines.map joinWords ++ [[]]).map (· ++ ['\n'])) =
      .ok (d.lines.map Line.tokens ++ [.blank]) := by
    rw [List.map_append]
    apply classifyAll_append _ _ _ _ _ (hlines d.lines hd)
    show (classify p ([] ++ ['\n']) >>= _) = _
    rw [hblank]
    rfl
  show (classify p (['.', 'I', ' '] ++ idLabel d.id ++ ['\n']) >>= _) = _
  rw [hhead]
  show (classify p (['.', 'W'] ++ ['\n']) >>= _ ) >>= _ = _
  rw [hmark]
  show (classifyAll p ((d.lines.map joinWords ++ [[]]).map (· ++ ['\n'])) >>= _) >>= _ = _
  rw [hrest]
  rfl

/-- **C49, the text.**  The reader recovers exactly the documents that were written: their IDs and
their words, for any number of documents and lines. -/
theorem token_file_read_back (p : Str → Except Err Nat) (hpi : ∀ n, p (idLabel n) = .ok n)
    (docs : List TextDoc) (hd : ∀ d ∈ docs, ∀ ws ∈ d.lines, PlainLine ws) :
    classifyAll p (docs.flatMap TextDoc.text) = .ok (fileOf (docs.map TextDoc.src)) ∧
    (∀ d ∈ docs.map TextDoc.src, d.Plain) ∧
    docs.map (fun d => (d.src.id, d.src.words)) = docs.map (fun d => (d.id, d.lines.flatten)) := by
  refine ⟨?_, ?_, ?_⟩
  · induction docs with
    | nil => rfl
    | cons d ds ih =>
      rw [List.flatMap_cons]
      exact classifyAll_append p _ _ _ _ (classify_doc p hpi d (hd d (by simp)))
        (ih (fun x hx => hd x (by simp [hx])))
  · intro d hd' l hl id he
    obtain ⟨t, _, rfl⟩ := List.mem_map.1 hd'
    subst he
    simp [TextDoc.src] at hl
  · apply List.map_congr_left
    intro d _
    have : d.src.words = d.lines.flatten := by
      simp only [TextDoc.src, SrcDoc.words, List.flatMap_cons, List.flatMap_append, List.nil_append,
        List.flatMap_nil, List.append_nil]
      rw [List.flatMap_map, ← List.flatMap_id]
      rfl
    rw [this]
    rfl

/-! ## A concrete file -/

/-- `int` can be taken to be `parseDigits`. -/
example : ∀ n, parseDigits (idLabel n) = .ok n := parseDigits_idLabel

/-- (Example.) -/
def exDocs : List TextDoc :=
  [⟨7, [["up".toList, "oil".toList], ["up".toList]]⟩, ⟨3, [["gas".toList]]⟩, ⟨12, []⟩]

example : ∀ d ∈ exDocs, ∀ ws ∈ d.lines, PlainLine ws := by
  unfold PlainLine Word
  decide +kernel

example : ((exDocs.map TextDoc.src).map SrcDoc.id).Nodup ∧ (∀ i ∈ [3, 7], i ∈ (exDocs.map TextDoc.src).map SrcDoc.id)
    ∧ [3, 7].Nodup := by decide +kernel

example : (createMatrix (fileOf (exDocs.map TextDoc.src)) [("E".toList, 7), ("G".toList, 12), ("C".toList, 7)]
    .wordcount [] [3, 7]).toOption.map (fun m => (m.colLabelsX, m.X.rows, m.colLabelsY, m.Y.rows)) =
    some (["gas".toList, "oil".toList, "up".toList], [[1, 0, 0], [0, 1, 2]],
      ["C".toList, "E".toList], [[0, 0], [1, 1]]) := by decide +kernel

example : ∃ i ∈ [3, 8], i ∉ (exDocs.map TextDoc.src).map SrcDoc.id := by decide +kernel

example : ¬ [3, 3].Nodup ∧ ∀ i ∈ [3, 3], (docWithId (exDocs.map TextDoc.src) i).words ≠ [] := by
  decide +kernel

end Mbtk.Dataset.Rcv
