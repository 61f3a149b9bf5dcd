import Verif.Data.History
/-!
# Model of `DatasetMatrix.save` and `DatasetMatrix.load`, and their round trip (C40, C54)

Modelled: the five files of a dataset, text mode writing and reading (no newline translation
when writing on Linux, universal newlines when reading), iteration over the lines of a file,
`str.strip` with Python's whitespace characters, the order of the writes.
Trusted: `scipy.io.mmwrite`/`mmread` store and return the shape and the entries of a matrix
(the storage format is not stored, `load_matrix` returns CSR: functions.py 15-23); text is
encoded and decoded faithfully; the write of one file is not interrupted half-way; the labels
of datasets saved in the same folder are plain folder names, so that different labels are
different folders.
-/
namespace Mbtk.Dataset
open Spec

/-! ## Text files -/

/-- Characters that `str.strip` removes (`str.isspace`). DatasetMatrix.py 493-519. -/
def isSpace (c : Char) : Bool :=
  c.toNat ∈ [0x09, 0x0A, 0x0B, 0x0C, 0x0D, 0x1C, 0x1D, 0x1E, 0x1F, 0x20, 0x85, 0xA0, 0x1680,
    0x2000, 0x2001, 0x2002, 0x2003, 0x2004, 0x2005, 0x2006, 0x2007, 0x2008, 0x2009, 0x200A,
    0x2028, 0x2029, 0x202F, 0x205F, 0x3000]

/-- `str.strip`. DatasetMatrix.py 493-519. -/
def strip (s : Str) : Str := ((s.dropWhile isSpace).reverse.dropWhile isSpace).reverse

/-- `'\n'.join(labels)`: DatasetMatrix.py 485, 488, 491. -/
def joinLines : List Str → Str
  | [] => []
  | [l] => l
  | l :: l' :: ls => l ++ '\n' :: joinLines (l' :: ls)

/-- Universal newlines: what a text file yields when opened with `mode='rt'`.
DatasetMatrix.py 493-519. -/
def universalNewlines : Str → Str
  | [] => []
  | '\r' :: '\n' :: s => '\n' :: universalNewlines s
  | '\r' :: s => '\n' :: universalNewlines s
  | c :: s => c :: universalNewlines s

/-- `list(f)`: the lines of a text file, each with its line end. DatasetMatrix.py 493-519. -/
def fileLines : Str → List Str
  | [] => []
  | c :: s =>
    if c = '\n' then ['\n'] :: fileLines s
    else match fileLines s with
      | [] => [[c]]
      | l :: ls => (c :: l) :: ls

/-- `list(map(str.strip, list(f)))`: DatasetMatrix.py 512, 515, 518. -/
def readLabels (text : Str) : List Str := (fileLines (universalNewlines text)).map strip

/-! ## Files of a dataset -/

/-- Content of a file. DatasetMatrix.py 460-490. -/
inductive File where
  | matrix (ncols : Nat) (rows : List (List Int))
  | text (s : Str)
  deriving DecidableEq, Repr

/-- The files of a repository folder: folder (label of the dataset), name, content.
DatasetMatrix.py 460-490. -/
abbrev Disk := Str → String → Option File

/-- Write one file. DatasetMatrix.py 460-490. -/
def write (disk : Disk) (folder : Str) (name : String) (f : File) : Disk :=
  fun l n => if l = folder ∧ n = name then some f else disk l n

/-- The files that `save` writes, in that order: DatasetMatrix.py 481-491. -/
def saveWrites (d : DM) : List (String × File) :=
  [("X.mtx", .matrix d.X.ncols d.X.rows),
   ("Y.mtx", .matrix d.Y.ncols d.Y.rows),
   ("row_labels.txt", .text (joinLines d.rowLabels)),
   ("column_labels_X.txt", .text (joinLines d.colLabelsX)),
   ("column_labels_Y.txt", .text (joinLines d.colLabelsY))]

/-- Write files one after the other. DatasetMatrix.py 460-490. -/
def writeAll (disk : Disk) (folder : Str) (ws : List (String × File)) : Disk :=
  ws.foldl (fun k w => write k folder w.1 w.2) disk

/-- `save(path)`: DatasetMatrix.py 460-491. -/
def save (disk : Disk) (d : DM) : Disk × Option Err :=
  if d.final = false then (disk, some notFinalizedError)
  else (writeAll disk d.label (saveWrites d), none)

/-- A `save` during which the process dies after `n` files have been written.
DatasetMatrix.py 460-490, interrupted. -/
def crashedSave (disk : Disk) (d : DM) (n : Nat) : Disk :=
  if d.final = false then disk else writeAll disk d.label ((saveWrites d).take n)

/-- `FileNotFoundError`. DatasetMatrix.py 493-519. -/
def fileNotFound : Err := .custom "FileNotFoundError"

/-- `load_matrix`: functions.py 15-23. -/
def readMatrix (disk : Disk) (folder : Str) (name : String) : Except Err Matrix :=
  match disk folder name with
  | some (.matrix ncols rows) => .ok ⟨.csr, ncols, rows⟩
  | some (.text _) => .error .valueError
  | none => .error fileNotFound

/-- Read a file of labels: DatasetMatrix.py 511-518. -/
def readText (disk : Disk) (folder : Str) (name : String) : Except Err (List Str) :=
  match disk folder name with
  | some (.text s) => .ok (readLabels s)
  | some (.matrix _ _) => .error .valueError
  | none => .error fileNotFound

/-- `load(path)`: DatasetMatrix.py 494-519.  What was assigned before an exception stays
assigned. -/
def load (disk : Disk) (d : DM) : Outcome :=
  match readMatrix disk d.label "X.mtx" with
  | .error e => (d, some e)
  | .ok X => match readMatrix disk d.label "Y.mtx" with
    | .error e => ({ d with X := X }, some e)
    | .ok Y => match readText disk d.label "row_labels.txt" with
      | .error e => ({ d with X := X, Y := Y }, some e)
      | .ok rl => match readText disk d.label "column_labels_X.txt" with
        | .error e => ({ d with X := X, Y := Y, rowLabels := rl }, some e)
        | .ok cx => match readText disk d.label "column_labels_Y.txt" with
          | .error e => ({ d with X := X, Y := Y, rowLabels := rl, colLabelsX := cx }, some e)
          | .ok cy => finalize { d with X := X, Y := Y, rowLabels := rl, colLabelsX := cx,
                                        colLabelsY := cy }

/-- `sparse_equal`: DatasetMatrix.py 605-619. -/
def sparseEqual (m1 m2 : Matrix) : Bool :=
  (m1.rows.length = m2.rows.length ∧ m1.ncols = m2.ncols) && (m1.rows = m2.rows)

/-- `==` of two datasets: DatasetMatrix.py 559-578. -/
def datasetEq (a b : DM) : Bool :=
  (a.rowLabels = b.rowLabels) && (a.colLabelsX = b.colLabelsX) && (a.colLabelsY = b.colLabelsY) &&
    sparseEqual a.X b.X && sparseEqual a.Y b.Y

/-! ## Specification -/

namespace Spec

/-- A label that a text file with one label per line can hold: no line break inside, no white
space at either end. (Specification.) -/
def PlainLabel (l : Str) : Prop :=
  (∀ c ∈ l, c ≠ '\n' ∧ c ≠ '\r') ∧ (∀ c ∈ l.head?, isSpace c = false) ∧
    (∀ c ∈ l.getLast?, isSpace c = false)

/-- A list of labels that such a file can hold: only plain labels, the last one not empty.
(Specification.) -/
def PlainLabels (ls : List Str) : Prop := (∀ l ∈ ls, PlainLabel l) ∧ ls.getLast? ≠ some []

/-- All the labels of the dataset can be stored. (Specification.) -/
def Storable (d : DM) : Prop :=
  PlainLabels d.rowLabels ∧ PlainLabels d.colLabelsX ∧ PlainLabels d.colLabelsY

end Spec

/-! ## Labels -/

theorem dropWhile_fix {l : Str} (h : ∀ c ∈ l.head?, isSpace c = false) :
    l.dropWhile isSpace = l := by
  cases l with
  | nil => rfl
  | cons a t => rw [List.dropWhile_cons_of_neg]; simp [h a (by simp)]

theorem head_dropWhile (l : Str) : ∀ c ∈ (l.dropWhile isSpace).head?, isSpace c = false := by
  induction l with
  | nil => simp
  | cons a t ih =>
    by_cases h : isSpace a = true
    · rw [List.dropWhile_cons_of_pos h]; exact ih
    · rw [List.dropWhile_cons_of_neg h]; intro c hc; simp at hc; subst hc; simpa using h

theorem getLast_dropWhile (l : Str) :
    ∀ c, (l.dropWhile isSpace).getLast? = some c → l.getLast? = some c := by
  intro c hc
  have hs := List.dropWhile_suffix isSpace (l := l)
  obtain ⟨t, ht⟩ := hs
  rw [← ht, List.getLast?_append, hc]; rfl

theorem strip_fix {l : Str} (h : PlainLabel l) : strip l = l := by
  unfold strip
  rw [dropWhile_fix h.2.1, dropWhile_fix, List.reverse_reverse]
  intro c hc; rw [List.head?_reverse] at hc; exact h.2.2 c hc

theorem isSpace_newline : isSpace '\n' = true := by decide

theorem strip_newline {l : Str} (h : PlainLabel l) : strip (l ++ ['\n']) = l := by
  unfold strip
  by_cases hl : l = []
  · subst hl; decide
  · have h1 : (l ++ ['\n']).dropWhile isSpace = l ++ ['\n'] := by
      apply dropWhile_fix
      intro c hc
      rw [List.head?_append_of_ne_nil _ hl] at hc
      exact h.2.1 c hc
    rw [h1, List.reverse_append, List.reverse_singleton, List.singleton_append,
      List.dropWhile_cons_of_pos isSpace_newline, dropWhile_fix, List.reverse_reverse]
    intro c hc; rw [List.head?_reverse] at hc; exact h.2.2 c hc

/-- The ends of a stripped string are not white space. -/
theorem strip_ends (l : Str) : (∀ c ∈ (strip l).head?, isSpace c = false) ∧
    (∀ c ∈ (strip l).getLast?, isSpace c = false) := by
  unfold strip
  constructor
  · intro c hc
    rw [List.head?_reverse] at hc
    have := getLast_dropWhile _ c hc
    rw [List.getLast?_reverse] at this
    exact head_dropWhile _ c this
  · intro c hc
    rw [List.getLast?_reverse] at hc
    exact head_dropWhile _ c hc

theorem strip_subset {l : Str} {c : Char} (h : c ∈ strip l) : c ∈ l := by
  unfold strip at h
  rw [List.mem_reverse] at h
  have := (List.dropWhile_suffix isSpace).mem h
  rw [List.mem_reverse] at this
  exact (List.dropWhile_suffix isSpace).mem this

theorem universalNewlines_fix {s : Str} (h : ∀ c ∈ s, c ≠ '\r') : universalNewlines s = s := by
  induction s with
  | nil => rfl
  | cons c s ih =>
    have hc := h c (by simp)
    rw [universalNewlines.eq_4 _ _ (by rintro t rfl; exact absurd rfl hc) (fun e => hc e)]
    rw [ih (fun c hc => h c (by simp [hc]))]

theorem fileLines_line {l : Str} (h : ∀ c ∈ l, c ≠ '\n') (s : Str) :
    fileLines (l ++ '\n' :: s) = (l ++ ['\n']) :: fileLines s := by
  induction l with
  | nil => simp [fileLines]
  | cons c l ih =>
    rw [List.cons_append, fileLines, if_neg (h c (by simp)), ih (fun c hc => h c (by simp [hc]))]
    rfl

theorem fileLines_last {l : Str} (h : ∀ c ∈ l, c ≠ '\n') (hl : l ≠ []) : fileLines l = [l] := by
  induction l with
  | nil => simp at hl
  | cons c l ih =>
    rw [fileLines, if_neg (h c (by simp))]
    by_cases hl' : l = []
    · subst hl'; rfl
    · rw [ih (fun c hc => h c (by simp [hc])) hl']

theorem joinLines_chars {ls : List Str} (h : ∀ l ∈ ls, ∀ c ∈ l, c ≠ '\r') :
    ∀ c ∈ joinLines ls, c ≠ '\r' := by
  induction ls with
  | nil => simp [joinLines]
  | cons l ls ih =>
    cases ls with
    | nil => intro c hc; exact h l (by simp) c hc
    | cons l' ls =>
      intro c hc
      simp only [joinLines, List.mem_append, List.mem_cons] at hc
      rcases hc with hc | rfl | hc
      · exact h l (by simp) c hc
      · decide
      · exact ih (fun x hx => h x (by simp [hx])) c hc

theorem readLabels_join {ls : List Str} (h : ∀ l ∈ ls, PlainLabel l) :
    readLabels (joinLines ls) = if ls.getLast? = some [] then ls.dropLast else ls := by
  unfold readLabels
  rw [universalNewlines_fix (joinLines_chars (fun l hl c hc => ((h l hl).1 c hc).2))]
  induction ls with
  | nil => simp [joinLines, fileLines]
  | cons l ls ih =>
    have hl := h l (by simp)
    cases ls with
    | nil =>
      simp only [joinLines, List.getLast?_singleton, Option.some.injEq, List.dropLast_singleton]
      by_cases e : l = []
      · subst e; simp [fileLines]
      · rw [fileLines_last (fun c hc => (hl.1 c hc).1) e, if_neg e]
        simp [strip_fix hl]
    | cons l' ls =>
      rw [joinLines, fileLines_line (fun c hc => (hl.1 c hc).1), List.map_cons, strip_newline hl,
        ih (fun x hx => h x (by simp [hx])), List.getLast?_cons_cons]
      split <;> simp

theorem universalNewlines_chars (s : Str) : ∀ c ∈ universalNewlines s, c ≠ '\r' := by
  induction s using universalNewlines.induct with
  | case1 => simp [universalNewlines]
  | case2 s ih => intro c hc; rw [universalNewlines] at hc; rcases List.mem_cons.1 hc with rfl | hc
                  · decide
                  · exact ih c hc
  | case3 s h ih =>
    intro c hc
    rw [universalNewlines.eq_3 _ h] at hc
    rcases List.mem_cons.1 hc with rfl | hc
    · decide
    · exact ih c hc
  | case4 c' s h1 h2 ih =>
    intro c hc
    rw [universalNewlines.eq_4 _ _ h1 h2] at hc
    rcases List.mem_cons.1 hc with rfl | hc
    · exact h2
    · exact ih c hc

/-- A line of a file has a line end only at its end. -/
theorem fileLines_shape (s : Str) : ∀ l ∈ fileLines s, l ≠ [] ∧ ∀ c ∈ l.dropLast, c ≠ '\n' := by
  induction s with
  | nil => simp [fileLines]
  | cons c s ih =>
    intro l hl
    rw [fileLines] at hl
    split at hl
    · rcases List.mem_cons.1 hl with rfl | hl
      · simp
      · exact ih l hl
    · rename_i hc
      cases hf : fileLines s with
      | nil => rw [hf] at hl; simp at hl; subst hl; simp
      | cons a t =>
        rw [hf] at hl ih
        rcases List.mem_cons.1 hl with rfl | hl
        · have := ih a (by simp)
          refine ⟨by simp, ?_⟩
          intro x hx
          rw [List.dropLast_cons_of_ne_nil this.1] at hx
          rcases List.mem_cons.1 hx with rfl | hx
          · exact hc
          · exact this.2 x hx
        · exact ih l (by simp [hl])

theorem fileLines_subset (s : Str) : ∀ l ∈ fileLines s, ∀ c ∈ l, c ∈ s := by
  induction s with
  | nil => simp [fileLines]
  | cons c s ih =>
    intro l hl x hx
    rw [fileLines] at hl
    split at hl
    · rename_i hc
      rcases List.mem_cons.1 hl with rfl | hl
      · simp at hx; simp [hx, hc]
      · exact List.mem_cons_of_mem _ (ih l hl x hx)
    · cases hf : fileLines s with
      | nil => rw [hf] at hl; simp at hl; subst hl; simp at hx; simp [hx]
      | cons a t =>
        rw [hf] at hl ih
        rcases List.mem_cons.1 hl with rfl | hl
        · rcases List.mem_cons.1 hx with rfl | hx
          · simp
          · exact List.mem_cons_of_mem _ (ih a (by simp) x hx)
        · exact List.mem_cons_of_mem _ (ih l (by simp [hl]) x hx)

theorem strip_noNewline {l : Str} (h : ∀ c ∈ l.dropLast, c ≠ '\n') : ∀ c ∈ strip l, c ≠ '\n' := by
  intro c hc he
  subst he
  -- the line end survives stripping only inside the line
  have hends := strip_ends l
  have hsub : strip l <:+: l := by
    unfold strip
    have h1 : (l.dropWhile isSpace) <:+ l := List.dropWhile_suffix _
    have h2 : ((l.dropWhile isSpace).reverse.dropWhile isSpace).reverse <+: l.dropWhile isSpace := by
      have := List.dropWhile_suffix isSpace (l := (l.dropWhile isSpace).reverse)
      rw [← List.reverse_prefix, List.reverse_reverse] at this
      exact this
    exact h2.isInfix.trans h1.isInfix
  obtain ⟨a, b, hab⟩ := hsub
  obtain ⟨u, v, huv⟩ := List.append_of_mem hc
  have hv : v ≠ [] := by
    rintro rfl
    have := hends.2 '\n' (by rw [huv]; simp)
    rw [isSpace_newline] at this; exact Bool.noConfusion this
  have hm : '\n' ∈ l.dropLast := by
    rw [← hab, huv]
    have : a ++ (u ++ '\n' :: v) ++ b = (a ++ u ++ ['\n']) ++ (v ++ b) := by simp
    rw [this, List.dropLast_append_of_ne_nil (by simp [hv])]
    simp
  exact h _ hm rfl

/-- Whatever a file contains, the labels read from it are plain. -/
theorem readLabels_plain (s : Str) : ∀ l ∈ readLabels s, PlainLabel l := by
  intro l hl
  obtain ⟨line, hline, rfl⟩ := List.mem_map.1 hl
  have hends := strip_ends line
  refine ⟨fun c hc => ⟨?_, ?_⟩, hends.1, hends.2⟩
  · exact strip_noNewline (fileLines_shape _ line hline).2 c hc
  · exact universalNewlines_chars s c (fileLines_subset _ line hline c (strip_subset hc))

/-- **C40, labels.**  A list of labels survives saving and loading exactly when every label is
plain and the last one is not empty. -/
theorem labels_roundtrip_iff (ls : List Str) :
    readLabels (joinLines ls) = ls ↔ PlainLabels ls := by
  constructor
  · intro h
    have hp : ∀ l ∈ ls, PlainLabel l := by rw [← h]; exact readLabels_plain _
    refine ⟨hp, fun he => ?_⟩
    rw [readLabels_join hp, if_pos he] at h
    have := congrArg List.length h
    rw [List.length_dropLast] at this
    have : ls ≠ [] := by rintro rfl; simp at he
    have := List.length_pos_iff.2 this
    omega
  · rintro ⟨h1, h2⟩
    rw [readLabels_join h1, if_neg h2]

/-! ## Saving and loading -/

theorem writeAll_saveWrites (disk : Disk) (d : DM) (l : Str) (n : String) :
    writeAll disk d.label (saveWrites d) l n =
      if l = d.label then
        if n = "X.mtx" then some (.matrix d.X.ncols d.X.rows)
        else if n = "Y.mtx" then some (.matrix d.Y.ncols d.Y.rows)
        else if n = "row_labels.txt" then some (.text (joinLines d.rowLabels))
        else if n = "column_labels_X.txt" then some (.text (joinLines d.colLabelsX))
        else if n = "column_labels_Y.txt" then some (.text (joinLines d.colLabelsY))
        else disk l n
      else disk l n := by
  by_cases hl : l = d.label
  · subst hl
    simp only [writeAll, saveWrites, List.foldl_cons, List.foldl_nil, write, true_and, if_true]
    by_cases h1 : n = "X.mtx"
    · subst h1; simp
    by_cases h2 : n = "Y.mtx"
    · subst h2; simp
    by_cases h3 : n = "row_labels.txt"
    · subst h3; simp
    by_cases h4 : n = "column_labels_X.txt"
    · subst h4; simp
    by_cases h5 : n = "column_labels_Y.txt"
    · subst h5; simp
    simp [h1, h2, h3, h4, h5]
  · simp [writeAll, saveWrites, write, hl]

/-- What a folder holds after `save`. (Specification.) -/
def Holds (disk : Disk) (d : DM) : Prop :=
  disk d.label "X.mtx" = some (.matrix d.X.ncols d.X.rows) ∧
  disk d.label "Y.mtx" = some (.matrix d.Y.ncols d.Y.rows) ∧
  disk d.label "row_labels.txt" = some (.text (joinLines d.rowLabels)) ∧
  disk d.label "column_labels_X.txt" = some (.text (joinLines d.colLabelsX)) ∧
  disk d.label "column_labels_Y.txt" = some (.text (joinLines d.colLabelsY))

theorem save_holds (disk : Disk) (d : DM) (h : d.final = true) : Holds (save disk d).1 d := by
  unfold save
  rw [if_neg (by simp [h])]
  simp only [Holds, writeAll_saveWrites]
  simp

theorem save_other (disk : Disk) (d e : DM) (h : e.label ≠ d.label) (hd : Holds disk d) :
    Holds (save disk e).1 d := by
  unfold save
  by_cases hf : e.final = false
  · rw [if_pos hf]; exact hd
  rw [if_neg hf]
  simp only [Holds, writeAll_saveWrites, if_neg (Ne.symm h)]
  exact hd

theorem load_holds {disk : Disk} {d o : DM} (h : Holds disk d) (hs : Storable d)
    (hl : o.label = d.label) (hf : o.final = false) :
    load disk o = (⟨d.label, d.X.tocsc, d.Y.tocsc, d.rowLabels, d.colLabelsX, d.colLabelsY, true⟩,
      none) := by
  obtain ⟨h1, h2, h3, h4, h5⟩ := h
  obtain ⟨l, X, Y, rl, cx, cy, f⟩ := o
  cases hl; cases hf
  have e1 := (labels_roundtrip_iff _).2 hs.1
  have e2 := (labels_roundtrip_iff _).2 hs.2.1
  have e3 := (labels_roundtrip_iff _).2 hs.2.2
  unfold load readMatrix readText
  simp only [h1, h2, h3, h4, h5, e1, e2, e3]
  rfl

/-- Saving several datasets one after the other into the same folder.
DatasetMatrix.py 460-490, several calls. -/
def saveAll (disk : Disk) (ds : List DM) : Disk := ds.foldl (fun k d => (save k d).1) disk

theorem saveAll_holds (disk : Disk) (d : DM) (ds : List DM) (h : Holds disk d)
    (hne : ∀ e ∈ ds, e.final = true → e.label ≠ d.label) : Holds (saveAll disk ds) d := by
  induction ds generalizing disk with
  | nil => exact h
  | cons e es ih =>
    refine ih _ ?_ (fun x hx => hne x (by simp [hx]))
    by_cases hf : e.final = true
    · exact save_other disk d e (hne e (by simp) hf) h
    · have : save disk e = (disk, some notFinalizedError) := by
        unfold save; rw [if_pos (by simpa using hf)]
      show Holds (save disk e).1 d
      rw [this]; exact h

/-- **C40.**  A finalized dataset (in the CSC format that `finalize` gives it) whose labels can be
stored, once saved, is what `load` reads into any not finalized object of the same label: after
any number of saves of other datasets before and after, and of attempted saves of datasets that
are not final. -/
theorem load_after_save (disk : Disk) (before after : List DM) (d o : DM) (hf : d.final = true)
    (hX : d.X.format = .csc) (hY : d.Y.format = .csc) (hs : Storable d)
    (hne : ∀ e ∈ after, e.final = true → e.label ≠ d.label)
    (hl : o.label = d.label) (ho : o.final = false) :
    load (saveAll disk (before ++ d :: after)) o = (d, none) := by
  have h : Holds (saveAll disk (before ++ d :: after)) d := by
    unfold saveAll
    rw [List.foldl_append, List.foldl_cons]
    exact saveAll_holds _ d after (save_holds _ d hf) hne
  rw [load_holds h hs hl ho]
  obtain ⟨l, ⟨fx, nx, rx⟩, ⟨fy, ny, ry⟩, a, b, c, f⟩ := d
  cases hX; cases hY; cases hf; rfl

/-- **C40.**  The loaded dataset is equal (`==`) to the saved one, whatever its storage format. -/
theorem load_after_save_eq (disk : Disk) (d o : DM) (hf : d.final = true) (hs : Storable d)
    (hl : o.label = d.label) (ho : o.final = false) :
    ∃ d', load (save disk d).1 o = (d', none) ∧ datasetEq d' d = true ∧ table d' = table d := by
  refine ⟨_, load_holds (save_holds disk d hf) hs hl ho, ?_, ?_⟩
  · simp [datasetEq, sparseEqual, Matrix.tocsc]
  · rfl

/-- **C40.**  Saving needs a finalized dataset; otherwise nothing is written. -/
theorem save_not_final (disk : Disk) (d : DM) (h : d.final = false) :
    save disk d = (disk, some (.custom "DatasetMatrixNotFinalizedError")) := by
  unfold save; rw [if_pos h]; rfl

/-- Equality of datasets is equality of the labels and of the matrices without their storage
format. -/
theorem datasetEq_iff (a b : DM) : datasetEq a b = true ↔
    a.rowLabels = b.rowLabels ∧ a.colLabelsX = b.colLabelsX ∧ a.colLabelsY = b.colLabelsY ∧
    a.X.tocsc = b.X.tocsc ∧ a.Y.tocsc = b.Y.tocsc := by
  obtain ⟨l, ⟨fx, nx, rx⟩, ⟨fy, ny, ry⟩, a1, b1, c1, f⟩ := a
  obtain ⟨l', ⟨fx', nx', rx'⟩, ⟨fy', ny', ry'⟩, a1', b1', c1', f'⟩ := b
  simp only [datasetEq, sparseEqual, Matrix.tocsc, Bool.and_eq_true, decide_eq_true_eq,
    Matrix.mk.injEq, true_and]
  constructor
  · rintro ⟨⟨⟨⟨h1, h2⟩, h3⟩, ⟨h4, h5⟩, h6⟩, ⟨h7, h8⟩, h9⟩
    exact ⟨h1, h2, h3, ⟨h5, h6⟩, h8, h9⟩
  · rintro ⟨h1, h2, h3, ⟨h4, h5⟩, h6, h7⟩
    exact ⟨⟨⟨⟨h1, h2⟩, h3⟩, ⟨by rw [h5], h4⟩, h5⟩, ⟨by rw [h7], h6⟩, h7⟩

/-! ## Crashes (C54) -/

/-- **C54.**  When the process dies during the first save under a label, before all the files
are written, then loading that label raises `FileNotFoundError`: a dataset cannot be half
loaded without an exception. -/
theorem crashed_first_save_detected (disk : Disk) (d o : DM) (n : Nat) (hn : n < 5)
    (hnew : ∀ name, disk d.label name = none) (hl : o.label = d.label) :
    (load (crashedSave disk d n) o).2 = some fileNotFound := by
  obtain ⟨l, X, Y, rl, cx, cy, f⟩ := o
  cases hl
  unfold crashedSave
  by_cases hf : d.final = false
  · rw [if_pos hf]
    simp [load, readMatrix, hnew]
  rw [if_neg hf]
  have h0 := hnew "X.mtx"
  have h1 := hnew "Y.mtx"
  have h2 := hnew "row_labels.txt"
  have h3 := hnew "column_labels_X.txt"
  have h4 := hnew "column_labels_Y.txt"
  obtain rfl | rfl | rfl | rfl | rfl : n = 0 ∨ n = 1 ∨ n = 2 ∨ n = 3 ∨ n = 4 := by omega
  all_goals
    simp [load, readMatrix, readText, writeAll, saveWrites, write, h0, h1, h2, h3, h4]

/-- **C54.**  A crash during a save leaves every dataset saved under another label intact. -/
theorem crashed_save_others_intact (disk : Disk) (d e o : DM) (n : Nat) (h : Holds disk d)
    (hs : Storable d) (hne : e.label ≠ d.label) (hl : o.label = d.label) (ho : o.final = false) :
    load (crashedSave disk e n) o =
      (⟨d.label, d.X.tocsc, d.Y.tocsc, d.rowLabels, d.colLabelsX, d.colLabelsY, true⟩, none) := by
  refine load_holds ?_ hs hl ho
  unfold crashedSave
  by_cases hf : e.final = false
  · rw [if_pos hf]; exact h
  rw [if_neg hf]
  have key : ∀ (ws : List (String × File)) (k : Disk) (name : String),
      writeAll k e.label ws d.label name = k d.label name := by
    intro ws
    induction ws with
    | nil => intro k name; rfl
    | cons w ws ih =>
      intro k name
      show writeAll (write k e.label w.1 w.2) e.label ws d.label name = _
      rw [ih]
      simp [write, Ne.symm hne]
  simp only [Holds, key]
  exact h

/-! ## Examples and findings -/

/-- Two samples, two features, one objective, finalized. (Example.) -/
def exSaved : DM where
  label := "dataset".toList
  X := ⟨.csc, 2, [[1, 0], [0, 1]]⟩
  Y := ⟨.csc, 1, [[1], [0]]⟩
  rowLabels := ["s 1".toList, "s2".toList]
  colLabelsX := ["a".toList, "b".toList]
  colLabelsY := ["y".toList]
  final := true

/-- A new object with the same label: DatasetMatrix.py 48-56. -/
def exNew : DM := ⟨"dataset".toList, ⟨.csr, 0, []⟩, ⟨.csr, 0, []⟩, [], [], [], false⟩

/-- Another dataset. (Example.) -/
def exOther : DM := { exSaved with label := "dataset_train".toList, rowLabels := ["t".toList, "u".toList] }

theorem exSaved_storable : Storable exSaved := by
  refine ⟨⟨?_, by decide⟩, ⟨?_, by decide⟩, ⟨?_, by decide⟩⟩ <;>
    (unfold PlainLabel exSaved; decide)

example : load (saveAll (fun _ _ => none) ([exOther] ++ exSaved :: [exOther])) exNew = (exSaved, none) :=
  load_after_save _ _ _ _ _ rfl rfl rfl exSaved_storable (by decide) rfl rfl

example : (load (crashedSave (fun _ _ => none) exSaved 3) exNew).2 = some fileNotFound :=
  crashed_first_save_detected _ _ _ _ (by decide) (fun _ => rfl) rfl

/-- Finding: when the last label is empty it is lost, without an exception: the loaded dataset
has two rows and one row label. -/
theorem empty_last_label_lost :
    let d := { exSaved with rowLabels := ["s1".toList, []] }
    (load (save (fun _ _ => none) d).1 exNew).1.rowLabels = ["s1".toList] ∧
    (load (save (fun _ _ => none) d).1 exNew).1.X.rows.length = 2 ∧
    (load (save (fun _ _ => none) d).1 exNew).2 = none := by decide

/-- Finding: a line break inside a label becomes two labels, without an exception. -/
theorem line_break_in_label_splits :
    let d := { exSaved with rowLabels := ["s\r1".toList, "s2".toList] }
    (load (save (fun _ _ => none) d).1 exNew).1.rowLabels =
      ["s".toList, "1".toList, "s2".toList] ∧
    (load (save (fun _ _ => none) d).1 exNew).2 = none := by decide

/-- Finding: loading into an object that is already final leaves it in CSR format although it is
final, since `finalize` returns at once. -/
theorem load_into_final_stays_csr :
    (load (save (fun _ _ => none) exSaved).1 exSaved).1.X.format = .csr ∧
    (load (save (fun _ _ => none) exSaved).1 exSaved).1.final = true ∧
    (load (save (fun _ _ => none) exSaved).1 exSaved).2 = none := by decide

/-- Finding (C54): a crash while an existing dataset is overwritten is not detected: the folder
then loads without an exception, with the new matrix and the labels of the old one. -/
theorem crashed_overwrite_undetected :
    let d' := { exSaved with X := ⟨.csc, 2, [[1, 1]]⟩, Y := ⟨.csc, 1, [[1]]⟩, rowLabels := ["new".toList] }
    let disk := crashedSave (save (fun _ _ => none) exSaved).1 d' 2
    (load disk exNew).2 = none ∧ (load disk exNew).1.X.rows = [[1, 1]] ∧
    (load disk exNew).1.rowLabels = ["s 1".toList, "s2".toList] := by decide

end Mbtk.Dataset
