import Verif.Stats.CiText
import Mathlib.Data.List.Sort
import Mathlib.Data.List.Lex
/-!
# The folders of an experiment, printed (C116)

`ExperimentalPathSet` of `mbtk/utilities/experiment.py`: the paths of an experiment, printed one on a line, each
shortened to what follows the root folder or the folder that contains it.

Modelled: every path set, with POSIX paths as `pathlib` normalizes them.  Not modelled: attributes that are not
paths, and deleting `Root`.
-/
namespace Mbtk.PathSet
open Mbtk.Dataset Mbtk.Dataset.Rcv Mbtk.CiResult

/-! ## Model -/

/-- `pathlib.PurePosixPath`: whether it begins with `/`, and the parts. (Python itself.) -/
structure Pure where
  anchored : Bool
  parts : List Str
  deriving DecidableEq, Repr

/-- `str(path)`. (Python itself.) -/
def Pure.str (p : Pure) : Str :=
  match p.anchored with
  | true => '/' :: List.intercalate ['/'] p.parts
  | false => if p.parts = [] then ['.'] else List.intercalate ['/'] p.parts

/-- `path.parent`. (Python itself.) -/
def Pure.parent (p : Pure) : Pure := ⟨p.anchored, p.parts.dropLast⟩

/-- `path.relative_to(base)`; `ValueError` for a path that is not inside. (Python itself.) -/
def Pure.relativeTo (p base : Pure) : Except Err Pure :=
  if p.anchored = base.anchored ∧ base.parts.isPrefixOf p.parts = true
  then .ok ⟨false, p.parts.drop base.parts.length⟩ else .error .valueError

/-- An `ExperimentalPathSet`: `Root`, and the other attributes.
mbtk/utilities/experiment.py 7-10. -/
structure PathSet where
  root : Pure
  others : List (Str × Pure)

/-- `shorten_path(key)` for the path of an attribute other than `Root`:
mbtk/utilities/experiment.py 29-39. -/
def shorten (root p : Pure) : Pure :=
  match p.relativeTo root with
  | .ok q => q
  | .error _ => match p.relativeTo root.parent with
    | .ok q => q
    | .error _ => p

/-- `max(map(len, self.__dict__.keys()))`: mbtk/utilities/experiment.py 14. -/
def width (S : PathSet) : Nat := (S.others.map (fun e => e.1.length)).foldl max "Root".toList.length

/-- `'{key:>w}: {path}'`: mbtk/utilities/experiment.py 15. -/
def line (w : Nat) (key path : Str) : Str := padLeft w key ++ ([':', ' '] ++ path)

/-- `sorted(keys)` without `Root`, with the paths: mbtk/utilities/experiment.py 17-22. -/
def sortedNames (S : PathSet) : List Str := (S.others.map Prod.fst).insertionSort (· ≤ ·)

/-- `shorten_path(key)`: mbtk/utilities/experiment.py 29-39. -/
def shortened (S : PathSet) (key : Str) : Pure :=
  match dictGet S.others key with
  | some p => shorten S.root p
  | none => S.root

/-- `__str__`: mbtk/utilities/experiment.py 13-26. -/
def text (S : PathSet) : Str :=
  List.intercalate ['\n'] (line (width S) ['R', 'o', 'o', 't'] S.root.str ::
    (sortedNames S).map (fun key => line (width S) key (shortened S key).str))

/-! ## Specification -/

/-- `base / rest`. (Specification.) -/
def Pure.under (base : Pure) (rest : List Str) : Pure := ⟨base.anchored, base.parts ++ rest⟩

/-- The parts are names: not empty, not `.`, no `/`, no line break. (Specification.) -/
def Pure.Valid (p : Pure) : Prop := ∀ c ∈ p.parts, c ≠ [] ∧ c ≠ ['.'] ∧ '/' ∉ c ∧ '\n' ∉ c

/-- The attributes have different names, which are identifiers: not empty, no blank, colon or line break.
(Specification.) -/
structure Good (S : PathSet) : Prop where
  names : (S.others.map Prod.fst).Nodup
  identifiers : ∀ e ∈ S.others, ' ' ∉ e.1 ∧ ':' ∉ e.1 ∧ '\n' ∉ e.1 ∧ e.1 ≠ ['R', 'o', 'o', 't']
  root : S.root.Valid
  paths : ∀ e ∈ S.others, e.2.Valid

/-- What a reader takes from a line: the name before the colon, without the blanks, and what follows the colon and
a blank. (Specification.) -/
def readLine (l : Str) : Str × Str :=
  ((l.takeWhile (· ≠ ':')).filter (· ≠ ' '), (l.dropWhile (· ≠ ':')).drop 2)

/-! ## Shortening -/

theorem relativeTo_under (base : Pure) (rest : List Str) : (base.under rest).relativeTo base = .ok ⟨false, rest⟩ := by
  unfold Pure.relativeTo Pure.under
  rw [if_pos]
  · simp
  · refine ⟨rfl, ?_⟩
    simp [List.isPrefixOf_iff_prefix]

theorem relativeTo_not (p base : Pure) (h : ∀ rest, p ≠ base.under rest) : p.relativeTo base = .error .valueError := by
  unfold Pure.relativeTo
  rw [if_neg]
  rintro ⟨h1, h2⟩
  obtain ⟨rest, h3⟩ := List.isPrefixOf_iff_prefix.1 h2
  refine h rest ?_
  obtain ⟨a, l⟩ := p
  simp only at h1 h3
  subst h1 h3
  rfl

/-- **C116.**  What stands after a name: what follows the root folder for a path inside it, what follows the folder
that contains the root folder for the other paths inside that one, the whole path for all others. -/
theorem shorten_exact (root p : Pure) :
    (∀ rest, p = root.under rest → shorten root p = ⟨false, rest⟩) ∧
    (∀ rest, (∀ r, p ≠ root.under r) → p = root.parent.under rest → shorten root p = ⟨false, rest⟩) ∧
    ((∀ r, p ≠ root.under r) → (∀ r, p ≠ root.parent.under r) → shorten root p = p) := by
  refine ⟨?_, ?_, ?_⟩
  · rintro rest rfl
    unfold shorten
    rw [relativeTo_under]
  · rintro rest h rfl
    unfold shorten
    rw [relativeTo_not _ _ h, relativeTo_under]
  · intro h h2
    unfold shorten
    rw [relativeTo_not _ _ h, relativeTo_not _ _ h2]

/-- **C116, finding.**  Two paths that begin with `/` are shortened to the same text exactly if they are the same, or one
is inside the root folder and the other is at the same place of the folder around it. -/
theorem shorten_ambiguous (root p q : Pure) (hp : p.anchored = true) (hq : q.anchored = true) :
    shorten root p = shorten root q ↔ p = q ∨
      ∃ rest, (∀ r, root.parent.under rest ≠ root.under r) ∧
        ((p = root.under rest ∧ q = root.parent.under rest) ∨ (q = root.under rest ∧ p = root.parent.under rest)) := by
  constructor
  · intro e
    by_cases h1 : ∃ r, p = root.under r
    · obtain ⟨r, h1⟩ := h1
      rw [(shorten_exact root p).1 r h1] at e
      by_cases g1 : ∃ r', q = root.under r'
      · obtain ⟨r', g1⟩ := g1
        rw [(shorten_exact root q).1 r' g1] at e
        left
        rw [h1, g1, (Pure.mk.inj e).2]
      · have g1' : ∀ r', q ≠ root.under r' := fun r' h => g1 ⟨r', h⟩
        by_cases g2 : ∃ r', q = root.parent.under r'
        · obtain ⟨r', g2⟩ := g2
          rw [(shorten_exact root q).2.1 r' g1' g2] at e
          obtain rfl := (Pure.mk.inj e).2
          exact .inr ⟨r, fun x h => g1' x (g2.trans h), .inl ⟨h1, g2⟩⟩
        · rw [(shorten_exact root q).2.2 g1' (fun r' h => g2 ⟨r', h⟩)] at e
          rw [← e] at hq
          cases hq
    · have h1' : ∀ r', p ≠ root.under r' := fun r' h => h1 ⟨r', h⟩
      by_cases h2 : ∃ r, p = root.parent.under r
      · obtain ⟨r, h2⟩ := h2
        rw [(shorten_exact root p).2.1 r h1' h2] at e
        by_cases g1 : ∃ r', q = root.under r'
        · obtain ⟨r', g1⟩ := g1
          rw [(shorten_exact root q).1 r' g1] at e
          obtain rfl := (Pure.mk.inj e).2
          exact .inr ⟨r, fun x h => h1' x (h2.trans h), .inr ⟨g1, h2⟩⟩
        · have g1' : ∀ r', q ≠ root.under r' := fun r' h => g1 ⟨r', h⟩
          by_cases g2 : ∃ r', q = root.parent.under r'
          · obtain ⟨r', g2⟩ := g2
            rw [(shorten_exact root q).2.1 r' g1' g2] at e
            left
            rw [h2, g2, (Pure.mk.inj e).2]
          · rw [(shorten_exact root q).2.2 g1' (fun r' h => g2 ⟨r', h⟩)] at e
            rw [← e] at hq
            cases hq
      · rw [(shorten_exact root p).2.2 h1' (fun r' h => h2 ⟨r', h⟩)] at e
        by_cases g1 : ∃ r', q = root.under r'
        · obtain ⟨r', g1⟩ := g1
          rw [(shorten_exact root q).1 r' g1] at e
          rw [e] at hp
          cases hp
        · have g1' : ∀ r', q ≠ root.under r' := fun r' h => g1 ⟨r', h⟩
          by_cases g2 : ∃ r', q = root.parent.under r'
          · obtain ⟨r', g2⟩ := g2
            rw [(shorten_exact root q).2.1 r' g1' g2] at e
            rw [e] at hp
            cases hp
          · rw [(shorten_exact root q).2.2 g1' (fun r' h => g2 ⟨r', h⟩)] at e
            exact .inl e
  · rintro (rfl | ⟨rest, h, ⟨h1, h2⟩ | ⟨h1, h2⟩⟩)
    · rfl
    · rw [(shorten_exact root p).1 rest h1, (shorten_exact root q).2.1 rest (fun r e => h r (h2.symm.trans e)) h2]
    · rw [(shorten_exact root q).1 rest h1, (shorten_exact root p).2.1 rest (fun r e => h r (h2.symm.trans e)) h2]

/-! ## The text -/

theorem width_ge_aux (l : List Nat) (a : Nat) : a ≤ l.foldl max a ∧ ∀ n ∈ l, n ≤ l.foldl max a := by
  induction l generalizing a with
  | nil => simp
  | cons x l ih =>
    obtain ⟨h1, h2⟩ := ih (max a x)
    refine ⟨le_trans (le_max_left _ _) h1, fun n hn => ?_⟩
    rcases List.mem_cons.1 hn with rfl | hn
    · exact le_trans (le_max_right _ _) h1
    · exact h2 n hn

theorem shorten_valid {root p : Pure} (h : p.Valid) : (shorten root p).Valid := by
  by_cases h1 : ∃ r, p = root.under r
  · obtain ⟨r, h1⟩ := h1
    rw [(shorten_exact root p).1 r h1]
    exact fun c hc => h c (by rw [h1]; simp [Pure.under]; exact .inr hc)
  · by_cases h2 : ∃ r, p = root.parent.under r
    · obtain ⟨r, h2⟩ := h2
      rw [(shorten_exact root p).2.1 r (fun r h => h1 ⟨r, h⟩) h2]
      exact fun c hc => h c (by rw [h2]; simp [Pure.under]; exact .inr hc)
    · rw [(shorten_exact root p).2.2 (fun r h => h1 ⟨r, h⟩) (fun r h => h2 ⟨r, h⟩)]
      exact h

theorem mem_joined {c : Char} : ∀ {l : List Str}, c ∈ List.intercalate ['/'] l → c = '/' ∨ ∃ s ∈ l, c ∈ s
  | [], h => by simp [List.intercalate] at h
  | [s], h => by
    rw [List.intercalate_singleton] at h
    exact .inr ⟨s, by simp, h⟩
  | s :: t :: l, h => by
    rw [List.intercalate_cons_cons] at h
    rcases List.mem_append.1 h with h | h
    · rcases List.mem_append.1 h with h | h
      · exact .inr ⟨s, by simp, h⟩
      · exact .inl (by simpa using h)
    · rcases mem_joined h with h | ⟨u, hu, hc⟩
      · exact .inl h
      · exact .inr ⟨u, List.mem_cons_of_mem _ hu, hc⟩

theorem str_no_newline {p : Pure} (h : p.Valid) : '\n' ∉ p.str := by
  have hj : '\n' ∉ List.intercalate ['/'] p.parts := by
    intro hc
    rcases mem_joined hc with hc | ⟨s, hs, hc⟩
    · revert hc; decide
    · exact (h s hs).2.2.2 hc
  unfold Pure.str
  split
  · intro hc
    rcases List.mem_cons.1 hc with hc | hc
    · revert hc; decide
    · exact hj hc
  · split
    · decide
    · exact hj

theorem joined_inj {l l' : List Str} (h : ∀ c ∈ l, '/' ∉ c) (h' : ∀ c ∈ l', '/' ∉ c) (hn : l ≠ []) (hn' : l' ≠ [])
    (e : List.intercalate ['/'] l = List.intercalate ['/'] l') : l = l' := by
  rw [← List.splitOn_intercalate '/' h hn, e, List.splitOn_intercalate '/' h' hn']

/-- **C116.**  The text of a path determines the path. -/
theorem str_injective (p q : Pure) (hp : p.Valid) (hq : q.Valid) (e : p.str = q.str) : p = q := by
  have slash : ∀ r : Pure, r.Valid → r.parts ≠ [] → ∀ t, List.intercalate ['/'] r.parts ≠ '/' :: t := by
    intro r hr hn t ht
    obtain ⟨a, l⟩ := r
    cases l with
    | nil => exact hn rfl
    | cons c l =>
      obtain ⟨c1, -, c3, -⟩ := hr c (by simp)
      cases c with
      | nil => exact c1 rfl
      | cons x c =>
        have hx : x = '/' := by
          cases l with
          | nil => rw [List.intercalate_singleton] at ht; exact (List.cons.inj ht).1
          | cons d l => rw [List.intercalate_cons_cons] at ht; exact (List.cons.inj ht).1
        exact c3 (by simp [hx])
  have nonempty : ∀ r : Pure, r.Valid → r.parts ≠ [] → List.intercalate ['/'] r.parts ≠ [] := by
    intro r hr hn ht
    obtain ⟨a, l⟩ := r
    cases l with
    | nil => exact hn rfl
    | cons c l =>
      have c1 := (hr c (by simp)).1
      cases l with
      | nil => rw [List.intercalate_singleton] at ht; exact c1 ht
      | cons d l => rw [List.intercalate_cons_cons] at ht; simp at ht
  have dot : ∀ r : Pure, r.Valid → r.parts ≠ [] → List.intercalate ['/'] r.parts ≠ ['.'] := by
    intro r hr hn ht
    have : r.parts = [['.']] := by
      refine joined_inj (fun c hc => (hr c hc).2.2.1) (by simp) hn (by simp) ?_
      rw [ht, List.intercalate_singleton]
    exact (hr ['.'] (by rw [this]; simp)).2.1 rfl
  obtain ⟨a, l⟩ := p
  obtain ⟨b, m⟩ := q
  have same : l ≠ [] → m ≠ [] → List.intercalate ['/'] l = List.intercalate ['/'] m → l = m :=
    fun hl hm => joined_inj (fun c hc => (hp c hc).2.2.1) (fun c hc => (hq c hc).2.2.1) hl hm
  cases a <;> cases b <;> simp only [Pure.str] at e
  · by_cases hl : l = []
    · by_cases hm : m = []
      · rw [hl, hm]
      · rw [if_pos hl, if_neg hm] at e
        exact absurd e.symm (dot _ hq hm)
    · by_cases hm : m = []
      · rw [if_neg hl, if_pos hm] at e
        exact absurd e (dot _ hp hl)
      · rw [if_neg hl, if_neg hm] at e
        rw [same hl hm e]
  · by_cases hl : l = []
    · rw [if_pos hl] at e
      exact absurd (List.cons.inj e).1 (by decide)
    · rw [if_neg hl] at e
      exact absurd e (slash _ hp hl _)
  · by_cases hm : m = []
    · rw [if_pos hm] at e
      exact absurd (List.cons.inj e).1 (by decide)
    · rw [if_neg hm] at e
      exact absurd e.symm (slash _ hq hm _)
  · have e := (List.cons.inj e).2
    by_cases hl : l = []
    · by_cases hm : m = []
      · rw [hl, hm]
      · rw [hl] at e
        exact absurd (by rw [← e]; rfl) (nonempty _ hq hm)
    · by_cases hm : m = []
      · rw [hm] at e
        exact absurd (by rw [e]; rfl) (nonempty _ hp hl)
      · rw [same hl hm e]

theorem line_shape {w : Nat} {key path : Str} (h1 : ' ' ∉ key) (h2 : ':' ∉ key) (hw : key.length ≤ w) :
    readLine (line w key path) = (key, path) ∧ ((line w key path).takeWhile (· ≠ ':')).length = w := by
  have hpad : padLeft w key = List.replicate (w - key.length) ' ' ++ key := rfl
  have hno : ∀ c ∈ padLeft w key, decide (c ≠ ':') = true := by
    intro c hc
    rw [hpad] at hc
    rcases List.mem_append.1 hc with hc | hc
    · rw [(List.mem_replicate.1 hc).2]; decide
    · simp only [decide_eq_true_eq]; rintro rfl; exact h2 hc
  have ht : (line w key path).takeWhile (· ≠ ':') = padLeft w key := by
    unfold line
    rw [List.takeWhile_append_of_pos hno]
    simp
  have hd : (line w key path).dropWhile (· ≠ ':') = [':', ' '] ++ path := by
    unfold line
    rw [List.dropWhile_append_of_pos hno]
    simp
  refine ⟨?_, ?_⟩
  · unfold readLine
    rw [ht, hd, hpad]
    refine Prod.ext ?_ (by simp)
    simp only [List.filter_append]
    rw [List.filter_eq_nil_iff.2, List.filter_eq_self.2, List.nil_append]
    · intro c hc; simp only [decide_eq_true_eq]; rintro rfl; exact h1 hc
    · intro c hc; rw [(List.mem_replicate.1 hc).2]; decide
  · rw [ht, hpad]
    simp
    omega

/-- **C116.**  The printed text has one line for `Root` and then one for each other attribute in the order of the names;
every line is read back as the name and the shortened path; and the colons of all lines stand in the same column. -/
theorem text_read_back (S : PathSet) (h : Good S) :
    ∃ names : List Str, names.Pairwise (· ≤ ·) ∧ names.Perm (S.others.map Prod.fst) ∧
      ((text S).splitOn '\n').map readLine =
        ("Root".toList, S.root.str) :: names.map (fun key => (key, (shortened S key).str)) ∧
      (∀ e ∈ S.others, shortened S e.1 = shorten S.root e.2) ∧
      ∃ w, ∀ l ∈ (text S).splitOn '\n', (l.takeWhile (· ≠ ':')).length = w := by
  have hperm : (sortedNames S).Perm (S.others.map Prod.fst) := List.perm_insertionSort _ _
  have hmem : ∀ k ∈ sortedNames S, ∃ e ∈ S.others, e.1 = k := fun k hk => by
    obtain ⟨e, he, hk⟩ := List.mem_map.1 (hperm.mem_iff.1 hk)
    exact ⟨e, he, hk⟩
  have hshort : ∀ e ∈ S.others, shortened S e.1 = shorten S.root e.2 := by
    intro e he
    unfold shortened
    rw [dictGet_of_mem h.names (show (e.1, e.2) ∈ S.others from he)]
  have hw : ∀ e ∈ S.others, e.1.length ≤ width S := fun e he =>
    (width_ge_aux _ _).2 _ (List.mem_map.2 ⟨e, he, rfl⟩)
  have hroot : (['R', 'o', 'o', 't'] : Str).length ≤ width S := (width_ge_aux _ _).1
  have hnl : ∀ l ∈ (line (width S) ['R', 'o', 'o', 't'] S.root.str ::
      (sortedNames S).map (fun key => line (width S) key (shortened S key).str)), '\n' ∉ l := by
    have hline : ∀ (key path : Str), '\n' ∉ key → '\n' ∉ path → '\n' ∉ line (width S) key path := by
      intro key path h1 h2 hc
      rcases List.mem_append.1 hc with hc | hc
      · rcases List.mem_append.1 (show _ ∈ List.replicate _ ' ' ++ key from hc) with hc | hc
        · have := (List.mem_replicate.1 hc).2
          revert this; decide
        · exact h1 hc
      · rcases List.mem_append.1 hc with hc | hc
        · revert hc; decide
        · exact h2 hc
    intro l hl
    rcases List.mem_cons.1 hl with rfl | hl
    · exact hline _ _ (by decide) (str_no_newline h.root)
    · obtain ⟨k, hk, rfl⟩ := List.mem_map.1 hl
      obtain ⟨e, he, rfl⟩ := hmem k hk
      refine hline _ _ (h.identifiers e he).2.2.1 ?_
      rw [hshort e he]
      exact str_no_newline (shorten_valid (h.paths e he))
  have hsplit : (text S).splitOn '\n' = line (width S) ['R', 'o', 'o', 't'] S.root.str ::
      (sortedNames S).map (fun key => line (width S) key (shortened S key).str) :=
    List.splitOn_intercalate '\n' hnl (by simp)
  refine ⟨sortedNames S, List.pairwise_insertionSort _ _, hperm, ?_, hshort, width S, ?_⟩
  · rw [hsplit, List.map_cons, (line_shape (by decide) (by decide) hroot).1, List.map_map]
    refine congrArg₂ List.cons rfl (List.map_congr_left fun k hk => ?_)
    obtain ⟨e, he, rfl⟩ := hmem k hk
    exact (line_shape (h.identifiers e he).1 (h.identifiers e he).2.1 (hw e he)).1
  · rw [hsplit]
    intro l hl
    rcases List.mem_cons.1 hl with rfl | hl
    · exact (line_shape (by decide) (by decide) hroot).2
    · obtain ⟨k, hk, rfl⟩ := List.mem_map.1 hl
      obtain ⟨e, he, rfl⟩ := hmem k hk
      exact (line_shape (h.identifiers e he).1 (h.identifiers e he).2.1 (hw e he)).2

/-! ## Examples -/

/-- (Example.) -/
def exSet : PathSet where
  root := ⟨true, ["home".toList, "exp".toList]⟩
  others := [("Runs".toList, ⟨true, ["home".toList, "exp".toList, "runs".toList]⟩),
    ("BIF".toList, ⟨true, ["home".toList, "bif".toList]⟩), ("Temporary".toList, ⟨true, ["tmp".toList]⟩)]

example : Good exSet := by
  refine ⟨by decide, by decide, ?_, ?_⟩
  · unfold Pure.Valid; decide
  · unfold Pure.Valid; decide

example : text exSet = ("     Root: /home/exp\n      BIF: bif\n     Runs: runs\nTemporary: /tmp").toList := by
  decide +kernel

/-- The same text for two different folders. -/
example : shorten ⟨true, ["home".toList, "exp".toList]⟩ ⟨true, ["home".toList, "exp".toList, "bif".toList]⟩ =
    shorten ⟨true, ["home".toList, "exp".toList]⟩ ⟨true, ["home".toList, "bif".toList]⟩ := by decide +kernel

end Mbtk.PathSet
