import Verif.ADTree.Size
import Verif.Props.ADTreeProps
import Verif.Stats.CiResult
/-!
# Rendering AD-trees as LaTeX (C106): `to_latex` in `mbtk/structures/ADTree.py`

`level` is the depth of a node (ADTree.py 74, 260, 391; DynamicADTree.py 26, 44), so that it is a parameter of
the recursion here.  Values, column indices and counts are integers.
-/
namespace Mbtk.ADTree
open Spec Mbtk.CiResult

namespace Latex

/-- A text. (Python itself.) -/
abbrev Text := List Char

/-! ## Model -/

/-- `'\\qquad ' * n`: ADTree.py 354, 463. -/
def qquads : Nat → Text
  | 0 => []
  | n + 1 => "\\qquad ".toList ++ qquads n

/-- The first line of `ADNode.to_latex`: ADTree.py 349-355. -/
def adLine (level : Nat) (col value count : Int) : Text :=
  "{}& ".toList ++ qquads (level / 2) ++ ("AD (".toList ++
    (if col = -1 then "*".toList else "Col".toList ++ intStr col ++ " = ".toList ++ intStr value) ++
    " \\rightarrow \\textbf{".toList ++ intStr count ++ "}) \\\\\n".toList)

/-- The first line of `VaryNode.to_latex`: ADTree.py 463-464. -/
def varyLine (level : Nat) (col : Nat) (mcv : Int) : Text :=
  "{}& ".toList ++ qquads (level / 2) ++ "\\quad ".toList ++ ("Vary (Col".toList ++ intStr col ++
    ", \\, MCV = ".toList ++ intStr mcv ++ ") \\\\\n".toList)

/-- `'\n'.join(texts)`: ADTree.py 356, 465. -/
def joinNL : List Text → Text
  | [] => []
  | [t] => t
  | t :: u :: rest => t ++ '\n' :: joinNL (u :: rest)

mutual
/-- `ADNode.to_latex`: ADTree.py 348-357. -/
def latexAD (level : Nat) : ADNode → Text
  | .mk c v n _ _ vs => adLine level c v n ++ joinNL (latexVarys (level + 1) vs)
/-- `VaryNode.to_latex`: ADTree.py 462-466. -/
def latexVary (level : Nat) : VaryNode → Text
  | .mk c _ m ads => varyLine level c m ++ joinNL (latexADs (level + 1) ads)
/-- The texts of the Vary children: ADTree.py 356. -/
def latexVarys (level : Nat) : List VaryNode → List Text
  | [] => []
  | v :: vs => latexVary level v :: latexVarys level vs
/-- The texts of the AD children that exist: ADTree.py 465. -/
def latexADs (level : Nat) : List (Option ADNode) → List Text
  | [] => []
  | none :: rest => latexADs level rest
  | some n :: rest => latexAD level n :: latexADs level rest
end

/-- `latex.replace('\n\n', '\n')`: ADTree.py 206 (from left to right, without overlaps). -/
def replaceNN : Text → Text
  | '\n' :: '\n' :: rest => '\n' :: replaceNN rest
  | c :: rest => c :: replaceNN rest
  | [] => []

/-- `prefix`: ADTree.py 207. -/
def latexPrefix : Text := "{\\small\n\\begin{align*}\n".toList

/-- `suffix`: ADTree.py 208. -/
def latexSuffix : Text := "\\end{align*}\n}".toList

/-- `tree.to_latex()` of a tree that was never loaded from a file: ADTree.py 204-209. -/
def toLatex (root : ADNode) : Text := latexPrefix ++ replaceNN (latexAD 0 root) ++ latexSuffix

/-- `tree.to_latex()` right after the tree has been loaded from a file.  Static nodes are pickled without
their level (ADTree.py 276-284, 401-406), and reading an empty slot raises `AttributeError`; dynamic AD nodes
keep theirs (DynamicADTree.py 51-56), dynamic Vary nodes do not. -/
def toLatexLoaded (dyn : Bool) (root : ADNode) : Except Err Text :=
  if dyn then
    match root.varys with
    | [] => .ok (toLatex root)
    | _ :: _ => .error .attributeError
  else .error .attributeError

/-! ## Specification -/

/-- What a line of the text describes. (Specification.) -/
inductive Line where
  | ad (depth : Nat) (col value count : Int)
  | vary (depth : Nat) (col : Nat) (mcv : Int)
  deriving DecidableEq, Repr

mutual
/-- The nodes of a tree, each before its children, from left to right; the depth counts AD nodes only.
(Specification.) -/
def linesAD (depth : Nat) : ADNode → List Line
  | .mk c v n _ _ vs => .ad depth c v n :: linesVarys depth vs
/-- (Specification.) -/
def linesVary (depth : Nat) : VaryNode → List Line
  | .mk c _ m ads => .vary depth c m :: linesADs (depth + 1) ads
/-- (Specification.) -/
def linesVarys (depth : Nat) : List VaryNode → List Line
  | [] => []
  | v :: vs => linesVary depth v ++ linesVarys depth vs
/-- (Specification.) -/
def linesADs (depth : Nat) : List (Option ADNode) → List Line
  | [] => []
  | none :: rest => linesADs depth rest
  | some n :: rest => linesAD depth n ++ linesADs depth rest
end

/-- `n` copies of the indentation. (Specification.) -/
def indent (n : Nat) : Text := (List.replicate n "\\qquad ".toList).flatten

/-- A line without its end. (Specification.) -/
def Line.text : Line → Text
  | .ad d c v n => "{}& ".toList ++ indent d ++ "AD (".toList ++
      (if c = -1 then "*".toList else "Col".toList ++ intStr c ++ " = ".toList ++ intStr v) ++
      " \\rightarrow \\textbf{".toList ++ intStr n ++ "}) \\\\".toList
  | .vary d c m => "{}& ".toList ++ indent d ++ "\\quad ".toList ++ "Vary (Col".toList ++ intStr c ++
      ", \\, MCV = ".toList ++ intStr m ++ ") \\\\".toList

/-- Lines as a text. (Specification.) -/
def textOf (ls : List Line) : Text := (ls.map (fun l => l.text ++ ['\n'])).flatten

/-! ## Proofs -/

theorem replaceNN_cons {c : Char} (h : c ≠ '\n') (rest : Text) : replaceNN (c :: rest) = c :: replaceNN rest := by
  rw [replaceNN]
  rintro r rfl
  exact absurd rfl h

theorem replaceNN_single {c : Char} (h : c ≠ '\n') (rest : Text) :
    replaceNN ('\n' :: c :: rest) = '\n' :: c :: replaceNN rest := by
  rw [replaceNN]
  · rw [replaceNN_cons h]
  · intro r _ hr
    cases hr
    exact h rfl

/-- No line break. (Models no code: a notion for statements and proofs.) -/
def Flat (s : Text) : Prop := '\n' ∉ s

theorem Flat.append {s t : Text} (hs : Flat s) (ht : Flat t) : Flat (s ++ t) := by
  unfold Flat
  simp only [List.mem_append]
  tauto

theorem flat_append {s : Text} (hs : Flat s) (u : Text) : replaceNN (s ++ u) = s ++ replaceNN u := by
  induction s with
  | nil => rfl
  | cons c s ih =>
    have hc : c ≠ '\n' := fun h => hs (by simp [h])
    rw [List.cons_append, replaceNN_cons hc, ih (fun h => hs (List.mem_cons_of_mem _ h))]
    rfl

/-- A text that becomes `out`, whatever follows, if that is nothing, a line, or another line break and then
a line. (Models no code: a notion for statements and proofs.) -/
def Becomes (s out : Text) : Prop :=
  (∃ c r, s = c :: r ∧ c ≠ '\n') ∧ replaceNN s = out ∧
  (∀ c r, c ≠ '\n' → replaceNN (s ++ c :: r) = out ++ replaceNN (c :: r)) ∧
  (∀ c r, c ≠ '\n' → replaceNN (s ++ '\n' :: c :: r) = out ++ replaceNN (c :: r))

theorem becomes_line {s : Text} (hs : Flat s) (hne : s ≠ []) : Becomes (s ++ ['\n']) (s ++ ['\n']) := by
  have e : ∀ u : Text, (s ++ ['\n']) ++ u = s ++ '\n' :: u := fun u => by simp
  refine ⟨?_, ?_, ?_, ?_⟩
  · cases s with
    | nil => exact absurd rfl hne
    | cons c r => exact ⟨c, r ++ ['\n'], rfl, fun h => hs (by simp [h])⟩
  · rw [flat_append hs]
    rfl
  · intro c r hc
    rw [e, flat_append hs, replaceNN_single hc, replaceNN_cons hc]
    simp
  · intro c r hc
    rw [e, flat_append hs, replaceNN]
    simp

theorem Becomes.append {s t a b : Text} (hs : Becomes s a) (ht : Becomes t b) : Becomes (s ++ t) (a ++ b) := by
  obtain ⟨⟨c, r, rfl, hc⟩, -, hs1, -⟩ := hs
  obtain ⟨⟨d, q, rfl, hd⟩, ht0, ht1, ht2⟩ := ht
  refine ⟨⟨c, r ++ d :: q, rfl, hc⟩, ?_, ?_, ?_⟩
  · rw [hs1 d q hd, ht0]
  · intro e u he
    have := hs1 d (q ++ e :: u) hd
    rw [show d :: (q ++ e :: u) = (d :: q) ++ e :: u from rfl, ht1 e u he] at this
    rw [List.append_assoc, this, List.append_assoc]
  · intro e u he
    have := hs1 d (q ++ '\n' :: e :: u) hd
    rw [show d :: (q ++ '\n' :: e :: u) = (d :: q) ++ '\n' :: e :: u from rfl, ht2 e u he] at this
    rw [List.append_assoc, this, List.append_assoc]

theorem Becomes.join {s t a b : Text} (hs : Becomes s a) (ht : Becomes t b) : Becomes (s ++ '\n' :: t) (a ++ b) := by
  obtain ⟨⟨c, r, rfl, hc⟩, -, -, hs2⟩ := hs
  obtain ⟨⟨d, q, rfl, hd⟩, ht0, ht1, ht2⟩ := ht
  refine ⟨⟨c, r ++ '\n' :: d :: q, rfl, hc⟩, ?_, ?_, ?_⟩
  · rw [hs2 d q hd, ht0]
  · intro e u he
    have := hs2 d (q ++ e :: u) hd
    rw [show d :: (q ++ e :: u) = (d :: q) ++ e :: u from rfl, ht1 e u he] at this
    rw [List.append_assoc]
    exact this.trans (List.append_assoc _ _ _).symm
  · intro e u he
    have := hs2 d (q ++ '\n' :: e :: u) hd
    rw [show d :: (q ++ '\n' :: e :: u) = (d :: q) ++ '\n' :: e :: u from rfl, ht2 e u he] at this
    rw [List.append_assoc]
    exact this.trans (List.append_assoc _ _ _).symm

/-- Several texts. (Models no code: a notion for statements and proofs.) -/
def AllBecome (ts : List Text) (out : Text) : Prop :=
  (ts = [] ∧ out = []) ∨ Becomes (joinNL ts) out

theorem AllBecome.cons {t : Text} {ts : List Text} {a b : Text} (ht : Becomes t a) (hts : AllBecome ts b) :
    AllBecome (t :: ts) (a ++ b) := by
  right
  rcases hts with ⟨rfl, rfl⟩ | h
  · simpa [joinNL] using ht
  · cases ts with
    | nil => exact absurd h.1 (by rintro ⟨c, r, h, -⟩; cases h)
    | cons u rest => exact ht.join h

theorem Becomes.children {s a b : Text} {ts : List Text} (hs : Becomes s a) (hts : AllBecome ts b) :
    Becomes (s ++ joinNL ts) (a ++ b) := by
  rcases hts with ⟨rfl, rfl⟩ | h
  · simpa [joinNL] using hs
  · exact hs.append h

theorem flat_intStr (n : Int) : Flat (intStr n) := notin_intStr (c := '\n') (by decide) n

theorem qquads_eq (n : Nat) : qquads n = indent n := by
  have rep_succ : ∀ (s : Text) (n : Nat), (List.replicate (n + 1) s).flatten = s ++ (List.replicate n s).flatten :=
    fun s n => by rw [List.replicate_succ, List.flatten_cons]
  induction n with
  | zero => rfl
  | succ n ih => exact (congrArg (fun t => "\\qquad ".toList ++ t) ih).trans (rep_succ _ n).symm

theorem flat_indent (n : Nat) : Flat (indent n) := by
  unfold indent
  induction n with
  | zero => exact List.not_mem_nil
  | succ n ih =>
    rw [List.replicate_succ, List.flatten_cons]
    exact Flat.append (by unfold Flat; decide) ih

theorem flat_text (l : Line) : Flat l.text := by
  cases l with
  | ad d c v n =>
    unfold Line.text
    refine ((((((Flat.append (by unfold Flat; decide) (flat_indent d)).append (by unfold Flat; decide)).append ?_).append
      (by unfold Flat; decide)).append (flat_intStr n)).append (by unfold Flat; decide))
    split
    · unfold Flat; decide
    · exact ((Flat.append (by unfold Flat; decide) (flat_intStr c)).append (by unfold Flat; decide)).append (flat_intStr v)
  | vary d c m =>
    unfold Line.text
    exact ((((((Flat.append (by unfold Flat; decide) (flat_indent d)).append (by unfold Flat; decide)).append
      (by unfold Flat; decide)).append (flat_intStr _)).append (by unfold Flat; decide)).append (flat_intStr m)).append
      (by unfold Flat; decide)

theorem text_ne (l : Line) : l.text ≠ [] := by
  cases l with
  | ad d c v n => unfold Line.text; intro h; simp at h
  | vary d c m => unfold Line.text; intro h; simp at h

theorem adLine_eq (d : Nat) (c v n : Int) : adLine (2 * d) c v n = (Line.ad d c v n).text ++ ['\n'] := by
  unfold adLine Line.text
  rw [show 2 * d / 2 = d by omega, qquads_eq, show "}) \\\\\n".toList = "}) \\\\".toList ++ ['\n'] by decide]
  simp only [List.append_assoc]

theorem varyLine_eq (d c : Nat) (m : Int) : varyLine (2 * d + 1) c m = (Line.vary d c m).text ++ ['\n'] := by
  unfold varyLine Line.text
  rw [show (2 * d + 1) / 2 = d by omega, qquads_eq, show ") \\\\\n".toList = ") \\\\".toList ++ ['\n'] by decide]
  simp only [List.append_assoc]

theorem textOf_cons (l : Line) (ls : List Line) : textOf (l :: ls) = (l.text ++ ['\n']) ++ textOf ls := rfl

theorem textOf_append (a b : List Line) : textOf (a ++ b) = textOf a ++ textOf b := by
  simp [textOf]

mutual
theorem latexAD_becomes (d : Nat) : ∀ n : ADNode, Becomes (latexAD (2 * d) n) (textOf (linesAD d n))
  | .mk c v n l r vs => by
    rw [latexAD, linesAD, textOf_cons, adLine_eq]
    exact (becomes_line (flat_text _) (text_ne _)).children (latexVarys_become d vs)
theorem latexVary_becomes (d : Nat) : ∀ v : VaryNode, Becomes (latexVary (2 * d + 1) v) (textOf (linesVary d v))
  | .mk c vals m ads => by
    rw [latexVary, linesVary, textOf_cons, varyLine_eq]
    exact (becomes_line (flat_text _) (text_ne _)).children (latexADs_become (d + 1) ads)
theorem latexVarys_become (d : Nat) : ∀ vs : List VaryNode, AllBecome (latexVarys (2 * d + 1) vs) (textOf (linesVarys d vs))
  | [] => .inl ⟨by rw [latexVarys], by rw [linesVarys]; rfl⟩
  | v :: vs => by
    rw [latexVarys, linesVarys, textOf_append]
    exact AllBecome.cons (latexVary_becomes d v) (latexVarys_become d vs)
theorem latexADs_become (d : Nat) : ∀ ads : List (Option ADNode),
    AllBecome (latexADs (2 * d) ads) (textOf (linesADs d ads))
  | [] => .inl ⟨by rw [latexADs], by rw [linesADs]; rfl⟩
  | none :: rest => by
    rw [latexADs, linesADs]
    exact latexADs_become d rest
  | some n :: rest => by
    rw [latexADs, linesADs, textOf_append]
    exact AllBecome.cons (latexAD_becomes d n) (latexADs_become d rest)
end

mutual
theorem lines_sizeAD (d : Nat) : ∀ n : ADNode, (linesAD d n).length = sizeAD (1, 1) n
  | .mk c v n l r vs => by
    rw [linesAD, sizeAD, List.length_cons, lines_sizeVarys d vs]; simp; omega
theorem lines_sizeVary (d : Nat) : ∀ v : VaryNode, (linesVary d v).length = sizeVary (1, 1) v
  | .mk c vals m ads => by
    rw [linesVary, sizeVary, List.length_cons, lines_sizeADs (d + 1) ads]; simp; omega
theorem lines_sizeVarys (d : Nat) : ∀ vs : List VaryNode, (linesVarys d vs).length = sizeVarys (1, 1) vs
  | [] => by simp [linesVarys, sizeVarys]
  | v :: vs => by
    rw [linesVarys, sizeVarys, List.length_append, lines_sizeVary d v, lines_sizeVarys d vs]
theorem lines_sizeADs (d : Nat) : ∀ ads : List (Option ADNode), (linesADs d ads).length = sizeADs (1, 1) ads
  | [] => by simp [linesADs, sizeADs]
  | none :: rest => by
    rw [linesADs, sizeADs, lines_sizeADs d rest]
  | some n :: rest => by
    rw [linesADs, sizeADs, List.length_append, lines_sizeAD d n, lines_sizeADs d rest]
end

/-- **C106.**  `to_latex()` of any tree is the header, one line per node (each node before its children, from
left to right, indented by its depth, with its column, value and count or its column and most common value)
without empty lines, and the footer. -/
theorem to_latex_exact (root : ADNode) :
    toLatex root = "{\\small\n\\begin{align*}\n".toList ++ textOf (linesAD 0 root) ++ "\\end{align*}\n}".toList ∧
    ∀ l ∈ linesAD 0 root, '\n' ∉ l.text ∧ l.text ≠ [] := by
  refine ⟨?_, fun l _ => ⟨flat_text l, text_ne l⟩⟩
  unfold toLatex
  rw [(latexAD_becomes 0 root).2.1]
  rfl

mutual
theorem size_splitAD : ∀ n : ADNode, sizeAD (1, 1) n = sizeAD (1, 0) n + sizeAD (0, 1) n
  | .mk c v n l r vs => by
    rw [sizeAD, sizeAD, sizeAD, size_splitVarys vs]; simp; omega
theorem size_splitVary : ∀ v : VaryNode, sizeVary (1, 1) v = sizeVary (1, 0) v + sizeVary (0, 1) v
  | .mk c vals m ads => by
    rw [sizeVary, sizeVary, sizeVary, size_splitADs ads]; simp; omega
theorem size_splitVarys : ∀ vs : List VaryNode, sizeVarys (1, 1) vs = sizeVarys (1, 0) vs + sizeVarys (0, 1) vs
  | [] => by simp [sizeVarys]
  | v :: vs => by
    rw [sizeVarys, sizeVarys, sizeVarys, size_splitVary v, size_splitVarys vs]; omega
theorem size_splitADs : ∀ ads : List (Option ADNode), sizeADs (1, 1) ads = sizeADs (1, 0) ads + sizeADs (0, 1) ads
  | [] => by simp [sizeADs]
  | none :: rest => by
    rw [sizeADs, sizeADs, sizeADs, size_splitADs rest]
  | some n :: rest => by
    rw [sizeADs, sizeADs, sizeADs, size_splitAD n, size_splitADs rest]; omega
end

/-- **C106.**  After any valid session the text has as many lines as the counters of the tree say: one for each AD
node and each Vary node. -/
theorem to_latex_line_count (D : Data) (hD : Usable D) (dyn : Bool) (requests : List Request)
    (hv : ∀ r ∈ requests, r.Valid D) :
    Ok (session D dyn requests) ⟨0, 0⟩ (fun result counters =>
      (linesAD 0 result.2).length = counters.ad + counters.vary) := by
  refine (adtree_counters_exact D hD dyn requests hv).mono ?_
  rintro ⟨as, root⟩ s ⟨h1, h2, -⟩
  rw [lines_sizeAD, size_splitAD, h1, h2]

/-- **C106 (finding).**  After loading a tree from a file, `to_latex()` of a static tree always raises
`AttributeError`, and that of a dynamic tree exactly if the tree had been queried about any column. -/
theorem to_latex_loaded (root : ADNode) :
    toLatexLoaded false root = .error .attributeError ∧
    (root.varys = [] → toLatexLoaded true root = .ok (toLatex root)) ∧
    (root.varys ≠ [] → toLatexLoaded true root = .error .attributeError) := by
  refine ⟨rfl, fun h => ?_, fun h => ?_⟩
  · unfold toLatexLoaded; rw [if_pos rfl, h]
  · unfold toLatexLoaded
    rw [if_pos rfl]
    cases hv : root.varys with
    | nil => exact absurd hv h
    | cons v vs => rfl

/-! ## Example -/

/-- (Example.) A tree with one kept child. -/
def exLatex : ADNode := .mk (-1) (-1) 5 false none [.mk 0 [1, 2] 1 [none, some (.mk 0 2 2 false (some [0, 1]) [])], .mk 1 [3] 3 [none]]

example : linesAD 0 exLatex = [.ad 0 (-1) (-1) 5, .vary 0 0 1, .ad 1 0 2 2, .vary 0 1 3] := by decide +kernel

example : toLatex exLatex = ("{\\small\n\\begin{align*}\n{}& AD (* \\rightarrow \\textbf{5}) \\\\\n" ++
    "{}& \\quad Vary (Col0, \\, MCV = 1) \\\\\n{}& \\qquad AD (Col0 = 2 \\rightarrow \\textbf{2}) \\\\\n" ++
    "{}& \\quad Vary (Col1, \\, MCV = 3) \\\\\n\\end{align*}\n}").toList := by
  decide +kernel

end Latex
end Mbtk.ADTree
