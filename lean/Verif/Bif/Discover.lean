import Verif.Bif.TextRead
import Verif.Bif.File
import Verif.BN.Oracle
import Verif.BN.ExactData
import Verif.Props.MBProps
/-!
# From the text of a BIF file to Markov blankets (C111)

The chain of a user: `BayesianNetwork.from_bif_file(path)`, `finalize()`, then one of the algorithms with the
d-separation test on the graphs of the network, or with a G-test on data made from it.  What comes out is stated in
terms of the text alone: the `probability ( c | p, ... )` headers written in it.
-/
namespace Mbtk.Bif.Text
open Mbtk Mbtk.Bif Mbtk.Bif.Spec Mbtk.BN.Spec

/-! ## Specification -/

namespace Spec

/-- The document has a block `probability ( c | ..., p, ... )`. (Specification.) -/
def DocParent (doc : List Block) (p c : String) : Prop :=
  ∃ b ∈ probBlocks doc, b.1 = c ∧ p ∈ b.2.1

/-- The Markov blanket of `t` according to the headers of the document: parents, children, and other parents of
the children. (Specification.) -/
def DocBlanket (doc : List Block) (t v : String) : Prop :=
  v ≠ t ∧ (DocParent doc v t ∨ DocParent doc t v ∨ ∃ c, DocParent doc t c ∧ DocParent doc v c)

/-- The names of the declared variables. (Specification.) -/
def docNames (doc : List Block) : List String := (varBlocks doc).map Prod.fst

/-- The number by which the library calls a variable: its place in the alphabetical order of the names.
(Specification.) -/
def docID (doc : List Block) (v : String) : Nat := ((docNames doc).insertionSort (· ≤ ·)).idxOf v

/-- The list `r` consists of the numbers of the declared variables that satisfy `P`, in increasing order.
(Specification.) -/
def ListsVars (doc : List Block) (P : String → Prop) (r : List Nat) : Prop :=
  r.Pairwise (· < ·) ∧ (∀ v ∈ docNames doc, docID doc v ∈ r ↔ P v) ∧ ∀ i ∈ r, ∃ v ∈ docNames doc, docID doc v = i

/-- What each algorithm is to return for the target `t`. (Specification.) -/
def DocWanted (doc : List Block) (t : String) : MB.Algorithm → String → Prop
  | .iamb, v => DocBlanket doc t v
  | .ipcmb false, v => DocBlanket doc t v
  | .ipcmb true, v => DocParent doc v t ∨ DocParent doc t v

end Spec
open Spec

/-! ## The declared network and the headers -/

section decl
variable {val : String → ℚ} {doc : List Block}

theorem declared_mem (hu : Unambiguous doc) {n : BN.Node String String} :
    n ∈ declaredNodes val doc → ∃ b ∈ varBlocks doc, ∃ pb ∈ probBlocks doc, pb.1 = b.1 ∧
      n = { name := b.1, values := b.2.1, parents := pb.2.1, probabilities := tableDict val pb.2.2.1 } := by
  intro hn
  obtain ⟨b, hb, hm⟩ := List.mem_filterMap.1 hn
  obtain ⟨pb, hpb, hname⟩ := List.mem_map.1 (hu.covered b hb)
  refine ⟨b, hb, pb, hpb, hname, ?_⟩
  unfold distOf at hm
  rw [← hname, lastOf_of_nodup hu.probs (show (pb.1, pb.2) ∈ probBlocks doc from hpb)] at hm
  simp only [Option.map_some, Option.some.injEq] at hm
  rw [← hm, hname]

theorem declared_of_blocks (hu : Unambiguous doc) {b : String × List String × List (String × PropValue)}
    {pb : String × List String × Table × List (String × PropValue)} (hb : b ∈ varBlocks doc)
    (hpb : pb ∈ probBlocks doc) (hname : pb.1 = b.1) :
    ({ name := b.1, values := b.2.1, parents := pb.2.1, probabilities := tableDict val pb.2.2.1 } :
      BN.Node String String) ∈ declaredNodes val doc := by
  refine List.mem_filterMap.2 ⟨b, hb, ?_⟩
  unfold distOf
  rw [← hname, lastOf_of_nodup hu.probs (show (pb.1, pb.2) ∈ probBlocks doc from hpb)]
  rfl

theorem declared_names (hu : Unambiguous doc) :
    (declaredNodes val doc).map (·.name) = docNames doc := by
  have key : ∀ l : List (String × List String × List (String × PropValue)),
      (∀ b ∈ l, b.1 ∈ (probBlocks doc).map Prod.fst) →
      (l.filterMap (fun b => (distOf val doc b.1).map (fun p => ({ name := b.1, values := b.2.1, parents := p.parents, probabilities := p.table } : BN.Node String String)))).map (·.name) = l.map Prod.fst := by
    intro l
    induction l with
    | nil => intro _; rfl
    | cons b l ih =>
      intro h
      obtain ⟨pb, hpb, hname⟩ := List.mem_map.1 (h b (by simp))
      have hd : distOf val doc b.1 = some ⟨pb.2.1, tableDict val pb.2.2.1, propsDict pb.2.2.2⟩ := by
        unfold distOf
        rw [← hname, lastOf_of_nodup hu.probs (show (pb.1, pb.2) ∈ probBlocks doc from hpb)]
        rfl
      rw [List.filterMap_cons, hd]
      simp only [Option.map_some, List.map_cons]
      rw [ih (fun b hb => h b (by simp [hb]))]
  exact key _ hu.covered

theorem declared_parentOf (hd : AllDeclared doc) (hu : Unambiguous doc) (p c : String) :
    ParentOf (declaredNodes val doc) p c ↔ DocParent doc p c := by
  constructor
  · rintro ⟨n, hn, rfl, hp⟩
    obtain ⟨b, hb, pb, hpb, hname, rfl⟩ := declared_mem hu hn
    exact ⟨pb, hpb, hname, hp⟩
  · rintro ⟨pb, hpb, rfl, hp⟩
    obtain ⟨b, hb, hname⟩ := List.mem_map.1 (hd pb hpb).1
    exact ⟨_, declared_of_blocks hu hb hpb hname.symm, hname, hp⟩

theorem declared_noIDs (hu : Unambiguous doc) : NoIDs (declaredNodes val doc) := by
  intro n hn
  obtain ⟨b, hb, pb, hpb, hname, rfl⟩ := declared_mem hu hn
  rfl

theorem declared_length (hu : Unambiguous doc) : (declaredNodes val doc).length = (docNames doc).length := by
  rw [← declared_names (val := val) hu, List.length_map]

theorem declared_idOf (hu : Unambiguous doc) (v : String) : idOf (declaredNodes val doc) v = docID doc v := by
  unfold idOf docID
  rw [declared_names hu]

theorem docParent_declared (hd : AllDeclared doc) {p c : String} (h : DocParent doc p c) :
    p ∈ docNames doc ∧ c ∈ docNames doc := by
  obtain ⟨b, hb, rfl, hp⟩ := h
  exact ⟨(hd b hb).2 p hp, (hd b hb).1⟩

theorem docID_inj {v w : String} (hv : v ∈ docNames doc) (h : docID doc v = docID doc w) : v = w :=
  (List.idxOf_inj ((List.mem_insertionSort _).2 hv)).1 h

theorem docID_lt {v : String} (hv : v ∈ docNames doc) : docID doc v < (docNames doc).length := by
  have := List.idxOf_lt_length_of_mem ((List.mem_insertionSort (· ≤ ·)).2 hv)
  rwa [List.length_insertionSort] at this

/-- An edge between numbers is a header of the document. -/
theorem edge_docID (hd : AllDeclared doc) (hu : Unambiguous doc) {p c : String} (_ : p ∈ docNames doc)
    (_ : c ∈ docNames doc) :
    Edge (declaredNodes val doc) (docID doc p) (docID doc c) ↔ DocParent doc p c := by
  constructor
  · rintro ⟨p', c', hpc, h1, h2⟩
    rw [declared_idOf hu] at h1 h2
    have hpc' := (declared_parentOf hd hu p' c').1 hpc
    obtain ⟨m1, m2⟩ := docParent_declared hd hpc'
    rw [← docID_inj m1 h1, ← docID_inj m2 h2]
    exact hpc'
  · intro h
    exact ⟨p, c, (declared_parentOf hd hu p c).2 h, declared_idOf hu p, declared_idOf hu c⟩

theorem edge_docNames (hd : AllDeclared doc) (hu : Unambiguous doc) {i j : Nat}
    (h : Edge (declaredNodes val doc) i j) :
    ∃ p ∈ docNames doc, ∃ c ∈ docNames doc, docID doc p = i ∧ docID doc c = j ∧ DocParent doc p c := by
  obtain ⟨p, c, hpc, rfl, rfl⟩ := h
  have hpc' := (declared_parentOf hd hu p c).1 hpc
  obtain ⟨m1, m2⟩ := docParent_declared hd hpc'
  exact ⟨p, m1, c, m2, (declared_idOf hu p).symm, (declared_idOf hu c).symm, hpc'⟩

theorem blanket_docID (hd : AllDeclared doc) (hu : Unambiguous doc) {t v : String} (ht : t ∈ docNames doc)
    (hv : v ∈ docNames doc) :
    Graph.IsBlanket (Edge (declaredNodes val doc)) (docID doc t) (docID doc v) ↔ DocBlanket doc t v := by
  unfold Graph.IsBlanket DocBlanket
  have hne : docID doc v ≠ docID doc t ↔ v ≠ t :=
    not_congr ⟨fun h => docID_inj hv h, fun h => by rw [h]⟩
  rw [hne, edge_docID hd hu hv ht, edge_docID hd hu ht hv]
  have hsp : (∃ c, Edge (declaredNodes val doc) (docID doc t) c ∧ Edge (declaredNodes val doc) (docID doc v) c) ↔
      ∃ c, DocParent doc t c ∧ DocParent doc v c := by
    constructor
    · rintro ⟨j, h1, h2⟩
      obtain ⟨_, _, c, hc, _, rfl, _⟩ := edge_docNames hd hu h1
      exact ⟨c, (edge_docID hd hu ht hc).1 h1, (edge_docID hd hu hv hc).1 h2⟩
    · rintro ⟨c, h1, h2⟩
      have hc := (docParent_declared hd h1).2
      exact ⟨_, (edge_docID hd hu ht hc).2 h1, (edge_docID hd hu hv hc).2 h2⟩
  rw [hsp]

theorem isBlanket_mem {E : Nat → Nat → Prop} {t i : Nat} (h : Graph.IsBlanket E t i) : ∃ j, E i j ∨ E j i := by
  rcases h.2 with h | h | ⟨c, _, h⟩
  · exact ⟨t, .inl h⟩
  · exact ⟨t, .inr h⟩
  · exact ⟨c, .inl h⟩

theorem edge_named (hd : AllDeclared doc) (hu : Unambiguous doc) {i : Nat}
    (h : ∃ j, Edge (declaredNodes val doc) i j ∨ Edge (declaredNodes val doc) j i) :
    ∃ v ∈ docNames doc, docID doc v = i := by
  obtain ⟨j, h | h⟩ := h
  · obtain ⟨p, hp, _, _, e, _⟩ := edge_docNames hd hu h
    exact ⟨p, hp, e⟩
  · obtain ⟨_, _, c, hc, _, e, _⟩ := edge_docNames hd hu h
    exact ⟨c, hc, e⟩

/-- A result that lists the blanket among the numbers lists the blanket of the document. -/
theorem listsVars_blanket (hd : AllDeclared doc) (hu : Unambiguous doc) {t : String} (ht : t ∈ docNames doc)
    {r : List Nat} (hs : r.Pairwise (· < ·))
    (hr : ∀ x, x ∈ r ↔ Graph.IsBlanket (Edge (declaredNodes val doc)) (docID doc t) x) :
    ListsVars doc (DocBlanket doc t) r :=
  ⟨hs, fun v hv => by rw [hr, blanket_docID hd hu ht hv],
    fun i hi => edge_named hd hu (isBlanket_mem ((hr i).1 hi))⟩

theorem shields_of (hu : Unambiguous doc) (hw : WellFormed (declaredNodes val doc))
    (hN : Normalised (declaredNodes val doc)) {t : String} (ht : t ∈ docNames doc) {r : List Nat}
    (hlt : ∀ i ∈ r, i < (docNames doc).length) (htr : docID doc t ∉ r)
    (hB : ∀ v, Graph.IsBlanket (Edge (declaredNodes val doc)) (docID doc t) v → v ∈ r) :
    ∀ v ∈ docNames doc, v ≠ t → docID doc v ∉ r →
      NetIndependent (declaredNodes val doc) (docID doc t) (docID doc v) (r.map (fun z : Nat => (z : Int))) := by
  have hlen := declared_length (val := val) hu
  intro v hv hvt hvr
  exact BN.blanket_shields _ hw hN (docID doc t) (by rw [hlen]; exact docID_lt ht) r
    (fun z hz => by rw [hlen]; exact hlt z hz) htr hB (docID doc v) (by rw [hlen]; exact docID_lt hv)
    (fun h => hvt (docID_inj hv h)) hvr

/-- The text, the network object and the finalized network. -/
theorem read_and_finalize {lark : List Char → Except Err Obj} (hl : CorrectLark lark) (intOf : String → Int)
    (val : String → ℚ) {s : List Char} {doc : List Block} (h : Derives doc s) (hd : AllDeclared doc)
    (hu : Unambiguous doc) (hw : WellFormed (declaredNodes val doc)) :
    ∃ R net, readText lark intOf val s = .ok (netObj R) ∧ R.bnNodes = declaredNodes val doc ∧
      BN.finalize { nodes := R.bnNodes } = .ok net := by
  obtain ⟨R, hR, hnodes, _⟩ := bif_read_unambiguous intOf val doc hd hu
  have hb : R.bnNodes = declaredNodes val doc := by
    unfold ReadNet.bnNodes declaredNodes
    rw [hnodes, List.filterMap_map]
    rfl
  obtain ⟨net, hf, _⟩ := BN.finalize_ok hw
  refine ⟨R, net, ?_, hb, by rw [hb]; exact hf⟩
  simp only [readText, hl.accepts s doc h]
  exact hR

end decl

/-! ## The results -/

section results
variable {σ : Type} {lark : List Char → Except Err Obj}

/-- **C111.**  From the text to the Markov blanket with IAMB and the d-separation test: for every text of the
grammar that says nothing twice and declares a well formed network, and every declared target, reading and
finalizing succeed and IAMB returns exactly the variables that the headers of the text make the parents, the
children and the other parents of the children of the target.  In the distribution that the tables of the text
define, the target is independent of every other variable given the returned ones. -/
theorem bif_text_to_blanket_iamb (hl : CorrectLark lark) (intOf : String → Int) (val : String → ℚ)
    {s : List Char} {doc : List Block} (h : Derives doc s) (hd : AllDeclared doc) (hu : Unambiguous doc)
    (hw : WellFormed (declaredNodes val doc)) (t : String) (ht : t ∈ docNames doc)
    (o : List Nat → σ → List Nat × σ) (ho : ∀ l s, (o l s).1.Perm l) (st : MB.St σ) :
    ∃ R net r st', readText lark intOf val s = .ok (netObj R) ∧
      BN.finalize { nodes := R.bnNodes } = .ok net ∧
      MB.iamb (MB.dsepWorld (BN.graphOf net) o) (List.range (docNames doc).length) (docID doc t) st =
        .ok (r, st') ∧
      ListsVars doc (DocBlanket doc t) r ∧
      (Normalised (declaredNodes val doc) → ∀ v ∈ docNames doc, v ≠ t → docID doc v ∉ r →
        NetIndependent (declaredNodes val doc) (docID doc t) (docID doc v)
          (r.map (fun z : Nat => (z : Int)))) := by
  obtain ⟨R, net, hR, hb, hf⟩ := read_and_finalize hl intOf val h hd hu hw
  obtain ⟨hrep, hV⟩ := BN.finalized_graph _ hw (declared_noIDs hu) net (hb ▸ hf)
  obtain ⟨r, st', hr, hs, hmem⟩ := MB.iamb_finds_blanket hrep (BN.edge_acyclic hw)
    (U := List.range (docNames doc).length) (T := docID doc t) (by
      intro v hv
      obtain ⟨w, hw', rfl⟩ := edge_named hd hu (isBlanket_mem hv)
      exact List.mem_range.2 (docID_lt hw')) o ho st
  have hL := listsVars_blanket hd hu ht hs hmem
  exact ⟨R, net, r, st', hR, hf, hr, hL, fun hN => shields_of hu hw hN ht
    (fun i hi => by obtain ⟨v, hv, rfl⟩ := hL.2.2 i hi; exact docID_lt hv)
    (fun hi => ((hmem _).1 hi).1 rfl) (fun v hv => (hmem v).2 hv)⟩

/-- **C111.**  IPC-MB with the same test: the whole blanket is always found, and if in the document no child of a
variable with two parents has children itself, nothing else is.  In any case the result shields the target. -/
theorem bif_text_to_blanket_ipcmb (hl : CorrectLark lark) (intOf : String → Int) (val : String → ℚ)
    {s : List Char} {doc : List Block} (h : Derives doc s) (hd : AllDeclared doc) (hu : Unambiguous doc)
    (hw : WellFormed (declaredNodes val doc)) (t : String) (ht : t ∈ docNames doc)
    (o : List Nat → σ → List Nat × σ) (ho : ∀ l s, (o l s).1.Perm l) (st : MB.St σ) :
    ∃ R net r st', readText lark intOf val s = .ok (netObj R) ∧
      BN.finalize { nodes := R.bnNodes } = .ok net ∧
      MB.ipcmb (MB.dsepWorld (BN.graphOf net) o) (List.range (docNames doc).length) (docID doc t) false st =
        .ok (r, st') ∧
      (∃ P : String → Prop, ListsVars doc P r ∧ ∀ v, DocBlanket doc t v → P v) ∧
      ((∀ a b c d e, a ≠ b → DocParent doc a c → DocParent doc b c → DocParent doc c d →
          ¬ DocParent doc d e) → ListsVars doc (DocBlanket doc t) r) ∧
      (Normalised (declaredNodes val doc) → ∀ v ∈ docNames doc, v ≠ t → docID doc v ∉ r →
        NetIndependent (declaredNodes val doc) (docID doc t) (docID doc v)
          (r.map (fun z : Nat => (z : Int)))) := by
  obtain ⟨R, net, hR, hb, hf⟩ := read_and_finalize hl intOf val h hd hu hw
  obtain ⟨hrep, hV⟩ := BN.finalized_graph _ hw (declared_noIDs hu) net (hb ▸ hf)
  have hlen := declared_length (val := val) hu
  have hEU : ∀ a b, Edge (declaredNodes val doc) a b →
      a ∈ List.range (docNames doc).length ∧ b ∈ List.range (docNames doc).length := by
    intro a b hab
    rw [List.mem_range, List.mem_range, ← hlen]
    exact BN.edge_lt hw hab
  have htU : docID doc t ∈ List.range (docNames doc).length := List.mem_range.2 (docID_lt ht)
  have hans := MB.dsepWorld_answers hrep o
  obtain ⟨r, st', hr, hs, hmem⟩ := MB.ipcmb_contains_blanket (W := MB.dsepWorld (BN.graphOf net) o) ho
    (MB.shipped_oracle _) hans (BN.edge_acyclic hw) List.nodup_range htU hEU st
  obtain ⟨r', st'', hr', -, hmem'⟩ := MB.ipcmb_well_formed (W := MB.dsepWorld (BN.graphOf net) o) ho
    hans.total (U := List.range (docNames doc).length) List.nodup_range (docID doc t) false st
  rw [hr] at hr'
  obtain ⟨rfl, rfl⟩ := Prod.mk.inj (Except.ok.inj hr')
  refine ⟨R, net, r, st', hR, hf, hr, ⟨fun v => docID doc v ∈ r, ⟨hs, fun v _ => Iff.rfl, ?_⟩, ?_⟩, ?_,
    fun hN => shields_of hu hw hN ht (fun i hi => List.mem_range.1 (hmem' i hi).1)
      (fun hi => (hmem' _ hi).2 rfl) hmem⟩
  · intro i hi
    have hlt := List.mem_range.1 (hmem' i hi).1
    rw [← hlen] at hlt
    obtain ⟨m, hm, rfl⟩ := BN.exists_node hw hlt
    refine ⟨m.name, ?_, (declared_idOf hu _).symm⟩
    rw [← declared_names (val := val) hu]
    exact List.mem_map.2 ⟨m, hm, rfl⟩
  · intro v hv
    have hvd : v ∈ docNames doc := by
      rcases hv.2 with h | h | ⟨c, _, h⟩
      · exact (docParent_declared hd h).1
      · exact (docParent_declared hd h).2
      · exact (docParent_declared hd h).1
    exact hmem _ ((blanket_docID hd hu ht hvd).2 hv)
  · intro hsh
    have hshE : ∀ a b c d e, a ≠ b → Edge (declaredNodes val doc) a c → Edge (declaredNodes val doc) b c →
        Edge (declaredNodes val doc) c d → ¬ Edge (declaredNodes val doc) d e := by
      intro a b c d e hab h1 h2 h3 h4
      obtain ⟨a, ha, c, hc, rfl, rfl, k1⟩ := edge_docNames hd hu h1
      obtain ⟨b, hb', _, _, rfl, _, _⟩ := edge_docNames hd hu h2
      obtain ⟨d, hd', e, he, rfl, rfl, k4⟩ := edge_docNames hd hu h4
      exact hsh a b c d e (fun h => hab (by rw [h])) k1 ((edge_docID hd hu hb' hc).1 h2)
        ((edge_docID hd hu hc hd').1 h3) k4
    have hP : MB.ShippedSep (Edge (declaredNodes val doc)) = Graph.DSep (Edge (declaredNodes val doc)) := by
      funext X Y Z
      exact propext (Graph.shallow_iff hshE X Y Z)
    obtain ⟨r2, s2, hr2, hs2, hm2⟩ := MB.ipcmb_exact_partial (W := MB.dsepWorld (BN.graphOf net) o) ho
      (hP ▸ hans) (BN.edge_acyclic hw) List.nodup_range htU hEU st
    rw [hr] at hr2
    obtain ⟨rfl, rfl⟩ := Prod.mk.inj (Except.ok.inj hr2)
    exact listsVars_blanket hd hu ht hs2 hm2

/-- **C111.**  With data: exact data made from the network of a file (`create_exact_instances`), from some size on,
with any of the G-tests, lead IAMB and IPC-MB to the variables that the headers of the text name, if the
distribution of the file is faithful to its graph. -/
theorem bif_text_to_blanket_gtest (hl : CorrectLark lark) (intOf : String → Int) (val : String → ℚ)
    {s : List Char} {doc : List Block} (h : Derives doc s) (hd : AllDeclared doc) (hu : Unambiguous doc)
    (hw : WellFormed (declaredNodes val doc)) (hN : Normalised (declaredNodes val doc))
    (hF : BN.FaithfulNet (declaredNodes val doc)) (cfg : Stats.Config) (hc : cfg.criterion = none)
    (hα : cfg.significance < 1)
    (hcdf : ∀ d : ℕ, 1 ≤ d → Filter.Tendsto (fun g => cfg.cdf g d) Filter.atTop (nhds 1))
    (h0 : ∀ d : ℕ, 1 ≤ d → cfg.cdf 0 d < cfg.significance) :
    ∃ R net, readText lark intOf val s = .ok (netObj R) ∧ BN.finalize { nodes := R.bnNodes } = .ok net ∧
      ∃ N, ∀ n ≥ N, BN.WholeCounts (declaredNodes val doc) n →
        ∃ M, Dataset.Synth.createExactInstances net n = .ok M ∧
          ∀ D, BN.IsMatrix (declaredNodes val doc) M D → D.threshold ≤ n →
            ∀ (alg : MB.Algorithm) (g : MB.GTest) (t : String) (ι : Type) (o : List Nat → ι → List Nat × ι) (i : ι),
              g.Supports cfg → t ∈ docNames doc → (∀ l i, (o l i).1.Perm l) →
              ∃ mb tests results,
                MB.runWith g alg D cfg (List.range (docNames doc).length) (docID doc t) o i =
                  .ok (mb, tests, results) ∧
                ListsVars doc (DocWanted doc t alg) mb := by
  obtain ⟨R, net, hR, hb, hf⟩ := read_and_finalize hl intOf val h hd hu hw
  have hlen := declared_length (val := val) hu
  obtain ⟨N, hall⟩ := BN.discovery_exact_on_exact_data _ hw hN hF net (hb ▸ hf) cfg hc hα hcdf h0
  refine ⟨R, net, hR, hf, N, fun n hn hwc => ?_⟩
  obtain ⟨M, hM, hrun⟩ := hall n hn hwc
  refine ⟨M, hM, fun D hD hth alg g t ι o i hg ht ho => ?_⟩
  obtain ⟨mb, tests, results, er, hs, hmb⟩ := hrun D hD hth alg g (docID doc t) ι o i hg
    (by rw [hlen]; exact docID_lt ht) ho
  rw [hlen] at er
  refine ⟨mb, tests, results, er, hs, ?_, ?_⟩
  · intro v hv
    rw [hmb]
    rcases alg with _ | b
    · exact blanket_docID hd hu ht hv
    · cases b
      · exact blanket_docID hd hu ht hv
      · simp only [BN.Wanted, DocWanted]
        rw [edge_docID hd hu hv ht, edge_docID hd hu ht hv]
  · intro i hi
    have hi' := (hmb i).1 hi
    rcases alg with _ | b
    · exact edge_named hd hu (isBlanket_mem hi')
    · cases b
      · exact edge_named hd hu (isBlanket_mem hi')
      · rcases hi' with h | h
        · exact edge_named hd hu ⟨_, .inl h⟩
        · exact edge_named hd hu ⟨_, .inr h⟩

end results

/-! ## The survey network -/

/-- The digits of a numeral as a number. (Example.) -/
def digitsValue (l : List Char) : Nat := l.foldl (fun n c => 10 * n + (c.toNat - 48)) 0

/-- The exact value of a numeral without exponent, such as `0.75`. (Example.) -/
def decimalValue (s : String) : ℚ :=
  let whole := s.toList.takeWhile (· ≠ '.')
  let frac := (s.toList.dropWhile (· ≠ '.')).tail
  (digitsValue (whole ++ frac) : ℚ) / (10 ^ frac.length : Nat)

theorem survey_allDeclared : AllDeclared surveyDoc := by unfold AllDeclared; decide

theorem survey_unambiguous : Unambiguous surveyDoc := ⟨by decide, by decide, by decide, by decide⟩

set_option maxRecDepth 100000 in
theorem survey_wf : WellFormed (declaredNodes decimalValue surveyDoc) :=
  BN.wellFormed_of_check (l := ["AGE", "SEX", "EDU", "OCC", "R", "TRN"]) (by decide +kernel) (by decide +kernel)
    (by decide +kernel) (by decide +kernel) (by decide +kernel)

set_option maxRecDepth 100000 in
theorem survey_normalised : Normalised (declaredNodes decimalValue surveyDoc) := by
  intro n hn vs h
  rw [BN.mem_combos] at h
  revert n vs
  decide +kernel

/-- The blanket of `EDU` according to the text of `survey.bif`. -/
theorem survey_blanket (v : String) : DocBlanket surveyDoc "EDU" v ↔ v ∈ ["AGE", "SEX", "OCC", "R"] := by
  have hdec : ∀ v, DocBlanket surveyDoc "EDU" v → v ∈ docNames surveyDoc := by
    intro v hv
    rcases hv.2 with h | h | ⟨c, _, h⟩
    · exact (docParent_declared survey_allDeclared h).1
    · exact (docParent_declared survey_allDeclared h).2
    · exact (docParent_declared survey_allDeclared h).1
  have hpar : ∀ p c, DocParent surveyDoc p c ↔ c ∈ docNames surveyDoc ∧ DocParent surveyDoc p c :=
    fun p c => ⟨fun h => ⟨(docParent_declared survey_allDeclared h).2, h⟩, And.right⟩
  have hfin : ∀ v ∈ docNames surveyDoc, (v ≠ "EDU" ∧ (DocParent surveyDoc v "EDU" ∨ DocParent surveyDoc "EDU" v ∨
      ∃ c ∈ docNames surveyDoc, DocParent surveyDoc "EDU" c ∧ DocParent surveyDoc v c)) ↔
      v ∈ ["AGE", "SEX", "OCC", "R"] := by
    unfold DocParent
    decide +kernel
  constructor
  · intro hv
    refine (hfin v (hdec v hv)).1 ⟨hv.1, ?_⟩
    rcases hv.2 with h | h | ⟨c, h1, h2⟩
    · exact .inl h
    · exact .inr (.inl h)
    · exact .inr (.inr ⟨c, (docParent_declared survey_allDeclared h1).2, h1, h2⟩)
  · intro hv
    have hvd : v ∈ docNames surveyDoc := by revert v; decide
    obtain ⟨h1, h2⟩ := (hfin v hvd).2 hv
    refine ⟨h1, ?_⟩
    rcases h2 with h | h | ⟨c, _, h1, h2⟩
    · exact .inl h
    · exact .inr (.inl h)
    · exact .inr (.inr ⟨c, h1, h2⟩)

/-- The numbers of the variables of `survey.bif`. -/
theorem survey_ids : ["AGE", "EDU", "OCC", "R", "SEX", "TRN"].map (docID surveyDoc) = [0, 1, 2, 3, 4, 5] := by
  decide +kernel

/-- From the text of `survey.bif` to the blanket of `EDU`: `[0, 2, 3, 4]`, that is `AGE`, `OCC`, `R`, `SEX`. -/
theorem survey_text_to_blanket (intOf : String → Int) (st : MB.St Unit) :
    ∃ R net st', readText larkOf intOf decimalValue surveyText = .ok (netObj R) ∧
      BN.finalize { nodes := R.bnNodes } = .ok net ∧
      MB.iamb (MB.dsepWorld (BN.graphOf net) (fun l u => (l.reverse, u))) (List.range 6) 1 st =
        .ok ([0, 2, 3, 4], st') := by
  obtain ⟨R, net, r, st', hR, hf, hr, ⟨hs, hL, hall⟩, _⟩ := bif_text_to_blanket_iamb larkOf_correct intOf decimalValue
    survey_derives survey_allDeclared survey_unambiguous survey_wf "EDU" (by decide)
    (fun l (u : Unit) => (l.reverse, u)) (fun l _ => List.reverse_perm l) st
  have hid : docID surveyDoc "EDU" = 1 := by decide +kernel
  rw [hid] at hr
  have : r = [0, 2, 3, 4] := by
    have hnum : ∀ v ∈ docNames surveyDoc, (docID surveyDoc v ∈ [0, 2, 3, 4] ↔ v ∈ ["AGE", "SEX", "OCC", "R"]) := by
      decide +kernel
    have hnam : ∀ i ∈ [0, 2, 3, 4], ∃ v ∈ docNames surveyDoc, docID surveyDoc v = i := by decide +kernel
    have hmem : ∀ i, i ∈ r ↔ i ∈ [0, 2, 3, 4] := by
      intro i
      constructor
      · intro hi
        obtain ⟨v, hv, rfl⟩ := hall i hi
        exact (hnum v hv).2 ((survey_blanket v).1 ((hL v hv).1 hi))
      · intro hi
        obtain ⟨v, hv, rfl⟩ := hnam i hi
        exact (hL v hv).2 ((survey_blanket v).2 ((hnum v hv).1 hi))
    exact List.Perm.eq_of_pairwise (le := (· < ·)) (fun a b _ _ h1 h2 => by omega) hs (by decide)
      ((List.perm_ext_iff_of_nodup (hs.imp (fun h => ne_of_lt h)) (by decide)).2 hmem)
  rw [this] at hr
  exact ⟨R, net, st', hR, hf, hr⟩

/-! ## A faithful file -/

/-- A small file. (Example.) -/
def duoParts : List (List String) :=
  [["variable a { type discrete [ 2 ] { n, y }; }"],
   ["variable b { type discrete [ 2 ] { n, y }; }"],
   ["probability ( a ) { table 0.5, 0.5; }"],
   ["probability ( b | a ) {", " (n) 0.75, 0.25;", " (y) 0.25, 0.75;", "}"]]

/-- Its document. (Example.) -/
def duoDoc : List Block :=
  [.var "a" "2" ["n", "y"] [], .var "b" "2" ["n", "y"] [], .prob "a" [] (.simple ["0.5", "0.5"]) [],
   .prob "b" ["a"] (.cond [(["n"], ["0.75", "0.25"]), (["y"], ["0.25", "0.75"])]) []]

set_option maxRecDepth 100000 in
theorem duo_derives : Derives duoDoc (duoParts.flatMap ofLines) := by
  refine derives_parts _ _ ?_
  decide +kernel

theorem duo_allDeclared : AllDeclared duoDoc := by unfold AllDeclared; decide

theorem duo_unambiguous : Unambiguous duoDoc := ⟨by decide, by decide, by decide, by decide⟩

theorem duo_wf : WellFormed (declaredNodes decimalValue duoDoc) :=
  BN.wellFormed_of_check (l := ["a", "b"]) (by decide +kernel) (by decide +kernel)
    (by decide +kernel) (by decide +kernel) (by decide +kernel)

theorem duo_normalised : Normalised (declaredNodes decimalValue duoDoc) := by
  intro n hn vs h
  rw [BN.mem_combos] at h
  revert n vs
  decide +kernel

theorem duo_dependent : ∀ q ∈ [((0, 1) : Int × Int), (1, 0)],
    ¬ NetIndependent (declaredNodes decimalValue duoDoc) q.1 q.2 [] := by
  intro q hq hi
  have := hi 0 0 []
  unfold jointXYZ at this
  simp only [BN.prob_decidable] at this
  clear hi
  revert q
  decide +kernel

theorem duo_faithful : BN.FaithfulNet (declaredNodes decimalValue duoDoc) := by
  intro X Y Z hn hlt hi
  have h2 : (declaredNodes decimalValue duoDoc).length = 2 := by decide +kernel
  rw [h2] at hlt
  have hX : X < 2 := hlt X (by simp)
  have hY : Y < 2 := hlt Y (by simp)
  simp only [List.nodup_cons, List.mem_cons, not_or] at hn
  have hZ : Z = [] := by
    cases Z with
    | nil => rfl
    | cons z Z =>
      have hz : z < 2 := hlt z (by simp)
      have h1 := hn.1.2
      have h3 := hn.2.1
      simp only [List.mem_cons, not_or] at h1 h3
      have := hn.1.1
      omega
  subst hZ
  have : (X = 0 ∧ Y = 1) ∨ (X = 1 ∧ Y = 0) := by have := hn.1.1; omega
  rcases this with ⟨rfl, rfl⟩ | ⟨rfl, rfl⟩
  · exact absurd hi (duo_dependent (0, 1) (by simp))
  · exact absurd hi (duo_dependent (1, 0) (by simp))

/-- The hypotheses of `bif_text_to_blanket_gtest` can be met, by the chi-squared distribution at 0.95. -/
example (intOf : String → Int) :
    ∃ R net, readText larkOf intOf decimalValue (duoParts.flatMap ofLines) = .ok (netObj R) ∧
      BN.finalize { nodes := R.bnNodes } = .ok net ∧
      ∃ N, ∀ n ≥ N, BN.WholeCounts (declaredNodes decimalValue duoDoc) n →
        ∃ M, Dataset.Synth.createExactInstances net n = .ok M ∧
          ∀ D, BN.IsMatrix (declaredNodes decimalValue duoDoc) M D → D.threshold ≤ n →
            ∃ mb tests results,
              MB.runWith (.adtree true) .iamb D BN.exConfig (List.range 2) (docID duoDoc "a")
                (fun l (i : Unit) => (l, i)) () = .ok (mb, tests, results) ∧ docID duoDoc "b" ∈ mb := by
  obtain ⟨R, net, hR, hf, N, hall⟩ := bif_text_to_blanket_gtest larkOf_correct intOf decimalValue duo_derives
    duo_allDeclared duo_unambiguous duo_wf duo_normalised duo_faithful BN.exConfig rfl
    (by unfold BN.exConfig; norm_num) (fun d hd => BN.chi2_meets d hd) (fun d hd => by
      show ProbabilityTheory.cdf (ProbabilityTheory.gammaMeasure (((d : ℤ) : ℝ) / 2) (1 / 2)) 0 < 0.95
      rw [BN.chi2_zero d hd]; norm_num)
  refine ⟨R, net, hR, hf, N, fun n hn hw => ?_⟩
  obtain ⟨M, hM, hrun⟩ := hall n hn hw
  refine ⟨M, hM, fun D hD ht => ?_⟩
  obtain ⟨mb, tests, results, er, -, hm, -⟩ := hrun D hD ht .iamb (.adtree true) "a" Unit
    (fun l i => (l, i)) () trivial (by decide) (fun l _ => List.Perm.refl l)
  refine ⟨mb, tests, results, er, (hm "b" (by decide)).2 ⟨by decide, .inr (.inl ?_)⟩⟩
  exact ⟨("b", ["a"], .cond [(["n"], ["0.75", "0.25"]), (["y"], ["0.25", "0.75"])], []), by simp [duoDoc, probBlocks],
    rfl, by simp⟩

/-- And such numbers of instances exist. -/
example : ∃ m, m ≠ 0 ∧ ∀ k, BN.WholeCounts (declaredNodes decimalValue duoDoc) (k * m) :=
  BN.whole_counts_exist _ duo_wf duo_normalised

end Mbtk.Bif.Text
