import Verif.Bif.Read
import Verif.Props.BNProps
/-!
# From a BIF file to probabilities (C62), and the pickle cache of `from_bif_file` (C63)
-/
namespace Mbtk.Bif
open Spec Mbtk.BN.Spec

/-- The network that a document declares, as textbooks would write it down: the variables in the
order of the document, with the values, the parents and the table given for them.
(Specification.) -/
def Spec.declaredNodes (val : String → ℚ) (doc : List Block) : List (BN.Node String String) :=
  (varBlocks doc).filterMap (fun b => (distOf val doc b.1).map (fun p =>
    { name := b.1, values := b.2.1, parents := p.parents, probabilities := p.table }))

/-- **C62 with C36.**  For an unambiguous document whose declared network is well formed, the
network that is read can be finalized and its joint probabilities are the products of the table
entries of the document. -/
theorem bif_joint_probabilities (intOf : String → Int) (val : String → ℚ) (doc : List Block)
    (hd : AllDeclared doc) (hu : Unambiguous doc) (hw : WellFormed (declaredNodes val doc))
    (h2 : 2 ≤ (declaredNodes val doc).length) :
    ∃ R net pmf, chain intOf val (docT doc) = .ok (netObj R) ∧ R.bnNodes = declaredNodes val doc ∧
      BN.finalize { nodes := R.bnNodes } = .ok net ∧ BN.createJointPmf net = .ok pmf ∧
      ∀ a, Assignment (declaredNodes val doc) a → ∀ args,
        Stats.leavesAll args = indices (declaredNodes val doc) a →
        pmf.p args = jointProb (declaredNodes val doc) a := by
  obtain ⟨R, hR, hnodes, _⟩ := bif_read_unambiguous intOf val doc hd hu
  have hb : R.bnNodes = declaredNodes val doc := by
    unfold ReadNet.bnNodes declaredNodes
    rw [hnodes, List.filterMap_map]
    rfl
  obtain ⟨net, hf, _⟩ := BN.finalize_ok hw
  obtain ⟨pmf, hp, hval⟩ := BN.joint_pmf_p _ hw net hf h2
  exact ⟨R, net, pmf, hR, hb, by rw [hb]; exact hf, hp, hval⟩

/-- The example document: P(rain = y, wet = no) = 3/10 · 1/10. -/
example : WellFormed (declaredNodes exVal exDoc) ∧ (declaredNodes exVal exDoc).length = 2 ∧
    jointProb (declaredNodes exVal exDoc) (fun v => if v = "rain" then "y" else "no") = 3/100 := by
  refine ⟨?_, by decide +kernel, by decide +kernel⟩
  exact BN.wellFormed_of_check (l := ["rain", "wet"]) (by decide +kernel) (by decide +kernel)
    (by decide +kernel) (by decide +kernel) (by decide +kernel)

/-! ## The cache file -/

section Cache
variable {Text Net : Type}

/-- The cache file: complete, or cut short (`open('wb')` empties the file before `dump` fills it).
BayesianNetwork.py 753-774. -/
inductive CacheFile (Net : Type) where
  | complete (n : Net)
  | part
  deriving DecidableEq, Repr

/-- The files: the BIF file and the pickle beside it. BayesianNetwork.py 753-774. -/
structure Files (Text Net : Type) where
  source : Option Text
  cache : Option (CacheFile Net)
  deriving DecidableEq, Repr

/-- `parse_bif_file(sourcepath)`: BayesianNetwork.py 777-785.  What the parser and the transformers
make of the text is the arbitrary function `parse` (for documents it is `chain` of the tree). -/
def parseFile (parse : Text → Except Err Net) (f : Files Text Net) : Except Err Net :=
  match f.source with
  | none => .error (.custom "FileNotFoundError")
  | some t => parse t

/-- `pickle.load(f)` BayesianNetwork.py 753-774. -/
def unpickle : CacheFile Net → Except Err Net
  | .complete n => .ok n
  | .part => .error (.custom "EOFError")

/-- `read_bif_file(sourcepath, use_cache)`: BayesianNetwork.py 753-773, as the sequence of states of
the files that it goes through, ending with the result. -/
def readBif (parse : Text → Except Err Net) (useCache : Bool) (f : Files Text Net) :
    List (Files Text Net) × Except Err Net :=
  match useCache, f.cache with
  | true, some c => ([], unpickle c)
  | _, _ => match parseFile parse f with
    | .error e => ([], .error e)
    | .ok n => ([⟨f.source, some .part⟩, ⟨f.source, some (.complete n)⟩], .ok n)

/-- The files when the call ends. BayesianNetwork.py 753-774. -/
def readBifFiles (parse : Text → Except Err Net) (useCache : Bool) (f : Files Text Net) : Files Text Net :=
  (readBif parse useCache f).1.getLast?.getD f

/-- What can happen to the files.
A call is BayesianNetwork.py 753-774; the others are what users and the operating system do. -/
inductive FileEvent (Text : Type) where
  /-- a call that runs to its end -/
  | read (useCache : Bool)
  /-- a call during which the process dies after `k` changes of the files -/
  | crash (useCache : Bool) (k : Nat)
  /-- the BIF file is written or replaced -/
  | edit (t : Text)
  /-- the cache file is removed -/
  | removeCache

/-- The files after an event. BayesianNetwork.py 753-774. -/
def FileEvent.after (parse : Text → Except Err Net) (f : Files Text Net) : FileEvent Text → Files Text Net
  | .read u => readBifFiles parse u f
  | .crash u k => ((f :: (readBif parse u f).1)[k]?).getD f
  | .edit t => { f with source := some t }
  | .removeCache => { f with cache := none }

/-- The files after a history. BayesianNetwork.py 753-774, several calls. -/
def filesAfter (parse : Text → Except Err Net) (es : List (FileEvent Text)) (f : Files Text Net) :
    Files Text Net := es.foldl (fun f e => e.after parse f) f

/-- The texts that the BIF file had during a history. (Specification.) -/
def textsOf (f : Option Text) : List (FileEvent Text) → List Text
  | [] => f.toList
  | .edit t :: es => f.toList ++ textsOf (some t) es
  | _ :: es => textsOf f es

/-- Without the cache the result is always the network of the present file, whatever happened
before. -/
theorem bif_uncached_is_current (parse : Text → Except Err Net) (f : Files Text Net) :
    (readBif parse false f).2 = parseFile parse f := by
  unfold readBif
  cases h : parseFile parse f <;> simp

theorem after_bif (parse : Text → Except Err Net) (f : Files Text Net) (e : FileEvent Text) :
    (e.after parse f).source = match e with | .edit t => some t | _ => f.source := by
  have key : ∀ u, ∀ g ∈ (readBif parse u f).1, g.source = f.source := by
    intro u g hg
    unfold readBif at hg
    split at hg
    · cases hg
    · split at hg
      · cases hg
      · simp only [List.mem_cons, List.not_mem_nil, or_false] at hg
        rcases hg with rfl | rfl <;> rfl
  cases e with
  | read u =>
    simp only [FileEvent.after, readBifFiles]
    cases h : (readBif parse u f).1.getLast? with
    | none => rfl
    | some g => exact key u g (List.mem_of_getLast? h)
  | crash u k =>
    simp only [FileEvent.after]
    cases h : (f :: (readBif parse u f).1)[k]? with
    | none => rfl
    | some g =>
      rcases List.mem_cons.1 (List.mem_of_getElem? h) with rfl | hg
      · rfl
      · exact key u g hg
  | edit t => rfl
  | removeCache => rfl

theorem after_cache (parse : Text → Except Err Net) (f : Files Text Net) (e : FileEvent Text) (n : Net)
    (h : (e.after parse f).cache = some (.complete n)) :
    f.cache = some (.complete n) ∨ parseFile parse f = .ok n := by
  have key : ∀ u, ∀ g ∈ (readBif parse u f).1, g.cache = some (.complete n) → parseFile parse f = .ok n := by
    intro u g hg hn
    unfold readBif at hg
    split at hg
    · cases hg
    · cases hp : parseFile parse f with
      | error e => rw [hp] at hg; cases hg
      | ok m =>
        rw [hp] at hg
        simp only [List.mem_cons, List.not_mem_nil, or_false] at hg
        rcases hg with rfl | rfl
        · cases hn
        · cases hn; rfl
  cases e with
  | read u =>
    simp only [FileEvent.after, readBifFiles] at h
    cases hl : (readBif parse u f).1.getLast? with
    | none => rw [hl] at h; exact .inl h
    | some g => rw [hl] at h; exact .inr (key u g (List.mem_of_getLast? hl) h)
  | crash u k =>
    simp only [FileEvent.after] at h
    cases hl : (f :: (readBif parse u f).1)[k]? with
    | none => rw [hl] at h; exact .inl h
    | some g =>
      rw [hl] at h
      rcases List.mem_cons.1 (List.mem_of_getElem? hl) with rfl | hg
      · exact .inl h
      · exact .inr (key u g hg h)
  | edit t => exact .inl h
  | removeCache => cases h

theorem parseFile_mem {parse : Text → Except Err Net} {f : Files Text Net} {n : Net}
    (h : parseFile parse f = .ok n) : ∃ t, f.source = some t ∧ parse t = .ok n := by
  unfold parseFile at h
  cases hb : f.source with
  | none => rw [hb] at h; cases h
  | some t => rw [hb] at h; exact ⟨t, rfl, h⟩

theorem textsOf_head (o : Option Text) (t : Text) (ho : o = some t) (es : List (FileEvent Text)) :
    t ∈ textsOf o es := by
  subst ho
  induction es with
  | nil => simp [textsOf]
  | cons e es ih => cases e <;> simp [textsOf, ih]

theorem textsOf_tail {o o' : Option Text} {e : FileEvent Text} {es : List (FileEvent Text)}
    (ho : o' = match e with | .edit t => some t | _ => o) {t : Text} (h : t ∈ textsOf o' es) :
    t ∈ textsOf o (e :: es) := by
  subst ho
  cases e <;> simp_all [textsOf]

/-- **C63.**  Whatever happened to the files before (complete reads, reads during which the process
died, edits, removals of the cache), a network that a read returns is the network of a text that the
BIF file had at some time: never a mixture and never anything else. -/
theorem bif_cache_genuine (parse : Text → Except Err Net) (es : List (FileEvent Text))
    (t0 : Option Text) (u : Bool) {n : Net}
    (h : (readBif parse u (filesAfter parse es ⟨t0, none⟩)).2 = .ok n) :
    ∃ t ∈ textsOf t0 es, parse t = .ok n := by
  have inv : ∀ (es : List (FileEvent Text)) (f : Files Text Net) (n : Net),
      ((filesAfter parse es f).cache = some (.complete n) →
        f.cache = some (.complete n) ∨ ∃ t ∈ textsOf f.source es, parse t = .ok n) ∧
      (parseFile parse (filesAfter parse es f) = .ok n → ∃ t ∈ textsOf f.source es, parse t = .ok n) := by
    intro es
    induction es with
    | nil =>
      intro f n
      refine ⟨fun h => .inl h, fun h => ?_⟩
      obtain ⟨t, h1, h2⟩ := parseFile_mem h
      exact ⟨t, textsOf_head _ _ h1 _, h2⟩
    | cons e es ih =>
      intro f n
      obtain ⟨i1, i2⟩ := ih (e.after parse f) n
      refine ⟨fun h => ?_, fun h => ?_⟩
      · rcases i1 h with h1 | ⟨t, ht, hp⟩
        · rcases after_cache parse f e n h1 with h2 | h2
          · exact .inl h2
          · obtain ⟨t, h3, h4⟩ := parseFile_mem h2
            exact .inr ⟨t, textsOf_head _ _ h3 _, h4⟩
        · exact .inr ⟨t, textsOf_tail (after_bif parse f e) ht, hp⟩
      · obtain ⟨t, ht, hp⟩ := i2 h
        exact ⟨t, textsOf_tail (after_bif parse f e) ht, hp⟩
  obtain ⟨i1, i2⟩ := inv es ⟨t0, none⟩ n
  cases u with
  | false =>
    rw [bif_uncached_is_current] at h
    exact i2 h
  | true =>
    cases hc : (filesAfter parse es ⟨t0, none⟩).cache with
    | none =>
      unfold readBif at h
      rw [hc] at h
      simp only [] at h
      cases hp : parseFile parse (filesAfter parse es ⟨t0, none⟩) with
      | error e => rw [hp] at h; cases h
      | ok m => rw [hp] at h; cases h; exact i2 hp
    | some c =>
      unfold readBif at h
      rw [hc] at h
      cases c with
      | part => cases h
      | complete m =>
        cases h
        rcases i1 hc with h1 | h1
        · cases h1
        · exact h1

/-- Nothing edits the BIF file. (Specification.) -/
def NoEdit (es : List (FileEvent Text)) : Prop := ∀ t, FileEvent.edit t ∉ es

theorem textsOf_noEdit {es : List (FileEvent Text)} (h : NoEdit es) (o : Option Text) :
    textsOf o es = o.toList := by
  induction es with
  | nil => rfl
  | cons e es ih =>
    have h' : NoEdit es := fun t ht => h t (by simp [ht])
    cases e with
    | edit t => exact absurd (by simp) (h t)
    | _ => exact ih h'

/-- As long as the BIF file is not edited, every read that returns gives the network of the file,
with or without cache, whatever reads were completed or interrupted before. -/
theorem bif_cache_transparent (parse : Text → Except Err Net) (es : List (FileEvent Text))
    (hn : NoEdit es) (t : Text) (u : Bool) {n : Net}
    (h : (readBif parse u (filesAfter parse es ⟨some t, none⟩)).2 = .ok n) : parse t = .ok n := by
  obtain ⟨t', ht, hp⟩ := bif_cache_genuine parse es (some t) u h
  rw [textsOf_noEdit hn] at ht
  simp at ht
  rw [← ht]; exact hp

/-- A completed read without cache repairs the cache: the next cached read gives the same network. -/
theorem bif_uncached_refreshes (parse : Text → Except Err Net) (f : Files Text Net) {n : Net}
    (h : parseFile parse f = .ok n) : (readBif parse true (readBifFiles parse false f)).2 = .ok n := by
  have : readBifFiles parse false f = ⟨f.source, some (.complete n)⟩ := by
    unfold readBifFiles readBif
    rw [h]
    rfl
  rw [this]
  rfl

/-- **Finding.**  The cache is never compared with the file: after the file was read once and then
replaced, cached reads go on returning the old network. -/
theorem bif_cache_stale (parse : Text → Except Err Net) (t t' : Text) (n : Net) (h : parse t = .ok n)
    (u : Bool) :
    (readBif parse true (filesAfter parse [.read u, .edit t'] ⟨some t, none⟩)).2 = .ok n := by
  have hf : readBifFiles parse u ⟨some t, none⟩ = ⟨some t, some (.complete n)⟩ := by
    unfold readBifFiles readBif parseFile
    cases u <;> simp [h]
  unfold filesAfter
  simp only [List.foldl_cons, List.foldl_nil, FileEvent.after]
  rw [hf]
  rfl

/-- **Finding.**  If the process dies while the cache is written, every later cached read raises,
until an uncached read completes or the cache file is removed. -/
theorem bif_crash_blocks_cache (parse : Text → Except Err Net) (t : Text) (n : Net) (h : parse t = .ok n)
    (u : Bool) (later : List (FileEvent Text))
    (hl : ∀ e ∈ later, e = .read true ∨ (∃ k, e = .crash true k) ∨ ∃ t, e = .edit t) :
    (readBif parse true (filesAfter parse (.crash u 1 :: later) ⟨some t, none⟩)).2 =
      .error (.custom "EOFError") := by
  have hf : (FileEvent.crash u 1).after parse ⟨some t, none⟩ = (⟨some t, some .part⟩ : Files Text Net) := by
    simp only [FileEvent.after, readBif, parseFile]
    cases u <;> simp [h]
  have hstay : ∀ (later : List (FileEvent Text)) (f : Files Text Net), f.cache = some .part →
      (∀ e ∈ later, e = .read true ∨ (∃ k, e = .crash true k) ∨ ∃ t, e = .edit t) →
      (filesAfter parse later f).cache = some .part := by
    intro later
    induction later with
    | nil => intro f hf _; exact hf
    | cons e es ih =>
      intro f hf he
      refine ih (e.after parse f) ?_ (fun e h => he e (by simp [h]))
      have hr : readBif parse true f = ([], .error (.custom "EOFError")) := by
        unfold readBif; rw [hf]; rfl
      rcases he e (by simp) with rfl | ⟨k, rfl⟩ | ⟨t, rfl⟩
      · simp only [FileEvent.after, readBifFiles, hr]; exact hf
      · simp only [FileEvent.after, hr]
        cases k <;> exact hf
      · exact hf
  have := hstay later ((FileEvent.crash u 1).after parse ⟨some t, none⟩) (by rw [hf]) hl
  change (readBif parse true (filesAfter parse later ((FileEvent.crash u 1).after parse ⟨some t, none⟩))).2 = _
  unfold readBif
  rw [this]
  rfl

/-- A concrete history: the texts are numbers, the network of a text is its double, 0 is malformed. -/
example : let parse := fun (t : Nat) => if t = 0 then .error .valueError else .ok (2 * t)
    (readBif parse true (filesAfter parse [.crash true 1, .read true, .edit 7, .read false, .read true,
      .crash false 2, .edit 0, .read false] ⟨some 3, none⟩)).2.toOption = some 14 := by decide

end Cache
end Mbtk.Bif
