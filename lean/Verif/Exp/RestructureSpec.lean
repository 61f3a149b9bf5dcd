import Verif.Exp.Restructure
import Mathlib.Tactic.Tauto
/-!
# What restructuring does, seen from the repository (specification of C94, and the steps of the script)

`Disk`: what is where, relative to the repository folder.
-/
namespace Mbtk.Exp.Restructure
open Mbtk Mbtk.Dataset Mbtk.Exp

/-- What is at a path below the repository. (Specification.) -/
abbrev Disk := Path → Option Entry

/-- The folder of a subexperiment in the old layout. (Specification.) -/
def sub (S : Str) : Str := subPrefix ++ S

/-- Not a file: a folder, or nothing. (Specification.) -/
def NotFile (x : Option Entry) : Prop := ∀ c, x ≠ some (.file c)

/-- Where a path of the old layout belongs in the new one. (Specification.) -/
inductive Moves : Path → Path → Prop where
  | data (S D : Str) (r : Path) : S ≠ [] → D ∈ dataFolders →
      Moves (sub S :: D :: r) (expName :: D :: S :: r)
  | lock (S n : Str) : S ≠ [] → lockedPrefix <+: n →
      Moves [sub S, n] [expName, locksName, S, n]

/-- There is a folder of a subexperiment. (Specification.) -/
def AnySub (h : Disk) : Prop := ∃ S, S ≠ [] ∧ h [sub S] = some .dir

/-- The result of restructuring `h`: every data folder and every lock file of a subexperiment is at its new
place and no longer at the old one, the folders for them exist, and everything else is as before.
(Specification.) -/
structure Restructured (h h' : Disk) : Prop where
  data : ∀ S D r, S ≠ [] → D ∈ dataFolders → h [sub S, D] ≠ none →
    h' (expName :: D :: S :: r) = h (sub S :: D :: r)
  dataGone : ∀ S D r, S ≠ [] → D ∈ dataFolders → h' (sub S :: D :: r) = none
  lock : ∀ S n c, S ≠ [] → lockedPrefix <+: n → h [sub S, n] = some (.file c) →
    h' [expName, locksName, S, n] = some (.file c)
  lockGone : ∀ S n c, S ≠ [] → lockedPrefix <+: n → h [sub S, n] = some (.file c) →
    h' [sub S, n] = none
  lockDir : ∀ S n c, S ≠ [] → lockedPrefix <+: n → h [sub S, n] = some (.file c) →
    h' [expName, locksName, S] = some .dir
  root : h' [expName] = some .dir
  dataDir : ∀ D ∈ dataFolders, h' [expName, D] = some .dir
  locksDir : AnySub h → h' [expName, locksName] = some .dir
  rest : ∀ p, (∀ S D r, S ≠ [] → D ∈ dataFolders → p ≠ sub S :: D :: r ∧
      (h [sub S, D] ≠ none → p ≠ expName :: D :: S :: r)) →
    (∀ S n c, S ≠ [] → lockedPrefix <+: n → h [sub S, n] = some (.file c) →
      p ≠ [sub S, n] ∧ p ≠ [expName, locksName, S, n] ∧ p ≠ [expName, locksName, S]) →
    p ≠ [expName] → (∀ D ∈ dataFolders, p ≠ [expName, D]) →
    (AnySub h → p ≠ [expName, locksName]) → h' p = h p

/-- No file is lost: it is where it was, or at its new place; or it was itself at the new place of a file
that has been moved there and replaced it. (Specification.) -/
def NoLoss (h h' : Disk) : Prop := ∀ p c, h p = some (.file c) →
  h' p = some (.file c) ∨ (∃ q, Moves p q ∧ h' p = none ∧ h' q = some (.file c)) ∨
  (∃ p' c', Moves p' p ∧ h p' = some (.file c') ∧ h' p' = none ∧ h' p = some (.file c'))

/-- No file is invented. (Specification.) -/
def NothingNew (h h' : Disk) : Prop := ∀ p c, h' p = some (.file c) →
  h p = some (.file c) ∨ ∃ p', Moves p' p ∧ h p' = some (.file c)

/-- Everything is inside a folder. (Specification.) -/
def Tree (h : Disk) : Prop := ∀ p n, h (p ++ [n]) ≠ none → h p = some .dir

/-- Nothing is in the way at the new places: there is nothing, or an empty folder where a folder is to go,
or an old lock file where a lock file is to go, and no file where a folder is needed.
(Specification.) -/
structure Free (h : Disk) : Prop where
  data : ∀ S D, S ≠ [] → D ∈ dataFolders → h [sub S, D] ≠ none → h [expName, D, S] = none ∨
    (h [sub S, D] = some .dir ∧ h [expName, D, S] = some .dir ∧
      ∀ x, x ≠ [] → h (expName :: D :: S :: x) = none)
  lock : ∀ S n c, S ≠ [] → lockedPrefix <+: n → h [sub S, n] = some (.file c) →
    h [expName, locksName, S, n] ≠ some .dir ∧ NotFile (h [expName, locksName, S])
  root : NotFile (h [expName])
  dataDir : ∀ D ∈ dataFolders, NotFile (h [expName, D])
  locksDir : NotFile (h [expName, locksName])

/-! ## Steps -/

/-- `a` becomes `b`. (Models no code: a notion for statements and proofs.) -/
def moveD (h : Disk) (a b : Path) : Disk := fun p =>
  if b <+: p then h (a ++ p.drop b.length) else if a <+: p then none else h p

/-- The folder `q` is made if nothing is there. (Models no code: a notion for statements and proofs.) -/
def mkD (h : Disk) (q : Path) : Disk := fun p => if p = q ∧ h p = none then some .dir else h p

/-- `b` can be replaced by `a`. (Models no code: a notion for statements and proofs.) -/
def Replaceable (h : Disk) (a b : Path) : Prop :=
  h b = none ∨ (h a = some .dir ∧ h b = some .dir ∧ ∀ x, x ≠ [] → h (b ++ x) = none) ∨
  (∃ c c', h a = some (.file c) ∧ h b = some (.file c'))

/-- One operation of the script. (Models no code: a notion for statements and proofs.) -/
inductive Step : Disk → Disk → Prop where
  | mkRoot (h : Disk) : NotFile (h [expName]) → Step h (mkD h [expName])
  | mkData (h : Disk) (D : Str) : D ∈ dataFolders → h [expName] = some .dir → NotFile (h [expName, D]) →
      Step h (mkD h [expName, D])
  | mkLocks (h : Disk) : AnySub h → h [expName] = some .dir → NotFile (h [expName, locksName]) →
      Step h (mkD h [expName, locksName])
  | mkLockDir (h : Disk) (S n c : Str) : S ≠ [] → lockedPrefix <+: n → h [sub S, n] = some (.file c) →
      h [expName, locksName] = some .dir → NotFile (h [expName, locksName, S]) →
      Step h (mkD h [expName, locksName, S])
  | data (h : Disk) (S D : Str) : S ≠ [] → D ∈ dataFolders → h [sub S, D] ≠ none →
      h [expName, D] = some .dir → Replaceable h [sub S, D] [expName, D, S] →
      Step h (moveD h [sub S, D] [expName, D, S])
  | lock (h : Disk) (S n c : Str) : S ≠ [] → lockedPrefix <+: n → h [sub S, n] = some (.file c) →
      h [expName, locksName, S] = some .dir → h [expName, locksName, S, n] ≠ some .dir →
      Step h (moveD h [sub S, n] [expName, locksName, S, n])

theorem sub_ne (S : Str) : sub S ≠ expName := by
  intro h
  have := congrArg List.length h
  unfold sub subPrefix at this
  rw [List.length_append, List.length_append] at this
  have : ("_".toList : Str).length = 1 := by decide
  omega

theorem sub_ne' (S : Str) : expName ≠ sub S := fun h => sub_ne S h.symm

theorem sub_inj {S T : Str} : sub S = sub T ↔ S = T := by
  unfold sub
  exact List.append_cancel_left_eq ..  |> Iff.of_eq

theorem locks_not_data {D : Str} (h : D ∈ dataFolders) : D ≠ locksName := by
  revert D
  decide

theorem data_not_lock {D : Str} (h : D ∈ dataFolders) : ¬ lockedPrefix <+: D := by
  revert D
  decide

theorem Tree.below {h : Disk} (ht : Tree h) {p : Path} : ∀ {r : Path}, r ≠ [] → h (p ++ r) ≠ none →
    h p = some .dir := by
  intro r
  induction r using List.reverseRecOn with
  | nil => intro hr; exact absurd rfl hr
  | append_singleton r n ih =>
    intro _ hne
    rw [← List.append_assoc] at hne
    have h1 := ht _ _ hne
    by_cases hr : r = []
    · subst hr
      simpa using h1
    · exact ih hr (by rw [h1]; simp)

theorem Tree.none_below {h : Disk} (ht : Tree h) {p r : Path} (hp : h p = none) : h (p ++ r) = none := by
  by_cases hr : r = []
  · subst hr; simpa using hp
  · by_contra hne
    rw [ht.below hr hne] at hp
    cases hp

/-! What the steps keep. -/

theorem mkD_eq_of_ne {h : Disk} {q p : Path} (hp : p ≠ q) : mkD h q p = h p := by
  unfold mkD
  rw [if_neg (fun e => hp e.1)]

theorem mkD_some {h : Disk} {q p : Path} (hp : h p ≠ none) : mkD h q p = h p := by
  unfold mkD
  rw [if_neg (fun e => hp e.2)]

theorem mkD_self {h : Disk} {q : Path} (hq : NotFile (h q)) : mkD h q q = some .dir := by
  unfold mkD
  cases hv : h q with
  | none => simp
  | some e =>
    cases e with
    | dir => simp
    | file c => exact absurd hv (hq c)

theorem moveD_new (h : Disk) (a b r : Path) : moveD h a b (b ++ r) = h (a ++ r) := by
  unfold moveD
  rw [if_pos (List.prefix_append b r), List.drop_left]

theorem moveD_old {h : Disk} {a b p : Path} (hb : ¬ b <+: p) (ha : a <+: p) : moveD h a b p = none := by
  unfold moveD
  rw [if_neg hb, if_pos ha]

theorem moveD_other {h : Disk} {a b p : Path} (hb : ¬ b <+: p) (ha : ¬ a <+: p) :
    moveD h a b p = h p := by
  unfold moveD
  rw [if_neg hb, if_neg ha]

theorem Step.old {h h' : Disk} (st : Step h h') (S : Str) (x : Path) :
    h' (sub S :: x) = h (sub S :: x) ∨ h' (sub S :: x) = none := by
  have hm : ∀ q : Path, mkD h (expName :: q) (sub S :: x) = h (sub S :: x) := fun q =>
    mkD_eq_of_ne (by simp [sub_ne])
  have hmv : ∀ a q : Path, moveD h a (expName :: q) (sub S :: x) = h (sub S :: x) ∨
      moveD h a (expName :: q) (sub S :: x) = none := by
    intro a q
    have hb : ¬ (expName :: q) <+: (sub S :: x) := by simp [List.cons_prefix_cons, sub_ne']
    by_cases ha : a <+: (sub S :: x)
    · exact Or.inr (moveD_old hb ha)
    · exact Or.inl (moveD_other hb ha)
  cases st with
  | mkRoot => exact Or.inl (hm _)
  | mkData => exact Or.inl (hm _)
  | mkLocks => exact Or.inl (hm _)
  | mkLockDir => exact Or.inl (hm _)
  | data => exact hmv _ _
  | lock => exact hmv _ _

/-- A name at the top other than the new folder is not touched. -/
theorem Step.top {h h' : Disk} (st : Step h h') (n : Str) (hn : n ≠ expName) : h' [n] = h [n] := by
  have hm : ∀ q : Path, mkD h (expName :: q) [n] = h [n] := fun q => mkD_eq_of_ne (by simp [hn])
  have hmv : ∀ (x y : Str) (q : Path), moveD h [x, y] (expName :: q) [n] = h [n] := fun x y q =>
    moveD_other (by simp [List.cons_prefix_cons, hn.symm]) (by simp [List.cons_prefix_cons])
  cases st with
  | mkRoot => exact hm _
  | mkData => exact hm _
  | mkLocks => exact hm _
  | mkLockDir => exact hm _
  | data => exact hmv _ _ _
  | lock => exact hmv _ _ _

theorem Step.anySub {h h' : Disk} (st : Step h h') : AnySub h' ↔ AnySub h := by
  unfold AnySub
  simp only [st.top _ (sub_ne _)]

theorem Step.repo {h h' : Disk} (st : Step h h') : h' [] = h [] := by
  cases st with
  | mkRoot => exact mkD_eq_of_ne (by simp)
  | mkData => exact mkD_eq_of_ne (by simp)
  | mkLocks => exact mkD_eq_of_ne (by simp)
  | mkLockDir => exact mkD_eq_of_ne (by simp)
  | data => exact moveD_other (by simp) (by simp)
  | lock => exact moveD_other (by simp) (by simp)

/-- The new folder and the folders in it stay. -/
theorem Step.dirs {h h' : Disk} (st : Step h h') {p : Path} (hp : p = [expName] ∨ ∃ D, p = [expName, D])
    (hd : h p = some .dir) : h' p = some .dir := by
  have hm : ∀ q : Path, mkD h q p = some .dir := fun q => by rw [mkD_some (by rw [hd]; simp), hd]
  have hmv : ∀ (S x y z : Str) (q : Path), moveD h [sub S, x] (expName :: y :: z :: q) p = some .dir := by
    intro S x y z q
    rw [moveD_other, hd]
    · rcases hp with rfl | ⟨D, rfl⟩ <;> simp [List.cons_prefix_cons]
    · rcases hp with rfl | ⟨D, rfl⟩ <;> simp [List.cons_prefix_cons, sub_ne]
  cases st with
  | mkRoot => exact hm _
  | mkData => exact hm _
  | mkLocks => exact hm _
  | mkLockDir => exact hm _
  | data => exact hmv _ _ _ _ _
  | lock => exact hmv _ _ _ _ _

theorem tree_mkD {h : Disk} (ht : Tree h) {q : Path} {m : Str} (hq : h q = some .dir) :
    Tree (mkD h (q ++ [m])) := by
  intro p n hne
  by_cases hpn : p ++ [n] = q ++ [m]
  · obtain ⟨rfl, _⟩ := List.append_inj' hpn rfl
    rw [mkD_some (by rw [hq]; simp), hq]
  · rw [mkD_eq_of_ne hpn] at hne
    have := ht p n hne
    rw [mkD_some (by rw [this]; simp), this]

theorem tree_moveD {h : Disk} (ht : Tree h) {a b : Path} {m : Str} (hab : ¬ a <+: b ++ [m])
    (hb : h b = some .dir) : Tree (moveD h a (b ++ [m])) := by
  intro p n hne
  by_cases h1 : b ++ [m] <+: p ++ [n]
  · obtain ⟨r, hr⟩ := h1
    rcases List.eq_nil_or_concat r with rfl | ⟨r', y, rfl⟩
    · rw [List.append_nil] at hr
      obtain ⟨rfl, _⟩ := List.append_inj' hr rfl
      rw [moveD_other, hb]
      · intro h2
        have := h2.length_le
        rw [List.length_append, List.length_singleton] at this
        omega
      · intro h2
        exact hab (h2.trans (List.prefix_append _ _))
    · rw [List.concat_eq_append, ← List.append_assoc] at hr
      obtain ⟨h2, _⟩ := List.append_inj' hr rfl
      rw [← hr, List.append_assoc, moveD_new, ← List.append_assoc] at hne
      rw [← h2, moveD_new]
      exact ht _ _ hne
  · by_cases h2 : a <+: p ++ [n]
    · rw [moveD_old h1 h2] at hne
      exact absurd rfl hne
    · rw [moveD_other h1 h2] at hne
      rw [moveD_other, ht p n hne]
      · exact fun h3 => h1 (h3.trans (List.prefix_append _ _))
      · exact fun h3 => h2 (h3.trans (List.prefix_append _ _))

theorem Step.tree {h h' : Disk} (st : Step h h') (hr : h [] = some .dir) (ht : Tree h) : Tree h' := by
  cases st with
  | mkRoot => exact tree_mkD (q := []) ht hr
  | mkData D _ h1 => exact tree_mkD (q := [expName]) ht h1
  | mkLocks _ h1 => exact tree_mkD (q := [expName]) ht h1
  | mkLockDir S n c _ _ _ h1 => exact tree_mkD (q := [expName, locksName]) ht h1
  | data S D _ _ _ h1 =>
    exact tree_moveD (b := [expName, D]) (m := S) ht (by simp [List.cons_prefix_cons, sub_ne]) h1
  | lock S n c _ _ _ h1 =>
    exact tree_moveD (b := [expName, locksName, S]) (m := n) ht (by simp [List.cons_prefix_cons, sub_ne]) h1

/-! ## No file is lost -/

theorem Moves.from_sub {p q : Path} (m : Moves p q) : ∃ S x, p = sub S :: x := by
  cases m with
  | data S D r => exact ⟨S, _, rfl⟩
  | lock S n => exact ⟨S, _, rfl⟩

theorem Moves.to_root {p q : Path} (m : Moves p q) : ∃ x, q = expName :: x := by
  cases m with
  | data S D r => exact ⟨_, rfl⟩
  | lock S n => exact ⟨_, rfl⟩

/-- A step either moves something, as the specification says, or makes a folder.
(Models no code: a notion for statements and proofs.) -/
inductive StepKind (h h' : Disk) : Prop where
  | mk (q : Path) : q ≠ [] → (∃ x, q = expName :: x) → h' = mkD h q → StepKind h h'
  | move (a b : Path) : h' = moveD h a b → h a ≠ none → Replaceable h a b →
      (∀ r, h (a ++ r) ≠ none → Moves (a ++ r) (b ++ r)) →
      (∀ p r, Moves p (b ++ r) → p = a ++ r) → (∃ S x, a = sub S :: x) → (∃ x, b = expName :: x) →
      StepKind h h'

theorem Step.kind {h h' : Disk} (st : Step h h') (ht : Tree h) : StepKind h h' := by
  cases st with
  | mkRoot => exact .mk _ (by simp) ⟨_, rfl⟩ rfl
  | mkData => exact .mk _ (by simp) ⟨_, rfl⟩ rfl
  | mkLocks => exact .mk _ (by simp) ⟨_, rfl⟩ rfl
  | mkLockDir => exact .mk _ (by simp) ⟨_, rfl⟩ rfl
  | data S D hS hD h1 h2 h3 =>
    refine .move [sub S, D] [expName, D, S] rfl h1 h3 (fun r _ => .data S D r hS hD) ?_ ⟨_, _, rfl⟩
      ⟨_, rfl⟩
    intro p r m
    generalize hq : [expName, D, S] ++ r = q at m
    cases m with
    | data S' D' r' =>
      simp only [List.cons_append, List.nil_append, List.cons.injEq, true_and] at hq
      obtain ⟨rfl, rfl, rfl⟩ := hq
      rfl
    | lock S' n =>
      simp only [List.cons_append, List.nil_append, List.cons.injEq, true_and] at hq
      exact absurd hq.1 (locks_not_data hD)
  | lock S n c hS hn h1 h2 h3 =>
    have hfile : ∀ r, h ([sub S, n] ++ r) ≠ none → r = [] := by
      intro r hr
      by_contra hne
      have := ht.below hne hr
      rw [h1] at this
      cases this
    refine .move [sub S, n] [expName, locksName, S, n] rfl (by rw [h1]; simp) ?_ ?_ ?_ ⟨_, _, rfl⟩
      ⟨_, rfl⟩
    · cases hv : h [expName, locksName, S, n] with
      | none => exact Or.inl hv
      | some e =>
        cases e with
        | dir => exact absurd hv h3
        | file c' => exact Or.inr (Or.inr ⟨c, c', h1, hv⟩)
    · intro r hr
      rw [hfile r hr]
      exact .lock S n hS hn
    · intro p r m
      generalize hq : [expName, locksName, S, n] ++ r = q at m
      cases m with
      | data S' D' r' _ hD' =>
        simp only [List.cons_append, List.nil_append, List.cons.injEq, true_and] at hq
        exact absurd hq.1.symm (locks_not_data hD')
      | lock S' n' =>
        simp only [List.cons_append, List.nil_append, List.cons.injEq, true_and] at hq
        obtain ⟨rfl, rfl, rfl⟩ := hq
        rfl

/-- What was at a replaced place. -/
theorem replaced {h : Disk} (ht : Tree h) {a b r : Path} (hr : Replaceable h a b) {c : Str}
    (hf : h (b ++ r) = some (.file c)) : r = [] ∧ ∃ c', h a = some (.file c') := by
  rcases hr with h1 | ⟨_, h1, h2⟩ | ⟨c', c'', h1, h2⟩
  · rw [ht.none_below h1] at hf; cases hf
  · by_cases hr : r = []
    · subst hr
      rw [List.append_nil, h1] at hf; cases hf
    · rw [h2 r hr] at hf; cases hf
  · refine ⟨?_, c', h1⟩
    by_contra hne
    have := ht.below hne (p := b) (by rw [hf]; simp)
    rw [h2] at this
    cases this

/-- What has been moved stays at its new place. -/
theorem Step.keeps_moved {h h' : Disk} (st : Step h h') (ht : Tree h) {p q : Path} (m : Moves p q)
    (hp : h p = none) {c : Str} (hq : h q = some (.file c)) :
    h' p = none ∧ h' q = some (.file c) := by
  constructor
  · obtain ⟨S, x, rfl⟩ := m.from_sub
    rcases st.old S x with h1 | h1
    · rw [h1, hp]
    · exact h1
  · cases st.kind ht with
    | mk q' _ _ e => rw [e, mkD_some (by rw [hq]; simp), hq]
    | move a b e ha hr hm hinj hs hb =>
      rw [e]
      by_cases hbq : b <+: q
      · obtain ⟨r, rfl⟩ := hbq
        have := hinj p r m
        obtain ⟨rfl, c', hc⟩ := replaced ht hr hq
        rw [this, List.append_nil] at hp
        exact absurd hp ha
      · rw [moveD_other hbq, hq]
        obtain ⟨S, x, rfl⟩ := hs
        obtain ⟨y, rfl⟩ := m.to_root
        simp [List.cons_prefix_cons, sub_ne]

/-- What is still in the folder of a subexperiment was there at the beginning.
(Models no code: a notion for statements and proofs.) -/
def OldOnly (h0 h : Disk) : Prop := ∀ S x, h (sub S :: x) = h0 (sub S :: x) ∨ h (sub S :: x) = none

theorem Step.oldOnly {h0 h h' : Disk} (st : Step h h') (ho : OldOnly h0 h) : OldOnly h0 h' := by
  intro S x
  rcases st.old S x with h1 | h1
  · rw [h1]; exact ho S x
  · exact Or.inr h1

theorem Step.noLoss {h0 h h' : Disk} (st : Step h h') (ht : Tree h) (ho : OldOnly h0 h)
    (hl : NoLoss h0 h) : NoLoss h0 h' := by
  intro p c hp
  rcases hl p c hp with h1 | ⟨q, m, h1, h2⟩ | ⟨p', c', m, h1, h2, h3⟩
  · cases st.kind ht with
    | mk q _ _ e => left; rw [e, mkD_some (by rw [h1]; simp), h1]
    | move a b e ha hr hm hinj hs hb =>
      rw [e]
      obtain ⟨S, x, rfl⟩ := hs
      obtain ⟨y, rfl⟩ := hb
      by_cases hbp : (expName :: y) <+: p
      · obtain ⟨r, rfl⟩ := hbp
        obtain ⟨rfl, c', hc⟩ := replaced ht hr h1
        right; right
        refine ⟨sub S :: x, c', ?_, ?_, ?_, ?_⟩
        · have := hm [] (by rw [List.append_nil, hc]; simp)
          rwa [List.append_nil] at this
        · rcases ho S x with h2 | h2
          · rw [← h2, hc]
          · exact absurd h2 ha
        · exact moveD_old (by simp [List.cons_prefix_cons, sub_ne']) (List.prefix_refl _)
        · rw [moveD_new, List.append_nil, hc]
      · by_cases hap : (sub S :: x) <+: p
        · obtain ⟨r, rfl⟩ := hap
          right; left
          refine ⟨(expName :: y) ++ r, hm r (by rw [h1]; simp), moveD_old hbp (List.prefix_append _ _), ?_⟩
          rw [moveD_new, h1]
        · left
          rw [moveD_other hbp hap, h1]
  · right; left
    exact ⟨q, m, st.keeps_moved ht m h1 h2⟩
  · right; right
    exact ⟨p', c', m, h1, st.keeps_moved ht m h2 h3⟩

theorem Step.nothingNew {h0 h h' : Disk} (st : Step h h') (ht : Tree h) (ho : OldOnly h0 h)
    (hl : NothingNew h0 h) : NothingNew h0 h' := by
  intro p c hp
  cases st.kind ht with
  | mk q _ _ e =>
    rw [e] at hp
    unfold mkD at hp
    split at hp
    · cases hp
    · exact hl p c hp
  | move a b e ha hr hm hinj hs hb =>
    rw [e] at hp
    obtain ⟨S, x, rfl⟩ := hs
    by_cases hbp : b <+: p
    · obtain ⟨r, rfl⟩ := hbp
      rw [moveD_new] at hp
      right
      refine ⟨_, hm r (by rw [hp]; simp), ?_⟩
      rcases ho S (x ++ r) with h2 | h2
      · rw [List.cons_append, ← h2, ← List.cons_append, hp]
      · rw [← List.cons_append, hp] at h2; cases h2
    · by_cases hap : (sub S :: x) <+: p
      · rw [moveD_old hbp hap] at hp; cases hp
      · rw [moveD_other hbp hap] at hp
        exact hl p c hp

/-! ## Nothing gets in the way -/

theorem notFile_mkD {h : Disk} {q p : Path} (hp : NotFile (h p)) : NotFile (mkD h q p) := by
  unfold mkD
  split
  · intro c hc; cases hc
  · exact hp

theorem Step.free {h h' : Disk} (st : Step h h') (hf : Free h) : Free h' := by
  have old : ∀ S x e, h' (sub S :: x) = some e → h (sub S :: x) = some e := by
    intro S x e he
    rcases st.old S x with h1 | h1
    · rw [← h1, he]
    · rw [h1] at he; cases he
  refine ⟨?_, ?_, ?_, ?_, ?_⟩
  · intro S D hS hD hne
    obtain ⟨e, he⟩ := Option.ne_none_iff_exists'.1 hne
    have he' := old S [D] e he
    have hdest : ∀ x, h' (expName :: D :: S :: x) = h (expName :: D :: S :: x) := by
      intro x
      cases st with
      | mkRoot => exact mkD_eq_of_ne (by simp)
      | mkData => exact mkD_eq_of_ne (by simp)
      | mkLocks => exact mkD_eq_of_ne (by simp)
      | mkLockDir => exact mkD_eq_of_ne (by simp [locks_not_data hD])
      | data S' D' hS' hD' =>
        refine moveD_other ?_ (by simp [List.cons_prefix_cons, sub_ne])
        intro hp
        simp only [List.cons_prefix_cons, true_and, List.nil_prefix, and_true] at hp
        obtain ⟨rfl, rfl⟩ := hp
        rw [moveD_old (by simp [List.cons_prefix_cons, sub_ne']) (List.prefix_refl _)] at he
        cases he
      | lock S' n' =>
        exact moveD_other (by simp [List.cons_prefix_cons, (locks_not_data hD).symm])
          (by simp [List.cons_prefix_cons, sub_ne])
    simp only [hdest, he, ← he']
    exact hf.data S D hS hD (by rw [he']; simp)
  · intro S n c hS hn hc
    obtain ⟨h1, h2⟩ := hf.lock S n c hS hn (old S [n] _ hc)
    cases st with
    | mkRoot => exact ⟨by rw [mkD_eq_of_ne (by simp)]; exact h1, notFile_mkD h2⟩
    | mkData => exact ⟨by rw [mkD_eq_of_ne (by simp)]; exact h1, notFile_mkD h2⟩
    | mkLocks => exact ⟨by rw [mkD_eq_of_ne (by simp)]; exact h1, notFile_mkD h2⟩
    | mkLockDir => exact ⟨by rw [mkD_eq_of_ne (by simp)]; exact h1, notFile_mkD h2⟩
    | data S' D' hS' hD' =>
      rw [moveD_other (by simp [List.cons_prefix_cons, locks_not_data hD'])
          (by simp [List.cons_prefix_cons, sub_ne]),
        moveD_other (by simp [List.cons_prefix_cons, locks_not_data hD'])
          (by simp [List.cons_prefix_cons, sub_ne])]
      exact ⟨h1, h2⟩
    | lock S' n' =>
      have hne : ¬ (S' = S ∧ n' = n) := by
        rintro ⟨rfl, rfl⟩
        rw [moveD_old (by simp [List.cons_prefix_cons, sub_ne']) (List.prefix_refl _)] at hc
        cases hc
      rw [moveD_other (by simpa [List.cons_prefix_cons] using hne)
          (by simp [List.cons_prefix_cons, sub_ne]),
        moveD_other (by simp [List.cons_prefix_cons])
          (by simp [List.cons_prefix_cons, sub_ne])]
      exact ⟨h1, h2⟩
  all_goals
    have short : ∀ p, (p = [expName] ∨ ∃ y, p = [expName, y]) → NotFile (h p) → NotFile (h' p) := by
      intro p hp hn
      have hmv : ∀ (S x y z : Str) (q : Path), NotFile (moveD h [sub S, x] (expName :: y :: z :: q) p) := by
        intro S x y z q
        rw [moveD_other]
        · exact hn
        · rcases hp with rfl | ⟨D, rfl⟩ <;> simp [List.cons_prefix_cons]
        · rcases hp with rfl | ⟨D, rfl⟩ <;> simp [List.cons_prefix_cons, sub_ne]
      cases st with
      | mkRoot => exact notFile_mkD hn
      | mkData => exact notFile_mkD hn
      | mkLocks => exact notFile_mkD hn
      | mkLockDir => exact notFile_mkD hn
      | data => exact hmv _ _ _ _ _
      | lock => exact hmv _ _ _ _ _
  · exact short _ (Or.inl rfl) hf.root
  · intro D hD
    exact short _ (Or.inr ⟨D, rfl⟩) (hf.dataDir D hD)
  · exact short _ (Or.inr ⟨_, rfl⟩) hf.locksDir

/-! ## The result does not depend on the steps -/

/-- The paths that the last clause of `Restructured` is about.
(Models no code: a notion for statements and proofs.) -/
structure Rest (h : Disk) (p : Path) : Prop where
  data : ∀ S D r, S ≠ [] → D ∈ dataFolders → p ≠ sub S :: D :: r ∧
      (h [sub S, D] ≠ none → p ≠ expName :: D :: S :: r)
  lock : ∀ S n c, S ≠ [] → lockedPrefix <+: n → h [sub S, n] = some (.file c) →
      p ≠ [sub S, n] ∧ p ≠ [expName, locksName, S, n] ∧ p ≠ [expName, locksName, S]
  root : p ≠ [expName]
  dataDir : ∀ D ∈ dataFolders, p ≠ [expName, D]
  locksDir : AnySub h → p ≠ [expName, locksName]

theorem Restructured.rest' {h h' : Disk} (r : Restructured h h') {p : Path} (hp : Rest h p) :
    h' p = h p := r.rest p hp.data hp.lock hp.root hp.dataDir hp.locksDir

theorem restructured_mk {h h' : Disk} {q : Path} (hq : ∃ x, q = expName :: x)
    (hr : ∀ p, Rest h p → p ≠ q) (r : Restructured (mkD h q) h') : Restructured h h' := by
  have hs : ∀ S x, mkD h q (sub S :: x) = h (sub S :: x) := by
    intro S x
    obtain ⟨y, rfl⟩ := hq
    exact mkD_eq_of_ne (by simp [sub_ne])
  have hany : AnySub (mkD h q) ↔ AnySub h := by
    unfold AnySub
    simp only [hs]
  refine ⟨?_, r.dataGone, ?_, ?_, ?_, r.root, r.dataDir, fun ha => r.locksDir (hany.2 ha), ?_⟩
  · intro S D x hS hD hne
    rw [r.data S D x hS hD (by rw [hs]; exact hne), hs]
  · intro S n c hS hn hc
    exact r.lock S n c hS hn (by rw [hs]; exact hc)
  · intro S n c hS hn hc
    exact r.lockGone S n c hS hn (by rw [hs]; exact hc)
  · intro S n c hS hn hc
    exact r.lockDir S n c hS hn (by rw [hs]; exact hc)
  · intro p h1 h2 h3 h4 h5
    have hp : Rest h p := ⟨h1, h2, h3, h4, h5⟩
    rw [r.rest p ?_ ?_ h3 h4 ?_, mkD_eq_of_ne (hr p hp)]
    · intro S D x hS hD
      rw [hs]
      exact h1 S D x hS hD
    · intro S n c hS hn hc
      rw [hs] at hc
      exact h2 S n c hS hn hc
    · intro ha
      exact h5 (hany.1 ha)

theorem restructured_data {h h' : Disk} {S0 D0 : Str} (hS0 : S0 ≠ []) (hD0 : D0 ∈ dataFolders)
    (hne0 : h [sub S0, D0] ≠ none)
    (r : Restructured (moveD h [sub S0, D0] [expName, D0, S0]) h') : Restructured h h' := by
  have hs : ∀ S y x, (S ≠ S0 ∨ y ≠ D0) →
      moveD h [sub S0, D0] [expName, D0, S0] (sub S :: y :: x) = h (sub S :: y :: x) := by
    intro S y x hne
    refine moveD_other (by simp [List.cons_prefix_cons, sub_ne']) ?_
    simp only [List.cons_prefix_cons, sub_inj, List.nil_prefix, and_true]
    rintro ⟨rfl, rfl⟩
    rcases hne with hne | hne <;> exact hne rfl
  have hs0 : ∀ x, moveD h [sub S0, D0] [expName, D0, S0] (sub S0 :: D0 :: x) = none := fun x =>
    moveD_old (by simp [List.cons_prefix_cons, sub_ne']) (by simp [List.cons_prefix_cons])
  have hl : ∀ S n, lockedPrefix <+: n →
      moveD h [sub S0, D0] [expName, D0, S0] [sub S, n] = h [sub S, n] := by
    intro S n hn
    refine hs S n [] (Or.inr ?_)
    rintro rfl
    exact data_not_lock hD0 hn
  have hany : AnySub (moveD h [sub S0, D0] [expName, D0, S0]) ↔ AnySub h := by
    have htop : ∀ S, moveD h [sub S0, D0] [expName, D0, S0] [sub S] = h [sub S] := fun S =>
      moveD_other (by simp [List.cons_prefix_cons, sub_ne']) (by simp [List.cons_prefix_cons])
    unfold AnySub
    simp only [htop]
  have hnew : ∀ x, moveD h [sub S0, D0] [expName, D0, S0] (expName :: D0 :: S0 :: x) =
      h (sub S0 :: D0 :: x) := fun x => moveD_new h [sub S0, D0] [expName, D0, S0] x
  generalize hg : moveD h [sub S0, D0] [expName, D0, S0] = h1 at *
  refine ⟨?_, r.dataGone, ?_, ?_, ?_, r.root, r.dataDir, fun ha => r.locksDir (hany.2 ha), ?_⟩
  · intro S D x hS hD hne
    by_cases hc : S = S0 ∧ D = D0
    · obtain ⟨rfl, rfl⟩ := hc
      rw [r.rest', hnew]
      refine ⟨?_, ?_, by simp, by simp, by simp⟩
      · intro S' D' x' hS' hD'
        refine ⟨by simp [sub_ne'], ?_⟩
        intro h2 h3
        simp only [List.cons.injEq, true_and] at h3
        obtain ⟨rfl, rfl, rfl⟩ := h3
        exact h2 (hs0 [])
      · intro S' n' c' hS' hn' hc'
        refine ⟨by simp [sub_ne'], ?_, ?_⟩ <;> simp [locks_not_data hD0]
    · have hne' : S ≠ S0 ∨ D ≠ D0 := by
        by_contra hcc
        push Not at hcc
        exact hc hcc
      rw [r.data S D x hS hD (by rw [hs S D [] hne']; exact hne), hs S D x hne']
  · intro S n c hS hn hc
    exact r.lock S n c hS hn (by rw [hl S n hn]; exact hc)
  · intro S n c hS hn hc
    exact r.lockGone S n c hS hn (by rw [hl S n hn]; exact hc)
  · intro S n c hS hn hc
    exact r.lockDir S n c hS hn (by rw [hl S n hn]; exact hc)
  · intro p h2 h3 h4 h5 h6
    rw [r.rest p ?_ ?_ h4 h5 ?_]
    · rw [← hg]
      refine moveD_other ?_ ?_
      · rintro ⟨x, rfl⟩
        exact (h2 S0 D0 x hS0 hD0).2 hne0 rfl
      · rintro ⟨x, rfl⟩
        exact (h2 S0 D0 x hS0 hD0).1 rfl
    · intro S D x hS hD
      refine ⟨(h2 S D x hS hD).1, ?_⟩
      intro h7
      by_cases hc : S = S0 ∧ D = D0
      · obtain ⟨rfl, rfl⟩ := hc
        exact absurd (hs0 []) h7
      · have hne' : S ≠ S0 ∨ D ≠ D0 := by
          by_contra hcc
          push Not at hcc
          exact hc hcc
        rw [hs S D [] hne'] at h7
        exact (h2 S D x hS hD).2 h7
    · intro S n c hS hn hc
      rw [hl S n hn] at hc
      exact h3 S n c hS hn hc
    · intro ha
      exact h6 (hany.1 ha)

theorem restructured_lock {h h' : Disk} {S0 n0 c0 : Str} (hS0 : S0 ≠ []) (hn0 : lockedPrefix <+: n0)
    (hc0 : h [sub S0, n0] = some (.file c0)) (hd0 : h [expName, locksName, S0] = some .dir)
    (hdest : h [expName, locksName, S0, n0] ≠ some .dir)
    (r : Restructured (moveD h [sub S0, n0] [expName, locksName, S0, n0]) h')
    (ht : Tree h) : Restructured h h' := by
  have hs : ∀ S y x, (S ≠ S0 ∨ y ≠ n0) →
      moveD h [sub S0, n0] [expName, locksName, S0, n0] (sub S :: y :: x) = h (sub S :: y :: x) := by
    intro S y x hne
    refine moveD_other (by simp [List.cons_prefix_cons, sub_ne']) ?_
    simp only [List.cons_prefix_cons, sub_inj, List.nil_prefix, and_true]
    rintro ⟨rfl, rfl⟩
    rcases hne with hne | hne <;> exact hne rfl
  have hs0 : moveD h [sub S0, n0] [expName, locksName, S0, n0] [sub S0, n0] = none :=
    moveD_old (by simp [List.cons_prefix_cons, sub_ne']) (by simp)
  have hdat : ∀ S D x, D ∈ dataFolders →
      moveD h [sub S0, n0] [expName, locksName, S0, n0] (sub S :: D :: x) = h (sub S :: D :: x) := by
    intro S D x hD
    refine hs S D x (Or.inr ?_)
    rintro rfl
    exact data_not_lock hD hn0
  have hany : AnySub (moveD h [sub S0, n0] [expName, locksName, S0, n0]) ↔ AnySub h := by
    have htop : ∀ S, moveD h [sub S0, n0] [expName, locksName, S0, n0] [sub S] = h [sub S] := fun S =>
      moveD_other (by simp [List.cons_prefix_cons, sub_ne']) (by simp [List.cons_prefix_cons])
    unfold AnySub
    simp only [htop]
  have hnew : moveD h [sub S0, n0] [expName, locksName, S0, n0] [expName, locksName, S0, n0] =
      some (.file c0) := by
    have := moveD_new h [sub S0, n0] [expName, locksName, S0, n0] []
    rw [List.append_nil, List.append_nil] at this
    rw [this, hc0]
  have hdir : moveD h [sub S0, n0] [expName, locksName, S0, n0] [expName, locksName, S0] = some .dir := by
    rw [moveD_other (by simp [List.cons_prefix_cons]) (by simp [List.cons_prefix_cons, sub_ne]), hd0]
  generalize hg : moveD h [sub S0, n0] [expName, locksName, S0, n0] = h1 at *
  have other : ∀ S n, ¬ (S = S0 ∧ n = n0) → h1 [sub S, n] = h [sub S, n] := by
    intro S n hc
    refine hs S n [] ?_
    by_contra hcc
    push Not at hcc
    exact hc hcc
  refine ⟨?_, r.dataGone, ?_, ?_, ?_, r.root, r.dataDir, fun ha => r.locksDir (hany.2 ha), ?_⟩
  · intro S D x hS hD hne
    rw [r.data S D x hS hD (by rw [hdat S D [] hD]; exact hne), hdat S D x hD]
  · intro S n c hS hn hc
    by_cases hcc : S = S0 ∧ n = n0
    · obtain ⟨rfl, rfl⟩ := hcc
      rw [r.rest', hnew, ← hc0, hc]
      refine ⟨?_, ?_, by simp, by simp, by simp⟩
      · intro S' D' x' hS' hD'
        refine ⟨by simp [sub_ne'], ?_⟩
        intro _ h3
        simp only [List.cons.injEq, true_and] at h3
        exact locks_not_data hD' h3.1.symm
      · intro S' n' c' hS' hn' hc'
        refine ⟨by simp [sub_ne'], ?_, by simp⟩
        intro h3
        simp only [List.cons.injEq, true_and, and_true] at h3
        obtain ⟨rfl, rfl⟩ := h3
        rw [hs0] at hc'
        cases hc'
    · exact r.lock S n c hS hn (by rw [other S n hcc]; exact hc)
  · intro S n c hS hn hc
    by_cases hcc : S = S0 ∧ n = n0
    · obtain ⟨rfl, rfl⟩ := hcc
      rw [r.rest', hs0]
      refine ⟨?_, ?_, by simp [sub_ne], by simp [sub_ne], by simp [sub_ne]⟩
      · intro S' D' x' hS' hD'
        refine ⟨?_, by simp [sub_ne]⟩
        intro h3
        simp only [List.cons.injEq] at h3
        exact data_not_lock hD' (h3.2.1 ▸ hn)
      · intro S' n' c' hS' hn' hc'
        refine ⟨?_, by simp, by simp⟩
        intro h3
        simp only [List.cons.injEq, and_true, sub_inj] at h3
        obtain ⟨rfl, rfl⟩ := h3
        rw [hs0] at hc'
        cases hc'
    · exact r.lockGone S n c hS hn (by rw [other S n hcc]; exact hc)
  · intro S n c hS hn hc
    by_cases hl : ∃ n' c', lockedPrefix <+: n' ∧ h1 [sub S, n'] = some (.file c')
    · obtain ⟨n', c', h2, h3⟩ := hl
      exact r.lockDir S n' c' hS h2 h3
    · have hcc : S = S0 ∧ n = n0 := by
        by_contra hcc
        exact hl ⟨n, c, hn, by rw [other S n hcc]; exact hc⟩
      obtain ⟨rfl, rfl⟩ := hcc
      rw [r.rest', hdir]
      refine ⟨?_, ?_, by simp, by simp, by simp⟩
      · intro S' D' x' hS' hD'
        refine ⟨by simp [sub_ne'], ?_⟩
        intro _ h3
        simp only [List.cons.injEq, true_and] at h3
        exact locks_not_data hD' h3.1.symm
      · intro S' n' c' hS' hn' hc'
        refine ⟨by simp [sub_ne'], by simp, ?_⟩
        intro h3
        simp only [List.cons.injEq, true_and, and_true] at h3
        subst h3
        exact hl ⟨n', c', hn', hc'⟩
  · intro p h2 h3 h4 h5 h6
    rw [r.rest p ?_ ?_ h4 h5 ?_]
    · rw [← hg]
      have below : ∀ x, x ≠ [] → h ([sub S0, n0] ++ x) = none := by
        intro x hx
        by_contra hne
        have := ht.below hx hne
        rw [hc0] at this
        cases this
      have below' : ∀ x, x ≠ [] → h ([expName, locksName, S0, n0] ++ x) = none := by
        intro x hx
        by_contra hne
        exact hdest (ht.below hx hne)
      by_cases hb : [expName, locksName, S0, n0] <+: p
      · obtain ⟨x, rfl⟩ := hb
        have hx : x ≠ [] := by
          rintro rfl
          rw [List.append_nil] at h3
          exact (h3 S0 n0 c0 hS0 hn0 hc0).2.1 rfl
        rw [moveD_new, below x hx, below' x hx]
      · by_cases ha : [sub S0, n0] <+: p
        · rw [moveD_old hb ha]
          obtain ⟨x, rfl⟩ := ha
          have hx : x ≠ [] := by
            rintro rfl
            rw [List.append_nil] at h3
            exact (h3 S0 n0 c0 hS0 hn0 hc0).1 rfl
          rw [below x hx]
        · rw [moveD_other hb ha]
    · intro S D x hS hD
      rw [hdat S D [] hD]
      exact h2 S D x hS hD
    · intro S n c hS hn hc
      by_cases hcc : S = S0 ∧ n = n0
      · obtain ⟨rfl, rfl⟩ := hcc
        rw [hs0] at hc
        cases hc
      · rw [other S n hcc] at hc
        exact h3 S n c hS hn hc
    · intro ha
      exact h6 (hany.1 ha)

theorem Step.restructured {h h1 h' : Disk} (st : Step h h1) (ht : Tree h) (r : Restructured h1 h') :
    Restructured h h' := by
  cases st with
  | mkRoot h0 => exact restructured_mk ⟨_, rfl⟩ (fun p hp => hp.root) r
  | mkData D hD h0 => exact restructured_mk ⟨_, rfl⟩ (fun p hp => hp.dataDir D hD) r
  | mkLocks ha h0 => exact restructured_mk ⟨_, rfl⟩ (fun p hp => hp.locksDir ha) r
  | mkLockDir S n c hS hn hc h0 =>
    exact restructured_mk ⟨_, rfl⟩ (fun p hp => (hp.lock S n c hS hn hc).2.2) r
  | data S D hS hD hne h0 h2 => exact restructured_data hS hD hne r
  | lock S n c hS hn hc h0 h2 => exact restructured_lock hS hn hc h0 h2 r ht

/-- There is only one result. -/
theorem Restructured.unique {h h1 h2 : Disk} (r1 : Restructured h h1) (r2 : Restructured h h2) :
    h1 = h2 := by
  funext p
  by_cases c1 : ∃ S D r, S ≠ [] ∧ D ∈ dataFolders ∧ (p = sub S :: D :: r ∨
      (h [sub S, D] ≠ none ∧ p = expName :: D :: S :: r))
  · obtain ⟨S, D, r, hS, hD, rfl | ⟨hne, rfl⟩⟩ := c1
    · rw [r1.dataGone S D r hS hD, r2.dataGone S D r hS hD]
    · rw [r1.data S D r hS hD hne, r2.data S D r hS hD hne]
  by_cases c2 : ∃ S n c, S ≠ [] ∧ lockedPrefix <+: n ∧ h [sub S, n] = some (.file c) ∧
      (p = [sub S, n] ∨ p = [expName, locksName, S, n] ∨ p = [expName, locksName, S])
  · obtain ⟨S, n, c, hS, hn, hc, rfl | rfl | rfl⟩ := c2
    · rw [r1.lockGone S n c hS hn hc, r2.lockGone S n c hS hn hc]
    · rw [r1.lock S n c hS hn hc, r2.lock S n c hS hn hc]
    · rw [r1.lockDir S n c hS hn hc, r2.lockDir S n c hS hn hc]
  by_cases c3 : p = [expName]
  · rw [c3, r1.root, r2.root]
  by_cases c4 : ∃ D ∈ dataFolders, p = [expName, D]
  · obtain ⟨D, hD, rfl⟩ := c4
    rw [r1.dataDir D hD, r2.dataDir D hD]
  by_cases c5 : AnySub h ∧ p = [expName, locksName]
  · rw [c5.2, r1.locksDir c5.1, r2.locksDir c5.1]
  have hp : Rest h p := by
    refine ⟨?_, ?_, c3, fun D hD e => c4 ⟨D, hD, e⟩, fun ha e => c5 ⟨ha, e⟩⟩
    · intro S D r hS hD
      exact ⟨fun e => c1 ⟨S, D, r, hS, hD, Or.inl e⟩, fun hne e => c1 ⟨S, D, r, hS, hD, Or.inr ⟨hne, e⟩⟩⟩
    · intro S n c hS hn hc
      exact ⟨fun e => c2 ⟨S, n, c, hS, hn, hc, Or.inl e⟩,
        fun e => c2 ⟨S, n, c, hS, hn, hc, Or.inr (Or.inl e)⟩,
        fun e => c2 ⟨S, n, c, hS, hn, hc, Or.inr (Or.inr e)⟩⟩
  rw [r1.rest' hp, r2.rest' hp]

/-- When nothing is left to be done. -/
theorem restructured_self {h : Disk} (ht : Tree h) (hroot : h [expName] = some .dir)
    (hdata : ∀ D ∈ dataFolders, h [expName, D] = some .dir)
    (hlocks : AnySub h → h [expName, locksName] = some .dir)
    (hmoved : ∀ S D, S ≠ [] → D ∈ dataFolders → h [sub S, D] = none)
    (hnolock : ∀ S n, S ≠ [] → lockedPrefix <+: n → NotFile (h [sub S, n])) : Restructured h h where
  data S D _ hS hD hne := absurd (hmoved S D hS hD) hne
  dataGone S D _ hS hD := ht.none_below (p := [sub S, D]) (hmoved S D hS hD)
  lock S n c hS hn hc := absurd hc (hnolock S n hS hn c)
  lockGone S n c hS hn hc := absurd hc (hnolock S n hS hn c)
  lockDir S n c hS hn hc := absurd hc (hnolock S n hS hn c)
  root := hroot
  dataDir := hdata
  locksDir := hlocks
  rest _ _ _ _ _ _ := rfl

/-! ## Any number of steps -/

/-- Reached by steps of the script. (Models no code: a notion for statements and proofs.) -/
abbrev Reach : Disk → Disk → Prop := Relation.ReflTransGen Step

/-- A proper file system whose repository is a folder without a subexperiment of empty name.
(Specification.) -/
structure Sound (h : Disk) : Prop where
  tree : Tree h
  repo : h [] = some .dir
  noBlank : h [subPrefix] ≠ some .dir

theorem Step.sound {h h' : Disk} (st : Step h h') (hs : Sound h) : Sound h' where
  tree := st.tree hs.repo hs.tree
  repo := by rw [st.repo]; exact hs.repo
  noBlank := by
    have : subPrefix = sub [] := by unfold sub; rw [List.append_nil]
    rw [this, st.top _ (sub_ne _), ← this]
    exact hs.noBlank

theorem Reach.sound {h h' : Disk} (r : Reach h h') (hs : Sound h) : Sound h' := by
  induction r with
  | refl => exact hs
  | tail _ st ih => exact st.sound ih

theorem Reach.free {h h' : Disk} (r : Reach h h') (hf : Free h) : Free h' := by
  induction r with
  | refl => exact hf
  | tail _ st ih => exact st.free ih

theorem Reach.oldOnly {h h' : Disk} (r : Reach h h') : OldOnly h h' := by
  induction r with
  | refl => exact fun S x => Or.inl rfl
  | tail _ st ih => exact st.oldOnly ih

theorem Reach.noLoss {h h' : Disk} (r : Reach h h') (hs : Sound h) : NoLoss h h' := by
  induction r with
  | refl => exact fun p c hp => Or.inl hp
  | tail r0 st ih =>
    have r1 : Reach _ _ := r0
    exact st.noLoss (r1.sound hs).tree r1.oldOnly ih

theorem Reach.nothingNew {h h' : Disk} (r : Reach h h') (hs : Sound h) : NothingNew h h' := by
  induction r with
  | refl => exact fun p c hp => Or.inl hp
  | tail r0 st ih =>
    have r1 : Reach _ _ := r0
    exact st.nothingNew (r1.sound hs).tree r1.oldOnly ih

theorem Reach.restructured {h h1 h' : Disk} (r : Reach h h1) (hs : Sound h) (hr : Restructured h1 h') :
    Restructured h h' := by
  induction r with
  | refl => exact hr
  | tail r0 st ih =>
    have r1 : Reach _ _ := r0
    exact ih (st.restructured (r1.sound hs).tree hr)

theorem Reach.dirs {h h' : Disk} (r : Reach h h') {p : Path} (hp : p = [expName] ∨ ∃ D, p = [expName, D])
    (hd : h p = some .dir) : h' p = some .dir := by
  induction r with
  | refl => exact hd
  | tail _ st ih => exact st.dirs hp ih

theorem Reach.top {h h' : Disk} (r : Reach h h') (n : Str) (hn : n ≠ expName) : h' [n] = h [n] := by
  induction r with
  | refl => rfl
  | tail _ st ih => rw [st.top n hn, ih]

theorem Reach.gone {h h' : Disk} (r : Reach h h') {S : Str} {x : Path} (hd : h (sub S :: x) = none) :
    h' (sub S :: x) = none := by
  rcases r.oldOnly S x with h1 | h1
  · rw [h1, hd]
  · exact h1

theorem Reach.notFile {h h' : Disk} (r : Reach h h') {S : Str} {x : Path}
    (hd : NotFile (h (sub S :: x))) : NotFile (h' (sub S :: x)) := by
  rcases r.oldOnly S x with h1 | h1
  · rw [h1]; exact hd
  · rw [h1]; intro c hc; cases hc

end Mbtk.Exp.Restructure
