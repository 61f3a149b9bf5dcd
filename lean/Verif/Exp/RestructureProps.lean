import Verif.Exp.RestructureSpec
/-!
# Restructuring loses no results (C94)
-/
namespace Mbtk.Exp.Restructure
open Mbtk Mbtk.Dataset Mbtk.Exp

/-- What is below the repository. (Specification.) -/
def rel (repo : Path) (fs : Fs) : Disk := fun y => dictGet fs (repo ++ y)

/-- The folders above the repository exist. (Specification.) -/
def Above (repo : Path) (fs : Fs) : Prop := ∀ q, q <+: repo → q ≠ [] → exists' fs q = true

/-- Nothing outside of the repository is changed. (Specification.) -/
def SameOutside (repo : Path) (fs fs' : Fs) : Prop :=
  ∀ p, (∀ y, y ≠ [] → p ≠ repo ++ y) → dictGet fs' p = dictGet fs p

/-- What a command has done to `fs`. (Models no code: a notion for statements and proofs.) -/
structure Does (repo : Path) (fs : Fs) (r : Option Nat × Fs × Outcome) (Post : Disk → Prop) : Prop where
  reach : Reach (rel repo fs) (rel repo r.2.1)
  outside : SameOutside repo fs r.2.1
  done : r.2.2 = .done → Post (rel repo r.2.1)
  noRaise : Free (rel repo fs) → ∀ e, r.2.2 ≠ .raised e

/-- What a command does whatever the file system and whenever the process is killed.
(Models no code: a notion for statements and proofs.) -/
def Runs (repo : Path) (Pre : Disk → Prop) (c : Cmd) (Post : Disk → Prop) : Prop :=
  ∀ b fs, Sound (rel repo fs) → Above repo fs → Pre (rel repo fs) → Does repo fs (c b fs) Post

/-- Later steps do not change it. (Models no code: a notion for statements and proofs.) -/
def Stable (P : Disk → Prop) : Prop := ∀ h h', Reach h h' → P h → P h'

theorem above_of_outside {repo : Path} {fs fs' : Fs} (ha : Above repo fs) (ho : SameOutside repo fs fs') :
    Above repo fs' := by
  intro q hq hne
  unfold exists'
  rw [ho q]
  · exact ha q hq hne
  · intro y hy e
    have := hq.length_le
    rw [e, List.length_append] at this
    have : y.length = 0 := by omega
    exact hy (List.length_eq_zero_iff.1 this)

theorem runs_skip {repo : Path} {Pre : Disk → Prop} : Runs repo Pre skip Pre :=
  fun _ _ _ _ hp => ⟨.refl, fun _ _ => rfl, fun _ => hp, (fun _ _ h => by cases h)⟩

theorem runs_then {repo : Path} {Pre Mid Post : Disk → Prop} {c d : Cmd} (hc : Runs repo Pre c Mid)
    (hd : Runs repo Mid d Post) : Runs repo Pre (andThen c d) Post := by
  intro b fs hs ha hp
  have h1 := hc b fs hs ha hp
  unfold andThen
  rcases hr : c b fs with ⟨b1, fs1, o⟩
  rw [hr] at h1
  cases o with
  | done =>
    have h2 := hd b1 fs1 (h1.reach.sound hs) (above_of_outside ha h1.outside) (h1.done rfl)
    exact ⟨h1.reach.trans h2.reach, fun p hp => (h2.outside p hp).trans (h1.outside p hp), h2.done,
      fun hf => h2.noRaise (h1.reach.free hf)⟩
  | raised e => exact ⟨h1.reach, h1.outside, (fun h => by cases h), h1.noRaise⟩
  | killed => exact ⟨h1.reach, h1.outside, (fun h => by cases h), h1.noRaise⟩

theorem runs_weaken {repo : Path} {Pre Pre' Post Post' : Disk → Prop} {c : Cmd} (h : Runs repo Pre c Post)
    (h1 : ∀ d, Pre' d → Pre d) (h2 : ∀ d, Post d → Post' d) : Runs repo Pre' c Post' := by
  intro b fs hs ha hp
  have h3 := h b fs hs ha (h1 _ hp)
  exact ⟨h3.reach, h3.outside, fun e => h2 _ (h3.done e), h3.noRaise⟩

/-- A condition that steps do not change can be carried along. -/
theorem runs_frame {repo : Path} {Pre Post F : Disk → Prop} {c : Cmd} (h : Runs repo Pre c Post)
    (hF : Stable F) : Runs repo (fun d => Pre d ∧ F d) c (fun d => Post d ∧ F d) := by
  intro b fs hs ha hp
  have h3 := h b fs hs ha hp.1
  exact ⟨h3.reach, h3.outside, fun e => ⟨h3.done e, hF _ _ h3.reach hp.2⟩, h3.noRaise⟩

theorem runs_forEach {α : Type} {repo : Path} {I : Disk → Prop} (hI : Stable I) {P : α → Disk → Prop}
    (hP : ∀ x, Stable (P x)) {body : α → Cmd} (l : List α)
    (hb : ∀ x ∈ l, Runs repo I (body x) (P x)) :
    Runs repo I (forEach body l) (fun d => I d ∧ ∀ x ∈ l, P x d) := by
  induction l with
  | nil => exact runs_weaken runs_skip (fun _ h => h) (fun _ h => ⟨h, by simp⟩)
  | cons x xs ih =>
    rw [forEach]
    have h1 : Runs repo I (body x) (fun d => P x d ∧ I d) := by
      intro b fs hs ha hp
      have h3 := hb x List.mem_cons_self b fs hs ha hp
      exact ⟨h3.reach, h3.outside, fun e => ⟨h3.done e, hI _ _ h3.reach hp⟩, h3.noRaise⟩
    refine runs_then h1 ?_
    have h2 := runs_frame (ih (fun y hy => hb y (List.mem_cons_of_mem _ hy))) (hP x)
    refine runs_weaken h2 (fun d h => ⟨h.2, h.1⟩) ?_
    rintro d ⟨⟨h3, h4⟩, h5⟩
    refine ⟨h3, ?_⟩
    intro y hy
    rcases List.mem_cons.1 hy with rfl | hy
    · exact h5
    · exact h4 y hy

theorem runs_reading {repo : Path} {Pre Post : Disk → Prop} {k : Fs → Cmd}
    (h : ∀ fs, Pre (rel repo fs) → Sound (rel repo fs) → Runs repo (fun d => d = rel repo fs) (k fs) Post) :
    Runs repo Pre (reading k) Post := fun b fs hs ha hp => h fs hp hs b fs hs ha rfl

/-! ## The operations -/

theorem rel_mkdirs {repo : Path} {fs : Fs} (hs : Sound (rel repo fs)) (ha : Above repo fs) {q : Path}
    {n : Str} (hq : rel repo fs q = some .dir) :
    rel repo (mkdirs fs (repo ++ q ++ [n])) = mkD (rel repo fs) (q ++ [n]) ∧
    SameOutside repo fs (mkdirs fs (repo ++ q ++ [n])) := by
  have hpre : ∀ r, r <+: repo ++ q → r ≠ [] → exists' fs r = true := by
    intro r hr hne
    rcases List.prefix_or_prefix_of_prefix hr (List.prefix_append repo q) with h1 | ⟨y, rfl⟩
    · exact ha r h1 hne
    · have hy : y <+: q := (List.prefix_append_right_inj repo).1 hr
      obtain ⟨z, rfl⟩ := hy
      by_cases hz : z = []
      · subst hz
        rw [List.append_nil] at hq
        unfold exists'
        rw [show dictGet fs (repo ++ y) = some .dir from hq]
        rfl
      · have := hs.tree.below hz (p := y) (by rw [hq]; simp)
        unfold exists'
        rw [show dictGet fs (repo ++ y) = some .dir from this]
        rfl
  constructor
  · funext p
    unfold rel mkD
    rw [get_mkdirs_last fs (repo ++ q) n hpre]
    simp only [List.append_assoc, List.append_cancel_left_eq]
  · intro p hp
    rw [get_mkdirs_last fs (repo ++ q) n hpre, if_neg]
    rintro ⟨h1, _⟩
    exact hp (q ++ [n]) (by simp) (by rw [h1, List.append_assoc])

theorem runs_mkdir {repo : Path} {Pre : Disk → Prop} {q : Path} {n : Str}
    (hq : ∀ d, Pre d → d q = some .dir)
    (hst : ∀ d, Sound d → Pre d → NotFile (d (q ++ [n])) → Step d (mkD d (q ++ [n])))
    (hfr : ∀ d, Pre d → Free d → NotFile (d (q ++ [n]))) :
    Runs repo Pre (act (mkdir (repo ++ q ++ [n]))) (fun d => d (q ++ [n]) = some .dir) := by
  intro b fs hs ha hp
  have hin : dictGet fs (repo ++ q ++ [n]) = rel repo fs (q ++ [n]) := by
    unfold rel
    rw [List.append_assoc]
  by_cases hk : b = some 0
  · subst hk
    exact ⟨.refl, fun _ _ => rfl, (fun h => by cases h), (fun _ _ h => by cases h)⟩
  by_cases hf : NotFile (rel repo fs (q ++ [n]))
  · have hm : mkdir (repo ++ q ++ [n]) fs = (mkdirs fs (repo ++ q ++ [n]), none) := by
      unfold mkdir
      rw [hin]
      split
      · rename_i c hc
        exact absurd hc (hf c)
      · rfl
    have ha' : act (mkdir (repo ++ q ++ [n])) b fs =
        (b.map (· - 1), mkdirs fs (repo ++ q ++ [n]), .done) := by
      unfold act
      split
      · exact absurd rfl hk
      · rw [hm]
    rw [ha']
    obtain ⟨h1, h2⟩ := rel_mkdirs hs ha (n := n) (hq _ hp)
    refine ⟨?_, h2, fun _ => ?_, (fun _ _ h => by cases h)⟩
    · show Reach _ (rel repo (mkdirs fs (repo ++ q ++ [n])))
      rw [h1]
      exact .single (hst _ hs hp hf)
    · show rel repo (mkdirs fs (repo ++ q ++ [n])) (q ++ [n]) = _
      rw [h1]
      exact mkD_self hf
  · have : ∃ e, mkdir (repo ++ q ++ [n]) fs = (fs, some e) := by
      unfold NotFile at hf
      push Not at hf
      obtain ⟨c, hc⟩ := hf
      unfold mkdir
      rw [hin, hc]
      exact ⟨_, rfl⟩
    obtain ⟨e, he⟩ := this
    have ha' : act (mkdir (repo ++ q ++ [n])) b fs = (b.map (· - 1), fs, .raised e) := by
      unfold act
      split
      · exact absurd rfl hk
      · rw [he]
    rw [ha']
    exact ⟨.refl, fun _ _ => rfl, (fun h => by cases h), fun hfree _ => absurd (hfr _ hp hfree) hf⟩

theorem rel_moved {repo : Path} (fs : Fs) {a b : Path} (hab : ¬ a <+: b) (hba : ¬ b <+: a) :
    rel repo (moved fs (repo ++ a) (repo ++ b)) = moveD (rel repo fs) a b ∧
    (a ≠ [] → b ≠ [] → SameOutside repo fs (moved fs (repo ++ a) (repo ++ b))) := by
  have h1 : ¬ repo ++ a <+: repo ++ b := by rwa [List.prefix_append_right_inj]
  have h2 : ¬ repo ++ b <+: repo ++ a := by rwa [List.prefix_append_right_inj]
  constructor
  · funext p
    unfold rel moveD
    rw [get_moved fs h1 h2]
    simp only [List.prefix_append_right_inj, List.length_append, List.append_assoc]
    rw [List.drop_append, List.drop_eq_nil_of_le (by omega), List.nil_append]
    congr 5
    omega
  · intro ha hb p hp
    rw [get_moved fs h1 h2, if_neg, if_neg]
    · rintro ⟨x, hx⟩
      exact hp (a ++ x) (by simp [ha]) (by rw [← hx, List.append_assoc])
    · rintro ⟨x, hx⟩
      exact hp (b ++ x) (by simp [hb]) (by rw [← hx, List.append_assoc])

/-- What `rename` can do, the folder of the new place being there. -/
theorem rename_cases {repo : Path} {fs : Fs} {a b : Path} {m : Str}
    (hb : rel repo fs b = some .dir) :
    (rel repo fs a = none ∧ rename (repo ++ a) (repo ++ (b ++ [m])) fs = (fs, some fileNotFound)) ∨
    (rel repo fs a ≠ none ∧ Replaceable (rel repo fs) a (b ++ [m]) ∧
      rename (repo ++ a) (repo ++ (b ++ [m])) fs = (moved fs (repo ++ a) (repo ++ (b ++ [m])), none)) ∨
    (rel repo fs a ≠ none ∧ ¬ Replaceable (rel repo fs) a (b ++ [m]) ∧
      ∃ e, e ≠ fileNotFound ∧ rename (repo ++ a) (repo ++ (b ++ [m])) fs = (fs, some e)) := by
  have hb' : dictGet fs (repo ++ (b ++ [m])).dropLast = some .dir := by
    rw [← List.append_assoc, List.dropLast_concat]
    exact hb
  have hocc : occupied fs (repo ++ (b ++ [m])) = true ↔
      ∃ x, x ≠ [] ∧ rel repo fs (b ++ [m] ++ x) ≠ none := by
    rw [occupied_iff]
    unfold rel
    simp only [List.append_assoc]
  unfold rename
  rw [hb']
  show (rel repo fs a = none ∧ _) ∨ _
  have e1 : dictGet fs (repo ++ a) = rel repo fs a := rfl
  have e2 : dictGet fs (repo ++ (b ++ [m])) = rel repo fs (b ++ [m]) := rfl
  rw [e1, e2]
  cases hA : rel repo fs a with
  | none => exact Or.inl ⟨rfl, rfl⟩
  | some ea =>
    right
    cases hB : rel repo fs (b ++ [m]) with
    | none =>
      left
      refine ⟨by simp, Or.inl hB, ?_⟩
      cases ea <;> rfl
    | some eb =>
      cases ea with
      | dir =>
        cases eb with
        | dir =>
          by_cases ho : occupied fs (repo ++ (b ++ [m])) = true
          · right
            refine ⟨by simp, ?_, .custom "OSError", by decide, ?_⟩
            · obtain ⟨x, hx, hx'⟩ := hocc.1 ho
              rintro (h1 | ⟨_, _, h1⟩ | ⟨c, c', h1, _⟩)
              · rw [hB] at h1; cases h1
              · exact hx' (h1 x hx)
              · rw [hA] at h1; cases h1
            · simp [ho]
          · left
            refine ⟨by simp, Or.inr (Or.inl ⟨hA, hB, ?_⟩), ?_⟩
            · intro x hx
              by_contra hne
              exact ho (hocc.2 ⟨x, hx, hne⟩)
            · simp [ho]
        | file c =>
          right
          refine ⟨by simp, ?_, .custom "NotADirectoryError", by decide, rfl⟩
          rintro (h1 | ⟨_, h1, _⟩ | ⟨c, c', h1, _⟩)
          · rw [hB] at h1; cases h1
          · rw [hB] at h1; cases h1
          · rw [hA] at h1; cases h1
      | file ca =>
        cases eb with
        | dir =>
          right
          refine ⟨by simp, ?_, .custom "IsADirectoryError", by decide, rfl⟩
          rintro (h1 | ⟨h1, _, _⟩ | ⟨c, c', _, h1⟩)
          · rw [hB] at h1; cases h1
          · rw [hA] at h1; cases h1
          · rw [hB] at h1; cases h1
        | file c =>
          left
          exact ⟨by simp, Or.inr (Or.inr ⟨ca, c, hA, hB⟩), rfl⟩

theorem act_eq {f : Fs → Fs × Option Err} {b : Option Nat} {fs fs' : Fs} {x : Option Err} (hb : b ≠ some 0)
    (h : f fs = (fs', x)) : act f b fs = (b.map (· - 1), fs', x.elim .done .raised) := by
  unfold act
  split
  · exact absurd rfl hb
  · rw [h]
    cases x <;> rfl

/-! ## The parts of the script -/

theorem expName_ne : expName ≠ [] := by decide
theorem locksName_ne : locksName ≠ [] := by decide
theorem data_ne {D : Str} (h : D ∈ dataFolders) : D ≠ [] := by
  revert D
  decide
theorem locked_ne {n : Str} (h : lockedPrefix <+: n) : n ≠ [] := by
  rintro rfl
  revert h
  decide

theorem join_ne {p : Path} {n : Str} (h : n ≠ []) : join p n = p ++ [n] := if_neg h

theorem sub_ne_nil (S : Str) : sub S ≠ [] := by
  unfold sub subPrefix
  intro h
  have := List.append_eq_nil_iff.1 (List.append_eq_nil_iff.1 h).1
  exact expName_ne this.1

theorem newName_sub (S : Str) : newName (sub S) = S := by
  unfold newName sub subPrefix
  have : (expName ++ ("_".toList : Str)).length = expName.length + 1 := by
    rw [List.length_append]
    rfl
  rw [← this, List.drop_left]

/-- The new folder with its data folders is there. (Models no code: a notion for statements and proofs.) -/
def Ready (d : Disk) : Prop := d [expName] = some .dir ∧ ∀ D ∈ dataFolders, d [expName, D] = some .dir

theorem stable_ready : Stable Ready := fun _ _ r h =>
  ⟨r.dirs (Or.inl rfl) h.1, fun D hD => r.dirs (Or.inr ⟨D, rfl⟩) (h.2 D hD)⟩

theorem runs_createStructure (repo : Path) :
    Runs repo (fun _ => True) (createStructure (join repo expName)) Ready := by
  unfold createStructure
  rw [join_ne expName_ne]
  have h1 : Runs repo (fun d => d [] = some .dir) (act (mkdir (repo ++ [] ++ [expName])))
      (fun d => d ([] ++ [expName]) = some .dir) :=
    runs_mkdir (fun d h => h) (fun d _ _ h => .mkRoot d h) (fun d _ hf => hf.root)
  rw [List.append_nil] at h1
  have h2 : Runs repo (fun _ => True) (act (mkdir (repo ++ [expName]))) (fun d => d [expName] = some .dir) :=
    fun b fs hs ha _ => h1 b fs hs ha hs.repo
  refine runs_then h2 ?_
  refine runs_weaken (runs_forEach (I := fun d => d [expName] = some .dir)
    (P := fun D d => d [expName, D] = some .dir) (fun _ _ r h => r.dirs (Or.inl rfl) h)
    (fun D _ _ r h => r.dirs (Or.inr ⟨D, rfl⟩) h) dataFolders ?_) (fun _ h => h) (fun _ h => h)
  intro D hD
  rw [join_ne (data_ne hD)]
  exact runs_mkdir (q := [expName]) (fun d h => h) (fun d _ h1 h2 => .mkData d D hD h1 h2)
    (fun d _ hf => hf.dataDir D hD)

theorem runs_moveData (repo : Path) {S D : Str} (hS : S ≠ []) (hD : D ∈ dataFolders) :
    Runs repo Ready (unlessMissing (act (rename (repo ++ [sub S, D]) (repo ++ ([expName, D] ++ [S])))))
      (fun d => d [sub S, D] = none) := by
  intro b fs hs ha hp
  by_cases hk : b = some 0
  · subst hk
    exact ⟨.refl, fun _ _ => rfl, (fun h => by cases h), (fun _ _ h => by cases h)⟩
  unfold unlessMissing
  rcases rename_cases (a := [sub S, D]) (m := S) (hp.2 D hD) with ⟨h1, h2⟩ | ⟨h1, h2, h3⟩ | ⟨h1, h2, e, h3, h4⟩
  · rw [act_eq hk h2]
    simp only [Option.elim, if_true]
    exact ⟨.refl, fun _ _ => rfl, fun _ => h1, (fun _ _ h => by cases h)⟩
  · rw [act_eq hk h3]
    obtain ⟨h4, h5⟩ := rel_moved (repo := repo) fs (a := [sub S, D]) (b := [expName, D] ++ [S])
      (by simp [List.cons_prefix_cons, sub_ne]) (by simp [List.cons_prefix_cons, sub_ne'])
    refine ⟨?_, h5 (by simp) (by simp), fun _ => ?_, (fun _ _ h => by cases h)⟩
    · show Reach _ (rel repo (moved fs _ _))
      rw [h4]
      exact .single (.data _ S D hS hD h1 (hp.2 D hD) h2)
    · show rel repo (moved fs _ _) _ = none
      rw [h4]
      exact moveD_old (by simp [List.cons_prefix_cons, sub_ne']) (List.prefix_refl _)
  · rw [act_eq hk h4]
    simp only [Option.elim, if_neg h3]
    refine ⟨.refl, fun _ _ => rfl, (fun h => by cases h), fun hf => ?_⟩
    exfalso
    apply h2
    rcases hf.data S D hS hD h1 with h5 | h5
    · exact Or.inl h5
    · exact Or.inr (Or.inl h5)

/-- The folders of a subexperiment have been moved. (Models no code: a notion for statements and proofs.) -/
def FoldersMoved (S : Str) (d : Disk) : Prop := ∀ D ∈ dataFolders, d [sub S, D] = none

theorem runs_moveFolders (repo : Path) {S : Str} (hS : S ≠ []) :
    Runs repo Ready (moveFolders (repo ++ [expName]) repo (sub S)) (fun d => Ready d ∧ FoldersMoved S d) := by
  refine runs_forEach stable_ready (P := fun D d => d [sub S, D] = none) (fun D _ _ r h => r.gone h) _ ?_
  intro D hD
  rw [newName_sub, join_ne (sub_ne_nil S), join_ne (data_ne hD), join_ne (data_ne hD), join_ne hS]
  have := runs_moveData repo hS hD
  simpa [List.append_assoc] using this

theorem runs_renameLock (repo : Path) {S n : Str} (hS : S ≠ []) (hn : lockedPrefix <+: n) :
    Runs repo (fun d => d [expName, locksName, S] = some .dir ∧ ∃ c, d [sub S, n] = some (.file c))
      (act (rename (repo ++ [sub S, n]) (repo ++ ([expName, locksName, S] ++ [n]))))
      (fun d => d [sub S, n] = none) := by
  rintro b fs hs ha ⟨hp, c, hc⟩
  by_cases hk : b = some 0
  · subst hk
    exact ⟨.refl, fun _ _ => rfl, (fun h => by cases h), (fun _ _ h => by cases h)⟩
  rcases rename_cases (a := [sub S, n]) (m := n) hp with ⟨h1, h2⟩ | ⟨h1, h2, h3⟩ | ⟨h1, h2, e, h3, h4⟩
  · rw [hc] at h1; cases h1
  · rw [act_eq hk h3]
    obtain ⟨h4, h5⟩ := rel_moved (repo := repo) fs (a := [sub S, n]) (b := [expName, locksName, S] ++ [n])
      (by simp [List.cons_prefix_cons, sub_ne]) (by simp [List.cons_prefix_cons, sub_ne'])
    refine ⟨?_, h5 (by simp) (by simp), fun _ => ?_, (fun _ _ h => by cases h)⟩
    · show Reach _ (rel repo (moved fs _ _))
      rw [h4]
      refine .single (.lock _ S n c hS hn hc hp ?_)
      intro hd
      rcases h2 with h6 | ⟨h6, _, _⟩ | ⟨_, _, _, h6⟩
      · have : rel repo fs [expName, locksName, S, n] = none := h6
        rw [hd] at this; cases this
      · rw [hc] at h6; cases h6
      · have : rel repo fs [expName, locksName, S, n] = _ := h6
        rw [hd] at this; cases this
    · show rel repo (moved fs _ _) _ = none
      rw [h4]
      exact moveD_old (by simp [List.cons_prefix_cons, sub_ne']) (List.prefix_refl _)
  · rw [act_eq hk h4]
    refine ⟨.refl, fun _ _ => rfl, (fun h => by cases h), fun hf => ?_⟩
    exfalso
    apply h2
    have h5 := (hf.lock S n c hS hn hc).1
    cases hv : rel repo fs [expName, locksName, S, n] with
    | none => exact Or.inl hv
    | some e =>
      cases e with
      | dir => exact absurd hv h5
      | file c' => exact Or.inr (Or.inr ⟨c, c', hc, hv⟩)

theorem runs_moveLock (repo : Path) {S n : Str} (hS : S ≠ []) :
    Runs repo (fun d => d [expName, locksName] = some .dir)
      (moveLock (repo ++ [expName]) repo (sub S) n)
      (fun d => lockedPrefix <+: n → NotFile (d [sub S, n])) := by
  refine runs_reading ?_
  intro fs hp hs
  rw [newName_sub, join_ne (sub_ne_nil S), join_ne locksName_ne, join_ne hS]
  by_cases hn : lockedPrefix <+: n
  · rw [join_ne (locked_ne hn), join_ne (locked_ne hn)]
    have hg : dictGet fs (repo ++ [sub S] ++ [n]) = rel repo fs [sub S, n] := by
      unfold rel
      rw [List.append_assoc]
      rfl
    rw [hg]
    split
    · rename_i c hc
      rw [if_pos hn]
      have h1 : Runs repo (fun d => d = rel repo fs)
          (act (mkdir (repo ++ [expName, locksName] ++ [S])))
          (fun d => d ([expName, locksName] ++ [S]) = some .dir) :=
        runs_mkdir (fun d h => h ▸ hp) (fun d _ h h2 => .mkLockDir d S n c hS hn (h ▸ hc) (h ▸ hp) h2)
          (fun d h hf => (hf.lock S n c hS hn (h ▸ hc)).2)
      have h2 : Runs repo (fun d => d = rel repo fs)
          (act (mkdir (repo ++ [expName, locksName] ++ [S])))
          (fun d => d [expName, locksName, S] = some .dir ∧ d [sub S, n] = some (.file c)) := by
        intro b fs' hs' ha' he
        have h3 := h1 b fs' hs' ha' he
        refine ⟨h3.reach, h3.outside, fun e => ⟨h3.done e, ?_⟩, h3.noRaise⟩
        -- making a folder leaves the lock file where it is
        have h4 : (act (mkdir (repo ++ [expName, locksName] ++ [S])) b fs').2.1 = fs' ∨
            (act (mkdir (repo ++ [expName, locksName] ++ [S])) b fs').2.1 =
              mkdirs fs' (repo ++ [expName, locksName] ++ [S]) := by
          unfold act mkdir
          split
          · exact Or.inl rfl
          · split
            · rename_i hx
              split at hx
              · cases hx
              · cases hx; exact Or.inr rfl
            · rename_i hx
              split at hx
              · cases hx; exact Or.inl rfl
              · cases hx
        have h5 : rel repo fs' [sub S, n] = some (.file c) := he ▸ hc
        rcases h4 with h4 | h4
        · rw [h4]; exact h5
        · rw [h4]
          exact mkdirs_keeps h5
      have h3 := runs_then h2 (runs_weaken (runs_renameLock repo hS hn) (fun d h => ⟨h.1, c, h.2⟩)
        (fun d h => h))
      refine runs_weaken ?_ (fun d h => h) (fun d (h : d [sub S, n] = none) _ c' hc' => by
        rw [h] at hc'; cases hc')
      simpa [List.append_assoc] using h3
    · rename_i hno
      refine runs_weaken runs_skip (fun d h => h) ?_
      intro d hd _ c hc
      rw [hd] at hc
      exact hno c hc
  · have h1 : Runs repo (fun d => d = rel repo fs) skip (fun d => lockedPrefix <+: n → NotFile (d [sub S, n])) :=
      runs_weaken runs_skip (fun d h => h) (fun d _ h => absurd h hn)
    split
    · rw [if_neg hn]; exact h1
    · exact h1

/-- The lock files of a subexperiment have been moved. (Models no code: a notion for statements and proofs.) -/
def LocksMoved (S : Str) (d : Disk) : Prop := ∀ n, lockedPrefix <+: n → NotFile (d [sub S, n])

/-- `iterdir` lists every name in a folder, in any order. (Specification.) -/
def Lists (iterdir : Fs → Path → List Str) : Prop := ∀ fs p, (iterdir fs p).Perm (children fs p)

theorem runs_moveLocks {iterdir : Fs → Path → List Str} (hi : Lists iterdir) (repo : Path) {S : Str}
    (hS : S ≠ []) :
    Runs repo (fun d => Ready d ∧ d [sub S] = some .dir)
      (moveLocks iterdir (repo ++ [expName]) repo (sub S))
      (fun d => d [expName, locksName] = some .dir ∧ LocksMoved S d) := by
  unfold moveLocks
  rw [join_ne locksName_ne, join_ne (sub_ne_nil S)]
  have h1 : Runs repo (fun d => Ready d ∧ d [sub S] = some .dir)
      (act (mkdir (repo ++ [expName] ++ [locksName]))) (fun d => d ([expName] ++ [locksName]) = some .dir) :=
    runs_mkdir (fun d h => h.1.1) (fun d _ h h2 => .mkLocks d ⟨S, hS, h.2⟩ h.1.1 h2)
      (fun d _ hf => hf.locksDir)
  refine runs_then h1 ?_
  refine runs_reading ?_
  intro fs hp hs
  have h2 := runs_forEach (repo := repo) (I := fun d => d [expName, locksName] = some .dir)
    (fun _ _ r h => r.dirs (Or.inr ⟨_, rfl⟩) h)
    (P := fun n d => lockedPrefix <+: n → NotFile (d [sub S, n]))
    (fun n _ _ r h hn => r.notFile (h hn)) (body := moveLock (repo ++ [expName]) repo (sub S))
    (iterdir fs (repo ++ [sub S])) (fun n _ => runs_moveLock repo hS)
  intro b fs' hs' ha' he
  have h3 := h2 b fs' hs' ha' (by rw [he]; exact hp)
  refine ⟨h3.reach, h3.outside, fun e => ⟨(h3.done e).1, ?_⟩, h3.noRaise⟩
  intro n hn
  by_cases hmem : n ∈ iterdir fs (repo ++ [sub S])
  · exact (h3.done e).2 n hmem hn
  · have h4 : rel repo fs' [sub S, n] = none := by
      rw [he]
      by_contra hne
      apply hmem
      rw [(hi fs _).mem_iff, mem_children]
      unfold exists'
      rw [List.append_assoc]
      exact Option.isSome_iff_ne_none.2 hne
    rw [h3.reach.gone h4]
    intro c hc
    cases hc

/-- Nothing is left to be moved of one of the names in the repository.
(Models no code: a notion for statements and proofs.) -/
def SubMoved (n : Str) (d : Disk) : Prop := ∀ S, S ≠ [] → n = sub S → d [n] = some .dir →
  FoldersMoved S d ∧ LocksMoved S d ∧ d [expName, locksName] = some .dir

theorem stable_subMoved (n : Str) : Stable (SubMoved n) := by
  rintro h h' r hp S hS rfl hd
  rw [r.top _ (sub_ne S)] at hd
  obtain ⟨h1, h2, h3⟩ := hp S hS rfl hd
  exact ⟨fun D hD => r.gone (h1 D hD), fun m hm => r.notFile (h2 m hm), r.dirs (Or.inr ⟨_, rfl⟩) h3⟩

theorem runs_moveSub {iterdir : Fs → Path → List Str} (hi : Lists iterdir) (repo : Path) (n : Str) :
    Runs repo Ready (moveSub iterdir (repo ++ [expName]) repo n) (SubMoved n) := by
  refine runs_reading ?_
  intro fs hp hs
  by_cases hn : subPrefix <+: n
  · obtain ⟨S, rfl⟩ := hn
    change Runs repo _ (match dictGet fs (join repo (sub S)) with
      | some .dir => if subPrefix <+: sub S then _ else _
      | _ => _) (SubMoved (sub S))
    rw [join_ne (sub_ne_nil S), if_pos (show subPrefix <+: sub S from List.prefix_append _ _)]
    have hg : dictGet fs (repo ++ [sub S]) = rel repo fs [sub S] := rfl
    rw [hg]
    split
    · rename_i hd
      have hS : S ≠ [] := by
        rintro rfl
        apply hs.noBlank
        have : sub [] = subPrefix := by unfold sub; rw [List.append_nil]
        rw [← this]
        exact hd
      have hst : Stable (fun d => d [sub S] = some .dir) := fun _ _ r h => (r.top _ (sub_ne S)).trans h
      have h1 := runs_frame (runs_moveFolders repo hS) hst
      have hstF : Stable (FoldersMoved S) := fun _ _ r h D hD => r.gone (h D hD)
      have h2 := runs_frame (runs_moveLocks hi repo hS) hstF
      have h3 := runs_then (runs_weaken h1 (fun d h => h)
        (fun d h => (⟨⟨h.1.1, h.2⟩, h.1.2⟩ : (Ready d ∧ d [sub S] = some .dir) ∧ FoldersMoved S d))) h2
      refine runs_weaken h3 (fun d h => ⟨h ▸ hp, h ▸ hd⟩) ?_
      rintro d ⟨⟨h4, h5⟩, h6⟩ S' hS' hSS _
      rw [sub_inj] at hSS
      subst hSS
      exact ⟨h6, h5, h4⟩
    · rename_i hno
      refine runs_weaken runs_skip (fun d h => h) ?_
      rintro d rfl S' hS' hSS hd
      exact absurd hd hno
  · have h1 : Runs repo (fun d => d = rel repo fs) skip (SubMoved n) := by
      refine runs_weaken runs_skip (fun d h => h) ?_
      rintro d _ S hS rfl
      exact absurd (List.prefix_append _ _) hn
    split
    · rw [if_neg hn]; exact h1
    · exact h1

theorem runs_restructure {iterdir : Fs → Path → List Str} (hi : Lists iterdir) (repo : Path) :
    Runs repo (fun _ => True) (restructure iterdir repo) (fun d => Ready d ∧ ∀ n, SubMoved n d) := by
  unfold restructure
  refine runs_then (runs_createStructure repo) ?_
  rw [join_ne expName_ne]
  refine runs_reading ?_
  intro fs hp hs b fs' hs' ha' he
  have h3 := runs_forEach stable_ready stable_subMoved (iterdir fs repo)
    (fun n _ => runs_moveSub hi repo n) b fs' hs' ha' (by rw [he]; exact hp)
  refine ⟨h3.reach, h3.outside, fun e => ⟨(h3.done e).1, ?_⟩, h3.noRaise⟩
  intro n
  by_cases hmem : n ∈ iterdir fs repo
  · exact (h3.done e).2 n hmem
  · rintro S hS rfl hd
    rw [h3.reach.top _ (sub_ne S), he] at hd
    exfalso
    apply hmem
    rw [(hi fs _).mem_iff, mem_children]
    unfold exists'
    rw [show dictGet fs (repo ++ [sub S]) = some .dir from hd]
    rfl

/-! ## Never killed -/

/-- A command that is not killed from outside. (Models no code: a notion for statements and proofs.) -/
def Alive (c : Cmd) : Prop := ∀ fs, (c none fs).1 = none ∧ (c none fs).2.2 ≠ .killed

theorem alive_act (f : Fs → Fs × Option Err) : Alive (act f) := by
  intro fs
  rcases hf : f fs with ⟨fs', x⟩
  rw [act_eq (by simp) hf]
  cases x <;> simp

theorem alive_then {c d : Cmd} (hc : Alive c) (hd : Alive d) : Alive (andThen c d) := by
  intro fs
  have h1 := hc fs
  unfold andThen
  rcases hr : c none fs with ⟨b, fs', o⟩
  rw [hr] at h1
  obtain ⟨h2, h3⟩ := h1
  simp only at h2 h3
  subst h2
  cases o with
  | done => exact hd fs'
  | raised e => exact ⟨rfl, by simp⟩
  | killed => exact absurd rfl h3

theorem alive_skip : Alive skip := fun _ => ⟨rfl, by simp [skip]⟩

theorem alive_forEach {α : Type} {body : α → Cmd} (h : ∀ x, Alive (body x)) : ∀ l, Alive (forEach body l)
  | [] => alive_skip
  | x :: xs => alive_then (h x) (alive_forEach h xs)

theorem alive_reading {k : Fs → Cmd} (h : ∀ fs, Alive (k fs)) : Alive (reading k) := fun fs => h fs fs

theorem alive_unlessMissing {c : Cmd} (hc : Alive c) : Alive (unlessMissing c) := by
  intro fs
  have h1 := hc fs
  unfold unlessMissing
  rcases hr : c none fs with ⟨b, fs', o⟩
  rw [hr] at h1
  cases o with
  | done => exact h1
  | raised e =>
    simp only []
    split
    · exact ⟨h1.1, by simp⟩
    · exact h1
  | killed => exact h1

theorem alive_restructure (iterdir : Fs → Path → List Str) (repo : Path) :
    Alive (restructure iterdir repo) := by
  refine alive_then (alive_then (alive_act _) (alive_forEach (fun f => alive_act _) _))
    (alive_reading (fun fs => alive_forEach (fun n => alive_reading (fun fs => ?_)) _))
  split
  · split
    · refine alive_then (alive_forEach (fun d => alive_unlessMissing (alive_act _)) _)
        (alive_then (alive_act _) (alive_reading (fun fs => alive_forEach
          (fun n => alive_reading (fun fs => ?_)) _)))
      split
      · split
        · exact alive_then (alive_act _) (alive_act _)
        · exact alive_skip
      · exact alive_skip
    · exact alive_skip
  · exact alive_skip

/-! ## C94 -/

/-- **C94** (no result is lost).  Whatever is in the repository, in whatever order folders are listed, and
whether the script ends, raises an exception or is killed at any moment: every file is where it was or at
its new place, with its content, unless it was itself at a new place and has been replaced by the file
belonging there; no file has appeared from nowhere; and nothing outside of the repository has changed. -/
theorem restructure_loses_nothing {iterdir : Fs → Path → List Str} (hi : Lists iterdir) {repo : Path}
    {fs : Fs} (hs : Sound (rel repo fs)) (ha : Above repo fs) (b : Option Nat) :
    NoLoss (rel repo fs) (rel repo (restructure iterdir repo b fs).2.1) ∧
    NothingNew (rel repo fs) (rel repo (restructure iterdir repo b fs).2.1) ∧
    SameOutside repo fs (restructure iterdir repo b fs).2.1 := by
  have h := runs_restructure hi repo b fs hs ha trivial
  exact ⟨h.reach.noLoss hs, h.reach.nothingNew hs, h.outside⟩

/-- If the new folder holds no results yet, no file at all is lost. -/
theorem restructure_keeps_every_file {iterdir : Fs → Path → List Str} (hi : Lists iterdir) {repo : Path}
    {fs : Fs} (hs : Sound (rel repo fs)) (ha : Above repo fs) (b : Option Nat)
    (hnew : ∀ p q c c', Moves p q → rel repo fs p = some (.file c) → rel repo fs q ≠ some (.file c'))
    {p : Path} {c : Str} (hp : rel repo fs p = some (.file c)) :
    rel repo (restructure iterdir repo b fs).2.1 p = some (.file c) ∨
    ∃ q, Moves p q ∧ rel repo (restructure iterdir repo b fs).2.1 q = some (.file c) := by
  rcases (restructure_loses_nothing hi hs ha b).1 p c hp with h1 | ⟨q, h1, _, h2⟩ | ⟨p', c', h1, h2, _⟩
  · exact Or.inl h1
  · exact Or.inr ⟨q, h1, h2⟩
  · exact absurd hp (hnew p' p c' c h1 h2)

/-- **C94** (the result).  If the script ends without exception, every data folder and every lock file of
every subexperiment is at its new place, no longer at the old one, and everything else is as it was. -/
theorem restructure_result {iterdir : Fs → Path → List Str} (hi : Lists iterdir) {repo : Path} {fs : Fs}
    (hs : Sound (rel repo fs)) (ha : Above repo fs) {b : Option Nat}
    (hd : (restructure iterdir repo b fs).2.2 = .done) :
    Restructured (rel repo fs) (rel repo (restructure iterdir repo b fs).2.1) := by
  have h := runs_restructure hi repo b fs hs ha trivial
  obtain ⟨h1, h2⟩ := h.done hd
  refine h.reach.restructured hs ?_
  have hs' := h.reach.sound hs
  refine restructured_self hs'.tree h1.1 h1.2 ?_ ?_ ?_
  · rintro ⟨S, hS, hSd⟩
    exact (h2 _ S hS rfl hSd).2.2
  · intro S D hS hD
    by_contra hne
    have hdir := hs'.tree [sub S] D hne
    exact hne ((h2 _ S hS rfl hdir).1 D hD)
  · intro S n hS hn c hc
    have hdir := hs'.tree [sub S] n (by
      show rel repo _ [sub S, n] ≠ none
      rw [hc]; simp)
    exact (h2 _ S hS rfl hdir).2.1 n hn c hc

/-- **C94** (no exception).  If nothing is in the way at the new places, the script raises no exception; and
unless it is killed, it ends. -/
theorem restructure_succeeds {iterdir : Fs → Path → List Str} (hi : Lists iterdir) {repo : Path} {fs : Fs}
    (hs : Sound (rel repo fs)) (ha : Above repo fs) (hf : Free (rel repo fs)) :
    (∀ b e, (restructure iterdir repo b fs).2.2 ≠ .raised e) ∧
    (restructure iterdir repo none fs).2.2 = .done := by
  have h : ∀ b e, (restructure iterdir repo b fs).2.2 ≠ .raised e := fun b =>
    (runs_restructure hi repo b fs hs ha trivial).noRaise hf
  refine ⟨h, ?_⟩
  have h1 := (alive_restructure iterdir repo fs).2
  have h2 := h none
  generalize (restructure iterdir repo none fs).2.2 = o at h1 h2
  cases o with
  | done => rfl
  | raised e => exact absurd rfl (h2 e)
  | killed => exact absurd rfl h1

/-- The file system after runs of the script, each with its own order of listing and moment of being
killed. (Specification.) -/
def attempts (repo : Path) : List ((Fs → Path → List Str) × Option Nat) → Fs → Fs
  | [], fs => fs
  | (iterdir, b) :: rest, fs => attempts repo rest (restructure iterdir repo b fs).2.1

theorem attempts_reach {repo : Path} (l : List ((Fs → Path → List Str) × Option Nat))
    (hl : ∀ x ∈ l, Lists x.1) : ∀ {fs : Fs}, Sound (rel repo fs) → Above repo fs →
      Reach (rel repo fs) (rel repo (attempts repo l fs)) ∧ Above repo (attempts repo l fs) := by
  induction l with
  | nil => intro fs _ ha; exact ⟨.refl, ha⟩
  | cons x xs ih =>
    intro fs hs ha
    have h := runs_restructure (hl x List.mem_cons_self) repo x.2 fs hs ha trivial
    obtain ⟨h1, h2⟩ := ih (fun y hy => hl y (List.mem_cons_of_mem _ hy)) (h.reach.sound hs)
      (above_of_outside ha h.outside)
    exact ⟨h.reach.trans h1, h2⟩

/-- **C94** (starting over).  After any number of runs that were killed or raised an exception, a run that ends
leaves the repository exactly as an undisturbed run would have left it at once. -/
theorem restructure_after_crashes {repo : Path} {fs : Fs} (hs : Sound (rel repo fs)) (ha : Above repo fs)
    (l : List ((Fs → Path → List Str) × Option Nat)) (hl : ∀ x ∈ l, Lists x.1)
    {iterdir iterdir' : Fs → Path → List Str} (hi : Lists iterdir) (hi' : Lists iterdir') {b b' : Option Nat}
    (hd : (restructure iterdir repo b (attempts repo l fs)).2.2 = .done)
    (hd' : (restructure iterdir' repo b' fs).2.2 = .done) :
    rel repo (restructure iterdir repo b (attempts repo l fs)).2.1 =
      rel repo (restructure iterdir' repo b' fs).2.1 := by
  obtain ⟨h1, h2⟩ := attempts_reach l hl hs ha
  exact (h1.restructured hs (restructure_result hi (h1.sound hs) h2 hd)).unique
    (restructure_result hi' hs ha hd')

/-- **C94** (starting over, no exception).  If nothing was in the way at the beginning, then after any number of
killed runs nothing is in the way, and the next run that is not killed ends. -/
theorem restructure_can_be_resumed {repo : Path} {fs : Fs} (hs : Sound (rel repo fs)) (ha : Above repo fs)
    (hf : Free (rel repo fs)) (l : List ((Fs → Path → List Str) × Option Nat)) (hl : ∀ x ∈ l, Lists x.1)
    {iterdir : Fs → Path → List Str} (hi : Lists iterdir) :
    (restructure iterdir repo none (attempts repo l fs)).2.2 = .done := by
  obtain ⟨h1, h2⟩ := attempts_reach l hl hs ha
  exact (restructure_succeeds hi (h1.sound hs) h2 (h1.free hf)).2

/-- **C94** (a second run).  Running the script again after it has ended changes nothing. -/
theorem restructure_idempotent {iterdir iterdir' : Fs → Path → List Str} (hi : Lists iterdir)
    (hi' : Lists iterdir') {repo : Path} {fs : Fs} (hs : Sound (rel repo fs)) (ha : Above repo fs)
    {b b' : Option Nat} (hd : (restructure iterdir repo b fs).2.2 = .done)
    (hd' : (restructure iterdir' repo b' (restructure iterdir repo b fs).2.1).2.2 = .done) :
    rel repo (restructure iterdir' repo b' (restructure iterdir repo b fs).2.1).2.1 =
      rel repo (restructure iterdir repo b fs).2.1 :=
  restructure_after_crashes hs ha [(iterdir, b)] (by simpa using hi) hi' hi hd' hd

/-- **C94** (locks stay).  A subexperiment that was locked in the old layout, by a lock file in its folder, is
locked in the new layout: its `ExperimentDefinition` finds the lock file. -/
theorem restructure_keeps_locks {iterdir : Fs → Path → List Str} (hi : Lists iterdir) {repo : Path} {fs : Fs}
    (hs : Sound (rel repo fs)) (ha : Above repo fs) {b : Option Nat}
    (hd : (restructure iterdir repo b fs).2.2 = .done) {S t c : Str} (hS : S ≠ []) (htne : t ≠ [])
    (hc : dictGet fs ((Def.mk (repo ++ [sub S]) .base).lockFile t) = some (.file c)) :
    dictGet (restructure iterdir repo b fs).2.1
      ((Def.mk (repo ++ [expName]) (.experiment S)).lockFile t) = some (.file c) ∧
    ((Def.mk (repo ++ [expName]) (.experiment S)).isLocked t (restructure iterdir repo b fs).2.1).1 = true := by
  have hn : lockedPrefix <+: lockName t := by
    unfold lockName
    exact List.IsPrefix.trans (by decide) (List.prefix_append _ _)
  have h1 := (restructure_result hi hs ha hd).lock S (lockName t) c hS hn (by
    unfold rel
    simpa [Def.lockFile, Def.lockDir, List.append_assoc] using hc)
  have h2 : dictGet (restructure iterdir repo b fs).2.1
      ((Def.mk (repo ++ [expName]) (.experiment S)).lockFile t) = some (.file c) := by
    unfold rel at h1
    rw [← h1]
    congr 1
    simp [Def.lockFile, Def.lockDir, List.append_assoc, locksName]
  refine ⟨h2, ?_⟩
  unfold Def.isLocked
  rw [if_neg htne]
  unfold exists'
  have : dictGet ((Def.mk (repo ++ [expName]) (.experiment S)).touch (restructure iterdir repo b fs).2.1)
      ((Def.mk (repo ++ [expName]) (.experiment S)).lockFile t) = some (.file c) := mkdirs_keeps h2
  rw [this]
  rfl

/-! ## Examples -/

/-- The repository of the examples. (Example.) -/
def exRepo : Path := ["exprun_repository".toList]

/-- Two subexperiments, one of them locked, and something else. (Example.) -/
def exFs : Fs := [
  (exRepo, .dir),
  (exRepo ++ [sub "alarm_4e3".toList], .dir),
  (exRepo ++ [sub "alarm_4e3".toList, "jht".toList], .dir),
  (exRepo ++ [sub "alarm_4e3".toList, "jht".toList, "jht.pickle".toList], .file "tables".toList),
  (exRepo ++ [sub "alarm_4e3".toList, "locked_experiment".toList], .file "locked".toList),
  (exRepo ++ [sub "munin_8e3".toList], .dir),
  (exRepo ++ [sub "munin_8e3".toList, "adtrees".toList], .dir),
  (exRepo ++ [sub "munin_8e3".toList, "adtrees".toList, "t.pickle".toList], .file "tree".toList),
  (exRepo ++ ["other".toList], .file "kept".toList)]

theorem lists_children : Lists children := fun _ _ => List.Perm.refl _

/-- A disk given by a list is sound if the entries of the list are. -/
theorem tree_of_list {repo : Path} {fs : Fs}
    (h : ∀ e ∈ fs, e.1 = repo ∨ ¬ repo <+: e.1 ∨ dictGet fs e.1.dropLast = some .dir) :
    Tree (rel repo fs) := by
  intro p n hne
  obtain ⟨v, hv⟩ := Option.ne_none_iff_exists'.1 hne
  have hm := dictGet_mem hv
  rcases h _ hm with h1 | h1 | h1
  · have := congrArg List.length h1
    simp at this
  · exact absurd (List.prefix_append _ _) h1
  · simp only [← List.append_assoc, List.dropLast_concat] at h1
    exact h1

example : Sound (rel exRepo exFs) ∧ Above exRepo exFs := by
  refine ⟨⟨tree_of_list (by decide +kernel), by decide +kernel, by decide +kernel⟩, ?_⟩
  intro q hq hne
  have : q = exRepo := by
    rcases q with _ | ⟨x, xs⟩
    · exact absurd rfl hne
    · obtain ⟨z, hz⟩ := hq
      unfold exRepo at hz ⊢
      simp only [List.cons_append, List.cons.injEq, List.append_eq_nil_iff] at hz
      rw [hz.1, hz.2.1]
  subst this
  decide +kernel

/-- Nothing is in the way. -/
theorem free_example : Free (rel exRepo exFs) := by
  have h : ∀ x, rel exRepo exFs (expName :: x) = none := by
    intro x
    by_contra hne
    obtain ⟨v, hv⟩ := Option.ne_none_iff_exists'.1 hne
    have hm := dictGet_mem hv
    have ht : ∀ e ∈ exFs, e.1.take 2 ≠ exRepo ++ [expName] := by decide +kernel
    exact ht _ hm (by simp [exRepo])
  refine ⟨fun S D _ _ _ => Or.inl (h _), fun S n c _ _ _ => ?_, ?_, fun D _ => ?_, ?_⟩
  · rw [h, h]
    exact ⟨by simp, by intro c hc; cases hc⟩
  all_goals (rw [h]; intro c hc; cases hc)

/-- Undisturbed, the script ends; the tables, the tree and the lock are at their new places. -/
example : (match (restructure children exRepo none exFs).2.2 with | .done => true | _ => false) = true ∧
    ∀ e ∈ [(exRepo ++ [expName, "jht".toList, "alarm_4e3".toList, "jht.pickle".toList],
        some (.file "tables".toList)),
      (exRepo ++ [expName, "adtrees".toList, "munin_8e3".toList, "t.pickle".toList],
        some (.file "tree".toList)),
      (exRepo ++ [expName, "locks".toList, "alarm_4e3".toList, "locked_experiment".toList],
        some (.file "locked".toList)),
      (exRepo ++ [sub "alarm_4e3".toList, "jht".toList], none),
      (exRepo ++ ["other".toList], some (.file "kept".toList))],
      dictGet (restructure children exRepo none exFs).2.1 e.1 = e.2 := by decide +kernel

/-- Killed in the middle, after 15 operations, and started again: the same. -/
example : (match (restructure children exRepo (some 15) exFs).2.2 with | .killed => true | _ => false) = true ∧
    dictGet (restructure children exRepo none (restructure children exRepo (some 15) exFs).2.1).2.1
      (exRepo ++ [expName, "adtrees".toList, "munin_8e3".toList, "t.pickle".toList]) =
        some (.file "tree".toList) := by decide +kernel

/-- The outcome of an undisturbed run, and what is then at a path. (Example.) -/
def outcomeAt (fs : Fs) (p : Path) : Option String × Option Entry :=
  ((match (restructure children exRepo none fs).2.2 with
    | .raised (.custom e) => some e
    | .raised _ => some "other"
    | .killed => some "killed"
    | .done => none), dictGet (restructure children exRepo none fs).2.1 p)

/-- **C94** (what is not promised).  If a subexperiment was run again after restructuring, so that its data
folder exists at both places, the script is aborted by an `OSError` that it does not catch, and the
subexperiments listed later are not moved. -/
theorem restructure_aborts_on_occupied :
    outcomeAt (exFs ++ [(exRepo ++ [expName], .dir), (exRepo ++ [expName, "jht".toList], .dir),
      (exRepo ++ [expName, "jht".toList, "alarm_4e3".toList], .dir),
      (exRepo ++ [expName, "jht".toList, "alarm_4e3".toList, "jht.pickle".toList], .file "older".toList)])
      (exRepo ++ [sub "munin_8e3".toList, "adtrees".toList, "t.pickle".toList]) =
    (some "OSError", some (.file "tree".toList)) := by decide +kernel

/-- **C94** (what is not promised).  A subexperiment folder with an empty name, `dcMIEvExpII_`, has its data
folders put in the place of the folders for all subexperiments. -/
theorem restructure_blank_name :
    outcomeAt [(exRepo, .dir), (exRepo ++ [sub []], .dir), (exRepo ++ [sub [], "jht".toList], .dir),
      (exRepo ++ [sub [], "jht".toList, "jht.pickle".toList], .file "tables".toList)]
      (exRepo ++ [expName, "jht".toList, "jht.pickle".toList]) =
    (none, some (.file "tables".toList)) := by decide +kernel

end Mbtk.Exp.Restructure
