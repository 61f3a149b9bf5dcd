import Verif.Exp.Fs
/-!
# Locked folders are never deleted (C43), and the subexperiments of one experiment (C45)
-/
namespace Mbtk.Exp
open Mbtk Mbtk.Dataset

/-! ## Specification -/

/-- The lock of the given type is held on the object's folder: its lock file exists.
(Specification.) -/
def Held (fs : Fs) (d : Def) (t : Str) : Prop := exists' fs (d.lockFile t) = true

/-- The path is one of the lock files of the object. (Specification.) -/
def IsLockOf (d : Def) (p : Path) : Prop := ∃ t, p = d.lockFile t

/-- Neither folder lies inside the other. (Specification.) -/
def Unrelated (a b : Path) : Prop := ¬ a <+: b ∧ ¬ b <+: a

/-- A call that may happen while the lock `t` of `d` is to be kept: a call on `d` other than the
unlocking of `t`, a call on an object with an unrelated folder, or the writing of a file.
(Specification.) -/
def Allowed (d : Def) (t : Str) (c : Def × Op) : Prop :=
  (c.1 = d ∧ ∀ u, c.2 = .unlock u → d.lockType u ≠ t) ∨ Unrelated c.1.path d.path ∨
    ∃ p x, c.2 = .put p x

/-! ## Locks -/

theorem lockType_ne_nil (d : Def) (t : Str) : d.lockType t ≠ [] := by
  unfold Def.lockType
  split
  · unfold Def.defaultLock; split <;> decide
  · assumption

theorem lockFile_inj {d : Def} {t u : Str} (h : d.lockFile t = d.lockFile u) : t = u := by
  unfold Def.lockFile lockName at h
  have := List.append_cancel_left h
  simpa using this

theorem path_prefix_lockDir (d : Def) : d.path <+: d.lockDir := by
  unfold Def.lockDir
  split
  · exact ⟨_, rfl⟩
  · exact List.prefix_refl _

theorem path_prefix_lockFile (d : Def) (t : Str) : d.path <+: d.lockFile t :=
  (path_prefix_lockDir d).trans ⟨_, rfl⟩

theorem isLockIn_iff (dir p : Path) : isLockIn dir p = true ↔ ∃ t, p = dir ++ [lockName t] := by
  unfold isLockIn
  simp only [Bool.and_eq_true, decide_eq_true_eq]
  constructor
  · rintro ⟨⟨h1, h2⟩, ⟨t, ht⟩⟩
    refine ⟨t, ?_⟩
    rw [← h2]
    have := List.dropLast_append_getLast h1
    rw [List.getLast?_eq_some_getLast h1] at ht
    unfold lockName
    simp only [Option.getD_some] at ht
    rw [ht, this]
  · rintro ⟨t, rfl⟩
    refine ⟨⟨by simp, by simp⟩, ?_⟩
    simp only [List.getLast?_append, List.getLast?_singleton, Option.some_or, Option.getD_some]
    exact ⟨t, rfl⟩

theorem mem_of_get {fs : Fs} {p : Path} {x : Entry} (h : dictGet fs p = some x) : (p, x) ∈ fs := by
  induction fs with
  | nil => simp [dictGet] at h
  | cons e fs ih =>
    obtain ⟨q, y⟩ := e
    unfold dictGet at h
    split at h
    · rename_i hq; cases h; rw [hq]; simp
    · exact List.mem_cons_of_mem _ (ih h)

theorem exists_of_mem {fs : Fs} {e : Path × Entry} (h : e ∈ fs) : exists' fs e.1 = true := by
  induction fs with
  | nil => simp at h
  | cons f fs ih =>
    obtain ⟨q, y⟩ := f
    unfold exists' dictGet
    split
    · rfl
    · rename_i hq
      rcases List.mem_cons.1 h with rfl | h
      · exact absurd rfl hq
      · exact ih h

theorem any_lock_iff (fs : Fs) (d : Def) :
    fs.any (fun e => isLockIn d.lockDir e.1) = true ↔ ∃ t, Held fs d t := by
  rw [List.any_eq_true]
  constructor
  · rintro ⟨e, he, h⟩
    obtain ⟨t, ht⟩ := (isLockIn_iff _ _).1 h
    refine ⟨t, ?_⟩
    have := exists_of_mem he
    rw [ht] at this
    exact this
  · rintro ⟨t, ht⟩
    obtain ⟨x, hx⟩ := Option.isSome_iff_exists.1 ht
    exact ⟨_, mem_of_get hx, (isLockIn_iff _ _).2 ⟨t, rfl⟩⟩

theorem touch_keeps {fs : Fs} {d : Def} {p : Path} {x : Entry} (h : dictGet fs p = some x) :
    dictGet (d.touch fs) p = some x := by
  unfold Def.touch
  split
  · exact mkdirs_keeps h
  · exact h

theorem touch_lockFile (fs : Fs) (d : Def) (t : Str) :
    dictGet (d.touch fs) (d.lockFile t) = dictGet fs (d.lockFile t) := by
  cases h : dictGet fs (d.lockFile t) with
  | some x => exact touch_keeps h
  | none =>
    unfold Def.touch
    split
    · apply mkdirs_none h
      rintro ⟨_, hp⟩
      have := hp.length_le
      simp only [Def.lockFile, List.length_append, List.length_singleton] at this
      omega
    · exact h

theorem held_touch (fs : Fs) (d : Def) (t : Str) : Held (d.touch fs) d t ↔ Held fs d t := by
  unfold Held exists'
  rw [touch_lockFile]

/-- **C43.**  Without an argument, locking and unlocking mean the lock `folder` of a plain folder, `exds`
of a dataset and `experiment` of an experiment; the file of the lock `t` is `locked_t`, in the folder
itself or, for an experiment, in `locks/<subexperiment>`. -/
theorem default_lock_names (path : Path) (sub t : Str) (fs : Fs) :
    (∀ d ∈ [(⟨path, .base⟩ : Def), ⟨path, .exds⟩], d.lockFile t = path ++ ["locked_".toList ++ t]) ∧
    (⟨path, .experiment sub⟩ : Def).lockFile t = path ++ ["locks".toList, sub, "locked_".toList ++ t] ∧
    ∀ p ∈ [((⟨path, .base⟩ : Def), "folder".toList), (⟨path, .exds⟩, "exds".toList),
        (⟨path, .experiment sub⟩, "experiment".toList)],
      p.1.lock [] fs = p.1.lock p.2 fs ∧ p.1.unlock [] fs = p.1.unlock p.2 fs := by
  refine ⟨?_, ?_, ?_⟩
  · intro d hd
    simp only [List.mem_cons, List.not_mem_nil, or_false] at hd
    rcases hd with rfl | rfl <;> rfl
  · show (path ++ ["locks".toList, sub]) ++ ["locked_".toList ++ t] = _
    rw [List.append_assoc]; rfl
  · intro p hp
    simp only [List.mem_cons, List.not_mem_nil, or_false] at hp
    have key : ∀ (d : Def) (u : Str), d.defaultLock = u → u ≠ [] →
        d.lock [] fs = d.lock u fs ∧ d.unlock [] fs = d.unlock u fs := by
      intro d u e hu
      have h1 : d.lockType [] = u := by unfold Def.lockType; rw [if_pos rfl, e]
      have h2 : d.lockType u = u := by unfold Def.lockType; rw [if_neg hu]
      unfold Def.lock Def.unlock
      rw [h1, h2]
      exact ⟨rfl, rfl⟩
    rcases hp with rfl | rfl | rfl
    · exact key _ "folder".toList rfl (by decide)
    · exact key _ "exds".toList rfl (by decide)
    · exact key _ "experiment".toList rfl (by decide)

/-- **C43.**  `folder_is_locked()` answers whether any lock is held, `folder_is_locked(t)` whether the
lock `t` is held; asking changes no entry of the file system and no lock. -/
theorem is_locked_iff (fs : Fs) (d : Def) (t : Str) :
    ((d.isLocked [] fs).1 = true ↔ ∃ u, Held fs d u) ∧
    (t ≠ [] → ((d.isLocked t fs).1 = true ↔ Held fs d t)) ∧
    (∀ p x, dictGet fs p = some x → dictGet (d.isLocked t fs).2 p = some x) ∧
    (∀ u, Held (d.isLocked t fs).2 d u ↔ Held fs d u) := by
  have e : (d.isLocked t fs).2 = d.touch fs := by unfold Def.isLocked; split <;> rfl
  refine ⟨?_, ?_, ?_, ?_⟩
  · unfold Def.isLocked
    rw [if_pos rfl]
    show (d.touch fs).any _ = true ↔ _
    rw [any_lock_iff]
    exact exists_congr (fun u => held_touch fs d u)
  · intro ht
    unfold Def.isLocked
    rw [if_neg ht]
    exact held_touch fs d t
  · intro p x h; rw [e]; exact touch_keeps h
  · intro u; rw [e]; exact held_touch fs d u

theorem isLocked_state (fs : Fs) (d : Def) (t : Str) : (d.isLocked t fs).2 = d.touch fs := by
  unfold Def.isLocked; split <;> rfl

theorem mkdirsFrom_exists (fs : Fs) (done rest : Path)
    (h : ∀ r, r ≠ [] → r <+: rest → exists' fs (done ++ r) = true) : mkdirsFrom fs done rest = fs := by
  induction rest generalizing done with
  | nil => rfl
  | cons c cs ih =>
    unfold mkdirsFrom
    rw [if_pos (h [c] (by simp) ⟨cs, rfl⟩)]
    apply ih
    intro r hr hrc
    have := h (c :: r) (by simp) (by obtain ⟨t, ht⟩ := hrc; exact ⟨t, by simp [ht]⟩)
    simpa using this

theorem mkdirsFrom_all (fs : Fs) (done rest r : Path) (hr : r ≠ []) (hrr : r <+: rest) :
    exists' (mkdirsFrom fs done rest) (done ++ r) = true := by
  induction rest generalizing fs done r with
  | nil => exact absurd (List.prefix_nil.1 hrr) hr
  | cons c cs ih =>
    unfold mkdirsFrom
    cases r with
    | nil => exact absurd rfl hr
    | cons c' r =>
      obtain ⟨rfl, hrc⟩ := List.cons_prefix_cons.1 hrr
      by_cases hr0 : r = []
      · subst hr0
        have : exists' (if exists' fs (done ++ [c']) then fs else dictSet fs (done ++ [c']) .dir)
            (done ++ [c']) = true := by
          split
          · assumption
          · unfold exists'; rw [dictGet_dictSet, if_pos rfl]; rfl
        exact exists_keeps this (fun x hx => mkdirsFrom_keeps _ _ _ _ x hx)
      · have := ih (if exists' fs (done ++ [c']) then fs else dictSet fs (done ++ [c']) .dir)
          (done ++ [c']) r hr0 hrc
        simpa using this

theorem touch_touch (fs : Fs) (d : Def) : d.touch (d.touch fs) = d.touch fs := by
  obtain ⟨path, kind⟩ := d
  cases kind with
  | base => rfl
  | exds => rfl
  | experiment s =>
    show mkdirs (mkdirs fs _) _ = mkdirs fs _
    apply mkdirsFrom_exists
    intro r hr hrr
    exact mkdirsFrom_all fs [] _ r hr hrr

/-- The parent folder of the lock files exists when the object's folder does. -/
theorem lockDir_ready (fs : Fs) (d : Def) (hp : exists' fs d.path = true) :
    (d.lockDir = [] ∨ exists' (d.touch fs) d.lockDir = true) := by
  unfold Def.lockDir Def.touch Def.lockDir
  cases hk : d.kind with
  | base => exact .inr hp
  | exds => exact .inr hp
  | experiment s =>
    simp only []
    exact .inr (exists_mkdirs _ _ (by simp))

/-- **C43.**  Locking an existing folder never fails; the lock is held afterwards; every other entry
of the file system is kept, in particular the locks of other types. -/
theorem lock_spec (fs : Fs) (d : Def) (t : Str) (hp : exists' fs d.path = true) :
    (d.lock t fs).2 = none ∧ Held (d.lock t fs).1 d (d.lockType t) ∧
    (∀ u, u ≠ d.lockType t → (Held (d.lock t fs).1 d u ↔ Held fs d u)) ∧
    (∀ p x, p ≠ d.lockFile (d.lockType t) → dictGet fs p = some x →
      dictGet (d.lock t fs).1 p = some x) := by
  have hd := lockDir_ready fs d hp
  have hiff := (is_locked_iff fs d (d.lockType t)).2.1 (lockType_ne_nil d t)
  unfold Def.lock
  rw [isLocked_state, touch_touch]
  by_cases h : (d.isLocked (d.lockType t) fs).1 = true
  · rw [if_pos h]
    exact ⟨rfl, (held_touch _ _ _).2 (hiff.1 h), fun u _ => held_touch _ _ _, fun p x _ hx => touch_keeps hx⟩
  · rw [if_neg h]
    have hdl : (d.lockFile (d.lockType t)).dropLast = d.lockDir := by simp [Def.lockFile]
    have e : writeText (d.touch fs) (d.lockFile (d.lockType t)) "locked".toList =
        (dictSet (d.touch fs) (d.lockFile (d.lockType t)) (.file "locked".toList), none) := by
      unfold writeText
      rw [hdl, if_pos hd]
    rw [e]
    refine ⟨rfl, ?_, ?_, ?_⟩
    · show exists' _ _ = true
      unfold exists'; rw [dictGet_dictSet, if_pos rfl]; rfl
    · intro u hu
      have : d.lockFile (d.lockType t) ≠ d.lockFile u := fun h => hu (lockFile_inj h).symm
      rw [← held_touch fs d u]
      unfold Held exists'
      rw [dictGet_dictSet, if_neg this]
    · intro p x hpx hx
      rw [dictGet_dictSet, if_neg (Ne.symm hpx)]
      exact touch_keeps hx

/-- **C43.**  Locking twice is locking once. -/
theorem lock_idempotent (fs : Fs) (d : Def) (t : Str) (hp : exists' fs d.path = true) :
    d.lock t (d.lock t fs).1 = d.lock t fs := by
  have h1 := lock_spec fs d t hp
  have hl := ((is_locked_iff (d.lock t fs).1 d (d.lockType t)).2.1 (lockType_ne_nil d t)).2 h1.2.1
  have key : d.touch (d.lock t fs).1 = (d.lock t fs).1 := by
    have hall : ∀ r, r ≠ [] → r <+: d.lockDir → exists' (d.touch fs) r = true →
        exists' (d.lock t fs).1 r = true := by
      intro r hr hrr h0
      have hne : r ≠ d.lockFile (d.lockType t) := by
        intro e
        have h3 := hrr.length_le
        rw [e] at h3
        simp only [Def.lockFile, List.length_append, List.length_singleton] at h3
        omega
      unfold Def.lock
      rw [isLocked_state, touch_touch]
      split
      · exact h0
      · refine exists_keeps h0 (fun x hx => ?_)
        rw [get_writeText _ _ _ _ hne]; exact hx
    generalize (d.lock t fs).1 = fs' at hall
    obtain ⟨path, kind⟩ := d
    cases kind with
    | base => rfl
    | exds => rfl
    | experiment s =>
      apply mkdirsFrom_exists
      intro r hr hrr
      have := hall r hr hrr (mkdirsFrom_all fs [] _ r hr hrr)
      simpa using this
  generalize hg : d.lock t fs = g at h1 hl key ⊢
  unfold Def.lock
  rw [if_pos hl, isLocked_state, key, ← h1.1]

/-- **C43.**  Unlocking never fails; the lock is not held afterwards; every other entry of the file
system is kept, in particular the locks of other types. -/
theorem unlock_spec (fs : Fs) (d : Def) (t : Str) :
    (d.unlock t fs).2 = none ∧ ¬ Held (d.unlock t fs).1 d (d.lockType t) ∧
    (∀ u, u ≠ d.lockType t → (Held (d.unlock t fs).1 d u ↔ Held fs d u)) ∧
    (∀ p x, p ≠ d.lockFile (d.lockType t) → dictGet fs p = some x →
      dictGet (d.unlock t fs).1 p = some x) := by
  have hiff := (is_locked_iff fs d (d.lockType t)).2.1 (lockType_ne_nil d t)
  unfold Def.unlock
  rw [isLocked_state, touch_touch]
  by_cases h : (d.isLocked (d.lockType t) fs).1 = true
  · rw [if_pos h]
    have hex : exists' (d.touch fs) (d.lockFile (d.lockType t)) = true :=
      (held_touch _ _ _).2 (hiff.1 h)
    refine ⟨by unfold unlink; rw [if_pos hex], ?_, ?_, ?_⟩
    · unfold Held exists'
      rw [get_unlink, if_pos rfl]; simp
    · intro u hu
      have : d.lockFile u ≠ d.lockFile (d.lockType t) := fun h => hu (lockFile_inj h)
      rw [← held_touch fs d u]
      unfold Held exists'
      rw [get_unlink, if_neg this]
    · intro p x hpx hx
      rw [get_unlink, if_neg hpx]
      exact touch_keeps hx
  · rw [if_neg h]
    refine ⟨rfl, ?_, fun u _ => held_touch _ _ _, fun p x _ hx => touch_keeps hx⟩
    rw [held_touch]
    exact fun hh => h (hiff.2 hh)

/-- **C43.**  While any lock is held, `delete_folder` and `delete_subfolder` raise an exception and
no entry of the file system is changed or removed. -/
theorem delete_locked_refused (fs : Fs) (d : Def) (t : Str) (h : Held fs d t) :
    (d.deleteFolder fs).2 ≠ none ∧
    (∀ p x, dictGet fs p = some x → dictGet (d.deleteFolder fs).1 p = some x) ∧
    (∀ s, (d.deleteSubfolder s fs).2 ≠ none ∧
      ∀ p x, dictGet fs p = some x → dictGet (d.deleteSubfolder s fs).1 p = some x) := by
  have hl := (is_locked_iff fs d []).1.2 ⟨t, h⟩
  refine ⟨?_, ?_, fun s => ⟨?_, ?_⟩⟩
  · unfold Def.deleteFolder
    by_cases he : exists' fs d.path = false
    · rw [if_pos he]; simp
    · rw [if_neg he, if_pos hl]; simp
  · intro p x hx
    unfold Def.deleteFolder
    by_cases he : exists' fs d.path = false
    · rw [if_pos he]; exact hx
    · rw [if_neg he, if_pos hl, isLocked_state]; exact touch_keeps hx
  · unfold Def.deleteSubfolder; rw [if_pos hl]; simp
  · intro p x hx
    unfold Def.deleteSubfolder; rw [if_pos hl, isLocked_state]; exact touch_keeps hx

/-- What one allowed call keeps. -/
theorem step_keeps (fs : Fs) (d : Def) (t : Str) (h : Held fs d t) (c : Def × Op)
    (hc : Allowed d t c) :
    Held (step fs c) d t ∧ ∀ p x, d.path <+: p → ¬ IsLockOf d p → (∀ y, c.2 ≠ .put p y) →
      dictGet fs p = some x → dictGet (step fs c) p = some x := by
  -- a call that keeps all entries under the folder except lock files other than `t`
  suffices hs : ∀ p x, d.path <+: p → (p = d.lockFile t ∨ ¬ IsLockOf d p) → (∀ y, c.2 ≠ .put p y) →
      dictGet fs p = some x → dictGet (step fs c) p = some x by
    refine ⟨?_, fun p x hp hl hy hx => hs p x hp (.inr hl) hy hx⟩
    by_cases hput : ∃ y, c.2 = .put (d.lockFile t) y
    · obtain ⟨y, hy⟩ := hput
      obtain ⟨d', op⟩ := c
      simp only [] at hy
      subst hy
      show exists' (writeText fs (d.lockFile t) y).1 (d.lockFile t) = true
      unfold writeText
      split
      · unfold exists'; rw [dictGet_dictSet, if_pos rfl]; rfl
      · exact h
    · exact exists_keeps h (fun x hx => hs _ x (path_prefix_lockFile d t) (.inl rfl)
        (fun y hy => hput ⟨y, hy⟩) hx)
  intro p x hp hl hy hx
  obtain ⟨d', op⟩ := c
  -- calls that never remove anything
  have htouch : ∀ u, dictGet (d'.isLocked u fs).2 p = some x := fun u => by
    rw [isLocked_state]; exact touch_keeps hx
  rcases hc with ⟨he, hu⟩ | hun | ⟨q, y, hq⟩
  · simp only [] at he hu
    subst he
    cases op with
    | isLocked u => exact htouch u
    | lock u =>
      show dictGet (d'.lock u fs).1 p = some x
      unfold Def.lock
      rw [isLocked_state, touch_touch]
      by_cases hil : (d'.isLocked (d'.lockType u) fs).1 = true
      · rw [if_pos hil]; exact touch_keeps hx
      · rw [if_neg hil]
        by_cases e : p = d'.lockFile (d'.lockType u)
        · exfalso
          apply hil
          refine ((is_locked_iff fs d' (d'.lockType u)).2.1 (lockType_ne_nil d' u)).2 ?_
          unfold Held exists'; rw [← e, hx]; rfl
        · rw [get_writeText _ _ _ _ e]; exact touch_keeps hx
    | unlock u =>
      show dictGet (d'.unlock u fs).1 p = some x
      refine (unlock_spec fs d' u).2.2.2 p x ?_ hx
      rcases hl with rfl | hl
      · intro e; exact hu u rfl (lockFile_inj e).symm
      · intro e; exact hl ⟨_, e⟩
    | deleteFolder => exact (delete_locked_refused fs d' t h).2.1 p x hx
    | deleteSubfolder s => exact ((delete_locked_refused fs d' t h).2.2 s).2 p x hx
    | ensureFolder => exact mkdirs_keeps hx
    | ensureSubfolder s => exact mkdirs_keeps hx
    | put q z =>
      show dictGet (writeText fs q z).1 p = some x
      by_cases e : p = q
      · subst e; exact absurd rfl (hy z)
      · rw [get_writeText _ _ _ _ e]; exact hx
  · -- an object with an unrelated folder only touches paths below its own folder
    have hnp : ¬ d'.path <+: p := by
      intro h'
      rcases List.prefix_or_prefix_of_prefix h' hp with h1 | h1
      · exact hun.1 h1
      · exact hun.2 h1
    have hne : ∀ q, d'.path <+: q → p ≠ q := fun q hq e => hnp (e ▸ hq)
    have hrm : ∀ (q : Path), d'.path <+: q → dictGet (rmtree (d'.touch fs) q) p = some x := by
      intro q hq
      rw [get_rmtree, if_neg (fun h' => hnp (hq.trans h'))]
      exact touch_keeps hx
    cases op with
    | isLocked u => exact htouch u
    | lock u =>
      show dictGet (d'.lock u fs).1 p = some x
      unfold Def.lock
      rw [isLocked_state, touch_touch]
      split
      · exact touch_keeps hx
      · rw [get_writeText _ _ _ _ (hne _ (path_prefix_lockFile d' _))]; exact touch_keeps hx
    | unlock u => exact (unlock_spec fs d' u).2.2.2 p x (hne _ (path_prefix_lockFile d' _)) hx
    | deleteFolder =>
      show dictGet (d'.deleteFolder fs).1 p = some x
      unfold Def.deleteFolder
      rw [isLocked_state]
      split
      · exact hx
      · split
        · exact touch_keeps hx
        · exact hrm _ (List.prefix_refl _)
    | deleteSubfolder s =>
      show dictGet (d'.deleteSubfolder s fs).1 p = some x
      unfold Def.deleteSubfolder
      rw [isLocked_state]
      split
      · exact touch_keeps hx
      · split
        · exact touch_keeps hx
        · exact hrm _ ⟨_, rfl⟩
    | ensureFolder => exact mkdirs_keeps hx
    | ensureSubfolder s => exact mkdirs_keeps hx
    | put q z =>
      show dictGet (writeText fs q z).1 p = some x
      by_cases e : p = q
      · subst e; exact absurd rfl (hy z)
      · rw [get_writeText _ _ _ _ e]; exact hx
  · simp only [] at hq
    subst hq
    show dictGet (writeText fs q y).1 p = some x
    by_cases e : p = q
    · subst e; exact absurd rfl (hy y)
    · rw [get_writeText _ _ _ _ e]; exact hx

/-- **C43.**  While the lock `t` is held on the folder of `d`: after any history of calls on `d`
(other than unlocking `t`), of calls on objects with unrelated folders and of files written by
the program, the lock is still held, and everything in the folder that is not a lock file and was
not overwritten by the program is unchanged. -/
theorem locked_folder_survives (fs : Fs) (d : Def) (t : Str) (h : Held fs d t)
    (calls : List (Def × Op)) (hc : ∀ c ∈ calls, Allowed d t c) :
    Held (runAll fs calls) d t ∧
    ∀ p x, d.path <+: p → ¬ IsLockOf d p → (∀ c ∈ calls, ∀ y, c.2 ≠ .put p y) →
      dictGet fs p = some x → dictGet (runAll fs calls) p = some x := by
  induction calls generalizing fs with
  | nil => exact ⟨h, fun p x _ _ _ hx => hx⟩
  | cons c cs ih =>
    have h1 := step_keeps fs d t h c (hc c (by simp))
    have h2 := ih (step fs c) h1.1 (fun c' hc' => hc c' (by simp [hc']))
    refine ⟨h2.1, fun p x hp hl hy hx => ?_⟩
    exact h2.2 p x hp hl (fun c' hc' => hy c' (by simp [hc']))
      (h1.2 p x hp hl (hy c (by simp)) hx)

/-- **C43.**  Without any lock an existing folder is deleted with everything in it, and no other
entry is. -/
theorem delete_unlocked (fs : Fs) (d : Def) (he : exists' fs d.path = true)
    (h : ∀ t, ¬ Held fs d t) :
    (d.deleteFolder fs).2 = none ∧
    (∀ p, d.path <+: p → dictGet (d.deleteFolder fs).1 p = none) ∧
    (∀ p x, ¬ d.path <+: p → dictGet fs p = some x → dictGet (d.deleteFolder fs).1 p = some x) := by
  have hl : ¬ (d.isLocked [] fs).1 = true := by
    rw [(is_locked_iff fs d []).1]; push Not; exact h
  unfold Def.deleteFolder
  rw [if_neg (by simp [he]), if_neg hl, isLocked_state]
  refine ⟨rfl, fun p hp => ?_, fun p x hp hx => ?_⟩
  · show dictGet (rmtree (d.touch fs) d.path) p = _
    rw [get_rmtree, if_pos hp]
  · show dictGet (rmtree (d.touch fs) d.path) p = _
    rw [get_rmtree, if_neg hp]
    exact touch_keeps hx

/-! ## Subexperiments (C45) -/

/-- **C45, `delete_folder`.**  Whether an existing experiment folder is deleted depends only on the
locks of the subexperiment that asks for it, and the whole folder is then deleted: all data and
all locks of every other subexperiment, although they may be locked. -/
theorem delete_folder_ignores_siblings (fs : Fs) (path : Path) (s : Str)
    (he : exists' fs path = true) :
    ((Def.mk path (.experiment s)).deleteFolder fs).2 = none ↔
      ∀ t, ¬ Held fs ⟨path, .experiment s⟩ t := by
  constructor
  · intro h t ht
    exact (delete_locked_refused fs ⟨path, .experiment s⟩ t ht).1 h
  · exact fun h => (delete_unlocked fs ⟨path, .experiment s⟩ he h).1

/-- **Finding (C45).**  A subexperiment without locks deletes a locked one: afterwards neither
its locks nor any of its files exist. -/
theorem delete_folder_removes_locked_sibling (fs : Fs) (path : Path) (s s' : Str) (t : Str)
    (he : exists' fs path = true) (hs : ∀ u, ¬ Held fs ⟨path, .experiment s⟩ u)
    (_ht : Held fs ⟨path, .experiment s'⟩ t) :
    ((Def.mk path (.experiment s)).deleteFolder fs).2 = none ∧
    ¬ Held ((Def.mk path (.experiment s)).deleteFolder fs).1 ⟨path, .experiment s'⟩ t ∧
    ∀ p, path <+: p → dictGet ((Def.mk path (.experiment s)).deleteFolder fs).1 p = none := by
  have h := delete_unlocked fs ⟨path, .experiment s⟩ he hs
  refine ⟨h.1, ?_, h.2.1⟩
  unfold Held exists'
  rw [h.2.1 _ (path_prefix_lockFile (Def.mk path (.experiment s')) t)]
  simp

/-- **Finding (C45).**  `delete_subfolder` looks for the subfolder of the subexperiment, but deletes the
folder of all subexperiments: a subexperiment without locks that has the subfolder removes the
data of every other subexperiment in it, locked or not; with the subfolder `locks` it removes
their locks. -/
theorem delete_subfolder_removes_sibling_data (fs : Fs) (path : Path) (s sub : Str)
    (hs : ∀ u, ¬ Held fs ⟨path, .experiment s⟩ u)
    (he : exists' fs (path ++ [sub, s]) = true) :
    ((Def.mk path (.experiment s)).deleteSubfolder sub fs).2 = none ∧
    ∀ p, path ++ [sub] <+: p →
      dictGet ((Def.mk path (.experiment s)).deleteSubfolder sub fs).1 p = none := by
  have hl : ¬ ((Def.mk path (.experiment s)).isLocked [] fs).1 = true := by
    rw [(is_locked_iff fs _ []).1]; push Not; exact hs
  have hex : exists' ((Def.mk path (.experiment s)).touch fs) (path ++ [sub, s]) = true :=
    exists_keeps he (fun x hx => touch_keeps hx)
  unfold Def.deleteSubfolder
  rw [if_neg hl, isLocked_state, if_neg (by show ¬ exists' _ (path ++ [sub, s]) = false; simp [hex])]
  refine ⟨rfl, fun p hp => ?_⟩
  show dictGet (rmtree _ (path ++ [sub])) p = none
  rw [get_rmtree, if_pos hp]

/-- **Finding (C45).**  `delete_subfolder('locks')` of a new subexperiment always succeeds, because
looking for its own locks first makes the folder; it removes the locks of all subexperiments. -/
theorem delete_locks_subfolder_unlocks_all (fs : Fs) (path : Path) (s s' : Str) (t : Str)
    (hs : ∀ u, ¬ Held fs ⟨path, .experiment s⟩ u) :
    ((Def.mk path (.experiment s)).deleteSubfolder "locks".toList fs).2 = none ∧
    ¬ Held ((Def.mk path (.experiment s)).deleteSubfolder "locks".toList fs).1
      ⟨path, .experiment s'⟩ t := by
  have hl : ¬ ((Def.mk path (.experiment s)).isLocked [] fs).1 = true := by
    rw [(is_locked_iff fs _ []).1]; push Not; exact hs
  have hex : exists' ((Def.mk path (.experiment s)).touch fs) (path ++ ["locks".toList, s]) = true :=
    exists_mkdirs _ _ (by show path ++ ["locks".toList, s] ≠ []; simp)
  unfold Def.deleteSubfolder
  rw [if_neg hl, isLocked_state,
    if_neg (by show ¬ exists' _ (path ++ ["locks".toList, s]) = false; rw [hex]; decide)]
  refine ⟨rfl, ?_⟩
  unfold Held exists'
  show ¬ (dictGet (rmtree _ (path ++ ["locks".toList])) _).isSome = true
  rw [get_rmtree, if_pos]
  · simp
  · exact ⟨[s', lockName t], by simp [Def.lockFile, Def.lockDir]⟩

/-- **Finding.**  On a `LockablePath` itself both refusals of `delete_folder` are an
`AttributeError`: the message needs `self.name`. -/
theorem base_delete_attributeError (fs : Fs) (path : Path) (t : Str)
    (h : Held fs ⟨path, .base⟩ t) :
    ((Def.mk path .base).deleteFolder fs).2 = some .attributeError := by
  have hl := (is_locked_iff fs ⟨path, .base⟩ []).1.2 ⟨t, h⟩
  unfold Def.deleteFolder
  by_cases he : exists' fs (Def.mk path .base).path = false
  · rw [if_pos he]; rfl
  · rw [if_neg he, if_pos hl]; rfl

/-! ## Concrete cases -/

/-- (Example.) -/
def exExds : Def := ⟨["repo".toList, "ds".toList], .exds⟩
/-- (Example.) -/
def exOtherExds : Def := ⟨["repo".toList, "other".toList], .exds⟩
/-- (Example.) -/
def exMain : Def := ⟨["exp".toList, "e1".toList], .experiment "main".toList⟩
/-- (Example.) -/
def exSecond : Def := ⟨["exp".toList, "e1".toList], .experiment "second".toList⟩

/-- A locked dataset folder with a file. (Example.) -/
def exFs : Fs := runAll [] [(exExds, .ensureFolder), (exOtherExds, .ensureFolder),
  (exExds, .put ["repo".toList, "ds".toList, "X.mtx".toList] "1".toList), (exExds, .lock [])]

example : Held exFs exExds "exds".toList := by unfold Held; decide +kernel

example : ∀ c ∈ [(exExds, Op.deleteFolder), (exOtherExds, .deleteFolder), (exExds, .lock "a".toList),
    (exExds, .unlock "a".toList)], Allowed exExds "exds".toList c := by
  unfold Allowed Unrelated
  intro c hc
  simp only [List.mem_cons, List.not_mem_nil, or_false] at hc
  rcases hc with rfl | rfl | rfl | rfl
  · exact .inl ⟨rfl, by simp⟩
  · exact .inr (.inl (by decide))
  · exact .inl ⟨rfl, by simp⟩
  · exact .inl ⟨rfl, by intro u hu; cases hu; decide⟩

/-- An experiment with two subexperiments, the first locked. (Example.) -/
def exFsExp : Fs := runAll [] [(exMain, .ensureSubfolder "data".toList),
  (exSecond, .ensureSubfolder "data".toList),
  (exMain, .put ["exp".toList, "e1".toList, "data".toList, "main".toList, "r.pickle".toList] "1".toList),
  (exMain, .lock [])]

example : Held exFsExp exMain "experiment".toList ∧ exists' exFsExp exSecond.path = true ∧
    (exSecond.isLocked [] exFsExp).1 = false ∧ (exSecond.deleteFolder exFsExp).2 = none ∧
    exists' (exSecond.deleteSubfolder "data".toList exFsExp).1
      ["exp".toList, "e1".toList, "data".toList, "main".toList, "r.pickle".toList] = false ∧
    (exMain.deleteFolder exFsExp).2 = some lockableError := by
  unfold Held; decide +kernel

end Mbtk.Exp
