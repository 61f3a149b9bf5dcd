import Verif.ADTree.Server
import Verif.Props.ADTreeProps
/-!
# C95: answers of the AD-tree server
-/
namespace Mbtk.Server
open Mbtk Mbtk.ADTree Mbtk.ADTree.Spec

variable {ι : Type}

theorem Inv.not_idle {D : Data} {dyn : Bool} {s : Sys ι} (h : Inv D dyn s) {c : ι} (hc : c ∈ tokens s) :
    s.client c ≠ .idle := by
  unfold tokens at hc
  rw [List.mem_append, List.mem_append, List.mem_map, List.mem_map] at hc
  rcases hc with ⟨⟨c', m⟩, h1, rfl⟩ | h1 | ⟨⟨c', a⟩, h1, rfl⟩
  · rcases h.inbox _ _ h1 with h2 | h2 <;> rw [h2] <;> simp
  · obtain ⟨m, h2 | h2, _⟩ := h.owes c (by simpa using h1) <;> rw [h2] <;> simp
  · rcases h.outbox _ _ h1 with ⟨m, h2, _⟩ | h2 <;> rw [h2] <;> simp

theorem work_good {D : Data} (hD : Usable D) {dyn : Bool} {s : Sys ι} (h : Inv D dyn s) {m : Msg} {c : ι}
    (hc : s.owes = some c) {r : Request} (hr : m.request = some r) (hv : r.Valid D) :
    ∃ a tree counters, Right D m a ∧ TreeOk D dyn tree counters ∧
      work D dyn s m = { s with tree := tree, counters := counters, pc := .recv, owes := none, outbox := s.outbox ++ [(c, a)] } := by
  obtain ⟨⟨out, tree⟩, counters, h1, ⟨a, h2, h3⟩, h4⟩ := body_ok hD dyn h.tree hr hv
  refine ⟨a, tree, counters, ⟨r, hr, h3⟩, h4, ?_⟩
  simp only at h2
  subst h2
  unfold work
  rw [h1]
  simp only [sendAll, hc]

theorem work_other (D : Data) (dyn : Bool) (s : Sys ι) (n : String) :
    work D dyn s (.other n) = { s with pc := .recv } := by
  unfold work
  rw [body_other]
  rfl

variable [DecidableEq ι]

theorem step_inv {D : Data} (hD : Usable D) {dyn : Bool} {e : Event ι} {s s' : Sys ι} (h : Inv D dyn s)
    (hp : ∀ c m, e = .call c m → Proper D m) (st : Step D dyn e s s') : Inv D dyn s' := by
  cases st with
  | call _ c m hc =>
    have hne : ∀ c', c' ∈ tokens s → c' ≠ c := by
      rintro c' h1 rfl
      exact h.not_idle h1 hc
    have hup : ∀ c', c' ∈ tokens s → Function.update s.client c (.waiting m) c' = s.client c' :=
      fun c' h1 => Function.update_of_ne (hne c' h1) _ _
    have hin : ∀ c' m', (c', m') ∈ s.inbox → c' ∈ tokens s := fun c' m' h1 =>
      List.mem_append_left _ (List.mem_map_of_mem (f := Prod.fst) h1)
    have how : ∀ c', s.owes = some c' → c' ∈ tokens s := fun c' h1 =>
      List.mem_append_right _ (List.mem_append_left _ (by simp [h1]))
    have hout : ∀ c' a, (c', a) ∈ s.outbox → c' ∈ tokens s := fun c' m' h1 =>
      List.mem_append_right _ (List.mem_append_right _ (List.mem_map_of_mem (f := Prod.fst) h1))
    have hperm : (tokens { s with client := Function.update s.client c (.waiting m), inbox := s.inbox ++ [(c, m)] }).Perm
        (c :: tokens s) := by
      unfold tokens
      simp only [List.map_append, List.map_cons, List.map_nil, List.append_assoc, List.singleton_append]
      exact List.perm_middle
    refine ⟨h.tree, ?_, ?_, ?_, ?_, ?_, ?_, ?_, h.log⟩
    · rw [hperm.nodup_iff, List.nodup_cons]
      exact ⟨fun hm => hne c hm rfl, h.nodup⟩
    · intro c' m' hm
      rcases List.mem_append.1 hm with h1 | h1
      · simp only
        rw [hup c' (hin c' m' h1)]
        exact h.inbox c' m' h1
      · simp only [List.mem_singleton, Prod.mk.injEq] at h1
        obtain ⟨rfl, rfl⟩ := h1
        left
        simp
    · intro c' m' hm
      rcases List.mem_append.1 hm with h1 | h1
      · exact h.proper c' m' h1
      · simp only [List.mem_singleton, Prod.mk.injEq] at h1
        obtain ⟨rfl, rfl⟩ := h1
        exact hp _ _ rfl
    · intro m' hm
      obtain ⟨h1, c', h2, h3⟩ := h.handle m' hm
      refine ⟨h1, c', h2, ?_⟩
      simp only
      rw [hup c' (how c' h2)]
      exact h3
    · intro c' hc'
      obtain ⟨m', h1, h2⟩ := h.owes c' hc'
      refine ⟨m', ?_, h2⟩
      simp only
      rw [hup c' (how c' hc')]
      exact h1
    · intro c' a ha
      simp only
      rw [hup c' (hout c' a ha)]
      exact h.outbox c' a ha
    · intro c' m' hm
      rw [hperm.mem_iff, List.mem_cons]
      by_cases e1 : c' = c
      · exact Or.inl e1
      · right
        simp only [Function.update_of_ne e1] at hm
        exact h.waiting c' m' hm
  | receive _ l l' c m hpc how hin =>
    have hmem : (c, m) ∈ s.inbox := by rw [hin]; simp
    have hsub : ∀ x, x ∈ l ++ l' → x ∈ s.inbox := by
      intro x hx
      rw [hin]
      rcases List.mem_append.1 hx with h1 | h1 <;> simp [h1]
    have hperm : (tokens { s with pc := .handle m, owes := some c, inbox := l ++ l' }).Perm (tokens s) := by
      unfold tokens
      rw [how, hin]
      simp only [List.map_append, List.map_cons, Option.toList_some, Option.toList_none,
        List.singleton_append, List.nil_append]
      rw [List.append_assoc, List.append_assoc]
      refine List.Perm.append_left _ ?_
      exact List.perm_middle
    refine ⟨h.tree, hperm.nodup_iff.2 h.nodup, fun c' m' hm => h.inbox c' m' (hsub _ hm),
      fun c' m' hm => h.proper c' m' (hsub _ hm), ?_, ?_, h.outbox, ?_, h.log⟩
    · intro m' hm
      simp only [Pc.handle.injEq] at hm
      subst hm
      exact ⟨h.proper c m hmem, c, rfl, h.inbox c m hmem⟩
    · intro c' hc'
      simp only [Option.some.injEq] at hc'
      subst hc'
      exact ⟨m, h.inbox c m hmem, fun e => by cases e⟩
    · intro c' m' hm
      rw [hperm.mem_iff]
      exact h.waiting c' m' hm
  | receiveFails _ c hpc how =>
    refine ⟨h.tree, h.nodup, h.inbox, h.proper, fun m' hm => by (simp at hm), ?_, h.outbox, h.waiting, h.log⟩
    intro c' hc'
    obtain ⟨m', h1, h2⟩ := h.owes c' hc'
    exact ⟨m', h1, fun e => by cases e⟩
  | work _ m hpc =>
    obtain ⟨hprop, c, how, hcl⟩ := h.handle m hpc
    cases hr : m.request with
    | none =>
      obtain ⟨n, rfl⟩ : ∃ n, m = .other n := by
        cases m with
        | makePmf cols => cases hr
        | queryCount q => cases hr
        | other n => exact ⟨n, rfl⟩
      rw [work_other]
      refine ⟨h.tree, h.nodup, h.inbox, h.proper, fun m' hm => by (simp at hm), ?_, h.outbox, h.waiting, h.log⟩
      intro c' hc'
      have : c' = c := by
        have h1 : s.owes = some c' := hc'
        rw [how] at h1
        exact (Option.some.inj h1).symm
      subst this
      exact ⟨.other n, hcl, fun _ => ⟨n, rfl⟩⟩
    | some r =>
      obtain ⟨a, tree, counters, h1, h2, h3⟩ := work_good hD h how hr (hprop r hr)
      rw [h3]
      have hperm : (tokens { s with tree := tree, counters := counters, pc := .recv, owes := none, outbox := s.outbox ++ [(c, a)] }).Perm
          (tokens s) := by
        unfold tokens
        rw [how]
        simp only [List.map_append, List.map_cons, List.map_nil, Option.toList_some, Option.toList_none,
          List.singleton_append, List.nil_append]
        refine List.Perm.append_left _ ?_
        exact List.perm_append_comm
      refine ⟨h2, hperm.nodup_iff.2 h.nodup, h.inbox, h.proper, fun m' hm => by (simp at hm),
        fun c' hc' => by (simp at hc'), ?_, ?_, h.log⟩
      · intro c' a' ha
        rcases List.mem_append.1 ha with h4 | h4
        · exact h.outbox c' a' h4
        · simp only [List.mem_singleton, Prod.mk.injEq] at h4
          obtain ⟨rfl, rfl⟩ := h4
          rcases hcl with h5 | h5
          · exact Or.inl ⟨m, h5, h1⟩
          · exact Or.inr h5
      · intro c' m' hm
        rw [hperm.mem_iff]
        exact h.waiting c' m' hm
  | deliver _ l l' c a m hout hcl =>
    have hmem : (c, a) ∈ s.outbox := by rw [hout]; simp
    have hsub : ∀ x, x ∈ l ++ l' → x ∈ s.outbox := by
      intro x hx
      rw [hout]
      rcases List.mem_append.1 hx with h1 | h1 <;> simp [h1]
    have hperm : (tokens s).Perm (c :: tokens { s with outbox := l ++ l', client := Function.update s.client c .idle, log := s.log ++ [(c, m, a)] }) := by
      unfold tokens
      rw [hout]
      simp only [List.map_append, List.map_cons]
      rw [← List.append_assoc, ← List.append_assoc]
      refine List.perm_middle.trans ?_
      simp only [List.append_assoc]
      exact List.Perm.refl _
    have hnd : (c :: tokens { s with outbox := l ++ l', client := Function.update s.client c .idle, log := s.log ++ [(c, m, a)] }).Nodup :=
      hperm.nodup_iff.1 h.nodup
    rw [List.nodup_cons] at hnd
    have hup : ∀ c', c' ∈ tokens { s with outbox := l ++ l', client := Function.update s.client c .idle, log := s.log ++ [(c, m, a)] } →
        Function.update s.client c .idle c' = s.client c' := by
      intro c' h1
      refine Function.update_of_ne ?_ _ _
      rintro rfl
      exact hnd.1 h1
    refine ⟨h.tree, hnd.2, ?_, h.proper, ?_, ?_, ?_, ?_, ?_⟩
    · intro c' m' hm
      simp only
      rw [hup c' (List.mem_append_left _ (List.mem_map_of_mem (f := Prod.fst) hm))]
      exact h.inbox c' m' hm
    · intro m' hm
      obtain ⟨h1, c', h2, h3⟩ := h.handle m' hm
      refine ⟨h1, c', h2, ?_⟩
      simp only
      rw [hup c' (List.mem_append_right _ (List.mem_append_left _ (by simp [h2])))]
      exact h3
    · intro c' hc'
      obtain ⟨m', h1, h2⟩ := h.owes c' hc'
      refine ⟨m', ?_, h2⟩
      simp only
      rw [hup c' (List.mem_append_right _ (List.mem_append_left _ (by
        have : s.owes = some c' := hc'
        simp [this])))]
      exact h1
    · intro c' a' ha
      simp only
      rw [hup c' (List.mem_append_right _ (List.mem_append_right _ (List.mem_map_of_mem (f := Prod.fst) ha)))]
      exact h.outbox c' a' (hsub _ ha)
    · intro c' m' hm
      by_cases e1 : c' = c
      · subst e1
        simp at hm
      · simp only [Function.update_of_ne e1] at hm
        have := h.waiting c' m' hm
        rw [hperm.mem_iff, List.mem_cons] at this
        exact this.resolve_left e1
    · intro c' m' a' ha
      rcases List.mem_append.1 ha with h1 | h1
      · exact h.log c' m' a' h1
      · simp only [List.mem_singleton, Prod.mk.injEq] at h1
        obtain ⟨rfl, rfl, rfl⟩ := h1
        rcases h.outbox _ _ hmem with ⟨m1, h2, h3⟩ | h2
        · rw [hcl] at h2
          cases h2
          exact h3
        · rw [hcl] at h2
          cases h2
  | drop _ l l' c a hout hcl =>
    have hsub : ∀ x, x ∈ l ++ l' → x ∈ s.outbox := by
      intro x hx
      rw [hout]
      rcases List.mem_append.1 hx with h1 | h1 <;> simp [h1]
    have hperm : (tokens s).Perm (c :: tokens { s with outbox := l ++ l' }) := by
      unfold tokens
      rw [hout]
      simp only [List.map_append, List.map_cons]
      rw [← List.append_assoc, ← List.append_assoc]
      refine List.perm_middle.trans ?_
      simp only [List.append_assoc]
      exact List.Perm.refl _
    have hnd := hperm.nodup_iff.1 h.nodup
    rw [List.nodup_cons] at hnd
    refine ⟨h.tree, hnd.2, h.inbox, h.proper, h.handle, h.owes, fun c' a' ha => h.outbox c' a' (hsub _ ha), ?_, h.log⟩
    intro c' m' hm
    have h1 := h.waiting c' m' hm
    rw [hperm.mem_iff, List.mem_cons] at h1
    refine h1.resolve_left ?_
    rintro rfl
    have : s.client c' = .waiting m' := hm
    rw [hcl] at this
    cases this
  | leave _ c =>
    have key : ∀ c' : ι, Function.update s.client c .gone c' = .gone ∨
        Function.update s.client c .gone c' = s.client c' := by
      intro c'
      by_cases e1 : c' = c
      · subst e1; simp
      · right; exact Function.update_of_ne e1 _ _
    refine ⟨h.tree, h.nodup, ?_, h.proper, ?_, ?_, ?_, ?_, h.log⟩
    · intro c' m' hm
      rcases key c' with h1 | h1
      · exact Or.inr h1
      · simp only; rw [h1]; exact h.inbox c' m' hm
    · intro m' hm
      obtain ⟨h1, c', h2, h3⟩ := h.handle m' hm
      refine ⟨h1, c', h2, ?_⟩
      rcases key c' with h4 | h4
      · exact Or.inr h4
      · simp only; rw [h4]; exact h3
    · intro c' hc'
      obtain ⟨m', h1, h2⟩ := h.owes c' hc'
      refine ⟨m', ?_, h2⟩
      rcases key c' with h4 | h4
      · exact Or.inr h4
      · simp only; rw [h4]; exact h1
    · intro c' a' ha
      rcases key c' with h4 | h4
      · exact Or.inr h4
      · simp only; rw [h4]; exact h.outbox c' a' ha
    · intro c' m' hm
      rcases key c' with h4 | h4
      · simp only at hm; rw [h4] at hm; cases hm
      · simp only at hm; rw [h4] at hm; exact h.waiting c' m' hm
  | kill _ =>
    refine ⟨h.tree, h.nodup, h.inbox, h.proper, fun m' hm => by (simp at hm), ?_, h.outbox, h.waiting, h.log⟩
    intro c' hc'
    obtain ⟨m', h1, h2⟩ := h.owes c' hc'
    exact ⟨m', h1, fun e => by cases e⟩

omit [DecidableEq ι] in
theorem start_inv {D : Data} {dyn : Bool} {tree : ADNode} {s : Counters} (h : TreeOk D dyn tree s) :
    Inv D dyn (start ι tree s) := by
  refine ⟨h, by simp [tokens, start], ?_, ?_, ?_, ?_, ?_, ?_, ?_⟩ <;> simp [start]

omit [DecidableEq ι] in
theorem calls_snoc {P : Msg → Prop} {tr : List (Event ι)} {e : Event ι} (h : Calls P (tr ++ [e])) :
    Calls P tr ∧ ∀ c m, e = .call c m → P m :=
  ⟨fun c m hm => h c m (by simp [hm]), fun c m hm => h c m (by simp [hm])⟩

theorem run_inv {D : Data} (hD : Usable D) {dyn : Bool} {tr : List (Event ι)} {s0 s : Sys ι}
    (h0 : Inv D dyn s0) (hr : Run D dyn tr s0 s) (hc : Calls (Proper D) tr) : Inv D dyn s := by
  induction hr with
  | nil => exact h0
  | snoc hr st ih => exact step_inv hD (ih h0 (calls_snoc hc).1) (calls_snoc hc).2 st

/-- The tree of the server: built from the data, used in any way, saved, and loaded by the server.
G_test__with_AD_tree.py 58-60, 72-76, adtree-server.py 9-34. -/
def savedTree (D : Data) (dyn : Bool) (history : List Request) : TM ADNode := do
  let root ← create D dyn
  let (_, root) ← serveAll D dyn history root
  pure (pickleAD dyn root)

theorem savedTree_ok {D : Data} (hD : Usable D) (dyn : Bool) (history : List Request)
    (hh : ∀ r ∈ history, r.Valid D) : Ok (savedTree D dyn history) ⟨0, 0⟩ (TreeOk D dyn) := by
  refine Ok.bind ((create_treeOk hD dyn).mono ?_)
  intro root s h
  refine Ok.bind ((serveAll_ok hD dyn history h hh).mono ?_)
  rintro ⟨as, root1⟩ s1 ⟨_, h2⟩
  exact Ok.ret ⟨pickle_rep h2.1, by simpa using h2.2.1, by simpa using h2.2.2.1,
    fun w => by rw [pickle_size]; exact h2.2.2.2 w⟩

/-- **C95** (answers).  Whatever the clients do and whenever, in whatever order requests are received and
replies arrive, and wherever clients go away or the server is killed or stopped by an exception: every call that
returns, returns what is true of the dataset, for the request of that very call. -/
theorem server_answers_right {D : Data} (hD : Usable D) (dyn : Bool) (history : List Request)
    (hh : ∀ r ∈ history, r.Valid D) :
    Ok (savedTree D dyn history) ⟨0, 0⟩ (fun tree counters => ∀ (tr : List (Event ι)) s,
      Run D dyn tr (start ι tree counters) s → Calls (Proper D) tr →
      ∀ c m a, (c, m, a) ∈ s.log → Right D m a) := by
  refine (savedTree_ok hD dyn history hh).mono ?_
  intro tree counters h tr s hr hc
  exact (run_inv hD (start_inv h) hr hc).log

/-- **C95** (every call returns once, in order).  The requests of a client that has not gone away are those whose calls
have returned, in the same order, and then the one it is waiting for, if any. -/
theorem server_calls_in_order {D : Data} {dyn : Bool} {tree : ADNode} {counters : Counters}
    {tr : List (Event ι)} {s : Sys ι} (hr : Run D dyn tr (start ι tree counters) s) (c : ι)
    (hc : s.client c ≠ .gone) : asked c tr = (answered c s).map Prod.fst ++ pendingOf (s.client c) := by
  have work_same : ∀ (s : Sys ι) (m : Msg), (work D dyn s m).log = s.log ∧ (work D dyn s m).client = s.client := by
    intro s m
    unfold work
    split
    · exact ⟨rfl, rfl⟩
    · rename_i out tree counters heq
      generalize hg : { s with tree := tree, counters := counters } = s1
      have h1 : s1.log = s.log ∧ s1.client = s.client := by rw [← hg]; exact ⟨rfl, rfl⟩
      rw [← h1.1, ← h1.2]
      clear hg h1
      clear heq s m
      induction out generalizing s1 with
      | nil => exact ⟨rfl, rfl⟩
      | cons a as ih =>
        unfold sendAll
        split
        · exact ih { s1 with owes := none, outbox := s1.outbox ++ [_] }
        · exact ⟨rfl, rfl⟩
  generalize hs0 : start ι tree counters = s0 at hr
  induction hr with
  | nil =>
    subst hs0
    rfl
  | snoc hr st ih =>
    unfold asked at ih ⊢
    unfold answered at ih ⊢
    rw [List.filterMap_append]
    cases st with
    | call _ c' m h1 =>
      by_cases e : c' = c
      · subst e
        have := ih (by rw [h1]; simp) hs0
        simp only [this, h1, pendingOf, List.append_nil, List.filterMap_cons, List.filterMap_nil, if_true,
          Function.update_self]
      · simp only [Function.update_of_ne (Ne.symm e)] at hc
        rw [ih hc hs0]
        simp [e, Function.update_of_ne (Ne.symm e)]
    | receive _ l l' c' m h1 h2 h3 =>
      rw [ih hc hs0]
      simp
    | receiveFails _ c' h1 h2 =>
      rw [ih hc hs0]
      simp
    | work _ m h1 =>
      rw [(work_same _ m).2] at hc ⊢
      rw [(work_same _ m).1, ih hc hs0]
      simp
    | deliver _ l l' c' a m h1 h2 =>
      by_cases e : c' = c
      · subst e
        have := ih (by rw [h2]; simp) hs0
        rw [this, h2]
        simp [pendingOf]
      · simp only [Function.update_of_ne (Ne.symm e)] at hc
        rw [ih hc hs0]
        simp [e, Function.update_of_ne (Ne.symm e)]
    | drop _ l l' c' a h1 h2 =>
      rw [ih hc hs0]
      simp
    | leave _ c' =>
      by_cases e : c' = c
      · subst e
        simp at hc
      · simp only [Function.update_of_ne (Ne.symm e)] at hc
        rw [ih hc hs0]
        simp [Function.update_of_ne (Ne.symm e)]
    | kill _ =>
      rw [ih hc hs0]
      simp

/-! ## Progress -/

/-- What server and network do by themselves. (Specification.) -/
def Event.Progress : Event ι → Prop
  | .receive => True
  | .work => True
  | .deliver => True
  | _ => False

/-- Requests on their way, being served, and replies on their way. (Specification.) -/
def inFlight (s : Sys ι) : Nat := s.inbox.length + s.owes.toList.length + s.outbox.length

/-- What is left to do. (Models no code: a notion for statements and proofs.) -/
def weight (s : Sys ι) : Nat := 3 * s.inbox.length + 2 * s.owes.toList.length + s.outbox.length

/-- The server is at work. (Models no code: a notion for statements and proofs.) -/
structure Alive (D : Data) (s : Sys ι) : Prop where
  running : ¬ s.pc.Stopped
  recv : s.pc = .recv → s.owes = none
  handle : ∀ m, s.pc = .handle m → Good D m
  inbox : ∀ c m, (c, m) ∈ s.inbox → Good D m

theorem Good.proper {D : Data} {m : Msg} (h : Good D m) : Proper D m := by
  obtain ⟨r, h1, h2⟩ := h
  intro r' h3
  rw [h1] at h3
  cases h3
  exact h2

theorem step_alive {D : Data} (hD : Usable D) {dyn : Bool} {e : Event ι} {s s' : Sys ι} (hi : Inv D dyn s)
    (h : Alive D s) (hp : ∀ c m, e = .call c m → Good D m) (hk : e ≠ .kill) (st : Step D dyn e s s') :
    Alive D s' ∧ (e.Progress → weight s' < weight s) := by
  cases st with
  | call _ c m hc =>
    refine ⟨⟨h.running, h.recv, h.handle, ?_⟩, fun h => h.elim⟩
    intro c' m' hm
    rcases List.mem_append.1 hm with h1 | h1
    · exact h.inbox c' m' h1
    · simp only [List.mem_singleton, Prod.mk.injEq] at h1
      obtain ⟨rfl, rfl⟩ := h1
      exact hp _ _ rfl
  | receive _ l l' c m hpc how hin =>
    refine ⟨⟨?_, fun e => (by cases e), ?_, ?_⟩, fun _ => ?_⟩
    · rintro ⟨e, he⟩
      cases he
    · intro m' hm
      cases hm
      exact h.inbox c m (by rw [hin]; simp)
    · intro c' m' hm
      refine h.inbox c' m' ?_
      rw [hin]
      rcases List.mem_append.1 hm with h1 | h1 <;> simp [h1]
    · unfold weight
      rw [how, hin]
      simp
      omega
  | receiveFails _ c hpc how =>
    rw [h.recv hpc] at how
    cases how
  | work _ m hpc =>
    obtain ⟨_, c, how, _⟩ := hi.handle m hpc
    obtain ⟨r, hr, hv⟩ := h.handle m hpc
    obtain ⟨a, tree, counters, _, _, h3⟩ := work_good hD hi how hr hv
    rw [h3]
    refine ⟨⟨?_, fun _ => rfl, fun m' hm => (by cases hm), h.inbox⟩, fun _ => ?_⟩
    · rintro ⟨e, he⟩
      cases he
    · unfold weight
      rw [how]
      simp
      omega
  | deliver _ l l' c a m hout hcl =>
    refine ⟨⟨h.running, h.recv, h.handle, h.inbox⟩, fun _ => ?_⟩
    unfold weight
    rw [hout]
    simp
  | drop _ l l' c a hout hcl =>
    refine ⟨⟨h.running, h.recv, h.handle, h.inbox⟩, fun _ => ?_⟩
    unfold weight
    rw [hout]
    simp
  | leave _ c => exact ⟨⟨h.running, h.recv, h.handle, h.inbox⟩, fun h => h.elim⟩
  | kill _ => exact absurd rfl hk

theorem run_alive {D : Data} (hD : Usable D) {dyn : Bool} {tr : List (Event ι)} {s0 s : Sys ι}
    (hi : Inv D dyn s0) (h0 : Alive D s0) (hr : Run D dyn tr s0 s) (hc : Calls (Good D) tr)
    (hk : Event.kill ∉ tr) : Inv D dyn s ∧ Alive D s := by
  induction hr with
  | nil => exact ⟨hi, h0⟩
  | snoc hr st ih =>
    obtain ⟨h1, h2⟩ := ih hi h0 (calls_snoc hc).1 (fun h => hk (by simp [h]))
    have hg := (calls_snoc hc).2
    exact ⟨step_inv hD h1 (fun c m e => (hg c m e).proper) st,
      (step_alive hD h1 h2 hg (fun e => hk (by simp [e])) st).1⟩

/-- If nothing more happens by itself, nobody is waiting, unless the server has ended. -/
theorem quiet_nobody_waits {D : Data} {dyn : Bool} {s : Sys ι} (h : Inv D dyn s) (hn : ¬ s.pc.Stopped)
    (hq : ∀ e s', e.Progress → ¬ Step D dyn e s s') : tokens s = [] ∧ ∀ c m, s.client c ≠ .waiting m := by
  have hpc : s.pc = .recv := by
    cases hp : s.pc with
    | recv => rfl
    | handle m => exact absurd (.work s m hp) (hq .work _ trivial)
    | stopped e => exact absurd ⟨e, hp⟩ hn
  have how : s.owes = none := by
    cases ho : s.owes with
    | none => rfl
    | some c => exact absurd (.receiveFails s c hpc ho) (hq .receive _ trivial)
  have hin : s.inbox = [] := by
    cases hi : s.inbox with
    | nil => rfl
    | cons x l =>
      obtain ⟨c, m⟩ := x
      exact absurd (.receive s [] l c m hpc how (by rw [hi]; rfl)) (hq .receive _ trivial)
  have hout : s.outbox = [] := by
    cases ho : s.outbox with
    | nil => rfl
    | cons x l =>
      obtain ⟨c, a⟩ := x
      rcases h.outbox c a (by rw [ho]; simp) with ⟨m, h1, _⟩ | h1
      · exact absurd (.deliver s [] l c a m (by rw [ho]; rfl) h1) (hq .deliver _ trivial)
      · exact absurd (.drop s [] l c a (by rw [ho]; rfl) h1) (hq .deliver _ trivial)
  have ht : tokens s = [] := by
    unfold tokens
    rw [hin, how, hout]
    rfl
  refine ⟨ht, fun c m hc => ?_⟩
  have := h.waiting c m hc
  rw [ht] at this
  cases this

omit [DecidableEq ι] in
theorem weight_le (s : Sys ι) : weight s ≤ 3 * inFlight s := by
  unfold weight inFlight
  omega

theorem progress_length {D : Data} (hD : Usable D) {dyn : Bool} {tr : List (Event ι)} {s s' : Sys ι}
    (hi : Inv D dyn s) (h : Alive D s) (hr : Run D dyn tr s s') (hp : ∀ e ∈ tr, e.Progress) :
    Inv D dyn s' ∧ Alive D s' ∧ tr.length + weight s' ≤ weight s := by
  induction hr with
  | nil => exact ⟨hi, h, by simp⟩
  | @snoc tr e s s' s'' hr st ih =>
    obtain ⟨h1, h2, h3⟩ := ih hi h (fun e he => hp e (by simp [he]))
    have hpe : e.Progress := hp _ (List.mem_append_right _ (List.mem_singleton_self _))
    have hnc : ∀ c m, e = Event.call c m → Good D m := fun c m he => by
      rw [he] at hpe
      exact hpe.elim
    have hnk : e ≠ Event.kill := fun he => by
      rw [he] at hpe
      exact hpe
    obtain ⟨h4, h5⟩ := step_alive hD h1 h2 hnc hnk st
    refine ⟨step_inv hD h1 (fun c m e => (hnc c m e).proper) st, h4, ?_⟩
    have := h5 hpe
    simp only [List.length_append, List.length_cons, List.length_nil]
    omega

/-- **C95** (every call returns).  As long as clients only make the two requests, for existing columns, and the server is
not killed: the server never ends; whatever it and the network do by themselves takes at most three steps for each request in
flight; and when they have nothing more to do, no client is waiting. -/
theorem server_answers_everybody {D : Data} (hD : Usable D) (dyn : Bool) (history : List Request)
    (hh : ∀ r ∈ history, r.Valid D) :
    Ok (savedTree D dyn history) ⟨0, 0⟩ (fun tree counters => ∀ (tr : List (Event ι)) s,
      Run D dyn tr (start ι tree counters) s → Calls (Good D) tr → Event.kill ∉ tr →
      ¬ s.pc.Stopped ∧ ∀ tr' s', Run D dyn tr' s s' → (∀ e ∈ tr', e.Progress) →
        tr'.length ≤ 3 * inFlight s ∧
        ((∀ e s'', e.Progress → ¬ Step D dyn e s' s'') → ∀ c m, s'.client c ≠ .waiting m)) := by
  refine (savedTree_ok hD dyn history hh).mono ?_
  intro tree counters h tr s hr hc hk
  have h0 : Alive D (start ι tree counters) :=
    ⟨by (rintro ⟨e, he⟩; cases he), fun _ => rfl, by simp [start], by simp [start]⟩
  obtain ⟨h1, h2⟩ := run_alive hD (start_inv h) h0 hr hc hk
  refine ⟨h2.running, ?_⟩
  intro tr' s' hr' hp
  obtain ⟨h3, h4, h5⟩ := progress_length hD h1 h2 hr' hp
  refine ⟨?_, fun hq => (quiet_nobody_waits h3 h4.running hq).2⟩
  have := weight_le s
  omega

theorem run_trans {D : Data} {dyn : Bool} {tr tr' : List (Event ι)} {s s' s'' : Sys ι}
    (h1 : Run D dyn tr s s') (h2 : Run D dyn tr' s' s'') : Run D dyn (tr ++ tr') s s'' := by
  induction h2 with
  | nil => simpa using h1
  | snoc _ st ih =>
    rw [← List.append_assoc]
    exact .snoc (ih h1) st

/-- From any point, server and network can finish by themselves. -/
theorem server_can_finish {D : Data} (hD : Usable D) {dyn : Bool} : ∀ (n : Nat) (s : Sys ι), weight s ≤ n →
    Inv D dyn s → Alive D s → ∃ tr s', Run D dyn tr s s' ∧ (∀ e ∈ tr, e.Progress) ∧
      ∀ c m, s'.client c ≠ .waiting m := by
  intro n
  induction n with
  | zero =>
    intro s hw hi h
    refine ⟨[], s, .nil s, by simp, (quiet_nobody_waits (dyn := dyn) hi h.running ?_).2⟩
    intro e s' he st
    obtain ⟨_, _, h3⟩ := progress_length hD hi h (.snoc (.nil s) st) (by simpa using he)
    simp at h3
    omega
  | succ n ih =>
    intro s hw hi h
    by_cases hq : ∃ e s', e.Progress ∧ Step D dyn e s s'
    · obtain ⟨e, s', he, st⟩ := hq
      have hr : Run D dyn ([] ++ [e]) s s' := .snoc (.nil s) st
      obtain ⟨h1, h2, h3⟩ := progress_length hD hi h hr (by simpa using he)
      simp at h3
      obtain ⟨tr, s'', h4, h5, h6⟩ := ih s' (by omega) h1 h2
      refine ⟨[e] ++ tr, s'', run_trans hr h4, ?_, h6⟩
      intro e' he'
      rcases List.mem_append.1 he' with h7 | h7
      · rw [List.mem_singleton] at h7
        rw [h7]
        exact he
      · exact h5 e' h7
    · refine ⟨[], s, .nil s, by simp, (quiet_nobody_waits (dyn := dyn) hi h.running ?_).2⟩
      intro e s' he st
      exact hq ⟨e, s', he, st⟩

/-! ## Requests that are not known -/

/-- A request that is not known is on its way or being handled, or the server has been stopped.
(Models no code: a notion for statements and proofs.) -/
def Doomed (s : Sys ι) : Prop := (∃ c n, (c, .other n) ∈ s.inbox) ∨ (∃ n, s.pc = .handle (.other n)) ∨
  (s.pc = .recv ∧ s.owes ≠ none) ∨ s.pc.Stopped

omit [DecidableEq ι] in
theorem sendAll_inbox (out : List Answer) : ∀ s1 : Sys ι, (sendAll s1 out).inbox = s1.inbox := by
  induction out with
  | nil => intro s1; rfl
  | cons a as ih =>
    intro s1
    unfold sendAll
    split
    · exact ih { s1 with owes := none, outbox := s1.outbox ++ [_] }
    · rfl

omit [DecidableEq ι] in
theorem work_inbox (D : Data) (dyn : Bool) (s : Sys ι) (m : Msg) : (work D dyn s m).inbox = s.inbox := by
  unfold work
  split
  · rfl
  · exact sendAll_inbox _ _

theorem step_doomed {D : Data} {dyn : Bool} {e : Event ι} {s s' : Sys ι} (hi : Inv D dyn s)
    (h : Doomed s ∨ ∃ c n, e = .call c (.other n)) (st : Step D dyn e s s') : Doomed s' := by
  cases st with
  | call _ c m hc =>
    rcases h with (⟨c', n, h⟩ | h | h | h) | ⟨c', n, h⟩
    · exact Or.inl ⟨c', n, List.mem_append_left _ h⟩
    · exact Or.inr (Or.inl h)
    · exact Or.inr (Or.inr (Or.inl h))
    · exact Or.inr (Or.inr (Or.inr h))
    · cases h
      exact Or.inl ⟨_, _, List.mem_append_right _ (List.mem_singleton_self _)⟩
  | receive _ l l' c m hpc how hin =>
    rcases h with (⟨c', n, h⟩ | ⟨n, h⟩ | h | ⟨e, h⟩) | ⟨c', n, h⟩
    · rw [hin] at h
      rcases List.mem_append.1 h with h1 | h1
      · exact Or.inl ⟨c', n, List.mem_append_left _ h1⟩
      · rcases List.mem_cons.1 h1 with h2 | h2
        · cases h2
          exact Or.inr (Or.inl ⟨n, rfl⟩)
        · exact Or.inl ⟨c', n, List.mem_append_right _ h2⟩
    · rw [hpc] at h
      cases h
    · exact absurd how h.2
    · rw [hpc] at h
      cases h
    · cases h
  | receiveFails _ c hpc how => exact Or.inr (Or.inr (Or.inr ⟨_, rfl⟩))
  | work _ m hpc =>
    rcases h with (⟨c', n, h⟩ | ⟨n, h⟩ | h | ⟨e, h⟩) | ⟨c', n, h⟩
    · exact Or.inl ⟨c', n, by rw [work_inbox]; exact h⟩
    · rw [hpc] at h
      cases h
      obtain ⟨_, c, how, _⟩ := hi.handle _ hpc
      refine Or.inr (Or.inr (Or.inl ?_))
      rw [work_other]
      exact ⟨rfl, by rw [how]; simp⟩
    · rw [hpc] at h
      cases h.1
    · rw [hpc] at h
      cases h
    · cases h
  | deliver _ l l' c a m hout hcl => exact h.resolve_right (by rintro ⟨_, _, h⟩; cases h)
  | drop _ l l' c a hout hcl => exact h.resolve_right (by rintro ⟨_, _, h⟩; cases h)
  | leave _ c => exact h.resolve_right (by rintro ⟨_, _, h⟩; cases h)
  | kill _ => exact Or.inr (Or.inr (Or.inr ⟨_, rfl⟩))

theorem run_doomed {D : Data} (hD : Usable D) {dyn : Bool} {tr : List (Event ι)} {s0 s : Sys ι}
    (h0 : Inv D dyn s0) (hr : Run D dyn tr s0 s) (hc : Calls (Proper D) tr) {c : ι} {n : String}
    (hb : Event.call c (.other n) ∈ tr) : Doomed s := by
  induction hr with
  | nil => cases hb
  | snoc hr st ih =>
    refine step_doomed (run_inv hD h0 hr (calls_snoc hc).1) ?_ st
    rcases List.mem_append.1 hb with h1 | h1
    · exact Or.inl (ih h0 (calls_snoc hc).1 h1)
    · exact Or.inr ⟨c, n, (List.mem_singleton.1 h1).symm⟩

/-- **C95** (a request that is not known).  One request other than the two, by any client, is never answered, and
when server and network have nothing more to do, the server has ended. -/
theorem unknown_request_ends_server {D : Data} (hD : Usable D) (dyn : Bool) (history : List Request)
    (hh : ∀ r ∈ history, r.Valid D) :
    Ok (savedTree D dyn history) ⟨0, 0⟩ (fun tree counters => ∀ (tr : List (Event ι)) s,
      Run D dyn tr (start ι tree counters) s → Calls (Proper D) tr →
      ∀ c n, Event.call c (.other n) ∈ tr → (∀ a, (c, .other n, a) ∉ s.log) ∧
        ((∀ e s', e.Progress → ¬ Step D dyn e s s') → s.pc.Stopped)) := by
  refine (savedTree_ok hD dyn history hh).mono ?_
  intro tree counters h tr s hr hc c n hb
  have hi := run_inv hD (start_inv h) hr hc
  refine ⟨fun a ha => ?_, fun hq => ?_⟩
  · obtain ⟨r, h1, _⟩ := hi.log _ _ _ ha
    cases h1
  · by_contra hn
    obtain ⟨ht, _⟩ := quiet_nobody_waits hi hn hq
    rcases run_doomed hD (start_inv h) hr hc hb with ⟨c', n', h1⟩ | ⟨n', h1⟩ | ⟨h1, h2⟩ | h1
    · have : c' ∈ tokens s := List.mem_append_left _ (List.mem_map_of_mem (f := Prod.fst) h1)
      rw [ht] at this
      cases this
    · exact hq .work _ trivial (.work s _ h1)
    · obtain ⟨c', h3⟩ := Option.ne_none_iff_exists'.1 h2
      exact hq .receive _ trivial (.receiveFails s c' h1 h3)
    · exact hn h1

/-- **C95** (a request that fails).  An exception of the tree is not sent to the client: it ends the server, and the
client keeps waiting. -/
theorem failing_request_ends_server {D : Data} {dyn : Bool} {s s' : Sys ι} {m : Msg} {e : Err}
    (hpc : s.pc = .handle m) (hb : body D dyn m s.tree s.counters = .error e)
    (st : Step D dyn .work s s') :
    s'.pc = .stopped e ∧ s'.outbox = s.outbox ∧ s'.client = s.client := by
  cases st with
  | work _ m' h =>
    rw [hpc] at h
    cases h
    unfold work
    rw [hb]
    exact ⟨rfl, rfl, rfl⟩

/-- **C95** (after the end).  Once the server has ended, it stays so, and a client that waits for a reply that
has not been sent waits for ever (or goes away). -/
theorem ended_server_never_answers {D : Data} {dyn : Bool} {tr : List (Event ι)} {s s' : Sys ι}
    (hs : s.pc.Stopped) (hr : Run D dyn tr s s') :
    s'.pc.Stopped ∧ (∀ x ∈ s'.outbox, x ∈ s.outbox) ∧ ∀ c m, s.client c = .waiting m →
      (∀ a, (c, a) ∉ s.outbox) → s'.client c = .waiting m ∨ s'.client c = .gone := by
  induction hr with
  | nil => exact ⟨hs, fun _ h => h, fun c m h _ => Or.inl h⟩
  | snoc hr st ih =>
    obtain ⟨⟨e0, h1⟩, h2, h3⟩ := ih hs
    cases st with
    | call _ c m hc =>
      refine ⟨⟨e0, h1⟩, h2, fun c' m' h4 h5 => ?_⟩
      have h6 := h3 c' m' h4 h5
      have : c' ≠ c := by
        rintro rfl
        rw [hc] at h6
        rcases h6 with h6 | h6 <;> cases h6
      simp only [Function.update_of_ne this]
      exact h6
    | receive _ l l' c m hpc how hin =>
      rw [hpc] at h1
      cases h1
    | receiveFails _ c hpc how => exact ⟨⟨_, rfl⟩, h2, h3⟩
    | work _ m hpc =>
      rw [hpc] at h1
      cases h1
    | deliver _ l l' c a m hout hcl =>
      refine ⟨⟨e0, h1⟩, fun x hx => h2 x ?_, fun c' m' h4 h5 => ?_⟩
      · rw [hout]
        rcases List.mem_append.1 hx with h6 | h6 <;> simp [h6]
      · have : c' ≠ c := by
          rintro rfl
          exact h5 a (h2 _ (by rw [hout]; simp))
        simp only [Function.update_of_ne this]
        exact h3 c' m' h4 h5
    | drop _ l l' c a hout hcl =>
      refine ⟨⟨e0, h1⟩, fun x hx => h2 x ?_, h3⟩
      rw [hout]
      rcases List.mem_append.1 hx with h6 | h6 <;> simp [h6]
    | leave _ c =>
      refine ⟨⟨e0, h1⟩, h2, fun c' m' h4 h5 => ?_⟩
      by_cases e1 : c' = c
      · subst e1
        right
        simp
      · simp only [Function.update_of_ne e1]
        exact h3 c' m' h4 h5
    | kill _ => exact ⟨⟨_, rfl⟩, h2, h3⟩

/-! ## Example: two clients -/

theorem run_gone {D : Data} {dyn : Bool} {tr : List (Event ι)} {s s' : Sys ι} (hr : Run D dyn tr s s') {c : ι}
    (hc : s.client c ≠ .gone) (hl : Event.leave c ∉ tr) : s'.client c ≠ .gone := by
  have work_same : ∀ (s : Sys ι) (m : Msg), (work D dyn s m).client = s.client := by
    intro s m
    have hsend : ∀ (out : List Answer) (s1 : Sys ι), (sendAll s1 out).client = s1.client := by
      intro out
      induction out with
      | nil => intro s1; rfl
      | cons a as ih =>
        intro s1
        unfold sendAll
        split
        · exact ih { s1 with owes := none, outbox := s1.outbox ++ [_] }
        · rfl
    unfold work
    split
    · rfl
    · exact hsend _ _
  induction hr with
  | nil => exact hc
  | snoc hr st ih =>
    have h1 := ih hc (fun h => hl (by simp [h]))
    cases st with
    | call _ c' m h2 =>
      by_cases e : c = c'
      · subst e; simp
      · simp only [Function.update_of_ne e]; exact h1
    | receive _ l l' c' m h2 h3 h4 => exact h1
    | receiveFails _ c' h2 h3 => exact h1
    | work _ m h2 => rw [work_same]; exact h1
    | deliver _ l l' c' a m h2 h3 =>
      by_cases e : c = c'
      · subst e; simp
      · simp only [Function.update_of_ne e]; exact h1
    | drop _ l l' c' a h2 h3 => exact h1
    | leave _ c' =>
      have e : c ≠ c' := by
        rintro rfl
        exact hl (by simp)
      simp only [Function.update_of_ne e]; exact h1
    | kill _ => exact h1

/-- Two clients that call at the same time: there is an execution in which both calls return; what they return
is a number of rows, and a frequency table. -/
example : Ok (savedTree exampleData true []) ⟨0, 0⟩ (fun tree counters => ∃ (tr : List (Event Bool)) (s : Sys Bool),
    Run exampleData true tr (start Bool tree counters) s ∧ Calls (Good exampleData) tr ∧ Event.kill ∉ tr ∧
    (∃ a, answered true s = [(.queryCount [(0, 1)], a)] ∧ Right exampleData (.queryCount [(0, 1)]) a) ∧
    (∃ a, answered false s = [(.makePmf [0, 2], a)] ∧ Right exampleData (.makePmf [0, 2]) a)) := by
  refine (savedTree_ok exampleData_usable true [] (by simp)).mono ?_
  intro tree counters h
  have g1 : Good exampleData (.queryCount [(0, 1)]) := ⟨_, rfl, by unfold Request.Valid ValidQuery; decide⟩
  have g2 : Good exampleData (.makePmf [0, 2]) := ⟨_, rfl, by unfold Request.Valid; decide⟩
  have st1 : Step exampleData true (.call true (.queryCount [(0, 1)])) (start Bool tree counters) _ :=
    .call _ true (.queryCount [(0, 1)]) rfl
  have r2 : Run exampleData true _ (start Bool tree counters) _ :=
    .snoc (.snoc (.nil _) st1) (.call _ false (.makePmf [0, 2]) rfl)
  have hc2 : Calls (Good exampleData)
      ([] ++ [Event.call true (.queryCount [(0, 1)])] ++ [.call false (.makePmf [0, 2])]) := by
    intro c m hm
    simp only [List.nil_append, List.singleton_append, List.mem_cons, Event.call.injEq, List.not_mem_nil,
      or_false] at hm
    rcases hm with ⟨_, rfl⟩ | ⟨_, rfl⟩
    · exact g1
    · exact g2
  have h0 : Alive exampleData (start Bool tree counters) :=
    ⟨by (rintro ⟨e, he⟩; cases he), fun _ => rfl, by simp [start], by simp [start]⟩
  obtain ⟨hi, ha⟩ := run_alive exampleData_usable (start_inv h) h0 r2 hc2 (by simp)
  obtain ⟨tr, s, hr, hp, hw⟩ := server_can_finish exampleData_usable _ _ (le_refl _) hi ha
  have hrun := run_trans r2 hr
  have hcalls : Calls (Good exampleData)
      (([] ++ [Event.call true (.queryCount [(0, 1)])] ++ [.call false (.makePmf [0, 2])]) ++ tr) := by
    intro c m hm
    rcases List.mem_append.1 hm with h1 | h1
    · exact hc2 c m h1
    · exact (hp _ h1).elim
  have hgone : ∀ c, s.client c ≠ .gone := by
    intro c
    refine run_gone hrun (by simp [start]) ?_
    intro hm
    rcases List.mem_append.1 hm with h1 | h1
    · simp at h1
    · exact hp _ h1
  have hno : ∀ c, asked c tr = [] := by
    intro c
    unfold asked
    rw [List.filterMap_eq_nil_iff]
    intro e he
    cases e with
    | call c' m => exact (hp _ he).elim
    | _ => rfl
  have hpend : ∀ c, pendingOf (s.client c) = [] := by
    intro c
    cases hcl : s.client c with
    | waiting m => exact absurd hcl (hw c m)
    | _ => rfl
  have hlog := run_inv exampleData_usable (start_inv h) hrun (fun c m hm => (hcalls c m hm).proper)
  have one : ∀ c m, asked c ([] ++ [Event.call true (.queryCount [(0, 1)])] ++ [.call false (.makePmf [0, 2])]) = [m] →
      ∃ a, answered c s = [(m, a)] ∧ Right exampleData m a := by
    intro c m hm
    have h1 := server_calls_in_order hrun c (hgone c)
    have h2 : asked c (([] ++ [Event.call true (.queryCount [(0, 1)])] ++ [.call false (.makePmf [0, 2])]) ++ tr) =
        asked c ([] ++ [Event.call true (.queryCount [(0, 1)])] ++ [.call false (.makePmf [0, 2])]) ++ asked c tr := by
      unfold asked
      rw [List.filterMap_append]
    rw [h2, hm, hno, hpend, List.append_nil, List.append_nil] at h1
    cases hans : answered c s with
    | nil => rw [hans] at h1; cases h1
    | cons x l =>
      obtain ⟨m', a⟩ := x
      rw [hans, List.map_cons, List.cons.injEq] at h1
      obtain ⟨h3, h4⟩ := h1
      have h5 : l = [] := by
        cases l with
        | nil => rfl
        | cons _ _ => cases h4
      simp only at h3
      subst h3 h5
      refine ⟨a, rfl, hlog.log c m a ?_⟩
      have : (m, a) ∈ answered c s := by rw [hans]; simp
      unfold answered at this
      obtain ⟨⟨c1, m1, a1⟩, h6, h7⟩ := List.mem_filterMap.1 this
      simp only [Option.ite_none_right_eq_some, Option.some.injEq, Prod.mk.injEq] at h7
      obtain ⟨rfl, rfl, rfl⟩ := h7
      exact h6
  refine ⟨_, s, hrun, hcalls, ?_, one true _ rfl, one false _ rfl⟩
  intro hm
  rcases List.mem_append.1 hm with h1 | h1
  · simp at h1
  · exact hp _ h1

end Mbtk.Server
