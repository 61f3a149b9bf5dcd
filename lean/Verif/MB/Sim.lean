import Verif.MB.IpcmbMain
/-!
# Algorithms run with two tests that answer alike

IAMB and IPC-MB ask only questions about distinct variables with a duplicate-free conditioning set.
Two environments that answer those questions alike make the algorithms behave alike: the same
result (or exception), the same sequence of tests.
-/
namespace Mbtk.MB

variable {σ τ κ : Type}

/-- A proper question about variables of `U`: two different variables and a set without them.
(Models no code: a notion for statements and proofs.) -/
def Proper (U : List Nat) (X Y : Nat) (Z : List Nat) : Prop :=
  (X :: Y :: Z).Nodup ∧ ∀ x ∈ X :: Y :: Z, x ∈ U

/-- Two environments that answer every proper question alike (or refuse it alike), as long as their states are related by
`J` (which may depend on the questions asked so far).
(Models no code: a notion for statements and proofs.) -/
structure SameTests {κ' : Type} (U : List Nat) (J : List Query → σ → τ → Prop) (W : World σ κ)
    (W' : World τ κ') : Prop where
  ask : ∀ q X Y Z s t, J q s t → Proper U X Y Z → (∃ a s' t', W.ask X Y Z s = .ok (a, s') ∧
    W'.ask X Y Z t = .ok (a, t') ∧ J (q ++ [(X, Y, Z)]) s' t') ∨
    (∃ e, W.ask X Y Z s = .error e ∧ W'.ask X Y Z t = .error e)
  iter : ∀ q l s t, J q s t → (W.iter l s).1 = (W'.iter l t).1 ∧ (W.iter l s).1.Perm l ∧
    J q (W.iter l s).2 (W'.iter l t).2

/-- Two environments that also compute the same heuristic.
(Models no code: a notion for statements and proofs.) -/
structure SameAnswers (U : List Nat) (J : List Query → σ → τ → Prop) (W : World σ κ) (W' : World τ κ) : Prop
    extends SameTests U J W W' where
  heur : ∀ q X Y Z s t, J q s t → Proper U X Y Z → ∃ v s' t', W.heur X Y Z s = .ok (v, s') ∧
    W'.heur X Y Z t = .ok (v, t') ∧ J q s' t'

/-- Separating sets in the cache are proper.
(Models no code: a notion for statements and proofs.) -/
def SepOk (U : List Nat) (c : SetCache (List Nat)) : Prop :=
  ∀ A B z, dictGet c (fkey [A, B]) = some z → z.Nodup ∧ A ∉ z ∧ B ∉ z ∧ ∀ x ∈ z, x ∈ U

/-- States of two runs that have gone alike so far.
(Models no code: a notion for statements and proofs.) -/
structure Alike (U : List Nat) (J : List Query → σ → τ → Prop) (s : St σ) (t : St τ) : Prop where
  log : s.log = t.log
  sep : s.sep = t.sep
  env : J s.log s.w t.w
  ok : SepOk U s.sep

/-- The two computations give the same value (which satisfies `Q`) or the same exception, and related
states. (Models no code: a notion for statements and proofs.) -/
def Sim (U : List Nat) (J : List Query → σ → τ → Prop) {α : Type} (m : PyM (St σ) α) (m' : PyM (St τ) α)
    (Q : α → Prop) : Prop :=
  ∀ s t, Alike U J s t →
    (∃ a s' t', m s = .ok (a, s') ∧ m' t = .ok (a, t') ∧ Alike U J s' t' ∧ Q a) ∨
    (∃ e, m s = .error e ∧ m' t = .error e)

section
variable {U : List Nat} {J : List Query → σ → τ → Prop} {α β : Type}

theorem Sim.bind {m : PyM (St σ) α} {m' : PyM (St τ) α} {f : α → PyM (St σ) β}
    {f' : α → PyM (St τ) β} {Q : α → Prop} {Q' : β → Prop} (h : Sim U J m m' Q)
    (hf : ∀ a, Q a → Sim U J (f a) (f' a) Q') : Sim U J (m >>= f) (m' >>= f') Q' := by
  intro s t hst
  rcases h s t hst with ⟨a, s1, t1, e1, e2, h1, hQ⟩ | ⟨e, e1, e2⟩
  · have k1 : (m >>= f) s = f a s1 := by
      show (m s >>= fun p => f p.1 p.2) = _
      rw [e1]; rfl
    have k2 : (m' >>= f') t = f' a t1 := by
      show (m' t >>= fun p => f' p.1 p.2) = _
      rw [e2]; rfl
    rw [k1, k2]
    exact hf a hQ s1 t1 h1
  · refine Or.inr ⟨e, ?_, ?_⟩
    · show (m s >>= fun p => f p.1 p.2) = _
      rw [e1]; rfl
    · show (m' t >>= fun p => f' p.1 p.2) = _
      rw [e2]; rfl

theorem Sim.pure {a : α} {Q : α → Prop} (h : Q a) : Sim U J (Pure.pure a) (Pure.pure a) Q :=
  fun s t hst => Or.inl ⟨a, s, t, rfl, rfl, hst, h⟩

theorem Sim.throw {e : Err} {Q : α → Prop} : Sim U J (throw e) (throw e) Q :=
  fun _ _ _ => Or.inr ⟨e, rfl, rfl⟩

theorem Sim.lift {x : Except Err α} {Q : α → Prop} (h : ∀ a, x = .ok a → Q a) :
    Sim U J (liftM x) (liftM x) Q := by
  intro s t hst
  cases x with
  | error e => exact Or.inr ⟨e, rfl, rfl⟩
  | ok a => exact Or.inl ⟨a, s, t, rfl, rfl, hst, h a rfl⟩

theorem Sim.mono {m : PyM (St σ) α} {m' : PyM (St τ) α} {Q Q' : α → Prop} (h : Sim U J m m' Q)
    (hQ : ∀ a, Q a → Q' a) : Sim U J m m' Q' := by
  intro s t hst
  rcases h s t hst with ⟨a, s1, t1, e1, e2, h1, k⟩ | h
  · exact Or.inl ⟨a, s1, t1, e1, e2, h1, hQ a k⟩
  · exact Or.inr h

variable {W : World σ κ} {W' : World τ κ}

theorem sim_ask (hW : SameTests U J W W') {X Y : Nat} {Z : List Nat} (hp : Proper U X Y Z) :
    Sim U J (ask W X Y Z) (ask W' X Y Z) (fun _ => True) := by
  intro s t hst
  rcases hW.ask s.log X Y Z s.w t.w hst.env hp with ⟨a, s', t', e1, e2, h⟩ | ⟨e, e1, e2⟩
  swap
  · exact Or.inr ⟨e, by simp [ask, e1], by simp [ask, e2]⟩
  refine Or.inl ⟨a, { s with log := s.log ++ [(X, Y, Z)], w := s' },
    { t with log := t.log ++ [(X, Y, Z)], w := t' }, by simp [ask, e1], by simp [ask, e2],
    ⟨?_, hst.sep, h, hst.ok⟩, trivial⟩
  show s.log ++ _ = t.log ++ _
  rw [hst.log]

theorem sim_heur (hW : SameAnswers U J W W') {X Y : Nat} {Z : List Nat} (hp : Proper U X Y Z) :
    Sim U J (heur W X Y Z) (heur W' X Y Z) (fun _ => True) := by
  intro s t hst
  obtain ⟨a, s', t', e1, e2, h⟩ := hW.heur s.log X Y Z s.w t.w hst.env hp
  exact Or.inl ⟨a, { s with w := s' }, { t with w := t' }, by simp [heur, e1], by simp [heur, e2],
    ⟨hst.log, hst.sep, h, hst.ok⟩, trivial⟩

theorem sim_iter (hW : SameTests U J W W') (l : List Nat) :
    Sim U J (iter W l) (iter W' l) (fun l' => l'.Perm l) := by
  intro s t hst
  obtain ⟨h1, h2, h3⟩ := hW.iter s.log l s.w t.w hst.env
  exact Or.inl ⟨(W.iter l s.w).1, _, { t with w := (W'.iter l t.w).2 }, rfl, by rw [h1]; rfl, ⟨hst.log, hst.sep, h3, hst.ok⟩, h2⟩

/-! ## IAMB -/

theorem sim_maxScan [LinearOrder κ] (hW : SameAnswers U J W W') (T : Nat) (cmb : List Nat)
    (ys : List Nat) : ∀ (best : Nat) (k : κ), (∀ y ∈ ys, Proper U T y cmb) →
      Sim U J (maxScan W T cmb ys best k) (maxScan W' T cmb ys best k)
        (fun c => c = best ∨ c ∈ ys) := by
  induction ys with
  | nil => intro best k _; exact Sim.pure (Or.inl rfl)
  | cons y ys ih =>
    intro best k hp
    rw [maxScan, maxScan]
    refine Sim.bind (sim_heur hW (hp y (by simp))) ?_
    intro v _
    have hp' : ∀ y ∈ ys, Proper U T y cmb := fun z hz => hp z (by simp [hz])
    by_cases hlt : k < v
    · rw [if_pos hlt, if_pos hlt]
      exact (ih y v hp').mono (fun c hc => by simp only [List.mem_cons]; tauto)
    · rw [if_neg hlt, if_neg hlt]
      exact (ih best k hp').mono (fun c hc => by simp only [List.mem_cons]; tauto)

theorem sim_highest [LinearOrder κ] (hW : SameAnswers U J W W') (T : Nat) (cands cmb : List Nat)
    (hp : ∀ y ∈ cands, Proper U T y cmb) :
    Sim U J (highest W T cands cmb) (highest W' T cands cmb) (fun c => c ∈ cands) := by
  refine Sim.bind (sim_iter hW.toSameTests cands) ?_
  intro l hl
  cases l with
  | nil => exact Sim.throw
  | cons x xs =>
    have hm : ∀ y ∈ x :: xs, y ∈ cands := fun y hy => hl.mem_iff.1 hy
    refine Sim.bind (sim_heur hW (hp x (hm x (by simp)))) ?_
    intro v _
    refine (sim_maxScan hW T cmb xs x v (fun y hy => hp y (hm y (by simp [hy])))).mono ?_
    rintro c (rfl | hc)
    · exact hm c (by simp)
    · exact hm c (by simp [hc])

theorem proper_of {T y : Nat} {Z : List Nat} (hT : T ∈ U) (hy : y ∈ U) (hyT : y ≠ T)
    (hZ : Z.Nodup) (hZU : ∀ z ∈ Z, z ∈ U) (hTZ : T ∉ Z) (hyZ : y ∉ Z) : Proper U T y Z := by
  refine ⟨?_, ?_⟩
  · simp only [List.nodup_cons, List.mem_cons, not_or]
    exact ⟨⟨fun h => hyT h.symm, hTZ⟩, hyZ, hZ⟩
  · intro x hx
    simp only [List.mem_cons] at hx
    rcases hx with rfl | rfl | hx
    · exact hT
    · exact hy
    · exact hZU x hx

theorem sim_growLoop [LinearOrder κ] (hW : SameAnswers U J W W') {T : Nat} (hT : T ∈ U)
    (fuel : Nat) : ∀ (cands cmb : List Nat), (∀ y ∈ cands, y ∈ U ∧ y ≠ T ∧ y ∉ cmb) → cmb.Nodup →
      (∀ x ∈ cmb, x ∈ U ∧ x ≠ T) →
      Sim U J (growLoop W T fuel cands cmb) (growLoop W' T fuel cands cmb)
        (fun r => r.Nodup ∧ ∀ x ∈ r, x ∈ U ∧ x ≠ T) := by
  induction fuel with
  | zero => intro _ _ _ _ _; exact Sim.throw
  | succ fuel ih =>
    intro cands cmb hc hn hcmb
    rw [growLoop, growLoop]
    have hp : ∀ y ∈ cands, Proper U T y cmb := fun y hy =>
      proper_of hT (hc y hy).1 (hc y hy).2.1 hn (fun z hz => (hcmb z hz).1)
        (fun h => (hcmb T h).2 rfl) (hc y hy).2.2
    by_cases h0 : cands.length = 0
    · rw [if_pos h0, if_pos h0]
      exact Sim.pure ⟨hn, hcmb⟩
    · rw [if_neg h0, if_neg h0]
      refine Sim.bind (sim_highest hW T cands cmb hp) ?_
      intro c hcc
      refine Sim.bind (sim_ask hW.toSameTests (hp c hcc)) ?_
      intro a _
      have hc1 : ∀ y ∈ without cands c, y ∈ U ∧ y ≠ T ∧ y ∉ cmb := fun y hy =>
        hc y (mem_without.1 hy).1
      cases a with
      | independent => exact Sim.pure ⟨hn, hcmb⟩
      | insufficient => exact ih (without cands c) cmb hc1 hn hcmb
      | dependent =>
        refine ih (without cands c) (setAdd cmb c) ?_ (nodup_setAdd hn c) ?_
        · intro y hy
          refine ⟨(hc1 y hy).1, (hc1 y hy).2.1, ?_⟩
          rw [mem_setAdd]
          rintro (h | rfl)
          · exact (hc1 y hy).2.2 h
          · exact (mem_without.1 hy).2 rfl
        · intro x hx
          rcases mem_setAdd.1 hx with hx | rfl
          · exact hcmb x hx
          · exact ⟨(hc x hcc).1, (hc x hcc).2.1⟩

theorem sim_shrinkLoop (hW : SameAnswers U J W W') {T : Nat} (hT : T ∈ U) {cmb : List Nat}
    (hn : cmb.Nodup) (hcmb : ∀ x ∈ cmb, x ∈ U ∧ x ≠ T) (cs : List Nat) :
    ∀ fp, (∀ c ∈ cs, c ∈ cmb) →
      Sim U J (shrinkLoop W T cmb cs fp) (shrinkLoop W' T cmb cs fp) (fun _ => True) := by
  induction cs with
  | nil => intro fp _; exact Sim.pure trivial
  | cons c cs ih =>
    intro fp hcs
    rw [shrinkLoop, shrinkLoop]
    have hc := hcmb c (hcs c (by simp))
    have hsub : ∀ z ∈ without (diff cmb fp) c, z ∈ cmb ∧ z ≠ c := fun z hz =>
      ⟨(mem_diff.1 (mem_without.1 hz).1).1, (mem_without.1 hz).2⟩
    refine Sim.bind (sim_ask hW.toSameTests (proper_of hT hc.1 hc.2 (nodup_without (nodup_diff hn _) _)
      (fun z hz => (hcmb z (hsub z hz).1).1) (fun h => (hcmb T (hsub T h).1).2 rfl)
      (fun h => (hsub c h).2 rfl))) ?_
    intro a _
    have hcs' : ∀ x ∈ cs, x ∈ cmb := fun x hx => hcs x (by simp [hx])
    cases a <;> exact ih _ hcs'

theorem sim_iamb [LinearOrder κ] (hW : SameAnswers U J W W') {T : Nat} (hT : T ∈ U) :
    Sim U J (iamb W U T) (iamb W' U T) (fun _ => True) := by
  refine Sim.bind (sim_growLoop hW hT _ (without U T) []
    (fun y hy => ⟨(mem_without.1 hy).1, (mem_without.1 hy).2, by simp⟩) (by simp) (by simp)) ?_
  rintro cmb ⟨h1, h2⟩
  refine Sim.bind (m := shrink W T cmb) (m' := shrink W' T cmb) (Q := fun _ => True) ?_
    (fun r _ => Sim.pure trivial)
  refine Sim.bind (sim_iter hW.toSameTests cmb) ?_
  intro l hl
  refine Sim.bind (sim_shrinkLoop hW hT h1 h2 l [] (fun c hc => hl.mem_iff.1 hc)) ?_
  intro fp _
  exact Sim.pure trivial

/-! ## IPC-MB -/

theorem sim_sepAdd {T X : Nat} {Z : List Nat} (hp : Proper U X T Z) :
    Sim U J (sepAdd Z T X) (sepAdd Z T X) (fun _ => True) := by
  intro s t hst
  refine Or.inl ⟨(), _, _, rfl, rfl, ⟨hst.log, ?_, hst.env, ?_⟩, trivial⟩
  · show s.sep.add Z [T, X] = t.sep.add Z [T, X]
    rw [hst.sep]
  · intro A B z hz
    change dictGet (dictSet s.sep (fkey [T, X]) Z) (fkey [A, B]) = some z at hz
    rw [dictGet_dictSet] at hz
    by_cases hk : fkey [T, X] = fkey [A, B]
    · rw [if_pos hk] at hz
      cases hz
      have hnd := hp.1
      simp only [List.nodup_cons, List.mem_cons, not_or] at hnd
      have hk' := fkey_eq_iff.1 hk
      have hA := (hk' A).2 (by simp)
      have hB := (hk' B).2 (by simp)
      simp only [List.mem_cons, List.not_mem_nil, or_false] at hA hB
      refine ⟨hnd.2.2, ?_, ?_, fun x hx => hp.2 x (by simp [hx])⟩
      · rcases hA with rfl | rfl
        · exact hnd.2.1
        · exact hnd.1.2
      · rcases hB with rfl | rfl
        · exact hnd.2.1
        · exact hnd.1.2
    · rw [if_neg hk] at hz
      exact hst.ok A B z hz

theorem sim_sepDefault (T X : Nat) :
    Sim U J (sepDefault T X) (sepDefault T X) (fun _ => True) := by
  intro s t hst
  by_cases hk : s.sep.contains [T, X] = true
  · have hk' : t.sep.contains [T, X] = true := by rw [← hst.sep]; exact hk
    refine Or.inl ⟨(), s, t, ?_, ?_, hst, trivial⟩
    · show Except.ok ((), if s.sep.contains [T, X] then s else { s with sep := s.sep.add [] [T, X] }) = _
      rw [if_pos hk]
    · show Except.ok ((), if t.sep.contains [T, X] then t else { t with sep := t.sep.add [] [T, X] }) = _
      rw [if_pos hk']
  · have hk' : ¬ t.sep.contains [T, X] = true := by rw [← hst.sep]; exact hk
    refine Or.inl ⟨(), { s with sep := s.sep.add [] [T, X] }, { t with sep := t.sep.add [] [T, X] },
      ?_, ?_, ⟨hst.log, ?_, hst.env, ?_⟩, trivial⟩
    · show Except.ok ((), if s.sep.contains [T, X] then s else { s with sep := s.sep.add [] [T, X] }) = _
      rw [if_neg hk]
    · show Except.ok ((), if t.sep.contains [T, X] then t else { t with sep := t.sep.add [] [T, X] }) = _
      rw [if_neg hk']
    · show s.sep.add [] [T, X] = t.sep.add [] [T, X]
      rw [hst.sep]
    · intro A B z hz
      change dictGet (dictSet s.sep (fkey [T, X]) []) (fkey [A, B]) = some z at hz
      rw [dictGet_dictSet] at hz
      split at hz
      · cases hz
        exact ⟨by simp, by simp, by simp, by simp⟩
      · exact hst.ok A B z hz

theorem sim_sepGet (T Y : Nat) : Sim U J (sepGet T Y) (sepGet T Y)
    (fun z => z.Nodup ∧ T ∉ z ∧ Y ∉ z ∧ ∀ x ∈ z, x ∈ U) := by
  intro s t hst
  have h1 : sepGet T Y s = (s.sep.get [T, Y] >>= fun r => Except.ok (r, s)) := rfl
  have h2 : sepGet T Y t = (t.sep.get [T, Y] >>= fun r => Except.ok (r, t)) := rfl
  rw [h1, h2, ← hst.sep]
  unfold SetCache.get
  cases hg : dictGet s.sep (fkey [T, Y]) with
  | none => exact Or.inr ⟨.keyError, rfl, rfl⟩
  | some z => exact Or.inl ⟨z, s, t, rfl, rfl, hst, hst.ok T Y z hg⟩

theorem sim_sepSearch (hW : SameTests U J W W') (T X : Nat) (Zs : List (List Nat)) :
    ∀ non, (∀ Z ∈ Zs, Proper U X T Z) →
      Sim U J (sepSearch W T X Zs non) (sepSearch W' T X Zs non) (fun _ => True) := by
  induction Zs with
  | nil => intro non _; exact Sim.pure trivial
  | cons Z Zs ih =>
    intro non hp
    rw [sepSearch, sepSearch]
    have hpZ := hp Z (by simp)
    have hp' : ∀ Z ∈ Zs, Proper U X T Z := fun Z' hZ' => hp Z' (by simp [hZ'])
    refine Sim.bind (sim_ask hW hpZ) ?_
    intro a _
    cases a with
    | independent => exact Sim.bind (sim_sepAdd hpZ) (fun _ _ => Sim.pure trivial)
    | dependent => exact ih non hp'
    | insufficient => exact ih true hp'

theorem sim_pcRound (hW : SameTests U J W W') {T : Nat} (hT : T ∈ U) {adj : List Nat}
    (hadj : adj.Nodup) (hadjU : ∀ x ∈ adj, x ∈ U ∧ x ≠ T) (k : Nat) (Xs : List Nat) :
    ∀ nonPC, (∀ X ∈ Xs, X ∈ adj) →
      Sim U J (pcRound W T adj k Xs nonPC) (pcRound W' T adj k Xs nonPC) (fun _ => True) := by
  induction Xs with
  | nil => intro nonPC _; exact Sim.pure trivial
  | cons X Xs ih =>
    intro nonPC hXs
    rw [pcRound, pcRound]
    have hX := hadjU X (hXs X (by simp))
    refine Sim.bind (sim_iter hW (without adj X)) ?_
    intro base hb
    refine Sim.bind (sim_sepSearch hW T X (combinations k base) false ?_) ?_
    · intro Z hZ
      obtain ⟨h1, -⟩ := mem_combinations.1 hZ
      have hbn : base.Nodup := hb.nodup_iff.2 (nodup_without hadj X)
      have hsub : ∀ z ∈ Z, z ∈ adj ∧ z ≠ X := fun z hz => mem_without.1 (hb.mem_iff.1 (h1.subset hz))
      exact proper_of hX.1 hT (fun h => hX.2 h.symm) (hbn.sublist h1)
        (fun z hz => (hadjU z (hsub z hz).1).1) (fun h => (hsub X h).2 rfl)
        (fun h => (hadjU T (hsub T h).1).2 rfl)
    · intro b _
      refine Sim.bind (sim_sepDefault T X) ?_
      intro _ _
      exact ih _ (fun Y hY => hXs Y (by simp [hY]))

theorem sim_pcLoop (hW : SameTests U J W W') {T : Nat} (hT : T ∈ U) (fuel : Nat) :
    ∀ (k : Nat) (adj : List Nat), adj.Nodup → (∀ x ∈ adj, x ∈ U ∧ x ≠ T) →
      Sim U J (pcLoop W T fuel k adj) (pcLoop W' T fuel k adj)
        (fun r => r.Nodup ∧ ∀ x ∈ r, x ∈ adj) := by
  induction fuel with
  | zero => intro _ _ _ _; exact Sim.throw
  | succ fuel ih =>
    intro k adj hn hU
    rw [pcLoop, pcLoop]
    refine Sim.bind (sim_iter hW adj) ?_
    intro l hl
    refine Sim.bind (sim_pcRound hW hT hn hU k l [] (fun X hX => hl.mem_iff.1 hX)) ?_
    intro nonPC _
    have hsub : ∀ x ∈ diff adj nonPC, x ∈ adj := fun x hx => (mem_diff.1 hx).1
    by_cases hk : (diff adj nonPC).length ≤ k + 1
    · simp only [if_pos hk]
      exact Sim.pure ⟨nodup_diff hn _, hsub⟩
    · simp only [if_neg hk]
      exact (ih (k + 1) (diff adj nonPC) (nodup_diff hn _) (fun x hx => hU x (hsub x hx))).mono
        (fun r hr => ⟨hr.1, fun x hx => hsub x (hr.2 x hx)⟩)

theorem sim_recognizePC (hW : SameTests U J W W') (hU : U.Nodup) {T : Nat} (hT : T ∈ U) :
    Sim U J (recognizePC W T (without U T)) (recognizePC W' T (without U T))
      (fun r => r.Nodup ∧ ∀ x ∈ r, x ∈ U ∧ x ≠ T) :=
  (sim_pcLoop hW hT _ 0 (without U T) (nodup_without hU T) (fun _ hx => mem_without.1 hx)).mono
    (fun _ hr => ⟨hr.1, fun x hx => mem_without.1 (hr.2 x hx)⟩)

/-- Candidate spouses are variables other than the two they are stored for.
(Models no code: a notion for statements and proofs.) -/
def SpOk (U : List Nat) (T : Nat) (sp : SetCache (List Nat)) : Prop :=
  ∀ X l, dictGet sp (fkey [T, X]) = some l → ∀ y ∈ l, y ∈ U ∧ y ≠ T ∧ y ≠ X

theorem sim_pcSymmetric (hW : SameTests U J W W') (hU : U.Nodup) (T : Nat) (Xs : List Nat) :
    ∀ (pc : List Nat) (sp : SetCache (List Nat)), (∀ X ∈ Xs, X ∈ U ∧ X ≠ T) →
      (∀ X ∈ pc, X ∈ U ∧ X ≠ T) → SpOk U T sp →
      Sim U J (pcSymmetric W U T Xs pc sp) (pcSymmetric W' U T Xs pc sp)
        (fun r => (∀ X ∈ r.1, X ∈ U ∧ X ≠ T) ∧ SpOk U T r.2) := by
  induction Xs with
  | nil => intro pc sp _ h1 h2; exact Sim.pure ⟨h1, h2⟩
  | cons X Xs ih =>
    intro pc sp hXs hpc hsp
    rw [pcSymmetric, pcSymmetric]
    have hX := hXs X (by simp)
    have hXs' : ∀ Y ∈ Xs, Y ∈ U ∧ Y ≠ T := fun Y hY => hXs Y (by simp [hY])
    refine Sim.bind (sim_recognizePC hW hU hX.1) ?_
    rintro cx ⟨-, hcx⟩
    by_cases hTc : T ∈ cx
    · rw [if_pos hTc, if_pos hTc]
      refine ih _ _ hXs' ?_ ?_
      · intro Y hY
        rcases mem_setAdd.1 hY with hY | rfl
        · exact hpc Y hY
        · exact hX
      · intro Y l hl y hy
        change dictGet (dictSet sp (fkey [T, X]) (without cx T)) (fkey [T, Y]) = some l at hl
        rw [dictGet_dictSet] at hl
        by_cases hk : fkey [T, X] = fkey [T, Y]
        · rw [if_pos hk] at hl
          cases hl
          have hXY := fkey_pair_left hk
          obtain ⟨h1, h2⟩ := mem_without.1 hy
          exact ⟨(hcx y h1).1, h2, fun h => (hcx y h1).2 (h.trans hXY.symm)⟩
        · rw [if_neg hk] at hl
          exact hsp Y l hl y hy
    · rw [if_neg hTc, if_neg hTc]
      exact ih pc sp hXs' hpc hsp

theorem sim_spouseInner (hW : SameTests U J W W') {T X : Nat} (hT : T ∈ U) (hX : X ∈ U)
    (hXT : X ≠ T) (Ys : List Nat) : ∀ mb, (∀ y ∈ Ys, y ∈ U ∧ y ≠ T ∧ y ≠ X) →
      Sim U J (spouseInner W T X Ys mb) (spouseInner W' T X Ys mb) (fun _ => True) := by
  induction Ys with
  | nil => intro mb _; exact Sim.pure trivial
  | cons Y Ys ih =>
    intro mb hYs
    rw [spouseInner, spouseInner]
    have hY := hYs Y (by simp)
    have hYs' : ∀ y ∈ Ys, y ∈ U ∧ y ≠ T ∧ y ≠ X := fun y hy => hYs y (by simp [hy])
    by_cases hm : Y ∈ mb
    · rw [if_pos hm, if_pos hm]
      exact ih mb hYs'
    · rw [if_neg hm, if_neg hm]
      refine Sim.bind (sim_sepGet T Y) ?_
      rintro z ⟨z1, z2, z3, z4⟩
      have hp : Proper U T Y (setAdd z X) := by
        refine proper_of hT hY.1 hY.2.1 (nodup_setAdd z1 X) ?_ ?_ ?_
        · intro x hx
          rcases mem_setAdd.1 hx with hx | rfl
          · exact z4 x hx
          · exact hX
        · rw [mem_setAdd]
          rintro (h | h)
          · exact z2 h
          · exact hXT h.symm
        · rw [mem_setAdd]
          rintro (h | h)
          · exact z3 h
          · exact hY.2.2 h
      refine Sim.bind (sim_ask hW hp) ?_
      intro a _
      cases a <;> exact ih _ hYs'

theorem sim_spouseOuter (hW : SameTests U J W W') {T : Nat} (hT : T ∈ U)
    {sp : SetCache (List Nat)} (hsp : SpOk U T sp) (Xs : List Nat) :
    ∀ mb, (∀ X ∈ Xs, X ∈ U ∧ X ≠ T) →
      Sim U J (spouseOuter W T sp Xs mb) (spouseOuter W' T sp Xs mb) (fun _ => True) := by
  induction Xs with
  | nil => intro mb _; exact Sim.pure trivial
  | cons X Xs ih =>
    intro mb hXs
    rw [spouseOuter, spouseOuter]
    have hX := hXs X (by simp)
    refine Sim.bind (Sim.lift (Q := fun l => ∀ y ∈ l, y ∈ U ∧ y ≠ T ∧ y ≠ X) ?_) ?_
    · intro l hl
      unfold SetCache.get at hl
      cases hg : dictGet sp (fkey [T, X]) with
      | none => rw [hg] at hl; cases hl
      | some l' =>
        rw [hg] at hl; cases hl
        exact hsp X l hg
    · intro cs hcs
      refine Sim.bind (sim_iter hW cs) ?_
      intro l hl
      refine Sim.bind (sim_spouseInner hW hT hX.1 hX.2 l mb (fun y hy => hcs y (hl.mem_iff.1 hy))) ?_
      intro mb' _
      exact ih mb' (fun Y hY => hXs Y (by simp [hY]))

theorem sim_ipcmb (hW : SameTests U J W W') (hU : U.Nodup) {T : Nat} (hT : T ∈ U)
    (pcOnly : Bool) : Sim U J (ipcmb W U T pcOnly) (ipcmb W' U T pcOnly) (fun _ => True) := by
  refine Sim.bind (m := ipcmbSet W U T pcOnly) (m' := ipcmbSet W' U T pcOnly) (Q := fun _ => True) ?_
    (fun r _ => Sim.pure trivial)
  refine Sim.bind (Q := fun _ => True) ?_ ?_
  · intro s t hst
    refine Or.inl ⟨(), _, _, rfl, rfl, ⟨hst.log, rfl, hst.env, ?_⟩, trivial⟩
    intro A B z hz
    cases hz
  intro _ _
  refine Sim.bind (sim_recognizePC hW hU hT) ?_
  rintro cand ⟨-, hc⟩
  refine Sim.bind (sim_iter hW cand) ?_
  intro l hl
  refine Sim.bind (sim_pcSymmetric hW hU T l [] [] (fun X hX => hc X (hl.mem_iff.1 hX)) (by simp)
    (by intro X l hg; cases hg)) ?_
  rintro ⟨pc, sp⟩ ⟨h1, h2⟩
  cases pcOnly with
  | true => exact Sim.pure trivial
  | false =>
    refine Sim.bind (sim_iter hW pc) ?_
    intro l hl
    exact sim_spouseOuter hW hT h2 l pc (fun X hX => h1 X (hl.mem_iff.1 hX))

end

end Mbtk.MB
