import Verif.MB.Sim
/-!
# Runs that stop at a question without a certain answer

`checked good W` refuses the questions that are not `good`.  A run in `W` that asks only good questions
is also a run in `checked good W`, because the algorithms see nothing of the questions they do not ask.
-/
namespace Mbtk.MB

variable {σ κ : Type}

/-- What a refused question raises. (Models no code: a notion for statements and proofs.) -/
def unclear : Err := .custom "unclear"

open Classical in
/-- `W`, but with an exception for every question that is not `good`.
(Models no code: a notion for statements and proofs.) -/
noncomputable def checked (good : Query → Prop) (W : World σ κ) : World σ κ where
  ask X Y Z s := if good (X, Y, Z) then W.ask X Y Z s else .error unclear
  heur := W.heur
  iter := W.iter

/-- `m` only adds to the log, and `m'` does the same as `m` or is stopped, in which case `m` asks a
question that is not good. (Models no code: a notion for statements and proofs.) -/
def Safe (good : Query → Prop) {α : Type} (m m' : PyM (St σ) α) : Prop :=
  (∀ s a s', m s = .ok (a, s') → ∃ ext, s'.log = s.log ++ ext) ∧
  ∀ s, m' s = m s ∨ (m' s = .error unclear ∧ ∀ a s', m s = .ok (a, s') → ∃ q ∈ s'.log, ¬ good q)

section
variable {good : Query → Prop} {α β : Type}

theorem Safe.same {m : PyM (St σ) α} (h : ∀ s a s', m s = .ok (a, s') → ∃ ext, s'.log = s.log ++ ext) :
    Safe good m m := ⟨h, fun _ => .inl rfl⟩

theorem Safe.pure (a : α) : Safe (σ := σ) good (Pure.pure a) (Pure.pure a) :=
  Safe.same (fun s b s' h => by cases h; exact ⟨[], by simp⟩)

theorem Safe.throw (e : Err) : Safe (σ := σ) (α := α) good (throw e) (throw e) :=
  Safe.same (fun s b s' h => by cases h)

theorem Safe.lift (x : Except Err α) : Safe (σ := σ) good (liftM x) (liftM x) := by
  refine Safe.same (fun s b s' h => ?_)
  cases x with
  | error e => cases h
  | ok a => cases h; exact ⟨[], by simp⟩

theorem Safe.modify (f : St σ → St σ) (hf : ∀ s, (f s).log = s.log) :
    Safe good (modify f : PyM (St σ) Unit) (modify f) :=
  Safe.same (fun s b s' h => by cases h; exact ⟨[], by simpa using hf s⟩)

theorem Safe.bind {m m' : PyM (St σ) α} {f f' : α → PyM (St σ) β} (h : Safe good m m')
    (hf : ∀ a, Safe good (f a) (f' a)) : Safe good (m >>= f) (m' >>= f') := by
  have hb : ∀ (m : PyM (St σ) α) (f : α → PyM (St σ) β) s a s1, m s = .ok (a, s1) →
      (m >>= f) s = f a s1 := by
    intro m f s a s1 e
    show (m s >>= fun p => f p.1 p.2) = _
    rw [e]; rfl
  have he : ∀ (m : PyM (St σ) α) (f : α → PyM (St σ) β) s e, m s = .error e →
      (m >>= f) s = .error e := by
    intro m f s e e1
    show (m s >>= fun p => f p.1 p.2) = _
    rw [e1]; rfl
  constructor
  · intro s b s' hs
    cases hm : m s with
    | error e => rw [he m f s e hm] at hs; cases hs
    | ok p =>
      obtain ⟨a, s1⟩ := p
      rw [hb m f s a s1 hm] at hs
      obtain ⟨x1, h1⟩ := h.1 s a s1 hm
      obtain ⟨x2, h2⟩ := (hf a).1 s1 b s' hs
      exact ⟨x1 ++ x2, by rw [h2, h1, List.append_assoc]⟩
  · intro s
    cases hm : m s with
    | error e =>
      rcases h.2 s with h2 | ⟨h2, _⟩
      · left
        rw [he m f s e hm, he m' f' s e (h2.trans hm)]
      · right
        refine ⟨he m' f' s _ h2, fun a s' hs => ?_⟩
        rw [he m f s e hm] at hs; cases hs
    | ok p =>
      obtain ⟨a, s1⟩ := p
      rcases h.2 s with h2 | ⟨h2, h3⟩
      · rw [hb m f s a s1 hm, hb m' f' s a s1 (h2.trans hm)]
        exact (hf a).2 s1
      · right
        refine ⟨he m' f' s _ h2, fun b s' hs => ?_⟩
        rw [hb m f s a s1 hm] at hs
        obtain ⟨q, hq, hg⟩ := h3 a s1 hm
        obtain ⟨x2, e2⟩ := (hf a).1 s1 b s' hs
        exact ⟨q, by rw [e2]; simp [hq], hg⟩

variable (W : World σ κ)

theorem safe_ask (X Y : Nat) (Z : List Nat) :
    Safe good (ask W X Y Z) (ask (checked good W) X Y Z) := by
  constructor
  · intro s a s' h
    unfold ask at h
    cases e : W.ask X Y Z s.w with
    | error e' => rw [e] at h; cases h
    | ok p => rw [e] at h; cases h; exact ⟨_, rfl⟩
  · intro s
    by_cases hg : good (X, Y, Z)
    · left; simp [ask, checked, hg]
    · right
      refine ⟨by simp [ask, checked, hg], fun a s' h => ⟨(X, Y, Z), ?_, hg⟩⟩
      unfold ask at h
      cases e : W.ask X Y Z s.w with
      | error e' => rw [e] at h; cases h
      | ok p => rw [e] at h; cases h; simp

theorem safe_heur (X Y : Nat) (Z : List Nat) :
    Safe good (heur W X Y Z) (heur (checked good W) X Y Z) := by
  refine Safe.same (fun s a s' h => ?_)
  unfold heur at h
  cases e : W.heur X Y Z s.w with
  | error e' => rw [e] at h; cases h
  | ok p => rw [e] at h; cases h; exact ⟨[], by simp⟩

theorem safe_iter (l : List Nat) : Safe good (iter W l) (iter (checked good W) l) :=
  Safe.same (fun s a s' h => by cases h; exact ⟨[], by simp⟩)

/-! ## IAMB -/

theorem safe_maxScan [LinearOrder κ] (T : Nat) (cmb ys : List Nat) (best : Nat) (k : κ) :
    Safe good (maxScan W T cmb ys best k) (maxScan (checked good W) T cmb ys best k) := by
  induction ys generalizing best k with
  | nil => exact Safe.pure _
  | cons y ys ih =>
    rw [maxScan, maxScan]
    refine Safe.bind (safe_heur W _ _ _) fun v => ?_
    by_cases h : k < v
    · rw [if_pos h, if_pos h]; exact ih _ _
    · rw [if_neg h, if_neg h]; exact ih _ _

theorem safe_highest [LinearOrder κ] (T : Nat) (cands cmb : List Nat) :
    Safe good (highest W T cands cmb) (highest (checked good W) T cands cmb) := by
  refine Safe.bind (safe_iter W _) fun l => ?_
  cases l with
  | nil => exact Safe.throw _
  | cons x xs => exact Safe.bind (safe_heur W _ _ _) fun k => safe_maxScan W T cmb xs x k

theorem safe_growLoop [LinearOrder κ] (T fuel : Nat) (cands cmb : List Nat) :
    Safe good (growLoop W T fuel cands cmb) (growLoop (checked good W) T fuel cands cmb) := by
  induction fuel generalizing cands cmb with
  | zero => exact Safe.throw _
  | succ fuel ih =>
    rw [growLoop, growLoop]
    by_cases h : cands.length = 0
    · rw [if_pos h, if_pos h]; exact Safe.pure _
    · rw [if_neg h, if_neg h]
      refine Safe.bind (safe_highest W T cands cmb) fun c => Safe.bind (safe_ask W T c cmb) fun a => ?_
      cases a
      · exact Safe.pure _
      · exact ih _ _
      · exact ih _ _

theorem safe_shrinkLoop (T : Nat) (cmb l fp : List Nat) :
    Safe good (shrinkLoop W T cmb l fp) (shrinkLoop (checked good W) T cmb l fp) := by
  induction l generalizing fp with
  | nil => exact Safe.pure _
  | cons c cs ih =>
    rw [shrinkLoop, shrinkLoop]
    refine Safe.bind (safe_ask W _ _ _) fun a => ?_
    cases a <;> exact ih _

theorem safe_iamb [LinearOrder κ] (U : List Nat) (T : Nat) :
    Safe good (iamb W U T) (iamb (checked good W) U T) := by
  refine Safe.bind (safe_growLoop W _ _ _ _) fun cmb => Safe.bind ?_ fun mb => Safe.pure _
  exact Safe.bind (safe_iter W _) fun l => Safe.bind (safe_shrinkLoop W _ _ _ _) fun fp => Safe.pure _

/-! ## IPC-MB -/

theorem safe_sepAdd (Z : List Nat) (T X : Nat) : Safe (σ := σ) good (sepAdd Z T X) (sepAdd Z T X) :=
  Safe.modify _ (fun _ => rfl)

theorem safe_sepDefault (T X : Nat) : Safe (σ := σ) good (sepDefault T X) (sepDefault T X) :=
  Safe.modify _ (fun s => by split <;> rfl)

theorem safe_sepGet (T Y : Nat) : Safe (σ := σ) good (sepGet T Y) (sepGet T Y) := by
  refine Safe.bind (Safe.same (fun s a s' h => ?_)) fun s => Safe.lift _
  cases h; exact ⟨[], by simp⟩

theorem safe_sepSearch (T X : Nat) (Zs : List (List Nat)) (non : Bool) :
    Safe good (sepSearch W T X Zs non) (sepSearch (checked good W) T X Zs non) := by
  induction Zs generalizing non with
  | nil => exact Safe.pure _
  | cons Z Zs ih =>
    rw [sepSearch, sepSearch]
    refine Safe.bind (safe_ask W _ _ _) fun a => ?_
    cases a
    · exact Safe.bind (safe_sepAdd _ _ _) fun _ => Safe.pure _
    · exact ih _
    · exact ih _

theorem safe_pcRound (T : Nat) (adj : List Nat) (k : Nat) (Xs nonPC : List Nat) :
    Safe good (pcRound W T adj k Xs nonPC) (pcRound (checked good W) T adj k Xs nonPC) := by
  induction Xs generalizing nonPC with
  | nil => exact Safe.pure _
  | cons X Xs ih =>
    rw [pcRound, pcRound]
    exact Safe.bind (safe_iter W _) fun base => Safe.bind (safe_sepSearch W _ _ _ _) fun non =>
      Safe.bind (safe_sepDefault _ _) fun _ => ih _

theorem safe_pcLoop (T fuel k : Nat) (adj : List Nat) :
    Safe good (pcLoop W T fuel k adj) (pcLoop (checked good W) T fuel k adj) := by
  induction fuel generalizing k adj with
  | zero => exact Safe.throw _
  | succ fuel ih =>
    rw [pcLoop, pcLoop]
    refine Safe.bind (safe_iter W _) fun l => Safe.bind (safe_pcRound W _ _ _ _ _) fun nonPC => ?_
    by_cases h : (diff adj nonPC).length ≤ k + 1
    · simp only [if_pos h]; exact Safe.pure _
    · simp only [if_neg h]; exact ih _ _

theorem safe_pcSymmetric (U : List Nat) (T : Nat) (Xs pc : List Nat) (sp : SetCache (List Nat)) :
    Safe good (pcSymmetric W U T Xs pc sp) (pcSymmetric (checked good W) U T Xs pc sp) := by
  induction Xs generalizing pc sp with
  | nil => exact Safe.pure _
  | cons X Xs ih =>
    rw [pcSymmetric, pcSymmetric]
    refine Safe.bind (safe_pcLoop W _ _ _ _) fun cx => ?_
    by_cases h : T ∈ cx
    · rw [if_pos h, if_pos h]; exact ih _ _
    · rw [if_neg h, if_neg h]; exact ih _ _

theorem safe_spouseInner (T X : Nat) (Ys mb : List Nat) :
    Safe good (spouseInner W T X Ys mb) (spouseInner (checked good W) T X Ys mb) := by
  induction Ys generalizing mb with
  | nil => exact Safe.pure _
  | cons Y Ys ih =>
    rw [spouseInner, spouseInner]
    by_cases h : Y ∈ mb
    · rw [if_pos h, if_pos h]; exact ih _
    · rw [if_neg h, if_neg h]
      refine Safe.bind (safe_sepGet _ _) fun z => Safe.bind (safe_ask W _ _ _) fun a => ?_
      cases a <;> exact ih _

theorem safe_spouseOuter (T : Nat) (sp : SetCache (List Nat)) (Xs mb : List Nat) :
    Safe good (spouseOuter W T sp Xs mb) (spouseOuter (checked good W) T sp Xs mb) := by
  induction Xs generalizing mb with
  | nil => exact Safe.pure _
  | cons X Xs ih =>
    rw [spouseOuter, spouseOuter]
    exact Safe.bind (Safe.lift _) fun cs => Safe.bind (safe_iter W _) fun l =>
      Safe.bind (safe_spouseInner W _ _ _ _) fun mb => ih _

theorem safe_ipcmb (U : List Nat) (T : Nat) (pcOnly : Bool) :
    Safe good (ipcmb W U T pcOnly) (ipcmb (checked good W) U T pcOnly) := by
  refine Safe.bind ?_ fun mb => Safe.pure _
  refine Safe.bind (Safe.modify _ fun _ => rfl) fun _ => Safe.bind (safe_pcLoop W _ _ _ _) fun cand =>
    Safe.bind (safe_iter W _) fun l => Safe.bind (safe_pcSymmetric W _ _ _ _ _) fun p => ?_
  obtain ⟨pc, sp⟩ := p
  cases pcOnly
  · exact Safe.bind (safe_iter W _) fun l => safe_spouseOuter W _ _ _ _
  · exact Safe.pure _

end

/-- A run that asks good questions only is the same with refusals. -/
theorem Safe.run {good : Query → Prop} {α : Type} {m m' : PyM (St σ) α} (h : Safe good m m') {s : St σ}
    {a : α} {s' : St σ} (e : m s = .ok (a, s')) (hg : ∀ q ∈ s'.log, good q) : m' s = .ok (a, s') := by
  rcases h.2 s with h | ⟨_, h⟩
  · rw [h, e]
  · obtain ⟨q, hq, hn⟩ := h a s' e
    exact absurd (hg q hq) hn

/-- A run that is not stopped by a refusal is a run without refusals. -/
theorem Safe.back {good : Query → Prop} {α : Type} {m m' : PyM (St σ) α} (h : Safe good m m') {s : St σ}
    {a : α} {s' : St σ} (e : m' s = .ok (a, s')) : m s = .ok (a, s') := by
  rcases h.2 s with h | ⟨h, _⟩
  · rw [← h, e]
  · rw [h] at e; cases e

end Mbtk.MB
