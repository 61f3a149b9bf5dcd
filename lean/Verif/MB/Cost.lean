import Verif.MB.IpcmbMain
import Mathlib.Data.Nat.Choose.Sum
/-!
# How many tests the Markov blanket algorithms make (C93)

Upper bounds, for every CI test, heuristic and iteration order, on the number of CI tests and heuristic
computations of IAMB and IPC-MB, and on anything else that grows by bounded amounts with them.
-/
namespace Mbtk.MB

/-- If `m` ends without exception, the result and the final state satisfy `P`.
(Models no code: a notion for statements and proofs.) -/
def Part {τ α : Type} (m : PyM τ α) (s : τ) (P : α → τ → Prop) : Prop :=
  ∀ a s', m s = Except.ok (a, s') → P a s'

section part
variable {τ α β : Type}

theorem Part.ret {a : α} {s : τ} {P : α → τ → Prop} (h : P a s) : Part (pure a : PyM τ α) s P := by
  intro a' s' e
  cases e
  exact h

theorem Part.raise {e : Err} {s : τ} {P : α → τ → Prop} : Part (throw e : PyM τ α) s P := by
  intro a' s' h
  cases h

theorem Part.andThen {m : PyM τ α} {f : α → PyM τ β} {s : τ} {P : α → τ → Prop} {Q : β → τ → Prop}
    (h : Part m s P) (hf : ∀ a s', P a s' → Part (f a) s' Q) : Part (m >>= f) s Q := by
  intro b s'' e
  change (m s >>= fun p => f p.1 p.2) = _ at e
  cases hm : m s with
  | error x => rw [hm] at e; cases e
  | ok p =>
    rw [hm] at e
    exact hf p.1 p.2 (h p.1 p.2 hm) b s'' e

theorem Part.mono {m : PyM τ α} {s : τ} {P Q : α → τ → Prop} (h : Part m s P)
    (hpq : ∀ a s', P a s' → Q a s') : Part m s Q := fun a s' e => hpq a s' (h a s' e)

theorem Part.change {g : τ → τ} {s : τ} {P : Unit → τ → Prop} (h : P () (g s)) :
    Part (modify g : PyM τ Unit) s P := by
  intro a s' e
  cases e
  exact h

end part

variable {σ κ : Type}

/-- What is counted: `c` of the tests made and of the state of the environment.  A CI test adds at most
`a` to it, a computation of the heuristic at most `b`, and the iteration over a set nothing.
(Specification.) -/
structure Costs (W : World σ κ) (c : List Query → σ → Nat) (a b : Nat) : Prop where
  ask : ∀ X Y Z w r w' log, W.ask X Y Z w = .ok (r, w') → c (log ++ [(X, Y, Z)]) w' ≤ c log w + a
  heur : ∀ X Y Z w r w' log, W.heur X Y Z w = .ok (r, w') → c log w' ≤ c log w + b
  iter : ∀ l w log, c log (W.iter l w).2 ≤ c log w

/-- The number of CI tests is such a count. -/
theorem costs_tests (W : World σ κ) : Costs W (fun log _ => log.length) 1 0 where
  ask X Y Z w r w' log _ := by simp
  heur X Y Z w r w' log _ := by simp
  iter l w log := le_rfl

section cost
variable {W : World σ κ} {c : List Query → σ → Nat} {a b : Nat}

theorem ask_cost (h : Costs W c a b) (X Y : Nat) (Z : List Nat) (s : St σ) :
    Part (ask W X Y Z) s (fun _ s' => c s'.log s'.w ≤ c s.log s.w + a ∧ s'.sep = s.sep) := by
  intro r s' e
  unfold ask at e
  split at e
  · rename_i r' w' hw
    cases e
    exact ⟨h.ask _ _ _ _ _ _ _ hw, rfl⟩
  · cases e

theorem heur_cost (h : Costs W c a b) (X Y : Nat) (Z : List Nat) (s : St σ) :
    Part (heur W X Y Z) s (fun _ s' => c s'.log s'.w ≤ c s.log s.w + b) := by
  intro r s' e
  unfold heur at e
  split at e
  · rename_i r' w' hw
    cases e
    exact h.heur _ _ _ _ _ _ _ hw
  · cases e

theorem iter_cost (h : Costs W c a b) (hf : W.Fair) (l : List Nat) (s : St σ) :
    Part (iter W l) s (fun l' s' => l'.Perm l ∧ c s'.log s'.w ≤ c s.log s.w ∧ s'.sep = s.sep) := by
  intro r s' e
  cases e
  exact ⟨hf l s.w, h.iter _ _ _, rfl⟩

/-! ## IAMB -/

section iamb
variable [LinearOrder κ]

theorem maxScan_cost (h : Costs W c a b) (T : Nat) (cmb ys : List Nat) :
    ∀ (best : Nat) (k : κ) (s : St σ), Part (maxScan W T cmb ys best k) s (fun r s' =>
      r ∈ best :: ys ∧ c s'.log s'.w ≤ c s.log s.w + b * ys.length) := by
  induction ys with
  | nil =>
    intro best k s
    exact Part.ret ⟨by simp, by simp⟩
  | cons y ys ih =>
    intro best k s
    rw [maxScan]
    refine Part.andThen (heur_cost h T y cmb s) ?_
    intro k' s1 h1
    rw [List.length_cons, Nat.mul_succ]
    split
    · refine (ih y k' s1).mono ?_
      rintro r s' ⟨h2, h3⟩
      exact ⟨by simp only [List.mem_cons] at h2 ⊢; tauto, by omega⟩
    · refine (ih best k s1).mono ?_
      rintro r s' ⟨h2, h3⟩
      exact ⟨by simp only [List.mem_cons] at h2 ⊢; tauto, by omega⟩

theorem highest_cost (h : Costs W c a b) (hf : W.Fair) (T : Nat) (cands cmb : List Nat) (s : St σ) :
    Part (highest W T cands cmb) s (fun r s' =>
      r ∈ cands ∧ c s'.log s'.w ≤ c s.log s.w + b * cands.length) := by
  refine Part.andThen (iter_cost h hf cands s) ?_
  rintro l s1 ⟨hp, h1, -⟩
  cases l with
  | nil => exact Part.raise
  | cons x xs =>
    refine Part.andThen (heur_cost h T x cmb s1) ?_
    intro k s2 h2
    refine (maxScan_cost h T cmb xs x k s2).mono ?_
    rintro r s' ⟨h3, h4⟩
    refine ⟨hp.mem_iff.1 h3, ?_⟩
    rw [← hp.length_eq, List.length_cons, Nat.mul_succ]
    omega

theorem length_setAdd_le (l : List Nat) (x : Nat) : (setAdd l x).length ≤ l.length + 1 := by
  unfold setAdd
  split
  · omega
  · simp

theorem growLoop_cost (h : Costs W c a b) (hf : W.Fair) (T : Nat) (fuel : Nat) :
    ∀ (cands cmb : List Nat) (s : St σ), Part (growLoop W T fuel cands cmb) s (fun r s' =>
      c s'.log s'.w ≤ c s.log s.w + a * cands.length + b * (cands.length + 1).choose 2 ∧
      r.length ≤ cmb.length + cands.length) := by
  induction fuel with
  | zero => intro cands cmb s; exact Part.raise
  | succ fuel ih =>
    intro cands cmb s
    rw [growLoop]
    by_cases h0 : cands.length = 0
    · rw [if_pos h0]
      exact Part.ret ⟨by omega, by omega⟩
    rw [if_neg h0]
    refine Part.andThen (highest_cost h hf T cands cmb s) ?_
    rintro x s1 ⟨hx, h1⟩
    refine Part.andThen (ask_cost h T x cmb s1) ?_
    rintro r s2 ⟨h2, -⟩
    obtain ⟨n, hn⟩ : ∃ n, cands.length = n + 1 := ⟨cands.length - 1, by omega⟩
    have hlt := length_without_lt hx
    have hle : (without cands x).length ≤ n := by omega
    have hch : b * (n + 1 + 1).choose 2 = b * (n + 1) + b * (n + 1).choose 2 := by
      rw [Nat.choose_succ_succ' (n + 1) 1, Nat.choose_one_right, Nat.mul_add]
    have hmono : b * ((without cands x).length + 1).choose 2 ≤ b * (n + 1).choose 2 :=
      Nat.mul_le_mul_left _ (Nat.choose_le_choose 2 (by omega))
    have hmono' : a * (without cands x).length ≤ a * n := Nat.mul_le_mul_left _ hle
    rw [hn] at h1 ⊢
    rw [hch, Nat.mul_succ a n]
    cases r with
    | independent => exact Part.ret ⟨by omega, by omega⟩
    | dependent =>
      refine (ih (without cands x) (setAdd cmb x) s2).mono ?_
      rintro r s' ⟨h3, h4⟩
      have := length_setAdd_le cmb x
      exact ⟨by omega, by omega⟩
    | insufficient =>
      refine (ih (without cands x) cmb s2).mono ?_
      rintro r s' ⟨h3, h4⟩
      exact ⟨by omega, by omega⟩

omit [LinearOrder κ] in
theorem shrinkLoop_cost (h : Costs W c a b) (T : Nat) (cmb cs : List Nat) :
    ∀ (fp : List Nat) (s : St σ), Part (shrinkLoop W T cmb cs fp) s (fun _ s' =>
      c s'.log s'.w ≤ c s.log s.w + a * cs.length) := by
  induction cs with
  | nil => intro fp s; exact Part.ret (by simp)
  | cons x cs ih =>
    intro fp s
    rw [shrinkLoop]
    refine Part.andThen (ask_cost h T x _ s) ?_
    rintro r s1 ⟨h1, -⟩
    rw [List.length_cons, Nat.mul_succ]
    cases r
    · exact (ih _ s1).mono (fun _ s' h2 => by omega)
    · exact (ih _ s1).mono (fun _ s' h2 => by omega)
    · exact (ih _ s1).mono (fun _ s' h2 => by omega)

theorem iamb_cost (h : Costs W c a b) (hf : W.Fair) (U : List Nat) (T : Nat) (s : St σ) :
    Part (iamb W U T) s (fun _ s' => c s'.log s'.w ≤
      c s.log s.w + a * (2 * (without U T).length) + b * ((without U T).length + 1).choose 2) := by
  refine Part.andThen (growLoop_cost h hf T _ (without U T) [] s) ?_
  rintro cmb s1 ⟨h1, h2⟩
  rw [List.length_nil, Nat.zero_add] at h2
  refine Part.andThen (m := shrink W T cmb) (P := fun _ s' => c s'.log s'.w ≤ c s1.log s1.w + a * cmb.length) ?_ ?_
  · refine Part.andThen (iter_cost h hf cmb s1) ?_
    rintro l s2 ⟨hp, h3, -⟩
    refine Part.andThen (shrinkLoop_cost h T cmb l [] s2) ?_
    intro fp s3 h4
    rw [hp.length_eq] at h4
    exact Part.ret (by omega)
  · intro mb s2 h3
    have : a * cmb.length ≤ a * (without U T).length := Nat.mul_le_mul_left _ h2
    have h5 : a * (2 * (without U T).length) = a * (without U T).length + a * (without U T).length := by ring
    exact Part.ret (by omega)

end iamb

/-! ## IPC-MB -/

omit W c a b in
theorem length_combinations {α : Type} : ∀ (k : Nat) (l : List α),
    (combinations k l).length = l.length.choose k
  | 0, l => by cases l <;> simp [combinations]
  | k + 1, [] => by simp [combinations]
  | k + 1, x :: xs => by
    rw [combinations, List.length_append, List.length_map, length_combinations k xs,
      length_combinations (k + 1) xs, List.length_cons, Nat.choose_succ_succ']

theorem sepAdd_cost (Z : List Nat) (T X : Nat) (s : St σ) :
    Part (sepAdd Z T X) s (fun _ s' => c s'.log s'.w ≤ c s.log s.w) := Part.change le_rfl

theorem sepDefault_cost (T X : Nat) (s : St σ) :
    Part (sepDefault T X) s (fun _ s' => c s'.log s'.w ≤ c s.log s.w) := by
  refine Part.change ?_
  split <;> exact le_rfl

theorem sepSearch_cost (h : Costs W c a b) (T X : Nat) (Zs : List (List Nat)) :
    ∀ (non : Bool) (s : St σ), Part (sepSearch W T X Zs non) s (fun r s' =>
      c s'.log s'.w ≤ c s.log s.w + a * Zs.length ∧ (non = true → r = true)) := by
  induction Zs with
  | nil => intro non s; exact Part.ret ⟨by simp, id⟩
  | cons Z Zs ih =>
    intro non s
    rw [sepSearch]
    refine Part.andThen (ask_cost h X T Z s) ?_
    rintro r s1 ⟨h1, -⟩
    rw [List.length_cons, Nat.mul_succ]
    cases r
    · refine Part.andThen (sepAdd_cost (c := c) Z T X s1) ?_
      intro _ s2 h2
      exact Part.ret ⟨by omega, fun _ => rfl⟩
    · exact (ih non s1).mono (fun r s' h2 => ⟨by omega, h2.2⟩)
    · exact (ih true s1).mono (fun r s' h2 => ⟨by omega, fun _ => h2.2 rfl⟩)

theorem length_without_mem {l : List Nat} (hl : l.Nodup) {x : Nat} (hx : x ∈ l) :
    (without l x).length = l.length - 1 := by
  unfold without
  have : (l.filter (fun y => decide (y ≠ x))) = l.erase x := by
    rw [hl.erase_eq_filter]
    congr 1
    funext y
    by_cases hy : y = x <;> simp [hy]
  rw [this, List.length_erase_of_mem hx]

theorem pcRound_cost (h : Costs W c a b) (hf : W.Fair) (T : Nat) {adj : List Nat} (hn : adj.Nodup)
    (k : Nat) (Xs : List Nat) :
    ∀ (nonPC : List Nat) (s : St σ), Xs ⊆ adj → Part (pcRound W T adj k Xs nonPC) s (fun _ s' =>
      c s'.log s'.w ≤ c s.log s.w + a * (Xs.length * (adj.length - 1).choose k)) := by
  induction Xs with
  | nil => intro nonPC s _; exact Part.ret (by simp)
  | cons X Xs ih =>
    intro nonPC s hsub
    rw [pcRound]
    refine Part.andThen (iter_cost h hf _ s) ?_
    rintro base s1 ⟨hp, h1, -⟩
    refine Part.andThen (sepSearch_cost h T X _ false s1) ?_
    rintro non s2 ⟨h2, -⟩
    refine Part.andThen (sepDefault_cost (c := c) T X s2) ?_
    intro _ s3 h3
    refine (ih _ s3 (fun x hx => hsub (List.mem_cons_of_mem _ hx))).mono ?_
    intro r s' h4
    rw [length_combinations, hp.length_eq, length_without_mem hn (hsub List.mem_cons_self)] at h2
    rw [List.length_cons, Nat.succ_mul, Nat.mul_add]
    omega

/-- The number of tests of `RecognizePC` from cut set size `k` on, `n` nodes being left.
(Models no code: a notion for statements and proofs.) -/
def roundsFrom (n k : Nat) : Nat := n * ∑ j ∈ Finset.Ico k n, (n - 1).choose j

omit W c a b in
theorem roundsFrom_mono {n n' : Nat} (h : n ≤ n') (k : Nat) : roundsFrom n k ≤ roundsFrom n' k := by
  unfold roundsFrom
  refine Nat.mul_le_mul h ?_
  calc ∑ j ∈ Finset.Ico k n, (n - 1).choose j
      ≤ ∑ j ∈ Finset.Ico k n, (n' - 1).choose j :=
        Finset.sum_le_sum (fun j _ => Nat.choose_le_choose j (by omega))
    _ ≤ _ := Finset.sum_le_sum_of_subset (Finset.Ico_subset_Ico_right h)

omit W c a b in
theorem roundsFrom_step {n k : Nat} (h : k < n) :
    roundsFrom n k = n * (n - 1).choose k + roundsFrom n (k + 1) := by
  unfold roundsFrom
  rw [← Nat.mul_add, Finset.sum_eq_sum_Ico_succ_bot h]

omit W c a b in
theorem roundsFrom_zero (n : Nat) : roundsFrom n 0 = n * 2 ^ (n - 1) := by
  cases n with
  | zero => simp [roundsFrom]
  | succ n =>
    unfold roundsFrom
    rw [← Finset.range_eq_Ico, Nat.add_sub_cancel, Nat.sum_range_choose]

omit W c a b in
theorem roundsFrom_one (n : Nat) : roundsFrom n 1 = n * (2 ^ (n - 1) - 1) := by
  cases n with
  | zero => simp [roundsFrom]
  | succ n =>
    have h := roundsFrom_step (n := n + 1) (k := 0) (by omega)
    rw [roundsFrom_zero, Nat.choose_zero_right, Nat.mul_one] at h
    rw [Nat.zero_add] at h
    rw [Nat.mul_sub, Nat.mul_one, h]
    omega

theorem diff_sublist (l m : List Nat) : (diff l m).Sublist l := List.filter_sublist

theorem pcLoop_cost (h : Costs W c a b) (hf : W.Fair) (T : Nat) (fuel : Nat) :
    ∀ (k : Nat) (adj : List Nat) (s : St σ), adj.Nodup → Part (pcLoop W T fuel k adj) s (fun r s' =>
      c s'.log s'.w ≤ c s.log s.w + a * roundsFrom adj.length k ∧ r.Sublist adj) := by
  induction fuel with
  | zero => intro k adj s _; exact Part.raise
  | succ fuel ih =>
    intro k adj s hn
    rw [pcLoop]
    refine Part.andThen (iter_cost h hf adj s) ?_
    rintro l s1 ⟨hp, h1, -⟩
    refine Part.andThen (pcRound_cost h hf T hn k l [] s1 (fun x hx => hp.mem_iff.1 hx)) ?_
    intro nonPC s2 h2
    rw [hp.length_eq] at h2
    have hsl := diff_sublist adj nonPC
    have hle := hsl.length_le
    by_cases hk : k < adj.length
    · rw [roundsFrom_step hk, Nat.mul_add]
      by_cases hend : (diff adj nonPC).length ≤ k + 1
      · simp only []
        rw [if_pos hend]
        exact Part.ret ⟨by omega, hsl⟩
      · simp only []
        rw [if_neg hend]
        refine (ih (k + 1) _ s2 (hn.sublist hsl)).mono ?_
        rintro r s' ⟨h3, h4⟩
        have := Nat.mul_le_mul_left a (roundsFrom_mono hle (k + 1))
        exact ⟨by omega, h4.trans hsl⟩
    · simp only []
      rw [if_pos (by omega)]
      have hz : adj.length * (adj.length - 1).choose k = 0 := by
        rcases Nat.eq_zero_or_pos adj.length with h0 | h0
        · rw [h0, Nat.zero_mul]
        · rw [Nat.choose_eq_zero_of_lt (by omega), Nat.mul_zero]
      rw [hz] at h2
      exact Part.ret ⟨by omega, hsl⟩


/-! ### The first round -/

/-- `marginal T X`: a test of `X` and `T` without conditioning variables can find them dependent.
(Specification.) -/
def MarginalBy (W : World σ κ) (marginal : Nat → Nat → Bool) : Prop :=
  ∀ T X w w', W.ask X T [] w = .ok (.dependent, w') → marginal T X = true

theorem pcRound_first {marginal : Nat → Nat → Bool} (hm : MarginalBy W marginal) (T : Nat)
    (adj : List Nat) (Xs : List Nat) :
    ∀ (nonPC : List Nat) (s : St σ), Part (pcRound W T adj 0 Xs nonPC) s (fun r _ =>
      nonPC ⊆ r ∧ ∀ X ∈ Xs, X ∉ r → marginal T X = true) := by
  induction Xs with
  | nil => intro nonPC s; exact Part.ret ⟨fun _ h => h, by simp⟩
  | cons X Xs ih =>
    intro nonPC s
    rw [pcRound]
    refine Part.andThen (P := fun _ _ => True) (fun _ _ _ => trivial) ?_
    intro base s1 _
    have hc : combinations 0 base = [[]] := by cases base <;> rfl
    rw [hc]
    refine Part.andThen (P := fun r _ => r = false → marginal T X = true) ?_ ?_
    · rw [sepSearch]
      refine Part.andThen (P := fun r _ => r = .dependent → marginal T X = true) ?_ ?_
      · intro r s' e hr
        unfold ask at e
        split at e
        · rename_i r' w' hw
          cases e
          subst hr
          exact hm _ _ _ _ hw
        · cases e
      · intro r s2 hr
        cases r
        · refine Part.andThen (P := fun _ _ => True) (fun _ _ _ => trivial) ?_
          intro _ s3 _
          exact Part.ret (by simp)
        · exact Part.ret (fun _ => hr rfl)
        · exact Part.ret (by simp)
    · intro non s2 hnon
      refine Part.andThen (P := fun _ _ => True) (fun _ _ _ => trivial) ?_
      intro _ s3 _
      refine (ih _ s3).mono ?_
      rintro r s' ⟨h1, h2⟩
      cases non with
      | true =>
        simp only [if_true] at h1
        refine ⟨fun x hx => h1 (mem_setAdd.2 (Or.inl hx)), ?_⟩
        intro x hx hr
        rcases List.mem_cons.1 hx with rfl | hx
        · exact absurd (h1 (mem_setAdd.2 (Or.inr rfl))) hr
        · exact h2 x hx hr
      | false =>
        refine ⟨fun x hx => h1 (by simpa using hx), ?_⟩
        intro x hx hr
        rcases List.mem_cons.1 hx with rfl | hx
        · exact hnon rfl
        · exact h2 x hx hr

theorem recognizePC_cost (h : Costs W c a b) (hf : W.Fair) {marginal : Nat → Nat → Bool}
    (hm : MarginalBy W marginal) (T : Nat) {adj : List Nat} (hn : adj.Nodup) {d : Nat}
    (hd : (adj.filter (marginal T)).length ≤ d) (s : St σ) :
    Part (recognizePC W T adj) s (fun r s' =>
      c s'.log s'.w ≤ c s.log s.w + a * (adj.length + d * (2 ^ (d - 1) - 1)) ∧
      r.Sublist (adj.filter (marginal T))) := by
  unfold recognizePC
  rw [pcLoop]
  refine Part.andThen (iter_cost h hf adj s) ?_
  rintro l s1 ⟨hp, h1, -⟩
  refine Part.andThen (P := fun r s' => c s'.log s'.w ≤ c s1.log s1.w + a * l.length ∧
    ∀ X ∈ l, X ∉ r → marginal T X = true) ?_ ?_
  · intro r s' e
    have e1 := pcRound_cost h hf T hn 0 l [] s1 (fun x hx => hp.mem_iff.1 hx) r s' e
    rw [Nat.choose_zero_right, Nat.mul_one] at e1
    exact ⟨e1, (pcRound_first hm T adj l [] s1 r s' e).2⟩
  rintro nonPC s2 ⟨h2, h3⟩
  rw [hp.length_eq] at h2
  have hsl : (diff adj nonPC).Sublist (adj.filter (marginal T)) := by
    have hs : (diff adj nonPC).filter (marginal T) = diff adj nonPC := by
      rw [List.filter_eq_self]
      intro x hx
      obtain ⟨hx1, hx2⟩ := List.mem_filter.1 hx
      exact h3 x (hp.mem_iff.2 hx1) (by simpa using hx2)
    rw [← hs]
    exact (diff_sublist adj nonPC).filter _
  have hle : (diff adj nonPC).length ≤ d := le_trans hsl.length_le hd
  have hmul : a * (adj.length + d * (2 ^ (d - 1) - 1)) = a * adj.length + a * roundsFrom d 1 := by
    rw [Nat.mul_add, roundsFrom_one]
  rw [hmul]
  by_cases hend : (diff adj nonPC).length ≤ 0 + 1
  · simp only []
    rw [if_pos hend]
    exact Part.ret ⟨by omega, hsl⟩
  · simp only []
    rw [if_neg hend]
    refine (pcLoop_cost h hf T _ (0 + 1) _ s2 (hn.sublist (diff_sublist _ _))).mono ?_
    rintro r s' ⟨h4, h5⟩
    rw [Nat.zero_add] at h4
    have := Nat.mul_le_mul_left a (roundsFrom_mono hle 1)
    exact ⟨by omega, h5.trans hsl⟩

/-! ### The whole algorithm -/

/-- Every list in the cache has at most `n` elements.
(Models no code: a notion for statements and proofs.) -/
def ShortSets (n : Nat) (sp : SetCache (List Nat)) : Prop := ∀ p ∈ sp, p.2.length ≤ n

omit W c a b in
theorem ShortSets.add {n : Nat} {sp : SetCache (List Nat)} (h : ShortSets n sp) {l : List Nat}
    (hl : l.length ≤ n) (e : List Nat) : ShortSets n (sp.add l e) := by
  unfold SetCache.add
  intro p hp
  have : p ∈ sp ∨ p = (fkey e, l) := by
    revert hp
    generalize fkey e = k
    clear h
    induction sp with
    | nil => intro hp; right; simpa [dictSet] using hp
    | cons q qs ih =>
      intro hp
      obtain ⟨k', v'⟩ := q
      rw [dictSet] at hp
      split at hp
      · rcases List.mem_cons.1 hp with hp | hp
        · rename_i hk
          right
          rw [hp]
          first | rfl | (congr 1)
        · left; exact List.mem_cons_of_mem _ hp
      · rcases List.mem_cons.1 hp with hp | hp
        · left; rw [hp]; exact List.mem_cons_self
        · rcases ih hp with h1 | h1
          · left; exact List.mem_cons_of_mem _ h1
          · right; exact h1
  rcases this with h1 | h1
  · exact h p h1
  · rw [h1]; exact hl

omit W c a b in
theorem ShortSets.get {n : Nat} {sp : SetCache (List Nat)} (h : ShortSets n sp) {e l : List Nat}
    (hg : sp.get e = .ok l) : l.length ≤ n := by
  unfold SetCache.get at hg
  split at hg
  · rename_i v hv
    cases hg
    have : ∃ k, (k, l) ∈ sp := by
      revert hv
      generalize fkey e = k
      clear h
      induction sp with
      | nil => intro hv; cases hv
      | cons q qs ih =>
        intro hv
        obtain ⟨k', v'⟩ := q
        rw [dictGet] at hv
        split at hv
        · cases hv; exact ⟨k', List.mem_cons_self⟩
        · obtain ⟨k2, h2⟩ := ih hv
          exact ⟨k2, List.mem_cons_of_mem _ h2⟩
    obtain ⟨k, hk⟩ := this
    exact h _ hk
  · cases hg


/-- The number of tests of one `RecognizePC` over `m` other variables, of which at most `d` are marginally
dependent on the target. (Specification.) -/
def pcTests (m d : Nat) : Nat := m + d * (2 ^ (d - 1) - 1)

theorem pcSymmetric_cost (h : Costs W c a b) (hf : W.Fair) {marginal : Nat → Nat → Bool}
    (hm : MarginalBy W marginal) {U : List Nat} (hn : U.Nodup) {d : Nat}
    (hd : ∀ X ∈ U, ((without U X).filter (marginal X)).length ≤ d) (T : Nat) (Xs : List Nat) :
    ∀ (pc : List Nat) (sp : SetCache (List Nat)) (s : St σ), Xs ⊆ U → ShortSets (d - 1) sp →
      Part (pcSymmetric W U T Xs pc sp) s (fun r s' =>
        c s'.log s'.w ≤ c s.log s.w + a * (Xs.length * pcTests (U.length - 1) d) ∧
        r.1.length ≤ pc.length + Xs.length ∧ ShortSets (d - 1) r.2) := by
  induction Xs with
  | nil => intro pc sp s _ hsp; exact Part.ret ⟨by simp, by simp, hsp⟩
  | cons X Xs ih =>
    intro pc sp s hsub hsp
    have hX : X ∈ U := hsub List.mem_cons_self
    have hnX : (without U X).Nodup := hn.sublist List.filter_sublist
    rw [pcSymmetric]
    refine Part.andThen (recognizePC_cost h hf hm X hnX (hd X hX) s) ?_
    rintro cx s1 ⟨h1, h2⟩
    rw [length_without_mem hn hX] at h1
    have hsub' : Xs ⊆ U := fun x hx => hsub (List.mem_cons_of_mem _ hx)
    have hfold : U.length - 1 + d * (2 ^ (d - 1) - 1) = pcTests (U.length - 1) d := rfl
    rw [hfold] at h1
    rw [List.length_cons, Nat.succ_mul, Nat.mul_add]
    split
    · rename_i hT
      have hcx : (without cx T).length ≤ d - 1 := by
        rw [length_without_mem ((hnX.sublist List.filter_sublist).sublist h2) hT]
        have := le_trans h2.length_le (hd X hX)
        omega
      refine (ih _ _ s1 hsub' (hsp.add hcx _)).mono ?_
      rintro r s' ⟨h3, h4, h5⟩
      have := length_setAdd_le pc X
      exact ⟨by omega, by omega, h5⟩
    · refine (ih _ _ s1 hsub' hsp).mono ?_
      rintro r s' ⟨h3, h4, h5⟩
      exact ⟨by omega, by omega, h5⟩

theorem spouseInner_cost (h : Costs W c a b) (T X : Nat) (Ys : List Nat) :
    ∀ (mb : List Nat) (s : St σ), Part (spouseInner W T X Ys mb) s (fun _ s' =>
      c s'.log s'.w ≤ c s.log s.w + a * Ys.length) := by
  induction Ys with
  | nil => intro mb s; exact Part.ret (by simp)
  | cons Y Ys ih =>
    intro mb s
    rw [spouseInner, List.length_cons, Nat.mul_succ]
    split
    · exact (ih mb s).mono (fun _ s' h2 => by omega)
    · refine Part.andThen (P := fun _ s' => c s'.log s'.w ≤ c s.log s.w) ?_ ?_
      · intro z s' e
        unfold sepGet at e
        change ((liftM (s.sep.get [T, Y]) : PyM (St σ) _) s) = _ at e
        cases hz : s.sep.get [T, Y] with
        | error x => rw [hz] at e; cases e
        | ok v => rw [hz] at e; cases e; exact le_rfl
      intro z s1 h1
      refine Part.andThen (ask_cost h T Y _ s1) ?_
      rintro r s2 ⟨h2, -⟩
      cases r
      · exact (ih _ s2).mono (fun _ s' h3 => by omega)
      · exact (ih _ s2).mono (fun _ s' h3 => by omega)
      · exact (ih _ s2).mono (fun _ s' h3 => by omega)

theorem spouseOuter_cost (h : Costs W c a b) (hf : W.Fair) (T : Nat) {sp : SetCache (List Nat)}
    {n : Nat} (hsp : ShortSets n sp) (Xs : List Nat) :
    ∀ (mb : List Nat) (s : St σ), Part (spouseOuter W T sp Xs mb) s (fun _ s' =>
      c s'.log s'.w ≤ c s.log s.w + a * (Xs.length * n)) := by
  induction Xs with
  | nil => intro mb s; exact Part.ret (by simp)
  | cons X Xs ih =>
    intro mb s
    rw [spouseOuter, List.length_cons, Nat.succ_mul, Nat.mul_add]
    refine Part.andThen (P := fun cs s' => cs.length ≤ n ∧ s' = s) ?_ ?_
    · intro z s' e
      cases hz : sp.get [T, X] with
      | error x => rw [hz] at e; cases e
      | ok v => rw [hz] at e; cases e; exact ⟨hsp.get hz, rfl⟩
    rintro cs s1 ⟨hcs, rfl⟩
    refine Part.andThen (iter_cost h hf cs s1) ?_
    rintro l s2 ⟨hp, h2, -⟩
    refine Part.andThen (spouseInner_cost h T X l mb s2) ?_
    intro mb' s3 h3
    refine (ih mb' s3).mono ?_
    intro _ s' h4
    rw [hp.length_eq] at h3
    have := Nat.mul_le_mul_left a hcs
    omega

/-- The number of tests of IPC-MB over `m` other variables, every variable being marginally dependent on
at most `d` others. (Specification.) -/
def ipcmbTests (m d : Nat) (pcOnly : Bool) : Nat :=
  (d + 1) * pcTests m d + if pcOnly then 0 else d * (d - 1)

theorem ipcmb_cost (h : Costs W c a b) (hf : W.Fair) {marginal : Nat → Nat → Bool}
    (hm : MarginalBy W marginal) {U : List Nat} (hn : U.Nodup) {d : Nat}
    (hd : ∀ X ∈ U, ((without U X).filter (marginal X)).length ≤ d) {T : Nat} (hT : T ∈ U)
    (pcOnly : Bool) (s : St σ) :
    Part (ipcmb W U T pcOnly) s (fun _ s' =>
      c s'.log s'.w ≤ c s.log s.w + a * ipcmbTests (U.length - 1) d pcOnly) := by
  unfold ipcmb
  refine Part.andThen (m := ipcmbSet W U T pcOnly) (P := fun _ s' =>
      c s'.log s'.w ≤ c s.log s.w + a * ipcmbTests (U.length - 1) d pcOnly) ?_
    (fun mb s' h' => Part.ret h')
  unfold ipcmbSet
  refine Part.andThen (P := fun _ s' => c s'.log s'.w ≤ c s.log s.w) (Part.change le_rfl) ?_
  intro _ s1 h1
  have hnT : (without U T).Nodup := hn.sublist List.filter_sublist
  refine Part.andThen (recognizePC_cost h hf hm T hnT (hd T hT) s1) ?_
  rintro cand s2 ⟨h2, h3⟩
  rw [length_without_mem hn hT] at h2
  have hfold : U.length - 1 + d * (2 ^ (d - 1) - 1) = pcTests (U.length - 1) d := rfl
  rw [hfold] at h2
  refine Part.andThen (iter_cost h hf cand s2) ?_
  rintro l s3 ⟨hp, h4, -⟩
  have hl : l.length ≤ d := by
    rw [hp.length_eq]
    exact le_trans h3.length_le (hd T hT)
  refine Part.andThen (pcSymmetric_cost h hf hm hn hd T l [] [] s3 ?_ (fun p hp => by cases hp)) ?_
  · intro x hx
    have h5 := (h3.trans List.filter_sublist).subset (hp.mem_iff.1 hx)
    exact (List.mem_filter.1 h5).1
  rintro ⟨pc, sp⟩ s4 ⟨h5, h6, h7⟩
  simp only [List.length_nil, Nat.zero_add] at h6
  have hmul : a * (l.length * pcTests (U.length - 1) d) ≤ a * (d * pcTests (U.length - 1) d) :=
    Nat.mul_le_mul_left _ (Nat.mul_le_mul_right _ hl)
  have hsum : a * ((d + 1) * pcTests (U.length - 1) d) =
      a * (d * pcTests (U.length - 1) d) + a * pcTests (U.length - 1) d := by ring
  unfold ipcmbTests
  cases pcOnly with
  | true =>
    simp only [if_true, Nat.add_zero]
    exact Part.ret (by omega)
  | false =>
    simp only [Bool.false_eq_true, if_false]
    rw [Nat.mul_add]
    refine Part.andThen (iter_cost h hf pc s4) ?_
    rintro l' s5 ⟨hp', h8, -⟩
    refine (spouseOuter_cost h hf T h7 l' pc s5).mono ?_
    intro _ s' h9
    have : a * (l'.length * (d - 1)) ≤ a * (d * (d - 1)) :=
      Nat.mul_le_mul_left _ (Nat.mul_le_mul_right _ (by rw [hp'.length_eq]; omega))
    omega


end cost

/-! ## No test is made twice by one `RecognizePC` -/

/-- No two tests of the list are about the same variables, in the same roles, given the same set.
(Specification.) -/
def AllDifferent (l : List Query) : Prop :=
  l.Pairwise (fun q q' => ¬ (q.1 = q'.1 ∧ q.2.1 = q'.2.1 ∧ ∀ x, x ∈ q.2.2 ↔ x ∈ q'.2.2))

theorem combinations_different {l : List Nat} (hl : l.Nodup) : ∀ k : Nat,
    (combinations k l).Pairwise (fun Z Z' => ¬ ∀ x, x ∈ Z ↔ x ∈ Z') := by
  induction l with
  | nil =>
    intro k
    cases k <;> simp [combinations]
  | cons y ys ih =>
    intro k
    have hy : y ∉ ys := (List.nodup_cons.1 hl).1
    have hys : ys.Nodup := (List.nodup_cons.1 hl).2
    have hnot : ∀ k Z, Z ∈ combinations k ys → y ∉ Z := fun k Z hZ hyZ =>
      hy ((mem_combinations.1 hZ).1.subset hyZ)
    cases k with
    | zero => simp [combinations]
    | succ k =>
      rw [combinations, List.pairwise_append]
      refine ⟨?_, ih hys (k + 1), ?_⟩
      · rw [List.pairwise_map]
        refine List.Pairwise.imp_of_mem ?_ (ih hys k)
        intro Z Z' hZ hZ' hne heq
        apply hne
        intro x
        have hx := heq x
        simp only [List.mem_cons] at hx
        by_cases hxy : x = y
        · subst hxy
          exact ⟨fun h => absurd h (hnot k Z hZ), fun h => absurd h (hnot k Z' hZ')⟩
        · simpa [hxy] using hx
      · intro Z hZ Z' hZ' heq
        obtain ⟨Z0, _, rfl⟩ := List.mem_map.1 hZ
        exact hnot (k + 1) Z' hZ' ((heq y).1 List.mem_cons_self)

section once
variable {W : World σ κ}

theorem ask_log (X Y : Nat) (Z : List Nat) (s : St σ) :
    Part (ask W X Y Z) s (fun _ s' => s'.log = s.log ++ [(X, Y, Z)]) := by
  intro r s' e
  unfold ask at e
  split at e
  · cases e; rfl
  · cases e

theorem iter_log (hf : W.Fair) (l : List Nat) (s : St σ) :
    Part (iter W l) s (fun l' s' => l'.Perm l ∧ s'.log = s.log) := by
  intro r s' e
  cases e
  exact ⟨hf l s.w, rfl⟩

theorem sepSearch_log (T X : Nat) (Zs : List (List Nat)) :
    ∀ (non : Bool) (s : St σ), Part (sepSearch W T X Zs non) s (fun _ s' =>
      ∃ Zs' : List (List Nat), Zs'.Sublist Zs ∧ s'.log = s.log ++ Zs'.map (fun Z => (X, T, Z))) := by
  induction Zs with
  | nil => intro non s; exact Part.ret ⟨[], List.Sublist.refl _, by simp⟩
  | cons Z Zs ih =>
    intro non s
    rw [sepSearch]
    refine Part.andThen (ask_log X T Z s) ?_
    intro r s1 h1
    have next : ∀ non', Part (sepSearch W T X Zs non') s1 (fun _ s' =>
        ∃ Zs' : List (List Nat), Zs'.Sublist (Z :: Zs) ∧ s'.log = s.log ++ Zs'.map (fun Z => (X, T, Z))) := by
      intro non'
      refine (ih non' s1).mono ?_
      rintro _ s' ⟨Zs', h2, h3⟩
      exact ⟨Z :: Zs', h2.cons_cons Z, by rw [h3, h1]; simp⟩
    cases r
    · refine Part.andThen (P := fun _ s' => s'.log = s1.log) (Part.change rfl) ?_
      intro _ s2 h2
      exact Part.ret ⟨[Z], by simp, by rw [h2, h1]; simp⟩
    · exact next non
    · exact next true

theorem pcRound_log (hf : W.Fair) (T : Nat) {adj : List Nat} (hn : adj.Nodup) (k : Nat)
    (Xs : List Nat) : ∀ (nonPC : List Nat) (s : St σ), Xs.Nodup →
      Part (pcRound W T adj k Xs nonPC) s (fun _ s' => ∃ new, s'.log = s.log ++ new ∧
        AllDifferent new ∧ ∀ q ∈ new, q.1 ∈ Xs ∧ q.2.1 = T ∧ q.2.2.Nodup ∧ q.2.2.length = k) := by
  induction Xs with
  | nil => intro nonPC s _; exact Part.ret ⟨[], by simp, List.Pairwise.nil, by simp⟩
  | cons X Xs ih =>
    intro nonPC s hXs
    rw [pcRound]
    refine Part.andThen (iter_log hf _ s) ?_
    rintro base s1 ⟨hp, h1⟩
    have hbase : base.Nodup := hp.nodup_iff.2 (hn.sublist List.filter_sublist)
    refine Part.andThen (sepSearch_log T X _ false s1) ?_
    rintro non s2 ⟨Zs', h2, h3⟩
    refine Part.andThen (P := fun _ s' => s'.log = s2.log) (Part.change (by split <;> rfl)) ?_
    intro _ s3 h4
    refine (ih _ s3 (List.nodup_cons.1 hXs).2).mono ?_
    rintro _ s' ⟨new, h5, h6, h7⟩
    refine ⟨Zs'.map (fun Z => (X, T, Z)) ++ new, ?_, ?_, ?_⟩
    · rw [h5, h4, h3, h1, List.append_assoc]
    · unfold AllDifferent
      rw [List.pairwise_append]
      refine ⟨?_, h6, ?_⟩
      · rw [List.pairwise_map]
        exact ((combinations_different hbase k).sublist h2).imp (fun hne h => hne h.2.2)
      · intro q hq q' hq' heq
        obtain ⟨Z, _, rfl⟩ := List.mem_map.1 hq
        have := (h7 q' hq').1
        rw [← heq.1] at this
        exact (List.nodup_cons.1 hXs).1 this
    · intro q hq
      rcases List.mem_append.1 hq with hq | hq
      · obtain ⟨Z, hZ, rfl⟩ := List.mem_map.1 hq
        obtain ⟨hZ1, hZ2⟩ := mem_combinations.1 (h2.subset hZ)
        exact ⟨List.mem_cons_self, rfl, hbase.sublist hZ1, hZ2⟩
      · obtain ⟨h8, h9⟩ := h7 q hq
        exact ⟨List.mem_cons_of_mem _ h8, h9⟩

theorem pcLoop_log (hf : W.Fair) (T : Nat) (fuel : Nat) :
    ∀ (k : Nat) (adj : List Nat) (s : St σ), adj.Nodup → Part (pcLoop W T fuel k adj) s (fun _ s' =>
      ∃ new, s'.log = s.log ++ new ∧ AllDifferent new ∧
        ∀ q ∈ new, q.1 ∈ adj ∧ q.2.1 = T ∧ q.2.2.Nodup ∧ k ≤ q.2.2.length) := by
  induction fuel with
  | zero => intro k adj s _; exact Part.raise
  | succ fuel ih =>
    intro k adj s hn
    rw [pcLoop]
    refine Part.andThen (iter_log hf adj s) ?_
    rintro l s1 ⟨hp, h1⟩
    refine Part.andThen (pcRound_log hf T hn k l [] s1 (hp.nodup_iff.2 hn)) ?_
    rintro nonPC s2 ⟨new, h2, h3, h4⟩
    have h4' : ∀ q ∈ new, q.1 ∈ adj ∧ q.2.1 = T ∧ q.2.2.Nodup ∧ k ≤ q.2.2.length := by
      intro q hq
      obtain ⟨h5, h6, h7, h8⟩ := h4 q hq
      exact ⟨hp.mem_iff.1 h5, h6, h7, h8.ge⟩
    simp only []
    split
    · exact Part.ret ⟨new, by rw [h2, h1], h3, h4'⟩
    · refine (ih (k + 1) _ s2 (hn.sublist (diff_sublist _ _))).mono ?_
      rintro _ s' ⟨new', h5, h6, h7⟩
      refine ⟨new ++ new', by rw [h5, h2, h1, List.append_assoc], ?_, ?_⟩
      · unfold AllDifferent
        rw [List.pairwise_append]
        refine ⟨h3, h6, ?_⟩
        intro q hq q' hq' heq
        obtain ⟨_, _, h8, h9⟩ := h4 q hq
        obtain ⟨_, _, h10, h11⟩ := h7 q' hq'
        have := ((List.perm_ext_iff_of_nodup h8 h10).2 heq.2.2).length_eq
        omega
      · intro q hq
        rcases List.mem_append.1 hq with hq | hq
        · exact h4' q hq
        · obtain ⟨h8, h9, h10, h11⟩ := h7 q hq
          exact ⟨(diff_sublist _ _).subset h8, h9, h10, by omega⟩

end once

/-! ## When every test finds dependence -/

/-- Every CI test answers that the variables are dependent. (Specification.) -/
def World.Dependent (W : World σ κ) : Prop :=
  ∀ X Y Z w r w', W.ask X Y Z w = .ok (r, w') → r = .dependent

section full
variable {W : World σ κ}

theorem ask_full (h : W.Dependent) (X Y : Nat) (Z : List Nat) (s : St σ) :
    Part (ask W X Y Z) s (fun r s' => r = .dependent ∧ s'.log.length = s.log.length + 1) := by
  intro r s' e
  unfold ask at e
  split at e
  · rename_i hw
    cases e
    exact ⟨h _ _ _ _ _ _ hw, by simp⟩
  · cases e

theorem iter_full (hf : W.Fair) (l : List Nat) (s : St σ) :
    Part (iter W l) s (fun l' s' => l'.Perm l ∧ s'.log.length = s.log.length) :=
  (iter_log hf l s).mono (fun _ _ h => ⟨h.1, by rw [h.2]⟩)

theorem sepSearch_full (h : W.Dependent) (T X : Nat) (Zs : List (List Nat)) :
    ∀ (non : Bool) (s : St σ), Part (sepSearch W T X Zs non) s (fun r s' =>
      r = non ∧ s'.log.length = s.log.length + Zs.length) := by
  induction Zs with
  | nil => intro non s; exact Part.ret ⟨rfl, by simp⟩
  | cons Z Zs ih =>
    intro non s
    rw [sepSearch]
    refine Part.andThen (ask_full h X T Z s) ?_
    rintro r s1 ⟨rfl, h1⟩
    refine (ih non s1).mono ?_
    rintro r s' ⟨h2, h3⟩
    exact ⟨h2, by rw [List.length_cons]; omega⟩

theorem pcRound_full (h : W.Dependent) (hf : W.Fair) (T : Nat) {adj : List Nat} (hn : adj.Nodup)
    (k : Nat) (Xs : List Nat) :
    ∀ (nonPC : List Nat) (s : St σ), Xs ⊆ adj → Part (pcRound W T adj k Xs nonPC) s (fun r s' =>
      r = nonPC ∧ s'.log.length = s.log.length + Xs.length * (adj.length - 1).choose k) := by
  induction Xs with
  | nil => intro nonPC s _; exact Part.ret ⟨rfl, by simp⟩
  | cons X Xs ih =>
    intro nonPC s hsub
    rw [pcRound]
    refine Part.andThen (iter_full hf _ s) ?_
    rintro base s1 ⟨hp, h1⟩
    refine Part.andThen (sepSearch_full h T X _ false s1) ?_
    rintro non s2 ⟨rfl, h2⟩
    refine Part.andThen (P := fun _ s' => s'.log = s2.log) (Part.change (by split <;> rfl)) ?_
    intro _ s3 h3
    refine (ih _ s3 (fun x hx => hsub (List.mem_cons_of_mem _ hx))).mono ?_
    rintro r s' ⟨h4, h5⟩
    rw [length_combinations, hp.length_eq, length_without_mem hn (hsub List.mem_cons_self)] at h2
    rw [List.length_cons, Nat.succ_mul, h5, h3]
    exact ⟨h4, by omega⟩

theorem diff_nil_right (l : List Nat) : diff l [] = l := by
  unfold diff
  rw [List.filter_eq_self]
  simp

theorem pcLoop_full (h : W.Dependent) (hf : W.Fair) (T : Nat) (fuel : Nat) :
    ∀ (k : Nat) (adj : List Nat) (s : St σ), adj.Nodup → k ≤ adj.length →
      Part (pcLoop W T fuel k adj) s (fun r s' =>
        r = adj ∧ s'.log.length = s.log.length + roundsFrom adj.length k) := by
  induction fuel with
  | zero => intro k adj s _ _; exact Part.raise
  | succ fuel ih =>
    intro k adj s hn hk
    rw [pcLoop]
    refine Part.andThen (iter_full hf adj s) ?_
    rintro l s1 ⟨hp, h1⟩
    refine Part.andThen (pcRound_full h hf T hn k l [] s1 (fun x hx => hp.mem_iff.1 hx)) ?_
    rintro nonPC s2 ⟨rfl, h2⟩
    rw [hp.length_eq] at h2
    simp only []
    rw [diff_nil_right]
    by_cases hk' : k < adj.length
    · rw [roundsFrom_step hk']
      by_cases hend : adj.length ≤ k + 1
      · rw [if_pos hend]
        have : roundsFrom adj.length (k + 1) = 0 := by
          unfold roundsFrom
          rw [Finset.Ico_eq_empty (by omega)]
          simp
        exact Part.ret ⟨rfl, by omega⟩
      · rw [if_neg hend]
        refine (ih (k + 1) adj s2 hn (by omega)).mono ?_
        rintro r s' ⟨h3, h4⟩
        exact ⟨h3, by omega⟩
    · rw [if_pos (by omega)]
      have hz : adj.length * (adj.length - 1).choose k = 0 := by
        rcases Nat.eq_zero_or_pos adj.length with h0 | h0
        · rw [h0, Nat.zero_mul]
        · rw [Nat.choose_eq_zero_of_lt (by omega), Nat.mul_zero]
      have : roundsFrom adj.length k = 0 := by
        unfold roundsFrom
        rw [Finset.Ico_eq_empty (by omega)]
        simp
      exact Part.ret ⟨rfl, by omega⟩

theorem recognizePC_full (h : W.Dependent) (hf : W.Fair) (T : Nat) {adj : List Nat} (hn : adj.Nodup)
    (s : St σ) : Part (recognizePC W T adj) s (fun r s' =>
      r = adj ∧ s'.log.length = s.log.length + adj.length * 2 ^ (adj.length - 1)) := by
  refine (pcLoop_full h hf T _ 0 adj s hn (Nat.zero_le _)).mono ?_
  rintro r s' ⟨h1, h2⟩
  exact ⟨h1, by rw [h2, roundsFrom_zero]⟩

/-- Every list in the cache is a part of `A`. (Models no code: a notion for statements and proofs.) -/
def SetsIn (A : List Nat) (sp : SetCache (List Nat)) : Prop := ∀ p ∈ sp, p.2 ⊆ A

theorem mem_setCache_add {sp : SetCache (List Nat)} {l e : List Nat} {p : List Nat × List Nat}
    (hp : p ∈ sp.add l e) : p ∈ sp ∨ p.2 = l := by
  unfold SetCache.add at hp
  revert hp
  generalize fkey e = k
  induction sp with
  | nil => intro hp; right; simp [dictSet] at hp; rw [hp]
  | cons q qs ih =>
    intro hp
    obtain ⟨k', v'⟩ := q
    rw [dictSet] at hp
    split at hp
    · rcases List.mem_cons.1 hp with hp | hp
      · right; rw [hp]
      · left; exact List.mem_cons_of_mem _ hp
    · rcases List.mem_cons.1 hp with hp | hp
      · left; rw [hp]; exact List.mem_cons_self
      · rcases ih hp with h1 | h1
        · left; exact List.mem_cons_of_mem _ h1
        · right; exact h1

theorem SetsIn.get {A : List Nat} {sp : SetCache (List Nat)} (h : SetsIn A sp) {e l : List Nat}
    (hg : sp.get e = .ok l) : l ⊆ A := by
  unfold SetCache.get at hg
  split at hg
  · rename_i v hv
    cases hg
    have : ∃ k, (k, l) ∈ sp := by
      revert hv
      generalize fkey e = k
      clear h
      induction sp with
      | nil => intro hv; cases hv
      | cons q qs ih =>
        intro hv
        obtain ⟨k', v'⟩ := q
        rw [dictGet] at hv
        split at hv
        · cases hv; exact ⟨k', List.mem_cons_self⟩
        · obtain ⟨k2, h2⟩ := ih hv
          exact ⟨k2, List.mem_cons_of_mem _ h2⟩
    obtain ⟨k, hk⟩ := this
    exact h _ hk
  · cases hg

theorem pcSymmetric_full (h : W.Dependent) (hf : W.Fair) {U : List Nat} (hn : U.Nodup) {T : Nat}
    (hT : T ∈ U) (Xs : List Nat) :
    ∀ (pc : List Nat) (sp : SetCache (List Nat)) (s : St σ), Xs ⊆ without U T →
      SetsIn (without U T) sp → Part (pcSymmetric W U T Xs pc sp) s (fun r s' =>
        (∀ x, x ∈ r.1 ↔ x ∈ pc ∨ x ∈ Xs) ∧ SetsIn (without U T) r.2 ∧
        s'.log.length = s.log.length + Xs.length * ((U.length - 1) * 2 ^ (U.length - 2))) := by
  induction Xs with
  | nil => intro pc sp s _ hsp; exact Part.ret ⟨by simp, hsp, by simp⟩
  | cons X Xs ih =>
    intro pc sp s hsub hsp
    obtain ⟨hXU, hXT⟩ := mem_without.1 (hsub List.mem_cons_self)
    rw [pcSymmetric]
    refine Part.andThen (recognizePC_full h hf X (nodup_without hn X) s) ?_
    rintro cx s1 ⟨rfl, h1⟩
    rw [length_without_mem hn hXU] at h1
    rw [if_pos (mem_without.2 ⟨hT, fun e => hXT e.symm⟩)]
    refine (ih _ _ s1 (fun x hx => hsub (List.mem_cons_of_mem _ hx)) ?_).mono ?_
    · intro p hp
      rcases mem_setCache_add hp with hp | hp
      · exact hsp p hp
      · rw [hp]
        intro x hx
        obtain ⟨hx1, hx2⟩ := mem_without.1 hx
        exact mem_without.2 ⟨(mem_without.1 hx1).1, hx2⟩
    · rintro r s' ⟨h2, h3, h4⟩
      refine ⟨?_, h3, ?_⟩
      · intro x
        rw [h2, mem_setAdd, List.mem_cons]
        tauto
      · rw [List.length_cons, Nat.succ_mul, h4, h1]
        have : U.length - 1 - 1 = U.length - 2 := by omega
        rw [this]
        omega

theorem spouseInner_full (T X : Nat) (Ys mb : List Nat) (s : St σ) (hsub : Ys ⊆ mb) :
    Part (spouseInner W T X Ys mb) s (fun r s' => r = mb ∧ s' = s) := by
  induction Ys with
  | nil => exact Part.ret ⟨rfl, rfl⟩
  | cons Y Ys ih =>
    rw [spouseInner, if_pos (hsub List.mem_cons_self)]
    exact ih (fun x hx => hsub (List.mem_cons_of_mem _ hx))

theorem spouseOuter_full (hf : W.Fair) (T : Nat) {sp : SetCache (List Nat)} {mb : List Nat}
    (hsp : SetsIn mb sp) (Xs : List Nat) :
    ∀ (s : St σ), Part (spouseOuter W T sp Xs mb) s (fun r s' =>
      r = mb ∧ s'.log.length = s.log.length) := by
  induction Xs with
  | nil => intro s; exact Part.ret ⟨rfl, rfl⟩
  | cons X Xs ih =>
    intro s
    rw [spouseOuter]
    refine Part.andThen (P := fun cs s' => cs ⊆ mb ∧ s' = s) ?_ ?_
    · intro z s' e
      cases hz : sp.get [T, X] with
      | error x => rw [hz] at e; cases e
      | ok v => rw [hz] at e; cases e; exact ⟨hsp.get hz, rfl⟩
    rintro cs s1 ⟨hcs, rfl⟩
    refine Part.andThen (iter_full hf cs s1) ?_
    rintro l s2 ⟨hp, h2⟩
    refine Part.andThen (spouseInner_full T X l mb s2 (fun x hx => hcs (hp.mem_iff.1 hx))) ?_
    rintro mb' s3 ⟨rfl, rfl⟩
    refine (ih s3).mono ?_
    rintro r s' ⟨h4, h5⟩
    exact ⟨h4, by omega⟩

theorem ipcmb_full (h : W.Dependent) (hf : W.Fair) {U : List Nat} (hn : U.Nodup) {T : Nat}
    (hT : T ∈ U) (pcOnly : Bool) (s : St σ) : Part (ipcmb W U T pcOnly) s (fun _ s' =>
      s'.log.length = s.log.length + U.length * ((U.length - 1) * 2 ^ (U.length - 2))) := by
  unfold ipcmb
  refine Part.andThen (m := ipcmbSet W U T pcOnly) (P := fun _ s' =>
      s'.log.length = s.log.length + U.length * ((U.length - 1) * 2 ^ (U.length - 2))) ?_
    (fun mb s' h' => Part.ret h')
  unfold ipcmbSet
  refine Part.andThen (P := fun _ s' => s'.log.length = s.log.length) (Part.change rfl) ?_
  intro _ s1 h1
  refine Part.andThen (recognizePC_full h hf T (nodup_without hn T) s1) ?_
  rintro cand s2 ⟨rfl, h2⟩
  refine Part.andThen (iter_full hf _ s2) ?_
  rintro l s3 ⟨hp, h3⟩
  have hl := hp.length_eq
  rw [length_without_mem hn hT] at h2 hl
  refine Part.andThen (pcSymmetric_full h hf hn hT l [] [] s3 (fun x hx => hp.mem_iff.1 hx)
    (fun p hp => by cases hp)) ?_
  rintro ⟨pc, sp⟩ s4 ⟨h4, h5, h6⟩
  have h7 : U.length - 1 - 1 = U.length - 2 := by omega
  rw [h7] at h2
  obtain ⟨n, hU⟩ : ∃ n, U.length = n + 1 := ⟨U.length - 1, by
    have := List.length_pos_of_mem hT; omega⟩
  have h8 : s4.log.length = s.log.length + U.length * ((U.length - 1) * 2 ^ (U.length - 2)) := by
    rw [h6, hl, h3, h2, h1, hU, Nat.add_sub_cancel]
    ring
  cases pcOnly with
  | true => exact Part.ret h8
  | false =>
    simp only [Bool.false_eq_true, if_false]
    refine Part.andThen (iter_full hf pc s4) ?_
    rintro l' s5 ⟨hp', h9⟩
    refine (spouseOuter_full hf T (fun p hq x hx => ?_) l' s5).mono ?_
    · exact (h4 x).2 (Or.inr (hp.mem_iff.2 (h5 p hq hx)))
    rintro r s' ⟨_, h10⟩
    omega

section iambFull
variable [LinearOrder κ]

omit [LinearOrder κ] in
theorem heur_full (X Y : Nat) (Z : List Nat) (s : St σ) :
    Part (heur W X Y Z) s (fun _ s' => s'.log = s.log) := by
  intro r s' e
  unfold heur at e
  split at e
  · cases e; rfl
  · cases e

theorem maxScan_full (T : Nat) (cmb ys : List Nat) :
    ∀ (best : Nat) (k : κ) (s : St σ), Part (maxScan W T cmb ys best k) s (fun r s' =>
      r ∈ best :: ys ∧ s'.log = s.log) := by
  induction ys with
  | nil => intro best k s; exact Part.ret ⟨by simp, rfl⟩
  | cons y ys ih =>
    intro best k s
    rw [maxScan]
    refine Part.andThen (heur_full T y cmb s) ?_
    intro k' s1 h1
    split
    · refine (ih y k' s1).mono ?_
      rintro r s' ⟨h2, h3⟩
      exact ⟨by simp only [List.mem_cons] at h2 ⊢; tauto, h3.trans h1⟩
    · refine (ih best k s1).mono ?_
      rintro r s' ⟨h2, h3⟩
      exact ⟨by simp only [List.mem_cons] at h2 ⊢; tauto, h3.trans h1⟩

theorem highest_full (hf : W.Fair) (T : Nat) (cands cmb : List Nat) (s : St σ) :
    Part (highest W T cands cmb) s (fun r s' => r ∈ cands ∧ s'.log.length = s.log.length) := by
  refine Part.andThen (iter_log hf cands s) ?_
  rintro l s1 ⟨hp, h1⟩
  cases l with
  | nil => exact Part.raise
  | cons x xs =>
    refine Part.andThen (heur_full T x cmb s1) ?_
    intro k s2 h2
    refine (maxScan_full T cmb xs x k s2).mono ?_
    rintro r s' ⟨h3, h4⟩
    exact ⟨hp.mem_iff.1 h3, by rw [h4, h2, h1]⟩

theorem growLoop_full (h : W.Dependent) (hf : W.Fair) (T : Nat) (fuel : Nat) :
    ∀ (cands cmb : List Nat) (s : St σ), cands.Nodup → (∀ x ∈ cands, x ∉ cmb) →
      Part (growLoop W T fuel cands cmb) s (fun r s' =>
        s'.log.length = s.log.length + cands.length ∧ r.length = cmb.length + cands.length) := by
  induction fuel with
  | zero => intro cands cmb s _ _; exact Part.raise
  | succ fuel ih =>
    intro cands cmb s hn hd
    rw [growLoop]
    by_cases h0 : cands.length = 0
    · rw [if_pos h0]
      exact Part.ret ⟨by omega, by omega⟩
    rw [if_neg h0]
    refine Part.andThen (highest_full hf T cands cmb s) ?_
    rintro x s1 ⟨hx, h1⟩
    refine Part.andThen (ask_full h T x cmb s1) ?_
    rintro r s2 ⟨rfl, h2⟩
    refine (ih (without cands x) (setAdd cmb x) s2 (nodup_without hn x) ?_).mono ?_
    · intro y hy hy'
      obtain ⟨h3, h4⟩ := mem_without.1 hy
      rcases mem_setAdd.1 hy' with h5 | h5
      · exact hd y h3 h5
      · exact h4 h5
    · rintro r s' ⟨h3, h4⟩
      rw [length_without_mem hn hx] at h3 h4
      have : (setAdd cmb x).length = cmb.length + 1 := by
        unfold setAdd
        rw [if_neg (hd x hx)]
        simp
      exact ⟨by omega, by omega⟩

omit [LinearOrder κ] in
theorem shrinkLoop_full (h : W.Dependent) (T : Nat) (cmb cs : List Nat) :
    ∀ (fp : List Nat) (s : St σ), Part (shrinkLoop W T cmb cs fp) s (fun _ s' =>
      s'.log.length = s.log.length + cs.length) := by
  induction cs with
  | nil => intro fp s; exact Part.ret (by simp)
  | cons x cs ih =>
    intro fp s
    rw [shrinkLoop]
    refine Part.andThen (ask_full h T x _ s) ?_
    rintro r s1 ⟨rfl, h1⟩
    exact (ih fp s1).mono (fun _ s' h2 => by rw [List.length_cons]; omega)

theorem iamb_full (h : W.Dependent) (hf : W.Fair) {U : List Nat} (hn : U.Nodup) (T : Nat)
    (s : St σ) : Part (iamb W U T) s (fun _ s' =>
      s'.log.length = s.log.length + 2 * (without U T).length) := by
  refine Part.andThen (growLoop_full h hf T _ (without U T) [] s (nodup_without hn T) (by simp)) ?_
  rintro cmb s1 ⟨h1, h2⟩
  rw [List.length_nil, Nat.zero_add] at h2
  refine Part.andThen (m := shrink W T cmb)
    (P := fun _ s' => s'.log.length = s1.log.length + cmb.length) ?_ ?_
  · refine Part.andThen (iter_full hf cmb s1) ?_
    rintro l s2 ⟨hp, h3⟩
    refine Part.andThen (shrinkLoop_full h T cmb l [] s2) ?_
    intro fp s3 h4
    rw [hp.length_eq] at h4
    exact Part.ret (by omega)
  · intro mb s2 h3
    exact Part.ret (by omega)

end iambFull

end full


end Mbtk.MB
