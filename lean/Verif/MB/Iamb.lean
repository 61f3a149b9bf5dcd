import Verif.MB.Model
import Verif.Graph.DSep
/-!
# IAMB: loop invariants
-/
namespace Mbtk.MB

variable {σ κ : Type}

/-- Sets are visited completely, each element once. (Specification.) -/
def World.Fair (W : World σ κ) : Prop := ∀ l s, (W.iter l s).1.Perm l

/-- Every CI test call returns, with an outcome allowed by `R`. (Specification.) -/
def World.Allows (W : World σ κ) (R : Nat → Nat → List Nat → Answer → Prop) : Prop :=
  ∀ X Y Z s, ∃ a w, W.ask X Y Z s = .ok (a, w) ∧ R X Y Z a

/-- Every heuristic call scoring a variable of `U` other than `T` against `T` returns.
(Specification.) -/
def World.HeurOn (W : World σ κ) (T : Nat) (U : List Nat) : Prop :=
  ∀ Y ∈ U, Y ≠ T → ∀ Z s, ∃ v w, W.heur T Y Z s = .ok (v, w)

/-- The CI test never fails (it may report insufficient samples). (Specification.) -/
def World.Total (W : World σ κ) : Prop := W.Allows (fun _ _ _ _ => True)

/-- The CI test always answers, and answers "independent" exactly when `P` holds.
(Specification.) -/
def World.Answers (W : World σ κ) (P : Nat → Nat → Set Nat → Prop) : Prop :=
  W.Allows (fun X Y Z a => (a = .independent ∧ P X Y {z | z ∈ Z}) ∨
    (a = .dependent ∧ ¬ P X Y {z | z ∈ Z}))

/-- The CI test answers every question about the target `T`: "independent" exactly when
`ind` holds. (Specification.) -/
def World.AnswersAt (W : World σ κ) (T : Nat) (ind : Nat → Set Nat → Prop) : Prop :=
  ∀ Y Z s, ∃ a w, W.ask T Y Z s = .ok (a, w) ∧
    ((a = .independent ∧ ind Y {z | z ∈ Z}) ∨ (a = .dependent ∧ ¬ ind Y {z | z ∈ Z}))

theorem World.Answers.at {W : World σ κ} {P} (h : W.Answers P) (T : Nat) : W.AnswersAt T (P T) :=
  fun Y Z s => h T Y Z s

theorem World.Allows.total {W : World σ κ} {R} (h : W.Allows R) : W.Total := by
  intro X Y Z s
  obtain ⟨a, w, h1, -⟩ := h X Y Z s
  exact ⟨a, w, h1, trivial⟩

theorem ask_ok {W : World σ κ} {R} (h : W.Allows R) (X Y : Nat) (Z : List Nat) (s : St σ) :
    Ok (ask W X Y Z) s (fun a s' => R X Y Z a ∧ s'.sep = s.sep ∧ s'.log = s.log ++ [(X, Y, Z)]) := by
  obtain ⟨a, w, h1, h2⟩ := h X Y Z s.w
  exact ⟨a, { s with log := s.log ++ [(X, Y, Z)], w := w }, by simp [ask, h1], h2, rfl, rfl⟩

theorem ask_at_ok {W : World σ κ} {T : Nat} {ind} (h : W.AnswersAt T ind) (Y : Nat) (Z : List Nat)
    (s : St σ) : Ok (ask W T Y Z) s (fun a _ =>
      (a = .independent ∧ ind Y {z | z ∈ Z}) ∨ (a = .dependent ∧ ¬ ind Y {z | z ∈ Z})) := by
  obtain ⟨a, w, h1, h2⟩ := h Y Z s.w
  exact ⟨a, { s with log := s.log ++ [(T, Y, Z)], w := w }, by simp [ask, h1], h2⟩

theorem heur_ok {W : World σ κ} {T : Nat} {U : List Nat} (h : W.HeurOn T U) {Y : Nat}
    (hY : Y ∈ U ∧ Y ≠ T) (Z : List Nat) (s : St σ) :
    Ok (heur W T Y Z) s (fun v s' => s'.sep = s.sep ∧ s'.log = s.log ∧
      ∃ t w, W.heur T Y Z t = .ok (v, w)) := by
  obtain ⟨v, w, h1⟩ := h Y hY.1 hY.2 Z s.w
  exact ⟨v, { s with w := w }, by simp [heur, h1], rfl, rfl, s.w, w, h1⟩

theorem iter_ok {W : World σ κ} (h : W.Fair) (l : List Nat) (s : St σ) :
    Ok (iter W l) s (fun l' s' => l'.Perm l ∧ s'.sep = s.sep ∧ s'.log = s.log) :=
  ⟨_, _, rfl, h l s.w, rfl, rfl⟩

theorem Ok.andThen {α β : Type} {τ : Type} {m : PyM τ α} {f : α → PyM τ β} {s : τ}
    {P : α → τ → Prop} {Q : β → τ → Prop} (h : Ok m s P)
    (hf : ∀ a s', P a s' → Ok (f a) s' Q) : Ok (m >>= f) s Q := Ok.bindPost h hf

/-- The heuristic is the function `h` when scoring against `T` given `cmb`.
(Specification.) -/
def HeurIs (W : World σ κ) (T : Nat) (cmb : List Nat) (h : Nat → κ) : Prop :=
  ∀ y s v w, W.heur T y cmb s = .ok (v, w) → v = h y

theorem mem_without {l : List Nat} {x y : Nat} : y ∈ without l x ↔ y ∈ l ∧ y ≠ x := by
  simp [without]

theorem mem_diff {a b : List Nat} {y : Nat} : y ∈ diff a b ↔ y ∈ a ∧ y ∉ b := by
  simp [diff]

theorem mem_setAdd {l : List Nat} {x y : Nat} : y ∈ setAdd l x ↔ y ∈ l ∨ y = x := by
  unfold setAdd; split
  · constructor
    · exact Or.inl
    · rintro (h | rfl) <;> assumption
  · simp

theorem nodup_without {l : List Nat} (h : l.Nodup) (x : Nat) : (without l x).Nodup := h.filter _

theorem nodup_diff {l : List Nat} (h : l.Nodup) (x : List Nat) : (diff l x).Nodup := h.filter _

theorem nodup_setAdd {l : List Nat} (h : l.Nodup) (x : Nat) : (setAdd l x).Nodup := by
  unfold setAdd; split
  · exact h
  · rename_i hx
    rw [List.nodup_append]
    refine ⟨h, by simp, ?_⟩
    rintro a ha b hb rfl
    simp at hb; subst hb; exact hx ha

theorem length_without_lt {l : List Nat} {x : Nat} (h : x ∈ l) : (without l x).length < l.length :=
  by
    rw [without, ← List.countP_eq_length_filter]
    have h1 := List.countP_le_length (p := fun y => decide (y ≠ x)) (l := l)
    rcases Nat.lt_or_ge (List.countP (fun y => decide (y ≠ x)) l) l.length with h2 | h2
    · exact h2
    · have h3 : List.countP (fun y => decide (y ≠ x)) l = l.length := by omega
      rw [List.countP_eq_length] at h3
      have := h3 x h; simp at this

theorem pySorted_perm (l : List Nat) : (pySorted l).Perm l := List.perm_insertionSort _ _

theorem pySorted_strict {l : List Nat} (h : l.Nodup) : (pySorted l).Pairwise (· < ·) := by
  have h1 : (pySorted l).Pairwise (· ≤ ·) := List.pairwise_insertionSort _ _
  have h2 : (pySorted l).Nodup := (pySorted_perm l).nodup_iff.2 h
  exact (h1.and h2).imp (fun ⟨h, h'⟩ => by omega)

theorem maxScan_ok [LinearOrder κ] {W : World σ κ} {T : Nat} {U : List Nat} (ht : W.HeurOn T U) (cmb : List Nat)
    (ys : List Nat) (hys : ∀ y ∈ ys, y ∈ U ∧ y ≠ T) :
    ∀ (best : Nat) (k : κ) (s : St σ), (∀ h, HeurIs W T cmb h → k = h best) →
      Ok (maxScan W T cmb ys best k) s (fun c s' => c ∈ best :: ys ∧ s'.sep = s.sep ∧
        s'.log = s.log ∧
        ∀ h, HeurIs W T cmb h → ∀ y ∈ best :: ys, h y ≤ h c) := by
  induction ys with
  | nil =>
    intro best k s hk
    exact Ok.ret ⟨by simp, rfl, rfl, by intro h _ y hy; simp at hy; subst hy; exact le_refl _⟩
  | cons y ys ih =>
    intro best k s hk
    rw [maxScan]
    have ih := ih (fun z hz => hys z (by simp [hz]))
    refine Ok.andThen (heur_ok ht (hys y (by simp)) cmb s) ?_
    rintro v s' ⟨h1, h2, t, w, h3⟩
    have hv : ∀ h, HeurIs W T cmb h → v = h y := fun h hh => hh y t v w h3
    by_cases hlt : k < v
    · rw [if_pos hlt]
      refine (ih y v s' hv).mono ?_
      rintro c s'' ⟨k1, k2, k3, k4⟩
      refine ⟨by simp only [List.mem_cons] at k1 ⊢; tauto, k2.trans h1, k3.trans h2, ?_⟩
      intro h hh z hz
      have hky : h y ≤ h c := k4 h hh y (by simp)
      simp only [List.mem_cons] at hz
      rcases hz with rfl | rfl | hz
      · refine le_trans ?_ hky
        rw [← hk h hh, ← hv h hh]; exact le_of_lt hlt
      · exact hky
      · exact k4 h hh z (by simp [hz])
    · rw [if_neg hlt]
      refine (ih best k s' hk).mono ?_
      rintro c s'' ⟨k1, k2, k3, k4⟩
      refine ⟨by simp only [List.mem_cons] at k1 ⊢; tauto, k2.trans h1, k3.trans h2, ?_⟩
      intro h hh z hz
      have hkb : h best ≤ h c := k4 h hh best (by simp)
      simp only [List.mem_cons] at hz
      rcases hz with rfl | rfl | hz
      · exact hkb
      · refine le_trans ?_ hkb
        rw [← hk h hh, ← hv h hh]; exact le_of_not_gt hlt
      · exact k4 h hh z (by simp [hz])

theorem highest_ok [LinearOrder κ] {W : World σ κ} (hf : W.Fair) {T : Nat} {U : List Nat} (ht : W.HeurOn T U)
    (cands cmb : List Nat) (hcU : ∀ y ∈ cands, y ∈ U ∧ y ≠ T)
    (hne : cands ≠ []) (s : St σ) :
    Ok (highest W T cands cmb) s (fun c s' => c ∈ cands ∧ s'.sep = s.sep ∧ s'.log = s.log ∧
      ∀ h, HeurIs W T cmb h → ∀ y ∈ cands, h y ≤ h c) := by
  refine Ok.andThen (iter_ok hf cands s) ?_
  rintro l s1 ⟨hp, hs1, hl1⟩
  cases l with
  | nil => exact absurd (List.nil_perm.1 hp) hne
  | cons x xs =>
    refine Ok.andThen (heur_ok ht (hcU x (hp.mem_iff.1 (by simp))) cmb s1) ?_
    rintro v s2 ⟨h1, h2, t, w, h3⟩
    refine (maxScan_ok ht cmb xs (fun y hy => hcU y (hp.mem_iff.1 (by simp [hy]))) x v s2 (fun h hh => hh x t v w h3)).mono ?_
    rintro c s3 ⟨k1, k2, k3, k4⟩
    refine ⟨hp.mem_iff.1 k1, k2.trans (h1.trans hs1), k3.trans (h2.trans hl1), ?_⟩
    intro h hh y hy
    exact k4 h hh y (hp.mem_iff.2 hy)

/-- Growing, for any test: a duplicate-free set of candidates comes out. -/
theorem growLoop_wf [LinearOrder κ] {W : World σ κ} (hf : W.Fair) {T : Nat} {U : List Nat} (ht : W.HeurOn T U)
    (ha : W.Total)
    (fuel : Nat) : ∀ (cands cmb : List Nat) (s : St σ), cands.length < fuel → cands.Nodup →
      (∀ y ∈ cands, y ∈ U ∧ y ≠ T) → cmb.Nodup → (∀ x ∈ cands, x ∉ cmb) →
      Ok (growLoop W T fuel cands cmb) s (fun r _ => r.Nodup ∧
        ∀ x ∈ r, x ∈ cmb ∨ x ∈ cands) := by
  induction fuel with
  | zero => intro cands cmb s h; omega
  | succ fuel ih =>
    intro cands cmb s hlen hn hcU hn' hd
    rw [growLoop]
    split
    · exact Ok.ret ⟨hn', fun x hx => Or.inl hx⟩
    · rename_i hl
      refine Ok.andThen (highest_ok hf ht cands cmb hcU (by rintro rfl; simp at hl) s) ?_
      rintro c s1 ⟨hc, -, -, -⟩
      have hcU' : ∀ y ∈ without cands c, y ∈ U ∧ y ≠ T := fun y hy => hcU y (mem_without.1 hy).1
      refine Ok.andThen (ask_ok ha T c cmb s1) ?_
      rintro a s2 -
      have hlt := length_without_lt hc
      cases a with
      | independent => exact Ok.ret ⟨hn', fun x hx => Or.inl hx⟩
      | dependent =>
        refine (ih (without cands c) (setAdd cmb c) s2 (by omega) (nodup_without hn c) hcU'
          (nodup_setAdd hn' c) ?_).mono ?_
        · intro x hx hx'
          rw [mem_without] at hx; rw [mem_setAdd] at hx'
          rcases hx' with h | h
          · exact hd x hx.1 h
          · exact hx.2 h
        · rintro r _ ⟨h1, h2⟩
          refine ⟨h1, fun x hx => ?_⟩
          rcases h2 x hx with h | h
          · rw [mem_setAdd] at h
            rcases h with h | rfl
            · exact Or.inl h
            · exact Or.inr hc
          · exact Or.inr (mem_without.1 h).1
      | insufficient =>
        refine (ih (without cands c) cmb s2 (by omega) (nodup_without hn c) hcU' hn' ?_).mono ?_
        · intro x hx; exact hd x (mem_without.1 hx).1
        · rintro r _ ⟨h1, h2⟩
          exact ⟨h1, fun x hx => (h2 x hx).imp id (fun h => (mem_without.1 h).1)⟩

theorem shrinkLoop_wf {W : World σ κ} (ha : W.Total) (T : Nat) (cmb cs : List Nat) :
    ∀ (fp : List Nat) (s : St σ), Ok (shrinkLoop W T cmb cs fp) s (fun _ _ => True) := by
  induction cs with
  | nil => intro fp s; exact Ok.ret trivial
  | cons c cs ih =>
    intro fp s
    rw [shrinkLoop]
    refine Ok.andThen (ask_ok ha T c _ s) ?_
    rintro a s1 -
    cases a <;> exact ih _ _

theorem iamb_wf [LinearOrder κ] {W : World σ κ} (hf : W.Fair) {U : List Nat} {T : Nat} (ht : W.HeurOn T U)
    (ha : W.Total) (hU : U.Nodup) (s : St σ) :
    Ok (iamb W U T) s (fun r _ => r.Pairwise (· < ·) ∧ ∀ x ∈ r, x ∈ U ∧ x ≠ T) := by
  refine Ok.andThen (growLoop_wf hf ht ha _ (without U T) [] s (by omega) (nodup_without hU T)
    (fun y hy => mem_without.1 hy) (by simp) (by simp)) ?_
  rintro cmb s1 ⟨h1, h2⟩
  refine Ok.andThen (m := shrink W T cmb) (P := fun r _ => r.Nodup ∧ ∀ x ∈ r, x ∈ cmb) ?_ ?_
  · refine Ok.andThen (iter_ok hf cmb s1) ?_
    rintro l s2 -
    refine Ok.andThen (shrinkLoop_wf ha T cmb l [] s2) ?_
    rintro fp s3 -
    exact Ok.ret ⟨nodup_diff h1 _, fun x hx => (mem_diff.1 hx).1⟩
  · rintro r s2 ⟨h3, h4⟩
    refine Ok.ret ⟨pySorted_strict h3, fun x hx => ?_⟩
    have := h4 x ((pySorted_perm r).mem_iff.1 hx)
    rcases h2 x this with h | h
    · simp at h
    · exact mem_without.1 h

/-! ### Exactness -/

/-- What IAMB needs to know about a test `ind` ("`x` is independent of the target given
`S`"), a heuristic `h` and a blanket `B`, all for a fixed target. (Specification.) -/
structure Faithful [LinearOrder κ] (U : List Nat) (T : Nat) (B : Nat → Prop) (ind : Nat → Set Nat → Prop)
    (h : Nat → List Nat → κ) : Prop where
  blanket_mem : ∀ v, B v → v ∈ U ∧ v ≠ T
  /-- given a superset of the blanket, everything else is independent -/
  shields : ∀ x (S : List Nat), x ∈ U → x ≠ T → x ∉ S → (∀ v, B v → v ∈ S) →
    ind x {z | z ∈ S}
  /-- while part of the blanket is missing, a best candidate is dependent -/
  guides : ∀ x (S : List Nat), x ∈ U → x ≠ T → x ∉ S → (∃ v, B v ∧ v ∉ S) →
    (∀ y ∈ U, y ≠ T → y ∉ S → h y S ≤ h x S) → ¬ ind x {z | z ∈ S}
  /-- a blanket member is dependent given a set containing the rest of the blanket -/
  needed : ∀ x (S : List Nat), B x → x ∉ S → (∀ v, B v → v ≠ x → v ∈ S) →
    ¬ ind x {z | z ∈ S}

theorem growLoop_exact [LinearOrder κ] {W : World σ κ} (hf : W.Fair) {U : List Nat} {T : Nat} (ht : W.HeurOn T U)
    {B : Nat → Prop} {ind : Nat → Set Nat → Prop} {h : Nat → List Nat → κ}
    (hF : Faithful U T B ind h)
    (ha : W.AnswersAt T ind) (hh : ∀ cmb, HeurIs W T cmb (fun y => h y cmb))
    (fuel : Nat) : ∀ (cands cmb : List Nat) (s : St σ), cands.length < fuel → cmb.Nodup →
      (∀ x, x ∈ cands ↔ x ∈ U ∧ x ≠ T ∧ x ∉ cmb) → (∀ x ∈ cmb, x ∈ U ∧ x ≠ T) →
      Ok (growLoop W T fuel cands cmb) s (fun r _ => r.Nodup ∧ (∀ x ∈ r, x ∈ U ∧ x ≠ T) ∧
        ∀ v, B v → v ∈ r) := by
  induction fuel with
  | zero => intro cands cmb s h; omega
  | succ fuel ih =>
    intro cands cmb s hlen hn hc hsub
    rw [growLoop]
    split
    · rename_i hl
      have hnil : cands = [] := List.length_eq_zero_iff.1 hl
      refine Ok.ret ⟨hn, hsub, fun v hv => ?_⟩
      by_contra hvn
      have := (hc v).2 ⟨(hF.blanket_mem v hv).1, (hF.blanket_mem v hv).2, hvn⟩
      rw [hnil] at this; cases this
    · rename_i hl
      refine Ok.andThen (highest_ok hf ht cands cmb (fun y hy => ⟨((hc y).1 hy).1, ((hc y).1 hy).2.1⟩)
        (by rintro rfl; simp at hl) s) ?_
      rintro c s1 ⟨hcc, -, -, hmax⟩
      refine Ok.andThen (ask_at_ok ha c cmb s1) ?_
      rintro a s2 hans
      have hlt := length_without_lt hcc
      obtain ⟨hcU, hcT, hcm⟩ := (hc c).1 hcc
      rcases hans with ⟨rfl, hind⟩ | ⟨rfl, hdep⟩
      · refine Ok.ret ⟨hn, hsub, ?_⟩
        by_contra hmiss
        push Not at hmiss
        obtain ⟨v, hv, hvn⟩ := hmiss
        refine hF.guides c cmb hcU hcT hcm ⟨v, hv, hvn⟩ ?_ hind
        intro y hy hyT hyc
        exact hmax _ (hh cmb) y ((hc y).2 ⟨hy, hyT, hyc⟩)
      · refine ih (without cands c) (setAdd cmb c) s2 (by omega) (nodup_setAdd hn c) ?_ ?_
        · intro x; rw [mem_without, hc, mem_setAdd]; tauto
        · intro x hx
          rcases mem_setAdd.1 hx with hx | rfl
          · exact hsub x hx
          · exact ⟨hcU, hcT⟩

theorem shrinkLoop_exact [LinearOrder κ] {W : World σ κ} {U : List Nat} {T : Nat}
    {B : Nat → Prop} {ind : Nat → Set Nat → Prop} {h : Nat → List Nat → κ}
    (hF : Faithful U T B ind h)
    (ha : W.AnswersAt T ind) {cmb : List Nat}
    (hsub : ∀ x ∈ cmb, x ∈ U ∧ x ≠ T) (hB : ∀ v, B v → v ∈ cmb) (cs : List Nat) :
    ∀ (fp : List Nat) (s : St σ), (∀ x ∈ cs, x ∈ cmb) → (∀ x ∈ fp, ¬ B x) →
      Ok (shrinkLoop W T cmb cs fp) s (fun r _ => (∀ x ∈ r, ¬ B x) ∧ (∀ x ∈ fp, x ∈ r) ∧
        ∀ x ∈ cs, ¬ B x → x ∈ r) := by
  induction cs with
  | nil => intro fp s _ hfp; exact Ok.ret ⟨hfp, fun x hx => hx, by simp⟩
  | cons c cs ih =>
    intro fp s hcs hfp
    rw [shrinkLoop]
    refine Ok.andThen (ask_at_ok ha c _ s) ?_
    rintro a s1 hans
    have hcm := hcs c (by simp)
    have hcs' : ∀ x ∈ cs, x ∈ cmb := fun x hx => hcs x (by simp [hx])
    have hrest : ∀ v, B v → v ≠ c → v ∈ without (diff cmb fp) c := fun v hv hvc =>
      mem_without.2 ⟨mem_diff.2 ⟨hB v hv, fun hf => hfp v hf hv⟩, hvc⟩
    have hcnot : c ∉ without (diff cmb fp) c := fun hh => (mem_without.1 hh).2 rfl
    rcases hans with ⟨rfl, hind⟩ | ⟨rfl, hdep⟩
    · have hnB : ¬ B c := fun hBc => hF.needed c _ hBc hcnot hrest hind
      refine (ih (setAdd fp c) s1 hcs' ?_).mono ?_
      · intro x hx
        rcases mem_setAdd.1 hx with hx | rfl
        · exact hfp x hx
        · exact hnB
      · rintro r _ ⟨h1, h2, h3⟩
        refine ⟨h1, fun x hx => h2 x (mem_setAdd.2 (Or.inl hx)), ?_⟩
        intro x hx hxB
        rcases List.mem_cons.1 hx with rfl | hx
        · exact h2 x (mem_setAdd.2 (Or.inr rfl))
        · exact h3 x hx hxB
    · have hBc : B c := by
        by_contra hnB
        refine hdep ?_
        refine hF.shields c _ (hsub c hcm).1 (hsub c hcm).2 hcnot ?_
        intro v hv
        exact hrest v hv (by rintro rfl; exact hnB hv)
      refine (ih fp s1 hcs' hfp).mono ?_
      rintro r _ ⟨h1, h2, h3⟩
      refine ⟨h1, h2, ?_⟩
      intro x hx hxB
      rcases List.mem_cons.1 hx with rfl | hx
      · exact absurd hBc hxB
      · exact h3 x hx hxB

theorem iamb_exact [LinearOrder κ] {W : World σ κ} (hf : W.Fair) {U : List Nat} {T : Nat} (ht : W.HeurOn T U)
    {B : Nat → Prop} {ind : Nat → Set Nat → Prop} {h : Nat → List Nat → κ}
    (hF : Faithful U T B ind h)
    (ha : W.AnswersAt T ind) (hh : ∀ cmb, HeurIs W T cmb (fun y => h y cmb))
    (s : St σ) :
    Ok (iamb W U T) s (fun r _ => r.Pairwise (· < ·) ∧ ∀ x, x ∈ r ↔ B x) := by
  refine Ok.andThen (growLoop_exact hf ht hF ha hh _ (without U T) [] s (by omega)
    (by simp) (by intro x; rw [mem_without]; simp) (by simp)) ?_
  rintro cmb s1 ⟨h1, h2, h3⟩
  refine Ok.andThen (m := shrink W T cmb) (P := fun r _ => r.Nodup ∧ ∀ x, x ∈ r ↔ B x) ?_ ?_
  · refine Ok.andThen (iter_ok hf cmb s1) ?_
    rintro l s2 ⟨hp, -, -⟩
    refine Ok.andThen (shrinkLoop_exact hF ha h2 h3 l [] s2 (fun x hx => hp.mem_iff.1 hx)
      (by simp)) ?_
    rintro fp s3 ⟨k1, -, k3⟩
    refine Ok.ret ⟨nodup_diff h1 _, fun x => ?_⟩
    rw [mem_diff]
    constructor
    · rintro ⟨hx, hxf⟩
      by_contra hxB
      exact hxf (k3 x (hp.mem_iff.2 hx) hxB)
    · intro hx; exact ⟨h3 x hx, fun hf => k1 x hf hx⟩
  · rintro r s2 ⟨h3, h4⟩
    exact Ok.ret ⟨pySorted_strict h3, fun x => (pySorted_perm r).mem_iff.trans (h4 x)⟩

end Mbtk.MB
