import Verif.MB.Sim
import Verif.MB.Correct
/-!
# Tests that may be wrong on one side

A statistical test on finitely many samples may call independent variables dependent.  If it never
errs in the other direction, IAMB and IPC-MB still return every member of the Markov blanket.
-/
namespace Mbtk.MB
open Mbtk.Graph

variable {σ κ : Type}

/-! ## IAMB -/

/-- What IAMB needs to find all of a blanket `B`: the test answers proper questions about the target,
never claims an independence that does not hold (`ind`), and the score `h` prefers dependent
candidates while part of the blanket is missing.
(Models no code: a notion for statements and proofs.) -/
structure Guided [LinearOrder κ] (W : World σ κ) (U : List Nat) (T : Nat) (B : Nat → Prop)
    (ind : Nat → List Nat → Prop) (h : Nat → List Nat → κ) : Prop where
  blanket_mem : ∀ v, B v → v ∈ U ∧ v ≠ T
  answers : ∀ y Z s, Proper U T y Z → ∃ a w, W.ask T y Z s = .ok (a, w) ∧ a ≠ .insufficient ∧
    (a = .independent → ind y Z)
  scores : ∀ Z, HeurIs W T Z (fun y => h y Z)
  complete : ∀ x S, Proper U T x S → ind x S → (∀ y ∈ U, y ≠ T → y ∉ S → h y S ≤ h x S) →
    ∀ v, B v → v ∈ S
  needed : ∀ x S, Proper U T x S → B x → (∀ v, B v → v ≠ x → v ∈ S) → ¬ ind x S

section iamb
variable [LinearOrder κ] {W : World σ κ} {U : List Nat} {T : Nat} {B : Nat → Prop}
  {ind : Nat → List Nat → Prop} {h : Nat → List Nat → κ}

theorem Guided.ask_ok (hG : Guided W U T B ind h) {y : Nat} {Z : List Nat} (hp : Proper U T y Z)
    (s : St σ) : Ok (ask W T y Z) s (fun a _ => a ≠ .insufficient ∧ (a = .independent → ind y Z)) := by
  obtain ⟨a, w, h1, h2⟩ := hG.answers y Z s.w hp
  exact ⟨a, { s with log := s.log ++ [(T, y, Z)], w := w }, by simp [ask, h1], h2⟩

theorem growLoop_superset (hf : W.Fair) (ht : W.HeurOn T U) (hT : T ∈ U)
    (hG : Guided W U T B ind h) (fuel : Nat) :
    ∀ (cands cmb : List Nat) (s : St σ), cands.length < fuel → cmb.Nodup →
      (∀ x, x ∈ cands ↔ x ∈ U ∧ x ≠ T ∧ x ∉ cmb) → (∀ x ∈ cmb, x ∈ U ∧ x ≠ T) →
      Ok (growLoop W T fuel cands cmb) s (fun r _ => r.Nodup ∧ (∀ x ∈ r, x ∈ U ∧ x ≠ T) ∧
        ∀ v, B v → v ∈ r) := by
  induction fuel with
  | zero => intro cands cmb s h; omega
  | succ fuel ih =>
    intro cands cmb s hlen hn hc hsub
    rw [growLoop]
    by_cases hl : cands.length = 0
    · rw [if_pos hl]
      refine Ok.ret ⟨hn, hsub, fun v hv => ?_⟩
      by_contra hvn
      have := (hc v).2 ⟨(hG.blanket_mem v hv).1, (hG.blanket_mem v hv).2, hvn⟩
      rw [List.length_eq_zero_iff.1 hl] at this
      cases this
    · rw [if_neg hl]
      refine Ok.andThen (highest_ok hf ht cands cmb (fun y hy => ⟨((hc y).1 hy).1, ((hc y).1 hy).2.1⟩)
        (by rintro rfl; simp at hl) s) ?_
      rintro c s1 ⟨hcc, -, -, hmax⟩
      obtain ⟨hcU, hcT, hcm⟩ := (hc c).1 hcc
      have hp : Proper U T c cmb := proper_of hT hcU hcT hn (fun z hz => (hsub z hz).1)
        (fun h => (hsub T h).2 rfl) hcm
      refine Ok.andThen (hG.ask_ok hp s1) ?_
      rintro a s2 ⟨ha1, ha2⟩
      have hlt := length_without_lt hcc
      cases a with
      | insufficient => exact absurd rfl ha1
      | independent =>
        refine Ok.ret ⟨hn, hsub, hG.complete c cmb hp (ha2 rfl) ?_⟩
        intro y hy hyT hyc
        exact hmax _ (hG.scores cmb) y ((hc y).2 ⟨hy, hyT, hyc⟩)
      | dependent =>
        refine ih (without cands c) (setAdd cmb c) s2 (by omega) (nodup_setAdd hn c) ?_ ?_
        · intro x; rw [mem_without, hc, mem_setAdd]; tauto
        · intro x hx
          rcases mem_setAdd.1 hx with hx | rfl
          · exact hsub x hx
          · exact ⟨hcU, hcT⟩

theorem shrinkLoop_superset (hT : T ∈ U) (hG : Guided W U T B ind h) {cmb : List Nat} (hn : cmb.Nodup)
    (hsub : ∀ x ∈ cmb, x ∈ U ∧ x ≠ T) (hB : ∀ v, B v → v ∈ cmb) (cs : List Nat) :
    ∀ (fp : List Nat) (s : St σ), (∀ x ∈ cs, x ∈ cmb) → (∀ x ∈ fp, ¬ B x) →
      Ok (shrinkLoop W T cmb cs fp) s (fun r _ => ∀ x ∈ r, ¬ B x) := by
  induction cs with
  | nil => intro fp s _ hfp; exact Ok.ret hfp
  | cons c cs ih =>
    intro fp s hcs hfp
    rw [shrinkLoop]
    have hcm := hcs c (by simp)
    have hcs' : ∀ x ∈ cs, x ∈ cmb := fun x hx => hcs x (by simp [hx])
    have hmem : ∀ z ∈ without (diff cmb fp) c, z ∈ cmb ∧ z ≠ c := fun z hz =>
      ⟨(mem_diff.1 (mem_without.1 hz).1).1, (mem_without.1 hz).2⟩
    have hp : Proper U T c (without (diff cmb fp) c) := proper_of hT (hsub c hcm).1 (hsub c hcm).2
      (nodup_without (nodup_diff hn _) _) (fun z hz => (hsub z (hmem z hz).1).1)
      (fun h => (hsub T (hmem T h).1).2 rfl) (fun h => (hmem c h).2 rfl)
    refine Ok.andThen (hG.ask_ok hp s) ?_
    rintro a s1 ⟨ha1, ha2⟩
    cases a with
    | insufficient => exact absurd rfl ha1
    | dependent => exact ih fp s1 hcs' hfp
    | independent =>
      refine ih (setAdd fp c) s1 hcs' ?_
      intro x hx
      rcases mem_setAdd.1 hx with hx | rfl
      · exact hfp x hx
      · intro hBx
        refine hG.needed x _ hp hBx ?_ (ha2 rfl)
        intro v hv hvx
        exact mem_without.2 ⟨mem_diff.2 ⟨hB v hv, fun hf => hfp v hf hv⟩, hvx⟩

theorem iamb_superset (hf : W.Fair) (ht : W.HeurOn T U) (hT : T ∈ U) (hG : Guided W U T B ind h)
    (s : St σ) : Ok (iamb W U T) s (fun r _ => ∀ v, B v → v ∈ r) := by
  refine Ok.andThen (growLoop_superset hf ht hT hG _ (without U T) [] s (by omega)
    (by simp) (by intro x; rw [mem_without]; simp) (by simp)) ?_
  rintro cmb s1 ⟨h1, h2, h3⟩
  refine Ok.andThen (m := shrink W T cmb) (P := fun r _ => ∀ v, B v → v ∈ r) ?_ ?_
  · refine Ok.andThen (iter_ok hf cmb s1) ?_
    rintro l s2 ⟨hp, -, -⟩
    refine Ok.andThen (shrinkLoop_superset hT hG h1 h2 h3 l [] s2 (fun x hx => hp.mem_iff.1 hx)
      (by simp)) ?_
    intro fp s3 k
    exact Ok.ret (fun v hv => mem_diff.2 ⟨h3 v hv, fun hf => k v hf hv⟩)
  · intro r s2 k
    exact Ok.ret (fun v hv => (pySorted_perm r).mem_iff.2 (k v hv))

end iamb

/-! ## IPC-MB -/

/-- The answers of a test that never claims an independence that does not hold.
(Models no code: a notion for statements and proofs.) -/
def OneSided (U : List Nat) (P : Nat → Nat → List Nat → Prop) (X Y : Nat) (Z : List Nat)
    (a : Answer) : Prop :=
  Proper U X Y Z → a ≠ .insufficient ∧ (a = .independent → P X Y Z)

section ipcmb
variable {E : Nat → Nat → Prop} {P : Nat → Nat → List Nat → Prop} {U : List Nat} {T : Nat}
  {pcOnly : Bool} {r pc cand : List Nat} {cs : Nat → List Nat} {sep : Nat → List Nat}

theorem SubsetOf.proper {T X : Nat} {Z : List Nat} (h : SubsetOf (without U T) X Z) (hX : X ∈ U)
    (hT : T ∈ U) (hXT : X ≠ T) : Proper U X T Z :=
  proper_of hX hT hXT.symm h.1 (fun z hz => (mem_without.1 (h.2 z hz).1).1) (fun hx => (h.2 X hx).2 rfl)
    (fun ht => (mem_without.1 (h.2 T ht).1).2 rfl)

theorem Proper.swap {X Y : Nat} {Z : List Nat} (h : Proper U X Y Z) : Proper U Y X Z := by
  obtain ⟨h1, h2⟩ := h
  simp only [List.nodup_cons, List.mem_cons, not_or] at h1
  exact proper_of (h2 Y (by simp)) (h2 X (by simp)) h1.1.1 h1.2.2 (fun z hz => h2 z (by simp [hz]))
    h1.2.1 h1.1.2

theorem blanket_found_one_sided (hE : Acyclic E) (hT : T ∈ U)
    (hEU : ∀ a b, E a b → a ∈ U ∧ b ∈ U)
    (hadj : ∀ X Y Z, Proper U X Y Z → Linked E X Y → ¬ P X Y Z)
    (hcol : ∀ X C Y Z, Proper U X Y Z → E X C → E Y C → C ∈ Z → ¬ P X Y Z)
    (h : RunFacts (OneSided U P) U T pcOnly r pc cand cs sep) :
    (∀ Y, Linked E T Y → Y ∈ pc) ∧ (pcOnly = false → ∀ Y, IsBlanket E T Y → Y ∈ r) := by
  have hlU : ∀ {a b}, Linked E a b → b ∈ U ∧ b ≠ a := by
    rintro a b (hl | hl)
    · exact ⟨(hEU _ _ hl).2, by rintro rfl; exact hE.irrefl _ hl⟩
    · exact ⟨(hEU _ _ hl).1, by rintro rfl; exact hE.irrefl _ hl⟩
  have hcand : ∀ X, Linked E T X → X ∈ cand := by
    intro X hl
    by_contra hc
    obtain ⟨hXU, hXT⟩ := hlU hl
    rcases h.candRemoved X hXU hXT hc with ⟨Z, hZ, hR⟩ | ⟨hZ, hR⟩
    · exact (hR (hZ.proper hXU hT hXT)).1 rfl
    · exact hadj X T _ (hZ.proper hXU hT hXT) hl.symm ((hR (hZ.proper hXU hT hXT)).2 rfl)
  have hcs : ∀ X ∈ cand, ∀ Y, Linked E X Y → Y ∈ cs X := by
    intro X hX Y hl
    by_contra hc
    have hXU := (h.candSub X hX).1
    obtain ⟨hYU, hYX⟩ := hlU hl
    rcases h.csRemoved X hX Y hYU hYX hc with ⟨Z, hZ, hR⟩ | ⟨Z, hZ, hR⟩
    · exact hadj Y X _ (hZ.proper hYU hXU hYX) hl.symm ((hR (hZ.proper hYU hXU hYX)).2 rfl)
    · exact (hR (hZ.proper hYU hXU hYX)).1 rfl
  have hpc : ∀ Y, Linked E T Y → Y ∈ pc := fun Y hl =>
    (h.pcIff Y (hcand Y hl)).2 (hcs Y (hcand Y hl) T hl.symm)
  refine ⟨hpc, ?_⟩
  rintro rfl Y ⟨hYT, h1 | h1 | ⟨X, h1, h2⟩⟩
  · exact h.pcInR Y (hpc Y (Or.inr h1))
  · exact h.pcInR Y (hpc Y (Or.inl h1))
  · by_contra hn
    have hX : X ∈ pc := hpc X (Or.inl h1)
    have hXc := h.pcSub X hX
    obtain ⟨hXU, hXT⟩ := h.candSub X hXc
    have hYX : Y ≠ X := by rintro rfl; exact hE.irrefl _ h2
    have hYU := (hEU _ _ h2).1
    have hYc := hcs X hXc Y (Or.inr h2)
    have hYpc : Y ∉ pc := fun hh => hn (h.pcInR Y hh)
    -- the separating set stored for `T` and `Y` is a proper one
    have hsep : Proper U T Y (sep Y) := by
      by_cases hYcand : Y ∈ cand
      · rcases h.pcRemoved hT Y hYcand hYpc with ⟨Z, hZ, hR⟩ | ⟨hZ, -⟩
        · exact absurd rfl (hR (hZ.proper hT hYU hYT.symm)).1
        · exact hZ.proper hT hYU hYT.symm
      · rcases h.candRemoved Y hYU hYT hYcand with ⟨Z, hZ, hR⟩ | ⟨hZ, -⟩
        · exact absurd rfl (hR (hZ.proper hYU hT hYT)).1
        · exact (hZ.proper hYU hT hYT).swap
    have hp : Proper U T Y (setAdd (sep Y) X) := by
      obtain ⟨k1, k2⟩ := hsep
      simp only [List.nodup_cons, List.mem_cons, not_or] at k1
      refine proper_of hT hYU hYT (nodup_setAdd k1.2.2 X) ?_ ?_ ?_
      · intro z hz
        rcases mem_setAdd.1 hz with hz | rfl
        · exact k2 z (by simp [hz])
        · exact hXU
      · rw [mem_setAdd]
        rintro (hh | hh)
        · exact k1.1.2 hh
        · exact hXT hh.symm
      · rw [mem_setAdd]
        rintro (hh | hh)
        · exact k1.2.1 hh
        · exact hYX hh
    rcases h.dismissed rfl X hX Y hYc hYT hn with hR | hR
    · exact hcol T X Y _ hp h1 h2 (mem_setAdd.2 (Or.inr rfl)) ((hR hp).2 rfl)
    · exact (hR hp).1 rfl

/-- IPC-MB with a test that never claims an independence that does not hold. -/
theorem ipcmb_superset {W : World σ κ} (hf : W.Fair) (hE : Acyclic E) (hU : U.Nodup) (hT : T ∈ U)
    (hEU : ∀ a b, E a b → a ∈ U ∧ b ∈ U) (ha : W.Allows (OneSided U P))
    (hadj : ∀ X Y Z, Proper U X Y Z → Linked E X Y → ¬ P X Y Z)
    (hcol : ∀ X C Y Z, Proper U X Y Z → E X C → E Y C → C ∈ Z → ¬ P X Y Z)
    (pcOnly : Bool) (s : St σ) :
    Ok (ipcmb W U T pcOnly) s (fun r _ => (∀ Y, Linked E T Y → Y ∈ r) ∧
      (pcOnly = false → ∀ Y, IsBlanket E T Y → Y ∈ r)) := by
  refine Ok.andThen (ipcmbSet_ok hf ha hU T pcOnly s) ?_
  rintro r s' ⟨pc, cand, cs, sep, h⟩
  obtain ⟨h1, h2⟩ := blanket_found_one_sided hE hT hEU hadj hcol h
  exact Ok.ret ⟨fun Y hY => (pySorted_perm r).mem_iff.2 (h.pcInR Y (h1 Y hY)),
    fun hp Y hY => (pySorted_perm r).mem_iff.2 (h2 hp Y hY)⟩

end ipcmb

end Mbtk.MB
