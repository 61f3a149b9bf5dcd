import Verif.MB.Ipcmb
/-!
# IPC-MB: symmetry correction and spouses
-/
namespace Mbtk.MB

variable {σ κ : Type}

/-- What is known about one candidate `X` of the target after its own `RecognizePC`.
(Models no code: a notion for statements and proofs.) -/
def CandFact (R : Nat → Nat → List Nat → Answer → Prop) (U : List Nat) (T : Nat)
    (pc : List Nat) (sp : SetCache (List Nat)) (s : St σ) (X : Nat) : Prop :=
  ∃ cx, (∀ Y ∈ cx, Y ∈ U ∧ Y ≠ X) ∧
    (∀ Y ∈ U, Y ≠ X → Y ∉ cx → (∃ Z, SubsetOf (without U X) Y Z ∧ R Y X Z .independent) ∨
      (∃ Z, SubsetOf (without U X) Y Z ∧ R Y X Z .insufficient)) ∧
    (∀ Y ∈ cx, ∀ Z, SubsetOf cx Y Z → ∃ Z', Z'.Perm Z ∧ R Y X Z' .dependent) ∧
    (X ∈ pc ↔ T ∈ cx) ∧
    (T ∈ cx → dictGet sp (fkey [T, X]) = some (without cx T)) ∧
    (T ∈ U → T ∉ cx → Removed R X (without U X) s T)

theorem pcSymmetric_ok {W : World σ κ} {R} (hf : W.Fair) (ha : W.Allows R) {U : List Nat}
    (hU : U.Nodup) (T : Nat) (Xs : List Nat) :
    ∀ (pc : List Nat) (sp : SetCache (List Nat)) (s : St σ), Xs.Nodup → (∀ X ∈ Xs, X ∉ pc) →
      (∀ X ∈ Xs, X ≠ T) → pc.Nodup →
      Ok (pcSymmetric W U T Xs pc sp) s (fun r s' =>
        CacheFrame (fun key => ∃ X ∈ Xs, ∃ V, key = fkey [X, V]) s s' ∧
        r.1.Nodup ∧ (∀ X ∈ pc, X ∈ r.1) ∧ (∀ X ∈ r.1, X ∈ pc ∨ X ∈ Xs) ∧
        (∀ X, X ∉ Xs → dictGet r.2 (fkey [T, X]) = dictGet sp (fkey [T, X])) ∧
        (∀ X ∈ Xs, CandFact R U T r.1 r.2 s' X)) := by
  induction Xs with
  | nil =>
    intro pc sp s _ _ _ hpc
    exact Ok.ret ⟨.rfl', hpc, fun _ h => h, fun _ h => Or.inl h, fun _ _ => rfl, by simp⟩
  | cons X Xs ih =>
    intro pc sp s hn hd hT hpc
    rw [pcSymmetric]
    refine Ok.andThen (recognizePC_ok hf ha X (nodup_without hU X) s) ?_
    rintro cx s1 hs
    have hXs : X ∉ Xs := (List.nodup_cons.1 hn).1
    have hXT : X ≠ T := hT X (by simp)
    -- both branches continue with some `pc'`, `sp'`
    have main : ∀ (pc' : List Nat) (sp' : SetCache (List Nat)), pc'.Nodup →
        (∀ Y, Y ∈ pc' ↔ Y ∈ pc ∨ (Y = X ∧ T ∈ cx)) →
        (T ∈ cx → dictGet sp' (fkey [T, X]) = some (without cx T)) →
        (∀ Y, Y ≠ X → dictGet sp' (fkey [T, Y]) = dictGet sp (fkey [T, Y])) →
        Ok (pcSymmetric W U T Xs pc' sp') s1 (fun r s' =>
          CacheFrame (fun key => ∃ Y ∈ X :: Xs, ∃ V, key = fkey [Y, V]) s s' ∧
          r.1.Nodup ∧ (∀ Y ∈ pc, Y ∈ r.1) ∧ (∀ Y ∈ r.1, Y ∈ pc ∨ Y ∈ X :: Xs) ∧
          (∀ Y, Y ∉ X :: Xs → dictGet r.2 (fkey [T, Y]) = dictGet sp (fkey [T, Y])) ∧
          (∀ Y ∈ X :: Xs, CandFact R U T r.1 r.2 s' Y)) := by
      intro pc' sp' hpc' hmem hsp hsp'
      refine (ih pc' sp' s1 (List.nodup_cons.1 hn).2 ?_ (fun Y hY => hT Y (by simp [hY]))
        hpc').mono ?_
      · intro Y hY h
        rcases (hmem Y).1 h with h | ⟨rfl, -⟩
        · exact hd Y (by simp [hY]) h
        · exact hXs hY
      · rintro r s' ⟨f, r1, r2, r3, r4, r5⟩
        refine ⟨?_, r1, ?_, ?_, ?_, ?_⟩
        · refine hs.frame.trans f ?_ ?_
          · rintro key ⟨V, -, h⟩; exact ⟨X, by simp, V, h⟩
          · rintro key ⟨Y, hY, h⟩; exact ⟨Y, by simp [hY], h⟩
        · intro Y hY; exact r2 Y ((hmem Y).2 (Or.inl hY))
        · intro Y hY
          rcases r3 Y hY with h | h
          · rcases (hmem Y).1 h with h | ⟨rfl, -⟩
            · exact Or.inl h
            · exact Or.inr (by simp)
          · exact Or.inr (by simp [h])
        · intro Y hY
          rw [r4 Y (fun h => hY (by simp [h])), hsp' Y (fun h => hY (by simp [h]))]
        · intro Y hY
          rcases List.mem_cons.1 hY with rfl | hY
          · refine ⟨cx, fun V hV => mem_without.1 (hs.sub V hV), ?_, hs.kept, ?_, ?_, ?_⟩
            · intro V hV hVX hVc
              rcases hs.removed V (mem_without.2 ⟨hV, hVX⟩) hVc with ⟨Z, h1, h2, -⟩ | ⟨Z, h1, h2⟩
              · exact Or.inl ⟨Z, h1, h2⟩
              · exact Or.inr ⟨Z, h1, h2⟩
            · constructor
              · intro h
                rcases r3 Y h with h | h
                · rcases (hmem Y).1 h with h | ⟨-, h⟩
                  · exact absurd h (hd Y (by simp))
                  · exact h
                · exact absurd h hXs
              · intro h; exact r2 Y ((hmem Y).2 (Or.inr ⟨rfl, h⟩))
            · intro h; rw [r4 Y hXs]; exact hsp h
            · intro hTU hTc
              have hkeep : dictGet s'.sep (fkey [Y, T]) = dictGet s1.sep (fkey [Y, T]) := by
                apply f.same
                rintro ⟨V, hV, V', h⟩
                rcases fkey_pair_cases h.symm with h | h
                · exact hXs (h ▸ hV)
                · exact hT V (by simp [hV]) h
              rcases hs.removed T (mem_without.2 ⟨hTU, fun h => hXT h.symm⟩) hTc with
                ⟨Z, h1, h2, h3⟩ | h
              · exact Or.inl ⟨Z, h1, h2, by rw [hkeep, h3]⟩
              · exact Or.inr h
          · exact r5 Y hY
    by_cases hTc : T ∈ cx
    · rw [if_pos hTc]
      refine main _ _ (nodup_setAdd hpc X) ?_ ?_ ?_
      · intro Y; rw [mem_setAdd]; tauto
      · intro _; simp [SetCache.add, dictGet_dictSet]
      · intro Y hY
        simp only [SetCache.add, dictGet_dictSet]
        rw [if_neg (fun h => hY (fkey_pair_left h).symm)]
    · rw [if_neg hTc]
      exact main _ _ hpc (by intro Y; tauto) (fun h => absurd h hTc) (fun _ _ => rfl)

theorem sepGet_ok {T Y : Nat} {s : St σ} {z : List Nat}
    (h : dictGet s.sep (fkey [T, Y]) = some z) :
    Ok (sepGet T Y) s (fun r s' => r = z ∧ s' = s) := by
  refine ⟨z, s, ?_, rfl, rfl⟩
  simp only [sepGet]
  change (do
    let r ← s.sep.get [T, Y]
    Except.ok (r, s)) = _
  simp only [SetCache.get, h]
  rfl

theorem spouseInner_ok {W : World σ κ} {R} (ha : W.Allows R) (T X : Nat) (Ys : List Nat) :
    ∀ (mb : List Nat) (s : St σ), mb.Nodup →
      (∀ Y ∈ Ys, (dictGet s.sep (fkey [T, Y])).isSome) →
      Ok (spouseInner W T X Ys mb) s (fun r s' => s'.sep = s.sep ∧ r.Nodup ∧
        (∀ Y ∈ mb, Y ∈ r) ∧
        (∀ Y ∈ r, Y ∈ mb ∨ (Y ∈ Ys ∧ ∃ z, dictGet s.sep (fkey [T, Y]) = some z ∧
          R T Y (setAdd z X) .dependent)) ∧
        (∀ Y ∈ Ys, Y ∉ r → ∃ z, dictGet s.sep (fkey [T, Y]) = some z ∧
          (R T Y (setAdd z X) .independent ∨ R T Y (setAdd z X) .insufficient))) := by
  induction Ys with
  | nil =>
    intro mb s hn _
    exact Ok.ret ⟨rfl, hn, fun _ h => h, fun _ h => Or.inl h, by simp⟩
  | cons Y Ys ih =>
    intro mb s hn hc
    rw [spouseInner]
    by_cases hY : Y ∈ mb
    · rw [if_pos hY]
      refine (ih mb s hn (fun V hV => hc V (by simp [hV]))).mono ?_
      rintro r s' ⟨h1, h2, h3, h4, h5⟩
      refine ⟨h1, h2, h3, ?_, ?_⟩
      · intro V hV
        rcases h4 V hV with h | ⟨h, h'⟩
        · exact Or.inl h
        · exact Or.inr ⟨by simp [h], h'⟩
      · intro V hV hVr
        rcases List.mem_cons.1 hV with rfl | hV
        · exact absurd (h3 V hY) hVr
        · exact h5 V hV hVr
    · rw [if_neg hY]
      obtain ⟨z, hz⟩ := Option.isSome_iff_exists.1 (hc Y (by simp))
      refine Ok.andThen (sepGet_ok hz) ?_
      rintro z' s1 ⟨hz', hss⟩
      subst hz' hss
      refine Ok.andThen (ask_ok ha T Y (setAdd z' X) s1) ?_
      rintro a s2 ⟨hR, hs2, -⟩
      have hc2 : ∀ V ∈ Ys, (dictGet s2.sep (fkey [T, V])).isSome := by
        intro V hV; rw [hs2]; exact hc V (by simp [hV])
      -- the two branches that leave `mb` unchanged
      have same : R T Y (setAdd z' X) .independent ∨ R T Y (setAdd z' X) .insufficient →
          Ok (spouseInner W T X Ys mb) s2 (fun r s' => s'.sep = s1.sep ∧ r.Nodup ∧
          (∀ V ∈ mb, V ∈ r) ∧
          (∀ V ∈ r, V ∈ mb ∨ (V ∈ Y :: Ys ∧ ∃ z, dictGet s1.sep (fkey [T, V]) = some z ∧
            R T V (setAdd z X) .dependent)) ∧
          (∀ V ∈ Y :: Ys, V ∉ r → ∃ z, dictGet s1.sep (fkey [T, V]) = some z ∧
            (R T V (setAdd z X) .independent ∨ R T V (setAdd z X) .insufficient))) := by
        intro hR'
        refine (ih mb s2 hn hc2).mono ?_
        rintro r s' ⟨h1, h2, h3, h4, h5⟩
        rw [hs2] at h1 h4 h5
        refine ⟨h1, h2, h3, ?_, ?_⟩
        · intro V hV
          rcases h4 V hV with h | ⟨h, h'⟩
          · exact Or.inl h
          · exact Or.inr ⟨by simp [h], h'⟩
        · intro V hV hVr
          rcases List.mem_cons.1 hV with rfl | hV
          · exact ⟨z', hz, hR'⟩
          · exact h5 V hV hVr
      cases a with
      | independent => exact same (Or.inl hR)
      | insufficient => exact same (Or.inr hR)
      | dependent =>
        refine (ih (setAdd mb Y) s2 (nodup_setAdd hn Y) hc2).mono ?_
        rintro r s' ⟨h1, h2, h3, h4, h5⟩
        rw [hs2] at h1 h4 h5
        refine ⟨h1, h2, fun V hV => h3 V (mem_setAdd.2 (Or.inl hV)), ?_, ?_⟩
        · intro V hV
          rcases h4 V hV with h | ⟨h, h'⟩
          · rcases mem_setAdd.1 h with h | rfl
            · exact Or.inl h
            · exact Or.inr ⟨by simp, z', hz, hR⟩
          · exact Or.inr ⟨by simp [h], h'⟩
        · intro V hV hVr
          rcases List.mem_cons.1 hV with rfl | hV
          · exact absurd (h3 V (mem_setAdd.2 (Or.inr rfl))) hVr
          · exact h5 V hV hVr

theorem spouseOuter_ok {W : World σ κ} {R} (hf : W.Fair) (ha : W.Allows R) (T : Nat)
    (sp : SetCache (List Nat)) (cs : Nat → List Nat) (Xs : List Nat) :
    ∀ (mb : List Nat) (s : St σ), mb.Nodup →
      (∀ X ∈ Xs, dictGet sp (fkey [T, X]) = some (cs X)) →
      (∀ X ∈ Xs, ∀ Y ∈ cs X, (dictGet s.sep (fkey [T, Y])).isSome) →
      Ok (spouseOuter W T sp Xs mb) s (fun r s' => s'.sep = s.sep ∧ r.Nodup ∧
        (∀ Y ∈ mb, Y ∈ r) ∧
        (∀ Y ∈ r, Y ∈ mb ∨ ∃ X ∈ Xs, Y ∈ cs X ∧ ∃ z, dictGet s.sep (fkey [T, Y]) = some z ∧
          R T Y (setAdd z X) .dependent) ∧
        (∀ X ∈ Xs, ∀ Y ∈ cs X, Y ∉ r → ∃ z, dictGet s.sep (fkey [T, Y]) = some z ∧
          (R T Y (setAdd z X) .independent ∨ R T Y (setAdd z X) .insufficient))) := by
  induction Xs with
  | nil =>
    intro mb s hn _ _
    exact Ok.ret ⟨rfl, hn, fun _ h => h, fun _ h => Or.inl h, by simp⟩
  | cons X Xs ih =>
    intro mb s hn hsp hc
    rw [spouseOuter]
    refine Ok.andThen (P := fun r s' => r = cs X ∧ s' = s) ?_ ?_
    · exact Ok.lift (a := cs X) (by simp [SetCache.get, hsp X (by simp)]) ⟨rfl, rfl⟩
    rintro c s0 ⟨hcc, hs0⟩
    subst hcc hs0
    refine Ok.andThen (iter_ok hf (cs X) s0) ?_
    rintro l s1 ⟨hp, hs1, -⟩
    refine Ok.andThen (spouseInner_ok ha T X l mb s1 hn ?_) ?_
    · intro Y hY; rw [hs1]; exact hc X (by simp) Y (hp.mem_iff.1 hY)
    rintro mb' s2 ⟨h1, h2, h3, h4, h5⟩
    rw [hs1] at h1 h4 h5
    refine (ih mb' s2 h2 (fun V hV => hsp V (by simp [hV])) ?_).mono ?_
    · intro V hV Y hY; rw [h1]; exact hc V (by simp [hV]) Y hY
    rintro r s3 ⟨k1, k2, k3, k4, k5⟩
    rw [h1] at k1 k4 k5
    refine ⟨k1, k2, fun Y hY => k3 Y (h3 Y hY), ?_, ?_⟩
    · intro Y hY
      rcases k4 Y hY with h | ⟨V, hV, h⟩
      · rcases h4 Y h with h | ⟨h, h'⟩
        · exact Or.inl h
        · exact Or.inr ⟨X, by simp, hp.mem_iff.1 h, h'⟩
      · exact Or.inr ⟨V, by simp [hV], h⟩
    · intro V hV Y hY hYr
      rcases List.mem_cons.1 hV with rfl | hV
      · exact h5 Y (hp.mem_iff.2 hY) (fun h => hYr (k3 Y h))
      · exact k5 V hV Y hY hYr

/-- Summary of a whole run of IPC-MB, for any CI test whose outcomes obey `R`.
(Models no code: a notion for statements and proofs.) -/
structure RunFacts (R : Nat → Nat → List Nat → Answer → Prop) (U : List Nat) (T : Nat)
    (pcOnly : Bool) (r : List Nat) (pc cand : List Nat) (cs : Nat → List Nat)
    (sep : Nat → List Nat) : Prop where
  nodup : r.Nodup
  pcNodup : pc.Nodup
  candSub : ∀ X ∈ cand, X ∈ U ∧ X ≠ T
  candRemoved : ∀ X ∈ U, X ≠ T → X ∉ cand →
    (∃ Z, SubsetOf (without U T) X Z ∧ R X T Z .insufficient) ∨
    (SubsetOf (without U T) X (sep X) ∧ R X T (sep X) .independent)
  candKept : ∀ X ∈ cand, ∀ Z, SubsetOf cand X Z → ∃ Z', Z'.Perm Z ∧ R X T Z' .dependent
  pcSub : ∀ X ∈ pc, X ∈ cand
  csSub : ∀ X ∈ cand, ∀ Y ∈ cs X, Y ∈ U ∧ Y ≠ X
  csRemoved : ∀ X ∈ cand, ∀ Y ∈ U, Y ≠ X → Y ∉ cs X →
    (∃ Z, SubsetOf (without U X) Y Z ∧ R Y X Z .independent) ∨
    (∃ Z, SubsetOf (without U X) Y Z ∧ R Y X Z .insufficient)
  csKept : ∀ X ∈ cand, ∀ Y ∈ cs X, ∀ Z, SubsetOf (cs X) Y Z → ∃ Z', Z'.Perm Z ∧
    R Y X Z' .dependent
  pcIff : ∀ X ∈ cand, (X ∈ pc ↔ T ∈ cs X)
  pcRemoved : T ∈ U → ∀ X ∈ cand, X ∉ pc →
    (∃ Z, SubsetOf (without U X) T Z ∧ R T X Z .insufficient) ∨
    (SubsetOf (without U X) T (sep X) ∧ R T X (sep X) .independent)
  only : pcOnly = true → r = pc
  pcInR : ∀ X ∈ pc, X ∈ r
  found : pcOnly = false → ∀ Y ∈ r, Y ∈ pc ∨
    ∃ X ∈ pc, Y ∈ cs X ∧ Y ≠ T ∧ R T Y (setAdd (sep Y) X) .dependent
  dismissed : pcOnly = false → ∀ X ∈ pc, ∀ Y ∈ cs X, Y ≠ T → Y ∉ r →
    R T Y (setAdd (sep Y) X) .independent ∨ R T Y (setAdd (sep Y) X) .insufficient

theorem ipcmbSet_ok {W : World σ κ} {R} (hf : W.Fair) (ha : W.Allows R) {U : List Nat}
    (hU : U.Nodup) (T : Nat) (pcOnly : Bool) (s : St σ) :
    Ok (ipcmbSet W U T pcOnly) s (fun r _ => ∃ pc cand cs sep,
      RunFacts R U T pcOnly r pc cand cs sep) := by
  refine Ok.andThen (P := fun _ _ => True) (Ok.modify trivial) ?_
  rintro _ s0 -
  refine Ok.andThen (recognizePC_ok hf ha T (nodup_without hU T) s0) ?_
  rintro cand s1 hc
  refine Ok.andThen (iter_ok hf cand s1) ?_
  rintro l s2 ⟨hp, hs2, -⟩
  have hcT : ∀ X ∈ cand, X ∈ U ∧ X ≠ T := fun X hX => mem_without.1 (hc.sub X hX)
  refine Ok.andThen (pcSymmetric_ok hf ha hU T l [] [] s2 (hp.nodup_iff.2 hc.nodup) (by simp)
    (fun X hX => (hcT X (hp.mem_iff.1 hX)).2) (by simp)) ?_
  rintro ⟨pc, sp⟩ s3 ⟨f, p1, -, p3, p4, p5⟩
  dsimp only at p1 p3 p4 p5 ⊢
  have hex : ∀ X, ∃ cx, X ∈ cand → (∀ Y ∈ cx, Y ∈ U ∧ Y ≠ X) ∧
    (∀ Y ∈ U, Y ≠ X → Y ∉ cx → (∃ Z, SubsetOf (without U X) Y Z ∧ R Y X Z .independent) ∨
      (∃ Z, SubsetOf (without U X) Y Z ∧ R Y X Z .insufficient)) ∧
    (∀ Y ∈ cx, ∀ Z, SubsetOf cx Y Z → ∃ Z', Z'.Perm Z ∧ R Y X Z' .dependent) ∧
    (X ∈ pc ↔ T ∈ cx) ∧
    (T ∈ cx → dictGet sp (fkey [T, X]) = some (without cx T)) ∧
    (T ∈ U → T ∉ cx → Removed R X (without U X) s3 T) := by
    intro X
    by_cases hX : X ∈ cand
    · obtain ⟨cx, h⟩ := p5 X (hp.mem_iff.2 hX)
      exact ⟨cx, fun _ => h⟩
    · exact ⟨[], fun h => absurd h hX⟩
  choose cs hcs using hex
  have hpcsub : ∀ X ∈ pc, X ∈ cand := by
    intro X hX
    rcases p3 X hX with h | h
    · simp at h
    · exact hp.mem_iff.1 h
  have hpres : ∀ Y ∈ U, Y ≠ T → (dictGet s3.sep (fkey [T, Y])).isSome := by
    intro Y hY hYT
    apply f.grows; rw [hs2]
    exact hc.present Y (mem_without.2 ⟨hY, hYT⟩)
  let sep : Nat → List Nat := fun Y => (dictGet s3.sep (fkey [T, Y])).getD []
  have hsep : ∀ Y ∈ U, Y ≠ T → dictGet s3.sep (fkey [T, Y]) = some (sep Y) := by
    intro Y hY hYT
    obtain ⟨z, hz⟩ := Option.isSome_iff_exists.1 (hpres Y hY hYT)
    simp [sep, hz]
  have base : ∀ r : List Nat, r.Nodup → (pcOnly = true → r = pc) → (∀ X ∈ pc, X ∈ r) →
      (pcOnly = false → ∀ Y ∈ r, Y ∈ pc ∨
        ∃ X ∈ pc, Y ∈ cs X ∧ Y ≠ T ∧ R T Y (setAdd (sep Y) X) .dependent) →
      (pcOnly = false → ∀ X ∈ pc, ∀ Y ∈ cs X, Y ≠ T → Y ∉ r →
        R T Y (setAdd (sep Y) X) .independent ∨ R T Y (setAdd (sep Y) X) .insufficient) →
      RunFacts R U T pcOnly r pc cand cs sep := by
    intro r hr h1 h2 h3 h4
    refine ⟨hr, p1, hcT, ?_, hc.kept, hpcsub, fun X hX => (hcs X hX).1, fun X hX => (hcs X hX).2.1,
      fun X hX => (hcs X hX).2.2.1, fun X hX => (hcs X hX).2.2.2.1, ?_, h1, h2, h3, h4⟩
    · intro X hX hXT hXc
      rcases hc.removed X (mem_without.2 ⟨hX, hXT⟩) hXc with ⟨Z, k1, k2, k3⟩ | h
      · right
        have : dictGet s3.sep (fkey [T, X]) = some Z := by
          rw [← k3, ← hs2]
          apply f.same
          rintro ⟨V, hV, V', h⟩
          have hV' := hp.mem_iff.1 hV
          rcases fkey_pair_cases h.symm with h | h
          · exact (hcT V hV').2 h
          · exact hXc (h ▸ hV')
        have : sep X = Z := by simp [sep, this]
        rw [this]; exact ⟨k1, k2⟩
      · exact Or.inl h
    · intro hTU X hX hXp
      obtain ⟨-, -, -, k1, -, k2⟩ := hcs X hX
      rcases k2 hTU (fun h => hXp (k1.2 h)) with ⟨Z, m1, m2, m3⟩ | h
      · right
        have : sep X = Z := by simp [sep, fkey_swap T X, m3]
        rw [this]; exact ⟨m1, m2⟩
      · exact Or.inl h
  cases pcOnly with
  | true =>
    refine Ok.ret ⟨pc, cand, cs, sep, base pc p1 (fun _ => rfl) (fun _ h => h) ?_ ?_⟩
    · intro h; cases h
    · intro h; cases h
  | false =>
    simp only [Bool.false_eq_true, if_false]
    refine Ok.andThen (iter_ok hf pc s3) ?_
    rintro l' s4 ⟨hp', hs4, -⟩
    refine (spouseOuter_ok hf ha T sp (fun X => without (cs X) T) l' pc s4 p1 ?_ ?_).mono ?_
    · intro X hX
      have hX' := hp'.mem_iff.1 hX
      have := hcs X (hpcsub X hX')
      exact this.2.2.2.2.1 (this.2.2.2.1.1 hX')
    · intro X hX Y hY
      have hX' := hp'.mem_iff.1 hX
      have hY' := mem_without.1 hY
      rw [hs4]
      exact hpres Y ((hcs X (hpcsub X hX')).1 Y hY'.1).1 hY'.2
    · rintro r s5 ⟨-, k2, k3, k4, k5⟩
      rw [hs4] at k4 k5
      refine ⟨pc, cand, cs, sep, base r k2 (by simp) k3 ?_ ?_⟩
      · intro _ Y hY
        rcases k4 Y hY with h | ⟨X, hX, hYc, z, hz, hR⟩
        · exact Or.inl h
        · have hX' := hp'.mem_iff.1 hX
          have hY' := mem_without.1 hYc
          refine Or.inr ⟨X, hX', hY'.1, hY'.2, ?_⟩
          have : sep Y = z := by simp [sep, hz]
          rw [this]; exact hR
      · intro _ X hX Y hY hYT hYr
        obtain ⟨z, hz, hR⟩ := k5 X (hp'.mem_iff.2 hX) Y (mem_without.2 ⟨hY, hYT⟩) hYr
        have : sep Y = z := by simp [sep, hz]
        rw [this]; exact hR

end Mbtk.MB
