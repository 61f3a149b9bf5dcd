import Verif.Stats.PMFLemmas
import Verif.Stats.Info
/-!
# Model of `mbtk/math/infotheory.py`, and what it computes from correct tables
-/
namespace Mbtk.Stats
open Real

/-- `mutual_information(PrXY, PrX, PrY, base)`: infotheory.py 8-25; the logarithm of the
chosen base is a parameter (infotheory.py 76-85). -/
noncomputable def mutualInformation (logarithm : ℝ → ℝ) (PrXY PrX PrY : PMF) : ℝ :=
  (PrX.probabilities.map (fun x =>
    (PrY.probabilities.map (fun y =>
      let pxy := PrXY.p [x.1.toVal, y.1.toVal]
      if pxy = 0 ∨ x.2 = 0 ∨ y.2 = 0 then 0
      else (pxy : ℝ) * logarithm ((pxy : ℝ) / ((x.2 : ℝ) * (y.2 : ℝ))))).sum)).sum

/-- `conditional_mutual_information(PrXYcZ, PrXcZ, PrYcZ, PrZ, base)`: infotheory.py 29-48. -/
noncomputable def conditionalMutualInformation (logarithm : ℝ → ℝ) (PrXYcZ PrXcZ PrYcZ : CPMF)
    (PrZ : PMF) : ℝ :=
  |(PrZ.probabilities.map (fun z =>
    ((PrXcZ.given [z.1.toVal]).probabilities.map (fun x =>
      ((PrYcZ.given [z.1.toVal]).probabilities.map (fun y =>
        let pxycz := (PrXYcZ.given [z.1.toVal]).p [x.1.toVal, y.1.toVal]
        if pxycz = 0 ∨ x.2 = 0 ∨ y.2 = 0 then 0
        else (z.2 : ℝ) * (pxycz : ℝ) * logarithm ((pxycz : ℝ) / ((x.2 : ℝ) * (y.2 : ℝ))))).sum)).sum)).sum|

/-- The probability tables handed to `conditional_mutual_information` describe the joint
table `P x y z` (over finite sets `A`, `B`, `C`), `eZ`, `eX`, `eY` being the dictionary keys
used for values of `Z`, `X`, `Y`. infotheory.py 29-49. -/
structure CmiTables (n : Nat) (P : Int → Int → List Int → ℚ) (A B : Finset Int)
    (C : Finset (List Int)) (eZ eX eY : List Int → Key) (PrXYcZ PrXcZ PrYcZ : CPMF) (PrZ : PMF) :
    Prop where
  nonneg : ∀ x y z, 0 ≤ P x y z
  lenC : ∀ z ∈ C, z.length = n
  suppA : ∀ x y z, P x y z ≠ 0 → x ∈ A
  suppB : ∀ x y z, P x y z ≠ 0 → y ∈ B
  suppC : ∀ x y z, z.length = n → P x y z ≠ 0 → z ∈ C
  keyZ_inj : ∀ l l', l.length = n → l'.length = n → eZ l = eZ l' → l = l'
  keyZ : ∀ z, z.length = n → mkKey (eZ z).comps = eZ z
  keyX : ∀ l, (eX l).comps = l
  keyY : ∀ l, (eY l).comps = l
  tabZ : Tabulates PrZ.probabilities eZ n (fun z => ∑ x ∈ A, ∑ y ∈ B, P x y z)
  tabX : ∀ z, z.length = n → (∑ x ∈ A, ∑ y ∈ B, P x y z) ≠ 0 →
    Tabulates (PrXcZ.given [(eZ z).toVal]).probabilities eX 1
      (fun l => (∑ y ∈ B, P (l.headD 0) y z) / ∑ x ∈ A, ∑ y ∈ B, P x y z)
  tabY : ∀ z, z.length = n → (∑ x ∈ A, ∑ y ∈ B, P x y z) ≠ 0 →
    Tabulates (PrYcZ.given [(eZ z).toVal]).probabilities eY 1
      (fun l => (∑ x ∈ A, P x (l.headD 0) z) / ∑ x ∈ A, ∑ y ∈ B, P x y z)
  valXY : ∀ z, z.length = n → (∑ x ∈ A, ∑ y ∈ B, P x y z) ≠ 0 → ∀ x y,
    dictVal (PrXYcZ.given [(eZ z).toVal]).probabilities (.tup [x, y]) =
      P x y z / ∑ x ∈ A, ∑ y ∈ B, P x y z

theorem length_one {l : List Int} (h : l.length = 1) : l = [l.headD 0] := by
  match l with
  | [a] => rfl

/-- Summing over the entries of a one-variable table. -/
theorem Tabulates.sum_one {d : List (Key × ℚ)} {e : List Int → Key} {Q : Int → ℚ}
    (h : Tabulates d e 1 (fun l => Q (l.headD 0))) (he : ∀ l, (e l).comps = l)
    (F : Key → ℚ → ℝ) (hF : ∀ k, F k 0 = 0) (S : Finset Int) (hS : ∀ x, Q x ≠ 0 → x ∈ S) :
    (d.map (fun p => F p.1 p.2)).sum = ∑ x ∈ S, F (e [x]) (Q x) := by
  rw [h.sum (fun l l' _ _ hl => by rw [← he l, hl, he l']) F hF (S.image (fun x => [x]))]
  · rw [Finset.sum_image (by intro a _ b _ hab; simpa using hab)]
    rfl
  · intro l hl
    obtain ⟨x, _, rfl⟩ := Finset.mem_image.1 hl
    rfl
  · intro l hl hQ
    rw [length_one hl]
    exact Finset.mem_image.2 ⟨_, hS _ hQ, rfl⟩

/-- The sum computed by `conditional_mutual_information`, from correct tables. -/
theorem cmiSum_eq {n : Nat} {P : Int → Int → List Int → ℚ}
    {A B : Finset Int} {C : Finset (List Int)} {eZ eX eY : List Int → Key}
    {PrXYcZ PrXcZ PrYcZ : CPMF} {PrZ : PMF}
    (h : CmiTables n P A B C eZ eX eY PrXYcZ PrXcZ PrYcZ PrZ) {c : ℝ} (hc : 0 < c) :
    (PrZ.probabilities.map (fun z =>
    ((PrXcZ.given [z.1.toVal]).probabilities.map (fun x =>
      ((PrYcZ.given [z.1.toVal]).probabilities.map (fun y =>
        let pxycz := (PrXYcZ.given [z.1.toVal]).p [x.1.toVal, y.1.toVal]
        if pxycz = 0 ∨ x.2 = 0 ∨ y.2 = 0 then (0 : ℝ)
        else (z.2 : ℝ) * (pxycz : ℝ) *
          (log ((pxycz : ℝ) / ((x.2 : ℝ) * (y.2 : ℝ))) / c))).sum)).sum)).sum =
      Info.cmi A B C (fun x y z => (P x y z : ℝ)) / c := by
  have hPR : ∀ x y z, (0 : ℝ) ≤ (fun x y z => (P x y z : ℝ)) x y z :=
    fun x y z => by have := h.nonneg x y z; show (0 : ℝ) ≤ (P x y z : ℝ); exact_mod_cast this
  have main : (PrZ.probabilities.map (fun z =>
    ((PrXcZ.given [z.1.toVal]).probabilities.map (fun x =>
      ((PrYcZ.given [z.1.toVal]).probabilities.map (fun y =>
        let pxycz := (PrXYcZ.given [z.1.toVal]).p [x.1.toVal, y.1.toVal]
        if pxycz = 0 ∨ x.2 = 0 ∨ y.2 = 0 then (0 : ℝ)
        else (z.2 : ℝ) * (pxycz : ℝ) *
          (log ((pxycz : ℝ) / ((x.2 : ℝ) * (y.2 : ℝ))) / c))).sum)).sum)).sum =
      Info.cmi A B C (fun x y z => (P x y z : ℝ)) / c := by
    rw [h.tabZ.sum h.keyZ_inj (fun k pz =>
      ((PrXcZ.given [k.toVal]).probabilities.map (fun x =>
        ((PrYcZ.given [k.toVal]).probabilities.map (fun y =>
          let pxycz := (PrXYcZ.given [k.toVal]).p [x.1.toVal, y.1.toVal]
          if pxycz = 0 ∨ x.2 = 0 ∨ y.2 = 0 then (0 : ℝ)
          else (pz : ℝ) * (pxycz : ℝ) *
            (log ((pxycz : ℝ) / ((x.2 : ℝ) * (y.2 : ℝ))) / c))).sum)).sum) ?_ C h.lenC ?_]
    · unfold Info.cmi
      rw [Finset.sum_div]
      refine Finset.sum_congr rfl (fun z hz => ?_)
      have hzl := h.lenC z hz
      set pz := ∑ x ∈ A, ∑ y ∈ B, P x y z with hpz
      by_cases h0 : pz = 0
      · -- every entry is zero
        have hz0 : ∀ x ∈ A, ∀ y ∈ B, P x y z = 0 := by
          intro x hx y hy
          have h1 := (Finset.sum_eq_zero_iff_of_nonneg (fun x _ =>
            Finset.sum_nonneg (fun y _ => h.nonneg x y z))).1 h0 x hx
          exact (Finset.sum_eq_zero_iff_of_nonneg (fun y _ => h.nonneg x y z)).1 h1 y hy
        have hr : ∑ x ∈ A, ∑ y ∈ B, (P x y z : ℝ) * log ((P x y z : ℝ) *
            Info.mZ A B (fun x y z => (P x y z : ℝ)) z /
            (Info.mXZ B (fun x y z => (P x y z : ℝ)) x z *
              Info.mYZ A (fun x y z => (P x y z : ℝ)) y z)) = 0 :=
          Finset.sum_eq_zero (fun x hx => Finset.sum_eq_zero (fun y hy => by
            simp [hz0 x hx y hy]))
        rw [hr, zero_div, h0]
        simp
      · rw [Tabulates.sum_one (Q := fun x => (∑ y ∈ B, P x y z) / pz) (h.tabX z hzl h0) h.keyX (fun kx px =>
          ((PrYcZ.given [(eZ z).toVal]).probabilities.map (fun y =>
            let pxycz := (PrXYcZ.given [(eZ z).toVal]).p [kx.toVal, y.1.toVal]
            if pxycz = 0 ∨ px = 0 ∨ y.2 = 0 then (0 : ℝ)
            else (pz : ℝ) * (pxycz : ℝ) *
              (log ((pxycz : ℝ) / ((px : ℝ) * (y.2 : ℝ))) / c))).sum) ?_ A ?_]
        · conv_rhs => rw [Finset.sum_div]
          refine Finset.sum_congr rfl (fun x hx => ?_)
          rw [Tabulates.sum_one (Q := fun y => (∑ x ∈ A, P x y z) / pz) (h.tabY z hzl h0) h.keyY (fun ky py =>
            let pxycz := (PrXYcZ.given [(eZ z).toVal]).p [(eX [x]).toVal, ky.toVal]
            if pxycz = 0 ∨ (∑ y ∈ B, P x y z) / pz = 0 ∨ py = 0 then (0 : ℝ)
            else (pz : ℝ) * (pxycz : ℝ) *
              (log ((pxycz : ℝ) / ((((∑ y ∈ B, P x y z) / pz : ℚ) : ℝ) * (py : ℝ))) / c)) ?_ B ?_]
          · conv_rhs => rw [Finset.sum_div]
            refine Finset.sum_congr rfl (fun y hy => ?_)
            simp only
            have hxy : (PrXYcZ.given [(eZ z).toVal]).p [(eX [x]).toVal, (eY [y]).toVal] =
                P x y z / pz := by
              rw [PMF.p_pair, h.keyX, h.keyY]
              exact h.valXY z hzl h0 x y
            rw [hxy]
            by_cases hp : P x y z = 0
            · simp [hp]
            · have hpR : (fun x y z => (P x y z : ℝ)) x y z ≠ 0 := by
                show (P x y z : ℝ) ≠ 0
                exact_mod_cast hp
              obtain ⟨n1, n2, n3⟩ := Info.ne_of_P_ne hPR hx hy hpR
              have ez : ((pz : ℚ) : ℝ) = Info.mZ A B (fun x y z => (P x y z : ℝ)) z := by
                rw [hpz]; push_cast; rfl
              have ex : ((∑ y ∈ B, P x y z : ℚ) : ℝ) =
                  Info.mXZ B (fun x y z => (P x y z : ℝ)) x z := by push_cast; rfl
              have ey : ((∑ x ∈ A, P x y z : ℚ) : ℝ) =
                  Info.mYZ A (fun x y z => (P x y z : ℝ)) y z := by push_cast; rfl
              have q1 : (∑ y ∈ B, P x y z) ≠ 0 := by
                intro e; rw [e] at ex; exact n1 (by rw [← ex]; simp)
              have q2 : (∑ x ∈ A, P x y z) ≠ 0 := by
                intro e; rw [e] at ey; exact n2 (by rw [← ey]; simp)
              rw [if_neg (by
                simp only [not_or]
                exact ⟨div_ne_zero hp h0, div_ne_zero q1 h0, div_ne_zero q2 h0⟩)]
              have hpR' : (P x y z : ℝ) ≠ 0 := hpR
              push_cast
              rw [← Rat.cast_sum, ← Rat.cast_sum, ex, ey, ez]
              have harg : (P x y z : ℝ) / Info.mZ A B (fun x y z => (P x y z : ℝ)) z /
                  (Info.mXZ B (fun x y z => (P x y z : ℝ)) x z /
                      Info.mZ A B (fun x y z => (P x y z : ℝ)) z *
                    (Info.mYZ A (fun x y z => (P x y z : ℝ)) y z /
                      Info.mZ A B (fun x y z => (P x y z : ℝ)) z)) =
                  (P x y z : ℝ) * Info.mZ A B (fun x y z => (P x y z : ℝ)) z /
                  (Info.mXZ B (fun x y z => (P x y z : ℝ)) x z *
                    Info.mYZ A (fun x y z => (P x y z : ℝ)) y z) := by
                field_simp
              rw [harg]
              field_simp
          · intro k; simp
          · intro y hy
            by_contra hB
            apply hy
            have : ∑ x ∈ A, P x y z = 0 := Finset.sum_eq_zero (fun x _ => by
              by_contra hne; exact hB (h.suppB x y z hne))
            rw [this, zero_div]
        · intro k
          apply List.sum_eq_zero
          intro v hv
          obtain ⟨a, _, rfl⟩ := List.mem_map.1 hv
          simp
        · intro x hx
          by_contra hA
          apply hx
          have : ∑ y ∈ B, P x y z = 0 := Finset.sum_eq_zero (fun y _ => by
            by_contra hne; exact hA (h.suppA x y z hne))
          rw [this, zero_div]
    · intro k
      apply List.sum_eq_zero
      intro v hv
      obtain ⟨a, _, rfl⟩ := List.mem_map.1 hv
      apply List.sum_eq_zero
      intro v hv
      obtain ⟨b, _, rfl⟩ := List.mem_map.1 hv
      simp
    · intro z hz hne
      by_contra hC
      apply hne
      refine Finset.sum_eq_zero (fun x _ => Finset.sum_eq_zero (fun y _ => ?_))
      by_contra hp
      exact hC (h.suppC x y z hz hp)
  exact main

/-- From correct tables, `conditional_mutual_information` computes the conditional mutual
information (in units of the logarithm `fun x => log x / c`). -/
theorem conditionalMutualInformation_eq {n : Nat} {P : Int → Int → List Int → ℚ}
    {A B : Finset Int} {C : Finset (List Int)} {eZ eX eY : List Int → Key}
    {PrXYcZ PrXcZ PrYcZ : CPMF} {PrZ : PMF}
    (h : CmiTables n P A B C eZ eX eY PrXYcZ PrXcZ PrYcZ PrZ) {c : ℝ} (hc : 0 < c) :
    conditionalMutualInformation (fun x => log x / c) PrXYcZ PrXcZ PrYcZ PrZ =
      Info.cmi A B C (fun x y z => (P x y z : ℝ)) / c := by
  have hPR : ∀ x y z, (0 : ℝ) ≤ (fun x y z => (P x y z : ℝ)) x y z :=
    fun x y z => by have := h.nonneg x y z; show (0 : ℝ) ≤ (P x y z : ℝ); exact_mod_cast this
  have hcmi := Info.cmi_nonneg (A := A) (B := B) (C := C) hPR
  unfold conditionalMutualInformation
  rw [cmiSum_eq h hc, abs_of_nonneg (div_nonneg hcmi hc.le)]

end Mbtk.Stats
