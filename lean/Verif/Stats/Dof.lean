import Verif.Stats.UnoptTables
/-!
# Degrees of freedom: the calculators agree with the specification
-/
namespace Mbtk.Stats
open Mbtk.ADTree (Data)
open Spec

/-! ## Structural -/

theorem removeZeros_idem (pmf : PMF) : pmf.removeZeros.removeZeros = pmf.removeZeros := by
  simp [PMF.removeZeros, List.filter_filter]

theorem given_removeZerosAt (c : CPMF) (k : Key) (z : Key) :
    (removeZerosAt c k).given [z.toVal] =
      if k = mkKey z.comps ∧ (dictGet c k).isSome then (c.given [z.toVal]).removeZeros
      else c.given [z.toVal] := by
  rw [CPMF.given_key, CPMF.given_key]
  unfold removeZerosAt
  cases h : dictGet c k with
  | none => simp
  | some pmf =>
    simp only [dictGet_dictSet, Option.isSome_some, and_true]
    by_cases e : k = mkKey z.comps
    · subst e; simp [h]
    · simp [e]

/-- Number of non-zero entries under a key.
(Models no code: a notion for statements and proofs.) -/
def nz (c : CPMF) (z : Key) : Nat := (c.given [z.toVal]).removeZeros.probabilities.length

theorem nz_removeZerosAt (c : CPMF) (k z : Key) : nz (removeZerosAt c k) z = nz c z := by
  unfold nz
  rw [given_removeZerosAt]
  split
  · rw [removeZeros_idem]
  · rfl

/-- `c'` is `c` with zeros removed from some of its PMFs.
(Models no code: a notion for statements and proofs.) -/
def Shrunk (c c' : CPMF) : Prop :=
  ∀ z : Key, c'.given [z.toVal] = c.given [z.toVal] ∨
    c'.given [z.toVal] = (c.given [z.toVal]).removeZeros

theorem Shrunk.refl (c : CPMF) : Shrunk c c := fun _ => .inl rfl

theorem Shrunk.step {c c' : CPMF} (h : Shrunk c c') (k : Key) : Shrunk c (removeZerosAt c' k) := by
  intro z
  rw [given_removeZerosAt]
  split
  · right
    rcases h z with e | e
    · rw [e]
    · rw [e, removeZeros_idem]
  · exact h z

theorem structuralLoop_spec (items : List (Key × ℚ)) (xc yc xc' yc' : CPMF) (dof : Int)
    (hx : Shrunk xc xc') (hy : Shrunk yc yc') (hxn : ∀ z, nz xc' z = nz xc z)
    (hyn : ∀ z, nz yc' z = nz yc z) :
    (structuralLoop items xc' yc' dof).1 =
      dof + (items.map (fun p => if p.2 = 0 then (0 : Int)
        else ((nz xc p.1 : Int) - 1) * ((nz yc p.1 : Int) - 1))).sum ∧
    Shrunk xc (structuralLoop items xc' yc' dof).2.1 ∧
    Shrunk yc (structuralLoop items xc' yc' dof).2.2 := by
  induction items generalizing xc' yc' dof with
  | nil => simp [structuralLoop, hx, hy]
  | cons p items ih =>
    obtain ⟨z, pz⟩ := p
    by_cases h : pz = 0
    · simp only [structuralLoop, h, if_true, List.map_cons, List.sum_cons, zero_add]
      exact ih xc' yc' dof hx hy hxn hyn
    · simp only [structuralLoop, h, if_false, List.map_cons, List.sum_cons]
      obtain ⟨i1, i2, i3⟩ := ih (removeZerosAt xc' (processPmfKey [z.toVal]))
        (removeZerosAt yc' (processPmfKey [z.toVal]))
        (dof + (((xc'.given [z.toVal]).removeZeros.probabilities.length : Int) - 1) *
          (((yc'.given [z.toVal]).removeZeros.probabilities.length : Int) - 1))
        (hx.step _) (hy.step _)
        (fun z => by rw [nz_removeZerosAt, hxn]) (fun z => by rw [nz_removeZerosAt, hyn])
      refine ⟨?_, i2, i3⟩
      rw [i1]
      have e1 := hxn z
      have e2 := hyn z
      unfold nz at e1 e2 ⊢
      rw [e1, e2, add_assoc]

/-- Non-zero entries of a one-variable table. -/
theorem length_of_tab {d : List (Key × ℚ)} {e : List Int → Key} {Q : Int → ℚ}
    (h : Tabulates d e 1 (fun l => Q (l.headD 0))) (he : ∀ l, (e l).comps = l) (S : Finset Int)
    (hS : ∀ x, x ∈ S ↔ Q x ≠ 0) : (d.filter (fun p => p.2 ≠ 0)).length = S.card := by
  rw [h.length_filter (fun l l' _ _ hl => by rw [← he l, hl, he l']) (S.image (fun x => [x]))]
  · exact Finset.card_image_of_injective _ (fun a b h => by simpa using h)
  · intro l
    constructor
    · intro hl
      obtain ⟨x, hx, rfl⟩ := Finset.mem_image.1 hl
      exact ⟨rfl, (hS x).1 hx⟩
    · rintro ⟨hl, hq⟩
      rw [length_one hl]
      exact Finset.mem_image.2 ⟨_, (hS _).2 hq, rfl⟩

theorem cast_dof (D : Data) (X Y : Nat) (Z : List Nat) (s : Int)
    (hs : s = ∑ z ∈ observed D Z, (((valuesGiven D X Z z).card : Int) - 1) *
      (((valuesGiven D Y Z z).card : Int) - 1)) :
    (if s = 0 then 1 else s) = (dof D X Y Z : Int) := by
  have h1 : s = ((∑ z ∈ observed D Z, ((valuesGiven D X Z z).card - 1) *
      ((valuesGiven D Y Z z).card - 1) : Nat) : Int) := by
    rw [hs]
    push_cast
    refine Finset.sum_congr rfl (fun z hz => ?_)
    rw [Nat.cast_sub (valuesGiven_pos D X hz), Nat.cast_sub (valuesGiven_pos D Y hz)]
    rfl
  unfold dof
  rw [h1]
  split
  · next h =>
    have h : (∑ z ∈ observed D Z, ((valuesGiven D X Z z).card - 1) *
      ((valuesGiven D Y Z z).card - 1)) = 0 := by exact_mod_cast h
    rw [h]; rfl
  · next h =>
    have h : (∑ z ∈ observed D Z, ((valuesGiven D X Z z).card - 1) *
      ((valuesGiven D Y Z z).card - 1)) ≠ 0 := by exact_mod_cast h
    have : 1 ≤ (∑ z ∈ observed D Z, ((valuesGiven D X Z z).card - 1) *
      ((valuesGiven D Y Z z).card - 1)) := Nat.one_le_iff_ne_zero.2 h
    rw [max_eq_right this]

/-- Removing zeros keeps the tables good. -/
theorem GoodTables.shrink {D : Data} {X Y : Nat} {Z : List Nat} {t : Tables}
    (h : GoodTables D X Y Z t) {xc yc : CPMF} (hx : Shrunk t.PrXcZ xc) (hy : Shrunk t.PrYcZ yc) :
    GoodTables D X Y Z { t with PrXcZ := xc, PrYcZ := yc } := by
  obtain ⟨eZ, eX, eY, hc⟩ := h
  refine ⟨eZ, eX, eY, hc.nonneg, hc.lenC, hc.suppA, hc.suppB, hc.suppC, hc.keyZ_inj, hc.keyZ,
    hc.keyX, hc.keyY, hc.tabZ, ?_, ?_, hc.valXY⟩
  · intro z hz h0
    rcases hx (eZ z) with e | e
    · rw [e]; exact hc.tabX z hz h0
    · rw [e]; exact (hc.tabX z hz h0).filter
  · intro z hz h0
    rcases hy (eZ z) with e | e
    · rw [e]; exact hc.tabY z hz h0
    · rw [e]; exact (hc.tabY z hz h0).filter

/-- `StructuralDoF.calculate_DoF` on good tables. -/
theorem structural_ok {D : Data} {X Y : Nat} {Z : List Nat} {t : Tables} (cache : DofCache)
    (h : GoodTables D X Y Z t) :
    ∃ t', calculateDof D .structural cache X Y Z t = .ok ((dof D X Y Z : Int), t') ∧
      GoodTables D X Y Z t' := by
  have hg := h
  obtain ⟨eZ, eX, eY, hc⟩ := h
  obtain ⟨s1, s2, s3⟩ := structuralLoop_spec t.PrZ.probabilities t.PrXcZ t.PrYcZ t.PrXcZ t.PrYcZ 0
    (Shrunk.refl _) (Shrunk.refl _) (fun _ => rfl) (fun _ => rfl)
  refine ⟨_, ?_, hg.shrink s2 s3⟩
  unfold calculateDof
  dsimp only
  rw [cast_dof D X Y Z _ ?_]
  rw [s1, zero_add]
  rw [hc.tabZ.sum hc.keyZ_inj (fun k p => if p = 0 then (0 : Int)
    else ((nz t.PrXcZ k : Int) - 1) * ((nz t.PrYcZ k : Int) - 1)) (by simp) (observed D Z) hc.lenC ?_]
  · refine Finset.sum_congr rfl (fun z hz => ?_)
    have hzf : freq D Z z ≠ 0 := (freq_ne_zero_iff D _ _).2 hz
    have hz0 : (∑ x ∈ values D X, ∑ y ∈ values D Y, joint3 D X Y Z x y z) ≠ 0 := by
      rw [sum_joint3_xy]; exact hzf
    rw [if_neg hz0]
    have hzl := hc.lenC z hz
    have e1 : nz t.PrXcZ (eZ z) = (valuesGiven D X Z z).card := by
      refine length_of_tab (Q := fun x => (∑ y ∈ values D Y, joint3 D X Y Z x y z) /
        ∑ x ∈ values D X, ∑ y ∈ values D Y, joint3 D X Y Z x y z) (hc.tabX z hzl hz0) hc.keyX _ ?_
      intro x
      rw [mem_valuesGiven, sum_joint3_xy, sum_joint3_y, ne_eq, ne_eq, div_eq_zero_iff]
      tauto
    have e2 : nz t.PrYcZ (eZ z) = (valuesGiven D Y Z z).card := by
      refine length_of_tab (Q := fun y => (∑ x ∈ values D X, joint3 D X Y Z x y z) /
        ∑ x ∈ values D X, ∑ y ∈ values D Y, joint3 D X Y Z x y z) (hc.tabY z hzl hz0) hc.keyY _ ?_
      intro x
      rw [mem_valuesGiven, sum_joint3_xy, sum_joint3_x, ne_eq, ne_eq, div_eq_zero_iff]
      tauto
    rw [e1, e2]
  · intro z _ hz
    rw [sum_joint3_xy] at hz
    exact (freq_ne_zero_iff D _ _).1 hz

/-! ## Cached -/

/-- `cols` with the positions `ix` and `iy` left out.
(Models no code: a notion for statements and proofs.) -/
def others (cols : List Nat) (ix iy : Nat) : List Nat :=
  (otherPositions cols.length ix iy).map (fun i => (cols[i]?).getD 0)

theorem zOf_row (D : Data) (cols : List Nat) (ix iy r : Nat) :
    (otherPositions cols.length ix iy).map (Key.tup (cols.map (D.cell r))).at =
      (others cols ix iy).map (D.cell r) := by
  unfold others
  rw [List.map_map]
  apply List.map_congr_left
  intro i hi
  have : i < cols.length := by
    have := (List.mem_filter.1 hi).1
    simpa using this
  simp [Key.at, Key.comps, this]

theorem at_row (D : Data) (cols : List Nat) (i r : Nat) (hi : i < cols.length) :
    (Key.tup (cols.map (D.cell r))).at i = D.cell r ((cols[i]?).getD 0) := by
  simp [Key.at, Key.comps, hi]

/-- `calculate_pairwise_DoFs` for one pair, on the support of the joint frequency table. -/
theorem pairDof_ok (D : Data) (cols : List Nat) (keys : List Key)
    (hk : ∀ k, k ∈ keys ↔ ∃ l ∈ observed D cols, k = .tup l) {ix iy : Nat}
    (hx : ix < cols.length) (hy : iy < cols.length) :
    pairDof keys cols.length ix iy =
      (dof D ((cols[ix]?).getD 0) ((cols[iy]?).getD 0) (others cols ix iy) : Int) := by
  unfold pairDof
  dsimp only
  apply cast_dof
  set zOf := fun k : Key => (otherPositions cols.length ix iy).map k.at with hzOf
  have hzs : (keys.map zOf).dedup.toFinset = observed D (others cols ix iy) := by
    ext z
    simp only [List.mem_toFinset, List.mem_dedup, List.mem_map]
    constructor
    · rintro ⟨k, hkm, rfl⟩
      obtain ⟨l, hl, rfl⟩ := (hk k).1 hkm
      obtain ⟨r, hr, rfl⟩ := Finset.mem_image.1 hl
      exact Finset.mem_image.2 ⟨r, hr, (zOf_row D cols ix iy r).symm⟩
    · intro hz
      obtain ⟨r, hr, rfl⟩ := Finset.mem_image.1 hz
      exact ⟨.tup (cols.map (D.cell r)), (hk _).2 ⟨_, Finset.mem_image.2 ⟨r, hr, rfl⟩, rfl⟩,
        zOf_row D cols ix iy r⟩
  have hval : ∀ z i, i < cols.length →
      (((keys.filter (fun k => zOf k = z)).map (·.at i)).dedup).length =
      (valuesGiven D ((cols[i]?).getD 0) (others cols ix iy) z).card := by
    intro z i hi
    rw [← List.toFinset_card_of_nodup (List.nodup_dedup _)]
    congr 1
    ext v
    simp only [List.mem_toFinset, List.mem_dedup, List.mem_map, List.mem_filter, decide_eq_true_eq]
    constructor
    · rintro ⟨k, ⟨hkm, hz⟩, rfl⟩
      obtain ⟨l, hl, rfl⟩ := (hk k).1 hkm
      obtain ⟨r, hr, rfl⟩ := Finset.mem_image.1 hl
      refine Finset.mem_image.2 ⟨r, Finset.mem_filter.2 ⟨hr, ?_⟩, (at_row D cols i r hi).symm⟩
      rw [← hz, hzOf]; exact (zOf_row D cols ix iy r).symm
    · intro hv
      obtain ⟨r, hr, rfl⟩ := Finset.mem_image.1 hv
      obtain ⟨hr, hz⟩ := Finset.mem_filter.1 hr
      exact ⟨.tup (cols.map (D.cell r)), ⟨(hk _).2 ⟨_, Finset.mem_image.2 ⟨r, hr, rfl⟩, rfl⟩,
        (zOf_row D cols ix iy r).trans hz⟩, at_row D cols i r hi⟩
  rw [← hzs, List.sum_toFinset _ (List.nodup_dedup _)]
  congr 1
  apply List.map_congr_left
  intro z _
  rw [hval z ix hx, hval z iy hy]

/-- Looking up a pair of positions. -/
theorem dictGet_flatMap {α κ ν : Type} [DecidableEq κ] (l : List α) (f : α → List (κ × ν)) (k : κ)
    (v : ν) (h1 : ∃ a ∈ l, dictGet (f a) k = some v)
    (h2 : ∀ a ∈ l, dictGet (f a) k = none ∨ dictGet (f a) k = some v) :
    dictGet (l.flatMap f) k = some v := by
  have happ : ∀ a b : List (κ × ν), dictGet (a ++ b) k = (dictGet a k).or (dictGet b k) := by
    intro a b
    induction a with
    | nil => simp [dictGet]
    | cons p a ih =>
      obtain ⟨k', v'⟩ := p
      by_cases e : k' = k <;> simp [dictGet, e, ih]
  induction l with
  | nil => obtain ⟨a, ha, _⟩ := h1; simp at ha
  | cons a l ih =>
    rw [List.flatMap_cons, happ]
    rcases h2 a (by simp) with e | e
    · rw [e]
      obtain ⟨b, hb, hv⟩ := h1
      rcases List.mem_cons.1 hb with rfl | hb
      · rw [e] at hv; simp at hv
      · simpa using ih ⟨b, hb, hv⟩ (fun c hc => h2 c (List.mem_cons_of_mem _ hc))
    · rw [e]; rfl

theorem pairwise_get (keys : List Key) (size : Nat) {ix iy : Nat} (hx : ix < size) (hy : iy < size)
    (hne : ix ≠ iy) :
    dictGet (pairwiseDofs keys size) (ix, iy) =
      some (pairDof keys size (min ix iy) (max ix iy)) := by
  unfold pairwiseDofs
  have hinner : ∀ a b : Nat, a ≠ b → dictGet [((a, b), pairDof keys size a b),
      ((b, a), pairDof keys size a b)] (ix, iy) =
      if (a = ix ∧ b = iy) ∨ (a = iy ∧ b = ix) then some (pairDof keys size a b) else none := by
    intro a b hab
    simp only [dictGet, Prod.mk.injEq]
    by_cases h1 : a = ix ∧ b = iy
    · simp [h1]
    · simp only [h1, if_false, false_or]
      by_cases h2 : a = iy ∧ b = ix
      · simp [h2]
      · have : ¬ (b = ix ∧ a = iy) := fun h => h2 ⟨h.2, h.1⟩
        simp [h2, this]
  have hnone : ∀ (l : List Nat) (f : Nat → List ((Nat × Nat) × Int)),
      (∀ a ∈ l, dictGet (f a) (ix, iy) = none) → dictGet (l.flatMap f) (ix, iy) = none := by
    intro l f h
    rw [dictGet_none_iff, List.map_flatMap, List.mem_flatMap]
    rintro ⟨a, ha, hm⟩
    exact ((dictGet_none_iff _ _).1 (h a ha)) hm
  have houter : ∀ a, a < size → a ≠ min ix iy → dictGet
      (((List.range size).filter (fun iy => a < iy)).flatMap (fun b =>
        [((a, b), pairDof keys size a b), ((b, a), pairDof keys size a b)])) (ix, iy) = none := by
    intro a _ hne'
    apply hnone
    intro b hb
    have hab : a < b := by simpa using (List.mem_filter.1 hb).2
    rw [hinner a b (by omega), if_neg (by omega)]
  have hmid : dictGet
      (((List.range size).filter (fun b => min ix iy < b)).flatMap (fun b =>
        [((min ix iy, b), pairDof keys size (min ix iy) b),
          ((b, min ix iy), pairDof keys size (min ix iy) b)])) (ix, iy) =
      some (pairDof keys size (min ix iy) (max ix iy)) := by
    apply dictGet_flatMap
    · refine ⟨max ix iy, List.mem_filter.2 ⟨by simp [hx, hy], by simp; omega⟩, ?_⟩
      rw [hinner _ _ (by omega), if_pos (by omega)]
    · intro b hb
      have hab : min ix iy < b := by simpa using (List.mem_filter.1 hb).2
      rw [hinner _ _ (by omega)]
      by_cases h : b = max ix iy
      · subst h; right; rw [if_pos (by omega)]
      · left; rw [if_neg (by omega)]
  apply dictGet_flatMap
  · exact ⟨min ix iy, by simp; omega, hmid⟩
  · intro a ha
    by_cases h : a = min ix iy
    · subst h; exact .inr hmid
    · exact .inl (houter a (by simpa using ha) h)

theorem otherPositions_symm (size ix iy : Nat) :
    otherPositions size ix iy = otherPositions size iy ix := by
  unfold otherPositions
  apply List.filter_congr
  intro i _
  simp [and_comm]

/-- Every entry of the cache is about distinct columns, is stored under their set, and holds
the structural degrees of freedom of every pair of its columns given the others.
(Models no code: a notion for statements and proofs.) -/
def CacheOk (D : Data) (cache : DofCache) : Prop :=
  ∀ S vars pw, dictGet cache S = some (vars, pw) → ∃ cols : List Nat, cols.Nodup ∧
    vars = castIds cols ∧ S = (castIds cols).toFinset ∧
    ∀ ix iy, ix < cols.length → iy < cols.length → ix ≠ iy →
      dictGet pw (ix, iy) = some (dof D ((cols[ix]?).getD 0) ((cols[iy]?).getD 0)
        (others cols ix iy) : Int)

theorem pairwise_ok (D : Data) (cols : List Nat) (keys : List Key)
    (hk : ∀ k, k ∈ keys ↔ ∃ l ∈ observed D cols, k = .tup l) {ix iy : Nat}
    (hx : ix < cols.length) (hy : iy < cols.length) (hne : ix ≠ iy) :
    dictGet (pairwiseDofs keys cols.length) (ix, iy) =
      some (dof D ((cols[ix]?).getD 0) ((cols[iy]?).getD 0) (others cols ix iy) : Int) := by
  rw [pairwise_get keys cols.length hx hy hne]
  rcases Nat.lt_or_ge ix iy with h | h
  · rw [min_eq_left h.le, max_eq_right h.le, pairDof_ok D cols keys hk hx hy]
  · rw [min_eq_right h, max_eq_left h, pairDof_ok D cols keys hk hy hx]
    unfold others
    rw [dof_symm, otherPositions_symm]

/-- A PMF that the calculator may see: if it belongs to a joint variable over at least two
columns, its keys are tuples tabulating their joint frequencies.
(Models no code: a notion for statements and proofs.) -/
def Cacheable (D : Data) (pmf : PMF) : Prop :=
  ∀ vars, pmf.jointIDs = some vars → 2 ≤ vars.length → ∃ cols : List Nat, cols.Nodup ∧
    vars = castIds cols ∧ ∀ ix iy, ix < cols.length → iy < cols.length → ix ≠ iy →
      dictGet (pairwiseDofs (pmf.removeZeros.probabilities.map Prod.fst) cols.length) (ix, iy) =
        some (dof D ((cols[ix]?).getD 0) ((cols[iy]?).getD 0) (others cols ix iy) : Int)

/-- Keys left after removing zeros: the observed combinations. -/
theorem keys_removeZeros {D : Data} {cols : List Nat} {pmf : PMF}
    (h : Tabulates pmf.probabilities mkKey cols.length (freq D cols)) (h2 : 2 ≤ cols.length)
    (k : Key) : k ∈ pmf.removeZeros.probabilities.map Prod.fst ↔
      ∃ l ∈ observed D cols, k = .tup l := by
  have hf := h.filter
  constructor
  · intro hk
    obtain ⟨l, hl, rfl⟩ := hf.shape k hk
    obtain ⟨⟨k', v⟩, hm, e⟩ := List.mem_map.1 hk
    simp only at e
    subst e
    have hv := dictVal_of_mem hf.nodup hm
    rw [hf.value l hl] at hv
    have hne : v ≠ 0 := by simpa using (List.mem_filter.1 hm).2
    exact ⟨l, (freq_ne_zero_iff D _ _).1 (by rw [hv]; exact hne), mkKey_of_ne (by omega)⟩
  · rintro ⟨l, hl, rfl⟩
    have hlen := observed_length D hl
    have e : mkKey l = .tup l := mkKey_of_ne (by omega)
    rw [← e]
    by_contra hm
    have := hf.value l hlen
    have hm' := dictVal_of_not_mem hm
    unfold PMF.removeZeros at hm'
    rw [hm'] at this
    exact (freq_ne_zero_iff D _ _).2 hl this.symm

theorem cacheable_of_tab {D : Data} {cols : List Nat} (hn : cols.Nodup) {pmf : PMF}
    (h : Tabulates pmf.probabilities mkKey cols.length (freq D cols))
    (hj : pmf.jointIDs = some (castIds cols) ∨ pmf.jointIDs = none) : Cacheable D pmf := by
  intro vars hv h2
  rcases hj with hj | hj
  · rw [hj] at hv
    have hv : castIds cols = vars := by simpa using hv
    subst hv
    rw [castIds_length] at h2
    exact ⟨cols, hn, rfl, fun ix iy hx hy hne =>
      pairwise_ok D cols _ (keys_removeZeros h h2) hx hy hne⟩
  · rw [hj] at hv; simp at hv

/-- Passing a PMF to the calculator keeps the cache right, keeps old entries, and makes the
entry for its variables available; the PMF may only lose zeros. -/
theorem contextPmf_ok {D : Data} (kind : DofKind) {cache : DofCache} (hc : CacheOk D cache)
    {pmf : PMF} (hp : Cacheable D pmf) :
    CacheOk D (contextPmf kind cache pmf).1 ∧
    (∀ S, (dictGet cache S).isSome → (dictGet (contextPmf kind cache pmf).1 S).isSome) ∧
    (kind = .cached → ∀ vars, pmf.jointIDs = some vars → 2 ≤ vars.length →
      (dictGet (contextPmf kind cache pmf).1 vars.toFinset).isSome) ∧
    ((contextPmf kind cache pmf).2 = pmf ∨ (contextPmf kind cache pmf).2 = pmf.removeZeros) ∧
    (kind ≠ .cached → (contextPmf kind cache pmf).1 = cache) := by
  have trivialCase : ∀ {c : DofCache × PMF}, c = (cache, pmf) →
      (kind = .cached → ∀ vars, pmf.jointIDs = some vars → 2 ≤ vars.length →
        (dictGet cache vars.toFinset).isSome) →
      CacheOk D c.1 ∧ (∀ S, (dictGet cache S).isSome → (dictGet c.1 S).isSome) ∧
      (kind = .cached → ∀ vars, pmf.jointIDs = some vars → 2 ≤ vars.length →
        (dictGet c.1 vars.toFinset).isSome) ∧ (c.2 = pmf ∨ c.2 = pmf.removeZeros) ∧
      (kind ≠ .cached → c.1 = cache) := by
    rintro c rfl h
    exact ⟨hc, fun _ h => h, h, .inl rfl, fun _ => rfl⟩
  cases kind with
  | unadjusted => exact trivialCase rfl (by simp)
  | structural => exact trivialCase rfl (by simp)
  | cached =>
    unfold contextPmf
    dsimp only
    unfold cacheDofs
    cases hj : pmf.jointIDs with
    | none => dsimp only; rw [← hj]; exact trivialCase rfl (by simp [hj])
    | some vars =>
      dsimp only
      by_cases hl : vars.length ≤ 1
      · rw [if_pos hl, ← hj]
        refine trivialCase rfl ?_
        intro _ vars' hv hl'
        rw [hj] at hv; cases hv; omega
      · rw [if_neg hl]
        cases hg : dictGet cache vars.toFinset with
        | some e =>
          dsimp only
          rw [← hj]
          refine trivialCase rfl ?_
          intro _ vars' hv _
          rw [hj] at hv; cases hv; simp [hg]
        | none =>
          dsimp only
          obtain ⟨cols, hn, e, hpw⟩ := hp vars hj (by omega)
          subst e
          refine ⟨?_, ?_, ?_, .inr rfl, fun h => absurd rfl h⟩
          · intro S vars' pw hS
            rw [dictGet_dictSet] at hS
            split at hS
            · next hSe =>
              have hS : (castIds cols, pairwiseDofs
                (pmf.removeZeros.probabilities.map Prod.fst) (castIds cols).length) =
                (vars', pw) := by simpa using hS
              obtain ⟨rfl, rfl⟩ := Prod.mk.inj hS
              rw [castIds_length]
              exact ⟨cols, hn, rfl, hSe.symm, hpw⟩
            · exact hc S vars' pw hS
          · intro S hS
            rw [dictGet_dictSet]
            split <;> simp_all
          · intro _ vars' hv _
            have hv : castIds cols = vars' := by simpa using hv
            subst hv
            rw [dictGet_dictSet]; simp

/-- `CachedStructuralDoF.calculate_DoF` when the entry is there. -/
theorem cached_ok {D : Data} {cache : DofCache} (hc : CacheOk D cache) {X Y : Nat} {Z : List Nat}
    (hn : (X :: Y :: Z).Nodup) (t : Tables)
    (hs : (dictGet cache (castIds (X :: Y :: Z)).toFinset).isSome) :
    calculateDof D .cached cache X Y Z t = .ok ((dof D X Y Z : Int), t) := by
  obtain ⟨⟨vars, pw⟩, hg⟩ := Option.isSome_iff_exists.1 hs
  obtain ⟨cols, hcn, rfl, hS, hpw⟩ := hc _ _ _ hg
  have hmem : ∀ c : Nat, c ∈ cols ↔ c ∈ X :: Y :: Z := by
    intro c
    have := congrArg (fun s : Finset Int => (c : Int) ∈ s) hS
    simp only [List.mem_toFinset, mem_castIds, eq_iff_iff] at this
    exact this.symm
  have hX : X ∈ cols := (hmem X).2 (by simp)
  have hY : Y ∈ cols := (hmem Y).2 (by simp)
  have hidx : ∀ c ∈ cols, (castIds cols).idxOf (c : Int) = cols.idxOf c := by
    intro c hc
    unfold castIds
    clear * -
    induction cols with
    | nil => rfl
    | cons a l ih => simp [List.idxOf_cons, ih, Bool.beq_eq_decide_eq]
  have hXi := List.idxOf_lt_length_of_mem hX
  have hYi := List.idxOf_lt_length_of_mem hY
  have hXY : X ≠ Y := by
    simp only [List.nodup_cons, List.mem_cons, not_or] at hn; exact hn.1.1
  have hine : cols.idxOf X ≠ cols.idxOf Y := fun e => hXY ((List.idxOf_inj hX).1 e)
  have e1 : (cols[cols.idxOf X]?).getD 0 = X := by
    rw [List.getElem?_eq_getElem hXi]; simp
  have e2 : (cols[cols.idxOf Y]?).getD 0 = Y := by
    rw [List.getElem?_eq_getElem hYi]; simp
  have hothers : ∀ c, c ∈ Z ↔ c ∈ others cols (cols.idxOf X) (cols.idxOf Y) := by
    intro c
    unfold others otherPositions
    simp only [List.mem_map, List.mem_filter, List.mem_range, decide_eq_true_eq]
    constructor
    · intro hcZ
      have hcc : c ∈ cols := (hmem c).2 (by simp [hcZ])
      have hci := List.idxOf_lt_length_of_mem hcc
      refine ⟨cols.idxOf c, ⟨hci, ?_, ?_⟩, by rw [List.getElem?_eq_getElem hci]; simp⟩
      · intro e
        have := (List.idxOf_inj hcc).1 e
        subst this
        simp only [List.nodup_cons, List.mem_cons, not_or] at hn
        exact hn.1.2 hcZ
      · intro e
        have := (List.idxOf_inj hcc).1 e
        subst this
        simp only [List.nodup_cons] at hn
        exact hn.2.1 hcZ
    · rintro ⟨i, ⟨hi, hix, hiy⟩, rfl⟩
      rw [List.getElem?_eq_getElem hi]
      simp only [Option.getD_some]
      have hm := (hmem cols[i]).1 (List.getElem_mem hi)
      simp only [List.mem_cons] at hm
      rcases hm with e | e | e
      · exact absurd (by rw [← e]; exact (hcn.idxOf_getElem i hi).symm) hix
      · exact absurd (by rw [← e]; exact (hcn.idxOf_getElem i hi).symm) hiy
      · exact e
  unfold calculateDof
  dsimp only
  have hkey : ((X :: Y :: Z).map (fun c : Nat => (c : Int))).toFinset =
      (castIds (X :: Y :: Z)).toFinset := rfl
  rw [hkey, hg]
  dsimp only
  unfold pyIndex
  rw [if_pos (mem_castIds.2 hX), if_pos (mem_castIds.2 hY), hidx X hX, hidx Y hY]
  show (match dictGet pw (cols.idxOf X, cols.idxOf Y) with
    | none => _ | some d => _) = _
  rw [hpw _ _ hXi hYi hine, e1, e2, dof_perm D X Y hothers]

end Mbtk.Stats
