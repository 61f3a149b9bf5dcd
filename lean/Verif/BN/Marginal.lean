import Verif.BN.Joint
import Verif.Props.PMFProps
/-!
# Sums over assignments and marginalisation
-/
namespace Mbtk.BN
open Spec Stats
variable {ν β : Type} [LinearOrder ν] [DecidableEq β]

/-- Nested sums over the values of some nodes.
(Models no code: a notion for statements and proofs.) -/
def nest : List (Node ν β) → (ν → β) → ((ν → β) → ℚ) → ℚ
  | [], a, G => G a
  | n :: rest, a, G => (n.values.map (fun v => nest rest (Function.update a n.name v) G)).sum

theorem sum_branches_eq_nest (ns : List (Node ν β)) (a : ν → β) (p : ℚ) (G : (ν → β) → ℚ) :
    ((branches ns a p).map (fun x => G x.1)).sum = nest ns a G := by
  induction ns generalizing a p with
  | nil => simp [branches, nest]
  | cons n ns ih =>
    simp only [branches, nest, List.map_flatMap]
    rw [List.flatMap_def, List.sum_flatten, List.map_map]
    congr 1
    apply List.map_congr_left
    intro v _
    exact ih _ _

/-- The weighted sum over the leaves, as a nested sum. -/
theorem weighted_sum_branches (ns : List (Node ν β)) (done : List ν) (a : ν → β) (p : ℚ)
    (hr : Ready done ns) (F : (ν → β) → ℚ) :
    ((branches ns a p).map (fun x => x.2 * F x.1)).sum =
      nest ns a (fun a => p * prodOf ns a * F a) := by
  rw [← sum_branches_eq_nest ns a p]
  congr 1
  apply List.map_congr_left
  intro x hx
  rw [(branches_spec ns done a p hr hx).2.2]

theorem sum_map_sum_comm {γ δ : Type} (l : List γ) (m : List δ) (f : γ → δ → ℚ) :
    (l.map (fun x => (m.map (fun y => f x y)).sum)).sum =
      (m.map (fun y => (l.map (fun x => f x y)).sum)).sum := by
  induction l with
  | nil => simp
  | cons x l ih => simp [ih, List.sum_map_add]

/-- The order of the nested sums does not matter. -/
theorem nest_perm {ns ms : List (Node ν β)} (hp : ns.Perm ms) (hn : (ns.map (·.name)).Nodup)
    (a : ν → β) (G : (ν → β) → ℚ) : nest ns a G = nest ms a G := by
  induction hp generalizing a with
  | nil => rfl
  | cons n _ ih =>
    simp only [List.map_cons, List.nodup_cons] at hn
    simp only [nest]
    congr 1
    apply List.map_congr_left
    intro v _
    exact ih hn.2 _
  | swap n m l =>
    simp only [List.map_cons, List.nodup_cons, List.mem_cons, not_or] at hn
    simp only [nest]
    rw [sum_map_sum_comm]
    congr 1
    apply List.map_congr_left
    intro v _
    congr 1
    apply List.map_congr_left
    intro w _
    rw [Function.update_comm hn.1.1]
  | trans h1 _ ih1 ih2 =>
    rw [ih1 hn, ih2 ((h1.map _).nodup_iff.1 hn)]

/-- Variables outside an ancestrally closed set sum out. -/
theorem sum_out {nodes : List (Node ν β)} (h : WellFormed nodes) (hN : Normalised nodes)
    (S : ν → Prop) [DecidablePred S]
    (hS : ∀ n ∈ nodes, S n.name → ∀ p ∈ n.parents, S p)
    (F : (ν → β) → ℚ) (hF : ∀ a b : ν → β, (∀ v, S v → a v = b v) → F a = F b)
    (ns : List (Node ν β)) (hns : ∀ n ∈ ns, n ∈ nodes) (done : List ν) (a b : ν → β) (p : ℚ)
    (hr : Ready done ns) (hd : DeclaredOn nodes done a) (hab : ∀ v, S v → a v = b v) :
    ((branches ns a p).map (fun x => x.2 * F x.1)).sum =
      ((branches (ns.filter (fun n => S n.name)) b p).map (fun x => x.2 * F x.1)).sum := by
  induction ns generalizing done a b p with
  | nil => simp [branches, hF a b hab]
  | cons n ns ih =>
    obtain ⟨hp, hname, hr'⟩ := hr
    have hn := hns n (by simp)
    have hns' : ∀ m ∈ ns, m ∈ nodes := fun m hm => hns m (by simp [hm])
    have expand : ∀ (l : List (Node ν β)) (c : ν → β),
        ((branches (n :: l) c p).map (fun x => x.2 * F x.1)).sum =
        (n.values.map (fun v => ((branches l (Function.update c n.name v)
          (p * cpt n (n.parents.map c) v)).map (fun x => x.2 * F x.1)).sum)).sum := by
      intro l c
      simp only [branches, List.map_flatMap]
      rw [List.flatMap_def, List.sum_flatten, List.map_map]
      rfl
    rw [expand]
    by_cases hSn : S n.name
    · rw [List.filter_cons_of_pos (by simpa using hSn), expand]
      congr 1
      apply List.map_congr_left
      intro v hv
      have hpar : n.parents.map a = n.parents.map b :=
        List.map_congr_left (fun q hq => hab q (hS n hn hSn q hq))
      rw [hpar]
      refine ih hns' _ _ _ _ hr' (hd.update h.unique hn hv) ?_
      intro w hw
      by_cases e : w = n.name
      · subst e; simp
      · rw [Function.update_of_ne e, Function.update_of_ne e, hab w hw]
    · rw [List.filter_cons_of_neg (by simpa using hSn)]
      have hdf := declaredFor_of hd n.parents hp (fun q hq => h.known n hn q hq)
      have scale : ∀ (l : List (Node ν β)) (c : ν → β) (q : ℚ),
          ((branches l c (p * q)).map (fun x => x.2 * F x.1)).sum =
          q * ((branches l c p).map (fun x => x.2 * F x.1)).sum := by
        intro l
        generalize p = p'
        induction l generalizing p' with
        | nil => intro c q; simp [branches]; ring
        | cons m l ihl =>
          intro c q
          simp only [branches, List.map_flatMap]
          rw [List.flatMap_def, List.flatMap_def, List.sum_flatten, List.sum_flatten, List.map_map,
            List.map_map, ← List.sum_map_mul_left]
          congr 1
          apply List.map_congr_left
          intro v _
          simp only [Function.comp]
          rw [← ihl, mul_right_comm]
      have e : ∀ v ∈ n.values, ((branches ns (Function.update a n.name v)
          (p * cpt n (n.parents.map a) v)).map (fun x => x.2 * F x.1)).sum =
          cpt n (n.parents.map a) v *
          ((branches (ns.filter (fun n => S n.name)) b p).map (fun x => x.2 * F x.1)).sum := by
        intro v hv
        rw [scale]
        congr 1
        refine ih hns' _ _ _ _ hr' (hd.update h.unique hn hv) ?_
        intro w hw
        have : w ≠ n.name := fun e => hSn (e ▸ hw)
        rw [Function.update_of_ne this, hab w hw]
      rw [List.map_congr_left e, List.sum_map_mul_right, sum_cpt (h.values n hn).1
        (h.table_rows n hn _ hdf).2, (hN n hn _ hdf).2, one_mul]

/-! ## Repeated `sum_over` -/

theorem coordinates_all (ids l : List Int) (h : l.length = ids.length) (w : Int → Prop)
    [DecidablePred w] (hw : ∀ i ∈ ids, w i) : coordinates ids w l = l := by
  unfold coordinates
  induction ids generalizing l with
  | nil => cases l <;> simp at h ⊢
  | cons i ids ih =>
    cases l with
    | nil => simp at h
    | cons x l =>
      simp only [List.zip_cons_cons]
      rw [List.filter_cons_of_pos (by simpa using hw i (by simp)), List.map_cons,
        ih l (by simpa using h) (fun j hj => hw j (by simp [hj]))]

theorem coordinates_congr (ids l : List Int) (w w' : Int → Prop) [DecidablePred w]
    [DecidablePred w'] (h : ∀ i ∈ ids, (w i ↔ w' i)) : coordinates ids w l = coordinates ids w' l := by
  unfold coordinates
  congr 1
  apply List.filter_congr
  intro p hp
  have := h p.1 (List.of_mem_zip hp).1
  simp [this]

theorem coordinates_eraseIdx (ids l : List Int) (hn : ids.Nodup) (hl : l.length = ids.length)
    (i : Int) (hi : i ∈ ids) (w : Int → Prop) [DecidablePred w] :
    coordinates (ids.eraseIdx (ids.idxOf i)) w (l.eraseIdx (ids.idxOf i)) =
      coordinates ids (fun j => j ≠ i ∧ w j) l := by
  induction ids generalizing l with
  | nil => simp at hi
  | cons j ids ih =>
    cases l with
    | nil => simp at hl
    | cons x l =>
      obtain ⟨hj, hn'⟩ := List.nodup_cons.1 hn
      by_cases e : j = i
      · subst e
        simp only [List.idxOf_cons_self, List.eraseIdx_cons_zero]
        rw [show coordinates (j :: ids) (fun k => k ≠ j ∧ w k) (x :: l) =
          coordinates ids (fun k => k ≠ j ∧ w k) l by simp [coordinates]]
        apply coordinates_congr
        intro k hk
        have : k ≠ j := fun e => hj (e ▸ hk)
        simp [this]
      · have hi' : i ∈ ids := (List.mem_cons.1 hi).resolve_left (Ne.symm e)
        have e1 : (j == i) = false := by simpa using e
        simp only [List.idxOf_cons, e1, cond_false, List.eraseIdx_cons_succ]
        have := ih l hn' (by simpa using hl) hi'
        unfold coordinates at this ⊢
        simp only [List.zip_cons_cons]
        by_cases hw : w j
        · rw [List.filter_cons_of_pos (by simpa using hw),
            List.filter_cons_of_pos (by simp [e, hw]), List.map_cons, List.map_cons, this]
        · rw [List.filter_cons_of_neg (by simpa using hw),
            List.filter_cons_of_neg (by simp [hw]), this]

/-- A PMF whose keys are canonical and have one value per variable.
(Models no code: a notion for statements and proofs.) -/
structure Canonical (pmf : PMF) : Prop where
  ids : pmf.variableIDs.Nodup
  keys : (pmf.probabilities.map Prod.fst).Nodup
  shape : ∀ p ∈ pmf.probabilities, p.1 = mkKey p.1.comps ∧
    p.1.comps.length = pmf.variableIDs.length

theorem Canonical.isJoint {pmf : PMF} (h : Canonical pmf) (h2 : 2 ≤ pmf.variableIDs.length) :
    IsJoint pmf := by
  refine ⟨h.ids, h2, h.keys, ?_⟩
  intro p hp
  obtain ⟨e, hl⟩ := h.shape p hp
  exact ⟨p.1.comps, by rw [← mkKey_of_ne (by omega)]; exact e, hl⟩

theorem Canonical.p_eq {pmf : PMF} (h : Canonical pmf) (args : List PyVal) :
    pmf.p args = massWhere pmf (fun l => l = leavesAll args) := by
  rw [PMF.p_eq]
  unfold massWhere
  have hc : ∀ p ∈ pmf.probabilities,
      (p.1.comps = leavesAll args ↔ p.1 = mkKey (leavesAll args)) := by
    intro p hp
    constructor
    · intro e; rw [(h.shape p hp).1, e]
    · intro e; rw [e, mkKey_comps]
  rw [List.filter_congr (q := fun p => decide (p.1 = mkKey (leavesAll args)))
    (fun p hp => by rw [decide_eq_decide]; exact hc p hp)]
  have nd := h.keys
  clear hc h
  generalize mkKey (leavesAll args) = k
  revert nd
  generalize pmf.probabilities = d
  intro nd
  have h1 := sum_items nd (fun k' v => if k' = k then v else 0)
  have h2 : ((d.filter (fun p => decide (p.1 = k))).map Prod.snd).sum =
      (d.map (fun p => if p.1 = k then p.2 else 0)).sum := by
    clear h1 nd
    induction d with
    | nil => rfl
    | cons p d ih => by_cases h : p.1 = k <;> simp [h, ih]
  rw [h2, h1, Finset.sum_ite_eq' (d.map Prod.fst).toFinset k]
  by_cases hk : k ∈ (d.map Prod.fst).toFinset
  · rw [if_pos hk]
  · rw [if_neg hk]
    exact dictVal_of_not_mem (by simpa using hk)

theorem massWhere_congr (pmf : PMF) (P Q : List Int → Prop) [DecidablePred P] [DecidablePred Q]
    (h : ∀ p ∈ pmf.probabilities, (P p.1.comps ↔ Q p.1.comps)) :
    massWhere pmf P = massWhere pmf Q := by
  unfold massWhere
  rw [List.filter_congr (q := fun p => decide (Q p.1.comps))
    (fun p hp => by rw [decide_eq_decide]; exact h p hp)]

/-- Summing over several variables keeps the coordinates of the others. -/
theorem sumOverAll_ok (is : List Int) (pmf : PMF) (h : Canonical pmf) (hn : is.Nodup)
    (hsub : ∀ i ∈ is, i ∈ pmf.variableIDs) (hlen : is = [] ∨ is.length < pmf.variableIDs.length) :
    ∃ r, sumOverAll is pmf = .ok r ∧ Canonical r ∧
      r.variableIDs = pmf.variableIDs.filter (fun i => i ∉ is) ∧
      ∀ (P : List Int → Prop) [DecidablePred P],
        massWhere r P = massWhere pmf (fun l => P (coordinates pmf.variableIDs (fun i => i ∉ is) l)) := by
  induction is generalizing pmf with
  | nil =>
    refine ⟨pmf, rfl, h, by simp, ?_⟩
    intro P _
    apply massWhere_congr
    intro p hp
    rw [coordinates_all _ _ (h.shape p hp).2 _ (by simp)]
  | cons i is ih =>
    have hi := hsub i (by simp)
    obtain ⟨hni, hn'⟩ := List.nodup_cons.1 hn
    have h2 : 2 ≤ pmf.variableIDs.length := by
      rcases hlen with h | h
      · simp at h
      · simp at h; omega
    have hj := h.isJoint h2
    obtain ⟨r1, e1, i1, nd1, k1, m1⟩ := sumOver_full pmf hj i hi
    have hidx := List.idxOf_lt_length_of_mem hi
    have hl1 : r1.variableIDs.length = pmf.variableIDs.length - 1 := by
      rw [i1, List.length_eraseIdx, if_pos hidx]
    have hc1 : Canonical r1 := by
      refine ⟨by rw [i1]; exact h.ids.sublist (List.eraseIdx_sublist _ _), nd1, ?_⟩
      intro p hp
      obtain ⟨q, hq, e⟩ := (k1 p.1).1 (List.mem_map.2 ⟨p, hp, rfl⟩)
      rw [e, mkKey_comps]
      refine ⟨rfl, ?_⟩
      rw [hl1, List.length_eraseIdx, (h.shape q hq).2, if_pos hidx]
    have herase : r1.variableIDs = pmf.variableIDs.erase i := by
      rw [i1, List.erase_eq_eraseIdx_of_idxOf rfl]
    obtain ⟨r, er, cr, ir, mr⟩ := ih r1 hc1 hn' (by
        intro j hj'
        rw [herase]
        refine (List.mem_erase_of_ne ?_).2 (hsub j (by simp [hj']))
        rintro rfl; exact hni hj') (by
        rcases hlen with h | h
        · simp at h
        · right; simp at h; omega)
    refine ⟨r, ?_, cr, ?_, ?_⟩
    · simp only [sumOverAll, e1]
      exact er
    · rw [ir, herase, h.ids.erase_eq_filter, List.filter_filter]
      apply List.filter_congr
      intro j _
      by_cases hji : j = i <;> by_cases hjis : j ∈ is <;> simp [hji, hjis]
    · intro P _
      rw [mr P, m1]
      apply massWhere_congr
      intro p hp
      rw [i1, coordinates_eraseIdx _ _ h.ids (h.shape p hp).2 i hi]
      rw [coordinates_congr _ _ (fun j => j ≠ i ∧ j ∉ is) (fun j => j ∉ i :: is) (by simp)]

end Mbtk.BN
