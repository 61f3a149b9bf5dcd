import Verif.ADTree.Session
import Mathlib.Algebra.BigOperators.Intervals
import Mathlib.Data.Nat.Choose.Sum
import Mathlib.Data.Nat.Log
import Mathlib.Data.Nat.Size
import Mathlib.Algebra.Module.NatInt
/-!
# How large an AD-tree gets (C98)

The nodes of an AD-tree are counted by `ad_node_count` and `vary_node_count`.  Because the
most common value of every column gets no node, every AD node stands for at most half of
the rows of its parent; so the depth of the tree is at most the binary logarithm of the
number of rows, and the number of nodes is bounded by a sum of binomial coefficients that
does not grow with the number of values occurring in the data.
-/
namespace Mbtk.ADTree
open Spec

namespace Size

/-- Largest possible weighted number of nodes below and including an AD node, if there are
`m` columns left, at most `t` kept values per column and at most `K` further levels.
(Models no code: a notion for statements and proofs.) -/
def maxSize (w : Nat × Nat) (t : Nat) : Nat → Nat → Nat
  | 0, m => w.1 + w.2 * m
  | K + 1, m => w.1 + ∑ j ∈ Finset.range m, (w.2 + t * maxSize w t K j)

theorem maxSize_mono_cols (w : Nat × Nat) (t K : Nat) {m m' : Nat} (h : m ≤ m') :
    maxSize w t K m ≤ maxSize w t K m' := by
  cases K with
  | zero => simp only [maxSize]; have := Nat.mul_le_mul_left w.2 h; omega
  | succ K =>
    simp only [maxSize]
    have : ∑ j ∈ Finset.range m, (w.2 + t * maxSize w t K j) ≤
        ∑ j ∈ Finset.range m', (w.2 + t * maxSize w t K j) :=
      Finset.sum_le_sum_of_subset (Finset.range_mono h)
    omega

/-- Hockey stick. -/
theorem sum_choose (m k : Nat) : ∑ j ∈ Finset.range m, j.choose k = m.choose (k + 1) := by
  induction m with
  | zero => simp
  | succ m ih => rw [Finset.sum_range_succ, ih, Nat.choose_succ_succ']; omega

theorem maxSize_ad (t K m : Nat) :
    maxSize (1, 0) t K m = ∑ k ∈ Finset.range (K + 1), m.choose k * t ^ k := by
  induction K generalizing m with
  | zero => simp [maxSize]
  | succ K ih =>
    rw [Finset.sum_range_succ']
    simp only [maxSize, ih, Nat.choose_zero_right, pow_zero, mul_one, zero_add]
    rw [add_comm]
    congr 1
    simp_rw [Finset.mul_sum]
    rw [Finset.sum_comm]
    refine Finset.sum_congr rfl fun k _ => ?_
    rw [← sum_choose, Finset.sum_mul]
    refine Finset.sum_congr rfl fun j _ => ?_
    ring

theorem maxSize_vary (t K m : Nat) :
    maxSize (0, 1) t K m = ∑ k ∈ Finset.range (K + 1), m.choose (k + 1) * t ^ k := by
  induction K generalizing m with
  | zero => simp [maxSize]
  | succ K ih =>
    rw [Finset.sum_range_succ']
    simp only [maxSize, ih, zero_add, Nat.choose_one_right, pow_zero, mul_one,
      Finset.sum_add_distrib, Finset.sum_const, Finset.card_range, smul_eq_mul]
    rw [add_comm]
    congr 1
    simp_rw [Finset.mul_sum]
    rw [Finset.sum_comm]
    refine Finset.sum_congr rfl fun k _ => ?_
    rw [← sum_choose, Finset.sum_mul]
    refine Finset.sum_congr rfl fun j _ => ?_
    ring

/-- Two values select disjoint sets of rows. -/
theorem sel_disjoint (D : Data) (c : Nat) {u v : Int} (h : u ≠ v) (rows : List Nat) :
    (sel D c u rows).length + (sel D c v rows).length ≤ rows.length := by
  induction rows with
  | nil => simp [sel]
  | cons r rows ih =>
    simp only [sel, List.filter_cons] at ih ⊢
    by_cases h1 : D.cell r c = u
    · have h2 : ¬ D.cell r c = v := fun e => h (h1.symm.trans e)
      rw [if_pos (by simpa using h1), if_neg (by simpa using h2)]
      simp only [List.length_cons]; omega
    · rw [if_neg (by simpa using h1)]
      split <;> simp only [List.length_cons] <;> omega

/-- Number of AD children of a Vary node: at most one per value other than the most common
one. -/
theorem sizeADs_le {D : Data} {dyn : Bool} {rows : List Nat} {c : Nat} {mcv : Int}
    (w : Nat × Nat) (B : Nat) :
    ∀ {vals : List Int} {ads : List (Option ADNode)},
    List.Forall₂ (ChildOk D dyn rows c mcv) vals ads →
    (∀ n, some n ∈ ads → sizeAD w n ≤ B) →
    sizeADs w ads ≤ (vals.filter (fun v => decide (v ≠ mcv))).length * B := by
  intro vals ads h
  induction h with
  | nil => intro _; simp [sizeADs]
  | @cons v o vals ads hv _ ih =>
    intro hB
    have ih := ih (fun n hn => hB n (by simp [hn]))
    rw [List.filter_cons]
    cases o with
    | none =>
      simp only [sizeADs]
      split
      · rw [List.length_cons, Nat.succ_mul]; omega
      · exact ih
    | some n =>
      have hne : v ≠ mcv := by
        by_contra e
        have := hv.1.2 (fun hh => hh.2 e)
        simp at this
      rw [if_pos (by simpa using hne), List.length_cons, Nat.succ_mul]
      simp only [sizeADs]
      have := hB n (by simp)
      omega

theorem length_filter_ne {vals : List Int} {m : Int} (hm : m ∈ vals) :
    (vals.filter (fun v => decide (v ≠ m))).length + 1 ≤ vals.length := by
  induction vals with
  | nil => simp at hm
  | cons x xs ih =>
    rw [List.filter_cons]
    by_cases e : x = m
    · rw [if_neg (by simp [e])]
      have := List.length_filter_le (fun v => decide (v ≠ m)) xs
      simp only [List.length_cons]; omega
    · rw [if_pos (by simpa using e)]
      have := ih (by rcases List.mem_cons.1 hm with h | h; exact absurd h.symm e; exact h)
      simp only [List.length_cons]; omega

/-- Sum over distinct columns above `lo`. -/
theorem sizeVarys_le (w : Nat × Nat) (f : Nat → Nat) :
    ∀ (vs : List VaryNode), (∀ v ∈ vs, sizeVary w v ≤ f v.col) →
    sizeVarys w vs ≤ ((vs.map VaryNode.col).map f).sum := by
  intro vs
  induction vs with
  | nil => intro _; simp [sizeVarys]
  | cons v vs ih =>
    intro h
    have := ih (fun u hu => h u (by simp [hu]))
    have h1 := h v (by simp)
    simp only [sizeVarys, List.map_cons, List.sum_cons]
    omega

theorem sum_cols_le (cols : List Nat) (hnd : cols.Nodup) (M lo : Nat)
    (hb : ∀ c ∈ cols, lo ≤ c ∧ c < M) (g : Nat → Nat) :
    (cols.map (fun c => g (M - (c + 1)))).sum ≤ ∑ j ∈ Finset.range (M - lo), g j := by
  have h1 : (cols.map (fun c => g (M - (c + 1)))).sum =
      ((cols.map (fun c => M - (c + 1))).map g).sum := by
    rw [List.map_map]; rfl
  have hnd' : (cols.map (fun c => M - (c + 1))).Nodup := by
    refine List.Nodup.map_on ?_ hnd
    intro a ha b hb' e
    have := hb a ha; have := hb b hb'; omega
  rw [h1, ← List.sum_toFinset g hnd']
  refine Finset.sum_le_sum_of_subset ?_
  intro j hj
  obtain ⟨c, hc, rfl⟩ := List.mem_map.1 (List.mem_toFinset.1 hj)
  have := hb c hc
  rw [Finset.mem_range]; omega

/-- The size of any represented node. -/
theorem size_le {D : Data} {dyn : Bool} (w : Nat × Nat) {t : Nat}
    (ht : ∀ c < D.ncols, (D.values c).length ≤ t + 1) (K : Nat) :
    ∀ {rows : List Nat} {n : ADNode}, RepAD D dyn rows n →
    rows.length < max 2 D.threshold * 2 ^ K →
    sizeAD w n ≤ maxSize w t K (D.ncols - (n.col + 1).toNat) := by
  induction K with
  | zero =>
    intro rows n h hlen
    have hinv := h.inv
    have hsz : sizeAD w n = w.1 + sizeVarys w n.varys := by cases n; rfl
    rw [hsz]
    simp only [maxSize]
    rw [pow_zero, mul_one] at hlen
    have hv : sizeVarys w n.varys ≤ ((n.varys.map VaryNode.col).map (fun _ => w.2)).sum := by
      refine sizeVarys_le w (fun _ => w.2) _ ?_
      intro v hv
      have hr := hinv.2.2.2.2.2.2.1 v hv
      obtain ⟨h1, h2, h3, h4, h5⟩ := hr.forall₂
      have hone : rows.length < 2 := by
        rcases lt_max_iff.1 hlen with hl | hl
        · exact hl
        · have : n.leaf = true := by rw [hinv.2.2.1]; simpa using hl
          rw [hinv.2.2.2.2.2.2.2.2.2 this] at hv
          simp at hv
      have h6 := sizeADs_le w 0 h5 (by
        intro m hm
        exfalso
        obtain ⟨i, hi, e⟩ := List.mem_iff_getElem.1 hm
        have hl := h5.length_eq
        have hc := (List.forall₂_iff_get.1 h5).2 i (by omega) hi
        simp only [List.get_eq_getElem, e] at hc
        have hpos : 0 < (sel D v.col ((D.values v.col)[i]'(by omega)) rows).length ∧
            (D.values v.col)[i]'(by omega) ≠ v.mcv := by
          by_contra hno
          have := hc.1.2 hno
          simp at this
        have hle := h4 _ (List.getElem_mem (l := D.values v.col) (n := i) (by omega))
        have hdis := sel_disjoint D v.col hpos.2 rows
        omega)
      have : sizeVary w v = w.2 + sizeADs w v.ads := by cases v; rfl
      rw [this]; omega
    have hsum := sum_cols_le (n.varys.map VaryNode.col) hinv.2.2.2.2.2.2.2.1.1 D.ncols
      (n.col + 1).toNat (by
        intro c hc
        have h1 := hinv.2.2.2.2.2.2.2.1.2 c hc
        obtain ⟨v, hv, rfl⟩ := List.mem_map.1 hc
        have h2 := (hinv.2.2.2.2.2.2.1 v hv).forall₂.1
        omega) (fun _ => w.2)
    simp only [Finset.sum_const, Finset.card_range, smul_eq_mul] at hsum
    have := Nat.mul_comm w.2 (D.ncols - (n.col + 1).toNat)
    omega
  | succ K ih =>
    intro rows n h hlen
    have hinv := h.inv
    have hsz : sizeAD w n = w.1 + sizeVarys w n.varys := by cases n; rfl
    rw [hsz]
    simp only [maxSize]
    have hv : sizeVarys w n.varys ≤ ((n.varys.map VaryNode.col).map
        (fun c => w.2 + t * maxSize w t K (D.ncols - (c + 1)))).sum := by
      refine sizeVarys_le w _ _ ?_
      intro v hv
      have hr := hinv.2.2.2.2.2.2.1 v hv
      obtain ⟨h1, h2, h3, h4, h5⟩ := hr.forall₂
      have h6 := sizeADs_le w (maxSize w t K (D.ncols - (v.col + 1))) h5 (by
        intro m hm
        obtain ⟨i, hi, e⟩ := List.mem_iff_getElem.1 hm
        have hl := h5.length_eq
        have hc := (List.forall₂_iff_get.1 h5).2 i (by omega) hi
        simp only [List.get_eq_getElem, e] at hc
        have hpos : 0 < (sel D v.col ((D.values v.col)[i]'(by omega)) rows).length ∧
            (D.values v.col)[i]'(by omega) ≠ v.mcv := by
          by_contra hno
          have := hc.1.2 hno
          simp at this
        have hle := h4 _ (List.getElem_mem (l := D.values v.col) (n := i) (by omega))
        have hdis := sel_disjoint D v.col hpos.2 rows
        obtain ⟨_, hcol, hrep⟩ := hc.2 m rfl
        have := ih hrep (by rw [pow_succ, ← mul_assoc] at hlen; omega)
        rw [hcol] at this
        have e2 : ((v.col : Int) + 1).toNat = v.col + 1 := by omega
        rw [e2] at this
        exact this)
      have h7 := length_filter_ne h3
      have h8 := ht v.col h1
      have h9 : (List.filter (fun u => decide (u ≠ v.mcv)) (D.values v.col)).length *
          maxSize w t K (D.ncols - (v.col + 1)) ≤
          t * maxSize w t K (D.ncols - (v.col + 1)) := Nat.mul_le_mul_right _ (by omega)
      have : sizeVary w v = w.2 + sizeADs w v.ads := by cases v; rfl
      rw [this]; omega
    have hsum := sum_cols_le (n.varys.map VaryNode.col) hinv.2.2.2.2.2.2.2.1.1 D.ncols
      (n.col + 1).toNat (by
        intro c hc
        have h1 := hinv.2.2.2.2.2.2.2.1.2 c hc
        obtain ⟨v, hv, rfl⟩ := List.mem_map.1 hc
        have h2 := (hinv.2.2.2.2.2.2.1 v hv).forall₂.1
        omega) (fun j => w.2 + t * maxSize w t K j)
    omega

/-! ## A dynamic tree against the static tree of the same data -/

theorem sizeVarys_eq_sum (w : Nat × Nat) (vs : List VaryNode) :
    sizeVarys w vs = (vs.map (sizeVary w)).sum := by
  induction vs with
  | nil => rfl
  | cons v vs ih => simp [sizeVarys, ih]

/-- The size of the Vary node for column `c`.
(Models no code: a notion for statements and proofs.) -/
def sizeAt (w : Nat × Nat) (vs : List VaryNode) (c : Nat) : Nat :=
  ((vs.find? (fun v => decide (v.col = c))).map (sizeVary w)).getD 0

theorem sizeAt_mem (w : Nat × Nat) {vs : List VaryNode} (hnd : (vs.map VaryNode.col).Nodup)
    {v : VaryNode} (hv : v ∈ vs) : sizeAt w vs v.col = sizeVary w v := by
  induction vs with
  | nil => simp at hv
  | cons u vs ih =>
    have hn := List.nodup_cons.1 (by simpa using hnd : (u.col :: vs.map VaryNode.col).Nodup)
    rcases List.mem_cons.1 hv with rfl | hv
    · simp [sizeAt]
    · have hne : ¬ u.col = v.col := fun e => hn.1 (e ▸ List.mem_map_of_mem hv)
      have := ih hn.2 hv
      simp only [sizeAt, List.find?_cons] at this ⊢
      simp only [hne, decide_false]
      exact this

theorem sizeVarys_eq_cols (w : Nat × Nat) {vs : List VaryNode}
    (hnd : (vs.map VaryNode.col).Nodup) :
    sizeVarys w vs = ∑ c ∈ (vs.map VaryNode.col).toFinset, sizeAt w vs c := by
  rw [List.sum_toFinset _ hnd, sizeVarys_eq_sum, List.map_map]
  congr 1
  refine List.map_congr_left fun v hv => ?_
  exact (sizeAt_mem w hnd hv).symm

theorem sizeADs_le_sizeADs {D : Data} {rows : List Nat} {c : Nat} {mcv : Int} (w : Nat × Nat)
    (hrec : ∀ (v : Int) (m m' : ADNode), RepAD D true (sel D c v rows) m →
      RepAD D false (sel D c v rows) m' → m.col = c → m'.col = c → sizeAD w m ≤ sizeAD w m') :
    ∀ {vals : List Int} {ads ads' : List (Option ADNode)},
    List.Forall₂ (ChildOk D true rows c mcv) vals ads →
    List.Forall₂ (ChildOk D false rows c mcv) vals ads' → sizeADs w ads ≤ sizeADs w ads' := by
  intro vals ads ads' h
  induction h generalizing ads' with
  | nil => intro h'; cases h'; simp [sizeADs]
  | @cons v o vals ads hv _ ih =>
    intro h'
    cases h' with
    | @cons _ o' _ ads' hv' ht' =>
      have := ih ht'
      cases o with
      | none =>
        cases o' with
        | none => simpa [sizeADs] using this
        | some m => simp only [sizeADs]; omega
      | some m =>
        cases o' with
        | none =>
          have h1 := hv'.1.1 rfl
          have h2 := hv.1.2 h1
          simp at h2
        | some m' =>
          obtain ⟨_, a2, a3⟩ := hv.2 m rfl
          obtain ⟨_, b2, b3⟩ := hv'.2 m' rfl
          have := hrec v m m' a3 b3 a2 b2
          simp only [sizeADs]; omega

theorem dynamic_le_static {D : Data} (w : Nat × Nat) (k : Nat) :
    ∀ {rows : List Nat} {n n' : ADNode}, RepAD D true rows n → RepAD D false rows n' →
    n.col = n'.col → D.ncols - (n.col + 1).toNat ≤ k → sizeAD w n ≤ sizeAD w n' := by
  induction k with
  | zero =>
    intro rows n n' h h' hcol hk
    have hinv := h.inv
    have : n.varys = [] := by
      rcases hvs : n.varys with _ | ⟨v, vs⟩
      · rfl
      · have h1 := hinv.2.2.2.2.2.2.2.1.2 v.col (by rw [hvs]; simp)
        have h2 := (hinv.2.2.2.2.2.2.1 v (by rw [hvs]; simp)).forall₂.1
        omega
    have e1 : sizeAD w n = w.1 + sizeVarys w n.varys := by cases n; rfl
    have e2 : sizeAD w n' = w.1 + sizeVarys w n'.varys := by cases n'; rfl
    rw [e1, e2, this]
    simp only [sizeVarys]; omega
  | succ k ih =>
    intro rows n n' h h' hcol hk
    have hinv := h.inv
    have hinv' := h'.inv
    have e1 : sizeAD w n = w.1 + sizeVarys w n.varys := by cases n; rfl
    have e2 : sizeAD w n' = w.1 + sizeVarys w n'.varys := by cases n'; rfl
    rw [e1, e2, sizeVarys_eq_cols w hinv.2.2.2.2.2.2.2.1.1,
      sizeVarys_eq_cols w hinv'.2.2.2.2.2.2.2.1.1]
    refine Nat.add_le_add_left ?_ _
    have hfind : ∀ v ∈ n.varys, ∃ v' ∈ n'.varys, v'.col = v.col := by
      intro v hv
      have hleaf : n'.leaf = false := by
        rw [hinv'.2.2.1, ← hinv.2.2.1]
        rcases hl : n.leaf with _ | _
        · rfl
        · rw [hinv.2.2.2.2.2.2.2.2.2 hl] at hv; simp at hv
      have h1 := hinv.2.2.2.2.2.2.2.1.2 v.col (List.mem_map_of_mem hv)
      have h2 := (hinv.2.2.2.2.2.2.1 v hv).forall₂.1
      have h3 := hinv'.2.2.2.2.2.2.2.2.1 rfl hleaf v.col (by rw [← hcol]; exact h1) h2
      obtain ⟨v', hv', e⟩ := List.mem_map.1 h3
      exact ⟨v', hv', e⟩
    refine le_trans (Finset.sum_le_sum (g := sizeAt w n'.varys) ?_)
      (Finset.sum_le_sum_of_subset ?_)
    · intro c hc
      obtain ⟨v, hv, rfl⟩ := List.mem_map.1 (List.mem_toFinset.1 hc)
      obtain ⟨v', hv', e⟩ := hfind v hv
      rw [sizeAt_mem w hinv.2.2.2.2.2.2.2.1.1 hv, ← e,
        sizeAt_mem w hinv'.2.2.2.2.2.2.2.1.1 hv']
      have hr := hinv.2.2.2.2.2.2.1 v hv
      have hr' := hinv'.2.2.2.2.2.2.1 v' hv'
      have hm : v.mcv = v'.mcv := by
        have a := hr.mcv_eq
        have b := hr'.mcv_eq
        rw [e, a] at b
        exact Except.ok.inj b
      have f1 := hr.forall₂
      have f2 := hr'.forall₂
      rw [e, ← hm] at f2
      have hlow := hinv.2.2.2.2.2.2.2.1.2 v.col (List.mem_map_of_mem hv)
      have := sizeADs_le_sizeADs w (D := D) (rows := rows) (c := v.col) (mcv := v.mcv) (by
        intro u m m' hm1 hm2 c1 c2
        exact ih hm1 hm2 (by rw [c1, c2]) (by rw [c1]; have := f1.1; omega)) f1.2.2.2.2 f2.2.2.2.2
      have g1 : sizeVary w v = w.2 + sizeADs w v.ads := by cases v; rfl
      have g2 : sizeVary w v' = w.2 + sizeADs w v'.ads := by cases v'; rfl
      omega
    · intro c hc
      obtain ⟨v, hv, rfl⟩ := List.mem_map.1 (List.mem_toFinset.1 hc)
      obtain ⟨v', hv', e⟩ := hfind v hv
      exact List.mem_toFinset.2 (e ▸ List.mem_map_of_mem hv')

end Size

/-! ## Depth -/

/-- `k` is an AD node `d` levels below `n` (a level is an AD node and its Vary node).
(Specification.) -/
inductive Spec.AtDepth : ADNode → Nat → ADNode → Prop
  | here (n : ADNode) : AtDepth n 0 n
  | next (n m k : ADNode) (v : VaryNode) (d : Nat) : v ∈ n.varys → some m ∈ v.ads →
      AtDepth m d k → AtDepth n (d + 1) k

namespace Size

theorem child_half {D : Data} {dyn : Bool} {rows : List Nat} {n m : ADNode} {v : VaryNode}
    (h : RepAD D dyn rows n) (hv : v ∈ n.varys) (hm : some m ∈ v.ads) :
    ∃ rows', RepAD D dyn rows' m ∧ 0 < rows'.length ∧ rows'.length * 2 ≤ rows.length ∧
      D.threshold ≤ rows.length := by
  have hinv := h.inv
  obtain ⟨h1, h2, h3, h4, h5⟩ := (hinv.2.2.2.2.2.2.1 v hv).forall₂
  obtain ⟨i, hi, e⟩ := List.mem_iff_getElem.1 hm
  have hl := h5.length_eq
  have hc := (List.forall₂_iff_get.1 h5).2 i (by omega) hi
  simp only [List.get_eq_getElem, e] at hc
  have hpos : 0 < (sel D v.col ((D.values v.col)[i]'(by omega)) rows).length ∧
      (D.values v.col)[i]'(by omega) ≠ v.mcv := by
    by_contra hno
    have := hc.1.2 hno
    simp at this
  have hle := h4 _ (List.getElem_mem (l := D.values v.col) (n := i) (by omega))
  have hdis := sel_disjoint D v.col hpos.2 rows
  refine ⟨_, (hc.2 m rfl).2.2, hpos.1, by omega, ?_⟩
  by_contra hlt
  have : n.leaf = true := by rw [hinv.2.2.1]; simpa using hlt
  rw [hinv.2.2.2.2.2.2.2.2.2 this] at hv
  simp at hv

theorem depth_rows {D : Data} {dyn : Bool} {n k : ADNode} {d : Nat} (hd : Spec.AtDepth n d k) :
    ∀ {rows : List Nat}, RepAD D dyn rows n → ∃ rows', RepAD D dyn rows' k ∧
      rows'.length * 2 ^ d ≤ rows.length ∧
      (0 < d → 0 < rows'.length ∧ D.threshold * 2 ^ (d - 1) ≤ rows.length) := by
  induction hd with
  | here n => intro rows h; exact ⟨rows, h, by simp, by simp⟩
  | next n m k v d hv hm _ ih =>
    intro rows h
    obtain ⟨rm, r1, r2, r3, r4⟩ := child_half h hv hm
    obtain ⟨rk, k1, k2, k3⟩ := ih r1
    refine ⟨rk, k1, ?_, fun _ => ⟨?_, ?_⟩⟩
    · rw [pow_succ, ← mul_assoc]; omega
    · rcases Nat.eq_zero_or_pos d with rfl | hp
      · cases ‹Spec.AtDepth m 0 k›
        have a := k1.inv.2.1
        have b := r1.inv.2.1
        omega
      · exact (k3 hp).1
    · rcases Nat.eq_zero_or_pos d with rfl | hp
      · simpa using r4
      · have := (k3 hp).2
        have e : d + 1 - 1 = (d - 1) + 1 := by omega
        rw [e, pow_succ, ← mul_assoc]; omega

end Size

/-! ## The theorems -/

/-- **C98.** How many nodes a tree can have.  If every column has at most `t + 1` values,
and the number of rows is below `max 2 threshold * 2 ^ K`, then at any time — right after
construction, and for a dynamic tree after any series of valid requests — the tree has at
most `∑_{k ≤ K} C(columns, k) * t ^ k` AD nodes and `∑_{k ≤ K} C(columns, k + 1) * t ^ k`
Vary nodes.  Only `K` depends on the number of rows. -/
theorem adtree_size (D : Data) (hD : Usable D) (dyn : Bool) (requests : List Request)
    (hv : ∀ r ∈ requests, r.Valid D) (t K : Nat)
    (ht : ∀ c < D.ncols, (D.values c).length ≤ t + 1)
    (hK : D.nrows < max 2 D.threshold * 2 ^ K) :
    Ok (session D dyn requests) ⟨0, 0⟩ (fun _ counters =>
      counters.ad ≤ ∑ k ∈ Finset.range (K + 1), D.ncols.choose k * t ^ k ∧
      counters.vary ≤ ∑ k ∈ Finset.range (K + 1), D.ncols.choose (k + 1) * t ^ k) := by
  refine Ok.bind ((create_treeOk hD dyn).mono ?_)
  intro root s h
  refine (serveAll_ok hD dyn requests h hv).mono ?_
  rintro ⟨as, root'⟩ s' ⟨_, h1⟩
  have hb : ∀ w, s'.val w ≤ Size.maxSize w t K D.ncols := by
    intro w
    rw [h1.2.2.2 w]
    have := Size.size_le w ht K h1.1 (by simpa using hK)
    rw [h1.2.1] at this
    simpa using this
  refine ⟨?_, ?_⟩
  · rw [← Size.maxSize_ad]; simpa [Counters.val] using hb (1, 0)
  · rw [← Size.maxSize_vary]; simpa [Counters.val] using hb (0, 1)

/-- **C98.** With the exponent computed from the number of rows: the bound of the authors
of the AD-tree, `∑_{k ≤ log₂ rows} C(columns, k)` for binary data. -/
theorem adtree_size_log (D : Data) (hD : Usable D) (dyn : Bool) (requests : List Request)
    (hv : ∀ r ∈ requests, r.Valid D) (t : Nat)
    (ht : ∀ c < D.ncols, (D.values c).length ≤ t + 1) :
    Ok (session D dyn requests) ⟨0, 0⟩ (fun _ counters =>
      counters.ad ≤ ∑ k ∈ Finset.range (Nat.log 2 D.nrows + 1), D.ncols.choose k * t ^ k ∧
      counters.vary ≤
        ∑ k ∈ Finset.range (Nat.log 2 D.nrows + 1), D.ncols.choose (k + 1) * t ^ k) := by
  refine adtree_size D hD dyn requests hv t _ ht ?_
  have h1 := Nat.lt_pow_succ_log_self (b := 2) (by norm_num) D.nrows
  rw [pow_succ, mul_comm] at h1
  exact lt_of_lt_of_le h1 (Nat.mul_le_mul_right _ (le_max_left _ _))

/-- **C98.** With leaf lists of fewer than `threshold` rows, the exponent is the binary
size of `rows / threshold`. -/
theorem adtree_size_leaf_lists (D : Data) (hD : Usable D) (dyn : Bool)
    (requests : List Request) (hv : ∀ r ∈ requests, r.Valid D) (t : Nat)
    (ht : ∀ c < D.ncols, (D.values c).length ≤ t + 1) (hT : 2 ≤ D.threshold) :
    Ok (session D dyn requests) ⟨0, 0⟩ (fun _ counters =>
      counters.ad ≤ ∑ k ∈ Finset.range (Nat.log 2 (D.nrows / D.threshold) + 2),
        D.ncols.choose k * t ^ k ∧
      counters.vary ≤ ∑ k ∈ Finset.range (Nat.log 2 (D.nrows / D.threshold) + 2),
        D.ncols.choose (k + 1) * t ^ k) := by
  refine adtree_size D hD dyn requests hv t (Nat.log 2 (D.nrows / D.threshold) + 1) ht ?_
  rw [max_eq_right hT]
  have h1 := Nat.lt_pow_succ_log_self (b := 2) (by norm_num) (D.nrows / D.threshold)
  have h2 := Nat.lt_mul_div_succ D.nrows (by omega : 0 < D.threshold)
  exact lt_of_lt_of_le h2 (Nat.mul_le_mul_left _ h1)

/-- **C98.** How deep a tree is, at any time: an AD node `d` levels below the root stands
for at least one row and at most `rows / 2 ^ d` of them, so `d` is at most the binary
logarithm of the number of rows; and below a node with fewer than `threshold` rows there
is nothing. -/
theorem adtree_depth (D : Data) (hD : Usable D) (dyn : Bool) (requests : List Request)
    (hv : ∀ r ∈ requests, r.Valid D) :
    Ok (session D dyn requests) ⟨0, 0⟩ (fun result _ =>
      ∀ d k, AtDepth result.2 d k →
        1 ≤ k.count ∧ k.count * 2 ^ d ≤ D.nrows ∧ d ≤ Nat.log 2 D.nrows ∧
        (0 < d → D.threshold * 2 ^ (d - 1) ≤ D.nrows)) := by
  refine Ok.bind ((create_treeOk hD dyn).mono ?_)
  intro root s h
  refine (serveAll_ok hD dyn requests h hv).mono ?_
  rintro ⟨as, root'⟩ s' ⟨_, h1⟩ d k hd
  obtain ⟨rows, r1, r2, r3⟩ := Size.depth_rows hd h1.1
  rw [List.length_range] at r2 r3
  have hpos : 0 < rows.length := by
    rcases Nat.eq_zero_or_pos d with rfl | hp
    · cases hd
      have a := r1.inv.2.1
      have b := h1.1.inv.2.1
      have := hD.rows_pos
      simp only [List.length_range] at a b
      omega
    · exact (r3 hp).1
  have hc := r1.inv.2.1
  refine ⟨by omega, by rw [hc]; exact_mod_cast r2, ?_, fun hp => (r3 hp).2⟩
  refine Nat.le_log_of_pow_le (by norm_num) ?_
  exact le_trans (Nat.le_mul_of_pos_left _ hpos) r2

/-- **C98.** A dynamic tree, after any series of valid requests, has no more AD nodes and
no more Vary nodes than the static tree of the same data and threshold. -/
theorem dynamic_never_larger (D : Data) (hD : Usable D) (requests : List Request)
    (hv : ∀ r ∈ requests, r.Valid D) :
    ∃ root static, newTree D false = .ok (root, static) ∧
      Ok (session D true requests) ⟨0, 0⟩ (fun _ counters =>
        counters.ad ≤ static.ad ∧ counters.vary ≤ static.vary) := by
  obtain ⟨root, static, e, h⟩ := create_treeOk hD false
  refine ⟨root, static, e, ?_⟩
  refine Ok.bind ((create_treeOk hD true).mono ?_)
  intro root1 s1 h1
  refine (serveAll_ok hD true requests h1 hv).mono ?_
  rintro ⟨as, root2⟩ s2 ⟨_, h2⟩
  have key : ∀ w, s2.val w ≤ static.val w := by
    intro w
    rw [h2.2.2.2 w, h.2.2.2 w]
    exact Size.dynamic_le_static w D.ncols h2.1 h.1 (by rw [h2.2.1, h.2.1]) (by omega)
  exact ⟨by simpa [Counters.val] using key (1, 0), by simpa [Counters.val] using key (0, 1)⟩

/-- The four rows of an exclusive or. (Example.) -/
def exXor : Data where
  nrows := 4
  ncols := 3
  cell r c := ([[0, 0, 0], [0, 1, 1], [1, 0, 1], [1, 1, 0]][r]?.bind (·[c]?)).getD 0
  values _ := [0, 1]
  threshold := 0

theorem exXor_usable : Usable exXor := by
  refine ⟨by decide, ?_, ?_, by decide⟩
  · show ∀ c < 3, _; decide
  · show ∀ c < 3, ∀ r < 4, _; decide

/-- The hypotheses hold with `t = 1`, `K = 2`. -/
example : Usable exXor ∧ (∀ c < exXor.ncols, (exXor.values c).length ≤ 1 + 1) ∧
    exXor.nrows < max 2 exXor.threshold * 2 ^ 1 * 2 :=
  ⟨exXor_usable, by show ∀ c < 3, _; decide, by decide⟩

/-- The bounds are attained: no smaller bound holds for all data. -/
theorem adtree_size_attained : ∃ root s, newTree exXor false = .ok (root, s) ∧
    s.ad = ∑ k ∈ Finset.range (Nat.log 2 exXor.nrows + 1), exXor.ncols.choose k * 1 ^ k ∧
    s.vary = ∑ k ∈ Finset.range (Nat.log 2 exXor.nrows + 1), exXor.ncols.choose (k + 1) * 1 ^ k :=
  ⟨_, _, rfl, by decide, by decide⟩

/-- A dynamic tree of the same data that served a request has fewer nodes. -/
example : ∃ r s, (do let root ← create exXor true
                     queryNode exXor true [(0, 1), (2, 1)] root) ⟨0, 0⟩ = .ok (r, s) ∧
    s.ad = 3 ∧ s.vary = 2 := by
  refine ⟨_, _, rfl, ?_, ?_⟩ <;> decide +kernel

/-- There is a node two levels down in the tree, with one row. -/
example : ∃ root s, newTree exXor false = .ok (root, s) ∧ ∃ k, AtDepth root 2 k ∧ k.count = 1 := by
  refine ⟨_, _, rfl, _, .next _ _ _ _ _ (List.mem_cons_self ..) (List.mem_cons_of_mem _
    (List.mem_cons_self ..)) (.next _ _ _ _ _ (List.mem_cons_self ..) (List.mem_cons_of_mem _
    (List.mem_cons_self ..)) (.here _)), rfl⟩

end Mbtk.ADTree
