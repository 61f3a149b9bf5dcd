import Verif.ADTree.Pickle
import Verif.ADTree.Spec
import Mathlib.Data.List.Sort
import Mathlib.Algebra.Order.Field.Basic
import Mathlib.Algebra.Order.Ring.Rat
/-!
# Lemmas connecting the AD-tree model to its specification
-/
namespace Mbtk.ADTree
open Spec

theorem Spec.Usable.wf {D : Data} (h : Usable D) : D.WF := ⟨h.rows_pos, h.nodup, h.cover⟩

theorem cnt_eq_matching (D : Data) (q : List (Nat × Int)) :
    cnt D (List.range D.nrows) q = matching D q := by
  unfold cnt matching rowsWith
  rw [List.countP_eq_length_filter]
  congr 2
  funext r
  rw [Bool.eq_iff_iff]
  simp [List.all_eq_true]

theorem cntKey_eq_rowsWith (D : Data) (cols : List Nat) (key : List Int) :
    cntKey D (List.range D.nrows) cols key =
      rowsWith D (fun r => cols.map (D.cell r) = key) := by
  unfold cntKey rowsWith
  rw [List.countP_eq_length_filter]

theorem matching_perm (D : Data) {q q' : List (Nat × Int)} (h : q.Perm q') :
    matching D q = matching D q' := by
  unfold matching rowsWith
  congr 2
  funext r
  rw [decide_eq_decide]
  exact ⟨fun H p hp => H p (h.mem_iff.2 hp), fun H p hp => H p (h.mem_iff.1 hp)⟩

theorem sortQuery_perm (q : List (Nat × Int)) : (sortQuery q).Perm q := List.mergeSort_perm _ _

theorem sortQuery_strict {q : List (Nat × Int)} (h : (q.map Prod.fst).Nodup) :
    (sortQuery q).Pairwise (fun a b => a.1 < b.1) := by
  have h1 : (sortQuery q).Pairwise (fun a b => decide (a.1 ≤ b.1) = true) := by
    apply List.pairwise_mergeSort
    · intro a b c; simp only [decide_eq_true_eq]; omega
    · intro a b; simp only [Bool.or_eq_true, decide_eq_true_eq]; omega
  have h2 : ((sortQuery q).map Prod.fst).Nodup := ((sortQuery_perm q).map _).nodup_iff.2 h
  have h3 : (sortQuery q).Pairwise (fun a b => a.1 ≠ b.1) := by
    simpa [List.Nodup, List.pairwise_map] using h2
  refine (h1.and h3).imp ?_
  intro a b h
  simp at h
  omega

theorem mergeSort_strict {cols : List Nat} (h : cols.Nodup) :
    cols.mergeSort.Pairwise (· < ·) := by
  have h1 : cols.mergeSort.Pairwise (fun a b => decide (a ≤ b) = true) := by
    apply List.pairwise_mergeSort
    · intro a b c; simp only [decide_eq_true_eq]; omega
    · intro a b; simp only [Bool.or_eq_true, decide_eq_true_eq]; omega
  have h2 : (cols.mergeSort).Nodup := (List.mergeSort_perm cols _).nodup_iff.2 h
  refine (h1.and h2).imp ?_
  intro a b h
  simp at h
  omega

theorem queryCount_ok {D : Data} {dyn : Bool} (hD : Usable D) {q : List (Nat × Int)}
    (hq : ValidQuery D q) {root : ADNode} (hroot : RepAD D dyn (List.range D.nrows) root)
    (hcol : root.col = -1) (s : Counters) :
    Ok (queryCount D dyn q root) s (fun p s' => p.1 = (matching D q : Int) ∧
      Keeps D dyn (List.range D.nrows) root s p.2 s') := by
  have h := queryNode_ok (dyn := dyn) hD.wf (sortQuery q) (List.range D.nrows) root s hroot
    (fun p hp => hq.2 p ((sortQuery_perm q).mem_iff.1 hp)) (sortQuery_strict hq.1)
    (fun p _ => by rw [hcol]; omega)
  refine h.mono ?_
  rintro ⟨k, n⟩ s' ⟨h1, h2⟩
  refine ⟨?_, h2⟩
  simp only at h1 ⊢
  rw [h1, cnt_eq_matching, matching_perm D (sortQuery_perm q)]

theorem CT.get_some_length (D : Data) (cols : List Nat) : ∀ (t : CT) (key : List Int) (c : Int),
    t.Shape D cols → t.get key = some c → key.length = cols.length := by
  induction cols with
  | nil =>
    intro t key c h hg
    cases key with
    | nil => rfl
    | cons v key =>
      rw [CT.get_cons_of_none] at hg
      · simp at hg
      · rw [h.1]; rfl
  | cons c cols ih =>
    intro t key k h hg
    cases key with
    | nil => simp only [CT.get, h.1] at hg; simp at hg
    | cons v key =>
      cases hf : CT.findChild t.children v with
      | none => rw [CT.get_cons_of_none hf] at hg; simp at hg
      | some x =>
        rw [CT.get_cons_of_find hf] at hg
        have := ih x key k (h.2.2.2 x (CT.findChild_eq_some hf).1).2 hg
        simp [this]

theorem divideAll_ok (total : ℚ) (ht : total ≠ 0) (d : List (List Int × Option Int))
    (h : ∀ p ∈ d, p.2.isSome = true) :
    divideAll total d = .ok (d.map (fun p => (p.1, ((p.2.getD 0 : Int) : ℚ) / total))) := by
  induction d with
  | nil => rfl
  | cons p d ih =>
    obtain ⟨k, o⟩ := p
    have := h (k, o) (by simp)
    obtain ⟨n, rfl⟩ := Option.isSome_iff_exists.1 this
    simp only [divideAll, ht, if_false, ih (fun p hp => h p (by simp [hp]))]
    rfl

theorem dictGet_map {κ ν μ : Type} [DecidableEq κ] (f : ν → μ) (d : List (κ × ν)) (k : κ) :
    dictGet (d.map (fun p => (p.1, f p.2))) k = (dictGet d k).map f := by
  induction d with
  | nil => rfl
  | cons p d ih =>
    obtain ⟨k', v⟩ := p
    simp only [List.map_cons, dictGet]
    split
    · rfl
    · exact ih

/-- Rows are partitioned by their key. -/
theorem sum_cntKey (D : Data) (rows : List Nat) (cols : List Nat) (keys : List (List Int))
    (hn : keys.Nodup) (hall : ∀ r ∈ rows, cols.map (D.cell r) ∈ keys) :
    (keys.map (cntKey D rows cols)).sum = rows.length := by
  induction rows with
  | nil =>
    have : cntKey D [] cols = fun _ => 0 := by funext k; simp [cntKey]
    simp [this]
  | cons r rows ih =>
    have ih := ih (fun x hx => hall x (by simp [hx]))
    have hr := hall r (by simp)
    have gen : ∀ keys : List (List Int), keys.Nodup →
        (keys.map (cntKey D (r :: rows) cols)).sum = (keys.map (cntKey D rows cols)).sum +
          (if cols.map (D.cell r) ∈ keys then 1 else 0) := by
      intro keys hn
      induction keys with
      | nil => simp
      | cons k keys ihk =>
        have hn' := List.nodup_cons.1 hn
        simp only [List.map_cons, List.sum_cons]
        rw [ihk hn'.2]
        unfold cntKey
        rw [List.countP_cons]
        by_cases e : cols.map (D.cell r) = k
        · subst e
          simp [hn'.1]; omega
        · simp [e]; omega
    rw [gen keys hn, ih]
    simp [hr]

theorem contingencyTable_ok {D : Data} {dyn : Bool} (hD : Usable D) {cols : List Nat}
    (hne : cols ≠ []) (hnd : cols.Nodup) (hlt : ∀ c ∈ cols, c < D.ncols)
    (hneg : ∀ c ∈ cols, (-1 : Int) ∉ D.values c) {root : ADNode}
    (hroot : RepAD D dyn (List.range D.nrows) root) (hcol : root.col = -1)
    (hval : root.value = -1) (s : Counters) :
    Ok (contingencyTable D dyn cols root) s (fun p s' =>
      (p.1.map Prod.fst).Nodup ∧
      (∀ e ∈ p.1, e.1.length = cols.length ∧
        e.2 = some (cntKey D (List.range D.nrows) cols.mergeSort e.1 : Int)) ∧
      (∀ key, key.length = cols.length → dictGet p.1 key = none →
        cntKey D (List.range D.nrows) cols.mergeSort key = 0) ∧
      Keeps D dyn (List.range D.nrows) root s p.2 s') := by
  unfold contingencyTable
  have hperm := List.mergeSort_perm cols (fun a b => decide (a ≤ b))
  have hlen : cols.mergeSort.length = cols.length := hperm.length_eq
  have hrows : List.range D.nrows ≠ [] := by
    have := hD.rows_pos
    intro e
    have := congrArg List.length e
    simp at this; omega
  refine Ok.bind ((makeCT_ok hD.wf cols.mergeSort _ root s hroot hrows
    (fun c hc => hlt c (hperm.mem_iff.1 hc)) (mergeSort_strict hnd)
    (fun c _ => by rw [hcol]; omega)).mono ?_)
  rintro ⟨ct, root'⟩ s1 ⟨hgood, hctv, hkeeps⟩
  simp only at hgood hctv hkeeps ⊢
  obtain ⟨d, e1, e2, e3, e4⟩ := CT.toDict_ok D cols.mergeSort
    (fun c hc => hneg c (hperm.mem_iff.1 hc)) ct [] [] hgood.1 (by simp)
    (Or.inr ⟨rfl, by intro e; exact hne (by simpa using congrArg List.length e)⟩)
  have hv : ct.value = -1 := by rw [hctv, hval]
  simp only [hv, ne_eq, not_true_eq_false, if_false, List.nil_append] at e1 e3 e4
  refine Ok.bind (Ok.lift e1 (Ok.ret ⟨e2, ?_, ?_, hkeeps⟩))
  · rintro ⟨key, o⟩ he
    have hget := dictGet_of_mem e2 he
    have hsome : ∃ c, ct.get key = some c ∧ key.length = cols.mergeSort.length := by
      by_contra hno
      have : dictGet d key = dictGet [] key := by
        apply e4
        intro k hk e
        subst e
        cases hg : ct.get key with
        | none => rfl
        | some c => exact absurd ⟨c, hg, hk⟩ hno
      rw [hget] at this
      simp [dictGet] at this
    obtain ⟨c, hc, hl⟩ := hsome
    refine ⟨by simpa [hlen] using hl, ?_⟩
    have h1 := e3 key c hl hc
    rw [hget] at h1
    have h2 := hgood.2 key hl
    simp only [CT.val, hc, Option.getD_some] at h2
    simp only at h1 ⊢
    rw [← h2]
    exact Option.some.inj h1
  · intro key hk hnone
    have hk' : key.length = cols.mergeSort.length := by rw [hlen]; exact hk
    have h2 := hgood.2 key hk'
    cases hg : ct.get key with
    | none => simp [CT.val, hg] at h2; exact_mod_cast h2.symm
    | some c =>
      have := e3 key c hk' hg
      rw [hnone] at this
      simp at this

theorem makePmf_ok {D : Data} {dyn : Bool} (hD : Usable D) {cols : List Nat}
    (hv : (Request.pmf cols).Valid D) {root : ADNode}
    (hroot : RepAD D dyn (List.range D.nrows) root) (hcol : root.col = -1)
    (hval : root.value = -1) (s : Counters) :
    Ok (makePmf D dyn cols root) s (fun p s' => IsFrequencyTable D cols.mergeSort p.1 ∧
      Keeps D dyn (List.range D.nrows) root s p.2 s') := by
  obtain ⟨hne, hnd, hlt, hneg⟩ := hv
  unfold makePmf
  have hlen : cols.mergeSort.length = cols.length := (List.mergeSort_perm cols _).length_eq
  refine Ok.bind ((contingencyTable_ok hD hne hnd hlt hneg hroot hcol hval s).mono ?_)
  rintro ⟨d, root'⟩ s1 ⟨h1, h2, h3, h4⟩
  simp only at h1 h2 h3 h4 ⊢
  have hcount : (root'.count : ℚ) = D.nrows := by
    rw [h4.1.inv.2.1]; simp
  have hN : (D.nrows : ℚ) ≠ 0 := by
    have := hD.rows_pos
    exact_mod_cast (by omega : D.nrows ≠ 0)
  refine Ok.bind (Ok.lift (divideAll_ok _ (by rw [hcount]; exact hN) d
    (fun p hp => by rw [(h2 p hp).2]; rfl)) (Ok.ret ⟨?_, h4⟩))
  rw [hcount]
  have hfst : (d.map (fun p => (p.1, ((p.2.getD 0 : Int) : ℚ) / (D.nrows : ℚ)))).map Prod.fst =
      d.map Prod.fst := by simp [List.map_map, Function.comp_def]
  constructor
  · simp only; rw [hfst]; exact h1
  · intro p hp
    obtain ⟨e, he, rfl⟩ := List.mem_map.1 hp
    rw [hlen]; exact (h2 e he).1
  · intro key hk
    rw [← cntKey_eq_rowsWith]
    have hm := dictGet_map (fun o : Option Int => ((o.getD 0 : Int) : ℚ) / (D.nrows : ℚ)) d key
    simp only at hm ⊢
    rw [hm]
    cases hg : dictGet d key with
    | none =>
      have := h3 key (by rw [← hlen]; exact hk) hg
      simp [this]
    | some o =>
      have := (h2 (key, o) (dictGet_mem hg)).2
      simp only at this
      subst this
      simp
  · intro p hp
    obtain ⟨e, he, rfl⟩ := List.mem_map.1 hp
    rw [(h2 e he).2]
    simp only [Option.getD_some, Int.cast_natCast]
    exact div_nonneg (Nat.cast_nonneg _) (Nat.cast_nonneg _)
  · have e1 : (d.map (fun p => (p.1, ((p.2.getD 0 : Int) : ℚ) / (D.nrows : ℚ)))).map Prod.snd =
        ((d.map Prod.fst).map (cntKey D (List.range D.nrows) cols.mergeSort)).map
          (fun n : Nat => (n : ℚ) / (D.nrows : ℚ)) := by
      simp only [List.map_map]
      apply List.map_congr_left
      intro e he
      simp [(h2 e he).2]
    simp only
    rw [e1]
    have hsum := sum_cntKey D (List.range D.nrows) cols.mergeSort (d.map Prod.fst) h1 (by
      intro r hr
      by_contra hno
      have hnone := (dictGet_none_iff d _).2 hno
      have h0 := h3 (cols.mergeSort.map (D.cell r)) (by simp) hnone
      unfold cntKey at h0
      rw [List.countP_eq_zero] at h0
      exact h0 r hr (by simp))
    have gen : ∀ l : List Nat, (l.map (fun n : Nat => (n : ℚ) / (D.nrows : ℚ))).sum =
        ((l.sum : Nat) : ℚ) / D.nrows := by
      intro l
      induction l with
      | nil => simp
      | cons x l ih => simp [ih]; ring
    rw [gen, hsum]
    simp [hN]

/-- What stays true between requests. (Models no code: a notion for statements and proofs.) -/
def TreeOk (D : Data) (dyn : Bool) (root : ADNode) (s : Counters) : Prop :=
  RepAD D dyn (List.range D.nrows) root ∧ root.col = -1 ∧ root.value = -1 ∧
  ∀ w, s.val w = sizeAD w root

theorem create_treeOk {D : Data} (hD : Usable D) (dyn : Bool) :
    Ok (create D dyn) ⟨0, 0⟩ (TreeOk D dyn) := by
  refine (create_ok hD.wf dyn hD.threshold_le ⟨0, 0⟩).mono ?_
  rintro n s ⟨h1, h2, h3, h4⟩
  exact ⟨h1, h2, h3, fun w => by rw [h4]; simp [Counters.val]⟩

theorem Keeps.treeOk {D : Data} {dyn : Bool} {root root' : ADNode} {s s' : Counters}
    (h : TreeOk D dyn root s) (hk : Keeps D dyn (List.range D.nrows) root s root' s') :
    TreeOk D dyn root' s' := by
  refine ⟨hk.1, by rw [hk.2.1, h.2.1], by rw [hk.2.2.1, h.2.2.1], fun w => ?_⟩
  have := hk.2.2.2.2 w
  have := h.2.2.2 w
  omega

theorem serve_ok {D : Data} (hD : Usable D) (dyn : Bool) {root : ADNode} {s : Counters}
    (h : TreeOk D dyn root s) (r : Request) (hr : r.Valid D) :
    Ok (serve D dyn root r) s (fun p s' => Correct D r p.1 ∧ TreeOk D dyn p.2 s') := by
  cases r with
  | count q =>
    refine Ok.bind ((queryCount_ok hD hr h.1 h.2.1 s).mono ?_)
    rintro ⟨k, n⟩ s' ⟨h1, h2⟩
    exact Ok.ret ⟨h1, h2.treeOk h⟩
  | pmf cols =>
    refine Ok.bind ((makePmf_ok hD hr h.1 h.2.1 h.2.2.1 s).mono ?_)
    rintro ⟨d, n⟩ s' ⟨h1, h2⟩
    exact Ok.ret ⟨h1, h2.treeOk h⟩
  | reload =>
    exact Ok.ret ⟨trivial, pickle_rep h.1, by simpa using h.2.1, by simpa using h.2.2.1,
      fun w => by rw [pickle_size]; exact h.2.2.2 w⟩

theorem serveAll_ok {D : Data} (hD : Usable D) (dyn : Bool) (rs : List Request) :
    ∀ {root : ADNode} {s : Counters}, TreeOk D dyn root s → (∀ r ∈ rs, r.Valid D) →
    Ok (serveAll D dyn rs root) s (fun p s' => List.Forall₂ (Correct D) rs p.1 ∧
      TreeOk D dyn p.2 s') := by
  induction rs with
  | nil => intro root s h _; exact Ok.ret ⟨.nil, h⟩
  | cons r rs ih =>
    intro root s h hr
    refine Ok.bind ((serve_ok hD dyn h r (hr r (by simp))).mono ?_)
    rintro ⟨a, root1⟩ s1 ⟨h1, h2⟩
    refine Ok.bind ((ih h2 (fun r' h' => hr r' (by simp [h']))).mono ?_)
    rintro ⟨as, root2⟩ s2 ⟨h3, h4⟩
    exact Ok.ret ⟨.cons h1 h3, h4⟩

end Mbtk.ADTree
