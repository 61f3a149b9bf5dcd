import Verif.ADTree.Rep
/-!
# Correctness of `query_count` on any tree satisfying the representation invariant
-/
namespace Mbtk.ADTree

/-- Number of rows in `rows` matching every pair of the query.
(Models no code: a notion for statements and proofs.) -/
def cnt (D : Data) (rows : List Nat) (q : List (Nat × Int)) : Nat :=
  rows.countP (fun r => q.all fun p => decide (D.cell r p.1 = p.2))

theorem cnt_cons (D : Data) (rows : List Nat) (c : Nat) (v : Int) (q : List (Nat × Int)) :
    cnt D rows ((c, v) :: q) = cnt D (sel D c v rows) q := by
  unfold cnt sel
  rw [List.countP_filter]
  congr 1
  funext r
  simp [Bool.and_comm]

theorem cnt_nil (D : Data) (rows : List Nat) : cnt D rows [] = rows.length := by
  simp [cnt]

/-- Splitting a count by the value of a column. -/
theorem countP_split (D : Data) (c : Nat) (P : Nat → Bool) (vals : List Int) (hn : vals.Nodup)
    (rows : List Nat) (hcov : ∀ r ∈ rows, D.cell r c ∈ vals) :
    rows.countP P = (vals.map (fun v => (sel D c v rows).countP P)).sum := by
  induction rows with
  | nil => simp [sel]
  | cons r rows ih =>
    have hih := ih (fun x hx => hcov x (by simp [hx]))
    have hr := hcov r (by simp)
    have key : ∀ vals : List Int, vals.Nodup →
        (vals.map (fun v => (sel D c v (r :: rows)).countP P)).sum =
        (vals.map (fun v => (sel D c v rows).countP P)).sum +
          (if D.cell r c ∈ vals then (if P r then 1 else 0) else 0) := by
      intro vals hn
      induction vals with
      | nil => simp
      | cons v vals ihv =>
        have hn' := List.nodup_cons.1 hn
        simp only [List.map_cons, List.sum_cons]
        rw [ihv hn'.2]
        by_cases h : D.cell r c = v
        · have h2 : ¬ D.cell r c ∈ vals := by rw [h]; exact hn'.1
          have : sel D c v (r :: rows) = r :: sel D c v rows := by simp [sel, h]
          rw [this]
          simp only [List.countP_cons, List.mem_cons, h, true_or, if_true]
          rw [h] at h2
          simp only [if_neg h2]
          omega
        · have : sel D c v (r :: rows) = sel D c v rows := by simp [sel, h]
          rw [this]
          simp only [List.mem_cons, h, false_or]
          omega
    rw [key vals hn, ← hih]
    simp [List.countP_cons, hr]

/-- Counts split by column value, with the most common value singled out. -/
theorem sum_split_mcv (vals : List Int) (hn : vals.Nodup) (f : Int → Nat) (m : Int)
    (hm : m ∈ vals) :
    (vals.map f).sum = f m + (vals.map (fun v => if v = m then 0 else f v)).sum := by
  induction vals with
  | nil => simp at hm
  | cons v vals ih =>
    have hn' := List.nodup_cons.1 hn
    simp only [List.map_cons, List.sum_cons]
    by_cases h : v = m
    · subst h
      have : vals.map (fun u => if u = v then 0 else f u) = vals.map f := by
        apply List.map_congr_left
        intro u hu
        have : u ≠ v := by rintro rfl; exact hn'.1 hu
        simp [this]
      rw [this]; simp
    · have hm' : m ∈ vals := by
        rcases List.mem_cons.1 hm with h2 | h2
        · exact absurd h2.symm h
        · exact h2
      rw [ih hn'.2 hm']
      simp [h]; omega

theorem RepAD.inv {D : Data} {dyn : Bool} {rows : List Nat} {n : ADNode}
    (h : RepAD D dyn rows n) :
    (∀ r ∈ rows, r < D.nrows) ∧ n.count = (rows.length : Int) ∧
    n.leaf = decide (rows.length < D.threshold) ∧
    (dyn = true ∨ n.leaf = true → n.rows.getD (List.range D.nrows) = rows) ∧
    (n.leaf = true → n.rows = some rows) ∧ -1 ≤ n.col ∧
    (∀ v ∈ n.varys, RepVary D dyn rows v) ∧
    ((n.varys.map VaryNode.col).Nodup ∧ ∀ c ∈ n.varys.map VaryNode.col, n.col < (c : Int)) ∧
    (dyn = false → n.leaf = false → ∀ c : Nat, n.col < c → c < D.ncols →
      c ∈ n.varys.map VaryNode.col) ∧ (n.leaf = true → n.varys = []) := by
  cases h with
  | mk _ col value count leaf rs vs h1 h2 h3 h4 h5 h6 h7 h8 h9 h10 =>
    exact ⟨h1, h2, h3, h4, h5, h6, h7, h8, h9, h10⟩

theorem RepAD.setVarys {D : Data} {dyn : Bool} {rows : List Nat} {n : ADNode}
    (h : RepAD D dyn rows n) (vs : List VaryNode) (hleaf : n.leaf = false)
    (h1 : ∀ v ∈ vs, RepVary D dyn rows v)
    (h2 : (vs.map VaryNode.col).Nodup ∧ ∀ c ∈ vs.map VaryNode.col, n.col < (c : Int))
    (h3 : ∀ c ∈ n.varys.map VaryNode.col, c ∈ vs.map VaryNode.col) :
    RepAD D dyn rows (n.setVarys vs) := by
  cases h with
  | mk _ col value count leaf rs vs' g1 g2 g3 g4 g5 g6 g7 g8 g9 g10 =>
    refine .mk rows col value count leaf rs vs g1 g2 g3 g4 g5 g6 h1 h2 ?_ ?_
    · intro a b c d e; exact h3 c (g9 a b c d e)
    · intro a; simp [ADNode.leaf] at hleaf; simp [hleaf] at a

theorem map_col_set (vs : List VaryNode) (i : Nat) (v v' : VaryNode) (h : vs[i]? = some v)
    (hc : v'.col = v.col) : (vs.set i v').map VaryNode.col = vs.map VaryNode.col := by
  induction vs generalizing i with
  | nil => simp
  | cons x vs ih =>
    cases i with
    | zero => simp at h; subst h; simp [hc]
    | succ i => simp at h; simp [ih i h]

theorem RepAD.setVary {D : Data} {dyn : Bool} {rows : List Nat} {n : ADNode}
    (h : RepAD D dyn rows n) (hleaf : n.leaf = false) {i : Nat} {v v' : VaryNode}
    (hv : n.varys[i]? = some v) (hv' : RepVary D dyn rows v') (hc : v'.col = v.col) :
    RepAD D dyn rows (n.setVarys (n.varys.set i v')) := by
  have hinv := h.inv
  refine h.setVarys _ hleaf ?_ ?_ ?_
  · intro u hu
    rcases List.mem_or_eq_of_mem_set hu with hu | rfl
    · exact hinv.2.2.2.2.2.2.1 u hu
    · exact hv'
  · rw [map_col_set _ _ _ _ hv hc]; exact hinv.2.2.2.2.2.2.2.1
  · rw [map_col_set _ _ _ _ hv hc]; exact fun c hc => hc

@[simp] theorem setVarys_col (n : ADNode) (vs) : (n.setVarys vs).col = n.col := by cases n; rfl
@[simp] theorem setVarys_value (n : ADNode) (vs) : (n.setVarys vs).value = n.value := by
  cases n; rfl
@[simp] theorem setVarys_count (n : ADNode) (vs) : (n.setVarys vs).count = n.count := by
  cases n; rfl
@[simp] theorem setVarys_leaf (n : ADNode) (vs) : (n.setVarys vs).leaf = n.leaf := by
  cases n; rfl
@[simp] theorem setVarys_varys (n : ADNode) (vs) : (n.setVarys vs).varys = vs := by
  cases n; rfl
theorem setVarys_self (n : ADNode) : n.setVarys n.varys = n := by cases n; rfl
@[simp] theorem setVarys_setVarys (n : ADNode) (vs ws) :
    (n.setVarys vs).setVarys ws = n.setVarys ws := by cases n; rfl
@[simp] theorem setAds_col (v : VaryNode) (a) : (v.setAds a).col = v.col := by cases v; rfl
@[simp] theorem setAds_mcv (v : VaryNode) (a) : (v.setAds a).mcv = v.mcv := by cases v; rfl
@[simp] theorem setAds_ads (v : VaryNode) (a) : (v.setAds a).ads = a := by cases v; rfl
theorem setAds_self (v : VaryNode) : v.setAds v.ads = v := by cases v; rfl

theorem sizeAD_setVarys (w : Nat × Nat) (n : ADNode) (vs : List VaryNode) :
    sizeAD w (n.setVarys vs) + sizeVarys w n.varys = sizeAD w n + sizeVarys w vs := by
  cases n; simp [sizeAD, ADNode.setVarys, ADNode.varys]; omega

theorem sizeVary_setAds (w : Nat × Nat) (v : VaryNode) (ads : List (Option ADNode)) :
    sizeVary w (v.setAds ads) + sizeADs w v.ads = sizeVary w v + sizeADs w ads := by
  cases v; simp [sizeVary, VaryNode.setAds, VaryNode.ads]; omega

theorem RepVary.setAds {D : Data} {dyn : Bool} {rows : List Nat} {v : VaryNode}
    (h : RepVary D dyn rows v) {ads : List (Option ADNode)}
    (ha : List.Forall₂ (ChildOk D dyn rows v.col v.mcv) (D.values v.col) ads) :
    RepVary D dyn rows (v.setAds ads) := by
  obtain ⟨h1, h2, h3, h4, h5⟩ := h.forall₂
  have hm := h.mcv_eq
  cases v with
  | mk c vals m a =>
    simp only [VaryNode.col, VaryNode.values, VaryNode.mcv] at h1 h2 h3 h4 h5 ha hm
    subst h2
    exact RepVary.of_forall₂ h1 ⟨h3, hm⟩ h4 ha

theorem findVary_some {vs : List VaryNode} {c i : Nat} (h : findVary vs c = some i) :
    ∃ v, vs[i]? = some v ∧ v.col = c := by
  induction vs generalizing i with
  | nil => simp [findVary] at h
  | cons x vs ih =>
    by_cases hx : x.col = c
    · simp [findVary, hx] at h; subst h; exact ⟨x, by simp, hx⟩
    · simp only [findVary, hx, if_false, Option.map_eq_some_iff] at h
      obtain ⟨j, hj, rfl⟩ := h
      obtain ⟨v, h1, h2⟩ := ih hj
      exact ⟨v, by simpa using h1, h2⟩

theorem findVary_none {vs : List VaryNode} {c : Nat} (h : findVary vs c = none) :
    c ∉ vs.map VaryNode.col := by
  induction vs with
  | nil => simp
  | cons x vs ih =>
    by_cases hx : x.col = c
    · simp [findVary, hx] at h
    · simp only [findVary, hx, if_false, Option.map_eq_none_iff] at h
      have := ih h
      simp only [List.map_cons, List.mem_cons, not_or]
      exact ⟨fun e => hx e.symm, this⟩

theorem getVary_ok {D : Data} {dyn : Bool} (hD : D.WF) {rows : List Nat} {n : ADNode}
    (h : RepAD D dyn rows n) (hleaf : n.leaf = false) {c : Nat} (hc : c < D.ncols)
    (hcol : n.col < c) (s : Counters) :
    Ok (getVary D dyn n c) s (fun p s' => ∃ vary, p.2.varys[p.1]? = some vary ∧
      RepVary D dyn rows vary ∧ vary.col = c ∧ RepAD D dyn rows p.2 ∧ p.2.col = n.col ∧
      p.2.value = n.value ∧ p.2.count = n.count ∧ p.2.leaf = n.leaf ∧
      (dyn = false → p.2 = n ∧ s' = s) ∧
      ∀ w, s'.val w + sizeAD w n = s.val w + sizeAD w p.2) := by
  have hinv := h.inv
  unfold getVary
  cases hf : findVary n.varys c with
  | some i =>
    obtain ⟨v, h1, h2⟩ := findVary_some hf
    exact Ok.ret ⟨v, h1, hinv.2.2.2.2.2.2.1 v (List.mem_of_getElem? h1), h2, h, rfl, rfl, rfl, rfl,
      fun _ => ⟨rfl, rfl⟩, fun _ => rfl⟩
  | none =>
    have hnone := findVary_none hf
    cases dyn with
    | false => exact absurd (hinv.2.2.2.2.2.2.2.2.1 rfl hleaf c hcol hc) hnone
    | true =>
      simp only [if_true]
      refine Ok.bind ((buildVary_ok (dyn := true) hD hc
        (hinv.2.2.2.1 (Or.inl rfl)) hinv.1 ?_ s).mono ?_)
      · intro v sub s hs
        exact buildAD_ok hD _ _ _ _ _ _ (by omega) (Or.inr ⟨rfl, by omega⟩) rfl hs (by simp)
      · rintro v s1 ⟨h1, h2, h3⟩
        refine Ok.ret ⟨v, by simp, h1, h2, ?_, by simp, by simp, by simp, by simp, by simp, ?_⟩
        · refine h.setVarys _ hleaf ?_ ?_ ?_
          · intro u hu
            rcases List.mem_append.1 hu with hu | hu
            · exact hinv.2.2.2.2.2.2.1 u hu
            · rw [List.mem_singleton.1 hu]; exact h1
          · rw [List.map_append, List.nodup_append]
            refine ⟨⟨hinv.2.2.2.2.2.2.2.1.1, by simp, ?_⟩, ?_⟩
            · intro a ha b hb e
              simp at hb; subst e; rw [hb, h2] at ha; exact hnone ha
            · intro a ha
              rcases List.mem_append.1 ha with ha | ha
              · exact hinv.2.2.2.2.2.2.2.1.2 a ha
              · simp at ha; rw [ha, h2]; exact hcol
          · intro c hc; rw [List.map_append]; exact List.mem_append_left _ hc
        · intro w
          have := sizeAD_setVarys w n (n.varys ++ [v])
          rw [sizeVarys_append] at this
          rw [h3]
          simp only [sizeVarys] at this
          dsimp only
          omega

theorem findChild_spec {D : Data} {dyn : Bool} {rows : List Nat} {c : Nat} {mcv : Int}
    {vals : List Int} {ads : List (Option ADNode)} (hn : vals.Nodup)
    (h : List.Forall₂ (ChildOk D dyn rows c mcv) vals ads) (v : Int) :
    match findChild ads v with
    | some (j, ch) => ads[j]? = some (some ch) ∧ vals[j]? = some v ∧
        ChildOk D dyn rows c mcv v (some ch)
    | none => v ∉ vals ∨ ¬ (0 < (sel D c v rows).length ∧ v ≠ mcv) := by
  induction h with
  | nil => simp [findChild]
  | @cons u o vals ads hu hrest ih =>
    have hn' := List.nodup_cons.1 hn
    have ih := ih hn'.2
    cases o with
    | none =>
      unfold findChild
      cases hfc : findChild ads v with
      | none =>
        rw [hfc] at ih
        simp only [Option.map_none]
        simp only at ih
        by_cases e : v = u
        · subst e; right; exact hu.1.1 rfl
        · rcases ih with ih | ih
          · left; simp [e, ih]
          · right; exact ih
      | some p =>
        obtain ⟨j, ch⟩ := p
        rw [hfc] at ih
        simpa using ih
    | some m =>
      unfold findChild
      have hm := hu.2 m rfl
      by_cases e : m.value = v
      · simp only [e, if_true]
        have : u = v := by rw [← hm.1, e]
        subst this
        exact ⟨by simp, by simp, hu⟩
      · simp only [e, if_false]
        have hne : v ≠ u := by intro e2; exact e (by rw [hm.1, e2])
        cases hfc : findChild ads v with
        | none =>
          rw [hfc] at ih
          simp only [Option.map_none]
          simp only at ih
          rcases ih with ih | ih
          · left; simp [hne, ih]
          · right; exact ih
        | some p =>
          obtain ⟨j, ch⟩ := p
          rw [hfc] at ih
          simpa using ih

theorem sel_empty_of_not_mem {D : Data} {c : Nat} {v : Int} {rows : List Nat} {vals : List Int}
    (hcov : ∀ r ∈ rows, D.cell r c ∈ vals) (h : v ∉ vals) : sel D c v rows = [] := by
  unfold sel
  rw [List.filter_eq_nil_iff]
  intro r hr
  have := hcov r hr
  simp only [decide_eq_true_eq]
  rintro rfl
  exact h this

/-- What a query leaves behind. (Models no code: a notion for statements and proofs.) -/
def Keeps (D : Data) (dyn : Bool) (rows : List Nat) (n : ADNode) (s : Counters)
    (n' : ADNode) (s' : Counters) : Prop :=
  RepAD D dyn rows n' ∧ n'.col = n.col ∧ n'.value = n.value ∧
  (dyn = false → n' = n ∧ s' = s) ∧ ∀ w, s'.val w + sizeAD w n = s.val w + sizeAD w n'

theorem overSiblings_ok {D : Data} {dyn : Bool} {rows : List Nat} {c : Nat} {mcv : Int}
    {f : ADNode → TM (Int × ADNode)} {q : List (Nat × Int)}
    (hf : ∀ v ∈ D.values c, ∀ n s, RepAD D dyn (sel D c v rows) n → n.col = c →
      Ok (f n) s (fun p s' => p.1 = (cnt D (sel D c v rows) q : Int) ∧
        Keeps D dyn (sel D c v rows) n s p.2 s')) :
    ∀ {vals : List Int} {ads : List (Option ADNode)} (_ : ∀ v ∈ vals, v ∈ D.values c)
      (_ : List.Forall₂ (ChildOk D dyn rows c mcv) vals ads) (s : Counters),
    Ok (overSiblings f ads) s (fun p s' =>
      p.1 = ((vals.map (fun v => if v = mcv then 0 else cnt D (sel D c v rows) q)).sum : Nat) ∧
      List.Forall₂ (ChildOk D dyn rows c mcv) vals p.2 ∧ (dyn = false → p.2 = ads ∧ s' = s) ∧
      ∀ w, s'.val w + sizeADs w ads = s.val w + sizeADs w p.2) := by
  intro vals ads hv h
  induction h with
  | nil => intro s; exact Ok.ret ⟨by simp, .nil, by simp, by simp⟩
  | @cons u o vals ads hu hrest ih =>
    intro s
    have ih := ih (fun v hv' => hv v (by simp [hv']))
    cases o with
    | none =>
      unfold overSiblings
      refine Ok.bind ((ih s).mono ?_)
      rintro ⟨k, ads'⟩ s' ⟨h1, h2, h3, h4⟩
      refine Ok.ret ⟨?_, .cons hu h2, ?_, ?_⟩
      · simp only at h1 ⊢
        rw [h1]
        simp only [List.map_cons, List.sum_cons]
        by_cases e : u = mcv
        · simp [e]
        · have hz := hu.1.1 rfl
          have : sel D c u rows = [] := by
            by_contra hne
            exact hz ⟨List.length_pos_iff.2 hne, e⟩
          simp [e, this, cnt]
      · intro hd; have := h3 hd; simp_all
      · intro w; have := h4 w; simpa [sizeADs] using this
    | some m =>
      unfold overSiblings
      have hm := hu.2 m rfl
      refine Ok.bind ((hf u (hv u (by simp)) m s hm.2.2 hm.2.1).mono ?_)
      rintro ⟨a, m'⟩ s1 ⟨g1, g2, g3, g4, g5, g6⟩
      refine Ok.bind ((ih s1).mono ?_)
      rintro ⟨k, ads'⟩ s' ⟨h1, h2, h3, h4⟩
      have hcond : ¬ u = mcv := by
        intro e
        have := hu.1.not.1 (by simp)
        simp [e] at this
      refine Ok.ret ⟨?_, .cons ⟨⟨by simp, fun h => absurd (hu.1.2 h) (by simp)⟩, ?_⟩ h2, ?_, ?_⟩
      · simp only at h1 g1 ⊢
        rw [h1, g1]
        simp [hcond]
      · intro ch hch
        cases hch
        simp only at g2 g3 g4
        exact ⟨by rw [g4, hm.1], by rw [g3, hm.2.1], g2⟩
      · intro hd
        have := h3 hd; have := g5 hd; simp_all
      · intro w
        have := h4 w; have := g6 w
        simp only [sizeADs] at *
        omega

theorem sumCounts_eq {D : Data} {dyn : Bool} {rows : List Nat} {c : Nat} {mcv : Int}
    {vals : List Int} {ads : List (Option ADNode)}
    (h : List.Forall₂ (ChildOk D dyn rows c mcv) vals ads) :
    sumCounts ads =
      ((vals.map (fun v => if v = mcv then 0 else (sel D c v rows).length)).sum : Nat) := by
  induction h with
  | nil => simp [sumCounts]
  | @cons u o vals ads hu hrest ih =>
    unfold sumCounts at ih ⊢
    simp only [List.map_cons, List.sum_cons, ih]
    cases o with
    | none =>
      have hz := hu.1.1 rfl
      by_cases e : u = mcv
      · simp [e]
      · have : sel D c u rows = [] := by
          by_contra hne
          exact hz ⟨List.length_pos_iff.2 hne, e⟩
        simp [e, this]
    | some m =>
      have hm := (hu.2 m rfl).2.2.inv.2.1
      have hcond : ¬ u = mcv := by
        intro e
        have := hu.1.not.1 (by simp)
        simp [e] at this
      simp only [hm, hcond, if_false]
      push_cast
      rfl

theorem forall₂_set {α β : Type} {R : α → β → Prop} {l : List α} {m : List β} {j : Nat}
    {a : α} {b : β} (h : List.Forall₂ R l m) (ha : l[j]? = some a) (hr : R a b) :
    List.Forall₂ R l (m.set j b) := by
  induction h generalizing j with
  | nil => simp
  | @cons x y l m hxy hrest ih =>
    cases j with
    | zero => simp at ha; subst ha; simpa using ⟨hr, hrest⟩
    | succ j => simp at ha; simpa using ⟨hxy, ih ha⟩

theorem cover_rows {D : Data} (hD : D.WF) {c : Nat} (hc : c < D.ncols) {rows : List Nat}
    (hsub : ∀ r ∈ rows, r < D.nrows) : ∀ r ∈ rows, D.cell r c ∈ D.values c :=
  fun r hr => hD.cover c hc r (hsub r hr)

/-- `query_count` below any node representing `rows`. -/
theorem queryNode_ok {D : Data} {dyn : Bool} (hD : D.WF) (q : List (Nat × Int)) :
    ∀ (rows : List Nat) (n : ADNode) (s : Counters), RepAD D dyn rows n →
    (∀ p ∈ q, p.1 < D.ncols) → q.Pairwise (fun a b => a.1 < b.1) →
    (∀ p ∈ q, n.col < p.1) →
    Ok (queryNode D dyn q n) s (fun p s' => p.1 = (cnt D rows q : Int) ∧
      Keeps D dyn rows n s p.2 s') := by
  induction q with
  | nil =>
    intro rows n s h _ _ _
    unfold queryNode
    exact Ok.ret ⟨by rw [cnt_nil]; exact h.inv.2.1, h, rfl, rfl, fun _ => ⟨rfl, rfl⟩, fun _ => rfl⟩
  | cons p rest ih =>
    obtain ⟨c, v⟩ := p
    intro rows n s h hlt hpw hcol
    have hpw' := List.pairwise_cons.1 hpw
    have hc : c < D.ncols := hlt (c, v) (by simp)
    have hinv := h.inv
    unfold queryNode
    by_cases hleaf : n.leaf = true
    · rw [if_pos hleaf]
      have hr := hinv.2.2.2.2.1 hleaf
      refine Ok.bind (Ok.lift (a := (cnt D rows ((c, v) :: rest) : Int)) ?_ ?_)
      · unfold queryLeaf
        rw [hr]
        have : ¬ (rows ≠ [] ∧ (((c, v) :: rest).any fun p => decide (D.ncols ≤ p.1)) = true) := by
          rintro ⟨_, h2⟩
          obtain ⟨p, hp, hp2⟩ := List.any_eq_true.1 h2
          have := hlt p hp
          simp at hp2; omega
        simp only [this, if_false]
        rfl
      · exact Ok.ret ⟨rfl, h, rfl, rfl, fun _ => ⟨rfl, rfl⟩, fun _ => rfl⟩
    · rw [if_neg hleaf]
      have hleaf : n.leaf = false := by simpa using hleaf
      refine Ok.bind ((getVary_ok hD h hleaf hc
        (hcol (c, v) (by simp)) s).mono ?_)
      rintro ⟨i, n1⟩ s1 ⟨vary, hv1, hv2, hv3, hn1, hncol, hnval, hncount, hnleaf, hstat, hsize⟩
      simp only at hv1 hn1 hncol hnval hncount hnleaf hstat hsize ⊢
      rw [hv1]
      simp only
      obtain ⟨w1, w2, w3, w4, w5⟩ := hv2.forall₂
      rw [hv3] at w1 w2 w3 w4 w5
      have hnd := hD.nodup c hc
      have hfc := findChild_spec hnd w5 v
      have hsubsel : ∀ v, ∀ r ∈ sel D c v rows, r < D.nrows := fun v => sel_lt hinv.1
      cases hfind : findChild vary.ads v with
      | some jc =>
        obtain ⟨j, child⟩ := jc
        rw [hfind] at hfc
        simp only at hfc ⊢
        obtain ⟨f1, f2, f3⟩ := hfc
        have hch := f3.2 child rfl
        refine Ok.bind ((ih (sel D c v rows) child s1 hch.2.2
          (fun p hp => hlt p (by simp [hp])) hpw'.2
          (fun p hp => by rw [hch.2.1]; exact_mod_cast hpw'.1 p hp)).mono ?_)
        rintro ⟨k, child'⟩ s2 ⟨r1, r2, r3, r4, r5, r6⟩
        simp only at r1 r2 r3 r4 r5 r6 ⊢
        refine Ok.ret ⟨?_, ?_, by simp [hncol], by simp [hnval], ?_, ?_⟩
        · simp only; rw [r1, cnt_cons]
        · refine hn1.setVary (by rw [hnleaf, hleaf]) hv1 ?_ (by simp)
          refine hv2.setAds ?_
          rw [hv3]
          refine forall₂_set w5 f2 ⟨⟨by simp, fun hh => absurd (f3.1.2 hh) (by simp)⟩, ?_⟩
          intro ch hch'
          cases hch'
          exact ⟨by rw [r4, hch.1], by rw [r3, hch.2.1], r2⟩
        · intro hd
          have e1 := hstat hd
          have e2 := r5 hd
          have e3 : vary.ads.set j (some child) = vary.ads := by
            apply List.ext_getElem?
            intro m
            rw [List.getElem?_set]
            split
            · next hm => subst hm; split
                         · rw [f1]
                         · rw [f1]; simp_all
            · rfl
          rw [e2.1, e3, setAds_self]
          have e4 : n1.varys.set i vary = n1.varys := by
            apply List.ext_getElem?
            intro m
            rw [List.getElem?_set]
            split
            · next hm => subst hm; split
                         · rw [hv1]
                         · rw [hv1]; simp_all
            · rfl
          rw [e4, setVarys_self]
          exact ⟨e1.1, by rw [e2.2, e1.2]⟩
        · intro w
          have a1 := sizeAD_setVarys w n1
            (n1.varys.set i (vary.setAds (vary.ads.set j (some child'))))
          have a2 := sizeVarys_set w n1.varys i vary
            (vary.setAds (vary.ads.set j (some child'))) hv1
          have a3 := sizeVary_setAds w vary (vary.ads.set j (some child'))
          have a4 := sizeADs_set w vary.ads j child child' f1
          have a5 := hsize w
          have a6 := r6 w
          dsimp only
          omega
      | none =>
        rw [hfind] at hfc
        simp only at hfc ⊢
        by_cases hm : vary.mcv = v
        · rw [if_neg (by simp [hm])]
          have split : ∀ q : List (Nat × Int),
              (cnt D rows q : Nat) = cnt D (sel D c v rows) q +
                ((D.values c).map
                  (fun u => if u = v then 0 else cnt D (sel D c u rows) q)).sum := by
            intro q
            unfold cnt
            rw [countP_split D c _ (D.values c) hnd rows (cover_rows hD hc hinv.1)]
            exact sum_split_mcv _ hnd _ _ (hm ▸ w3)
          by_cases hrest : rest.isEmpty = true
          · rw [if_pos hrest]
            have hrest' : rest = [] := by simpa using hrest
            refine Ok.ret ⟨?_, hn1, hncol, hnval, hstat, hsize⟩
            simp only
            rw [hncount, hinv.2.1, sumCounts_eq w5, hrest', cnt_cons, cnt_nil, hm]
            have := split []
            simp only [cnt_nil] at this
            rw [this]
            push_cast
            ring
          · rw [if_neg hrest]
            refine Ok.bind ((overSiblings_ok (q := rest) (f := queryNode D dyn rest)
              ?_ (fun v hv => hv) w5 s1).mono ?_)
            · intro u hu m s hm' hmc
              exact ih (sel D c u rows) m s hm' (fun p hp => hlt p (by simp [hp])) hpw'.2
                (fun p hp => by rw [hmc]; exact_mod_cast hpw'.1 p hp)
            · rintro ⟨ks, ads'⟩ s2 ⟨r1, r2, r3, r4⟩
              simp only at r1 r2 r3 r4 ⊢
              have hn2 : RepAD D dyn rows
                  (n1.setVarys (n1.varys.set i (vary.setAds ads'))) := by
                refine hn1.setVary (by rw [hnleaf, hleaf]) hv1 ?_ (by simp)
                refine hv2.setAds ?_
                rw [hv3]; exact r2
              refine Ok.bind ((ih rows _ s2 hn2 (fun p hp => hlt p (by simp [hp])) hpw'.2
                ?_).mono ?_)
              · intro p hp
                rw [setVarys_col, hncol]
                exact hcol p (by simp [hp])
              · rintro ⟨kp, n3⟩ s3 ⟨t1, t2, t3, t4, t5, t6⟩
                simp only at t1 t2 t3 t4 t5 t6 ⊢
                refine Ok.ret ⟨?_, t2, by rw [t3]; simp [hncol], by rw [t4]; simp [hnval],
                  ?_, ?_⟩
                · simp only
                  rw [t1, r1, cnt_cons, split rest, hm]
                  push_cast
                  ring
                · intro hd
                  have e1 := hstat hd
                  have e2 := r3 hd
                  have e3 := t5 hd
                  have e4 : n1.varys.set i vary = n1.varys := by
                    apply List.ext_getElem?
                    intro m
                    rw [List.getElem?_set]
                    split
                    · next hm => subst hm; split
                                 · rw [hv1]
                                 · rw [hv1]; simp_all
                    · rfl
                  rw [e2.1, setAds_self, e4, setVarys_self] at e3
                  exact ⟨by rw [e3.1, e1.1], by rw [e3.2, e2.2, e1.2]⟩
                · intro w
                  have a1 := sizeAD_setVarys w n1 (n1.varys.set i (vary.setAds ads'))
                  have a2 := sizeVarys_set w n1.varys i vary (vary.setAds ads') hv1
                  have a3 := sizeVary_setAds w vary ads'
                  have a5 := hsize w
                  have a6 := r4 w
                  have a7 := t6 w
                  dsimp only
                  omega
        · rw [if_pos (by simpa using hm)]
          refine Ok.ret ⟨?_, hn1, hncol, hnval, hstat, hsize⟩
          simp only
          have : sel D c v rows = [] := by
            rcases hfc with h1 | h1
            · exact sel_empty_of_not_mem (cover_rows hD hc hinv.1) h1
            · by_contra hne
              exact h1 ⟨List.length_pos_iff.2 hne, fun e => hm e.symm⟩
          rw [cnt_cons, this]
          simp [cnt]

end Mbtk.ADTree
