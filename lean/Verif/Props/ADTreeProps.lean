import Verif.ADTree.Session
/-!
# C01–C08: the AD-tree theorems

`Spec` (Verif/ADTree/Spec.lean) says what the right answers are, on the dataset alone.
`Ok m s P` reads: running `m` from state `s` raises nothing and ends with `P`.
-/
namespace Mbtk.ADTree
open Spec

/-! ## A concrete dataset used to show that hypotheses are satisfiable -/

/-- Five rows, three columns, leaf lists below three rows. (Example.) -/
def exampleData : Data where
  nrows := 5
  ncols := 3
  cell r c := ([[0, 1, 2], [0, 1, 2], [1, 1, 0], [1, 2, 2], [0, 2, 2]][r]?.bind (·[c]?)).getD 0
  values c := [[0, 1], [1, 2], [0, 1, 2]].getD c []
  threshold := 3

theorem exampleData_usable : Usable exampleData := by
  refine ⟨by decide, ?_, ?_, by decide⟩
  · show ∀ c < 3, _; decide
  · show ∀ c < 3, ∀ r < 5, _; decide

/-! ## C01 -/

/-- **C01.** Building a static tree and asking for a count gives the number of matching
rows, for every usable dataset, threshold and query. -/
theorem adtree_query_count_exact (D : Data) (hD : Usable D) (q : List (Nat × Int))
    (hq : ValidQuery D q) :
    Ok (do let root ← create D false; queryCount D false q root) ⟨0, 0⟩
      (fun answer _ => answer.1 = matching D q) := by
  refine Ok.bind ((create_treeOk hD false).mono ?_)
  intro root s h
  exact (queryCount_ok hD hq h.1 h.2.1 s).mono (fun _ _ h => h.1)

/-- A static tree is not changed by queries. -/
theorem adtree_query_count_pure (D : Data) (hD : Usable D) (q : List (Nat × Int))
    (hq : ValidQuery D q) :
    Ok (create D false) ⟨0, 0⟩ (fun root s =>
      queryCount D false q root s = .ok (((matching D q : Nat), root), s)) := by
  refine (create_treeOk hD false).mono ?_
  intro root s h
  obtain ⟨⟨k, n⟩, s', e, h1, h2⟩ := queryCount_ok hD hq h.1 h.2.1 s
  have := h2.2.2.2.1 rfl
  simp only at h1 this
  rw [e, h1, this.1, this.2]

example : Usable exampleData ∧ ValidQuery exampleData [(2, 2), (0, 0)] ∧
    matching exampleData [(2, 2), (0, 0)] = 3 := by
  refine ⟨exampleData_usable, ?_, by decide⟩
  unfold ValidQuery; decide

/-- Finding: when the dataset has fewer rows than the leaf-list threshold, the root itself
becomes a leaf-list node without a row list, and every non-empty query raises `TypeError`
(so `threshold_le` in `Usable` cannot be dropped). -/
theorem adtree_small_dataset_raises (D : Data) (dyn : Bool) (hthr : D.nrows < D.threshold)
    (q : List (Nat × Int)) (hq : q ≠ []) :
    Raises (do let root ← create D dyn; queryCount D dyn q root) ⟨0, 0⟩ .typeError := by
  have hc : (create D dyn) ⟨0, 0⟩ =
      .ok (.mk (-1) (-1) D.nrows true none [], ⟨1, 0⟩) := by
    simp [create, buildAD, rowCount, hthr]
    rfl
  have hs : sortQuery q ≠ [] := by
    intro e
    have := (sortQuery_perm q).length_eq
    rw [e] at this
    exact hq (List.length_eq_zero_iff.1 (by simpa using this.symm))
  show (do let p ← (create D dyn) ⟨0, 0⟩; queryCount D dyn q p.1 p.2) = _
  rw [hc]
  show queryCount D dyn q _ _ = _
  unfold queryCount
  cases h : sortQuery q with
  | nil => exact absurd h hs
  | cons p rest =>
    obtain ⟨c, v⟩ := p
    simp [queryNode, ADNode.leaf, queryLeaf, ADNode.rows]
    rfl

example : ∃ D : Data, D.nrows < D.threshold ∧ 0 < D.nrows :=
  ⟨{ exampleData with threshold := 16 }, by decide, by decide⟩

/-! ## C02 and C06 -/

/-- **C02 / C06.** Whatever valid requests a client sends, in whatever order, with
save/load cycles anywhere in between, every answer of a dynamic tree is right. -/
theorem dynamic_adtree_session_correct (D : Data) (hD : Usable D) (requests : List Request)
    (hv : ∀ r ∈ requests, r.Valid D) :
    Ok (session D true requests) ⟨0, 0⟩
      (fun result _ => List.Forall₂ (Correct D) requests result.1) := by
  refine Ok.bind ((create_treeOk hD true).mono ?_)
  intro root s h
  exact (serveAll_ok hD true requests h hv).mono (fun _ _ h => h.1)

/-- The same for static trees. -/
theorem static_adtree_session_correct (D : Data) (hD : Usable D) (requests : List Request)
    (hv : ∀ r ∈ requests, r.Valid D) :
    Ok (session D false requests) ⟨0, 0⟩
      (fun result _ => List.Forall₂ (Correct D) requests result.1) := by
  refine Ok.bind ((create_treeOk hD false).mono ?_)
  intro root s h
  exact (serveAll_ok hD false requests h hv).mono (fun _ _ h => h.1)

/-- **C06**, spelled out: after any valid history, saving and loading the tree and then
asking a valid request again gives a right answer (for both kinds of tree). -/
theorem adtree_reload_preserves_answers (D : Data) (hD : Usable D) (dyn : Bool)
    (history : List Request) (hv : ∀ r ∈ history, r.Valid D) (r : Request) (hr : r.Valid D) :
    Ok (do
        let root ← create D dyn
        let (_, root) ← serveAll D dyn history root
        let (a, _) ← serve D dyn (pickleAD dyn root) r
        pure a) ⟨0, 0⟩
      (fun answer _ => Correct D r answer) := by
  refine Ok.bind ((create_treeOk hD dyn).mono ?_)
  intro root s h
  refine Ok.bind ((serveAll_ok hD dyn history h hv).mono ?_)
  rintro ⟨as, root1⟩ s1 ⟨_, h1⟩
  have h2 : TreeOk D dyn (pickleAD dyn root1) s1 :=
    ⟨pickle_rep h1.1, by simpa using h1.2.1, by simpa using h1.2.2.1,
      fun w => by rw [pickle_size]; exact h1.2.2.2 w⟩
  refine Ok.bind ((serve_ok hD dyn h2 r hr).mono ?_)
  rintro ⟨a, _⟩ _ ⟨h3, _⟩
  exact Ok.ret h3

example : ∀ r ∈ [Request.count [(1, 2)], .reload, .pmf [2, 0], .count [(2, 2), (0, 0)]],
    r.Valid exampleData := by
  intro r hr
  simp only [List.mem_cons, List.not_mem_nil, or_false] at hr
  rcases hr with rfl | rfl | rfl | rfl
  · simp only [Request.Valid, ValidQuery]; decide
  · trivial
  · simp only [Request.Valid]; decide
  · simp only [Request.Valid, ValidQuery]; decide

/-! ## C03 -/

theorem dictGet_dictUpdate (d e : List (Nat × Int)) (he : (e.map Prod.fst).Nodup) (k : Nat) :
    dictGet (dictUpdate d e) k = (dictGet e k).or (dictGet d k) := by
  unfold dictUpdate
  induction e generalizing d with
  | nil => simp [dictGet]
  | cons p e ih =>
    obtain ⟨k', v⟩ := p
    simp only [List.map_cons, List.nodup_cons] at he
    simp only [List.foldl_cons]
    rw [ih _ he.2, dictGet_dictSet]
    by_cases h : k' = k
    · subst h
      have := (dictGet_none_iff e k').2 he.1
      simp [dictGet, this]
    · simp [dictGet, h]

theorem dictUpdate_nodup (d e : List (Nat × Int)) (hd : (d.map Prod.fst).Nodup) :
    ((dictUpdate d e).map Prod.fst).Nodup := by
  unfold dictUpdate
  induction e generalizing d with
  | nil => exact hd
  | cons p e ih =>
    apply ih
    rw [dictSet_keys]
    split
    · exact hd
    · next h =>
      rw [List.nodup_append]
      refine ⟨hd, by simp, ?_⟩
      intro a ha b hb e
      simp at hb; subst e; rw [hb] at ha; exact h ha

theorem mem_iff_dictGet {d : List (Nat × Int)} (hd : (d.map Prod.fst).Nodup) (k : Nat) (v : Int) :
    (k, v) ∈ d ↔ dictGet d k = some v :=
  ⟨dictGet_of_mem hd, dictGet_mem⟩

/-- Rows that match `values`, and match `given` on the columns `values` does not mention.
(Specification.) -/
def Spec.jointMatching (D : Data) (values given : List (Nat × Int)) : Nat :=
  rowsWith D (fun r => (∀ p ∈ values, D.cell r p.1 = p.2) ∧
    ∀ p ∈ given, p.1 ∉ values.map Prod.fst → D.cell r p.1 = p.2)

theorem joint_query (D : Data) (values given : List (Nat × Int)) (hv : ValidQuery D values)
    (hg : ValidQuery D given) :
    ValidQuery D (dictUpdate (dictUpdate [] given) values) ∧
    matching D (dictUpdate (dictUpdate [] given) values) = jointMatching D values given := by
  have n1 : ((dictUpdate [] given).map Prod.fst).Nodup := dictUpdate_nodup [] given (by simp)
  have n2 := dictUpdate_nodup (dictUpdate [] given) values n1
  have key : ∀ k v, (k, v) ∈ dictUpdate (dictUpdate [] given) values ↔
      ((k, v) ∈ values ∨ ((k, v) ∈ given ∧ k ∉ values.map Prod.fst)) := by
    intro k v
    rw [mem_iff_dictGet n2, dictGet_dictUpdate _ _ hv.1, dictGet_dictUpdate _ _ hg.1,
      mem_iff_dictGet hv.1, mem_iff_dictGet hg.1, ← dictGet_none_iff]
    cases h1 : dictGet values k <;> cases h2 : dictGet given k <;> simp [dictGet]
  refine ⟨⟨n2, ?_⟩, ?_⟩
  · rintro ⟨k, v⟩ hp
    rcases (key k v).1 hp with h | h
    · exact hv.2 _ h
    · exact hg.2 _ h.1
  · unfold matching jointMatching rowsWith
    congr 2
    funext r
    rw [decide_eq_decide]
    constructor
    · intro H
      refine ⟨fun p hp => H p ((key p.1 p.2).2 (Or.inl hp)), fun p hp hn => ?_⟩
      exact H p ((key p.1 p.2).2 (Or.inr ⟨hp, hn⟩))
    · rintro ⟨H1, H2⟩ ⟨k, v⟩ hp
      rcases (key k v).1 hp with h | h
      · exact H1 _ h
      · exact H2 _ h.1 h.2

/-- **C03.** `query(values, given)` is the ratio of matching rows, and raises
`ZeroDivisionError` exactly when no row matches `given`; in any history, for both kinds of
tree. -/
theorem adtree_query_ratio (D : Data) (hD : Usable D) (dyn : Bool) (history : List Request)
    (hh : ∀ r ∈ history, r.Valid D) (values given : List (Nat × Int))
    (hv : ValidQuery D values) (hg : ValidQuery D given) :
    (matching D given ≠ 0 →
      Ok (do
          let root ← create D dyn
          let (_, root) ← serveAll D dyn history root
          query D dyn values given root) ⟨0, 0⟩
        (fun answer _ => answer.1 = (jointMatching D values given : ℚ) / matching D given)) ∧
    (matching D given = 0 →
      Raises (do
          let root ← create D dyn
          let (_, root) ← serveAll D dyn history root
          query D dyn values given root) ⟨0, 0⟩ .zeroDivision) := by
  obtain ⟨root, s, e0, h0⟩ := create_treeOk hD dyn
  obtain ⟨⟨as, root1⟩, s1, e1, _, h1⟩ := serveAll_ok hD dyn history h0 hh
  obtain ⟨hj, hjm⟩ := joint_query D values given hv hg
  obtain ⟨⟨k, root2⟩, s2, e2, k2, h2⟩ := queryCount_ok hD hj h1.1 h1.2.1 s1
  have h2' := h2.treeOk h1
  obtain ⟨⟨m, root3⟩, s3, e3, k3, h3⟩ := queryCount_ok hD hg h2'.1 h2'.2.1 s2
  simp only at e1 e2 e3 k2 k3
  have hrun : (do
      let root ← create D dyn
      let (_, root) ← serveAll D dyn history root
      query D dyn values given root) (⟨0, 0⟩ : Counters) =
      (if (m = 0) then .error .zeroDivision else .ok (((k : ℚ) / (m : ℚ), root3), s3)) := by
    show (do let p ← create D dyn ⟨0, 0⟩
             let p ← serveAll D dyn history p.1 p.2
             query D dyn values given p.1.2 p.2) = _
    rw [e0]
    show (do let p ← serveAll D dyn history root s
             query D dyn values given p.1.2 p.2) = _
    rw [e1]
    show query D dyn values given root1 s1 = _
    unfold query
    show (do let p ← queryCount D dyn (dictUpdate (dictUpdate [] given) values) root1 s1
             let p2 ← queryCount D dyn given p.1.2 p.2
             (do if p2.1.1 = 0 then throw Err.zeroDivision
                 pure ((p.1.1 : ℚ) / (p2.1.1 : ℚ), p2.1.2) : TM (ℚ × ADNode)) p2.2) = _
    rw [e2]
    show (do let p2 ← queryCount D dyn given root2 s2
             (do if p2.1.1 = 0 then throw Err.zeroDivision
                 pure ((k : ℚ) / (p2.1.1 : ℚ), p2.1.2) : TM (ℚ × ADNode)) p2.2) = _
    rw [e3]
    show ((do if m = 0 then throw Err.zeroDivision
              pure ((k : ℚ) / (m : ℚ), root3) : TM (ℚ × ADNode)) s3) = _
    by_cases hm : m = 0
    · simp only [hm, if_true]; rfl
    · simp only [hm, if_false]; rfl
  constructor
  · intro hne
    have : ¬ m = 0 := by rw [k3]; exact_mod_cast hne
    rw [if_neg this] at hrun
    refine ⟨_, _, hrun, ?_⟩
    simp only
    rw [k2, k3, hjm]
    simp
  · intro he
    have : m = 0 := by rw [k3, he]; rfl
    rw [if_pos this] at hrun
    exact hrun

example : ValidQuery exampleData [(2, 2)] ∧ ValidQuery exampleData [(0, 0)] ∧
    matching exampleData [(0, 0)] ≠ 0 ∧ matching exampleData [(1, 7)] = 0 := by
  refine ⟨?_, ?_, by decide, by decide⟩ <;> (unfold ValidQuery; decide)

/-! ## C04 and C05 -/

/-- **C04 / C05.** The PMF of any non-empty set of columns is the exact frequency table
and sums to 1, for both kinds of tree and after any history. -/
theorem adtree_make_pmf_exact (D : Data) (hD : Usable D) (dyn : Bool) (history : List Request)
    (hh : ∀ r ∈ history, r.Valid D) (cols : List Nat) (hne : cols ≠ []) (hnd : cols.Nodup)
    (hlt : ∀ c ∈ cols, c < D.ncols) (hneg : ∀ c ∈ cols, (-1 : Int) ∉ D.values c) :
    Ok (do
        let root ← create D dyn
        let (_, root) ← serveAll D dyn history root
        makePmf D dyn cols root) ⟨0, 0⟩
      (fun result _ => IsFrequencyTable D cols.mergeSort result.1) := by
  refine Ok.bind ((create_treeOk hD dyn).mono ?_)
  intro root s h
  refine Ok.bind ((serveAll_ok hD dyn history h hh).mono ?_)
  rintro ⟨as, root1⟩ s1 ⟨_, h1⟩
  exact (makePmf_ok hD ⟨hne, hnd, hlt, hneg⟩ h1.1 h1.2.1 h1.2.2.1 s1).mono (fun _ _ h => h.1)

/-- Finding: the reserved value. A column containing -1 makes the table wrong: the key
component is skipped, so two of three rows are filed under the wrong key.
(Specification.) -/
def minusOneData : Data where
  nrows := 3
  ncols := 2
  cell r c := ([[-1, 5], [-1, 5], [0, 6]][r]?.bind (·[c]?)).getD 0
  values c := [[-1, 0], [5, 6]].getD c []
  threshold := 0

theorem adtree_minus_one_is_lost :
    (∃ t s, (do let root ← create minusOneData false
                contingencyTable minusOneData false [0, 1] root : TM _) ⟨0, 0⟩ = .ok (t, s) ∧
      dictGet t.1 [-1, 5] = none) ∧
    rowsWith minusOneData (fun r => [0, 1].map (minusOneData.cell r) = [-1, 5]) = 2 := by
  refine ⟨?_, by decide⟩
  have hs : [0, 1].mergeSort = [0, 1] := List.mergeSort_of_pairwise (by decide)
  unfold contingencyTable
  rw [hs]
  exact ⟨_, _, rfl, by decide⟩

/-- Finding: `make_pmf([])` raises `IndexError` on every usable dataset. -/
theorem adtree_make_pmf_empty_raises (D : Data) (hD : Usable D) (dyn : Bool) :
    Raises (do let root ← create D dyn; makePmf D dyn [] root) ⟨0, 0⟩ .indexError := by
  obtain ⟨root, s, e0, h0⟩ := create_treeOk hD dyn
  show (do let p ← create D dyn ⟨0, 0⟩; makePmf D dyn [] p.1 p.2) = _
  rw [e0]
  show makePmf D dyn [] root s = _
  have hv : root.value = -1 := h0.2.2.1
  simp [makePmf, contingencyTable, makeCT, CT.toDict, hv]
  rfl

/-! ## C07 -/

/-- **C07.** Construction of either kind of tree succeeds on a usable dataset, and the
root counts all rows. -/
theorem adtree_construction_succeeds (D : Data) (hD : Usable D) (dyn : Bool) :
    ∃ root s, newTree D dyn = .ok (root, s) ∧ root.count = D.nrows := by
  obtain ⟨root, s, e, h⟩ := create_treeOk hD dyn
  exact ⟨root, s, e, by rw [h.1.inv.2.1]; simp⟩

/-- Finding: a dataset without rows has no values, and a static tree over at least one
column cannot be built (`max()` of an empty sequence). -/
theorem adtree_empty_dataset_raises (D : Data) (hrows : D.nrows = 0) (hcols : 0 < D.ncols)
    (hthr : D.threshold = 0) (hvals : D.values 0 = []) :
    newTree D false = .error .valueError := by
  obtain ⟨n, hn⟩ : ∃ n, D.ncols = n + 1 := ⟨D.ncols - 1, by omega⟩
  unfold newTree create
  rw [hn]
  unfold buildAD
  have hr : rangeFrom ((-1 : Int) + 1).toNat (n + 1) =
      0 :: (List.range n).map (fun x => x + 1) := by
    simp [rangeFrom, List.range_succ_eq_map]
  simp only [rowCount, hrows, hthr, hn]
  rw [hr]
  simp [mapList, buildVary, hvals, pyMaxKey, hn]
  rfl

/-! ## C08 -/

/-- `m` is `n` or an AD node somewhere below it. (Specification.) -/
inductive Spec.NodeBelow : ADNode → ADNode → Prop
  | refl (n : ADNode) : NodeBelow n n
  | step (n m k : ADNode) (v : VaryNode) : v ∈ n.varys → some m ∈ v.ads → NodeBelow m k →
      NodeBelow n k

theorem RepAD.rep_below {D : Data} {dyn : Bool} {n m : ADNode} (h : NodeBelow n m) :
    ∀ {rows : List Nat}, RepAD D dyn rows n → ∃ rows', RepAD D dyn rows' m := by
  induction h with
  | refl n => intro rows h; exact ⟨rows, h⟩
  | step n m k v hv hm _ ih =>
    intro rows h
    have hvr := h.inv.2.2.2.2.2.2.1 v hv
    obtain ⟨_, _, _, _, h5⟩ := hvr.forall₂
    obtain ⟨i, hi, e⟩ := List.mem_iff_getElem.1 hm
    have hl := h5.length_eq
    have := (List.forall₂_iff_get.1 h5).2 i (by omega) hi
    simp only [List.get_eq_getElem, e] at this
    exact ih (this.2 m rfl).2.2

/-- **C08.** After any valid session the counters equal the number of AD nodes and of Vary
nodes in the tree, and no AD node has two Vary children for one column. -/
theorem adtree_counters_exact (D : Data) (hD : Usable D) (dyn : Bool) (requests : List Request)
    (hv : ∀ r ∈ requests, r.Valid D) :
    Ok (session D dyn requests) ⟨0, 0⟩ (fun result counters =>
      counters.ad = sizeAD (1, 0) result.2 ∧ counters.vary = sizeAD (0, 1) result.2 ∧
      ∀ m, NodeBelow result.2 m → (m.varys.map VaryNode.col).Nodup) := by
  refine Ok.bind ((create_treeOk hD dyn).mono ?_)
  intro root s h
  refine (serveAll_ok hD dyn requests h hv).mono ?_
  rintro ⟨as, root'⟩ s' ⟨_, h1⟩
  refine ⟨?_, ?_, ?_⟩
  · have := h1.2.2.2 (1, 0); simpa [Counters.val] using this
  · have := h1.2.2.2 (0, 1); simpa [Counters.val] using this
  · intro m hm
    obtain ⟨rows, hr⟩ := RepAD.rep_below hm h1.1
    exact hr.inv.2.2.2.2.2.2.2.1.1

/-- Every node of the tree stands for a non-trivial set of rows and is reachable: the
example tree has more than one AD node. -/
example : ∃ root s, newTree exampleData false = .ok (root, s) ∧ s = ⟨4, 3⟩ :=
  ⟨_, _, rfl, by decide⟩

end Mbtk.ADTree
