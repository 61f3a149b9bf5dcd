import Verif.ADTree.Model
import Mathlib.Data.List.Forall2
import Mathlib.Data.List.Nodup
import Mathlib.Algebra.BigOperators.Group.List.Basic
import Mathlib.Tactic.Ring
import Mathlib.Tactic.Linarith
/-!
# Representation invariant of (static and dynamic) AD-trees, and construction
-/
namespace Mbtk.ADTree

/-- The dataset is well-formed for an AD-tree: at least one row, and the value list of
every column contains every value of the column, without repetition (what
`DatasetMatrix.get_values_per_column` returns).
(Models no code: a notion for statements and proofs.) -/
structure Data.WF (D : Data) : Prop where
  rows_pos : 0 < D.nrows
  nodup : ∀ c < D.ncols, (D.values c).Nodup
  cover : ∀ c < D.ncols, ∀ r < D.nrows, D.cell r c ∈ D.values c

/-- The rows of `rows` whose value in column `c` is `v`.
(Models no code: a notion for statements and proofs.) -/
def sel (D : Data) (c : Nat) (v : Int) (rows : List Nat) : List Nat :=
  rows.filter (fun r => decide (D.cell r c = v))

theorem groupRows_eq (D : Data) (c : Nat) (rows : List Nat) (v : Int) :
    groupRows D c rows v = sel D c v rows := by
  have key : ∀ (rows : List Nat) (d : Int → List Nat),
      (rows.foldl (fun d r => fun v => if v = D.cell r c then d v ++ [r] else d v) d) v
        = d v ++ sel D c v rows := by
    intro rows
    induction rows with
    | nil => intro d; simp [sel]
    | cons r rows ih =>
      intro d
      simp only [List.foldl_cons]
      rw [ih]
      unfold sel
      by_cases h : D.cell r c = v
      · simp [h]
      · have h' : ¬ v = D.cell r c := fun e => h e.symm
        simp [h, h']
  have := key rows (fun _ => [])
  simpa [groupRows] using this

mutual
/-- (Models no code: a notion for statements and proofs.) -/
inductive RepAD (D : Data) (dyn : Bool) : List Nat → ADNode → Prop
  | mk (rows : List Nat) (col value count : Int) (leaf : Bool) (rs : Option (List Nat))
      (vs : List VaryNode)
      (hsub : ∀ r ∈ rows, r < D.nrows)
      (hcount : count = (rows.length : Int))
      (hleaf : leaf = decide (rows.length < D.threshold))
      (hrs : dyn = true ∨ leaf = true → rs.getD (List.range D.nrows) = rows)
      (hrs2 : leaf = true → rs = some rows)
      (hcol : -1 ≤ col)
      (hvs : ∀ v ∈ vs, RepVary D dyn rows v)
      (hcols : (vs.map VaryNode.col).Nodup ∧ ∀ c ∈ vs.map VaryNode.col, col < (c : Int))
      (hcomplete : dyn = false → leaf = false → ∀ c : Nat, col < c → c < D.ncols →
        c ∈ vs.map VaryNode.col)
      (hleafvs : leaf = true → vs = []) :
      RepAD D dyn rows (.mk col value count leaf rs vs)
/-- (Models no code: a notion for statements and proofs.) -/
inductive RepVary (D : Data) (dyn : Bool) : List Nat → VaryNode → Prop
  | mk (rows : List Nat) (c : Nat) (mcv : Int) (ads : List (Option ADNode))
      (hc : c < D.ncols)
      (hmcv : mcv ∈ D.values c ∧
        pyMaxKey (fun v => (sel D c v rows).length) (D.values c) = .ok mcv)
      (hmax : ∀ v ∈ D.values c, (sel D c v rows).length ≤ (sel D c mcv rows).length)
      (hlen : ads.length = (D.values c).length)
      (hshape : ∀ (i : Nat) (v : Int) (o : Option ADNode), (D.values c)[i]? = some v →
        ads[i]? = some o →
        (o = none ↔ ¬ (0 < (sel D c v rows).length ∧ v ≠ mcv)) ∧
        ∀ ch, o = some ch → ch.value = v ∧ ch.col = (c : Int))
      (hrep : ∀ (i : Nat) (v : Int) (ch : ADNode), (D.values c)[i]? = some v →
        ads[i]? = some (some ch) → RepAD D dyn (sel D c v rows) ch) :
      RepVary D dyn rows (.mk c (D.values c) mcv ads)
end

/-- What a child slot of a Vary node holds.
(Models no code: a notion for statements and proofs.) -/
def ChildOk (D : Data) (dyn : Bool) (rows : List Nat) (c : Nat) (mcv v : Int)
    (o : Option ADNode) : Prop :=
  (o = none ↔ ¬ (0 < (sel D c v rows).length ∧ v ≠ mcv)) ∧
  ∀ ch, o = some ch → ch.value = v ∧ ch.col = (c : Int) ∧ RepAD D dyn (sel D c v rows) ch

theorem RepVary.forall₂ {D : Data} {dyn : Bool} {rows : List Nat} {w : VaryNode}
    (h : RepVary D dyn rows w) :
    w.col < D.ncols ∧ w.values = D.values w.col ∧ w.mcv ∈ D.values w.col ∧
    (∀ v ∈ D.values w.col, (sel D w.col v rows).length ≤ (sel D w.col w.mcv rows).length) ∧
    List.Forall₂ (ChildOk D dyn rows w.col w.mcv) (D.values w.col) w.ads := by
  cases h with
  | mk rows c mcv ads hc hmcv hmax hlen hshape hrep =>
    refine ⟨hc, rfl, hmcv.1, hmax, ?_⟩
    rw [List.forall₂_iff_get]
    refine ⟨hlen.symm, ?_⟩
    intro i h1 h2
    have e1 : (D.values c)[i]? = some ((D.values c).get ⟨i, h1⟩) := by simp
    have e2 : ads[i]? = some (ads.get ⟨i, h2⟩) := by
      rw [List.get_eq_getElem]; exact List.getElem?_eq_getElem h2
    have := hshape i _ _ e1 e2
    refine ⟨this.1, fun ch hch => ⟨(this.2 ch hch).1, (this.2 ch hch).2, ?_⟩⟩
    exact hrep i _ ch e1 (by rw [e2]; exact congrArg some hch)

/-- The most common value is determined by the rows. -/
theorem RepVary.mcv_eq {D : Data} {dyn : Bool} {rows : List Nat} {w : VaryNode}
    (h : RepVary D dyn rows w) :
    pyMaxKey (fun v => (sel D w.col v rows).length) (D.values w.col) = .ok w.mcv := by
  cases h with
  | mk rows c mcv ads hc hmcv hmax hlen hshape hrep => exact hmcv.2

theorem RepVary.of_forall₂ {D : Data} {dyn : Bool} {rows : List Nat} {c : Nat} {mcv : Int}
    {ads : List (Option ADNode)} (hc : c < D.ncols) (hmcv : mcv ∈ D.values c ∧
      pyMaxKey (fun v => (sel D c v rows).length) (D.values c) = .ok mcv)
    (hmax : ∀ v ∈ D.values c, (sel D c v rows).length ≤ (sel D c mcv rows).length)
    (h : List.Forall₂ (ChildOk D dyn rows c mcv) (D.values c) ads) :
    RepVary D dyn rows (.mk c (D.values c) mcv ads) := by
  have hlen := h.length_eq
  rw [List.forall₂_iff_get] at h
  have get : ∀ (i : Nat) (v : Int) (o : Option ADNode), (D.values c)[i]? = some v →
      ads[i]? = some o → ChildOk D dyn rows c mcv v o := by
    intro i v o h1 h2
    obtain ⟨h1a, h1b⟩ := List.getElem?_eq_some_iff.1 h1
    obtain ⟨h2a, h2b⟩ := List.getElem?_eq_some_iff.1 h2
    have := h.2 i h1a h2a
    simp only [List.get_eq_getElem] at this
    rw [h1b, h2b] at this
    exact this
  refine .mk rows c mcv ads hc hmcv hmax hlen.symm ?_ ?_
  · intro i v o h1 h2
    have := get i v o h1 h2
    exact ⟨this.1, fun ch hch => ⟨(this.2 ch hch).1, (this.2 ch hch).2.1⟩⟩
  · intro i v ch h1 h2
    exact ((get i v _ h1 h2).2 ch rfl).2.2

/-! ## Sizes -/

/-- The two counters combined with weights, so that one equation covers both.
(Models no code: a notion for statements and proofs.) -/
def Counters.val (w : Nat × Nat) (s : Counters) : Nat := w.1 * s.ad + w.2 * s.vary

mutual
/-- Number of AD nodes (weight `w.1`) and Vary nodes (weight `w.2`) in a tree.
(Models no code: a notion for statements and proofs.) -/
def sizeAD (w : Nat × Nat) : ADNode → Nat
  | .mk _ _ _ _ _ vs => w.1 + sizeVarys w vs
/-- (Models no code: a notion for statements and proofs.) -/
def sizeVary (w : Nat × Nat) : VaryNode → Nat
  | .mk _ _ _ ads => w.2 + sizeADs w ads
/-- (Models no code: a notion for statements and proofs.) -/
def sizeVarys (w : Nat × Nat) : List VaryNode → Nat
  | [] => 0
  | v :: vs => sizeVary w v + sizeVarys w vs
/-- (Models no code: a notion for statements and proofs.) -/
def sizeADs (w : Nat × Nat) : List (Option ADNode) → Nat
  | [] => 0
  | none :: rest => sizeADs w rest
  | some n :: rest => sizeAD w n + sizeADs w rest
end

theorem sizeVarys_append (w : Nat × Nat) (a b : List VaryNode) :
    sizeVarys w (a ++ b) = sizeVarys w a + sizeVarys w b := by
  induction a with
  | nil => simp [sizeVarys]
  | cons x a ih => simp [sizeVarys, ih]; omega

theorem sizeVarys_set (w : Nat × Nat) (l : List VaryNode) (i : Nat) (v v' : VaryNode)
    (h : l[i]? = some v) :
    sizeVarys w (l.set i v') + sizeVary w v = sizeVarys w l + sizeVary w v' := by
  induction l generalizing i with
  | nil => simp at h
  | cons x l ih =>
    cases i with
    | zero => simp at h; subst h; simp [sizeVarys]; omega
    | succ i => simp at h; have := ih i h; simp [sizeVarys]; omega

theorem sizeADs_set (w : Nat × Nat) (l : List (Option ADNode)) (i : Nat) (v v' : ADNode)
    (h : l[i]? = some (some v)) :
    sizeADs w (l.set i (some v')) + sizeAD w v = sizeADs w l + sizeAD w v' := by
  induction l generalizing i with
  | nil => simp at h
  | cons x l ih =>
    cases i with
    | zero => simp at h; subst h; simp [sizeADs]; omega
    | succ i =>
      simp at h; have := ih i h
      cases x <;> simp [sizeADs] <;> omega

/-! ## Construction -/

theorem sel_lt {D : Data} {c : Nat} {v : Int} {rows : List Nat}
    (h : ∀ r ∈ rows, r < D.nrows) : ∀ r ∈ sel D c v rows, r < D.nrows := by
  intro r hr
  exact h r (List.mem_filter.1 hr).1

/-- `buildVary` succeeds and represents the given rows, provided the AD-node constructor
does. -/
theorem buildVary_ok {D : Data} {dyn : Bool} (hD : D.WF)
    {mkAD : Int → Int → List Nat → TM ADNode} {c : Nat} {rs : Option (List Nat)}
    {rows : List Nat} (hc : c < D.ncols) (hrs : rs.getD (List.range D.nrows) = rows)
    (hsub : ∀ r ∈ rows, r < D.nrows)
    (hmk : ∀ v sub s, (∀ r ∈ sub, r < D.nrows) →
      Ok (mkAD c v sub) s (fun n s' => RepAD D dyn sub n ∧ n.col = c ∧ n.value = v ∧
        ∀ w, s'.val w = s.val w + sizeAD w n))
    (s : Counters) :
    Ok (buildVary D mkAD c rs) s (fun n s' => RepVary D dyn rows n ∧ n.col = c ∧
      ∀ w, s'.val w = s.val w + sizeVary w n) := by
  unfold buildVary
  rw [hrs]
  simp only [Nat.not_le.2 hc, if_false]
  have hne : D.values c ≠ [] := by
    have := hD.cover c hc 0 hD.rows_pos
    intro e; rw [e] at this; simp at this
  obtain ⟨mcv, hm1, hm2, hm3⟩ :=
    pyMaxKey_spec (fun v => (groupRows D c rows v).length) (D.values c) hne
  refine Ok.bind (Ok.lift hm1 ?_)
  refine Ok.bind (Ok.modify ?_)
  have hloop : ∀ (vals : List Int) (s : Counters),
      Ok (mapList (fun v =>
        if (groupRows D c rows v).length > 0 ∧ v ≠ mcv then do
          let n ← mkAD c v (groupRows D c rows v)
          pure (some n)
        else pure none) vals) s
        (fun ads s' => List.Forall₂ (ChildOk D dyn rows c mcv) vals ads ∧
          ∀ w, s'.val w = s.val w + sizeADs w ads) := by
    intro vals
    induction vals with
    | nil => intro s; exact Ok.ret ⟨.nil, by simp [sizeADs]⟩
    | cons v vals ih =>
      intro s
      unfold mapList
      simp only [groupRows_eq] at ih ⊢
      by_cases hcond : (sel D c v rows).length > 0 ∧ v ≠ mcv
      · rw [if_pos hcond]
        refine Ok.bind (Ok.bind ((hmk v _ s (sel_lt hsub)).mono ?_))
        rintro n s1 ⟨h1, h2, h3, h4⟩
        refine Ok.ret ?_
        refine Ok.bind ((ih s1).mono ?_)
        rintro ads s2 ⟨g1, g2⟩
        refine Ok.ret ⟨.cons ⟨by simp; exact hcond, ?_⟩ g1, ?_⟩
        · intro ch hch; cases hch; exact ⟨h3, h2, h1⟩
        · intro w; rw [g2, h4]; simp [sizeADs]; omega
      · rw [if_neg hcond]
        refine Ok.bind (Ok.ret ?_)
        refine Ok.bind ((ih s).mono ?_)
        rintro ads s2 ⟨g1, g2⟩
        refine Ok.ret ⟨.cons ⟨by simpa using hcond, by simp⟩ g1, ?_⟩
        intro w; rw [g2]; simp [sizeADs]
  refine Ok.bind ((hloop _ _).mono ?_)
  rintro ads s' ⟨h1, h2⟩
  refine Ok.ret ⟨RepVary.of_forall₂ hc ⟨hm2, by simpa only [groupRows_eq] using hm1⟩ ?_ h1,
    rfl, ?_⟩
  · intro v hv; have := hm3 v hv; simpa only [groupRows_eq] using this
  · intro w; rw [h2]; simp [sizeVary, Counters.val]; ring

theorem mem_rangeFrom (lo hi c : Nat) : c ∈ rangeFrom lo hi ↔ lo ≤ c ∧ c < hi := by
  unfold rangeFrom
  simp only [List.mem_map, List.mem_range]
  constructor
  · rintro ⟨a, h, rfl⟩; omega
  · rintro ⟨h1, h2⟩; exact ⟨c - lo, by omega, by omega⟩

theorem nodup_rangeFrom (lo hi : Nat) : (rangeFrom lo hi).Nodup := by
  unfold rangeFrom
  exact List.Nodup.map (fun a b h => by simpa using h) List.nodup_range

theorem buildAD_ok {D : Data} {dyn : Bool} (hD : D.WF) (fuel : Nat) :
    ∀ (col value : Int) (rs : Option (List Nat)) (rows : List Nat) (s : Counters),
    -1 ≤ col → D.ncols - (col + 1).toNat < fuel ∨ (dyn = true ∧ 0 < fuel) →
    rs.getD (List.range D.nrows) = rows → (∀ r ∈ rows, r < D.nrows) →
    (rs = none → D.threshold ≤ D.nrows) →
    Ok (buildAD D dyn fuel col value rs) s (fun n s' => RepAD D dyn rows n ∧ n.col = col ∧
      n.value = value ∧ ∀ w, s'.val w = s.val w + sizeAD w n) := by
  induction fuel with
  | zero => intro col value rs rows s _ h; omega
  | succ fuel ih =>
    intro col value rs rows s hcol hfuel hrs hsub hroot
    unfold buildAD
    have hcount : rowCount D rs = rows.length := by
      cases rs with
      | none => simp at hrs; simp [rowCount, ← hrs]
      | some r => simp at hrs; simp [rowCount, hrs]
    simp only [hcount]
    have hleafrs : decide (rows.length < D.threshold) = true → rs = some rows := by
      intro hl
      cases rs with
      | none =>
        have := hroot rfl
        simp at hrs; subst hrs; simp at hl; omega
      | some r => simp at hrs; simp [hrs]
    refine Ok.bind (Ok.modify ?_)
    by_cases hcond : decide (rows.length < D.threshold) = true ∨ dyn = true
    · rw [if_pos hcond]
      refine Ok.ret ⟨.mk rows col value _ _ _ _ hsub rfl rfl (fun _ => hrs) hleafrs hcol
        (by simp) (by simp) ?_ (by simp), rfl, rfl, ?_⟩
      · intro h1 h2; rcases hcond with h | h <;> simp_all
      · intro w; simp [sizeAD, sizeVarys, Counters.val]; ring
    · rw [if_neg hcond]
      have hcond' := not_or.1 hcond
      have hdyn : dyn = false := by simpa using hcond'.2
      have hloop : ∀ (cs : List Nat) (s : Counters), (∀ c ∈ cs, col < c ∧ c < D.ncols) →
          Ok (mapList (fun c => buildVary D
            (fun c v sel => buildAD D dyn fuel c v (some sel)) c rs) cs) s
            (fun vs s' => (∀ v ∈ vs, RepVary D dyn rows v) ∧ vs.map VaryNode.col = cs ∧
              ∀ w, s'.val w = s.val w + sizeVarys w vs) := by
        intro cs
        induction cs with
        | nil => intro s _; exact Ok.ret ⟨by simp, by simp, by simp [sizeVarys]⟩
        | cons c cs ihc =>
          intro s hcs
          have hc := hcs c (by simp)
          unfold mapList
          refine Ok.bind ((buildVary_ok (dyn := dyn) hD hc.2 hrs hsub ?_ s).mono ?_)
          · intro v sub s hs
            exact ih c v (some sub) sub s (by omega)
              (by left; rcases hfuel with h | h
                  · omega
                  · simp [hdyn] at h) rfl hs (by simp)
          · rintro v s1 ⟨h1, h2, h3⟩
            refine Ok.bind ((ihc s1 (fun c hc => hcs c (by simp [hc]))).mono ?_)
            rintro vs s2 ⟨g1, g2, g3⟩
            refine Ok.ret ⟨?_, by simp [h2, g2], ?_⟩
            · intro u hu; rcases List.mem_cons.1 hu with rfl | hu
              · exact h1
              · exact g1 u hu
            · intro w; rw [g3, h3]; simp [sizeVarys]; omega
      refine Ok.bind ((hloop _ _ ?_).mono ?_)
      · intro c hc; rw [mem_rangeFrom] at hc; omega
      · rintro vs s' ⟨h1, h2, h3⟩
        refine Ok.ret ⟨.mk rows col value _ _ _ _ hsub rfl rfl (fun _ => hrs) hleafrs hcol
          h1 ?_ ?_ ?_, rfl, rfl, ?_⟩
        · rw [h2]
          refine ⟨nodup_rangeFrom _ _, ?_⟩
          intro c hc; rw [mem_rangeFrom] at hc; omega
        · intro _ _ c hc1 hc2; rw [h2, mem_rangeFrom]; omega
        · intro h; exact absurd h hcond'.1
        · intro w; rw [h3]; simp [sizeAD, Counters.val]; ring

/-- Construction never fails on a well-formed dataset and represents all rows. -/
theorem create_ok {D : Data} (hD : D.WF) (dyn : Bool) (hthr : D.threshold ≤ D.nrows)
    (s : Counters) :
    Ok (create D dyn) s (fun n s' => RepAD D dyn (List.range D.nrows) n ∧ n.col = -1 ∧
      n.value = -1 ∧ ∀ w, s'.val w = s.val w + sizeAD w n) := by
  unfold create
  exact buildAD_ok hD _ _ _ _ _ _ (by omega) (by left; simp) rfl
    (by simp) (fun _ => hthr)

end Mbtk.ADTree
