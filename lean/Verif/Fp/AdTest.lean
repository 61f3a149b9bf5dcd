import Verif.Fp.GExample
/-!
# The G-test with an AD-tree in floating point (C84)

Counts in the tree are whole numbers; `make_pmf` divides them as `float`s, and everything after that is
rounded as in the unoptimised test.
-/
namespace Mbtk.Fp
open Mbtk Mbtk.Stats Mbtk.Stats.Spec
open Mbtk.ADTree (Data ADNode Counters TM contingencyTable divideAll makePmf)
open Mbtk.ADTree.Spec (Usable)
open Mbtk.MB (Answer)
open Real (log)

/-! ## Model -/

/-- The division loop of `make_pmf`: ADTree.py 84-86; an `int` divided by a `float` is converted first. -/
def divideAllF (total : ℚ) : List (List Int × Option Int) → Except Err (List (List Int × ℚ))
  | [] => .ok []
  | (_, none) :: _ => .error .typeError
  | (k, some n) :: rest =>
    if total = 0 then .error .zeroDivision
    else do
      let rest' ← divideAllF total rest
      .ok ((k, fl (fl (n : ℚ) / total)) :: rest')

/-- `ADTree.make_pmf(variables)`: ADTree.py 79-90; `total_count = 1.0 * self.root.count`. -/
def makePmfF (D : Data) (dyn : Bool) (cols : List Nat) (root : ADNode) :
    TM (List (List Int × ℚ) × ADNode) := do
  let (ct, root) ← contingencyTable D dyn cols root
  let probabilities ← liftM (divideAllF (fl (root.count : ℚ)) ct)
  pure (probabilities, root)

/-- `self.AD_tree.make_pmf(variables)`: ADTree.py 79-90. -/
def adPmfF (D : Data) (dyn : Bool) (cols : List Nat) : PyM AdState PMF := fun s =>
  match makePmfF D dyn cols s.root s.counters with
  | .error e => .error e
  | .ok ((d, root), counters) =>
    .ok ({ probabilities := d.map (fun p => (mkKey p.1, p.2)), variableIDs := [],
           jointIDs := some (cols.mergeSort.map (fun c : Nat => (c : Int))) },
      { s with root := root, counters := counters })

/-- `make_cpmf_PrXYcZ`: G_test__with_AD_tree.py 157-184. -/
def adCpmfXYF (D : Data) (dyn : Bool) (X Y : Nat) (Z : List Nat) (prZ : PMF) :
    PyM AdState (CPMF × PMF) := do
  let joint := (X :: Y :: Z).mergeSort
  let prXYZ ← adPmfF D dyn joint
  let c ← liftM (conditionLoopF (condKeyOf (castIds joint) (castIds Z))
    (restKeyOf (castIds joint) (castIds ((X :: Y :: Z).filter (fun v => v ∉ Z)))) prZ []
    prXYZ.probabilities)
  pure (c, prXYZ)

/-- `make_cpmf_PrXcZ`: G_test__with_AD_tree.py 187-214. -/
def adCpmfXF (D : Data) (dyn : Bool) (X : Nat) (Z : List Nat) (prZ : PMF) :
    PyM AdState (CPMF × PMF) := do
  let joint := (X :: Z).mergeSort
  let prXZ ← adPmfF D dyn joint
  let c ← liftM (conditionLoopF (condKeyOf (castIds joint) (castIds Z))
    (scalarKeyOf (castIds joint) (castIds ((X :: Z).filter (fun v => v ∉ Z)))) prZ []
    prXZ.probabilities)
  pure (c, prXZ)

/-- `calculate_pmf_from_AD_tree`: G_test__with_AD_tree.py 124-154. -/
def adTablesF (D : Data) (dyn : Bool) (kind : DofKind) (X Y : Nat) (Z : List Nat) :
    PyM AdState Tables := do
  if Z = [] then
    let prXY ← adPmfF D dyn [X, Y].mergeSort
    let prXY ← adOrder X Y prXY
    let prX ← adPmfF D dyn [X]
    let prY ← adPmfF D dyn [Y]
    let prXY ← adContext kind prXY
    let prX ← adContext kind prX
    let prY ← adContext kind prY
    pure ⟨omegaCPMF prXY, omegaCPMF prX, omegaCPMF prY, omegaPMF⟩
  else
    let Z := Z.mergeSort
    let prZ ← adPmfF D dyn Z
    let (prXYcZ, prXYZ) ← adCpmfXYF D dyn X Y Z prZ
    let (prXcZ, prXZ) ← adCpmfXF D dyn X Z prZ
    let (prYcZ, prYZ) ← adCpmfXF D dyn Y Z prZ
    let _ ← adContext kind prXYZ
    let _ ← adContext kind prXZ
    let _ ← adContext kind prYZ
    let prZ ← adContext kind prZ
    pure ⟨prXYcZ, prXcZ, prYcZ, prZ⟩

/-- `G_test_conditionally_independent`: G_test__with_AD_tree.py 79-121. -/
noncomputable def adTestF (flog : ℚ → ℚ) (D : Data) (dyn : Bool) (cfg : Config) (X Y : Nat)
    (Z : List Nat) : PyM AdState Result := fun s => do
  let N := s.root.count.toNat
  let (t, s) ← adTablesF D dyn cfg.kind X Y Z s
  let (dof, t) ← calculateDof D cfg.kind s.base.cache X Y Z t
  pure (makeResult cfg N s.base.counter X Y Z ((gValueF flog N t : ℚ) : ℝ) dof, s)

/-- A call of the AD-tree test: G_test__with_AD_tree.py 79-116, G_test__unoptimized.py 45-62. -/
noncomputable def adCallF (flog : ℚ → ℚ) (D : Data) (dyn : Bool) (cfg : Config)
    (c : Nat × Nat × List Nat) : PyM AdState Answer :=
  conditionallyIndependent cfg (adTestF flog D dyn cfg)
    (fun r s => { s with base := s.base.log r }) c.1 c.2.1 c.2.2

/-! ## Computations with a state that run in step -/

/-- Whenever the exact computation succeeds from `s`, so does the rounded one, with a related result and
the same state. (Models no code: a notion for statements and proofs.) -/
def SimAt {σ α β : Type} (R : α → β → Prop) (m' : PyM σ α) (m : PyM σ β) (s : σ) : Prop :=
  ∀ b s', m s = .ok (b, s') → ∃ a, m' s = .ok (a, s') ∧ R a b

theorem SimAt.bind {σ α β γ δ : Type} {R : α → β → Prop} {S : γ → δ → Prop} {m' : PyM σ α}
    {m : PyM σ β} {f' : α → PyM σ γ} {f : β → PyM σ δ} {s : σ} (h : SimAt R m' m s)
    (hf : ∀ a b s', m s = .ok (b, s') → R a b → SimAt S (f' a) (f b) s') :
    SimAt S (m' >>= f') (m >>= f) s := by
  intro d s2 hd
  cases hm : m s with
  | error e =>
    have : (m >>= f) s = .error e := by
      show (m s >>= fun p => f p.1 p.2) = _
      rw [hm]; rfl
    rw [this] at hd; exact nomatch hd
  | ok p =>
    obtain ⟨b, s1⟩ := p
    obtain ⟨a, ha, hab⟩ := h b s1 hm
    have e1 : (m >>= f) s = f b s1 := by
      show (m s >>= fun p => f p.1 p.2) = _
      rw [hm]; rfl
    rw [e1] at hd
    obtain ⟨c, hc, hcd⟩ := hf a b s1 hm hab d s2 hd
    refine ⟨c, ?_, hcd⟩
    show (m' s >>= fun p => f' p.1 p.2) = _
    rw [ha]; exact hc

theorem SimAt.ret {σ α β : Type} {R : α → β → Prop} {a : α} {b : β} {s : σ} (h : R a b) :
    SimAt R (pure a : PyM σ α) (pure b) s := by
  intro b' s' hb
  have : (b, s) = (b', s') := by
    have e : (pure b : PyM σ β) s = .ok (b, s) := rfl
    rw [e] at hb; injection hb
  injection this with h1 h2
  subst h1; subst h2
  exact ⟨a, rfl, h⟩

theorem SimAt.lift {σ α β : Type} {R : α → β → Prop} {m' : Except Err α} {m : Except Err β} {s : σ}
    (h : SimE R m' m) : SimAt R (liftM m' : PyM σ α) (liftM m) s := by
  intro b s' hb
  cases hm : m with
  | error e => rw [hm] at hb; exact nomatch hb
  | ok b0 =>
    rw [hm] at hb
    have : (b0, s) = (b, s') := by
      have e : (liftM (Except.ok b0 : Except Err β) : PyM σ β) s = .ok (b0, s) := rfl
      rw [e] at hb; injection hb
    injection this with h1 h2
    subst h1; subst h2
    obtain ⟨a, ha, hab⟩ := h b0 hm
    exact ⟨a, by rw [ha]; rfl, hab⟩

theorem SimAt.ok {σ α β : Type} {R : α → β → Prop} {m' : PyM σ α} {m : PyM σ β} {s : σ}
    {P : β → σ → Prop} (h : SimAt R m' m s) (hm : Ok m s P) :
    Ok m' s (fun a s' => ∃ b, R a b ∧ P b s') := by
  obtain ⟨b, s', e, hp⟩ := hm
  obtain ⟨a, ea, hab⟩ := h b s' e
  exact ⟨a, s', ea, b, hab, hp⟩

theorem Ok.det {σ α : Type} {m : PyM σ α} {s : σ} {P : α → σ → Prop} (h : Ok m s P) {a : α} {s' : σ}
    (e : m s = .ok (a, s')) : P a s' := by
  obtain ⟨a1, s1, e1, hp⟩ := h
  rw [e] at e1
  injection e1 with e1
  injection e1 with h1 h2
  subst h1; subst h2
  exact hp

/-! ## Probabilities from counts -/

theorem divideAll_sim (total' total : ℚ) (hz : total' = 0 ↔ total = 0)
    (ct : List (List Int × Option Int)) :
    SimE (List.Forall₂ (fun p q => p.1 = q.1 ∧ ∃ n : Int, q.2 = (n : ℚ) / total ∧
      p.2 = fl (fl (n : ℚ) / total'))) (divideAllF total' ct) (divideAll total ct) := by
  induction ct with
  | nil => exact SimE.ret .nil
  | cons c ct ih =>
    obtain ⟨k, n⟩ := c
    cases n with
    | none => intro b hb; exact nomatch hb
    | some n =>
      unfold divideAllF divideAll
      by_cases h0 : total = 0
      · rw [if_pos (hz.2 h0), if_pos h0]
        intro b hb; exact nomatch hb
      · rw [if_neg (fun h => h0 (hz.1 h)), if_neg h0]
        exact SimE.bind ih (fun a b _ hab => SimE.ret (.cons ⟨rfl, n, rfl, rfl⟩ hab))

theorem freq_le_one' (D : Data) (cols : List Nat) (vals : List Int) : freq D cols vals ≤ 1 := by
  unfold freq
  by_cases h : D.nrows = 0
  · rw [h]; simp
  · rw [div_le_one (by exact_mod_cast Nat.pos_of_ne_zero h)]
    unfold Mbtk.ADTree.Spec.rowsWith
    have := List.length_filter_le (fun r => decide (cols.map (D.cell r) = vals)) (List.range D.nrows)
    rw [List.length_range] at this
    exact_mod_cast this

theorem count_near {n : Int} {N : Nat} (hN : N ≠ 0) (h53 : N ≤ 2 ^ 53) (h0 : 0 ≤ (n : ℚ) / N)
    (h1 : (n : ℚ) / N ≤ 1) : NearP (fl (fl (n : ℚ) / fl (N : ℚ))) (n / N) := by
  have hNp : (0 : ℚ) < N := by exact_mod_cast Nat.pos_of_ne_zero hN
  have hn0 : 0 ≤ n := by
    have : (0 : ℚ) ≤ n := by
      by_contra hc
      rw [not_le] at hc
      exact absurd h0 (not_le.2 (div_neg_of_neg_of_pos hc hNp))
    exact_mod_cast this
  obtain ⟨c, rfl⟩ := Int.eq_ofNat_of_zero_le hn0
  have hc : c ≤ N := by
    rw [div_le_one hNp] at h1
    exact_mod_cast h1
  have e1 : fl (((c : ℤ) : ℚ)) = (c : ℚ) := by
    push_cast; exact fl_nat (hc.trans h53)
  rw [e1, fl_nat h53]
  refine ⟨?_, h1⟩
  push_cast
  by_cases hc0 : c = 0
  · left; subst hc0; simp [fl_zero]
  · right
    have hlow : (1 : ℚ) / 2 ^ 53 ≤ c / N := by
      have h2 : (1 : ℚ) ≤ c := by exact_mod_cast Nat.one_le_iff_ne_zero.2 hc0
      have h3 : (N : ℚ) ≤ 2 ^ 53 := by exact_mod_cast h53
      rw [div_le_div_iff₀ (by norm_num) hNp]
      nlinarith
    refine ⟨hlow, Rel.of_abs (lt_of_lt_of_le (by norm_num) hlow) ?_⟩
    have := share_error (c := c) hN h53
    unfold share at this
    simpa using this

theorem counts_near {N : Nat} (hN : N ≠ 0) (h53 : N ≤ 2 ^ 53) {d' d : List (List Int × ℚ)}
    (h : List.Forall₂ (fun p q => p.1 = q.1 ∧ ∃ n : Int, q.2 = (n : ℚ) / N ∧
      p.2 = fl (fl (n : ℚ) / fl (N : ℚ))) d' d) (hval : ∀ q ∈ d, 0 ≤ q.2 ∧ q.2 ≤ 1) :
    RelD NearP (d'.map (fun p => (mkKey p.1, p.2))) (d.map (fun p => (mkKey p.1, p.2))) := by
  induction h with
  | nil => exact .nil
  | @cons p q l l' hpq _ ih =>
    obtain ⟨h0, n, h1, h2⟩ := hpq
    refine .cons ⟨by simp only [h0], ?_⟩ (ih (fun q hq => hval q (by simp [hq])))
    have := hval q (by simp)
    simp only
    rw [h2, h1]
    rw [h1] at this
    exact count_near hN h53 this.1 this.2

theorem adPmf_sim {D : Data} {dyn : Bool} (hD : Usable D) (h53 : D.nrows ≤ 2 ^ 53) {cols : List Nat}
    (hne : cols ≠ []) (hn : cols.Nodup) (hcols : AdCols D cols) {s : AdState} (hs : AdOk D dyn s) :
    SimAt (PmfNear NearP) (adPmfF D dyn cols) (adPmf D dyn cols) s := by
  have hr : D.nrows ≠ 0 := by have := hD.rows_pos; omega
  intro b s' e
  obtain ⟨ht, _, hs', _⟩ := Ok.det (adPmf_ok hD hne hn hcols hs) e
  unfold adPmf makePmf at e
  unfold adPmfF makePmfF
  cases hct : contingencyTable D dyn cols s.root s.counters with
  | error er =>
    have : (do
        let (ct, root) ← contingencyTable D dyn cols s.root
        let probabilities ← liftM (divideAll (root.count : ℚ) ct)
        pure (probabilities, root) : TM (List (List Int × ℚ) × ADNode)) s.counters = .error er := by
      show (contingencyTable D dyn cols s.root s.counters >>= _) = _
      rw [hct]; rfl
    rw [this] at e; exact nomatch e
  | ok p =>
    obtain ⟨⟨ct, root⟩, counters⟩ := p
    have e1 : ∀ dv : ADNode → List (List Int × Option Int) → Except Err (List (List Int × ℚ)), (do
        let (ct, root) ← contingencyTable D dyn cols s.root
        let probabilities ← liftM (dv root ct)
        pure (probabilities, root) : TM (List (List Int × ℚ) × ADNode)) s.counters =
        match dv root ct with
        | .ok d => .ok ((d, root), counters)
        | .error er => .error er := by
      intro dv
      show (contingencyTable D dyn cols s.root s.counters >>= _) = _
      rw [hct]
      cases hd : dv root ct with
      | ok d =>
        show (liftM (dv root ct) : TM _) counters >>= _ = _
        rw [hd]; rfl
      | error er =>
        show (liftM (dv root ct) : TM _) counters >>= _ = _
        rw [hd]; rfl
    rw [e1 (fun root ct => divideAll (root.count : ℚ) ct)] at e
    rw [e1 (fun root ct => divideAllF (fl (root.count : ℚ)) ct)]
    cases hd : divideAll (root.count : ℚ) ct with
    | error er => rw [hd] at e; exact nomatch e
    | ok d =>
      rw [hd] at e
      simp only [Except.ok.injEq, Prod.mk.injEq] at e
      obtain ⟨rfl, rfl⟩ := e
      have hcnt : (root.count : ℚ) = (D.nrows : ℚ) := by
        have : root.count = ((List.range D.nrows).length : Int) := hs'.2.1.inv.2.1
        rw [this, List.length_range]; push_cast; rfl
      have hz : fl (root.count : ℚ) = 0 ↔ (root.count : ℚ) = 0 := by
        rw [hcnt, fl_nat h53]
      obtain ⟨d', hd', hrel⟩ := divideAll_sim (fl (root.count : ℚ)) (root.count : ℚ) hz ct d hd
      rw [hd']
      refine ⟨_, rfl, ⟨?_, rfl, rfl⟩⟩
      have hval : ∀ q ∈ d, 0 ≤ q.2 ∧ q.2 ≤ 1 := by
        intro q hq
        have hm : (mkKey q.1, q.2) ∈ d.map (fun p => (mkKey p.1, p.2)) := List.mem_map.2 ⟨q, hq, rfl⟩
        obtain ⟨l, hl, el⟩ := ht.shape (mkKey q.1) (List.mem_map.2 ⟨_, hm, rfl⟩)
        have hv := ht.value l hl
        rw [← el, dictVal_of_mem ht.nodup hm] at hv
        rw [hv]
        exact ⟨freq_nonneg _ _ _, freq_le_one' _ _ _⟩
      rw [hcnt] at hrel
      exact counts_near hr h53 hrel hval

/-! ## The tables -/

/-- A conditional table and the joint table it comes from. (Models no code: a notion for statements and proofs.) -/
def PairNear (a b : CPMF × PMF) : Prop := CpmfNear a.1 b.1 ∧ PmfNear NearP a.2 b.2

theorem adCond_sim {D : Data} {dyn : Bool} (hD : Usable D) (h53 : D.nrows ≤ 2 ^ 53) {joint : List Nat}
    (hne : joint ≠ []) (hn : joint.Nodup) (hcols : AdCols D joint) (ck rk : Key → Except Err Key)
    {pz' pz : PMF} (hz : PmfNear NearP pz' pz) {s : AdState} (hs : AdOk D dyn s) :
    SimAt PairNear
      (do let pr ← adPmfF D dyn joint
          let c ← liftM (conditionLoopF ck rk pz' [] pr.probabilities)
          pure (c, pr) : PyM AdState (CPMF × PMF))
      (do let pr ← adPmf D dyn joint
          let c ← liftM (conditionLoop ck rk pz [] pr.probabilities)
          pure (c, pr)) s := by
  refine SimAt.bind (adPmf_sim hD h53 hne hn hcols hs) (fun a b s1 _ hab => ?_)
  refine SimAt.bind (SimAt.lift (conditionLoop_sim ck rk hz hab.table .nil)) (fun c d s2 _ hcd => ?_)
  exact SimAt.ret ⟨hcd, hab⟩

theorem adContext_sim (kind : DofKind) {p' p : PMF} (h : PmfNear NearP p' p) (s : AdState) :
    SimAt (PmfNear NearP) (adContext kind p') (adContext kind p) s := by
  obtain ⟨h1, h2⟩ := contextPmf_near kind s.base.cache h
  intro b s' e
  unfold adContext at e ⊢
  simp only [Except.ok.injEq, Prod.mk.injEq] at e
  obtain ⟨rfl, rfl⟩ := e
  refine ⟨_, ?_, h2⟩
  simp only [h1]

theorem reverseAll_sim {d' d : List (Key × ℚ)} (hd : RelD NearP d' d) {acc' acc : List (Key × ℚ)}
    (ha : RelD NearP acc' acc) : SimE (RelD NearP) (reverseAll acc' d') (reverseAll acc d) := by
  induction hd generalizing acc' acc with
  | nil => exact SimE.ret ha
  | @cons p q l l' hpq _ ih =>
    obtain ⟨k1, a⟩ := p
    obtain ⟨k2, b⟩ := q
    obtain ⟨e, hR⟩ := hpq
    simp only at e hR
    subst e
    unfold reverseAll
    refine SimE.bind (SimE.same _) ?_
    rintro k _ _ rfl
    exact ih (RelD.set ha k hR)

theorem adOrder_sim (X Y : Nat) {p' p : PMF} (h : PmfNear NearP p' p) (s : AdState) :
    SimAt (PmfNear NearP) (adOrder X Y p') (adOrder X Y p) s := by
  unfold adOrder
  by_cases hs : [X, Y] ≠ [X, Y].mergeSort
  · rw [if_pos hs, if_pos hs]
    refine SimAt.bind (SimAt.lift (reverseAll_sim h.table .nil)) (fun a b _ _ hab => ?_)
    exact SimAt.ret ⟨hab, h.ids, h.joint⟩
  · rw [if_neg hs, if_neg hs]
    exact SimAt.ret h

theorem adOrder_state {X Y : Nat} {p q : PMF} {s s' : AdState} (e : adOrder X Y p s = .ok (q, s')) :
    s' = s := by
  unfold adOrder at e
  by_cases hs : [X, Y] ≠ [X, Y].mergeSort
  · rw [if_pos hs] at e
    cases hr : reverseAll [] p.probabilities with
    | error er =>
      rw [hr] at e; exact nomatch e
    | ok d =>
      rw [hr] at e
      have : (Except.ok ({ p with probabilities := d }, s) : Except Err _) = .ok (q, s') := e
      injection this with h; injection h with _ h; exact h.symm
  · rw [if_neg hs] at e
    have : (Except.ok (p, s) : Except Err _) = .ok (q, s') := e
    injection this with h; injection h with _ h; exact h.symm

theorem adTables_sim {D : Data} {dyn : Bool} (hD : Usable D) (h53 : D.nrows ≤ 2 ^ 53) {X Y : Nat}
    {Z : List Nat} (hn : (X :: Y :: Z).Nodup) (hcols : AdCols D (X :: Y :: Z)) (kind : DofKind)
    {s : AdState} (hs : AdOk D dyn s) :
    SimAt TablesNear (adTablesF D dyn kind X Y Z) (adTables D dyn kind X Y Z) s := by
  have step : ∀ {cols : List Nat} (_ : cols ≠ []) (_ : cols.Nodup) (_ : AdCols D cols) {s : AdState}
      (_ : AdOk D dyn s), SimAt (PmfNear NearP) (adPmfF D dyn cols) (adPmf D dyn cols) s ∧
      ∀ b s', adPmf D dyn cols s = .ok (b, s') → AdOk D dyn s' := by
    intro cols h1 h2 h3 s h4
    exact ⟨adPmf_sim hD h53 h1 h2 h3 h4, fun b s' e => (Ok.det (adPmf_ok hD h1 h2 h3 h4) e).2.2.1⟩
  have hsort : ∀ {cols : List Nat}, cols ≠ [] → cols.mergeSort ≠ [] := by
    intro cols h h0
    have := (List.mergeSort_perm cols (fun a b => decide (a ≤ b))).length_eq
    rw [h0] at this
    exact h (List.length_eq_zero_iff.1 this.symm)
  unfold adTablesF adTables
  by_cases hZ : Z = []
  · subst hZ
    rw [if_pos rfl, if_pos rfl]
    have hX : AdCols D [X] := fun c hc => hcols c (by simp at hc; simp [hc])
    have hY : AdCols D [Y] := fun c hc => hcols c (by simp at hc; simp [hc])
    obtain ⟨q1, o1⟩ := step (hsort (cols := [X, Y]) (by simp)) (mergeSort_nodup hn) hcols.sort hs
    refine SimAt.bind q1 (fun a1 b1 s1 e1 n1 => ?_)
    refine SimAt.bind (adOrder_sim X Y n1 s1) (fun a2 b2 s2 e2 n2 => ?_)
    have hs2 : AdOk D dyn s2 := by rw [adOrder_state e2]; exact o1 _ _ e1
    obtain ⟨q3, o3⟩ := step (cols := [X]) (by simp) (by simp) hX hs2
    refine SimAt.bind q3 (fun a3 b3 s3 e3 n3 => ?_)
    obtain ⟨q4, o4⟩ := step (cols := [Y]) (by simp) (by simp) hY (o3 _ _ e3)
    refine SimAt.bind q4 (fun a4 b4 s4 e4 n4 => ?_)
    refine SimAt.bind (adContext_sim kind n2 s4) (fun a5 b5 s5 _ n5 => ?_)
    refine SimAt.bind (adContext_sim kind n3 s5) (fun a6 b6 s6 _ n6 => ?_)
    refine SimAt.bind (adContext_sim kind n4 s6) (fun a7 b7 s7 _ n7 => ?_)
    exact SimAt.ret ⟨omega_near n5, omega_near n6, omega_near n7, omegaPMF_near⟩
  · rw [if_neg hZ, if_neg hZ]
    dsimp only
    have hmem := mem_mergeSort' Z
    have hn0 : (X :: Y :: Z.mergeSort).Nodup := by
      simp only [List.nodup_cons, List.mem_cons, not_or, ← hmem] at hn ⊢
      exact ⟨hn.1, hn.2.1, mergeSort_nodup hn.2.2⟩
    have hcols0 : AdCols D (X :: Y :: Z.mergeSort) := by
      intro c hc
      simp only [List.mem_cons, ← hmem] at hc
      exact hcols c (by simpa using hc)
    have hXYn := hn0
    simp only [List.nodup_cons, List.mem_cons, not_or] at hXYn
    have hnX : (X :: Z.mergeSort).Nodup := List.nodup_cons.2 ⟨hXYn.1.2, hXYn.2.2⟩
    have hnY : (Y :: Z.mergeSort).Nodup := List.nodup_cons.2 ⟨hXYn.2.1, hXYn.2.2⟩
    have hcX : AdCols D (X :: Z.mergeSort) := fun c hc => hcols0 c (by
      rcases List.mem_cons.1 hc with h | h <;> simp [h])
    have hcY : AdCols D (Y :: Z.mergeSort) := fun c hc => hcols0 c (by
      rcases List.mem_cons.1 hc with h | h <;> simp [h])
    have hcZ : AdCols D Z.mergeSort := fun c hc => hcols0 c (by simp [hc])
    obtain ⟨q1, o1⟩ := step (hsort hZ) hXYn.2.2 hcZ hs
    refine SimAt.bind q1 (fun z' z s1 e1 n1 => ?_)
    have zt := (Ok.det (adPmf_ok hD (hsort hZ) hXYn.2.2 hcZ hs) e1).1
    rw [mergeSort_idem] at zt
    have hs1 := o1 _ _ e1
    refine SimAt.bind (R := PairNear)
      (adCond_sim hD h53 (hsort (by simp)) (mergeSort_nodup hn0) hcols0.sort _ _ n1 hs1)
      (fun a2 b2 s2 e2 n2 => ?_)
    have hs2 : AdOk D dyn s2 := (Ok.det (adCpmfXY_ok hD hn0 (hsort hZ) hcols0 zt hs1) e2).2.2.2.1
    refine SimAt.bind (R := PairNear)
      (adCond_sim hD h53 (hsort (by simp)) (mergeSort_nodup hnX) hcX.sort _ _ n1 hs2)
      (fun a3 b3 s3 e3 n3 => ?_)
    have hs3 : AdOk D dyn s3 := (Ok.det (adCpmfX_ok hD hnX (hsort hZ) hcX zt hs2) e3).2.2.2.1
    refine SimAt.bind (R := PairNear)
      (adCond_sim hD h53 (hsort (by simp)) (mergeSort_nodup hnY) hcY.sort _ _ n1 hs3)
      (fun a4 b4 s4 e4 n4 => ?_)
    obtain ⟨c2, j2⟩ := a2
    obtain ⟨c2', j2'⟩ := b2
    obtain ⟨c3, j3⟩ := a3
    obtain ⟨c3', j3'⟩ := b3
    obtain ⟨c4, j4⟩ := a4
    obtain ⟨c4', j4'⟩ := b4
    dsimp only
    refine SimAt.bind (adContext_sim kind n2.2 s4) (fun a5 b5 s5 _ n5 => ?_)
    refine SimAt.bind (adContext_sim kind n3.2 s5) (fun a6 b6 s6 _ n6 => ?_)
    refine SimAt.bind (adContext_sim kind n4.2 s6) (fun a7 b7 s7 _ n7 => ?_)
    refine SimAt.bind (adContext_sim kind n1 s7) (fun a8 b8 s8 _ n8 => ?_)
    exact SimAt.ret ⟨n2.1, n3.1, n4.1, n8⟩

/-! ## The order of the conditioning columns does not matter for the error bound -/

theorem card_image_le_of {α β γ : Type} [DecidableEq β] [DecidableEq γ] (s : Finset α) (f : α → β)
    (g : α → γ) (h : ∀ a ∈ s, ∀ b ∈ s, f a = f b → g a = g b) :
    (s.image g).card ≤ (s.image f).card := by
  classical
  by_cases hs : s = ∅
  · simp [hs]
  obtain ⟨a0, ha0⟩ := Finset.nonempty_iff_ne_empty.2 hs
  let k : β → γ := fun b => if hb : ∃ a ∈ s, f a = b then g hb.choose else g a0
  have : s.image g ⊆ (s.image f).image k := by
    intro y hy
    obtain ⟨a, ha, rfl⟩ := Finset.mem_image.1 hy
    refine Finset.mem_image.2 ⟨f a, Finset.mem_image.2 ⟨a, ha, rfl⟩, ?_⟩
    have hb : ∃ a' ∈ s, f a' = f a := ⟨a, ha, rfl⟩
    show (if hb : ∃ a' ∈ s, f a' = f a then g hb.choose else g a0) = g a
    rw [dif_pos hb]
    exact h _ hb.choose_spec.1 _ ha hb.choose_spec.2
  exact (Finset.card_le_card this).trans Finset.card_image_le

theorem observed_card_le (D : Data) {cols cols' : List Nat} (h : ∀ c ∈ cols', c ∈ cols) :
    (observed D cols').card ≤ (observed D cols).card := by
  unfold observed
  refine card_image_le_of _ _ _ (fun a _ b _ hab => ?_)
  refine List.map_congr_left (fun c hc => ?_)
  exact (List.map_inj_left.1 hab) c (h c hc)

theorem gError_sort (D : Data) (X Y : Nat) (Z : List Nat) :
    gError D X Y Z.mergeSort = gError D X Y Z := by
  have : (observed D (X :: Y :: Z.mergeSort)).card = (observed D (X :: Y :: Z)).card :=
    le_antisymm
      (observed_card_le D (fun c hc => by simpa [← mem_mergeSort' Z] using hc))
      (observed_card_le D (fun c hc => by simpa [← mem_mergeSort' Z] using hc))
  unfold gError
  rw [this]

/-! ## Calls and sessions -/

theorem adCallF_near {flog : ℚ → ℚ} (hlog : LogAccurate flog) {D : Data} {dyn : Bool} {cfg : Config}
    (hD : Usable D) (h40 : D.nrows ≤ 2 ^ 40) {c : Call}
    (hn : (c.1 :: c.2.1 :: c.2.2).Nodup) (hcols : AdCols D (c.1 :: c.2.1 :: c.2.2))
    {s : AdState} (hs : AdOk D dyn s) :
    Ok (adCallF flog D dyn cfg c) s (fun a s' =>
      ∃ r, NearEntry D cfg (gError D c.1 c.2.1 c.2.2) (s.base.counter + 1) c.1 c.2.1 c.2.2 r ∧
      AnswerOf D cfg c.1 c.2.1 c.2.2 r a ∧ AdOk D dyn s' ∧ s'.base.counter = s.base.counter + 1 ∧
      s'.base.results = s.base.results ++ [r]) := by
  have hr : D.nrows ≠ 0 := by have := hD.rows_pos; omega
  unfold adCallF
  have h : Ok (adTestF flog D dyn cfg c.1 c.2.1 c.2.2) s (fun r s' =>
      ∃ g : ℝ, |g - G D c.1 c.2.1 c.2.2| ≤ gError D c.1 c.2.1 c.2.2 ∧
      r = makeResult cfg D.nrows s.base.counter c.1 c.2.1 c.2.2 g (dofOf D cfg.kind c.1 c.2.1 c.2.2) ∧
      (AdOk D dyn s' ∧ SameLog s s')) := by
    obtain ⟨t, s1, e, hg, hs1, hl, hcache⟩ := adTables_ok hD hn hcols cfg.kind hs
    have hd := declared_of_usable hD (fun c hc => (hcols c hc).1)
    have hsort := mem_mergeSort' c.2.2
    have hdof : ∃ t', calculateDof D cfg.kind s1.base.cache c.1 c.2.1 c.2.2 t =
        .ok ((dofOf D cfg.kind c.1 c.2.1 c.2.2 : Int), t') ∧
        GoodTables D c.1 c.2.1 c.2.2.mergeSort t' := by
      cases hk : cfg.kind with
      | unadjusted =>
        obtain ⟨t', e1, _⟩ := calculateDof_ok (t := t) .unadjusted hd hn hs1.1 (by simp) (by simp)
        refine ⟨t', e1, ?_⟩
        have : t' = t := by
          unfold calculateDof at e1
          simp only [Except.ok.injEq, Prod.mk.injEq] at e1
          exact e1.2.symm
        rw [this]; exact hg
      | structural =>
        obtain ⟨t', e1, h1⟩ := structural_ok s1.base.cache hg
        refine ⟨t', ?_, h1⟩
        have : calculateDof D .structural s1.base.cache c.1 c.2.1 c.2.2 t =
          calculateDof D .structural s1.base.cache c.1 c.2.1 c.2.2.mergeSort t := rfl
        rw [this, e1]
        simp only [dofOf]
        rw [dof_perm D c.1 c.2.1 hsort]
      | cached => exact ⟨t, cached_ok hs1.1 hn t (hcache hk), hg⟩
    obtain ⟨t', e1, hg'⟩ := hdof
    obtain ⟨tF, eF, hnear⟩ := adTables_sim hD (h40.trans (by norm_num)) hn hcols cfg.kind hs t s1 e
    obtain ⟨⟨dofF, tF'⟩, eF2, hdF, hnear2⟩ := calculateDof_sim D cfg.kind s1.base.cache c.1 c.2.1 c.2.2
      hnear _ e1
    simp only at hdF hnear2
    subst hdF
    have herr := (gValue_error hlog hr h40 hg' hnear2).1
    rw [gError_sort] at herr
    have hG : G D c.1 c.2.1 c.2.2.mergeSort = G D c.1 c.2.1 c.2.2 := by
      unfold Stats.Spec.G
      rw [cmi_perm D c.1 c.2.1 hsort]
    rw [hG] at herr
    refine ⟨_, s1, ?_, _, herr, rfl, hs1, hl⟩
    unfold adTestF
    dsimp only
    rw [eF, hs.count]
    show (calculateDof D cfg.kind s1.base.cache c.1 c.2.1 c.2.2 tF >>= _) = _
    rw [eF2]
    show Except.ok _ = _
    rw [hl.1]
  refine (call_near (P := fun s' => AdOk D dyn s' ∧ SameLog s s') h).mono ?_
  rintro a s' ⟨r, s1, he, ha, ⟨h1, h2⟩, rfl⟩
  refine ⟨r, he, ha, ⟨h1.1, h1.2⟩, ?_, ?_⟩
  · simp [Base.log, h2.1]
  · simp [Base.log, h2.2]

/-- **C84, sessions.**  The test with a static or dynamic AD-tree, on a usable dataset of at most
2⁴⁰ rows, for every history of valid calls: nothing is raised, one entry per call, numbered from 1;
the statistic is within `gError` of the exact G, everything else is as in C83. -/
theorem float_adtree_session {flog : ℚ → ℚ} (hlog : LogAccurate flog) (D : Data) (cfg : Config)
    (hD : Usable D) (h40 : D.nrows ≤ 2 ^ 40) (dyn : Bool) (calls : List Call)
    (hv : ∀ c ∈ calls, ValidAdCall D c) :
    ∃ s0, newAdTest D dyn = .ok s0 ∧
    Ok (mapList (adCallF flog D dyn cfg) calls) s0 (fun answers s =>
      IsRun D cfg (fun c => gError D c.1 c.2.1 c.2.2) 0 calls answers s.base.results ∧
      s.base.counter = calls.length) := by
  obtain ⟨s0, e0, hs0, hb⟩ := newAdTest_ok hD dyn
  refine ⟨s0, e0, ?_⟩
  have := session_near (D := D) (cfg := cfg) (ε := fun c => gError D c.1 c.2.1 c.2.2)
    (adCallF flog D dyn cfg) (·.base) (fun _ s => AdOk D dyn s) (ValidAdCall D)
    (fun _ c s hc hs => adCallF_near hlog hD h40 hc.1 hc.2 hs) calls [] s0 hv hs0
  refine this.mono ?_
  rintro as s ⟨rs, h1, _, h3, h4⟩
  have hb0 : s0.base.counter = 0 := by rw [hb]
  have hb1 : s0.base.results = [] := by rw [hb]
  rw [hb0] at h1 h3
  rw [hb1] at h4
  refine ⟨?_, by simpa using h3⟩
  rw [h4]
  simpa using h1

/-- **C84, decisions.**  Clear of the threshold, the AD-tree test with `float`s, the unoptimised test with
`float`s and the tests with exact numbers all return the same answers. -/
theorem float_adtree_answers {flog : ℚ → ℚ} (hlog : LogAccurate flog) (D : Data) (cfg : Config)
    (hD : Usable D) (h40 : D.nrows ≤ 2 ^ 40) (hmono : ∀ k, Monotone (fun g => cfg.cdf g k)) (dyn : Bool)
    (calls : List Call) (hv : ∀ c ∈ calls, ValidAdCall D c)
    (hc : ∀ c ∈ calls, Clear D cfg (gError D c.1 c.2.1 c.2.2) c) :
    ∃ answers s0 s b b', newAdTest D dyn = .ok s0 ∧
      mapList (adCallF flog D dyn cfg) calls s0 = .ok (answers, s) ∧
      mapList (unoptCallF flog D cfg) calls {} = .ok (answers, b) ∧
      mapList (unoptCall D cfg) calls {} = .ok (answers, b') ∧ AreAnswers D cfg calls answers := by
  have hr : D.nrows ≠ 0 := by have := hD.rows_pos; omega
  obtain ⟨s0, e0, as, s, e, hrun, _⟩ := float_adtree_session hlog D cfg hD h40 dyn calls hv
  obtain ⟨as', b, b', e1, e2, ha'⟩ := float_unoptimized_answers hlog D cfg hr h40 hmono calls
    (fun c h => (hv c h).valid hD) hc
  have ha := run_answers hmono hrun hc
  rw [AreAnswers.unique ha' ha] at e1 e2
  exact ⟨as, s0, s, b, b', e0, e, e1, e2, ha⟩

/-! ## Example -/

theorem coin_usable : Usable coinData := by
  refine ⟨by decide, ?_, ?_, by decide⟩
  · show ∀ c < 3, _; decide
  · show ∀ c < 3, ∀ r < 8, _; decide

theorem coin_valid_ad : ∀ c ∈ [((0, 1, []) : Call), (0, 2, []), (2, 1, [0])], ValidAdCall coinData c := by
  unfold ValidAdCall; decide

/-- The hypotheses of C84 are met; the AD-tree test with `float`s answers: independent, dependent. -/
example (dyn : Bool) : ∃ answers s0 s, newAdTest coinData dyn = .ok s0 ∧
    mapList (adCallF roundedLog coinData dyn coinConfig) [((0, 1, []) : Call), (0, 2, [])] s0 =
      .ok (answers, s) ∧ answers = [Answer.independent, Answer.dependent] := by
  obtain ⟨as, s0, s, b, b', e0, e, e1, _, _⟩ := float_adtree_answers roundedLog_accurate coinData coinConfig
    coin_usable (by decide) (fun _ _ _ h => max_le_max le_rfl (min_le_min le_rfl h)) dyn
    [((0, 1, []) : Call), (0, 2, [])] (by unfold ValidAdCall; decide) coin_clear
  obtain ⟨b1, e2⟩ := coin_answers
  rw [e2] at e1
  injection e1 with e1
  injection e1 with e1
  exact ⟨as, s0, s, e0, e, e1.symm⟩

end Mbtk.Fp
