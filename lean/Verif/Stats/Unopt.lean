import Verif.Stats.Dof
import Verif.Stats.TestSpec
/-!
# The unoptimised G-test meets its specification
-/
namespace Mbtk.Stats
open Mbtk.ADTree (Data)
open Mbtk.MB (Answer)
open Spec Real

/-! ## From the tables to G, from the calculators to the degrees of freedom -/

theorem gValue_eq {D : Data} {X Y : Nat} {Z : List Nat} {t : Tables}
    (h : GoodTables D X Y Z t) : gValue D.nrows t = G D X Y Z := by
  obtain ⟨eZ, eX, eY, hc⟩ := h
  have := conditionalMutualInformation_eq hc (c := 1) one_pos
  simp only [div_one] at this
  unfold gValue G
  rw [cmi_eq_info]
  have e : (Real.log : ℝ → ℝ) = fun x => Real.log x := rfl
  rw [e, this]

/-- Number of declared values is positive. -/
theorem unadjusted_cast {D : Data} {X Y : Nat} {Z : List Nat}
    (h : ∀ c ∈ X :: Y :: Z, 1 ≤ (D.values c).length) :
    (if (((D.values X).length : Int) - 1) * (((D.values Y).length : Int) - 1) *
      (Z.map (fun z => ((D.values z).length : Int))).prod = 0 then 1 else
      (((D.values X).length : Int) - 1) * (((D.values Y).length : Int) - 1) *
      (Z.map (fun z => ((D.values z).length : Int))).prod) =
    (dofOf D .unadjusted X Y Z : Int) := by
  have hX := h X (by simp)
  have hY := h Y (by simp)
  have e : (((D.values X).length : Int) - 1) * (((D.values Y).length : Int) - 1) *
      (Z.map (fun z => ((D.values z).length : Int))).prod =
      (((D.values X).length - 1) * ((D.values Y).length - 1) *
      (Z.map (fun z => (D.values z).length)).prod : Nat) := by
    push_cast
    rw [Nat.cast_sub hX, Nat.cast_sub hY, List.map_map]
    rfl
  rw [e]
  simp only [dofOf]
  generalize ((D.values X).length - 1) * ((D.values Y).length - 1) *
      (Z.map (fun z => (D.values z).length)).prod = n
  rcases Nat.eq_zero_or_pos n with rfl | hn
  · simp
  · rw [if_neg (by omega), max_eq_right (by omega)]

/-- What the calculators need to know about the dataset's declared values.
(Models no code: a notion for statements and proofs.) -/
def Declared (D : Data) (cols : List Nat) : Prop := ∀ c ∈ cols, 1 ≤ (D.values c).length

theorem declared_of_usable {D : Data} (h : Mbtk.ADTree.Spec.Usable D) {cols : List Nat}
    (hc : ∀ c ∈ cols, c < D.ncols) : Declared D cols := by
  intro c hm
  have := h.cover c (hc c hm) 0 h.rows_pos
  exact List.length_pos_of_mem this

theorem calculateDof_ok {D : Data} {X Y : Nat} {Z : List Nat} {t : Tables} (kind : DofKind)
    {cache : DofCache} (hd : Declared D (X :: Y :: Z)) (hn : (X :: Y :: Z).Nodup)
    (hc : CacheOk D cache) (hg : kind = .structural → GoodTables D X Y Z t)
    (hs : kind = .cached → (dictGet cache (castIds (X :: Y :: Z)).toFinset).isSome) :
    ∃ t', calculateDof D kind cache X Y Z t = .ok ((dofOf D kind X Y Z : Int), t') ∧
      (GoodTables D X Y Z t → GoodTables D X Y Z t') := by
  cases kind with
  | unadjusted =>
    refine ⟨t, ?_, id⟩
    unfold calculateDof
    dsimp only
    rw [unadjusted_cast hd]
  | structural =>
    obtain ⟨t', e, h⟩ := structural_ok cache (hg rfl)
    exact ⟨t', e, fun _ => h⟩
  | cached => exact ⟨t, cached_ok hc hn t (hs rfl), id⟩

/-! ## Building the tables -/

theorem tab_context {kind : DofKind} {cache : DofCache} {pmf : PMF}
    {e : List Int → Key} {n : Nat} {P : List Int → ℚ}
    (h : Tabulates pmf.probabilities e n P)
    (hor : (contextPmf kind cache pmf).2 = pmf ∨ (contextPmf kind cache pmf).2 = pmf.removeZeros) :
    Tabulates (contextPmf kind cache pmf).2.probabilities e n P := by
  rcases hor with e | e <;> rw [e]
  · exact h
  · exact h.filter

theorem jointIDs_of (D : Data) (cols : List Nat) :
    (Variable.joint (cols.map (column D))).jointIDs = some (castIds cols) := by
  simp [Variable.jointIDs, castIds, column]

theorem IsVarOf.jointIDs {D : Data} {cols : List Nat} {v : Variable} (h : IsVarOf D cols v) :
    v.jointIDs = some (castIds cols) ∨ v.jointIDs = none := by
  rcases h with rfl | ⟨c, rfl, rfl⟩
  · exact .inl (jointIDs_of D cols)
  · exact .inr rfl

theorem flatten_cons_getVariables (D : Data) (A : List Nat) {v : Variable} {Z : List Nat}
    (hv : IsVarOf D Z v) :
    flattenVariables (A.map (getVariable D) ++ [v]) = (A ++ Z).map (column D) := by
  induction A with
  | nil => simpa using hv.flatten
  | cons c A ih =>
    rw [List.map_cons, List.cons_append, flattenVariables_cons, ih]
    simp [flattenVariables, getVariable]

theorem unoptTables_ok {D : Data} (hr : D.nrows ≠ 0) {X Y : Nat} {Z : List Nat}
    (hn : (X :: Y :: Z).Nodup) (kind : DofKind) {cache : DofCache} (hc : CacheOk D cache) :
    ∃ cache' t, unoptTables D kind cache X Y Z = .ok (cache', t) ∧ GoodTables D X Y Z t ∧
      CacheOk D cache' ∧
      (kind = .cached → (dictGet cache' (castIds (X :: Y :: Z)).toFinset).isSome) := by
  unfold unoptTables
  dsimp only
  by_cases hZ : Z = []
  · subst hZ
    rw [if_pos rfl]
    have hjv : mkJoint [getVariable D X, getVariable D Y] =
        .ok (.joint ([X, Y].map (column D))) :=
      mkJoint_ok D _ [X, Y] (by simp [flattenVariables, getVariable])
    obtain ⟨pXY, e1, t1, j1⟩ := pmf_ok D hr (cols := [X, Y]) (by simp) (.inl rfl)
    obtain ⟨pX, e2, t2, j2⟩ := pmf_ok D hr (cols := [X]) (by simp) (isVarOf_single D X)
    obtain ⟨pY, e3, t3, j3⟩ := pmf_ok D hr (cols := [Y]) (by simp) (isVarOf_single D Y)
    rw [hjv]
    show ∃ cache' t, (PMF.ofVariable (.joint ([X, Y].map (column D))) >>= _) = _ ∧ _
    rw [e1, e2, e3]
    obtain ⟨a1, a2, a3, a4, _⟩ := contextPmf_ok kind hc
      (cacheable_of_tab hn t1.tab (.inl (j1.trans (jointIDs_of D _))))
    obtain ⟨b1, b2, b3, b4, _⟩ := contextPmf_ok kind a1
      (cacheable_of_tab (by simp) t2.tab (by rw [j2]; exact (isVarOf_single D X).jointIDs))
    obtain ⟨c1, c2, c3, c4, _⟩ := contextPmf_ok kind b1
      (cacheable_of_tab (by simp) t3.tab (by rw [j3]; exact (isVarOf_single D Y).jointIDs))
    refine ⟨_, _, rfl, goodTables_omega hr (tab_context t1.tab a4)
      (tab_context t2.tab b4) (tab_context t3.tab c4), c1, ?_⟩
    intro hk
    exact c2 _ (b2 _ (a3 hk _ (j1.trans (jointIDs_of D _)) (by simp [castIds])))
  · rw [if_neg hZ]
    obtain ⟨vZ, eZ, hvZ⟩ := getVariables_ok D Z
    have hXY := hn
    simp only [List.nodup_cons, List.mem_cons, not_or] at hXY
    have hnZ : Z.Nodup := hXY.2.2
    have hnX : (X :: Z).Nodup := List.nodup_cons.2 ⟨hXY.1.2, hnZ⟩
    have hnY : (Y :: Z).Nodup := List.nodup_cons.2 ⟨hXY.2.1, hnZ⟩
    have f1 : mkJoint [getVariable D X, getVariable D Y, vZ] =
        .ok (.joint (([X, Y] ++ Z).map (column D))) :=
      mkJoint_ok D _ _ (flatten_cons_getVariables D [X, Y] hvZ)
    have f2 : mkJoint [getVariable D X, vZ] = .ok (.joint (([X] ++ Z).map (column D))) :=
      mkJoint_ok D _ _ (flatten_cons_getVariables D [X] hvZ)
    have f3 : mkJoint [getVariable D Y, vZ] = .ok (.joint (([Y] ++ Z).map (column D))) :=
      mkJoint_ok D _ _ (flatten_cons_getVariables D [Y] hvZ)
    obtain ⟨pXYZ, e1, t1, j1⟩ := pmf_ok D hr (cols := [X, Y] ++ Z) (by simp) (.inl rfl)
    obtain ⟨pXZ, e2, t2, j2⟩ := pmf_ok D hr (cols := [X] ++ Z) (by simp) (.inl rfl)
    obtain ⟨pYZ, e3, t3, j3⟩ := pmf_ok D hr (cols := [Y] ++ Z) (by simp) (.inl rfl)
    obtain ⟨pZ, e4, t4, j4⟩ := pmf_ok D hr hZ hvZ
    obtain ⟨cX, g1, h1⟩ := conditionOn_pmf hnX (by simp) hZ t2 t4
    obtain ⟨cY, g2, h2⟩ := conditionOn_pmf hnY (by simp) hZ t3 t4
    obtain ⟨cXY, g3, h3⟩ := conditionOn_pmf (A := [X, Y]) hn (by simp) hZ t1 t4
    rw [eZ]
    show ∃ cache' t, (mkJoint [getVariable D X, getVariable D Y, vZ] >>= _) = _ ∧ _
    rw [f1, f2, f3]
    show ∃ cache' t, (PMF.ofVariable _ >>= _) = _ ∧ _
    rw [e1]
    show ∃ cache' t, (PMF.ofVariable (.joint (([X] ++ Z).map (column D))) >>= _) = _ ∧ _
    rw [e2]
    show ∃ cache' t, (PMF.ofVariable (.joint (([Y] ++ Z).map (column D))) >>= _) = _ ∧ _
    rw [e3]
    show ∃ cache' t, (PMF.ofVariable vZ >>= _) = _ ∧ _
    rw [e4]
    show ∃ cache' t, (pXZ.conditionOn pZ >>= _) = _ ∧ _
    rw [g1]
    show ∃ cache' t, (pYZ.conditionOn pZ >>= _) = _ ∧ _
    rw [g2]
    show ∃ cache' t, (pXYZ.conditionOn pZ >>= _) = _ ∧ _
    rw [g3]
    obtain ⟨a1, a2, a3, a4, _⟩ := contextPmf_ok kind hc
      (cacheable_of_tab hn t1.tab (.inl (j1.trans (jointIDs_of D _))))
    obtain ⟨b1, b2, b3, b4, _⟩ := contextPmf_ok kind a1
      (cacheable_of_tab hnX t2.tab (.inl (j2.trans (jointIDs_of D _))))
    obtain ⟨c1, c2, c3, c4, _⟩ := contextPmf_ok kind b1
      (cacheable_of_tab hnY t3.tab (.inl (j3.trans (jointIDs_of D _))))
    obtain ⟨d1, d2, d3, d4, _⟩ := contextPmf_ok kind c1
      (cacheable_of_tab hnZ t4.tab (by rw [j4]; exact hvZ.jointIDs))
    refine ⟨_, _, rfl, goodTables_cond (eX := .tup) (eY := .tup) (fun _ => rfl) (fun _ => rfl)
      (tab_context t4.tab d4) ?_ (fun z hz _ => h1 z hz) (fun z hz _ => h2 z hz), d1, ?_⟩
    · intro z hz _ x y
      exact (h3 z hz).value [x, y] rfl
    · intro hk
      exact d2 _ (c2 _ (b2 _ (a3 hk _ (j1.trans (jointIDs_of D _)) (by simp [castIds]))))

/-! ## Results, answers, logs -/

theorem enough_iff (D : Data) (cfg : Config) (X Y : Nat) (Z : List Nat) :
    sufficientSamples cfg D.nrows (dofOf D cfg.kind X Y Z : Int) = true ↔ Enough D cfg X Y Z := by
  unfold sufficientSamples Enough
  cases cfg.criterion with
  | none =>
    simp only [decide_eq_true_eq]
    exact_mod_cast Iff.rfl
  | some f => exact Iff.rfl

/-- The result logged for a test. (Models no code: a notion for statements and proofs.) -/
noncomputable def loggedResult (D : Data) (cfg : Config) (counter : Nat) (c : Call) : Result :=
  { makeResult cfg D.nrows counter c.1 c.2.1 c.2.2 (G D c.1 c.2.1 c.2.2)
      (dofOf D cfg.kind c.1 c.2.1 c.2.2) with
    dSeparated := cfg.sourceBn.map (fun bn => bn c.1 c.2.2 c.2.1) }

theorem loggedResult_isEntry (D : Data) (cfg : Config) (counter : Nat) (c : Call) :
    IsEntry D cfg (counter + 1) c.1 c.2.1 c.2.2 (loggedResult D cfg counter c) := by
  obtain ⟨X, Y, Z⟩ := c
  unfold loggedResult makeResult
  by_cases h : Enough D cfg X Y Z
  · have hs := (enough_iff D cfg X Y Z).2 h
    simp only [hs, not_true_eq_false, if_false]
    constructor <;> first | rfl | skip
    · simp [h]
    · intro h'; exact absurd h h'
    · intro _
      refine ⟨rfl, rfl, rfl, ?_, ?_, ?_, ?_⟩
      · dsimp only
        cases decide (cfg.cdf (G D X Y Z) (dofOf D cfg.kind X Y Z) < cfg.significance) <;> simp
      · unfold pValue
        simp
      · unfold pValue
        simp
      · dsimp only
        cases decide (cfg.cdf (G D X Y Z) (dofOf D cfg.kind X Y Z) < cfg.significance) <;> simp
  · have hs : ¬ sufficientSamples cfg D.nrows (dofOf D cfg.kind X Y Z : Int) = true :=
      fun h' => h ((enough_iff D cfg X Y Z).1 h')
    simp only [hs]
    constructor <;> first | rfl | skip
    · simp [h]
    · intro _; exact ⟨rfl, rfl, rfl, rfl, rfl⟩
    · intro h'; exact absurd h' h

/-- The answer derived from a log entry. -/
theorem answer_of_entry {D : Data} {cfg : Config} {i X Y : Nat} {Z : List Nat} {r : Result}
    (h : IsEntry D cfg i X Y Z r) :
    IsAnswer D cfg X Y Z (if r.insufficient then .insufficient
      else if r.independent = some true then .independent else .dependent) := by
  by_cases he : Enough D cfg X Y Z
  · have hi : r.insufficient = false := by
      cases hb : r.insufficient with
      | false => rfl
      | true => exact absurd he (h.insufficient.1 hb)
    obtain ⟨_, _, _, h1, h2, h3, _⟩ := h.decided he
    by_cases hp : pValue D cfg X Y Z < cfg.significance
    · have := h2.2 hp
      constructor <;> simp [hi, this, he, hp]
    · have hne : r.independent ≠ some true := fun e => hp (h2.1 e)
      constructor <;> simp [hi, hne, he, not_lt.1 hp]
  · have hi := h.insufficient.2 he
    constructor <;> simp [hi, he]

/-- One call, whatever the kind of test: if the test proper returns the result made from the
right G and degrees of freedom and keeps counter and log, the call answers and logs right. -/
theorem conditionallyIndependent_ok {σ : Type} {D : Data} {cfg : Config}
    {test : Nat → Nat → List Nat → PyM σ Result} {log : Result → σ → σ} {c : Call} {s : σ}
    {counter : Nat} {P : σ → Prop}
    (h : Ok (test c.1 c.2.1 c.2.2) s (fun r s' =>
      r = makeResult cfg D.nrows counter c.1 c.2.1 c.2.2 (G D c.1 c.2.1 c.2.2)
        (dofOf D cfg.kind c.1 c.2.1 c.2.2) ∧ P s')) :
    Ok (conditionallyIndependent cfg test log c.1 c.2.1 c.2.2) s (fun a s' =>
      IsAnswer D cfg c.1 c.2.1 c.2.2 a ∧
      ∃ s1, P s1 ∧ s' = log (loggedResult D cfg counter c) s1) := by
  unfold conditionallyIndependent
  refine Ok.bind (h.mono ?_)
  rintro r s1 ⟨rfl, hP⟩
  have hres : (match cfg.sourceBn with
      | some bn => { makeResult cfg D.nrows counter c.1 c.2.1 c.2.2 (G D c.1 c.2.1 c.2.2)
        (dofOf D cfg.kind c.1 c.2.1 c.2.2) with dSeparated := some (bn c.1 c.2.2 c.2.1) }
      | none => makeResult cfg D.nrows counter c.1 c.2.1 c.2.2 (G D c.1 c.2.1 c.2.2)
        (dofOf D cfg.kind c.1 c.2.1 c.2.2)) = loggedResult D cfg counter c := by
    unfold loggedResult
    cases cfg.sourceBn with
    | some bn => rfl
    | none =>
      have : ∀ N k x y z g d, (makeResult cfg N k x y z g d).dSeparated = none := by
        intro N k x y z g d
        unfold makeResult
        split <;> rfl
      have h := this D.nrows counter c.1 c.2.1 c.2.2 (G D c.1 c.2.1 c.2.2)
        (dofOf D cfg.kind c.1 c.2.1 c.2.2)
      generalize makeResult cfg D.nrows counter c.1 c.2.1 c.2.2 (G D c.1 c.2.1 c.2.2)
        (dofOf D cfg.kind c.1 c.2.1 c.2.2) = r at h ⊢
      cases r
      simp only at h
      subst h
      rfl
  refine Ok.bind (Ok.modify (Ok.ret ⟨?_, s1, hP, congrArg (fun r => log r s1) hres⟩))
  have := answer_of_entry (loggedResult_isEntry D cfg counter c)
  rw [← hres] at this
  exact this

/-! ## The unoptimised test -/

/-- The test object is consistent with the dataset.
(Models no code: a notion for statements and proofs.) -/
def UnoptOk (D : Data) (b : Base) : Prop := CacheOk D b.cache

theorem unoptCall_ok {D : Data} {cfg : Config} (hr : D.nrows ≠ 0) {c : Call}
    (hd : Declared D (c.1 :: c.2.1 :: c.2.2)) (hn : (c.1 :: c.2.1 :: c.2.2).Nodup) {b : Base}
    (hb : UnoptOk D b) :
    Ok (unoptCall D cfg c) b (fun a b' => IsAnswer D cfg c.1 c.2.1 c.2.2 a ∧ UnoptOk D b' ∧
      b'.counter = b.counter + 1 ∧ b'.results = b.results ++ [loggedResult D cfg b.counter c]) := by
  unfold unoptCall
  have h : Ok (unoptTest D cfg c.1 c.2.1 c.2.2) b (fun r b' =>
      r = makeResult cfg D.nrows b.counter c.1 c.2.1 c.2.2 (G D c.1 c.2.1 c.2.2)
        (dofOf D cfg.kind c.1 c.2.1 c.2.2) ∧
      (CacheOk D b'.cache ∧ b'.counter = b.counter ∧ b'.results = b.results)) := by
    obtain ⟨cache', t, e, hg, hc, hs⟩ := unoptTables_ok hr hn cfg.kind hb
    obtain ⟨t', e2, h2⟩ := calculateDof_ok cfg.kind hd hn hc (fun _ => hg) hs
    refine ⟨_, { b with cache := cache' }, ?_, rfl, hc, rfl, rfl⟩
    unfold unoptTest
    rw [e]
    show (calculateDof D cfg.kind cache' c.1 c.2.1 c.2.2 t >>= _) = _
    rw [e2]
    show Except.ok _ = _
    rw [gValue_eq (h2 hg)]
  refine (conditionallyIndependent_ok (P := fun b' => CacheOk D b'.cache ∧ b'.counter = b.counter
    ∧ b'.results = b.results) h).mono ?_
  rintro a b' ⟨ha, b1, ⟨h1, h2, h3⟩, rfl⟩
  refine ⟨ha, h1, ?_, ?_⟩
  · simp [Base.log, h2]
  · simp [Base.log, h3]

end Mbtk.Stats
