import Verif.Fp.Data
import Verif.Fp.GCell
import Verif.Fp.Cells
import Verif.Props.CITestProps
/-!
# The unoptimised G-test in floating point (C83): the model, and that it runs in step with the exact one

Every operation on `float`s is rounded to binary64 (`fl`): the probabilities of the data, the
divisions of `condition_on`, the products, quotients and sums of `conditional_mutual_information`, and
the final product `2 * N * cMI`.  The library functions `math.log` and `scipy.stats.chi2.cdf` are
parameters.  Compare C30, C31 (exact numbers).
-/
namespace Mbtk.Fp
open Mbtk Mbtk.Stats Mbtk.Stats.Spec
open Mbtk.ADTree (Data)
open Mbtk.MB (Answer)

/-! ## Model -/

/-- One iteration of the loop of `condition_on`: PMF.py 181-197. -/
def conditionStepF (condKey restKey : Key → Except Err Key) (cond : PMF) (acc : CPMF)
    (item : Key × ℚ) : Except Err CPMF := do
  let ck ← condKey item.1
  let rk ← restKey item.1
  let pmf := (dictGet acc ck).getD PMF.empty
  let pc := cond.p [ck.toVal]
  if pc = 0 then .ok (dictSet acc ck pmf)
  else .ok (dictSet acc ck
    { pmf with probabilities := dictSet pmf.probabilities rk (fl (item.2 / pc)) })

/-- The whole loop: PMF.py 169-199. -/
def conditionLoopF (condKey restKey : Key → Except Err Key) (cond : PMF) :
    CPMF → List (Key × ℚ) → Except Err CPMF
  | acc, [] => .ok acc
  | acc, item :: rest => do
    let acc ← conditionStepF condKey restKey cond acc item
    conditionLoopF condKey restKey cond acc rest

/-- `joint.condition_on(cond_pmf)`: PMF.py 169-199. -/
def conditionOnF (joint cond : PMF) : Except Err CPMF :=
  if cond.variableIDs = [] then .error .valueError
  else
    conditionLoopF (condKeyOf joint.variableIDs cond.variableIDs)
      (restKeyOf joint.variableIDs (joint.variableIDs.filter (fun v => v ∉ cond.variableIDs)))
      cond [] joint.probabilities

/-- The body of the three loops: infotheory.py 42-46. -/
def cmiStepF (flog : ℚ → ℚ) (s : ℚ) (c : ℚ × ℚ × ℚ × ℚ) : ℚ :=
  if c.2.1 = 0 ∨ c.2.2.1 = 0 ∨ c.2.2.2 = 0 then s
  else fl (s + termF flog c.1 c.2.1 c.2.2.1 c.2.2.2)

/-- `conditional_mutual_information(PrXYcZ, PrXcZ, PrYcZ, PrZ, base='e')`: infotheory.py 29-48; the
three nested loops one after the other, `cMI` being the running sum. -/
def cmiF (flog : ℚ → ℚ) (t : Tables) : ℚ :=
  |t.PrZ.probabilities.foldl (fun s z =>
    (t.PrXcZ.given [z.1.toVal]).probabilities.foldl (fun s x =>
      (t.PrYcZ.given [z.1.toVal]).probabilities.foldl (fun s y =>
        cmiStepF flog s (z.2, (t.PrXYcZ.given [z.1.toVal]).p [x.1.toVal, y.1.toVal], x.2, y.2)) s) s) 0|

/-- `2 * self.N * cMI`: G_test__unoptimized.py 137-139; `2 * self.N` is a whole number. -/
def gValueF (flog : ℚ → ℚ) (N : Nat) (t : Tables) : ℚ :=
  fl (fl ((2 * N : ℕ) : ℚ) * cmiF flog t)

/-- The distributions, from the data: G_test__unoptimized.py 66-101. -/
def unoptTablesF (D : Data) (kind : DofKind) (cache : DofCache) (X Y : Nat) (Z : List Nat) :
    Except Err (DofCache × Tables) :=
  let varX := getVariable D X
  let varY := getVariable D Y
  if Z = [] then do
    let jXY ← mkJoint [varX, varY]
    let prXY ← ofVariableF jXY
    let prX ← ofVariableF varX
    let prY ← ofVariableF varY
    let (cache, prXY) := contextPmf kind cache prXY
    let (cache, prX) := contextPmf kind cache prX
    let (cache, prY) := contextPmf kind cache prY
    pure (cache, ⟨omegaCPMF prXY, omegaCPMF prX, omegaCPMF prY, omegaPMF⟩)
  else do
    let varZ ← getVariables D Z
    let jXYZ ← mkJoint [varX, varY, varZ]
    let prXYZ ← ofVariableF jXYZ
    let jXZ ← mkJoint [varX, varZ]
    let prXZ ← ofVariableF jXZ
    let jYZ ← mkJoint [varY, varZ]
    let prYZ ← ofVariableF jYZ
    let prZ ← ofVariableF varZ
    let prXcZ ← conditionOnF prXZ prZ
    let prYcZ ← conditionOnF prYZ prZ
    let prXYcZ ← conditionOnF prXYZ prZ
    let (cache, _) := contextPmf kind cache prXYZ
    let (cache, _) := contextPmf kind cache prXZ
    let (cache, _) := contextPmf kind cache prYZ
    let (cache, prZ) := contextPmf kind cache prZ
    pure (cache, ⟨prXYcZ, prXcZ, prYcZ, prZ⟩)

/-- `G_test_conditionally_independent`: G_test__unoptimized.py 65-134. -/
noncomputable def unoptTestF (flog : ℚ → ℚ) (D : Data) (cfg : Config) (X Y : Nat) (Z : List Nat) :
    PyM Base Result := fun b => do
  let (cache, t) ← unoptTablesF D cfg.kind b.cache X Y Z
  let (dof, t) ← calculateDof D cfg.kind cache X Y Z t
  pure (makeResult cfg D.nrows b.counter X Y Z ((gValueF flog D.nrows t : ℚ) : ℝ) dof,
    { b with cache := cache })

/-- A call of the unoptimised test: G_test__unoptimized.py 45-62. -/
noncomputable def unoptCallF (flog : ℚ → ℚ) (D : Data) (cfg : Config) (c : Nat × Nat × List Nat) :
    PyM Base Answer :=
  conditionallyIndependent cfg (unoptTestF flog D cfg) Base.log c.1 c.2.1 c.2.2

/-! ## Dictionaries with the same keys and related values -/

/-- Same keys in the same order, related values. (Models no code: a notion for statements and proofs.) -/
def RelD {κ α β : Type} (R : α → β → Prop) (d' : List (κ × α)) (d : List (κ × β)) : Prop :=
  List.Forall₂ (fun p q => p.1 = q.1 ∧ R p.2 q.2) d' d

section RelD
variable {κ α β : Type} [DecidableEq κ] {R : α → β → Prop}

theorem RelD.get {d' : List (κ × α)} {d : List (κ × β)} (h : RelD R d' d) (k : κ) :
    (dictGet d' k = none ∧ dictGet d k = none) ∨
      ∃ a b, dictGet d' k = some a ∧ dictGet d k = some b ∧ R a b := by
  induction h with
  | nil => left; exact ⟨rfl, rfl⟩
  | @cons p q l l' hpq _ ih =>
    obtain ⟨k1, a⟩ := p
    obtain ⟨k2, b⟩ := q
    obtain ⟨e, hR⟩ := hpq
    simp only at e hR
    subst e
    by_cases hk : k1 = k
    · right; exact ⟨a, b, by simp [dictGet, hk], by simp [dictGet, hk], hR⟩
    · simpa [dictGet, hk] using ih

theorem RelD.set {d' : List (κ × α)} {d : List (κ × β)} (h : RelD R d' d) (k : κ) {a : α} {b : β}
    (hab : R a b) : RelD R (dictSet d' k a) (dictSet d k b) := by
  induction h with
  | nil => exact .cons ⟨rfl, hab⟩ .nil
  | @cons p q l l' hpq hl ih =>
    obtain ⟨k1, a1⟩ := p
    obtain ⟨k2, b1⟩ := q
    obtain ⟨e, hR⟩ := hpq
    simp only at e hR
    subst e
    by_cases hk : k1 = k
    · simp only [dictSet, hk, if_true]
      exact .cons ⟨rfl, hab⟩ hl
    · simp only [dictSet, hk, if_false]
      exact .cons ⟨rfl, hR⟩ ih

omit [DecidableEq κ] in
theorem RelD.mono {S : α → β → Prop} {d' : List (κ × α)} {d : List (κ × β)} (h : RelD R d' d)
    (hRS : ∀ a b, R a b → S a b) : RelD S d' d :=
  List.Forall₂.imp (fun _ _ hp => ⟨hp.1, hRS _ _ hp.2⟩) h

omit [DecidableEq κ] in
theorem RelD.keys {d' : List (κ × α)} {d : List (κ × β)} (h : RelD R d' d) :
    d'.map Prod.fst = d.map Prod.fst := by
  induction h with
  | nil => rfl
  | cons hpq _ ih => simp [hpq.1, ih]

omit [DecidableEq κ] in
theorem RelD.filter {d' : List (κ × α)} {d : List (κ × β)} (h : RelD R d' d)
    {f : κ × α → Bool} {g : κ × β → Bool} (hfg : ∀ k a b, R a b → f (k, a) = g (k, b)) :
    RelD R (d'.filter f) (d.filter g) := by
  induction h with
  | nil => exact .nil
  | @cons p q l l' hpq hl ih =>
    obtain ⟨k1, a1⟩ := p
    obtain ⟨k2, b1⟩ := q
    obtain ⟨e, hR⟩ := hpq
    simp only at e hR
    subst e
    simp only [List.filter_cons, hfg k1 a1 b1 hR]
    split
    · exact .cons ⟨rfl, hR⟩ ih
    · exact ih

end RelD

/-! ## Tables with the same keys and close values -/

/-- Zero and zero, or not tiny and close. (Models no code: a notion for statements and proofs.) -/
def Near (k : ℕ) (a b : ℚ) : Prop := (a = 0 ∧ b = 0) ∨ (1 / 2 ^ 53 ≤ b ∧ Rel k a b)

/-- A probability and its rounded value. (Models no code: a notion for statements and proofs.) -/
def NearP (a b : ℚ) : Prop := Near 1 a b ∧ b ≤ 1

theorem Near.zero_iff {k : ℕ} (hk : k ≤ 1000) {a b : ℚ} (h : Near k a b) : a = 0 ↔ b = 0 := by
  rcases h with ⟨h1, h2⟩ | ⟨h1, h2⟩
  · simp [h1, h2]
  · have hb : 0 < b := lt_of_lt_of_le (by norm_num) h1
    have := h2.pos hk hb
    exact ⟨fun h => absurd h this.ne', fun h => absurd h hb.ne'⟩

theorem Near.weaken {j k : ℕ} {a b : ℚ} (h : Near j a b) (hjk : j ≤ k) : Near k a b := by
  rcases h with h | ⟨h1, h2⟩
  · exact .inl h
  · exact .inr ⟨h1, h2.weaken hjk⟩

theorem NearP.weaken {a b : ℚ} (h : NearP a b) : Near 5 a b := h.1.weaken (by norm_num)

theorem near_one : NearP 1 1 := ⟨.inr ⟨by norm_num, (Rel.refl 1).weaken (by norm_num)⟩, le_refl _⟩

/-- Two PMFs with the same keys and identifiers, and related values.
(Models no code: a notion for statements and proofs.) -/
structure PmfNear (R : ℚ → ℚ → Prop) (p' p : PMF) : Prop where
  table : RelD R p'.probabilities p.probabilities
  ids : p'.variableIDs = p.variableIDs
  joint : p'.jointIDs = p.jointIDs

theorem PmfNear.mono {R S : ℚ → ℚ → Prop} {p' p : PMF} (h : PmfNear R p' p)
    (hRS : ∀ a b, R a b → S a b) : PmfNear S p' p := ⟨h.table.mono hRS, h.ids, h.joint⟩

theorem pmfNear_empty (R : ℚ → ℚ → Prop) : PmfNear R PMF.empty PMF.empty := ⟨.nil, rfl, rfl⟩

/-- Conditional tables with the same keys and close values.
(Models no code: a notion for statements and proofs.) -/
def CpmfNear (c' c : CPMF) : Prop := RelD (PmfNear (Near 5)) c' c

/-- The four tables. (Models no code: a notion for statements and proofs.) -/
structure TablesNear (t' t : Tables) : Prop where
  xy : CpmfNear t'.PrXYcZ t.PrXYcZ
  x : CpmfNear t'.PrXcZ t.PrXcZ
  y : CpmfNear t'.PrYcZ t.PrYcZ
  z : PmfNear NearP t'.PrZ t.PrZ

theorem PmfNear.p {k : ℕ} {p' p : PMF} (h : PmfNear (Near k) p' p) (args : List PyVal) :
    Near k (p'.p args) (p.p args) := by
  unfold PMF.p
  rcases h.table.get (processPmfKey args) with ⟨e1, e2⟩ | ⟨a, b, e1, e2, hab⟩
  · rw [e1, e2]; exact .inl ⟨rfl, rfl⟩
  · rw [e1, e2]; exact hab

theorem PmfNear.pP {p' p : PMF} (h : PmfNear NearP p' p) (args : List PyVal) :
    NearP (p'.p args) (p.p args) := by
  unfold PMF.p
  rcases h.table.get (processPmfKey args) with ⟨e1, e2⟩ | ⟨a, b, e1, e2, hab⟩
  · rw [e1, e2]; exact ⟨.inl ⟨rfl, rfl⟩, by norm_num⟩
  · rw [e1, e2]; exact hab

theorem CpmfNear.given {c' c : CPMF} (h : CpmfNear c' c) (args : List PyVal) :
    PmfNear (Near 5) (c'.given args) (c.given args) := by
  unfold CPMF.given
  rcases RelD.get h (processPmfKey args) with ⟨e1, e2⟩ | ⟨a, b, e1, e2, hab⟩
  · rw [e1, e2]; exact pmfNear_empty _
  · rw [e1, e2]; exact hab

/-- The two values are zero together. (Models no code: a notion for statements and proofs.) -/
def ZeroIff (R : ℚ → ℚ → Prop) : Prop := ∀ a b, R a b → (a = 0 ↔ b = 0)

theorem zeroIff_near : ZeroIff (Near 5) := fun _ _ h => h.zero_iff (by norm_num)

theorem zeroIff_nearP : ZeroIff NearP := fun _ _ h => h.1.zero_iff (by norm_num)

theorem PmfNear.removeZeros {R : ℚ → ℚ → Prop} (hR : ZeroIff R) {p' p : PMF} (h : PmfNear R p' p) :
    PmfNear R p'.removeZeros p.removeZeros := by
  refine ⟨?_, h.ids, h.joint⟩
  exact h.table.filter (fun k a b hab => by simp [hR a b hab])

theorem contextPmf_near (kind : DofKind) (cache : DofCache) {p' p : PMF} (h : PmfNear NearP p' p) :
    (contextPmf kind cache p').1 = (contextPmf kind cache p).1 ∧
      PmfNear NearP (contextPmf kind cache p').2 (contextPmf kind cache p).2 := by
  unfold contextPmf
  cases kind with
  | unadjusted => exact ⟨rfl, h⟩
  | structural => exact ⟨rfl, h⟩
  | cached =>
    have hz := h.removeZeros zeroIff_nearP
    simp only [cacheDofs]
    rw [h.joint]
    cases p.jointIDs with
    | none => exact ⟨rfl, h⟩
    | some vars =>
      simp only
      by_cases hl : vars.length ≤ 1
      · simp only [hl, if_true]; exact ⟨trivial, h⟩
      · simp only [hl, if_false]
        cases dictGet cache vars.toFinset with
        | some _ => exact ⟨rfl, h⟩
        | none =>
          refine ⟨?_, hz⟩
          simp only
          rw [hz.table.keys]

theorem removeZerosAt_near {c' c : CPMF} (h : CpmfNear c' c) (k : Key) :
    CpmfNear (removeZerosAt c' k) (removeZerosAt c k) := by
  unfold removeZerosAt
  rcases RelD.get h k with ⟨e1, e2⟩ | ⟨a, b, e1, e2, hab⟩
  · rw [e1, e2]; exact h
  · rw [e1, e2]; exact RelD.set h k (hab.removeZeros zeroIff_near)

theorem structuralLoop_near {d' d : List (Key × ℚ)} (hd : RelD NearP d' d) {x' x y' y : CPMF}
    (hx : CpmfNear x' x) (hy : CpmfNear y' y) (dof : Int) :
    (structuralLoop d' x' y' dof).1 = (structuralLoop d x y dof).1 ∧
    CpmfNear (structuralLoop d' x' y' dof).2.1 (structuralLoop d x y dof).2.1 ∧
    CpmfNear (structuralLoop d' x' y' dof).2.2 (structuralLoop d x y dof).2.2 := by
  induction hd generalizing x' x y' y dof with
  | nil => exact ⟨rfl, hx, hy⟩
  | @cons p q l l' hpq _ ih =>
    obtain ⟨k1, a⟩ := p
    obtain ⟨k2, b⟩ := q
    obtain ⟨e, hR⟩ := hpq
    simp only at e hR
    subst e
    have hz := zeroIff_nearP a b hR
    unfold structuralLoop
    by_cases h0 : b = 0
    · rw [if_pos (hz.2 h0), if_pos h0]
      exact ih hx hy dof
    · rw [if_neg (fun h => h0 (hz.1 h)), if_neg h0]
      have l1 := ((hx.given [k1.toVal]).removeZeros zeroIff_near).table.length_eq
      have l2 := ((hy.given [k1.toVal]).removeZeros zeroIff_near).table.length_eq
      dsimp only
      rw [l1, l2]
      exact ih (removeZerosAt_near hx _) (removeZerosAt_near hy _) _

/-! ## Computations that run in step -/

/-- Whenever the exact computation succeeds, so does the rounded one, with a related result.
(Models no code: a notion for statements and proofs.) -/
def SimE {α β : Type} (R : α → β → Prop) (m' : Except Err α) (m : Except Err β) : Prop :=
  ∀ b, m = .ok b → ∃ a, m' = .ok a ∧ R a b

theorem SimE.bind {α β γ δ : Type} {R : α → β → Prop} {S : γ → δ → Prop} {m' : Except Err α}
    {m : Except Err β} {f' : α → Except Err γ} {f : β → Except Err δ} (h : SimE R m' m)
    (hf : ∀ a b, m = .ok b → R a b → SimE S (f' a) (f b)) : SimE S (m' >>= f') (m >>= f) := by
  intro d hd
  cases hm : m with
  | error e => rw [hm] at hd; exact nomatch hd
  | ok b =>
    obtain ⟨a, ha, hab⟩ := h b hm
    rw [hm] at hd
    obtain ⟨c, hc, hcd⟩ := hf a b hm hab d hd
    exact ⟨c, by rw [ha]; exact hc, hcd⟩

theorem SimE.same {α : Type} (m : Except Err α) : SimE Eq m m := fun a h => ⟨a, h, rfl⟩

theorem SimE.ret {α β : Type} {R : α → β → Prop} {a : α} {b : β} (h : R a b) :
    SimE R (.ok a) (.ok b) := by
  intro b' hb; injection hb with hb; subst hb; exact ⟨a, rfl, h⟩

theorem near_div {a b c d : ℚ} (h : NearP a b) (h' : NearP c d) (hc : c ≠ 0) :
    Near 5 (fl (a / c)) (b / d) := by
  rcases h.1 with ⟨h1, h2⟩ | ⟨h1, h2⟩
  · subst h1; subst h2; left; simp [fl_zero]
  · rcases h'.1 with ⟨h3, _⟩ | ⟨h3, h4⟩
    · exact absurd h3 hc
    · right
      have d0 : 0 < d := lt_of_lt_of_le (by norm_num) h3
      have b0 : 0 < b := lt_of_lt_of_le (by norm_num) h1
      have hlow : 1 / 2 ^ 53 ≤ b / d := by
        rw [le_div_iff₀ d0]
        calc 1 / 2 ^ 53 * d ≤ 1 / 2 ^ 53 * 1 := mul_le_mul_of_nonneg_left h'.2 (by norm_num)
          _ ≤ b := by rw [mul_one]; exact h1
      exact ⟨hlow, (h2.div h4 (by norm_num) (by norm_num)).fl (by norm_num) (le_trans (by norm_num) hlow)⟩

theorem conditionLoop_sim (condKey restKey : Key → Except Err Key) {cond' cond : PMF}
    (hc : PmfNear NearP cond' cond) {d' d : List (Key × ℚ)} (hd : RelD NearP d' d) {acc' acc : CPMF}
    (ha : CpmfNear acc' acc) :
    SimE CpmfNear (conditionLoopF condKey restKey cond' acc' d')
      (conditionLoop condKey restKey cond acc d) := by
  induction hd generalizing acc' acc with
  | nil => exact SimE.ret ha
  | @cons p q l l' hpq _ ih =>
    obtain ⟨k1, a⟩ := p
    obtain ⟨k2, b⟩ := q
    obtain ⟨e, hR⟩ := hpq
    simp only at e hR
    subst e
    unfold conditionLoopF conditionLoop
    refine SimE.bind (R := CpmfNear) ?_ (fun a b _ hab => ih hab)
    unfold conditionStepF conditionStep
    refine SimE.bind (SimE.same _) ?_
    rintro ck _ _ rfl
    refine SimE.bind (SimE.same _) ?_
    rintro rk _ _ rfl
    have hz := (hc.pP [ck.toVal])
    have hzero := zeroIff_nearP _ _ hz
    have hpm : PmfNear (Near 5) ((dictGet acc' ck).getD PMF.empty) ((dictGet acc ck).getD PMF.empty) := by
      rcases RelD.get ha ck with ⟨e1, e2⟩ | ⟨a, b, e1, e2, hab⟩
      · rw [e1, e2]; exact pmfNear_empty _
      · rw [e1, e2]; exact hab
    dsimp only
    by_cases h0 : cond.p [ck.toVal] = 0
    · rw [if_pos (hzero.2 h0), if_pos h0]
      exact SimE.ret (RelD.set ha ck hpm)
    · have h0' : cond'.p [ck.toVal] ≠ 0 := fun h => h0 (hzero.1 h)
      rw [if_neg h0', if_neg h0]
      refine SimE.ret (RelD.set ha ck ⟨RelD.set hpm.table rk (near_div hR hz h0'), hpm.ids, hpm.joint⟩)

theorem conditionOn_sim {j' j c' c : PMF} (hj : PmfNear NearP j' j) (hc : PmfNear NearP c' c) :
    SimE CpmfNear (conditionOnF j' c') (j.conditionOn c) := by
  unfold conditionOnF PMF.conditionOn
  rw [hj.ids, hc.ids]
  split
  · intro b hb; exact nomatch hb
  · exact conditionLoop_sim _ _ hc hj.table .nil

/-- The probabilities of data. -/
theorem ofVariable_sim {v : Variable} {n : Nat} (h : HasInstances v n) (h53 : n ≤ 2 ^ 53) :
    SimE (PmfNear NearP) (ofVariableF v) (PMF.ofVariable v) := by
  unfold ofVariableF PMF.ofVariable
  rw [len_eq h]
  obtain ⟨c1, c2, c3⟩ := countValues_spec v
  have hlen : v.instances.length = n := by rw [instances_eq h]; simp
  have hle : ∀ p ∈ countValues v, p.2 ≤ n := by
    intro p hp
    have : p.2 = v.instances.count p.1 := by
      rw [← c3, dictVal_of_mem c1 (show (p.1, p.2) ∈ countValues v from hp)]
    rw [this, ← hlen]
    exact List.count_le_length
  show SimE _ (normalizeCountsF n (countValues v) >>= _) (normalizeCounts n (countValues v) >>= _)
  refine SimE.bind (R := RelD NearP) ?_ (fun a b _ hab => SimE.ret ⟨hab, rfl, rfl⟩)
  generalize countValues v = d at hle
  clear c1 c2 c3
  induction d with
  | nil => exact SimE.ret .nil
  | cons p d ih =>
    obtain ⟨k, c⟩ := p
    have hc : c ≤ n := hle (k, c) (by simp)
    unfold normalizeCountsF normalizeCounts
    by_cases hn : n = 0
    · rw [if_pos hn, if_pos hn]
      intro b hb; exact nomatch hb
    · rw [if_neg hn, if_neg hn]
      refine SimE.bind (ih (fun p hp => hle p (by simp [hp]))) (fun a b _ hab => SimE.ret (.cons ⟨rfl, ?_⟩ hab))
      simp only
      rw [normalized_share hc h53]
      have hnp : (0 : ℚ) < n := by exact_mod_cast Nat.pos_of_ne_zero hn
      refine ⟨?_, ?_⟩
      · by_cases h0 : c = 0
        · left; subst h0; simp [share, fl_zero]
        · right
          have hlow : (1 : ℚ) / 2 ^ 53 ≤ c / n := by
            have h2 : (1 : ℚ) ≤ c := by exact_mod_cast Nat.one_le_iff_ne_zero.2 h0
            have h3 : (n : ℚ) ≤ 2 ^ 53 := by exact_mod_cast h53
            rw [div_le_div_iff₀ (by norm_num) hnp]
            nlinarith
          refine ⟨hlow, Rel.of_abs (lt_of_lt_of_le (by norm_num) hlow) ?_⟩
          have := share_error (c := c) hn h53
          simpa using this
      · rw [div_le_one hnp]; exact_mod_cast hc

/-! ## The tables of the test -/

theorem omega_near {p' p : PMF} (h : PmfNear NearP p' p) : CpmfNear (omegaCPMF p') (omegaCPMF p) :=
  .cons ⟨rfl, h.mono (fun _ _ hab => hab.weaken)⟩ .nil

theorem omegaPMF_near : PmfNear NearP omegaPMF omegaPMF := ⟨.cons ⟨rfl, near_one⟩ .nil, rfl, rfl⟩

theorem unoptTables_sim {D : Data} (h53 : D.nrows ≤ 2 ^ 53) (X Y : Nat) (Z : List Nat)
    (kind : DofKind) (cache : DofCache) :
    SimE (fun a b => a.1 = b.1 ∧ TablesNear a.2 b.2) (unoptTablesF D kind cache X Y Z)
      (unoptTables D kind cache X Y Z) := by
  have hv : ∀ {cols v}, cols ≠ [] → IsVarOf D cols v →
      SimE (PmfNear NearP) (ofVariableF v) (PMF.ofVariable v) :=
    fun hne h => ofVariable_sim (hasInstances_of h hne) h53
  unfold unoptTablesF unoptTables
  dsimp only
  by_cases hZ : Z = []
  · rw [if_pos hZ, if_pos hZ]
    have hjv : mkJoint [getVariable D X, getVariable D Y] =
        .ok (.joint ([X, Y].map (column D))) :=
      mkJoint_ok D _ [X, Y] (by simp [flattenVariables, getVariable])
    refine SimE.bind (SimE.same _) ?_
    rintro j _ hj rfl
    rw [hjv] at hj
    injection hj with hj
    subst hj
    refine SimE.bind (hv (cols := [X, Y]) (by simp) (.inl rfl)) (fun a1 b1 _ n1 => ?_)
    refine SimE.bind (hv (cols := [X]) (by simp) (isVarOf_single D X)) (fun a2 b2 _ n2 => ?_)
    refine SimE.bind (hv (cols := [Y]) (by simp) (isVarOf_single D Y)) (fun a3 b3 _ n3 => ?_)
    obtain ⟨e1, m1⟩ := contextPmf_near kind cache n1
    obtain ⟨e2, m2⟩ := contextPmf_near kind (contextPmf kind cache b1).1 n2
    obtain ⟨e3, m3⟩ := contextPmf_near kind (contextPmf kind (contextPmf kind cache b1).1 b2).1 n3
    refine SimE.ret ⟨?_, ?_, ?_, ?_, ?_⟩
    · show (contextPmf kind (contextPmf kind (contextPmf kind cache a1).1 a2).1 a3).1 =
        (contextPmf kind (contextPmf kind (contextPmf kind cache b1).1 b2).1 b3).1
      rw [e1, e2, e3]
    · exact omega_near m1
    · refine omega_near ?_
      show PmfNear NearP (contextPmf kind (contextPmf kind cache a1).1 a2).2
        (contextPmf kind (contextPmf kind cache b1).1 b2).2
      rw [e1]
      exact m2
    · refine omega_near ?_
      show PmfNear NearP (contextPmf kind (contextPmf kind (contextPmf kind cache a1).1 a2).1 a3).2
        (contextPmf kind (contextPmf kind (contextPmf kind cache b1).1 b2).1 b3).2
      rw [e1, e2]
      exact m3
    · exact omegaPMF_near
  · rw [if_neg hZ, if_neg hZ]
    obtain ⟨vZ, eZ, hvZ⟩ := getVariables_ok D Z
    refine SimE.bind (SimE.same _) ?_
    rintro v _ h rfl
    rw [eZ] at h
    injection h with h
    subst h
    have hj : ∀ A : List Nat, mkJoint (A.map (getVariable D) ++ [vZ]) =
        .ok (.joint ((A ++ Z).map (column D))) :=
      fun A => mkJoint_ok D _ _ (flatten_cons_getVariables D A hvZ)
    refine SimE.bind (SimE.same _) ?_
    rintro v _ h rfl
    obtain rfl : Variable.joint (([X, Y] ++ Z).map (column D)) = v := by
      have := hj [X, Y]; simp only [List.map_cons, List.map_nil, List.cons_append, List.nil_append] at this
      rw [this] at h; injection h
    refine SimE.bind (hv (cols := [X, Y] ++ Z) (by simp) (.inl rfl)) (fun a1 b1 _ n1 => ?_)
    refine SimE.bind (SimE.same _) ?_
    rintro v _ h rfl
    obtain rfl : Variable.joint (([X] ++ Z).map (column D)) = v := by
      have := hj [X]; simp only [List.map_cons, List.map_nil, List.cons_append, List.nil_append] at this
      rw [this] at h; injection h
    refine SimE.bind (hv (cols := [X] ++ Z) (by simp) (.inl rfl)) (fun a2 b2 _ n2 => ?_)
    refine SimE.bind (SimE.same _) ?_
    rintro v _ h rfl
    obtain rfl : Variable.joint (([Y] ++ Z).map (column D)) = v := by
      have := hj [Y]; simp only [List.map_cons, List.map_nil, List.cons_append, List.nil_append] at this
      rw [this] at h; injection h
    refine SimE.bind (hv (cols := [Y] ++ Z) (by simp) (.inl rfl)) (fun a3 b3 _ n3 => ?_)
    refine SimE.bind (hv hZ hvZ) (fun a4 b4 _ n4 => ?_)
    refine SimE.bind (conditionOn_sim n2 n4) (fun a5 b5 _ n5 => ?_)
    refine SimE.bind (conditionOn_sim n3 n4) (fun a6 b6 _ n6 => ?_)
    refine SimE.bind (conditionOn_sim n1 n4) (fun a7 b7 _ n7 => ?_)
    obtain ⟨e1, m1⟩ := contextPmf_near kind cache n1
    obtain ⟨e2, m2⟩ := contextPmf_near kind (contextPmf kind cache b1).1 n2
    obtain ⟨e3, m3⟩ := contextPmf_near kind (contextPmf kind (contextPmf kind cache b1).1 b2).1 n3
    obtain ⟨e4, m4⟩ := contextPmf_near kind
      (contextPmf kind (contextPmf kind (contextPmf kind cache b1).1 b2).1 b3).1 n4
    refine SimE.ret ⟨?_, n7, n5, n6, ?_⟩
    · show (contextPmf kind (contextPmf kind (contextPmf kind (contextPmf kind cache a1).1 a2).1 a3).1 a4).1 =
        (contextPmf kind (contextPmf kind (contextPmf kind (contextPmf kind cache b1).1 b2).1 b3).1 b4).1
      rw [e1, e2, e3, e4]
    · show PmfNear NearP
        (contextPmf kind (contextPmf kind (contextPmf kind (contextPmf kind cache a1).1 a2).1 a3).1 a4).2
        (contextPmf kind (contextPmf kind (contextPmf kind (contextPmf kind cache b1).1 b2).1 b3).1 b4).2
      rw [e1, e2, e3]
      exact m4

theorem calculateDof_sim (D : Data) (kind : DofKind) (cache : DofCache) (X Y : Nat) (Z : List Nat)
    {t' t : Tables} (h : TablesNear t' t) :
    SimE (fun a b => a.1 = b.1 ∧ TablesNear a.2 b.2) (calculateDof D kind cache X Y Z t')
      (calculateDof D kind cache X Y Z t) := by
  cases kind with
  | unadjusted => exact SimE.ret ⟨rfl, h⟩
  | structural =>
    obtain ⟨h1, h2, h3⟩ := structuralLoop_near h.z.table h.x h.y 0
    unfold calculateDof
    dsimp only
    rw [h1]
    exact SimE.ret ⟨rfl, h.xy, h2, h3, h.z⟩
  | cached =>
    unfold calculateDof
    dsimp only
    cases dictGet cache ((X :: Y :: Z).map (fun c : Nat => (c : Int))).toFinset with
    | none => intro b hb; exact nomatch hb
    | some e =>
      obtain ⟨vars, pairwise⟩ := e
      dsimp only
      refine SimE.bind (SimE.same _) ?_
      rintro ix _ _ rfl
      refine SimE.bind (SimE.same _) ?_
      rintro iy _ _ rfl
      cases dictGet pairwise (ix, iy) with
      | none => intro b hb; exact nomatch hb
      | some dof => exact SimE.ret ⟨rfl, h⟩

/-! ## The summands -/

theorem cmiF_cells (flog : ℚ → ℚ) (t : Tables) :
    cmiF flog t = |(cells t).foldl (cmiStepF flog) 0| := by
  unfold cmiF cells
  congr 1
  rw [List.foldl_flatMap]
  congr 1
  funext s z
  rw [List.foldl_flatMap]
  congr 1
  funext s x
  rw [List.foldl_map]

/-- The four numbers of a summand, exact and rounded. (Models no code: a notion for statements and proofs.) -/
structure CellNear (c' c : ℚ × ℚ × ℚ × ℚ) : Prop where
  z : NearP c'.1 c.1
  q : Near 5 c'.2.1 c.2.1
  x : Near 5 c'.2.2.1 c.2.2.1
  y : Near 5 c'.2.2.2 c.2.2.2

theorem forall₂_flatMap {α β γ δ : Type} {R : α → β → Prop} {S : γ → δ → Prop} {l' : List α}
    {l : List β} {f' : α → List γ} {f : β → List δ} (h : List.Forall₂ R l' l)
    (hf : ∀ a b, R a b → List.Forall₂ S (f' a) (f b)) :
    List.Forall₂ S (l'.flatMap f') (l.flatMap f) := by
  induction h with
  | nil => exact .nil
  | cons h _ ih =>
    rw [List.flatMap_cons, List.flatMap_cons]
    exact List.rel_append (hf _ _ h) ih

theorem cells_near {t' t : Tables} (h : TablesNear t' t) :
    List.Forall₂ CellNear (cells t') (cells t) := by
  unfold cells
  refine forall₂_flatMap h.z.table ?_
  rintro ⟨z', pz'⟩ ⟨z, pz⟩ ⟨ez, hz⟩
  simp only at ez hz
  subst ez
  refine forall₂_flatMap (h.x.given _).table ?_
  rintro ⟨x', px'⟩ ⟨x, px⟩ ⟨ex, hx⟩
  simp only at ex hx
  subst ex
  rw [List.forall₂_map_left_iff, List.forall₂_map_right_iff]
  refine List.Forall₂.imp ?_ (h.y.given _).table
  rintro ⟨y', py'⟩ ⟨y, py⟩ ⟨ey, hy⟩
  simp only at ey hy
  subst ey
  exact ⟨hz, (h.xy.given _).p _, hx, hy⟩

end Mbtk.Fp
