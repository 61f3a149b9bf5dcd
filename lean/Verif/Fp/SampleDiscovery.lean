import Verif.Fp.Coupling
import Verif.Fp.Discovery
import Verif.Fp.GExample
/-!
# From sampling to discovery, with `float`s throughout (C97)

A dataset is sampled from a network with rounded tables and 53-bit random numbers; then IAMB or IPC-MB is
run on it with one of the G-tests and the CMI heuristic, all in floating point.
-/
namespace Mbtk.Fp
open Mbtk Mbtk.BN Mbtk.BN.Spec Mbtk.Stats Mbtk.Stats.Spec Mbtk.MB MeasureTheory ProbabilityTheory
open Mbtk.ADTree (Data)
open Mbtk.ADTree.Spec (Usable)
open Real (log)

variable {ν β : Type} [LinearOrder ν] [DecidableEq β] {nodes : List (Node ν β)} [Nonempty β]

/-! ## Worlds with one-sided errors -/

/-- The algorithms in any environment that never claims an independence that the network does not have and
whose heuristic prefers the dependent variables. -/
theorem one_sided_blanket (h : WellFormed nodes) (hF : FaithfulNet nodes) {σ : Type} {W : World σ ℝ}
    (hfair : W.Fair) (hA : W.Allows (OneSided (List.range nodes.length)
      (fun X Y Z => NetIndependent nodes X Y (Z.map (fun z : Nat => (z : Int))))))
    {T : Nat} (hTm : T < nodes.length) (hOn : W.HeurOn T (List.range nodes.length))
    {score : Nat → List Nat → ℝ} (hscore : ∀ Z, HeurIs W T Z (fun y => score y Z))
    (hsep : ∀ Y Y' Z, Proper (List.range nodes.length) T Y Z → Proper (List.range nodes.length) T Y' Z →
      NetIndependent nodes T Y (Z.map (fun z : Nat => (z : Int))) →
      ¬ NetIndependent nodes T Y' (Z.map (fun z : Nat => (z : Int))) → score Y Z < score Y' Z)
    (s : St σ) (alg : Algorithm) (halg : alg ≠ .ipcmb true) :
    ∃ mb s', alg.discover W (List.range nodes.length) T s = .ok (mb, s') ∧
      ∀ v, Graph.IsBlanket (Edge nodes) T v → v ∈ mb := by
  have hE := edge_acyclic h
  have hTU : T ∈ List.range nodes.length := List.mem_range.2 hTm
  have hconn : ∀ X Y Z, Proper (List.range nodes.length) X Y Z →
      Graph.Connected (Edge nodes) (Graph.PearlOpen (Edge nodes) {z | z ∈ Z}) X Y {z | z ∈ Z} →
      ¬ NetIndependent nodes X Y (Z.map (fun z : Nat => (z : Int))) := fun X Y Z hp hc hi =>
    hF X Y Z hp.1 (fun x hx => List.mem_range.1 (hp.2 x hx)) hi hc
  have hBm : ∀ v, Graph.IsBlanket (Edge nodes) T v → v ∈ List.range nodes.length ∧ v ≠ T := by
    rintro v ⟨hv, h1 | h1 | ⟨c, -, h1⟩⟩
    · exact ⟨List.mem_range.2 (edge_lt h h1).1, hv⟩
    · exact ⟨List.mem_range.2 (edge_lt h h1).2, hv⟩
    · exact ⟨List.mem_range.2 (edge_lt h h1).1, hv⟩
  have hopen : ∀ Z : Set Nat, ∀ b ∈ Z, Graph.PearlOpen (Edge nodes) Z b :=
    fun Z b hb => ⟨b, hb, Relation.ReflTransGen.refl⟩
  cases alg with
  | iamb =>
    have hG : Guided W (List.range nodes.length) T
        (Graph.IsBlanket (Edge nodes) T)
        (fun y Z => NetIndependent nodes T y (Z.map (fun z : Nat => (z : Int)))) score := by
      refine ⟨hBm, ?_, hscore, ?_, ?_⟩
      · intro y Z s hp
        obtain ⟨a, w, e, ha⟩ := hA T y Z s
        exact ⟨a, w, e, ha hp⟩
      · intro x S hp hi hmax v hv
        by_contra hvS
        obtain ⟨y, hy, hyS, hc⟩ := Graph.blanket_missing_connected hE (S := {z | z ∈ S})
          (hopen {z | z ∈ S}) hv hvS
        obtain ⟨hyU, hyT⟩ := hBm y hy
        have hpr := hp.1
        simp only [List.nodup_cons, List.mem_cons, not_or] at hpr
        have hpy : Proper (List.range nodes.length) T y S := proper_of hTU hyU hyT hpr.2.2
          (fun z hz => hp.2 z (by simp [hz])) hpr.1.2 hyS
        exact absurd (hmax y hyU hyT hyS) (not_le.2 (hsep x y S hp hpy hi (hconn T y S hpy hc)))
      · intro x S hp hx hS
        exact hconn T x S hp (Graph.blanket_member_connected hE (hopen {z | z ∈ S}) hx hS)
    exact iamb_superset hfair hOn hTU hG s
  | ipcmb pcOnly =>
    have hpc : pcOnly = false := by
      cases pcOnly with
      | false => rfl
      | true => exact absurd rfl halg
    subst hpc
    obtain ⟨mb, s', e, -, h2⟩ := ipcmb_superset (E := Edge nodes)
      (P := fun X Y Z => NetIndependent nodes X Y (Z.map (fun z : Nat => (z : Int))))
      hfair hE List.nodup_range hTU
      (fun a b hab => ⟨List.mem_range.2 (edge_lt h hab).1, List.mem_range.2 (edge_lt h hab).2⟩)
      hA
      (fun X Y Z hp hl => hconn X Y Z hp (Graph.connected_of_linked (by
        have := hp.1
        simp only [List.nodup_cons, List.mem_cons, not_or] at this
        exact this.1.1) hl))
      (fun X C Y Z hp h1 h2 hC => hconn X Y Z hp (Graph.connected_of_collider
        (by rintro rfl; exact hE.irrefl _ h1) (by rintro rfl; exact hE.irrefl _ h2) (by
        have := hp.1
        simp only [List.nodup_cons, List.mem_cons, not_or] at this
        exact this.1.1) h1 h2 (hopen _ C hC)))
      false s
    exact ⟨mb, s', e, h2 rfl⟩

/-! ## Telling samples -/

/-- What large samples have in common, for tests with errors: enough data for every test, every dependence
found even if the statistic is off by the allowed error, every dependent variable scored above every
independent one by more than the allowed errors. (Specification.) -/
structure TellingF (nodes : List (Node ν β)) (D : Data) (cfg : Config) (ε : Call → ℝ) : Prop where
  enough : ∀ X Y Z, Proper (List.range nodes.length) X Y Z → Enough D cfg X Y Z
  dependent : ∀ X Y Z, Proper (List.range nodes.length) X Y Z →
    ¬ NetIndependent nodes X Y (Z.map (fun z : Nat => (z : Int))) →
    ∀ g, |g - G D X Y Z| ≤ ε (X, Y, Z) → cfg.significance ≤ cfg.cdf g (dofOf D cfg.kind X Y Z)
  score : ∀ X Y Y' Z, Proper (List.range nodes.length) X Y Z → Proper (List.range nodes.length) X Y' Z →
    NetIndependent nodes X Y (Z.map (fun z : Nat => (z : Int))) →
    ¬ NetIndependent nodes X Y' (Z.map (fun z : Nat => (z : Int))) →
    cmi D X Y Z + cmiError D X Y Z + cmiError D X Y' Z < cmi D X Y' Z

/-- `W`, but whatever is not a `good` answer becomes `.dependent`, and whatever raises an exception returns
something. (Models no code: a notion for statements and proofs.) -/
noncomputable def filtered {σ : Type} (good : Nat → Nat → List Nat → Answer → Prop) (W : World σ ℝ) :
    World σ ℝ where
  ask X Y Z s := by
    classical
    exact match W.ask X Y Z s with
      | .ok (a, s') => .ok (if good X Y Z a then a else .dependent, s')
      | .error _ => .ok (.dependent, s)
  heur X Y Z s := orElse (W.heur X Y Z s) (0, s)
  iter := W.iter

/-- The value, or zero. (Models no code: a notion for statements and proofs.) -/
noncomputable def valueOr (x : Except Err ℝ) : ℝ :=
  match x with
  | .ok v => v
  | .error _ => 0

section near
variable {τ ι : Type}

theorem near_complete (hW : WellFormed nodes) (hF : FaithfulNet nodes) {D : Data} {cfg : Config}
    {ε : Call → ℝ} (hT : TellingF nodes D cfg ε) {valid : Call → Prop}
    {call : Call → PyM τ Answer} {base : τ → Base} {s0 : τ} (hc : NearTest D cfg ε valid call base s0)
    {h : Nat → Nat → List Nat → Except Err ℝ}
    (hh : ∀ X Y Z, Proper (List.range nodes.length) X Y Z → ∃ v, h X Y Z = .ok v ∧
      |v - cmi D X Y Z| ≤ cmiError D X Y Z)
    (hv : ∀ X Y Z, Proper (List.range nodes.length) X Y Z → valid (X, Y, Z))
    {o : List Nat → ι → List Nat × ι} (ho : ∀ l i, (o l i).1.Perm l) {T : Nat} (hTm : T < nodes.length)
    (alg : Algorithm) (halg : alg ≠ .ipcmb true) (i : ι) :
    ∃ mb tests results, outcome (fun t => (base t).results)
        (alg.discover (testWorld call h o) (List.range nodes.length) T) ⟨[], [], (s0, i)⟩ =
          .ok (mb, tests, results) ∧ ∀ v, Graph.IsBlanket (Edge nodes) T v → v ∈ mb := by
  classical
  obtain ⟨Inv, step, h0, h1, h2⟩ := hc
  let good : Nat → Nat → List Nat → Answer → Prop := fun X Y Z a => a ≠ .insufficient ∧
    (a = .independent → NetIndependent nodes X Y (Z.map (fun z : Nat => (z : Int))))
  have hgood : ∀ X Y Z, good X Y Z .dependent := fun X Y Z => ⟨(by intro h; cases h), (by intro h; cases h)⟩
  have hA : (filtered good (testWorld call h o)).Allows (OneSided (List.range nodes.length)
      (fun X Y Z => NetIndependent nodes X Y (Z.map (fun z : Nat => (z : Int))))) := by
    intro X Y Z s
    simp only [filtered]
    cases (testWorld call h o).ask X Y Z s with
    | error e => exact ⟨_, _, rfl, fun _ => hgood X Y Z⟩
    | ok p =>
      refine ⟨_, _, rfl, fun _ => ?_⟩
      by_cases hg : good X Y Z p.1
      · simp only [if_pos hg]; exact hg
      · simp only [if_neg hg]; exact hgood X Y Z
  have hOn : (filtered good (testWorld call h o)).HeurOn T (List.range nodes.length) := by
    intro Y _ _ Z s
    obtain ⟨p, e⟩ := orElse_ok ((testWorld call h o).heur T Y Z s) (0, s)
    exact ⟨p.1, p.2, e⟩
  have hscore : ∀ Z, HeurIs (filtered good (testWorld call h o)) T Z (fun y => valueOr (h T y Z)) := by
    intro Z y s v w e
    have e' : orElse (h T y Z >>= fun v => Except.ok (v, s)) (0, s) = .ok (v, w) := e
    cases hx : h T y Z with
    | error e => rw [hx] at e'; cases e'; show _ = valueOr (h T y Z); rw [hx]; rfl
    | ok v' => rw [hx] at e'; cases e'; show _ = valueOr (h T y Z); rw [hx]; rfl
  have hsep : ∀ Y Y' Z, Proper (List.range nodes.length) T Y Z → Proper (List.range nodes.length) T Y' Z →
      NetIndependent nodes T Y (Z.map (fun z : Nat => (z : Int))) →
      ¬ NetIndependent nodes T Y' (Z.map (fun z : Nat => (z : Int))) →
      valueOr (h T Y Z) < valueOr (h T Y' Z) := by
    intro Y Y' Z hp hp' hi hd
    obtain ⟨v, e, hv⟩ := hh T Y Z hp
    obtain ⟨v', e', hv'⟩ := hh T Y' Z hp'
    have := hT.score T Y Y' Z hp hp' hi hd
    rw [e, e']
    show v < v'
    rw [abs_le] at hv hv'
    linarith [hv.2, hv'.1]
  obtain ⟨mb, s', e, hB⟩ := one_sided_blanket hW hF (W := filtered good (testWorld call h o))
    (fun l s => ho l s.2) hA hTm hOn hscore hsep ⟨[], [], (s0, i)⟩ alg halg
  have hsame : SameAnswers (List.range nodes.length)
      (fun asked s t => s = t ∧ NearState D cfg ε Inv base asked s.1)
      (testWorld call h o) (filtered good (testWorld call h o)) := by
    refine ⟨⟨?_, ?_⟩, ?_⟩
    · rintro q X Y Z s t ⟨rfl, hs⟩ hp
      obtain ⟨a, s1, r, e1, he, ha, hN⟩ := hs.step step (hv X Y Z hp)
      have e2 : (testWorld call h o).ask X Y Z s = .ok (a, (s1, s.2)) := by
        show (call (X, Y, Z) s.1 >>= fun p => Except.ok (p.1, (p.2, s.2))) = _
        rw [e1]; rfl
      have hen := hT.enough X Y Z hp
      have hga : good X Y Z a := by
        refine ⟨fun hi => ha.insufficient.1 hi hen, fun hi => ?_⟩
        by_contra hd
        have hlt := (ha.independent.1 hi).2
        obtain ⟨hst, hpv, -⟩ := he.decided hen
        rw [hpv] at hlt
        exact absurd hlt (not_lt.2 (hT.dependent X Y Z hp hd _ hst))
      refine .inl ⟨a, (s1, s.2), (s1, s.2), e2, ?_, rfl, hN⟩
      simp only [filtered]
      rw [e2]
      simp only [if_pos hga]
    · rintro q l s t ⟨rfl, hs⟩
      exact ⟨rfl, ho l s.2, rfl, hs⟩
    · rintro q X Y Z s t ⟨rfl, hs⟩ hp
      obtain ⟨v, hv, -⟩ := hh X Y Z hp
      have e2 : (testWorld call h o).heur X Y Z s = .ok (v, s) := by
        show (h X Y Z >>= fun v => Except.ok (v, s)) = _
        rw [hv]; rfl
      refine ⟨v, s, s, e2, ?_, rfl, hs⟩
      show orElse ((testWorld call h o).heur X Y Z s) _ = _
      rw [e2]; rfl
  have hAl : Alike (List.range nodes.length) (fun asked s t => s = t ∧ NearState D cfg ε Inv base asked s.1)
      (⟨[], [], (s0, i)⟩ : St (τ × ι)) ⟨[], [], (s0, i)⟩ :=
    ⟨rfl, rfl, ⟨rfl, h0, h1, [], by rw [h2]; trivial⟩, by intro A B z hz; cases hz⟩
  rcases sim_discover hsame List.nodup_range (List.mem_range.2 hTm) alg _ _ hAl with
    ⟨a, s1, t1, e1, e2, hA1, -⟩ | ⟨e', e1, e2⟩
  · rw [e] at e2
    cases e2
    refine ⟨mb, s1.log, (base s1.w.1).results, ?_, hB⟩
    unfold outcome
    rw [e1]
    rfl
  · rw [e] at e2
    cases e2

variable {flog : ℚ → ℚ} {fsum : List ℚ → ℚ} {D : Data} {cfg : Config}

/-- On a sample that is telling even for tests with errors, the algorithms find the whole Markov blanket in
floating point. -/
theorem float_telling_blanket (h : WellFormed nodes) (hN : Normalised nodes) (hF : FaithfulNet nodes)
    (hlog : LogAccurate flog) (hsum : SumAccurate fsum) (hD : Usable D) (h40 : D.nrows ≤ 2 ^ 40)
    (hgc : GoodColumns D (List.range nodes.length)) (g : GTest) (hg : g.Supports cfg)
    (hT : TellingF nodes D cfg (testError D g)) {T : Nat} (hTm : T < nodes.length)
    (alg : Algorithm) (halg : alg ≠ .ipcmb true) {o : List Nat → ι → List Nat × ι}
    (ho : ∀ l i, (o l i).1.Perm l) (i : ι) :
    ∃ mb tests results, runWithF flog fsum g alg D cfg (List.range nodes.length) T o i = .ok (mb, tests, results) ∧
      (∀ v, Graph.IsBlanket (Edge nodes) T v → v ∈ mb) ∧
      ∀ Y, Y < nodes.length → Y ≠ T → Y ∉ mb →
        NetIndependent nodes T Y (mb.map (fun z : Nat => (z : Int))) := by
  have hr : D.nrows ≠ 0 := hD.rows_pos.ne'
  have hh : ∀ X Y Z, Proper (List.range nodes.length) X Y Z → ∃ v, cmiComputeF flog D X Y Z = .ok v ∧
    |v - cmi D X Y Z| ≤ cmiError D X Y Z := fun X Y Z hp => cmiComputeF_near hlog hr h40 hp.1
  obtain ⟨mb0, tests0, results0, answers, e0, -, hsub, -⟩ :=
    float_discovery_ends hlog hsum D cfg hD h40 _ List.nodup_range hgc T (List.mem_range.2 hTm) alg o ho i g hg
  have key : ∃ mb tests results,
      runWithF flog fsum g alg D cfg (List.range nodes.length) T o i = .ok (mb, tests, results) ∧
      ∀ v, Graph.IsBlanket (Edge nodes) T v → v ∈ mb := by
    cases g with
    | unoptimized =>
      exact near_complete h hF hT (unopt_near hlog D cfg hr h40) hh (hgc.call hD) ho hTm alg halg i
    | adtree dyn =>
      obtain ⟨a0, ea, ha⟩ := ad_near hlog D cfg hD h40 dyn
      unfold runWithF
      simp only []
      rw [ea]
      exact near_complete h hF hT ha hh hgc.ad ho hTm alg halg i
    | dcmi order =>
      obtain ⟨d0, ed, hd⟩ := dc_near hlog hsum D cfg hg.1 hr h40 order hg.2
      unfold runWithF
      simp only []
      rw [ed]
      exact near_complete h hF hT hd hh (hgc.call hD) ho hTm alg halg i
  obtain ⟨mb, tests, results, e, hB⟩ := key
  rw [e0] at e
  cases e
  refine ⟨_, _, _, e0, hB, fun Y hY hYT hYm => ?_⟩
  exact blanket_shields nodes h hN T hTm _ (fun z hz => List.mem_range.1 (hsub z hz).1)
    (fun hm => (hsub T hm).2 rfl) hB Y hY hYT hYm

end near

/-! ## Large samples are telling -/

theorem observed_card_possible {D : Data} (hp : RowsPossible nodes D) {X Y : Nat} {Z : List Nat}
    (hlt : ∀ x ∈ X :: Y :: Z, x < nodes.length) : (observed D (X :: Y :: Z)).card ≤ combinations nodes :=
  (Finset.card_le_card (observed_possible hp hlt)).trans (card_combinations_le _)

theorem testError_le {D : Data} (hp : RowsPossible nodes D) (hr : D.nrows ≠ 0) (h40 : D.nrows ≤ 2 ^ 40)
    (g : GTest) {X Y : Nat} {Z : List Nat} (hlt : ∀ x ∈ X :: Y :: Z, x < nodes.length) :
    testError D g (X, Y, Z) ≤ D.nrows * (combinations nodes + 14) / 2 ^ 44 := by
  have h1 : testError D g (X, Y, Z) ≤ dcError D X Y Z := by
    cases g with
    | unoptimized => exact gError_le_dcError hr _ _ _
    | adtree dyn => exact gError_le_dcError hr _ _ _
    | dcmi order => exact le_refl _
  refine h1.trans ?_
  obtain ⟨l0, l1⟩ := log_rows hr h40
  have hM : ((observed D (X :: Y :: Z)).card : ℝ) ≤ combinations nodes := by exact_mod_cast observed_card_possible hp hlt
  have hM0 : (0 : ℝ) ≤ (observed D (X :: Y :: Z)).card := by positivity
  have hn : (0 : ℝ) ≤ D.nrows := by positivity
  unfold dcError
  generalize ((observed D (X :: Y :: Z)).card : ℝ) = c at *
  generalize (combinations nodes : ℝ) = M at *
  generalize log (D.nrows : ℝ) = L at *
  generalize (D.nrows : ℝ) = n at *
  have k1 : 8 * (c + 5) * (L + 1) ≤ 8 * (M + 14) * 29 := by
    apply mul_le_mul <;> linarith
  have k2 : 2 * n * (8 * (c + 5) * (L + 1)) ≤ 2 * n * (8 * (M + 14) * 32) := by
    apply mul_le_mul_of_nonneg_left _ (by linarith)
    refine k1.trans ?_
    apply mul_le_mul_of_nonneg_left (by norm_num) (by linarith)
  have k3 : 2 * n * (8 * (M + 14) * 32) / 2 ^ 53 = n * (M + 14) / 2 ^ 44 := by ring
  rw [← k3]
  exact div_le_div_of_nonneg_right k2 (by positivity)

theorem cmiError_le {D : Data} (hp : RowsPossible nodes D) (hr : D.nrows ≠ 0) (h40 : D.nrows ≤ 2 ^ 40)
    {X Y : Nat} {Z : List Nat} (hlt : ∀ x ∈ X :: Y :: Z, x < nodes.length) :
    cmiError D X Y Z ≤ (combinations nodes + 14) / 2 ^ 48 := by
  obtain ⟨l0, l1⟩ := log_rows hr h40
  have hM : ((observed D (X :: Y :: Z)).card : ℝ) ≤ combinations nodes := by exact_mod_cast observed_card_possible hp hlt
  have hM0 : (0 : ℝ) ≤ (observed D (X :: Y :: Z)).card := by positivity
  unfold cmiError
  generalize ((observed D (X :: Y :: Z)).card : ℝ) = c at *
  generalize (combinations nodes : ℝ) = M at *
  generalize log (D.nrows : ℝ) = L at *
  have k1 : (c + 14) * (L + 2) ≤ (M + 14) * 32 := by
    apply mul_le_mul <;> linarith
  have k3 : (M + 14) * 32 / 2 ^ 53 = (M + 14) / 2 ^ 48 := by ring
  rw [← k3]
  exact div_le_div_of_nonneg_right k1 (by positivity)

/-- Measures that are off by less than a quarter of the weakest dependence tell dependence from
independence, even in floating point. -/
theorem tellingF_of_close (h : WellFormed nodes) (hN : Normalised nodes) {D : Data} {n : ℕ}
    (hrows : D.nrows = n) (h40 : n ≤ 2 ^ 40) (hp : RowsPossible nodes D) (hv : ListsValues D nodes.length) {μ : ℝ}
    (hfine : (combinations nodes : ℝ) + 14 ≤ 2 ^ 43 * μ)
    (hμ : ∀ X Y Z, Proper (List.range nodes.length) X Y Z →
      ¬ NetIndependent nodes X Y (Z.map (fun z : Nat => (z : Int))) →
      μ ≤ netCmi nodes X Y (Z.map (fun z : Nat => (z : Int))))
    (hclose : ∀ (X Y : Nat) (Z : List Nat), X < nodes.length → Y < nodes.length → (∀ z ∈ Z, z < nodes.length) →
      |cmi D X Y Z - netCmi nodes X Y (Z.map (fun z : Nat => (z : Int)))| < μ / 4)
    {cfg : Config} (hc : cfg.criterion = none) (hn : 5 * combinations nodes < n)
    (hcdf : ∀ (g : ℝ) (d : ℕ), n * μ ≤ g → 1 ≤ d → d ≤ combinations nodes → cfg.significance ≤ cfg.cdf g d)
    (g : GTest) : TellingF nodes D cfg (testError D g) := by
  have hlt : ∀ {X Y Z}, Proper (List.range nodes.length) X Y Z → ∀ x ∈ X :: Y :: Z, x < nodes.length :=
    fun hpr x hx => List.mem_range.1 (hpr.2 x hx)
  have hcl : ∀ {X Y Z}, Proper (List.range nodes.length) X Y Z →
      |cmi D X Y Z - netCmi nodes X Y (Z.map (fun z : Nat => (z : Int)))| < μ / 4 :=
    fun hpr => hclose _ _ _ (hlt hpr _ (by simp)) (hlt hpr _ (by simp)) (fun z hz => hlt hpr z (by simp [hz]))
  have hdof : ∀ {X Y Z}, Proper (List.range nodes.length) X Y Z →
      dofOf D cfg.kind X Y Z ≤ combinations nodes :=
    fun hpr => dof_le_combinations h cfg.kind hp hv hpr.1 (hlt hpr)
  have hdep : ∀ X Y Z, Proper (List.range nodes.length) X Y Z →
      ¬ NetIndependent nodes X Y (Z.map (fun z : Nat => (z : Int))) → 3 * μ / 4 < cmi D X Y Z := by
    intro X Y Z hpr hd
    have h1 := (abs_lt.1 (hcl hpr)).1
    have h2 := hμ X Y Z hpr hd
    linarith
  have hr : D.nrows ≠ 0 := by omega
  have hM : (0 : ℝ) ≤ combinations nodes := by positivity
  have hn0 : (0 : ℝ) ≤ n := by positivity
  have hnp : (0 : ℝ) < n := by exact_mod_cast (by omega : 0 < n)
  refine ⟨fun X Y Z hpr => ?_, fun X Y Z hpr hd x hx => ?_, fun X Y Y' Z hpr hpr' hi hd => ?_⟩
  · unfold Enough
    rw [hc, hrows]
    show 5 * dofOf D cfg.kind X Y Z < n
    have := hdof hpr
    omega
  · refine hcdf _ _ ?_ (one_le_dofOf _ _ _ _ _) (hdof hpr)
    have h1 := testError_le hp hr (by rw [hrows]; exact h40) g (hlt hpr)
    rw [hrows] at h1
    have h2 : (n : ℝ) * (combinations nodes + 14) / 2 ^ 44 ≤ n * μ / 2 := by
      have := mul_le_mul_of_nonneg_left hfine hn0
      rw [div_le_iff₀ (by positivity)]
      calc (n : ℝ) * (combinations nodes + 14) ≤ n * (2 ^ 43 * μ) := this
        _ = n * μ / 2 * 2 ^ 44 := by ring
    have h3 : G D X Y Z = 2 * n * cmi D X Y Z := by
      unfold G
      rw [hrows]
    have h4 := mul_lt_mul_of_pos_left (hdep X Y Z hpr hd) hnp
    have h5 := (abs_le.1 hx).1
    rw [h3] at h5
    have h6 : 2 * (n : ℝ) * cmi D X Y Z = 2 * (n * cmi D X Y Z) := by ring
    have h7 : (n : ℝ) * (3 * μ / 4) = 3 * (n * μ) / 4 := by ring
    rw [h7] at h4
    rw [h6] at h5
    linarith
  · have h1 := (abs_lt.1 (hcl hpr)).2
    rw [(netCmi_eq_zero_iff h hN _ _ _).2 hi] at h1
    have h2 := hdep X Y' Z hpr' hd
    have e1 := cmiError_le hp hr (by rw [hrows]; exact h40) (hlt hpr)
    have e2 := cmiError_le hp hr (by rw [hrows]; exact h40) (hlt hpr')
    have e3 : ((combinations nodes : ℝ) + 14) / 2 ^ 48 ≤ μ / 32 := by
      rw [div_le_iff₀ (by positivity)]
      calc ((combinations nodes : ℝ) + 14) ≤ 2 ^ 43 * μ := hfine
        _ = μ / 32 * 2 ^ 48 := by ring
    linarith

/-! ## The theorems -/

section end_to_end
variable {Ω : Type} [MeasurableSpace Ω]

/-- **C97, frequencies.** Columns of a matrix that the code samples, in floating point: that the relative
frequency of a combination of values is off its probability in the network by `ε` or more has probability
at most `2 exp(-2 n ε²)` plus the sampling error. -/
theorem float_frequency_deviation (nodes : List (Node ν β)) (h : WellFormed nodes) (hN : Normalised nodes)
    (netF : Net ν β) (eF : finalizeF { nodes := nodes.map readNode } = .ok netF)
    (K : Nat) (hK : K ≤ 2 ^ 40) (hk : ∀ n ∈ nodes, n.values.length ≤ K)
    (P : Measure Ω) [IsProbabilityMeasure P] (x : ℕ → Ω → Fin (2 ^ 53)) (hx : BitSource P x)
    (n : ℕ) (hn : 0 < n) (ε : ℝ) (hε : 0 ≤ ε) (cols : List Nat) (hcols : ∀ c ∈ cols, c < nodes.length)
    (vals : List Int) :
    P.real {ω | ¬ ∃ R, sampleMatrix netF n (fun j => random (x j ω)) = .ok R ∧ R.length = n ∧
        ∀ D : Data, HasRows D R → |(freq D cols vals : ℝ) -
          ((prob nodes (fun a => (cols.map (fun c : Nat => (c : Int))).map (valueOfID nodes a) = vals) : ℚ) : ℝ)| < ε} ≤
      2 * Real.exp (-(2 * n * ε ^ 2)) + samplingError nodes K n := by
  obtain ⟨P0, hP0, hm, hi, hu⟩ := uniform_source
  obtain ⟨net, e, -⟩ := finalize_ok h
  have h1 := frequency_deviation nodes h hN net e P0 (fun j ω => ω j) hm hi hu n hn ε hε cols hcols vals
  have h2 := float_matrix_distribution h hN hK hk e eF hx hm hi hu n (fun r => ¬ ∃ R, r = .ok R ∧ R.length = n ∧
        ∀ D : Data, HasRows D R → |(freq D cols vals : ℝ) -
          ((prob nodes (fun a => (cols.map (fun c : Nat => (c : Int))).map (valueOfID nodes a) = vals) : ℚ) : ℝ)| < ε)
  have h3 := (abs_le.1 h2).2
  linarith

/-- **C97, discovery.** How many samples suffice, with `float`s throughout: if every dependence of a faithful
network has conditional mutual information at least `μ`, not too small for the precision, the sample has
more than `5 M` rows and at least `threshold`, and the distribution function exceeds the significance at
`n μ`, then, except with probability `2 M exp(-2 n (μ / 32M)⁴)` plus the sampling error, the code samples a
matrix with `n` rows, and IAMB with the CMI heuristic and IPC-MB, with any of the G-tests, for any target
and any iteration order of sets, end without exception and return the whole Markov blanket of the target. -/
theorem float_discovery_sample_bound (nodes : List (Node ν β)) (h : WellFormed nodes)
    (hN : Normalised nodes) (hF : FaithfulNet nodes) (netF : Net ν β)
    (eF : finalizeF { nodes := nodes.map readNode } = .ok netF)
    (K : Nat) (hK : K ≤ 2 ^ 40) (hk : ∀ n ∈ nodes, n.values.length ≤ K)
    (P : Measure Ω) [IsProbabilityMeasure P] (x : ℕ → Ω → Fin (2 ^ 53)) (hx : BitSource P x)
    (μ : ℝ) (hfine : (combinations nodes : ℝ) + 14 ≤ 2 ^ 43 * μ)
    (hμ : ∀ X Y Z, (X :: Y :: Z).Nodup → (∀ x ∈ X :: Y :: Z, x < nodes.length) →
      ¬ NetIndependent nodes (X : Nat) (Y : Nat) (Z.map (fun z : Nat => (z : Int))) →
      μ ≤ netCmi nodes X Y (Z.map (fun z : Nat => (z : Int))))
    (flog : ℚ → ℚ) (hlog : LogAccurate flog) (fsum : List ℚ → ℚ) (hsum : SumAccurate fsum)
    (cfg : Config) (hc : cfg.criterion = none) (threshold n : Nat) (hn : 5 * combinations nodes < n)
    (h40 : n ≤ 2 ^ 40) (ht : threshold ≤ n)
    (hcdf : ∀ (g : ℝ) (d : ℕ), n * μ ≤ g → 1 ≤ d → d ≤ combinations nodes → cfg.significance ≤ cfg.cdf g d) :
    P.real {ω | ¬ ∃ R, sampleMatrix netF n (fun j => random (x j ω)) = .ok R ∧ R.length = n ∧
      ∀ D : Data, HasRows D R → ListsValues D nodes.length → D.ncols = nodes.length →
        D.threshold = threshold →
        ∀ (alg : Algorithm) (g : GTest) (T : Nat) (ι : Type)
          (o : List Nat → ι → List Nat × ι) (i : ι), alg ≠ .ipcmb true → g.Supports cfg →
          T < nodes.length → (∀ l i, (o l i).1.Perm l) →
          ∃ mb tests results,
            runWithF flog fsum g alg D cfg (List.range nodes.length) T o i = .ok (mb, tests, results) ∧
            (∀ v, Graph.IsBlanket (Edge nodes) T v → v ∈ mb) ∧
            ∀ Y, Y < nodes.length → Y ≠ T → Y ∉ mb →
              NetIndependent nodes T Y (mb.map (fun z : Nat => (z : Int)))} ≤
      2 * combinations nodes * Real.exp (-(2 * n * (μ / (32 * combinations nodes)) ^ 4)) +
        samplingError nodes K n := by
  obtain ⟨P0, hP0, hm, hi, hu⟩ := uniform_source
  obtain ⟨net, e, -⟩ := finalize_ok h
  have hM : (0 : ℝ) ≤ combinations nodes := by positivity
  have hμ0 : 0 ≤ μ := by
    by_contra hneg
    have : 2 ^ 43 * μ < 0 := mul_neg_of_pos_of_neg (by positivity) (not_le.1 hneg)
    linarith
  have he : μ / (32 * (combinations nodes : ℝ)) = μ / 4 / (8 * combinations nodes) := by
    rw [div_div]
    congr 1
    ring
  rw [he]
  have h1 := good_event (P := P0) (U := fun j ω => ω j) h hN e hm hi hu (n := n) (by omega)
    (by positivity : (0 : ℝ) ≤ μ / 4)
  have h2 := float_matrix_distribution h hN hK hk e eF hx hm hi hu n (fun r => ¬ ∃ R, r = .ok R ∧ R.length = n ∧
        ∀ D : Data, HasRows D R → RowsPossible nodes D ∧ ∀ (X Y : Nat) (Z : List Nat),
          X < nodes.length → Y < nodes.length → (∀ z ∈ Z, z < nodes.length) →
          |cmi D X Y Z - netCmi nodes X Y (Z.map (fun z : Nat => (z : Int)))| < μ / 4)
  have h3 := (abs_le.1 h2).2
  refine le_trans (measureReal_mono ?_ (measure_ne_top P _)) ((sub_le_iff_le_add'.1 h3).trans
    (add_le_add_left h1 _))
  intro ω hbad hgood
  obtain ⟨R, hR, hl, hall⟩ := hgood
  apply hbad
  refine ⟨R, hR, hl, fun D hD hv hcols hth alg g T ι o i halg hg hT ho => ?_⟩
  obtain ⟨hp, hclose⟩ := hall D hD
  have hrows : D.nrows = n := by rw [hD.1, hl]
  have hTell := tellingF_of_close h hN hrows h40 hp hv hfine
    (fun X Y Z hpr => hμ X Y Z hpr.1 (fun x hx => List.mem_range.1 (hpr.2 x hx))) hclose hc hn hcdf g
  have hU := usable_matrix hv hcols (by rw [hrows]; omega) (by rw [hrows, hth]; exact ht)
  exact float_telling_blanket h hN hF hlog hsum hU (by rw [hrows]; exact h40) (good_columns hp hv hcols) g hg hTell
    hT alg halg ho i

end end_to_end

/-! ## Examples -/

omit [LinearOrder ν] [DecidableEq β] [Nonempty β] in
/-- There are sources of independent uniform 53-bit random numbers. -/
theorem bit_source : ∃ (P : Measure (ℕ → ℝ)) (x : ℕ → (ℕ → ℝ) → Fin (2 ^ 53)),
    IsProbabilityMeasure P ∧ BitSource P x := by
  obtain ⟨P, hP, hm, hi, hu⟩ := uniform_source
  refine ⟨P, fun j ω => tick (ω j), hP, fun j => measurable_tick.comp (hm j),
    hi.comp (fun _ => tick) (fun _ => measurable_tick), fun j i => ?_⟩
  have h1 := tick_uniform i
  rw [← hu j, Measure.map_map measurable_tick (hm j),
    Measure.map_apply (measurable_tick.comp (hm j)) (measurableSet_singleton _)] at h1
  show (P ((tick ∘ fun ω => ω j) ⁻¹' {i})).toReal = _
  rw [h1, ENNReal.toReal_ofReal (by positivity)]

/-- A fair coin and a copy of it. (Example.) -/
def exCopy : List (Node Nat Nat) :=
  [{ name := 0, values := [0, 1], parents := [], probabilities := [(.unconditioned, [1/2, 1/2])] },
   { name := 1, values := [0, 1], parents := [0],
     probabilities := [(.values [0], [1, 0]), (.values [1], [0, 1])] }]

theorem exCopy_wf : WellFormed exCopy :=
  wellFormed_of_check (by decide) (l := [0, 1]) (by decide +kernel) (by decide) (by decide +kernel)
    (by decide +kernel)

theorem exCopy_normalised : Normalised exCopy := by
  intro n hn vs h
  rw [mem_combos] at h
  revert n vs
  decide +kernel

theorem exCopy_calls {X Y : Nat} {Z : List Nat} (hn : (X :: Y :: Z).Nodup)
    (hlt : ∀ x ∈ X :: Y :: Z, x < 2) : Z = [] ∧ ((X = 0 ∧ Y = 1) ∨ (X = 1 ∧ Y = 0)) := by
  have hX : X < 2 := hlt X (by simp)
  have hY : Y < 2 := hlt Y (by simp)
  simp only [List.nodup_cons, List.mem_cons, not_or] at hn
  refine ⟨?_, by omega⟩
  cases Z with
  | nil => rfl
  | cons z Z =>
    exfalso
    have h1 := hlt z (by simp)
    have h2 : X ≠ z := fun h => hn.1.2 (by simp [h])
    have h3 : Y ≠ z := fun h => hn.2.1 (by simp [h])
    omega

theorem exCopy_dependent : ¬ NetIndependent exCopy 0 1 [] ∧ ¬ NetIndependent exCopy 1 0 [] := by
  constructor <;>
  · intro hi
    have := hi 0 0 []
    unfold jointXYZ at this
    simp only [prob_decidable] at this
    clear hi
    revert this
    decide +kernel

theorem exCopy_faithful : FaithfulNet exCopy := by
  intro X Y Z hn hlt hi
  obtain ⟨rfl, ⟨rfl, rfl⟩ | ⟨rfl, rfl⟩⟩ := exCopy_calls hn hlt
  · exact absurd hi exCopy_dependent.1
  · exact absurd hi exCopy_dependent.2

theorem exCopy_joint (X Y : Int) (h : (X = 0 ∧ Y = 1) ∨ (X = 1 ∧ Y = 0)) :
    valuesOf exCopy X = {0, 1} ∧ valuesOf exCopy Y = {0, 1} ∧ combinationsOf exCopy [] = {[]} ∧
    jointXYZ exCopy X Y [] 0 0 [] = 1 / 2 ∧ jointXYZ exCopy X Y [] 0 1 [] = 0 ∧
    jointXYZ exCopy X Y [] 1 0 [] = 0 ∧ jointXYZ exCopy X Y [] 1 1 [] = 1 / 2 := by
  unfold jointXYZ
  simp only [prob_decidable]
  rcases h with ⟨rfl, rfl⟩ | ⟨rfl, rfl⟩ <;> decide +kernel

theorem exCopy_cmi (X Y : Int) (h : (X = 0 ∧ Y = 1) ∨ (X = 1 ∧ Y = 0)) : netCmi exCopy X Y [] = log 2 := by
  obtain ⟨h1, h2, h3, j1, j2, j3, j4⟩ := exCopy_joint X Y h
  unfold netCmi Stats.Info.cmi Stats.Info.mZ Stats.Info.mXZ Stats.Info.mYZ
  rw [h1, h2, h3]
  simp only [Finset.sum_singleton, Finset.sum_pair (show (0 : Int) ≠ 1 by decide), j1, j2, j3, j4]
  push_cast
  norm_num
  ring

/-- A G-test with a fixed critical value. (Example.) -/
noncomputable def exTest : Config where
  kind := .structural
  cdf g _ := if 20 ≤ g then 1 else 0
  significance := 0.95

/-- `2³⁷` samples of the coin and its copy, drawn and analysed in floating point: with probability at least
`1 - 1/400`, both algorithms with the AD-tree test find that the copy is in the Markov blanket of the
coin. -/
example : ∃ (netF : Net Nat Nat), finalizeF { nodes := exCopy.map readNode } = .ok netF ∧
    ∀ {Ω : Type} [MeasurableSpace Ω] (P : Measure Ω) [IsProbabilityMeasure P] (x : ℕ → Ω → Fin (2 ^ 53)),
      BitSource P x →
      P.real {ω | ¬ ∃ R, sampleMatrix netF (2 ^ 37) (fun j => random (x j ω)) = .ok R ∧
        ∀ alg : Algorithm, alg ≠ .ipcmb true → ∃ mb tests results,
          runWithF roundedLog leftSum (.adtree true) alg (matrixOf 2 R) exTest [0, 1] 0
            (fun l (i : Unit) => (l, i)) () = .ok (mb, tests, results) ∧ 1 ∈ mb} ≤ 1 / 400 := by
  obtain ⟨net1, e1, -⟩ := finalize_ok (wellFormed_read exCopy_wf)
  refine ⟨recum net1, by rw [finalizeF_eq, e1]; rfl, fun P _ x hx => ?_⟩
  have hM : combinations exCopy = 4 := by decide
  have hS : tableSize exCopy = 6 := by decide
  have hb := float_discovery_sample_bound exCopy exCopy_wf exCopy_normalised exCopy_faithful (recum net1)
    (by rw [finalizeF_eq, e1]; rfl) 2 (by norm_num) (by decide) P x hx (1 / 2) (by rw [hM]; norm_num)
    (fun X Y Z hn hlt _ => by
      obtain ⟨rfl, h⟩ := exCopy_calls hn hlt
      rw [show (([] : List Nat).map (fun z : Nat => (z : Int))) = [] from rfl,
        exCopy_cmi X Y (by rcases h with ⟨rfl, rfl⟩ | ⟨rfl, rfl⟩ <;> simp)]
      linarith [Real.log_two_gt_d9])
    roundedLog roundedLog_accurate leftSum leftSum_accurate exTest rfl 0 (2 ^ 37) (by rw [hM]; norm_num)
    (by norm_num) (by norm_num)
    (fun g d hg _ _ => by
      show (0.95 : ℝ) ≤ if 20 ≤ g then 1 else 0
      rw [if_pos (by norm_num at hg; linarith)]
      norm_num)
  have hle : 2 * ((combinations exCopy : ℕ) : ℝ) * Real.exp (-(2 * ((2 ^ 37 : ℕ) : ℝ) * (1 / 2 / (32 * ((combinations exCopy : ℕ) : ℝ))) ^ 4)) +
      samplingError exCopy 2 (2 ^ 37) ≤ 1 / 400 := by
    unfold samplingError
    rw [hM, hS]
    have h1 : -(2 * ((2 ^ 37 : ℕ) : ℝ) * (1 / 2 / (32 * ((4 : ℕ) : ℝ))) ^ 4) = -64 := by norm_num
    rw [h1]
    have h2 : Real.exp (-64) ≤ 1 / 2 ^ 64 := by
      rw [Real.exp_neg, inv_eq_one_div]
      apply one_div_le_one_div_of_le (by positivity)
      have : (2 : ℝ) ≤ Real.exp 1 := by linarith [Real.add_one_le_exp (1 : ℝ)]
      calc (2 : ℝ) ^ 64 ≤ (Real.exp 1) ^ 64 := pow_le_pow_left₀ (by norm_num) this 64
        _ = Real.exp 64 := by rw [← Real.exp_nat_mul]; norm_num
    have h3 : ((exCopy.length : ℕ) : ℝ) = 2 := by norm_num [exCopy]
    rw [h3]
    norm_num at h2 ⊢
    linarith
  refine le_trans (measureReal_mono ?_ (measure_ne_top P _)) (hb.trans hle)
  rintro ω hbad ⟨R, hR, hl, hall⟩
  refine hbad ⟨R, hR, fun alg ha => ?_⟩
  obtain ⟨mb, tests, results, e1, hB, -⟩ := hall (matrixOf 2 R) (matrixOf_ok 2 R).1 (matrixOf_ok 2 R).2 rfl rfl
    alg (.adtree true) 0 Unit (fun l i => (l, i)) () ha trivial (by decide) (fun l _ => List.Perm.refl l)
  exact ⟨mb, tests, results, e1, hB 1 ⟨by decide, .inr (.inl
    ⟨0, 1, ⟨exCopy[1], by simp, rfl, by decide⟩, by decide +kernel, by decide +kernel⟩)⟩⟩

/-- 10000 samples of the example network, drawn in floating point: the share of rows in which all variables
have their first value is off `1/24` by 0.03 or more with probability at most `10⁻⁷`. -/
example : ∃ (netF : Net Nat Nat), finalizeF { nodes := exNodes.map readNode } = .ok netF ∧
    ∀ {Ω : Type} [MeasurableSpace Ω] (P : Measure Ω) [IsProbabilityMeasure P] (x : ℕ → Ω → Fin (2 ^ 53)),
      BitSource P x →
      P.real {ω | ¬ ∃ R, sampleMatrix netF 10000 (fun j => random (x j ω)) = .ok R ∧ R.length = 10000 ∧
        ∀ D : Data, HasRows D R → |(freq D [0, 1, 2] [0, 0, 0] : ℝ) - 1 / 24| < 3 / 100} ≤
      2 * Real.exp (-18) + 1 / 10 ^ 7 := by
  obtain ⟨net1, e1, -⟩ := finalize_ok (wellFormed_read exNodes_wf)
  refine ⟨recum net1, by rw [finalizeF_eq, e1]; rfl, fun P _ x hx => ?_⟩
  have h1 := float_frequency_deviation exNodes exNodes_wf exNodes_normalised (recum net1)
    (by rw [finalizeF_eq, e1]; rfl) 2 (by norm_num) (by decide) P x hx
    10000 (by norm_num) (3 / 100) (by norm_num) [0, 1, 2] (by decide) [0, 0, 0]
  have h2 : prob exNodes (fun a => (([0, 1, 2] : List Nat).map (fun c : Nat => (c : Int))).map
      (valueOfID exNodes a) = [0, 0, 0]) = 1 / 24 := by
    rw [prob_decidable]
    decide +kernel
  have hS : tableSize exNodes ≤ 20 := by decide
  have h3 : samplingError exNodes 2 10000 ≤ 1 / 10 ^ 7 := by
    have hS' : ((tableSize exNodes : ℕ) : ℝ) ≤ 20 := by exact_mod_cast hS
    have hl : ((exNodes.length : ℕ) : ℝ) = 3 := by norm_num [exNodes]
    unfold samplingError
    rw [hl, div_le_iff₀ (by positivity)]
    norm_num
    linarith
  rw [h2] at h1
  have h4 : -(2 * ((10000 : ℕ) : ℝ) * (3 / 100) ^ 2) = -18 := by norm_num
  rw [h4] at h1
  have h5 : (((1 / 24 : ℚ)) : ℝ) = 1 / 24 := by norm_num
  rw [h5] at h1
  exact h1.trans (by linarith)

end Mbtk.Fp
