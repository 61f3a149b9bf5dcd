import Verif.BN.Consistency
import Verif.MB.WithTests
import Verif.MB.Superset
/-!
# Markov blanket discovery on large samples (C70)

`sample_matrix(n)` of a network, then `discover_mb` on the sampled data with the G-tests and the CMI
heuristic, for growing `n`.
-/
namespace Mbtk.BN
open Spec Stats MeasureTheory ProbabilityTheory Filter
open Mbtk.ADTree (Data)
open Mbtk.ADTree.Spec (rowsWith Usable)
open scoped Topology

variable {ν β : Type} [LinearOrder ν] [DecidableEq β] {nodes : List (Node ν β)} [Nonempty β]

/-- Faithfulness: the network has no independencies but those that its graph shows.
(Specification.) -/
def FaithfulNet (nodes : List (Node ν β)) : Prop :=
  ∀ (X Y : Nat) (Z : List Nat), (X :: Y :: Z).Nodup → (∀ x ∈ X :: Y :: Z, x < nodes.length) →
    NetIndependent nodes X Y (Z.map (fun z : Nat => (z : Int))) →
    Graph.DSep (Edge nodes) X Y {z | z ∈ Z}

omit [Nonempty β] in
theorem edge_lt (h : WellFormed nodes) {i j : Nat} (he : Edge nodes i j) :
    i < nodes.length ∧ j < nodes.length := by
  obtain ⟨p, c, ⟨n, hn, rfl, hp⟩, rfl, rfl⟩ := he
  have key : ∀ v ∈ nodes.map (·.name), idOf nodes v < nodes.length := by
    intro v hv
    have := List.idxOf_lt_length_of_mem (mem_names.2 hv)
    unfold names at this
    rw [List.length_insertionSort, List.length_map] at this
    exact this
  exact ⟨key p (h.known n hn p hp), key _ (List.mem_map.2 ⟨n, hn, rfl⟩)⟩

/-- What large samples have in common: enough data for every test, every dependence found, every
dependent variable scored above every independent one. (Specification.) -/
structure Telling (nodes : List (Node ν β)) (D : Data) (cfg : Config) : Prop where
  enough : ∀ X Y Z, MB.Proper (List.range nodes.length) X Y Z → Stats.Spec.Enough D cfg X Y Z
  dependent : ∀ X Y Z, MB.Proper (List.range nodes.length) X Y Z →
    ¬ NetIndependent nodes X Y (Z.map (fun z : Nat => (z : Int))) →
    ∀ ans, Stats.Spec.IsAnswer D cfg X Y Z ans → ans = .dependent
  score : ∀ X Y Y' Z, MB.Proper (List.range nodes.length) X Y Z →
    MB.Proper (List.range nodes.length) X Y' Z →
    NetIndependent nodes X Y (Z.map (fun z : Nat => (z : Int))) →
    ¬ NetIndependent nodes X Y' (Z.map (fun z : Nat => (z : Int))) →
    Stats.Spec.cmi D X Y Z < Stats.Spec.cmi D X Y' Z

theorem eventually_telling (h : WellFormed nodes) (hN : Normalised nodes) {D : ℕ → Data}
    (hrows : ∀ n, (D n).nrows = n) (hp : ∀ n, RowsPossible nodes (D n))
    (hv : ∀ n, ListsValues (D n) nodes.length)
    (hf : ∀ (cols : List Nat) (vals : List Int), (∀ c ∈ cols, c < nodes.length) →
      Tendsto (fun n => (Stats.Spec.freq (D n) cols vals : ℝ)) atTop
        (𝓝 ((prob nodes (fun a => (cols.map (fun c : Nat => (c : Int))).map
          (valueOfID nodes a) = vals) : ℚ) : ℝ)))
    {cfg : Config} (hc : cfg.criterion = none) (hα : cfg.significance < 1)
    (hcdf : ∀ d : ℕ, 1 ≤ d → Tendsto (fun g => cfg.cdf g d) atTop (𝓝 1)) :
    ∀ᶠ n in atTop, Telling nodes (D n) cfg := by
  let S := {c : Nat × Nat × List Nat | (c.1 :: c.2.1 :: c.2.2).Nodup ∧
      ∀ x ∈ c.1 :: c.2.1 :: c.2.2, x < nodes.length}
  have hS : S.Finite := finite_calls nodes.length
  have hmem : ∀ {X Y Z}, MB.Proper (List.range nodes.length) X Y Z → (X, Y, Z) ∈ S :=
    fun hpr => ⟨hpr.1, fun x hx => List.mem_range.1 (hpr.2 x hx)⟩
  have h1 : ∀ᶠ n in atTop, ∀ c ∈ S, Stats.Spec.Enough (D n) cfg c.1 c.2.1 c.2.2 := by
    rw [Filter.eventually_all_finite hS]
    rintro c ⟨-, hlt⟩
    obtain ⟨K, hK⟩ := dof_bounded (nodes := nodes) (Z := c.2.2) cfg.kind (hlt c.1 (by simp)) (hlt c.2.1 (by simp))
      (fun z hz => hlt z (by simp [hz]))
    filter_upwards [eventually_gt_atTop (5 * K)] with n hn
    unfold Stats.Spec.Enough
    rw [hc, hrows]
    show 5 * Stats.Spec.dofOf (D n) cfg.kind c.1 c.2.1 c.2.2 < n
    have := hK (D n) (hp n) (hv n)
    omega
  have h2 : ∀ᶠ n in atTop, ∀ c ∈ S,
      ¬ NetIndependent nodes c.1 c.2.1 (c.2.2.map (fun z : Nat => (z : Int))) →
      ∀ ans, Stats.Spec.IsAnswer (D n) cfg c.1 c.2.1 c.2.2 ans → ans = .dependent := by
    rw [Filter.eventually_all_finite hS]
    rintro c ⟨-, hlt⟩
    by_cases hdep : NetIndependent nodes c.1 c.2.1 (c.2.2.map (fun z : Nat => (z : Int)))
    · exact Eventually.of_forall (fun n hn => absurd hdep hn)
    · exact (eventually_dependent h hN hrows hp hv hf hc hα hcdf (hlt _ (by simp)) (hlt _ (by simp))
        (fun z hz => hlt z (by simp [hz])) hdep).mono (fun n hn _ => hn)
  have h3 : ∀ᶠ n in atTop, ∀ c ∈ S, ∀ y ∈ {y | y < nodes.length},
      NetIndependent nodes c.1 c.2.1 (c.2.2.map (fun z : Nat => (z : Int))) →
      ¬ NetIndependent nodes c.1 y (c.2.2.map (fun z : Nat => (z : Int))) →
      Stats.Spec.cmi (D n) c.1 c.2.1 c.2.2 < Stats.Spec.cmi (D n) c.1 y c.2.2 := by
    rw [Filter.eventually_all_finite hS]
    rintro c ⟨-, hlt⟩
    rw [Filter.eventually_all_finite (Set.finite_lt_nat nodes.length)]
    intro y hy
    by_cases hi : NetIndependent nodes c.1 c.2.1 (c.2.2.map (fun z : Nat => (z : Int)))
    · by_cases hd : NetIndependent nodes c.1 y (c.2.2.map (fun z : Nat => (z : Int)))
      · exact Eventually.of_forall (fun n _ hn => absurd hd hn)
      · have t1 := cmi_of_frequencies (Z := c.2.2) h hN hp hf (hlt c.1 (by simp)) (hlt c.2.1 (by simp))
          (fun z hz => hlt z (by simp [hz]))
        have t2 := cmi_of_frequencies (Z := c.2.2) h hN hp hf (hlt c.1 (by simp)) (show y < nodes.length from hy)
          (fun z hz => hlt z (by simp [hz]))
        rw [(netCmi_eq_zero_iff h hN _ _ _).2 hi] at t1
        have hpos : 0 < netCmi nodes c.1 y (c.2.2.map (fun z : Nat => (z : Int))) :=
          lt_of_le_of_ne (netCmi_nonneg h hN _ _ _)
            (fun h0 => hd ((netCmi_eq_zero_iff h hN _ _ _).1 h0.symm))
        exact (t1.eventually_lt t2 hpos).mono (fun n hn _ _ => hn)
    · exact Eventually.of_forall (fun n hn => absurd hn hi)
  filter_upwards [h1, h2, h3] with n k1 k2 k3
  exact ⟨fun X Y Z hpr => k1 (X, Y, Z) (hmem hpr), fun X Y Z hpr => k2 (X, Y, Z) (hmem hpr),
    fun X Y Y' Z hpr hpr' => k3 (X, Y, Z) (hmem hpr) Y' ((hmem hpr').2 Y' (by simp))⟩

section discover
variable {ι : Type} {D : Data} {cfg : Config}

theorem Telling.one_sided (hT : Telling nodes D cfg) {X Y : Nat} {Z : List Nat}
    (hp : MB.Proper (List.range nodes.length) X Y Z) :
    MB.verdict D cfg X Y Z ≠ .insufficient ∧ (MB.verdict D cfg X Y Z = .independent →
      NetIndependent nodes X Y (Z.map (fun z : Nat => (z : Int)))) := by
  have hA := MB.verdict_isAnswer D cfg X Y Z
  refine ⟨fun hi => (hA.insufficient.1 hi) (hT.enough X Y Z hp), fun hi => ?_⟩
  by_contra hd
  have := hT.dependent X Y Z hp hd _ hA
  rw [hi] at this
  cases this

/-- On a telling sample, both algorithms find the whole Markov blanket. -/
theorem telling_blanket (h : WellFormed nodes) (hF : FaithfulNet nodes) (hT : Telling nodes D cfg)
    {T : Nat} (hTm : T < nodes.length) {o : List Nat → ι → List Nat × ι}
    (ho : ∀ l i, (o l i).1.Perm l) (i : ι) (alg : MB.Algorithm) (halg : alg ≠ .ipcmb true) :
    ∃ mb s', alg.discover (MB.idealWorld D cfg o) (List.range nodes.length) T ⟨[], [], i⟩ = .ok (mb, s') ∧
      ∀ v, Graph.IsBlanket (Edge nodes) T v → v ∈ mb := by
  have hE := edge_acyclic h
  have hTU : T ∈ List.range nodes.length := List.mem_range.2 hTm
  have hfair := MB.idealWorld_fair (D := D) (cfg := cfg) ho
  have hconn : ∀ X Y Z, MB.Proper (List.range nodes.length) X Y Z →
      Graph.Connected (Edge nodes) (Graph.PearlOpen (Edge nodes) {z | z ∈ Z}) X Y {z | z ∈ Z} →
      ¬ NetIndependent nodes X Y (Z.map (fun z : Nat => (z : Int))) := fun X Y Z hp hc hi =>
    hF X Y Z hp.1 (fun x hx => List.mem_range.1 (hp.2 x hx)) hi hc
  have hBm : ∀ v, Graph.IsBlanket (Edge nodes) T v → v ∈ List.range nodes.length ∧ v ≠ T := by
    rintro v ⟨hv, h1 | h1 | ⟨c, -, h1⟩⟩
    · exact ⟨List.mem_range.2 (edge_lt h h1).1, hv⟩
    · exact ⟨List.mem_range.2 (edge_lt h h1).2, hv⟩
    · exact ⟨List.mem_range.2 (edge_lt h h1).1, hv⟩
  have hopen : ∀ Z : Set Nat, ∀ b ∈ Z, Graph.PearlOpen (Edge nodes) Z b :=
    fun Z b hb => ⟨b, hb, Relation.ReflTransGen.refl⟩
  cases alg with
  | iamb =>
    have hG : MB.Guided (MB.idealWorld D cfg o) (List.range nodes.length) T
        (Graph.IsBlanket (Edge nodes) T)
        (fun y Z => NetIndependent nodes T y (Z.map (fun z : Nat => (z : Int))))
        (fun y Z => Stats.Spec.cmi D T y Z) := by
      refine ⟨hBm, ?_, ?_, ?_, ?_⟩
      · intro y Z s hp
        exact ⟨_, _, rfl, hT.one_sided hp⟩
      · intro Z y s v w hv
        cases hv
        rfl
      · intro x S hp hi hmax v hv
        by_contra hvS
        obtain ⟨y, hy, hyS, hc⟩ := Graph.blanket_missing_connected hE (S := {z | z ∈ S})
          (hopen {z | z ∈ S}) hv hvS
        obtain ⟨hyU, hyT⟩ := hBm y hy
        have hpr := hp.1
        simp only [List.nodup_cons, List.mem_cons, not_or] at hpr
        have hpy : MB.Proper (List.range nodes.length) T y S := MB.proper_of hTU hyU hyT hpr.2.2
          (fun z hz => hp.2 z (by simp [hz])) hpr.1.2 hyS
        exact absurd (hmax y hyU hyT hyS) (not_le.2 (hT.score T x y S hp hpy hi (hconn T y S hpy hc)))
      · intro x S hp hx hS
        exact hconn T x S hp (Graph.blanket_member_connected hE (hopen {z | z ∈ S}) hx hS)
    exact MB.iamb_superset hfair (MB.idealWorld_heurOn D cfg o T _) hTU hG ⟨[], [], i⟩
  | ipcmb pcOnly =>
    have hpc : pcOnly = false := by
      cases pcOnly with
      | false => rfl
      | true => exact absurd rfl halg
    subst hpc
    obtain ⟨mb, s', e, -, h2⟩ := MB.ipcmb_superset (E := Edge nodes)
      (P := fun X Y Z => NetIndependent nodes X Y (Z.map (fun z : Nat => (z : Int))))
      hfair hE List.nodup_range hTU
      (fun a b hab => ⟨List.mem_range.2 (edge_lt h hab).1, List.mem_range.2 (edge_lt h hab).2⟩)
      (fun X Y Z s => ⟨_, _, rfl, fun hp => hT.one_sided hp⟩)
      (fun X Y Z hp hl => hconn X Y Z hp (Graph.connected_of_linked (by
        have := hp.1
        simp only [List.nodup_cons, List.mem_cons, not_or] at this
        exact this.1.1) hl))
      (fun X C Y Z hp h1 h2 hC => hconn X Y Z hp (Graph.connected_of_collider
        (by rintro rfl; exact hE.irrefl _ h1) (by rintro rfl; exact hE.irrefl _ h2) (by
        have := hp.1
        simp only [List.nodup_cons, List.mem_cons, not_or] at this
        exact this.1.1) h1 h2 (hopen _ C hC)))
      false ⟨[], [], i⟩
    exact ⟨mb, s', e, h2 rfl⟩

end discover

theorem good_columns {D : Data} (hp : RowsPossible nodes D)
    (hv : ListsValues D nodes.length) (hcols : D.ncols = nodes.length) :
    MB.GoodColumns D (List.range nodes.length) := by
  intro x hx
  have hx := List.mem_range.1 hx
  refine ⟨by rw [hcols]; exact hx, fun hm => ?_⟩
  have h1 := ((hv x hx).2 (-1)).1 hm
  obtain ⟨r, hr, er⟩ := Finset.mem_image.1 h1
  obtain ⟨a, -, ha⟩ := hp r (Finset.mem_range.1 hr)
  rw [ha x hx] at er
  unfold valueOfID at er
  simp only [Int.toNat_natCast] at er
  cases hg : (indices nodes a)[x]? with
  | none => rw [hg] at er; simp at er
  | some k =>
    rw [hg] at er
    simp only [Option.getD_some] at er
    subst er
    have := List.mem_of_getElem? hg
    unfold indices at this
    obtain ⟨v, -, hk⟩ := List.mem_map.1 this
    omega

omit [LinearOrder ν] [DecidableEq β] [Nonempty β] in
theorem usable_matrix {D : Data} (hv : ListsValues D nodes.length) (hcols : D.ncols = nodes.length)
    (hr : 0 < D.nrows) (ht : D.threshold ≤ D.nrows) : Usable D where
  rows_pos := hr
  nodup c hc := (hv c (by omega)).1
  cover c hc r hr := ((hv c (by omega)).2 _).2 (Finset.mem_image.2 ⟨r, Finset.mem_range.2 hr, rfl⟩)
  threshold_le := ht

/-- **C70.** Markov blanket discovery is complete on large samples: for a faithful network, with
probability one, from some sample size on, IAMB with the CMI heuristic and IPC-MB, run on the sampled
data with any of the G-tests, for any target and any iteration order of sets, end without exception
and return a list that contains the whole Markov blanket of the target; given the returned variables,
the network makes the target independent of every other variable. -/
theorem discovery_complete_on_large_samples (nodes : List (Node ν β)) (h : WellFormed nodes)
    (hN : Normalised nodes) (hF : FaithfulNet nodes) (net : Net ν β)
    (e : finalize { nodes := nodes } = .ok net)
    {Ω : Type} [MeasurableSpace Ω] (P : Measure Ω) [IsProbabilityMeasure P] (U : ℕ → Ω → ℝ)
    (hm : ∀ j, Measurable (U j)) (hind : iIndepFun U P)
    (hunif : ∀ j, P.map (U j) = volume.restrict (Set.Icc 0 1))
    (cfg : Config) (hc : cfg.criterion = none) (hα : cfg.significance < 1)
    (hcdf : ∀ d : ℕ, 1 ≤ d → Tendsto (fun g => cfg.cdf g d) atTop (𝓝 1)) (threshold : Nat) :
    ∀ᵐ ω ∂P, ∃ R : ℕ → List (List Nat),
      (∀ n, sampleMatrix net n (fun j => U j ω) = .ok (R n) ∧ (R n).length = n) ∧
      ∀ D : ℕ → Data, (∀ n, HasRows (D n) (R n) ∧ ListsValues (D n) nodes.length ∧
          (D n).ncols = nodes.length ∧ (D n).threshold = threshold) →
        ∃ N, ∀ n ≥ N, ∀ (alg : MB.Algorithm) (g : MB.GTest) (T : Nat) (ι : Type)
          (o : List Nat → ι → List Nat × ι) (i : ι), alg ≠ .ipcmb true → g.Supports cfg →
          T < nodes.length → (∀ l i, (o l i).1.Perm l) →
          ∃ mb tests results,
            MB.runWith g alg (D n) cfg (List.range nodes.length) T o i = .ok (mb, tests, results) ∧
            (∀ v, Graph.IsBlanket (Edge nodes) T v → v ∈ mb) ∧
            ∀ Y, Y < nodes.length → Y ≠ T → Y ∉ mb →
              NetIndependent nodes T Y (mb.map (fun z : Nat => (z : Int))) := by
  filter_upwards [sample_matrix_frequencies nodes h hN net e P U hm hind hunif] with ω hω
  obtain ⟨R, hR, hall⟩ := hω
  refine ⟨R, hR, fun D hD => ?_⟩
  obtain ⟨hp, hf⟩ := hall D (fun n => (hD n).1)
  have hrows : ∀ n, (D n).nrows = n := fun n => by rw [(hD n).1.1, (hR n).2]
  have hev := eventually_telling h hN hrows hp (fun n => (hD n).2.1) hf hc hα hcdf
  obtain ⟨N, hN'⟩ := eventually_atTop.1 hev
  refine ⟨max N (max 1 threshold), fun n hn alg g T ι o i halg hg hT ho => ?_⟩
  have hn1 : N ≤ n := le_trans (le_max_left _ _) hn
  have hn2 : 1 ≤ n := le_trans (le_trans (le_max_left _ _) (le_max_right _ _)) hn
  have hn3 : threshold ≤ n := le_trans (le_trans (le_max_right _ _) (le_max_right _ _)) hn
  obtain ⟨-, h2, h3, h4⟩ := hD n
  have hU := usable_matrix h2 h3 (by rw [hrows]; omega) (by rw [hrows, h4]; exact hn3)
  have hg' := good_columns (hp n) h2 h3
  obtain ⟨mb, s', em, hB⟩ := telling_blanket h hF (hN' n hn1) hT ho i alg halg
  obtain ⟨mb', s'', em', hs, hsub⟩ := MB.ideal_discover (D n) cfg (U := List.range nodes.length)
    List.nodup_range T ho i alg
  rw [em] at em'
  cases em'
  refine ⟨mb, _, _, MB.runWith_ideal (D n) cfg hU List.nodup_range hg' (List.mem_range.2 hT) ho i alg em
    g hg, hB, fun Y hY hYT hYm => ?_⟩
  exact blanket_shields nodes h hN T hT mb (fun z hz => List.mem_range.1 (hsub z hz).1)
    (fun hm => (hsub T hm).2 rfl) hB Y hY hYT hYm

/-! ## An example -/

/-- Two causes of one effect. (Example.) -/
def exCollider : List (Node Nat Nat) :=
  [{ name := 0, values := [0, 1], parents := [], probabilities := [(.unconditioned, [1/2, 1/2])] },
   { name := 1, values := [0, 1], parents := [0, 2],
     probabilities := [(.values [0, 0], [9/10, 1/10]), (.values [0, 1], [1/2, 1/2]),
       (.values [1, 0], [1/3, 2/3]), (.values [1, 1], [1/10, 9/10])] },
   { name := 2, values := [0, 1], parents := [], probabilities := [(.unconditioned, [1/4, 3/4])] }]

theorem exCollider_wf : WellFormed exCollider :=
  wellFormed_of_check (by decide) (l := [0, 2, 1]) (by decide +kernel) (by decide) (by decide +kernel)
    (by decide +kernel)

theorem exCollider_normalised : Normalised exCollider := by
  intro n hn vs h
  rw [mem_combos] at h
  revert n vs
  decide +kernel

theorem exCollider_root {p i : Nat} (hi : i = 0 ∨ i = 2) : ¬ Edge exCollider p i := by
  rintro ⟨p, c, ⟨n, hn, rfl, hp⟩, rfl, hc⟩
  have h0 : ∀ n ∈ exCollider, idOf exCollider n.name = 0 ∨ idOf exCollider n.name = 2 →
      n.parents = [] := by decide +kernel
  rw [h0 n hn (by rw [hc]; exact hi)] at hp
  cases hp

theorem exCollider_sep : Graph.DSep (Edge exCollider) 0 2 {z | z ∈ ([] : List Nat)} := by
  refine Graph.nondescendants_separate (edge_acyclic exCollider_wf)
    (fun p hp => absurd hp (exCollider_root (.inl rfl))) (fun z hz => absurd hz (by simp)) (by simp) ?_
  intro hd
  rcases Relation.ReflTransGen.cases_tail hd with h | ⟨c, -, hc⟩
  · cases h
  · exact exCollider_root (.inr rfl) hc

/-- The dependencies of the example. -/
theorem exCollider_dependent : ∀ q ∈ [((0, 1, []), (0, 0, [])), ((1, 0, []), (0, 0, [])),
      ((1, 2, []), (0, 0, [])), ((2, 1, []), (0, 0, [])), ((0, 1, [2]), (0, 0, [0])),
      ((1, 0, [2]), (0, 0, [0])), ((1, 2, [0]), (0, 0, [0])), ((2, 1, [0]), (0, 0, [0])),
      ((0, 2, [1]), (0, 0, [0])), ((2, 0, [1]), (0, 0, [0]))],
    ¬ NetIndependent exCollider (q : (Int × Int × List Int) × (Int × Int × List Int)).1.1 q.1.2.1 q.1.2.2 := by
  intro q hq hi
  have := hi q.2.1 q.2.2.1 q.2.2.2
  unfold jointXYZ at this
  simp only [prob_decidable] at this
  clear hi
  revert q
  decide +kernel

theorem exCollider_faithful : FaithfulNet exCollider := by
  intro X Y Z hn hlt hi
  have hX : X < 3 := hlt X (by simp)
  have hY : Y < 3 := hlt Y (by simp)
  have hZ : ∀ z ∈ Z, z < 3 ∧ z ≠ X ∧ z ≠ Y := by
    simp only [List.nodup_cons, List.mem_cons, not_or] at hn
    intro z hz
    refine ⟨hlt z (by simp [hz]), ?_, ?_⟩
    · rintro rfl; exact hn.1.2 hz
    · rintro rfl; exact hn.2.1 hz
  have hXY : X ≠ Y := by
    simp only [List.nodup_cons, List.mem_cons, not_or] at hn
    exact hn.1.1
  have hZn : Z.Nodup := by
    simp only [List.nodup_cons] at hn
    exact hn.2.2
  have hone : ∀ w, (∀ z ∈ Z, z = w) → Z = [] ∨ Z = [w] := by
    intro w hw
    match Z, hw, hZn with
    | [], _, _ => exact .inl rfl
    | [a], hw, _ => rw [hw a (by simp)]; exact .inr rfl
    | a :: b :: l, hw, hd =>
      exfalso
      rw [hw a (by simp), hw b (by simp)] at hd
      simp at hd
  have hdep := exCollider_dependent
  have hw : ∀ z ∈ Z, z = 3 - X - Y := by
    intro z hz
    obtain ⟨h1, h2, h3⟩ := hZ z hz
    omega
  have hcases := hone _ hw
  have hXY' : (X = 0 ∧ Y = 1) ∨ (X = 1 ∧ Y = 0) ∨ (X = 0 ∧ Y = 2) ∨ (X = 2 ∧ Y = 0) ∨
      (X = 1 ∧ Y = 2) ∨ (X = 2 ∧ Y = 1) := by omega
  rcases hXY' with ⟨rfl, rfl⟩ | ⟨rfl, rfl⟩ | ⟨rfl, rfl⟩ | ⟨rfl, rfl⟩ | ⟨rfl, rfl⟩ | ⟨rfl, rfl⟩ <;>
    rcases hcases with rfl | rfl
  · exact absurd hi (hdep ((0, 1, []), (0, 0, [])) (by simp))
  · exact absurd hi (hdep ((0, 1, [2]), (0, 0, [0])) (by simp))
  · exact absurd hi (hdep ((1, 0, []), (0, 0, [])) (by simp))
  · exact absurd hi (hdep ((1, 0, [2]), (0, 0, [0])) (by simp))
  · exact exCollider_sep
  · exact absurd hi (hdep ((0, 2, [1]), (0, 0, [0])) (by simp))
  · exact exCollider_sep.symm
  · exact absurd hi (hdep ((2, 0, [1]), (0, 0, [0])) (by simp))
  · exact absurd hi (hdep ((1, 2, []), (0, 0, [])) (by simp))
  · exact absurd hi (hdep ((1, 2, [0]), (0, 0, [0])) (by simp))
  · exact absurd hi (hdep ((2, 1, []), (0, 0, [])) (by simp))
  · exact absurd hi (hdep ((2, 1, [0]), (0, 0, [0])) (by simp))

/-- Samples of the example, the chi-squared test at significance 0.95: from some sample size on, both
algorithms return everything for the target 0: its child 1 and the other parent 2 of that child. -/
example : ∃ (P : Measure (ℕ → ℝ)) (net : Net Nat Nat), IsProbabilityMeasure P ∧
    finalize { nodes := exCollider } = .ok net ∧
    ∀ᵐ ω ∂P, ∃ R : ℕ → List (List Nat), (∀ n, sampleMatrix net n ω = .ok (R n)) ∧
      ∃ N, ∀ n ≥ N, ∀ alg : MB.Algorithm, alg ≠ .ipcmb true → ∃ mb tests results,
        MB.runWith (.adtree true) alg (matrixOf 3 (R n)) exConfig [0, 1, 2] 0 (fun l (i : Unit) => (l, i)) ()
          = .ok (mb, tests, results) ∧ 1 ∈ mb ∧ 2 ∈ mb := by
  obtain ⟨P, hP, hm, hi, hu⟩ := uniform_source
  obtain ⟨net, e, _⟩ := finalize_ok exCollider_wf
  refine ⟨P, net, hP, e, ?_⟩
  filter_upwards [discovery_complete_on_large_samples exCollider exCollider_wf exCollider_normalised
    exCollider_faithful net e P (fun j ω => ω j) hm hi hu exConfig rfl (by unfold exConfig; norm_num)
    (fun d hd => chi2_meets d hd) 0] with ω hω
  obtain ⟨R, hR, hall⟩ := hω
  obtain ⟨N, hN⟩ := hall (fun n => matrixOf 3 (R n)) (fun n => ⟨(matrixOf_ok 3 (R n)).1,
    (matrixOf_ok 3 (R n)).2, rfl, rfl⟩)
  refine ⟨R, fun n => (hR n).1, N, fun n hn alg ha => ?_⟩
  obtain ⟨mb, tests, results, e1, hB, -⟩ := hN n hn alg (.adtree true) 0 Unit (fun l i => (l, i)) () ha
    trivial (by decide) (fun l _ => List.Perm.refl l)
  have e01 : Edge exCollider 0 1 :=
    ⟨0, 1, ⟨exCollider[1], by simp, rfl, by decide⟩, by decide +kernel, by decide +kernel⟩
  have e21 : Edge exCollider 2 1 :=
    ⟨2, 1, ⟨exCollider[1], by simp, rfl, by decide⟩, by decide +kernel, by decide +kernel⟩
  exact ⟨mb, tests, results, e1, hB 1 ⟨by decide, .inr (.inl e01)⟩,
    hB 2 ⟨by decide, .inr (.inr ⟨1, e01, e21⟩)⟩⟩

end Mbtk.BN
