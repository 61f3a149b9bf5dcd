import Verif.BN.Discovery
import Verif.Data.ExactSample
/-!
# Exact data (C75)

`create_exact_instances(n)` of a network, then the CMI calculator, the G-tests and `discover_mb` on the
data.  The data show the distribution of the network without sampling error, so the CMI is that of the
network, and the G-tests never call independent variables dependent; when `n` is large they decide
conditional independence, and for a faithful network the algorithms return the Markov blanket exactly.
-/
namespace Mbtk.BN
open Spec Stats MeasureTheory ProbabilityTheory Filter
open Mbtk.ADTree (Data)
open Mbtk.ADTree.Spec (rowsWith Usable)
open Mbtk.Dataset.Synth (createExactInstances exact_instances_rows exact_instances_counts)
open scoped Topology

variable {ν β : Type} [LinearOrder ν] [DecidableEq β] {nodes : List (Node ν β)} [Nonempty β]

/-! ## Specification -/

/-- The sample count times the probability of every assignment is a whole number.
(Specification.) -/
def WholeCounts (nodes : List (Node ν β)) (n : Nat) : Prop :=
  ∀ a, Assignment nodes a → ∃ c : Nat, (n : ℚ) * jointProb nodes a = c

/-- `D` is the data matrix with the rows `R`, its list of values of each column lists the values that
occur. (Specification.) -/
structure IsMatrix (nodes : List (Node ν β)) (R : List (List Int)) (D : Data) : Prop where
  rows : D.nrows = R.length
  cells : ∀ r (hr : r < R.length) c (hc : c < R[r].length), D.cell r c = R[r][c]
  values : ListsValues D nodes.length
  cols : D.ncols = nodes.length

/-! ## The data -/

/-- Rows of assignments, each assignment as often as its probability says. (Specification.) -/
structure ExactRows (nodes : List (Node ν β)) (rows : List (ν → β)) (D : Data) : Prop where
  assignment : ∀ a ∈ rows, Assignment nodes a
  has : HasRows D (rows.map (fun a => (indices nodes a).map Int.toNat))
  count : ∀ a, Assignment nodes a →
    (((rows.map (indices nodes)).count (indices nodes a) : Nat) : ℚ) = rows.length * jointProb nodes a

theorem exactRows_of_instances (h : WellFormed nodes) (hN : Normalised nodes) {net : Net ν β}
    (e : finalize { nodes := nodes } = .ok net) {n : Nat} (hn : n ≠ 0) (hw : WholeCounts nodes n)
    {R : List (List Int)} (eR : createExactInstances net n = .ok R) {D : Data}
    (hD : IsMatrix nodes R D) : ∃ rows, rows.length = n ∧ ExactRows nodes rows D := by
  obtain ⟨rows, hl, ha, ei⟩ := exact_instances_rows nodes h net e n
  have hR : R = rows.map (indices nodes) := by
    rw [eR] at ei; exact Except.ok.inj ei
  subst hR
  refine ⟨rows, hl, ha, ⟨by rw [hD.rows, List.length_map, List.length_map], ?_⟩, fun a haa => ?_⟩
  · intro r hr c hc
    simp only [List.getElem_map, List.length_map] at hr hc ⊢
    rw [hD.cells r (by simpa using hr) c (by simpa using hc)]
    simp only [List.getElem_map]
    have h1 : (((indices nodes rows[r]).map Int.toNat).map (fun k : Nat => (k : Int)))[c]? =
        (indices nodes rows[r])[c]? := by rw [indices_toNat]
    simp only [List.getElem?_map, List.getElem?_eq_getElem hc, Option.map_some,
      Option.some.injEq] at h1
    exact h1.symm
  · rw [exact_instances_counts nodes h hN net e n hn hw rows eR a haa, hl]

section rows
variable {rows : List (ν → β)} {D : Data}

/-- A row as a dictionary. (Specification.) -/
def asSample (nodes : List (Node ν β)) (a : ν → β) : List (ν × β) :=
  nodes.map (fun n => (n.name, a n.name))

omit [Nonempty β] in
theorem asSample_get (h : WellFormed nodes) (a : ν → β) {n : Node ν β} (hn : n ∈ nodes) :
    dictGet (asSample nodes a) n.name = some (a n.name) := by
  have hu := h.unique
  unfold UniqueNames at hu
  unfold asSample
  clear h
  induction nodes with
  | nil => simp at hn
  | cons x nodes ih =>
    simp only [List.map_cons, List.nodup_cons] at hu
    rw [List.map_cons, dictGet]
    rcases List.mem_cons.1 hn with rfl | hn
    · simp
    · have hne : x.name ≠ n.name := fun e => hu.1 (e ▸ List.mem_map.2 ⟨n, hn, rfl⟩)
      rw [if_neg hne]
      exact ih hn hu.2

omit [Nonempty β] in
theorem asSample_forall₂ (h : WellFormed nodes) (ha : ∀ a ∈ rows, Assignment nodes a) :
    List.Forall₂ (fun s r => ∃ a : ν → β, Assignment nodes a ∧
        (∀ n ∈ nodes, dictGet s n.name = some (a n.name)) ∧ r = (indices nodes a).map Int.toNat)
      (rows.map (asSample nodes)) (rows.map (fun a => (indices nodes a).map Int.toNat)) := by
  induction rows with
  | nil => exact .nil
  | cons a rows ih =>
    exact .cons ⟨a, ha a (by simp), fun n hn => asSample_get h a hn, rfl⟩
      (ih (fun b hb => ha b (by simp [hb])))

omit [Nonempty β] in
theorem asSample_count (h : WellFormed nodes) (ha : ∀ a ∈ rows, Assignment nodes a) {a : ν → β}
    (haa : Assignment nodes a) :
    (rows.map (asSample nodes)).countP (Agrees nodes a) =
      (rows.map (indices nodes)).count (indices nodes a) := by
  rw [List.countP_map, List.count, List.countP_map]
  apply List.countP_congr
  intro b hb
  simp only [Function.comp, decide_eq_true_eq, beq_iff_eq]
  constructor
  · intro hag
    refine indices_agree (fun n hn => ?_)
    have := hag n hn
    rw [asSample_get h b hn] at this
    exact Option.some.inj this
  · intro e n hn
    rw [asSample_get h b hn, indices_inj h (ha b hb) haa e n hn]

theorem ExactRows.possible (h : WellFormed nodes) (hE : ExactRows nodes rows D) :
    RowsPossible nodes D := rows_possible h hE.has (asSample_forall₂ h hE.assignment)

/-- The frequencies are the probabilities. -/
theorem ExactRows.freq (h : WellFormed nodes) (hE : ExactRows nodes rows D) (hr : rows ≠ [])
    (cols : List Nat) (hc : ∀ c ∈ cols, c < nodes.length) (vals : List Int) :
    (Stats.Spec.freq D cols vals : ℝ) = ((prob nodes (fun a => (cols.map (fun c : Nat => (c : Int))).map
      (valueOfID nodes a) = vals) : ℚ) : ℝ) := by
  rw [freq_assignments h hE.has (asSample_forall₂ h hE.assignment) cols hc vals, prob_decidable]
  push_cast
  rw [List.map_map]
  congr 1
  apply List.map_congr_left
  intro a ha
  have haa := mem_worlds h.unique (List.mem_of_mem_filter ha)
  have hl : ((rows.length : ℕ) : ℝ) ≠ 0 := by
    have : rows.length ≠ 0 := fun h0 => hr (List.length_eq_zero_iff.1 h0)
    exact_mod_cast this
  rw [asSample_count h hE.assignment haa, List.length_map, div_eq_iff hl]
  have := hE.count a haa
  show (((rows.map (indices nodes)).count (indices nodes a) : ℕ) : ℝ) = ((jointProb nodes a : ℚ) : ℝ) * _
  rw [mul_comm]
  exact_mod_cast this

/-- The CMI of the data is that of the network. -/
theorem ExactRows.cmi (h : WellFormed nodes) (hN : Normalised nodes) (hE : ExactRows nodes rows D)
    (hr : rows ≠ []) {X Y : Nat} {Z : List Nat} (hX : X < nodes.length) (hY : Y < nodes.length)
    (hZ : ∀ z ∈ Z, z < nodes.length) :
    Stats.Spec.cmi D X Y Z = netCmi nodes X Y (Z.map (fun z : Nat => (z : Int))) := by
  have h1 := cmi_of_frequencies (D := fun _ => D) h hN (fun _ => hE.possible h)
    (fun cols vals hc => by rw [hE.freq h hr cols hc vals]; exact tendsto_const_nhds) hX hY hZ
  exact tendsto_nhds_unique tendsto_const_nhds h1

omit [Nonempty β] in
theorem ExactRows.nrows (hE : ExactRows nodes rows D) : D.nrows = rows.length := by
  rw [hE.has.1, List.length_map]

end rows

/-! ## Discovery with a test that decides d-separation -/

section discover
variable {ι : Type} {D : Data} {cfg : Config}

/-- The test decides d-separation on proper questions, and the CMI is larger for connected variables.
(Specification.) -/
structure Deciding (E : Nat → Nat → Prop) (U : List Nat) (D : Data) (cfg : Config) : Prop where
  separated : ∀ X Y Z, MB.Proper U X Y Z → Graph.DSep E X Y {z | z ∈ Z} →
    MB.verdict D cfg X Y Z = .independent
  connected : ∀ X Y Z, MB.Proper U X Y Z → ¬ Graph.DSep E X Y {z | z ∈ Z} →
    MB.verdict D cfg X Y Z = .dependent
  score : ∀ X Y Y' Z, MB.Proper U X Y Z → MB.Proper U X Y' Z → Graph.DSep E X Y {z | z ∈ Z} →
    ¬ Graph.DSep E X Y' {z | z ∈ Z} → Stats.Spec.cmi D X Y Z < Stats.Spec.cmi D X Y' Z

open Classical in
/-- The environment in which all questions, also improper ones, are answered by d-separation.
(Specification.) -/
noncomputable def dsepIdeal (E : Nat → Nat → Prop) (U : List Nat) (D : Data)
    (o : List Nat → ι → List Nat × ι) : MB.World ι ℝ where
  ask X Y Z s := .ok (if Graph.DSep E X Y {z | z ∈ Z} then .independent else .dependent, s)
  heur X Y Z s := .ok (if MB.Proper U X Y Z then Stats.Spec.cmi D X Y Z
    else if Graph.DSep E X Y {z | z ∈ Z} then 0 else 1, s)
  iter := o

theorem dsepIdeal_same {E : Nat → Nat → Prop} {U : List Nat} (hd : Deciding E U D cfg)
    {o : List Nat → ι → List Nat × ι} (ho : ∀ l i, (o l i).1.Perm l) :
    MB.SameAnswers U (fun _ s t => s = t) (MB.idealWorld D cfg o) (dsepIdeal E U D o) where
  ask q X Y Z s t hst hp := by
    subst hst
    refine .inl ⟨MB.verdict D cfg X Y Z, s, s, rfl, ?_, rfl⟩
    show Except.ok (_, s) = _
    by_cases hs : Graph.DSep E X Y {z | z ∈ Z}
    · rw [if_pos hs, hd.separated X Y Z hp hs]
    · rw [if_neg hs, hd.connected X Y Z hp hs]
  heur q X Y Z s t hst hp := by
    subst hst
    refine ⟨Stats.Spec.cmi D X Y Z, s, s, rfl, ?_, rfl⟩
    show Except.ok (_, s) = _
    rw [if_pos hp]
  iter q l s t hst := by
    subst hst
    exact ⟨rfl, ho l s, rfl⟩

theorem dsepIdeal_answers (E : Nat → Nat → Prop) (U : List Nat) (D : Data)
    (o : List Nat → ι → List Nat × ι) : (dsepIdeal E U D o).Answers (Graph.DSep E) := by
  intro X Y Z s
  by_cases hs : Graph.DSep E X Y {z | z ∈ Z}
  · exact ⟨.independent, s, by show Except.ok (_, s) = _; rw [if_pos hs], .inl ⟨rfl, hs⟩⟩
  · exact ⟨.dependent, s, by show Except.ok (_, s) = _; rw [if_neg hs], .inr ⟨rfl, hs⟩⟩

/-- What each algorithm is to return for the target `T`. (Specification.) -/
def Wanted (E : Nat → Nat → Prop) (T : Nat) : MB.Algorithm → Nat → Prop
  | .iamb, v => Graph.IsBlanket E T v
  | .ipcmb false, v => Graph.IsBlanket E T v
  | .ipcmb true, v => E v T ∨ E T v

theorem deciding_exact {E : Nat → Nat → Prop} (hE : Graph.Acyclic E) {U : List Nat} (hU : U.Nodup)
    (hEU : ∀ a b, E a b → a ∈ U ∧ b ∈ U) (hd : Deciding E U D cfg) {T : Nat} (hT : T ∈ U)
    {o : List Nat → ι → List Nat × ι} (ho : ∀ l i, (o l i).1.Perm l) (i : ι) (alg : MB.Algorithm) :
    ∃ mb s', alg.discover (MB.idealWorld D cfg o) U T ⟨[], [], i⟩ = .ok (mb, s') ∧
      ∀ v, v ∈ mb ↔ Wanted E T alg v := by
  have hB : ∀ v, Graph.IsBlanket E T v → v ∈ U := by
    rintro v ⟨-, h1 | h1 | ⟨c, -, h1⟩⟩
    · exact (hEU _ _ h1).1
    · exact (hEU _ _ h1).2
    · exact (hEU _ _ h1).1
  have hopen : ∀ Z : Set Nat, ∀ b ∈ Z, Graph.PearlOpen E Z b :=
    fun Z b hb => ⟨b, hb, Relation.ReflTransGen.refl⟩
  have hfair : (dsepIdeal E U D o).Fair := ho
  have hans := dsepIdeal_answers E U D o
  have key : ∃ mb t', alg.discover (dsepIdeal E U D o) U T ⟨[], [], i⟩ = .ok (mb, t') ∧
      ∀ v, v ∈ mb ↔ Wanted E T alg v := by
    cases alg with
    | iamb =>
      classical
      let hs : Nat → List Nat → ℝ := fun y S => if MB.Proper U T y S then Stats.Spec.cmi D T y S
        else if Graph.DSep E T y {z | z ∈ S} then 0 else 1
      obtain ⟨r, s', e, -, hr⟩ := MB.iamb_exact_for_faithful_tests (W := dsepIdeal E U D o) hfair
        (U := U) (T := T) (fun _ _ _ _ _ => ⟨_, _, rfl⟩) (Graph.IsBlanket E T) (Graph.DSep E T) hs
        (fun v hv => ⟨hB v hv, hv.1⟩)
        (fun x S _ hxT hxS hS => Graph.blanket_separates hE (S := {z | z ∈ S}) hS hxS hxT)
        (by
          intro x S hxU hxT hxS hmiss hmax hind
          obtain ⟨v, hv, hvS⟩ := hmiss
          obtain ⟨y, hy, hyS, hc⟩ := Graph.blanket_missing_connected hE (S := {z | z ∈ S})
            (hopen {z | z ∈ S}) hv hvS
          have hle := hmax y (hB y hy) hy.1 hyS
          have hcy : ¬ Graph.DSep E T y {z | z ∈ S} := fun hn => hn hc
          have hiff : MB.Proper U T y S ↔ MB.Proper U T x S := by
            unfold MB.Proper
            have hyS' : y ∉ S := hyS
            simp only [List.nodup_cons, List.mem_cons, not_or, forall_eq_or_imp]
            constructor
            · rintro ⟨⟨⟨-, h1⟩, -, h2⟩, h3, -, h4⟩
              exact ⟨⟨⟨hxT.symm, h1⟩, hxS, h2⟩, h3, hxU, h4⟩
            · rintro ⟨⟨⟨-, h1⟩, -, h2⟩, h3, -, h4⟩
              exact ⟨⟨⟨hy.1.symm, h1⟩, hyS', h2⟩, h3, hB y hy, h4⟩
          by_cases hp : MB.Proper U T x S
          · have hpy := hiff.2 hp
            simp only [hs, if_pos hp, if_pos hpy] at hle
            exact absurd hle (not_le.2 (hd.score T x y S hp hpy hind hcy))
          · have hpy : ¬ MB.Proper U T y S := fun h => hp (hiff.1 h)
            simp only [hs, if_neg hp, if_neg hpy, if_pos hind, if_neg hcy] at hle
            exact absurd hle (by norm_num))
        (fun x S hx _ hS hind => hind (Graph.blanket_member_connected hE (hopen {z | z ∈ S}) hx hS))
        (hans.at T)
        (by
          intro S y s v w hv
          cases hv
          rfl) ⟨[], [], i⟩
      exact ⟨r, s', e, hr⟩
    | ipcmb pcOnly =>
      cases pcOnly with
      | false =>
        obtain ⟨r, s', e, -, hr⟩ := MB.ipcmb_exact_partial hfair hans hE hU hT hEU ⟨[], [], i⟩
        exact ⟨r, s', e, hr⟩
      | true =>
        obtain ⟨r, s', e, -, hr⟩ := MB.ipcmb_pc_exact hfair (MB.dsep_oracle E) hans hE hU hT hEU
          ⟨[], [], i⟩
        exact ⟨r, s', e, hr⟩
  obtain ⟨mb, t', e, hmb⟩ := key
  have hA : MB.Alike U (fun _ (s t : ι) => s = t) (⟨[], [], i⟩ : MB.St ι) ⟨[], [], i⟩ :=
    ⟨rfl, rfl, rfl, by intro A B z hz; cases hz⟩
  rcases MB.sim_discover (dsepIdeal_same hd ho) hU hT alg _ _ hA with ⟨a, s1, t1, e1, e2, -, -⟩ |
    ⟨x, e1, e2⟩
  · rw [e] at e2
    cases e2
    exact ⟨mb, s1, e1, hmb⟩
  · rw [e] at e2
    cases e2

end discover

/-! ## Results -/

/-- **C75.** Exact data have the CMI of the network: for all variables and conditioning sets,
`CMICalculator.compute` on the exact data returns the conditional mutual information of the network's
distribution. -/
theorem exact_data_cmi (nodes : List (Node ν β)) (h : WellFormed nodes) (hN : Normalised nodes)
    (net : Net ν β) (e : finalize { nodes := nodes } = .ok net) (n : Nat) (hn : n ≠ 0)
    (hw : WholeCounts nodes n) :
    ∃ R, createExactInstances net n = .ok R ∧ ∀ D, IsMatrix nodes R D →
      ∀ (X Y : Nat) (Z : List Nat), (X :: Y :: Z).Nodup → (∀ x ∈ X :: Y :: Z, x < nodes.length) →
        cmiCompute D X Y Z = .ok (netCmi nodes X Y (Z.map (fun z : Nat => (z : Int)))) := by
  obtain ⟨rows, hl, -, ei⟩ := exact_instances_rows nodes h net e n
  refine ⟨_, ei, fun D hD X Y Z hnd hlt => ?_⟩
  obtain ⟨rows', hl', hE⟩ := exactRows_of_instances h hN e hn hw ei hD
  have hr : rows' ≠ [] := by
    rintro rfl
    exact hn hl'.symm
  rw [← hE.cmi h hN hr (hlt X (by simp)) (hlt Y (by simp)) (fun z hz => hlt z (by simp [hz]))]
  exact cmi_calculator_exact D (by rw [hE.nrows, hl']; exact hn) X Y Z hnd

omit [LinearOrder ν] [DecidableEq β] [Nonempty β] in
theorem valid_calls {D : Data} (hv : ListsValues D nodes.length) (hr : D.nrows ≠ 0)
    {calls : List Stats.Spec.Call}
    (hcalls : ∀ c ∈ calls, (c.1 :: c.2.1 :: c.2.2).Nodup ∧
      ∀ x ∈ c.1 :: c.2.1 :: c.2.2, x < nodes.length) : ∀ c ∈ calls, ValidCall D c := by
  intro c hcm
  obtain ⟨h1, h2⟩ := hcalls c hcm
  refine ⟨h1, fun x hx => ?_⟩
  have hmem : D.cell 0 x ∈ D.values x := by
    rw [(hv x (h2 x hx)).2]
    exact Finset.mem_image.2 ⟨0, Finset.mem_range.2 (by omega), rfl⟩
  exact List.length_pos_of_mem hmem

/-- On exact data independent variables have `G = 0`. -/
theorem ExactRows.independent {rows : List (ν → β)} {D : Data} (h : WellFormed nodes)
    (hN : Normalised nodes) (hE : ExactRows nodes rows D) (hr : rows ≠ []) {cfg : Config}
    (h0 : ∀ d : ℕ, 1 ≤ d → cfg.cdf 0 d < cfg.significance) {X Y : Nat} {Z : List Nat}
    (hX : X < nodes.length) (hY : Y < nodes.length) (hZ : ∀ z ∈ Z, z < nodes.length)
    (hi : NetIndependent nodes X Y (Z.map (fun z : Nat => (z : Int)))) :
    Stats.Spec.pValue D cfg X Y Z < cfg.significance := by
  unfold Stats.Spec.pValue Stats.Spec.G
  rw [hE.cmi h hN hr hX hY hZ, (netCmi_eq_zero_iff h hN _ _ _).2 hi, mul_zero]
  exact h0 _ (one_le_dofOf _ _ _ _ _)

/-- **C75.** On exact data of any size, with any session of tests, the G-test never calls variables
dependent that the network makes independent given the conditioning set. -/
theorem exact_data_no_false_dependence (nodes : List (Node ν β)) (h : WellFormed nodes)
    (hN : Normalised nodes) (net : Net ν β) (e : finalize { nodes := nodes } = .ok net) (n : Nat)
    (hn : n ≠ 0) (hw : WholeCounts nodes n) (cfg : Config)
    (h0 : ∀ d : ℕ, 1 ≤ d → cfg.cdf 0 d < cfg.significance) :
    ∃ R, createExactInstances net n = .ok R ∧ ∀ D, IsMatrix nodes R D →
      ∀ calls : List Stats.Spec.Call,
        (∀ c ∈ calls, (c.1 :: c.2.1 :: c.2.2).Nodup ∧ ∀ x ∈ c.1 :: c.2.1 :: c.2.2, x < nodes.length) →
        ∃ answers b, mapList (unoptCall D cfg) calls {} = .ok (answers, b) ∧
          ∀ (i : Nat) (c : Stats.Spec.Call), calls[i]? = some c →
            NetIndependent nodes c.1 c.2.1 (c.2.2.map (fun z : Nat => (z : Int))) →
            answers[i]? ≠ some .dependent := by
  obtain ⟨rows, hl, -, ei⟩ := exact_instances_rows nodes h net e n
  refine ⟨_, ei, fun D hD calls hcalls => ?_⟩
  obtain ⟨rows', hl', hE⟩ := exactRows_of_instances h hN e hn hw ei hD
  have hr : rows' ≠ [] := by
    rintro rfl
    exact hn hl'.symm
  have hrows : D.nrows = n := by rw [hE.nrows, hl']
  obtain ⟨answers, b, eq, hans, -⟩ := unoptimized_session D cfg (by rw [hrows]; exact hn) calls
    (valid_calls hD.values (by rw [hrows]; exact hn) hcalls)
  refine ⟨answers, b, eq, fun i c hi hind hdep => ?_⟩
  obtain ⟨a, ha, hIs⟩ := AreAnswers.get hans hi
  rw [ha] at hdep
  obtain ⟨-, hlt⟩ := hcalls c (List.mem_of_getElem? hi)
  have h1 := hE.independent h hN hr h0 (hlt _ (by simp)) (hlt _ (by simp))
    (fun z hz => hlt z (by simp [hz])) hind
  exact absurd (hIs.dependent.1 (Option.some.inj hdep)).2 (not_le.2 h1)

/-- From some size on, the test on exact data decides independence. -/
theorem exact_data_decides (h : WellFormed nodes) (hN : Normalised nodes) {cfg : Config}
    (hc : cfg.criterion = none) (hα : cfg.significance < 1)
    (hcdf : ∀ d : ℕ, 1 ≤ d → Tendsto (fun g => cfg.cdf g d) atTop (𝓝 1))
    (h0 : ∀ d : ℕ, 1 ≤ d → cfg.cdf 0 d < cfg.significance) :
    ∃ N, ∀ n ≥ N, ∀ (rows : List (ν → β)) (D : Data), rows.length = n → rows ≠ [] →
      ExactRows nodes rows D → ListsValues D nodes.length →
      ∀ X Y Z, MB.Proper (List.range nodes.length) X Y Z →
        (NetIndependent nodes X Y (Z.map (fun z : Nat => (z : Int))) →
          MB.verdict D cfg X Y Z = .independent) ∧
        (¬ NetIndependent nodes X Y (Z.map (fun z : Nat => (z : Int))) →
          MB.verdict D cfg X Y Z = .dependent) := by
  have hev : ∀ᶠ n : ℕ in atTop, ∀ c ∈ {c : Nat × Nat × List Nat | (c.1 :: c.2.1 :: c.2.2).Nodup ∧
      ∀ x ∈ c.1 :: c.2.1 :: c.2.2, x < nodes.length},
      ∀ (rows : List (ν → β)) (D : Data), rows.length = n → rows ≠ [] →
      ExactRows nodes rows D → ListsValues D nodes.length →
        (NetIndependent nodes c.1 c.2.1 (c.2.2.map (fun z : Nat => (z : Int))) →
          MB.verdict D cfg c.1 c.2.1 c.2.2 = .independent) ∧
        (¬ NetIndependent nodes c.1 c.2.1 (c.2.2.map (fun z : Nat => (z : Int))) →
          MB.verdict D cfg c.1 c.2.1 c.2.2 = .dependent) := by
    rw [Filter.eventually_all_finite (finite_calls nodes.length)]
    rintro ⟨X, Y, Z⟩ ⟨-, hlt⟩
    have hX : X < nodes.length := hlt X (by simp)
    have hY : Y < nodes.length := hlt Y (by simp)
    have hZ : ∀ z ∈ Z, z < nodes.length := fun z hz => hlt z (by simp [hz])
    obtain ⟨K, hK⟩ := dof_bounded (nodes := nodes) cfg.kind hX hY hZ
    have henough : ∀ n : ℕ, 5 * K < n → ∀ (rows : List (ν → β)) (D : Data), rows.length = n →
        ExactRows nodes rows D → ListsValues D nodes.length → Stats.Spec.Enough D cfg X Y Z := by
      intro n hn rows D hl hE hv
      unfold Stats.Spec.Enough
      rw [hc, hE.nrows, hl]
      show 5 * Stats.Spec.dofOf D cfg.kind X Y Z < n
      have := hK D (hE.possible h) hv
      omega
    by_cases hi : NetIndependent nodes X Y (Z.map (fun z : Nat => (z : Int)))
    · filter_upwards [eventually_gt_atTop (5 * K)] with n hn rows D hl hr hE hv
      refine ⟨fun _ => ?_, fun hd => absurd hi hd⟩
      exact (MB.verdict_isAnswer D cfg X Y Z).independent.2 ⟨henough n hn rows D hl hE hv,
        hE.independent h hN hr h0 hX hY hZ hi⟩
    · have hpos : 0 < netCmi nodes X Y (Z.map (fun z : Nat => (z : Int))) :=
        lt_of_le_of_ne (netCmi_nonneg h hN _ _ _)
          (fun h0 => hi ((netCmi_eq_zero_iff h hN _ _ _).1 h0.symm))
      have hG : Tendsto (fun n : ℕ => 2 * (n : ℝ) *
          netCmi nodes X Y (Z.map (fun z : Nat => (z : Int)))) atTop atTop := by
        have h1 : Tendsto (fun n : ℕ => 2 * (n : ℝ)) atTop atTop :=
          (tendsto_natCast_atTop_atTop).const_mul_atTop (by norm_num)
        exact h1.atTop_mul_const hpos
      filter_upwards [eventually_significant hα hcdf hG K, eventually_gt_atTop (5 * K)] with n h1 hn
        rows D hl hr hE hv
      refine ⟨fun h => absurd h hi, fun _ => ?_⟩
      refine (MB.verdict_isAnswer D cfg X Y Z).dependent.2 ⟨henough n hn rows D hl hE hv, ?_⟩
      unfold Stats.Spec.pValue Stats.Spec.G
      rw [hE.cmi h hN hr hX hY hZ, hE.nrows, hl]
      exact h1 _ (one_le_dofOf _ _ _ _ _) (hK D (hE.possible h) hv)
  obtain ⟨N, hN'⟩ := eventually_atTop.1 hev
  exact ⟨N, fun n hn rows D hl hr hE hv X Y Z hp => hN' n hn (X, Y, Z)
    ⟨hp.1, fun x hx => List.mem_range.1 (hp.2 x hx)⟩ rows D hl hr hE hv⟩

/-- **C75.** From some size on, in every session of tests on exact data, the G-test answers
"independent" exactly for the variables that the network makes independent given the conditioning set
and "dependent" for all others. -/
theorem g_test_decides_on_exact_data (nodes : List (Node ν β)) (h : WellFormed nodes)
    (hN : Normalised nodes) (net : Net ν β) (e : finalize { nodes := nodes } = .ok net)
    (cfg : Config) (hc : cfg.criterion = none) (hα : cfg.significance < 1)
    (hcdf : ∀ d : ℕ, 1 ≤ d → Tendsto (fun g => cfg.cdf g d) atTop (𝓝 1))
    (h0 : ∀ d : ℕ, 1 ≤ d → cfg.cdf 0 d < cfg.significance) :
    ∃ N, ∀ n ≥ N, WholeCounts nodes n →
      ∃ R, createExactInstances net n = .ok R ∧ ∀ D, IsMatrix nodes R D →
        ∀ calls : List Stats.Spec.Call,
          (∀ c ∈ calls, (c.1 :: c.2.1 :: c.2.2).Nodup ∧ ∀ x ∈ c.1 :: c.2.1 :: c.2.2, x < nodes.length) →
          ∃ answers b, mapList (unoptCall D cfg) calls {} = .ok (answers, b) ∧
            ∀ (i : Nat) (c : Stats.Spec.Call), calls[i]? = some c →
              (NetIndependent nodes c.1 c.2.1 (c.2.2.map (fun z : Nat => (z : Int))) →
                answers[i]? = some .independent) ∧
              (¬ NetIndependent nodes c.1 c.2.1 (c.2.2.map (fun z : Nat => (z : Int))) →
                answers[i]? = some .dependent) := by
  obtain ⟨N, hN'⟩ := exact_data_decides h hN hc hα hcdf h0
  refine ⟨max N 1, fun n hn hw => ?_⟩
  have hn1 : N ≤ n := le_trans (le_max_left _ _) hn
  have hn0 : n ≠ 0 := by
    have := le_trans (le_max_right N 1) hn
    omega
  obtain ⟨rows, hl, -, ei⟩ := exact_instances_rows nodes h net e n
  refine ⟨_, ei, fun D hD calls hcalls => ?_⟩
  obtain ⟨rows', hl', hE⟩ := exactRows_of_instances h hN e hn0 hw ei hD
  have hr : rows' ≠ [] := by
    rintro rfl
    exact hn0 hl'.symm
  have hrows : D.nrows = n := by rw [hE.nrows, hl']
  obtain ⟨answers, b, eq, hans, -⟩ := unoptimized_session D cfg (by rw [hrows]; exact hn0) calls
    (valid_calls hD.values (by rw [hrows]; exact hn0) hcalls)
  refine ⟨answers, b, eq, fun i c hi => ?_⟩
  obtain ⟨a, ha, hIs⟩ := AreAnswers.get hans hi
  obtain ⟨hnd, hlt⟩ := hcalls c (List.mem_of_getElem? hi)
  obtain ⟨k1, k2⟩ := hN' n hn1 rows' D hl' hr hE hD.values c.1 c.2.1 c.2.2
    ⟨hnd, fun x hx => List.mem_range.2 (hlt x hx)⟩
  have hu := Stats.IsAnswer.unique (MB.verdict_isAnswer D cfg c.1 c.2.1 c.2.2) hIs
  rw [ha]
  exact ⟨fun hi => by rw [← hu, k1 hi], fun hd => by rw [← hu, k2 hd]⟩

/-- **C75.** On exact data from a faithful network, Markov blanket discovery is exact: from some size
on, with any of the G-tests, for any target and any iteration order of sets, IAMB (with the CMI
heuristic) and IPC-MB end without exception and return exactly the Markov blanket (IPC-MB asked for
parents and children only: exactly these). -/
theorem discovery_exact_on_exact_data (nodes : List (Node ν β)) (h : WellFormed nodes)
    (hN : Normalised nodes) (hF : FaithfulNet nodes) (net : Net ν β)
    (e : finalize { nodes := nodes } = .ok net)
    (cfg : Config) (hc : cfg.criterion = none) (hα : cfg.significance < 1)
    (hcdf : ∀ d : ℕ, 1 ≤ d → Tendsto (fun g => cfg.cdf g d) atTop (𝓝 1))
    (h0 : ∀ d : ℕ, 1 ≤ d → cfg.cdf 0 d < cfg.significance) :
    ∃ N, ∀ n ≥ N, WholeCounts nodes n →
      ∃ R, createExactInstances net n = .ok R ∧ ∀ D, IsMatrix nodes R D → D.threshold ≤ n →
        ∀ (alg : MB.Algorithm) (g : MB.GTest) (T : Nat) (ι : Type)
          (o : List Nat → ι → List Nat × ι) (i : ι), g.Supports cfg → T < nodes.length →
          (∀ l i, (o l i).1.Perm l) →
          ∃ mb tests results,
            MB.runWith g alg D cfg (List.range nodes.length) T o i = .ok (mb, tests, results) ∧
            mb.Pairwise (· < ·) ∧ ∀ v, v ∈ mb ↔ Wanted (Edge nodes) T alg v := by
  obtain ⟨N, hN'⟩ := exact_data_decides h hN hc hα hcdf h0
  refine ⟨max N 1, fun n hn hw => ?_⟩
  have hn1 : N ≤ n := le_trans (le_max_left _ _) hn
  have hn0 : n ≠ 0 := by
    have := le_trans (le_max_right N 1) hn
    omega
  obtain ⟨rows, hl, -, ei⟩ := exact_instances_rows nodes h net e n
  refine ⟨_, ei, fun D hD ht alg g T ι o i hg hT ho => ?_⟩
  obtain ⟨rows', hl', hE⟩ := exactRows_of_instances h hN e hn0 hw ei hD
  have hr : rows' ≠ [] := by
    rintro rfl
    exact hn0 hl'.symm
  have hrows : D.nrows = n := by rw [hE.nrows, hl']
  have hall := hN' n hn1 rows' D hl' hr hE hD.values
  have hsep : ∀ X Y Z, MB.Proper (List.range nodes.length) X Y Z →
      (NetIndependent nodes X Y (Z.map (fun z : Nat => (z : Int))) ↔
        Graph.DSep (Edge nodes) X Y {z | z ∈ Z}) := by
    intro X Y Z hp
    have hlt : ∀ x ∈ X :: Y :: Z, x < nodes.length := fun x hx => List.mem_range.1 (hp.2 x hx)
    have hnd := hp.1
    simp only [List.nodup_cons, List.mem_cons, not_or] at hnd
    exact ⟨fun hi => hF X Y Z hp.1 hlt hi, fun hs => d_separation_implies_independence nodes h hN X Y Z
      (hlt X (by simp)) (hlt Y (by simp)) (fun z hz => hlt z (by simp [hz])) hnd.1.2 hnd.2.1 hs⟩
  have hd : Deciding (Edge nodes) (List.range nodes.length) D cfg := by
    refine ⟨fun X Y Z hp hs => (hall X Y Z hp).1 ((hsep X Y Z hp).2 hs),
      fun X Y Z hp hs => (hall X Y Z hp).2 (fun hi => hs ((hsep X Y Z hp).1 hi)), ?_⟩
    intro X Y Y' Z hp hp' hs hs'
    have hlt : ∀ x ∈ X :: Y :: Z, x < nodes.length := fun x hx => List.mem_range.1 (hp.2 x hx)
    have hY' : Y' < nodes.length := List.mem_range.1 (hp'.2 Y' (by simp))
    rw [hE.cmi h hN hr (hlt X (by simp)) (hlt Y (by simp)) (fun z hz => hlt z (by simp [hz])),
      hE.cmi h hN hr (hlt X (by simp)) hY' (fun z hz => hlt z (by simp [hz])),
      (netCmi_eq_zero_iff h hN _ _ _).2 ((hsep X Y Z hp).2 hs)]
    exact lt_of_le_of_ne (netCmi_nonneg h hN _ _ _)
      (fun h0 => hs' ((hsep X Y' Z hp').1 ((netCmi_eq_zero_iff h hN _ _ _).1 h0.symm)))
  have hU := usable_matrix hD.values hD.cols (by rw [hrows]; omega) (by rw [hrows]; exact ht)
  have hg' := good_columns (hE.possible h) hD.values hD.cols
  obtain ⟨mb, s', em, hmb⟩ := deciding_exact (edge_acyclic h) (U := List.range nodes.length)
    List.nodup_range
    (fun a b hab => ⟨List.mem_range.2 (edge_lt h hab).1, List.mem_range.2 (edge_lt h hab).2⟩)
    hd (List.mem_range.2 hT) ho i alg
  obtain ⟨mb', s'', em', hs, -⟩ := MB.ideal_discover D cfg (U := List.range nodes.length)
    List.nodup_range T ho i alg
  rw [em] at em'
  cases em'
  exact ⟨mb, _, _, MB.runWith_ideal D cfg hU List.nodup_range hg' (List.mem_range.2 hT) ho i alg em
    g hg, hs, hmb⟩

omit [LinearOrder ν] [Nonempty β] in
theorem jointProb_congr (h : WellFormed nodes) {a b : ν → β} (hab : ∀ n ∈ nodes, a n.name = b n.name) :
    jointProb nodes a = jointProb nodes b := by
  unfold jointProb
  congr 1
  apply List.map_congr_left
  intro n hn
  have hp : n.parents.map a = n.parents.map b := by
    apply List.map_congr_left
    intro v hv
    obtain ⟨m, hm, rfl⟩ := List.mem_map.1 (h.known n hn v hv)
    exact hab m hm
  rw [hp, hab n hn]

/-- There are such sizes: all multiples of some number. -/
theorem whole_counts_exist (nodes : List (Node ν β)) (h : WellFormed nodes) (hN : Normalised nodes) :
    ∃ m : Nat, m ≠ 0 ∧ ∀ k, WholeCounts nodes (k * m) := by
  refine ⟨((assignments nodes).map (fun a => (jointProb nodes a).den)).prod, ?_, ?_⟩
  · intro h0
    obtain ⟨a, -, ha⟩ := List.mem_map.1 (List.prod_eq_zero_iff.1 h0)
    exact (jointProb nodes a).den_nz ha
  · intro k a ha
    obtain ⟨w, hw⟩ := worlds_filter (ns := nodes) h.unique (fun n hn => (h.values n hn).1) ha
      (fun _ => Classical.arbitrary β)
    have hm : w ∈ (worlds nodes (fun _ => Classical.arbitrary β)).filter
        (fun c => decide (∀ n ∈ nodes, c n.name = a n.name)) := by rw [hw]; simp
    rw [List.mem_filter, decide_eq_true_eq] at hm
    have hj : jointProb nodes w = jointProb nodes a := jointProb_congr h hm.2
    have hwm : w ∈ assignments nodes := hm.1
    have hdvd : (jointProb nodes w).den ∣
        ((assignments nodes).map (fun a => (jointProb nodes a).den)).prod :=
      List.dvd_prod (List.mem_map.2 ⟨w, hwm, rfl⟩)
    obtain ⟨c, hc⟩ := hdvd
    have hnn : 0 ≤ jointProb nodes w := jointProb_nonneg h hN (mem_worlds h.unique hwm)
    refine ⟨k * c * (jointProb nodes w).num.toNat, ?_⟩
    rw [hc, ← hj]
    have h1 : ((jointProb nodes w).num.toNat : ℚ) = ((jointProb nodes w).num : ℚ) := by
      have : ((jointProb nodes w).num.toNat : ℤ) = (jointProb nodes w).num :=
        Int.toNat_of_nonneg (Rat.num_nonneg.2 hnn)
      exact_mod_cast this
    push_cast
    rw [h1]
    have h2 : ((jointProb nodes w).den : ℚ) * jointProb nodes w = (jointProb nodes w).num := by
      rw [mul_comm]; exact Rat.mul_den_eq_num _
    rw [← h2]
    ring

/-! ## An example -/

/-- The chi-squared distribution function is 0 at 0, hence below any positive significance. -/
theorem chi2_zero (d : ℕ) (hd : 1 ≤ d) : cdf (gammaMeasure (((d : ℤ) : ℝ) / 2) (1 / 2)) 0 = 0 := by
  have hd' : (0 : ℝ) < ((d : ℤ) : ℝ) / 2 := by
    have : (1 : ℝ) ≤ (d : ℝ) := by exact_mod_cast hd
    push_cast
    linarith
  rw [cdf_gammaMeasure_eq_lintegral hd' (by norm_num), ← setLIntegral_congr Iio_ae_eq_Iic,
    lintegral_gammaPDF_of_nonpos le_rfl]
  rfl

/-- Exact data of the example network: some multiple of some number of instances is enough for both
algorithms, with all tests that are supported, to find exactly the child 1 and the other parent 2 of
that child for the target 0. -/
example : ∃ net, finalize { nodes := exCollider } = .ok net ∧ ∃ n R, WholeCounts exCollider n ∧
    createExactInstances net n = .ok R ∧ IsMatrix exCollider R (matrixOf 3 (R.map (·.map Int.toNat))) ∧
    ∀ alg : MB.Algorithm, alg ≠ .ipcmb true → ∃ tests results,
      MB.runWith (.adtree true) alg (matrixOf 3 (R.map (·.map Int.toNat))) exConfig [0, 1, 2] 0
        (fun l (i : Unit) => (l, i)) () = .ok ([1, 2], tests, results) := by
  obtain ⟨net, e, _⟩ := finalize_ok exCollider_wf
  obtain ⟨m, hm, hk⟩ := whole_counts_exist exCollider exCollider_wf exCollider_normalised
  obtain ⟨N, hN⟩ := discovery_exact_on_exact_data exCollider exCollider_wf exCollider_normalised
    exCollider_faithful net e exConfig rfl (by unfold exConfig; norm_num)
    (fun d hd => chi2_meets d hd) (fun d hd => by
      show cdf (gammaMeasure (((d : ℤ) : ℝ) / 2) (1 / 2)) 0 < 0.95
      rw [chi2_zero d hd]; norm_num)
  have hle : N ≤ N * m := Nat.le_mul_of_pos_right _ (Nat.pos_of_ne_zero hm)
  obtain ⟨R, eR, hall⟩ := hN (N * m) hle (hk N)
  obtain ⟨rows, hl, ha, ei⟩ := exact_instances_rows exCollider exCollider_wf net e (N * m)
  have hR : R = rows.map (indices exCollider) := by
    rw [eR] at ei; exact Except.ok.inj ei
  have hM : IsMatrix exCollider R (matrixOf 3 (R.map (·.map Int.toNat))) := by
    subst hR
    obtain ⟨⟨h1, h2⟩, h3⟩ := matrixOf_ok 3 ((rows.map (indices exCollider)).map (·.map Int.toNat))
    refine ⟨by rw [h1]; simp, fun r hr c hc => ?_, h3, rfl⟩
    rw [h2 r (by simpa using hr) c (by simpa using hc)]
    simp only [List.getElem_map, List.length_map] at hr hc ⊢
    have h1 : (((indices exCollider rows[r]).map Int.toNat).map (fun k : Nat => (k : Int)))[c]? =
        (indices exCollider rows[r])[c]? := by rw [indices_toNat]
    simp only [List.getElem?_map, List.getElem?_eq_getElem hc, Option.map_some,
      Option.some.injEq] at h1
    exact h1
  refine ⟨net, e, N * m, R, hk N, eR, hM, fun alg halg => ?_⟩
  obtain ⟨mb, tests, results, e1, hs, hB⟩ := hall _ hM (Nat.zero_le _) alg (.adtree true) 0 Unit
    (fun l i => (l, i)) () trivial (by decide) (fun l _ => List.Perm.refl l)
  have e01 : Edge exCollider 0 1 :=
    ⟨0, 1, ⟨exCollider[1], by simp, rfl, by decide⟩, by decide +kernel, by decide +kernel⟩
  have e21 : Edge exCollider 2 1 :=
    ⟨2, 1, ⟨exCollider[1], by simp, rfl, by decide⟩, by decide +kernel, by decide +kernel⟩
  have hW : ∀ v, Wanted (Edge exCollider) 0 alg v ↔ Graph.IsBlanket (Edge exCollider) 0 v := by
    intro v
    cases alg with
    | iamb => exact Iff.rfl
    | ipcmb b =>
      cases b with
      | false => exact Iff.rfl
      | true => exact absurd rfl halg
  have hmem : ∀ v, v ∈ mb ↔ v = 1 ∨ v = 2 := by
    intro v
    rw [hB, hW]
    constructor
    · intro hb
      have hlt : v < 3 := by
        obtain ⟨-, h1 | h1 | ⟨c, -, h1⟩⟩ := hb
        · exact (edge_lt exCollider_wf h1).1
        · exact (edge_lt exCollider_wf h1).2
        · exact (edge_lt exCollider_wf h1).1
      have := hb.1
      omega
    · rintro (rfl | rfl)
      · exact ⟨by decide, .inr (.inl e01)⟩
      · exact ⟨by decide, .inr (.inr ⟨1, e01, e21⟩)⟩
  have hmb : mb = [1, 2] := by
    refine List.Perm.eq_of_pairwise (le := (· < ·)) (fun a b _ _ h1 h2 => by omega) hs (by decide) ?_
    rw [List.perm_ext_iff_of_nodup (hs.imp (fun h => by omega)) (by decide)]
    intro v
    rw [hmem]
    simp
  subst hmb
  exact ⟨tests, results, e1⟩

end Mbtk.BN
