import Verif.BN.Samples
import Verif.BN.Oracle
import Verif.Props.CITestProps
import Mathlib.Analysis.SpecialFunctions.Log.NegMulLog
import Mathlib.Probability.Distributions.Gamma
import Mathlib.Data.Set.Finite.List
/-!
# What CI tests and measures find in large samples (C68)

`sample_matrix(n)` for growing `n`, with a source of independent uniform random numbers: the
conditional mutual information of the sampled data converges to that of the network, and the G-tests
end up answering "dependent" wherever the network is.
-/
namespace Mbtk.Stats.Info
open Finset Real Filter
open scoped Topology

variable {α β γ : Type} {A A' : Finset α} {B B' : Finset β} {C C' : Finset γ} {P : α → β → γ → ℝ}

/-- Values that do not occur do not matter. -/
theorem cmi_superset (hA : A ⊆ A') (hB : B ⊆ B') (hC : C ⊆ C')
    (h0 : ∀ x y z, P x y z ≠ 0 → x ∈ A ∧ y ∈ B ∧ z ∈ C) :
    cmi A' B' C' P = cmi A B C P := by
  have e1 : ∀ x z, mXZ B' P x z = mXZ B P x z := by
    intro x z
    refine (sum_subset hB (fun y _ hy => ?_)).symm
    by_contra hne
    exact hy (h0 x y z hne).2.1
  have e2 : ∀ y z, mYZ A' P y z = mYZ A P y z := by
    intro y z
    refine (sum_subset hA (fun x _ hx => ?_)).symm
    by_contra hne
    exact hx (h0 x y z hne).1
  have e3 : ∀ z, mZ A' B' P z = mZ A B P z := by
    intro z
    unfold mZ
    rw [← sum_subset hA (fun x _ hx => ?_)]
    · exact sum_congr rfl (fun x _ => e1 x z)
    · refine sum_eq_zero (fun y _ => ?_)
      by_contra hne
      exact hx (h0 x y z hne).1
  have hz : ∀ x y z, ¬ (x ∈ A ∧ y ∈ B ∧ z ∈ C) → P x y z = 0 := by
    intro x y z hn
    by_contra hne
    exact hn (h0 x y z hne)
  unfold cmi
  simp only [e1, e2, e3]
  rw [← sum_subset hC]
  · refine sum_congr rfl (fun z _ => ?_)
    rw [← sum_subset hA]
    · refine sum_congr rfl (fun x _ => ?_)
      rw [← sum_subset hB]
      intro y _ hy
      rw [hz x y z (fun h => hy h.2.1), zero_mul]
    · intro x _ hx
      refine sum_eq_zero (fun y _ => ?_)
      rw [hz x y z (fun h => hx h.1), zero_mul]
  · intro z _ hzC
    refine sum_eq_zero (fun x _ => sum_eq_zero (fun y _ => ?_))
    rw [hz x y z (fun h => hzC h.2.2), zero_mul]

/-- The conditional mutual information is a continuous function of the joint probabilities. -/
theorem cmi_tendsto {Pn : ℕ → α → β → γ → ℝ} (hn : ∀ n x y z, 0 ≤ Pn n x y z)
    (hP : ∀ x y z, 0 ≤ P x y z)
    (ht : ∀ x y z, Tendsto (fun n => Pn n x y z) atTop (𝓝 (P x y z))) :
    Tendsto (fun n => cmi A B C (Pn n)) atTop (𝓝 (cmi A B C P)) := by
  have hc : ∀ {f : ℕ → ℝ} {a : ℝ}, Tendsto f atTop (𝓝 a) →
      Tendsto (fun n => f n * log (f n)) atTop (𝓝 (a * log a)) :=
    fun hf => (continuous_mul_log.tendsto _).comp hf
  have h1 : ∀ x z, Tendsto (fun n => mXZ B (Pn n) x z) atTop (𝓝 (mXZ B P x z)) :=
    fun x z => tendsto_finsetSum _ (fun y _ => ht x y z)
  have h2 : ∀ y z, Tendsto (fun n => mYZ A (Pn n) y z) atTop (𝓝 (mYZ A P y z)) :=
    fun y z => tendsto_finsetSum _ (fun x _ => ht x y z)
  have h3 : ∀ z, Tendsto (fun n => mZ A B (Pn n) z) atTop (𝓝 (mZ A B P z)) :=
    fun z => tendsto_finsetSum _ (fun x _ => tendsto_finsetSum _ (fun y _ => ht x y z))
  rw [cmi_eq_entropies hP]
  simp only [fun n => cmi_eq_entropies (A := A) (B := B) (C := C) (hn n)]
  refine Tendsto.sub (Tendsto.sub (Tendsto.add ?_ ?_) ?_) ?_
  · exact (tendsto_finsetSum _ (fun z _ => tendsto_finsetSum _ (fun y _ => hc (h2 y z)))).neg
  · exact (tendsto_finsetSum _ (fun z _ => tendsto_finsetSum _ (fun x _ => hc (h1 x z)))).neg
  · exact (tendsto_finsetSum _ (fun z _ => tendsto_finsetSum _ (fun x _ =>
      tendsto_finsetSum _ (fun y _ => hc (ht x y z))))).neg
  · exact (tendsto_finsetSum _ (fun z _ => hc (h3 z))).neg

end Mbtk.Stats.Info

namespace Mbtk.BN
open Spec Stats MeasureTheory ProbabilityTheory Filter
open Mbtk.ADTree (Data)
open Mbtk.ADTree.Spec (rowsWith)
open scoped Topology

variable {ν β : Type} [LinearOrder ν] [DecidableEq β]

/-! ## Every sample is one assignment -/

section one
omit [DecidableEq β] in
theorem worlds_stay {ns : List (Node ν β)} {a b : ν → β} (hb : b ∈ worlds ns a) {v : ν}
    (hv : v ∉ ns.map (·.name)) : b v = a v := by
  induction ns generalizing a with
  | nil => simp only [worlds, List.mem_singleton] at hb; rw [hb]
  | cons n ns ih =>
    simp only [worlds, List.mem_flatMap] at hb
    obtain ⟨w, _, hb⟩ := hb
    simp only [List.map_cons, List.mem_cons, not_or] at hv
    rw [ih hb hv.2, Function.update_of_ne hv.1]

/-- Exactly one of the enumerated assignments gives the nodes the values that `b` gives them. -/
theorem worlds_filter {ns : List (Node ν β)} (hn : (ns.map (·.name)).Nodup)
    (hv : ∀ n ∈ ns, n.values.Nodup) {b : ν → β} (hb : ∀ n ∈ ns, b n.name ∈ n.values) (a : ν → β) :
    ∃ w, (worlds ns a).filter (fun c => decide (∀ n ∈ ns, c n.name = b n.name)) = [w] := by
  induction ns generalizing a with
  | nil => exact ⟨a, rfl⟩
  | cons n ns ih =>
    simp only [List.map_cons, List.nodup_cons] at hn
    obtain ⟨w, hw⟩ := ih hn.2 (fun m hm => hv m (by simp [hm])) (fun m hm => hb m (by simp [hm]))
      (Function.update a n.name (b n.name))
    refine ⟨w, ?_⟩
    have key : ∀ v, (worlds ns (Function.update a n.name v)).filter
        (fun c => decide (∀ m ∈ n :: ns, c m.name = b m.name)) = if v = b n.name then [w] else [] := by
      intro v
      by_cases e : v = b n.name
      · rw [if_pos e, ← hw, e]
        apply List.filter_congr
        intro c hc
        have := worlds_stay hc hn.1
        rw [Function.update_self] at this
        simp [this]
      · rw [if_neg e, List.filter_eq_nil_iff]
        intro c hc
        have := worlds_stay hc hn.1
        rw [Function.update_self] at this
        simp only [List.mem_cons, decide_eq_true_eq]
        intro hall
        exact e (by rw [← this, hall n (.inl rfl)])
    simp only [worlds, List.filter_flatMap, key]
    have hnd := hv n (by simp)
    have hm := hb n (by simp)
    clear key hb hv
    generalize n.values = vals at hnd hm ⊢
    induction vals with
    | nil => simp at hm
    | cons x l ihl =>
      rw [List.nodup_cons] at hnd
      rw [List.flatMap_cons]
      by_cases e : x = b n.name
      · rw [if_pos e]
        have : l.flatMap (fun v => if v = b n.name then [w] else []) = [] := by
          rw [List.flatMap_eq_nil_iff]
          intro y hy
          rw [if_neg]
          rintro rfl
          exact hnd.1 (e ▸ hy)
        rw [this]; rfl
      · rw [if_neg e, List.nil_append]
        exact ihl hnd.2 ((List.mem_cons.1 hm).resolve_left (fun h => e h.symm))

variable {nodes : List (Node ν β)} [Nonempty β]

/-- Counting by assignments: of a list of samples, those that satisfy a condition. -/
theorem countP_assignments (h : WellFormed nodes) (E : (ν → β) → Prop) [DecidablePred E]
    (hE : ∀ a b, (∀ n ∈ nodes, a n.name = b n.name) → (E a ↔ E b)) (l : List (List (ν × β)))
    (f : List (ν × β) → Bool)
    (hl : ∀ s ∈ l, ∃ b, Assignment nodes b ∧ Agrees nodes b s ∧ (f s = true ↔ E b)) :
    l.countP f = (((assignments nodes).filter (fun a => decide (E a))).map
      (fun a => l.countP (Agrees nodes a))).sum := by
  induction l with
  | nil => simp
  | cons s l ih =>
    have ih := ih (fun t ht => hl t (by simp [ht]))
    obtain ⟨b, hb, hs, hf⟩ := hl s (by simp)
    simp only [List.countP_cons]
    rw [List.sum_map_add, ih]
    congr 1
    have hag : ∀ a, Agrees nodes a s ↔ ∀ n ∈ nodes, a n.name = b n.name := by
      intro a
      constructor
      · intro ha n hn
        have := ha n hn
        rw [hs n hn] at this
        exact (Option.some.inj this).symm
      · intro ha n hn
        rw [hs n hn, ha n hn]
    obtain ⟨w, hw⟩ := worlds_filter (ns := nodes) h.unique (fun n hn => (h.values n hn).1) hb
      (fun _ => Classical.arbitrary β)
    have hwE : E w ↔ E b := by
      have : w ∈ (worlds nodes (fun _ => Classical.arbitrary β)).filter
          (fun c => decide (∀ n ∈ nodes, c n.name = b n.name)) := by rw [hw]; simp
      rw [List.mem_filter, decide_eq_true_eq] at this
      exact hE w b this.2
    have hsum : ∀ L : List (ν → β), ((L.filter (fun a => decide (E a))).map
        (fun a => if decide (Agrees nodes a s) = true then 1 else 0)).sum =
        ((L.filter (fun c => decide (∀ n ∈ nodes, c n.name = b n.name))).map
          (fun a => if E a then 1 else 0)).sum := by
      intro L
      induction L with
      | nil => rfl
      | cons a L ihL =>
        simp only [List.filter_cons, decide_eq_true_eq]
        by_cases h1 : E a <;> by_cases h2 : ∀ n ∈ nodes, a n.name = b n.name
        · rw [if_pos h1, if_pos h2, List.map_cons, List.map_cons, List.sum_cons, List.sum_cons,
            if_pos h1, if_pos ((hag a).2 h2)]
          simpa using ihL
        · rw [if_pos h1, if_neg h2, List.map_cons, List.sum_cons,
            if_neg (fun h => h2 ((hag a).1 h))]
          simpa using ihL
        · rw [if_neg h1, if_pos h2, List.map_cons, List.sum_cons, if_neg h1]
          simpa using ihL
        · rw [if_neg h1, if_neg h2]
          simpa using ihL
    unfold assignments
    rw [hsum, hw]
    by_cases hEb : E b
    · simp [hf.2 hEb, hwE.2 hEb]
    · have : f s = false := by
        rw [← Bool.not_eq_true]; exact fun h => hEb (hf.1 h)
      simp [this, mt hwE.1 hEb]

end one

/-! ## Frequencies in the sampled data -/

/-- The rows of the matrix `D`. (Specification.) -/
def HasRows (D : Data) (rows : List (List Nat)) : Prop :=
  D.nrows = rows.length ∧
    ∀ r (hr : r < rows.length) c (hc : c < rows[r].length), D.cell r c = (rows[r][c] : Int)

theorem rowsWith_countP {D : Data} {rows : List (List Nat)} (hD : D.nrows = rows.length) (P : Nat → Prop)
    [DecidablePred P] (f : List Nat → Bool)
    (hf : ∀ r (hr : r < rows.length), P r ↔ f rows[r] = true) :
    rowsWith D P = rows.countP f := by
  have hr : rows = (List.range rows.length).map (fun r => rows.getD r []) := by
    apply List.ext_getElem (by simp)
    intro i h1 h2
    simp [h1]
  unfold rowsWith
  rw [hD, ← List.countP_eq_length_filter]
  conv_rhs => rw [hr, List.countP_map]
  apply List.countP_congr
  intro r hrr
  have hlt := List.mem_range.1 hrr
  simp [hlt, hf r hlt]

section freq
variable {nodes : List (Node ν β)} [Nonempty β]

omit [Nonempty β] in
theorem indices_agree {a b : ν → β} (h : ∀ n ∈ nodes, a n.name = b n.name) :
    indices nodes a = indices nodes b := by
  unfold indices
  apply List.map_congr_left
  intro v hv
  rw [List.mem_insertionSort] at hv
  obtain ⟨n, hn, rfl⟩ := List.mem_map.1 hv
  rw [h n hn]

omit [Nonempty β] in
theorem indices_toNat (a : ν → β) :
    ((indices nodes a).map Int.toNat).map (fun k : Nat => (k : Int)) = indices nodes a := by
  unfold indices
  simp

/-- A frequency in the matrix, as a sum over assignments. -/
theorem freq_assignments (h : WellFormed nodes) {D : Data} {rows : List (List Nat)}
    (hD : HasRows D rows) {l : List (List (ν × β))}
    (hl : List.Forall₂ (fun s r => ∃ a : ν → β, Assignment nodes a ∧
        (∀ n ∈ nodes, dictGet s n.name = some (a n.name)) ∧ r = (indices nodes a).map Int.toNat) l rows)
    (cols : List Nat) (hc : ∀ c ∈ cols, c < nodes.length) (vals : List Int) :
    (Stats.Spec.freq D cols vals : ℝ) = (((assignments nodes).filter (fun a => decide
        ((cols.map (fun c : Nat => (c : Int))).map (valueOfID nodes a) = vals))).map
      (fun a => ((l.countP (Agrees nodes a) : ℕ) : ℝ) / l.length)).sum := by
  have hE : ∀ a b : ν → β, (∀ n ∈ nodes, a n.name = b n.name) →
      ((cols.map (fun c : Nat => (c : Int))).map (valueOfID nodes a) = vals ↔
        (cols.map (fun c : Nat => (c : Int))).map (valueOfID nodes b) = vals) := by
    intro a b hab
    have : valueOfID nodes a = valueOfID nodes b := by
      funext i; unfold valueOfID; rw [indices_agree hab]
    rw [this]
  have hlen : ∀ a : ν → β, (indices nodes a).length = nodes.length := by
    intro a; simp [indices]
  -- the condition on rows
  let g : List Nat → Bool := fun row => decide (cols.map (fun c => ((row.getD c 0 : Nat) : Int)) = vals)
  have hrow : ∀ (a : ν → β), g ((indices nodes a).map Int.toNat) = true ↔
      (cols.map (fun c : Nat => (c : Int))).map (valueOfID nodes a) = vals := by
    intro a
    simp only [g, decide_eq_true_eq, List.map_map]
    have : cols.map (fun c => ((((indices nodes a).map Int.toNat).getD c 0 : Nat) : Int)) =
        cols.map (valueOfID nodes a ∘ fun c : Nat => (c : Int)) := by
      apply List.map_congr_left
      intro c hcm
      have hlt : c < (indices nodes a).length := by rw [hlen]; exact hc c hcm
      have h1 : (((indices nodes a).map Int.toNat).map (fun k : Nat => (k : Int)))[c]? =
          (indices nodes a)[c]? := by rw [indices_toNat]
      simp only [List.getElem?_map, List.getElem?_eq_getElem hlt, Option.map_some,
        Option.some.injEq] at h1
      simp only [Function.comp, valueOfID, Int.toNat_natCast, List.getElem?_eq_getElem hlt,
        Option.getD_some, List.getD_eq_getElem?_getD, List.getElem?_map, Option.map_some]
      exact h1
    rw [this]
  have hcount : rowsWith D (fun r => cols.map (D.cell r) = vals) = rows.countP g := by
    apply rowsWith_countP hD.1
    intro r hr
    have hlr : ∃ a : ν → β, rows[r] = (indices nodes a).map Int.toNat := by
      have h2 := (List.forall₂_iff_get.1 hl).2 r (by rw [hl.length_eq]; exact hr) hr
      obtain ⟨a, -, -, e⟩ := h2
      exact ⟨a, e⟩
    obtain ⟨a, ea⟩ := hlr
    simp only [g, decide_eq_true_eq]
    have : cols.map (D.cell r) = cols.map (fun c => ((rows[r].getD c 0 : Nat) : Int)) := by
      apply List.map_congr_left
      intro c hcm
      have hlt : c < rows[r].length := by rw [ea, List.length_map, hlen]; exact hc c hcm
      rw [hD.2 r hr c hlt]
      simp [hlt]
    rw [this]
  have hsame : rows.countP g = (((assignments nodes).filter (fun a => decide
        ((cols.map (fun c : Nat => (c : Int))).map (valueOfID nodes a) = vals))).map
      (fun a => l.countP (Agrees nodes a))).sum := by
    -- a condition on samples that agrees with the condition on their rows
    classical
    let f : List (ν × β) → Bool := fun s => decide (∃ a, Agrees nodes a s ∧
      (cols.map (fun c : Nat => (c : Int))).map (valueOfID nodes a) = vals)
    have hf : ∀ s (b : ν → β), Agrees nodes b s → (f s = true ↔
        (cols.map (fun c : Nat => (c : Int))).map (valueOfID nodes b) = vals) := by
      intro s b hb
      simp only [f, decide_eq_true_eq]
      constructor
      · rintro ⟨a, ha, e⟩
        refine (hE a b (fun n hn => ?_)).1 e
        have := ha n hn
        rw [hb n hn] at this
        exact (Option.some.inj this).symm
      · intro e
        exact ⟨b, hb, e⟩
    have h1 : rows.countP g = l.countP f := by
      clear hcount hD
      induction hl with
      | nil => rfl
      | @cons s r l rows hsr _ ih =>
        obtain ⟨a, -, ha, rfl⟩ := hsr
        have : g ((indices nodes a).map Int.toNat) = f s := by
          rw [Bool.eq_iff_iff, hrow, hf s a ha]
        rw [List.countP_cons, List.countP_cons, ih, this]
    rw [h1]
    refine countP_assignments h _ hE l f ?_
    intro s hs
    obtain ⟨i, hi, rfl⟩ := List.getElem_of_mem hs
    obtain ⟨a, ha, hag, -⟩ := (List.forall₂_iff_get.1 hl).2 i hi (by rw [← hl.length_eq]; exact hi)
    exact ⟨a, ha, hag, hf _ a hag⟩
  unfold Stats.Spec.freq
  rw [hcount, hsame, hD.1, ← hl.length_eq]
  push_cast
  rw [List.map_map, List.map_map]
  generalize List.filter _ _ = L
  induction L with
  | nil => simp
  | cons a L ih =>
    simp only [List.map_cons, List.sum_cons, add_div, ih]
    simp

/-- Whatever a row shows, some enumerated assignment shows. -/
theorem exists_assignment (h : WellFormed nodes) {a : ν → β} (ha : Assignment nodes a) :
    ∃ w ∈ assignments nodes, valueOfID nodes w = valueOfID nodes a := by
  obtain ⟨w, hw⟩ := worlds_filter (ns := nodes) h.unique (fun n hn => (h.values n hn).1) ha
    (fun _ => Classical.arbitrary β)
  have hm : w ∈ (worlds nodes (fun _ => Classical.arbitrary β)).filter
      (fun c => decide (∀ n ∈ nodes, c n.name = a n.name)) := by rw [hw]; simp
  rw [List.mem_filter, decide_eq_true_eq] at hm
  refine ⟨w, hm.1, ?_⟩
  funext i
  unfold valueOfID
  rw [indices_agree hm.2]

/-- Every row of the matrix is what some assignment shows. (Specification.) -/
def RowsPossible (nodes : List (Node ν β)) (D : Data) : Prop :=
  ∀ r < D.nrows, ∃ a ∈ assignments nodes, ∀ c < nodes.length, D.cell r c = valueOfID nodes a c

theorem rows_possible (h : WellFormed nodes) {D : Data} {rows : List (List Nat)}
    (hD : HasRows D rows) {l : List (List (ν × β))}
    (hl : List.Forall₂ (fun s r => ∃ a : ν → β, Assignment nodes a ∧
        (∀ n ∈ nodes, dictGet s n.name = some (a n.name)) ∧ r = (indices nodes a).map Int.toNat) l rows) :
    RowsPossible nodes D := by
  intro r hr
  rw [hD.1] at hr
  obtain ⟨a, ha, -, e⟩ := (List.forall₂_iff_get.1 hl).2 r (by rw [hl.length_eq]; exact hr) hr
  obtain ⟨w, hw, ew⟩ := exists_assignment h ha
  refine ⟨w, hw, ?_⟩
  intro c hc
  have hlt : c < (indices nodes a).length := by simp [indices, hc]
  simp only [List.get_eq_getElem] at e
  have hlt' : c < rows[r].length := by rw [e, List.length_map]; exact hlt
  have h1 : (((indices nodes a).map Int.toNat).map (fun k : Nat => (k : Int)))[c]? =
      (indices nodes a)[c]? := by rw [indices_toNat]
  simp only [List.getElem?_map, List.getElem?_eq_getElem hlt, Option.map_some,
    Option.some.injEq] at h1
  rw [hD.2 r hr c hlt', ew]
  unfold valueOfID
  simp only [e, List.getElem_map, Int.toNat_natCast, List.getElem?_eq_getElem hlt, Option.getD_some]
  exact h1

/-- **C68.** Frequencies in the sampled data converge: with probability one, `sample_matrix(n)`
succeeds for every `n`, and the relative frequency of any combination of values in any columns
converges to its probability in the network. -/
theorem sample_matrix_frequencies (nodes : List (Node ν β)) (h : WellFormed nodes)
    (hN : Normalised nodes) (net : Net ν β) (e : finalize { nodes := nodes } = .ok net)
    {Ω : Type} [MeasurableSpace Ω] (P : Measure Ω) [IsProbabilityMeasure P] (U : ℕ → Ω → ℝ)
    (hm : ∀ j, Measurable (U j)) (hind : iIndepFun U P)
    (hunif : ∀ j, P.map (U j) = volume.restrict (Set.Icc 0 1)) :
    ∀ᵐ ω ∂P, ∃ R : ℕ → List (List Nat),
      (∀ n, sampleMatrix net n (fun j => U j ω) = .ok (R n) ∧ (R n).length = n) ∧
      ∀ D : ℕ → Data, (∀ n, HasRows (D n) (R n)) →
        (∀ n, RowsPossible nodes (D n)) ∧
        ∀ (cols : List Nat) (vals : List Int), (∀ c ∈ cols, c < nodes.length) →
          Tendsto (fun n => (Stats.Spec.freq (D n) cols vals : ℝ)) atTop
            (𝓝 ((prob nodes (fun a => (cols.map (fun c : Nat => (c : Int))).map
              (valueOfID nodes a) = vals) : ℚ) : ℝ)) := by
  have hall : ∀ᵐ ω ∂P, ∀ a ∈ assignments nodes, ∃ S : ℕ → List (List (ν × β)),
      (∀ n, samples net n (fun j => U j ω) = .ok (S n)) ∧
      Tendsto (fun n : ℕ => ((S n).countP (Agrees nodes a) : ℝ) / n) atTop
        (𝓝 ((jointProb nodes a : ℚ) : ℝ)) := by
    have hfin : {a | a ∈ assignments nodes}.Finite := List.finite_toSet _
    exact (ae_ball_iff hfin.countable).2 (fun a ha => frequencies_converge nodes h hN net e a
      (mem_worlds h.unique ha) P U hm hind hunif)
  have hin : ∀ᵐ ω ∂P, ∀ j, U j ω ∈ Set.Icc (0 : ℝ) 1 := by
    rw [ae_all_iff]
    intro j
    have h1 : ∀ᵐ x ∂(P.map (U j)), x ∈ Set.Icc (0 : ℝ) 1 := by
      rw [hunif]
      exact ae_restrict_mem measurableSet_Icc
    exact ae_of_ae_map (hm j).aemeasurable h1
  filter_upwards [hall, hin] with ω h1 h2
  choose S R hS hR hlen hF using fun n => sample_matrix_rows nodes h hN net e (fun j => U j ω)
    (fun k => (h2 k).2) n
  refine ⟨R, fun n => ⟨hR n, hlen n⟩, fun D hD => ⟨fun n => rows_possible h (hD n) (hF n), ?_⟩⟩
  intro cols vals hc
  have hSl : ∀ n, (S n).length = n := fun n => by rw [(hF n).length_eq, hlen n]
  have h3 : ∀ a ∈ assignments nodes, Tendsto (fun n : ℕ => ((S n).countP (Agrees nodes a) : ℝ) / n)
      atTop (𝓝 ((jointProb nodes a : ℚ) : ℝ)) := by
    intro a ha
    obtain ⟨S', hS', ht⟩ := h1 a ha
    have : S' = S := by
      funext n
      have := hS' n
      rw [hS n] at this
      exact (Except.ok.inj this).symm
    rw [← this]; exact ht
  simp only [fun n => freq_assignments h (hD n) (hF n) cols hc vals, hSl]
  have hp : ((prob nodes (fun a => (cols.map (fun c : Nat => (c : Int))).map
      (valueOfID nodes a) = vals) : ℚ) : ℝ) = (((assignments nodes).filter (fun a => decide
        ((cols.map (fun c : Nat => (c : Int))).map (valueOfID nodes a) = vals))).map
          (fun a => ((jointProb nodes a : ℚ) : ℝ))).sum := by
    rw [prob_decidable]
    push_cast
    rw [List.map_map]
    rfl
  rw [hp]
  exact tendsto_list_sum _ (fun a ha => h3 a (List.mem_of_mem_filter ha))

theorem values_possible {D : Data} (hD : RowsPossible nodes D) {X : Nat} (hX : X < nodes.length) :
    Stats.Spec.values D X ⊆ valuesOf nodes X := by
  intro x hx
  obtain ⟨r, hr, rfl⟩ := Finset.mem_image.1 hx
  obtain ⟨a, ha, hc⟩ := hD r (Finset.mem_range.1 hr)
  exact List.mem_toFinset.2 (List.mem_map.2 ⟨a, ha, (hc X hX).symm⟩)

theorem observed_possible {D : Data} (hD : RowsPossible nodes D) {Z : List Nat}
    (hZ : ∀ z ∈ Z, z < nodes.length) :
    Stats.Spec.observed D Z ⊆ combinationsOf nodes (Z.map (fun z : Nat => (z : Int))) := by
  intro x hx
  obtain ⟨r, hr, rfl⟩ := Finset.mem_image.1 hx
  obtain ⟨a, ha, hc⟩ := hD r (Finset.mem_range.1 hr)
  refine List.mem_toFinset.2 (List.mem_map.2 ⟨a, ha, ?_⟩)
  rw [List.map_map]
  apply List.map_congr_left
  intro z hz
  exact (hc z (hZ z hz)).symm

/-- If all frequencies converge to probabilities, so does the conditional mutual information. -/
theorem cmi_of_frequencies (h : WellFormed nodes) (hN : Normalised nodes) {D : ℕ → Data}
    (hp : ∀ n, RowsPossible nodes (D n))
    (hf : ∀ (cols : List Nat) (vals : List Int), (∀ c ∈ cols, c < nodes.length) →
      Tendsto (fun n => (Stats.Spec.freq (D n) cols vals : ℝ)) atTop
        (𝓝 ((prob nodes (fun a => (cols.map (fun c : Nat => (c : Int))).map
          (valueOfID nodes a) = vals) : ℚ) : ℝ)))
    {X Y : Nat} {Z : List Nat} (hX : X < nodes.length) (hY : Y < nodes.length)
    (hZ : ∀ z ∈ Z, z < nodes.length) :
    Tendsto (fun n => Stats.Spec.cmi (D n) X Y Z) atTop
      (𝓝 (netCmi nodes X Y (Z.map (fun z : Nat => (z : Int))))) := by
  have hcmi : ∀ n, Stats.Spec.cmi (D n) X Y Z = Info.cmi (valuesOf nodes X) (valuesOf nodes Y)
      (combinationsOf nodes (Z.map (fun z : Nat => (z : Int))))
      (fun x y z => (Stats.Spec.joint3 (D n) X Y Z x y z : ℝ)) := by
    intro n
    rw [Stats.Spec.cmi_eq_info]
    refine (Info.cmi_superset (values_possible (hp n) hX) (values_possible (hp n) hY)
      (observed_possible (hp n) hZ) ?_).symm
    intro x y z hne
    have hne' : Stats.Spec.freq (D n) (X :: Y :: Z) (x :: y :: z) ≠ 0 := by
      intro h0
      exact hne (by unfold Stats.Spec.joint3; rw [h0]; simp)
    rw [Stats.Spec.freq_ne_zero_iff] at hne'
    obtain ⟨r, hr, er⟩ := Finset.mem_image.1 hne'
    simp only [List.map_cons, List.cons.injEq] at er
    exact ⟨Finset.mem_image.2 ⟨r, hr, er.1⟩, Finset.mem_image.2 ⟨r, hr, er.2.1⟩,
      Finset.mem_image.2 ⟨r, hr, er.2.2⟩⟩
  simp only [hcmi]
  unfold netCmi
  refine Info.cmi_tendsto (fun n => Stats.Spec.joint3_cast_nonneg (D n) X Y Z)
    (fun x y z => by exact_mod_cast prob_nonneg h hN _) ?_
  intro x y z
  have h1 := hf (X :: Y :: Z) (x :: y :: z) (by
    intro c hc
    simp only [List.mem_cons] at hc
    rcases hc with rfl | rfl | hc
    · exact hX
    · exact hY
    · exact hZ c hc)
  have h2 : prob nodes (fun a => ((X :: Y :: Z).map (fun c : Nat => (c : Int))).map
      (valueOfID nodes a) = x :: y :: z) = jointXYZ nodes X Y (Z.map (fun z : Nat => (z : Int))) x y z := by
    unfold jointXYZ
    apply prob_congr
    intro a
    simp
  rw [h2] at h1
  exact h1

/-- **C68.** The conditional mutual information of the sampled data converges, with probability one,
to the conditional mutual information of the network, for all variables and all conditioning sets. -/
theorem sampled_cmi_converges (nodes : List (Node ν β)) (h : WellFormed nodes)
    (hN : Normalised nodes) (net : Net ν β) (e : finalize { nodes := nodes } = .ok net)
    {Ω : Type} [MeasurableSpace Ω] (P : Measure Ω) [IsProbabilityMeasure P] (U : ℕ → Ω → ℝ)
    (hm : ∀ j, Measurable (U j)) (hind : iIndepFun U P)
    (hunif : ∀ j, P.map (U j) = volume.restrict (Set.Icc 0 1)) :
    ∀ᵐ ω ∂P, ∃ R : ℕ → List (List Nat),
      (∀ n, sampleMatrix net n (fun j => U j ω) = .ok (R n) ∧ (R n).length = n) ∧
      ∀ D : ℕ → Data, (∀ n, HasRows (D n) (R n)) → ∀ (X Y : Nat) (Z : List Nat),
        X < nodes.length → Y < nodes.length → (∀ z ∈ Z, z < nodes.length) →
        (X :: Y :: Z).Nodup →
        ∃ v : ℕ → ℝ, (∀ n, n ≠ 0 → cmiCompute (D n) X Y Z = .ok (v n)) ∧
          Tendsto v atTop (𝓝 (netCmi nodes X Y (Z.map (fun z : Nat => (z : Int))))) := by
  filter_upwards [sample_matrix_frequencies nodes h hN net e P U hm hind hunif] with ω hω
  obtain ⟨R, hR, hall⟩ := hω
  refine ⟨R, hR, fun D hD X Y Z hX hY hZ hnd => ?_⟩
  obtain ⟨hp, hf⟩ := hall D hD
  refine ⟨fun n => Stats.Spec.cmi (D n) X Y Z, fun n hn => ?_, cmi_of_frequencies h hN hp hf hX hY hZ⟩
  refine cmi_calculator_exact (D n) ?_ X Y Z hnd
  rw [(hD n).1, (hR n).2]
  exact hn

/-! ## The G-tests on large samples -/

/-- The value lists of the matrix are the values of the columns, without repetition.
(Specification.) -/
def ListsValues (D : Data) (m : Nat) : Prop :=
  ∀ c < m, (D.values c).Nodup ∧ ∀ v, v ∈ D.values c ↔ v ∈ Stats.Spec.values D c

omit [LinearOrder ν] [DecidableEq β] in
theorem card_le_of_lists {D : Data} {m c : Nat} (hv : ListsValues D m) (hc : c < m) {S : Finset Int}
    (hS : Stats.Spec.values D c ⊆ S) : (D.values c).length ≤ S.card := by
  rw [← List.toFinset_card_of_nodup (hv c hc).1]
  apply Finset.card_le_card
  intro v hvm
  exact hS (((hv c hc).2 v).1 (List.mem_toFinset.1 hvm))

/-- The degrees of freedom are bounded, whatever the sample. -/
theorem dof_bounded (kind : DofKind) {X Y : Nat} {Z : List Nat} (hX : X < nodes.length)
    (hY : Y < nodes.length) (hZ : ∀ z ∈ Z, z < nodes.length) :
    ∃ K : ℕ, ∀ D : Data, RowsPossible nodes D → ListsValues D nodes.length →
      Stats.Spec.dofOf D kind X Y Z ≤ K := by
  have hdof : ∃ K : ℕ, ∀ D : Data, RowsPossible nodes D → Stats.Spec.dof D X Y Z ≤ K := by
    refine ⟨max 1 ((combinationsOf nodes (Z.map (fun z : Nat => (z : Int)))).card *
      ((valuesOf nodes X).card * (valuesOf nodes Y).card)), fun D hD => ?_⟩
    unfold Stats.Spec.dof
    apply max_le_max le_rfl
    refine le_trans (Finset.sum_le_card_nsmul _ _ ((valuesOf nodes X).card * (valuesOf nodes Y).card) ?_) ?_
    · intro z _
      have hg : ∀ c, Stats.Spec.valuesGiven D c Z z ⊆ Stats.Spec.values D c := by
        intro c v hv
        obtain ⟨r, hr, rfl⟩ := Finset.mem_image.1 hv
        exact Finset.mem_image.2 ⟨r, (Finset.mem_filter.1 hr).1, rfl⟩
      have h1 := Finset.card_le_card ((hg X).trans (values_possible hD hX))
      have h2 := Finset.card_le_card ((hg Y).trans (values_possible hD hY))
      exact Nat.mul_le_mul (by omega) (by omega)
    · rw [smul_eq_mul]
      exact Nat.mul_le_mul_right _ (Finset.card_le_card (observed_possible hD hZ))
  obtain ⟨K, hK⟩ := hdof
  cases kind with
  | unadjusted =>
    refine ⟨max 1 ((valuesOf nodes X).card * (valuesOf nodes Y).card *
      (Z.map (fun z : Nat => (valuesOf nodes z).card)).prod), fun D hD hv => ?_⟩
    apply max_le_max le_rfl
    have h1 := card_le_of_lists hv hX (values_possible hD hX)
    have h2 := card_le_of_lists hv hY (values_possible hD hY)
    refine Nat.mul_le_mul (Nat.mul_le_mul (by omega) (by omega)) ?_
    apply List.prod_le_prod'
    intro z hz
    exact card_le_of_lists hv (hZ z hz) (values_possible hD (hZ z hz))
  | structural => exact ⟨K, fun D hD _ => hK D hD⟩
  | cached => exact ⟨K, fun D hD _ => hK D hD⟩

omit [LinearOrder ν] [DecidableEq β] in
theorem one_le_dofOf (D : Data) (kind : DofKind) (X Y : Nat) (Z : List Nat) :
    1 ≤ Stats.Spec.dofOf D kind X Y Z := by
  cases kind <;> exact le_max_left _ _

/-- A statistic that grows without bound exceeds any significance below one, whatever the (bounded)
degrees of freedom. -/
theorem eventually_significant {cdf : ℝ → Int → ℝ} {α : ℝ} (hα : α < 1)
    (hcdf : ∀ d : ℕ, 1 ≤ d → Tendsto (fun g => cdf g d) atTop (𝓝 1)) {g : ℕ → ℝ}
    (hg : Tendsto g atTop atTop) (K : ℕ) :
    ∀ᶠ n in atTop, ∀ d : ℕ, 1 ≤ d → d ≤ K → α ≤ cdf (g n) d := by
  have h1 : ∀ d ∈ Finset.Icc 1 K, ∀ᶠ n in atTop, α ≤ cdf (g n) d := by
    intro d hd
    have := (hcdf d (Finset.mem_Icc.1 hd).1).comp hg
    exact (this.eventually (lt_mem_nhds hα)).mono (fun n hn => le_of_lt hn)
  have h2 := (Filter.eventually_all_finset (Finset.Icc 1 K)).2 h1
  exact h2.mono (fun n hn d hd1 hd2 => hn d (Finset.mem_Icc.2 ⟨hd1, hd2⟩))

/-- One triple: if the network makes `X` and `Y` dependent given `Z`, the test says so from some
sample size on. -/
theorem eventually_dependent (h : WellFormed nodes) (hN : Normalised nodes) {D : ℕ → Data}
    (hrows : ∀ n, (D n).nrows = n) (hp : ∀ n, RowsPossible nodes (D n))
    (hv : ∀ n, ListsValues (D n) nodes.length)
    (hf : ∀ (cols : List Nat) (vals : List Int), (∀ c ∈ cols, c < nodes.length) →
      Tendsto (fun n => (Stats.Spec.freq (D n) cols vals : ℝ)) atTop
        (𝓝 ((prob nodes (fun a => (cols.map (fun c : Nat => (c : Int))).map
          (valueOfID nodes a) = vals) : ℚ) : ℝ)))
    {cfg : Config} (hc : cfg.criterion = none) (hα : cfg.significance < 1)
    (hcdf : ∀ d : ℕ, 1 ≤ d → Tendsto (fun g => cfg.cdf g d) atTop (𝓝 1))
    {X Y : Nat} {Z : List Nat} (hX : X < nodes.length) (hY : Y < nodes.length)
    (hZ : ∀ z ∈ Z, z < nodes.length)
    (hdep : ¬ NetIndependent nodes X Y (Z.map (fun z : Nat => (z : Int)))) :
    ∀ᶠ n in atTop, ∀ ans, Stats.Spec.IsAnswer (D n) cfg X Y Z ans → ans = .dependent := by
  have hcmi := cmi_of_frequencies h hN hp hf hX hY hZ
  have hpos : 0 < netCmi nodes X Y (Z.map (fun z : Nat => (z : Int))) :=
    lt_of_le_of_ne (netCmi_nonneg h hN _ _ _)
      (fun h0 => hdep ((netCmi_eq_zero_iff h hN _ _ _).1 h0.symm))
  have hG : Tendsto (fun n => Stats.Spec.G (D n) X Y Z) atTop atTop := by
    unfold Stats.Spec.G
    simp only [hrows]
    have h1 : Tendsto (fun n : ℕ => 2 * (n : ℝ)) atTop atTop :=
      (tendsto_natCast_atTop_atTop).const_mul_atTop (by norm_num)
    exact h1.atTop_mul_pos hpos hcmi
  obtain ⟨K, hK⟩ := dof_bounded (nodes := nodes) cfg.kind hX hY hZ
  filter_upwards [eventually_significant hα hcdf hG K, eventually_gt_atTop (5 * K)] with n h1 h2
  intro ans ha
  rw [ha.dependent]
  refine ⟨?_, ?_⟩
  · unfold Stats.Spec.Enough
    rw [hc, hrows]
    show 5 * Stats.Spec.dofOf (D n) cfg.kind X Y Z < n
    have := hK (D n) (hp n) (hv n)
    omega
  · exact h1 _ (one_le_dofOf _ _ _ _ _) (hK (D n) (hp n) (hv n))

omit [LinearOrder ν] [DecidableEq β] in
theorem finite_calls (m : ℕ) :
    {c : Nat × Nat × List Nat | (c.1 :: c.2.1 :: c.2.2).Nodup ∧ ∀ x ∈ c.1 :: c.2.1 :: c.2.2, x < m}.Finite := by
  have h1 : {l : List Nat | l.Nodup ∧ ∀ x ∈ l, x < m}.Finite := by
    apply ((List.finite_length_le (Fin m) m).image (List.map Fin.val)).subset
    rintro l ⟨hn, hl⟩
    refine ⟨l.pmap Fin.mk hl, ?_, ?_⟩
    · show (l.pmap Fin.mk hl).length ≤ m
      rw [List.length_pmap, ← List.toFinset_card_of_nodup hn, ← Finset.card_range m]
      apply Finset.card_le_card
      intro x hx
      exact Finset.mem_range.2 (hl x (List.mem_toFinset.1 hx))
    · rw [List.map_pmap]
      simp
  apply (h1.preimage (f := fun c : Nat × Nat × List Nat => c.1 :: c.2.1 :: c.2.2) ?_).subset
  · intro c hc; exact hc
  · rintro ⟨x, y, z⟩ - ⟨x', y', z'⟩ - he
    simp only [List.cons.injEq] at he
    obtain ⟨rfl, rfl, rfl⟩ := he
    rfl

omit [LinearOrder ν] [DecidableEq β] in
theorem AreAnswers.get {D : Data} {cfg : Config} {cs : List Stats.Spec.Call} {as : List MB.Answer}
    (h : Stats.Spec.AreAnswers D cfg cs as) {i : Nat} {c : Stats.Spec.Call} (hc : cs[i]? = some c) :
    ∃ a, as[i]? = some a ∧ Stats.Spec.IsAnswer D cfg c.1 c.2.1 c.2.2 a := by
  induction cs generalizing as i with
  | nil => simp at hc
  | cons d cs ih =>
    match as, h with
    | a :: as, h =>
      cases i with
      | zero =>
        simp only [List.getElem?_cons_zero, Option.some.injEq] at hc
        subst hc
        exact ⟨a, rfl, h.1⟩
      | succ i =>
        simp only [List.getElem?_cons_succ] at hc ⊢
        exact ih h.2 hc

/-- **C68.** The G-tests are consistent against dependence: with probability one, from some sample
size on, in every session of tests on the sampled data, every test of two variables that the network
makes dependent given the conditioning set answers "dependent". -/
theorem g_test_finds_dependence (nodes : List (Node ν β)) (h : WellFormed nodes)
    (hN : Normalised nodes) (net : Net ν β) (e : finalize { nodes := nodes } = .ok net)
    {Ω : Type} [MeasurableSpace Ω] (P : Measure Ω) [IsProbabilityMeasure P] (U : ℕ → Ω → ℝ)
    (hm : ∀ j, Measurable (U j)) (hind : iIndepFun U P)
    (hunif : ∀ j, P.map (U j) = volume.restrict (Set.Icc 0 1))
    (cfg : Config) (hc : cfg.criterion = none) (hα : cfg.significance < 1)
    (hcdf : ∀ d : ℕ, 1 ≤ d → Tendsto (fun g => cfg.cdf g d) atTop (𝓝 1)) :
    ∀ᵐ ω ∂P, ∃ R : ℕ → List (List Nat),
      (∀ n, sampleMatrix net n (fun j => U j ω) = .ok (R n) ∧ (R n).length = n) ∧
      ∀ D : ℕ → Data, (∀ n, HasRows (D n) (R n)) → (∀ n, ListsValues (D n) nodes.length) →
        ∃ N, ∀ n ≥ N, ∀ calls : List Stats.Spec.Call,
          (∀ c ∈ calls, (c.1 :: c.2.1 :: c.2.2).Nodup ∧ ∀ x ∈ c.1 :: c.2.1 :: c.2.2, x < nodes.length) →
          ∃ answers b, mapList (unoptCall (D n) cfg) calls {} = .ok (answers, b) ∧
            ∀ (i : Nat) (c : Stats.Spec.Call), calls[i]? = some c →
              ¬ NetIndependent nodes c.1 c.2.1 (c.2.2.map (fun z : Nat => (z : Int))) →
              answers[i]? = some .dependent := by
  filter_upwards [sample_matrix_frequencies nodes h hN net e P U hm hind hunif] with ω hω
  obtain ⟨R, hR, hall⟩ := hω
  refine ⟨R, hR, fun D hD hv => ?_⟩
  obtain ⟨hp, hf⟩ := hall D hD
  have hrows : ∀ n, (D n).nrows = n := fun n => by rw [(hD n).1, (hR n).2]
  have hev : ∀ᶠ n in atTop, ∀ c ∈ {c : Nat × Nat × List Nat | (c.1 :: c.2.1 :: c.2.2).Nodup ∧
      ∀ x ∈ c.1 :: c.2.1 :: c.2.2, x < nodes.length},
      ¬ NetIndependent nodes c.1 c.2.1 (c.2.2.map (fun z : Nat => (z : Int))) →
      ∀ ans, Stats.Spec.IsAnswer (D n) cfg c.1 c.2.1 c.2.2 ans → ans = .dependent := by
    rw [Filter.eventually_all_finite (finite_calls nodes.length)]
    rintro c ⟨-, hlt⟩
    by_cases hdep : NetIndependent nodes c.1 c.2.1 (c.2.2.map (fun z : Nat => (z : Int)))
    · exact Eventually.of_forall (fun n hn => absurd hdep hn)
    · exact (eventually_dependent h hN hrows hp hv hf hc hα hcdf (hlt _ (by simp)) (hlt _ (by simp))
        (fun z hz => hlt z (by simp [hz])) hdep).mono (fun n hn _ => hn)
  obtain ⟨N, hN'⟩ := eventually_atTop.1 hev
  refine ⟨max N 1, fun n hn calls hcalls => ?_⟩
  have hn1 : N ≤ n := le_trans (le_max_left _ _) hn
  have hn0 : n ≠ 0 := by
    have := le_trans (le_max_right N 1) hn
    omega
  have hvalid : ∀ c ∈ calls, ValidCall (D n) c := by
    intro c hcm
    obtain ⟨h1, h2⟩ := hcalls c hcm
    refine ⟨h1, fun x hx => ?_⟩
    have hmem : (D n).cell 0 x ∈ (D n).values x := by
      rw [(hv n x (h2 x hx)).2]
      exact Finset.mem_image.2 ⟨0, Finset.mem_range.2 (by rw [hrows]; omega), rfl⟩
    exact List.length_pos_of_mem hmem
  obtain ⟨answers, b, eq, hans, -⟩ := unoptimized_session (D n) cfg (by rw [hrows]; exact hn0) calls hvalid
  refine ⟨answers, b, eq, ?_⟩
  intro i c hi hdep
  obtain ⟨a, ha, hIs⟩ := AreAnswers.get hans hi
  rw [ha, hN' n hn1 c (hcalls c (List.mem_of_getElem? hi)) hdep a hIs]

/-- The chi-squared distribution function (a gamma distribution with shape `d/2` and rate `1/2`), the
one that `scipy.stats.chi2.cdf` computes, meets the hypothesis. -/
theorem chi2_meets (d : ℕ) (_hd : 1 ≤ d) :
    Tendsto (fun g => cdf (gammaMeasure (((d : ℤ) : ℝ) / 2) (1 / 2)) g) atTop (𝓝 1) :=
  tendsto_cdf_atTop _

end freq

/-! ## Examples -/

/-- The matrix with the given rows, the columns' values in increasing order.
(Specification.) -/
def matrixOf (ncols : Nat) (rows : List (List Nat)) : Data where
  nrows := rows.length
  ncols := ncols
  cell r c := (((rows.getD r []).getD c 0 : Nat) : Int)
  values c := ((Finset.range rows.length).image
    (fun r => (((rows.getD r []).getD c 0 : Nat) : Int))).sort (· ≤ ·)
  threshold := 0

theorem matrixOf_ok (ncols : Nat) (rows : List (List Nat)) :
    HasRows (matrixOf ncols rows) rows ∧ ListsValues (matrixOf ncols rows) ncols := by
  refine ⟨⟨rfl, fun r hr c hc => ?_⟩, fun c _ => ⟨?_, fun v => ?_⟩⟩
  · show (((rows.getD r []).getD c 0 : Nat) : Int) = _
    simp [hr, hc]
  · simp [matrixOf, Finset.sort_nodup]
  · simp only [matrixOf, Finset.mem_sort]
    rfl

theorem ex_dependent : ¬ NetIndependent exNodes 0 1 [] := by
  intro hi
  have := hi 0 0 []
  unfold jointXYZ at this
  simp only [prob_decidable] at this
  revert this
  decide +kernel

theorem mapList_length {σ α γ : Type} {f : α → PyM σ γ} {l : List α} {s s' : σ} {r : List γ}
    (h : mapList f l s = .ok (r, s')) : r.length = l.length := by
  induction l generalizing s r with
  | nil =>
    cases h
    rfl
  | cons a l ih =>
    change (f a s >>= fun p => (mapList f l p.2 >>= fun q => Except.ok (p.1 :: q.1, q.2))) = _ at h
    cases hf : f a s with
    | error x => rw [hf] at h; cases h
    | ok p =>
      rw [hf] at h
      change (mapList f l p.2 >>= fun q => Except.ok (p.1 :: q.1, q.2)) = _ at h
      cases hr : mapList f l p.2 with
      | error x => rw [hr] at h; cases h
      | ok q =>
        rw [hr] at h
        cases h
        simp [ih hr]

/-- The chi-squared test at significance 0.95, with structural degrees of freedom.
(Example.) -/
noncomputable def exConfig : Config where
  kind := .structural
  cdf g d := cdf (gammaMeasure ((d : ℝ) / 2) (1 / 2)) g
  significance := 0.95

/-- The example network with the chi-squared test at significance 0.95: from some sample size on, the
test of the variables 0 and 1 (and any other test of dependent variables) answers "dependent". -/
example : ∃ (P : Measure (ℕ → ℝ)) (net : Net Nat Nat), IsProbabilityMeasure P ∧
    finalize { nodes := exNodes } = .ok net ∧
    ∀ᵐ ω ∂P, ∃ R : ℕ → List (List Nat), (∀ n, sampleMatrix net n ω = .ok (R n)) ∧
      ∃ N, ∀ n ≥ N, ∃ b, mapList (unoptCall (matrixOf 3 (R n)) exConfig) [(0, 1, [])] {} =
        .ok ([.dependent], b) := by
  obtain ⟨P, hP, hm, hi, hu⟩ := uniform_source
  obtain ⟨net, e⟩ := exNodes_finalize
  refine ⟨P, net, hP, e, ?_⟩
  have h1 := g_test_finds_dependence exNodes exNodes_wf exNodes_normalised net e P (fun j ω => ω j)
    hm hi hu exConfig rfl (by unfold exConfig; norm_num) (fun d hd => chi2_meets d hd)
  filter_upwards [h1] with ω hω
  obtain ⟨R, hR, hall⟩ := hω
  obtain ⟨N, hN⟩ := hall (fun n => matrixOf 3 (R n)) (fun n => (matrixOf_ok 3 (R n)).1)
    (fun n => (matrixOf_ok 3 (R n)).2)
  refine ⟨R, fun n => (hR n).1, N, fun n hn => ?_⟩
  obtain ⟨answers, b, eq, hans⟩ := hN n hn [(0, 1, [])] (by
    intro c hc
    simp only [List.mem_singleton] at hc
    subst hc
    exact ⟨by decide, by decide⟩)
  have h0 := hans 0 (0, 1, []) rfl ex_dependent
  have hlen : answers.length = 1 := mapList_length eq
  refine ⟨b, ?_⟩
  rw [eq]
  match answers, h0, hlen with
  | [a], h0, _ =>
    simp only [List.getElem?_cons_zero, Option.some.injEq] at h0
    rw [h0]

/-- The conditional mutual information of the samples of the example network. -/
example : ∃ (P : Measure (ℕ → ℝ)) (net : Net Nat Nat), IsProbabilityMeasure P ∧
    finalize { nodes := exNodes } = .ok net ∧
    ∀ᵐ ω ∂P, ∃ R : ℕ → List (List Nat), (∀ n, sampleMatrix net n ω = .ok (R n)) ∧
      ∃ v : ℕ → ℝ, (∀ n, n ≠ 0 → cmiCompute (matrixOf 3 (R n)) 0 2 [1] = .ok (v n)) ∧
        Tendsto v atTop (𝓝 (netCmi exNodes 0 2 [1])) := by
  obtain ⟨P, hP, hm, hi, hu⟩ := uniform_source
  obtain ⟨net, e⟩ := exNodes_finalize
  refine ⟨P, net, hP, e, ?_⟩
  filter_upwards [sampled_cmi_converges exNodes exNodes_wf exNodes_normalised net e P (fun j ω => ω j)
    hm hi hu] with ω hω
  obtain ⟨R, hR, hall⟩ := hω
  exact ⟨R, fun n => (hR n).1, hall (fun n => matrixOf 3 (R n)) (fun n => (matrixOf_ok 3 (R n)).1) 0 2 [1]
    (by decide) (by decide) (by decide) (by decide)⟩

end Mbtk.BN
