import Verif.Stats.Unopt
import Verif.ADTree.Session
/-!
# The G-test with an AD-tree meets its specification
-/
namespace Mbtk.Stats
open Mbtk.ADTree (Data ADNode Counters TreeOk makePmf)
open Mbtk.ADTree.Spec (rowsWith Usable IsFrequencyTable Request)
open Mbtk.MB (Answer)
open Spec Real

/-! ## Keys in the order of the sorted columns -/

theorem idxOf_castIds (cols : List Nat) (c : Nat) :
    (castIds cols).idxOf (c : Int) = cols.idxOf c := by
  unfold castIds
  induction cols with
  | nil => rfl
  | cons a l ih => simp [List.idxOf_cons, ih, Bool.beq_eq_decide_eq]

theorem getElem?_reorder {cols W : List Nat} (v : List Int) {c : Nat} (hc : c ∈ W) :
    (reorder cols W v)[W.idxOf c]? = some ((v[cols.idxOf c]?).getD 0) := by
  unfold reorder
  have hi := List.idxOf_lt_length_of_mem hc
  rw [List.getElem?_map, List.getElem?_eq_getElem hi]
  simp

theorem map_valueOf_reorder {cols W A : List Nat} (v : List Int) (hA : ∀ c ∈ A, c ∈ W) :
    (castIds A).map (valueOf (castIds W) (reorder cols W v)) = reorder cols A v := by
  unfold castIds reorder
  rw [List.map_map]
  apply List.map_congr_left
  intro c hc
  show valueOf (castIds W) (reorder cols W v) (c : Int) = _
  unfold valueOf
  rw [idxOf_castIds, getElem?_reorder v (hA c hc)]
  rfl

theorem reorder_self {cols : List Nat} (hn : cols.Nodup) {v : List Int}
    (hv : v.length = cols.length) : reorder cols cols v = v := by
  unfold reorder
  apply List.ext_getElem (by simp [hv])
  intro i h1 h2
  rw [List.getElem_map, hn.idxOf_getElem i (by simpa using h1), List.getElem?_eq_getElem h2]
  rfl

theorem reorder_append (cols A B : List Nat) (v : List Int) :
    reorder cols (A ++ B) v = reorder cols A v ++ reorder cols B v := by
  simp [reorder]

theorem reorder_length (cols W : List Nat) (v : List Int) : (reorder cols W v).length = W.length := by
  simp [reorder]

/-- Frequencies do not depend on the order of the columns. -/
theorem freq_reorder' (D : Data) {cols W : List Nat} (hn : cols.Nodup)
    (h : ∀ c, c ∈ cols ↔ c ∈ W) {v : List Int} (hv : v.length = cols.length) :
    freq D W (reorder cols W v) = freq D cols v := by
  apply freq_congr
  intro r _
  constructor
  · intro e
    have : cols.map (D.cell r) = reorder cols cols v := by
      unfold reorder
      apply List.map_congr_left
      intro c hc
      unfold reorder at e
      exact List.map_inj_left.1 e c ((h c).1 hc)
    rw [this, reorder_self hn hv]
  · rintro rfl
    exact (reorder_row D (fun c hc => (h c).2 hc) r).symm

/-- `make_cpmf_PrXYcZ` and `make_cpmf_PrXcZ`: conditioning a joint table whose columns come in
another order. -/
theorem conditionLoop_pmf {D : Data} {A Z W : List Nat} (hn : (A ++ Z).Nodup)
    (hWn : W.Nodup) (hW : ∀ c, c ∈ A ++ Z ↔ c ∈ W) (hlen2 : 2 ≤ W.length)
    {joint cond : PMF} (hj : Tabulates joint.probabilities mkKey W.length (freq D W))
    (hc : Tabulates cond.probabilities mkKey Z.length (freq D Z))
    (restKey : Key → Except Err Key) (e : List Int → Key)
    (he : ∀ l l', l.length = A.length → l'.length = A.length → e l = e l' → l = l')
    (hrest : ∀ l, l.length = W.length →
      restKey (.tup l) = .ok (e ((castIds A).map (valueOf (castIds W) l)))) :
    ∃ r, conditionLoop (condKeyOf (castIds W) (castIds Z)) restKey cond [] joint.probabilities =
        .ok r ∧ ∀ z, z.length = Z.length →
      Tabulates (CPMF.given r [(mkKey z).toVal]).probabilities e A.length
        (fun a => freq D (A ++ Z) (a ++ z) / freq D Z z) := by
  have hWids := castIds_nodup hWn
  have hAW : ∀ c ∈ A, c ∈ W := fun c hc => (hW c).1 (List.mem_append_left _ hc)
  have hZW : ∀ c ∈ Z, c ∈ W := fun c hc => (hW c).1 (List.mem_append_right _ hc)
  have htup : ∀ p ∈ joint.probabilities, p.1 = .tup p.1.comps ∧ p.1.comps.length = W.length := by
    intro p hp
    obtain ⟨l, hl, e1⟩ := hj.shape p.1 (List.mem_map.2 ⟨p, hp, rfl⟩)
    rw [mkKey_of_ne (by omega)] at e1
    rw [e1]
    exact ⟨rfl, hl⟩
  have hdet : ∀ l l' : List Int, l.length = W.length → l'.length = W.length →
      (castIds Z).map (valueOf (castIds W) l) = (castIds Z).map (valueOf (castIds W) l') →
      (castIds A).map (valueOf (castIds W) l) = (castIds A).map (valueOf (castIds W) l') →
      l = l' := by
    intro l l' hl hl' h1 h2
    refine ext_valueOf hWids (by rw [hl, castIds_length]) (by rw [hl', castIds_length]) ?_
    intro v hv
    obtain ⟨c, hcW, rfl⟩ := List.mem_map.1 hv
    rcases List.mem_append.1 ((hW c).2 hcW) with h | h
    · exact List.map_inj_left.1 h2 _ (mem_castIds.2 h)
    · exact List.map_inj_left.1 h1 _ (mem_castIds.2 h)
  have hAl : ∀ l : List Int, ((castIds A).map (valueOf (castIds W) l)).length = A.length := by
    intro l; simp [castIds]
  obtain ⟨r, e1, w, k1, v1, v2⟩ := conditionLoop_ok (condKeyOf (castIds W) (castIds Z)) restKey
    (fun k => mkKey ((castIds Z).map (valueOf (castIds W) k.comps)))
    (fun k => e ((castIds A).map (valueOf (castIds W) k.comps)))
    cond joint.probabilities (fun rk => ∃ xs, rk = e xs ∧ xs.length = A.length) hj.nodup
    (fun p hp => by
      obtain ⟨h1, h2⟩ := htup p hp
      rw [h1]
      exact condKeyOf_ok _ _ _ (by rw [castIds_length]; exact h2) (fun v hv => by
        obtain ⟨c, hcZ, rfl⟩ := List.mem_map.1 hv
        exact mem_castIds.2 (hZW c hcZ)))
    (fun p hp => by
      obtain ⟨h1, h2⟩ := htup p hp
      rw [h1]
      exact hrest _ h2)
    (fun p hp q hq h1 h2 => by
      obtain ⟨a1, a2⟩ := htup p hp
      obtain ⟨b1, b2⟩ := htup q hq
      rw [a1, b1, hdet _ _ a2 b2 (mkKey_inj h1) (he _ _ (hAl _) (hAl _) h2)])
    (fun p hp => ⟨_, rfl, hAl _⟩) [] ⟨by simp, by simp [dictGet, PMF.empty],
      by simp [dictGet, PMF.empty]⟩
  refine ⟨r, e1, fun z hz => ?_⟩
  have hgiven : CPMF.given r [(mkKey z).toVal] = (dictGet r (mkKey z)).getD PMF.empty := by
    rw [CPMF.given_key, mkKey_comps]
  rw [hgiven]
  refine ⟨w.inner _, ?_, ?_⟩
  · intro k hk
    obtain ⟨xs, h1, h2⟩ := w.shape _ k hk
    exact ⟨xs, h2, h1⟩
  · intro a ha
    have hv : (a ++ z).length = (A ++ Z).length := by simp [ha, hz]
    set l := reorder (A ++ Z) W (a ++ z) with hl
    have hll : l.length = W.length := reorder_length _ _ _
    have hself := reorder_self hn hv
    rw [reorder_append] at hself
    obtain ⟨ea, ez⟩ := List.append_inj hself (by rw [reorder_length, ha])
    have hA1 : (castIds A).map (valueOf (castIds W) l) = a := by
      rw [hl, map_valueOf_reorder _ hAW, ea]
    have hZ1 : (castIds Z).map (valueOf (castIds W) l) = z := by
      rw [hl, map_valueOf_reorder _ hZW, ez]
    have hfr : dictVal joint.probabilities (.tup l) = freq D (A ++ Z) (a ++ z) := by
      rw [← freq_reorder' D hn hW hv, ← hj.value l hll, mkKey_of_ne (by omega)]
    have hpc : cond.p [(mkKey z).toVal] = freq D Z z := by
      rw [PMF.p_key, mkKey_comps, hc.value z hz]
    have base : val2 ([] : CPMF) (mkKey z) (e a) = 0 := by
      simp [val2, dictGet, PMF.empty, dictVal]
    show val2 r (mkKey z) (e a) = _
    by_cases hm : .tup l ∈ joint.probabilities.map Prod.fst
    · obtain ⟨⟨k, v⟩, hp, e2⟩ := List.mem_map.1 hm
      simp only at e2
      subst e2
      rw [dictVal_of_mem hj.nodup hp] at hfr
      by_cases h0 : freq D Z z = 0
      · rw [v2, base, h0, div_zero]
        intro p hp h1 h2
        rw [hpc]; exact h0
      · have := v1 _ hp
        simp only [Key.comps, hA1, hZ1, hpc] at this
        rw [this h0, hfr]
    · rw [dictVal_of_not_mem hm] at hfr
      rw [← hfr, zero_div, v2, base]
      intro p hp h1 h2
      obtain ⟨a1, a2⟩ := htup p hp
      exfalso
      have h1' := mkKey_inj h1
      have h2' := he _ _ (hAl _) (by rw [ha]) h2
      have := hdet _ _ a2 hll (h1'.trans hZ1.symm) (h2'.trans hA1.symm)
      rw [this] at a1
      exact hm (List.mem_map.2 ⟨p, hp, a1⟩)

/-! ## Tables from the AD-tree -/

/-- What stays true of a test object with an AD-tree.
(Models no code: a notion for statements and proofs.) -/
def AdOk (D : Data) (dyn : Bool) (s : AdState) : Prop :=
  CacheOk D s.base.cache ∧ TreeOk D dyn s.root s.counters

/-- The log is not touched. (Models no code: a notion for statements and proofs.) -/
def SameLog (s s' : AdState) : Prop :=
  s'.base.counter = s.base.counter ∧ s'.base.results = s.base.results

theorem SameLog.rfl {s : AdState} : SameLog s s := ⟨_root_.rfl, _root_.rfl⟩
theorem SameLog.trans {s s' s'' : AdState} (h : SameLog s s') (h' : SameLog s' s'') :
    SameLog s s'' := ⟨h'.1.trans h.1, h'.2.trans h.2⟩

/-- Columns a test with an AD-tree accepts: existing, with `-1` not among the declared
values (the AD-tree uses it as a wildcard).
(Models no code: a notion for statements and proofs.) -/
def AdCols (D : Data) (cols : List Nat) : Prop :=
  ∀ c ∈ cols, c < D.ncols ∧ (-1 : Int) ∉ D.values c

theorem adPmf_ok {D : Data} {dyn : Bool} (hD : Usable D) {cols : List Nat} (hne : cols ≠ [])
    (hn : cols.Nodup) (hcols : AdCols D cols) {s : AdState} (hs : AdOk D dyn s) :
    Ok (adPmf D dyn cols) s (fun pmf s' =>
      Tabulates pmf.probabilities mkKey cols.mergeSort.length (freq D cols.mergeSort) ∧
      pmf.jointIDs = some (castIds cols.mergeSort) ∧
      AdOk D dyn s' ∧ s'.base = s.base) := by
  obtain ⟨⟨d, root'⟩, c', e, hf, hk⟩ := Mbtk.ADTree.makePmf_ok (dyn := dyn) hD
    (cols := cols) ⟨hne, hn, fun c hc => (hcols c hc).1, fun c hc => (hcols c hc).2⟩
    hs.2.1 hs.2.2.1 hs.2.2.2.1 s.counters
  refine ⟨⟨d.map (fun p => (mkKey p.1, p.2)), [],
      some (cols.mergeSort.map (fun c : Nat => (c : Int)))⟩,
    { s with root := root', counters := c' }, ?_, ?_⟩
  · unfold adPmf
    rw [e]
  · refine ⟨⟨?_, ?_, ?_⟩, rfl, ⟨hs.1, Mbtk.ADTree.Keeps.treeOk hs.2 hk⟩, rfl⟩
    · have : (d.map (fun p => (mkKey p.1, p.2))).map Prod.fst = (d.map Prod.fst).map mkKey := by
        simp [List.map_map, Function.comp_def]
      simp only
      rw [this]
      exact hf.keys_nodup.map (fun a b h => mkKey_inj h)
    · intro k hk'
      simp only [List.map_map, List.mem_map, Function.comp] at hk'
      obtain ⟨p, hp, rfl⟩ := hk'
      exact ⟨p.1, hf.key_length p hp, rfl⟩
    · intro l hl
      have h1 : ∀ d : List (List Int × ℚ), dictVal (d.map (fun p => (mkKey p.1, p.2))) (mkKey l) =
          (dictGet d l).getD 0 := by
        intro d
        unfold dictVal
        induction d with
        | nil => rfl
        | cons p d ih =>
          by_cases h : p.1 = l
          · simp [dictGet, h]
          · have : mkKey p.1 ≠ mkKey l := fun h' => h (mkKey_inj h')
            simpa [dictGet, h, this] using ih
      simp only
      rw [h1, hf.freq l hl]
      rfl

theorem adContext_ok {D : Data} {dyn : Bool} (kind : DofKind) {pmf : PMF} (hp : Cacheable D pmf)
    {s : AdState} (hs : AdOk D dyn s) :
    Ok (adContext kind pmf) s (fun pmf' s' => (pmf' = pmf ∨ pmf' = pmf.removeZeros) ∧
      AdOk D dyn s' ∧ SameLog s s' ∧
      (∀ S, (dictGet s.base.cache S).isSome → (dictGet s'.base.cache S).isSome) ∧
      (kind = .cached → ∀ vars, pmf.jointIDs = some vars → 2 ≤ vars.length →
        (dictGet s'.base.cache vars.toFinset).isSome)) := by
  obtain ⟨a1, a2, a3, a4, _⟩ := contextPmf_ok kind hs.1 hp
  exact ⟨_, _, rfl, a4, ⟨a1, hs.2⟩, ⟨rfl, rfl⟩, a2, a3⟩

theorem tab_or {pmf pmf' : PMF} {e : List Int → Key} {n : Nat} {P : List Int → ℚ}
    (h : Tabulates pmf.probabilities e n P) (hor : pmf' = pmf ∨ pmf' = pmf.removeZeros) :
    Tabulates pmf'.probabilities e n P := by
  rcases hor with rfl | rfl
  · exact h
  · exact h.filter

theorem mergeSort_nodup {cols : List Nat} (h : cols.Nodup) : cols.mergeSort.Nodup :=
  (List.mergeSort_perm cols _).nodup_iff.2 h

theorem mem_mergeSort' (cols : List Nat) (c : Nat) : c ∈ cols ↔ c ∈ cols.mergeSort :=
  (List.mergeSort_perm cols _).mem_iff.symm

theorem mergeSort_idem (cols : List Nat) : cols.mergeSort.mergeSort = cols.mergeSort :=
  List.mergeSort_of_pairwise (List.pairwise_mergeSort (by simp; omega) (by simp; omega) cols)

theorem AdCols.sort {D : Data} {cols : List Nat} (h : AdCols D cols) : AdCols D cols.mergeSort :=
  fun c hc => h c ((mem_mergeSort' cols c).2 hc)

theorem filter_not_mem {A Z : List Nat} (h : (A ++ Z).Nodup) :
    (A ++ Z).filter (fun v => v ∉ Z) = A := by
  rw [List.filter_append]
  have h1 : A.filter (fun v => decide (v ∉ Z)) = A := by
    rw [List.filter_eq_self]
    intro c hc
    simpa using fun hz => (List.disjoint_of_nodup_append h) hc hz
  have h2 : Z.filter (fun v => decide (v ∉ Z)) = [] := by
    rw [List.filter_eq_nil_iff]
    intro c hc; simpa using hc
  rw [h1, h2, List.append_nil]

/-- Scalar keys. (Models no code: a notion for statements and proofs.) -/
def scalarKey (l : List Int) : Key := .one (l.headD 0)

/-- One conditional table built from the AD-tree. -/
theorem adCond_ok {D : Data} {dyn : Bool} (hD : Usable D) {A Z : List Nat}
    (hn : (A ++ Z).Nodup) (hA : A ≠ []) (hZ : Z ≠ []) (hcols : AdCols D (A ++ Z)) {prZ : PMF}
    (hc : Tabulates prZ.probabilities mkKey Z.length (freq D Z))
    (restKey : List Int → List Int → Key → Except Err Key) (e : List Int → Key)
    (he : ∀ l l', l.length = A.length → l'.length = A.length → e l = e l' → l = l')
    (hrest : ∀ (ids : List Int) l, l.length = ids.length → (∀ v ∈ castIds A, v ∈ ids) →
      restKey ids (castIds A) (.tup l) = .ok (e ((castIds A).map (valueOf ids l))))
    {s : AdState} (hs : AdOk D dyn s) :
    Ok (do
      let joint := (A ++ Z).mergeSort
      let pr ← adPmf D dyn joint
      let c ← liftM (conditionLoop (condKeyOf (castIds joint) (castIds Z))
        (restKey (castIds joint) (castIds ((A ++ Z).filter (fun v => v ∉ Z)))) prZ []
        pr.probabilities)
      pure (c, pr) : PyM AdState (CPMF × PMF)) s (fun p s' =>
      (∀ z, z.length = Z.length →
        Tabulates (CPMF.given p.1 [(mkKey z).toVal]).probabilities e A.length
          (fun a => freq D (A ++ Z) (a ++ z) / freq D Z z)) ∧
      Tabulates p.2.probabilities mkKey (A ++ Z).mergeSort.length (freq D (A ++ Z).mergeSort) ∧
      p.2.jointIDs = some (castIds (A ++ Z).mergeSort) ∧ AdOk D dyn s' ∧ s'.base = s.base) := by
  have hlen : (A ++ Z).mergeSort.length = (A ++ Z).length :=
    (List.mergeSort_perm (A ++ Z) _).length_eq
  have hlen2 : 2 ≤ (A ++ Z).length := by
    cases A <;> cases Z <;> simp_all; omega
  have hne : (A ++ Z).mergeSort ≠ [] := by
    intro h0; rw [h0] at hlen; simp only [List.length_nil] at hlen; omega
  dsimp only
  refine Ok.bind ((adPmf_ok hD hne (mergeSort_nodup hn) hcols.sort hs).mono ?_)
  rintro pr s1 ⟨h1, h2, h3, h4⟩
  rw [mergeSort_idem] at h1 h2
  rw [filter_not_mem hn]
  obtain ⟨r, e1, h5⟩ := conditionLoop_pmf hn (mergeSort_nodup hn) (mem_mergeSort' _)
    (by omega) h1 hc (restKey (castIds (A ++ Z).mergeSort) (castIds A)) e he
    (fun l hl => hrest _ l (by rw [castIds_length, hl]) (fun v hv => by
      obtain ⟨c, hcA, rfl⟩ := List.mem_map.1 hv
      exact mem_castIds.2 ((mem_mergeSort' _ c).1 (List.mem_append_left _ hcA))))
  exact Ok.bind (Ok.lift e1 (Ok.ret ⟨h5, h1, h2, h3, h4⟩))

theorem adCpmfXY_ok {D : Data} {dyn : Bool} (hD : Usable D) {X Y : Nat} {Z : List Nat}
    (hn : (X :: Y :: Z).Nodup) (hZ : Z ≠ []) (hcols : AdCols D (X :: Y :: Z)) {prZ : PMF}
    (hc : Tabulates prZ.probabilities mkKey Z.length (freq D Z)) {s : AdState}
    (hs : AdOk D dyn s) :
    Ok (adCpmfXY D dyn X Y Z prZ) s (fun p s' =>
      (∀ z, z.length = Z.length →
        Tabulates (CPMF.given p.1 [(mkKey z).toVal]).probabilities .tup 2
          (fun a => freq D (X :: Y :: Z) (a ++ z) / freq D Z z)) ∧
      Tabulates p.2.probabilities mkKey (X :: Y :: Z).mergeSort.length
        (freq D (X :: Y :: Z).mergeSort) ∧
      p.2.jointIDs = some (castIds (X :: Y :: Z).mergeSort) ∧ AdOk D dyn s' ∧
      s'.base = s.base) :=
  adCond_ok hD (A := [X, Y]) hn (by simp) hZ hcols hc restKeyOf .tup
    (fun l l' _ _ h => by injection h)
    (fun ids l hl hv => restKeyOf_ok ids l _ hl hv) hs

theorem scalarKeyOf_ok (ids l : List Int) (X : Nat) (hl : l.length = ids.length)
    (hv : ∀ v ∈ castIds [X], v ∈ ids) :
    scalarKeyOf ids (castIds [X]) (.tup l) = .ok (scalarKey ((castIds [X]).map (valueOf ids l))) := by
  unfold scalarKeyOf
  rw [pick_ok ids l _ hl hv]
  rfl

theorem adCpmfX_ok {D : Data} {dyn : Bool} (hD : Usable D) {X : Nat} {Z : List Nat}
    (hn : (X :: Z).Nodup) (hZ : Z ≠ []) (hcols : AdCols D (X :: Z)) {prZ : PMF}
    (hc : Tabulates prZ.probabilities mkKey Z.length (freq D Z)) {s : AdState}
    (hs : AdOk D dyn s) :
    Ok (adCpmfX D dyn X Z prZ) s (fun p s' =>
      (∀ z, z.length = Z.length →
        Tabulates (CPMF.given p.1 [(mkKey z).toVal]).probabilities mkKey 1
          (fun a => freq D (X :: Z) (a ++ z) / freq D Z z)) ∧
      Tabulates p.2.probabilities mkKey (X :: Z).mergeSort.length (freq D (X :: Z).mergeSort) ∧
      p.2.jointIDs = some (castIds (X :: Z).mergeSort) ∧ AdOk D dyn s' ∧ s'.base = s.base) := by
  refine (adCond_ok hD (A := [X]) hn (by simp) hZ hcols hc scalarKeyOf scalarKey
    (fun l l' h h' e => by
      rw [length_one h, length_one h']
      unfold scalarKey at e
      injection e with e
      rw [e])
    (fun ids l hl hv => scalarKeyOf_ok ids l X hl hv) hs).mono ?_
  rintro ⟨c, p⟩ s' ⟨h1, h2⟩
  refine ⟨fun z hz => ?_, h2⟩
  obtain ⟨n1, n2, n3⟩ := h1 z hz
  have hkey : ∀ l : List Int, l.length = 1 → mkKey l = scalarKey l := by
    intro l hl; rw [length_one hl]; rfl
  refine ⟨n1, ?_, ?_⟩
  · intro k hk
    obtain ⟨l, hl, e⟩ := n2 k hk
    exact ⟨l, hl, by rw [e, hkey l hl]⟩
  · intro l hl
    rw [hkey l hl]
    exact n3 l hl

/-! ## Reversed keys -/

theorem reverseAll_ok (items acc : List (Key × ℚ)) (h : ∀ p ∈ items, p.1 = .tup p.1.comps)
    (hn : (acc.map Prod.fst ++ items.map (fun p => Key.tup p.1.comps.reverse)).Nodup) :
    reverseAll acc items = .ok (acc ++ items.map (fun p => (.tup p.1.comps.reverse, p.2))) := by
  induction items generalizing acc with
  | nil => simp [reverseAll]
  | cons p items ih =>
    obtain ⟨k, v⟩ := p
    have hk := h (k, v) (by simp)
    simp only at hk
    rw [hk]
    simp only [reverseAll, reverseKey]
    show reverseAll (dictSet acc (.tup k.comps.reverse) v) items = _
    have hnot : Key.tup k.comps.reverse ∉ acc.map Prod.fst := by
      intro hm
      exact (List.disjoint_of_nodup_append hn) hm (by simp)
    have hset : dictSet acc (.tup k.comps.reverse) v = acc ++ [(.tup k.comps.reverse, v)] := by
      clear * - hnot
      induction acc with
      | nil => rfl
      | cons q acc ih =>
        simp only [List.map_cons, List.mem_cons, not_or] at hnot
        obtain ⟨k', v'⟩ := q
        simp only [dictSet]
        rw [if_neg (fun h => hnot.1 h.symm), ih hnot.2]
        rfl
    rw [hset, ih _ (fun p hp => h p (List.mem_cons_of_mem _ hp)) (by simpa using hn)]
    simp [Key.comps]

theorem reversed_ok {D : Data} {X Y : Nat} {d : List (Key × ℚ)}
    (h : Tabulates d mkKey 2 (freq D [Y, X])) :
    ∃ d', reverseAll [] d = .ok d' ∧ Tabulates d' mkKey 2 (freq D [X, Y]) := by
  have htup : ∀ p ∈ d, p.1 = .tup p.1.comps ∧ p.1.comps.length = 2 := by
    intro p hp
    obtain ⟨l, hl, e⟩ := h.shape p.1 (List.mem_map.2 ⟨p, hp, rfl⟩)
    rw [mkKey_of_ne (by omega)] at e
    rw [e]
    exact ⟨rfl, hl⟩
  have hfst : (d.map (fun p => (Key.tup p.1.comps.reverse, p.2))).map Prod.fst =
      (d.map Prod.fst).map (fun k => Key.tup k.comps.reverse) := by
    simp [List.map_map, Function.comp_def]
  have hnd : ((d.map Prod.fst).map (fun k => Key.tup k.comps.reverse)).Nodup := by
    apply List.Nodup.map_on _ h.nodup
    intro a ha b hb hab
    obtain ⟨p, hp, rfl⟩ := List.mem_map.1 ha
    obtain ⟨q, hq, rfl⟩ := List.mem_map.1 hb
    rw [(htup p hp).1, (htup q hq).1]
    injection hab with hab
    rw [List.reverse_injective hab]
  refine ⟨_, reverseAll_ok d [] (fun p hp => (htup p hp).1) ?_, ?_, ?_, ?_⟩
  · simpa [List.map_map, Function.comp_def] using hnd
  · simp only [List.nil_append]
    rw [hfst]; exact hnd
  · intro k hk
    simp only [List.nil_append] at hk
    rw [hfst] at hk
    obtain ⟨k', hk', rfl⟩ := List.mem_map.1 hk
    obtain ⟨p, hp, rfl⟩ := List.mem_map.1 hk'
    refine ⟨p.1.comps.reverse, by rw [List.length_reverse]; exact (htup p hp).2, ?_⟩
    rw [mkKey_of_ne (by rw [List.length_reverse, (htup p hp).2]; omega)]
  · intro l hl
    simp only [List.nil_append]
    rw [mkKey_of_ne (by omega)]
    have hval : dictVal (d.map (fun p => (Key.tup p.1.comps.reverse, p.2))) (.tup l) =
        dictVal d (.tup l.reverse) := by
      clear hfst hnd h
      unfold dictVal
      induction d with
      | nil => rfl
      | cons p d ih =>
        have ih := ih (fun p hp => htup p (List.mem_cons_of_mem _ hp))
        have h1 := (htup p (by simp)).1
        by_cases hp : p.1 = .tup l.reverse
        · have : Key.tup p.1.comps.reverse = .tup l := by rw [hp]; simp [Key.comps]
          simp [dictGet, hp, Key.comps]
        · have : Key.tup p.1.comps.reverse ≠ .tup l := by
            intro h'
            injection h' with h'
            apply hp
            rw [h1, ← h', List.reverse_reverse]
          simpa [dictGet, hp, this] using ih
    rw [hval]
    match l, hl with
    | [x, y], _ =>
      have := h.value [y, x] rfl
      simp only [List.reverse_cons, List.reverse_nil, List.nil_append, List.cons_append]
      rw [show Key.tup [y, x] = mkKey [y, x] from rfl, this]
      exact freq_swap D Y X [] y x []

/-- A reversed two-column table is fine for the calculator: it gives the same degrees of
freedom. -/
theorem cacheable_reversed {D : Data} {X Y : Nat} (hXY : X ≠ Y) {pmf : PMF}
    (h : Tabulates pmf.probabilities mkKey 2 (freq D [X, Y]))
    (hj : pmf.jointIDs = some (castIds [Y, X])) : Cacheable D pmf := by
  intro vars hv _
  rw [hj] at hv
  have hv : castIds [Y, X] = vars := by simpa using hv
  subst hv
  refine ⟨[Y, X], by simp [hXY.symm], rfl, fun ix iy hx hy hne => ?_⟩
  have := pairwise_ok D [X, Y] _ (keys_removeZeros (cols := [X, Y]) h (by simp)) hx hy hne
  rw [show [Y, X].length = [X, Y].length from rfl, this]
  have o : ∀ a b : Nat, others [a, b] ix iy = [] := by
    intro a b
    unfold others otherPositions
    simp only [List.length_cons, List.length_nil] at hx hy ⊢
    have : (List.range (0 + 1 + 1)).filter (fun i => i ≠ ix ∧ i ≠ iy) = [] := by
      rw [List.filter_eq_nil_iff]
      intro i hi
      simp only [List.mem_range] at hi
      simp only [decide_eq_true_eq]
      omega
    rw [this]; rfl
  rw [o, o]
  simp only [List.length_cons, List.length_nil] at hx hy
  have h1 : ix = 0 ∧ iy = 1 ∨ ix = 1 ∧ iy = 0 := by omega
  rcases h1 with ⟨rfl, rfl⟩ | ⟨rfl, rfl⟩ <;> simp [dof_symm D X Y []]

/-! ## The tables of a test -/

theorem isSome_sort {cache : DofCache} {cols : List Nat}
    (h : (dictGet cache (castIds cols.mergeSort).toFinset).isSome) :
    (dictGet cache (castIds cols).toFinset).isSome := by
  have : (castIds cols.mergeSort).toFinset = (castIds cols).toFinset := by
    ext v
    simp only [List.mem_toFinset, castIds, List.mem_map]
    constructor <;> rintro ⟨c, hc, rfl⟩
    · exact ⟨c, (mem_mergeSort' cols c).2 hc, rfl⟩
    · exact ⟨c, (mem_mergeSort' cols c).1 hc, rfl⟩
  rwa [this] at h

theorem mergeSort_pair (X Y : Nat) : [X, Y].mergeSort = if X ≤ Y then [X, Y] else [Y, X] := by
  by_cases h : X ≤ Y
  · rw [if_pos h]
    exact List.mergeSort_of_pairwise (by simpa using h)
  · rw [if_neg h]
    have hp : ([X, Y].mergeSort).Perm [Y, X] :=
      (List.mergeSort_perm [X, Y] _).trans (List.Perm.swap _ _ _)
    have hs := List.pairwise_mergeSort (le := fun a b : Nat => decide (a ≤ b)) (by simp; omega)
      (by simp; omega) [X, Y]
    refine List.Perm.eq_of_pairwise (le := fun a b => a ≤ b) (fun a b _ _ h1 h2 => by omega) ?_ ?_ hp
    · exact hs.imp (by simp)
    · simp; omega

theorem adTables_nil_ok {D : Data} {dyn : Bool} (hD : Usable D) {X Y : Nat}
    (hXY : X ≠ Y) (hcols : AdCols D [X, Y]) (kind : DofKind) {s : AdState} (hs : AdOk D dyn s) :
    Ok (adTables D dyn kind X Y []) s (fun t s' => GoodTables D X Y [] t ∧ AdOk D dyn s' ∧
      SameLog s s' ∧
      (kind = .cached → (dictGet s'.base.cache (castIds [X, Y]).toFinset).isSome)) := by
  have hr : D.nrows ≠ 0 := by have := hD.rows_pos; omega
  have hn : [X, Y].Nodup := by simp [hXY]
  unfold adTables
  rw [if_pos rfl]
  have hne : [X, Y].mergeSort ≠ [] := by
    intro h0
    have := (List.mergeSort_perm [X, Y] (fun a b => decide (a ≤ b))).length_eq
    rw [h0] at this; simp at this
  refine Ok.bind ((adPmf_ok hD hne (mergeSort_nodup hn) hcols.sort hs).mono ?_)
  rintro pXY s1 ⟨p1, p2, p3, p4⟩
  rw [mergeSort_idem] at p1 p2
  have hlen : [X, Y].mergeSort.length = 2 := (List.mergeSort_perm [X, Y] _).length_eq
  rw [hlen] at p1
  -- the table of X and Y, in this order
  have hstep : Ok (adOrder X Y pXY) s1 (fun p s' => s' = s1 ∧
        Tabulates p.probabilities mkKey 2 (freq D [X, Y]) ∧ Cacheable D p ∧
        p.jointIDs = some (castIds [X, Y].mergeSort)) := by
    unfold adOrder
    by_cases hle : X ≤ Y
    · have e : [X, Y].mergeSort = [X, Y] := by rw [mergeSort_pair, if_pos hle]
      rw [e] at p1 p2 ⊢
      rw [if_neg (by simp)]
      exact Ok.ret ⟨rfl, p1, cacheable_of_tab hn p1 (.inl p2), p2⟩
    · have e : [X, Y].mergeSort = [Y, X] := by rw [mergeSort_pair, if_neg hle]
      rw [e] at p1 p2 ⊢
      rw [if_pos (by simp [hXY])]
      obtain ⟨d', e', h'⟩ := reversed_ok p1
      exact Ok.bind (Ok.lift e' (Ok.ret ⟨rfl, h', cacheable_reversed hXY h' p2, p2⟩))
  refine Ok.bind (hstep.mono ?_)
  rintro pXY' s1' ⟨rfl, q1, q2, q3⟩
  have hcX : AdCols D [X] := fun c hc => hcols c (by simp at hc; simp [hc])
  have hcY : AdCols D [Y] := fun c hc => hcols c (by simp at hc; simp [hc])
  have hs1 : ∀ c : Nat, [c].mergeSort = [c] := fun c => List.mergeSort_singleton c
  refine Ok.bind ((adPmf_ok hD (by simp) (by simp) hcX p3).mono ?_)
  rintro pX s2 ⟨x1, x2, x3, x4⟩
  rw [hs1] at x1 x2
  refine Ok.bind ((adPmf_ok hD (by simp) (by simp) hcY x3).mono ?_)
  rintro pY s3 ⟨y1, y2, y3, y4⟩
  rw [hs1] at y1 y2
  refine Ok.bind ((adContext_ok kind q2 y3).mono ?_)
  rintro pXY'' s4 ⟨u1, u2, u3, u4, u5⟩
  refine Ok.bind ((adContext_ok kind (cacheable_of_tab (by simp) x1 (.inl x2)) u2).mono ?_)
  rintro pX' s5 ⟨v1, v2, v3, v4, v5⟩
  refine Ok.bind ((adContext_ok kind (cacheable_of_tab (by simp) y1 (.inl y2)) v2).mono ?_)
  rintro pY' s6 ⟨w1, w2, w3, w4, w5⟩
  refine Ok.ret ⟨goodTables_omega hr (tab_or q1 u1) (tab_or x1 v1) (tab_or y1 w1), w2, ?_, ?_⟩
  · have h0 : SameLog s s3 := by
      unfold SameLog; rw [y4, x4, p4]; exact ⟨rfl, rfl⟩
    exact ((h0.trans u3).trans v3).trans w3
  · intro hk
    refine isSome_sort (w4 _ (v4 _ (u5 hk _ q3 ?_)))
    rw [castIds_length, hlen]

theorem adTables_ok {D : Data} {dyn : Bool} (hD : Usable D) {X Y : Nat} {Z : List Nat}
    (hn : (X :: Y :: Z).Nodup) (hcols : AdCols D (X :: Y :: Z)) (kind : DofKind) {s : AdState}
    (hs : AdOk D dyn s) :
    Ok (adTables D dyn kind X Y Z) s (fun t s' => GoodTables D X Y Z.mergeSort t ∧ AdOk D dyn s' ∧
      SameLog s s' ∧
      (kind = .cached → (dictGet s'.base.cache (castIds (X :: Y :: Z)).toFinset).isSome)) := by
  by_cases hZ : Z = []
  · subst hZ
    rw [List.mergeSort_nil]
    exact adTables_nil_ok hD (by simpa using hn) hcols kind hs
  unfold adTables
  rw [if_neg hZ]
  dsimp only
  have hmem := mem_mergeSort' Z
  have hlenZ : Z.mergeSort.length = Z.length := (List.mergeSort_perm Z _).length_eq
  have hZ' : Z.mergeSort ≠ [] := by
    intro h0; rw [h0] at hlenZ; exact hZ (List.length_eq_zero_iff.1 hlenZ.symm)
  have hidem := mergeSort_idem Z
  have hn0 : (X :: Y :: Z.mergeSort).Nodup := by
    simp only [List.nodup_cons, List.mem_cons, not_or, ← hmem] at hn ⊢
    exact ⟨hn.1, hn.2.1, mergeSort_nodup hn.2.2⟩
  have hcols0 : AdCols D (X :: Y :: Z.mergeSort) := by
    intro c hc
    simp only [List.mem_cons, ← hmem] at hc
    exact hcols c (by simpa using hc)
  have hXYn := hn0
  simp only [List.nodup_cons, List.mem_cons, not_or] at hXYn
  have hnX : (X :: Z.mergeSort).Nodup := List.nodup_cons.2 ⟨hXYn.1.2, hXYn.2.2⟩
  have hnY : (Y :: Z.mergeSort).Nodup := List.nodup_cons.2 ⟨hXYn.2.1, hXYn.2.2⟩
  have hfin : (castIds (X :: Y :: Z.mergeSort)).toFinset = (castIds (X :: Y :: Z)).toFinset := by
    ext v
    simp only [List.mem_toFinset, castIds, List.mem_map, List.mem_cons, ← hmem]
  rw [← hfin]
  clear hfin hn hcols
  revert hidem hZ' hn0 hcols0 hXYn hnX hnY
  clear hmem hlenZ
  generalize Z.mergeSort = W
  intro hW hidem hn hcols hXYn hnX hnY
  refine Ok.bind ((adPmf_ok hD hW hXYn.2.2 (fun c hc => hcols c (by simp [hc])) hs).mono ?_)
  rintro pZ s1 ⟨z1, z2, z3, z4⟩
  rw [hidem] at z1 z2
  refine Ok.bind ((adCpmfXY_ok hD hn hW hcols z1 z3).mono ?_)
  rintro ⟨cXY, pXYZ⟩ s2 ⟨a1, a2, a3, a4, a5⟩
  refine Ok.bind ((adCpmfX_ok hD hnX hW (fun c hc => hcols c (by
    rcases List.mem_cons.1 hc with h | h <;> simp [h])) z1 a4).mono ?_)
  rintro ⟨cX, pXZ⟩ s3 ⟨b1, b2, b3, b4, b5⟩
  refine Ok.bind ((adCpmfX_ok hD hnY hW (fun c hc => hcols c (by
    rcases List.mem_cons.1 hc with h | h <;> simp [h])) z1 b4).mono ?_)
  rintro ⟨cY, pYZ⟩ s4 ⟨c1, c2, c3, c4, c5⟩
  dsimp only at a1 a2 a3 b1 b2 b3 c1 c2 c3 ⊢
  refine Ok.bind ((adContext_ok kind (cacheable_of_tab (mergeSort_nodup hn) a2
    (.inl a3)) c4).mono ?_)
  rintro q1 s5 ⟨-, u2, u3, u4, u5⟩
  refine Ok.bind ((adContext_ok kind (cacheable_of_tab (mergeSort_nodup hnX) b2
    (.inl b3)) u2).mono ?_)
  rintro q2 s6 ⟨-, v2, v3, v4, v5⟩
  refine Ok.bind ((adContext_ok kind (cacheable_of_tab (mergeSort_nodup hnY) c2
    (.inl c3)) v2).mono ?_)
  rintro q3 s7 ⟨-, w2, w3, w4, w5⟩
  refine Ok.bind ((adContext_ok kind (cacheable_of_tab hXYn.2.2 z1 (.inl z2)) w2).mono ?_)
  rintro pZ' s8 ⟨y1, y2, y3, y4, y5⟩
  refine Ok.ret ⟨goodTables_cond (eX := mkKey) (eY := mkKey) mkKey_comps mkKey_comps (tab_or z1 y1)
    (fun z hz _ x y => (a1 z hz).value [x, y] rfl) (fun z hz _ => b1 z hz)
    (fun z hz _ => c1 z hz), y2, ?_, ?_⟩
  · have h0 : SameLog s s4 := by
      unfold SameLog; rw [c5, b5, a5, z4]; exact ⟨rfl, rfl⟩
    exact (((h0.trans u3).trans v3).trans w3).trans y3
  · intro hk
    refine isSome_sort (y4 _ (w4 _ (v4 _ (u5 hk _ a3 ?_))))
    rw [castIds_length, (List.mergeSort_perm (X :: Y :: W) _).length_eq]
    simp

theorem AdOk.count {D : Data} {dyn : Bool} {s : AdState} (h : AdOk D dyn s) :
    s.root.count.toNat = D.nrows := by
  rw [h.2.1.inv.2.1]; simp

/-- One call of the AD-tree test. -/
theorem adCall_ok {D : Data} {dyn : Bool} {cfg : Config} (hD : Usable D) {c : Call}
    (hn : (c.1 :: c.2.1 :: c.2.2).Nodup) (hcols : AdCols D (c.1 :: c.2.1 :: c.2.2))
    {s : AdState} (hs : AdOk D dyn s) :
    Ok (adCall D dyn cfg c) s (fun a s' => IsAnswer D cfg c.1 c.2.1 c.2.2 a ∧ AdOk D dyn s' ∧
      s'.base.counter = s.base.counter + 1 ∧
      s'.base.results = s.base.results ++ [loggedResult D cfg s.base.counter c]) := by
  unfold adCall
  have h : Ok (adTest D dyn cfg c.1 c.2.1 c.2.2) s (fun r s' =>
      r = makeResult cfg D.nrows s.base.counter c.1 c.2.1 c.2.2 (G D c.1 c.2.1 c.2.2)
        (dofOf D cfg.kind c.1 c.2.1 c.2.2) ∧ (AdOk D dyn s' ∧ SameLog s s')) := by
    obtain ⟨t, s1, e, hg, hs1, hl, hcache⟩ := adTables_ok hD hn hcols cfg.kind hs
    have hd := declared_of_usable hD (fun c hc => (hcols c hc).1)
    have hsort := mem_mergeSort' c.2.2
    -- the degrees of freedom, whatever the order of the conditioning columns
    have hdof : ∃ t', calculateDof D cfg.kind s1.base.cache c.1 c.2.1 c.2.2 t =
        .ok ((dofOf D cfg.kind c.1 c.2.1 c.2.2 : Int), t') ∧
        GoodTables D c.1 c.2.1 c.2.2.mergeSort t' := by
      cases hk : cfg.kind with
      | unadjusted =>
        obtain ⟨t', e1, _⟩ := calculateDof_ok (t := t) .unadjusted hd hn hs1.1 (by simp) (by simp)
        refine ⟨t', e1, ?_⟩
        have : t' = t := by
          unfold calculateDof at e1
          simp only [Except.ok.injEq, Prod.mk.injEq] at e1
          exact e1.2.symm
        rw [this]; exact hg
      | structural =>
        obtain ⟨t', e1, h1⟩ := structural_ok s1.base.cache hg
        refine ⟨t', ?_, h1⟩
        have : calculateDof D .structural s1.base.cache c.1 c.2.1 c.2.2 t =
          calculateDof D .structural s1.base.cache c.1 c.2.1 c.2.2.mergeSort t := rfl
        rw [this, e1]
        simp only [dofOf]
        rw [dof_perm D c.1 c.2.1 hsort]
      | cached => exact ⟨t, cached_ok hs1.1 hn t (hcache hk), hg⟩
    obtain ⟨t', e1, hg'⟩ := hdof
    refine ⟨_, s1, ?_, rfl, hs1, hl⟩
    unfold adTest
    dsimp only
    rw [e, hs.count]
    show (calculateDof D cfg.kind s1.base.cache c.1 c.2.1 c.2.2 t >>= _) = _
    rw [e1]
    show Except.ok _ = _
    rw [gValue_eq hg', hl.1]
    unfold G
    rw [cmi_perm D c.1 c.2.1 hsort]
  refine (conditionallyIndependent_ok (P := fun s' => AdOk D dyn s' ∧ SameLog s s') h).mono ?_
  rintro a s' ⟨ha, s1, ⟨h1, h2⟩, rfl⟩
  refine ⟨ha, ⟨h1.1, h1.2⟩, ?_, ?_⟩
  · simp [Base.log, h2.1]
  · simp [Base.log, h2.2]

theorem newAdTest_ok {D : Data} (hD : Usable D) (dyn : Bool) :
    ∃ s, newAdTest D dyn = .ok s ∧ AdOk D dyn s ∧ s.base = {} := by
  obtain ⟨root, counters, e, h⟩ := Mbtk.ADTree.create_treeOk hD dyn
  refine ⟨{ root := root, counters := counters }, ?_, ⟨?_, h⟩, rfl⟩
  · unfold newAdTest
    rw [e]; rfl
  · intro S vars pw hg
    simp [dictGet] at hg

end Mbtk.Stats
