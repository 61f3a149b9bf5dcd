import Verif.BN.Finalize
import Mathlib.Algebra.BigOperators.Ring.List
import Mathlib.Tactic.Ring
import Mathlib.Tactic.Linarith
/-!
# The joint distribution of a network (C36)
-/
namespace Mbtk.BN
open Spec Stats
variable {ν β : Type} [LinearOrder ν] [DecidableEq β]

/-- Every node of the list has its parents among `done` and the earlier nodes, and a new name.
(Models no code: a notion for statements and proofs.) -/
def Ready : List ν → List (Node ν β) → Prop
  | _, [] => True
  | done, n :: rest => (∀ p ∈ n.parents, p ∈ done) ∧ n.name ∉ done ∧ Ready (done ++ [n.name]) rest

/-- The leaves of the recursion: assignment and probability.
(Models no code: a notion for statements and proofs.) -/
def branches : List (Node ν β) → (ν → β) → ℚ → List ((ν → β) × ℚ)
  | [], a, p => [(a, p)]
  | n :: rest, a, p => n.values.flatMap (fun v =>
      branches rest (Function.update a n.name v) (p * cpt n (n.parents.map a) v))

/-- Product of the table entries of some nodes.
(Models no code: a notion for statements and proofs.) -/
def prodOf (ns : List (Node ν β)) (a : ν → β) : ℚ :=
  (ns.map (fun n => cpt n (n.parents.map a) (a n.name))).prod

/-- All names of `done` have a declared value.
(Models no code: a notion for statements and proofs.) -/
def DeclaredOn (nodes : List (Node ν β)) (done : List ν) (a : ν → β) : Prop :=
  ∀ n ∈ nodes, n.name ∈ done → a n.name ∈ n.values

theorem DeclaredOn.update {nodes : List (Node ν β)} (hu : UniqueNames nodes) {done : List ν}
    {a : ν → β} (h : DeclaredOn nodes done a) {n : Node ν β} (hn : n ∈ nodes) {v : β}
    (hv : v ∈ n.values) : DeclaredOn nodes (done ++ [n.name]) (Function.update a n.name v) := by
  intro m hm hd
  by_cases e : m.name = n.name
  · have := unique_node hu hm hn e
    subst this
    simpa using hv
  · rw [Function.update_of_ne e]
    apply h m hm
    simpa [e] using hd

theorem declaredFor_of {nodes : List (Node ν β)} {done : List ν} {a : ν → β}
    (h : DeclaredOn nodes done a) (ps : List ν) (hd : ∀ p ∈ ps, p ∈ done)
    (hk : ∀ p ∈ ps, p ∈ nodes.map (·.name)) : DeclaredFor nodes ps (ps.map a) := by
  unfold DeclaredFor
  induction ps with
  | nil => exact .nil
  | cons p ps ih =>
    refine .cons ?_ (ih (fun q hq => hd q (by simp [hq])) (fun q hq => hk q (by simp [hq])))
    obtain ⟨n, hn, rfl⟩ := List.mem_map.1 (hk p (by simp))
    exact ⟨n, hn, rfl, h n hn (hd _ (by simp))⟩

/-! ## Facts about the leaves -/

theorem branches_spec (ns : List (Node ν β)) (done : List ν) (a : ν → β) (p : ℚ)
    (hr : Ready done ns) {x : (ν → β) × ℚ} (hx : x ∈ branches ns a p) :
    (∀ v, v ∉ ns.map (·.name) → x.1 v = a v) ∧ (∀ n ∈ ns, x.1 n.name ∈ n.values) ∧
      x.2 = p * prodOf ns x.1 := by
  induction ns generalizing done a p with
  | nil =>
    simp only [branches, List.mem_singleton] at hx
    subst hx
    simp [prodOf]
  | cons n ns ih =>
    obtain ⟨hp, hname, hr'⟩ := hr
    simp only [branches, List.mem_flatMap] at hx
    obtain ⟨v, hv, hx⟩ := hx
    obtain ⟨h1, h2, h3⟩ := ih _ _ _ hr' hx
    have hfresh : ∀ q ∈ done ++ [n.name], q ∉ ns.map (·.name) := by
      clear hx h1 h2 h3 ih
      generalize done ++ [n.name] = d at hr' ⊢
      induction ns generalizing d with
      | nil => simp
      | cons m ns ih =>
        obtain ⟨_, hm, hr''⟩ := hr'
        intro q hq
        simp only [List.map_cons, List.mem_cons, not_or]
        exact ⟨fun e => hm (e ▸ hq), ih _ hr'' q (by simp [hq])⟩
    have hn : x.1 n.name = v := by
      rw [h1 _ (hfresh _ (by simp))]; simp
    have hpar : n.parents.map x.1 = n.parents.map a := by
      apply List.map_congr_left
      intro q hq
      rw [h1 _ (hfresh _ (by simp [hp q hq]))]
      rw [Function.update_of_ne]
      intro e; exact hname (e ▸ hp q hq)
    refine ⟨?_, ?_, ?_⟩
    · intro w hw
      simp only [List.map_cons, List.mem_cons, not_or] at hw
      rw [h1 w hw.2, Function.update_of_ne hw.1]
    · intro m hm
      rcases List.mem_cons.1 hm with rfl | hm
      · rw [hn]; exact hv
      · exact h2 m hm
    · rw [h3]
      simp only [prodOf, List.map_cons, List.prod_cons, hn, hpar]
      ring

/-- The names of a ready list are distinct. -/
theorem Ready.nodup {ns : List (Node ν β)} {done : List ν} (h : Ready done ns) :
    (ns.map (·.name)).Nodup ∧ ∀ v ∈ done, v ∉ ns.map (·.name) := by
  induction ns generalizing done with
  | nil => simp
  | cons n ns ih =>
    obtain ⟨_, hn, hr⟩ := h
    obtain ⟨h1, h2⟩ := ih hr
    simp only [List.map_cons, List.nodup_cons, List.mem_cons, not_or]
    refine ⟨⟨h2 _ (by simp), h1⟩, fun v hv => ⟨fun e => hn (e ▸ hv), h2 v (by simp [hv])⟩⟩

/-- Different leaves differ in the value of some node. -/
theorem branches_pairwise (ns : List (Node ν β)) (done : List ν) (a : ν → β) (p : ℚ)
    (hr : Ready done ns) (hv : ∀ n ∈ ns, n.values.Nodup) :
    (branches ns a p).Pairwise (fun x y => ∃ n ∈ ns, x.1 n.name ≠ y.1 n.name) := by
  induction ns generalizing done a p with
  | nil => simp [branches]
  | cons n ns ih =>
    obtain ⟨hp, hname, hr'⟩ := hr
    have hnot : n.name ∉ ns.map (·.name) := hr'.nodup.2 _ (by simp)
    simp only [branches, List.pairwise_flatMap]
    refine ⟨fun v _ => ?_, ?_⟩
    · refine (ih _ _ _ hr' (fun m hm => hv m (by simp [hm]))).imp ?_
      rintro x y ⟨m, hm, h⟩
      exact ⟨m, by simp [hm], h⟩
    · refine (hv n (by simp)).imp ?_
      intro v w hvw x hx y hy
      refine ⟨n, by simp, ?_⟩
      rw [(branches_spec ns _ _ _ hr' hx).1 _ hnot, (branches_spec ns _ _ _ hr' hy).1 _ hnot]
      simpa using hvw

/-- Every choice of declared values is a leaf. -/
theorem exists_branch (ns : List (Node ν β)) (a b : ν → β) (p : ℚ)
    (hb : ∀ n ∈ ns, b n.name ∈ n.values) (hn : (ns.map (·.name)).Nodup) :
    ∃ x ∈ branches ns a p, (∀ n ∈ ns, x.1 n.name = b n.name) ∧
      ∀ v, v ∉ ns.map (·.name) → x.1 v = a v := by
  induction ns generalizing a p with
  | nil => exact ⟨(a, p), by simp [branches], by simp, by simp⟩
  | cons n ns ih =>
    simp only [List.map_cons, List.nodup_cons] at hn
    obtain ⟨x, hx, h1, h2⟩ := ih (Function.update a n.name (b n.name))
      (p * cpt n (n.parents.map a) (b n.name)) (fun m hm => hb m (by simp [hm])) hn.2
    refine ⟨x, ?_, ?_, ?_⟩
    · simp only [branches, List.mem_flatMap]
      exact ⟨b n.name, hb n (by simp), hx⟩
    · intro m hm
      rcases List.mem_cons.1 hm with rfl | hm
      · rw [h2 _ hn.1]; simp
      · exact h1 m hm
    · intro v hv
      simp only [List.map_cons, List.mem_cons, not_or] at hv
      rw [h2 v hv.2, Function.update_of_ne hv.1]

/-- Summing a row of a table over the declared values. -/
theorem sum_cpt {n : Node ν β} (hv : n.values.Nodup) {pv : List β}
    (hl : (row n pv).length = n.values.length) :
    (n.values.map (fun v => cpt n pv v)).sum = (row n pv).sum := by
  unfold cpt
  congr 1
  apply List.ext_getElem
  · simp [hl]
  · intro i h1 h2
    have hi : i < n.values.length := by simpa using h1
    have : (row n pv).length = n.values.length := hl
    simp [hv.idxOf_getElem i hi, h2]

/-- The probabilities below a node of the recursion add up to the probability of the node. -/
theorem sum_branches {nodes : List (Node ν β)} (h : WellFormed nodes) (hN : Normalised nodes)
    (ns : List (Node ν β)) (hns : ∀ n ∈ ns, n ∈ nodes) (done : List ν) (a : ν → β) (p : ℚ)
    (hr : Ready done ns) (hd : DeclaredOn nodes done a) :
    ((branches ns a p).map Prod.snd).sum = p := by
  induction ns generalizing done a p with
  | nil => simp [branches]
  | cons n ns ih =>
    obtain ⟨hp, hname, hr'⟩ := hr
    have hn := hns n (by simp)
    have hdf := declaredFor_of hd n.parents hp (fun q hq => h.known n hn q hq)
    have e : ((branches (n :: ns) a p).map Prod.snd).sum =
        (n.values.map (fun v => p * cpt n (n.parents.map a) v)).sum := by
      simp only [branches, List.map_flatMap]
      rw [List.flatMap_def, List.sum_flatten, List.map_map]
      congr 1
      apply List.map_congr_left
      intro v hv
      exact ih (fun m hm => hns m (by simp [hm])) _ _ _ hr' (hd.update h.unique hn hv)
    rw [e, List.sum_map_mul_left, sum_cpt (h.values n hn).1 (h.table_rows n hn _ hdf).2,
      (hN n hn _ hdf).2, mul_one]

theorem cpt_nonneg {nodes : List (Node ν β)} (hN : Normalised nodes) {n : Node ν β} (hn : n ∈ nodes)
    {pv : List β} (hd : DeclaredFor nodes n.parents pv) (v : β) : 0 ≤ cpt n pv v := by
  unfold cpt
  rw [List.getD_eq_getElem?_getD]
  cases h : (row n pv)[n.values.idxOf v]? with
  | none => simp
  | some q => exact (hN n hn pv hd).1 q (List.mem_of_getElem? h)

/-! ## The recursion computes the leaves -/

/-- The partial sample `cur` assigns `a` to the names `done`.
(Models no code: a notion for statements and proofs.) -/
structure PartialSample (nodes : List (Node ν β)) (done : List ν) (cur : List (ν × β))
    (a : ν → β) : Prop where
  keys : cur.map Prod.fst = done
  nodup : done.Nodup
  known : ∀ v ∈ done, v ∈ nodes.map (·.name)
  vals : ∀ v ∈ done, dictGet cur v = some (a v)
  declared : DeclaredOn nodes done a

theorem PartialSample.extend {nodes : List (Node ν β)} (hu : UniqueNames nodes) {done : List ν}
    {cur : List (ν × β)} {a : ν → β} (h : PartialSample nodes done cur a) {n : Node ν β}
    (hn : n ∈ nodes) (hnew : n.name ∉ done) {v : β} (hv : v ∈ n.values) :
    PartialSample nodes (done ++ [n.name]) (dictSet cur n.name v)
      (Function.update a n.name v) := by
  refine ⟨?_, ?_, ?_, ?_, h.declared.update hu hn hv⟩
  · rw [dictSet_keys, h.keys, if_neg hnew]
  · rw [List.nodup_append]; exact ⟨h.nodup, by simp, by grind⟩
  · intro w hw
    rcases List.mem_append.1 hw with hw | hw
    · exact h.known w hw
    · simp only [List.mem_singleton] at hw
      subst hw; exact List.mem_map.2 ⟨n, hn, rfl⟩
  · intro w hw
    rw [dictGet_dictSet]
    by_cases e : n.name = w
    · subst e; simp
    · rw [if_neg e, Function.update_of_ne (Ne.symm e)]
      refine h.vals w ?_
      simpa [Ne.symm e] using hw

theorem sampleGets_ok {cur : List (ν × β)} {a : ν → β} (vs : List ν)
    (h : ∀ v ∈ vs, dictGet cur v = some (a v)) : sampleGets cur vs = .ok (vs.map a) := by
  induction vs with
  | nil => rfl
  | cons v vs ih =>
    have hg : sampleGet cur v = .ok (a v) := by unfold sampleGet; rw [h v (by simp)]
    simp only [sampleGets, hg]
    show (sampleGets cur vs >>= _) = _
    rw [ih (fun w hw => h w (by simp [hw]))]; rfl

theorem probabilityOfValue_ok {nodes : List (Node ν β)} (h : WellFormed nodes) {n : Node ν β}
    (hn : n ∈ nodes) {pv : List β} (hd : DeclaredFor nodes n.parents pv) {v : β}
    (hv : v ∈ n.values) : probabilityOfValue n v (rowKey pv) = .ok (cpt n pv v) := by
  obtain ⟨hk, hl⟩ := h.table_rows n hn pv hd
  have hi : indexOf n.values v = .ok (n.values.idxOf v) := if_pos hv
  have hlt := List.idxOf_lt_length_of_mem hv
  unfold probabilityOfValue
  rw [hi, rowKey_eq]
  show (match dictGet n.probabilities (tableKey pv) with
    | none => _ | some r => _) = _
  cases hg : dictGet n.probabilities (tableKey pv) with
  | none => exact absurd hk ((dictGet_none_iff _ _).1 hg)
  | some r =>
    have hr : row n pv = r := by unfold row; rw [hg]; rfl
    rw [hr] at hl
    have : r[n.values.idxOf v]? = some r[n.values.idxOf v] := List.getElem?_eq_getElem (by omega)
    simp only [this, cpt, hr, List.getD_eq_getElem?_getD, Option.getD_some]

theorem branchProb_ok {nodes : List (Node ν β)} (h : WellFormed nodes) {done : List ν}
    {cur : List (ν × β)} {a : ν → β} (hc : PartialSample nodes done cur a) {n : Node ν β}
    (hn : n ∈ nodes) (hp : ∀ p ∈ n.parents, p ∈ done) {v : β} (hv : v ∈ n.values) (prob : ℚ) :
    branchProb n cur prob v = .ok (prob * cpt n (n.parents.map a) v) := by
  unfold branchProb
  rw [sampleGets_ok n.parents (fun q hq => hc.vals q (hp q hq))]
  show (probabilityOfValue n v (rowKey (n.parents.map a)) >>= _) = _
  rw [probabilityOfValue_ok h hn (declaredFor_of hc.declared n.parents hp (h.known n hn)) hv]
  rfl

theorem position_eq {nodes : List (Node ν β)} (hu : UniqueNames nodes) {n : Node ν β}
    (hn : n ∈ nodes) (x : β) : position nodes n.name x = n.values.idxOf x := by
  have := getNode_mem hu hn
  unfold getNode at this
  unfold position
  cases hf : nodes.find? (fun m => m.name = n.name) with
  | none => rw [hf] at this; cases this
  | some m => rw [hf] at this; cases this; rfl

theorem toIndices_ok {nodes : List (Node ν β)} (hu : UniqueNames nodes) (cur : List (ν × β))
    (h : ∀ p ∈ cur, ∃ n ∈ nodes, n.name = p.1 ∧ p.2 ∈ n.values) :
    toIndices nodes cur = .ok (cur.map (fun p => (p.1, position nodes p.1 p.2))) := by
  induction cur with
  | nil => rfl
  | cons p cur ih =>
    obtain ⟨v, x⟩ := p
    obtain ⟨n, hn, e, hx⟩ := h (v, x) (by simp)
    simp only at e hx
    subst e
    have hi : indexOf n.values x = .ok (n.values.idxOf x) := if_pos hx
    simp only [toIndices, getNode_mem hu hn]
    show (indexOf n.values x >>= _) = _
    rw [hi]
    show (toIndices nodes cur >>= _) = _
    rw [ih (fun p hp => h p (by simp [hp]))]
    simp only [List.map_cons, position_eq hu hn]
    rfl

theorem asList_ok {s : List (ν × Nat)} {g : ν → Nat} (vs : List ν)
    (h : ∀ v ∈ vs, dictGet s v = some (g v)) : asList s vs = .ok (vs.map g) := by
  induction vs with
  | nil => rfl
  | cons v vs ih =>
    simp only [asList, h v (by simp)]
    rw [ih (fun w hw => h w (by simp [hw]))]; rfl

theorem dictGet_map_key {κ μ τ : Type} [DecidableEq κ] (f : κ → μ → τ) (d : List (κ × μ)) (k : κ) :
    dictGet (d.map (fun p => (p.1, f p.1 p.2))) k = (dictGet d k).map (f k) := by
  induction d with
  | nil => rfl
  | cons p d ih =>
    simp only [List.map_cons, dictGet]
    by_cases h : p.1 = k
    · subst h; simp
    · simp [h, ih]

/-- Reading a complete sample as a row of positions. -/
theorem rowOf_ok {nodes : List (Node ν β)} (hu : UniqueNames nodes) {done : List ν}
    {cur : List (ν × β)} {a : ν → β} (hc : PartialSample nodes done cur a)
    (hall : ∀ v ∈ nodes.map (·.name), v ∈ done) :
    ∃ si, toIndices nodes cur = .ok si ∧
      asList si (names nodes) = .ok ((names nodes).map (fun v => position nodes v (a v))) := by
  refine ⟨_, toIndices_ok hu cur ?_, asList_ok _ ?_⟩
  · intro p hp
    have hd : p.1 ∈ done := by rw [← hc.keys]; exact List.mem_map.2 ⟨p, hp, rfl⟩
    obtain ⟨n, hn, e⟩ := List.mem_map.1 (hc.known _ hd)
    have h1 := hc.vals _ hd
    have hkn : (cur.map Prod.fst).Nodup := by rw [hc.keys]; exact hc.nodup
    rw [dictGet_of_mem hkn (k := p.1) (v := p.2) hp] at h1
    have := hc.declared n hn (by rw [e]; exact hd)
    exact ⟨n, hn, e, by rw [Option.some.inj h1, ← e]; exact this⟩
  · intro v hv
    rw [dictGet_map_key (fun v x => position nodes v x), hc.vals v (hall v (mem_names.1 hv))]
    rfl

theorem jointKey_ok {nodes : List (Node ν β)} (hu : UniqueNames nodes) {done : List ν}
    {cur : List (ν × β)} {a : ν → β} (hc : PartialSample nodes done cur a)
    (hall : ∀ v ∈ nodes.map (·.name), v ∈ done) :
    jointKey nodes cur = .ok (.tup (indices nodes a)) := by
  obtain ⟨si, h1, h2⟩ := rowOf_ok hu hc hall
  unfold jointKey
  rw [h1]
  show (asList si (names nodes) >>= _) = _
  rw [h2]
  show Except.ok _ = Except.ok _
  simp [indices, names]

/-- Storing leaves in a dictionary. (Models no code: a notion for statements and proofs.) -/
def storeAll (nodes : List (Node ν β)) (d : List (Key × ℚ)) (l : List ((ν → β) × ℚ)) :
    List (Key × ℚ) :=
  l.foldl (fun d x => dictSet d (.tup (indices nodes x.1)) x.2) d

theorem jointRec_ok {nodes : List (Node ν β)} (h : WellFormed nodes) (rest : List (Node ν β))
    (hrest : ∀ n ∈ rest, n ∈ nodes) (fuel : Nat) (done : List ν) (cur : List (ν × β)) (a : ν → β)
    (joint : List (Key × ℚ)) (prob : ℚ) (hf : rest.length < fuel) (hr : Ready done rest)
    (hc : PartialSample nodes done cur a)
    (hall : ∀ v ∈ nodes.map (·.name), v ∈ done ++ rest.map (·.name)) :
    jointRec nodes (done ++ rest.map (·.name)) fuel joint cur prob =
      .ok (storeAll nodes joint (branches rest a prob)) := by
  induction rest generalizing fuel done cur a joint prob with
  | nil =>
    obtain ⟨fuel, rfl⟩ : ∃ k, fuel = k + 1 := ⟨fuel - 1, by simp at hf; omega⟩
    have hlen : cur.length = done.length := by rw [← hc.keys, List.length_map]
    simp only [List.map_nil, List.append_nil] at hall ⊢
    simp only [jointRec, hlen, if_true]
    rw [jointKey_ok h.unique hc hall]
    rfl
  | cons n rest ih =>
    obtain ⟨fuel, rfl⟩ : ∃ k, fuel = k + 1 := ⟨fuel - 1, by simp at hf; omega⟩
    have hlen : cur.length = done.length := by rw [← hc.keys, List.length_map]
    have hn := hrest n (by simp)
    obtain ⟨hp, hname, hr'⟩ := hr
    have hne : ¬ cur.length = (done ++ (n :: rest).map (·.name)).length := by
      simp [hlen]
    have hget : (done ++ (n :: rest).map (·.name))[cur.length]? = some n.name := by
      rw [hlen, List.getElem?_append_right (le_refl _)]; simp
    rw [jointRec, if_neg hne]
    simp only [hget, getNode_mem h.unique hn]
    have hv0 := (h.values n hn).2
    have hloop : ∀ (vs : List β) (joint : List (Key × ℚ)), (∀ v ∈ vs, v ∈ n.values) →
        jointValues (jointRec nodes (done ++ (n :: rest).map (·.name)) fuel) n cur prob vs joint =
        .ok (storeAll nodes joint (vs.flatMap (fun v =>
          branches rest (Function.update a n.name v) (prob * cpt n (n.parents.map a) v)))) := by
      intro vs
      induction vs with
      | nil => intro joint _; rfl
      | cons v vs ihv =>
        intro joint hvs
        have hv := hvs v (by simp)
        simp only [jointValues, branchProb_ok h hc hn hp hv]
        have e : done ++ (n :: rest).map (·.name) = (done ++ [n.name]) ++ rest.map (·.name) := by
          simp
        have := ih (fun m hm => hrest m (by simp [hm])) fuel (done ++ [n.name])
          (dictSet cur n.name v) (Function.update a n.name v) joint
          (prob * cpt n (n.parents.map a) v) (by simp at hf; omega) hr'
          (hc.extend h.unique hn hname hv) (by rw [← e]; exact hall)
        show (jointRec nodes _ fuel joint (dictSet cur n.name v) _ >>= _) = _
        rw [e, this, ← e]
        show jointValues _ n cur prob vs _ = _
        rw [ihv _ (fun w hw => hvs w (by simp [hw]))]
        simp only [storeAll, List.flatMap_cons, List.foldl_append]
    show (if n.values = [] then _ else _) = _
    rw [if_neg hv0, hloop n.values joint (fun _ hv => hv)]
    rfl

/-- The nodes in a given order of names.
(Models no code: a notion for statements and proofs.) -/
def pickNodes (nodes : List (Node ν β)) (l : List ν) : List (Node ν β) :=
  l.filterMap (fun v => nodes.find? (fun n => n.name = v))

theorem pickNodes_spec {nodes : List (Node ν β)} (l : List ν)
    (hl : ∀ v ∈ l, v ∈ nodes.map (·.name)) :
    (pickNodes nodes l).map (·.name) = l ∧ ∀ n ∈ pickNodes nodes l, n ∈ nodes := by
  constructor
  · induction l with
    | nil => rfl
    | cons v l ih =>
      obtain ⟨n, hn, e, hg⟩ := getNode_known (hl v (by simp))
      have hf : nodes.find? (fun n => n.name = v) = some n := by
        unfold getNode at hg
        cases h : nodes.find? (fun n => n.name = v) with
        | none => rw [h] at hg; cases hg
        | some m => rw [h] at hg; cases hg; rfl
      simp only [pickNodes, List.filterMap_cons, hf, List.map_cons, e]
      congr 1
      exact ih (fun w hw => hl w (by simp [hw]))
  · intro n hn
    obtain ⟨v, _, h⟩ := List.mem_filterMap.1 hn
    exact List.mem_of_find?_eq_some h

theorem ready_of_topological {nodes : List (Node ν β)} {l : List ν} (hu : UniqueNames nodes)
    (h : TopologicalOrder nodes l) : Ready [] (pickNodes nodes l) := by
  have hknown : ∀ v ∈ l, v ∈ nodes.map (·.name) := fun v hv => h.perm.mem_iff.1 hv
  have hnd : l.Nodup := h.perm.nodup_iff.2 hu
  have key : ∀ (done rest : List ν), l = done ++ rest → Ready done (pickNodes nodes rest) := by
    intro done rest
    induction rest generalizing done with
    | nil => intro _; trivial
    | cons v rest ih =>
      intro e
      obtain ⟨n, hn, e2, hg⟩ := getNode_known (hknown v (by rw [e]; simp))
      have hf : nodes.find? (fun n => n.name = v) = some n := by
        unfold getNode at hg
        cases h : nodes.find? (fun n => n.name = v) with
        | none => rw [h] at hg; cases hg
        | some m => rw [h] at hg; cases hg; rfl
      have hpk : pickNodes nodes (v :: rest) = n :: pickNodes nodes rest := by
        simp [pickNodes, hf]
      rw [hpk]
      refine ⟨?_, ?_, ?_⟩
      · intro p hp
        exact h.parents_first done v rest e p ⟨n, hn, e2, hp⟩
      · rw [e2]
        rw [e] at hnd
        intro hmem
        exact (List.nodup_append.1 hnd).2.2 v hmem v (by simp) rfl
      · rw [e2]
        exact ih (done ++ [v]) (by rw [e]; simp)
  exact key [] l (by simp)

theorem pickNodes_perm {nodes : List (Node ν β)} {l : List ν} (hu : UniqueNames nodes)
    (h : l.Perm (nodes.map (·.name))) : (pickNodes nodes l).Perm nodes := by
  have hs := pickNodes_spec l (fun v hv => h.mem_iff.1 hv)
  have hnd : ((pickNodes nodes l).map (·.name)).Nodup := by rw [hs.1]; exact h.nodup_iff.2 hu
  refine (List.perm_ext_iff_of_nodup hnd.of_map (List.Nodup.of_map _ hu)).2 (fun n => ⟨hs.2 n, ?_⟩)
  intro hn
  have : n.name ∈ (pickNodes nodes l).map (·.name) := by
    rw [hs.1]; exact h.mem_iff.2 (List.mem_map.2 ⟨n, hn, rfl⟩)
  obtain ⟨m, hm, e⟩ := List.mem_map.1 this
  rwa [unique_node hu (hs.2 m hm) hn e] at hm

theorem indices_inj {nodes : List (Node ν β)} (h : WellFormed nodes) {a b : ν → β}
    (ha : Assignment nodes a) (hb : Assignment nodes b) (e : indices nodes a = indices nodes b) :
    ∀ n ∈ nodes, a n.name = b n.name := by
  intro n hn
  have hmem : n.name ∈ names nodes := mem_names.2 (List.mem_map.2 ⟨n, hn, rfl⟩)
  have := (List.map_inj_left.1 e) n.name hmem
  simp only [position_eq h.unique hn] at this
  exact (List.idxOf_inj (ha n hn)).1 (by exact_mod_cast this)

theorem indices_congr {nodes : List (Node ν β)} {a b : ν → β}
    (h : ∀ n ∈ nodes, a n.name = b n.name) : indices nodes a = indices nodes b := by
  unfold indices
  apply List.map_congr_left
  intro v hv
  obtain ⟨n, hn, rfl⟩ := List.mem_map.1 (mem_names.1 hv)
  rw [h n hn]

theorem storeAll_eq (nodes : List (Node ν β)) (l : List ((ν → β) × ℚ)) (d : List (Key × ℚ))
    (hp : l.Pairwise (fun x y => indices nodes x.1 ≠ indices nodes y.1))
    (hd : ∀ x ∈ l, Key.tup (indices nodes x.1) ∉ d.map Prod.fst) :
    storeAll nodes d l = d ++ l.map (fun x => (.tup (indices nodes x.1), x.2)) := by
  have hset : ∀ (d : List (Key × ℚ)) (k : Key) (v : ℚ), k ∉ d.map Prod.fst →
      dictSet d k v = d ++ [(k, v)] := by
    intro d k v h
    induction d with
    | nil => rfl
    | cons p d ih =>
      simp only [List.map_cons, List.mem_cons, not_or] at h
      simp [dictSet, Ne.symm h.1, ih h.2]
  unfold storeAll
  induction l generalizing d with
  | nil => simp
  | cons x l ih =>
    rw [List.pairwise_cons] at hp
    rw [List.foldl_cons, hset d _ _ (hd x (by simp)), ih _ hp.2]
    · simp
    · intro y hy
      simp only [List.map_append, List.map_cons, List.map_nil, List.mem_append, List.mem_singleton,
        not_or, Key.tup.injEq]
      exact ⟨hd y (by simp [hy]), fun e => hp.1 y hy e.symm⟩

/-- The dictionary built by the recursion. -/
theorem jointDict_ok {nodes : List (Node ν β)} (h : WellFormed nodes) {l : List ν}
    (ht : TopologicalOrder nodes l) (a0 : ν → β) :
    jointRec nodes l (l.length + 1) [] [] 1 =
      .ok ((branches (pickNodes nodes l) a0 1).map (fun x => (.tup (indices nodes x.1), x.2))) ∧
    (branches (pickNodes nodes l) a0 1).Pairwise
      (fun x y => indices nodes x.1 ≠ indices nodes y.1) ∧
    ∀ x ∈ branches (pickNodes nodes l) a0 1, Assignment nodes x.1 ∧ x.2 = jointProb nodes x.1 := by
  have hknown : ∀ v ∈ l, v ∈ nodes.map (·.name) := fun v hv => ht.perm.mem_iff.1 hv
  obtain ⟨hn, hm⟩ := pickNodes_spec l hknown
  have hr := ready_of_topological h.unique ht
  have hperm := pickNodes_perm h.unique ht.perm
  have hlen : (pickNodes nodes l).length = l.length := by
    rw [← List.length_map (f := (·.name)), hn]
  have hc : PartialSample nodes [] [] a0 :=
    ⟨rfl, by simp, by simp, by simp, by intro n _ h; simp at h⟩
  have hrec := jointRec_ok h (pickNodes nodes l) hm (l.length + 1) [] [] a0 [] 1
    (by rw [hlen]; omega) hr hc (by
      intro v hv; rw [hn]; simpa using ht.perm.mem_iff.2 hv)
  rw [hn] at hrec
  have hbr : ∀ x ∈ branches (pickNodes nodes l) a0 1,
      Assignment nodes x.1 ∧ x.2 = jointProb nodes x.1 := by
    intro x hx
    obtain ⟨_, h2, h3⟩ := branches_spec _ _ _ _ hr hx
    refine ⟨fun n hn => h2 n (hperm.mem_iff.2 hn), ?_⟩
    rw [h3, one_mul]
    unfold prodOf jointProb
    exact (hperm.map _).prod_eq
  have hpw : (branches (pickNodes nodes l) a0 1).Pairwise
      (fun x y => indices nodes x.1 ≠ indices nodes y.1) := by
    refine List.Pairwise.imp_of_mem ?_ (branches_pairwise _ [] a0 1 hr
      (fun n hn => (h.values n (hm n hn)).1))
    rintro x y hx hy ⟨n, hn', hne⟩ e
    exact hne (indices_inj h (hbr x hx).1 (hbr y hy).1 e n (hm n hn'))
  refine ⟨?_, hpw, hbr⟩
  simp only [List.nil_append] at hrec
  rw [hrec, storeAll_eq nodes _ [] hpw (by simp)]
  simp

end Mbtk.BN
