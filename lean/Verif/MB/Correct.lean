import Verif.MB.IpcmbMain
import Mathlib.Tactic.Linarith
import Mathlib.Tactic.Positivity
/-!
# IAMB and IPC-MB on a directed acyclic graph
-/
namespace Mbtk.MB

open Mbtk.Graph

variable {σ : Type}

/-! ### The shipped test and heuristics -/

theorem dsepAsk_spec {N : Net} {V : List Nat} {E : Nat → Nat → Prop} (h : Represents N V E)
    (X Y : Nat) (Z : List Nat) : ∃ a, dsepAsk N X Y Z = .ok a ∧
      ((a = .independent ∧ ¬ Connected E (ChildOpen E {z | z ∈ Z}) X Y {z | z ∈ Z}) ∨
       (a = .dependent ∧ ¬ ¬ Connected E (ChildOpen E {z | z ∈ Z}) X Y {z | z ∈ Z})) := by
  obtain ⟨r, h1, h2⟩ := dSeparated_spec h X Y Z
  refine ⟨if r then .independent else .dependent, ?_, ?_⟩
  · rw [dsepAsk, condIndependent, h1]; rfl
  · cases r with
    | true => exact Or.inl ⟨rfl, h2.1 rfl⟩
    | false =>
      refine Or.inr ⟨rfl, fun hc => ?_⟩
      exact Bool.noConfusion (h2.2 hc)

/-- The relation decided by the shipped test.
(Models no code: a notion for statements and proofs.) -/
def ShippedSep (E : Nat → Nat → Prop) (X Y : Nat) (Z : Set Nat) : Prop :=
  ¬ Connected E (ChildOpen E Z) X Y Z

theorem dsepWorld_answers {N : Net} {V : List Nat} {E : Nat → Nat → Prop} (h : Represents N V E)
    (o : List Nat → σ → List Nat × σ) : (dsepWorld N o).Answers (ShippedSep E) := by
  intro X Y Z s
  obtain ⟨a, h1, h2⟩ := dsepAsk_spec h X Y Z
  exact ⟨a, s, by simp [dsepWorld, h1, Except.map], h2⟩

theorem bnWorld_answers {N : Net} {V : List Nat} {E : Nat → Nat → Prop} (h : Represents N V E)
    (o : List Nat → σ → List Nat × σ) : (bnWorld N o).Answers (ShippedSep E) := by
  intro X Y Z s
  obtain ⟨a, h1, h2⟩ := dsepAsk_spec h X Y Z
  exact ⟨a, s, by simp [bnWorld, h1, Except.map], h2⟩

open Classical in
/-- Score given by the d-separation heuristic.
(Models no code: a notion for statements and proofs.) -/
noncomputable def dsepScore (E : Nat → Nat → Prop) (T y : Nat) (Z : List Nat) : ℚ :=
  if ShippedSep E T y {z | z ∈ Z} then 0 else 1

theorem dsepHeur_spec {N : Net} {V : List Nat} {E : Nat → Nat → Prop} (h : Represents N V E)
    (X Y : Nat) (Z : List Nat) : dsepHeur N X Y Z = .ok (dsepScore E X Y Z) := by
  obtain ⟨r, h1, h2⟩ := dSeparated_spec h X Y Z
  rw [dsepHeur, condIndependent, h1]
  change Except.ok (if r then (0 : ℚ) else 1) = _
  congr 1
  unfold dsepScore
  have h2' : r = true ↔ ShippedSep E X Y {z | z ∈ Z} := h2
  cases r with
  | true => rw [if_pos rfl, if_pos (h2'.1 rfl)]
  | false =>
    rw [if_neg (by simp), if_neg (fun hc => Bool.noConfusion (h2'.2 hc))]

theorem dsep_faithful {E : Nat → Nat → Prop} (hE : Acyclic E) {U : List Nat} {T : Nat}
    (hB : ∀ v, IsBlanket E T v → v ∈ U) :
    Faithful U T (IsBlanket E T) (ShippedSep E T) (dsepScore E T) where
  blanket_mem v hv := ⟨hB v hv, hv.1⟩
  shields x S _ hxT hxS hS := blanket_separates hE (O := ChildOpen E {z | z ∈ S}) hS hxS hxT
  guides x S hxU hxT hxS hmiss hmax hind := by
    obtain ⟨v, hv, hvS⟩ := hmiss
    obtain ⟨y, hy, hyS, hc⟩ := blanket_missing_connected hE (O := ChildOpen E {z | z ∈ S})
      (S := {z | z ∈ S}) (fun b hb => Or.inl hb) hv hvS
    have h1 := hmax y (hB y hy) hy.1 hyS
    have h2 : dsepScore E T y S = 1 := if_neg (fun hn => hn hc)
    have h3 : dsepScore E T x S = 0 := if_pos hind
    rw [h2, h3] at h1
    exact absurd h1 (by norm_num)
  needed x S hx hxS hS hind := hind (blanket_member_connected hE (fun b hb => Or.inl hb) hx hS)

/-! ### The path length heuristic -/

theorem foldl_min_le (l : List (List Nat)) (m : Nat) :
    l.foldl (fun m q => min m q.length) m ≤ m ∧
    (∀ q ∈ l, l.foldl (fun m q => min m q.length) m ≤ q.length) ∧
    (l.foldl (fun m q => min m q.length) m = m ∨
      ∃ q ∈ l, l.foldl (fun m q => min m q.length) m = q.length) := by
  induction l generalizing m with
  | nil => simp
  | cons p l ih =>
    obtain ⟨h1, h2, h3⟩ := ih (min m p.length)
    simp only [List.foldl_cons]
    refine ⟨by omega, ?_, ?_⟩
    · intro q hq
      rcases List.mem_cons.1 hq with rfl | hq
      · omega
      · exact h2 q hq
    · rcases h3 with h3 | ⟨q, hq, h3⟩
      · rcases Nat.le_total m p.length with h | h
        · left; omega
        · right; exact ⟨p, by simp, by omega⟩
      · right; exact ⟨q, by simp [hq], h3⟩

theorem shortest_spec {l : List (List Nat)} (hne : l ≠ []) :
    ∃ n, shortest l = .ok n ∧ (∀ q ∈ l, n ≤ q.length) ∧ ∃ q ∈ l, n = q.length := by
  cases l with
  | nil => exact absurd rfl hne
  | cons p ps =>
    obtain ⟨h1, h2, h3⟩ := foldl_min_le ps p.length
    refine ⟨_, rfl, ?_, ?_⟩
    · intro q hq
      rcases List.mem_cons.1 hq with rfl | hq
      · exact h1
      · exact h2 q hq
    · rcases h3 with h3 | ⟨q, hq, h3⟩
      · exact ⟨p, by simp, h3⟩
      · exact ⟨q, by simp [hq], h3⟩

theorem mem_network_paths {N : Net} {V : List Nat} {E : Nat → Nat → Prop}
    (h : Represents N V E) {x y : Nat} {p : List Nat} :
    p ∈ allPaths N.gu x y ↔ SimplePath (Linked E) x y p := by
  have hA : ∀ a b, Arc N.gu a b ↔ Linked E a b := by
    intro a b
    constructor
    · rintro ⟨l, h1, h2⟩; exact (h.mem_u a l h1 b).1 h2
    · intro hl
      obtain ⟨l, h1⟩ := Option.isSome_iff_exists.1 ((h.key_u a).2 (h.linked_mem hl).1)
      exact ⟨l, h1, (h.mem_u a l h1 b).2 hl⟩
  rw [mem_allPaths]
  exact ⟨fun hp => hp.mono (fun a b => (hA a b).1), fun hp => hp.mono (fun a b => (hA a b).2)⟩

/-- The value returned by the path heuristic for a pair joined by some path. -/
theorem bnHeur_spec {N : Net} {V : List Nat} {E : Nat → Nat → Prop} (h : Represents N V E)
    {X Y : Nat} (hpath : ∃ p, SimplePath (Linked E) X Y p) (Z : List Nat) :
    ∃ v, bnHeur N X Y Z = .ok v ∧
      (Z ≠ [] → ShippedSep E X Y {z | z ∈ Z} → v = 0) ∧
      ((Z = [] ∨ ¬ ShippedSep E X Y {z | z ∈ Z}) → ∃ p, SimplePath (Linked E) X Y p ∧
        v = 1 / (p.length : ℚ) ∧ ∀ q, SimplePath (Linked E) X Y q → p.length ≤ q.length) := by
  obtain ⟨p, hp⟩ := hpath
  obtain ⟨n, hn1, hn2, q, hq, hn3⟩ := shortest_spec
    (List.ne_nil_of_mem ((mem_network_paths h).2 hp))
  have hlen : ∃ p, SimplePath (Linked E) X Y p ∧ 1 / (n : ℚ) = 1 / (p.length : ℚ) ∧
      ∀ q, SimplePath (Linked E) X Y q → p.length ≤ q.length :=
    ⟨q, (mem_network_paths h).1 hq, by rw [hn3], fun q' hq' => by
      rw [← hn3]; exact hn2 q' ((mem_network_paths h).2 hq')⟩
  obtain ⟨r, h1, h2⟩ := dSeparated_spec h X Y Z
  have h2' : r = true ↔ ShippedSep E X Y {z | z ∈ Z} := h2
  cases Z with
  | nil =>
    refine ⟨1 / (n : ℚ), ?_, by simp, fun _ => hlen⟩
    simp [bnHeur, hn1, bind, Except.bind]
  | cons z Z =>
    cases r with
    | true =>
      refine ⟨0, ?_, fun _ _ => rfl, ?_⟩
      · simp [bnHeur, condIndependent, h1, bind, Except.bind]
      · rintro (hh | hh)
        · cases hh
        · exact absurd (h2'.1 rfl) hh
    | false =>
      refine ⟨1 / (n : ℚ), ?_, ?_, fun _ => hlen⟩
      · simp [bnHeur, condIndependent, h1, hn1, bind, Except.bind]
      · intro _ hs; exact Bool.noConfusion (h2'.2 hs)

/-- Score given by the path heuristic (0 where it raises).
(Models no code: a notion for statements and proofs.) -/
def bnScore (N : Net) (T y : Nat) (Z : List Nat) : ℚ :=
  match bnHeur N T y Z with
  | .ok v => v
  | .error _ => 0

theorem simplePath_two {A : Nat → Nat → Prop} {x y : Nat} {p : List Nat} (h : SimplePath A x y p)
    (hne : x ≠ y) (hl : p.length ≤ 2) : A x y := by
  cases p with
  | nil => exact absurd rfl h.ne_nil
  | cons a q =>
    obtain ⟨rfl, ⟨-, h⟩ | ⟨n, k1, k2, k3, k4⟩⟩ := simplePath_cons_iff.1 h
    · exact absurd h hne
    cases q with
    | nil => exact absurd rfl k4.ne_nil
    | cons b q =>
      have hb : b = n := by simpa using k4.head
      cases q with
      | cons c q => simp at hl
      | nil =>
        have : b = y := by simpa using k4.last
        rw [← this, hb]; exact k1

theorem bn_faithful {N : Net} {V : List Nat} {E : Nat → Nat → Prop} (h : Represents N V E)
    (hE : Acyclic E) {U : List Nat} {T : Nat}
    (hpath : ∀ y ∈ U, y ≠ T → ∃ p, SimplePath (Linked E) T y p)
    (hB : ∀ v, IsBlanket E T v → v ∈ U) :
    Faithful U T (IsBlanket E T) (ShippedSep E T) (bnScore N T) where
  blanket_mem v hv := ⟨hB v hv, hv.1⟩
  shields x S _ hxT hxS hS := blanket_separates hE (O := ChildOpen E {z | z ∈ S}) hS hxS hxT
  guides x S hxU hxT hxS hmiss hmax hind := by
    obtain ⟨v, hv, hvS⟩ := hmiss
    obtain ⟨vx, hvx, hx0, hx1⟩ := bnHeur_spec h (hpath x hxU hxT) S
    have hsx : bnScore N T x S = vx := by simp [bnScore, hvx]
    by_cases hS : S = []
    · -- the first pass: a neighbour of the target scores 1/2
      have hnb : ∃ n, n ∈ U ∧ n ≠ T ∧ Linked E T n := by
        rcases hv.2 with h1 | h1 | ⟨c, h1, h2⟩
        · exact ⟨v, hB v hv, hv.1, Or.inr h1⟩
        · exact ⟨v, hB v hv, hv.1, Or.inl h1⟩
        · have hcT : c ≠ T := by rintro rfl; exact hE.irrefl _ h1
          exact ⟨c, hB c ⟨hcT, Or.inr (Or.inl h1)⟩, hcT, Or.inl h1⟩
      obtain ⟨n, hnU, hnT, hn⟩ := hnb
      obtain ⟨vn, hvn, -, hn1⟩ := bnHeur_spec h (hpath n hnU hnT) S
      have hsn : bnScore N T n S = vn := by simp [bnScore, hvn]
      obtain ⟨pn, hpn, hvn', hminn⟩ := hn1 (Or.inl hS)
      obtain ⟨px, hpx, hvx', hminx⟩ := hx1 (Or.inl hS)
      have h2 : pn.length ≤ 2 := hminn [T, n] ⟨by simp [hnT.symm], rfl, rfl, by simp [hn]⟩
      have hle := hmax n hnU hnT (by simp [hS])
      rw [hsn, hsx, hvn', hvx'] at hle
      have hpn0 : 0 < pn.length := List.length_pos_of_ne_nil hpn.ne_nil
      have hpx0 : 0 < px.length := List.length_pos_of_ne_nil hpx.ne_nil
      have h3 : px.length ≤ pn.length := by
        have := le_of_one_div_le_one_div (by exact_mod_cast hpn0) hle
        exact_mod_cast this
      have hlink := simplePath_two hpx hxT.symm (by omega)
      exact hind (connected_of_linked hxT.symm hlink)
    · obtain ⟨y, hy, hyS, hc⟩ := blanket_missing_connected hE (O := ChildOpen E {z | z ∈ S})
        (S := {z | z ∈ S}) (fun b hb => Or.inl hb) hv hvS
      obtain ⟨vy, hvy, -, hy1⟩ := bnHeur_spec h (hpath y (hB y hy) hy.1) S
      have hsy : bnScore N T y S = vy := by simp [bnScore, hvy]
      obtain ⟨py, hpy, hvy', -⟩ := hy1 (Or.inr (fun hn => hn hc))
      have hle := hmax y (hB y hy) hy.1 hyS
      rw [hsy, hsx, hx0 hS hind, hvy'] at hle
      have hpy0 : 0 < py.length := List.length_pos_of_ne_nil hpy.ne_nil
      have : (0 : ℚ) < 1 / (py.length : ℚ) := by positivity
      exact absurd hle (not_le.2 this)
  needed x S hx hxS hS hind := hind (blanket_member_connected hE (fun b hb => Or.inl hb) hx hS)

/-! ### IPC-MB -/

/-- What IPC-MB needs from a test `P` on the graph `E` to find neighbours and to keep
spouses. (Models no code: a notion for statements and proofs.) -/
structure OracleOn (E : Nat → Nat → Prop) (P : Nat → Nat → Set Nat → Prop) : Prop where
  adjacent : ∀ X Y Z, X ≠ Y → Linked E X Y → ¬ P X Y Z
  complete : ∀ X Y Z, DSep E X Y Z → P X Y Z
  collider : ∀ X C Y (Z : Set Nat), X ≠ Y → X ≠ C → Y ≠ C → E X C → E Y C → C ∈ Z → ¬ P X Y Z

theorem dsep_oracle (E : Nat → Nat → Prop) : OracleOn E (DSep E) where
  adjacent _ _ _ hne hl hp := hp (connected_of_linked hne hl)
  complete _ _ _ h := h
  collider _ C _ _ hne h1 h2 h3 h4 h5 hp :=
    hp (connected_of_collider h1 h2.symm hne h3 h4 ⟨C, h5, Relation.ReflTransGen.refl⟩)

theorem shipped_oracle (E : Nat → Nat → Prop) : OracleOn E (ShippedSep E) where
  adjacent _ _ _ hne hl hp := hp (connected_of_linked hne hl)
  complete _ _ _ h hc := h (hc.mono (fun b hb => hb.pearl))
  collider _ _ _ _ hne h1 h2 h3 h4 h5 hp :=
    hp (connected_of_collider h1 h2.symm hne h3 h4 (Or.inl h5))

/-- The outcomes of a test that decides `P`.
(Models no code: a notion for statements and proofs.) -/
def Decides (P : Nat → Nat → Set Nat → Prop) (X Y : Nat) (Z : List Nat) (a : Answer) : Prop :=
  (a = .independent ∧ P X Y {z | z ∈ Z}) ∨ (a = .dependent ∧ ¬ P X Y {z | z ∈ Z})

theorem Decides.ind {P X Y Z} (h : Decides P X Y Z .independent) : P X Y {z | z ∈ Z} := by
  rcases h with ⟨-, h⟩ | ⟨h, -⟩
  · exact h
  · cases h

theorem Decides.dep {P X Y Z} (h : Decides P X Y Z .dependent) : ¬ P X Y {z | z ∈ Z} := by
  rcases h with ⟨h, -⟩ | ⟨-, h⟩
  · cases h
  · exact h

theorem Decides.insuf {P X Y Z} (h : Decides P X Y Z .insufficient) : False := by
  rcases h with ⟨h, -⟩ | ⟨h, -⟩ <;> cases h

theorem perm_set {Z Z' : List Nat} (h : Z'.Perm Z) : {z | z ∈ Z'} = {z | z ∈ Z} :=
  Set.ext (fun _ => h.mem_iff)

open Classical in
/-- A set known to be within `U` as a duplicate-free list. -/
theorem listOf {U : List Nat} (hU : U.Nodup) (P : Nat → Prop) (hP : ∀ v, P v → v ∈ U) :
    ∃ Z : List Nat, Z.Nodup ∧ ∀ v, v ∈ Z ↔ P v :=
  ⟨U.filter (fun v => decide (P v)), hU.filter _, fun v => by
    rw [List.mem_filter]; simp only [decide_eq_true_eq]; exact ⟨fun h => h.2, fun h => ⟨hP v h, h⟩⟩⟩

section
variable {E : Nat → Nat → Prop} {P : Nat → Nat → Set Nat → Prop} {U : List Nat} {T : Nat}
  {pcOnly : Bool} {r pc cand : List Nat} {cs : Nat → List Nat} {sep : Nat → List Nat}

theorem cand_complete (hO : OracleOn E P) (h : RunFacts (Decides P) U T pcOnly r pc cand cs sep)
    {X : Nat} (hX : X ∈ U) (hXT : X ≠ T) (hl : Linked E T X) : X ∈ cand := by
  by_contra hc
  rcases h.candRemoved X hX hXT hc with ⟨Z, -, hZ⟩ | ⟨-, hZ⟩
  · exact hZ.insuf
  · exact hO.adjacent X T _ hXT hl.symm hZ.ind

theorem cs_complete (hO : OracleOn E P) (h : RunFacts (Decides P) U T pcOnly r pc cand cs sep)
    {X Y : Nat} (hX : X ∈ cand) (hY : Y ∈ U) (hYX : Y ≠ X) (hl : Linked E X Y) : Y ∈ cs X := by
  by_contra hc
  rcases h.csRemoved X hX Y hY hYX hc with ⟨Z, -, hZ⟩ | ⟨Z, -, hZ⟩
  · exact hO.adjacent Y X _ hYX hl.symm hZ.ind
  · exact hZ.insuf

/-- A variable kept in the adjacency of `X` is a neighbour or a descendant. -/
theorem cs_sound (hE : Acyclic E) (hU : U.Nodup) (hEU : ∀ a b, E a b → a ∈ U ∧ b ∈ U)
    (hO : OracleOn E P) (h : RunFacts (Decides P) U T pcOnly r pc cand cs sep)
    {X Y : Nat} (hX : X ∈ cand) (hY : Y ∈ cs X) (hn : ¬ Linked E X Y) : Desc E X Y := by
  by_contra hd
  have hYX := (h.csSub X hX Y hY).2
  obtain ⟨Z, hZn, hZ⟩ := listOf hU (fun v => E v X) (fun v hv => (hEU v X hv).1)
  have hsub : SubsetOf (cs X) Y Z := by
    refine ⟨hZn, fun z hz => ?_⟩
    have hzX := (hZ z).1 hz
    refine ⟨cs_complete hO h hX (hEU z X hzX).1 ?_ (Or.inr hzX), ?_⟩
    · rintro rfl; exact hE.irrefl _ hzX
    · rintro rfl; exact hn (Or.inr hzX)
  obtain ⟨Z', hp, hdep⟩ := h.csKept X hX Y hY Z hsub
  refine hdep.dep ?_
  rw [perm_set hp]
  exact hO.complete _ _ _ (parents_separate hE (P := {z | z ∈ Z}) hZ hYX.symm hn hd).symm

theorem cand_sound (hE : Acyclic E) (hU : U.Nodup) (hEU : ∀ a b, E a b → a ∈ U ∧ b ∈ U)
    (hO : OracleOn E P) (h : RunFacts (Decides P) U T pcOnly r pc cand cs sep)
    {X : Nat} (hX : X ∈ cand) (hn : ¬ Linked E T X) : Desc E T X := by
  by_contra hd
  have hXT := (h.candSub X hX).2
  obtain ⟨Z, hZn, hZ⟩ := listOf hU (fun v => E v T) (fun v hv => (hEU v T hv).1)
  have hsub : SubsetOf cand X Z := by
    refine ⟨hZn, fun z hz => ?_⟩
    have hzT := (hZ z).1 hz
    refine ⟨cand_complete hO h (hEU z T hzT).1 ?_ (Or.inr hzT), ?_⟩
    · rintro rfl; exact hE.irrefl _ hzT
    · rintro rfl; exact hn (Or.inr hzT)
  obtain ⟨Z', hp, hdep⟩ := h.candKept X hX Z hsub
  refine hdep.dep ?_
  rw [perm_set hp]
  exact hO.complete _ _ _ (parents_separate hE (P := {z | z ∈ Z}) hZ hXT.symm hn hd).symm

theorem Acyclic.antisymm (hE : Acyclic E) {a b : Nat} (h1 : Desc E a b) (h2 : Desc E b a) :
    a = b := by
  rcases Relation.ReflTransGen.cases_head h1 with h | ⟨c, hac, hcb⟩
  · exact h
  · exact absurd (Relation.TransGen.head' hac (hcb.trans h2)) (hE a)

/-- The parents-and-children set is exact. -/
theorem pc_exact (hE : Acyclic E) (hU : U.Nodup) (hT : T ∈ U)
    (hEU : ∀ a b, E a b → a ∈ U ∧ b ∈ U)
    (hO : OracleOn E P) (h : RunFacts (Decides P) U T pcOnly r pc cand cs sep) (X : Nat) :
    X ∈ pc ↔ Linked E T X := by
  constructor
  · intro hX
    by_contra hn
    have hc := h.pcSub X hX
    have h1 := cand_sound hE hU hEU hO h hc hn
    have h2 := cs_sound hE hU hEU hO h hc ((h.pcIff X hc).1 hX) (fun hl => hn hl.symm)
    exact (h.candSub X hc).2 (Acyclic.antisymm hE h2 h1)
  · intro hl
    have hXT : X ≠ T := by
      rintro rfl; exact hl.elim (hE.irrefl _) (hE.irrefl _)
    have hXU : X ∈ U := by
      rcases hl with h | h
      · exact (hEU _ _ h).2
      · exact (hEU _ _ h).1
    have hc := cand_complete hO h hXU hXT hl
    exact (h.pcIff X hc).2 (cs_complete hO h hc hT hXT.symm hl.symm)

/-- No member of the blanket is missed. -/
theorem blanket_found (hE : Acyclic E) (hU : U.Nodup) (hT : T ∈ U)
    (hEU : ∀ a b, E a b → a ∈ U ∧ b ∈ U)
    (hO : OracleOn E P) (h : RunFacts (Decides P) U T false r pc cand cs sep) {Y : Nat}
    (hY : IsBlanket E T Y) : Y ∈ r := by
  have hpc := pc_exact hE hU hT hEU hO h
  rcases hY with ⟨hYT, h1 | h1 | ⟨X, h1, h2⟩⟩
  · exact h.pcInR Y ((hpc Y).2 (Or.inr h1))
  · exact h.pcInR Y ((hpc Y).2 (Or.inl h1))
  · by_contra hn
    have hX : X ∈ pc := (hpc X).2 (Or.inl h1)
    have hYX : Y ≠ X := by rintro rfl; exact hE.irrefl _ h2
    have hTX : T ≠ X := by rintro rfl; exact hE.irrefl _ h1
    have hYc := cs_complete hO h (h.pcSub X hX) (hEU _ _ h2).1 hYX (Or.inr h2)
    rcases h.dismissed rfl X hX Y hYc hYT hn with h3 | h3
    · refine hO.collider T X Y _ hYT.symm hTX hYX h1 h2 ?_ h3.ind
      exact mem_setAdd.2 (Or.inr rfl)
    · exact h3.insuf

/-- With true d-separation answers nothing else gets in. -/
theorem blanket_only (hE : Acyclic E) (hU : U.Nodup) (hT : T ∈ U)
    (hEU : ∀ a b, E a b → a ∈ U ∧ b ∈ U)
    (h : RunFacts (Decides (DSep E)) U T false r pc cand cs sep) {Y : Nat}
    (hY : Y ∈ r) : IsBlanket E T Y := by
  have hO := dsep_oracle E
  have hpc := pc_exact hE hU hT hEU hO h
  rcases h.found rfl Y hY with hYp | ⟨X, hX, hYX, hYT, hdep⟩
  · have hc := h.candSub Y (h.pcSub Y hYp)
    rcases (hpc Y).1 hYp with h1 | h1
    · exact ⟨hc.2, Or.inr (Or.inl h1)⟩
    · exact ⟨hc.2, Or.inl h1⟩
  · by_contra hnb
    have hXc := h.pcSub X hX
    have hYU := (h.csSub X hXc Y hYX).1
    have hYX' := (h.csSub X hXc Y hYX).2
    have hTX : T ≠ X := fun hh => (h.candSub X hXc).2 hh.symm
    have hlX : Linked E T X := (hpc X).1 hX
    have hnl : ¬ Linked E T Y := by
      rintro (h1 | h1)
      · exact hnb ⟨hYT, Or.inr (Or.inl h1)⟩
      · exact hnb ⟨hYT, Or.inl h1⟩
    have hsep : DSep E T Y {z | z ∈ sep Y} := by
      by_cases hYc : Y ∈ cand
      · rcases h.pcRemoved hT Y hYc (fun hh => hnl ((hpc Y).1 hh)) with ⟨Z, -, h3⟩ | ⟨-, h3⟩
        · exact h3.insuf.elim
        · exact h3.ind
      · rcases h.candRemoved Y hYU hYT hYc with ⟨Z, -, h3⟩ | ⟨-, h3⟩
        · exact h3.insuf.elim
        · exact DSep.symm h3.ind
    have hset : {z | z ∈ setAdd (sep Y) X} = {z | z ∈ sep Y} ∪ {X} := by
      ext z; simp only [Set.mem_ofPred_eq, mem_setAdd, Set.mem_union, Set.mem_singleton_iff]
    have hdep' := hdep.dep
    rw [hset] at hdep'
    by_cases hl : Linked E X Y
    · have hncol : ¬ (E T X ∧ E Y X) := fun ⟨h1, h2⟩ =>
        hnb ⟨hYT, Or.inr (Or.inr ⟨X, h1, h2⟩)⟩
      by_cases hXs : X ∈ sep Y
      · refine hdep' ?_
        have : {z | z ∈ sep Y} ∪ {X} = {z | z ∈ sep Y} := by
          ext z
          simp only [Set.mem_union, Set.mem_ofPred_eq, Set.mem_singleton_iff]
          exact ⟨fun h => h.elim id (fun h => h ▸ hXs), Or.inl⟩
        rw [this]; exact hsep
      · exact hsep (connected_of_noncollider hTX hYX'.symm hYT.symm hlX hl hncol hXs)
    · have hd := cs_sound hE hU hEU hO h hXc hYX hl
      exact hdep' (dsep_insert hsep (sepset_has_descendant hE hsep hlX hd))

end

end Mbtk.MB
