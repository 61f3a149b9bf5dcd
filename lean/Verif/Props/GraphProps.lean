import Verif.Graph.CachedReload
/-!
# Properties C09–C15 and C51: graphs and d-separation
-/
namespace Mbtk.Graph

/-! ## C09 -/

/-- C09.  The path search returns exactly the simple paths along the dictionary's links. -/
theorem path_search_exact (g : Adj) (x y : Nat) (p : List Nat) :
    p ∈ allPaths g x y ↔ SimplePath (Arc g) x y p := mem_allPaths

/-- C09.  Each path is returned once. -/
theorem path_search_no_duplicates (g : Adj) (hg : ∀ a l, dictGet g a = some l → l.Nodup)
    (x y : Nat) : (allPaths g x y).Nodup := pathsRec_nodup hg (by simp)

/-- C09, termination: the recursion never reaches its depth bound — with any larger bound
the result is the same, so the unbounded Python recursion returns this list. -/
theorem path_search_terminates (g : Adj) (x y k : Nat) :
    pathsRec g y (pathFuel g + k) x [] = allPaths g x y := by
  induction k with
  | zero => rfl
  | succ k ih =>
    rw [← ih, ← Nat.add_assoc]
    exact (pathsRec_fuel (by simp) (by simp) (by simp)).symm

/-- C09 for a network: the undirected search of a network with nodes `V` and edges `E`
yields each simple path of the network exactly once. -/
theorem network_paths_exact {N : Net} {V : List Nat} {E : Nat → Nat → Prop}
    (h : Represents N V E) (x y : Nat) :
    (allPaths N.gu x y).Nodup ∧
      ∀ p, p ∈ allPaths N.gu x y ↔ SimplePath (Linked E) x y p := by
  have hA : ∀ a b, Arc N.gu a b ↔ Linked E a b := by
    intro a b
    constructor
    · rintro ⟨l, h1, h2⟩; exact (h.mem_u a l h1 b).1 h2
    · intro hl
      obtain ⟨l, h1⟩ := Option.isSome_iff_exists.1 ((h.key_u a).2 (h.linked_mem hl).1)
      exact ⟨l, h1, (h.mem_u a l h1 b).2 hl⟩
  refine ⟨path_search_no_duplicates _ (fun a l hl => ?_) x y, fun p => ?_⟩
  · exact (h.sorted_u a l hl).imp (fun hab => by omega)
  · rw [mem_allPaths]
    exact ⟨fun hp => hp.mono (fun a b => (hA a b).1), fun hp => hp.mono (fun a b => (hA a b).2)⟩

/-- A diamond `0→1, 0→2, 1→3, 2→3` with an isolated node `4`. (Specification.) -/
def diamond : List (Nat × List Nat) := [(0, []), (1, [0]), (2, [0]), (3, [1, 2]), (4, [])]

example : allPaths [(0, [1, 2]), (1, [0, 3]), (2, [0, 3]), (3, [1, 2])] 0 3 =
    [[0, 1, 3], [0, 2, 3]] := by decide

/-! ## C10 -/

/-- C10.  On a dictionary in which every node has an entry, the generator yields the paths
of the recursive search, in the same order, and stops. -/
theorem path_searches_agree (g : Adj) (hkeys : ∀ a b, Arc g a b → (dictGet g b).isSome)
    {start stop : Nat} (hne : start ≠ stop) (hs : (dictGet g start).isSome) :
    ∃ steps, ∀ f, steps ≤ f →
      (Machine.init start).run g stop f = .ok (some (allPaths g start stop)) :=
  machine_run hkeys hne hs

/-- C10 for the undirected view of a network. -/
theorem network_path_searches_agree {N : Net} {V : List Nat} {E : Nat → Nat → Prop}
    (h : Represents N V E) {start stop : Nat} (hs : start ∈ V) (hne : start ≠ stop) :
    ∃ steps, ∀ f, steps ≤ f →
      (Machine.init start).run N.gu stop f = .ok (some (allPaths N.gu start stop)) := by
  refine machine_run ?_ hne ((h.key_u _).2 hs)
  rintro a b ⟨l, h1, h2⟩
  exact (h.key_u b).2 (h.linked_mem ((h.mem_u a l h1 b).1 h2)).2

/-- Outside the hypotheses of C10 the two differ: equal ends, and a start that is no key. -/
theorem path_searches_differ :
    (allPaths [(0, [1]), (1, [0])] 0 0 = [[0]] ∧
      (Machine.init 0).run [(0, [1]), (1, [0])] 0 10 = .ok (some [])) ∧
    (allPaths [(0, [1]), (1, [0])] 7 0 = [] ∧
      (Machine.init 7).run [(0, [1]), (1, [0])] 0 10 = .error .keyError) := by
  refine ⟨⟨by decide, by rfl⟩, ⟨by decide, by rfl⟩⟩

example : (Machine.init 0).run [(0, [1, 2]), (1, [0, 3]), (2, [0, 3]), (3, [1, 2])] 3 30 =
    .ok (some [[0, 1, 3], [0, 2, 3]]) := by rfl

/-! ## C11 -/

/-- C11.  The graphs built by `finalize`. -/
theorem finalize_graphs (nodes : List (Nat × List Nat))
    (hcl : ∀ n cs, (n, cs) ∈ nodes → ∀ c ∈ cs, c ∈ nodes.map Prod.fst) :
    Represents (ofNodes nodes) (nodes.map Prod.fst)
      (fun c n => ∃ cs, (n, cs) ∈ nodes ∧ c ∈ cs) :=
  ofNodes_represents nodes hcl

/-- C11.  The graphs built by `from_directed_graph`. -/
theorem from_directed_graph_graphs (g : Adj) (hk : (g.map Prod.fst).Nodup) :
    Represents (fromDirected g) (allNodes g) (Arc g) := fromDirected_represents g hk

/-- C11, spelled out on the undirected dictionary: symmetric, strictly ascending, and it
links two nodes iff there is an edge between them. -/
theorem undirected_view {N : Net} {V : List Nat} {E : Nat → Nat → Prop}
    (h : Represents N V E) :
    (∀ a b, Arc N.gu a b ↔ (E a b ∨ E b a)) ∧ (∀ a b, Arc N.gu a b → Arc N.gu b a) ∧
      (∀ v l, dictGet N.gu v = some l → l.Pairwise (· < ·)) := by
  have hA : ∀ a b, Arc N.gu a b ↔ (E a b ∨ E b a) := by
    intro a b
    constructor
    · rintro ⟨l, h1, h2⟩; exact (h.mem_u a l h1 b).1 h2
    · intro hl
      obtain ⟨l, h1⟩ := Option.isSome_iff_exists.1 ((h.key_u a).2 (h.linked_mem hl).1)
      exact ⟨l, h1, (h.mem_u a l h1 b).2 hl⟩
  exact ⟨hA, fun a b hab => (hA b a).2 ((hA a b).1 hab).symm, h.sorted_u⟩

/-- The diamond meets the hypotheses of `finalize_graphs`. -/
theorem diamond_represents : Represents (ofNodes diamond) (diamond.map Prod.fst)
    (fun c n => ∃ cs, (n, cs) ∈ diamond ∧ c ∈ cs) :=
  finalize_graphs diamond (by
    intro n cs h c hc
    simp only [diamond, List.mem_cons, Prod.mk.injEq, List.not_mem_nil, or_false] at h
    rcases h with ⟨rfl, rfl⟩ | ⟨rfl, rfl⟩ | ⟨rfl, rfl⟩ | ⟨rfl, rfl⟩ | ⟨rfl, rfl⟩ <;>
      simp [diamond] at hc ⊢ <;> omega)

/-! ## C12–C15 -/

/-- C12.  `d_separated` never fails and is symmetric in its two variables. -/
theorem d_separated_symmetric {N : Net} {V : List Nat} {E : Nat → Nat → Prop}
    (h : Represents N V E) (x y : Nat) (Z : List Nat) :
    ∃ r, dSeparated N x Z y = .ok r ∧ dSeparated N y Z x = .ok r := by
  obtain ⟨r, h1, h2⟩ := dSeparated_spec h x y Z
  obtain ⟨r', h3, h4⟩ := dSeparated_spec h y x Z
  have : r = r' := by
    have : r = true ↔ r' = true := by
      rw [h2, h4]
      exact not_congr ⟨Connected.symm, Connected.symm⟩
    cases r <;> cases r' <;> simp_all
  exact ⟨r, h1, this ▸ h3⟩

/-- C12.  The answer depends only on the set of conditioning nodes. -/
theorem d_separated_set {N : Net} {V : List Nat} {E : Nat → Nat → Prop}
    (h : Represents N V E) (x y : Nat) (Z Z' : List Nat) (hZ : ∀ z, z ∈ Z ↔ z ∈ Z') :
    dSeparated N x Z y = dSeparated N x Z' y := by
  obtain ⟨r, h1, h2⟩ := dSeparated_spec h x y Z
  obtain ⟨r', h3, h4⟩ := dSeparated_spec h x y Z'
  have hz : zset Z = zset Z' := Set.ext hZ
  rw [hz] at h2
  rw [h1, h3]
  congr 1
  cases r <;> cases r' <;> simp_all

/-- In `0→1←2, 1→3→4` the code's rule leaves no open path from 0 to 2 given `{4}`. -/
theorem counterexample_blocked {E : Nat → Nat → Prop}
    (hE : ∀ c n, E c n ↔
      (c = 0 ∧ n = 1) ∨ (c = 2 ∧ n = 1) ∨ (c = 1 ∧ n = 3) ∨ (c = 3 ∧ n = 4)) :
    ¬ Connected E (ChildOpen E (zset [4])) 0 2 (zset [4]) := by
  rintro ⟨p, hp, ho⟩
  -- the only simple path is 0,1,2
  cases p with
  | nil => exact hp.ne_nil rfl
  | cons a q =>
    obtain ⟨rfl, ⟨-, h⟩ | ⟨p1, k1, k2, k3, k4⟩⟩ := simplePath_cons_iff.1 hp
    · cases h
    cases q with
    | nil => exact k4.ne_nil rfl
    | cons b q =>
      have hb : b = p1 := by simpa using k4.head
      subst hb
      have hb1 : b = 1 := by
        rcases k1 with h | h
        · have := (hE _ _).1 h; omega
        · have := (hE _ _).1 h; omega
      subst hb1
      obtain ⟨-, ⟨-, h⟩ | ⟨p2, m1, m2, m3, m4⟩⟩ := simplePath_cons_iff.1 k4
      · cases h
      cases q with
      | nil => exact m4.ne_nil rfl
      | cons c q =>
        have hc : c = p2 := by simpa using m4.head
        subst hc
        obtain ⟨⟨o1, -⟩, -⟩ := openPath_cons_iff.1 ho
        have hc2 : c = 2 ∨ c = 3 := by
          have hc0 : c ≠ 0 := by rintro rfl; exact k2 (by simp)
          rcases m1 with h | h
          · have := (hE _ _).1 h; omega
          · have := (hE _ _).1 h; omega
        rcases hc2 with rfl | rfl
        · have := o1 ⟨(hE _ _).2 (by omega), (hE _ _).2 (by omega)⟩
          rcases this with h | ⟨z, hz, hEz⟩
          · simp [zset] at h
          · have hz4 : z = 4 := by simpa [zset] using hz
            subst hz4
            have := (hE _ _).1 hEz; omega
        · -- from 3 one can only go on to 4, a dead end
          obtain ⟨-, ⟨-, h⟩ | ⟨p3, n1, n2, n3, n4⟩⟩ := simplePath_cons_iff.1 m4
          · cases h
          cases q with
          | nil => exact n4.ne_nil rfl
          | cons d q =>
            have hd : d = p3 := by simpa using n4.head
            subst hd
            have hd1 : d ≠ 1 := by rintro rfl; exact m2 (by simp)
            have hd4 : d = 4 := by
              rcases n1 with h | h
              · have := (hE _ _).1 h; omega
              · have := (hE _ _).1 h; omega
            subst hd4
            obtain ⟨-, ⟨-, h⟩ | ⟨p4, r1, r2, r3, r4⟩⟩ := simplePath_cons_iff.1 n4
            · cases h
            cases q with
            | nil => exact r4.ne_nil rfl
            | cons e q =>
              have he : e = p4 := by simpa using r4.head
              subst he
              have he3 : e ≠ 3 := by rintro rfl; exact n2 (by simp)
              rcases r1 with h | h
              · have := (hE _ _).1 h; omega
              · have := (hE _ _).1 h; omega

/-- C13 as stated is false of the code: in `0→1←2, 1→3→4`, given `{4}`, the nodes 0 and 2
are d-connected (the collider 1 has the descendant 4), yet `conditionally_independent`
answers `True`, because only children of the collider are looked at. -/
theorem d_separated_not_d_separation :
    ∃ (nodes : List (Nat × List Nat)) (x y : Nat) (Z : List Nat),
      (∀ n cs, (n, cs) ∈ nodes → ∀ c ∈ cs, c ∈ nodes.map Prod.fst) ∧
      Acyclic (fun c n => ∃ cs, (n, cs) ∈ nodes ∧ c ∈ cs) ∧ x ≠ y ∧ x ∉ Z ∧ y ∉ Z ∧
      condIndependent (ofNodes nodes) x y Z = .ok true ∧
      ¬ DSep (fun c n => ∃ cs, (n, cs) ∈ nodes ∧ c ∈ cs) x y {z | z ∈ Z} := by
  let nodes : List (Nat × List Nat) := [(0, []), (1, [0, 2]), (2, []), (3, [1]), (4, [3])]
  have hE : ∀ c n, (∃ cs, (n, cs) ∈ nodes ∧ c ∈ cs) ↔
      (c = 0 ∧ n = 1) ∨ (c = 2 ∧ n = 1) ∨ (c = 1 ∧ n = 3) ∨ (c = 3 ∧ n = 4) := by
    intro c n
    simp only [nodes, List.mem_cons, Prod.mk.injEq, List.not_mem_nil, or_false]
    constructor
    · rintro ⟨cs, ⟨rfl, rfl⟩ | ⟨rfl, rfl⟩ | ⟨rfl, rfl⟩ | ⟨rfl, rfl⟩ | ⟨rfl, rfl⟩, hc⟩ <;>
        simp at hc <;> omega
    · rintro (⟨rfl, rfl⟩ | ⟨rfl, rfl⟩ | ⟨rfl, rfl⟩ | ⟨rfl, rfl⟩) <;> simp
  have hcl : ∀ n cs, (n, cs) ∈ nodes → ∀ c ∈ cs, c ∈ nodes.map Prod.fst := by
    intro n cs h c hc
    have := (hE c n).1 ⟨cs, h, hc⟩
    simp only [nodes, List.map_cons, List.map_nil, List.mem_cons, List.not_mem_nil, or_false]
    omega
  refine ⟨nodes, 0, 2, [4], hcl, ?_, by decide, by decide, by decide, ?_, ?_⟩
  · -- a rank function strictly increases along edges
    have hrank : ∀ c n, (∃ cs, (n, cs) ∈ nodes ∧ c ∈ cs) →
        (if c = 2 then 0 else c) < (if n = 2 then 0 else n) := by
      intro c n h
      rcases (hE c n).1 h with ⟨rfl, rfl⟩ | ⟨rfl, rfl⟩ | ⟨rfl, rfl⟩ | ⟨rfl, rfl⟩ <;> decide
    intro v hv
    have : ∀ a b, Relation.TransGen (fun c n => ∃ cs, (n, cs) ∈ nodes ∧ c ∈ cs) a b →
        (if a = 2 then 0 else a) < (if b = 2 then 0 else b) := by
      intro a b hab
      induction hab with
      | single h => exact hrank _ _ h
      | tail _ h ih => exact lt_trans ih (hrank _ _ h)
    exact lt_irrefl _ (this v v hv)
  · have hrep := ofNodes_represents nodes hcl
    obtain ⟨r, h1, h2⟩ := dSeparated_spec hrep 0 2 [4]
    exact h1.trans (congrArg _ (h2.2 (counterexample_blocked hE)))
  · intro hs
    apply hs
    refine connected_of_collider (c := 1) (by decide) (by decide) (by decide)
      ((hE _ _).2 (by omega)) ((hE _ _).2 (by omega)) ?_
    refine ⟨4, by simp, ?_⟩
    exact (Relation.ReflTransGen.single ((hE 1 3).2 (by omega))).tail ((hE 3 4).2 (by omega))

/-- C13, the part that holds: `conditionally_independent` decides d-separation for every
conditioning set `Z` such that each node with a descendant in `Z` is itself in `Z` or has a
child in `Z`.  Missing for the full C13: the other conditioning sets, for which the claim is
false (`d_separated_not_d_separation`). -/
theorem d_separated_decides_partial {N : Net} {V : List Nat} {E : Nat → Nat → Prop}
    (h : Represents N V E) (x y : Nat) (Z : List Nat)
    (hZ : ∀ b, (∃ z ∈ Z, Desc E b z) → b ∈ Z ∨ ∃ z ∈ Z, E b z) :
    ∃ r, condIndependent N x y Z = .ok r ∧ (r = true ↔ DSep E x y {z | z ∈ Z}) := by
  obtain ⟨r, h1, h2⟩ := dSeparated_spec h x y Z
  refine ⟨r, h1, h2.trans (not_congr ⟨fun hc => hc.mono (fun b hb => hb.pearl), fun hc => ?_⟩)⟩
  exact hc.mono (fun b hb => hZ b hb)

/-- C13, what the code answers for every conditioning set: `True` exactly if no simple path between
the two nodes is open, where a collider counts as open if it or one of its children (instead of
descendants) is in the conditioning set. -/
theorem d_separated_answers {N : Net} {V : List Nat} {E : Nat → Nat → Prop}
    (h : Represents N V E) (x y : Nat) (Z : List Nat) :
    ∃ r, condIndependent N x y Z = .ok r ∧ (r = true ↔
      ¬ ∃ p : List Nat, p.head? = some x ∧ p.getLast? = some y ∧ p.Nodup ∧
        p.IsChain (fun a b => E a b ∨ E b a) ∧
        ∀ a b c, [a, b, c] <:+: p →
          (E a b ∧ E c b → b ∈ Z ∨ ∃ z ∈ Z, E b z) ∧ (¬ (E a b ∧ E c b) → b ∉ Z)) := by
  obtain ⟨r, h1, h2⟩ := dSeparated_spec h x y Z
  refine ⟨r, h1, h2.trans (not_congr ?_)⟩
  constructor
  · rintro ⟨p, hp, ho⟩
    exact ⟨p, hp.head, hp.last, hp.nodup, hp.chain, ho⟩
  · rintro ⟨p, a1, a2, a3, a4, ho⟩
    exact ⟨p, ⟨a3, a1, a2, a4⟩, ho⟩

/-- C13 with an empty conditioning set. -/
theorem d_separated_marginal {N : Net} {V : List Nat} {E : Nat → Nat → Prop}
    (h : Represents N V E) (x y : Nat) :
    ∃ r, condIndependent N x y [] = .ok r ∧ (r = true ↔ DSep E x y ∅) := by
  obtain ⟨r, h1, h2⟩ := d_separated_decides_partial h x y [] (by simp)
  exact ⟨r, h1, by simpa using h2⟩

/-- C13 for a conditioning set closed under parents. -/
theorem d_separated_parent_closed {N : Net} {V : List Nat} {E : Nat → Nat → Prop}
    (h : Represents N V E) (x y : Nat) (Z : List Nat) (hZ : ∀ z ∈ Z, ∀ p, E p z → p ∈ Z) :
    ∃ r, condIndependent N x y Z = .ok r ∧ (r = true ↔ DSep E x y {z | z ∈ Z}) := by
  refine d_separated_decides_partial h x y Z ?_
  rintro b ⟨z, hz, hbz⟩
  left
  induction hbz using Relation.ReflTransGen.head_induction_on with
  | refl => exact hz
  | head hab _ ih => exact hZ _ ih _ hab

/-- C13 for networks without directed paths of three nodes (e.g. naive Bayes). -/
theorem d_separated_flat {N : Net} {V : List Nat} {E : Nat → Nat → Prop}
    (h : Represents N V E) (hflat : ∀ a b c, E a b → ¬ E b c) (x y : Nat) (Z : List Nat) :
    ∃ r, condIndependent N x y Z = .ok r ∧ (r = true ↔ DSep E x y {z | z ∈ Z}) := by
  refine d_separated_decides_partial h x y Z ?_
  rintro b ⟨z, hz, hbz⟩
  rcases Relation.ReflTransGen.cases_head hbz with rfl | ⟨c, hbc, hcz⟩
  · exact Or.inl hz
  · rcases Relation.ReflTransGen.cases_head hcz with rfl | ⟨d, hcd, -⟩
    · exact Or.inr ⟨c, hz, hbc⟩
    · exact absurd hcd (hflat _ _ _ hbc)

/-- Where nodes with two parents have no grandchildren, looking at the children of a collider
is enough. -/
theorem shallow_iff {E : Nat → Nat → Prop}
    (hsh : ∀ a b c d e, a ≠ b → E a c → E b c → E c d → ¬ E d e) (x y : Nat) (Z : Set Nat) :
    ¬ Connected E (ChildOpen E Z) x y Z ↔ DSep E x y Z := by
  refine not_congr ⟨fun hc => hc.mono (fun b hb => hb.pearl), ?_⟩
  rintro ⟨p, hp, ho⟩
  refine ⟨p, hp, fun a b c habc => ⟨fun hcol => ?_, (ho a b c habc).2⟩⟩
  have hac : a ≠ c := by
    have := (hp.nodup.sublist habc.sublist)
    simp at this; tauto
  obtain ⟨z, hz, hbz⟩ := (ho a b c habc).1 hcol
  rcases Relation.ReflTransGen.cases_head hbz with rfl | ⟨d, hbd, hdz⟩
  · exact Or.inl hz
  · rcases Relation.ReflTransGen.cases_head hdz with rfl | ⟨e, hde, -⟩
    · exact Or.inr ⟨d, hz, hbd⟩
    · exact absurd hde (hsh a c b d e hac hcol.1 hcol.2 hbd)

/-- C13 for networks in which no node with two parents has a grandchild: for instance
forests, naive Bayes and layered networks with converging arrows in the last two layers
only. -/
theorem d_separated_shallow {N : Net} {V : List Nat} {E : Nat → Nat → Prop}
    (h : Represents N V E) (hsh : ∀ a b c d e, a ≠ b → E a c → E b c → E c d → ¬ E d e)
    (x y : Nat) (Z : List Nat) :
    ∃ r, condIndependent N x y Z = .ok r ∧ (r = true ↔ DSep E x y {z | z ∈ Z}) := by
  obtain ⟨r, h1, h2⟩ := dSeparated_spec h x y Z
  exact ⟨r, h1, h2.trans (shallow_iff hsh x y _)⟩

/-- C14.  A negative answer is always right: the nodes are d-connected. -/
theorem d_separated_false_connected {N : Net} {V : List Nat} {E : Nat → Nat → Prop}
    (h : Represents N V E) {x y : Nat} {Z : List Nat}
    (hf : condIndependent N x y Z = .ok false) : ¬ DSep E x y {z | z ∈ Z} := by
  obtain ⟨r, h1, h2⟩ := dSeparated_spec h x y Z
  rw [condIndependent, h1] at hf
  have hr : r = false := by simpa using hf
  have hc : Connected E (ChildOpen E (zset Z)) x y (zset Z) := by
    by_contra hn
    rw [hr] at h2
    exact Bool.noConfusion (h2.2 hn)
  exact fun hs => hs (hc.mono (fun b hb => hb.pearl))

/-- C14, contrapositive: d-separated nodes are always reported as separated. -/
theorem d_separated_complete {N : Net} {V : List Nat} {E : Nat → Nat → Prop}
    (h : Represents N V E) {x y : Nat} {Z : List Nat}
    (hs : DSep E x y {z | z ∈ Z}) : condIndependent N x y Z = .ok true := by
  obtain ⟨r, h1, -⟩ := dSeparated_spec h x y Z
  cases r with
  | true => exact h1
  | false => exact absurd hs (d_separated_false_connected h h1)

/-- C15.  Nodes joined by an edge are never reported as separated. -/
theorem adjacent_never_separated {N : Net} {V : List Nat} {E : Nat → Nat → Prop}
    (h : Represents N V E) {x y : Nat} (hne : x ≠ y) (hE : E x y ∨ E y x) (Z : List Nat) :
    condIndependent N x y Z = .ok false ∧ condIndependent N y x Z = .ok false := by
  obtain ⟨r, h1, h2⟩ := dSeparated_spec h x y Z
  have : r = false := by
    cases r with
    | false => rfl
    | true => exact absurd (connected_of_linked hne hE) (h2.1 rfl)
  subst this
  obtain ⟨r', h3, h4⟩ := d_separated_symmetric h x y Z
  exact ⟨h1, by rw [condIndependent, h4, ← h3, h1]⟩

/-- A node is never reported as separated from itself. -/
theorem self_never_separated {N : Net} {V : List Nat} {E : Nat → Nat → Prop}
    (h : Represents N V E) (x : Nat) (Z : List Nat) : condIndependent N x x Z = .ok false := by
  obtain ⟨r, h1, h2⟩ := dSeparated_spec h x x Z
  cases r with
  | false => exact h1
  | true =>
    exact absurd ⟨[x], ⟨by simp, rfl, rfl, by simp⟩, openPath_short (by simp)⟩ (h2.1 rfl)

/-- The diamond, exercised: 1 and 2 are reported connected given the collider 3. -/
example : condIndependent (ofNodes diamond) 0 1 [] = .ok false :=
  (adjacent_never_separated diamond_represents (by decide)
    (Or.inl ⟨[0], by decide, by decide⟩) []).1

/-! ## C51: the memo table of the path search -/

/-- C51.  On an unchanged network, any sequence of `d_separated` calls on a fresh object is
answered as if no table existed. -/
theorem path_cache_transparent (N : Net) (qs : List (Nat × List Nat × Nat)) :
    (NetObj.run ⟨N, []⟩ qs).1 = qs.map (fun q => dSeparated N q.1 q.2.1 q.2.2) :=
  netObj_run (by intro s e pa r h; simp [dictGet] at h) qs

/-- C51, for every history of `d_separated` and `from_directed_graph` calls on a fresh object:
an answer combines the paths of the graph that was in place when the ordered pair was first
asked about with the colliders of the current graph. -/
theorem path_cache_history_exact (N : Net) (es : List Event) :
    NetObj.history ⟨N, []⟩ es = remembered N (fun _ => none) es :=
  history_remembers (o := ⟨N, []⟩) (first := fun _ => none)
    ⟨(by intro _ _ _ h; cases h), (by intros; rfl)⟩ es

/-- C51 holds of every history that does not ask about a pair both before and after a load.
Missing from the full claim: histories that do, for which it is false
(`path_cache_stale_after_reload`). -/
theorem path_cache_transparent_partial (N : Net) (es : List Event) (h : NoRepeatAcrossLoads es) :
    NetObj.history ⟨N, []⟩ es = currentAnswers N es :=
  (path_cache_history_exact N es).trans
    (remembered_current es N _ (fun _ _ _ h => nomatch h) (fun _ _ _ h => nomatch h) h)

/-- A history with a load that meets the hypothesis: the pair asked afterwards is new (the order
of the ends counts). -/
example : NetObj.history ⟨fromDirected [(0, [1])], []⟩
      [.query 0 [] 1, .query 0 [1] 1, .load [(0, []), (1, [])], .query 1 [] 0] =
    currentAnswers (fromDirected [(0, [1])])
      [.query 0 [] 1, .query 0 [1] 1, .load [(0, []), (1, [])], .query 1 [] 0] := by
  apply path_cache_transparent_partial
  have key : ∀ (Z' : List Nat) (before after : List Event) (g : Adj),
      ([.load [(0, []), (1, [])], .query 1 [] 0] : List Event) = before ++ .load g :: after →
      ∀ Z, Event.query 0 Z 1 ∉ after := by
    intro _ before after g h Z hm
    have : Event.query 0 Z 1 ∈ ([.load [(0, []), (1, [])], .query 1 [] 0] : List Event) := by
      rw [h]; simp [hm]
    simp at this
  refine ⟨?_, key [], ⟨?_, trivial⟩⟩
  · intro before after g h Z hm
    have : Event.query 0 Z 1 ∈ after := hm
    match before, h with
    | [], h => simp at h
    | _ :: before, h =>
      simp only [List.cons_append, List.cons.injEq] at h
      exact key [] before after g h.2 Z hm
  · intro before after g h
    cases before <;> simp at h

/-- C51 fails across `from_directed_graph`: after loading `0→1`, querying, and loading the
edgeless graph on the same object, the old answer is still returned. -/
theorem path_cache_stale_after_reload :
    let o := (NetObj.fromDirected ⟨⟨[], []⟩, []⟩ [(0, [1])])
    let o' := (o.dSeparated 0 [] 1).2.fromDirected [(0, []), (1, [])]
    (o'.dSeparated 0 [] 1).1 = .ok false ∧ dSeparated o'.net 0 [] 1 = .ok true := by
  refine ⟨?_, ?_⟩
  · have h1 : (fromDirected [(0, [1])]).gu = [(0, [1]), (1, [0])] := by
      simp [fromDirected, allNodes, addTo, dictGet, dictSet, sortOrEmpty]
    have h0 : (fromDirected [(0, []), (1, [])]).gu = [(0, []), (1, [])] := by
      simp [fromDirected, allNodes, dictGet, dictSet, sortOrEmpty]
    simp only [NetObj.fromDirected, NetObj.dSeparated, h1, h0]
    simp [cachedRec, cachedLoop, pathFuel, allNodes, dictGet, dictSet, allBlocked, isBlocked]
    rfl
  · have h0 : (fromDirected [(0, []), (1, [])]).gu = [(0, []), (1, [])] := by
      simp [fromDirected, allNodes, dictGet, dictSet, sortOrEmpty]
    simp only [NetObj.fromDirected, NetObj.dSeparated, dSeparated, h0]
    rfl

end Mbtk.Graph
