import Verif.Stats.Unopt
/-!
# The dcMI G-test meets its specification
-/
namespace Mbtk.Stats.Spec

/-- The sets of columns whose joint entropy a call needs.
(Models no code: a notion for statements and proofs.) -/
def entropySets (c : Call) : List (Finset Nat) :=
  [(c.1 :: c.2.1 :: c.2.2).toFinset, (c.1 :: c.2.2).toFinset, (c.2.1 :: c.2.2).toFinset,
    c.2.2.toFinset]

/-- The same for a history, without the empty set.
(Models no code: a notion for statements and proofs.) -/
def entropyRequests (cs : List Call) : List (Finset Nat) :=
  (cs.flatMap entropySets).filter (fun S => S ≠ ∅)

end Mbtk.Stats.Spec

namespace Mbtk.Stats
open Mbtk.ADTree (Data)
open Mbtk.MB (Answer)
open Spec Real

/-- An iteration order of frozensets: every set lists its elements, each once.
(Models no code: a notion for statements and proofs.) -/
def IsOrder (order : Finset Nat → List Nat) : Prop :=
  ∀ S, (order S).Nodup ∧ (order S).toFinset = S

theorem IsOrder.mem {order : Finset Nat → List Nat} (h : IsOrder order) (S : Finset Nat) (c : Nat) :
    c ∈ order S ↔ c ∈ S := by
  rw [← List.mem_toFinset, (h S).2]

theorem IsOrder.length {order : Finset Nat → List Nat} (h : IsOrder order) (S : Finset Nat) :
    (order S).length = S.card := by
  rw [← List.toFinset_card_of_nodup (h S).1, (h S).2]

/-- Key of the calculator's cache for a set of columns.
(Models no code: a notion for statements and proofs.) -/
def idSet (S : Finset Nat) : Finset Int := S.image (fun c : Nat => (c : Int))

theorem castIds_toFinset (cols : List Nat) : (castIds cols).toFinset = idSet cols.toFinset := by
  ext v
  simp [castIds, idSet]

/-- What is true of a dcMI test object that has looked up the entropies of the sets in
`req`. (Models no code: a notion for statements and proofs.) -/
structure DcOk (D : Data) (kind : DofKind) (order : Finset Nat → List Nat)
    (req : List (Finset Nat)) (s : DcState) : Prop where
  cache : CacheOk D s.base.cache
  reads : s.reads = req.length
  misses : s.misses = req.toFinset.card
  known : ∀ S, (dictGet s.jht S).isSome ↔ S ∈ req
  entropy : ∀ S H, dictGet s.jht S = some H → H = entropy D (order S)
  dofs : kind = .cached → ∀ S ∈ req, 2 ≤ S.card → (dictGet s.base.cache (idSet S)).isSome

/-- The log is not touched. (Models no code: a notion for statements and proofs.) -/
def DcSame (s s' : DcState) : Prop :=
  s'.base.counter = s.base.counter ∧ s'.base.results = s.base.results

theorem entropy_of_pmf {D : Data} {cols : List Nat} {pmf : PMF} (h : PmfOf D cols pmf) :
    -(pmf.expectedValue (fun q => (q : ℝ)) (fun _ p => log p)) = entropy D cols := by
  unfold PMF.expectedValue entropy
  rw [h.tab.sum (fun l l' _ _ e => mkKey_inj e) (fun _ p => (p : ℝ) * log (p : ℝ)) (by simp)
    (observed D cols) (fun l hl => observed_length D hl)
    (fun l _ hl => (freq_ne_zero_iff D _ _).1 hl)]

theorem jointEntropyTerm_ok {D : Data} {kind : DofKind} {order : Finset Nat → List Nat}
    (ho : IsOrder order) (hr : D.nrows ≠ 0) (S : Finset Nat) {req : List (Finset Nat)}
    {s : DcState} (hs : DcOk D kind order req s) :
    Ok (jointEntropyTerm D kind order S) s (fun H s' => H = entropy D (order S) ∧
      DcOk D kind order (req ++ [S].filter (fun S => S ≠ ∅)) s' ∧ DcSame s s') := by
  unfold jointEntropyTerm
  by_cases h0 : S.card = 0
  · have hS : S = ∅ := Finset.card_eq_zero.1 h0
    have hl : order S = [] := List.length_eq_zero_iff.1 (by rw [ho.length, h0])
    refine ⟨0, s, by dsimp only; rw [if_pos h0], by rw [hl, entropy_nil], ?_, rfl, rfl⟩
    simpa [hS] using hs
  · have hS : S ≠ ∅ := fun h => h0 (by rw [h]; rfl)
    have hf : [S].filter (fun S => S ≠ ∅) = [S] := by simp [hS]
    rw [hf]
    cases hg : dictGet s.jht S with
    | some H =>
      refine ⟨H, { s with reads := s.reads + 1 }, ?_, hs.entropy S H hg, ?_, rfl, rfl⟩
      · dsimp only; rw [if_neg h0, hg]
      · have hm : S ∈ req := (hs.known S).1 (by rw [hg]; rfl)
        refine ⟨hs.cache, ?_, ?_, ?_, hs.entropy, ?_⟩
        · simp [hs.reads]
        · show s.misses = _
          rw [hs.misses]
          congr 1
          ext T
          simp only [List.mem_toFinset, List.mem_append, List.mem_singleton]
          constructor
          · exact .inl
          · rintro (h | rfl)
            · exact h
            · exact hm
        · intro T
          show (dictGet s.jht T).isSome ↔ _
          rw [hs.known]
          simp only [List.mem_append, List.mem_singleton]
          constructor
          · exact .inl
          · rintro (h | rfl)
            · exact h
            · exact hm
        · intro hk T hT
          refine hs.dofs hk T ?_
          rcases List.mem_append.1 hT with h | h
          · exact h
          · rw [List.mem_singleton.1 h]; exact hm
    | none =>
      have hne : order S ≠ [] := by
        intro h; apply h0; rw [← ho.length, h]; rfl
      obtain ⟨pmf, e1, t1, j1⟩ := pmf_ok D hr hne (.inl rfl : IsVarOf D (order S) _)
      have hcab := cacheable_of_tab (ho S).1 t1.tab (.inl (j1.trans (jointIDs_of D _)))
      obtain ⟨a1, a2, a3, a4, _⟩ := contextPmf_ok kind hs.cache hcab
      have hn : S ∉ req := fun h => by
        have := (hs.known S).2 h; rw [hg] at this; simp at this
      refine ⟨entropy D (order S), ⟨{ s.base with cache := (contextPmf kind s.base.cache pmf).1 },
          dictSet s.jht S (entropy D (order S)), s.reads + 1, s.misses + 1⟩,
        ?_, rfl, ?_, rfl, rfl⟩
      · dsimp only; rw [if_neg h0, hg]; dsimp only
        rw [getVariablesOfSet_ok]
        show (PMF.ofVariable (.joint ((order S).map (column D))) >>= _) = _
        rw [e1]
        show Except.ok _ = _
        rw [entropy_of_pmf t1]
      · refine ⟨a1, ?_, ?_, ?_, ?_, ?_⟩
        · simp [hs.reads]
        · show s.misses + 1 = _
          rw [hs.misses]
          have : (req ++ [S]).toFinset = insert S req.toFinset := by
            ext T; simp
          rw [this, Finset.card_insert_of_notMem (by simpa using hn)]
        · intro T
          show (dictGet (dictSet s.jht S _) T).isSome ↔ _
          rw [dictGet_dictSet]
          by_cases h : S = T
          · subst h; simp
          · have h' : T ≠ S := fun e => h e.symm
            simp [h, h', hs.known]
        · intro T H hT
          change dictGet (dictSet s.jht S _) T = some H at hT
          rw [dictGet_dictSet] at hT
          by_cases h : S = T
          · subst h; simpa using hT.symm
          · rw [if_neg h] at hT; exact hs.entropy T H hT
        · intro hk T hT h2
          show (dictGet (contextPmf kind s.base.cache pmf).1 (idSet T)).isSome
          rcases List.mem_append.1 hT with h | h
          · exact a2 _ (hs.dofs hk T h h2)
          · rw [List.mem_singleton.1 h] at h2 ⊢
            have := a3 hk _ (j1.trans (jointIDs_of D _))
              (by rw [castIds_length, ho.length]; exact h2)
            rwa [castIds_toFinset, (ho S).2] at this

theorem DcSame.trans {s s' s'' : DcState} (h : DcSame s s') (h' : DcSame s' s'') :
    DcSame s s'' := ⟨h'.1.trans h.1, h'.2.trans h.2⟩

theorem entropyRequests_cons (c : Call) (cs : List Call) :
    entropyRequests (c :: cs) = entropyRequests [c] ++ entropyRequests cs := by
  simp [entropyRequests]

theorem dcGValue_ok {D : Data} {kind : DofKind} {order : Finset Nat → List Nat}
    (ho : IsOrder order) (hr : D.nrows ≠ 0) (X Y : Nat) (Z : List Nat) {req : List (Finset Nat)}
    {s : DcState} (hs : DcOk D kind order req s) :
    Ok (dcGValue D kind order X Y Z) s (fun g s' => g = G D X Y Z ∧
      DcOk D kind order (req ++ entropyRequests [(X, Y, Z)]) s' ∧ DcSame s s') := by
  unfold dcGValue
  refine Ok.bind ((jointEntropyTerm_ok ho hr _ hs).mono ?_)
  rintro H1 s1 ⟨rfl, d1, l1⟩
  refine Ok.bind ((jointEntropyTerm_ok ho hr _ d1).mono ?_)
  rintro H2 s2 ⟨rfl, d2, l2⟩
  refine Ok.bind ((jointEntropyTerm_ok ho hr _ d2).mono ?_)
  rintro H3 s3 ⟨rfl, d3, l3⟩
  refine Ok.bind ((jointEntropyTerm_ok ho hr _ d3).mono ?_)
  rintro H4 s4 ⟨rfl, d4, l4⟩
  refine Ok.ret ⟨?_, ?_, ((l1.trans l2).trans l3).trans l4⟩
  · have h : ∀ cols : List Nat, entropy D (order cols.toFinset) = entropy D cols := by
      intro cols
      exact entropy_perm D (fun c => by rw [ho.mem, List.mem_toFinset])
    rw [h, h, h, h]
    unfold G
    rw [cmi_eq_entropies]
  · have e : req ++ entropyRequests [(X, Y, Z)] =
        req ++ [(X :: Y :: Z).toFinset].filter (fun S => S ≠ ∅) ++
        [(X :: Z).toFinset].filter (fun S => S ≠ ∅) ++
        [(Y :: Z).toFinset].filter (fun S => S ≠ ∅) ++
        [Z.toFinset].filter (fun S => S ≠ ∅) := by
      unfold entropyRequests entropySets
      rw [List.flatMap_cons, List.flatMap_nil, List.append_nil, List.append_assoc,
        List.append_assoc, List.append_assoc, ← List.filter_append, ← List.filter_append,
        ← List.filter_append]
      rfl
    rw [e]
    exact d4

/-- One call of the dcMI test. -/
theorem dcCall_ok {D : Data} {cfg : Config} {order : Finset Nat → List Nat} (ho : IsOrder order)
    (hk : cfg.kind ≠ .structural) (hr : D.nrows ≠ 0) {c : Call}
    (hd : Declared D (c.1 :: c.2.1 :: c.2.2)) (hn : (c.1 :: c.2.1 :: c.2.2).Nodup)
    {req : List (Finset Nat)} {s : DcState} (hs : DcOk D cfg.kind order req s) :
    Ok (dcCall D cfg order c) s (fun a s' => IsAnswer D cfg c.1 c.2.1 c.2.2 a ∧
      DcOk D cfg.kind order (req ++ entropyRequests [c]) s' ∧
      s'.base.counter = s.base.counter + 1 ∧
      s'.base.results = s.base.results ++ [loggedResult D cfg s.base.counter c]) := by
  obtain ⟨X, Y, Z⟩ := c
  unfold dcCall
  have h : Ok (dcTest D cfg order X Y Z) s (fun r s' =>
      r = makeResult cfg D.nrows s.base.counter X Y Z (G D X Y Z) (dofOf D cfg.kind X Y Z) ∧
      (DcOk D cfg.kind order (req ++ entropyRequests [(X, Y, Z)]) s' ∧ DcSame s s')) := by
    obtain ⟨g, s1, e, rfl, h1, h2⟩ := dcGValue_ok ho hr X Y Z hs
    have hin : (X :: Y :: Z).toFinset ∈ req ++ entropyRequests [(X, Y, Z)] := by
      refine List.mem_append_right _ (List.mem_filter.2 ⟨by simp [entropySets], ?_⟩)
      simp only [decide_eq_true_eq]
      intro h0
      have : X ∈ (X :: Y :: Z).toFinset := by simp
      rw [h0] at this; simp at this
    obtain ⟨t', e2, _⟩ := calculateDof_ok (t := ⟨[], [], [], PMF.empty⟩) cfg.kind hd hn h1.cache
      (fun h => absurd h hk) (fun hc => by
        rw [castIds_toFinset]
        refine h1.dofs hc _ hin ?_
        rw [List.toFinset_card_of_nodup hn]
        simp)
    refine ⟨_, s1, ?_, rfl, h1, h2⟩
    unfold dcTest
    rw [e]
    show (calculateDof D cfg.kind s1.base.cache X Y Z _ >>= _) = _
    rw [e2]
    show Except.ok _ = _
    rw [h2.1]
  refine (conditionallyIndependent_ok (c := (X, Y, Z)) (P := fun s' =>
    DcOk D cfg.kind order (req ++ entropyRequests [(X, Y, Z)]) s' ∧ DcSame s s') h).mono ?_
  rintro a s' ⟨ha, s1, ⟨h1, h2⟩, rfl⟩
  refine ⟨ha, ⟨h1.cache, h1.reads, h1.misses, h1.known, h1.entropy, h1.dofs⟩, ?_, ?_⟩
  · simp [Base.log, h2.1]
  · simp [Base.log, h2.2]

theorem DcOk.init (D : Data) (kind : DofKind) (order : Finset Nat → List Nat) :
    DcOk D kind order [] {} := by
  refine ⟨?_, rfl, rfl, ?_, ?_, ?_⟩
  · intro S vars pw h; simp [dictGet] at h
  · intro S; simp [dictGet]
  · intro S H h; simp [dictGet] at h
  · intro _ S h; simp at h

/-- Saving and loading both files keeps what is known. -/
theorem DcOk.reload {D : Data} {kind : DofKind} {order : Finset Nat → List Nat}
    {req : List (Finset Nat)} {s : DcState} (h : DcOk D kind order req s) :
    DcOk D kind order req (s.save.load true) :=
  ⟨h.cache, h.reads, h.misses, h.known, h.entropy, h.dofs⟩

end Mbtk.Stats
