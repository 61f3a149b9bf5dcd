import Verif.MB.Cost
/-!
# Statements of C93: the number of tests of the Markov blanket algorithms

`U` are the variables of the dataset, each once, `T` is the target; `s.log` and `s'.log` are the CI tests made
before and after the call.
-/
namespace Mbtk.MB

variable {σ κ : Type}

/-- `W`, counting the computations of the heuristic beside its own state. (Specification.) -/
def World.countHeur (W : World σ κ) : World (σ × Nat) κ where
  ask X Y Z p := match W.ask X Y Z p.1 with
    | .ok (r, w) => .ok (r, (w, p.2))
    | .error e => .error e
  heur X Y Z p := match W.heur X Y Z p.1 with
    | .ok (k, w) => .ok (k, (w, p.2 + 1))
    | .error e => .error e
  iter l p := ((W.iter l p.1).1, ((W.iter l p.1).2, p.2))

theorem countHeur_costs (W : World σ κ) : Costs W.countHeur (fun _ p => p.2) 0 1 where
  ask X Y Z w r w' log h := by
    simp only [World.countHeur] at h
    split at h
    · cases h; simp
    · cases h
  heur X Y Z w r w' log h := by
    simp only [World.countHeur] at h
    split at h
    · cases h; simp
    · cases h
  iter l w log := le_rfl

/-- **C93** (IAMB, tests).  Whatever the CI test answers and the heuristic says, IAMB makes at most two
CI tests per variable other than the target. -/
theorem iamb_number_of_tests [LinearOrder κ] {W : World σ κ} (hf : W.Fair) {U : List Nat} (hU : U.Nodup)
    {T : Nat} (hT : T ∈ U) {s s' : St σ} {mb : List Nat} (h : iamb W U T s = .ok (mb, s')) :
    s'.log.length ≤ s.log.length + 2 * (U.length - 1) := by
  have := iamb_cost (costs_tests W) hf U T s mb s' h
  rw [length_without_mem hU hT] at this
  omega

/-- **C93** (IAMB, heuristic).  With `m` variables beside the target, IAMB computes the correlation
heuristic at most `m (m + 1) / 2` times. -/
theorem iamb_number_of_heuristics [LinearOrder κ] {W : World σ κ} (hf : W.Fair) {U : List Nat}
    (hU : U.Nodup) {T : Nat} (hT : T ∈ U) {s s' : St (σ × Nat)} {mb : List Nat}
    (h : iamb W.countHeur U T s = .ok (mb, s')) :
    s'.w.2 ≤ s.w.2 + (U.length - 1) * U.length / 2 := by
  have hf' : W.countHeur.Fair := fun l p => hf l p.1
  have := iamb_cost (countHeur_costs W) hf' U T s mb s' h
  rw [length_without_mem hU hT, Nat.choose_two_right] at this
  have hpos := List.length_pos_of_mem hT
  have h1 : U.length - 1 + 1 = U.length := by omega
  rw [h1, Nat.mul_comm U.length] at this
  omega

/-- **C93** (`RecognizePC`).  Over `m` candidates, `RecognizePC` makes at most `m · 2^(m-1)` tests: a
candidate is tested against the target at most once given every subset of the other candidates. -/
theorem recognizePC_number_of_tests {W : World σ κ} (hf : W.Fair) {T : Nat} {adj : List Nat}
    (hn : adj.Nodup) {s s' : St σ} {pc : List Nat} (h : recognizePC W T adj s = .ok (pc, s')) :
    s'.log.length ≤ s.log.length + adj.length * 2 ^ (adj.length - 1) := by
  have := (pcLoop_cost (costs_tests W) hf T _ 0 adj s hn pc s' h).1
  rw [roundsFrom_zero] at this
  omega

/-- **C93** (`RecognizePC`, no repetition).  The tests made by one call of `RecognizePC` are all between a
candidate and the target, and no two of them are the same test: the same candidate given the same set. -/
theorem recognizePC_no_test_twice {W : World σ κ} (hf : W.Fair) {T : Nat} {adj : List Nat}
    (hn : adj.Nodup) {s s' : St σ} {pc : List Nat} (h : recognizePC W T adj s = .ok (pc, s')) :
    ∃ new, s'.log = s.log ++ new ∧ AllDifferent new ∧ ∀ q ∈ new, q.1 ∈ adj ∧ q.2.1 = T := by
  obtain ⟨new, h1, h2, h3⟩ := pcLoop_log hf T _ 0 adj s hn pc s' h
  exact ⟨new, h1, h2, fun q hq => ⟨(h3 q hq).1, (h3 q hq).2.1⟩⟩

/-- **C93** (`RecognizePC`, sparse).  If at most `d` of the candidates can be found dependent on the target
by a test without conditioning set, `RecognizePC` makes at most one test per candidate and `d (2^(d-1) - 1)`
more, and returns at most `d` variables. -/
theorem recognizePC_number_of_tests_sparse {W : World σ κ} (hf : W.Fair) {marginal : Nat → Nat → Bool}
    (hm : MarginalBy W marginal) {T : Nat} {adj : List Nat} (hn : adj.Nodup) {d : Nat}
    (hd : (adj.filter (marginal T)).length ≤ d) {s s' : St σ} {pc : List Nat}
    (h : recognizePC W T adj s = .ok (pc, s')) :
    s'.log.length ≤ s.log.length + (adj.length + d * (2 ^ (d - 1) - 1)) ∧ pc.length ≤ d := by
  obtain ⟨h1, h2⟩ := recognizePC_cost (costs_tests W) hf hm T hn hd s pc s' h
  exact ⟨by omega, le_trans h2.length_le hd⟩

/-- **C93** (IPC-MB, sparse).  With `m` variables beside the target, if every variable can be found
marginally dependent on at most `d` others, IPC-MB makes at most
`(d + 1) (m + d (2^(d-1) - 1)) + d (d - 1)` tests: linear in `m` for a fixed `d`. -/
theorem ipcmb_number_of_tests_sparse {W : World σ κ} (hf : W.Fair) {marginal : Nat → Nat → Bool}
    (hm : MarginalBy W marginal) {U : List Nat} (hU : U.Nodup) {d : Nat}
    (hd : ∀ X ∈ U, ((without U X).filter (marginal X)).length ≤ d) {T : Nat} (hT : T ∈ U)
    {pcOnly : Bool} {s s' : St σ} {mb : List Nat} (h : ipcmb W U T pcOnly s = .ok (mb, s')) :
    s'.log.length ≤ s.log.length +
      ((d + 1) * ((U.length - 1) + d * (2 ^ (d - 1) - 1)) + d * (d - 1)) := by
  have h1 := ipcmb_cost (costs_tests W) hf hm hU hd hT pcOnly s mb s' h
  have h2 : ipcmbTests (U.length - 1) d pcOnly ≤
      (d + 1) * ((U.length - 1) + d * (2 ^ (d - 1) - 1)) + d * (d - 1) := by
    unfold ipcmbTests pcTests
    split <;> omega
  omega

/-- **C93** (IPC-MB, any CI test).  With `n` variables in all, IPC-MB makes at most
`n (n - 1) 2^(n-2) + (n - 1) (n - 2)` tests, whatever the CI test answers. -/
theorem ipcmb_number_of_tests {W : World σ κ} (hf : W.Fair) {U : List Nat} (hU : U.Nodup) {T : Nat}
    (hT : T ∈ U) {pcOnly : Bool} {s s' : St σ} {mb : List Nat}
    (h : ipcmb W U T pcOnly s = .ok (mb, s')) :
    s'.log.length ≤ s.log.length +
      (U.length * (U.length - 1) * 2 ^ (U.length - 2) + (U.length - 1) * (U.length - 2)) := by
  have h1 := ipcmb_number_of_tests_sparse (d := U.length - 1) hf (marginal := fun _ _ => true)
    (fun _ _ _ _ _ => rfl) hU (fun X hX => by
      rw [List.filter_eq_self.2 (fun _ _ => rfl), length_without_mem hU hX]) hT h
  obtain ⟨n, hn⟩ : ∃ n, U.length = n + 1 := ⟨U.length - 1, by
    have := List.length_pos_of_mem hT; omega⟩
  rw [hn] at h1 ⊢
  have e1 : n + 1 - 1 = n := by omega
  have e2 : n + 1 - 2 = n - 1 := by omega
  rw [e1] at h1 ⊢
  rw [e2]
  have e3 : n + n * (2 ^ (n - 1) - 1) = n * 2 ^ (n - 1) := by
    have : 1 ≤ 2 ^ (n - 1) := Nat.one_le_two_pow
    calc n + n * (2 ^ (n - 1) - 1) = n * (1 + (2 ^ (n - 1) - 1)) := by ring
      _ = n * 2 ^ (n - 1) := by rw [Nat.add_sub_cancel' this]
  rw [e3, ← Nat.mul_assoc] at h1
  exact h1

/-- **C93** (the bounds are attained).  If every CI test answers "dependent", IAMB makes exactly two tests
per variable other than the target. -/
theorem iamb_tests_if_all_dependent [LinearOrder κ] {W : World σ κ} (hf : W.Fair) (hdep : W.Dependent)
    {U : List Nat} (hU : U.Nodup) {T : Nat} (hT : T ∈ U) {s s' : St σ} {mb : List Nat}
    (h : iamb W U T s = .ok (mb, s')) : s'.log.length = s.log.length + 2 * (U.length - 1) := by
  have := iamb_full hdep hf hU T s mb s' h
  rwa [length_without_mem hU hT] at this

/-- **C93** (the bounds are attained).  If every CI test answers "dependent", `RecognizePC` makes exactly
`m · 2^(m-1)` tests and returns every candidate. -/
theorem recognizePC_tests_if_all_dependent {W : World σ κ} (hf : W.Fair) (hdep : W.Dependent) {T : Nat}
    {adj : List Nat} (hn : adj.Nodup) {s s' : St σ} {pc : List Nat}
    (h : recognizePC W T adj s = .ok (pc, s')) :
    pc = adj ∧ s'.log.length = s.log.length + adj.length * 2 ^ (adj.length - 1) :=
  recognizePC_full hdep hf T hn s pc s' h

/-- **C93** (the cost is exponential).  If every CI test answers "dependent", IPC-MB over `n` variables makes
exactly `n (n - 1) 2^(n-2)` tests, with and without `pc_only`. -/
theorem ipcmb_tests_if_all_dependent {W : World σ κ} (hf : W.Fair) (hdep : W.Dependent) {U : List Nat}
    (hU : U.Nodup) {T : Nat} (hT : T ∈ U) {pcOnly : Bool} {s s' : St σ} {mb : List Nat}
    (h : ipcmb W U T pcOnly s = .ok (mb, s')) :
    s'.log.length = s.log.length + U.length * (U.length - 1) * 2 ^ (U.length - 2) := by
  rw [ipcmb_full hdep hf hU hT pcOnly s mb s' h, Nat.mul_assoc]

/-- **C93** (d-separation).  Over a known network, where every variable is d-connected to at most `d` others
given nothing, IPC-MB with the shipped d-separation test makes at most
`(d + 1) (n - 1 + d (2^(d-1) - 1)) + d (d - 1)` tests. -/
theorem ipcmb_tests_dseparation (N : Graph.Net) {o : List Nat → σ → List Nat × σ}
    (ho : ∀ l w, (o l w).1.Perm l) {U : List Nat} (hU : U.Nodup) {d : Nat}
    (hd : ∀ T ∈ U, ∀ l : List Nat, l.Nodup →
      (∀ X ∈ l, X ∈ U ∧ X ≠ T ∧ Graph.condIndependent N X T [] = .ok false) → l.length ≤ d)
    {T : Nat} (hT : T ∈ U) {pcOnly : Bool} {s s' : St σ} {mb : List Nat}
    (h : ipcmb (dsepWorld N o) U T pcOnly s = .ok (mb, s')) :
    s'.log.length ≤ s.log.length +
      ((d + 1) * ((U.length - 1) + d * (2 ^ (d - 1) - 1)) + d * (d - 1)) := by
  refine ipcmb_number_of_tests_sparse (W := dsepWorld N o) ho
    (marginal := fun T X => match Graph.condIndependent N X T [] with
      | .ok false => true
      | _ => false) ?_ hU ?_ hT h
  · intro T X w w' hw
    simp only [dsepWorld, dsepAsk] at hw
    cases hc : Graph.condIndependent N X T [] with
    | error e => rw [hc] at hw; cases hw
    | ok b =>
      cases b with
      | false => simp only [hc]
      | true => rw [hc] at hw; cases hw
  · intro X hX
    refine hd X hX _ ((nodup_without hU X).filter _) ?_
    intro Y hY
    obtain ⟨h1, h2⟩ := List.mem_filter.1 hY
    obtain ⟨h3, h4⟩ := mem_without.1 h1
    refine ⟨h3, h4, ?_⟩
    revert h2
    cases hc : Graph.condIndependent N Y X [] with
    | error e => simp
    | ok b => cases b <;> simp

/-! ## Examples -/

/-- Everything always looks dependent, and sets are visited in the order they are written in. (Example.) -/
def allDependentWorld : World Unit ℚ where
  ask _ _ _ w := .ok (.dependent, w)
  heur _ _ _ w := .ok (0, w)
  iter l w := (l, w)

/-- Variables of the same parity are always dependent, others never. (Example.) -/
def parityWorld : World Unit ℚ where
  ask X Y _ w := .ok (if X % 2 = Y % 2 then .dependent else .independent, w)
  heur _ _ _ w := .ok (0, w)
  iter l w := (l, w)

/-- No tests made yet. (Example.) -/
def noTests : St Unit := ⟨[], [], ()⟩

/-- The result of a run and the number of tests made. (Example.) -/
def resultAndTests {α : Type} (m : PyM (St Unit) α) : Option (α × Nat) :=
  match m noTests with
  | .ok (r, s) => some (r, s.log.length)
  | .error _ => none

/-- The tests a run made. (Example.) -/
def testsOf {α : Type} (m : PyM (St Unit) α) : Option (List Query) :=
  match m noTests with
  | .ok (_, s) => some s.log
  | .error _ => none

example : allDependentWorld.Fair ∧ allDependentWorld.Dependent ∧ parityWorld.Fair :=
  ⟨fun l _ => List.Perm.refl l, fun _ _ _ _ _ _ h => by cases h; rfl, fun l _ => List.Perm.refl l⟩

/-- Four variables: 6 tests of IAMB, 12 of `RecognizePC`, 48 of IPC-MB. -/
example : resultAndTests (iamb allDependentWorld [0, 1, 2, 3] 0) = some ([1, 2, 3], 6) := by decide +kernel

example : resultAndTests (recognizePC allDependentWorld 0 [1, 2, 3]) = some ([1, 2, 3], 12) := by
  decide +kernel

example : resultAndTests (ipcmb allDependentWorld [0, 1, 2, 3] 0 false) = some ([1, 2, 3], 48) := by
  decide +kernel

/-- With seven variables, each marginally dependent on at most 3 others. -/
example : MarginalBy parityWorld (fun T X => decide (X % 2 = T % 2)) ∧
    ∀ X ∈ [0, 1, 2, 3, 4, 5, 6],
      ((without [0, 1, 2, 3, 4, 5, 6] X).filter (fun Y => decide (Y % 2 = X % 2))).length ≤ 3 := by
  constructor
  · intro T X w w' h
    simp only [parityWorld] at h
    by_cases hp : X % 2 = T % 2
    · simp [hp]
    · rw [if_neg hp] at h; cases h
  · decide

example : resultAndTests (ipcmb parityWorld [0, 1, 2, 3, 4, 5, 6] 0 false) = some ([2, 4, 6], 60) := by
  decide +kernel

/-- The number of computations of the heuristic in the same run of IAMB: `3 · 4 / 2`. -/
example : (match iamb allDependentWorld.countHeur [0, 1, 2, 3] 0 ⟨[], [], ((), 0)⟩ with
    | .ok (_, s) => some s.w.2
    | .error _ => none) = some 6 := by decide +kernel

/-- **C93** (what is not promised).  IAMB can make the same test twice: the last test of the growing phase comes
again in the shrinking phase. -/
theorem iamb_can_repeat_a_test : testsOf (iamb allDependentWorld [0, 1, 2] 0) =
    some [(0, 1, []), (0, 2, [1]), (0, 1, [2]), (0, 2, [1])] := by decide +kernel

/-- **C93** (what is not promised).  IPC-MB tests the same pair again, with the roles swapped, in the symmetry
check: `RecognizePC` of the neighbour does not look at what `RecognizePC` of the target has found. -/
theorem ipcmb_repeats_tests_swapped : testsOf (ipcmb allDependentWorld [0, 1] 0 false) =
    some [(1, 0, []), (0, 1, [])] := by decide +kernel

/-- Two unconnected arcs, 0 → 1 and 2 → 3: every variable is d-connected to one other. (Example.) -/
def twoArcs : List (Nat × List Nat) := [(0, []), (1, [0]), (2, []), (3, [2])]

example : ∀ T ∈ [0, 1, 2, 3], ∀ l : List Nat, l.Nodup →
    (∀ X ∈ l, X ∈ [0, 1, 2, 3] ∧ X ≠ T ∧
      Graph.condIndependent (Graph.ofNodes twoArcs) X T [] = .ok false) → l.length ≤ 1 := by
  intro T hT l hl h
  have key : ∀ T ∈ [0, 1, 2, 3], ∀ X ∈ [0, 1, 2, 3], X ≠ T →
      Graph.condIndependent (Graph.ofNodes twoArcs) X T [] = .ok false →
      X = if T % 2 = 0 then T + 1 else T - 1 := by decide +kernel
  match l, hl, h with
  | [], _, _ => simp
  | [_], _, _ => simp
  | x :: y :: _, hl, h =>
    obtain ⟨h1, h2, h3⟩ := h x (by simp)
    obtain ⟨h4, h5, h6⟩ := h y (by simp)
    have := (key T hT x h1 h2 h3).trans (key T hT y h4 h5 h6).symm
    subst this
    simp at hl

example : resultAndTests (ipcmb (dsepWorld (Graph.ofNodes twoArcs) (fun l u => (l, u)))
    [0, 1, 2, 3] 0 false) = some ([1], 6) := by decide +kernel

end Mbtk.MB
