import Verif.MB.Model
import Mathlib.Tactic.Tauto
import Mathlib.Tactic.Linarith
/-!
# The PCMB algorithm (`mbtk/algorithms/mb/pcmb.py`) and what it returns (C61)

The CI test and the heuristic are arbitrary functions that may raise.  A Python `set` is a
duplicate-free list; the order in which a set is visited is an arbitrary function of the set
(the same set built in the same way is visited in the same order).  Printing is not modelled.
-/
namespace Mbtk.MB.Pcmb

/-- What an `AlgorithmPCMB` object works with: pcmb.py 13-47. -/
structure Env where
  /-- `self.CI` -/
  ci : Nat → Nat → List Nat → Except Err Bool
  /-- `self.dep_heuristic.compute` -/
  dep : Nat → Nat → List Nat → Except Err ℚ
  /-- the order in which a set is visited -/
  order : List Nat → List Nat
  /-- `self.target` -/
  target : Nat
  /-- `self.U` -/
  U : List Nat

/-- `self.SepSetCache` and `self.SepSetZ`: pcmb.py 67-68. -/
structure Seps where
  cache : List (Nat × List Nat)
  z : List (Nat × List Nat)
  deriving DecidableEq, Repr

/-- `itertools.combinations(s, r)` in the order of itertools. pcmb.py 165-169. -/
def combinations : Nat → List Nat → List (List Nat)
  | 0, _ => [[]]
  | _ + 1, [] => []
  | r + 1, x :: xs => (combinations r xs).map (x :: ·) ++ combinations (r + 1) xs

/-- `powerset(iterable)`: pcmb.py 165-169, on the list of the elements. -/
def powerset (s : List Nat) : List (List Nat) :=
  (List.range (s.length + 1)).flatMap (fun r => combinations r s)

/-- The scan of `min(..., key=key)` after its first element. pcmb.py 143-146. -/
def minScan {α : Type} (key : α → Except Err ℚ) : List α → α → ℚ → Except Err α
  | [], best, _ => .ok best
  | y :: ys, best, bestKey => match key y with
    | .error e => .error e
    | .ok k => if k < bestKey then minScan key ys y k else minScan key ys best bestKey

/-- `min(l, key=key)`: the first element with the smallest key, `ValueError` for an empty `l`.
pcmb.py 143-146. -/
def minKey {α : Type} (key : α → Except Err ℚ) : List α → Except Err α
  | [] => .error .valueError
  | x :: xs => match key x with
    | .error e => .error e
    | .ok k => minScan key xs x k

/-- `strongest_separator(PCD, candidate)`: pcmb.py 143-146, with `dep` (158-162). -/
def strongestSeparator (E : Env) (PCD : List Nat) (X : Nat) : Except Err (List Nat) :=
  minKey (fun Z => E.dep E.target X Z) (powerset (E.order PCD))

/-- The loops that fill `SepSetCache`: pcmb.py 105-106 and 116-117.  `others X` is the set whose
subsets are tried for `X`. -/
def sepLoop (E : Env) (others : Nat → List Nat) : List Nat → List (Nat × List Nat) →
    Except Err (List (Nat × List Nat))
  | [], cache => .ok cache
  | X :: Xs, cache => match strongestSeparator E (others X) X with
    | .error e => .error e
    | .ok Z => sepLoop E others Xs (dictSet cache X Z)

/-- `find_false_candidates(PCD)`: pcmb.py 133-140, over the elements in the order given. -/
def falseLoop (E : Env) (cache : List (Nat × List Nat)) : List Nat → List Nat →
    List (Nat × List Nat) → Except Err (List Nat × List (Nat × List Nat))
  | [], fps, z => .ok (fps, z)
  | X :: Xs, fps, z => match dictGet cache X with
    | none => .error .keyError
    | some Z => match E.ci E.target X Z with
      | .error e => .error e
      | .ok true => falseLoop E cache Xs (setAdd fps X) (dictSet z X Z)
      | .ok false => falseLoop E cache Xs fps z

/-- `dep_with_separator(candidate)`: pcmb.py 153-155. -/
def depWithSeparator (E : Env) (cache : List (Nat × List Nat)) (X : Nat) : Except Err ℚ :=
  match dictGet cache X with
  | none => .error .keyError
  | some Z => E.dep E.target X Z

/-- The loop of `GetPCD`: pcmb.py 103-126, with `highest_correlated_candidate_sep` (149-150).  Every pass removes a candidate; `fuel` bounds the
number of passes (exceeding it is reported as an error). -/
def pcdLoop (E : Env) : Nat → List Nat → List Nat → Seps → Except Err (List Nat × Seps)
  | 0, _, _, _ => .error .recursion
  | fuel + 1, PCD, cands, s => do
    let cache1 ← sepLoop E (fun _ => PCD) (E.order cands) s.cache
    let f1 ← falseLoop E cache1 (E.order cands) [] s.z
    let c ← minKey (depWithSeparator E cache1) (E.order (diff cands f1.1))
    let cache2 ← sepLoop E (fun X => without (setAdd PCD c) X) (E.order (setAdd PCD c)) cache1
    let f2 ← falseLoop E cache2 (E.order (setAdd PCD c)) [] f1.2
    if f2.1.length = 0 then .ok (diff (setAdd PCD c) f2.1, ⟨cache2, f2.2⟩)
    else pcdLoop E fuel (diff (setAdd PCD c) f2.1) (without (diff cands f1.1) c) ⟨cache2, f2.2⟩

/-- `GetPCD(T)`: pcmb.py 97-130. -/
def getPCD (E : Env) (T : Nat) (s : Seps) : Except Err (List Nat × Seps) :=
  pcdLoop E (E.U.length + 1) [] (without E.U T) s

/-- The loop of `GetPC`: pcmb.py 91-93. -/
def pcLoop (E : Env) (T : Nat) : List Nat → List Nat → Seps → Except Err (List Nat × Seps)
  | [], PC, s => .ok (PC, s)
  | X :: Xs, PC, s => match getPCD E X s with
    | .error e => .error e
    | .ok (pcd, s) => if T ∈ pcd then pcLoop E T Xs (setAdd PC X) s else pcLoop E T Xs PC s

/-- `GetPC(T)`: pcmb.py 88-94. -/
def getPC (E : Env) (T : Nat) (s : Seps) : Except Err (List Nat × Seps) :=
  match getPCD E T s with
  | .error e => .error e
  | .ok (pcd, s) => pcLoop E T (E.order pcd) [] s

/-- The inner loop of `PCMB`: pcmb.py 76-83.  `Z` is a tuple (it comes from `combinations`), so
`Z | {Y}` raises `TypeError` and `MB.add` is never reached: the set `MB`, which is the same object
as `PC`, is not changed while it is iterated over. -/
def spouseLoop (E : Env) (PC : List Nat) : List Nat → Seps → Except Err Unit
  | [], _ => .ok ()
  | X :: Xs, s =>
    if X ∉ PC then match dictGet s.z X with
      | none => .error .keyError
      | some Z => match E.ci E.target X Z with
        | .error e => .error e
        | .ok false => .error (.custom "Exception")
        | .ok true => .error .typeError
    else spouseLoop E PC Xs s

/-- The outer loop of `PCMB`: pcmb.py 75. -/
def mbLoop (E : Env) (PC : List Nat) : List Nat → Seps → Except Err Unit
  | [], _ => .ok ()
  | Y :: Ys, s => match getPC E Y s with
    | .error e => .error e
    | .ok (pc, s) => match spouseLoop E PC (E.order pc) s with
      | .error e => .error e
      | .ok () => mbLoop E PC Ys s

/-- `discover_mb()`: pcmb.py 55-62 with `PCMB` (65-85); `CITest.end()` is not modelled. -/
def discoverMb (E : Env) : Except Err (List Nat) :=
  match getPC E E.target ⟨[], []⟩ with
  | .error e => .error e
  | .ok (PC, s) => match mbLoop E PC (E.order PC) s with
    | .error e => .error e
    | .ok () => .ok (pySorted PC)

/-! ## What `GetPCD` returns -/

/-- A set is visited completely, each element once. (Specification.) -/
def Fair (E : Env) : Prop := ∀ l, (E.order l).Perm l

/-- The heuristic of `X` given nothing. pcmb.py 158-162 with no conditioning set. -/
def dep0 (E : Env) (X : Nat) : Except Err ℚ := E.dep E.target X []

/-- The CI test of `X` given nothing. pcmb.py 133-140 with no conditioning set. -/
def ci0 (E : Env) (X : Nat) : Except Err Bool := E.ci E.target X []

theorem order_nil {E : Env} (h : Fair E) : E.order [] = [] := (h []).eq_nil

theorem order_single {E : Env} (h : Fair E) (c : Nat) : E.order [c] = [c] :=
  List.perm_singleton.1 (h [c])

theorem strongest_nil {E : Env} (h : Fair E) (X : Nat) :
    strongestSeparator E [] X = (dep0 E X).map (fun _ => []) := by
  unfold strongestSeparator
  rw [order_nil h]
  have : powerset [] = [[]] := rfl
  rw [this, minKey]
  unfold dep0
  cases E.dep E.target X [] <;> rfl

/-- Whether the heuristic can be computed for all elements.
(Models no code: a notion for statements and proofs.) -/
def depAll (E : Env) : List Nat → Except Err Unit
  | [] => .ok ()
  | X :: Xs => match dep0 E X with
    | .error e => .error e
    | .ok _ => depAll E Xs

/-- The elements found independent of the target given nothing.
(Models no code: a notion for statements and proofs.) -/
def indep0 (E : Env) : List Nat → Except Err (List Nat)
  | [] => .ok []
  | X :: Xs => match ci0 E X with
    | .error e => .error e
    | .ok true => (indep0 E Xs).map (X :: ·)
    | .ok false => indep0 E Xs

/-- All elements get the empty separating set.
(Models no code: a notion for statements and proofs.) -/
def setAll (cache : List (Nat × List Nat)) (Xs : List Nat) : List (Nat × List Nat) :=
  Xs.foldl (fun c X => dictSet c X []) cache

theorem setAll_get (Xs : List Nat) (cache : List (Nat × List Nat)) (k : Nat) :
    dictGet (setAll cache Xs) k = if k ∈ Xs then some [] else dictGet cache k := by
  induction Xs generalizing cache with
  | nil => simp [setAll]
  | cons X Xs ih =>
    rw [setAll, List.foldl_cons]
    change dictGet (setAll (dictSet cache X []) Xs) k = _
    rw [ih, dictGet_dictSet]
    by_cases h1 : k ∈ Xs
    · simp [h1]
    · by_cases h2 : X = k
      · subst h2; simp
      · simp [h1, h2, Ne.symm h2]

theorem sepLoop_nil {E : Env} (h : Fair E) (others : Nat → List Nat) (Xs : List Nat)
    (ho : ∀ X ∈ Xs, others X = []) (cache : List (Nat × List Nat)) :
    sepLoop E others Xs cache = (depAll E Xs).map (fun _ => setAll cache Xs) := by
  induction Xs generalizing cache with
  | nil => rfl
  | cons X Xs ih =>
    rw [sepLoop, ho X (by simp), strongest_nil h, depAll]
    cases dep0 E X with
    | error e => rfl
    | ok k => exact ih (fun X hX => ho X (by simp [hX])) _

theorem falseLoop_nil {E : Env} (cache : List (Nat × List Nat)) (Xs fps : List Nat)
    (z : List (Nat × List Nat)) (hc : ∀ X ∈ Xs, dictGet cache X = some []) :
    falseLoop E cache Xs fps z = (indep0 E Xs).map (fun is => (is.foldl setAdd fps, setAll z is)) := by
  induction Xs generalizing fps z with
  | nil => rfl
  | cons X Xs ih =>
    rw [falseLoop, hc X (by simp), indep0]
    change (match ci0 E X with | .error e => _ | .ok true => _ | .ok false => _) = _
    cases hci : ci0 E X with
    | error e => rfl
    | ok b =>
      cases b with
      | true =>
        simp only []
        rw [ih _ _ (fun X hX => hc X (by simp [hX]))]
        cases indep0 E Xs <;> rfl
      | false => exact ih _ _ (fun X hX => hc X (by simp [hX]))

theorem indep0_mem {E : Env} {Xs is : List Nat} (h : indep0 E Xs = .ok is) (X : Nat) :
    X ∈ is ↔ X ∈ Xs ∧ ci0 E X = .ok true := by
  induction Xs generalizing is with
  | nil => cases h; simp
  | cons Y Xs ih =>
    rw [indep0] at h
    cases hci : ci0 E Y with
    | error e => rw [hci] at h; cases h
    | ok b =>
      rw [hci] at h
      cases b with
      | true =>
        simp only [] at h
        cases hr : indep0 E Xs with
        | error e => rw [hr] at h; cases h
        | ok rest =>
          rw [hr] at h; cases h
          simp only [List.mem_cons, ih hr]
          constructor
          · rintro (rfl | ⟨h1, h2⟩)
            · exact ⟨.inl rfl, hci⟩
            · exact ⟨.inr h1, h2⟩
          · rintro ⟨rfl | h1, h2⟩
            · exact .inl rfl
            · exact .inr ⟨h1, h2⟩
      | false =>
        simp only [] at h
        rw [ih h]
        simp only [List.mem_cons]
        constructor
        · rintro ⟨h1, h2⟩; exact ⟨.inr h1, h2⟩
        · rintro ⟨rfl | h1, h2⟩
          · rw [hci] at h2; cases h2
          · exact ⟨h1, h2⟩

theorem indep0_decided {E : Env} {Xs is : List Nat} (h : indep0 E Xs = .ok is) (X : Nat) (hX : X ∈ Xs) :
    ∃ b, ci0 E X = .ok b := by
  induction Xs generalizing is with
  | nil => cases hX
  | cons Y Xs ih =>
    rw [indep0] at h
    cases hci : ci0 E Y with
    | error e => rw [hci] at h; cases h
    | ok b =>
      rw [hci] at h
      rcases List.mem_cons.1 hX with rfl | hX
      · exact ⟨b, hci⟩
      · cases b with
        | true =>
          simp only [] at h
          cases hr : indep0 E Xs with
          | error e => rw [hr] at h; cases h
          | ok rest => exact ih hr hX
        | false => exact ih h hX

theorem minScan_mem {α : Type} (key : α → Except Err ℚ) (l : List α) (b : α) (k : ℚ) (c : α)
    (h : minScan key l b k = .ok c) : c = b ∨ c ∈ l := by
  induction l generalizing b k with
  | nil => cases h; exact .inl rfl
  | cons y ys ih =>
    rw [minScan] at h
    cases hk : key y with
    | error e => rw [hk] at h; cases h
    | ok k' =>
      rw [hk] at h
      simp only [] at h
      split at h
      · rcases ih _ _ h with rfl | h
        · exact .inr (by simp)
        · exact .inr (by simp [h])
      · rcases ih _ _ h with rfl | h
        · exact .inl rfl
        · exact .inr (by simp [h])

theorem minKey_mem {α : Type} {key : α → Except Err ℚ} {l : List α} {c : α}
    (h : minKey key l = .ok c) : c ∈ l := by
  cases l with
  | nil => cases h
  | cons x xs =>
    rw [minKey] at h
    cases hk : key x with
    | error e => rw [hk] at h; cases h
    | ok k =>
      rw [hk] at h
      rcases minScan_mem _ _ _ _ _ h with rfl | h
      · simp
      · simp [h]

theorem minScan_congr {α : Type} {key key' : α → Except Err ℚ} (l : List α) (b : α) (k : ℚ)
    (h : ∀ x ∈ l, key x = key' x) : minScan key l b k = minScan key' l b k := by
  induction l generalizing b k with
  | nil => rfl
  | cons y ys ih =>
    rw [minScan, minScan, h y (by simp)]
    cases key' y with
    | error e => rfl
    | ok k' =>
      simp only []
      split <;> exact ih _ _ (fun x hx => h x (by simp [hx]))

theorem minKey_congr {α : Type} {key key' : α → Except Err ℚ} (l : List α)
    (h : ∀ x ∈ l, key x = key' x) : minKey key l = minKey key' l := by
  cases l with
  | nil => rfl
  | cons x xs =>
    rw [minKey, minKey, h x (by simp)]
    cases key' x with
    | error e => rfl
    | ok k => exact minScan_congr _ _ _ (fun x hx => h x (by simp [hx]))

theorem foldl_setAdd_mem (is fps : List Nat) (x : Nat) : x ∈ is.foldl setAdd fps ↔ x ∈ fps ∨ x ∈ is := by
  induction is generalizing fps with
  | nil => simp
  | cons i is ih =>
    rw [List.foldl_cons, ih]
    unfold setAdd
    split
    · rename_i h; constructor
      · rintro (h1 | h1) <;> simp [h1]
      · intro h1
        simp only [List.mem_cons] at h1
        rcases h1 with h1 | rfl | h1
        · exact .inl h1
        · exact .inl h
        · exact .inr h1
    · simp only [List.mem_append, List.mem_cons, List.not_mem_nil, or_false]
      tauto

/-- The single element that `GetPCD(T)` returns: the first, in the order of the set, of those that
are dependent on the target given nothing and have the smallest heuristic.
(Models no code: a notion for statements and proofs.) -/
def chosen (E : Env) (T : Nat) : Except Err Nat :=
  match depAll E (E.order (without E.U T)) with
  | .error e => .error e
  | .ok _ => match indep0 E (E.order (without E.U T)) with
    | .error e => .error e
    | .ok is => minKey (dep0 E) (E.order (diff (without E.U T) (is.foldl setAdd [])))

theorem depAll_mem {E : Env} {Xs : List Nat} (h : depAll E Xs = .ok ()) (X : Nat) (hX : X ∈ Xs) :
    ∃ k, dep0 E X = .ok k := by
  induction Xs with
  | nil => cases hX
  | cons Y Xs ih =>
    rw [depAll] at h
    cases hd : dep0 E Y with
    | error e => rw [hd] at h; cases h
    | ok k =>
      rw [hd] at h
      rcases List.mem_cons.1 hX with rfl | hX
      · exact ⟨k, hd⟩
      · exact ih h hX

/-- `GetPCD(T)` returns exactly one element, whatever the state of the caches, and afterwards
`SepSetZ` has entries only for elements that had one before or that are independent of the target
given nothing. -/
theorem getPCD_eq {E : Env} (hf : Fair E) (T : Nat) (s : Seps) :
    (∃ e, chosen E T = .error e ∧ getPCD E T s = .error e) ∨
    ∃ c s', chosen E T = .ok c ∧ getPCD E T s = .ok ([c], s') ∧ c ∈ E.U ∧ c ≠ T ∧
      ci0 E c = .ok false ∧
      ∀ k, dictGet s'.z k ≠ none → dictGet s.z k ≠ none ∨ ci0 E k = .ok true := by
  unfold getPCD pcdLoop chosen
  rw [sepLoop_nil hf _ _ (fun _ _ => rfl)]
  cases hd : depAll E (E.order (without E.U T)) with
  | error e => exact .inl ⟨e, rfl, rfl⟩
  | ok u =>
    have hcache : ∀ X ∈ E.order (without E.U T),
        dictGet (setAll s.cache (E.order (without E.U T))) X = some [] := by
      intro X hX; rw [setAll_get, if_pos hX]
    simp only [Except.map]
    show (∃ e, _ ∧ ((falseLoop E (setAll s.cache (E.order (without E.U T))) _ [] s.z) >>= _) = _) ∨
      ∃ c s', _ ∧ ((falseLoop E (setAll s.cache (E.order (without E.U T))) _ [] s.z) >>= _) = _ ∧ _
    rw [falseLoop_nil _ _ _ _ hcache]
    cases hi : indep0 E (E.order (without E.U T)) with
    | error e => exact .inl ⟨e, rfl, rfl⟩
    | ok is =>
      simp only [Except.map]
      have hkey : minKey (depWithSeparator E (setAll s.cache (E.order (without E.U T))))
          (E.order (diff (without E.U T) (is.foldl setAdd []))) =
          minKey (dep0 E) (E.order (diff (without E.U T) (is.foldl setAdd []))) := by
        apply minKey_congr
        intro x hx
        have hx1 := (hf _).mem_iff.1 hx
        have hx2 : x ∈ E.order (without E.U T) := (hf _).mem_iff.2 (List.mem_of_mem_filter hx1)
        rw [depWithSeparator, hcache x hx2]
        rfl
      show (∃ e, _ ∧ ((minKey (depWithSeparator E _) (E.order (diff _ (is.foldl setAdd [])))) >>= _) = _) ∨
        ∃ c s', _ ∧ ((minKey (depWithSeparator E _) (E.order (diff _ (is.foldl setAdd [])))) >>= _) = _ ∧ _
      rw [hkey]
      cases hc : minKey (dep0 E) (E.order (diff (without E.U T) (is.foldl setAdd []))) with
      | error e => exact .inl ⟨e, rfl, rfl⟩
      | ok c =>
        right
        have hc1 := (hf _).mem_iff.1 (minKey_mem hc)
        have hc2 : c ∈ without E.U T := List.mem_of_mem_filter hc1
        have hc3 : c ∉ is := by
          have := (List.mem_filter.1 hc1).2
          simp only [decide_eq_true_eq, foldl_setAdd_mem, not_or] at this
          exact this.2
        have hc4 : c ∈ E.order (without E.U T) := (hf _).mem_iff.2 hc2
        have hci : ci0 E c = .ok false := by
          obtain ⟨b, hb⟩ := indep0_decided hi c hc4
          cases b with
          | false => exact hb
          | true => exact absurd ((indep0_mem hi c).2 ⟨hc4, hb⟩) hc3
        obtain ⟨k, hk⟩ := depAll_mem hd c hc4
        have hset : setAdd ([] : List Nat) c = [c] := rfl
        have hwo : without [c] c = [] := by simp [without]
        refine ⟨c, ⟨setAll (setAll s.cache (E.order (without E.U T))) [c], setAll s.z is⟩, rfl, ?_,
          (List.mem_filter.1 hc2).1, by simpa using (List.mem_filter.1 hc2).2, hci, ?_⟩
        · show ((sepLoop E (fun X => without (setAdd [] c) X) (E.order (setAdd [] c)) _) >>= _) = _
          rw [hset, order_single hf, sepLoop_nil hf _ _ (by intro X hX; simp at hX; subst hX; exact hwo)]
          have hd1 : depAll E [c] = .ok () := by rw [depAll, hk]; rfl
          rw [hd1]
          simp only [Except.map]
          show ((falseLoop E _ [c] [] (setAll s.z is)) >>= _) = _
          rw [falseLoop_nil _ _ _ _ (by intro X hX; rw [setAll_get, if_pos hX])]
          have hi1 : indep0 E [c] = .ok [] := by rw [indep0, hci]; rfl
          rw [hi1]
          simp only [Except.map]
          rfl
        · intro x hx
          rw [setAll_get] at hx
          by_cases h : x ∈ is
          · exact .inr ((indep0_mem hi x).1 h).2
          · rw [if_neg h] at hx; exact .inl hx

theorem chosen_min {α : Type} {key : α → Except Err ℚ} (l : List α) (b : α) (k : ℚ) (c : α)
    (hb : key b = .ok k) (h : minScan key l b k = .ok c) :
    ∃ kc, key c = .ok kc ∧ kc ≤ k ∧ ∀ x ∈ l, ∃ kx, key x = .ok kx ∧ kc ≤ kx := by
  induction l generalizing b k with
  | nil => cases h; exact ⟨k, hb, le_refl _, by simp⟩
  | cons y ys ih =>
    rw [minScan] at h
    cases hk : key y with
    | error e => rw [hk] at h; cases h
    | ok k' =>
      rw [hk] at h
      simp only [] at h
      by_cases hlt : k' < k
      · rw [if_pos hlt] at h
        obtain ⟨kc, h1, h2, h3⟩ := ih _ _ hk h
        refine ⟨kc, h1, by linarith, ?_⟩
        intro x hx
        rcases List.mem_cons.1 hx with rfl | hx
        · exact ⟨k', hk, h2⟩
        · exact h3 x hx
      · rw [if_neg hlt] at h
        obtain ⟨kc, h1, h2, h3⟩ := ih _ _ hb h
        refine ⟨kc, h1, h2, ?_⟩
        intro x hx
        rcases List.mem_cons.1 hx with rfl | hx
        · exact ⟨k', hk, by linarith [not_lt.1 hlt]⟩
        · exact h3 x hx

theorem minKey_min {α : Type} {key : α → Except Err ℚ} {l : List α} {c : α}
    (h : minKey key l = .ok c) : ∃ kc, key c = .ok kc ∧ ∀ x ∈ l, ∃ kx, key x = .ok kx ∧ kc ≤ kx := by
  cases l with
  | nil => cases h
  | cons x xs =>
    rw [minKey] at h
    cases hk : key x with
    | error e => rw [hk] at h; cases h
    | ok k =>
      rw [hk] at h
      obtain ⟨kc, h1, h2, h3⟩ := chosen_min _ _ _ _ hk h
      refine ⟨kc, h1, ?_⟩
      intro y hy
      rcases List.mem_cons.1 hy with rfl | hy
      · exact ⟨k, hk, h2⟩
      · exact h3 y hy

/-! ## Specification -/

namespace Spec

/-- `c` is a variable other than `T` that the CI test finds dependent on the *target* given nothing,
and no other such variable has a smaller correlation with the target. (Specification.) -/
structure Weakest (E : Env) (T c : Nat) : Prop where
  inU : c ∈ E.U
  ne : c ≠ T
  dependent : E.ci E.target c [] = .ok false
  least : ∃ k, E.dep E.target c [] = .ok k ∧ ∀ x ∈ E.U, x ≠ T → E.ci E.target x [] = .ok false →
    ∃ kx, E.dep E.target x [] = .ok kx ∧ k ≤ kx

end Spec

theorem chosen_weakest {E : Env} (hf : Fair E) {T c : Nat} (h : chosen E T = .ok c) :
    Spec.Weakest E T c := by
  obtain ⟨e, h1, _⟩ | ⟨c', s', h1, _, h3, h4, h5, _⟩ := getPCD_eq hf T ⟨[], []⟩
  · rw [h] at h1; cases h1
  · rw [h] at h1; cases h1
    refine ⟨h3, h4, h5, ?_⟩
    unfold chosen at h
    cases hd : depAll E (E.order (without E.U T)) with
    | error e => rw [hd] at h; cases h
    | ok u =>
      rw [hd] at h
      cases hi : indep0 E (E.order (without E.U T)) with
      | error e => rw [hi] at h; cases h
      | ok is =>
        rw [hi] at h
        simp only [] at h
        obtain ⟨k, hk, hmin⟩ := minKey_min h
        refine ⟨k, hk, ?_⟩
        intro x hx hne hdep
        apply hmin x
        refine (hf _).mem_iff.2 (List.mem_filter.2 ⟨List.mem_filter.2 ⟨hx, by simpa using hne⟩, ?_⟩)
        simp only [decide_eq_true_eq, foldl_setAdd_mem, not_or]
        refine ⟨by simp, fun hin => ?_⟩
        have := ((indep0_mem hi x).1 hin).2
        unfold ci0 at this
        rw [hdep] at this; cases this

/-- `GetPCD(T)` never grows beyond one variable, and that variable is the one *least* correlated
with the target (`min` is used where the algorithm wants the most correlated candidate). -/
theorem pcd_is_the_weakest {E : Env} (hf : Fair E) (T : Nat) (s : Seps) {pcd : List Nat} {s' : Seps}
    (h : getPCD E T s = .ok (pcd, s')) : ∃ c, pcd = [c] ∧ Spec.Weakest E T c := by
  obtain ⟨e, _, h2⟩ | ⟨c, s1, h1, h2, _⟩ := getPCD_eq hf T s
  · rw [h] at h2; cases h2
  · rw [h] at h2; cases h2
    exact ⟨c, rfl, chosen_weakest hf h1⟩

/-- What `GetPC(T)` does, in terms of `chosen`. -/
theorem getPC_eq {E : Env} (hf : Fair E) (T : Nat) (s : Seps) :
    (∃ e, chosen E T = .error e ∧ getPC E T s = .error e) ∨
    (∃ c e, chosen E T = .ok c ∧ chosen E c = .error e ∧ getPC E T s = .error e) ∨
    ∃ c d s', chosen E T = .ok c ∧ chosen E c = .ok d ∧
      getPC E T s = .ok (if d = T then [c] else [], s') ∧
      ∀ k, dictGet s'.z k ≠ none → dictGet s.z k ≠ none ∨ ci0 E k = .ok true := by
  obtain ⟨e, h1, h2⟩ | ⟨c, s1, h1, h2, _, _, _, hz1⟩ := getPCD_eq hf T s
  · left
    exact ⟨e, h1, by rw [getPC, h2]⟩
  · right
    rw [getPC, h2]
    simp only []
    rw [order_single hf, pcLoop]
    obtain ⟨e, h3, h4⟩ | ⟨d, s2, h3, h4, _, _, _, hz2⟩ := getPCD_eq hf c s1
    · left
      exact ⟨c, e, h1, h3, by rw [h4]⟩
    · right
      refine ⟨c, d, s2, h1, h3, ?_, ?_⟩
      · rw [h4]
        simp only [List.mem_singleton]
        by_cases hdT : T = d
        · rw [if_pos hdT, if_pos hdT.symm]; rfl
        · rw [if_neg hdT, if_neg (Ne.symm hdT)]; rfl
      · intro k hk
        rcases hz2 k hk with h | h
        · exact hz1 k h
        · exact .inr h

/-- The complete behaviour of `discover_mb()`: errors of the first candidate choices pass through;
otherwise the result is the empty boundary or a `KeyError`. -/
theorem pcmb_outcome {E : Env} (hf : Fair E) :
    (∃ e, chosen E E.target = .error e ∧ discoverMb E = .error e) ∨
    (∃ c e, chosen E E.target = .ok c ∧ chosen E c = .error e ∧ discoverMb E = .error e) ∨
    (∃ c d, chosen E E.target = .ok c ∧ chosen E c = .ok d ∧
      discoverMb E = if d = E.target then .error .keyError else .ok []) := by
  obtain ⟨e, h1, h2⟩ | ⟨c, e, h1, h2, h3⟩ | ⟨c, d, s', h1, h2, h3, hz⟩ := getPC_eq hf E.target ⟨[], []⟩
  · exact .inl ⟨e, h1, by rw [discoverMb, h2]⟩
  · exact .inr (.inl ⟨c, e, h1, h2, by rw [discoverMb, h3]⟩)
  · refine .inr (.inr ⟨c, d, h1, h2, ?_⟩)
    rw [discoverMb, h3]
    by_cases hd : d = E.target
    · subst hd
      simp only [if_true]
      rw [order_single hf, mbLoop]
      obtain ⟨e, g1, _⟩ | ⟨c', e, g1, g2, _⟩ | ⟨c', d', s2, g1, g2, g3, gz⟩ := getPC_eq hf c s'
      · rw [h2] at g1; cases g1
      · rw [h2] at g1; cases g1
        rw [h1] at g2; cases g2
      · rw [h2] at g1; cases g1
        rw [h1] at g2; cases g2
        rw [g3]
        simp only [if_true]
        have hne : E.target ≠ c := (chosen_weakest hf h1).ne.symm
        have hdep := (chosen_weakest hf h2).dependent
        have hnone : dictGet s2.z E.target = none := by
          by_contra hcon
          rcases gz _ hcon with h | h
          · rcases hz _ h with h | h
            · exact h rfl
            · unfold ci0 at h; rw [hdep] at h; cases h
          · unfold ci0 at h; rw [hdep] at h; cases h
        rw [order_single hf, spouseLoop, if_pos (by simpa using hne), hnone]
    · rw [if_neg hd, if_neg hd]
      simp only []
      rw [order_nil hf, mbLoop]
      rfl

/-- `discover_mb()` never returns a variable: whenever it returns at all, the Markov boundary it
returns is empty. -/
theorem pcmb_never_finds {E : Env} (hf : Fair E) {mb : List Nat} (h : discoverMb E = .ok mb) :
    mb = [] := by
  obtain ⟨e, _, h2⟩ | ⟨c, e, _, _, h2⟩ | ⟨c, d, _, _, h2⟩ := pcmb_outcome hf
  · rw [h] at h2; cases h2
  · rw [h] at h2; cases h2
  · rw [h] at h2
    split at h2
    · cases h2
    · cases h2; rfl

/-- If the target is independent of everything the call raises `ValueError` (`min` of an empty set),
where the correct answer is the empty boundary. -/
theorem pcmb_isolated_raises {E : Env} (hf : Fair E)
    (hdep : ∀ x ∈ E.U, ∃ k, E.dep E.target x [] = .ok k)
    (hci : ∀ x ∈ E.U, x ≠ E.target → E.ci E.target x [] = .ok true) :
    discoverMb E = .error .valueError := by
  have key : chosen E E.target = .error .valueError := by
    have hU : ∀ l : List Nat, (∀ x ∈ l, ∃ k, dep0 E x = .ok k) → depAll E l = .ok () := by
      intro l
      induction l with
      | nil => intro _; rfl
      | cons a l ih =>
        intro hl
        obtain ⟨k, hk⟩ := hl a (by simp)
        rw [depAll, hk]
        exact ih (fun x hx => hl x (by simp [hx]))
    have hI : ∀ l : List Nat, (∀ x ∈ l, ci0 E x = .ok true) → indep0 E l = .ok l := by
      intro l
      induction l with
      | nil => intro _; rfl
      | cons a l ih =>
        intro hl
        rw [indep0, hl a (by simp), ih (fun x hx => hl x (by simp [hx]))]
        rfl
    have hmem : ∀ x ∈ E.order (without E.U E.target), x ∈ E.U ∧ x ≠ E.target := by
      intro x hx
      have := List.mem_filter.1 ((hf _).mem_iff.1 hx)
      exact ⟨this.1, by simpa using this.2⟩
    unfold chosen
    rw [hU _ (fun x hx => hdep x (hmem x hx).1)]
    simp only []
    rw [hI _ (fun x hx => hci x (hmem x hx).1 (hmem x hx).2)]
    simp only []
    have : diff (without E.U E.target) ((E.order (without E.U E.target)).foldl setAdd []) = [] := by
      refine List.filter_eq_nil_iff.2 ?_
      intro x hx
      simp only [decide_eq_true_eq, foldl_setAdd_mem, not_not]
      exact .inr ((hf _).mem_iff.2 hx)
    rw [this, order_nil hf]
    rfl
  obtain ⟨e, h1, h2⟩ | ⟨c, e, h1, _⟩ | ⟨c, d, h1, _⟩ := pcmb_outcome hf
  · rw [key] at h1; cases h1; exact h2
  · rw [key] at h1; cases h1
  · rw [key] at h1; cases h1

/-! ## Concrete runs -/

/-- Three variables, 0 — 1 — 2, target 0; the variables correlated with 0 are 1 and 2 (2 less), and 0
itself most of all. (Models no code: a notion for statements and proofs.) -/
def chainEnv : Env where
  ci := fun _ x z => .ok (decide (x = 2 ∧ 1 ∈ z))
  dep := fun _ x _ => .ok (if x = 0 then 1 else if x = 1 then 1/2 else 1/4)
  order := id
  target := 0
  U := [0, 1, 2]

/-- The true boundary is `[1]`; `GetPCD(0)` chooses 2, `GetPCD(2)` chooses 1, and the result is empty. -/
example : Fair chainEnv ∧ (chosen chainEnv 0).toOption = some 2 ∧ (discoverMb chainEnv).toOption = some [] :=
  ⟨fun _ => List.Perm.refl _, by decide +kernel, by decide +kernel⟩

/-- Two dependent variables: 0 → 1 with target 0.
(Models no code: a notion for statements and proofs.) -/
def pairEnv : Env where
  ci := fun _ _ _ => .ok false
  dep := fun _ x _ => .ok (if x = 0 then 1 else 1/2)
  order := id
  target := 0
  U := [0, 1]

example : Fair pairEnv := fun _ => List.Perm.refl _
/-- The true boundary is `[1]`; the call raises. -/
example : discoverMb pairEnv = .error .keyError := by rfl

/-- Two independent variables. (Models no code: a notion for statements and proofs.) -/
def isolatedEnv : Env where
  ci := fun t x _ => .ok (decide (t ≠ x))
  dep := fun _ _ _ => .ok 0
  order := id
  target := 0
  U := [0, 1]

example : discoverMb isolatedEnv = .error .valueError :=
  pcmb_isolated_raises (fun _ => List.Perm.refl _) (fun _ _ => ⟨0, rfl⟩)
    (fun x _ hne => by simp only [isolatedEnv] at *; simp [Ne.symm hne])

end Mbtk.MB.Pcmb
