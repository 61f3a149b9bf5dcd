import Verif.Graph.Cached
/-!
# The memoised path search when the graph is replaced

`functools.cache` (BayesianNetwork.py 476) keeps its entries when `from_directed_graph` replaces
the graph.  This file determines exactly which graph every later answer is computed from.
-/
namespace Mbtk.Graph

/-- What a program does with one network object. BayesianNetwork.py 364-411. -/
inductive Event where
  /-- `d_separated(x, Z, y)`: BayesianNetwork.py 404-411 -/
  | query (x : Nat) (Z : List Nat) (y : Nat)
  /-- `from_directed_graph(g)`: BayesianNetwork.py 364-397 -/
  | load (g : Adj)

/-- A history of calls on one object, with the answers of the queries.
BayesianNetwork.py 364-411, several calls. -/
def NetObj.history (o : NetObj) : List Event → List (Except Err Bool)
  | [] => []
  | .query x Z y :: es => (o.dSeparated x Z y).1 :: (o.dSeparated x Z y).2.history es
  | .load g :: es => (o.fromDirected g).history es

/-- Specification.  The graph whose paths answer a query is the one that was in place when the
same ordered pair of nodes was first asked about; the graph that decides about colliders is the
current one.  `first` records the pairs asked so far. -/
def remembered (N : Net) (first : Nat × Nat → Option Adj) : List Event → List (Except Err Bool)
  | [] => []
  | .query x Z y :: es =>
    allBlocked N.gd Z (pathVal ((first (x, y)).getD N.gu) x y []) ::
      remembered N (fun p => if p = (x, y) then some ((first (x, y)).getD N.gu) else first p) es
  | .load g :: es => remembered (fromDirected g) first es

/-- The node from which the search that made an entry had started.
(Models no code: a notion for statements and proofs.) -/
def origin (s : Nat) (pa : Option (List Nat)) : Nat := ((pa.getD []) ++ [s]).headD 0

theorem origin_step (s n : Nat) (pa : Option (List Nat)) :
    origin n (some (pa.getD [] ++ [s])) = origin s pa := by
  unfold origin
  simp only [Option.getD_some]
  cases pa.getD [] <;> rfl

/-- The entries made by searches from `o` to `e` are right for the graph `g`.
(Models no code: a notion for statements and proofs.) -/
def MemoFor (g : Adj) (o e : Nat) (memo : PathMemo) : Prop :=
  ∀ s pa r, origin s pa = o → dictGet memo (s, e, pa) = some r → r = pathVal g s e (pa.getD [])

/-- The entries of other searches are the same.
(Models no code: a notion for statements and proofs.) -/
def SameElsewhere (o e : Nat) (m m' : PathMemo) : Prop :=
  ∀ s e' pa, (origin s pa ≠ o ∨ e' ≠ e) → dictGet m' (s, e', pa) = dictGet m (s, e', pa)

theorem SameElsewhere.refl (o e : Nat) (m : PathMemo) : SameElsewhere o e m m := fun _ _ _ _ => rfl

theorem SameElsewhere.trans {o e : Nat} {a b c : PathMemo} (h : SameElsewhere o e a b)
    (h' : SameElsewhere o e b c) : SameElsewhere o e a c :=
  fun s e' pa hk => (h' s e' pa hk).trans (h s e' pa hk)

theorem MemoFor.set {g : Adj} {o e : Nat} {memo : PathMemo} (h : MemoFor g o e memo) {s : Nat}
    {pa : Option (List Nat)} {r : List (List Nat)} (hr : r = pathVal g s e (pa.getD [])) :
    MemoFor g o e (dictSet memo (s, e, pa) r) := by
  intro s' pa' r' ho h'
  rw [dictGet_dictSet] at h'
  split at h'
  · rename_i heq; cases heq; cases h'; exact hr
  · exact h _ _ _ ho h'

theorem SameElsewhere.set {o e : Nat} {m m' : PathMemo} (h : SameElsewhere o e m m') {s : Nat}
    {pa : Option (List Nat)} (ho : origin s pa = o) (r : List (List Nat)) :
    SameElsewhere o e m (dictSet m' (s, e, pa) r) := by
  intro s' e' pa' hk
  rw [dictGet_dictSet, if_neg]
  · exact h s' e' pa' hk
  · intro heq; cases heq
    rcases hk with hk | hk
    · exact hk ho
    · exact hk rfl

theorem cachedRec_for {g : Adj} {stop o : Nat} (fuel : Nat) :
    ∀ (s : Nat) (pa : Option (List Nat)) (memo : PathMemo), origin s pa = o → MemoFor g o stop memo →
      GoodCall g s (pa.getD []) → pathFuel g ≤ fuel + (pa.getD []).length →
      fuel ≤ pathFuel g →
      (cachedRec g stop fuel s pa memo).1 = pathVal g s stop (pa.getD []) ∧
      MemoFor g o stop (cachedRec g stop fuel s pa memo).2 ∧
      SameElsewhere o stop memo (cachedRec g stop fuel s pa memo).2 ∧
      (dictGet (cachedRec g stop fuel s pa memo).2 (s, stop, pa)).isSome = true := by
  induction fuel with
  | zero =>
    intro s pa memo ho hm hg hf hle
    exfalso
    have h1 : (pa.getD [] ++ [s]).tail.length ≤ (allNodes g).length :=
      (List.Nodup.subperm (hg.nodup.sublist (List.tail_sublist _)) hg.sub).length_le
    simp only [List.length_tail, List.length_append, List.length_singleton] at h1
    simp only [pathFuel] at hf; omega
  | succ fuel ih =>
    intro s pa memo ho hm hg hf hle
    rw [cachedRec]
    cases hmem : dictGet memo (s, stop, pa) with
    | some r => exact ⟨hm _ _ _ ho hmem, hm, .refl _ _ _, by rw [hmem]; rfl⟩
    | none =>
      have hval := pathsRec_eq_val (stop := stop) hg (pathFuel g - (fuel + 1)) (fuel + 1) hf
        (by omega)
      rw [pathsRec] at hval
      dsimp only at hval ⊢
      by_cases hst : s = stop
      · subst hst
        simp only [if_true] at hval ⊢
        exact ⟨hval, hm.set hval, (SameElsewhere.refl _ _ _).set ho _, by rw [dictGet_dictSet, if_pos rfl]; rfl⟩
      · simp only [hst, if_false] at hval ⊢
        cases hd : dictGet g s with
        | none =>
          rw [hd] at hval
          exact ⟨hval, hm.set hval, (SameElsewhere.refl _ _ _).set ho _,
            by rw [dictGet_dictSet, if_pos rfl]; rfl⟩
        | some ns =>
          rw [hd] at hval
          dsimp only at hval ⊢
          have hloop : ∀ (l : List Nat) (memo : PathMemo), (∀ n ∈ l, n ∈ ns) → MemoFor g o stop memo →
              (cachedLoop g stop fuel l (pa.getD [] ++ [s]) memo).1 =
                l.flatMap (fun n => if n ∈ pa.getD [] ++ [s] then []
                  else pathsRec g stop fuel n (pa.getD [] ++ [s])) ∧
              MemoFor g o stop (cachedLoop g stop fuel l (pa.getD [] ++ [s]) memo).2 ∧
              SameElsewhere o stop memo (cachedLoop g stop fuel l (pa.getD [] ++ [s]) memo).2 := by
            intro l
            induction l with
            | nil => intro memo _ hm; rw [cachedLoop]; exact ⟨rfl, hm, .refl _ _ _⟩
            | cons n l ihl =>
              intro memo hsub hm
              rw [cachedLoop]
              by_cases hn : n ∈ pa.getD [] ++ [s]
              · simp only [hn, if_true, List.flatMap_cons, List.nil_append]
                exact ihl memo (fun m hm' => hsub m (by simp [hm'])) hm
              · simp only [hn, if_false, List.flatMap_cons]
                have hg' := hg.step hd (hsub n (by simp)) hn
                obtain ⟨h1, h2, h2', _⟩ := ih n (some (pa.getD [] ++ [s])) memo
                  ((origin_step s n pa).trans ho) hm hg' (by simp; omega) (by omega)
                obtain ⟨h3, h4, h4'⟩ := ihl _ (fun m hm' => hsub m (by simp [hm'])) h2
                refine ⟨?_, h4, h2'.trans h4'⟩
                rw [h1, h3]
                congr 1
                exact (pathsRec_eq_val hg' (pathFuel g - fuel) fuel (by simp; omega)
                  (by omega)).symm
          obtain ⟨h1, h2, h2'⟩ := hloop ns memo (fun _ h => h) hm
          have h3 := h1.trans hval
          exact ⟨h3, h2.set h3, h2'.set ho _, by rw [dictGet_dictSet, if_pos rfl]; rfl⟩

/-- The table of an object that was asked about the pairs in `first`.
(Models no code: a notion for statements and proofs.) -/
structure Remembers (first : Nat × Nat → Option Adj) (memo : PathMemo) : Prop where
  asked : ∀ x y g, first (x, y) = some g → dictGet memo (x, y, none) = some (pathVal g x y [])
  new : ∀ x y, first (x, y) = none → ∀ s pa, origin s pa = x → dictGet memo (s, y, pa) = none

theorem dSeparated_remembers {o : NetObj} {first : Nat × Nat → Option Adj}
    (h : Remembers first o.memo) (x : Nat) (Z : List Nat) (y : Nat) :
    (o.dSeparated x Z y).1 = allBlocked o.net.gd Z (pathVal ((first (x, y)).getD o.net.gu) x y []) ∧
    (o.dSeparated x Z y).2.net = o.net ∧
    Remembers (fun p => if p = (x, y) then some ((first (x, y)).getD o.net.gu) else first p)
      (o.dSeparated x Z y).2.memo := by
  cases hf : first (x, y) with
  | some g =>
    have hget := h.asked x y g hf
    have hrec : cachedRec o.net.gu y (pathFuel o.net.gu) x none o.memo = (pathVal g x y [], o.memo) := by
      rw [pathFuel, cachedRec, hget]
    refine ⟨?_, rfl, ?_⟩
    · change allBlocked o.net.gd Z (cachedRec o.net.gu y (pathFuel o.net.gu) x none o.memo).1 = _
      rw [hrec]; rfl
    · change Remembers _ (cachedRec o.net.gu y (pathFuel o.net.gu) x none o.memo).2
      rw [hrec]
      have : (fun p => if p = (x, y) then some ((some g).getD o.net.gu) else first p) = first := by
        funext p; by_cases hp : p = (x, y)
        · subst hp; rw [if_pos rfl, hf]; rfl
        · rw [if_neg hp]
      rw [this]; exact h
  | none =>
    obtain ⟨h1, h2, h3, h4⟩ := cachedRec_for (g := o.net.gu) (stop := y) (o := x)
      (pathFuel o.net.gu) x none o.memo rfl
      (by intro s pa r ho hr; rw [h.new x y hf s pa ho] at hr; cases hr)
      ⟨by simp, by simp⟩ (by simp) (by simp)
    refine ⟨?_, rfl, ?_, ?_⟩
    · change allBlocked o.net.gd Z (cachedRec o.net.gu y (pathFuel o.net.gu) x none o.memo).1 = _
      rw [h1]; rfl
    · intro a b g hg
      change dictGet (cachedRec o.net.gu y (pathFuel o.net.gu) x none o.memo).2 _ = _
      by_cases hp : (a, b) = (x, y)
      · cases hp
        rw [if_pos rfl] at hg
        cases hg
        obtain ⟨r, hr⟩ := Option.isSome_iff_exists.1 h4
        rw [hr, h2 x none r rfl hr]; rfl
      · rw [if_neg hp] at hg
        rw [h3 a b none]
        · exact h.asked a b g hg
        · by_contra hc
          push Not at hc
          exact hp (by rw [← hc.1, ← hc.2]; rfl)
    · intro a b hab s pa ho
      change dictGet (cachedRec o.net.gu y (pathFuel o.net.gu) x none o.memo).2 _ = _
      by_cases hp : (a, b) = (x, y)
      · rw [if_pos hp] at hab; cases hab
      · rw [if_neg hp] at hab
        rw [h3 s b pa]
        · exact h.new a b hab s pa ho
        · by_contra hc
          push Not at hc
          exact hp (by rw [← hc.1, ← hc.2, ho])

theorem history_remembers {o : NetObj} {first : Nat × Nat → Option Adj}
    (h : Remembers first o.memo) (es : List Event) : o.history es = remembered o.net first es := by
  induction es generalizing o first with
  | nil => rfl
  | cons e es ih =>
    cases e with
    | query x Z y =>
      obtain ⟨h1, h2, h3⟩ := dSeparated_remembers h x Z y
      rw [NetObj.history, remembered, h1, ih h3, h2]
    | load g =>
      rw [NetObj.history, remembered]
      exact ih (o := o.fromDirected g) h

/-- The answers a user expects: every query answered from the current graph.
(Specification.) -/
def currentAnswers (N : Net) : List Event → List (Except Err Bool)
  | [] => []
  | .query x Z y :: es => dSeparated N x Z y :: currentAnswers N es
  | .load g :: es => currentAnswers (fromDirected g) es

/-- No ordered pair that is asked about before a graph is loaded is asked about again after.
(Specification.) -/
def NoRepeatAcrossLoads : List Event → Prop
  | [] => True
  | .query x _ y :: es => (∀ before after g, es = before ++ .load g :: after →
      ∀ Z, .query x Z y ∉ after) ∧ NoRepeatAcrossLoads es
  | .load _ :: es => NoRepeatAcrossLoads es

theorem remembered_current (es : List Event) (N : Net) (first : Nat × Nat → Option Adj)
    (hfirst : ∀ x y g, first (x, y) = some g → g = N.gu ∨ ∀ Z, .query x Z y ∉ es)
    (hload : ∀ x y g, first (x, y) = some g → ∀ before after g', es = before ++ .load g' :: after →
      ∀ Z, .query x Z y ∉ after)
    (h : NoRepeatAcrossLoads es) : remembered N first es = currentAnswers N es := by
  induction es generalizing N first with
  | nil => rfl
  | cons e es ih =>
    cases e with
    | query x Z y =>
      have hg : (first (x, y)).getD N.gu = N.gu := by
        cases hf : first (x, y) with
        | none => rfl
        | some g =>
          rcases hfirst x y g hf with rfl | hn
          · rfl
          · exact absurd (List.mem_cons_self ..) (hn Z)
      rw [remembered, currentAnswers, hg]
      congr 1
      apply ih
      · intro a b g hab
        by_cases hp : (a, b) = (x, y)
        · rw [if_pos hp] at hab; cases hab; exact Or.inl rfl
        · rw [if_neg hp] at hab
          rcases hfirst a b g hab with h1 | h1
          · exact Or.inl h1
          · exact Or.inr (fun Z hz => h1 Z (List.mem_cons_of_mem _ hz))
      · intro a b g hab before after g' hes Z'
        by_cases hp : (a, b) = (x, y)
        · cases hp; exact h.1 before after g' hes Z'
        · rw [if_neg hp] at hab
          exact hload a b g hab (.query x Z y :: before) after g' (by rw [hes]; rfl) Z'
      · exact h.2
    | load g =>
      rw [remembered, currentAnswers]
      apply ih
      · intro a b g' hab
        exact Or.inr (fun Z => hload a b g' hab [] es g rfl Z)
      · intro a b g' hab before after g'' hes Z
        exact hload a b g' hab (.load g :: before) after g'' (by rw [hes]; rfl) Z
      · exact h

end Mbtk.Graph
