import Verif.Graph.DSep
/-!
# The memoised path search `find_all_paths_recursive_cached`

`functools.cache` keys an entry by `(self, start, end, path)`; the graph is not part of the
key.  One network object is modelled (`self` is compared by identity).
-/
namespace Mbtk.Graph

/-- Key of the memo table for one object: `(start, end, path)`; `none` is the default
argument `path=None` (BayesianNetwork.py 477). -/
abbrev PathKey := Nat × Nat × Option (List Nat)

/-- The table of `functools.cache`: BayesianNetwork.py 476-492. -/
abbrev PathMemo := List (PathKey × List (List Nat))

mutual
/-- `find_all_paths_recursive_cached`: BayesianNetwork.py 476-492, with the table of the
decorator as explicit state. -/
def cachedRec (g : Adj) (stop : Nat) :
    Nat → Nat → Option (List Nat) → PathMemo → List (List Nat) × PathMemo
  | 0, _, _, memo => ([], memo)
  | fuel + 1, start, pathArg, memo =>
    match dictGet memo (start, stop, pathArg) with
    | some r => (r, memo)
    | none =>
      let path := pathArg.getD [] ++ [start]
      let (r, memo) :=
        if start = stop then ([path], memo)
        else match dictGet g start with
          | none => ([], memo)
          | some ns => cachedLoop g stop fuel ns path memo
      (r, dictSet memo (start, stop, pathArg) r)
termination_by fuel => (fuel, 0)

/-- The loop over the neighbours: BayesianNetwork.py 486-491. -/
def cachedLoop (g : Adj) (stop : Nat) :
    Nat → List Nat → List Nat → PathMemo → List (List Nat) × PathMemo
  | _, [], _, memo => ([], memo)
  | fuel, n :: ns, path, memo =>
    if n ∈ path then cachedLoop g stop fuel ns path memo
    else
      let (r1, memo) := cachedRec g stop fuel n (some path) memo
      let (r2, memo) := cachedLoop g stop fuel ns path memo
      (r1 ++ r2, memo)
termination_by fuel ns => (fuel, ns.length + 1)
end

/-- A network object together with the memo table of its path search.
BayesianNetwork.py 364-411, 476-492. -/
structure NetObj where
  net : Net
  memo : PathMemo

/-- `d_separated` on the object: BayesianNetwork.py 404-411, 449-451. -/
def NetObj.dSeparated (o : NetObj) (x : Nat) (Z : List Nat) (y : Nat) :
    Except Err Bool × NetObj :=
  let (paths, memo) := cachedRec o.net.gu y (pathFuel o.net.gu) x none o.memo
  (allBlocked o.net.gd Z paths, { o with memo := memo })

/-- `from_directed_graph` on the object (364-397): the memo table is left as it is.
BayesianNetwork.py 364-397. -/
def NetObj.fromDirected (o : NetObj) (g : Adj) : NetObj := { o with net := Graph.fromDirected g }

/-- A sequence of `d_separated` calls, with their answers.
BayesianNetwork.py 404-411, several calls. -/
def NetObj.run (o : NetObj) : List (Nat × List Nat × Nat) → List (Except Err Bool) × NetObj
  | [] => ([], o)
  | (x, Z, y) :: qs =>
    let (r, o) := o.dSeparated x Z y
    let (rs, o) := o.run qs
    (r :: rs, o)

/-- What the search returns without memo, for any large enough recursion bound.
(Models no code: a notion for statements and proofs.) -/
def pathVal (g : Adj) (s e : Nat) (path : List Nat) : List (List Nat) :=
  pathsRec g e (pathFuel g) s path

/-- Arguments under which the search is ever called.
(Models no code: a notion for statements and proofs.) -/
structure GoodCall (g : Adj) (s : Nat) (path : List Nat) : Prop where
  nodup : (path ++ [s]).Nodup
  sub : ∀ v ∈ (path ++ [s]).tail, v ∈ allNodes g

theorem pathsRec_eq_val {g : Adj} {stop s : Nat} {path : List Nat} (h : GoodCall g s path)
    (k fuel : Nat) (hf : pathFuel g ≤ fuel + path.length) (hk : fuel + k = pathFuel g) :
    pathsRec g stop fuel s path = pathVal g s stop path := by
  induction k generalizing fuel with
  | zero => simp at hk; subst hk; rfl
  | succ k ih => rw [pathsRec_fuel hf h.nodup h.sub]; exact ih (fuel + 1) (by omega) (by omega)

theorem GoodCall.step {g : Adj} {s n : Nat} {path ns : List Nat} (h : GoodCall g s path)
    (hs : dictGet g s = some ns) (hn : n ∈ ns) (hp : n ∉ path ++ [s]) :
    GoodCall g n (path ++ [s]) := by
  refine ⟨?_, ?_⟩
  · rw [List.nodup_append]
    refine ⟨h.nodup, by simp, ?_⟩
    intro a ha b hb; simp at hb; subst hb
    rintro rfl; exact hp ha
  · intro v hv
    rw [List.tail_append_of_ne_nil (by simp)] at hv
    rcases List.mem_append.1 hv with hv | hv
    · exact h.sub v hv
    · simp at hv; subst hv; exact arc_mem_allNodes ⟨ns, hs, hn⟩

/-- Every entry of the table is what the search would return now.
(Models no code: a notion for statements and proofs.) -/
def MemoOk (g : Adj) (memo : PathMemo) : Prop :=
  ∀ s e pa r, dictGet memo (s, e, pa) = some r → r = pathVal g s e (pa.getD [])

theorem MemoOk.set {g : Adj} {memo : PathMemo} (h : MemoOk g memo) {s e : Nat}
    {pa : Option (List Nat)} {r : List (List Nat)} (hr : r = pathVal g s e (pa.getD [])) :
    MemoOk g (dictSet memo (s, e, pa) r) := by
  intro s' e' pa' r' h'
  rw [dictGet_dictSet] at h'
  split at h'
  · rename_i heq; cases heq; cases h'; exact hr
  · exact h _ _ _ _ h'

theorem cachedRec_spec {g : Adj} {stop : Nat} (fuel : Nat) :
    ∀ (s : Nat) (pa : Option (List Nat)) (memo : PathMemo), MemoOk g memo →
      GoodCall g s (pa.getD []) → pathFuel g ≤ fuel + (pa.getD []).length →
      fuel ≤ pathFuel g →
      (cachedRec g stop fuel s pa memo).1 = pathVal g s stop (pa.getD []) ∧
      MemoOk g (cachedRec g stop fuel s pa memo).2 := by
  induction fuel with
  | zero =>
    intro s pa memo hm hg hf hle
    exfalso
    have h1 : (pa.getD [] ++ [s]).tail.length ≤ (allNodes g).length :=
      (List.Nodup.subperm (hg.nodup.sublist (List.tail_sublist _)) hg.sub).length_le
    simp only [List.length_tail, List.length_append, List.length_singleton] at h1
    simp only [pathFuel] at hf; omega
  | succ fuel ih =>
    intro s pa memo hm hg hf hle
    rw [cachedRec]
    cases hmem : dictGet memo (s, stop, pa) with
    | some r => exact ⟨hm _ _ _ _ hmem, hm⟩
    | none =>
      have hval := pathsRec_eq_val (stop := stop) hg (pathFuel g - (fuel + 1)) (fuel + 1) hf
        (by omega)
      rw [pathsRec] at hval
      dsimp only at hval ⊢
      by_cases hst : s = stop
      · subst hst
        simp only [if_true] at hval ⊢
        exact ⟨hval, hm.set hval⟩
      · simp only [hst, if_false] at hval ⊢
        cases hd : dictGet g s with
        | none =>
          rw [hd] at hval
          exact ⟨hval, hm.set hval⟩
        | some ns =>
          rw [hd] at hval
          dsimp only at hval ⊢
          have hloop : ∀ (l : List Nat) (memo : PathMemo), (∀ n ∈ l, n ∈ ns) → MemoOk g memo →
              (cachedLoop g stop fuel l (pa.getD [] ++ [s]) memo).1 =
                l.flatMap (fun n => if n ∈ pa.getD [] ++ [s] then []
                  else pathsRec g stop fuel n (pa.getD [] ++ [s])) ∧
              MemoOk g (cachedLoop g stop fuel l (pa.getD [] ++ [s]) memo).2 := by
            intro l
            induction l with
            | nil => intro memo _ hm; rw [cachedLoop]; exact ⟨rfl, hm⟩
            | cons n l ihl =>
              intro memo hsub hm
              rw [cachedLoop]
              by_cases hn : n ∈ pa.getD [] ++ [s]
              · simp only [hn, if_true, List.flatMap_cons, List.nil_append]
                exact ihl memo (fun m hm' => hsub m (by simp [hm'])) hm
              · simp only [hn, if_false, List.flatMap_cons]
                have hg' := hg.step hd (hsub n (by simp)) hn
                obtain ⟨h1, h2⟩ := ih n (some (pa.getD [] ++ [s])) memo hm hg'
                  (by simp; omega) (by omega)
                obtain ⟨h3, h4⟩ := ihl _ (fun m hm' => hsub m (by simp [hm'])) h2
                refine ⟨?_, h4⟩
                rw [h1, h3]
                congr 1
                exact (pathsRec_eq_val hg' (pathFuel g - fuel) fuel (by simp; omega)
                  (by omega)).symm
          obtain ⟨h1, h2⟩ := hloop ns memo (fun _ h => h) hm
          have h3 := h1.trans hval
          exact ⟨h3, h2.set h3⟩

theorem netObj_dSeparated {o : NetObj} (h : MemoOk o.net.gu o.memo) (x : Nat) (Z : List Nat)
    (y : Nat) :
    (o.dSeparated x Z y).1 = Graph.dSeparated o.net x Z y ∧
      (o.dSeparated x Z y).2.net = o.net ∧
      MemoOk (o.dSeparated x Z y).2.net.gu (o.dSeparated x Z y).2.memo := by
  obtain ⟨h1, h2⟩ := cachedRec_spec (stop := y) (pathFuel o.net.gu) x none o.memo h
    ⟨by simp, by simp⟩ (by simp) (by simp)
  refine ⟨?_, rfl, h2⟩
  change allBlocked o.net.gd Z (cachedRec o.net.gu y (pathFuel o.net.gu) x none o.memo).1 = _
  rw [h1]; rfl

theorem netObj_run {o : NetObj} (h : MemoOk o.net.gu o.memo) (qs : List (Nat × List Nat × Nat)) :
    (o.run qs).1 = qs.map (fun q => Graph.dSeparated o.net q.1 q.2.1 q.2.2) := by
  induction qs generalizing o with
  | nil => rfl
  | cons q qs ih =>
    obtain ⟨x, Z, y⟩ := q
    obtain ⟨h1, h2, h3⟩ := netObj_dSeparated h x Z y
    have := ih h3
    simp only [NetObj.run, List.map_cons, h1, this, h2]

end Mbtk.Graph
