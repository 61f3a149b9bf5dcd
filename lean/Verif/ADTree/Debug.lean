import Verif.ADTree.Size
import Verif.Props.ADTreeProps
/-!
# The debug AD-tree (C99): `mbtk/structures/debug/ADTree__debug.py`

`ADTreeDebug` is a static `ADTree` that counts the calls of `query_count` and `make_pmf`
while its `debug` attribute is at least 1, and that ignores the requested leaf-list
threshold.  What it prints, the histogram of node counts that is prepared but never filled
(`debug_node` is only called by node classes that `ADTreeDebug` does not use) and the
timing are not modelled.
-/
namespace Mbtk.ADTree
open Spec

namespace Debug

/-- The counters prepared by `debug_prepare__querying`: ADTree__debug.py 61-65. -/
structure QueryStats where
  nQueries : Nat := 0
  nQueriesLL : Nat := 0
  nPmf : Nat := 0
  nPmfLL : Nat := 0
  deriving DecidableEq, Repr

/-- The debug attributes of a tree: ADTree__debug.py 8-10, 61-65.  `stats = none`: the
counters have not been prepared, so that reading one raises `AttributeError`. -/
structure DState where
  level : Nat
  stats : Option QueryStats

/-- Methods change the debug attributes, also when they raise: ADTree__debug.py 28-46,
118-122. -/
def DM (α : Type) : Type := DState → Except Err α × DState

instance : Monad DM where
  pure a := fun s => (.ok a, s)
  bind m f := fun s => match m s with
    | (.ok a, s') => f a s'
    | (.error e, s') => (.error e, s')

/-- `raise`. (Python itself.) -/
def DM.raise {α : Type} (e : Err) : DM α := fun s => (.error e, s)

/-- `if self.debug >= 1: self.<counter> ...`: ADTree__debug.py 30-31, 43, 119-120.
`make_pmf` resets three counters before `n_pmf += 1`; simplification: if they are not
prepared, nothing is reset before the `AttributeError`. -/
def bump (f : QueryStats → QueryStats) : DM Unit := fun s =>
  if 1 ≤ s.level then
    match s.stats with
    | none => (.error .attributeError, s)
    | some t => (.ok (), { s with stats := some (f t) })
  else (.ok (), s)

/-- The loop over the siblings of a missing node: ADTree.py 180-183. -/
def overSiblingsD (f : ADNode → DM Int) : List (Option ADNode) → DM Int
  | [] => pure 0
  | none :: rest => overSiblingsD f rest
  | some n :: rest => do
    let a ← f n
    let k ← overSiblingsD f rest
    pure (a + k)

/-- `query_count`: ADTree__debug.py 118-122 around ADTree.py 117-185; every recursive call
goes through the debug method.  On a leaf-list node, `query_count_in_leaf_list_node`
(ADTree__debug.py 42-46) passes `self` twice: `TypeError`. -/
def queryD : List (Nat × Int) → ADNode → DM Int
  | [], n => do
    bump (fun t => { t with nQueries := t.nQueries + 1 })
    pure n.count
  | (c, v) :: rest, n => do
    bump (fun t => { t with nQueries := t.nQueries + 1 })
    if n.leaf then do
      bump (fun t => { t with nQueriesLL := t.nQueriesLL + 1 })
      DM.raise .typeError
    else
      match findVary n.varys c with
      | none => DM.raise .attributeError
      | some i =>
        match n.varys[i]? with
        | none => DM.raise .attributeError
        | some vary =>
          match findChild vary.ads v with
          | some (_, child) => queryD rest child
          | none =>
            if vary.mcv ≠ v then pure 0
            else if rest.isEmpty then pure (n.count - sumCounts vary.ads)
            else do
              let inSiblings ← overSiblingsD (queryD rest) vary.ads
              let inParent ← queryD rest n
              pure (inParent - inSiblings)

/-- The data as `ADTreeDebug` hands it to the base class: ADTree__debug.py 8-10 passes
`leaf_list_threshold=0`, whatever was requested. -/
def noLeafLists (D : Data) : Data := { D with threshold := 0 }

/-- A debug tree: ADTree__debug.py 6-25. -/
structure DebugTree where
  root : ADNode
  counters : Counters
  dbg : DState

/-- `ADTreeDebug(matrix, column_values, leaf_list_threshold, debug)`: ADTree__debug.py 8-25;
the counters are prepared if `debug >= 1`. -/
def newDebugTree (D : Data) (debug : Nat) : Except Err DebugTree :=
  match newTree (noLeafLists D) false with
  | .error e => .error e
  | .ok (root, counters) =>
    .ok ⟨root, counters, ⟨debug, if 1 ≤ debug then some {} else none⟩⟩

/-- What one can do with a debug tree; `observe` sets `debug` and prepares the counters
(G_test__with_AD_tree__debug.py 14-16, 24-26). (Specification.) -/
inductive DRequest where
  | count (q : List (Nat × Int))
  | ratio (values given : List (Nat × Int))
  | pmf (cols : List Nat)
  | reload
  | observe (debug : Nat)

/-- (Specification.) -/
inductive DAnswer where
  | count (k : Int)
  | ratio (p : ℚ)
  | pmf (d : List (List Int × ℚ))
  | done
  deriving DecidableEq

/-- Running a method of the debug tree that does not change the nodes:
ADTree__debug.py 118-122. -/
def DebugTree.run {α : Type} (t : DebugTree) (m : ADNode → DM α) (wrap : α → DAnswer) :
    Except Err DAnswer × DebugTree :=
  match m t.root t.dbg with
  | (.ok a, dbg) => (.ok (wrap a), { t with dbg := dbg })
  | (.error e, dbg) => (.error e, { t with dbg := dbg })

/-- `query(values, given)`: ADTree.py 98-114, on the debug `query_count`
(ADTree__debug.py 118-122). -/
def ratioD (values given : List (Nat × Int)) (root : ADNode) : DM ℚ := do
  let conditioned ← queryD (sortQuery (dictUpdate (dictUpdate [] given) values)) root
  let conditioning ← queryD (sortQuery given) root
  if conditioning = 0 then DM.raise .zeroDivision
  else pure ((conditioned : ℚ) / (conditioning : ℚ))

/-- The counters at `make_pmf`: ADTree__debug.py 30-31, 68-71. -/
def countPmf (t : QueryStats) : QueryStats :=
  { nQueries := 0, nQueriesLL := 0, nPmf := t.nPmf + 1, nPmfLL := 0 }

/-- `make_pmf(variables)`: ADTree__debug.py 28-39 around ADTree.py 79-90, which never calls
`query_count`. -/
def pmfD (D : Data) (cols : List Nat) (t : DebugTree) : Except Err DAnswer × DebugTree :=
  match bump countPmf t.dbg with
  | (.error e, dbg) => (.error e, { t with dbg := dbg })
  | (.ok (), dbg) =>
    match makePmf (noLeafLists D) false cols t.root t.counters with
    | .error e => (.error e, { t with dbg := dbg })
    | .ok ((d, root), counters) => (.ok (.pmf d), ⟨root, counters, dbg⟩)

/-- One request to a debug tree: ADTree__debug.py 28-46, 61-71, 118-122; pickling keeps the
debug attributes. -/
def serveD (D : Data) (t : DebugTree) : DRequest → Except Err DAnswer × DebugTree
  | .count q => t.run (queryD (sortQuery q)) .count
  | .ratio values given => t.run (ratioD values given) .ratio
  | .pmf cols => pmfD D cols t
  | .reload => (.ok .done, { t with root := pickleAD false t.root })
  | .observe debug => (.ok .done, { t with dbg := ⟨debug, some {}⟩ })

/-- A series of requests; the client carries on after an exception. (Specification.) -/
def serveAllD (D : Data) : List DRequest → DebugTree → List (Except Err DAnswer) × DebugTree
  | [], t => ([], t)
  | r :: rs, t =>
    let (a, t) := serveD D t r
    let (as, t) := serveAllD D rs t
    (a :: as, t)

/-- The same request to a plain static tree of data `D`; observing is not possible there and
does nothing. A request that raises leaves the tree as it was. (Specification.) -/
def servePlain (D : Data) (t : ADNode × Counters) :
    DRequest → Except Err DAnswer × (ADNode × Counters)
  | .count q =>
    match queryCount D false q t.1 t.2 with
    | .ok ((k, root), counters) => (.ok (.count k), (root, counters))
    | .error e => (.error e, t)
  | .ratio values given =>
    match query D false values given t.1 t.2 with
    | .ok ((p, root), counters) => (.ok (.ratio p), (root, counters))
    | .error e => (.error e, t)
  | .pmf cols =>
    match makePmf D false cols t.1 t.2 with
    | .ok ((d, root), counters) => (.ok (.pmf d), (root, counters))
    | .error e => (.error e, t)
  | .reload => (.ok .done, (pickleAD false t.1, t.2))
  | .observe _ => (.ok .done, t)

/-- (Specification.) -/
def serveAllPlain (D : Data) : List DRequest → ADNode × Counters →
    List (Except Err DAnswer) × (ADNode × Counters)
  | [], t => ([], t)
  | r :: rs, t =>
    let (a, t) := servePlain D t r
    let (as, t) := serveAllPlain D rs t
    (a :: as, t)

/-! ## Static trees never change when queried -/

theorem set_self {α : Type} {l : List α} {i : Nat} {a : α} (h : l[i]? = some a) :
    l.set i a = l := by
  apply List.ext_getElem?
  intro m
  rw [List.getElem?_set]
  split
  · next hm => subst hm; split
               · rw [h]
               · rw [h]; simp_all
  · rfl

theorem bind_ok {σ α β : Type} {m : PyM σ α} {f : α → PyM σ β} {s : σ} {p : β × σ}
    (h : (m >>= f) s = .ok p) : ∃ a s', m s = .ok (a, s') ∧ f a s' = .ok p := by
  cases e : m s with
  | error x =>
    have : (m >>= f) s = (do let p ← m s; f p.1 p.2) := rfl
    rw [this, e] at h; cases h
  | ok q =>
    have : (m >>= f) s = (do let p ← m s; f p.1 p.2) := rfl
    rw [this, e] at h
    exact ⟨q.1, q.2, rfl, h⟩

theorem findChild_getElem {ads : List (Option ADNode)} {v : Int} {j : Nat} {ch : ADNode}
    (h : findChild ads v = some (j, ch)) : ads[j]? = some (some ch) := by
  induction ads generalizing j with
  | nil => simp [findChild] at h
  | cons o ads ih =>
    cases o with
    | none =>
      simp only [findChild] at h
      cases hf : findChild ads v with
      | none => rw [hf] at h; simp at h
      | some p =>
        rw [hf] at h
        simp at h
        obtain ⟨rfl, rfl⟩ := h
        simpa using ih hf
    | some m =>
      simp only [findChild] at h
      by_cases e : m.value = v
      · rw [if_pos e] at h; simp at h; obtain ⟨rfl, rfl⟩ := h; simp
      · rw [if_neg e] at h
        cases hf : findChild ads v with
        | none => rw [hf] at h; simp at h
        | some p =>
          rw [hf] at h
          simp at h
          obtain ⟨rfl, rfl⟩ := h
          simpa using ih hf

theorem overSiblings_static {f : ADNode → TM (Int × ADNode)}
    (hf : ∀ n s k n' s', f n s = .ok ((k, n'), s') → n' = n ∧ s' = s) :
    ∀ (ads : List (Option ADNode)) (s : Counters) (k : Int) (ads' : List (Option ADNode))
      (s' : Counters), overSiblings f ads s = .ok ((k, ads'), s') → ads' = ads ∧ s' = s := by
  intro ads
  induction ads with
  | nil => intro s k ads' s' h; cases h; exact ⟨rfl, rfl⟩
  | cons o ads ih =>
    intro s k ads' s' h
    cases o with
    | none =>
      simp only [overSiblings] at h
      obtain ⟨⟨k1, r⟩, s1, h1, h2⟩ := bind_ok h
      cases h2
      obtain ⟨e1, e2⟩ := ih s _ _ _ h1
      exact ⟨by rw [e1], e2⟩
    | some n =>
      simp only [overSiblings] at h
      obtain ⟨⟨a, n'⟩, s1, h1, h2⟩ := bind_ok h
      obtain ⟨⟨k1, r⟩, s2, h3, h4⟩ := bind_ok h2
      cases h4
      obtain ⟨e1, e2⟩ := hf _ _ _ _ _ h1
      obtain ⟨e3, e4⟩ := ih _ _ _ _ h3
      exact ⟨by rw [e1, e3], by rw [e4, e2]⟩

theorem queryNode_static (D : Data) (q : List (Nat × Int)) :
    ∀ (n : ADNode) (s : Counters) (k : Int) (n' : ADNode) (s' : Counters),
    queryNode D false q n s = .ok ((k, n'), s') → n' = n ∧ s' = s := by
  induction q with
  | nil => intro n s k n' s' h; cases h; exact ⟨rfl, rfl⟩
  | cons p rest ih =>
    obtain ⟨c, v⟩ := p
    intro n s k n' s' h
    unfold queryNode at h
    by_cases hl : n.leaf = true
    · rw [if_pos hl] at h
      obtain ⟨a, s1, h1, h2⟩ := bind_ok h
      cases h2
      cases hq : queryLeaf D ((c, v) :: rest) n with
      | error e => rw [hq] at h1; cases h1
      | ok b => rw [hq] at h1; cases h1; exact ⟨rfl, rfl⟩
    · rw [if_neg hl] at h
      obtain ⟨⟨i, n1⟩, s1, h1, h2⟩ := bind_ok h
      have hg : n1 = n ∧ s1 = s := by
        unfold getVary at h1
        cases hf : findVary n.varys c with
        | none => rw [hf] at h1; cases h1
        | some j => rw [hf] at h1; cases h1; exact ⟨rfl, rfl⟩
      obtain ⟨rfl, rfl⟩ := hg
      simp only at h2
      cases hv : n1.varys[i]? with
      | none => rw [hv] at h2; cases h2
      | some vary =>
        rw [hv] at h2
        simp only at h2
        cases hc : findChild vary.ads v with
        | some jc =>
          obtain ⟨j, child⟩ := jc
          rw [hc] at h2
          simp only at h2
          obtain ⟨⟨k1, c1⟩, s2, h3, h4⟩ := bind_ok h2
          cases h4
          obtain ⟨rfl, rfl⟩ := ih _ _ _ _ _ h3
          have hj : vary.ads[j]? = some (some c1) := findChild_getElem hc
          exact ⟨by rw [set_self hj, setAds_self, set_self hv, setVarys_self], rfl⟩
        | none =>
          rw [hc] at h2
          simp only at h2
          by_cases hm : vary.mcv ≠ v
          · rw [if_pos hm] at h2; cases h2; exact ⟨rfl, rfl⟩
          · rw [if_neg hm] at h2
            by_cases hr : rest.isEmpty = true
            · rw [if_pos hr] at h2; cases h2; exact ⟨rfl, rfl⟩
            · rw [if_neg hr] at h2
              obtain ⟨⟨a, ads'⟩, s2, h3, h4⟩ := bind_ok h2
              obtain ⟨rfl, rfl⟩ := overSiblings_static (fun n s k n' s' => ih n s k n' s')
                _ _ _ _ _ h3
              simp only [setAds_self, set_self hv, setVarys_self] at h4
              obtain ⟨⟨b, n3⟩, s3, h5, h6⟩ := bind_ok h4
              cases h6
              exact ih _ _ _ _ _ h5

/-! ## The debug query against the plain one -/

/-- The most calls of `query_count` that a query about `k` columns makes, if a column has at
most `r` values: `1 + r + ... + r ^ k`. (Specification.) -/
def maxCalls (r k : Nat) : Nat := ∑ i ∈ Finset.range (k + 1), r ^ i

theorem maxCalls_succ (r k : Nat) : maxCalls r (k + 1) = 1 + r * maxCalls r k := by
  unfold maxCalls
  rw [Finset.sum_range_succ', Finset.mul_sum, pow_zero, add_comm]
  congr 1
  exact Finset.sum_congr rfl fun i _ => by rw [pow_succ, mul_comm]

theorem maxCalls_pos (r k : Nat) : 1 ≤ maxCalls r k := by
  cases k with
  | zero => simp [maxCalls]
  | succ k => rw [maxCalls_succ]; omega

theorem maxCalls_mono (r : Nat) {k k' : Nat} (h : k ≤ k') : maxCalls r k ≤ maxCalls r k' :=
  Finset.sum_le_sum_of_subset (Finset.range_mono (by omega))

/-- The counters are there when they are needed.
(Models no code: a notion for statements and proofs.) -/
def DState.Ready (st : DState) : Prop := 1 ≤ st.level → st.stats.isSome = true

/-- `j` more queries counted. (Models no code: a notion for statements and proofs.) -/
def addQ (j : Nat) (st : DState) : DState :=
  if 1 ≤ st.level then
    { st with stats := st.stats.map (fun t => { t with nQueries := t.nQueries + j }) }
  else st

theorem addQ_level (j : Nat) (st : DState) : (addQ j st).level = st.level := by
  unfold addQ; split <;> rfl

theorem addQ_ready (j : Nat) {st : DState} (h : st.Ready) : (addQ j st).Ready := by
  intro hl
  rw [addQ_level] at hl
  unfold addQ
  rw [if_pos hl]
  simpa using h hl

theorem addQ_addQ (i j : Nat) (st : DState) : addQ i (addQ j st) = addQ (j + i) st := by
  by_cases h : 1 ≤ st.level
  · unfold addQ
    rw [if_pos h, if_pos h, if_pos h]
    cases st.stats <;> simp [Nat.add_assoc]
  · unfold addQ
    rw [if_neg h, if_neg h, if_neg h]

theorem addQ_zero (st : DState) : addQ 0 st = st := by
  unfold addQ; split
  · rcases st with ⟨l, _ | t⟩ <;> rfl
  · rfl

theorem bump_query {st : DState} (h : st.Ready) :
    bump (fun t => { t with nQueries := t.nQueries + 1 }) st = (.ok (), addQ 1 st) := by
  unfold bump addQ
  by_cases hl : 1 ≤ st.level
  · rw [if_pos hl, if_pos hl]
    obtain ⟨t, ht⟩ := Option.isSome_iff_exists.1 (h hl)
    rw [ht]; rfl
  · rw [if_neg hl, if_neg hl]

/-- The count in the result of a query. (Models no code: a notion for statements and proofs.) -/
def countOf : Except Err ((Int × ADNode) × Counters) → Except Err Int
  | .ok p => .ok p.1.1
  | .error e => .error e

/-- The count in the result of the loop over the siblings.
(Models no code: a notion for statements and proofs.) -/
def sumOf : Except Err ((Int × List (Option ADNode)) × Counters) → Except Err Int
  | .ok p => .ok p.1.1
  | .error e => .error e

/-- Number of nodes in a list of children.
(Models no code: a notion for statements and proofs.) -/
def someCount (ads : List (Option ADNode)) : Nat := (ads.filter Option.isSome).length

theorem dbind_ok {α β : Type} {m : DM α} {f : α → DM β} {st st' : DState} {a : α}
    (h : m st = (.ok a, st')) : (m >>= f) st = f a st' := by
  show (match m st with | (.ok a, s') => f a s' | (.error e, s') => (.error e, s')) = _
  rw [h]

theorem dbind_error {α β : Type} {m : DM α} {f : α → DM β} {st st' : DState} {e : Err}
    (h : m st = (.error e, st')) : (m >>= f) st = (.error e, st') := by
  show (match m st with | (.ok a, s') => f a s' | (.error e, s') => (.error e, s')) = _
  rw [h]

theorem pbind_ok {σ α β : Type} {m : PyM σ α} {f : α → PyM σ β} {s s' : σ} {a : α}
    (h : m s = .ok (a, s')) : (m >>= f) s = f a s' := by
  show (do let p ← m s; f p.1 p.2) = _
  rw [h]; rfl

theorem pbind_error {σ α β : Type} {m : PyM σ α} {f : α → PyM σ β} {s : σ} {e : Err}
    (h : m s = .error e) : (m >>= f) s = .error e := by
  show (do let p ← m s; f p.1 p.2) = _
  rw [h]; rfl

theorem overSiblings_run {f : ADNode → TM (Int × ADNode)} {g : ADNode → DM Int} {B : Nat}
    {s : Counters} (hf : ∀ n s k n' s', f n s = .ok ((k, n'), s') → n' = n ∧ s' = s) :
    ∀ (ads : List (Option ADNode)) (st : DState), st.Ready →
    (∀ n, some n ∈ ads → ∀ st : DState, st.Ready →
      ∃ j ≤ B, g n st = (countOf (f n s), addQ j st)) →
    ∃ j ≤ someCount ads * B, overSiblingsD g ads st = (sumOf (overSiblings f ads s), addQ j st) := by
  intro ads
  induction ads with
  | nil => intro st _ _; exact ⟨0, by omega, by rw [addQ_zero]; rfl⟩
  | cons o ads ih =>
    intro st hst hg
    cases o with
    | none =>
      obtain ⟨j, hj, e⟩ := ih st hst (fun n hn => hg n (by simp [hn]))
      refine ⟨j, by simpa [someCount] using hj, ?_⟩
      simp only [overSiblingsD, overSiblings]
      rw [e]
      cases hr : overSiblings f ads s with
      | error x => rw [pbind_error hr]
      | ok p => obtain ⟨⟨k, r⟩, s'⟩ := p; rw [pbind_ok hr]; rfl
    | some n =>
      obtain ⟨j1, hj1, e1⟩ := hg n (by simp) st hst
      have hcnt : someCount (some n :: ads) = someCount ads + 1 := by simp [someCount]
      rw [hcnt, Nat.succ_mul]
      simp only [overSiblingsD, overSiblings]
      cases hn : f n s with
      | error x =>
        rw [hn] at e1
        refine ⟨j1, by omega, ?_⟩
        rw [dbind_error e1, pbind_error hn]; rfl
      | ok p =>
        obtain ⟨⟨k, n'⟩, s'⟩ := p
        obtain ⟨rfl, rfl⟩ := hf _ _ _ _ _ hn
        rw [hn] at e1
        obtain ⟨j2, hj2, e2⟩ := ih (addQ j1 st) (addQ_ready j1 hst)
          (fun m hm => hg m (by simp [hm]))
        refine ⟨j1 + j2, by omega, ?_⟩
        rw [addQ_addQ] at e2
        rw [dbind_ok e1, pbind_ok hn]
        simp only
        cases hr : overSiblings f ads s' with
        | error x =>
          rw [hr] at e2
          rw [dbind_error e2, pbind_error hr]; rfl
        | ok p =>
          obtain ⟨⟨k2, r⟩, s2⟩ := p
          rw [hr] at e2
          rw [dbind_ok e2, pbind_ok hr]; rfl

theorem someCount_le {D : Data} {dyn : Bool} {rows : List Nat} {c : Nat} {mcv : Int} :
    ∀ {vals : List Int} {ads : List (Option ADNode)},
    List.Forall₂ (ChildOk D dyn rows c mcv) vals ads →
    someCount ads ≤ (vals.filter (fun v => decide (v ≠ mcv))).length := by
  intro vals ads h
  induction h with
  | nil => simp [someCount]
  | @cons v o vals ads hv _ ih =>
    rw [List.filter_cons]
    cases o with
    | none =>
      have : someCount (none :: ads) = someCount ads := by simp [someCount]
      rw [this]
      split
      · rw [List.length_cons]; omega
      · exact ih
    | some n =>
      have hne : v ≠ mcv := by
        by_contra e
        have := hv.1.2 (fun hh => hh.2 e)
        simp at this
      have : someCount (some n :: ads) = someCount ads + 1 := by simp [someCount]
      rw [if_pos (by simpa using hne), List.length_cons, this]
      omega

/-- One debug query: the answer of the plain query, and between 1 and `1 + r + ... + r ^ k`
calls counted. -/
theorem queryD_run {D : Data} (h0 : D.threshold = 0) {r : Nat}
    (hr : ∀ c < D.ncols, (D.values c).length ≤ r) (s : Counters) (q : List (Nat × Int)) :
    ∀ {rows : List Nat} {n : ADNode} (st : DState), RepAD D false rows n → st.Ready →
    ∃ j, 1 ≤ j ∧ j ≤ maxCalls r q.length ∧
      queryD q n st = (countOf (queryNode D false q n s), addQ j st) := by
  induction q with
  | nil =>
    intro rows n st _ hst
    refine ⟨1, le_refl _, maxCalls_pos _ _, ?_⟩
    unfold queryD
    rw [dbind_ok (bump_query hst)]
    rfl
  | cons p rest ih =>
    obtain ⟨c, v⟩ := p
    intro rows n st h hst
    have hinv := h.inv
    have hleaf : ¬ n.leaf = true := by rw [hinv.2.2.1, h0]; simp
    have hst1 := addQ_ready 1 hst
    have hone : 1 ≤ maxCalls r (List.length ((c, v) :: rest)) := maxCalls_pos _ _
    unfold queryD queryNode
    rw [dbind_ok (bump_query hst), if_neg hleaf, if_neg hleaf]
    cases hf : findVary n.varys c with
    | none =>
      have hg : getVary D false n c s = .error .attributeError := by
        unfold getVary; rw [hf]; rfl
      refine ⟨1, le_refl _, hone, ?_⟩
      rw [pbind_error hg]; rfl
    | some i =>
      have hg : getVary D false n c s = .ok ((i, n), s) := by
        unfold getVary; rw [hf]; rfl
      rw [pbind_ok hg]
      simp only
      obtain ⟨vary, hv, hvc⟩ := findVary_some hf
      rw [hv]
      simp only
      have hrep := hinv.2.2.2.2.2.2.1 vary (List.mem_of_getElem? hv)
      obtain ⟨w1, w2, w3, w4, w5⟩ := hrep.forall₂
      have hchild : ∀ m, some m ∈ vary.ads → ∃ rows', RepAD D false rows' m := by
        intro m hm
        obtain ⟨i, hi, e⟩ := List.mem_iff_getElem.1 hm
        have hl := w5.length_eq
        have hc := (List.forall₂_iff_get.1 w5).2 i (by omega) hi
        simp only [List.get_eq_getElem, e] at hc
        exact ⟨_, (hc.2 m rfl).2.2⟩
      have hlen : (List.length ((c, v) :: rest)) = rest.length + 1 := rfl
      rw [hlen, maxCalls_succ]
      have hval := hr vary.col w1
      have hfl := Size.length_filter_ne w3
      have hrpos : 1 ≤ r := by omega
      have hcalls : maxCalls r rest.length ≤ r * maxCalls r rest.length :=
        Nat.le_mul_of_pos_left _ hrpos
      cases hc : findChild vary.ads v with
      | some jc =>
        obtain ⟨j, child⟩ := jc
        simp only
        obtain ⟨rows', hrep'⟩ := hchild child (List.mem_of_getElem? (findChild_getElem hc))
        obtain ⟨j', a, b, e⟩ := ih (addQ 1 st) hrep' hst1
        refine ⟨1 + j', by omega, by omega, ?_⟩
        rw [e, addQ_addQ]
        congr 1
        cases hq : queryNode D false rest child s with
        | error x => rw [pbind_error hq]
        | ok p => obtain ⟨⟨k, n'⟩, s'⟩ := p; rw [pbind_ok hq]; rfl
      | none =>
        simp only
        by_cases hm : vary.mcv ≠ v
        · rw [if_pos hm, if_pos hm]; exact ⟨1, le_refl _, by omega, rfl⟩
        · rw [if_neg hm, if_neg hm]
          by_cases hre : rest.isEmpty = true
          · rw [if_pos hre, if_pos hre]; exact ⟨1, le_refl _, by omega, rfl⟩
          · rw [if_neg hre, if_neg hre]
            obtain ⟨j1, b1, e1⟩ := overSiblings_run (f := queryNode D false rest)
              (g := queryD rest) (B := maxCalls r rest.length) (s := s)
              (fun n s k n' s' => queryNode_static D rest n s k n' s') vary.ads (addQ 1 st) hst1
              (by
                intro m hm' st' hst'
                obtain ⟨rows', hrep'⟩ := hchild m hm'
                obtain ⟨j, _, b, e⟩ := ih st' hrep' hst'
                exact ⟨j, b, e⟩)
            rw [addQ_addQ] at e1
            have hsc := someCount_le w5
            have hb : j1 + maxCalls r rest.length ≤ r * maxCalls r rest.length := by
              have h1 : someCount vary.ads * maxCalls r rest.length ≤
                  (r - 1) * maxCalls r rest.length := Nat.mul_le_mul_right _ (by omega)
              have h2 : r * maxCalls r rest.length =
                  (r - 1) * maxCalls r rest.length + maxCalls r rest.length := by
                rw [← Nat.succ_mul, Nat.succ_eq_add_one, Nat.sub_add_cancel hrpos]
              omega
            cases ho : overSiblings (queryNode D false rest) vary.ads s with
            | error x =>
              rw [ho] at e1
              refine ⟨1 + j1, by omega, by omega, ?_⟩
              rw [dbind_error e1, pbind_error ho]; rfl
            | ok p =>
              obtain ⟨⟨k, ads'⟩, s'⟩ := p
              obtain ⟨rfl, rfl⟩ := overSiblings_static
                (fun n s k n' s' => queryNode_static D rest n s k n' s') _ _ _ _ _ ho
              rw [ho] at e1
              rw [dbind_ok e1, pbind_ok ho]
              simp only [setAds_self, set_self hv, setVarys_self]
              obtain ⟨j2, _, b2, e2⟩ := ih (addQ (1 + j1) st) h (addQ_ready _ hst)
              rw [addQ_addQ] at e2
              refine ⟨1 + j1 + j2, by omega, by omega, ?_⟩
              cases hq : queryNode D false rest n s' with
              | error x =>
                rw [hq] at e2
                rw [dbind_error e2, pbind_error hq]; rfl
              | ok p =>
                obtain ⟨⟨k2, n'⟩, s2⟩ := p
                rw [hq] at e2
                rw [dbind_ok e2, pbind_ok hq]; rfl

/-! ## Contingency tables of a static tree leave it as it is -/

theorem ctNonMcv_static {f : ADNode → TM (CT × ADNode)}
    (hf : ∀ n s k n' s', f n s = .ok ((k, n'), s') → n' = n ∧ s' = s) (mcv : Int) :
    ∀ (vals : List Int) (acc : CT) (ads : List (Option ADNode)) (s : Counters) (ct : CT)
      (ads' : List (Option ADNode)) (s' : Counters),
    ctNonMcv f mcv vals acc ads s = .ok ((ct, ads'), s') → ads' = ads ∧ s' = s := by
  intro vals
  induction vals with
  | nil => intro acc ads s ct ads' s' h; cases h; exact ⟨rfl, rfl⟩
  | cons v vals ih =>
    intro acc ads s ct ads' s' h
    unfold ctNonMcv at h
    by_cases hm : v ≠ mcv
    · rw [if_pos hm] at h
      cases hc : findChild ads v with
      | none => rw [hc] at h; exact ih _ _ _ _ _ _ h
      | some jc =>
        obtain ⟨j, child⟩ := jc
        rw [hc] at h
        simp only at h
        obtain ⟨⟨k, c1⟩, s1, h1, h2⟩ := bind_ok h
        obtain ⟨rfl, rfl⟩ := hf _ _ _ _ _ h1
        simp only [set_self (findChild_getElem hc)] at h2
        exact ih _ _ _ _ _ _ h2
    · rw [if_neg hm] at h; exact ih _ _ _ _ _ _ h

theorem lift_ok {σ α : Type} {m : Except Err α} {s s' : σ} {a : α}
    (h : (liftM m : PyM σ α) s = .ok (a, s')) : s' = s := by
  cases m with
  | error e => cases h
  | ok b => cases h; rfl

theorem makeCT_static (D : Data) (cols : List Nat) :
    ∀ (n : ADNode) (s : Counters) (ct : CT) (n' : ADNode) (s' : Counters),
    makeCT D false cols n s = .ok ((ct, n'), s') → n' = n ∧ s' = s := by
  induction cols with
  | nil => intro n s k n' s' h; cases h; exact ⟨rfl, rfl⟩
  | cons c cols ih =>
    intro n s k n' s' h
    unfold makeCT at h
    by_cases hl : n.leaf = true
    · rw [if_pos hl] at h
      obtain ⟨a, s1, h1, h2⟩ := bind_ok h
      cases h2
      exact ⟨rfl, lift_ok h1⟩
    · rw [if_neg hl] at h
      obtain ⟨⟨i, n1⟩, s1, h1, h2⟩ := bind_ok h
      have hg : n1 = n ∧ s1 = s := by
        unfold getVary at h1
        cases hf : findVary n.varys c with
        | none => rw [hf] at h1; cases h1
        | some j => rw [hf] at h1; cases h1; exact ⟨rfl, rfl⟩
      obtain ⟨rfl, rfl⟩ := hg
      simp only at h2
      cases hv : n1.varys[i]? with
      | none => rw [hv] at h2; cases h2
      | some vary =>
        rw [hv] at h2
        simp only at h2
        obtain ⟨⟨nm, ads'⟩, s2, h3, h4⟩ := bind_ok h2
        obtain ⟨rfl, rfl⟩ := ctNonMcv_static (fun n s k n' s' => ih n s k n' s') _ _ _ _ _ _ _ _ h3
        simp only [setAds_self, set_self hv, setVarys_self] at h4
        obtain ⟨⟨b, n3⟩, s3, h5, h6⟩ := bind_ok h4
        obtain ⟨rfl, rfl⟩ := ih _ _ _ _ _ h5
        obtain ⟨x, s4, h7, h8⟩ := bind_ok h6
        cases h8
        exact ⟨rfl, lift_ok h7⟩

theorem makePmf_static {D : Data} {cols : List Nat} {n n' : ADNode} {s s' : Counters}
    {d : List (List Int × ℚ)} (h : makePmf D false cols n s = .ok ((d, n'), s')) :
    n' = n ∧ s' = s := by
  unfold makePmf contingencyTable at h
  obtain ⟨⟨ct, n1⟩, s1, h1, h2⟩ := bind_ok h
  obtain ⟨⟨t, n2⟩, s2, h3, h4⟩ := bind_ok h1
  obtain ⟨rfl, rfl⟩ := makeCT_static D _ _ _ _ _ _ h3
  obtain ⟨x, s3, h5, h6⟩ := bind_ok h4
  have := lift_ok h5
  cases h6
  obtain ⟨y, s4, h7, h8⟩ := bind_ok h2
  have := lift_ok h7
  cases h8
  subst_vars
  exact ⟨rfl, rfl⟩

/-! ## Sessions -/

/-- What the counters may be: `lo` and `hi` bound the calls of `query_count` since the last
`make_pmf`. (Specification.) -/
structure Expected where
  level : Nat
  pmfs : Nat := 0
  lo : Nat := 0
  hi : Nat := 0

/-- How a request changes the expectation, if a column has at most `r` values.
(Specification.) -/
def Expected.after (r : Nat) (e : Expected) : DRequest → Expected
  | .count q => if 1 ≤ e.level then
      { e with lo := e.lo + 1, hi := e.hi + maxCalls r q.length } else e
  | .ratio values given => if 1 ≤ e.level then
      { e with lo := e.lo + 1,
               hi := e.hi + maxCalls r (given.length + values.length) +
                 maxCalls r given.length } else e
  | .pmf _ => if 1 ≤ e.level then { e with pmfs := e.pmfs + 1, lo := 0, hi := 0 } else e
  | .reload => e
  | .observe debug => { level := debug }

/-- The debug attributes are as expected. (Specification.) -/
def Expected.Fits (e : Expected) (st : DState) : Prop :=
  st.level = e.level ∧ (1 ≤ e.level → ∃ t, st.stats = some t ∧ t.nPmf = e.pmfs ∧
    e.lo ≤ t.nQueries ∧ t.nQueries ≤ e.hi ∧ t.nQueriesLL = 0 ∧ t.nPmfLL = 0)

theorem Expected.Fits.ready {e : Expected} {st : DState} (h : e.Fits st) : st.Ready := by
  intro hl
  rw [h.1] at hl
  obtain ⟨t, ht, _⟩ := h.2 hl
  rw [ht]; rfl

theorem Expected.Fits.addQ {e e' : Expected} {st : DState} {j a b : Nat} (h : e.Fits st)
    (ha : a ≤ j) (hb : j ≤ b)
    (he : e' = if 1 ≤ e.level then { e with lo := e.lo + a, hi := e.hi + b } else e) :
    e'.Fits (addQ j st) := by
  by_cases hl : 1 ≤ e.level
  · rw [if_pos hl] at he
    subst he
    refine ⟨by rw [addQ_level]; exact h.1, fun _ => ?_⟩
    obtain ⟨t, t1, t2, t3, t4, t5, t6⟩ := h.2 hl
    unfold Debug.addQ
    rw [if_pos (by rw [h.1]; exact hl), t1]
    exact ⟨_, rfl, t2, by show e.lo + a ≤ t.nQueries + j; omega,
      by show t.nQueries + j ≤ e.hi + b; omega, t5, t6⟩
  · rw [if_neg hl] at he
    subst he
    exact ⟨by rw [addQ_level]; exact h.1, fun hh => absurd hh hl⟩

theorem sortQuery_length (q : List (Nat × Int)) : (sortQuery q).length = q.length :=
  (sortQuery_perm q).length_eq

theorem dictSet_length {κ ν : Type} [DecidableEq κ] (d : List (κ × ν)) (k : κ) (v : ν) :
    (dictSet d k v).length ≤ d.length + 1 := by
  induction d with
  | nil => simp [dictSet]
  | cons p d ih =>
    simp only [dictSet]
    split <;> simp only [List.length_cons] <;> omega

theorem dictUpdate_length (d e : List (Nat × Int)) :
    (dictUpdate d e).length ≤ d.length + e.length := by
  unfold dictUpdate
  induction e generalizing d with
  | nil => simp
  | cons p e ih =>
    have := ih (dictSet d p.1 p.2)
    have := dictSet_length d p.1 p.2
    simp only [List.foldl_cons, List.length_cons]
    omega

/-- What stays true of a debug tree.
(Models no code: a notion for statements and proofs.) -/
structure TreeGood (D : Data) (e : Expected) (t : DebugTree) : Prop where
  rep : RepAD (noLeafLists D) false (List.range D.nrows) t.root
  col : t.root.col = -1
  value : t.root.value = -1
  fits : e.Fits t.dbg

theorem serveD_step {D : Data} {r : Nat} (hr : ∀ c < D.ncols, (D.values c).length ≤ r)
    {e : Expected} {t : DebugTree} (h : TreeGood D e t) (req : DRequest) :
    (serveD D t req).1 = (servePlain (noLeafLists D) (t.root, t.counters) req).1 ∧
    ((serveD D t req).2.root, (serveD D t req).2.counters) =
      (servePlain (noLeafLists D) (t.root, t.counters) req).2 ∧
    TreeGood D (e.after r req) (serveD D t req).2 := by
  obtain ⟨hrep, hcol, hval, hfit⟩ := h
  cases req with
  | count q =>
    obtain ⟨j, a, b, e1⟩ := queryD_run (D := noLeafLists D) rfl hr t.counters (sortQuery q)
      t.dbg hrep hfit.ready
    rw [sortQuery_length] at b
    have hf : (e.after r (.count q)).Fits (addQ j t.dbg) := hfit.addQ a b rfl
    unfold serveD DebugTree.run servePlain queryCount
    simp only [e1]
    cases hq : queryNode (noLeafLists D) false (sortQuery q) t.root t.counters with
    | error x => exact ⟨rfl, rfl, hrep, hcol, hval, hf⟩
    | ok p =>
      obtain ⟨⟨k, n'⟩, s'⟩ := p
      obtain ⟨rfl, rfl⟩ := queryNode_static _ _ _ _ _ _ _ hq
      exact ⟨rfl, rfl, hrep, hcol, hval, hf⟩
  | ratio values given =>
    have hlen : (dictUpdate (dictUpdate [] given) values).length ≤
        given.length + values.length := by
      have h1 := dictUpdate_length (dictUpdate [] given) values
      have h2 := dictUpdate_length [] given
      simp only [List.length_nil] at h2
      omega
    obtain ⟨j, a, b, e1⟩ := queryD_run (D := noLeafLists D) rfl hr t.counters
      (sortQuery (dictUpdate (dictUpdate [] given) values)) t.dbg hrep hfit.ready
    rw [sortQuery_length] at b
    have b' := le_trans b (maxCalls_mono r hlen)
    obtain ⟨j2, a2, b2, e2⟩ := queryD_run (D := noLeafLists D) rfl hr t.counters
      (sortQuery given) (addQ j t.dbg) hrep (addQ_ready j hfit.ready)
    rw [sortQuery_length] at b2
    rw [addQ_addQ] at e2
    have hf1 : (e.after r (.ratio values given)).Fits (addQ j t.dbg) :=
      hfit.addQ (b := maxCalls r (given.length + values.length) + maxCalls r given.length) a
        (by omega) (by simp only [Expected.after, Nat.add_assoc])
    have hf2 : (e.after r (.ratio values given)).Fits (addQ (j + j2) t.dbg) :=
      hfit.addQ (a := 1) (b := maxCalls r (given.length + values.length) +
        maxCalls r given.length) (by omega)
        (by omega) (by simp only [Expected.after, Nat.add_assoc])
    unfold serveD DebugTree.run servePlain query queryCount
    cases hq : queryNode (noLeafLists D) false
        (sortQuery (dictUpdate (dictUpdate [] given) values)) t.root t.counters with
    | error x =>
      rw [hq] at e1
      have e3 : ratioD values given t.root t.dbg = (.error x, addQ j t.dbg) := dbind_error e1
      simp only [e3, pbind_error hq]
      exact ⟨trivial, trivial, hrep, hcol, hval, hf1⟩
    | ok p =>
      obtain ⟨⟨k, n'⟩, s'⟩ := p
      obtain ⟨e4, e5⟩ := queryNode_static _ _ _ _ _ _ _ hq
      rw [hq] at e1
      cases hq2 : queryNode (noLeafLists D) false (sortQuery given) t.root t.counters with
      | error x =>
        rw [hq2] at e2
        have e3 : ratioD values given t.root t.dbg = (.error x, addQ (j + j2) t.dbg) := by
          unfold ratioD
          rw [dbind_ok e1]
          exact dbind_error e2
        rw [e4, e5] at hq
        simp only [e3, pbind_ok hq, pbind_error hq2]
        exact ⟨trivial, trivial, hrep, hcol, hval, hf2⟩
      | ok p2 =>
        obtain ⟨⟨m, n2⟩, s2⟩ := p2
        obtain ⟨e6, e7⟩ := queryNode_static _ _ _ _ _ _ _ hq2
        rw [hq2] at e2
        rw [e4, e5] at hq
        rw [e6, e7] at hq2
        by_cases hm : m = 0
        · have e3 : ratioD values given t.root t.dbg =
              (.error .zeroDivision, addQ (j + j2) t.dbg) := by
            unfold ratioD
            rw [dbind_ok e1, dbind_ok e2]
            simp only [hm, if_true]; rfl
          simp only [e3, pbind_ok hq, pbind_ok hq2, if_pos hm]
          exact ⟨rfl, rfl, hrep, hcol, hval, hf2⟩
        · have e3 : ratioD values given t.root t.dbg =
              (.ok ((k : ℚ) / (m : ℚ)), addQ (j + j2) t.dbg) := by
            unfold ratioD
            rw [dbind_ok e1, dbind_ok e2]
            simp only [hm, if_false]; rfl
          simp only [e3, pbind_ok hq, pbind_ok hq2, if_neg hm]
          exact ⟨rfl, rfl, hrep, hcol, hval, hf2⟩
  | pmf cols =>
    have hb : ∃ dbg, bump countPmf t.dbg = (.ok (), dbg) ∧ (e.after r (.pmf cols)).Fits dbg := by
      unfold bump
      by_cases hl : 1 ≤ t.dbg.level
      · rw [if_pos hl]
        have hl' : 1 ≤ e.level := by rw [← hfit.1]; exact hl
        obtain ⟨q, q1, q2, _⟩ := hfit.2 hl'
        rw [q1]
        refine ⟨_, rfl, ?_⟩
        simp only [Expected.after]
        rw [if_pos hl']
        exact ⟨hfit.1, fun _ => ⟨_, rfl, by simp [countPmf, q2], by simp, by simp [countPmf],
          rfl, rfl⟩⟩
      · rw [if_neg hl]
        refine ⟨_, rfl, ?_⟩
        have hl' : ¬ 1 ≤ e.level := by rw [← hfit.1]; exact hl
        simp only [Expected.after]
        rw [if_neg hl']
        exact hfit
    obtain ⟨dbg, b1, b2⟩ := hb
    unfold serveD pmfD servePlain
    simp only [b1]
    cases hq : makePmf (noLeafLists D) false cols t.root t.counters with
    | error x => exact ⟨rfl, rfl, hrep, hcol, hval, b2⟩
    | ok p =>
      obtain ⟨⟨d, n'⟩, s'⟩ := p
      obtain ⟨rfl, rfl⟩ := makePmf_static hq
      exact ⟨rfl, rfl, hrep, hcol, hval, b2⟩
  | reload =>
    exact ⟨rfl, rfl, pickle_rep hrep, by show (pickleAD false t.root).col = -1; simpa using hcol,
      by show (pickleAD false t.root).value = -1; simpa using hval, hfit⟩
  | observe debug =>
    exact ⟨rfl, rfl, hrep, hcol, hval, rfl,
      fun _ => ⟨{}, rfl, rfl, le_refl _, le_refl _, rfl, rfl⟩⟩

theorem serveAllD_run {D : Data} {r : Nat} (hr : ∀ c < D.ncols, (D.values c).length ≤ r)
    (rs : List DRequest) : ∀ {e : Expected} {t : DebugTree}, TreeGood D e t →
    (serveAllD D rs t).1 = (serveAllPlain (noLeafLists D) rs (t.root, t.counters)).1 ∧
    ((serveAllD D rs t).2.root, (serveAllD D rs t).2.counters) =
      (serveAllPlain (noLeafLists D) rs (t.root, t.counters)).2 ∧
    TreeGood D (rs.foldl (Expected.after r) e) (serveAllD D rs t).2 := by
  induction rs with
  | nil => intro e t h; exact ⟨rfl, rfl, h⟩
  | cons q rs ih =>
    intro e t h
    obtain ⟨h1, h2, h3⟩ := serveD_step hr h q
    obtain ⟨i1, i2, i3⟩ := ih h3
    simp only [serveAllD, serveAllPlain, List.foldl_cons]
    rw [h2] at i1 i2
    exact ⟨by rw [h1, i1], i2, i3⟩

/-- Requests the documentation allows. (Specification.) -/
def DRequest.Valid (D : Data) : DRequest → Prop
  | .count q => ValidQuery D q
  | .ratio values given => ValidQuery D values ∧ ValidQuery D given
  | .pmf cols => (Request.pmf cols).Valid D
  | .reload => True
  | .observe _ => True

/-- The right outcome of a valid request. (Specification.) -/
def Right (D : Data) : DRequest → Except Err DAnswer → Prop
  | .count q, .ok (.count k) => k = matching D q
  | .ratio values given, .ok (.ratio p) => matching D given ≠ 0 ∧
      p = (jointMatching D values given : ℚ) / matching D given
  | .ratio _ given, .error e => matching D given = 0 ∧ e = .zeroDivision
  | .pmf cols, .ok (.pmf d) => IsFrequencyTable D cols.mergeSort d
  | .reload, .ok .done => True
  | .observe _, .ok .done => True
  | _, _ => False

theorem servePlain_right {D : Data} (hD : Usable D) {t : ADNode × Counters}
    (hrep : RepAD D false (List.range D.nrows) t.1) (hcol : t.1.col = -1) (hval : t.1.value = -1)
    (req : DRequest) (hv : req.Valid D) : Right D req (servePlain D t req).1 := by
  cases req with
  | count q =>
    obtain ⟨⟨k, n⟩, s, e, h, _⟩ := queryCount_ok hD hv hrep hcol t.2
    unfold servePlain
    simp only [e]
    exact h
  | ratio values given =>
    obtain ⟨hj, hjm⟩ := joint_query D values given hv.1 hv.2
    obtain ⟨⟨k, n⟩, s, e, h, _⟩ := queryCount_ok hD hj hrep hcol t.2
    obtain ⟨rfl, rfl⟩ := queryNode_static _ _ _ _ _ _ _ e
    obtain ⟨⟨m, n⟩, s, e2, h2, _⟩ := queryCount_ok hD hv.2 hrep hcol t.2
    obtain ⟨rfl, rfl⟩ := queryNode_static _ _ _ _ _ _ _ e2
    simp only at h h2
    unfold servePlain query
    simp only [pbind_ok e, pbind_ok e2]
    by_cases hm : m = 0
    · rw [if_pos hm]
      have : matching D given = 0 := by omega
      exact ⟨this, rfl⟩
    · rw [if_neg hm]
      refine ⟨by omega, ?_⟩
      rw [h, h2, hjm]; simp
  | pmf cols =>
    obtain ⟨⟨d, n⟩, s, e, h, _⟩ := makePmf_ok hD hv hrep hcol hval t.2
    unfold servePlain
    simp only [e]
    exact h
  | reload => exact trivial
  | observe debug => exact trivial

theorem right_noLeafLists (D : Data) (req : DRequest) (a : Except Err DAnswer) :
    Right (noLeafLists D) req a → Right D req a := by
  intro h
  cases req with
  | pmf cols =>
    rcases a with x | (_ | _ | d | _)
    all_goals first
      | exact h.elim
      | exact ⟨h.1, h.2, h.3, h.4, h.5⟩
  | count q => rcases a with x | (_ | _ | d | _) <;> first | exact h.elim | exact h
  | ratio v g => rcases a with x | (_ | _ | d | _) <;> first | exact h.elim | exact h
  | reload => rcases a with x | (_ | _ | d | _) <;> first | exact h.elim | exact h
  | observe k => rcases a with x | (_ | _ | d | _) <;> first | exact h.elim | exact h

theorem newDebugTree_good {D : Data} (hD : Usable (noLeafLists D)) (debug : Nat) :
    ∃ root counters t, newTree (noLeafLists D) false = .ok (root, counters) ∧
      newDebugTree D debug = .ok t ∧ t.root = root ∧ t.counters = counters ∧
      TreeGood D { level := debug } t := by
  obtain ⟨root, s, e, h⟩ := create_treeOk hD false
  have e' : newTree (noLeafLists D) false = .ok (root, s) := e
  refine ⟨root, s, ⟨root, s, ⟨debug, if 1 ≤ debug then some {} else none⟩⟩, e', ?_, rfl, rfl,
    h.1, h.2.1, h.2.2.1, rfl, ?_⟩
  · unfold newDebugTree; rw [e']
  · intro hl
    exact ⟨{}, by simp only at hl; rw [if_pos hl], rfl, le_refl _, le_refl _, rfl, rfl⟩

/-! ## The theorems -/

/-- **C99.** A debug tree answers every request — valid or not — exactly as the plain static
tree without leaf lists, exceptions included, whatever leaf-list threshold was asked for,
whatever its debug level is and however it is observed. -/
theorem debug_tree_transparent (D : Data) (hD : Usable (noLeafLists D)) (debug : Nat)
    (requests : List DRequest) :
    ∃ root counters t, newTree (noLeafLists D) false = .ok (root, counters) ∧
      newDebugTree D debug = .ok t ∧
      (serveAllD D requests t).1 =
        (serveAllPlain (noLeafLists D) requests (root, counters)).1 ∧
      ((serveAllD D requests t).2.root, (serveAllD D requests t).2.counters) =
        (serveAllPlain (noLeafLists D) requests (root, counters)).2 := by
  obtain ⟨root, counters, t, h1, h2, rfl, rfl, h3⟩ := newDebugTree_good hD debug
  let r := ((List.range D.ncols).map (fun c => (D.values c).length)).sum
  have hr : ∀ c < D.ncols, (D.values c).length ≤ r := by
    intro c hc
    exact List.single_le_sum (by simp) _ (List.mem_map.2 ⟨c, List.mem_range.2 hc, rfl⟩)
  obtain ⟨a, b, _⟩ := serveAllD_run hr requests h3
  exact ⟨_, _, t, h1, h2, a, b⟩

/-- **C99.** In any series of valid requests, every answer of a debug tree is right; unlike a
plain tree it does not need the threshold to be at most the number of rows. -/
theorem debug_tree_right (D : Data) (hD : Usable (noLeafLists D)) (debug : Nat)
    (requests : List DRequest) (hv : ∀ q ∈ requests, q.Valid D) :
    ∃ t, newDebugTree D debug = .ok t ∧
      List.Forall₂ (Right D) requests (serveAllD D requests t).1 := by
  obtain ⟨root, counters, t, h1, h2, rfl, rfl, h3⟩ := newDebugTree_good hD debug
  refine ⟨t, h2, ?_⟩
  let r := ((List.range D.ncols).map (fun c => (D.values c).length)).sum
  have hr : ∀ c < D.ncols, (D.values c).length ≤ r := by
    intro c hc
    exact List.single_le_sum (by simp) _ (List.mem_map.2 ⟨c, List.mem_range.2 hc, rfl⟩)
  clear h1 h2
  generalize ({ level := debug } : Expected) = e at h3
  induction requests generalizing t e with
  | nil => exact .nil
  | cons q rs ih =>
    obtain ⟨s1, s2, s3⟩ := serveD_step hr h3 q
    refine .cons ?_ (ih (fun q' h' => hv q' (by simp [h'])) _ _ s3)
    show Right D q (serveD D t q).1
    rw [s1]
    refine right_noLeafLists D q _ (servePlain_right (t := (t.root, t.counters)) hD
      h3.rep h3.col h3.value q ?_)
    have := hv q (by simp)
    cases q <;> exact this

/-- **C99.** The counters of a debug tree, after any series of requests (valid or not), while
`debug >= 1`: `n_pmf` is the number of `make_pmf` calls since the counters were prepared;
`n_queries` counts at least one call for every query since the last `make_pmf`, and for a
query about `k` columns at most `1 + r + ... + r ^ k` of them, if a column has at most `r`
values — however many rows there are; the leaf-list counters are 0. -/
theorem debug_tree_counters (D : Data) (hD : Usable (noLeafLists D)) (debug : Nat) (r : Nat)
    (hr : ∀ c < D.ncols, (D.values c).length ≤ r) (requests : List DRequest) :
    ∃ t, newDebugTree D debug = .ok t ∧
      (requests.foldl (Expected.after r) { level := debug }).Fits
        (serveAllD D requests t).2.dbg := by
  obtain ⟨root, counters, t, h1, h2, rfl, rfl, h3⟩ := newDebugTree_good hD debug
  obtain ⟨_, _, c⟩ := serveAllD_run hr requests h3
  exact ⟨t, h2, c.fits⟩

/-- **C99.** Right after `make_pmf` the tree reports 0 queries: this is what the debug G-test
prints after every CI test. -/
theorem debug_tree_reports_no_queries (D : Data) (hD : Usable (noLeafLists D)) (debug : Nat)
    (hl : 1 ≤ debug) (requests : List DRequest) (cols : List Nat)
    (hno : ∀ q ∈ requests, ∀ k, q ≠ .observe k) :
    ∃ t u, newDebugTree D debug = .ok t ∧
      (serveAllD D (requests ++ [.pmf cols]) t).2.dbg.stats = some u ∧
      u.nQueries = 0 ∧ u.nQueriesLL = 0 ∧ u.nPmfLL = 0 ∧
      u.nPmf = (requests.filter (fun q => match q with | .pmf _ => true | _ => false)).length + 1 := by
  let r := ((List.range D.ncols).map (fun c => (D.values c).length)).sum
  have hr : ∀ c < D.ncols, (D.values c).length ≤ r := by
    intro c hc
    exact List.single_le_sum (by simp) _ (List.mem_map.2 ⟨c, List.mem_range.2 hc, rfl⟩)
  obtain ⟨t, h1, h2⟩ := debug_tree_counters D hD debug r hr (requests ++ [.pmf cols])
  have key : ∀ (rs : List DRequest) (e : Expected), 1 ≤ e.level →
      (∀ q ∈ rs, ∀ k, q ≠ .observe k) →
      1 ≤ (rs.foldl (Expected.after r) e).level ∧
      (rs.foldl (Expected.after r) e).pmfs = e.pmfs +
        (rs.filter (fun q => match q with | .pmf _ => true | _ => false)).length := by
    intro rs
    induction rs with
    | nil => intro e h _; exact ⟨h, rfl⟩
    | cons q rs ih =>
      intro e he hq
      have hq' := hq q (by simp)
      have hlev : 1 ≤ (e.after r q).level := by
        cases q <;> simp only [Expected.after] <;> first | (split <;> exact he) | exact he | skip
        exact absurd rfl (hq' _)
      obtain ⟨i1, i2⟩ := ih (e.after r q) hlev (fun p hp => hq p (by simp [hp]))
      refine ⟨i1, ?_⟩
      rw [List.foldl_cons, i2]
      cases q <;> simp only [Expected.after, if_pos he, List.filter_cons] <;>
        first | (simp; done) | (simp; omega) | skip
      exact absurd rfl (hq' _)
  obtain ⟨k1, k2⟩ := key requests { level := debug } hl hno
  rw [List.foldl_append] at h2
  simp only [List.foldl_cons, List.foldl_nil, Expected.after] at h2
  rw [if_pos k1] at h2
  obtain ⟨u, u1, u2, u3, u4, u5, u6⟩ := h2.2 k1
  refine ⟨t, u, h1, u1, ?_, u5, u6, ?_⟩
  · simp only at u4; omega
  · rw [u2]; simp only; rw [k2]; simp

/-- The hypotheses hold for the example data with a threshold above its number of rows. -/
example : Usable (noLeafLists { exampleData with threshold := 16 }) ∧
    ∀ c < exampleData.ncols, (exampleData.values c).length ≤ 3 :=
  ⟨⟨exampleData_usable.1, exampleData_usable.2, exampleData_usable.3, Nat.zero_le _⟩,
    by show ∀ c < 3, _; decide⟩

/-- A query about three columns of two values each, asking for the most common value of the
first, makes seven calls of `query_count`; the bound is `1 + 2 + 4 + 8 = 15`. -/
example : ∃ t, newDebugTree exXor 1 = .ok t ∧
    (queryD [(0, 0), (1, 0), (2, 0)] t.root t.dbg).1.toOption = some 1 ∧
    (queryD [(0, 0), (1, 0), (2, 0)] t.root t.dbg).2.stats = some { nQueries := 7 } ∧
    7 ≤ maxCalls 2 3 :=
  ⟨_, rfl, by decide +kernel, by decide +kernel, by decide⟩

end Debug
end Mbtk.ADTree
