import Verif.Graph.Paths
import Mathlib.Data.List.Sort
/-!
# The adjacency dictionaries of a network represent its edges
-/
namespace Mbtk.Graph

/-- The network object `N` holds exactly the nodes `V` and the directed edges `E`: both
dictionaries have every node as key; `graph_d[v]` lists the children of `v`, `graph_u[v]`
lists the nodes linked to `v`, in strictly ascending order.
(Models no code: a notion for statements and proofs.) -/
structure Represents (N : Net) (V : List Nat) (E : Nat → Nat → Prop) : Prop where
  edge_mem : ∀ v w, E v w → v ∈ V ∧ w ∈ V
  key_d : ∀ v, (dictGet N.gd v).isSome ↔ v ∈ V
  mem_d : ∀ v l, dictGet N.gd v = some l → ∀ w, w ∈ l ↔ E v w
  sorted_d : ∀ v l, dictGet N.gd v = some l → l.Pairwise (· ≤ ·)
  key_u : ∀ v, (dictGet N.gu v).isSome ↔ v ∈ V
  mem_u : ∀ v l, dictGet N.gu v = some l → ∀ w, w ∈ l ↔ Linked E v w
  sorted_u : ∀ v l, dictGet N.gu v = some l → l.Pairwise (· < ·)

@[simp] theorem sortedNat_nil : sortedNat [] = [] := rfl

@[simp] theorem sortedNat_singleton (a : Nat) : sortedNat [a] = [a] := rfl

theorem dictGet_appendTo (g : Adj) (a b v : Nat) :
    dictGet (appendTo g a b) v = if a = v then some ((dictGet g a).getD [] ++ [b])
      else dictGet g v := by
  unfold appendTo
  cases h : dictGet g a <;> simp [dictGet_dictSet]

theorem dictGet_addTo (g : Adj) (a b v : Nat) :
    dictGet (addTo g a b) v = if a = v then some (if b ∈ (dictGet g a).getD [] then
      (dictGet g a).getD [] else (dictGet g a).getD [] ++ [b]) else dictGet g v := by
  unfold addTo
  cases h : dictGet g a with
  | none => simp [dictGet_dictSet]
  | some l =>
    by_cases hb : b ∈ l
    · by_cases hv : a = v
      · subst hv; simp [hb, h]
      · simp [hb, hv]
    · simp [hb, dictGet_dictSet]

theorem dictGet_sortAll (g : Adj) (v : Nat) :
    dictGet (sortAll g) v = (dictGet g v).map sortedNat := by
  induction g with
  | nil => rfl
  | cons p g ih =>
    obtain ⟨k, l⟩ := p
    simp only [sortAll, List.map_cons, dictGet] at ih ⊢
    split
    · rfl
    · exact ih

theorem dictGet_addMissing (nodes : List Nat) (g : Adj) (v : Nat) :
    dictGet (addMissing nodes g) v =
      if (dictGet g v).isSome then dictGet g v else if v ∈ nodes then some [] else none := by
  induction nodes generalizing g with
  | nil => simp only [addMissing, List.foldl_nil]; cases dictGet g v <;> simp
  | cons n nodes ih =>
    simp only [addMissing, List.foldl_cons] at ih ⊢
    rw [ih]
    by_cases hn : (dictGet g n).isSome
    · simp only [hn, if_true]
      by_cases hv : (dictGet g v).isSome
      · simp [hv]
      · have : v ≠ n := by rintro rfl; exact hv hn
        simp [hv, this]
    · rw [if_neg hn, dictGet_dictSet]
      by_cases hvn : n = v
      · subst hvn
        simp at hn; simp [hn]
      · simp [hvn, Ne.symm hvn]

theorem dictGet_foldl_sortOrEmpty (nodes : List Nat) (hn : nodes.Nodup) (g : Adj) (v : Nat) :
    dictGet (nodes.foldl sortOrEmpty g) v =
      if v ∈ nodes then some (sortedNat ((dictGet g v).getD [])) else dictGet g v := by
  induction nodes generalizing g with
  | nil => simp
  | cons n nodes ih =>
    rw [List.foldl_cons, ih (List.nodup_cons.1 hn).2]
    have hs : ∀ w, dictGet (sortOrEmpty g n) w =
        if n = w then some (sortedNat ((dictGet g n).getD [])) else dictGet g w := by
      intro w
      unfold sortOrEmpty
      cases h : dictGet g n <;> simp [dictGet_dictSet]
    rw [hs]
    by_cases hv : n = v
    · subst hv; simp [(List.nodup_cons.1 hn).1]
    · simp [hv, Ne.symm hv]

/-- The fold building the undirected dictionary from a list of edges.
(Models no code: a notion for statements and proofs.) -/
def foldU (es : List (Nat × Nat)) (g : Adj) : Adj :=
  es.foldl (fun g e => addTo (addTo g e.1 e.2) e.2 e.1) g

/-- The fold building the directed dictionary from a list of edges.
(Models no code: a notion for statements and proofs.) -/
def foldD (es : List (Nat × Nat)) (g : Adj) : Adj :=
  es.foldl (fun g e => appendTo g e.1 e.2) g

theorem addTo_mem (g : Adj) (a b v w : Nat) :
    w ∈ (dictGet (addTo g a b) v).getD [] ↔ w ∈ (dictGet g v).getD [] ∨ (v = a ∧ w = b) := by
  rw [dictGet_addTo]
  by_cases h : a = v
  · subst h
    simp only [if_true, Option.getD_some, true_and]
    split
    · rename_i hb
      constructor
      · exact Or.inl
      · rintro (h | rfl)
        · exact h
        · exact hb
    · simp
  · simp [h, Ne.symm h]

theorem addTo_isSome (g : Adj) (a b v : Nat) :
    (dictGet (addTo g a b) v).isSome ↔ (dictGet g v).isSome ∨ v = a := by
  rw [dictGet_addTo]
  by_cases h : a = v
  · simp [h]
  · simp [h, Ne.symm h]

theorem addTo_nodup (g : Adj) (a b : Nat) (h : ∀ v, ((dictGet g v).getD []).Nodup) (v : Nat) :
    ((dictGet (addTo g a b) v).getD []).Nodup := by
  rw [dictGet_addTo]
  by_cases hv : a = v
  · simp only [hv, if_true, Option.getD_some]
    split
    · exact h v
    · rename_i hb
      rw [List.nodup_append]
      refine ⟨h v, by simp, ?_⟩
      rintro x hx y hy rfl
      simp at hy; subst hy; exact hb hx
  · simp only [hv, if_false]; exact h v

theorem foldU_spec (es : List (Nat × Nat)) (g : Adj) :
    (∀ v w, w ∈ (dictGet (foldU es g) v).getD [] ↔
      w ∈ (dictGet g v).getD [] ∨ (v, w) ∈ es ∨ (w, v) ∈ es) ∧
    (∀ v, (dictGet (foldU es g) v).isSome ↔
      (dictGet g v).isSome ∨ ∃ w, (v, w) ∈ es ∨ (w, v) ∈ es) ∧
    ((∀ v, ((dictGet g v).getD []).Nodup) → ∀ v, ((dictGet (foldU es g) v).getD []).Nodup) := by
  induction es generalizing g with
  | nil => simp [foldU]
  | cons e es ih =>
    obtain ⟨a, b⟩ := e
    obtain ⟨h1, h2, h3⟩ := ih (addTo (addTo g a b) b a)
    simp only [foldU, List.foldl_cons] at h1 h2 h3 ⊢
    refine ⟨?_, ?_, ?_⟩
    · intro v w
      rw [h1, addTo_mem, addTo_mem]
      simp only [List.mem_cons, Prod.mk.injEq]
      grind
    · intro v
      rw [h2, addTo_isSome, addTo_isSome]
      simp only [List.mem_cons, Prod.mk.injEq]
      constructor
      · rintro (((h | rfl) | rfl) | ⟨w, h⟩)
        · exact Or.inl h
        · exact Or.inr ⟨b, by simp⟩
        · exact Or.inr ⟨a, by simp⟩
        · exact Or.inr ⟨w, by grind⟩
      · rintro (h | ⟨w, (⟨rfl, rfl⟩ | h) | ⟨rfl, rfl⟩ | h⟩)
        · exact Or.inl (Or.inl (Or.inl h))
        · exact Or.inl (Or.inl (Or.inr rfl))
        · exact Or.inr ⟨w, Or.inl h⟩
        · exact Or.inl (Or.inr rfl)
        · exact Or.inr ⟨w, Or.inr h⟩
    · intro h
      exact h3 (addTo_nodup _ _ _ (addTo_nodup _ _ _ h))

theorem foldD_spec (es : List (Nat × Nat)) (g : Adj) :
    (∀ v w, w ∈ (dictGet (foldD es g) v).getD [] ↔ w ∈ (dictGet g v).getD [] ∨ (v, w) ∈ es) ∧
    (∀ v, (dictGet (foldD es g) v).isSome ↔ (dictGet g v).isSome ∨ ∃ w, (v, w) ∈ es) := by
  induction es generalizing g with
  | nil => simp [foldD]
  | cons e es ih =>
    obtain ⟨a, b⟩ := e
    obtain ⟨h1, h2⟩ := ih (appendTo g a b)
    simp only [foldD, List.foldl_cons] at h1 h2 ⊢
    refine ⟨?_, ?_⟩
    · intro v w
      rw [h1, dictGet_appendTo]
      by_cases h : a = v
      · subst h; simp [or_assoc]
      · simp [h, Ne.symm h]
    · intro v
      rw [h2, dictGet_appendTo]
      by_cases h : a = v
      · subst h; simp
      · simp [h, Ne.symm h]

theorem foldl_nested {α β γ δ : Type} (f : γ → δ → γ) (h : α → β → δ) (k : α → List β)
    (l : List α) (g : γ) :
    l.foldl (fun g a => (k a).foldl (fun g b => f g (h a b)) g) g =
      (l.flatMap (fun a => (k a).map (h a))).foldl f g := by
  induction l generalizing g with
  | nil => rfl
  | cons a l ih =>
    rw [List.foldl_cons, ih, List.flatMap_cons, List.foldl_append, List.foldl_map]

theorem sortedNat_sorted (l : List Nat) : (sortedNat l).Pairwise (· ≤ ·) :=
  List.pairwise_insertionSort _ _

theorem sortedNat_strict {l : List Nat} (h : l.Nodup) : (sortedNat l).Pairwise (· < ·) := by
  have h1 := sortedNat_sorted l
  have h2 : (sortedNat l).Nodup := (List.perm_insertionSort _ l).nodup_iff.2 h
  exact (h1.and h2).imp (fun ⟨h, h'⟩ => by omega)

theorem mem_sortedNat {l : List Nat} {a : Nat} : a ∈ sortedNat l ↔ a ∈ l :=
  (List.perm_insertionSort _ l).mem_iff

/-! ### `finalize` -/

/-- Edge `c → n`: `c` is a conditioning variable of node `n`.
(Models no code: a notion for statements and proofs.) -/
def NodesEdge (nodes : List (Nat × List Nat)) (c n : Nat) : Prop := ∃ cs, (n, cs) ∈ nodes ∧ c ∈ cs

theorem ofNodes_represents (nodes : List (Nat × List Nat))
    (hcl : ∀ n cs, (n, cs) ∈ nodes → ∀ c ∈ cs, c ∈ nodes.map Prod.fst) :
    Represents (ofNodes nodes) (nodes.map Prod.fst) (NodesEdge nodes) := by
  let es : List (Nat × Nat) := nodes.flatMap (fun n => n.2.map (fun c => (c, n.1)))
  have hes : ∀ v w, (v, w) ∈ es ↔ NodesEdge nodes v w := by
    intro v w
    simp only [es, List.mem_flatMap, List.mem_map, Prod.mk.injEq, NodesEdge]
    constructor
    · rintro ⟨⟨n, cs⟩, h1, c, h2, rfl, rfl⟩; exact ⟨cs, h1, h2⟩
    · rintro ⟨cs, h1, h2⟩; exact ⟨(w, cs), h1, v, h2, rfl, rfl⟩
  have hV : ∀ v w, NodesEdge nodes v w → v ∈ nodes.map Prod.fst ∧ w ∈ nodes.map Prod.fst := by
    rintro v w ⟨cs, h1, h2⟩
    exact ⟨hcl _ _ h1 _ h2, List.mem_map.2 ⟨_, h1, rfl⟩⟩
  have hd : (ofNodes nodes).gd = addMissing (nodes.map Prod.fst) (sortAll (foldD es [])) := by
    simp only [ofNodes, asDirected, foldD, es]
    rw [← foldl_nested (fun g (e : Nat × Nat) => appendTo g e.1 e.2)
      (fun (n : Nat × List Nat) c => (c, n.1)) Prod.snd]
  have hu : (ofNodes nodes).gu = addMissing (nodes.map Prod.fst) (sortAll (foldU es [])) := by
    simp only [ofNodes, asUndirected, foldU, es]
    rw [← foldl_nested (fun g (e : Nat × Nat) => addTo (addTo g e.1 e.2) e.2 e.1)
      (fun (n : Nat × List Nat) c => (c, n.1)) Prod.snd]
  obtain ⟨d1, d2⟩ := foldD_spec es []
  obtain ⟨u1, u2, u3⟩ := foldU_spec es []
  have gD : ∀ v, dictGet (ofNodes nodes).gd v = if v ∈ nodes.map Prod.fst then
      some (sortedNat ((dictGet (foldD es []) v).getD [])) else none := by
    intro v
    rw [hd, dictGet_addMissing, dictGet_sortAll]
    cases h : dictGet (foldD es []) v with
    | none => simp
    | some l =>
      have : v ∈ nodes.map Prod.fst := by
        obtain h' | ⟨w, hw⟩ := (d2 v).1 (by simp [h])
        · simp [dictGet] at h'
        · exact (hV v w ((hes v w).1 hw)).1
      simp only [Option.map_some, Option.isSome_some, if_true, this, Option.getD_some]
  have gU : ∀ v, dictGet (ofNodes nodes).gu v = if v ∈ nodes.map Prod.fst then
      some (sortedNat ((dictGet (foldU es []) v).getD [])) else none := by
    intro v
    rw [hu, dictGet_addMissing, dictGet_sortAll]
    cases h : dictGet (foldU es []) v with
    | none => simp
    | some l =>
      have : v ∈ nodes.map Prod.fst := by
        obtain h' | ⟨w, hw | hw⟩ := (u2 v).1 (by simp [h])
        · simp [dictGet] at h'
        · exact (hV v w ((hes v w).1 hw)).1
        · exact (hV w v ((hes w v).1 hw)).2
      simp only [Option.map_some, Option.isSome_some, if_true, this, Option.getD_some]
  refine ⟨hV, ?_, ?_, ?_, ?_, ?_, ?_⟩
  · intro v; rw [gD]; split <;> simp_all
  · intro v l h w
    rw [gD] at h; split at h
    · cases h; rw [mem_sortedNat, d1, ← hes]; simp [dictGet]
    · cases h
  · intro v l h
    rw [gD] at h; split at h
    · cases h; exact sortedNat_sorted _
    · cases h
  · intro v; rw [gU]; split <;> simp_all
  · intro v l h w
    rw [gU] at h; split at h
    · cases h; rw [mem_sortedNat, u1, Linked, ← hes, ← hes]; simp [dictGet]
    · cases h
  · intro v l h
    rw [gU] at h; split at h
    · cases h; exact sortedNat_strict (u3 (by simp [dictGet]) v)
    · cases h

/-! ### `from_directed_graph` -/

theorem fromDirected_represents (g : Adj) (hk : (g.map Prod.fst).Nodup) :
    Represents (fromDirected g) (allNodes g) (Arc g) := by
  let es : List (Nat × Nat) := g.flatMap (fun p => p.2.map (fun d => (p.1, d)))
  have hes : ∀ v w, (v, w) ∈ es ↔ Arc g v w := by
    intro v w
    simp only [es, List.mem_flatMap, List.mem_map, Prod.mk.injEq, Arc]
    constructor
    · rintro ⟨⟨n, cs⟩, h1, c, h2, rfl, rfl⟩; exact ⟨cs, dictGet_of_mem hk h1, h2⟩
    · rintro ⟨cs, h1, h2⟩; exact ⟨(v, cs), dictGet_mem h1, w, h2, rfl, rfl⟩
  have hkey : ∀ v, (dictGet g v).isSome → v ∈ allNodes g := by
    intro v hv
    obtain ⟨l, hl⟩ := Option.isSome_iff_exists.1 hv
    simp only [allNodes, List.mem_dedup, List.mem_flatMap]
    exact ⟨_, dictGet_mem hl, by simp⟩
  have hV : ∀ v w, Arc g v w → v ∈ allNodes g ∧ w ∈ allNodes g := by
    intro v w h
    refine ⟨?_, arc_mem_allNodes h⟩
    obtain ⟨l, h1, -⟩ := h
    exact hkey v (by simp [h1])
  have hu : (fromDirected g).gu = (allNodes g).foldl sortOrEmpty (foldU es []) := by
    simp only [fromDirected, foldU, es]
    rw [← foldl_nested (fun g (e : Nat × Nat) => addTo (addTo g e.1 e.2) e.2 e.1)
      (fun (n : Nat × List Nat) c => (n.1, c)) Prod.snd]
  obtain ⟨u1, u2, u3⟩ := foldU_spec es []
  have hnd : (allNodes g).Nodup := List.nodup_dedup _
  have gD : ∀ v, dictGet (fromDirected g).gd v = if v ∈ allNodes g then
      some (sortedNat ((dictGet g v).getD [])) else none := by
    intro v
    simp only [fromDirected]
    rw [dictGet_foldl_sortOrEmpty _ hnd]
    by_cases h : v ∈ allNodes g
    · simp [h]
    · simp only [h, if_false]
      cases hg : dictGet g v with
      | none => rfl
      | some l => exact absurd (hkey v (by simp [hg])) h
  have gU : ∀ v, dictGet (fromDirected g).gu v = if v ∈ allNodes g then
      some (sortedNat ((dictGet (foldU es []) v).getD [])) else none := by
    intro v
    rw [hu, dictGet_foldl_sortOrEmpty _ hnd]
    by_cases h : v ∈ allNodes g
    · simp [h]
    · simp only [h, if_false]
      cases hg : dictGet (foldU es []) v with
      | none => rfl
      | some l =>
        exfalso; apply h
        obtain h' | ⟨w, hw | hw⟩ := (u2 v).1 (by simp [hg])
        · simp [dictGet] at h'
        · exact (hV v w ((hes v w).1 hw)).1
        · exact (hV w v ((hes w v).1 hw)).2
  refine ⟨hV, ?_, ?_, ?_, ?_, ?_, ?_⟩
  · intro v; rw [gD]; split <;> simp_all
  · intro v l h w
    rw [gD] at h; split at h
    · cases h; rw [mem_sortedNat, Arc]; cases dictGet g v <;> simp
    · cases h
  · intro v l h
    rw [gD] at h; split at h
    · cases h; exact sortedNat_sorted _
    · cases h
  · intro v; rw [gU]; split <;> simp_all
  · intro v l h w
    rw [gU] at h; split at h
    · cases h; rw [mem_sortedNat, u1, Linked, ← hes, ← hes]; simp [dictGet]
    · cases h
  · intro v l h
    rw [gU] at h; split at h
    · cases h; exact sortedNat_strict (u3 (by simp [dictGet]) v)
    · cases h

end Mbtk.Graph
