import Verif.Graph.Model
import Verif.Graph.Spec
import Mathlib.Data.List.Perm.Subperm
import Mathlib.Data.List.TakeWhile
/-!
# Path enumeration: exactness of the recursive search, and the generator
-/
namespace Mbtk.Graph

/-- The link relation a dictionary stands for.
(Models no code: a notion for statements and proofs.) -/
def Arc (g : Adj) (a b : Nat) : Prop := ∃ l, dictGet g a = some l ∧ b ∈ l

theorem mem_pathsRec {g : Adj} {stop : Nat} {fuel start : Nat} {path p : List Nat}
    (hs : start ∉ path) :
    p ∈ pathsRec g stop fuel start path ↔
      ∃ q, p = path ++ q ∧ SimplePath (Arc g) start stop q ∧ (∀ v ∈ q, v ∉ path) ∧
        q.length ≤ fuel := by
  induction fuel generalizing start path with
  | zero =>
    simp only [pathsRec, List.not_mem_nil, false_iff]
    rintro ⟨q, -, h, -, hl⟩
    exact h.ne_nil (List.length_eq_zero_iff.1 (Nat.le_zero.1 hl))
  | succ fuel ih =>
    simp only [pathsRec]
    by_cases hst : start = stop
    · subst hst
      simp only [if_true, List.mem_singleton]
      constructor
      · rintro rfl
        exact ⟨[start], rfl, simplePath_cons_iff.2 ⟨rfl, Or.inl ⟨rfl, rfl⟩⟩, by simpa using hs,
          by simp⟩
      · rintro ⟨q, rfl, h, -, -⟩
        cases q with
        | nil => exact absurd rfl h.ne_nil
        | cons a q =>
          obtain ⟨rfl, ⟨rfl, -⟩ | ⟨n, -, -, h3, -⟩⟩ := simplePath_cons_iff.1 h
          · rfl
          · exact absurd rfl h3
    · rw [if_neg hst]
      have key : p ∈ (match dictGet g start with
          | none => []
          | some ns => ns.flatMap (fun n => if n ∈ path ++ [start] then []
              else pathsRec g stop fuel n (path ++ [start]))) ↔
          ∃ n, Arc g start n ∧ n ∉ path ++ [start] ∧
            p ∈ pathsRec g stop fuel n (path ++ [start]) := by
        cases hd : dictGet g start with
        | none =>
          simp only [List.not_mem_nil, false_iff]
          rintro ⟨n, ⟨l, h1, -⟩, -⟩
          rw [hd] at h1; cases h1
        | some ns =>
          simp only [List.mem_flatMap]
          constructor
          · rintro ⟨n, hn, hp⟩
            by_cases h : n ∈ path ++ [start]
            · rw [if_pos h] at hp; cases hp
            · rw [if_neg h] at hp; exact ⟨n, ⟨ns, hd, hn⟩, h, hp⟩
          · rintro ⟨n, ⟨l, h1, h2⟩, h, hp⟩
            rw [hd] at h1; cases h1
            exact ⟨n, h2, by rw [if_neg h]; exact hp⟩
      refine key.trans ?_
      constructor
      · rintro ⟨n, h1, h2, h3⟩
        obtain ⟨q, rfl, h4, h5, h6⟩ := (ih h2).1 h3
        refine ⟨start :: q, by simp, simplePath_cons_iff.2 ⟨rfl, Or.inr ⟨n, h1, ?_, hst, h4⟩⟩, ?_, ?_⟩
        · intro h; exact h5 _ h (by simp)
        · intro v hv
          rcases List.mem_cons.1 hv with rfl | hv
          · exact hs
          · intro h; exact h5 v hv (by simp [h])
        · simp; omega
      · rintro ⟨q, rfl, h, h5, h6⟩
        cases q with
        | nil => exact absurd rfl h.ne_nil
        | cons a q =>
          obtain ⟨rfl, ⟨-, h⟩ | ⟨n, h1, h2, h3, h4⟩⟩ := simplePath_cons_iff.1 h
          · exact absurd h hst
          · have hnq : n ∈ q := List.mem_of_head? h4.head
            have hn : n ∉ path ++ [a] := by
              simp only [List.mem_append, List.mem_singleton, not_or]
              refine ⟨h5 n (by simp [hnq]), ?_⟩
              rintro rfl; exact h2 hnq
            refine ⟨n, h1, hn, (ih hn).2 ⟨q, by simp, h4, ?_, by simpa using h6⟩⟩
            intro v hv
            simp only [List.mem_append, List.mem_singleton, not_or]
            refine ⟨h5 v (by simp [hv]), ?_⟩
            rintro rfl; exact h2 hv

theorem arc_mem_allNodes {g : Adj} {a b : Nat} (h : Arc g a b) : b ∈ allNodes g := by
  obtain ⟨l, h1, h2⟩ := h
  simp only [allNodes, List.mem_dedup, List.mem_flatMap]
  exact ⟨_, dictGet_mem h1, List.mem_cons_of_mem _ h2⟩

theorem SimplePath.tail_subset {g : Adj} {x y : Nat} {p : List Nat}
    (h : SimplePath (Arc g) x y p) : ∀ v ∈ p.tail, v ∈ allNodes g := by
  induction p generalizing x with
  | nil => simp
  | cons a q ih =>
    intro v hv
    obtain ⟨rfl, ⟨rfl, -⟩ | ⟨n, h1, -, -, h4⟩⟩ := simplePath_cons_iff.1 h
    · simp at hv
    · simp only [List.tail_cons] at hv
      cases q with
      | nil => simp at hv
      | cons b q =>
        have hb : b = n := by simpa using h4.head
        subst hb
        rcases List.mem_cons.1 hv with rfl | hv
        · exact arc_mem_allNodes h1
        · exact ih h4 v (by simpa using hv)

theorem SimplePath.length_le {g : Adj} {x y : Nat} {p : List Nat}
    (h : SimplePath (Arc g) x y p) : p.length ≤ pathFuel g := by
  have h1 : p.tail.length ≤ (allNodes g).length :=
    (List.Nodup.subperm (h.nodup.sublist (List.tail_sublist p)) h.tail_subset).length_le
  simp only [List.length_tail] at h1
  simp only [pathFuel]; omega

theorem mem_allPaths {g : Adj} {x y : Nat} {p : List Nat} :
    p ∈ allPaths g x y ↔ SimplePath (Arc g) x y p := by
  rw [allPaths, mem_pathsRec (by simp)]
  constructor
  · rintro ⟨q, rfl, h, -⟩; simpa using h
  · intro h; exact ⟨p, by simp, h, by simp, h.length_le⟩

theorem pathsRec_nodup {g : Adj} (hg : ∀ a l, dictGet g a = some l → l.Nodup) {stop : Nat}
    {fuel start : Nat} {path : List Nat} (hs : start ∉ path) :
    (pathsRec g stop fuel start path).Nodup := by
  induction fuel generalizing start path with
  | zero => simp [pathsRec]
  | succ fuel ih =>
    simp only [pathsRec]
    split
    · simp
    · split
      · simp
      · rename_i ns hd
        rw [List.nodup_flatMap]
        constructor
        · intro n _
          split
          · simp
          · rename_i h; exact ih h
        · refine (hg _ _ hd).imp ?_
          intro a b hab
          simp only [Function.onFun, List.disjoint_left]
          intro p hp hp'
          by_cases ha : a ∈ path ++ [start]
          · rw [if_pos ha] at hp; cases hp
          · by_cases hb : b ∈ path ++ [start]
            · rw [if_pos hb] at hp'; cases hp'
            · rw [if_neg ha] at hp; rw [if_neg hb] at hp'
              obtain ⟨q, rfl, h1, -⟩ := (mem_pathsRec ha).1 hp
              obtain ⟨q', h2, h3, -⟩ := (mem_pathsRec hb).1 hp'
              rw [List.append_cancel_left h2] at h1
              have := h1.head.symm.trans h3.head
              exact hab (by simpa using this)

theorem pathsRec_fuel {g : Adj} {stop : Nat} {fuel start : Nat} {path : List Nat}
    (hf : pathFuel g ≤ fuel + path.length) (hn : (path ++ [start]).Nodup)
    (hsub : ∀ v ∈ (path ++ [start]).tail, v ∈ allNodes g) :
    pathsRec g stop fuel start path = pathsRec g stop (fuel + 1) start path := by
  induction fuel generalizing start path with
  | zero =>
    exfalso
    have h1 : (path ++ [start]).tail.length ≤ (allNodes g).length :=
      (List.Nodup.subperm (hn.sublist (List.tail_sublist _)) hsub).length_le
    simp only [List.length_tail, List.length_append, List.length_singleton] at h1
    simp only [pathFuel] at hf; omega
  | succ fuel ih =>
    rw [pathsRec, pathsRec]
    split
    · rfl
    · split
      · rfl
      · rename_i ns hd
        rw [List.flatMap_def, List.flatMap_def]
        congr 1
        apply List.map_congr_left
        intro n hn'
        split
        · rfl
        · rename_i h
          refine ih (by simp; omega) ?_ ?_
          · rw [List.nodup_append]
            refine ⟨hn, by simp, ?_⟩
            intro a ha b hb; simp at hb; subst hb
            rintro rfl; exact h ha
          · intro v hv
            rw [List.tail_append_of_ne_nil (by simp)] at hv
            rcases List.mem_append.1 hv with hv | hv
            · exact hsub v hv
            · simp at hv; subst hv; exact arc_mem_allNodes ⟨ns, hd, hn'⟩

/-! ### The generator -/

/-- `k` iterations of the loop lead from `m` to `m'` without stopping.
(Models no code: a notion for statements and proofs.) -/
inductive Steps (g : Adj) (stop : Nat) : Machine → Machine → Prop
  | refl (m) : Steps g stop m m
  | cons {m m1 m2} : m.step g stop = .ok (m1, false) → Steps g stop m1 m2 → Steps g stop m m2

theorem Steps.trans {g : Adj} {stop : Nat} {a b c : Machine} (h1 : Steps g stop a b)
    (h2 : Steps g stop b c) : Steps g stop a c := by
  induction h1 with
  | refl => exact h2
  | cons h _ ih => exact .cons h (ih h2)

theorem Steps.run {g : Adj} {stop : Nat} {a b : Machine} (h : Steps g stop a b) {fuel : Nat}
    {r : List (List Nat)} (hr : b.run g stop fuel = .ok (some r)) :
    ∃ fuel', a.run g stop fuel' = .ok (some r) := by
  induction h with
  | refl => exact ⟨fuel, hr⟩
  | cons h _ ih =>
    obtain ⟨f, hf⟩ := ih hr
    refine ⟨f + 1, ?_⟩
    simp only [Machine.run, h]
    exact hf

theorem run_mono {g : Adj} {stop : Nat} {m : Machine} {r} {f f' : Nat} (h : f ≤ f')
    (hr : m.run g stop f = .ok (some r)) : m.run g stop f' = .ok (some r) := by
  induction f generalizing m f' with
  | zero => simp [Machine.run] at hr
  | succ f ih =>
    obtain ⟨f', rfl⟩ : ∃ k, f' = k + 1 := ⟨f' - 1, by omega⟩
    simp only [Machine.run] at hr ⊢
    cases hs : m.step g stop with
    | error e => rw [hs] at hr; cases hr
    | ok x =>
      obtain ⟨m', b⟩ := x
      rw [hs] at hr
      cases b
      · exact ih (by omega) hr
      · exact hr

theorem drop_dropWhile_eq {α : Type} (p : α → Bool) (l : List α) (i : Nat) :
    (l.drop (l.length - ((l.drop i).dropWhile p).length)) = (l.drop i).dropWhile p := by
  have h : (l.drop i).dropWhile p <:+ l :=
    (List.dropWhile_suffix p).trans (List.drop_suffix i l)
  obtain ⟨t, ht⟩ := h
  have : l.length - ((l.drop i).dropWhile p).length = t.length := by
    rw [← congrArg List.length ht]; simp
  rw [this]
  conv_lhs => rw [← ht]
  simp

/-- The visited set and stack of the generator, as functions of the current path.
(Models no code: a notion for statements and proofs.) -/
def pathOf (stack : List (Nat × Nat)) (c : Nat) : List Nat := stack.reverse.map Prod.fst ++ [c]

theorem flatMap_dropWhile {path : List Nat} {f : Nat → List (List Nat)} (l : List Nat) :
    l.flatMap (fun n => if n ∈ path then [] else f n) =
      (l.dropWhile (fun n => decide (n ∈ path))).flatMap
        (fun n => if n ∈ path then [] else f n) := by
  induction l with
  | nil => rfl
  | cons a l ih =>
    by_cases h : a ∈ path
    · simp only [List.flatMap_cons, h, if_true, List.nil_append, ih, List.dropWhile_cons,
        decide_true]
    · simp [h]

/-- From a state whose remaining neighbours of the current node are `drop i`, the machine
emits what the recursive search emits for them and reaches a state with none left. -/
theorem steps_drain {g : Adj} (hkeys : ∀ a b, Arc g a b → (dictGet g b).isSome) {stop : Nat}
    (fuel : Nat) : ∀ (k : Nat) (c i : Nat) (stack : List (Nat × Nat)) (out : List (List Nat))
      (ns : List Nat), dictGet g c = some ns → ns.length - i ≤ k →
      stop ∉ pathOf stack c → (pathOf stack c).Nodup →
      (∀ v ∈ (pathOf stack c).tail, v ∈ allNodes g) →
      pathFuel g ≤ fuel + (pathOf stack c).length →
      ∃ i', Steps g stop ⟨(pathOf stack c).reverse, stack, c, i, out⟩
          ⟨(pathOf stack c).reverse, stack, c, i',
            out ++ (ns.drop i).flatMap (fun n => if n ∈ pathOf stack c then []
              else pathsRec g stop fuel n (pathOf stack c))⟩ ∧
        ∀ n ∈ ns.drop i', n ∈ pathOf stack c := by
  induction fuel with
  | zero =>
    intro k c i stack out ns hc hk hstop hn hsub hf
    exfalso
    have h1 : (pathOf stack c).tail.length ≤ (allNodes g).length :=
      (List.Nodup.subperm (hn.sublist (List.tail_sublist _)) hsub).length_le
    simp only [List.length_tail] at h1
    simp only [pathFuel] at hf; omega
  | succ fuel ihf =>
    intro k
    induction k with
    | zero =>
      intro c i stack out ns hc hk hstop hn hsub hf
      have : ns.drop i = [] := List.drop_eq_nil_of_le (by omega)
      exact ⟨i, by rw [this]; simpa using Steps.refl _, by simp [this]⟩
    | succ k ihk =>
      intro c i stack out ns hc hk hstop hn hsub hf
      rw [flatMap_dropWhile]
      cases hrest : (ns.drop i).dropWhile (fun n => decide (n ∈ pathOf stack c)) with
      | nil =>
        refine ⟨i, by simpa using Steps.refl _, ?_⟩
        rw [List.dropWhile_eq_nil_iff] at hrest
        intro n hn'; simpa using hrest n hn'
      | cons n rest =>
        have hn' : n ∉ pathOf stack c := by
          have := List.head_dropWhile_not (fun n => decide (n ∈ pathOf stack c)) (l := ns.drop i)
            (by rw [hrest]; simp)
          simp only [hrest, List.head_cons] at this
          simpa using this
        have harc : Arc g c n := by
          refine ⟨ns, hc, ?_⟩
          have : n ∈ (ns.drop i).dropWhile (fun n => decide (n ∈ pathOf stack c)) := by
            rw [hrest]; simp
          exact List.mem_of_mem_drop ((List.dropWhile_sublist _).subset this)
        -- index of the found neighbour
        have hidx := drop_dropWhile_eq (fun n => decide (n ∈ pathOf stack c)) ns i
        rw [hrest] at hidx
        have hlen : (n :: rest).length ≤ ns.length - i := by
          rw [← hrest, ← List.length_drop]
          exact (List.dropWhile_sublist _).length_le
        simp only [List.length_cons] at hlen hidx
        have hdrop : ns.drop (ns.length - (rest.length + 1) + 1) = rest := by
          rw [← List.drop_drop, hidx]; rfl
        simp only [List.flatMap_cons, hn', if_false]
        by_cases hns : n = stop
        · subst hns
          have hstep : Machine.step g n ⟨(pathOf stack c).reverse, stack, c, i, out⟩ =
              .ok (⟨(pathOf stack c).reverse, stack, c, ns.length - (rest.length + 1) + 1,
                out ++ [(stack.reverse.map Prod.fst) ++ [c, n]]⟩, false) := by
            simp only [Machine.step, lookup, hc, List.mem_reverse]
            change (match (ns.drop i).dropWhile (fun n => decide (n ∈ pathOf stack c)) with
              | [] => _ | n :: _ => _) = _
            rw [hrest]
            simp
          obtain ⟨i', h1, h2⟩ := ihk c (ns.length - (rest.length + 1) + 1) stack
            (out ++ [(stack.reverse.map Prod.fst) ++ [c, n]]) ns hc (by omega) hstop hn hsub hf
          refine ⟨i', ?_, h2⟩
          refine .cons hstep ?_
          rw [hdrop] at h1
          have : pathsRec g n (fuel + 1) n (pathOf stack c) =
              [(stack.reverse.map Prod.fst) ++ [c, n]] := by
            simp [pathsRec, pathOf]
          rw [this, ← List.append_assoc]
          exact h1
        · have hstep : Machine.step g stop ⟨(pathOf stack c).reverse, stack, c, i, out⟩ =
              .ok (⟨n :: (pathOf stack c).reverse,
                (c, ns.length - (rest.length + 1) + 1) :: stack, n, 0, out⟩, false) := by
            simp only [Machine.step, lookup, hc, List.mem_reverse]
            change (match (ns.drop i).dropWhile (fun n => decide (n ∈ pathOf stack c)) with
              | [] => _ | n :: _ => _) = _
            rw [hrest]
            simp [hns]
          obtain ⟨ms, hm⟩ := Option.isSome_iff_exists.1 (hkeys _ _ harc)
          have hp : pathOf ((c, ns.length - (rest.length + 1) + 1) :: stack) n =
              pathOf stack c ++ [n] := by simp [pathOf]
          have hn2 : (pathOf stack c ++ [n]).Nodup := by
            rw [List.nodup_append]
            refine ⟨hn, by simp, ?_⟩
            intro a ha b hb; simp at hb; subst hb
            rintro rfl; exact hn' ha
          have hsub2 : ∀ v ∈ (pathOf stack c ++ [n]).tail, v ∈ allNodes g := by
            intro v hv
            rw [List.tail_append_of_ne_nil (by simp [pathOf])] at hv
            rcases List.mem_append.1 hv with hv | hv
            · exact hsub v hv
            · simp at hv; subst hv; exact arc_mem_allNodes harc
          obtain ⟨j, h1, h2⟩ := ihf ms.length n 0
            ((c, ns.length - (rest.length + 1) + 1) :: stack) out ms hm (by omega)
            (by rw [hp]; simp only [List.mem_append, List.mem_singleton, not_or]
                exact ⟨hstop, fun h => hns h.symm⟩)
            (by rw [hp]; exact hn2) (by rw [hp]; exact hsub2) (by rw [hp]; simp; omega)
          rw [hp] at h1 h2
          have hback : Machine.step g stop
              ⟨(pathOf stack c ++ [n]).reverse, (c, ns.length - (rest.length + 1) + 1) :: stack,
                n, j, out ++ (ms.drop 0).flatMap (fun m => if m ∈ pathOf stack c ++ [n] then []
              else pathsRec g stop fuel m (pathOf stack c ++ [n]))⟩ =
              .ok (⟨(pathOf stack c).reverse, stack, c, ns.length - (rest.length + 1) + 1,
                out ++ (ms.drop 0).flatMap (fun m => if m ∈ pathOf stack c ++ [n] then []
              else pathsRec g stop fuel m (pathOf stack c ++ [n]))⟩, false) := by
            have hd : (ms.drop j).dropWhile (fun m => decide (m ∈ pathOf stack c ++ [n])) = [] := by
              rw [List.dropWhile_eq_nil_iff]
              intro m hm'; simpa using h2 m hm'
            simp only [Machine.step, lookup, hm, List.mem_reverse]
            change (match (ms.drop j).dropWhile (fun m => decide (m ∈ pathOf stack c ++ [n])) with
              | [] => _ | n :: _ => _) = _
            rw [hd]
            simp
          obtain ⟨i', h3, h4⟩ := ihk c (ns.length - (rest.length + 1) + 1) stack
            (out ++ (ms.drop 0).flatMap (fun m => if m ∈ pathOf stack c ++ [n] then []
              else pathsRec g stop fuel m (pathOf stack c ++ [n]))) ns hc (by omega) hstop hn hsub hf
          refine ⟨i', .cons hstep ?_, h4⟩
          have hrev : (pathOf stack c ++ [n]).reverse = n :: (pathOf stack c).reverse := by simp
          rw [hrev] at h1 hback
          refine Steps.trans h1 (.cons hback ?_)
          rw [hdrop] at h3
          have : pathsRec g stop (fuel + 1) n (pathOf stack c) =
              ms.flatMap (fun m => if m ∈ pathOf stack c ++ [n] then []
              else pathsRec g stop fuel m (pathOf stack c ++ [n])) := by
            rw [pathsRec, if_neg hns, hm]
          rw [this, ← List.append_assoc]
          simpa using h3

theorem machine_run {g : Adj} (hkeys : ∀ a b, Arc g a b → (dictGet g b).isSome)
    {start stop : Nat} (hne : start ≠ stop) (hs : (dictGet g start).isSome) :
    ∃ fuel, ∀ f, fuel ≤ f →
      (Machine.init start).run g stop f = .ok (some (allPaths g start stop)) := by
  obtain ⟨ns, hns⟩ := Option.isSome_iff_exists.1 hs
  obtain ⟨i', h1, h2⟩ := steps_drain hkeys (stop := stop) (pathFuel g) ns.length start 0 [] []
    ns hns (by omega) (by simp [pathOf, Ne.symm hne]) (by simp [pathOf]) (by simp [pathOf])
    (by simp)
  have hpaths : (([] : List (List Nat)) ++ (ns.drop 0).flatMap (fun n =>
      if n ∈ pathOf [] start then [] else pathsRec g stop (pathFuel g) n (pathOf [] start))) =
      allPaths g start stop := by
    rw [allPaths, pathsRec_fuel (by simp) (by simp) (by simp), pathsRec, if_neg hne, hns]
    simp [pathOf]
  rw [hpaths] at h1
  have hlast : Machine.run g stop 1 ⟨(pathOf [] start).reverse, [], start, i',
      allPaths g start stop⟩ = .ok (some (allPaths g start stop)) := by
    have hd : (ns.drop i').dropWhile (fun n => decide (n ∈ pathOf [] start)) = [] := by
      rw [List.dropWhile_eq_nil_iff]
      intro m hm'; simpa using h2 m hm'
    have hstep : Machine.step g stop ⟨(pathOf [] start).reverse, [], start, i',
        allPaths g start stop⟩ = .ok (⟨(pathOf [] start).reverse.erase start, [], start,
          max i' (ns.length - 0), allPaths g start stop⟩, true) := by
      simp only [Machine.step, lookup, hns, List.mem_reverse]
      change (match (ns.drop i').dropWhile (fun m => decide (m ∈ pathOf [] start)) with
              | [] => _ | n :: _ => _) = _
      rw [hd]
      simp
    rw [Machine.run, hstep]
    rfl
  obtain ⟨f, hf⟩ := h1.run hlast
  exact ⟨f, fun f' h => run_mono h (by simpa [Machine.init, pathOf] using hf)⟩

end Mbtk.Graph
