import Verif.ADTree.Query
/-!
# Correctness of contingency trees and tables
-/
namespace Mbtk.ADTree
namespace CT

@[simp] theorem column_mk (c v n ch) : (CT.mk c v n ch).column = c := rfl
@[simp] theorem value_mk (c v n ch) : (CT.mk c v n ch).value = v := rfl
@[simp] theorem count_mk (c v n ch) : (CT.mk c v n ch).count = n := rfl
@[simp] theorem children_mk (c v n ch) : (CT.mk c v n ch).children = ch := rfl

/-- Count stored under a key path. (Models no code: a notion for statements and proofs.) -/
def get : CT → List Int → Option Int
  | t, [] => t.count
  | t, v :: vs => (findChild t.children v).bind (fun x => get x vs)

/-- Count stored under a key path, 0 if absent.
(Models no code: a notion for statements and proofs.) -/
def val (t : CT) (key : List Int) : Int := (t.get key).getD 0

/-- Contingency tree for the columns `cols`: uniform depth, values from the columns.
(Models no code: a notion for statements and proofs.) -/
def Shape (D : Data) : List Nat → CT → Prop
  | [], t => t.children = [] ∧ t.count.isSome = true
  | c :: cols, t => t.count = none ∧ t.children ≠ [] ∧ (t.children.map CT.value).Nodup ∧
      ∀ x ∈ t.children, x.value ∈ D.values c ∧ Shape D cols x

theorem findChild_eq_some {ch : List CT} {v : Int} {x : CT} (h : findChild ch v = some x) :
    x ∈ ch ∧ x.value = v := by
  unfold findChild at h
  exact ⟨List.mem_of_find?_eq_some h, by simpa using List.find?_some h⟩

theorem findChild_eq_none {ch : List CT} {v : Int} (h : findChild ch v = none) :
    v ∉ ch.map CT.value := by
  unfold findChild at h
  rw [List.find?_eq_none] at h
  simp only [List.mem_map, not_exists, not_and]
  intro x hx e
  exact h x hx (by simp [e])

theorem findChild_of_mem {ch : List CT} {x : CT} (hn : (ch.map CT.value).Nodup) (h : x ∈ ch) :
    findChild ch x.value = some x := by
  cases hf : findChild ch x.value with
  | none => exact absurd (List.mem_map.2 ⟨x, h, rfl⟩) (findChild_eq_none hf)
  | some y =>
    obtain ⟨h1, h2⟩ := findChild_eq_some hf
    rw [List.inj_on_of_nodup_map hn h1 h h2]

theorem findChild_none_iff {ch : List CT} {v : Int} :
    findChild ch v = none ↔ v ∉ ch.map CT.value := by
  constructor
  · exact findChild_eq_none
  · intro h
    cases hf : findChild ch v with
    | none => rfl
    | some y => obtain ⟨h1, h2⟩ := findChild_eq_some hf
                exact absurd (List.mem_map.2 ⟨y, h1, h2⟩) h

theorem get_cons_of_find {t x : CT} {v : Int} {vs : List Int}
    (h : findChild t.children v = some x) : t.get (v :: vs) = x.get vs := by
  rw [get, h]; rfl

theorem get_cons_of_none {t : CT} {v : Int} {vs : List Int}
    (h : findChild t.children v = none) : t.get (v :: vs) = none := by
  rw [get, h]; rfl

theorem findChild_forall₂ {R : CT → CT → Prop} (hR : ∀ x y, R x y → y.value = x.value)
    {xs ys : List CT} (h : List.Forall₂ R xs ys) (v : Int) :
    (findChild xs v = none ∧ findChild ys v = none) ∨
    ∃ x y, findChild xs v = some x ∧ findChild ys v = some y ∧ R x y := by
  induction h with
  | nil => left; simp [findChild]
  | @cons x y xs ys hxy hrest ih =>
    have hv := hR x y hxy
    by_cases e : x.value = v
    · right; exact ⟨x, y, by simp [findChild, e], by simp [findChild, hv, e], hxy⟩
    · have e2 : ¬ y.value = v := by rw [hv]; exact e
      simp only [findChild, List.find?_cons, e, e2, decide_false] at ih ⊢
      exact ih

theorem map_value_forall₂ {R : CT → CT → Prop} (hR : ∀ x y, R x y → y.value = x.value)
    {xs ys : List CT} (h : List.Forall₂ R xs ys) : ys.map CT.value = xs.map CT.value := by
  induction h with
  | nil => rfl
  | cons hxy _ ih => simp [hR _ _ hxy, ih]

theorem eta (t : CT) : t = .mk t.column t.value t.count t.children := by cases t; rfl

theorem subtract_ok (D : Data) (cols : List Nat) : ∀ a b : CT, Shape D cols a → Shape D cols b →
    (∀ key, key.length = cols.length → a.get key = none → b.val key = 0) →
    ∃ a', a.subtract b = .ok a' ∧ Shape D cols a' ∧ a'.value = a.value ∧
      (∀ key, key.length = cols.length → a'.val key = a.val key - b.val key) ∧
      (∀ key, key.length = cols.length → (a'.get key = none ↔ a.get key = none)) := by
  induction cols with
  | nil =>
    intro a b ha hb _
    obtain ⟨ac, av, an, ach⟩ := a
    obtain ⟨bc, bv, bn, bch⟩ := b
    simp only [Shape, children_mk, count_mk] at ha hb
    obtain ⟨rfl, ha⟩ := ha
    obtain ⟨rfl, hb⟩ := hb
    obtain ⟨x, rfl⟩ := Option.isSome_iff_exists.1 ha
    obtain ⟨y, rfl⟩ := Option.isSome_iff_exists.1 hb
    refine ⟨.mk ac av (some (x - y)) [], by simp [subtract, count_mk], ?_, rfl, ?_, ?_⟩
    · simp [Shape, children_mk, count_mk]
    · intro key hk
      simp at hk; subst hk
      simp [val, get, count_mk]
    · intro key hk
      simp at hk; subst hk
      simp [get, count_mk]
  | cons c cols ih =>
    intro a b ha hb hz
    obtain ⟨ha1, ha2, ha3, ha4⟩ := ha
    obtain ⟨hb1, hb2, hb3, hb4⟩ := hb
    let R : CT → CT → Prop := fun x x' => x'.value = x.value ∧ x.value ∈ D.values c ∧
      Shape D cols x' ∧
      (∀ key, key.length = cols.length → x'.val key = x.val key - b.val (x.value :: key)) ∧
      (∀ key, key.length = cols.length → (x'.get key = none ↔ x.get key = none))
    have hlist : ∀ xs : List CT, (∀ x ∈ xs, x ∈ a.children) →
        ∃ xs', subtractList xs b.children = .ok xs' ∧ List.Forall₂ R xs xs' := by
      intro xs
      induction xs with
      | nil => intro _; exact ⟨[], by simp [subtractList], .nil⟩
      | cons x xs ihx =>
        intro hxs
        have hx := hxs x (by simp)
        obtain ⟨xs', e1, e2⟩ := ihx (fun y hy => hxs y (by simp [hy]))
        have hax := ha4 x hx
        have hfa := findChild_of_mem ha3 hx
        cases hf : findChild b.children x.value with
        | none =>
          refine ⟨x :: xs', ?_, .cons ⟨rfl, hax.1, hax.2, ?_, fun _ _ => Iff.rfl⟩ e2⟩
          · rw [subtractList]; simp [hf, e1]; rfl
          · intro key _
            have : b.val (x.value :: key) = 0 := by
              unfold val; rw [get_cons_of_none hf]; rfl
            omega
        | some o =>
          obtain ⟨ho1, ho2⟩ := findChild_eq_some hf
          have hbo := hb4 o ho1
          obtain ⟨x', g1, g2, g3, g4, g5⟩ := ih x o hax.2 hbo.2 (by
            intro key hk hnone
            have h1 : a.get (x.value :: key) = none := by rw [get_cons_of_find hfa]; exact hnone
            have h2 := hz (x.value :: key) (by simp [hk]) h1
            unfold val at h2 ⊢
            rw [get_cons_of_find hf] at h2
            exact h2)
          refine ⟨x' :: xs', ?_, .cons ⟨g3, hax.1, g2, ?_, g5⟩ e2⟩
          · rw [subtractList]; simp [hf, e1, g1]; rfl
          · intro key hk
            rw [g4 key hk]
            unfold val
            rw [get_cons_of_find hf]
    obtain ⟨xs', e1, e2⟩ := hlist a.children (fun x hx => hx)
    have hR : ∀ x y, R x y → y.value = x.value := fun x y h => h.1
    refine ⟨.mk a.column a.value a.count xs', ?_, ?_, rfl, ?_, ?_⟩
    · rw [eta a]
      simp only [column_mk, value_mk, count_mk]
      cases hch : a.children with
      | nil => exact absurd hch ha2
      | cons x xs =>
        rw [subtract]
        have : b.children.isEmpty = false := by simpa using hb2
        rw [this]
        simp only [Bool.false_eq_true, if_false]
        rw [hch] at e1
        rw [e1]
        rfl
    · refine ⟨ha1, ?_, ?_, ?_⟩
      · intro h
        simp only [children_mk] at h
        subst h
        have := e2.length_eq
        exact ha2 (List.length_eq_zero_iff.1 (by simpa using this))
      · simp only [children_mk]; rw [map_value_forall₂ hR e2]; exact ha3
      · intro y hy
        simp only [children_mk] at hy
        obtain ⟨i, hi, rfl⟩ := List.mem_iff_getElem.1 hy
        have hl := e2.length_eq
        have := (List.forall₂_iff_get.1 e2).2 i (by omega) hi
        simp only [List.get_eq_getElem] at this
        exact ⟨by rw [this.1]; exact this.2.1, this.2.2.1⟩
    · intro key hk
      cases key with
      | nil => simp at hk
      | cons v key =>
        simp at hk
        rcases findChild_forall₂ hR e2 v with ⟨f1, f2⟩ | ⟨x, y, f1, f2, hxy⟩
        · have hb0 := hz (v :: key) (by simp [hk]) (get_cons_of_none f1)
          have h1 : (CT.mk a.column a.value a.count xs').val (v :: key) = 0 := by
            unfold val; rw [get_cons_of_none (by exact f2)]; rfl
          have h2 : a.val (v :: key) = 0 := by
            unfold val; rw [get_cons_of_none f1]; rfl
          omega
        · have h1 : (CT.mk a.column a.value a.count xs').val (v :: key) = y.val key := by
            unfold val; rw [get_cons_of_find (by exact f2)]
          have h2 : a.val (v :: key) = x.val key := by
            unfold val; rw [get_cons_of_find f1]
          rw [h1, h2, hxy.2.2.2.1 key hk, (findChild_eq_some f1).2]
    · intro key hk
      cases key with
      | nil => simp at hk
      | cons v key =>
        simp at hk
        rcases findChild_forall₂ hR e2 v with ⟨f1, f2⟩ | ⟨x, y, f1, f2, hxy⟩
        · rw [get_cons_of_none f1, get_cons_of_none (by exact f2)]
        · rw [get_cons_of_find f1, get_cons_of_find (by exact f2)]
          exact hxy.2.2.2.2 key hk

theorem insertChild_new {child : CT} {ch : List CT} (h : child.value ∉ ch.map CT.value) :
    insertChild child ch = ch ++ [child] := by
  induction ch with
  | nil => rfl
  | cons x ch ih =>
    simp only [List.map_cons, List.mem_cons, not_or] at h
    have : ¬ x.value = child.value := fun e => h.1 e.symm
    simp [insertChild, this, ih h.2]

theorem map_value_replaceChild (child : CT) (ch : List CT) :
    (replaceChild child ch).map CT.value = ch.map CT.value := by
  unfold replaceChild
  rw [List.map_map]
  apply List.map_congr_left
  intro x _
  simp only [Function.comp]
  split
  · next h => exact h.symm
  · rfl

theorem findChild_replaceChild (child : CT) (ch : List CT) (v : Int) :
    findChild (replaceChild child ch) v =
      if v = child.value then (findChild ch v).map (fun _ => child) else findChild ch v := by
  unfold findChild replaceChild
  induction ch with
  | nil => simp
  | cons x ch ih =>
    simp only [List.map_cons, List.find?_cons]
    by_cases h1 : x.value = child.value
    · simp only [h1, if_true]
      by_cases h2 : child.value = v
      · subst h2; simp
      · have h3 : ¬ v = child.value := fun e => h2 e.symm
        simp only [h2, decide_false, h3, if_false] at ih ⊢
        exact ih
    · simp only [h1, if_false]
      by_cases h2 : x.value = v
      · have h3 : ¬ v = child.value := by rw [← h2]; exact h1
        simp [h2, h3]
      · simp only [h2, decide_false]
        exact ih

theorem findChild_append (ch : List CT) (x : CT) (v : Int) :
    findChild (ch ++ [x]) v = (findChild ch v).or (if x.value = v then some x else none) := by
  unfold findChild
  rw [List.find?_append]
  congr 1
  simp only [List.find?_cons, List.find?_nil]
  by_cases h : x.value = v <;> simp [h]

/-- A node as created by `ContingencyTreeNode(column, value, None)`.
(Models no code: a notion for statements and proofs.) -/
def Fresh (t : CT) : Prop := t.children = [] ∧ t.count = none

theorem val_fresh {t : CT} (h : Fresh t) (key : List Int) : t.val key = 0 := by
  cases t
  obtain ⟨h1, h2⟩ := h
  simp only [children_mk, count_mk] at h1 h2
  subst h1; subst h2
  cases key <;> simp [val, get, count_mk, children_mk, findChild]

theorem addCount_ok (D : Data) (k : Int) (cols : List Nat) : ∀ (vals : List Int) (t : CT),
    List.Forall₂ (fun v c => v ∈ D.values c) vals cols → Fresh t ∨ Shape D cols t →
    Shape D cols (t.addCount k cols vals) ∧ (t.addCount k cols vals).value = t.value ∧
    ∀ key, key.length = cols.length →
      (t.addCount k cols vals).val key = t.val key + (if key = vals then k else 0) := by
  induction cols with
  | nil =>
    intro vals t hv ht
    cases hv
    obtain ⟨tc, tv, tn, tch⟩ := t
    have hch : tch = [] := by
      rcases ht with h | h
      · exact h.1
      · exact h.1
    subst hch
    refine ⟨by simp [addCount, Shape, children_mk, count_mk], by simp [addCount, value_mk], ?_⟩
    intro key hk
    simp at hk; subst hk
    simp only [addCount, val, get, count_mk]
    simp
  | cons c cols ih =>
    intro vals t hv ht
    cases hv with
    | @cons v _ vals _ hv0 hvs =>
      obtain ⟨tc, tv, tn, tch⟩ := t
      have hn : (tch.map CT.value).Nodup := by
        rcases ht with h | h
        · have := h.1; simp only [children_mk] at this; subst this; simp
        · exact h.2.2.1
      have htn : tn = none := by
        rcases ht with h | h
        · exact h.2
        · exact h.1
      have hall : ∀ x ∈ tch, x.value ∈ D.values c ∧ Shape D cols x := by
        rcases ht with h | h
        · have := h.1; simp only [children_mk] at this; subst this; simp
        · exact h.2.2.2
      subst htn
      unfold addCount
      cases hf : findChild tch v with
      | some child =>
        simp only
        obtain ⟨m1, m2⟩ := findChild_eq_some hf
        obtain ⟨g1, g2, g3⟩ := ih vals child hvs (Or.inr (hall child m1).2)
        refine ⟨⟨rfl, ?_, ?_, ?_⟩, rfl, ?_⟩
        · simp only [children_mk, replaceChild]
          intro h
          rw [List.map_eq_nil_iff] at h
          subst h; simp at m1
        · simp only [children_mk]; rw [map_value_replaceChild]; exact hn
        · intro y hy
          simp only [children_mk, replaceChild, List.mem_map] at hy
          obtain ⟨x, hx, rfl⟩ := hy
          split
          · exact ⟨by rw [g2, m2]; exact hv0, g1⟩
          · exact hall x hx
        · intro key hk
          cases key with
          | nil => simp at hk
          | cons u key =>
            simp at hk
            by_cases e : u = v
            · subst e
              have h1 : findChild (replaceChild (child.addCount k cols vals) tch) u =
                  some (child.addCount k cols vals) := by
                rw [findChild_replaceChild, g2, m2, hf]; simp
              unfold val
              rw [get_cons_of_find (by exact h1), get_cons_of_find (t := .mk tc tv none tch)
                (by exact hf)]
              have := g3 key hk
              unfold val at this
              rw [this]
              simp
            · have h1 : findChild (replaceChild (child.addCount k cols vals) tch) u =
                  findChild tch u := by
                rw [findChild_replaceChild, g2, m2]; simp [e]
              unfold val get
              simp only [children_mk, h1]
              simp [e]
      | none =>
        simp only
        obtain ⟨g1, g2, g3⟩ := ih vals (.mk c v none []) hvs (Or.inl ⟨rfl, rfl⟩)
        have hnew : ((CT.mk c v none []).addCount k cols vals).value ∉ tch.map CT.value := by
          rw [g2]; exact findChild_eq_none hf
        rw [insertChild_new hnew]
        refine ⟨⟨rfl, by simp [children_mk], ?_, ?_⟩, rfl, ?_⟩
        · simp only [children_mk, List.map_append]
          rw [List.nodup_append]
          refine ⟨hn, by simp, ?_⟩
          intro a ha b hb e
          simp at hb; subst e; rw [hb] at ha; exact hnew ha
        · intro y hy
          simp only [children_mk, List.mem_append, List.mem_singleton] at hy
          rcases hy with hy | rfl
          · exact hall y hy
          · exact ⟨by rw [g2]; exact hv0, g1⟩
        · intro key hk
          cases key with
          | nil => simp at hk
          | cons u key =>
            simp at hk
            unfold val get
            simp only [children_mk, findChild_append, g2, value_mk]
            by_cases e : u = v
            · subst e
              simp only [hf, Option.none_or, if_true, Option.bind_some, Option.bind_none]
              have := g3 key hk
              rw [val_fresh (t := .mk c u none []) ⟨rfl, rfl⟩] at this
              unfold val at this
              rw [this]
              simp
            · have : ¬ v = u := fun h => e h.symm
              simp [this, e]

/-! ### Dictionary conversion -/

theorem toDict_ok (D : Data) (cols : List Nat) :
    (∀ c ∈ cols, (-1 : Int) ∉ D.values c) →
    ∀ (t : CT) (κ : List Int) (d : List (List Int × Option Int)),
    Shape D cols t → (d.map Prod.fst).Nodup → (t.value ≠ -1 ∨ (κ = [] ∧ cols ≠ [])) →
    ∃ d', t.toDict (κ, d) = .ok
        (if t.value ≠ -1 then κ else popKey κ, d') ∧ (d'.map Prod.fst).Nodup ∧
      (∀ key c, key.length = cols.length → t.get key = some c →
        dictGet d' ((if t.value ≠ -1 then κ ++ [t.value] else κ) ++ key) = some (some c)) ∧
      (∀ K, (∀ key, key.length = cols.length →
          K = (if t.value ≠ -1 then κ ++ [t.value] else κ) ++ key → t.get key = none) →
        dictGet d' K = dictGet d K) := by
  induction cols with
  | nil =>
    intro _ t κ d hs hn hv
    obtain ⟨tc, tv, tn, tch⟩ := t
    obtain ⟨h1, h2⟩ := hs
    simp only [children_mk, count_mk] at h1 h2
    subst h1
    obtain ⟨x, rfl⟩ := Option.isSome_iff_exists.1 h2
    have hv' : tv ≠ -1 := by
      rcases hv with h | h
      · exact h
      · simp at h
    refine ⟨dictSet d (κ ++ [tv]) (some x), ?_, ?_, ?_, ?_⟩
    · simp [toDict, value_mk, hv', popKey]
    · rw [dictSet_keys]
      split
      · exact hn
      · next h =>
        rw [List.nodup_append]
        refine ⟨hn, by simp, ?_⟩
        intro a ha b hb e
        simp at hb; subst e; rw [hb] at ha; exact h ha
    · intro key c hk hg
      simp at hk; subst hk
      simp [get, count_mk] at hg; subst hg
      simp [value_mk, hv', dictGet_dictSet]
    · intro K hK
      rw [dictGet_dictSet]
      split
      · next e =>
        have := hK [] rfl (by simp [value_mk, hv', e])
        simp [get, count_mk] at this
      · rfl
  | cons c cols ih =>
    intro hneg t κ d hs hn hv
    have ih := ih (fun c hc => hneg c (by simp [hc]))
    obtain ⟨h1, h2, h3, h4⟩ := hs
    have hlist : ∀ (xs : List CT) (κ : List Int) (d : List (List Int × Option Int)),
        (∀ x ∈ xs, x.value ∈ D.values c ∧ Shape D cols x) → (xs.map CT.value).Nodup →
        (d.map Prod.fst).Nodup →
        ∃ d', toDictList xs (κ, d) = .ok (κ, d') ∧ (d'.map Prod.fst).Nodup ∧
          (∀ x ∈ xs, ∀ key c, key.length = cols.length → x.get key = some c →
            dictGet d' (κ ++ x.value :: key) = some (some c)) ∧
          (∀ K, (∀ x ∈ xs, ∀ key, key.length = cols.length → K = κ ++ x.value :: key →
              x.get key = none) → dictGet d' K = dictGet d K) := by
      intro xs
      induction xs with
      | nil =>
        intro κ d _ _ hn
        exact ⟨d, by simp [toDictList], hn, by simp, by simp⟩
      | cons x xs ihx =>
        intro κ d hx hnx hn
        have hx0 := hx x (by simp)
        have hxv : x.value ≠ -1 := by
          intro e
          exact hneg c (by simp) (e ▸ hx0.1)
        obtain ⟨d1, a1, a2, a3, a4⟩ := ih x κ d hx0.2 hn (Or.inl hxv)
        simp only [List.map_cons, List.nodup_cons] at hnx
        obtain ⟨d2, b1, b2, b3, b4⟩ := ihx κ d1 (fun y hy => hx y (by simp [hy])) hnx.2 a2
        simp only [hxv, ne_eq, not_false_eq_true, if_true] at a1 a3 a4
        refine ⟨d2, ?_, b2, ?_, ?_⟩
        · rw [toDictList, a1]; exact b1
        · intro y hy key k hk hg
          rcases List.mem_cons.1 hy with rfl | hy
          · rw [b4]
            · have := a3 key k hk hg
              simpa using this
            · intro z hz key' hk' e
              exfalso
              have : y.value = z.value := by
                have := List.append_cancel_left e
                simp at this
                exact this.1
              exact hnx.1 (List.mem_map.2 ⟨z, hz, this.symm⟩)
          · exact b3 y hy key k hk hg
        · intro K hK
          rw [b4 K (fun y hy => hK y (by simp [hy]))]
          exact a4 K (fun key hk e => hK x (by simp) key hk (by simpa using e))
    obtain ⟨tc, tv, tn, tch⟩ := t
    simp only [children_mk, value_mk] at *
    obtain ⟨d', e1, e2, e3, e4⟩ := hlist tch (if tv ≠ -1 then κ ++ [tv] else κ) d h4 h3 hn
    refine ⟨d', ?_, e2, ?_, ?_⟩
    · cases tch with
      | nil => exact absurd rfl h2
      | cons x xs =>
        rw [toDict]
        simp only
        rw [e1]
        show Except.ok _ = _
        congr 2
        by_cases hh : tv = -1
        · simp [hh]
        · simp [hh, popKey]
    · intro key k hk hg
      cases key with
      | nil => simp at hk
      | cons u key =>
        simp at hk
        cases hf : findChild tch u with
        | none => rw [get_cons_of_none (by exact hf)] at hg; simp at hg
        | some x =>
          rw [get_cons_of_find (by exact hf)] at hg
          obtain ⟨m1, m2⟩ := findChild_eq_some hf
          have := e3 x m1 key k hk hg
          rw [m2] at this
          exact this
    · intro K hK
      apply e4
      intro x hx key hk e
      have := hK (x.value :: key) (by simp [hk]) e
      rw [get_cons_of_find (x := x) (by exact findChild_of_mem h3 hx)] at this
      exact this

end CT

/-! ## `make_contingency_tree` -/

/-- Number of rows whose values in `cols` are `key`.
(Models no code: a notion for statements and proofs.) -/
def cntKey (D : Data) (rows : List Nat) (cols : List Nat) (key : List Int) : Nat :=
  rows.countP (fun r => decide (cols.map (D.cell r) = key))

theorem cntKey_cons (D : Data) (rows : List Nat) (c : Nat) (cols : List Nat) (v : Int)
    (key : List Int) :
    cntKey D rows (c :: cols) (v :: key) = cntKey D (sel D c v rows) cols key := by
  unfold cntKey sel
  rw [List.countP_filter]
  congr 1
  funext r
  simp only [List.map_cons, List.cons.injEq]
  by_cases h1 : D.cell r c = v <;> by_cases h2 : cols.map (D.cell r) = key <;> simp [h1, h2]

/-- A contingency tree that counts exactly the rows.
(Models no code: a notion for statements and proofs.) -/
def GoodCT (D : Data) (rows : List Nat) (cols : List Nat) (ct : CT) : Prop :=
  ct.Shape D cols ∧ ∀ key, key.length = cols.length → ct.val key = (cntKey D rows cols key : Int)

theorem forall₂_cells {D : Data} (hD : D.WF) {cols : List Nat} (hc : ∀ c ∈ cols, c < D.ncols)
    {r : Nat} (hr : r < D.nrows) :
    List.Forall₂ (fun v c => v ∈ D.values c) (cols.map (D.cell r)) cols := by
  induction cols with
  | nil => simp
  | cons c cols ih =>
    exact .cons (hD.cover c (hc c (by simp)) r hr) (ih (fun c h => hc c (by simp [h])))

theorem ctFromLeaf_ok {D : Data} (hD : D.WF) {cols : List Nat} (hc : ∀ c ∈ cols, c < D.ncols)
    {rows : List Nat} (hrows : rows ≠ []) (hsub : ∀ r ∈ rows, r < D.nrows) {n : ADNode}
    (hn : n.rows = some rows) :
    ∃ ct, ctFromLeaf D cols n = .ok ct ∧ GoodCT D rows cols ct ∧ ct.value = n.value := by
  unfold ctFromLeaf
  have hany : (cols.any fun c => decide (D.ncols ≤ c)) = false := by
    rw [List.any_eq_false]
    intro c hc'
    have := hc c hc'
    simp; omega
  rw [hany, hn]
  simp only [Bool.false_eq_true, if_false]
  refine ⟨_, rfl, ?_⟩
  have key : ∀ (rows : List Nat) (t : CT), (∀ r ∈ rows, r < D.nrows) →
      t.Fresh ∨ t.Shape D cols →
      (rows ≠ [] ∨ t.Shape D cols →
        (rows.foldl (fun ct r => ct.addCount 1 cols (cols.map (D.cell r))) t).Shape D cols) ∧
      (rows.foldl (fun ct r => ct.addCount 1 cols (cols.map (D.cell r))) t).value = t.value ∧
      ∀ k, k.length = cols.length →
        (rows.foldl (fun ct r => ct.addCount 1 cols (cols.map (D.cell r))) t).val k =
          t.val k + (cntKey D rows cols k : Int) := by
    intro rows
    induction rows with
    | nil =>
      intro t _ ht
      refine ⟨fun h => by simpa using h, rfl, fun k _ => by simp [cntKey]⟩
    | cons r rows ih =>
      intro t hs ht
      obtain ⟨g1, g2, g3⟩ := CT.addCount_ok D 1 cols (cols.map (D.cell r)) t
        (forall₂_cells hD hc (hs r (by simp))) ht
      obtain ⟨i1, i2, i3⟩ := ih _ (fun x hx => hs x (by simp [hx])) (Or.inr g1)
      simp only [List.foldl_cons]
      refine ⟨fun _ => i1 (Or.inr g1), by rw [i2, g2], ?_⟩
      intro k hk
      rw [i3 k hk, g3 k hk]
      unfold cntKey
      rw [List.countP_cons]
      by_cases e : k = cols.map (D.cell r)
      · subst e; simp; ring
      · have e' : ¬ cols.map (D.cell r) = k := fun h => e h.symm
        simp [e, e']
  obtain ⟨k1, k2, k3⟩ := key rows (.mk n.col n.value none []) hsub (Or.inl ⟨rfl, rfl⟩)
  refine ⟨⟨k1 (Or.inl hrows), ?_⟩, k2⟩
  intro k hk
  rw [k3 k hk, CT.val_fresh ⟨rfl, rfl⟩]
  simp

/-- State of the accumulator of the non-MCV loop after the values `done`.
(Models no code: a notion for statements and proofs.) -/
def AccOk (D : Data) (rows : List Nat) (c : Nat) (cols : List Nat) (mcv : Int)
    (done : List Int) (acc : CT) : Prop :=
  acc.count = none ∧ (acc.children.map CT.value).Nodup ∧
  (∀ x ∈ acc.children, x.value ∈ done ∧ x.value ≠ mcv ∧
    GoodCT D (sel D c x.value rows) cols x) ∧
  (∀ v ∈ done, v ≠ mcv → 0 < (sel D c v rows).length → v ∈ acc.children.map CT.value)

theorem ctNonMcv_ok {D : Data} {dyn : Bool} {rows : List Nat} {c : Nat} {cols : List Nat}
    {mcv : Int} (hnd : (D.values c).Nodup) {f : ADNode → TM (CT × ADNode)}
    (hf : ∀ v n s, RepAD D dyn (sel D c v rows) n → sel D c v rows ≠ [] → n.col = c →
      Ok (f n) s (fun p s' => GoodCT D (sel D c v rows) cols p.1 ∧ p.1.value = n.value ∧
        Keeps D dyn (sel D c v rows) n s p.2 s')) :
    ∀ (vals done : List Int) (acc : CT) (ads : List (Option ADNode)) (s : Counters),
    (done ++ vals).Nodup → (∀ v ∈ vals, v ∈ D.values c) →
    AccOk D rows c cols mcv done acc →
    List.Forall₂ (ChildOk D dyn rows c mcv) (D.values c) ads →
    Ok (ctNonMcv f mcv vals acc ads) s (fun p s' =>
      AccOk D rows c cols mcv (done ++ vals) p.1 ∧ p.1.value = acc.value ∧
      List.Forall₂ (ChildOk D dyn rows c mcv) (D.values c) p.2 ∧
      (dyn = false → p.2 = ads ∧ s' = s) ∧
      ∀ w, s'.val w + sizeADs w ads = s.val w + sizeADs w p.2) := by
  intro vals
  induction vals with
  | nil =>
    intro done acc ads s _ _ hacc hads
    exact Ok.ret ⟨by simpa using hacc, rfl, hads, fun _ => ⟨rfl, rfl⟩, fun _ => rfl⟩
  | cons v vals ih =>
    intro done acc ads s hn hmem hacc hads
    have hn' : ((done ++ [v]) ++ vals).Nodup := by simpa using hn
    have hnotdone : v ∉ done := by
      intro h
      rw [List.nodup_append] at hn
      exact hn.2.2 v h v (by simp) rfl
    have skip : (v = mcv ∨ ¬ (0 < (sel D c v rows).length)) →
        AccOk D rows c cols mcv (done ++ [v]) acc := by
      intro h
      refine ⟨hacc.1, hacc.2.1, ?_, ?_⟩
      · intro x hx
        have := hacc.2.2.1 x hx
        exact ⟨by simp [this.1], this.2⟩
      · intro u hu h1 h2
        rcases List.mem_append.1 hu with hu | hu
        · exact hacc.2.2.2 u hu h1 h2
        · rw [List.mem_singleton.1 hu] at h1 h2
          rcases h with h | h
          · exact absurd h h1
          · exact absurd h2 h
    unfold ctNonMcv
    by_cases hm : v = mcv
    · rw [if_neg (by simpa using hm)]
      have := ih (done ++ [v]) acc ads s hn' (fun u hu => hmem u (by simp [hu]))
        (skip (Or.inl hm)) hads
      simpa using this
    · rw [if_pos hm]
      have hfc := findChild_spec hnd hads v
      cases hfind : findChild ads v with
      | none =>
        rw [hfind] at hfc
        simp only at hfc ⊢
        have hz : ¬ (0 < (sel D c v rows).length) := by
          rcases hfc with h | h
          · exact absurd (hmem v (by simp)) h
          · intro h2; exact h ⟨h2, hm⟩
        have := ih (done ++ [v]) acc ads s hn' (fun u hu => hmem u (by simp [hu]))
          (skip (Or.inr hz)) hads
        simpa using this
      | some jc =>
        obtain ⟨j, child⟩ := jc
        rw [hfind] at hfc
        simp only at hfc ⊢
        obtain ⟨f1, f2, f3⟩ := hfc
        have hch := f3.2 child rfl
        have hpos : 0 < (sel D c v rows).length := by
          by_contra h
          have := f3.1.2 (fun h' => h h'.1)
          simp at this
        refine Ok.bind ((hf v child s hch.2.2 (List.length_pos_iff.1 hpos) hch.2.1).mono ?_)
        rintro ⟨ct, child'⟩ s1 ⟨g0, gv, g1, g2, g3, g4, g5⟩
        simp only at g0 gv g1 g2 g3 g4 g5 ⊢
        have hctv : ct.value = v := by rw [gv, hch.1]
        have hnew : ct.value ∉ acc.children.map CT.value := by
          rw [hctv]
          intro h
          obtain ⟨x, hx, e⟩ := List.mem_map.1 h
          exact hnotdone (e ▸ (hacc.2.2.1 x hx).1)
        have hads' : List.Forall₂ (ChildOk D dyn rows c mcv) (D.values c)
            (ads.set j (some child')) := by
          refine forall₂_set hads f2 ⟨⟨by simp, fun hh => absurd (f3.1.2 hh) (by simp)⟩, ?_⟩
          intro ch hch'
          cases hch'
          exact ⟨by rw [g3, hch.1], by rw [g2, hch.2.1], g1⟩
        have hacc' : AccOk D rows c cols mcv (done ++ [v]) (acc.appendChild ct) ∧
            (acc.appendChild ct).value = acc.value := by
          obtain ⟨ac, av, an, ach⟩ := acc
          simp only [CT.appendChild, CT.children_mk] at hnew ⊢
          rw [CT.insertChild_new hnew]
          obtain ⟨q1, q2, q3, q4⟩ := hacc
          simp only [CT.children_mk, CT.count_mk] at q1 q2 q3 q4
          refine ⟨⟨q1, ?_, ?_, ?_⟩, rfl⟩
          · simp only [CT.children_mk, List.map_append]
            rw [List.nodup_append]
            refine ⟨q2, by simp, ?_⟩
            intro a ha b hb e
            simp at hb; subst e; rw [hb] at ha; exact hnew ha
          · intro x hx
            simp only [CT.children_mk, List.mem_append, List.mem_singleton] at hx
            rcases hx with hx | rfl
            · have := q3 x hx; exact ⟨by simp [this.1], this.2⟩
            · rw [hctv]; exact ⟨by simp, hm, g0⟩
          · intro u hu h1 h2
            simp only [CT.children_mk, List.map_append, List.mem_append]
            rcases List.mem_append.1 hu with hu | hu
            · exact Or.inl (q4 u hu h1 h2)
            · right; simp [hctv]; exact List.mem_singleton.1 hu
        refine Ok.mono (ih (done ++ [v]) _ _ s1 hn' (fun u hu => hmem u (by simp [hu]))
          hacc'.1 hads') ?_
        rintro ⟨p1, p2⟩ s2 ⟨r1, r2, r3, r4, r5⟩
        refine ⟨by simpa using r1, by rw [r2, hacc'.2], r3, ?_, ?_⟩
        · intro hd
          have e1 := g4 hd
          have e2 := r4 hd
          have e3 : ads.set j (some child) = ads := by
            apply List.ext_getElem?
            intro m
            rw [List.getElem?_set]
            split
            · next hm => subst hm; split
                         · rw [f1]
                         · rw [f1]; simp_all
            · rfl
          rw [e1.1, e3] at e2
          exact ⟨e2.1, by rw [e2.2, e1.2]⟩
        · intro w
          have a1 := r5 w
          have a2 := g5 w
          have a3 := sizeADs_set w ads j child child' f1
          omega

/-- Subtracting all the sibling subtrees. -/
theorem subtractAll_ok (D : Data) (cols : List Nat) : ∀ (xs : List CT) (a : CT),
    a.Shape D cols → (∀ x ∈ xs, x.Shape D cols) →
    (∀ x ∈ xs, ∀ key, key.length = cols.length → a.get key = none → x.val key = 0) →
    ∃ a', subtractAll a xs = .ok a' ∧ a'.Shape D cols ∧ a'.value = a.value ∧
      ∀ key, key.length = cols.length →
        a'.val key = a.val key - (xs.map (fun x => x.val key)).sum := by
  intro xs
  induction xs with
  | nil => intro a ha _ _; exact ⟨a, rfl, ha, rfl, fun key _ => by simp⟩
  | cons x xs ih =>
    intro a ha hx hz
    obtain ⟨a1, e1, e2, e3, e4, e5⟩ := CT.subtract_ok D cols a x ha (hx x (by simp))
      (hz x (by simp))
    obtain ⟨a2, f1, f2, f3, f4⟩ := ih a1 e2 (fun y hy => hx y (by simp [hy]))
      (fun y hy key hk h => hz y (by simp [hy]) key hk ((e5 key hk).1 h))
    refine ⟨a2, ?_, f2, by rw [f3, e3], ?_⟩
    · simp only [subtractAll, e1]; exact f1
    · intro key hk
      rw [f4 key hk, e4 key hk]
      simp; ring

theorem cntKey_sel_le (D : Data) (c : Nat) (v : Int) (rows : List Nat) (cols : List Nat)
    (key : List Int) : cntKey D (sel D c v rows) cols key ≤ cntKey D rows cols key := by
  unfold cntKey sel
  exact List.Sublist.countP_le (List.filter_sublist)

theorem CT.get_none_val {t : CT} {key : List Int} (h : t.get key = none) : t.val key = 0 := by
  simp [CT.val, h]

@[simp] theorem CT.relabel_get (t : CT) (c v : Int) (key : List Int) :
    (t.relabel c v).get key = t.get key := by
  cases t; cases key <;> simp [CT.relabel, CT.get, CT.count_mk, CT.children_mk]

@[simp] theorem CT.relabel_value (t : CT) (c v : Int) : (t.relabel c v).value = v := by
  cases t; rfl

theorem CT.relabel_shape (D : Data) {t : CT} {cols : List Nat} (c v : Int)
    (h : t.Shape D cols) : (t.relabel c v).Shape D cols := by
  cases t; cases cols <;> exact h

/-- The accumulated siblings contain, for each value, the count of that value's rows. -/
theorem acc_sum {D : Data} {rows : List Nat} {c : Nat} {cols : List Nat} {mcv : Int}
    (hnd : (D.values c).Nodup) {acc : CT} (h : AccOk D rows c cols mcv (D.values c) acc)
    {key : List Int} (hk : key.length = cols.length) :
    (acc.children.map (fun x => x.val key)).sum =
      (((D.values c).map
        (fun v => if v = mcv then 0 else cntKey D (sel D c v rows) cols key)).sum : Nat) := by
  obtain ⟨h1, h2, h3, h4⟩ := h
  have e1 : acc.children.map (fun x => x.val key) =
      (acc.children.map CT.value).map
        (fun v => ((cntKey D (sel D c v rows) cols key : Nat) : Int)) := by
    rw [List.map_map]
    apply List.map_congr_left
    intro x hx
    exact (h3 x hx).2.2.2 key hk
  rw [e1]
  have gen : ∀ (l vals : List Int) (g : Int → Nat), l.Nodup → vals.Nodup →
      (∀ v ∈ l, v ∈ vals ∧ v ≠ mcv) → (∀ v ∈ vals, v ≠ mcv → v ∉ l → g v = 0) →
      (l.map (fun v => ((g v : Nat) : Int))).sum =
        ((vals.map (fun v => if v = mcv then 0 else g v)).sum : Nat) := by
    intro l vals g hl hv hsub hzero
    induction vals generalizing l with
    | nil =>
      have : l = [] := by
        by_contra hne
        obtain ⟨x, hx⟩ := List.exists_mem_of_ne_nil l hne
        exact absurd (hsub x hx).1 (by simp)
      subst this; simp
    | cons v vals ih =>
      have hv' := List.nodup_cons.1 hv
      by_cases hvl : v ∈ l
      · have hne := (hsub v hvl).2
        have hperm : l.Perm (v :: l.erase v) := List.perm_cons_erase hvl
        have hsum : (l.map (fun v => ((g v : Nat) : Int))).sum =
            ((v :: l.erase v).map (fun v => ((g v : Nat) : Int))).sum :=
          (hperm.map _).sum_eq
        rw [hsum]
        have := ih (l.erase v) (hl.erase v) hv'.2 (by
          intro u hu
          have hu' := (List.Nodup.mem_erase_iff hl).1 hu
          have := hsub u hu'.2
          refine ⟨?_, this.2⟩
          rcases List.mem_cons.1 this.1 with h | h
          · exact absurd h hu'.1
          · exact h) (by
          intro u hu h1 h2
          refine hzero u (by simp [hu]) h1 ?_
          intro h3
          exact h2 ((List.Nodup.mem_erase_iff hl).2 ⟨by rintro rfl; exact hv'.1 hu, h3⟩))
        simp only [List.map_cons, List.sum_cons, this, hne, if_false]
        push_cast
        ring
      · have := ih l hl hv'.2 (by
          intro u hu
          have := hsub u hu
          refine ⟨?_, this.2⟩
          rcases List.mem_cons.1 this.1 with h | h
          · subst h; exact absurd hu hvl
          · exact h) (by
          intro u hu h1 h2
          exact hzero u (by simp [hu]) h1 h2)
        rw [this]
        simp only [List.map_cons, List.sum_cons]
        by_cases hm : v = mcv
        · simp [hm]
        · simp [hm, hzero v (by simp) hm hvl]
  refine gen _ _ _ h2 hnd ?_ ?_
  · intro v hv
    obtain ⟨x, hx, rfl⟩ := List.mem_map.1 hv
    have := h3 x hx
    exact ⟨this.1, this.2.1⟩
  · intro v hv hm hnot
    by_contra hne
    have hpos : 0 < (sel D c v rows).length := by
      apply Nat.pos_of_ne_zero
      intro h0
      apply hne
      have : sel D c v rows = [] := List.length_eq_zero_iff.1 h0
      simp [cntKey, this]
    exact hnot (h4 v hv hm hpos)

/-- `make_contingency_tree` below any node representing non-empty `rows`. -/
theorem makeCT_ok {D : Data} {dyn : Bool} (hD : D.WF) (cols : List Nat) :
    ∀ (rows : List Nat) (n : ADNode) (s : Counters), RepAD D dyn rows n → rows ≠ [] →
    (∀ c ∈ cols, c < D.ncols) → cols.Pairwise (· < ·) →
    (∀ c ∈ cols, n.col < (c : Int)) →
    Ok (makeCT D dyn cols n) s (fun p s' => GoodCT D rows cols p.1 ∧ p.1.value = n.value ∧
      Keeps D dyn rows n s p.2 s') := by
  induction cols with
  | nil =>
    intro rows n s h _ _ _ _
    unfold makeCT
    refine Ok.ret ⟨⟨⟨rfl, rfl⟩, ?_⟩, rfl, h, rfl, rfl, fun _ => ⟨rfl, rfl⟩, fun _ => rfl⟩
    intro key hk
    simp at hk; subst hk
    simp [CT.val, CT.get, CT.count_mk, cntKey, h.inv.2.1]
  | cons c cols ih =>
    intro rows n s h hne hlt hpw hcol
    have hpw' := List.pairwise_cons.1 hpw
    have hc : c < D.ncols := hlt c (by simp)
    have hinv := h.inv
    have hnd := hD.nodup c hc
    unfold makeCT
    by_cases hleaf : n.leaf = true
    · rw [if_pos hleaf]
      obtain ⟨ct, e1, e2, e3⟩ := ctFromLeaf_ok hD hlt hne hinv.1 (hinv.2.2.2.2.1 hleaf)
      exact Ok.bind (Ok.lift e1 (Ok.ret ⟨e2, e3, h, rfl, rfl, fun _ => ⟨rfl, rfl⟩, fun _ => rfl⟩))
    · rw [if_neg hleaf]
      have hleaf : n.leaf = false := by simpa using hleaf
      refine Ok.bind ((getVary_ok hD h hleaf hc (hcol c (by simp)) s).mono ?_)
      rintro ⟨i, n1⟩ s1 ⟨vary, hv1, hv2, hv3, hn1, hncol, hnval, hncount, hnleaf, hstat, hsize⟩
      simp only at hv1 hn1 hncol hnval hncount hnleaf hstat hsize ⊢
      rw [hv1]
      simp only
      obtain ⟨w1, w2, w3, w4, w5⟩ := hv2.forall₂
      rw [hv3] at w1 w2 w3 w4 w5
      rw [w2]
      refine Ok.bind ((ctNonMcv_ok (cols := cols) hnd (f := makeCT D dyn cols) ?_
        (D.values c) [] (.mk n1.col n1.value none []) vary.ads s1 (by simpa using hnd)
        (fun v hv => hv) ?_ w5).mono ?_)
      · intro v m s hm hne' hmc
        exact ih _ m s hm hne' (fun c hc => hlt c (by simp [hc])) hpw'.2
          (fun c' hc' => by rw [hmc]; exact_mod_cast hpw'.1 c' hc')
      · exact ⟨rfl, by simp [CT.children_mk], by simp [CT.children_mk], by simp⟩
      · rintro ⟨nonMcv, ads'⟩ s2 ⟨r1, rv, r2, r3, r4⟩
        simp only [List.nil_append] at r1 rv r2 r3 r4 ⊢
        have hn2 : RepAD D dyn rows (n1.setVarys (n1.varys.set i (vary.setAds ads'))) := by
          refine hn1.setVary (by rw [hnleaf, hleaf]) hv1 ?_ (by simp)
          refine hv2.setAds ?_
          rw [hv3]; exact r2
        refine Ok.bind ((ih rows _ s2 hn2 hne (fun c hc => hlt c (by simp [hc])) hpw'.2
          ?_).mono ?_)
        · intro c' hc'
          rw [setVarys_col, hncol]
          exact hcol c' (by simp [hc'])
        · rintro ⟨mcvCt, n3⟩ s3 ⟨t0, tv, t2, t3, t4, t5, t6⟩
          simp only at t0 tv t2 t3 t4 t5 t6 ⊢
          obtain ⟨sub, u1, u2, u3, u4⟩ := subtractAll_ok D cols nonMcv.children
            (mcvCt.relabel c vary.mcv) (CT.relabel_shape D _ _ t0.1)
            (fun x hx => (r1.2.2.1 x hx).2.2.1) (by
              intro x hx key hk hnone
              rw [CT.relabel_get] at hnone
              have h0 := t0.2 key hk
              rw [CT.get_none_val hnone] at h0
              have h1 := (r1.2.2.1 x hx).2.2.2 key hk
              rw [h1]
              have h2 := cntKey_sel_le D c x.value rows cols key
              have : cntKey D rows cols key = 0 := by exact_mod_cast h0.symm
              exact_mod_cast (by omega : cntKey D (sel D c x.value rows) cols key = 0))
          refine Ok.bind (Ok.lift u1 (Ok.ret ?_))
          have hsubval : sub.value = vary.mcv := by rw [u3]; simp
          have hsplit : ∀ key, cntKey D rows cols key =
              cntKey D (sel D c vary.mcv rows) cols key +
              ((D.values c).map (fun v => if v = vary.mcv then 0
                else cntKey D (sel D c v rows) cols key)).sum := by
            intro key
            unfold cntKey
            rw [countP_split D c _ (D.values c) hnd rows (cover_rows hD hc hinv.1)]
            exact sum_split_mcv _ hnd _ _ w3
          have hgoodsub : GoodCT D (sel D c vary.mcv rows) cols sub := by
            refine ⟨u2, ?_⟩
            intro key hk
            rw [u4 key hk, acc_sum hnd r1 hk]
            have : (mcvCt.relabel c vary.mcv).val key = mcvCt.val key := by simp [CT.val]
            rw [this, t0.2 key hk, hsplit key]
            push_cast
            ring
          have hnew : sub.value ∉ nonMcv.children.map CT.value := by
            rw [hsubval]
            intro hh
            obtain ⟨x, hx, e⟩ := List.mem_map.1 hh
            exact (r1.2.2.1 x hx).2.1 e
          have hst : dyn = false → n3 = n ∧ s3 = s := by
            intro hd
            have e1 := hstat hd
            have e2 := r3 hd
            have e3 := t5 hd
            have e4 : n1.varys.set i vary = n1.varys := by
              apply List.ext_getElem?
              intro m
              rw [List.getElem?_set]
              split
              · next hm => subst hm; split
                           · rw [hv1]
                           · rw [hv1]; simp_all
              · rfl
            rw [e2.1, setAds_self, e4, setVarys_self] at e3
            exact ⟨by rw [e3.1, e1.1], by rw [e3.2, e2.2, e1.2]⟩
          obtain ⟨q1, q2, q3, q4⟩ := r1
          obtain ⟨ac, av, an, ach⟩ := nonMcv
          simp only [CT.children_mk, CT.count_mk, CT.value_mk] at q1 q2 q3 q4 hnew rv
          simp only [CT.appendChild]
          rw [CT.insertChild_new hnew]
          refine ⟨⟨⟨q1, by simp [CT.children_mk], ?_, ?_⟩, ?_⟩, ?_, t2,
            by rw [t3]; simp [hncol], by rw [t4]; simp [hnval], hst, ?_⟩
          · simp only [CT.children_mk, List.map_append]
            rw [List.nodup_append]
            refine ⟨q2, by simp, ?_⟩
            intro a ha b hb e
            simp at hb; subst e; rw [hb] at ha; exact hnew ha
          · intro x hx
            simp only [CT.children_mk, List.mem_append, List.mem_singleton] at hx
            rcases hx with hx | rfl
            · have := q3 x hx; exact ⟨this.1, this.2.2.1⟩
            · rw [hsubval]; exact ⟨w3, hgoodsub.1⟩
          · intro key hk
            cases key with
            | nil => simp at hk
            | cons v key =>
              simp at hk
              rw [cntKey_cons]
              unfold CT.val CT.get
              simp only [CT.children_mk, CT.findChild_append, hsubval]
              cases hf : CT.findChild ach v with
              | some x =>
                obtain ⟨m1, m2⟩ := CT.findChild_eq_some hf
                have := (q3 x m1).2.2.2 key hk
                rw [m2] at this
                simpa [CT.val] using this
              | none =>
                simp only [Option.none_or]
                by_cases hm : vary.mcv = v
                · rw [if_pos hm]
                  have := hgoodsub.2 key hk
                  rw [hm] at this
                  simpa [CT.val] using this
                · rw [if_neg hm]
                  have hz : sel D c v rows = [] := by
                    by_cases hvm : v ∈ D.values c
                    · by_contra hne'
                      exact CT.findChild_eq_none hf (q4 v hvm (fun e => hm e.symm)
                        (List.length_pos_iff.2 hne'))
                    · exact sel_empty_of_not_mem (cover_rows hD hc hinv.1) hvm
                  simp [hz, cntKey]
          · simp only [CT.value_mk]; rw [rv]; exact hnval
          · intro w
            have a1 := sizeAD_setVarys w n1 (n1.varys.set i (vary.setAds ads'))
            have a2 := sizeVarys_set w n1.varys i vary (vary.setAds ads') hv1
            have a3 := sizeVary_setAds w vary ads'
            have a5 := hsize w
            have a6 := r4 w
            have a7 := t6 w
            omega

end Mbtk.ADTree
