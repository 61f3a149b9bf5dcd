import Verif.Py
import Mathlib.Algebra.BigOperators.Group.Finset.Basic
import Mathlib.Algebra.BigOperators.Group.List.Basic
import Mathlib.Algebra.Field.Rat
import Mathlib.Algebra.Order.Ring.Rat
/-!
# Dictionaries of numbers

Insertion-ordered dictionaries whose values are added up, and what it means for such a
dictionary to tabulate a function.  Python built-ins only; no /repo file is modelled here.
-/
namespace Mbtk
variable {κ : Type} [DecidableEq κ]

/-- `try: d[k] += v  except KeyError: d[k] = v`. PMF.py 53-58, 94-110, 117-121. -/
def dictAdd {ν : Type} [Add ν] (d : List (κ × ν)) (k : κ) (v : ν) : List (κ × ν) :=
  match dictGet d k with
  | some w => dictSet d k (w + v)
  | none => dictSet d k v

/-- Adding a list of contributions, in order. PMF.py 94-110, 117-121. -/
def dictAddAll {ν : Type} [Add ν] (d : List (κ × ν)) (l : List (κ × ν)) : List (κ × ν) :=
  l.foldl (fun d p => dictAdd d p.1 p.2) d

/-- `d.get(k, 0)`. PMF.py 45-46, 78-84. -/
def dictVal {ν : Type} [Zero ν] (d : List (κ × ν)) (k : κ) : ν := (dictGet d k).getD 0

theorem dictSet_nodup {ν : Type} (d : List (κ × ν)) (k : κ) (v : ν)
    (h : (d.map Prod.fst).Nodup) : ((dictSet d k v).map Prod.fst).Nodup := by
  rw [dictSet_keys]
  split
  · exact h
  · next hn => rw [List.nodup_append]; exact ⟨h, by simp, by grind⟩

theorem mem_dictSet_keys {ν : Type} (d : List (κ × ν)) (k k2 : κ) (v : ν) :
    k2 ∈ (dictSet d k v).map Prod.fst ↔ k2 = k ∨ k2 ∈ d.map Prod.fst := by
  rw [dictSet_keys]; split <;> grind

theorem dictAdd_nodup {ν : Type} [Add ν] (d : List (κ × ν)) (k : κ) (v : ν)
    (h : (d.map Prod.fst).Nodup) : ((dictAdd d k v).map Prod.fst).Nodup := by
  unfold dictAdd; split <;> exact dictSet_nodup _ _ _ h

theorem mem_dictAdd_keys {ν : Type} [Add ν] (d : List (κ × ν)) (k k2 : κ) (v : ν) :
    k2 ∈ (dictAdd d k v).map Prod.fst ↔ k2 = k ∨ k2 ∈ d.map Prod.fst := by
  unfold dictAdd; split <;> exact mem_dictSet_keys _ _ _ _

theorem dictVal_dictAdd {ν : Type} [AddZeroClass ν] (d : List (κ × ν)) (k k2 : κ) (v : ν) :
    dictVal (dictAdd d k v) k2 = if k = k2 then dictVal d k2 + v else dictVal d k2 := by
  unfold dictAdd dictVal
  cases h : dictGet d k with
  | some w =>
    simp only [dictGet_dictSet]
    by_cases e : k = k2
    · subst e; simp [h]
    · simp [e]
  | none =>
    simp only [dictGet_dictSet]
    by_cases e : k = k2
    · subst e; simp [h]
    · simp [e]

theorem dictAddAll_nodup {ν : Type} [Add ν] (d l : List (κ × ν)) (h : (d.map Prod.fst).Nodup) :
    ((dictAddAll d l).map Prod.fst).Nodup := by
  unfold dictAddAll
  induction l generalizing d with
  | nil => exact h
  | cons p l ih => exact ih _ (dictAdd_nodup _ _ _ h)

theorem mem_dictAddAll_keys {ν : Type} [Add ν] (d l : List (κ × ν)) (k : κ) :
    k ∈ (dictAddAll d l).map Prod.fst ↔ k ∈ l.map Prod.fst ∨ k ∈ d.map Prod.fst := by
  unfold dictAddAll
  induction l generalizing d with
  | nil => simp
  | cons p l ih =>
    rw [List.foldl_cons, ih, mem_dictAdd_keys]; simp only [List.map_cons, List.mem_cons]; tauto

theorem dictVal_dictAddAll {ν : Type} [AddCommMonoid ν] (d l : List (κ × ν)) (k : κ) :
    dictVal (dictAddAll d l) k =
      dictVal d k + ((l.filter (fun p => p.1 = k)).map Prod.snd).sum := by
  unfold dictAddAll
  induction l generalizing d with
  | nil => simp
  | cons p l ih =>
    rw [List.foldl_cons, ih, dictVal_dictAdd]
    by_cases e : p.1 = k
    · simp [e, add_assoc]
    · simp [e]

theorem dictVal_of_mem {ν : Type} [Zero ν] {d : List (κ × ν)} (hn : (d.map Prod.fst).Nodup)
    {k : κ} {v : ν} (h : (k, v) ∈ d) : dictVal d k = v := by
  simp [dictVal, dictGet_of_mem hn h]

theorem dictVal_of_not_mem {ν : Type} [Zero ν] {d : List (κ × ν)}
    {k : κ} (h : k ∉ d.map Prod.fst) : dictVal d k = 0 := by
  simp [dictVal, (dictGet_none_iff d k).2 h]

/-- Summing over the items of a dictionary is summing over its keys. -/
theorem sum_items {ν M : Type} [Zero ν] [AddCommMonoid M] {d : List (κ × ν)}
    (hn : (d.map Prod.fst).Nodup) (F : κ → ν → M) :
    (d.map (fun p => F p.1 p.2)).sum =
      ∑ k ∈ (d.map Prod.fst).toFinset, F k (dictVal d k) := by
  rw [List.sum_toFinset _ hn, List.map_map]
  congr 1
  apply List.map_congr_left
  intro p hp
  obtain ⟨k, v⟩ := p
  simp [dictVal_of_mem hn hp]

/-- The dictionary `d` tabulates `P` on lists of length `n`, the key of `l` being `e l`:
no key twice, no other keys, and an absent key means `0`.
(Models no code: a notion for statements and proofs.) -/
structure Tabulates (d : List (κ × ℚ)) (e : List Int → κ) (n : Nat) (P : List Int → ℚ) :
    Prop where
  nodup : (d.map Prod.fst).Nodup
  shape : ∀ k ∈ d.map Prod.fst, ∃ l, l.length = n ∧ k = e l
  value : ∀ l, l.length = n → dictVal d (e l) = P l

/-- Sum over the items of a table, for a summand that ignores zero entries. -/
theorem Tabulates.sum {d : List (κ × ℚ)} {e : List Int → κ} {n : Nat} {P : List Int → ℚ}
    (h : Tabulates d e n P) (he : ∀ l l', l.length = n → l'.length = n → e l = e l' → l = l')
    {M : Type} [AddCommMonoid M] (F : κ → ℚ → M) (hF : ∀ k, F k 0 = 0)
    (S : Finset (List Int)) (hS : ∀ l ∈ S, l.length = n)
    (hP : ∀ l, l.length = n → P l ≠ 0 → l ∈ S) :
    (d.map (fun p => F p.1 p.2)).sum = ∑ l ∈ S, F (e l) (P l) := by
  rw [sum_items h.nodup F]
  have h1 : ∑ l ∈ S, F (e l) (P l) = ∑ k ∈ S.image e, F k (dictVal d k) := by
    rw [Finset.sum_image (fun a ha b hb => he a b (hS a ha) (hS b hb))]
    exact Finset.sum_congr rfl (fun l hl => by rw [h.value l (hS l hl)])
  rw [h1]
  have aux : ∀ k, (k ∉ (d.map Prod.fst).toFinset ∨ k ∉ S.image e) →
      k ∈ (d.map Prod.fst).toFinset ∪ S.image e → F k (dictVal d k) = 0 := by
    intro k hk hu
    have : dictVal d k = 0 := by
      rcases hk with hk | hk
      · exact dictVal_of_not_mem (by simpa using hk)
      · have hm : k ∈ d.map Prod.fst := by
          rcases Finset.mem_union.1 hu with h | h
          · simpa using h
          · exact absurd h hk
        obtain ⟨l, hl, rfl⟩ := h.shape k hm
        rw [h.value l hl]
        by_contra hne
        exact hk (Finset.mem_image.2 ⟨l, hP l hl hne, rfl⟩)
    rw [this, hF]
  calc ∑ k ∈ (d.map Prod.fst).toFinset, F k (dictVal d k)
      = ∑ k ∈ (d.map Prod.fst).toFinset ∪ S.image e, F k (dictVal d k) :=
        Finset.sum_subset Finset.subset_union_left (fun k h1 h2 => aux k (.inl h2) h1)
    _ = ∑ k ∈ S.image e, F k (dictVal d k) :=
        (Finset.sum_subset Finset.subset_union_right (fun k h1 h2 => aux k (.inr h2) h1)).symm

/-- Deleting zero entries keeps the table. -/
theorem Tabulates.filter {d : List (κ × ℚ)} {e : List Int → κ} {n : Nat} {P : List Int → ℚ}
    (h : Tabulates d e n P) : Tabulates (d.filter (fun p => p.2 ≠ 0)) e n P := by
  have hsub : ((d.filter (fun p => p.2 ≠ 0)).map Prod.fst).Sublist (d.map Prod.fst) :=
    List.Sublist.map _ (List.filter_sublist)
  refine ⟨h.nodup.sublist hsub, fun k hk => h.shape k (hsub.subset hk), ?_⟩
  intro l hl
  rw [← h.value l hl]
  by_cases hm : e l ∈ d.map Prod.fst
  · obtain ⟨⟨k, v⟩, hp, hk⟩ := List.mem_map.1 hm
    simp only at hk
    subst hk
    rw [dictVal_of_mem h.nodup hp]
    by_cases hv : v = 0
    · subst hv
      apply dictVal_of_not_mem
      intro hm'
      obtain ⟨⟨k', v'⟩, hp', hk'⟩ := List.mem_map.1 hm'
      simp only [List.mem_filter, decide_eq_true_eq] at hp' hk'
      subst hk'
      have e1 := dictGet_of_mem h.nodup hp'.1
      have e2 := dictGet_of_mem h.nodup hp
      rw [e1] at e2
      exact hp'.2 (by simpa using e2)
    · exact dictVal_of_mem (h.nodup.sublist hsub)
        (List.mem_filter.2 ⟨hp, by simpa using hv⟩)
  · rw [dictVal_of_not_mem hm, dictVal_of_not_mem (fun h' => hm (hsub.subset h'))]

/-- Deleting zero entries leaves exactly the keys with non-zero value. -/
theorem Tabulates.length_filter {d : List (κ × ℚ)} {e : List Int → κ} {n : Nat}
    {P : List Int → ℚ} (h : Tabulates d e n P)
    (he : ∀ l l', l.length = n → l'.length = n → e l = e l' → l = l')
    (S : Finset (List Int)) (hS : ∀ l, l ∈ S ↔ l.length = n ∧ P l ≠ 0) :
    (d.filter (fun p => p.2 ≠ 0)).length = S.card := by
  have hf := h.filter
  have : (d.filter (fun p => p.2 ≠ 0)).length =
      ((d.filter (fun p => p.2 ≠ 0)).map Prod.fst).toFinset.card := by
    rw [List.toFinset_card_of_nodup hf.nodup, List.length_map]
  rw [this]
  have : ((d.filter (fun p => p.2 ≠ 0)).map Prod.fst).toFinset = S.image e := by
    ext k
    simp only [List.mem_toFinset, Finset.mem_image]
    constructor
    · intro hk
      obtain ⟨l, hl, rfl⟩ := hf.shape k hk
      refine ⟨l, (hS l).2 ⟨hl, ?_⟩, rfl⟩
      obtain ⟨⟨k', v⟩, hp, hk'⟩ := List.mem_map.1 hk
      simp only at hk'
      rw [← hf.value l hl, ← hk', dictVal_of_mem hf.nodup hp]
      simpa using (List.mem_filter.1 hp).2
    · rintro ⟨l, hl, rfl⟩
      have := (hS l).1 hl
      by_contra hm
      exact this.2 (by rw [← hf.value l this.1, dictVal_of_not_mem hm])
  rw [this, Finset.card_image_of_injOn]
  intro a ha b hb hab
  exact he a b ((hS a).1 ha).1 ((hS b).1 hb).1 hab

end Mbtk
