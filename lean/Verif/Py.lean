/-!
# Python-level vocabulary shared by all models

Exceptions, a state-and-exception monad, and the few built-in functions
(`max` with a key, dictionary insertion, list comprehension over an effectful
function) that the modelled code uses.  No /repo file is modelled here; these are
Python built-ins.
-/
namespace Mbtk

/-- Python exception classes that the modelled code can raise.
(Python itself; see the files that use it for the lines.) -/
inductive Err where
  | keyError | indexError | typeError | attributeError | valueError
  | zeroDivision | nameError | recursion
  | custom (name : String)
  deriving DecidableEq, Repr

/-- Mutable program state `σ` plus exceptions. (Python itself.) -/
abbrev PyM (σ : Type) (α : Type) := StateT σ (Except Err) α

/-- `Ok m s P`: running `m` from `s` finishes without exception and the result and
final state satisfy `P`. (Models no code: a notion for statements and proofs.) -/
def Ok {σ α : Type} (m : PyM σ α) (s : σ) (P : α → σ → Prop) : Prop :=
  ∃ a s', m s = Except.ok (a, s') ∧ P a s'

/-- `Raises m s e`: running `m` from `s` ends with exception `e`.
(Models no code: a notion for statements and proofs.) -/
def Raises {σ α : Type} (m : PyM σ α) (s : σ) (e : Err) : Prop :=
  m s = Except.error e

theorem Ok.ret {σ α : Type} {a : α} {s : σ} {P : α → σ → Prop} (h : P a s) :
    Ok (pure a : PyM σ α) s P := ⟨a, s, rfl, h⟩

theorem Ok.bind {σ α β : Type} {m : PyM σ α} {f : α → PyM σ β} {s : σ}
    {Q : β → σ → Prop} (h : Ok m s (fun a s' => Ok (f a) s' Q)) : Ok (m >>= f) s Q := by
  obtain ⟨a, s', h1, b, s'', h2, h3⟩ := h
  refine ⟨b, s'', ?_, h3⟩
  show (do let p ← m s; f p.1 p.2) = _
  rw [h1]; exact h2

theorem Ok.mono {σ α : Type} {m : PyM σ α} {s : σ} {P Q : α → σ → Prop}
    (h : Ok m s P) (hpq : ∀ a s', P a s' → Q a s') : Ok m s Q := by
  obtain ⟨a, s', h1, h2⟩ := h
  exact ⟨a, s', h1, hpq _ _ h2⟩

theorem Ok.bindPost {σ α β : Type} {m : PyM σ α} {f : α → PyM σ β} {s : σ}
    {P : α → σ → Prop} {Q : β → σ → Prop} (h : Ok m s P)
    (hf : ∀ a s', P a s' → Ok (f a) s' Q) : Ok (m >>= f) s Q :=
  Ok.bind (h.mono hf)

theorem Ok.modify {σ : Type} {g : σ → σ} {s : σ} {P : Unit → σ → Prop} (h : P () (g s)) :
    Ok (modify g : PyM σ Unit) s P := ⟨(), g s, rfl, h⟩

theorem Ok.lift {σ α : Type} {m : Except Err α} {a : α} {s : σ} {P : α → σ → Prop}
    (h : m = .ok a) (hp : P a s) : Ok (liftM m : PyM σ α) s P := by
  subst h; exact ⟨a, s, rfl, hp⟩

/-- List comprehension `[f(x) for x in l]` with effects, left to right. (Python itself.) -/
def mapList {σ α β : Type} (f : α → PyM σ β) : List α → PyM σ (List β)
  | [] => pure []
  | x :: xs => do
    let y ← f x
    let ys ← mapList f xs
    pure (y :: ys)

/-- `max(l, key=key)`: the first element whose key is maximal; `ValueError` on an
empty list. (Python itself; ADTree.py 458-459, iamb.py 117-118.) -/
def pyMaxKey {α : Type} (key : α → Nat) : List α → Except Err α
  | [] => .error .valueError
  | x :: xs => .ok (xs.foldl (fun best y => if key best < key y then y else best) x)

theorem foldl_max_mem {α : Type} (key : α → Nat) (l : List α) (x : α) :
    (l.foldl (fun best y => if key best < key y then y else best) x) ∈ x :: l := by
  induction l generalizing x with
  | nil => simp
  | cons y ys ih =>
    simp only [List.foldl_cons]
    split
    · have := ih y; simp only [List.mem_cons] at this ⊢; grind
    · have := ih x; simp only [List.mem_cons] at this ⊢; grind

theorem foldl_max_ge {α : Type} (key : α → Nat) (l : List α) (x : α) :
    ∀ y ∈ x :: l, key y ≤ key (l.foldl (fun best y => if key best < key y then y else best) x) := by
  induction l generalizing x with
  | nil => simp
  | cons z zs ih =>
    intro y hy
    simp only [List.foldl_cons]
    by_cases h : key x < key z
    · simp only [h, if_true]
      rcases List.mem_cons.1 hy with rfl | hy
      · exact Nat.le_trans (Nat.le_of_lt h) (ih z z (by simp))
      · exact ih z y hy
    · simp only [h, if_false]
      rcases List.mem_cons.1 hy with rfl | hy
      · exact ih _ _ (by simp)
      · rcases List.mem_cons.1 hy with rfl | hy
        · exact Nat.le_trans (Nat.le_of_not_lt h) (ih x x (by simp))
        · exact ih x y (by simp [hy])

theorem pyMaxKey_spec {α : Type} (key : α → Nat) (l : List α) (h : l ≠ []) :
    ∃ m, pyMaxKey key l = .ok m ∧ m ∈ l ∧ ∀ y ∈ l, key y ≤ key m := by
  cases l with
  | nil => exact absurd rfl h
  | cons x xs => exact ⟨_, rfl, foldl_max_mem key xs x, foldl_max_ge key xs x⟩

/-- `d[k] = v` on an insertion-ordered dictionary (an existing key keeps its place).
(Python itself.) -/
def dictSet {κ ν : Type} [DecidableEq κ] (d : List (κ × ν)) (k : κ) (v : ν) : List (κ × ν) :=
  match d with
  | [] => [(k, v)]
  | (k', v') :: rest => if k' = k then (k', v) :: rest else (k', v') :: dictSet rest k v

/-- `d.get(k)`. (Python itself.) -/
def dictGet {κ ν : Type} [DecidableEq κ] (d : List (κ × ν)) (k : κ) : Option ν :=
  match d with
  | [] => none
  | (k', v') :: rest => if k' = k then some v' else dictGet rest k

theorem dictGet_dictSet {κ ν : Type} [DecidableEq κ] (d : List (κ × ν)) (k k2 : κ) (v : ν) :
    dictGet (dictSet d k v) k2 = if k = k2 then some v else dictGet d k2 := by
  induction d with
  | nil => simp [dictSet, dictGet]
  | cons p d ih =>
    obtain ⟨k', v'⟩ := p
    by_cases h : k' = k
    · subst h; simp only [dictSet, if_true, dictGet]
      split <;> rfl
    · simp only [dictSet, h, if_false, dictGet, ih]
      by_cases h2 : k' = k2
      · subst h2; simp [Ne.symm h]
      · simp [h2]

theorem dictGet_none_iff {κ ν : Type} [DecidableEq κ] (d : List (κ × ν)) (k : κ) :
    dictGet d k = none ↔ k ∉ d.map Prod.fst := by
  induction d with
  | nil => simp [dictGet]
  | cons p d ih =>
    obtain ⟨k', v'⟩ := p
    by_cases h : k' = k
    · simp [dictGet, h]
    · simp [dictGet, h, ih, Ne.symm h]

theorem dictSet_keys {κ ν : Type} [DecidableEq κ] (d : List (κ × ν)) (k : κ) (v : ν) :
    (dictSet d k v).map Prod.fst =
      if k ∈ d.map Prod.fst then d.map Prod.fst else d.map Prod.fst ++ [k] := by
  induction d with
  | nil => simp [dictSet]
  | cons p d ih =>
    obtain ⟨k', v'⟩ := p
    by_cases h : k' = k
    · simp [dictSet, h]
    · simp only [dictSet, h, if_false, List.map_cons, ih]
      by_cases h2 : k ∈ d.map Prod.fst
      · simp [h2]
      · simp [h2, Ne.symm h]

theorem dictGet_mem {κ ν : Type} [DecidableEq κ] {d : List (κ × ν)} {k : κ} {v : ν}
    (h : dictGet d k = some v) : (k, v) ∈ d := by
  induction d with
  | nil => simp [dictGet] at h
  | cons p d ih =>
    obtain ⟨k', v'⟩ := p
    by_cases h1 : k' = k
    · subst h1; simp [dictGet] at h; simp [h]
    · simp [dictGet, h1] at h; exact List.mem_cons_of_mem _ (ih h)

theorem dictGet_of_mem {κ ν : Type} [DecidableEq κ] {d : List (κ × ν)} {k : κ} {v : ν}
    (hn : (d.map Prod.fst).Nodup) (h : (k, v) ∈ d) : dictGet d k = some v := by
  induction d with
  | nil => simp at h
  | cons p d ih =>
    obtain ⟨k', v'⟩ := p
    simp only [List.map_cons, List.nodup_cons] at hn
    rcases List.mem_cons.1 h with h | h
    · cases h; simp [dictGet]
    · have : k' ≠ k := by
        rintro rfl
        exact hn.1 (List.mem_map.2 ⟨_, h, rfl⟩)
      simp [dictGet, this, ih hn.2 h]

end Mbtk
