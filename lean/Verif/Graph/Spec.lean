import Mathlib.Logic.Relation
import Mathlib.Data.List.Nodup
import Mathlib.Data.List.Chain
import Mathlib.Data.Set.Basic
/-!
# Specification vocabulary for Bayesian network graphs

Textbook notions, stated over an edge relation `E` on node numbers.  Nothing here refers
to the model of the code.
-/
namespace Mbtk.Graph

/-- `E` has no directed cycle. (Specification.) -/
def Acyclic (E : Nat → Nat → Prop) : Prop := ∀ v, ¬ Relation.TransGen E v v

/-- `d` is `v` or a descendant of `v`. (Specification.) -/
def Desc (E : Nat → Nat → Prop) (v d : Nat) : Prop := Relation.ReflTransGen E v d

/-- Two nodes are linked by an edge, in either direction. (Specification.) -/
def Linked (E : Nat → Nat → Prop) (a b : Nat) : Prop := E a b ∨ E b a

/-- `p` is a path from `x` to `y` along the relation `A`, without repeated nodes.
(Specification.) -/
structure SimplePath (A : Nat → Nat → Prop) (x y : Nat) (p : List Nat) : Prop where
  nodup : p.Nodup
  head : p.head? = some x
  last : p.getLast? = some y
  chain : p.IsChain A

/-- Every inner node `b` of `p` lets the path through, given the set `Z`: a collider
(both path neighbours point to `b`) if it satisfies `O`, any other node if it is not
in `Z`. (Specification.) -/
def OpenPath (E : Nat → Nat → Prop) (O : Nat → Prop) (Z : Set Nat) (p : List Nat) : Prop :=
  ∀ a b c, [a, b, c] <:+: p → (E a b ∧ E c b → O b) ∧ (¬ (E a b ∧ E c b) → b ∉ Z)

/-- Pearl's rule for a collider: it or one of its descendants is in `Z`. (Specification.) -/
def PearlOpen (E : Nat → Nat → Prop) (Z : Set Nat) (b : Nat) : Prop := ∃ z ∈ Z, Desc E b z

/-- The rule used by the code: the collider or one of its *children* is in `Z`.
(Specification.) -/
def ChildOpen (E : Nat → Nat → Prop) (Z : Set Nat) (b : Nat) : Prop :=
  b ∈ Z ∨ ∃ z ∈ Z, E b z

/-- `x` and `y` are connected given `Z` under the collider rule `O`. (Specification.) -/
def Connected (E : Nat → Nat → Prop) (O : Nat → Prop) (x y : Nat) (Z : Set Nat) : Prop :=
  ∃ p, SimplePath (Linked E) x y p ∧ OpenPath E O Z p

/-- d-separation (Pearl). (Specification.) -/
def DSep (E : Nat → Nat → Prop) (x y : Nat) (Z : Set Nat) : Prop :=
  ¬ Connected E (PearlOpen E Z) x y Z

/-- The Markov blanket of `t`: parents, children and other parents of children.
(Specification.) -/
def IsBlanket (E : Nat → Nat → Prop) (t v : Nat) : Prop :=
  v ≠ t ∧ (E v t ∨ E t v ∨ ∃ c, E t c ∧ E v c)

theorem Linked.symm {E : Nat → Nat → Prop} {a b : Nat} (h : Linked E a b) : Linked E b a :=
  Or.symm h

theorem SimplePath.reverse {A : Nat → Nat → Prop} (hA : ∀ a b, A a b → A b a) {x y : Nat}
    {p : List Nat} (h : SimplePath A x y p) : SimplePath A y x p.reverse := by
  refine ⟨List.nodup_reverse.2 h.nodup, by simp [h.last], by simp [h.head], ?_⟩
  rw [List.isChain_reverse]
  exact h.chain.imp (fun a b hab => hA a b hab)

theorem OpenPath.reverse {E : Nat → Nat → Prop} {O : Nat → Prop} {Z : Set Nat} {p : List Nat}
    (h : OpenPath E O Z p) : OpenPath E O Z p.reverse := by
  intro a b c habc
  have h2 : [c, b, a] <:+: p := by
    have := List.reverse_infix.2 habc
    simpa using this
  obtain ⟨h3, h4⟩ := h c b a h2
  exact ⟨fun ⟨h5, h6⟩ => h3 ⟨h6, h5⟩, fun h5 => h4 (fun ⟨h6, h7⟩ => h5 ⟨h7, h6⟩)⟩

theorem Connected.symm {E : Nat → Nat → Prop} {O : Nat → Prop} {x y : Nat} {Z : Set Nat}
    (h : Connected E O x y Z) : Connected E O y x Z := by
  obtain ⟨p, h1, h2⟩ := h
  exact ⟨p.reverse, h1.reverse (fun _ _ => Linked.symm), h2.reverse⟩

theorem DSep.symm {E : Nat → Nat → Prop} {x y : Nat} {Z : Set Nat} (h : DSep E x y Z) :
    DSep E y x Z := fun hc => h hc.symm

theorem OpenPath.mono {E : Nat → Nat → Prop} {O O' : Nat → Prop} {Z : Set Nat} {p : List Nat}
    (hO : ∀ b, O b → O' b) (h : OpenPath E O Z p) : OpenPath E O' Z p :=
  fun a b c habc => ⟨fun hc => hO _ ((h a b c habc).1 hc), (h a b c habc).2⟩

theorem Connected.mono {E : Nat → Nat → Prop} {O O' : Nat → Prop} {x y : Nat} {Z : Set Nat}
    (hO : ∀ b, O b → O' b) (h : Connected E O x y Z) : Connected E O' x y Z := by
  obtain ⟨p, h1, h2⟩ := h
  exact ⟨p, h1, h2.mono hO⟩

theorem ChildOpen.pearl {E : Nat → Nat → Prop} {Z : Set Nat} {b : Nat} (h : ChildOpen E Z b) :
    PearlOpen E Z b := by
  rcases h with h | ⟨z, hz, hbz⟩
  · exact ⟨b, h, Relation.ReflTransGen.refl⟩
  · exact ⟨z, hz, Relation.ReflTransGen.single hbz⟩

/-- Splitting a simple path at its first node. -/
theorem simplePath_cons_iff {A : Nat → Nat → Prop} {x y a : Nat} {q : List Nat} :
    SimplePath A x y (a :: q) ↔ a = x ∧
      ((q = [] ∧ x = y) ∨ ∃ n, A x n ∧ x ∉ q ∧ x ≠ y ∧ SimplePath A n y q) := by
  constructor
  · rintro ⟨h1, h2, h3, h4⟩
    have hax : a = x := by simpa using h2
    subst hax
    refine ⟨rfl, ?_⟩
    cases q with
    | nil => left; simpa using h3
    | cons n q =>
      right
      have hl : (n :: q).getLast? = some y := by simpa [List.getLast?_cons_cons] using h3
      have hn := List.nodup_cons.1 h1
      refine ⟨n, (List.isChain_cons_cons.1 h4).1, hn.1, ?_, hn.2, rfl, hl,
        (List.isChain_cons_cons.1 h4).2⟩
      rintro rfl
      exact hn.1 (List.mem_of_getLast? hl)
  · rintro ⟨rfl, h⟩
    rcases h with ⟨rfl, rfl⟩ | ⟨n, h1, h2, h3, h4⟩
    · exact ⟨by simp, rfl, rfl, by simp⟩
    · cases q with
      | nil => have := h4.head; simp at this
      | cons b q =>
        have hb : b = n := by simpa using h4.head
        subst hb
        refine ⟨List.nodup_cons.2 ⟨h2, h4.nodup⟩, rfl, ?_, List.isChain_cons_cons.2 ⟨h1, h4.chain⟩⟩
        rw [List.getLast?_cons_cons]; exact h4.last

theorem SimplePath.ne_nil {A : Nat → Nat → Prop} {x y : Nat} {p : List Nat}
    (h : SimplePath A x y p) : p ≠ [] := by
  rintro rfl; have := h.head; simp at this

theorem SimplePath.mono {A B : Nat → Nat → Prop} (hAB : ∀ a b, A a b → B a b) {x y : Nat}
    {p : List Nat} (h : SimplePath A x y p) : SimplePath B x y p :=
  ⟨h.nodup, h.head, h.last, h.chain.imp (fun a b hab => hAB a b hab)⟩

end Mbtk.Graph
