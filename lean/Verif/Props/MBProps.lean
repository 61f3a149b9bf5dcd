import Verif.MB.Correct
import Verif.Props.GraphProps
/-!
# Properties C16–C22 and C52: Markov blanket algorithms
-/
namespace Mbtk.MB

open Mbtk.Graph

variable {σ κ : Type}

/-! ## C16 -/

/-- C16.  For any CI test (which may answer differently each time or report insufficient
samples) and any heuristic that returns numbers, IAMB terminates and returns a strictly
increasing list of variables other than the target. -/
theorem iamb_well_formed [LinearOrder κ] {W : World σ κ} (hf : W.Fair) {U : List Nat} {T : Nat}
    (ht : W.HeurOn T U) (ha : W.Total) (hU : U.Nodup) (s : St σ) :
    ∃ r s', iamb W U T s = .ok (r, s') ∧ r.Pairwise (· < ·) ∧ ∀ x ∈ r, x ∈ U ∧ x ≠ T :=
  iamb_wf hf ht ha hU s

/-- A world whose test reports insufficient samples on even days and dependence on odd
days. (Specification.) -/
def moody : World Nat where
  ask _ _ _ n := .ok (if n % 2 = 0 then .insufficient else .dependent, n + 1)
  heur _ Y _ n := .ok (Y, n)
  iter l n := (l, n)

example : moody.Fair ∧ moody.HeurOn 1 [0, 1, 2, 3] ∧ moody.Total :=
  ⟨fun l _ => List.Perm.refl l, fun _ _ _ _ s => ⟨_, s, rfl⟩,
    fun _ _ _ s => ⟨_, s + 1, rfl, trivial⟩⟩

example : (iamb moody [0, 1, 2, 3] 1 ⟨[], [], 0⟩).toOption.map Prod.fst = some [2] := by
  decide +kernel

/-! ## C18 -/

/-- C18.  `ind y S` is what the test answers about the target and `y` given `S`, `h y S` the
score of `y`, and `B` the blanket.  If (a) given a superset of the blanket everything else
is independent, (b) while part of the blanket is missing a candidate with the best score is
dependent, and (c) a blanket member is dependent given any set covering the rest of the
blanket, then IAMB returns exactly `B`, whatever the iteration order. -/
theorem iamb_exact_for_faithful_tests [LinearOrder κ] {W : World σ κ} (hf : W.Fair) {U : List Nat} {T : Nat}
    (ht : W.HeurOn T U) (B : Nat → Prop) (ind : Nat → Set Nat → Prop) (h : Nat → List Nat → κ)
    (hB : ∀ v, B v → v ∈ U ∧ v ≠ T)
    (hshield : ∀ x (S : List Nat), x ∈ U → x ≠ T → x ∉ S → (∀ v, B v → v ∈ S) →
      ind x {z | z ∈ S})
    (hguide : ∀ x (S : List Nat), x ∈ U → x ≠ T → x ∉ S → (∃ v, B v ∧ v ∉ S) →
      (∀ y ∈ U, y ≠ T → y ∉ S → h y S ≤ h x S) → ¬ ind x {z | z ∈ S})
    (hneed : ∀ x (S : List Nat), B x → x ∉ S → (∀ v, B v → v ≠ x → v ∈ S) →
      ¬ ind x {z | z ∈ S})
    (ha : W.AnswersAt T ind) (hh : ∀ S, HeurIs W T S (fun y => h y S)) (s : St σ) :
    ∃ r s', iamb W U T s = .ok (r, s') ∧ r.Pairwise (· < ·) ∧ ∀ x, x ∈ r ↔ B x :=
  iamb_exact hf ht ⟨hB, hshield, hguide, hneed⟩ ha hh s

/-! ## C17 -/

/-- C17.  With the shipped d-separation test and heuristic on a DAG, IAMB returns exactly
the parents, children and other parents of children of the target, whatever the iteration
order of sets. -/
theorem iamb_finds_blanket {N : Net} {V : List Nat} {E : Nat → Nat → Prop}
    (h : Represents N V E) (hE : Acyclic E) {U : List Nat} {T : Nat}
    (hB : ∀ v, IsBlanket E T v → v ∈ U) (o : List Nat → σ → List Nat × σ)
    (ho : ∀ l s, (o l s).1.Perm l) (s : St σ) :
    ∃ r s', iamb (dsepWorld N o) U T s = .ok (r, s') ∧ r.Pairwise (· < ·) ∧
      ∀ x, x ∈ r ↔ x ≠ T ∧ (E x T ∨ E T x ∨ ∃ c, E T c ∧ E x c) := by
  refine iamb_exact (W := dsepWorld N o) ho ?_ (dsep_faithful hE hB)
    ((dsepWorld_answers h o).at T) ?_ s
  · intro Y _ _ Z w
    exact ⟨dsepScore E T Y Z, w, by simp [dsepWorld, dsepHeur_spec h, Except.map]⟩
  · intro S y w v w' hw
    simp [dsepWorld, dsepHeur_spec h, Except.map] at hw
    exact hw.1.symm

theorem acyclic_of_lt {E : Nat → Nat → Prop} (h : ∀ a b, E a b → a < b) : Acyclic E := by
  intro v hv
  have : ∀ a b, Relation.TransGen E a b → a < b := by
    intro a b hab
    induction hab with
    | single h1 => exact h _ _ h1
    | tail _ h1 ih => exact lt_trans ih (h _ _ h1)
  exact lt_irrefl _ (this v v hv)

theorem diamond_edge {c n : Nat} : (∃ cs, (n, cs) ∈ diamond ∧ c ∈ cs) ↔
    (c = 0 ∧ n = 1) ∨ (c = 0 ∧ n = 2) ∨ (c = 1 ∧ n = 3) ∨ (c = 2 ∧ n = 3) := by
  simp only [diamond, List.mem_cons, Prod.mk.injEq, List.not_mem_nil, or_false]
  constructor
  · rintro ⟨cs, ⟨rfl, rfl⟩ | ⟨rfl, rfl⟩ | ⟨rfl, rfl⟩ | ⟨rfl, rfl⟩ | ⟨rfl, rfl⟩, hc⟩ <;>
      simp at hc <;> omega
  · rintro (⟨rfl, rfl⟩ | ⟨rfl, rfl⟩ | ⟨rfl, rfl⟩ | ⟨rfl, rfl⟩) <;> simp

theorem diamond_acyclic : Acyclic (fun c n => ∃ cs, (n, cs) ∈ diamond ∧ c ∈ cs) :=
  acyclic_of_lt (fun a b h => by have := diamond_edge.1 h; omega)

/-- The diamond meets the hypotheses of C17, and the blanket of 1 is computed in full
(parent 0, child 3, spouse 2), visiting sets backwards. -/
example (s : St Unit) : ∃ r s', iamb (dsepWorld (ofNodes diamond) (fun l u => (l.reverse, u)))
    [0, 1, 2, 3, 4] 1 s = .ok (r, s') ∧ r.Pairwise (· < ·) ∧ ∀ x, x ∈ r ↔
      IsBlanket (fun c n => ∃ cs, (n, cs) ∈ diamond ∧ c ∈ cs) 1 x :=
  iamb_finds_blanket diamond_represents diamond_acyclic
    (by
      rintro v ⟨-, h | h | ⟨c, h1, h2⟩⟩
      · have := diamond_edge.1 h; simp; omega
      · have := diamond_edge.1 h; simp; omega
      · have := diamond_edge.1 h2; simp; omega) _ (fun l _ => l.reverse_perm) s

example : (iamb (dsepWorld (ofNodes diamond) (fun l u => (l.reverse, u)))
    [0, 1, 2, 3, 4] 1 ⟨[], [], ()⟩).toOption.map Prod.fst = some [0, 2, 3] := by decide +kernel

/-! ## C52 -/

/-- C52.  The same with the path length heuristic, when every variable is joined to the
target by some path. -/
theorem iamb_finds_blanket_bn_heuristic {N : Net} {V : List Nat} {E : Nat → Nat → Prop}
    (h : Represents N V E) (hE : Acyclic E) {U : List Nat} {T : Nat}
    (hB : ∀ v, IsBlanket E T v → v ∈ U)
    (hpath : ∀ y ∈ U, y ≠ T → ∃ p, SimplePath (Linked E) T y p)
    (o : List Nat → σ → List Nat × σ) (ho : ∀ l s, (o l s).1.Perm l) (s : St σ) :
    ∃ r s', iamb (bnWorld N o) U T s = .ok (r, s') ∧ r.Pairwise (· < ·) ∧
      ∀ x, x ∈ r ↔ x ≠ T ∧ (E x T ∨ E T x ∨ ∃ c, E T c ∧ E x c) := by
  refine iamb_exact (W := bnWorld N o) ho ?_ (bn_faithful h hE hpath hB)
    ((bnWorld_answers h o).at T) ?_ s
  · intro Y hY hYT Z w
    obtain ⟨v, hv, -⟩ := bnHeur_spec h (hpath Y hY hYT) Z
    exact ⟨v, w, by simp [bnWorld, hv, Except.map]⟩
  · intro S y w v w' hw
    cases hb : bnHeur N T y S with
    | error e => simp [bnWorld, hb, Except.map] at hw
    | ok v' => simp [bnWorld, hb, Except.map] at hw; simp [bnScore, hb, hw.1]

/-- C52, the hypothesis is needed: with the path length heuristic, IAMB raises `ValueError`
as soon as the variable it scores first has no path to the target (here the isolated node 4
of the diamond). -/
theorem iamb_bn_heuristic_raises :
    ∃ (nodes : List (Nat × List Nat)) (U : List Nat) (T : Nat) (s : St Unit), T ∈ U ∧
      (∀ n cs, (n, cs) ∈ nodes → ∀ c ∈ cs, c ∈ nodes.map Prod.fst) ∧
      U = nodes.map Prod.fst ∧
      iamb (bnWorld (ofNodes nodes) (fun l u => (l, u))) U T s = .error .valueError := by
  have hrun : (match iamb (bnWorld (ofNodes diamond) (fun l u => (l, u))) [0, 1, 2, 3, 4] 1
      ⟨[], [], ()⟩ with | .ok _ => none | .error e => some e) = some Err.valueError := by
    decide +kernel
  refine ⟨diamond, [0, 1, 2, 3, 4], 1, ⟨[], [], ()⟩, by decide, ?_, rfl, ?_⟩
  case refine_2 =>
    split at hrun
    · cases hrun
    · rename_i e he; rw [he]; cases hrun; rfl
  intro n cs h c hc
  have := diamond_edge.1 ⟨cs, h, hc⟩
  simp [diamond]; omega

/-! ## C19 -/

/-- C19.  For any CI test and any iteration order, IPC-MB terminates without exception and
returns a strictly increasing list of variables other than the target. -/
theorem ipcmb_well_formed {W : World σ κ} (hf : W.Fair) (ha : W.Total) {U : List Nat}
    (hU : U.Nodup) (T : Nat) (pcOnly : Bool) (s : St σ) :
    ∃ r s', ipcmb W U T pcOnly s = .ok (r, s') ∧ r.Pairwise (· < ·) ∧
      ∀ x ∈ r, x ∈ U ∧ x ≠ T := by
  refine Ok.andThen (ipcmbSet_ok hf ha hU T pcOnly s) ?_
  rintro r s' ⟨pc, cand, cs, sep, h⟩
  have hpc : ∀ x ∈ pc, x ∈ U ∧ x ≠ T := fun x hx => h.candSub x (h.pcSub x hx)
  refine Ok.ret ⟨pySorted_strict h.nodup, fun x hx => ?_⟩
  have hx := (pySorted_perm r).mem_iff.1 hx
  cases pcOnly with
  | true => rw [h.only rfl] at hx; exact hpc x hx
  | false =>
    rcases h.found rfl x hx with hx | ⟨X, hX, hxc, hxT, -⟩
    · exact hpc x hx
    · exact ⟨(h.csSub X (h.pcSub X hX) x hxc).1, hxT⟩

example : (ipcmb moody [0, 1, 2, 3] 1 false ⟨[], [], 0⟩).toOption.isSome = true := by
  decide +kernel

/-! ## C20 -/

/-- C20, parents and children: IPC-MB in `pc_only` mode is exact for any test that decides
a relation `P` that never separates neighbours, separates whatever is d-separated, and does
not separate two parents given their common child.  True d-separation and the shipped test
both qualify. -/
theorem ipcmb_pc_exact {W : World σ κ} (hf : W.Fair) {E : Nat → Nat → Prop}
    {P : Nat → Nat → Set Nat → Prop} (hO : OracleOn E P) (ha : W.Answers P) (hE : Acyclic E)
    {U : List Nat} (hU : U.Nodup) {T : Nat} (hT : T ∈ U)
    (hEU : ∀ a b, E a b → a ∈ U ∧ b ∈ U) (s : St σ) :
    ∃ r s', ipcmb W U T true s = .ok (r, s') ∧ r.Pairwise (· < ·) ∧
      ∀ x, x ∈ r ↔ (E x T ∨ E T x) := by
  refine Ok.andThen (ipcmbSet_ok hf ha hU T true s) ?_
  rintro r s' ⟨pc, cand, cs, sep, h⟩
  refine Ok.ret ⟨pySorted_strict h.nodup, fun x => ?_⟩
  rw [(pySorted_perm r).mem_iff, h.only rfl]
  exact (pc_exact hE hU hT hEU hO h x).trans or_comm

/-- C20, one inclusion: for the same tests, no member of the Markov blanket is missed. -/
theorem ipcmb_contains_blanket {W : World σ κ} (hf : W.Fair) {E : Nat → Nat → Prop}
    {P : Nat → Nat → Set Nat → Prop} (hO : OracleOn E P) (ha : W.Answers P) (hE : Acyclic E)
    {U : List Nat} (hU : U.Nodup) {T : Nat} (hT : T ∈ U)
    (hEU : ∀ a b, E a b → a ∈ U ∧ b ∈ U) (s : St σ) :
    ∃ r s', ipcmb W U T false s = .ok (r, s') ∧ r.Pairwise (· < ·) ∧
      ∀ x, IsBlanket E T x → x ∈ r := by
  refine Ok.andThen (ipcmbSet_ok hf ha hU T false s) ?_
  rintro r s' ⟨pc, cand, cs, sep, h⟩
  refine Ok.ret ⟨pySorted_strict h.nodup, fun x hx => ?_⟩
  rw [(pySorted_perm r).mem_iff]
  exact blanket_found hE hU hT hEU hO h hx

/-- C20 for a test that decides true d-separation: IPC-MB returns exactly the Markov blanket,
whatever the iteration order.  Missing for the full C20: the shipped test does not decide
d-separation (`d_separated_not_d_separation`), and with it the claim is false
(`ipcmb_shipped_not_exact`). -/
theorem ipcmb_exact_partial {W : World σ κ} (hf : W.Fair) {E : Nat → Nat → Prop}
    (ha : W.Answers (DSep E)) (hE : Acyclic E) {U : List Nat} (hU : U.Nodup) {T : Nat}
    (hT : T ∈ U) (hEU : ∀ a b, E a b → a ∈ U ∧ b ∈ U) (s : St σ) :
    ∃ r s', ipcmb W U T false s = .ok (r, s') ∧ r.Pairwise (· < ·) ∧
      ∀ x, x ∈ r ↔ x ≠ T ∧ (E x T ∨ E T x ∨ ∃ c, E T c ∧ E x c) := by
  refine Ok.andThen (ipcmbSet_ok hf ha hU T false s) ?_
  rintro r s' ⟨pc, cand, cs, sep, h⟩
  refine Ok.ret ⟨pySorted_strict h.nodup, fun x => ?_⟩
  rw [(pySorted_perm r).mem_iff]
  exact ⟨fun hx => blanket_only hE hU hT hEU h hx,
    fun hx => blanket_found hE hU hT hEU (dsep_oracle E) h hx⟩

/-- C20 for the shipped test: the neighbours found are exact. -/
theorem ipcmb_shipped_pc_exact {N : Net} {V : List Nat} {E : Nat → Nat → Prop}
    (h : Represents N V E) (hE : Acyclic E) (hV : V.Nodup) {T : Nat} (hT : T ∈ V)
    (o : List Nat → σ → List Nat × σ) (ho : ∀ l s, (o l s).1.Perm l) (s : St σ) :
    ∃ r s', ipcmb (dsepWorld N o) V T true s = .ok (r, s') ∧ r.Pairwise (· < ·) ∧
      ∀ x, x ∈ r ↔ (E x T ∨ E T x) :=
  ipcmb_pc_exact (W := dsepWorld N o) ho (shipped_oracle E) (dsepWorld_answers h o) hE hV hT
    h.edge_mem s

/-- C20 for the shipped test: no blanket member is missed. -/
theorem ipcmb_shipped_contains_blanket {N : Net} {V : List Nat} {E : Nat → Nat → Prop}
    (h : Represents N V E) (hE : Acyclic E) (hV : V.Nodup) {T : Nat} (hT : T ∈ V)
    (o : List Nat → σ → List Nat × σ) (ho : ∀ l s, (o l s).1.Perm l) (s : St σ) :
    ∃ r s', ipcmb (dsepWorld N o) V T false s = .ok (r, s') ∧ r.Pairwise (· < ·) ∧
      ∀ x, IsBlanket E T x → x ∈ r :=
  ipcmb_contains_blanket (W := dsepWorld N o) ho (shipped_oracle E) (dsepWorld_answers h o) hE hV
    hT h.edge_mem s

/-- C20 for the shipped test on networks in which no node with two parents has a grandchild:
exact. -/
theorem ipcmb_shipped_exact_shallow {N : Net} {V : List Nat} {E : Nat → Nat → Prop}
    (h : Represents N V E) (hE : Acyclic E) (hV : V.Nodup) {T : Nat} (hT : T ∈ V)
    (hsh : ∀ a b c d e, a ≠ b → E a c → E b c → E c d → ¬ E d e)
    (o : List Nat → σ → List Nat × σ) (ho : ∀ l s, (o l s).1.Perm l) (s : St σ) :
    ∃ r s', ipcmb (dsepWorld N o) V T false s = .ok (r, s') ∧ r.Pairwise (· < ·) ∧
      ∀ x, x ∈ r ↔ x ≠ T ∧ (E x T ∨ E T x ∨ ∃ c, E T c ∧ E x c) := by
  have hP : ShippedSep E = DSep E := by
    funext X Y Z
    exact propext (shallow_iff hsh X Y Z)
  exact ipcmb_exact_partial (W := dsepWorld N o) ho (hP ▸ dsepWorld_answers h o) hE hV hT
    h.edge_mem s

/-- The diamond is shallow and meets the hypotheses of all of the above. -/
example (s : St Unit) : ∃ r s', ipcmb (dsepWorld (ofNodes diamond) (fun l u => (l.reverse, u)))
    [0, 1, 2, 3, 4] 1 false s = .ok (r, s') ∧ r.Pairwise (· < ·) ∧ ∀ x, x ∈ r ↔
      IsBlanket (fun c n => ∃ cs, (n, cs) ∈ diamond ∧ c ∈ cs) 1 x :=
  ipcmb_shipped_exact_shallow (V := diamond.map Prod.fst) diamond_represents diamond_acyclic
    (by decide) (by decide)
    (by
      intro a b c d e _ h1 h2 h3
      have := diamond_edge.1 h1; have := diamond_edge.1 h2; have := diamond_edge.1 h3; omega)
    _ (fun l _ => l.reverse_perm) s

/-- The network `0→2, 3→2, 2→4, 1→4, 4→5, 5→6, 1→6, 3→6`. (Specification.) -/
def trap : List (Nat × List Nat) :=
  [(0, []), (1, []), (2, [0, 3]), (3, []), (4, [1, 2]), (5, [4]), (6, [1, 3, 5])]

theorem trap_edge {c n : Nat} (h : ∃ cs, (n, cs) ∈ trap ∧ c ∈ cs) :
    (c = 0 ∧ n = 2) ∨ (c = 3 ∧ n = 2) ∨ (c = 1 ∧ n = 4) ∨ (c = 2 ∧ n = 4) ∨ (c = 4 ∧ n = 5) ∨
    (c = 1 ∧ n = 6) ∨ (c = 3 ∧ n = 6) ∨ (c = 5 ∧ n = 6) := by
  obtain ⟨cs, h, hc⟩ := h
  simp only [trap, List.mem_cons, Prod.mk.injEq, List.not_mem_nil, or_false] at h
  rcases h with ⟨rfl, rfl⟩ | ⟨rfl, rfl⟩ | ⟨rfl, rfl⟩ | ⟨rfl, rfl⟩ | ⟨rfl, rfl⟩ | ⟨rfl, rfl⟩ |
    ⟨rfl, rfl⟩ <;> simp at hc <;> omega

/-- C20 as stated is false: on `trap`, with the shipped test and sets visited in ascending
order, IPC-MB reports that node 6 is in the Markov blanket of node 0, which it is not. -/
theorem ipcmb_shipped_not_exact :
    ∃ (nodes : List (Nat × List Nat)) (T x : Nat) (s : St Unit) (r : List Nat) (s' : St Unit),
      (∀ n cs, (n, cs) ∈ nodes → ∀ c ∈ cs, c ∈ nodes.map Prod.fst) ∧
      Acyclic (fun c n => ∃ cs, (n, cs) ∈ nodes ∧ c ∈ cs) ∧
      ipcmb (dsepWorld (ofNodes nodes) (fun l u => (l, u))) (nodes.map Prod.fst) T false s =
        .ok (r, s') ∧ x ∈ r ∧
      ¬ IsBlanket (fun c n => ∃ cs, (n, cs) ∈ nodes ∧ c ∈ cs) T x := by
  have hrun : (ipcmb (dsepWorld (ofNodes trap) (fun l u => (l, u))) (trap.map Prod.fst) 0 false
      ⟨[], [], ()⟩).toOption.map Prod.fst = some [2, 3, 6] := by decide +kernel
  cases hr : ipcmb (dsepWorld (ofNodes trap) (fun l u => (l, u))) (trap.map Prod.fst) 0 false
      ⟨[], [], ()⟩ with
  | error e => rw [hr] at hrun; simp [Except.toOption] at hrun
  | ok p =>
    rw [hr] at hrun
    have hp : p.1 = [2, 3, 6] := by simpa [Except.toOption] using hrun
    refine ⟨trap, 0, 6, ⟨[], [], ()⟩, p.1, p.2, ?_, ?_, hr, by rw [hp]; decide, ?_⟩
    · intro n cs h c hc
      have := trap_edge ⟨cs, h, hc⟩
      simp [trap]; omega
    · have hlt : ∀ a b, (∃ cs, (b, cs) ∈ trap ∧ a ∈ cs) →
          (if a = 3 then 0 else a) < (if b = 3 then 0 else b) := by
        intro a b h
        have := trap_edge h
        split <;> split <;> omega
      intro v hv
      have : ∀ a b, Relation.TransGen (fun c n => ∃ cs, (n, cs) ∈ trap ∧ c ∈ cs) a b →
          (if a = 3 then 0 else a) < (if b = 3 then 0 else b) := by
        intro a b hab
        induction hab with
        | single h => exact hlt _ _ h
        | tail _ h ih => exact lt_trans ih (hlt _ _ h)
      exact lt_irrefl _ (this v v hv)
    · rintro ⟨-, h | h | ⟨c, h1, h2⟩⟩
      · have := trap_edge h; omega
      · have := trap_edge h; omega
      · have h1 := trap_edge h1; have h2 := trap_edge h2; omega

/-! ## C21 -/

/-- C21.  `RecognizePC(T, adj)` with a test that decides `P`:
* the result is part of `adj`, and everything dropped is separated from `T` by a subset of
  `adj` without it, which is the set stored in the separating set cache;
* nothing kept is separated from `T` by any subset of the result;
* conditioning sets are subsets of the initial adjacency, tested in order of ascending size,
  and a variable found separated at one size is neither tested nor conditioned on at a
  larger size. -/
theorem recognizePC_correct {W : World σ κ} (hf : W.Fair) {P : Nat → Nat → Set Nat → Prop}
    (ha : W.Answers P) (T : Nat) {adj : List Nat} (hn : adj.Nodup) (s : St σ) :
    ∃ r s', recognizePC W T adj s = .ok (r, s') ∧ r.Nodup ∧ (∀ X ∈ r, X ∈ adj) ∧
      (∀ X ∈ adj, X ∉ r → ∃ Z : List Nat, (∀ z ∈ Z, z ∈ adj ∧ z ≠ X) ∧ P X T {z | z ∈ Z} ∧
        s'.sep.get [T, X] = .ok Z ∧ s'.sep.get [X, T] = .ok Z) ∧
      (∀ X ∈ r, ∀ Z : List Nat, (∀ z ∈ Z, z ∈ r ∧ z ≠ X) → ¬ P X T {z | z ∈ Z}) ∧
      ∃ tests, s'.log = s.log ++ tests ∧
        (∀ q ∈ tests, q.1 ∈ adj ∧ q.2.1 = T ∧ q.2.2.Nodup ∧ ∀ z ∈ q.2.2, z ∈ adj ∧ z ≠ q.1) ∧
        tests.Pairwise (fun q q' => q.2.2.length ≤ q'.2.2.length) ∧
        (∀ q ∈ tests, ∀ q' ∈ tests, q.2.2.length < q'.2.2.length →
          P q.1 T {z | z ∈ q.2.2} → q.1 ≠ q'.1 ∧ q.1 ∉ q'.2.2) := by
  obtain ⟨r, s', h0, h⟩ := recognizePC_ok (R := Decides P) hf ha T hn s
  refine ⟨r, s', h0, h.nodup, h.sub, ?_, ?_, ?_⟩
  · intro X hX hXr
    rcases h.removed X hX hXr with ⟨Z, h1, h2, h3⟩ | ⟨Z, -, h2⟩
    · refine ⟨Z, h1.2, h2.ind, ?_, ?_⟩
      · simp [SetCache.get, h3]
      · simp [SetCache.get, ← fkey_swap, h3]
    · exact h2.insuf.elim
  · intro X hX Z hZ hP
    obtain ⟨Z', hp, hd⟩ := h.kept X hX Z.dedup
      ⟨List.nodup_dedup _, fun z hz => hZ z (List.mem_dedup.1 hz)⟩
    refine hd.dep ?_
    rw [perm_set hp]
    simpa using hP
  · obtain ⟨tests, h1, h2, h3, h4⟩ := h.logged
    refine ⟨tests, h1, fun q hq => ⟨(h4 q hq).1, (h4 q hq).2.1, (h4 q hq).2.2.1,
      (h4 q hq).2.2.2⟩, h2, ?_⟩
    intro q hq q' hq' hlt hP
    have := fun hh => (h3 q hq q' hq' hlt hh).dep hP
    exact ⟨fun hh => this (Or.inl hh), fun hh => this (Or.inr hh)⟩

/-- C21, true neighbours are never lost, and every test whose outcome is "independent" for a
non-neighbour is over the graph: in a DAG over the variables, what remains besides the
neighbours of `T` are descendants of `T`. -/
theorem recognizePC_neighbours {W : World σ κ} (hf : W.Fair) {E : Nat → Nat → Prop}
    {P : Nat → Nat → Set Nat → Prop} (hO : OracleOn E P) (ha : W.Answers P) (hE : Acyclic E)
    {U : List Nat} (hU : U.Nodup) (hEU : ∀ a b, E a b → a ∈ U ∧ b ∈ U) (T : Nat) (s : St σ) :
    ∃ r s', recognizePC W T (without U T) s = .ok (r, s') ∧
      (∀ X, (E X T ∨ E T X) → X ∈ r) ∧ (∀ X ∈ r, (E X T ∨ E T X) ∨ Desc E T X) := by
  obtain ⟨r, s', h0, h⟩ := recognizePC_ok (R := Decides P) hf ha T (nodup_without hU T) s
  have hfound : ∀ X, Linked E T X → X ∈ r := by
    intro X hl
    have hXT : X ≠ T := by rintro rfl; exact hl.elim (hE.irrefl _) (hE.irrefl _)
    have hXU : X ∈ U := by
      rcases hl with h | h
      · exact (hEU _ _ h).2
      · exact (hEU _ _ h).1
    by_contra hc
    rcases h.removed X (mem_without.2 ⟨hXU, hXT⟩) hc with ⟨Z, -, h2, -⟩ | ⟨Z, -, h2⟩
    · exact hO.adjacent X T _ hXT hl.symm h2.ind
    · exact h2.insuf
  refine ⟨r, s', h0, fun X hl => hfound X hl.symm, fun X hX => ?_⟩
  by_contra hn
  push Not at hn
  obtain ⟨⟨hn1, hn2⟩, hnd⟩ := hn
  have hnl : ¬ Linked E T X := fun hl => hl.elim hn2 hn1
  have hXT := (mem_without.1 (h.sub X hX)).2
  obtain ⟨Z, hZn, hZ⟩ := listOf hU (fun v => E v T) (fun v hv => (hEU v T hv).1)
  obtain ⟨Z', hp, hd⟩ := h.kept X hX Z ⟨hZn, fun z hz => ⟨hfound z (Or.inr ((hZ z).1 hz)), by
    rintro rfl; exact hn1 ((hZ _).1 hz)⟩⟩
  refine hd.dep ?_
  rw [perm_set hp]
  exact hO.complete _ _ _ (parents_separate hE (P := {z | z ∈ Z}) hZ hXT.symm hnl hnd).symm

/-- The diamond with the shipped test meets the hypotheses of the two theorems above. -/
example (s : St Unit) :
    ∃ r s', recognizePC (dsepWorld (ofNodes diamond) (fun l u => (l, u))) 0
      (without [0, 1, 2, 3, 4] 0) s = .ok (r, s') ∧ 1 ∈ r ∧ 2 ∈ r ∧ 4 ∉ r := by
  obtain ⟨r, s', h1, h2, h3⟩ := recognizePC_neighbours
    (W := dsepWorld (ofNodes diamond) (fun l (u : Unit) => (l, u)))
    (fun l _ => List.Perm.refl l) (shipped_oracle _)
    (dsepWorld_answers diamond_represents _) diamond_acyclic (U := [0, 1, 2, 3, 4]) (by decide)
    (fun a b h => by have := diamond_edge.1 h; simp; omega) 0 s
  refine ⟨r, s', h1, h2 1 (Or.inr (diamond_edge.2 (by omega))),
    h2 2 (Or.inr (diamond_edge.2 (by omega))), fun h4 => ?_⟩
  rcases h3 4 h4 with h | h
  · rcases h with h | h <;> have := diamond_edge.1 h <;> omega
  · rcases Relation.ReflTransGen.cases_tail h with h | ⟨c, -, h⟩
    · cases h
    · have := diamond_edge.1 h; omega

/-! ## C22 -/

/-- Run a sequence of `add(value, *elements)` calls on a fresh cache. (Specification.) -/
def addAll {ν : Type} (calls : List (ν × List Nat)) : SetCache ν :=
  calls.foldl (fun c call => c.add call.1 call.2) []

/-- C22.  After any history of additions, a lookup returns the value of the last addition
whose elements are, as a set, the requested ones; without such an addition the key is not
contained and `get` raises `KeyError`. -/
theorem setcache_lookup {ν : Type} (calls : List (ν × List Nat)) (elements : List Nat) :
    (∀ pre v els post, calls = pre ++ (v, els) :: post → (∀ x, x ∈ els ↔ x ∈ elements) →
      (∀ call ∈ post, ¬ ∀ x, x ∈ call.2 ↔ x ∈ elements) →
      (addAll calls).get elements = .ok v ∧ (addAll calls).contains elements = true) ∧
    ((∀ call ∈ calls, ¬ ∀ x, x ∈ call.2 ↔ x ∈ elements) →
      (addAll calls).get elements = .error .keyError ∧
      (addAll calls).contains elements = false) := by
  have hskip : ∀ (post : List (ν × List Nat)) (c : SetCache ν),
      (∀ call ∈ post, ¬ ∀ x, x ∈ call.2 ↔ x ∈ elements) →
      dictGet (post.foldl (fun c call => SetCache.add c call.1 call.2) c) (fkey elements) =
        dictGet c (fkey elements) := by
    intro post
    induction post with
    | nil => intro c _; rfl
    | cons call post ih =>
      intro c hp
      rw [List.foldl_cons, ih _ (fun c' hc' => hp c' (by simp [hc']))]
      rw [SetCache.add, dictGet_dictSet, if_neg]
      intro hk
      exact hp call (by simp) (fkey_eq_iff.1 hk)
  constructor
  · rintro pre v els post rfl hels hpost
    have hg : dictGet (addAll (pre ++ (v, els) :: post)) (fkey elements) = some v := by
      rw [addAll, List.foldl_append, List.foldl_cons, hskip _ _ hpost]
      rw [SetCache.add, dictGet_dictSet, if_pos (fkey_eq_iff.2 hels)]
    exact ⟨by simp [SetCache.get, hg], by simp [SetCache.contains, hg]⟩
  · intro hc
    have hg : dictGet (addAll calls) (fkey elements) = none := by
      rw [addAll, hskip _ _ hc]; rfl
    exact ⟨by simp [SetCache.get, hg], by simp [SetCache.contains, hg]⟩

/-- C22.  Keys that are equal as sets are interchangeable. -/
theorem setcache_order_insensitive {ν : Type} (c : SetCache ν) (els els' : List Nat)
    (h : ∀ x, x ∈ els ↔ x ∈ els') :
    c.get els = c.get els' ∧ c.contains els = c.contains els' := by
  have := fkey_eq_iff.2 h
  simp [SetCache.get, SetCache.contains, this]

example : (addAll [("a", [1, 2]), ("b", [3, 1]), ("c", [2, 1, 1])]).get [1, 2] = .ok "c" := by
  decide +kernel

end Mbtk.MB
