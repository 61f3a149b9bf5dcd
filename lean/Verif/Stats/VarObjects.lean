import Verif.Py
import Mathlib.Data.List.Sort
import Mathlib.Data.List.Lex
import Mathlib.Data.List.Dedup
import Mathlib.Data.Prod.Lex
/-!
# Variable objects: lazy loading, joint variables, index variables (C107)

`mbtk/math/Variable.py`.  Variables are objects that several joint variables can share, so that there is a heap.
A loader is an arbitrary Python function without arguments: it may return something else at each call, also
`None` (but loaders that raise are not modelled).  Values are integers.
-/
namespace Mbtk.Stats.VarObjects

/-! ## Model -/

/-- A plain `Variable`: Variable.py 12-17.  `loader k` is what the loader returns at its `k`-th call (from 0),
`calls` how often it was called. -/
structure Obj where
  id : Int
  inst : Option (List Int)
  loader : Option (Nat → Option (List Int))
  calls : Nat
  values : Option (List Int)

/-- The variables that exist. (Python itself.) -/
abbrev Heap := Nat → Obj

/-- Assign to an object. (Python itself.) -/
def Heap.set (h : Heap) (v : Nat) (o : Obj) : Heap := fun w => if w = v then o else h w

/-- `load_instances()`: Variable.py 34-36. -/
def Obj.load (o : Obj) : Obj :=
  match o.loader with
  | none => o
  | some f => { o with inst := f o.calls, calls := o.calls + 1 }

/-- `instances()`: Variable.py 28-31. -/
def Obj.read (o : Obj) : Obj :=
  match o.inst with
  | none => o.load
  | some _ => o

/-- `sorted(list(Counter(instances).keys()))`: Variable.py 41. -/
def sortedDistinct {α : Type} [LinearOrder α] (l : List α) : List α := l.dedup.insertionSort (· ≤ ·)

/-- `variable.instances()` of a plain variable: Variable.py 28-31. -/
def instances (h : Heap) (v : Nat) : Heap × Option (List Int) :=
  let o := (h v).read
  (h.set v o, o.inst)

/-- `len(variable)`: Variable.py 20-21; `len(None)` is a `TypeError`. -/
def len (h : Heap) (v : Nat) : Heap × Except Err Nat :=
  let p := instances h v
  (p.1, match p.2 with | none => .error .typeError | some l => .ok l.length)

/-- `variable.update_values()`: Variable.py 39-41; `self.instances is not None` is a method and always there,
and `Counter(None)` is empty. -/
def updateValues (h : Heap) (v : Nat) : Heap :=
  let p := instances h v
  p.1.set v { p.1 v with values := some (sortedDistinct (p.2.getD [])) }

/-- What the arguments of `JointVariables` can be: Variable.py 8, 45, 64, 118, 126. -/
inductive Arg where
  | plain (v : Nat)
  | joint (vs : List Nat)
  | omega (count : Nat)
  | index (source : Nat)

/-- `flatten_variables_list`: Variable.py 103-110 (`type(variable) == ...`, so that the other classes match
neither test). -/
def flatten : List Arg → List Nat
  | [] => []
  | .plain v :: rest => v :: flatten rest
  | .joint vs :: rest => vs ++ flatten rest
  | _ :: rest => flatten rest

/-- `[len(var) for var in variables]`: Variable.py 151. -/
def lengths (h : Heap) : List Nat → Heap × Except Err (List Nat)
  | [] => (h, .ok [])
  | v :: vs => match len h v with
    | (h, .error e) => (h, .error e)
    | (h, .ok n) => match lengths h vs with
      | (h, .error e) => (h, .error e)
      | (h, .ok ns) => (h, .ok (n :: ns))

/-- The comparison of neighbours: Variable.py 152-154. -/
def neighboursEqual : List Nat → Bool
  | a :: b :: rest => a == b && neighboursEqual (b :: rest)
  | _ => true

/-- `JointVariables(*variables)`: Variable.py 66-78, 96-100, 113-114, 150-154.  The result is the list
`self.variables`. -/
def newJoint (h : Heap) (args : List Arg) : Heap × Except Err (List Nat) :=
  let vs := flatten args
  if vs.all (fun v => (h v).inst.isSome) then
    match lengths h vs with
    | (h, .error e) => (h, .error e)
    | (h, .ok ns) => if neighboursEqual ns then (h, .ok vs) else (h, .error (.custom "VariableInstancesOfUnequalCount"))
  else (h, .ok vs)

/-- `[var.instances() for var in self.variables]`: Variable.py 89. -/
def readAll (h : Heap) : List Nat → Heap × List (Option (List Int))
  | [] => (h, [])
  | v :: vs =>
    let p := instances h v
    let q := readAll p.1 vs
    (q.1, p.2 :: q.2)

/-- The columns, or `TypeError` if one of them is `None` and not iterable: Variable.py 89. -/
def columnsOf : List (Option (List Int)) → Except Err (List (List Int))
  | [] => .ok []
  | none :: _ => .error .typeError
  | some c :: rest => match columnsOf rest with
    | .error e => .error e
    | .ok cs => .ok (c :: cs)

/-- `zip(*columns)`, for at least one column: it stops at the end of the shortest column. Variable.py 89. -/
def zipRows : List (List Int) → List (List Int)
  | [] => []
  | [c] => c.map (fun v => [v])
  | c :: rest => List.zipWith (· :: ·) c (zipRows rest)

/-- What `instances()` of a joint variable gives: the instances of the variable itself if there is only one (a
list or `None`), else tuples. Variable.py 86-89. -/
inductive JointRows where
  | same (l : Option (List Int))
  | tuples (l : List (List Int))
  deriving DecidableEq, Repr

/-- `instances()` of `JointVariables`: Variable.py 86-89. -/
def jointInstances (h : Heap) (vs : List Nat) : Heap × Except Err JointRows :=
  match vs with
  | [v] => let p := instances h v; (p.1, .ok (.same p.2))
  | vs =>
    let p := readAll h vs
    (p.1, match columnsOf p.2 with | .error e => .error e | .ok cs => .ok (.tuples (zipRows cs)))

/-- `len` of `JointVariables`: Variable.py 92-93. -/
def jointLen (h : Heap) : List Nat → Heap × Except Err Nat
  | [] => (h, .error .indexError)
  | v :: _ => len h v

/-- `SortedJointVariables(*variables)`: Variable.py 120-122; the second argument of `sorted` is keyword-only. -/
def newSorted (h : Heap) (_args : List Arg) : Heap × Except Err (List Nat) := (h, .error .typeError)

/-- An `IndexVariable`: Variable.py 126-146. -/
structure Index where
  id : Int
  values : Option (List Nat)
  valuesIndex : Option (List (Nat × Int))

/-- `IndexVariable(variable)`: Variable.py 128-146; `dict(enumerate(values))` has the keys 0, 1, .... -/
def newIndex (h : Heap) (v : Nat) : Index :=
  match (h v).values with
  | none => ⟨(h v).id, none, none⟩
  | some vals => ⟨(h v).id, some (List.range vals.length), some ((List.range vals.length).zip vals)⟩

/-- Everything that a program can do with the variables. Variable.py 20-41, 66-114. -/
inductive Use where
  | instances (v : Nat)
  | len (v : Nat)
  | updateValues (v : Nat)
  | newJoint (args : List Arg)
  | jointInstances (vs : List Nat)
  | jointLen (vs : List Nat)

/-- The effect on the variables. Variable.py 20-41, 66-114. -/
def Use.run (h : Heap) : Use → Heap
  | .instances v => (VarObjects.instances h v).1
  | .len v => (VarObjects.len h v).1
  | .updateValues v => VarObjects.updateValues h v
  | .newJoint args => (VarObjects.newJoint h args).1
  | .jointInstances vs => (VarObjects.jointInstances h vs).1
  | .jointLen vs => (VarObjects.jointLen h vs).1

/-- A history. Variable.py 20-41, 66-114. -/
def runAll (h : Heap) (us : List Use) : Heap := us.foldl Use.run h

/-! ## Lazy loading -/

/-- How a variable can have changed: its ID and its loader are the same; if it had a list, that is the same and
the loader was not called; otherwise the loader was called some more times, always returned `None` but for
the last time, and the list is what it returned then. (Specification.) -/
structure Later (a b : Obj) : Prop where
  id : b.id = a.id
  loader : b.loader = a.loader
  kept : ∀ l, a.inst = some l → b.inst = some l ∧ b.calls = a.calls
  calls : a.calls ≤ b.calls
  noLoader : a.loader = none → b.inst = a.inst ∧ b.calls = a.calls
  tried : ∀ f, a.loader = some f → a.inst = none →
    (b.calls = a.calls ∧ b.inst = none) ∨ (a.calls < b.calls ∧ b.inst = f (b.calls - 1))
  failed : ∀ f, a.loader = some f → a.inst = none → ∀ k, a.calls ≤ k → k + 1 < b.calls → f k = none

theorem Later.refl (a : Obj) : Later a a :=
  ⟨rfl, rfl, fun _ h => ⟨h, rfl⟩, Nat.le_refl _, fun _ => ⟨rfl, rfl⟩, fun _ _ h => .inl ⟨rfl, h⟩,
    fun _ _ _ k h1 h2 => by omega⟩

theorem Later.trans {a b c : Obj} (h1 : Later a b) (h2 : Later b c) : Later a c := by
  refine ⟨h2.id.trans h1.id, h2.loader.trans h1.loader, ?_, h1.calls.trans h2.calls, ?_, ?_, ?_⟩
  · intro l h
    obtain ⟨a1, a2⟩ := h1.kept l h
    obtain ⟨b1, b2⟩ := h2.kept l a1
    exact ⟨b1, b2.trans a2⟩
  · intro h
    obtain ⟨a1, a2⟩ := h1.noLoader h
    obtain ⟨b1, b2⟩ := h2.noLoader (h1.loader.trans h)
    exact ⟨b1.trans a1, b2.trans a2⟩
  · intro f hf hi
    have hf' : b.loader = some f := h1.loader.trans hf
    cases hb : b.inst with
    | none =>
      rcases h2.tried f hf' hb with ⟨e1, e2⟩ | ⟨e1, e2⟩
      · rcases h1.tried f hf hi with ⟨d1, d2⟩ | ⟨d1, d2⟩
        · exact .inl ⟨by omega, e2⟩
        · exact .inr ⟨by omega, by rw [e2, e1, ← d2, hb]⟩
      · exact .inr ⟨by have := h1.calls; omega, e2⟩
    | some l =>
      obtain ⟨e1, e2⟩ := h2.kept l hb
      rcases h1.tried f hf hi with ⟨d1, d2⟩ | ⟨d1, d2⟩
      · rw [hb] at d2; cases d2
      · exact .inr ⟨by omega, by rw [e1, e2, ← d2, hb]⟩
  · intro f hf hi k hk1 hk2
    have hf' : b.loader = some f := h1.loader.trans hf
    by_cases hkb : k + 1 < b.calls
    · exact h1.failed f hf hi k hk1 hkb
    · cases hb : b.inst with
      | none =>
        rcases h1.tried f hf hi with ⟨d1, d2⟩ | ⟨d1, d2⟩
        · exact h2.failed f hf' hb k (by omega) hk2
        · by_cases hke : k + 1 = b.calls
          · rw [← hke, Nat.add_sub_cancel, hb] at d2
            exact d2.symm
          · exact h2.failed f hf' hb k (by omega) hk2
      | some l =>
        have := (h2.kept l hb).2
        omega

theorem later_load (o : Obj) (h : o.inst = none) : Later o o.load := by
  unfold Obj.load
  cases hl : o.loader with
  | none => exact Later.refl o
  | some f =>
    refine ⟨rfl, ?_, ?_, Nat.le_succ _, ?_, ?_, ?_⟩
    · exact hl.symm
    · intro l hl'; rw [h] at hl'; cases hl'
    · intro hn; rw [hl] at hn; cases hn
    · intro g hg _
      rw [hl] at hg; cases hg
      exact .inr ⟨Nat.lt_succ_self _, by simp⟩
    · intro g _ _ k h1 h2
      simp only at h2
      omega

theorem later_read (o : Obj) : Later o o.read := by
  unfold Obj.read
  cases h : o.inst with
  | none => exact later_load o h
  | some l => exact Later.refl o

/-- All variables. (Models no code: a notion for statements and proofs.) -/
def LaterAll (a b : Heap) : Prop := ∀ v, Later (a v) (b v)

theorem LaterAll.trans {a b c : Heap} (h1 : LaterAll a b) (h2 : LaterAll b c) : LaterAll a c :=
  fun v => (h1 v).trans (h2 v)

theorem LaterAll.refl (a : Heap) : LaterAll a a := fun v => Later.refl (a v)

theorem later_set (h : Heap) (v : Nat) (o : Obj) (ho : Later (h v) o) : LaterAll h (h.set v o) := by
  intro w
  unfold Heap.set
  by_cases hw : w = v
  · rw [if_pos hw, hw]; exact ho
  · rw [if_neg hw]; exact Later.refl _

theorem later_instances (h : Heap) (v : Nat) : LaterAll h (instances h v).1 :=
  later_set h v _ (later_read _)

theorem later_len (h : Heap) (v : Nat) : LaterAll h (len h v).1 := later_instances h v

theorem later_values (o : Obj) (vals : Option (List Int)) : Later o { o with values := vals } :=
  ⟨rfl, rfl, fun _ h => ⟨h, rfl⟩, Nat.le_refl _, fun _ => ⟨rfl, rfl⟩, fun _ _ h => .inl ⟨rfl, h⟩,
    fun _ _ _ k h1 h2 => by simp only at h2; omega⟩

theorem later_updateValues (h : Heap) (v : Nat) : LaterAll h (updateValues h v) :=
  (later_instances h v).trans (later_set _ v _ (later_values _ _))

theorem later_lengths (h : Heap) (vs : List Nat) : LaterAll h (lengths h vs).1 := by
  induction vs generalizing h with
  | nil => exact LaterAll.refl h
  | cons v vs ih =>
    have h1 := later_len h v
    rw [lengths]
    generalize len h v = p at h1
    obtain ⟨h', r⟩ := p
    cases r with
    | error e => exact h1
    | ok n =>
      have h2 := ih h'
      simp only []
      generalize lengths h' vs = q at h2
      obtain ⟨h'', r⟩ := q
      cases r <;> exact h1.trans h2

theorem later_newJoint (h : Heap) (args : List Arg) : LaterAll h (newJoint h args).1 := by
  unfold newJoint
  simp only []
  by_cases hc : ((flatten args).all (fun v => (h v).inst.isSome)) = true
  · rw [if_pos hc]
    have := later_lengths h (flatten args)
    generalize lengths h (flatten args) = p at this
    obtain ⟨h', r⟩ := p
    cases r with
    | error e => exact this
    | ok ns =>
      simp only []
      split <;> exact this
  · rw [if_neg hc]; exact LaterAll.refl h

theorem later_readAll (h : Heap) (vs : List Nat) : LaterAll h (readAll h vs).1 := by
  induction vs generalizing h with
  | nil => exact LaterAll.refl h
  | cons v vs ih => exact (later_instances h v).trans (ih _)

theorem later_jointInstances (h : Heap) (vs : List Nat) : LaterAll h (jointInstances h vs).1 := by
  match vs with
  | [] => exact later_readAll h []
  | [v] => exact later_instances h v
  | v :: w :: rest => exact later_readAll h (v :: w :: rest)

theorem later_jointLen (h : Heap) (vs : List Nat) : LaterAll h (jointLen h vs).1 := by
  cases vs with
  | nil => exact LaterAll.refl h
  | cons v vs => exact later_len h v

/-- **C107.**  Whatever a program does with variables and joint variables that share them, in any order: a
variable that has its list keeps it and its loader is not called any more; one that has none calls its
loader until the first call that does not return `None`, and keeps what that call returned. -/
theorem lazy_loading (h : Heap) (us : List Use) (v : Nat) : Later (h v) (runAll h us v) := by
  unfold runAll
  have : LaterAll h (us.foldl Use.run h) := by
    induction us generalizing h with
    | nil => exact LaterAll.refl h
    | cons u us ih =>
      have h1 : LaterAll h (u.run h) := by
        cases u with
        | instances v => exact later_instances h v
        | len v => exact later_len h v
        | updateValues v => exact later_updateValues h v
        | newJoint args => exact later_newJoint h args
        | jointInstances vs => exact later_jointInstances h vs
        | jointLen vs => exact later_jointLen h vs
      exact h1.trans (ih _)
  exact this v

/-- **C107.**  What one read does: a variable with a list gives the list; one without a list and without a loader
gives `None`; one with a loader calls it exactly once more and gives what it returns. -/
theorem read_exact (h : Heap) (v : Nat) :
    (∀ l, (h v).inst = some l → (instances h v).2 = some l ∧ ((instances h v).1 v).calls = (h v).calls) ∧
    ((h v).inst = none → (h v).loader = none → (instances h v).2 = none ∧ ((instances h v).1 v).calls = (h v).calls) ∧
    (∀ f, (h v).inst = none → (h v).loader = some f →
      (instances h v).2 = f (h v).calls ∧ ((instances h v).1 v).calls = (h v).calls + 1) ∧
    ((instances h v).1 v).inst = (instances h v).2 ∧ ∀ w, w ≠ v → (instances h v).1 w = h w := by
  refine ⟨?_, ?_, ?_, ?_, ?_⟩
  · intro l hl; simp [instances, Obj.read, Heap.set, hl]
  · intro hi hl; simp [instances, Obj.read, Obj.load, Heap.set, hi, hl]
  · intro f hi hl; simp [instances, Obj.read, Obj.load, Heap.set, hi, hl]
  · simp [instances, Heap.set]
  · intro w hw; simp [instances, Heap.set, hw]

/-- **C107.**  All readers of a variable see the same list, whenever they read it. -/
theorem readers_agree (h : Heap) (us us' : List Use) (v : Nat) (l l' : List Int)
    (h1 : (instances (runAll h us) v).2 = some l)
    (h2 : (instances (runAll (instances (runAll h us) v).1 us') v).2 = some l') : l = l' := by
  have a1 : ((instances (runAll h us) v).1 v).inst = some l := by
    simpa [instances, Heap.set] using h1
  have a2 := ((lazy_loading (instances (runAll h us) v).1 us' v).trans
    (later_instances (runAll (instances (runAll h us) v).1 us') v v)).kept l a1
  have a3 : ((instances (runAll (instances (runAll h us) v).1 us') v).1 v).inst = some l' := by
    simpa [instances, Heap.set] using h2
  have := a2.1.symm.trans a3
  simpa using this

/-! ## Values -/

/-- **C107.**  `update_values()` sets `values` to the distinct values of the instances in increasing order (no
values at all for a variable without instances). -/
theorem update_values_exact (h : Heap) (v : Nat) :
    ∃ vals, (updateValues h v v).values = some vals ∧ vals.Pairwise (· < ·) ∧
      ∀ x, x ∈ vals ↔ ∃ l, (updateValues h v v).inst = some l ∧ x ∈ l := by
  refine ⟨sortedDistinct ((instances h v).2.getD []), ?_, ?_, ?_⟩
  · simp [updateValues, Heap.set]
  · unfold sortedDistinct
    have h1 := List.pairwise_insertionSort (· ≤ ·) (((instances h v).2.getD []).dedup)
    have h2 : (List.insertionSort (· ≤ ·) (((instances h v).2.getD []).dedup)).Nodup :=
      (List.perm_insertionSort (· ≤ ·) _).nodup_iff.2 (List.nodup_dedup _)
    exact (h1.and h2).imp (fun h => lt_of_le_of_ne h.1 h.2)
  · intro x
    have e : (updateValues h v v).inst = (instances h v).2 := by
      simp [updateValues, instances, Heap.set]
    rw [e]
    unfold sortedDistinct
    rw [(List.perm_insertionSort (· ≤ ·) _).mem_iff, List.mem_dedup]
    cases (instances h v).2 <;> simp

/-! ## Joint variables -/

/-- **C107.**  The members of a joint variable are the plain variables among the arguments and the members of
the joint variables among them, in order; `Ω` and index variables are dropped silently, and nesting does not
matter. -/
theorem joint_members (h : Heap) (args : List Arg) (vs : List Nat) (hv : (newJoint h args).2 = .ok vs) :
    vs = (args.map (fun a => match a with | .plain v => [v] | .joint vs => vs | .omega _ => [] | .index _ => [])).flatten := by
  have e : vs = flatten args := by
    unfold newJoint at hv
    simp only [] at hv
    split at hv
    · generalize lengths h (flatten args) = p at hv
      obtain ⟨h', r⟩ := p
      cases r with
      | error e => cases hv
      | ok ns =>
        simp only [] at hv
        split at hv
        · cases hv; rfl
        · cases hv
    · cases hv; rfl
  rw [e]
  clear e hv
  induction args with
  | nil => rfl
  | cons a args ih =>
    cases a <;> simp [flatten, ih]

theorem neighboursEqual_iff (ns : List Nat) : neighboursEqual ns = true ↔ ∀ a ∈ ns, ∀ b ∈ ns, a = b := by
  fun_induction neighboursEqual ns with
  | case1 a b rest ih =>
    rw [Bool.and_eq_true, beq_iff_eq, ih]
    constructor
    · rintro ⟨rfl, h⟩ x hx y hy
      have hx' : x ∈ a :: rest := by
        rcases List.mem_cons.1 hx with rfl | hx
        · simp
        · exact hx
      have hy' : y ∈ a :: rest := by
        rcases List.mem_cons.1 hy with rfl | hy
        · simp
        · exact hy
      exact h x hx' y hy'
    · intro h
      exact ⟨h a (by simp) b (by simp), fun x hx y hy => h x (List.mem_cons_of_mem _ hx) y (List.mem_cons_of_mem _ hy)⟩
  | case2 ns hns =>
    match ns, hns with
    | [], _ => simp
    | [a], _ => simp
    | a :: b :: rest, hns => exact absurd rfl (hns a b rest)

theorem lengths_loaded (h : Heap) (vs : List Nat) (hl : ∀ v ∈ vs, ∃ l, (h v).inst = some l) :
    ∃ h', lengths h vs = (h', .ok (vs.map (fun v => ((h v).inst.getD []).length))) := by
  have same : ∀ (h : Heap) (v : Nat) (l : List Int), (h v).inst = some l → instances h v = (h, some l) := by
    intro h v l hl
    have : (h v).read = h v := by unfold Obj.read; rw [hl]
    have e : h.set v (h v) = h := by
      funext w
      unfold Heap.set
      split
      · rename_i hw; rw [hw]
      · rfl
    unfold instances
    simp only [this, e, hl]
  induction vs with
  | nil => exact ⟨h, rfl⟩
  | cons v vs ih =>
    obtain ⟨l, hv⟩ := hl v (by simp)
    obtain ⟨h', hh'⟩ := ih (fun w hw => hl w (by simp [hw]))
    refine ⟨h', ?_⟩
    rw [lengths]
    have : len h v = (h, .ok l.length) := by unfold len; rw [same h v l hv]
    rw [this]
    simp only [hh', List.map_cons, hv, Option.getD_some]

/-- **C107.**  Constructing a joint variable fails only if all its members have their lists and two of these
have different lengths; then it raises `VariableInstancesOfUnequalCount`.  If one member is not loaded yet,
nothing is checked. -/
theorem joint_construction (h : Heap) (args : List Arg) :
    ((newJoint h args).2 = .ok (flatten args) ∧
      ((∀ v ∈ flatten args, (h v).inst ≠ none) →
        ∀ v ∈ flatten args, ∀ w ∈ flatten args, ∀ l l', (h v).inst = some l → (h w).inst = some l' → l.length = l'.length)) ∨
    ((newJoint h args).2 = .error (.custom "VariableInstancesOfUnequalCount") ∧
      (∀ v ∈ flatten args, (h v).inst ≠ none) ∧
      ∃ v ∈ flatten args, ∃ w ∈ flatten args, ∃ l l', (h v).inst = some l ∧ (h w).inst = some l' ∧ l.length ≠ l'.length) := by
  unfold newJoint
  simp only []
  by_cases hc : ((flatten args).all (fun v => (h v).inst.isSome)) = true
  · rw [if_pos hc]
    rw [List.all_eq_true] at hc
    have hall : ∀ v ∈ flatten args, ∃ l, (h v).inst = some l := fun v hv => Option.isSome_iff_exists.1 (hc v hv)
    obtain ⟨h', e⟩ := lengths_loaded h (flatten args) hall
    rw [e]
    simp only []
    by_cases hn : neighboursEqual ((flatten args).map (fun v => ((h v).inst.getD []).length)) = true
    · left
      rw [if_pos hn]
      refine ⟨rfl, fun _ v hv w hw l l' h1 h2 => ?_⟩
      rw [neighboursEqual_iff] at hn
      have := hn _ (List.mem_map.2 ⟨v, hv, rfl⟩) _ (List.mem_map.2 ⟨w, hw, rfl⟩)
      simpa [h1, h2] using this
    · right
      rw [if_neg hn]
      refine ⟨rfl, fun v hv => ?_, ?_⟩
      · obtain ⟨l, hl⟩ := hall v hv; rw [hl]; simp
      · rw [neighboursEqual_iff] at hn
        push Not at hn
        obtain ⟨a, ha, b, hb, hab⟩ := hn
        obtain ⟨v, hv, rfl⟩ := List.mem_map.1 ha
        obtain ⟨w, hw, rfl⟩ := List.mem_map.1 hb
        obtain ⟨l, hl⟩ := hall v hv
        obtain ⟨l', hl'⟩ := hall w hw
        exact ⟨v, hv, w, hw, l, l', hl, hl', by simpa [hl, hl'] using hab⟩
  · rw [if_neg hc]
    left
    refine ⟨rfl, fun hall => ?_⟩
    refine absurd (List.all_eq_true.2 fun v hv => ?_) hc
    exact Option.isSome_iff_ne_none.2 (hall v hv)

theorem zipRows_get (cs : List (List Int)) (hc : cs ≠ []) (i : Nat) :
    (zipRows cs)[i]? = if ∀ c ∈ cs, i < c.length then some (cs.map (fun c => c.getD i 0)) else none := by
  induction cs with
  | nil => exact absurd rfl hc
  | cons c rest ih =>
    cases rest with
    | nil =>
      rw [zipRows, List.getElem?_map]
      by_cases hi : i < c.length
      · rw [if_pos (by simpa using hi)]
        simp [hi]
      · rw [if_neg (by simpa using hi)]
        simp [List.getElem?_eq_none (by omega : c.length ≤ i)]
    | cons d rest =>
      rw [zipRows, List.getElem?_zipWith, ih (by simp)]
      by_cases hi : i < c.length
      · by_cases hr : ∀ c ∈ d :: rest, i < c.length
        · rw [if_pos hr, if_pos (by intro x hx; rcases List.mem_cons.1 hx with rfl | hx; exact hi; exact hr x hx)]
          simp [hi]
        · rw [if_neg hr, if_neg (fun h => hr (fun x hx => h x (List.mem_cons_of_mem _ hx)))]
          simp [hi]
      · rw [if_neg (fun h : ∀ x ∈ c :: d :: rest, i < x.length => hi (h c (by simp)))]
        simp [List.getElem?_eq_none (by omega : c.length ≤ i)]
      · simp

theorem columnsOf_ok {os : List (Option (List Int))} {cs : List (List Int)} (h : columnsOf os = .ok cs) : os = cs.map some := by
  induction os generalizing cs with
  | nil => cases h; rfl
  | cons o os ih =>
    cases o with
    | none => cases h
    | some c =>
      rw [columnsOf] at h
      cases hr : columnsOf os with
      | error e => rw [hr] at h; cases h
      | ok r =>
        rw [hr] at h
        cases h
        rw [ih hr]; rfl

theorem readAll_values (h : Heap) (vs : List Nat) (hn : vs.Nodup) :
    (readAll h vs).2 = vs.map (fun v => ((h v).read).inst) := by
  have : ∀ (h : Heap) (vs : List Nat), vs.Nodup → (readAll h vs).2 = vs.map (fun v => ((h v).read).inst) := by
    intro h vs
    induction vs generalizing h with
    | nil => intro _; rfl
    | cons v vs ih =>
      intro hn
      obtain ⟨h1, h2⟩ := List.nodup_cons.1 hn
      rw [readAll]
      simp only []
      rw [ih _ h2]
      simp only [List.map_cons]
      congr 1
      apply List.map_congr_left
      intro w hw
      have : w ≠ v := fun e => h1 (e ▸ hw)
      simp [instances, Heap.set, this]
  exact this h vs hn

/-- **C107.**  The instances of a joint variable of at least two different members: `TypeError` if one of them
has none even after loading; else row `i` is the tuple of the `i`-th instances of the members, for every `i`
below the lengths of all of them (longer members are cut off without an error). -/
theorem joint_rows (h : Heap) (v w : Nat) (rest : List Nat) (hn : (v :: w :: rest).Nodup) :
    ((jointInstances h (v :: w :: rest)).2 = .error .typeError ∧
      ∃ u ∈ v :: w :: rest, (h u).read.inst = none) ∨
    ∃ rows, (jointInstances h (v :: w :: rest)).2 = .ok (.tuples rows) ∧
      (∀ u ∈ v :: w :: rest, (h u).read.inst ≠ none) ∧
      ∀ i, rows[i]? = if ∀ u ∈ v :: w :: rest, i < ((h u).read.inst.getD []).length
        then some ((v :: w :: rest).map (fun u => ((h u).read.inst.getD []).getD i 0)) else none := by
  unfold jointInstances
  simp only []
  rw [readAll_values h _ hn]
  have hvs : v :: w :: rest ≠ [] := by simp
  generalize v :: w :: rest = vs at *
  cases hc : columnsOf (vs.map (fun v => ((h v).read).inst)) with
  | error e =>
    left
    have : ∀ (os : List (Option (List Int))) (e : Err), columnsOf os = .error e → e = .typeError ∧ none ∈ os := by
      intro os
      induction os with
      | nil => intro e h; cases h
      | cons o os ih =>
        intro e h
        cases o with
        | none => cases h; exact ⟨rfl, by simp⟩
        | some c =>
          rw [columnsOf] at h
          cases hr : columnsOf os with
          | error e' =>
            rw [hr] at h
            cases h
            exact ⟨(ih _ hr).1, List.mem_cons_of_mem _ (ih _ hr).2⟩
          | ok r => rw [hr] at h; cases h
    obtain ⟨rfl, hm⟩ := this _ _ hc
    obtain ⟨u, hu, he⟩ := List.mem_map.1 hm
    exact ⟨rfl, u, hu, he⟩
  | ok cs =>
    right
    have hm := columnsOf_ok hc
    have hcs : cs = vs.map (fun u => (h u).read.inst.getD []) := by
      have h1 := congrArg (List.map (fun o : Option (List Int) => o.getD [])) hm
      simpa [Function.comp_def] using h1.symm
    refine ⟨zipRows cs, rfl, ?_, ?_⟩
    · intro u hu he
      have : none ∈ vs.map (fun v => ((h v).read).inst) := List.mem_map.2 ⟨u, hu, he⟩
      rw [hm] at this
      simp at this
    · intro i
      rw [zipRows_get cs (by rw [hcs]; simpa using hvs) i, hcs]
      simp [Function.comp_def]

/-- **C107.**  A joint variable of one member has the instances of that member itself; one without members (for
instance of `Ω` alone) has no rows, and `len` of it raises `IndexError`. -/
theorem joint_degenerate (h : Heap) (v count : Nat) :
    (jointInstances h [v]).2 = .ok (.same (h v).read.inst) ∧
    (newJoint h [.omega count]).2 = .ok [] ∧ (jointInstances h []).2 = .ok (.tuples []) ∧
    (jointLen h []).2 = .error .indexError :=
  ⟨rfl, rfl, rfl, rfl⟩

/-- **C107 (finding).**  `SortedJointVariables(...)` raises `TypeError` for all arguments. -/
theorem sorted_joint_never (h : Heap) (args : List Arg) : (newSorted h args).2 = .error .typeError := rfl

/-- **C107.**  The values of an index variable are the positions of the values of its source, and `values_index`
maps each position to that value; without values of the source it has none. -/
theorem index_variable (h : Heap) (v : Nat) :
    (newIndex h v).id = (h v).id ∧
    ((h v).values = none → (newIndex h v).values = none ∧ (newIndex h v).valuesIndex = none) ∧
    ∀ vals, (h v).values = some vals →
      (newIndex h v).values = some (List.range vals.length) ∧
      ∃ d, (newIndex h v).valuesIndex = some d ∧ (d.map Prod.fst) = List.range vals.length ∧
        ∀ i x, (i, x) ∈ d ↔ vals[i]? = some x := by
  unfold newIndex
  cases hv : (h v).values with
  | none => exact ⟨rfl, fun _ => ⟨rfl, rfl⟩, nofun⟩
  | some vals =>
    refine ⟨rfl, nofun, ?_⟩
    intro vals' hv'
    cases hv'
    refine ⟨rfl, _, rfl, ?_, ?_⟩
    · rw [List.map_fst_zip (by simp)]
    · intro i x
      rw [List.mem_iff_getElem?]
      constructor
      · rintro ⟨k, hk⟩
        rw [List.getElem?_zip_eq_some] at hk
        obtain ⟨h1, h2⟩ := hk
        have : k = i := by
          have := List.getElem?_range (n := vals.length) (i := k)
          by_cases hk : k < vals.length
          · rw [this hk] at h1; simpa using h1
          · rw [List.getElem?_eq_none (by simpa using hk)] at h1; cases h1
        subst this
        exact h2
      · intro hx
        refine ⟨i, ?_⟩
        rw [List.getElem?_zip_eq_some]
        refine ⟨?_, hx⟩
        have hi : i < vals.length := by
          by_contra hn
          rw [List.getElem?_eq_none (by omega)] at hx
          cases hx
        exact List.getElem?_range hi

/-! ## Examples -/

/-- (Example.) Variable 0 has a list; variable 1 has a loader that returns `None` once, then different lists;
variable 2 has neither. -/
def exHeap : Heap := fun v =>
  if v = 0 then ⟨7, some [2, 1, 2], none, 0, none⟩
  else if v = 1 then ⟨8, none, some (fun k => if k = 0 then none else some [5, (k : Int)]), 0, none⟩
  else ⟨9, none, none, 0, none⟩

example : (runAll exHeap [.instances 1, .jointInstances [0, 1], .len 1, .updateValues 1] 1).inst = some [5, 1] ∧
    (runAll exHeap [.instances 1, .jointInstances [0, 1], .len 1, .updateValues 1] 1).calls = 2 := by decide +kernel

example : (jointInstances (runAll exHeap [.instances 1]) [0, 1]).2 = .ok (.tuples [[2, 5], [1, 1]]) := by decide +kernel

example : (jointInstances exHeap [0, 2]).2 = .error .typeError := by decide +kernel

example : (updateValues exHeap 0 0).values = some [1, 2] := by decide +kernel

example : (newJoint (runAll exHeap [.instances 1, .instances 1]) [.plain 0, .omega 3, .joint [1]]).2 =
    .error (.custom "VariableInstancesOfUnequalCount") := by decide +kernel

example : (newJoint exHeap [.plain 0, .omega 3, .joint [1]]).2 = .ok [0, 1] := by decide +kernel

end Mbtk.Stats.VarObjects
