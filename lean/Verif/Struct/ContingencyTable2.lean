import Verif.Struct.ContingencyTable
/-!
# The other operations of `mbtk/structures/ContingencyTable.py` (C103)

`duplicate`, `append`, `remove_leftmost_column` / `finalize` and `group_keys_by_columns`, on the tables
of `Struct/ContingencyTable.lean`.  After `remove_leftmost_column` a table with one column has plain
values as keys instead of tuples, so that its result has keys of another type here.
Not modelled: `__str__`; `append` of a table to itself.
-/
namespace Mbtk.Struct
open Mbtk Spec

/-! ## Model -/

/-- `duplicate()`: ContingencyTable.py 31-36.  (Values here are never shared, as in the code, where
the dictionary and the columns are copied.) -/
def CT.duplicate (t : CT) : CT := ⟨t.ct, t.columns, updateColumns t.columns true⟩

/-- A key of a table: a tuple, or a plain value. ContingencyTable.py 56-58. -/
inductive Key where
  | tuple (row : List Int)
  | plain (value : Int)
  deriving DecidableEq, Repr

/-- A table whose keys may be plain values. ContingencyTable.py 52-61. -/
structure Final where
  ct : List (Key × Int)
  columns : List Int
  index : List (Int × Nat)
  deriving DecidableEq, Repr

/-- The new key: ContingencyTable.py 56-58. -/
def tailKey (key : List Int) : Key :=
  match key.tail with
  | [v] => .plain v
  | row => .tuple row

/-- `remove_leftmost_column()`, `finalize()`: ContingencyTable.py 47-61. -/
def CT.removeLeftmost (t : CT) : Except Err Final :=
  if t.columns = [] then .error .indexError
  else .ok ⟨t.ct.foldl (fun n e => dictSet n (tailKey e.1) e.2) [], t.columns.tail,
    updateColumns t.columns.tail true⟩

/-- `__getitem__`, `get` afterwards: ContingencyTable.py 43-44, 90-94. -/
def Final.get (t : Final) (key : Key) : Int := (dictGet t.ct key).getD 0

/-- `(value,) + key`: ContingencyTable.py 101. -/
def Key.prepend (v : Int) : Key → Except Err Key
  | .tuple row => .ok (.tuple (v :: row))
  | .plain _ => .error .typeError

/-- `prepend_column(column, value)` afterwards: ContingencyTable.py 97-104. -/
def Final.prependColumn (t : Final) (c v : Int) : Except Err Final := do
  let entries ← t.ct.mapM (fun e => do
    let k ← e.1.prepend v
    pure (k, e.2))
  pure ⟨entries.foldl (fun n e => dictSet n e.1 e.2) [], c :: t.columns, updateColumns (c :: t.columns) true⟩

/-- The columns of `ct` that are new: ContingencyTable.py 165-168. -/
def mergeColumns (mine other : List Int) : List Int :=
  other.foldl (fun m c => if c ∈ m then m else m ++ [c]) mine

/-- `self.ct.update(ct.ct)`: ContingencyTable.py 171. -/
def updateAll (d other : Counts) : Counts := other.foldl (fun n e => dictSet n e.1 e.2) d

/-- `append(column, value, ct)`: the table and the argument `ct` afterwards (it gets the new column).
ContingencyTable.py 161-172. -/
def CT.append (t : CT) (column value : Option Int) (other : CT) : CT × CT :=
  match column, value with
  | some c, some v =>
    let o := other.prependColumn c v
    let cols := mergeColumns t.columns o.columns
    (⟨updateAll t.ct o.ct, cols, if cols ≠ t.columns then updateColumns cols true else t.index⟩, o)
  | _, _ => (⟨updateAll t.ct other.ct, t.columns, t.index⟩, other)

/-- A dictionary of dictionaries of keys: ContingencyTable.py 185. -/
abbrev Groups := List (List Int × List (List Int × List Int))

/-- `grouped_keys[subkey][complement_subkey] = key`, or a new group: ContingencyTable.py 190-193. -/
def Groups.put (g : Groups) (sub compl key : List Int) : Groups :=
  match dictGet g sub with
  | some d => dictSet g sub (dictSet d compl key)
  | none => dictSet g sub [(compl, key)]

/-- `[self.column_index[c] for c in columns]`: ContingencyTable.py 182-183. -/
def positions (index : List (Int × Nat)) (columns : List Int) : Except Err (List Nat) :=
  columns.mapM (fun c => match dictGet index c with
    | none => .error .keyError
    | some i => .ok i)

/-- `tuple([key[i] for i in indices])`: ContingencyTable.py 188-189. -/
def pick (key : List Int) (indices : List Nat) : Except Err (List Int) :=
  indices.mapM (fun i => match key[i]? with
    | none => .error .indexError
    | some v => .ok v)

/-- The loop over the rows: ContingencyTable.py 187-193. -/
def groupLoop (ix compl : List Nat) (g : Groups) : Counts → Except Err Groups
  | [] => .ok g
  | e :: es => do
    let sub ← pick e.1 ix
    let rest ← pick e.1 compl
    groupLoop ix compl (g.put sub rest e.1) es

/-- `group_keys_by_columns(columns)`: ContingencyTable.py 181-195. -/
def CT.groupKeys (t : CT) (columns : List Int) : Except Err Groups := do
  let ix ← positions t.index columns
  let compl ← positions t.index (t.columns.filter (· ∉ columns))
  groupLoop ix compl [] t.ct

/-! ## Specification -/

namespace Spec

/-- A key as a row of values. (Specification.) -/
def rowOf : Key → List Int
  | .tuple row => row
  | .plain v => [v]

/-- The number of instances that show the given values, for tables with keys of both types.
(Specification.) -/
def Final.countOf (t : Final) (given : List (Int × Int)) : Int :=
  ((t.ct.filter (fun e => Agrees t.columns (rowOf e.1) given)).map Prod.snd).sum

/-- The values of a row in the given columns. (Specification.) -/
def valuesIn (columns row : List Int) (wanted : List Int) : List Int :=
  wanted.map (fun c => ((columns.zip row).lookup c).getD 0)

end Spec

/-! ## `duplicate` -/

/-- **C103.**  `duplicate` has the same columns and counts. -/
theorem duplicate_same (t : CT) (hw : WellFormed t) :
    WellFormed t.duplicate ∧ t.duplicate.columns = t.columns ∧
      ∀ given, countOf t.duplicate given = countOf t given :=
  ⟨⟨hw.keys, hw.lengths, hw.columns⟩, rfl, fun _ => rfl⟩

/-- **C103.**  Its positions are right exactly if the columns are in increasing order, whatever those of
the original are. -/
theorem duplicate_inPlace_iff (t : CT) (hw : WellFormed t) :
    InPlace t.duplicate ↔ t.columns.Pairwise (· < ·) := by
  constructor
  · intro h
    have hn : (t.columns.insertionSort (· ≤ ·)).Nodup :=
      (List.perm_insertionSort _ _).nodup_iff.2 hw.columns
    have e : t.columns.insertionSort (· ≤ ·) = t.columns := by
      apply List.ext_getElem?
      intro i
      have key : ∀ c, (t.columns.insertionSort (· ≤ ·))[i]? = some c ↔ t.columns[i]? = some c := by
        intro c
        rw [← indexOf_iff _ hn c i]
        exact h c i
      cases h1 : t.columns[i]? with
      | some c => exact (key c).2 h1
      | none =>
        cases h2 : (t.columns.insertionSort (· ≤ ·))[i]? with
        | none => rfl
        | some c => rw [(key c).1 h2] at h1; cases h1
    have hs : t.columns.Pairwise (· ≤ ·) := by
      rw [← e]; exact List.pairwise_insertionSort _ _
    exact (hs.and hw.columns).imp (fun h => by omega)
  · intro h
    exact inPlace_of_sorted _ h rfl

/-! ## Positions after a change of columns -/

theorem sorted_position (l : List Int) (hs : l.Pairwise (· < ·)) (c : Int) (i : Nat) :
    l[i]? = some c ↔ c ∈ l ∧ i = (l.filter (· < c)).length := by
  induction l generalizing i with
  | nil => simp
  | cons a l ih =>
    have ha := (List.pairwise_cons.1 hs).1
    have hs' := (List.pairwise_cons.1 hs).2
    rcases lt_trichotomy a c with h | h | h
    · rw [List.filter_cons_of_pos (by simpa using h), List.length_cons]
      cases i with
      | zero => simp; omega
      | succ i =>
        rw [List.getElem?_cons_succ, ih hs' i]
        simp only [List.mem_cons]
        constructor
        · rintro ⟨h1, rfl⟩; exact ⟨.inr h1, rfl⟩
        · rintro ⟨h1, h2⟩
          exact ⟨h1.resolve_left (by omega), by omega⟩
    · subst h
      have e : ((a :: l).filter (· < a)) = [] := by
        rw [List.filter_eq_nil_iff]
        intro b hb
        simp only [decide_eq_true_eq]
        rcases List.mem_cons.1 hb with rfl | hb
        · omega
        · have := ha b hb; omega
      rw [e]
      cases i with
      | zero => simp
      | succ i =>
        rw [List.getElem?_cons_succ]
        constructor
        · intro h
          have := ha a (List.mem_of_getElem? h)
          omega
        · rintro ⟨_, h⟩; simp at h
    · constructor
      · intro hi
        have := List.mem_of_getElem? hi
        rcases List.mem_cons.1 this with rfl | hb
        · omega
        · have := ha c hb; omega
      · rintro ⟨hm, _⟩
        rcases List.mem_cons.1 hm with rfl | hb
        · omega
        · have := ha c hb; omega

theorem updateColumns_position (cols : List Int) (hn : cols.Nodup) (c : Int) (i : Nat) :
    dictGet (updateColumns cols true) c = some i ↔ c ∈ cols ∧ i = (cols.filter (· < c)).length := by
  have hp := List.perm_insertionSort (· ≤ ·) cols
  have hn' := hp.nodup_iff.2 hn
  have hs : (cols.insertionSort (· ≤ ·)).Pairwise (· < ·) :=
    ((List.pairwise_insertionSort (· ≤ ·) cols).and hn').imp (fun h => by omega)
  unfold updateColumns
  rw [if_pos rfl, indexOf_iff _ hn' c i, sorted_position _ hs c i, hp.mem_iff,
    (hp.filter (· < c)).length_eq]

/-- **C103.**  After `set_columns`, `prepend_column`, `append_column`, `insert_column` or `duplicate` the
position kept for a column is the number of the columns with smaller names, wherever the column is. -/
theorem position_counts_smaller (t : CT) (hw : WellFormed t) (cols : List Int) (hn : cols.Nodup)
    (c v position : Int) (hc : c ∉ t.columns) :
    (t.setColumns cols).columns = cols ∧ (t.setColumns cols).ct = t.ct ∧
    ∀ t' ∈ [t.setColumns cols, t.prependColumn c v, t.appendColumn c v, t.insertColumn c v position,
      t.duplicate], ∀ b i, dictGet t'.index b = some i ↔
        b ∈ t'.columns ∧ i = (t'.columns.filter (· < b)).length := by
  have h0 : (c :: t.columns).Nodup := List.nodup_cons.2 ⟨hc, hw.columns⟩
  have h3 := new_column_exact t hw c v position hc
  refine ⟨rfl, rfl, ?_⟩
  intro t' ht' b i
  simp only [List.mem_cons, List.not_mem_nil, or_false] at ht'
  rcases ht' with rfl | rfl | rfl | rfl | rfl
  · exact updateColumns_position cols hn b i
  · exact updateColumns_position _ h0 b i
  · exact updateColumns_position _ ((h3 (t.appendColumn c v) (by simp)).2.1.nodup_iff.2 h0) b i
  · exact updateColumns_position _ ((h3 (t.insertColumn c v position) (by simp)).2.1.nodup_iff.2 h0) b i
  · exact updateColumns_position _ hw.columns b i

/-- The hypotheses are met: in a table with columns 5 and 2 the position kept for 5 is 1. -/
example : (t : CT) → t = ⟨[([0, 1], 3)], [5, 2], []⟩ → dictGet (t.setColumns [5, 2]).index 5 = some 1 := by
  rintro t rfl
  have hw : WellFormed ⟨[([0, 1], 3)], [5, 2], []⟩ := ⟨by decide, by decide, by decide⟩
  exact ((position_counts_smaller _ hw [5, 2] (by decide) 7 0 0 (by decide)).2.2 _ (by simp) 5 1).2
    ⟨by decide, by decide⟩

/-! ## `append` -/

theorem updateAll_eq (d o : Counts) (h : (d.map Prod.fst ++ o.map Prod.fst).Nodup) :
    updateAll d o = d ++ o := by
  have := rekey_aux id o d (by simpa using h)
  simpa [updateAll] using this

theorem sumWhere_append (P : List Int → Prop) [DecidablePred P] (a b : Counts) :
    sumWhere P (a ++ b) = sumWhere P a + sumWhere P b := by
  unfold sumWhere
  rw [List.filter_append, List.map_append, List.sum_append]

theorem mergeColumns_mem (m o : List Int) (h : ∀ c ∈ o, c ∈ m) : mergeColumns m o = m := by
  unfold mergeColumns
  induction o with
  | nil => rfl
  | cons c o ih =>
    rw [List.foldl_cons, if_pos (h c (by simp))]
    exact ih (fun x hx => h x (by simp [hx]))

theorem mergeColumns_new (m o : List Int) (h : (m ++ o).Nodup) : mergeColumns m o = m ++ o := by
  unfold mergeColumns
  induction o generalizing m with
  | nil => simp
  | cons c o ih =>
    have hc : c ∉ m := by
      intro hm
      exact (List.nodup_append.1 h).2.2 _ hm c (by simp) rfl
    rw [List.foldl_cons, if_neg hc, ih _ (by simpa using h)]
    simp

/-- **C103.**  `append(column, value, ct)` adds the rows of `ct`, with the value in the new first column,
to a table that is empty or has the columns `column` + those of `ct`, and no row with that value: the
counts are the sums.  The argument `ct` is changed: it has the new column afterwards. -/
theorem append_exact (t other : CT) (c v : Int) (ht : WellFormed t) (ho : WellFormed other)
    (hc : c ∉ other.columns)
    (hcols : t.columns = c :: other.columns ∨ (t.columns = [] ∧ t.ct = []))
    (hv : ∀ e ∈ t.ct, e.1.head? ≠ some v) :
    let r := t.append (some c) (some v) other
    WellFormed r.1 ∧ r.1.columns = c :: other.columns ∧
      (∀ given, countOf r.1 given =
        countOf t given + if ∀ g ∈ given, g.1 = c → g.2 = v then countOf other given else 0) ∧
      (∀ e ∈ r.1.ct, e ∈ t.ct ∨ e.1.head? = some v) ∧
      r.2 = other.prependColumn c v := by
  intro r
  obtain ⟨hw', -, hcount⟩ := new_column_exact other ho c v 0 hc (other.prependColumn c v) (by simp)
  have hrk : rekey (fun k => v :: k) other.ct = other.ct.map (fun e => (v :: e.1, e.2)) := by
    apply rekey_eq
    exact nodup_map_inj ho.keys (fun e _ e' _ h => (List.cons.inj h).2)
  have hcols' : mergeColumns t.columns (c :: other.columns) = c :: other.columns := by
    rcases hcols with h | ⟨h, -⟩
    · rw [h]; exact mergeColumns_mem _ _ (fun x hx => hx)
    · rw [h]
      exact mergeColumns_new [] _ (by simpa using ⟨hc, ho.columns⟩)
  have hnd : (t.ct.map Prod.fst ++ (other.prependColumn c v).ct.map Prod.fst).Nodup := by
    refine List.nodup_append.2 ⟨ht.keys, hw'.keys, fun a ha b hb e => ?_⟩
    subst e
    obtain ⟨x, hx, rfl⟩ := List.mem_map.1 ha
    obtain ⟨y, hy, e⟩ := List.mem_map.1 hb
    have hy' : y ∈ rekey (fun k => v :: k) other.ct := hy
    rw [hrk] at hy'
    obtain ⟨z, _, rfl⟩ := List.mem_map.1 hy'
    exact hv x hx (by rw [← e]; rfl)
  have hct : r.1.ct = t.ct ++ (other.prependColumn c v).ct := updateAll_eq _ _ hnd
  have hrc : r.1.columns = c :: other.columns := hcols'
  refine ⟨⟨?_, ?_, ?_⟩, hrc, ?_, ?_, rfl⟩
  · rw [hct, List.map_append]; exact hnd
  · intro e he
    rw [hct] at he
    rcases List.mem_append.1 he with he | he
    · rcases hcols with h | ⟨-, h⟩
      · rw [hrc, ← h]; exact ht.lengths e he
      · rw [h] at he; simp at he
    · rw [hrc]; exact hw'.lengths e he
  · rw [hrc]; exact List.nodup_cons.2 ⟨hc, ho.columns⟩
  · intro given
    rw [countOf_eq, hct, hrc, sumWhere_append]
    congr 1
    · rcases hcols with h | ⟨-, h⟩
      · rw [countOf_eq, h]
      · rw [countOf_eq, h]; rfl
    · exact hcount given
  · intro e he
    rw [hct] at he
    rcases List.mem_append.1 he with he | he
    · exact .inl he
    · have he' : e ∈ rekey (fun k => v :: k) other.ct := he
      rw [hrk] at he'
      obtain ⟨z, _, rfl⟩ := List.mem_map.1 he'
      exact .inr rfl

/-- **C103.**  `append` keeps the positions right, if the table had those columns; to an empty table
it gives right positions if the columns are in increasing order. -/
theorem append_inPlace (t other : CT) (c v : Int) (ho : WellFormed other) (hc : c ∉ other.columns) :
    (t.columns = c :: other.columns → InPlace t → InPlace (t.append (some c) (some v) other).1) ∧
    (t.columns = [] → (c :: other.columns).Pairwise (· < ·) →
      InPlace (t.append (some c) (some v) other).1) := by
  constructor
  · intro h hp
    have hm : mergeColumns t.columns (c :: other.columns) = t.columns := by
      rw [h]; exact mergeColumns_mem _ _ (fun x hx => hx)
    have e : (t.append (some c) (some v) other).1 =
        ⟨updateAll t.ct (other.prependColumn c v).ct, t.columns, t.index⟩ := by
      show CT.mk _ (mergeColumns t.columns (c :: other.columns))
        (if mergeColumns t.columns (c :: other.columns) ≠ t.columns then _ else _) = _
      rw [hm, if_neg (by simp)]
    rw [e]
    exact hp
  · intro h hs
    have hm : mergeColumns t.columns (c :: other.columns) = c :: other.columns := by
      rw [h]; exact mergeColumns_new [] _ (by simpa using ⟨hc, ho.columns⟩)
    have e : (t.append (some c) (some v) other).1 = ⟨updateAll t.ct (other.prependColumn c v).ct,
        c :: other.columns, updateColumns (c :: other.columns) true⟩ := by
      show CT.mk _ (mergeColumns t.columns (c :: other.columns))
        (if mergeColumns t.columns (c :: other.columns) ≠ t.columns then updateColumns
          (mergeColumns t.columns (c :: other.columns)) true else _) = _
      rw [hm, if_pos (by rw [h]; simp)]
    rw [e]
    exact inPlace_of_sorted _ hs rfl

/-- Appending a list of tables, each with its value: the use `append` is made for.
(Models no code: a notion for statements and proofs.) -/
def appendAll (c : Int) (t : CT) (parts : List (Int × CT)) : CT :=
  parts.foldl (fun t p => (t.append (some c) (some p.1) p.2).1) t

theorem appendAll_aux (c : Int) (cols : List Int) (hc : c ∉ cols) (parts : List (Int × CT)) (t : CT)
    (ht : WellFormed t) (hcols : t.columns = c :: cols ∨ (t.columns = [] ∧ t.ct = []))
    (hp : ∀ p ∈ parts, WellFormed p.2 ∧ p.2.columns = cols) (hn : (parts.map Prod.fst).Nodup)
    (hv : ∀ p ∈ parts, ∀ e ∈ t.ct, e.1.head? ≠ some p.1) :
    WellFormed (appendAll c t parts) ∧
    (parts ≠ [] → (appendAll c t parts).columns = c :: cols) ∧
    ∀ given, countOf (appendAll c t parts) given = countOf t given +
      ((parts.filter (fun p => ∀ g ∈ given, g.1 = c → g.2 = p.1)).map (fun p => countOf p.2 given)).sum := by
  induction parts generalizing t with
  | nil => exact ⟨ht, fun h => absurd rfl h, fun given => by simp [appendAll]⟩
  | cons p parts ih =>
    obtain ⟨hpw, hpc⟩ := hp p (by simp)
    have h := append_exact t p.2 c p.1 ht hpw (by rw [hpc]; exact hc) (by rw [hpc]; exact hcols)
      (hv p (by simp))
    obtain ⟨h1, h2, h3, h4, -⟩ := h
    rw [hpc] at h2
    simp only [List.map_cons, List.nodup_cons] at hn
    obtain ⟨i1, i2, i3⟩ := ih (t.append (some c) (some p.1) p.2).1 h1 (.inl h2)
      (fun q hq => hp q (by simp [hq])) hn.2 (by
        intro q hq e he
        rcases h4 e he with he | he
        · exact hv q (by simp [hq]) e he
        · rw [he]
          intro hh
          simp only [Option.some.injEq] at hh
          exact hn.1 (hh ▸ List.mem_map_of_mem hq))
    have e : appendAll c t (p :: parts) = appendAll c (t.append (some c) (some p.1) p.2).1 parts := rfl
    rw [e]
    refine ⟨i1, fun _ => ?_, fun given => ?_⟩
    · cases parts with
      | nil => exact h2
      | cons q ps => exact i2 (by simp)
    · rw [i3, h3]
      by_cases hg : ∀ g ∈ given, g.1 = c → g.2 = p.1
      · rw [if_pos hg, List.filter_cons_of_pos (by simpa using hg)]
        simp only [List.map_cons, List.sum_cons]
        omega
      · rw [if_neg hg, List.filter_cons_of_neg (by simpa using hg)]
        omega

/-- **C103.**  A table built from the empty one by appending, for different values of a column, the
tables of the instances with that value counts as the given instances do: a combination that gives no
value for the new column is counted in all parts, one that gives a value only in the part of that
value. -/
theorem append_all_exact (c : Int) (cols : List Int) (hc : c ∉ cols) (parts : List (Int × CT))
    (hp : ∀ p ∈ parts, WellFormed p.2 ∧ p.2.columns = cols) (hn : (parts.map Prod.fst).Nodup)
    (hne : parts ≠ []) :
    let r := appendAll c ⟨[], [], updateColumns [] true⟩ parts
    WellFormed r ∧ r.columns = c :: cols ∧
    ∀ given, countOf r given =
      ((parts.filter (fun p => ∀ g ∈ given, g.1 = c → g.2 = p.1)).map (fun p => countOf p.2 given)).sum := by
  intro r
  obtain ⟨h1, h2, h3⟩ := appendAll_aux c cols hc parts ⟨[], [], updateColumns [] true⟩
    ⟨by simp, by simp, by simp⟩ (.inr ⟨rfl, rfl⟩) hp hn (by simp)
  refine ⟨h1, h2 hne, fun given => ?_⟩
  rw [h3]
  simp [countOf]

/-! ## `remove_leftmost_column` -/

theorem rowOf_tailKey (k : List Int) : rowOf (tailKey k) = k.tail := by
  unfold tailKey
  split
  · rename_i h; rw [h]; rfl
  · rfl

theorem tailKey_inj {k k' : List Int} : tailKey k = tailKey k' ↔ k.tail = k'.tail := by
  constructor
  · intro h; rw [← rowOf_tailKey, h, rowOf_tailKey]
  · intro h; unfold tailKey; rw [h]

/-- The total of a dictionary. (Models no code: a notion for statements and proofs.) -/
def total (d : List (Key × Int)) : Int := (d.map Prod.snd).sum

theorem dictSet_new' {d : List (Key × Int)} {k : Key} {v : Int} (h : k ∉ d.map Prod.fst) :
    dictSet d k v = d ++ [(k, v)] := by
  induction d with
  | nil => rfl
  | cons e d ih =>
    obtain ⟨k', v'⟩ := e
    simp only [List.map_cons, List.mem_cons, not_or] at h
    simp only [dictSet, Ne.symm h.1, if_false, ih h.2, List.cons_append]

theorem final_rename (d : Counts) (n : List (Key × Int))
    (h : (n.map Prod.fst ++ d.map (fun e => tailKey e.1)).Nodup) :
    d.foldl (fun n e => dictSet n (tailKey e.1) e.2) n = n ++ d.map (fun e => (tailKey e.1, e.2)) := by
  induction d generalizing n with
  | nil => simp
  | cons e d ih =>
    have hnew : tailKey e.1 ∉ n.map Prod.fst := by
      intro hm
      exact (List.nodup_append.1 h).2.2 _ hm (tailKey e.1) (by simp) rfl
    rw [List.foldl_cons, dictSet_new' hnew, ih]
    · simp
    · simpa using h

theorem total_set (d : List (Key × Int)) (k : Key) (v : Int) :
    total (dictSet d k v) = total d + v - (dictGet d k).getD 0 := by
  induction d with
  | nil => simp [dictSet, dictGet, total]
  | cons e d ih =>
    obtain ⟨k', v'⟩ := e
    by_cases h : k' = k
    · subst h
      simp [dictSet, dictGet, total]; omega
    · simp only [dictSet, dictGet, h, if_false]
      unfold total at ih ⊢
      simp only [List.map_cons, List.sum_cons, ih]
      omega

theorem total_final (d : Counts) (n : List (Key × Int)) (hn : ∀ e ∈ n, 0 < e.2) (hd : ∀ e ∈ d, 0 < e.2)
    (hk : (n.map Prod.fst).Nodup) :
    total (d.foldl (fun n e => dictSet n (tailKey e.1) e.2) n) ≤ total n + (d.map Prod.snd).sum ∧
    (¬ (n.map Prod.fst ++ d.map (fun e => tailKey e.1)).Nodup →
      total (d.foldl (fun n e => dictSet n (tailKey e.1) e.2) n) < total n + (d.map Prod.snd).sum) := by
  induction d generalizing n with
  | nil => exact ⟨by simp, fun h => absurd (by simpa using hk) h⟩
  | cons e d ih =>
    rw [List.foldl_cons]
    have hkeys := dictSet_keys n (tailKey e.1) e.2
    have hk' : ((dictSet n (tailKey e.1) e.2).map Prod.fst).Nodup := by
      rw [hkeys]
      split
      · exact hk
      · rename_i h
        exact List.nodup_append.2 ⟨hk, by simp, fun a ha b hb => by
          simp only [List.mem_singleton] at hb; subst hb; rintro rfl; exact h ha⟩
    have hn' : ∀ x ∈ dictSet n (tailKey e.1) e.2, 0 < x.2 := by
      intro x hx
      have h1 := dictGet_of_mem hk' (k := x.1) (v := x.2) hx
      rw [dictGet_dictSet] at h1
      split at h1
      · simp only [Option.some.injEq] at h1
        rw [← h1]; exact hd e (by simp)
      · exact hn _ (dictGet_mem h1)
    obtain ⟨i1, i2⟩ := ih _ hn' (fun x hx => hd x (by simp [hx])) hk'
    rw [total_set] at i1 i2
    simp only [List.map_cons, List.sum_cons]
    cases hg : dictGet n (tailKey e.1) with
    | none =>
      rw [hg] at i1 i2
      simp only [Option.getD_none] at i1 i2
      refine ⟨by omega, fun h => ?_⟩
      have := i2 (by
        rw [hkeys, if_neg ((dictGet_none_iff _ _).1 hg)]
        simpa using h)
      omega
    | some w =>
      rw [hg] at i1 i2
      simp only [Option.getD_some] at i1 i2
      have := hn _ (dictGet_mem hg)
      exact ⟨by omega, fun _ => by omega⟩

theorem agrees_tail {columns row : List Int} {given : List (Int × Int)} {c : Int} {cs : List Int}
    (hcol : columns = c :: cs) (hc : c ∉ given.map Prod.fst) :
    Agrees cs row.tail given ↔ Agrees columns row given := by
  have h := agrees_eraseIdx (columns := columns) (row := row) (given := given) (c := c) (i := 0)
    (by rw [hcol]; rfl) hc
  rw [hcol] at h ⊢
  rw [← h]
  simp [List.eraseIdx_zero]

theorem sum_filter_map (d : Counts) (P : Key → Prop) [DecidablePred P] :
    (((d.map (fun e => (tailKey e.1, e.2))).filter (fun e => P e.1)).map Prod.snd).sum =
      sumWhere (fun k => P (tailKey k)) d := by
  induction d with
  | nil => rfl
  | cons e d ih =>
    rw [List.map_cons, sumWhere_cons]
    by_cases h : P (tailKey e.1)
    · rw [List.filter_cons_of_pos (by simpa using h), if_pos h]
      simp [ih]
    · rw [List.filter_cons_of_neg (by simpa using h), if_neg h]
      simp [ih]

/-- **C103.**  `remove_leftmost_column` (and `finalize`) removes the first column.  If all counts are
positive, it keeps the count of every combination of values of the other columns exactly if no two rows
differ only in the first column (for instance if it has one value); otherwise counts are lost, since
the count of the later row replaces that of the earlier one. -/
theorem remove_leftmost_exact (t : CT) (ht : WellFormed t) (c : Int) (cs : List Int)
    (hcol : t.columns = c :: cs) (hpos : ∀ e ∈ t.ct, 0 < e.2) :
    ∃ f, t.removeLeftmost = .ok f ∧ f.columns = cs ∧
      ((∀ given, c ∉ given.map Prod.fst → Spec.Final.countOf f given = countOf t given) ↔
        ∀ e ∈ t.ct, ∀ e' ∈ t.ct, e.1.tail = e'.1.tail → e.1 = e'.1) ∧
      ((∃ e ∈ t.ct, ∃ e' ∈ t.ct, e.1.tail = e'.1.tail ∧ e.1 ≠ e'.1) →
        Spec.Final.countOf f [] < countOf t []) := by
  refine ⟨⟨_, t.columns.tail, updateColumns t.columns.tail true⟩, by
    unfold CT.removeLeftmost; rw [if_neg (by rw [hcol]; simp)], by rw [hcol]; rfl, ?_, ?_⟩
  · constructor
    · intro h e he e' he' ht'
      by_contra hne
      have h1 := (total_final t.ct [] (by simp) hpos (by simp)).2 (by
        intro hnd
        simp only [List.map_nil, List.nil_append] at hnd
        have : e = e' := List.inj_on_of_nodup_map hnd he he' (tailKey_inj.2 ht')
        exact hne (by rw [this]))
      have h2 := h [] (by simp)
      have e1 : Spec.Final.countOf ⟨t.ct.foldl (fun n e => dictSet n (tailKey e.1) e.2) [], t.columns.tail,
          updateColumns t.columns.tail true⟩ [] =
          total (t.ct.foldl (fun n e => dictSet n (tailKey e.1) e.2) []) := by
        unfold Spec.Final.countOf total
        rw [List.filter_eq_self.2 (by simp [Agrees])]
      have e2 : countOf t [] = (t.ct.map Prod.snd).sum := by
        unfold countOf
        rw [List.filter_eq_self.2 (by simp [Agrees])]
      rw [e1, e2] at h2
      rw [h2] at h1
      simp [total] at h1
    · intro h given hg
      have hnd : (t.ct.map (fun e => tailKey e.1)).Nodup := by
        have e : t.ct.map (fun e => tailKey e.1) = (t.ct.map Prod.fst).map tailKey := by
          rw [List.map_map]; rfl
        rw [e]
        refine List.Nodup.map_on ?_ ht.keys
        intro x hx y hy hxy
        obtain ⟨a, ha, rfl⟩ := List.mem_map.1 hx
        obtain ⟨b, hb, rfl⟩ := List.mem_map.1 hy
        exact h a ha b hb (tailKey_inj.1 hxy)
      unfold Spec.Final.countOf
      simp only []
      rw [final_rename t.ct [] (by simpa using hnd), List.nil_append,
        sum_filter_map t.ct (fun k => Agrees t.columns.tail (rowOf k) given), countOf_eq]
      refine sumWhere_congr _ _ _ (fun e _ => ?_)
      rw [rowOf_tailKey]
      have := agrees_tail (row := e.1) hcol hg
      rw [hcol] at this ⊢
      exact this
  · rintro ⟨e, he, e', he', ht', hne⟩
    have h1 := (total_final t.ct [] (by simp) hpos (by simp)).2 (by
      intro hnd
      simp only [List.map_nil, List.nil_append] at hnd
      have : e = e' := List.inj_on_of_nodup_map hnd he he' (tailKey_inj.2 ht')
      exact hne (by rw [this]))
    have e1 : Spec.Final.countOf ⟨t.ct.foldl (fun n e => dictSet n (tailKey e.1) e.2) [], t.columns.tail,
        updateColumns t.columns.tail true⟩ [] =
        total (t.ct.foldl (fun n e => dictSet n (tailKey e.1) e.2) []) := by
      unfold Spec.Final.countOf total
      rw [List.filter_eq_self.2 (by simp [Agrees])]
    have e2 : countOf t [] = (t.ct.map Prod.snd).sum := by
      unfold countOf
      rw [List.filter_eq_self.2 (by simp [Agrees])]
    rw [e1, e2]
    simpa [total] using h1

/-- **C103.**  With one column left (and at least one row) the keys are plain values: the tables cannot
be used as before — looking up a tuple gives 0, and `prepend_column` raises `TypeError`. -/
theorem finalized_single_column (t : CT) (ht : WellFormed t) (a b : Int) (hcol : t.columns = [a, b])
    (hne : t.ct ≠ []) :
    ∃ f, t.removeLeftmost = .ok f ∧ f.ct ≠ [] ∧ (∀ e ∈ f.ct, ∃ v, e.1 = .plain v) ∧
      (∀ row, f.get (.tuple row) = 0) ∧ ∀ c v, f.prependColumn c v = .error .typeError := by
  refine ⟨⟨_, t.columns.tail, updateColumns t.columns.tail true⟩, by
    unfold CT.removeLeftmost; rw [if_neg (by rw [hcol]; simp)], ?_⟩
  have aux : ∀ (d : Counts) (n : List (Key × Int)), (∀ e ∈ d, e.1.length = 2) →
      (∀ e ∈ n, ∃ v, e.1 = .plain v) → (d ≠ [] ∨ n ≠ []) →
      (∀ e ∈ d.foldl (fun n e => dictSet n (tailKey e.1) e.2) n, ∃ v, e.1 = .plain v) ∧
      d.foldl (fun n e => dictSet n (tailKey e.1) e.2) n ≠ [] := by
    intro d
    induction d with
    | nil => intro n _ hn h; exact ⟨hn, by simpa using h⟩
    | cons e d ih =>
      intro n hd hn _
      rw [List.foldl_cons]
      have hk := dictSet_keys n (tailKey e.1) e.2
      obtain ⟨x, y, hxy⟩ := List.length_eq_two.1 (hd e (by simp))
      have hp : tailKey e.1 = .plain y := by rw [hxy]; rfl
      refine ih _ (fun z hz => hd z (by simp [hz])) ?_ (.inr ?_)
      · intro z hz
        have hm : z.1 ∈ (dictSet n (tailKey e.1) e.2).map Prod.fst := List.mem_map_of_mem hz
        rw [hk] at hm
        have : z.1 ∈ n.map Prod.fst ∨ z.1 = tailKey e.1 := by
          split at hm
          · exact .inl hm
          · simpa using hm
        rcases this with h | h
        · obtain ⟨w, hw, e'⟩ := List.mem_map.1 h
          rw [← e']; exact hn w hw
        · exact ⟨y, by rw [h, hp]⟩
      · intro h
        have : (tailKey e.1) ∈ (dictSet n (tailKey e.1) e.2).map Prod.fst := by
          rw [hk]; split
          · assumption
          · simp
        rw [h] at this
        simp at this
  obtain ⟨h1, h2⟩ := aux t.ct [] (fun e he => by rw [ht.lengths e he, hcol]; rfl) (by simp) (.inl hne)
  refine ⟨h2, h1, fun row => ?_, fun c v => ?_⟩
  · unfold Final.get
    have : dictGet (t.ct.foldl (fun n e => dictSet n (tailKey e.1) e.2) []) (.tuple row) = none := by
      rw [dictGet_none_iff]
      intro hm
      obtain ⟨e, he, he'⟩ := List.mem_map.1 hm
      obtain ⟨v, hv⟩ := h1 e he
      rw [hv] at he'
      cases he'
    simp only [this, Option.getD_none]
  · unfold Final.prependColumn
    simp only []
    generalize t.ct.foldl (fun n e => dictSet n (tailKey e.1) e.2) [] = l at h1 h2
    cases l with
    | nil => exact absurd rfl h2
    | cons e l =>
      obtain ⟨w, hw⟩ := h1 e (by simp)
      rw [List.mapM_cons, hw]
      rfl

/-- **C103.**  As long as all keys are tuples, `prepend_column` still works after `finalize`: it adds
the column in front, with the given value in every row, and changes no count. -/
theorem finalized_prepend (f : Final) (hk : (f.ct.map Prod.fst).Nodup) (ht : ∀ e ∈ f.ct, ∃ row, e.1 = .tuple row)
    (hn : f.columns.Nodup) (c v : Int) (hc : c ∉ f.columns) :
    ∃ f', f.prependColumn c v = .ok f' ∧ f'.columns = c :: f.columns ∧
      (∀ row, f'.get (.tuple (v :: row)) = f.get (.tuple row)) ∧
      (∀ w row, w ≠ v → f'.get (.tuple (w :: row)) = 0) ∧
      ∀ b i, dictGet f'.index b = some i ↔ b ∈ c :: f.columns ∧ i = ((c :: f.columns).filter (· < b)).length := by
  obtain ⟨ct, columns, index⟩ := f
  simp only at hk ht hn hc
  have hidx := updateColumns_position (c :: columns) (List.nodup_cons.2 ⟨hc, hn⟩)
  have aux : ∀ d : List (Key × Int), (∀ e ∈ d, ∃ row, e.1 = .tuple row) → (d.map Prod.fst).Nodup →
      ∃ es : List (Key × Int), d.mapM (m := Except Err) (fun e => do
          let k ← e.1.prepend v
          pure (k, e.2)) = .ok es ∧ (es.map Prod.fst).Nodup ∧
        (∀ row x, (Key.tuple (v :: row), x) ∈ es ↔ (Key.tuple row, x) ∈ d) ∧
        (∀ e ∈ es, ∃ row, e.1 = .tuple (v :: row)) := by
    intro d
    induction d with
    | nil => intro _ _; exact ⟨[], rfl, by simp, by simp, by simp⟩
    | cons e d ih =>
      intro h1 h2
      obtain ⟨es, he, hnd, hm, hall⟩ := ih (fun x hx => h1 x (by simp [hx])) (List.nodup_cons.1 h2).2
      obtain ⟨row, hr⟩ := h1 e (by simp)
      obtain ⟨k, x⟩ := e
      simp only at hr
      subst hr
      refine ⟨(.tuple (v :: row), x) :: es, ?_, ?_, ?_, ?_⟩
      · rw [List.mapM_cons]
        show (List.mapM (m := Except Err) _ d >>= fun bs => pure ((Key.tuple (v :: row), x) :: bs)) = _
        rw [he]; rfl
      · rw [List.map_cons, List.nodup_cons]
        refine ⟨?_, hnd⟩
        intro hmem
        obtain ⟨⟨k', x'⟩, hmem', hk'⟩ := List.mem_map.1 hmem
        simp only at hk'
        subst hk'
        have := (hm row x').1 hmem'
        exact (List.nodup_cons.1 h2).1 (List.mem_map.2 ⟨_, this, rfl⟩)
      · intro row' x'
        simp [hm]
      · intro e' he'
        rcases List.mem_cons.1 he' with rfl | he'
        · exact ⟨row, rfl⟩
        · exact hall e' he'
  obtain ⟨es, he, hnd, hm, hall⟩ := aux ct ht hk
  have dictGet_iff : ∀ {d : List (Key × Int)}, (d.map Prod.fst).Nodup → ∀ {k x},
      dictGet d k = some x ↔ (k, x) ∈ d :=
    fun h => ⟨fun h' => dictGet_mem h', fun h' => dictGet_of_mem h h'⟩
  have hfold : ∀ (l n : List (Key × Int)), (n.map Prod.fst ++ l.map Prod.fst).Nodup →
      l.foldl (fun n e => dictSet n e.1 e.2) n = n ++ l := by
    intro l
    induction l with
    | nil => intro n _; simp
    | cons a l ih =>
      intro n hnn
      rw [List.foldl_cons, dictSet_new' (by
        intro h
        rw [List.map_cons, List.nodup_append] at hnn
        exact hnn.2.2 _ h _ (by simp) rfl), ih]
      · simp
      · simpa using hnn
  have hf : (⟨ct, columns, index⟩ : Final).prependColumn c v =
      .ok ⟨es, c :: columns, updateColumns (c :: columns) true⟩ := by
    unfold Final.prependColumn
    show (List.mapM (m := Except Err) _ ct >>= _) = _
    rw [he]
    show Except.ok _ = _
    rw [hfold es [] (by simpa using hnd)]
    rfl
  refine ⟨_, hf, rfl, ?_, ?_, hidx⟩
  · intro row
    show (dictGet es _).getD 0 = (dictGet ct _).getD 0
    congr 1
    apply Option.ext
    intro x
    rw [dictGet_iff hnd, dictGet_iff hk]
    exact hm row x
  · intro w row hw
    show (dictGet es _).getD 0 = 0
    cases hd : dictGet es (.tuple (w :: row)) with
    | none => rfl
    | some x =>
      obtain ⟨row', h⟩ := hall _ ((dictGet_iff hnd).1 hd)
      simp at h
      exact absurd h.1 hw

/-- The hypotheses are met: a finalized table with two columns left. -/
example : ∃ f f', (⟨[([0, 1, 1], 3), ([0, 1, 2], 4)], [1, 5, 2], []⟩ : CT).removeLeftmost = .ok f ∧
    f.prependColumn 9 0 = .ok f' ∧ f'.get (.tuple [0, 1, 2]) = 4 := ⟨_, _, rfl, rfl, by decide⟩

/-! ## `group_keys_by_columns` -/

/-- The key under two subkeys. (Models no code: a notion for statements and proofs.) -/
def Groups.at (g : Groups) (sub compl : List Int) : Option (List Int) :=
  (dictGet g sub).bind (fun d => dictGet d compl)

theorem Groups.at_put (g : Groups) (s r k s' r' : List Int) :
    (g.put s r k).at s' r' = if s = s' ∧ r = r' then some k else g.at s' r' := by
  unfold Groups.put Groups.at
  cases hg : dictGet g s with
  | some d =>
    simp only [dictGet_dictSet]
    by_cases hs : s = s'
    · subst hs
      simp only [if_true, Option.bind_some, dictGet_dictSet, true_and, hg]
    · simp [hs]
  | none =>
    simp only [dictGet_dictSet]
    by_cases hs : s = s'
    · subst hs
      simp only [if_true, Option.bind_some, true_and, hg, Option.bind_none, dictGet]
    · simp [hs]

theorem lookup_eq {cs row : List Int} (hn : cs.Nodup) (hl : row.length = cs.length) {i : Nat} {c : Int}
    (h : cs[i]? = some c) : row[i]? = some (((cs.zip row).lookup c).getD 0) := by
  induction cs generalizing row i with
  | nil => simp at h
  | cons a cs ih =>
    cases row with
    | nil => simp at hl
    | cons b row =>
      obtain ⟨ha, hn'⟩ := List.nodup_cons.1 hn
      cases i with
      | zero =>
        simp only [List.getElem?_cons_zero, Option.some.injEq] at h
        subst h
        simp
      | succ i =>
        simp only [List.getElem?_cons_succ] at h ⊢
        have hne : c ≠ a := by
          rintro rfl
          exact ha (List.mem_of_getElem? h)
        rw [List.zip_cons_cons, List.lookup_cons]
        have : (c == a) = false := by simpa using hne
        rw [this]
        exact ih hn' (by simpa using hl) h

theorem positions_ok {t : CT} (hp : InPlace t) {wanted : List Int} (hs : ∀ c ∈ wanted, c ∈ t.columns) :
    ∃ ix, positions t.index wanted = .ok ix ∧
      ∀ row, t.columns.Nodup → row.length = t.columns.length →
        pick row ix = .ok (valuesIn t.columns row wanted) := by
  induction wanted with
  | nil => exact ⟨[], rfl, fun _ _ _ => rfl⟩
  | cons c cs ih =>
    obtain ⟨ix, h1, h2⟩ := ih (fun x hx => hs x (by simp [hx]))
    obtain ⟨i, hi, hic⟩ := List.getElem_of_mem (hs c (by simp))
    have hi' : t.columns[i]? = some c := by rw [List.getElem?_eq_getElem hi, hic]
    have hd := (hp c i).2 hi'
    refine ⟨i :: ix, ?_, fun row hn hl => ?_⟩
    · unfold positions at h1 ⊢
      rw [List.mapM_cons, hd]
      simp only []
      rw [h1]
      rfl
    · have := h2 row hn hl
      unfold pick at this ⊢
      rw [List.mapM_cons, lookup_eq hn hl hi']
      simp only []
      rw [this]
      rfl

theorem groupLoop_ok (t : CT) (ix compl : List Nat) (A B : List Int)
    (hA : ∀ row : List Int, row.length = t.columns.length → pick row ix = .ok (valuesIn t.columns row A))
    (hB : ∀ row : List Int, row.length = t.columns.length → pick row compl = .ok (valuesIn t.columns row B))
    (hinj : ∀ k k' : List Int, k.length = t.columns.length → k'.length = t.columns.length →
      valuesIn t.columns k A = valuesIn t.columns k' A → valuesIn t.columns k B = valuesIn t.columns k' B → k = k')
    (d : Counts) (g : Groups) (hd : ∀ e ∈ d, e.1.length = t.columns.length)
    (hg : ∀ s r k, g.at s r = some k → k.length = t.columns.length ∧ s = valuesIn t.columns k A ∧
      r = valuesIn t.columns k B) :
    ∃ g', groupLoop ix compl g d = .ok g' ∧
      ∀ s r k, g'.at s r = some k ↔ (g.at s r = some k ∨
        (k ∈ d.map Prod.fst ∧ s = valuesIn t.columns k A ∧ r = valuesIn t.columns k B)) := by
  induction d generalizing g with
  | nil => exact ⟨g, rfl, fun s r k => by simp⟩
  | cons e d ih =>
    have hl := hd e (by simp)
    have hput := Groups.at_put g (valuesIn t.columns e.1 A) (valuesIn t.columns e.1 B) e.1
    obtain ⟨g', h1, h2⟩ := ih (g.put (valuesIn t.columns e.1 A) (valuesIn t.columns e.1 B) e.1)
      (fun x hx => hd x (by simp [hx])) (by
        intro s r k h
        rw [hput] at h
        split at h
        · rename_i hc
          simp only [Option.some.injEq] at h
          subst h
          exact ⟨hl, hc.1.symm, hc.2.symm⟩
        · exact hg s r k h)
    refine ⟨g', ?_, fun s r k => ?_⟩
    · unfold groupLoop
      rw [hA _ hl, hB _ hl]
      exact h1
    · rw [h2, hput]
      simp only [List.map_cons, List.mem_cons]
      by_cases hc : valuesIn t.columns e.1 A = s ∧ valuesIn t.columns e.1 B = r
      · rw [if_pos hc]
        constructor
        · rintro (h | h)
          · simp only [Option.some.injEq] at h
            subst h
            exact .inr ⟨.inl rfl, hc.1.symm, hc.2.symm⟩
          · exact .inr ⟨.inr h.1, h.2⟩
        · rintro (h | ⟨h | h, h'⟩)
          · obtain ⟨i1, i2, i3⟩ := hg s r k h
            exact .inl (by rw [hinj e.1 k hl i1 (by rw [hc.1, i2]) (by rw [hc.2, i3])])
          · exact .inl (by rw [h])
          · exact .inr ⟨h, h'⟩
      · rw [if_neg hc]
        constructor
        · rintro (h | h)
          · exact .inl h
          · exact .inr ⟨.inr h.1, h.2⟩
        · rintro (h | ⟨h | h, h'⟩)
          · exact .inl h
          · subst h; exact absurd ⟨h'.1.symm, h'.2.symm⟩ hc
          · exact .inr ⟨h, h'⟩

theorem values_inj {cs : List Int} (hn : cs.Nodup) {k k' : List Int} (hk : k.length = cs.length)
    (hk' : k'.length = cs.length) (A : List Int)
    (h1 : valuesIn cs k A = valuesIn cs k' A)
    (h2 : valuesIn cs k (cs.filter (· ∉ A)) = valuesIn cs k' (cs.filter (· ∉ A))) : k = k' := by
  apply List.ext_getElem?
  intro i
  by_cases hi : i < cs.length
  · have hc : cs[i]? = some cs[i] := List.getElem?_eq_getElem hi
    rw [lookup_eq hn hk hc, lookup_eq hn hk' hc]
    congr 1
    unfold valuesIn at h1 h2
    by_cases hA : cs[i] ∈ A
    · exact List.map_inj_left.1 h1 _ hA
    · exact List.map_inj_left.1 h2 _ (List.mem_filter.2 ⟨List.getElem_mem hi, by simpa using hA⟩)
  · rw [List.getElem?_eq_none (by omega), List.getElem?_eq_none (by omega)]

/-- **C103.**  If the positions are right, `group_keys_by_columns(columns)` groups the rows by their values
in the given columns: the group of the values `s` holds, under the values `r` of the other columns,
exactly the row with these values, if there is one.  So every row is in exactly one group, once. -/
theorem group_keys_exact (t : CT) (ht : WellFormed t) (hp : InPlace t) (columns : List Int)
    (hs : ∀ c ∈ columns, c ∈ t.columns) :
    ∃ g, t.groupKeys columns = .ok g ∧
      ∀ s r k, (∃ d, dictGet g s = some d ∧ dictGet d r = some k) ↔
        (k ∈ t.ct.map Prod.fst ∧ s = valuesIn t.columns k columns ∧
          r = valuesIn t.columns k (t.columns.filter (· ∉ columns))) := by
  obtain ⟨ix, h1, h2⟩ := positions_ok hp hs
  obtain ⟨cx, h3, h4⟩ := positions_ok (wanted := t.columns.filter (· ∉ columns)) hp
    (fun c hc => List.mem_of_mem_filter hc)
  obtain ⟨g, h5, h6⟩ := groupLoop_ok t ix cx columns (t.columns.filter (· ∉ columns))
    (fun row hl => h2 row ht.columns hl) (fun row hl => h4 row ht.columns hl)
    (fun k k' hk hk' e1 e2 => values_inj ht.columns hk hk' columns e1 e2) t.ct [] ht.lengths
    (by intro s r k h; simp [Groups.at, dictGet] at h)
  refine ⟨g, ?_, fun s r k => ?_⟩
  · unfold CT.groupKeys
    rw [h1]
    show (positions t.index _ >>= _) = _
    rw [h3]
    exact h5
  · have := h6 s r k
    unfold Groups.at at this
    rw [Option.bind_eq_some_iff] at this
    rw [this]
    simp [dictGet]

theorem positions_error (index : List (Int × Nat)) (wanted : List Int)
    (h : ∃ c ∈ wanted, dictGet index c = none) : positions index wanted = .error .keyError := by
  unfold positions
  induction wanted with
  | nil => obtain ⟨c, hc, -⟩ := h; simp at hc
  | cons a l ih =>
    rw [List.mapM_cons]
    cases ha : dictGet index a with
    | none => rfl
    | some i =>
      simp only []
      rw [ih (by
        obtain ⟨c, hc, hn⟩ := h
        rcases List.mem_cons.1 hc with rfl | hc
        · rw [ha] at hn; cases hn
        · exact ⟨c, hc, hn⟩)]
      rfl

/-- **C103.**  A column that the table does not have raises `KeyError`. -/
theorem group_keys_unknown (t : CT) (hp : InPlace t) (columns : List Int)
    (hs : ∃ c ∈ columns, c ∉ t.columns) : t.groupKeys columns = .error .keyError := by
  unfold CT.groupKeys
  rw [positions_error]
  · rfl
  · obtain ⟨c, hc, hn⟩ := hs
    refine ⟨c, hc, ?_⟩
    cases hd : dictGet t.index c with
    | none => rfl
    | some i => exact absurd (List.mem_of_getElem? ((hp c i).1 hd)) hn

/-! ## Findings and concrete cases -/

example : InPlace exT.duplicate := (duplicate_inPlace_iff exT ⟨by decide, by decide, by decide⟩).2 (by decide)

/-- **Finding.**  After `set_column_order([4, 1])` the table has right positions, but its duplicate
does not: `duplicate().marginalize_column(1)` removes column 4. -/
theorem duplicate_loses_order :
    ((exT.setColumnOrder [4, 1]).bind (fun t => t.marginalizeColumn 1)).toOption.map (fun t => t.columns) =
      some [4] ∧
    ((exT.setColumnOrder [4, 1]).bind (fun t => t.duplicate.marginalizeColumn 1)).toOption.map
      (fun t => t.columns) = some [1] := by decide +kernel

/-- Another table with the columns of `exT`. (Example.) -/
def exU : CT := CT.setColumns ⟨[([0, 1], 4), ([2, 2], 1)], [], []⟩ [1, 4]

example : WellFormed exU := ⟨by decide, by decide, by decide⟩

/-- The hypotheses of `append_all_exact`. -/
example : (0 : Int) ∉ [1, 4] ∧ (∀ p ∈ [((7 : Int), exT), (8, exU)], WellFormed p.2 ∧ p.2.columns = [1, 4]) ∧
    ([((7 : Int), exT), (8, exU)].map Prod.fst).Nodup := by
  refine ⟨by decide, ?_, by decide⟩
  intro p hp
  simp only [List.mem_cons, List.not_mem_nil, or_false] at hp
  rcases hp with rfl | rfl <;> exact ⟨⟨by decide, by decide, by decide⟩, rfl⟩

example : (appendAll 0 ⟨[], [], []⟩ [(7, exT), (8, exU)]).ct =
    [([7, 0, 0], 3), ([7, 0, 1], 2), ([7, 1, 1], 5), ([8, 0, 1], 4), ([8, 2, 2], 1)] := by decide +kernel

/-- **Finding.**  Appending to a table that already has rows with that value does not add the counts:
the count 2 of the row (0, 1) is replaced by 4. -/
theorem append_replaces_counts :
    ((exT.prependColumn 0 7).append (some 0) (some 7) exU).1.ct =
      [([7, 0, 0], 3), ([7, 0, 1], 4), ([7, 1, 1], 5), ([7, 2, 2], 1)] := by decide +kernel

/-- **Finding.**  Without a column and a value the columns stay as they are: the empty table takes the
rows, but has no columns. -/
theorem append_none_no_columns :
    (CT.append ⟨[], [], []⟩ none none exT).1.ct = exT.ct ∧ (CT.append ⟨[], [], []⟩ none none exT).1.columns = [] := by
  decide +kernel

/-- The hypotheses of `remove_leftmost_exact`, with rows that differ only in the first column. -/
example : (∀ e ∈ exT.ct, 0 < e.2) ∧ exT.columns = [1, 4] ∧
    ∃ e ∈ exT.ct, ∃ e' ∈ exT.ct, e.1.tail = e'.1.tail ∧ e.1 ≠ e'.1 := by decide

/-- … and without such rows. -/
example : ∀ e ∈ (exT.prependColumn 0 7).ct, ∀ e' ∈ (exT.prependColumn 0 7).ct,
    e.1.tail = e'.1.tail → e.1 = e'.1 := by decide

example : exT.removeLeftmost.toOption.map (fun f => (f.columns, f.ct)) =
    some ([4], [(.plain 0, 3), (.plain 1, 5)]) := by decide +kernel

example : (exT.groupKeys [4]).toOption =
    some [([0], [([0], [0, 0])]), ([1], [([0], [0, 1]), ([1], [1, 1])])] := by decide +kernel

end Mbtk.Struct
