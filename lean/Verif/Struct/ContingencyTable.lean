import Verif.Py
import Mathlib.Data.List.Sort
import Mathlib.Data.List.Zip
import Mathlib.Data.List.GetD
/-!
# Model of `mbtk/structures/ContingencyTable.py` (C48)

A table is a dictionary from tuples of values, one for each column, to counts, together with the
list of its columns and a dictionary from columns to positions (`column_index`).  Columns and values
are integers.  Not modelled: `__str__`, the `print` calls.  `duplicate`, `remove_leftmost_column` (and
`finalize`, which calls it), `append`, `group_keys_by_columns` are in `Struct/ContingencyTable2.lean`.
-/
namespace Mbtk.Struct
open Mbtk

/-- `ct`: ContingencyTable.py 6-9. -/
abbrev Counts := List (List Int × Int)

/-- ContingencyTable.py 6-9. -/
structure CT where
  ct : Counts
  columns : List Int
  index : List (Int × Nat)
  deriving DecidableEq, Repr

/-- The dictionary from columns to positions: ContingencyTable.py 84-87. -/
def indexOf (columns : List Int) : List (Int × Nat) :=
  columns.zipIdx.foldl (fun d p => dictSet d p.1 p.2) []

/-- `update_columns(sortcolumns)`: ContingencyTable.py 80-87. -/
def updateColumns (columns : List Int) (sortColumns : Bool) : List (Int × Nat) :=
  indexOf (if sortColumns then columns.insertionSort (· ≤ ·) else columns)

/-- `__getitem__`, `get`: ContingencyTable.py 43-44, 90-94. -/
def CT.get (t : CT) (key : List Int) : Int := (dictGet t.ct key).getD 0

/-- `new_ct[f(key)] = count` for all entries. ContingencyTable.py 97-114, 131-141. -/
def rekey (f : List Int → List Int) (d : Counts) : Counts :=
  d.foldl (fun n e => dictSet n (f e.1) e.2) []

/-- `new_ct[f(key)] += count` for all entries (`= count` at the first time).
ContingencyTable.py 117-128, 143-153. -/
def addUp (f : List Int → List Int) (d : Counts) : Counts :=
  d.foldl (fun n e => dictSet n (f e.1) ((dictGet n (f e.1)).getD 0 + e.2)) []

/-- `set_columns(columns)`: ContingencyTable.py 156-158. -/
def CT.setColumns (t : CT) (columns : List Int) : CT := ⟨t.ct, columns, updateColumns columns true⟩

/-- `prepend_column(column, value)`: ContingencyTable.py 97-104. -/
def CT.prependColumn (t : CT) (c v : Int) : CT :=
  ⟨rekey (fun k => v :: k) t.ct, c :: t.columns, updateColumns (c :: t.columns) true⟩

/-- `append_column(column, value)`: ContingencyTable.py 107-114. -/
def CT.appendColumn (t : CT) (c v : Int) : CT :=
  ⟨rekey (fun k => k ++ [v]) t.ct, t.columns ++ [c], updateColumns (t.columns ++ [c]) true⟩

/-- A position in a list of length `n`, as a slice or `insert` reads it.
ContingencyTable.py 131-141. -/
def bound (n : Nat) (i : Int) : Nat := if i < 0 then (i + n).toNat else min i.toNat n

/-- `l[:i] + (v,) + l[i:]`, `l.insert(i, v)`. ContingencyTable.py 131-141. -/
def insertAt (l : List Int) (i : Int) (v : Int) : List Int :=
  l.take (bound l.length i) ++ v :: l.drop (bound l.length i)

/-- `insert_column(column, value, position)`: ContingencyTable.py 131-140. -/
def CT.insertColumn (t : CT) (c v position : Int) : CT :=
  let p := if position < 0 then t.columns.length + position else position
  ⟨rekey (fun k => insertAt k p v) t.ct, insertAt t.columns p c, updateColumns (insertAt t.columns p c) true⟩

/-- `marginalize_column(column)`: ContingencyTable.py 117-128. -/
def CT.marginalizeColumn (t : CT) (c : Int) : Except Err CT :=
  match dictGet t.index c with
  | none => .error .keyError
  | some i =>
    if i < t.columns.length then
      .ok ⟨addUp (fun k => k.eraseIdx i) t.ct, t.columns.eraseIdx i, updateColumns (t.columns.eraseIdx i) true⟩
    else .error .indexError

/-- `marginalize_last_column()`: ContingencyTable.py 143-153. -/
def CT.marginalizeLast (t : CT) : Except Err CT :=
  if t.columns = [] then .error .indexError
  else .ok ⟨addUp List.dropLast t.ct, t.columns.dropLast, updateColumns t.columns.dropLast true⟩

/-- `tuple([key[self.column_index[o]] for o in new_order])`. ContingencyTable.py 72-74. -/
def reorderKey (index : List (Int × Nat)) (order : List Int) (key : List Int) : Except Err (List Int) :=
  order.mapM (fun o => match dictGet index o with
    | none => .error .keyError
    | some i => match key[i]? with
      | none => .error .indexError
      | some v => .ok v)

/-- `set_column_order(new_order)`: ContingencyTable.py 64-78. -/
def CT.setColumnOrder (t : CT) (order : List Int) : Except Err CT :=
  if t.columns.length < 2 then .ok t
  else do
    let entries ← t.ct.mapM (fun e => do
      let k ← reorderKey t.index order e.1
      pure (k, e.2))
    pure ⟨rekey id entries, order, updateColumns order false⟩

/-- `deduct(other_ct)`: ContingencyTable.py 175-178. -/
def deductAll (d : Counts) : Counts → Except Err Counts
  | [] => .ok d
  | e :: es => match dictGet d e.1 with
    | none => .error .keyError
    | some v => deductAll (dictSet d e.1 (v - e.2)) es

/-- `deduct(other_ct)`. ContingencyTable.py 175-178. -/
def CT.deduct (t other : CT) : Except Err CT :=
  match deductAll t.ct other.ct with
  | .error e => .error e
  | .ok d => .ok { t with ct := d }

/-! ## Specification -/

namespace Spec

/-- A row of values, one for each column, shows the given value in each of the given columns.
(Specification.) -/
def Agrees (columns row : List Int) (given : List (Int × Int)) : Prop :=
  ∀ p ∈ columns.zip row, ∀ g ∈ given, g.1 = p.1 → g.2 = p.2

instance (columns row : List Int) (given : List (Int × Int)) : Decidable (Agrees columns row given) := by
  unfold Agrees; infer_instance

/-- The number of instances that show the given values: the sum of the counts of the rows that
agree with them. (Specification.) -/
def countOf (t : CT) (given : List (Int × Int)) : Int :=
  ((t.ct.filter (fun e => Agrees t.columns e.1 given)).map Prod.snd).sum

/-- A table as a program can have it: the keys of a dictionary are different, every key has one
value for each column, the columns are different. (Specification.) -/
structure WellFormed (t : CT) : Prop where
  keys : (t.ct.map Prod.fst).Nodup
  lengths : ∀ e ∈ t.ct, e.1.length = t.columns.length
  columns : t.columns.Nodup

/-- `column_index` holds the positions of the columns. (Specification.) -/
def InPlace (t : CT) : Prop := ∀ c i, dictGet t.index c = some i ↔ t.columns[i]? = some c

end Spec
open Spec

/-! ## Lemmas -/

/-- The sum of the counts of the keys with a property. (Specification.) -/
def sumWhere (P : List Int → Prop) [DecidablePred P] (d : Counts) : Int :=
  ((d.filter (fun e => P e.1)).map Prod.snd).sum

theorem sumWhere_cons (P : List Int → Prop) [DecidablePred P] (e : List Int × Int) (d : Counts) :
    sumWhere P (e :: d) = (if P e.1 then e.2 else 0) + sumWhere P d := by
  unfold sumWhere
  by_cases h : P e.1
  · rw [List.filter_cons_of_pos (by simpa using h), if_pos h]; simp
  · rw [List.filter_cons_of_neg (by simpa using h), if_neg h]; simp

theorem sumWhere_set (P : List Int → Prop) [DecidablePred P] (d : Counts) (k : List Int) (v : Int) :
    sumWhere P (dictSet d k ((dictGet d k).getD 0 + v)) = sumWhere P d + if P k then v else 0 := by
  induction d with
  | nil =>
    show sumWhere P [(k, _)] = _
    rw [sumWhere_cons]
    simp [dictGet, sumWhere]
  | cons e d ih =>
    obtain ⟨k', v'⟩ := e
    by_cases h : k' = k
    · subst h
      simp only [dictSet, dictGet, if_true, sumWhere_cons, Option.getD_some]
      by_cases hp : P k' <;> simp [hp] <;> omega
    · simp only [dictSet, dictGet, h, if_false, sumWhere_cons, ih]
      omega

theorem sumWhere_addUp_aux (P : List Int → Prop) [DecidablePred P] (f : List Int → List Int) (d n : Counts) :
    sumWhere P (d.foldl (fun n e => dictSet n (f e.1) ((dictGet n (f e.1)).getD 0 + e.2)) n) =
      sumWhere P n + sumWhere (fun k => P (f k)) d := by
  induction d generalizing n with
  | nil => simp [sumWhere]
  | cons e d ih =>
    rw [List.foldl_cons, ih, sumWhere_set, sumWhere_cons]
    omega

theorem sumWhere_addUp (P : List Int → Prop) [DecidablePred P] (f : List Int → List Int) (d : Counts) :
    sumWhere P (addUp f d) = sumWhere (fun k => P (f k)) d := by
  unfold addUp
  rw [sumWhere_addUp_aux]
  simp [sumWhere]

theorem dictSet_new {d : Counts} {k : List Int} {v : Int} (h : k ∉ d.map Prod.fst) :
    dictSet d k v = d ++ [(k, v)] := by
  induction d with
  | nil => rfl
  | cons e d ih =>
    obtain ⟨k', v'⟩ := e
    simp only [List.map_cons, List.mem_cons, not_or] at h
    simp only [dictSet, Ne.symm h.1, if_false, ih h.2, List.cons_append]

/-- With different new keys, the entries are just renamed. -/
theorem rekey_aux (f : List Int → List Int) (d n : Counts)
    (h : ((n.map Prod.fst) ++ d.map (fun e => f e.1)).Nodup) :
    d.foldl (fun n e => dictSet n (f e.1) e.2) n = n ++ d.map (fun e => (f e.1, e.2)) := by
  induction d generalizing n with
  | nil => simp
  | cons e d ih =>
    have hnew : f e.1 ∉ n.map Prod.fst := by
      intro hm
      have := (List.nodup_append.1 h).2.2 _ hm (f e.1) (by simp)
      exact this rfl
    rw [List.foldl_cons, dictSet_new hnew, ih]
    · simp
    · simpa using h

theorem rekey_eq (f : List Int → List Int) (d : Counts) (h : (d.map (fun e => f e.1)).Nodup) :
    rekey f d = d.map (fun e => (f e.1, e.2)) := by
  unfold rekey
  rw [rekey_aux f d [] (by simpa using h)]
  simp

theorem sumWhere_map (P : List Int → Prop) [DecidablePred P] (f : List Int → List Int) (d : Counts) :
    sumWhere P (d.map (fun e => (f e.1, e.2))) = sumWhere (fun k => P (f k)) d := by
  induction d with
  | nil => rfl
  | cons e d ih => rw [List.map_cons, sumWhere_cons, sumWhere_cons, ih]

theorem sumWhere_congr (P Q : List Int → Prop) [DecidablePred P] [DecidablePred Q] (d : Counts)
    (h : ∀ e ∈ d, P e.1 ↔ Q e.1) : sumWhere P d = sumWhere Q d := by
  unfold sumWhere
  congr 2
  apply List.filter_congr
  intro e he
  simp [h e he]

theorem countOf_eq (t : CT) (given : List (Int × Int)) :
    countOf t given = sumWhere (fun k => Agrees t.columns k given) t.ct := rfl

theorem sumWhere_false (P : List Int → Prop) [DecidablePred P] (d : Counts) (h : ∀ e ∈ d, ¬ P e.1) :
    sumWhere P d = 0 := by
  unfold sumWhere
  rw [List.filter_eq_nil_iff.2 (by simpa using h)]
  rfl

theorem nodup_map_inj {d : Counts} {f : List Int → List Int} (hk : (d.map Prod.fst).Nodup)
    (hf : ∀ e ∈ d, ∀ e' ∈ d, f e.1 = f e'.1 → e.1 = e'.1) : (d.map (fun e => f e.1)).Nodup := by
  have e : d.map (fun e => f e.1) = (d.map Prod.fst).map f := by rw [List.map_map]; rfl
  rw [e]
  refine List.Nodup.map_on ?_ hk
  intro x hx y hy h
  obtain ⟨a, ha, rfl⟩ := List.mem_map.1 hx
  obtain ⟨b, hb, rfl⟩ := List.mem_map.1 hy
  exact hf a ha b hb h

theorem addUp_keys_aux (f : List Int → List Int) (d n : Counts) (hn : (n.map Prod.fst).Nodup)
    (P : List Int → Prop) (hP : ∀ e ∈ n, P e.1) (hd : ∀ e ∈ d, P (f e.1)) :
    ((d.foldl (fun n e => dictSet n (f e.1) ((dictGet n (f e.1)).getD 0 + e.2)) n).map Prod.fst).Nodup ∧
    ∀ e ∈ d.foldl (fun n e => dictSet n (f e.1) ((dictGet n (f e.1)).getD 0 + e.2)) n, P e.1 := by
  induction d generalizing n with
  | nil => exact ⟨hn, hP⟩
  | cons e d ih =>
    rw [List.foldl_cons]
    have hk := dictSet_keys n (f e.1) ((dictGet n (f e.1)).getD 0 + e.2)
    refine ih _ ?_ ?_ (fun x hx => hd x (by simp [hx]))
    · rw [hk]
      split
      · exact hn
      · rename_i h
        exact List.nodup_append.2 ⟨hn, by simp, fun a ha b hb => by
          simp only [List.mem_singleton] at hb; subst hb; rintro rfl; exact h ha⟩
    · intro x hx
      have hm : x.1 ∈ (dictSet n (f e.1) ((dictGet n (f e.1)).getD 0 + e.2)).map Prod.fst :=
        List.mem_map_of_mem hx
      rw [hk] at hm
      have : x.1 ∈ n.map Prod.fst ∨ x.1 = f e.1 := by
        split at hm
        · exact .inl hm
        · simpa using hm
      rcases this with h | h
      · obtain ⟨y, hy, e'⟩ := List.mem_map.1 h
        rw [← e']; exact hP y hy
      · rw [h]; exact hd e (by simp)

theorem addUp_keys (f : List Int → List Int) (d : Counts) (P : List Int → Prop)
    (hd : ∀ e ∈ d, P (f e.1)) : ((addUp f d).map Prod.fst).Nodup ∧ ∀ e ∈ addUp f d, P e.1 :=
  addUp_keys_aux f d [] (by simp) P (by simp) hd

theorem zip_eraseIdx (as bs : List Int) (i : Nat) :
    (as.eraseIdx i).zip (bs.eraseIdx i) = (as.zip bs).eraseIdx i := by
  induction as generalizing bs i with
  | nil => simp
  | cons a as ih =>
    cases bs with
    | nil => simp
    | cons b bs =>
      cases i with
      | zero => simp
      | succ i => simp [ih]

theorem agrees_eraseIdx {columns row : List Int} {given : List (Int × Int)} {c : Int} {i : Nat}
    (hi : columns[i]? = some c) (hc : c ∉ given.map Prod.fst) :
    Agrees (columns.eraseIdx i) (row.eraseIdx i) given ↔ Agrees columns row given := by
  unfold Agrees
  rw [zip_eraseIdx]
  constructor
  · intro h p hp g hg he
    obtain ⟨j, hj, rfl⟩ := List.getElem_of_mem hp
    by_cases hji : j = i
    · subst hji
      exfalso
      have hlen : j < columns.length := by
        rw [List.length_zip] at hj; omega
      rw [List.getElem?_eq_getElem hlen] at hi
      have : ((columns.zip row)[j]).1 = c := by
        rw [List.getElem_zip]; simpa using hi
      rw [this] at he
      exact hc (he ▸ List.mem_map_of_mem hg)
    · refine h _ ?_ g hg he
      exact List.mem_eraseIdx_iff_getElem.2 ⟨j, hj, hji, rfl⟩
  · intro h p hp g hg he
    exact h p (List.mem_of_mem_eraseIdx hp) g hg he

/-! ## Positions of the columns -/

theorem dictGet_index_aux (l : List (Int × Nat)) (d : List (Int × Nat)) (hn : (l.map Prod.fst).Nodup) (c : Int) :
    dictGet (l.foldl (fun d p => dictSet d p.1 p.2) d) c =
      match dictGet l c with
      | some i => some i
      | none => dictGet d c := by
  induction l generalizing d with
  | nil => rfl
  | cons p l ih =>
    simp only [List.map_cons, List.nodup_cons] at hn
    rw [List.foldl_cons, ih _ hn.2, dictGet_dictSet]
    by_cases h : p.1 = c
    · subst h
      have : dictGet l p.1 = none := (dictGet_none_iff _ _).2 hn.1
      rw [this]
      simp [dictGet]
    · simp [dictGet, h]

theorem dictGet_zipIdx (l : List Int) (hn : l.Nodup) (k : Nat) (c : Int) (i : Nat) :
    dictGet (l.zipIdx k) c = some i ↔ ∃ j, i = k + j ∧ l[j]? = some c := by
  induction l generalizing k with
  | nil => simp [dictGet]
  | cons a l ih =>
    rw [List.zipIdx_cons]
    unfold dictGet
    obtain ⟨ha, hl⟩ := List.nodup_cons.1 hn
    by_cases h : a = c
    · subst h
      rw [if_pos rfl]
      constructor
      · intro h; cases h; exact ⟨0, by simp, by simp⟩
      · rintro ⟨j, rfl, hj⟩
        cases j with
        | zero => rfl
        | succ j => exact absurd (List.mem_of_getElem? (by simpa using hj)) ha
    · rw [if_neg h, ih hl]
      constructor
      · rintro ⟨j, rfl, hj⟩; exact ⟨j + 1, by omega, by simpa using hj⟩
      · rintro ⟨j, rfl, hj⟩
        cases j with
        | zero => simp at hj; exact absurd hj h
        | succ j => exact ⟨j, by omega, by simpa using hj⟩

theorem indexOf_iff (l : List Int) (hn : l.Nodup) (c : Int) (i : Nat) :
    dictGet (indexOf l) c = some i ↔ l[i]? = some c := by
  unfold indexOf
  rw [dictGet_index_aux _ _ (by simpa using hn)]
  have h := dictGet_zipIdx l hn 0 c i
  constructor
  · intro h'
    cases hz : dictGet l.zipIdx c with
    | none => rw [hz] at h'; simp [dictGet] at h'
    | some j =>
      rw [hz] at h'
      simp only [Option.some.injEq] at h'
      subst h'
      obtain ⟨j, rfl, hj⟩ := h.1 hz
      simpa using hj
  · intro h'
    rw [h.2 ⟨i, by simp, h'⟩]

/-- **C48.**  If the columns are in increasing order, the operations that sort the columns keep
the positions right. -/
theorem inPlace_of_sorted (t : CT) (hs : t.columns.Pairwise (· < ·))
    (hi : t.index = updateColumns t.columns true) : InPlace t := by
  intro c i
  have hn : t.columns.Nodup := hs.imp (fun h => by omega)
  have e : t.columns.insertionSort (· ≤ ·) = t.columns :=
    List.Pairwise.insertionSort_eq (hs.imp (fun h => by omega))
  rw [hi]
  unfold updateColumns
  rw [if_pos rfl, e]
  exact indexOf_iff _ hn c i

/-! ## C48 -/

/-- **C48.**  If the positions are right, `marginalize_column` removes exactly that column and changes
the count of no combination of values of other columns; in particular the total stays the same. -/
theorem marginalize_column_exact (t : CT) (hw : WellFormed t) (hp : InPlace t) (c : Int)
    (hc : c ∈ t.columns) :
    ∃ t', t.marginalizeColumn c = .ok t' ∧ t'.columns = t.columns.filter (· ≠ c) ∧ WellFormed t' ∧
      ∀ given, c ∉ given.map Prod.fst → countOf t' given = countOf t given := by
  obtain ⟨i, hi⟩ := List.getElem?_of_mem hc
  have hlt : i < t.columns.length := (List.getElem?_eq_some_iff.1 hi).1
  have hcols : t.columns.eraseIdx i = t.columns.filter (· ≠ c) := by
    have := hw.columns
    have h2 : t.columns.erase c = t.columns.filter (· ≠ c) := by
      have := List.Nodup.erase_eq_filter this c
      rw [this]
      apply List.filter_congr
      intro x _
      by_cases h : x = c <;> simp [h]
    rw [← h2]
    have hge := (List.getElem?_eq_some_iff.1 hi).2
    rw [← hge]
    exact (List.Nodup.erase_getElem this i hlt).symm
  refine ⟨⟨addUp (fun k => k.eraseIdx i) t.ct, t.columns.eraseIdx i,
    updateColumns (t.columns.eraseIdx i) true⟩, ?_, hcols, ?_, ?_⟩
  · unfold CT.marginalizeColumn
    rw [(hp c i).2 hi]
    simp only []
    rw [if_pos hlt]
  · have hk := addUp_keys (fun k => k.eraseIdx i) t.ct (fun k => k.length = (t.columns.eraseIdx i).length)
      (fun e he => by
        have := hw.lengths e he
        simp only [List.length_eraseIdx, this])
    exact ⟨hk.1, hk.2, by simp only [hcols]; exact hw.columns.filter _⟩
  · intro given hg
    rw [countOf_eq, countOf_eq]
    rw [sumWhere_addUp]
    exact sumWhere_congr _ _ _ (fun e _ => agrees_eraseIdx hi hg)

/-- **C48.**  `marginalize_last_column` does the same with the last column, whatever the order of the
columns. -/
theorem marginalize_last_exact (t : CT) (hw : WellFormed t) (cs : List Int) (c : Int)
    (hc : t.columns = cs ++ [c]) :
    ∃ t', t.marginalizeLast = .ok t' ∧ t'.columns = cs ∧ WellFormed t' ∧
      ∀ given, c ∉ given.map Prod.fst → countOf t' given = countOf t given := by
  have hd : t.columns.dropLast = cs := by rw [hc]; simp
  refine ⟨⟨addUp List.dropLast t.ct, t.columns.dropLast, updateColumns t.columns.dropLast true⟩, ?_, hd, ?_, ?_⟩
  · unfold CT.marginalizeLast
    rw [if_neg (by rw [hc]; simp)]
  · have hk := addUp_keys List.dropLast t.ct (fun k => k.length = t.columns.dropLast.length)
      (fun e he => by
        have := hw.lengths e he
        simp only [List.length_dropLast, this])
    exact ⟨hk.1, hk.2, by
      have := hw.columns
      exact (List.dropLast_sublist _).nodup this⟩
  · intro given hg
    rw [countOf_eq, countOf_eq, sumWhere_addUp]
    refine sumWhere_congr _ _ _ (fun e he => ?_)
    have hlen := hw.lengths e he
    have h1 : t.columns.dropLast = t.columns.eraseIdx cs.length := by
      rw [hd, hc]; simp [List.eraseIdx_append_of_length_le]
    have h2 : e.1.dropLast = e.1.eraseIdx cs.length := by
      rw [List.dropLast_eq_take, List.eraseIdx_eq_take_drop_succ, hlen, hc]
      simp [hlen, hc]
    show Agrees t.columns.dropLast e.1.dropLast given ↔ _
    rw [h1, h2]
    exact agrees_eraseIdx (by rw [hc]; simp) hg

/-! ### New columns -/

theorem agrees_insert {cs row : List Int} (hl : row.length = cs.length) (j : Nat) (c v : Int)
    (given : List (Int × Int)) :
    Agrees (cs.take j ++ c :: cs.drop j) (row.take j ++ v :: row.drop j) given ↔
      (∀ g ∈ given, g.1 = c → g.2 = v) ∧ Agrees cs row given := by
  have hz : (cs.take j ++ c :: cs.drop j).zip (row.take j ++ v :: row.drop j) =
      (cs.zip row).take j ++ (c, v) :: (cs.zip row).drop j := by
    rw [List.zip_append (by simp [hl]), List.zip_cons_cons]
    simp only [List.zip, List.take_zipWith, List.drop_zipWith]
  unfold Agrees
  rw [hz]
  constructor
  · intro h
    refine ⟨fun g hg he => h (c, v) (by simp) g hg he, fun p hp g hg he => ?_⟩
    refine h p ?_ g hg he
    rw [← List.take_append_drop j (cs.zip row)] at hp
    rcases List.mem_append.1 hp with hp | hp
    · exact List.mem_append.2 (.inl hp)
    · exact List.mem_append.2 (.inr (List.mem_cons_of_mem _ hp))
  · rintro ⟨h1, h2⟩ p hp g hg he
    rcases List.mem_append.1 hp with hp | hp
    · exact h2 p (List.mem_of_mem_take hp) g hg he
    · rcases List.mem_cons.1 hp with rfl | hp
      · exact h1 g hg he
      · exact h2 p (List.mem_of_mem_drop hp) g hg he

theorem insert_inj {k k' : List Int} {j : Nat} {v : Int} (hl : k.length = k'.length)
    (h : k.take j ++ v :: k.drop j = k'.take j ++ v :: k'.drop j) : k = k' := by
  have h1 := List.append_inj h (by simp [hl])
  rw [← List.take_append_drop j k, h1.1, (List.cons.inj h1.2).2, List.take_append_drop]

/-- A table with a new column at position `j`, with the same value in all rows. -/
theorem new_column (t : CT) (hw : WellFormed t) (c v : Int) (hc : c ∉ t.columns) (j : Nat)
    (ix : List (Int × Nat)) (f : List Int → List Int)
    (hf : ∀ k, k.length = t.columns.length → f k = k.take j ++ v :: k.drop j) :
    WellFormed ⟨rekey f t.ct, t.columns.take j ++ c :: t.columns.drop j, ix⟩ ∧
    ∀ given, countOf ⟨rekey f t.ct, t.columns.take j ++ c :: t.columns.drop j, ix⟩ given =
      if ∀ g ∈ given, g.1 = c → g.2 = v then countOf t given else 0 := by
  have hnd : (t.ct.map (fun e => f e.1)).Nodup := nodup_map_inj hw.keys (by
    intro e he e' he' h
    rw [hf _ (hw.lengths e he), hf _ (hw.lengths e' he')] at h
    exact insert_inj (by rw [hw.lengths e he, hw.lengths e' he']) h)
  rw [rekey_eq _ _ hnd]
  refine ⟨⟨?_, ?_, ?_⟩, fun given => ?_⟩
  · show ((t.ct.map (fun e => (f e.1, e.2))).map Prod.fst).Nodup
    rw [List.map_map]
    exact hnd
  · intro e he
    obtain ⟨a, ha, rfl⟩ := List.mem_map.1 he
    have := hw.lengths a ha
    show (f a.1).length = (t.columns.take j ++ c :: t.columns.drop j).length
    rw [hf _ this]
    simp [this]
  · show (t.columns.take j ++ c :: t.columns.drop j).Nodup
    rw [List.nodup_middle, List.take_append_drop]
    exact List.nodup_cons.2 ⟨hc, hw.columns⟩
  · rw [countOf_eq, countOf_eq]
    show sumWhere (fun k => Agrees (t.columns.take j ++ c :: t.columns.drop j) k given)
      (t.ct.map (fun e => (f e.1, e.2))) = _
    rw [sumWhere_map]
    by_cases h : ∀ g ∈ given, g.1 = c → g.2 = v
    · rw [if_pos h]
      refine sumWhere_congr _ _ _ (fun e he => ?_)
      rw [hf _ (hw.lengths e he), agrees_insert (hw.lengths e he)]
      exact ⟨fun h' => h'.2, fun h' => ⟨h, h'⟩⟩
    · rw [if_neg h]
      refine sumWhere_false _ _ (fun e he => ?_)
      rw [hf _ (hw.lengths e he), agrees_insert (hw.lengths e he)]
      exact fun h' => h h'.1

/-- **C48.**  `append_column`, `prepend_column` and `insert_column` add a column in which all instances
show the given value: a combination of values with another value in that column is counted 0
times, any other as often as before. -/
theorem new_column_exact (t : CT) (hw : WellFormed t) (c v position : Int) (hc : c ∉ t.columns) :
    ∀ t' ∈ [t.appendColumn c v, t.prependColumn c v, t.insertColumn c v position],
      WellFormed t' ∧ t'.columns.Perm (c :: t.columns) ∧
      ∀ given, countOf t' given = if ∀ g ∈ given, g.1 = c → g.2 = v then countOf t given else 0 := by
  intro t' ht'
  simp only [List.mem_cons, List.not_mem_nil, or_false] at ht'
  rcases ht' with rfl | rfl | rfl
  · have h := new_column t hw c v hc t.columns.length (updateColumns (t.columns ++ [c]) true)
      (fun k => k ++ [v]) (fun k hk => by rw [← hk]; simp)
    have e : t.columns.take t.columns.length ++ c :: t.columns.drop t.columns.length = t.columns ++ [c] := by simp
    rw [e] at h
    exact ⟨h.1, List.perm_append_singleton c t.columns, h.2⟩
  · have h := new_column t hw c v hc 0 (updateColumns (c :: t.columns) true) (fun k => v :: k) (fun k _ => rfl)
    exact ⟨h.1, .refl _, h.2⟩
  · generalize hp : (if position < 0 then t.columns.length + position else position : Int) = p
    have h := new_column t hw c v hc (bound t.columns.length p) (updateColumns (insertAt t.columns p c) true)
      (fun k => insertAt k p v) (fun k hk => by unfold insertAt; rw [hk])
    have ht : t.insertColumn c v position = ⟨rekey (fun k => insertAt k p v) t.ct, insertAt t.columns p c,
        updateColumns (insertAt t.columns p c) true⟩ := by
      unfold CT.insertColumn
      simp only [hp]
    rw [ht]
    refine ⟨h.1, ?_, h.2⟩
    show (insertAt t.columns p c).Perm _
    unfold insertAt
    refine List.perm_middle.trans ?_
    rw [List.take_append_drop]

/-! ### Looking up a count -/

theorem agrees_row {cs k row : List Int} (hn : cs.Nodup) (hk : k.length = cs.length) (hr : row.length = cs.length) :
    Agrees cs k (cs.zip row) ↔ k = row := by
  constructor
  · intro h
    apply List.ext_getElem (by omega)
    intro i h1 h2
    have hc : i < cs.length := by omega
    have a1 : (cs[i], k[i]) ∈ cs.zip k := List.mem_iff_getElem.2 ⟨i, by simp; omega, by simp⟩
    have a2 : (cs[i], row[i]) ∈ cs.zip row := List.mem_iff_getElem.2 ⟨i, by simp; omega, by simp⟩
    exact (h _ a1 _ a2 rfl).symm
  · rintro rfl
    intro p hp g hg e
    obtain ⟨i, hi, rfl⟩ := List.mem_iff_getElem.1 hp
    obtain ⟨j, hj, rfl⟩ := List.mem_iff_getElem.1 hg
    simp only [List.getElem_zip] at e ⊢
    have : j = i := (List.Nodup.getElem_inj_iff hn).1 e
    subst this
    rfl

theorem sumWhere_single (row : List Int) (d : Counts) (h : (d.map Prod.fst).Nodup) :
    sumWhere (fun k => k = row) d = (dictGet d row).getD 0 := by
  induction d with
  | nil => rfl
  | cons e d ih =>
    rw [List.map_cons, List.nodup_cons] at h
    rw [sumWhere_cons, ih h.2, dictGet]
    by_cases he : e.1 = row
    · subst he
      rw [if_pos rfl, if_pos rfl, (dictGet_none_iff d e.1).2 h.1]
      simp
    · rw [if_neg he, if_neg he]
      simp

/-- **C48.**  `get(row)` and `table[row]` give the number of instances that show the values of the row in the
columns of the table, in particular 0 for a row that does not occur. -/
theorem get_exact (t : CT) (hw : WellFormed t) (row : List Int) :
    (row.length = t.columns.length → t.get row = countOf t (t.columns.zip row)) ∧
    ((∀ e ∈ t.ct, e.1 ≠ row) → t.get row = 0) := by
  constructor
  · intro hl
    rw [countOf_eq, sumWhere_congr _ (fun k => k = row) t.ct
      (fun e he => agrees_row hw.columns (hw.lengths e he) hl), sumWhere_single row t.ct hw.keys]
    rfl
  · intro h
    have : dictGet t.ct row = none := by
      rw [dictGet_none_iff]
      intro hm
      obtain ⟨e, he, e2⟩ := List.mem_map.1 hm
      exact h e he e2
    unfold CT.get
    rw [this]
    rfl

/-! ### Order of the columns -/

theorem row_eq {cs row : List Int} (hn : cs.Nodup) (hl : row.length = cs.length) :
    row = cs.map (fun c => row.getD (cs.idxOf c) 0) := by
  apply List.ext_getElem
  · simp [hl]
  · intro i h1 h2
    have h3 : i < cs.length := by omega
    rw [List.getElem_map, List.Nodup.idxOf_getElem hn i h3, List.getD_eq_getElem _ _ h1]

theorem agrees_map (l : List Int) (f : Int → Int) (given : List (Int × Int)) :
    Agrees l (l.map f) given ↔ ∀ c ∈ l, ∀ g ∈ given, g.1 = c → g.2 = f c := by
  unfold Agrees
  have : l.zip (l.map f) = l.map (fun c => (c, f c)) := by
    induction l with
    | nil => rfl
    | cons a l ih => simp [ih]
  rw [this]
  constructor
  · intro h c hc g hg he
    exact h (c, f c) (List.mem_map_of_mem hc) g hg he
  · intro h p hp g hg he
    obtain ⟨c, hc, rfl⟩ := List.mem_map.1 hp
    exact h c hc g hg he

theorem reorderKey_eq {t : CT} (hp : InPlace t) {order row : List Int} (hl : row.length = t.columns.length)
    (ho : ∀ o ∈ order, o ∈ t.columns) :
    reorderKey t.index order row = .ok (order.map (fun c => row.getD (t.columns.idxOf c) 0)) := by
  unfold reorderKey
  induction order with
  | nil => rfl
  | cons o os ih =>
    have hm := ho o (by simp)
    have hlt : t.columns.idxOf o < t.columns.length := List.idxOf_lt_length_of_mem hm
    have hi : dictGet t.index o = some (t.columns.idxOf o) := by
      rw [hp]
      rw [List.getElem?_eq_getElem hlt, List.getElem_idxOf]
    have hr : row[t.columns.idxOf o]? = some (row.getD (t.columns.idxOf o) 0) := by
      rw [List.getElem?_eq_getElem (by omega), List.getD_eq_getElem _ _ (by omega)]
    rw [List.mapM_cons, hi]
    simp only []
    rw [hr, ih (fun x hx => ho x (by simp [hx]))]
    rfl

/-- **C48.**  If the positions are right, `set_column_order` with all the columns in another order
changes no count, and the positions are right afterwards (also for `marginalize_column`). -/
theorem set_column_order_exact (t : CT) (hw : WellFormed t) (hp : InPlace t) (order : List Int)
    (ho : order.Perm t.columns) (h2 : 2 ≤ t.columns.length) :
    ∃ t', t.setColumnOrder order = .ok t' ∧ t'.columns = order ∧ WellFormed t' ∧ InPlace t' ∧
      ∀ given, countOf t' given = countOf t given := by
  let f : List Int → List Int := fun row => order.map (fun c => row.getD (t.columns.idxOf c) 0)
  have hmap : t.ct.mapM (fun e => do
      let k ← reorderKey t.index order e.1
      pure (k, e.2)) = (Except.ok (t.ct.map (fun e => (f e.1, e.2))) : Except Err _) := by
    have hl := hw.lengths
    generalize t.ct = d at hl
    induction d with
    | nil => rfl
    | cons e d ih =>
      rw [List.mapM_cons, reorderKey_eq hp (hl e (by simp)) (fun o h => ho.subset h),
        ih (fun x hx => hl x (by simp [hx]))]
      rfl
  have hnd : (t.ct.map (fun e => f e.1)).Nodup := nodup_map_inj hw.keys (by
    intro e he e' he' h
    rw [row_eq hw.columns (hw.lengths e he), row_eq hw.columns (hw.lengths e' he')]
    apply List.map_congr_left
    intro c hc
    have := List.map_inj_left.1 h c (ho.symm.subset hc)
    exact this)
  have hre : rekey id (t.ct.map (fun e => (f e.1, e.2))) = t.ct.map (fun e => (f e.1, e.2)) := by
    rw [rekey_eq id _ (by rw [List.map_map]; exact hnd), List.map_map]
    rfl
  refine ⟨⟨t.ct.map (fun e => (f e.1, e.2)), order, updateColumns order false⟩, ?_, rfl, ⟨?_, ?_, ?_⟩, ?_, ?_⟩
  · unfold CT.setColumnOrder
    rw [if_neg (by omega)]
    show (t.ct.mapM _ >>= _) = _
    rw [hmap]
    show Except.ok (CT.mk (rekey id _) _ _) = _
    rw [hre]
  · show ((t.ct.map (fun e => (f e.1, e.2))).map Prod.fst).Nodup
    rw [List.map_map]
    exact hnd
  · intro e he
    obtain ⟨a, _, rfl⟩ := List.mem_map.1 he
    simp [f]
  · exact ho.symm.nodup hw.columns
  · intro c i
    exact indexOf_iff order (ho.symm.nodup hw.columns) c i
  · intro given
    rw [countOf_eq, countOf_eq]
    show sumWhere (fun k => Agrees order k given) (t.ct.map (fun e => (f e.1, e.2))) = _
    rw [sumWhere_map]
    refine sumWhere_congr _ _ _ (fun e he => ?_)
    conv_rhs => rw [row_eq hw.columns (hw.lengths e he)]
    show Agrees order (order.map _) given ↔ _
    rw [agrees_map, agrees_map]
    exact ⟨fun h c hc => h c (ho.symm.subset hc), fun h c hc => h c (ho.subset hc)⟩

/-! ### Subtraction -/

/-- **C48.**  `deduct` of a table with the same columns whose rows all occur subtracts every count;
with a row that does not occur it raises `KeyError`. -/
theorem deduct_exact (t other : CT) (hcol : other.columns = t.columns) :
    ((∀ e ∈ other.ct, e.1 ∈ t.ct.map Prod.fst) → ∃ t', t.deduct other = .ok t' ∧ t'.columns = t.columns ∧
      ∀ given, countOf t' given = countOf t given - countOf other given) ∧
    ((∃ e ∈ other.ct, e.1 ∉ t.ct.map Prod.fst) → t.deduct other = .error .keyError) := by
  have aux : ∀ (es d : Counts), (∀ e ∈ es, e.1 ∈ d.map Prod.fst) → ∃ d', deductAll d es = .ok d' ∧
      ∀ (P : List Int → Prop) [DecidablePred P], sumWhere P d' = sumWhere P d - sumWhere P es := by
    intro es
    induction es with
    | nil => intro d _; exact ⟨d, rfl, fun P _ => by simp [sumWhere]⟩
    | cons e es ih =>
      intro d h
      obtain ⟨v, hv⟩ : ∃ v, dictGet d e.1 = some v := by
        cases hd : dictGet d e.1 with
        | some v => exact ⟨v, rfl⟩
        | none => exact absurd (h e (by simp)) ((dictGet_none_iff _ _).1 hd)
      obtain ⟨d', h1, h2⟩ := ih (dictSet d e.1 (v - e.2)) (fun x hx => by
        rw [dictSet_keys, if_pos (h e (by simp))]; exact h x (by simp [hx]))
      refine ⟨d', ?_, fun P _ => ?_⟩
      · unfold deductAll; rw [hv]; exact h1
      · rw [h2 P, sumWhere_cons]
        have := sumWhere_set P d e.1 (-e.2)
        rw [hv] at this
        simp only [Option.getD_some] at this
        rw [← Int.sub_eq_add_neg] at this
        rw [this]
        by_cases hp : P e.1 <;> simp [hp] <;> omega
  refine ⟨fun h => ?_, fun h => ?_⟩
  · obtain ⟨d', h1, h2⟩ := aux other.ct t.ct h
    refine ⟨{ t with ct := d' }, ?_, rfl, fun given => ?_⟩
    · unfold CT.deduct; rw [h1]
    · rw [countOf_eq, countOf_eq, countOf_eq, hcol]
      exact h2 _
  · have : ∀ (es d : Counts), (∃ e ∈ es, e.1 ∉ d.map Prod.fst) → deductAll d es = .error .keyError := by
      intro es
      induction es with
      | nil => rintro d ⟨e, he, _⟩; simp at he
      | cons e es ih =>
        rintro d ⟨x, hx, hn⟩
        unfold deductAll
        cases hd : dictGet d e.1 with
        | none => rfl
        | some v =>
          simp only []
          have hmem : e.1 ∈ d.map Prod.fst := by
            by_contra hne
            rw [(dictGet_none_iff _ _).2 hne] at hd
            cases hd
          refine ih _ ⟨x, ?_, ?_⟩
          · rcases List.mem_cons.1 hx with rfl | hx
            · exact absurd hmem hn
            · exact hx
          · rw [dictSet_keys, if_pos hmem]; exact hn
    unfold CT.deduct
    rw [this _ _ h]

/-! ## Findings and concrete cases -/

/-- Columns 1 and 4. (Example.) -/
def exT : CT := CT.setColumns ⟨[([0, 0], 3), ([0, 1], 2), ([1, 1], 5)], [], []⟩ [1, 4]

example : WellFormed exT := ⟨by decide, by decide, by decide⟩
example : exT.get [1, 1] = 5 ∧ exT.get [1, 0] = 0 := by decide +kernel
example : InPlace exT := inPlace_of_sorted exT (by decide) rfl
example : countOf exT [(1, 0)] = 5 ∧ countOf exT [(4, 1)] = 7 ∧ countOf exT [] = 10 := by decide +kernel
example : (exT.marginalizeColumn 1).toOption.map (fun t => (t.columns, t.ct)) =
    some ([4], [([0], 3), ([1], 7)]) := by decide +kernel
example : (exT.setColumnOrder [4, 1]).toOption.map (fun t => (t.columns, t.ct)) =
    some ([4, 1], [([0, 0], 3), ([1, 0], 2), ([1, 1], 5)]) := by decide +kernel

/-- **Finding.**  With columns that are not in increasing order (here `append_column(0, 7)` after the
columns 1 and 4) `marginalize_column` removes another column than the given one: column 1 is
removed instead of column 0, which stays. -/
theorem marginalize_removes_wrong_column :
    ((exT.appendColumn 0 7).marginalizeColumn 0).toOption.map (fun t => (t.columns, t.ct)) =
      some ([4, 0], [([0, 7], 3), ([1, 7], 7)]) := by decide +kernel

/-- **Finding.**  `set_column_order` with only some of the columns does not add up the counts of the
rows that become equal: counts are lost. -/
theorem partial_order_loses_counts :
    (exT.setColumnOrder [1]).toOption.map (fun t => (t.columns, t.ct)) = some ([1], [([0], 2), ([1], 5)]) := by
  decide +kernel

end Mbtk.Struct
