import Verif.MB.Iamb
import Mathlib.Data.List.Perm.Basic
/-!
# IPC-MB: loop invariants
-/
namespace Mbtk.MB

variable {σ κ : Type}

/-! ### frozenset keys -/

theorem mem_fkey {l : List Nat} {x : Nat} : x ∈ fkey l ↔ x ∈ l := by
  simp [fkey, (List.perm_insertionSort (· ≤ ·) l.dedup).mem_iff]

theorem fkey_eq_iff {l l' : List Nat} : fkey l = fkey l' ↔ ∀ x, x ∈ l ↔ x ∈ l' := by
  constructor
  · intro h x; rw [← mem_fkey, h, mem_fkey]
  · intro h
    have hp : l.dedup.Perm l'.dedup := by
      rw [List.perm_ext_iff_of_nodup (List.nodup_dedup _) (List.nodup_dedup _)]
      intro a; simp [h a]
    have hp' : (fkey l).Perm (fkey l') :=
      ((List.perm_insertionSort _ _).trans hp).trans (List.perm_insertionSort _ _).symm
    exact hp'.eq_of_pairwise (le := (· ≤ ·)) (fun a b _ _ h1 h2 => Nat.le_antisymm h1 h2)
      (List.pairwise_insertionSort _ _) (List.pairwise_insertionSort _ _)

theorem fkey_pair_left {T X Y : Nat} (h : fkey [T, X] = fkey [T, Y]) : X = Y := by
  have h' := fkey_eq_iff.1 h
  have h1 := (h' X).1 (by simp)
  have h2 := (h' Y).2 (by simp)
  simp at h1 h2; omega

theorem fkey_swap (T X : Nat) : fkey [T, X] = fkey [X, T] :=
  fkey_eq_iff.2 (by intro x; simp [or_comm])

theorem fkey_pair_cases {A V T Y : Nat} (h : fkey [A, V] = fkey [T, Y]) : A = T ∨ A = Y := by
  have := (fkey_eq_iff.1 h A).1 (by simp)
  simpa using this

/-! ### combinations -/

theorem mem_combinations {α : Type} {k : Nat} {l Z : List α} :
    Z ∈ combinations k l ↔ Z.Sublist l ∧ Z.length = k := by
  induction l generalizing k Z with
  | nil =>
    cases k with
    | zero => simp [combinations]
    | succ k =>
      simp only [combinations, List.not_mem_nil, List.sublist_nil, false_iff]
      rintro ⟨rfl, h⟩; simp at h
  | cons x xs ih =>
    cases k with
    | zero =>
      simp only [combinations, List.mem_singleton]
      constructor
      · rintro rfl; simp
      · rintro ⟨-, h⟩; exact List.length_eq_zero_iff.1 h
    | succ k =>
      simp only [combinations, List.mem_append, List.mem_map, ih]
      constructor
      · rintro (⟨Z, ⟨h1, h2⟩, rfl⟩ | ⟨h1, h2⟩)
        · exact ⟨h1.cons_cons x, by simp [h2]⟩
        · exact ⟨h1.cons x, h2⟩
      · rintro ⟨h1, h2⟩
        cases h1 with
        | cons _ h => exact Or.inr ⟨h, h2⟩
        | cons_cons _ h => exact Or.inl ⟨_, ⟨h, by simpa using h2⟩, rfl⟩

/-- Every duplicate-free subset of size `k` is tried, in some order. -/
theorem combinations_cover {k : Nat} {l Z : List Nat} (hl : l.Nodup) (hZ : Z.Nodup)
    (hsub : ∀ z ∈ Z, z ∈ l) (hk : Z.length = k) : ∃ Z' ∈ combinations k l, Z'.Perm Z := by
  have hp : (l.filter (fun x => decide (x ∈ Z))).Perm Z := by
    rw [List.perm_ext_iff_of_nodup (hl.filter _) hZ]
    intro a
    simp only [List.mem_filter, decide_eq_true_eq]
    exact ⟨fun h => h.2, fun h => ⟨hsub a h, h⟩⟩
  exact ⟨_, mem_combinations.2 ⟨List.filter_sublist, by rw [hp.length_eq, hk]⟩, hp⟩

/-! ### The search for a separating set -/

/-- What changed between two states as far as the separating set cache goes: keys outside
`K` kept their value, and no key was lost.
(Models no code: a notion for statements and proofs.) -/
structure CacheFrame (K : List Nat → Prop) (s s' : St σ) : Prop where
  same : ∀ k, ¬ K k → dictGet s'.sep k = dictGet s.sep k
  grows : ∀ k, (dictGet s.sep k).isSome → (dictGet s'.sep k).isSome

theorem CacheFrame.rfl' {K} {s : St σ} : CacheFrame K s s := ⟨fun _ _ => rfl, fun _ h => h⟩

theorem CacheFrame.of_eq {K} {s s' : St σ} (h : s'.sep = s.sep) : CacheFrame K s s' :=
  ⟨fun _ _ => by rw [h], fun _ hk => by rw [h]; exact hk⟩

theorem CacheFrame.trans {K K' L : List Nat → Prop} {a b c : St σ} (h1 : CacheFrame K a b)
    (h2 : CacheFrame K' b c) (hK : ∀ k, K k → L k) (hK' : ∀ k, K' k → L k) : CacheFrame L a c :=
  ⟨fun k hk => (h2.same k (fun h => hk (hK' k h))).trans (h1.same k (fun h => hk (hK k h))),
    fun k hk => h2.grows k (h1.grows k hk)⟩

theorem CacheFrame.mono {K L : List Nat → Prop} {a b : St σ} (h1 : CacheFrame K a b)
    (hK : ∀ k, K k → L k) : CacheFrame L a b :=
  ⟨fun k hk => h1.same k (fun h => hk (hK k h)), h1.grows⟩

theorem sepSearch_ok {W : World σ κ} {R} (ha : W.Allows R) (T X : Nat) (Zs : List (List Nat)) :
    ∀ (non : Bool) (s : St σ), Ok (sepSearch W T X Zs non) s (fun b s' =>
      CacheFrame (fun k => k = fkey [T, X]) s s' ∧
      (non = true → b = true) ∧
      (∃ Zs', Zs' <+: Zs ∧ s'.log = s.log ++ Zs'.map (fun Z => (X, T, Z))) ∧
      ((b = true ∧ ∃ Z ∈ Zs, R X T Z .independent ∧ dictGet s'.sep (fkey [T, X]) = some Z) ∨
       (s'.sep = s.sep ∧ (b = true → non = true ∨ ∃ Z ∈ Zs, R X T Z .insufficient) ∧
        (b = false → ∀ Z ∈ Zs, R X T Z .dependent)))) := by
  induction Zs with
  | nil =>
    intro non s
    exact Ok.ret ⟨.rfl', id, ⟨[], by simp, by simp⟩, Or.inr ⟨rfl, fun h => Or.inl h, by simp⟩⟩
  | cons Z Zs ih =>
    intro non s
    rw [sepSearch]
    refine Ok.andThen (ask_ok ha X T Z s) ?_
    rintro a s1 ⟨hR, hs1, hl1⟩
    cases a with
    | independent =>
      refine Ok.andThen (P := fun _ s2 => s2 = { s1 with sep := s1.sep.add Z [T, X] })
        (Ok.modify rfl) ?_
      rintro _ s2 rfl
      refine Ok.ret ⟨⟨?_, ?_⟩, fun _ => rfl, ⟨[Z], by simp, by simp [hl1]⟩, Or.inl ⟨rfl, Z, by simp, hR, ?_⟩⟩
      · intro k hk
        simp only [SetCache.add, dictGet_dictSet, hs1]
        rw [if_neg (fun h => hk h.symm)]
      · intro k hk
        simp only [SetCache.add, dictGet_dictSet, hs1]
        split
        · rfl
        · exact hk
      · simp [SetCache.add, dictGet_dictSet]
    | dependent =>
      refine (ih non s1).mono ?_
      rintro b s2 ⟨h1, h0, ⟨Zs', h2, h2'⟩, h3⟩
      refine ⟨(CacheFrame.of_eq hs1).trans h1 (fun _ h => h) (fun _ h => h), h0,
        ⟨Z :: Zs', by simpa using h2, by simp [h2', hl1]⟩, ?_⟩
      rcases h3 with ⟨h4, Z', h5, h6, h7⟩ | ⟨h4, h5, h6⟩
      · exact Or.inl ⟨h4, Z', by simp [h5], h6, h7⟩
      · refine Or.inr ⟨h4.trans hs1, ?_, ?_⟩
        · intro hb
          rcases h5 hb with h | ⟨Z', h, h'⟩
          · exact Or.inl h
          · exact Or.inr ⟨Z', by simp [h], h'⟩
        · intro hb Z' hZ'
          rcases List.mem_cons.1 hZ' with rfl | hZ'
          · exact hR
          · exact h6 hb Z' hZ'
    | insufficient =>
      refine (ih true s1).mono ?_
      rintro b s2 ⟨h1, h0, ⟨Zs', h2, h2'⟩, h3⟩
      refine ⟨(CacheFrame.of_eq hs1).trans h1 (fun _ h => h) (fun _ h => h),
        fun _ => h0 rfl, ⟨Z :: Zs', by simpa using h2, by simp [h2', hl1]⟩, ?_⟩
      rcases h3 with ⟨h4, Z', h5, h6, h7⟩ | ⟨h4, h5, h6⟩
      · exact Or.inl ⟨h4, Z', by simp [h5], h6, h7⟩
      · refine Or.inr ⟨h4.trans hs1, fun _ => Or.inr ⟨Z, by simp, hR⟩, ?_⟩
        intro hb
        rw [h0 rfl] at hb; cases hb

/-! ### RecognizePC -/

/-- The conditioning set `Z` is a duplicate-free subset of `adj` without `X`.
(Models no code: a notion for statements and proofs.) -/
def SubsetOf (adj : List Nat) (X : Nat) (Z : List Nat) : Prop :=
  Z.Nodup ∧ ∀ z ∈ Z, z ∈ adj ∧ z ≠ X

theorem sepDefault_ok (T X : Nat) (s : St σ) :
    Ok (sepDefault T X) s (fun _ s' => s'.log = s.log ∧
      CacheFrame (fun k => k = fkey [T, X]) s s' ∧
      (dictGet s'.sep (fkey [T, X])).isSome ∧
      ((dictGet s.sep (fkey [T, X])).isSome → s'.sep = s.sep)) := by
  refine Ok.modify ?_
  cases h : s.sep.contains [T, X] with
  | true => exact ⟨rfl, .rfl', by simpa [SetCache.contains] using h, fun _ => rfl⟩
  | false =>
    refine ⟨rfl, ⟨?_, ?_⟩, ?_, ?_⟩
    · intro k hk
      simp only [Bool.false_eq_true, if_false, SetCache.add, dictGet_dictSet]
      rw [if_neg (fun h => hk h.symm)]
    · intro k hk
      simp only [Bool.false_eq_true, if_false, SetCache.add, dictGet_dictSet]
      split
      · rfl
      · exact hk
    · simp [SetCache.add, dictGet_dictSet]
    · intro h'
      rw [SetCache.contains, h'] at h; cases h

/-- Why `X` was taken out of the adjacency of `T`: a separating set was found (and is what
the cache holds), or some test reported insufficient samples.
(Models no code: a notion for statements and proofs.) -/
def Removed (R : Nat → Nat → List Nat → Answer → Prop) (T : Nat) (adj : List Nat) (s : St σ)
    (X : Nat) : Prop :=
  (∃ Z, SubsetOf adj X Z ∧ R X T Z .independent ∧ dictGet s.sep (fkey [T, X]) = some Z) ∨
  (∃ Z, SubsetOf adj X Z ∧ R X T Z .insufficient)

theorem pcRound_ok {W : World σ κ} {R} (hf : W.Fair) (ha : W.Allows R) (T : Nat) {adj : List Nat}
    (hadj : adj.Nodup) (k : Nat) (Xs : List Nat) :
    ∀ (nonPC : List Nat) (s : St σ), Xs.Nodup → (∀ X ∈ Xs, X ∉ nonPC) →
      Ok (pcRound W T adj k Xs nonPC) s (fun r s' =>
        CacheFrame (fun key => ∃ X ∈ Xs, key = fkey [T, X]) s s' ∧
        (∀ X ∈ nonPC, X ∈ r) ∧ (∀ X ∈ r, X ∈ nonPC ∨ X ∈ Xs) ∧
        (∀ X ∈ Xs, (dictGet s'.sep (fkey [T, X])).isSome) ∧
        (∀ X ∈ Xs, X ∈ r → Removed R T adj s' X) ∧
        (∀ X ∈ Xs, X ∉ r → ∀ Z, SubsetOf adj X Z → Z.length = k →
          ∃ Z', Z'.Perm Z ∧ R X T Z' .dependent) ∧
        (∃ new, s'.log = s.log ++ new ∧ ∀ q ∈ new, q.1 ∈ Xs ∧ q.2.1 = T ∧
          SubsetOf adj q.1 q.2.2 ∧ q.2.2.length = k ∧
          (q.1 ∉ r → R q.1 T q.2.2 .dependent))) := by
  induction Xs with
  | nil =>
    intro nonPC s _ _
    exact Ok.ret ⟨.rfl', fun _ h => h, fun _ h => Or.inl h, by simp, by simp, by simp,
      ⟨[], by simp, by simp⟩⟩
  | cons X Xs ih =>
    intro nonPC s hn hd
    rw [pcRound]
    refine Ok.andThen (iter_ok hf (without adj X) s) ?_
    rintro base s1 ⟨hp, hs1, hl1⟩
    refine Ok.andThen (sepSearch_ok ha T X (combinations k base) false s1) ?_
    rintro b s2 ⟨f2, -, ⟨Zs', hpre, hlog⟩, h2⟩
    refine Ok.andThen (sepDefault_ok T X s2) ?_
    rintro _ s3 ⟨hl3, f3, hsome, hkeep⟩
    have hXs : X ∉ Xs := (List.nodup_cons.1 hn).1
    have hbase : base.Nodup := hp.nodup_iff.2 (nodup_without hadj X)
    have hsubset : ∀ Z ∈ combinations k base, SubsetOf adj X Z ∧ Z.length = k := by
      intro Z hZ
      obtain ⟨h1, h2⟩ := mem_combinations.1 hZ
      exact ⟨⟨hbase.sublist h1, fun z hz => mem_without.1 (hp.mem_iff.1 (h1.subset hz))⟩, h2⟩
    refine (ih (if b then setAdd nonPC X else nonPC) s3 (List.nodup_cons.1 hn).2 ?_).mono ?_
    · intro Y hY
      have hYX : Y ≠ X := by rintro rfl; exact hXs hY
      have hYn := hd Y (by simp [hY])
      split
      · rw [mem_setAdd]; tauto
      · exact hYn
    · rintro r s4 ⟨f4, g1, g2, g3, g4, g5, ⟨new, g6, g7⟩⟩
      have hkey : ∀ Y ∈ Xs, fkey [T, X] ≠ fkey [T, Y] := by
        intro Y hY h
        exact hXs (fkey_pair_left h ▸ hY)
      have hXr : X ∈ r ↔ b = true := by
        constructor
        · intro hx
          rcases g2 X hx with h | h
          · by_contra hb
            simp only [hb, if_false] at h
            exact hd X (by simp) h
          · exact absurd h hXs
        · intro hb
          apply g1
          simp [hb, mem_setAdd]
      have hX4 : dictGet s4.sep (fkey [T, X]) = dictGet s3.sep (fkey [T, X]) :=
        f4.same _ (by rintro ⟨Y, hY, h⟩; exact hkey Y hY h)
      have fAll : CacheFrame (fun key => ∃ Y ∈ X :: Xs, key = fkey [T, Y]) s s4 := by
        have f12 : CacheFrame (fun key => key = fkey [T, X]) s s3 :=
          ((CacheFrame.of_eq (K := fun key => key = fkey [T, X]) hs1).trans f2 (fun _ h => h)
            (fun _ h => h)).trans f3 (fun _ h => h) (fun _ h => h)
        refine f12.trans f4 ?_ ?_
        · intro key h; exact ⟨X, by simp, h⟩
        · rintro key ⟨Y, hY, h⟩; exact ⟨Y, by simp [hY], h⟩
      refine ⟨fAll, ?_, ?_, ?_, ?_, ?_, ?_⟩
      · intro Y hY; apply g1
        split
        · rw [mem_setAdd]; exact Or.inl hY
        · exact hY
      · intro Y hY
        rcases g2 Y hY with h | h
        · by_cases hb : b = true
          · simp only [hb, if_true, mem_setAdd] at h
            rcases h with h | rfl
            · exact Or.inl h
            · exact Or.inr (by simp)
          · simp only [hb] at h; exact Or.inl h
        · exact Or.inr (by simp [h])
      · intro Y hY
        rcases List.mem_cons.1 hY with rfl | hY
        · exact f4.grows _ hsome
        · exact g3 Y hY
      · intro Y hY hYr
        rcases List.mem_cons.1 hY with rfl | hY
        · have hb := hXr.1 hYr
          rcases h2 with ⟨-, Z, hZ, hR, hget⟩ | ⟨-, h, -⟩
          · refine Or.inl ⟨Z, (hsubset Z hZ).1, hR, ?_⟩
            rw [hX4, hkeep (by simp [hget]), hget]
          · rcases h hb with h | ⟨Z, hZ, hR⟩
            · cases h
            · exact Or.inr ⟨Z, (hsubset Z hZ).1, hR⟩
        · exact g4 Y hY hYr
      · intro Y hY hYr Z hZ hZk
        rcases List.mem_cons.1 hY with rfl | hY
        · have hb : b = false := by
            cases b with
            | false => rfl
            | true => exact absurd (hXr.2 rfl) hYr
          rcases h2 with ⟨h, -⟩ | ⟨-, -, h⟩
          · rw [hb] at h; cases h
          · obtain ⟨Z', h1, h2⟩ := combinations_cover hbase hZ.1
              (fun z hz => hp.mem_iff.2 (mem_without.2 (hZ.2 z hz))) hZk
            exact ⟨Z', h2, h hb Z' h1⟩
        · exact g5 Y hY hYr Z hZ hZk
      · refine ⟨Zs'.map (fun Z => (X, T, Z)) ++ new, by rw [g6, hl3, hlog, hl1]; simp, ?_⟩
        intro q hq
        rcases List.mem_append.1 hq with hq | hq
        · obtain ⟨Z, hZ, rfl⟩ := List.mem_map.1 hq
          have := hsubset Z (hpre.subset hZ)
          refine ⟨by simp, rfl, this.1, this.2, fun hXn => ?_⟩
          dsimp only at hXn
          rcases h2 with ⟨h, -⟩ | ⟨-, -, h⟩
          · exact absurd (hXr.2 h) hXn
          · refine h ?_ Z (hpre.subset hZ)
            cases b with
            | false => rfl
            | true => exact absurd (hXr.2 rfl) hXn
        · obtain ⟨h1, h2⟩ := g7 q hq
          exact ⟨by simp [h1], h2⟩

theorem SubsetOf.mono {a b : List Nat} {X : Nat} {Z : List Nat} (h : SubsetOf a X Z)
    (hab : ∀ x ∈ a, x ∈ b) : SubsetOf b X Z := ⟨h.1, fun z hz => ⟨hab z (h.2 z hz).1, (h.2 z hz).2⟩⟩

/-- Sizes of the conditioning sets never decrease along the log.
(Models no code: a notion for statements and proofs.) -/
def SizesAscend (l : List Query) : Prop := l.Pairwise (fun q q' => q.2.2.length ≤ q'.2.2.length)

/-- Once a test has shown a variable not to be adjacent (at some size), the variable is
neither tested again nor conditioned on at any larger size.
(Models no code: a notion for statements and proofs.) -/
def DropsSeparated (R : Nat → Nat → List Nat → Answer → Prop) (T : Nat) (l : List Query) : Prop :=
  ∀ q ∈ l, ∀ q' ∈ l, q.2.2.length < q'.2.2.length → (q.1 = q'.1 ∨ q.1 ∈ q'.2.2) →
    R q.1 T q.2.2 .dependent

theorem pcLoop_ok {W : World σ κ} {R} (hf : W.Fair) (ha : W.Allows R) (T : Nat) (fuel : Nat) :
    ∀ (k : Nat) (adj : List Nat) (s : St σ), adj.Nodup → adj.length ≤ fuel + k → 0 < fuel →
      Ok (pcLoop W T fuel k adj) s (fun r s' =>
        CacheFrame (fun key => ∃ X ∈ adj, key = fkey [T, X]) s s' ∧
        r.Nodup ∧ (∀ X ∈ r, X ∈ adj) ∧
        (∀ X ∈ adj, (dictGet s'.sep (fkey [T, X])).isSome) ∧
        (∀ X ∈ adj, X ∉ r → Removed R T adj s' X) ∧
        (∀ X ∈ r, ∀ Z, SubsetOf r X Z → k ≤ Z.length → ∃ Z', Z'.Perm Z ∧ R X T Z' .dependent) ∧
        (∃ new, s'.log = s.log ++ new ∧ SizesAscend new ∧ DropsSeparated R T new ∧
          ∀ q ∈ new, q.1 ∈ adj ∧ q.2.1 = T ∧
          SubsetOf adj q.1 q.2.2 ∧ k ≤ q.2.2.length)) := by
  induction fuel with
  | zero => intro k adj s _ _ h; omega
  | succ fuel ih =>
    intro k adj s hn hlen _
    rw [pcLoop]
    refine Ok.andThen (iter_ok hf adj s) ?_
    rintro l s1 ⟨hp, hs1, hl1⟩
    refine Ok.andThen (pcRound_ok hf ha T hn k l [] s1 (hp.nodup_iff.2 hn) (by simp)) ?_
    rintro nonPC s2 ⟨f2, -, g2, g3, g4, g5, ⟨new, g6, g7⟩⟩
    have fS : CacheFrame (fun key => ∃ X ∈ adj, key = fkey [T, X]) s s2 := by
      refine (CacheFrame.of_eq (K := fun _ => False) hs1).trans f2 (fun _ h => h.elim) ?_
      rintro key ⟨X, hX, h⟩; exact ⟨X, hp.mem_iff.1 hX, h⟩
    have hnew : SizesAscend new := by
      rw [SizesAscend, List.pairwise_iff_forall_sublist]
      intro a b hab
      have h1 := (g7 a (hab.subset (by simp))).2.2.2.1
      have h2 := (g7 b (hab.subset (by simp))).2.2.2.1
      omega
    have hnew2 : ∀ q ∈ new, q.1 ∈ adj ∧ q.2.1 = T ∧ SubsetOf adj q.1 q.2.2 ∧ q.2.2.length = k :=
      fun q hq => ⟨hp.mem_iff.1 (g7 q hq).1, (g7 q hq).2.1, (g7 q hq).2.2.1, (g7 q hq).2.2.2.1⟩
    have hnew3 : ∀ q ∈ new, q.1 ∈ diff adj nonPC → R q.1 T q.2.2 .dependent :=
      fun q hq hd => (g7 q hq).2.2.2.2 (mem_diff.1 hd).2
    have hsubadj : ∀ X ∈ diff adj nonPC, X ∈ adj := fun X hX => (mem_diff.1 hX).1
    have hdep : ∀ X ∈ diff adj nonPC, ∀ Z, SubsetOf adj X Z → Z.length = k →
        ∃ Z', Z'.Perm Z ∧ R X T Z' .dependent := by
      intro X hX Z hZ hk
      exact g5 X (hp.mem_iff.2 (mem_diff.1 hX).1) (mem_diff.1 hX).2 Z hZ hk
    dsimp only
    by_cases hstop : (diff adj nonPC).length ≤ k + 1
    · rw [if_pos hstop]
      refine Ok.ret ⟨fS, nodup_diff hn _, hsubadj, fun X hX => g3 X (hp.mem_iff.2 hX), ?_, ?_,
        ⟨new, by rw [g6, hl1], hnew, ?_, fun q hq => ?_⟩⟩
      · intro X hX hXr
        have : X ∈ nonPC := by
          by_contra h; exact hXr (mem_diff.2 ⟨hX, h⟩)
        exact g4 X (hp.mem_iff.2 hX) this
      · intro X hX Z hZ hk
        -- `Z` misses `X`, so it is smaller than the remaining adjacency
        have hlt : Z.length < (diff adj nonPC).length := by
          have hsp : (X :: Z).Subperm (diff adj nonPC) := by
            refine List.Nodup.subperm (List.nodup_cons.2 ⟨fun h => (hZ.2 X h).2 rfl, hZ.1⟩) ?_
            intro z hz
            rcases List.mem_cons.1 hz with rfl | hz
            · exact hX
            · exact (hZ.2 z hz).1
          have := hsp.length_le
          simp at this; omega
        exact hdep X hX Z (hZ.mono hsubadj) (by omega)
      · intro q hq q' hq' hlt
        have h1 := (hnew2 q hq).2.2.2
        have h2 := (hnew2 q' hq').2.2.2
        omega
      · have := hnew2 q hq; exact ⟨this.1, this.2.1, this.2.2.1, by omega⟩
    · rw [if_neg hstop]
      have hle : (diff adj nonPC).length ≤ adj.length := List.length_filter_le _ _
      refine (ih (k + 1) (diff adj nonPC) s2 (nodup_diff hn _) (by omega) (by omega)).mono ?_
      rintro r s3 ⟨f3, k1, k2, k3, k4, k5, ⟨new', k6, k7, k7', k8⟩⟩
      have hframe : ∀ X ∈ adj, X ∉ diff adj nonPC →
          dictGet s3.sep (fkey [T, X]) = dictGet s2.sep (fkey [T, X]) := by
        intro X _ hX
        apply f3.same
        rintro ⟨Y, hY, h⟩
        exact hX (fkey_pair_left h ▸ hY)
      refine ⟨?_, k1, fun X hX => hsubadj X (k2 X hX), ?_, ?_, ?_, ?_⟩
      · refine fS.trans f3 (fun _ h => h) ?_
        rintro key ⟨X, hX, h⟩; exact ⟨X, hsubadj X hX, h⟩
      · intro X hX; exact f3.grows _ (g3 X (hp.mem_iff.2 hX))
      · intro X hX hXr
        by_cases hXd : X ∈ diff adj nonPC
        · rcases k4 X hXd hXr with ⟨Z, h1, h2, h3⟩ | ⟨Z, h1, h2⟩
          · exact Or.inl ⟨Z, h1.mono hsubadj, h2, h3⟩
          · exact Or.inr ⟨Z, h1.mono hsubadj, h2⟩
        · have : X ∈ nonPC := by
            by_contra h; exact hXd (mem_diff.2 ⟨hX, h⟩)
          rcases g4 X (hp.mem_iff.2 hX) this with ⟨Z, h1, h2, h3⟩ | h
          · exact Or.inl ⟨Z, h1, h2, by rw [hframe X hX hXd, h3]⟩
          · exact Or.inr h
      · intro X hX Z hZ hk
        by_cases hk' : Z.length = k
        · exact hdep X (k2 X hX) Z (hZ.mono (fun x hx => hsubadj x (k2 x hx))) hk'
        · exact k5 X hX Z hZ (by omega)
      · refine ⟨new ++ new', by rw [k6, g6, hl1]; simp, ?_, ?_, ?_⟩
        · rw [SizesAscend, List.pairwise_append]
          refine ⟨hnew, k7, ?_⟩
          intro a ha b hb
          have h1 := (hnew2 a ha).2.2.2
          have h2 := (k8 b hb).2.2.2
          omega
        · intro q hq q' hq' hlt hin
          rcases List.mem_append.1 hq with hq | hq <;> rcases List.mem_append.1 hq' with hq' | hq'
          · have h1 := (hnew2 q hq).2.2.2
            have h2 := (hnew2 q' hq').2.2.2
            omega
          · refine hnew3 q hq ?_
            have h2 := k8 q' hq'
            rcases hin with h | h
            · rw [h]; exact h2.1
            · exact (h2.2.2.1.2 _ h).1
          · have h1 := (k8 q hq).2.2.2
            have h2 := (hnew2 q' hq').2.2.2
            omega
          · exact k7' q hq q' hq' hlt hin
        · intro q hq
          rcases List.mem_append.1 hq with hq | hq
          · have := hnew2 q hq; exact ⟨this.1, this.2.1, this.2.2.1, by omega⟩
          · have := k8 q hq
            exact ⟨hsubadj _ this.1, this.2.1, this.2.2.1.mono hsubadj, by omega⟩

/-- Everything `RecognizePC(T, adj)` guarantees, for any CI test.
(Models no code: a notion for statements and proofs.) -/
structure PCSpec (R : Nat → Nat → List Nat → Answer → Prop) (T : Nat) (adj : List Nat)
    (s : St σ) (r : List Nat) (s' : St σ) : Prop where
  frame : CacheFrame (fun key => ∃ X ∈ adj, key = fkey [T, X]) s s'
  nodup : r.Nodup
  sub : ∀ X ∈ r, X ∈ adj
  present : ∀ X ∈ adj, (dictGet s'.sep (fkey [T, X])).isSome
  removed : ∀ X ∈ adj, X ∉ r → Removed R T adj s' X
  kept : ∀ X ∈ r, ∀ Z, SubsetOf r X Z → ∃ Z', Z'.Perm Z ∧ R X T Z' .dependent
  logged : ∃ new, s'.log = s.log ++ new ∧ SizesAscend new ∧ DropsSeparated R T new ∧
    ∀ q ∈ new, q.1 ∈ adj ∧ q.2.1 = T ∧ SubsetOf adj q.1 q.2.2

theorem recognizePC_ok {W : World σ κ} {R} (hf : W.Fair) (ha : W.Allows R) (T : Nat)
    {adj : List Nat} (hn : adj.Nodup) (s : St σ) :
    Ok (recognizePC W T adj) s (PCSpec R T adj s) := by
  refine (pcLoop_ok hf ha T (adj.length + 1) 0 adj s hn (by omega) (by omega)).mono ?_
  rintro r s' ⟨h1, h2, h3, h4, h5, h6, ⟨new, h7, h8, h8', h9⟩⟩
  exact ⟨h1, h2, h3, h4, h5, fun X hX Z hZ => h6 X hX Z hZ (Nat.zero_le _),
    ⟨new, h7, h8, h8', fun q hq => ⟨(h9 q hq).1, (h9 q hq).2.1, (h9 q hq).2.2.1⟩⟩⟩

end Mbtk.MB
