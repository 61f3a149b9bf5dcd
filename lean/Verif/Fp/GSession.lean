import Verif.Fp.GTest
/-!
# CI tests in floating point: what a call answers and logs, for any history of calls

Common to the three kinds of test (C83, C84, C85).
-/
namespace Mbtk.Fp
open Mbtk Mbtk.Stats Mbtk.Stats.Spec
open Mbtk.ADTree (Data)
open Mbtk.MB (Answer)

/-! ## Specification -/

/-- `r` is the log entry number `index` of the test of `X` and `Y` given `Z`, when the statistic may be
off by `ε`: everything that does not depend on the statistic is as in `IsEntry` (C31), the p-value is
the one of the logged statistic, and so is the decision. (Specification.) -/
structure NearEntry (D : Data) (cfg : Config) (ε : ℝ) (index X Y : Nat) (Z : List Nat) (r : Result) :
    Prop where
  number : r.index = index
  argX : r.X = X
  argY : r.Y = Y
  argZ : r.Z = Z
  dofs : r.dof = dofOf D cfg.kind X Y Z
  dSeparated : r.dSeparated = cfg.sourceBn.map (fun bn => bn X Z Y)
  insufficient : r.insufficient = true ↔ ¬ Enough D cfg X Y Z
  undecided : ¬ Enough D cfg X Y Z → r.independent = none ∧ r.dependent = none ∧
    r.statistic = -1 ∧ r.pValue = -1 ∧ r.significance = none
  decided : Enough D cfg X Y Z → |r.statistic - G D X Y Z| ≤ ε ∧
    r.pValue = cfg.cdf r.statistic (dofOf D cfg.kind X Y Z) ∧
    r.significance = some cfg.significance ∧
    (r.independent = some true ∨ r.independent = some false) ∧
    (r.independent = some true ↔ r.pValue < cfg.significance) ∧
    (r.dependent = some true ↔ cfg.significance ≤ r.pValue) ∧
    (r.dependent = some true ∨ r.dependent = some false)

/-- `a` is the answer that goes with the log entry `r`. (Specification.) -/
structure AnswerOf (D : Data) (cfg : Config) (X Y : Nat) (Z : List Nat) (r : Result) (a : Answer) :
    Prop where
  insufficient : a = .insufficient ↔ ¬ Enough D cfg X Y Z
  independent : a = .independent ↔ Enough D cfg X Y Z ∧ r.pValue < cfg.significance
  dependent : a = .dependent ↔ Enough D cfg X Y Z ∧ cfg.significance ≤ r.pValue

/-- The answers and the log of a history of calls, the statistic of the call `c` being off by at most
`ε c`. (Specification.) -/
def IsRun (D : Data) (cfg : Config) (ε : Call → ℝ) : Nat → List Call → List Answer → List Result → Prop
  | _, [], [], [] => True
  | start, c :: cs, a :: as, r :: rs => NearEntry D cfg (ε c) (start + 1) c.1 c.2.1 c.2.2 r ∧
      AnswerOf D cfg c.1 c.2.1 c.2.2 r a ∧ IsRun D cfg ε (start + 1) cs as rs
  | _, _, _, _ => False

/-- The threshold is not within `ε` of the statistic: a statistic larger by `ε` is still below it, or a
statistic smaller by `ε` still reaches it. (Specification.) -/
def Clear (D : Data) (cfg : Config) (ε : ℝ) (c : Call) : Prop :=
  cfg.cdf (G D c.1 c.2.1 c.2.2 + ε) (dofOf D cfg.kind c.1 c.2.1 c.2.2) < cfg.significance ∨
  cfg.significance ≤ cfg.cdf (G D c.1 c.2.1 c.2.2 - ε) (dofOf D cfg.kind c.1 c.2.1 c.2.2)

/-! ## One call -/

/-- The result logged when the statistic comes out as `g`.
(Models no code: a notion for statements and proofs.) -/
noncomputable def resultWith (D : Data) (cfg : Config) (counter : Nat) (c : Call) (g : ℝ) : Result :=
  { makeResult cfg D.nrows counter c.1 c.2.1 c.2.2 g (dofOf D cfg.kind c.1 c.2.1 c.2.2) with
    dSeparated := cfg.sourceBn.map (fun bn => bn c.1 c.2.2 c.2.1) }

theorem resultWith_entry (D : Data) (cfg : Config) (counter : Nat) (c : Call) {g ε : ℝ}
    (hg : |g - G D c.1 c.2.1 c.2.2| ≤ ε) :
    NearEntry D cfg ε (counter + 1) c.1 c.2.1 c.2.2 (resultWith D cfg counter c g) := by
  obtain ⟨X, Y, Z⟩ := c
  unfold resultWith makeResult
  by_cases h : Enough D cfg X Y Z
  · have hs := (enough_iff D cfg X Y Z).2 h
    simp only [hs, not_true_eq_false, if_false]
    constructor <;> first | rfl | skip
    · simp [h]
    · intro h'; exact absurd h h'
    · intro _
      refine ⟨hg, rfl, rfl, ?_, ?_, ?_, ?_⟩
      · dsimp only
        cases decide (cfg.cdf g (dofOf D cfg.kind X Y Z) < cfg.significance) <;> simp
      · simp
      · simp
      · dsimp only
        cases decide (cfg.cdf g (dofOf D cfg.kind X Y Z) < cfg.significance) <;> simp
  · have hs : ¬ sufficientSamples cfg D.nrows (dofOf D cfg.kind X Y Z : Int) = true :=
      fun h' => h ((enough_iff D cfg X Y Z).1 h')
    simp only [hs]
    constructor <;> first | rfl | skip
    · simp [h]
    · intro _; exact ⟨rfl, rfl, rfl, rfl, rfl⟩
    · intro h'; exact absurd h' h

theorem answerOf_entry {D : Data} {cfg : Config} {ε : ℝ} {i X Y : Nat} {Z : List Nat} {r : Result}
    (h : NearEntry D cfg ε i X Y Z r) :
    AnswerOf D cfg X Y Z r (if r.insufficient then .insufficient
      else if r.independent = some true then .independent else .dependent) := by
  by_cases he : Enough D cfg X Y Z
  · have hi : r.insufficient = false := by
      cases hb : r.insufficient with
      | false => rfl
      | true => exact absurd he (h.insufficient.1 hb)
    obtain ⟨_, _, _, h1, h2, h3, _⟩ := h.decided he
    by_cases hp : r.pValue < cfg.significance
    · have := h2.2 hp
      constructor <;> simp [hi, this, he, hp]
    · have hne : r.independent ≠ some true := fun e => hp (h2.1 e)
      constructor <;> simp [hi, hne, he, not_lt.1 hp]
  · have hi := h.insufficient.2 he
    constructor <;> simp [hi, he]

/-- One call, whatever the kind of test. -/
theorem call_near {σ : Type} {D : Data} {cfg : Config}
    {test : Nat → Nat → List Nat → PyM σ Result} {log : Result → σ → σ} {c : Call} {s : σ}
    {counter : Nat} {ε : ℝ} {P : σ → Prop}
    (h : Ok (test c.1 c.2.1 c.2.2) s (fun r s' => ∃ g : ℝ, |g - G D c.1 c.2.1 c.2.2| ≤ ε ∧
      r = makeResult cfg D.nrows counter c.1 c.2.1 c.2.2 g (dofOf D cfg.kind c.1 c.2.1 c.2.2) ∧ P s')) :
    Ok (conditionallyIndependent cfg test log c.1 c.2.1 c.2.2) s (fun a s' =>
      ∃ r s1, NearEntry D cfg ε (counter + 1) c.1 c.2.1 c.2.2 r ∧ AnswerOf D cfg c.1 c.2.1 c.2.2 r a ∧
        P s1 ∧ s' = log r s1) := by
  unfold conditionallyIndependent
  refine Ok.bind (h.mono ?_)
  rintro r s1 ⟨g, hg, rfl, hP⟩
  have hres : (match cfg.sourceBn with
      | some bn => { makeResult cfg D.nrows counter c.1 c.2.1 c.2.2 g
        (dofOf D cfg.kind c.1 c.2.1 c.2.2) with dSeparated := some (bn c.1 c.2.2 c.2.1) }
      | none => makeResult cfg D.nrows counter c.1 c.2.1 c.2.2 g
        (dofOf D cfg.kind c.1 c.2.1 c.2.2)) = resultWith D cfg counter c g := by
    unfold resultWith
    cases cfg.sourceBn with
    | some bn => rfl
    | none =>
      have : ∀ N k x y z g d, (makeResult cfg N k x y z g d).dSeparated = none := by
        intro N k x y z g d
        unfold makeResult
        split <;> rfl
      have h := this D.nrows counter c.1 c.2.1 c.2.2 g (dofOf D cfg.kind c.1 c.2.1 c.2.2)
      generalize makeResult cfg D.nrows counter c.1 c.2.1 c.2.2 g
        (dofOf D cfg.kind c.1 c.2.1 c.2.2) = r at h ⊢
      cases r
      simp only at h
      subst h
      rfl
  have he := resultWith_entry D cfg counter c hg
  have ha := answerOf_entry he
  refine Ok.bind (Ok.modify (Ok.ret ⟨resultWith D cfg counter c g, s1, he, ?_, hP,
    congrArg (fun r => log r s1) hres⟩))
  rw [← hres] at ha ⊢
  exact ha

/-! ## Histories -/

theorem session_near {σ : Type} {D : Data} {cfg : Config} {ε : Call → ℝ} (call : Call → PyM σ Answer)
    (base : σ → Base) (Inv : List Call → σ → Prop) (valid : Call → Prop)
    (step : ∀ done c s, valid c → Inv done s → Ok (call c) s (fun a s' =>
      ∃ r, NearEntry D cfg (ε c) ((base s).counter + 1) c.1 c.2.1 c.2.2 r ∧
      AnswerOf D cfg c.1 c.2.1 c.2.2 r a ∧ Inv (done ++ [c]) s' ∧
      (base s').counter = (base s).counter + 1 ∧
      (base s').results = (base s).results ++ [r]))
    (calls done : List Call) (s : σ) (hv : ∀ c ∈ calls, valid c) (hs : Inv done s) :
    Ok (mapList call calls) s (fun as s' => ∃ rs, IsRun D cfg ε (base s).counter calls as rs ∧
      Inv (done ++ calls) s' ∧
      (base s').counter = (base s).counter + calls.length ∧
      (base s').results = (base s).results ++ rs) := by
  induction calls generalizing done s with
  | nil => exact Ok.ret ⟨[], trivial, by simpa using hs, by simp, by simp⟩
  | cons c calls ih =>
    refine Ok.bind ((step done c s (hv c (by simp)) hs).mono ?_)
    rintro a s1 ⟨r, h1, h1', h2, h3, h4⟩
    refine Ok.bind ((ih (done ++ [c]) s1 (fun c hc => hv c (List.mem_cons_of_mem _ hc)) h2).mono ?_)
    rintro as s2 ⟨rs, g1, g2, g3, g4⟩
    rw [h3] at g1
    refine Ok.ret ⟨r :: rs, ⟨h1, h1', g1⟩, by simpa using g2, ?_, ?_⟩
    · rw [g3, h3, List.length_cons]; omega
    · rw [g4, h4, List.append_assoc]; rfl

/-! ## When rounding does not matter -/

/-- A monotone distribution function, and a threshold that is not within the error of the statistic:
the answer is the right one. -/
theorem right_answer {D : Data} {cfg : Config} {ε : ℝ} {i : Nat} {c : Call} {r : Result} {a : Answer}
    (hmono : ∀ k, Monotone (fun g => cfg.cdf g k)) (hc : Clear D cfg ε c)
    (he : NearEntry D cfg ε i c.1 c.2.1 c.2.2 r) (ha : AnswerOf D cfg c.1 c.2.1 c.2.2 r a) :
    IsAnswer D cfg c.1 c.2.1 c.2.2 a := by
  by_cases hen : Enough D cfg c.1 c.2.1 c.2.2
  · obtain ⟨h1, h2, _⟩ := he.decided hen
    obtain ⟨l1, l2⟩ := abs_le.1 h1
    have hε : 0 ≤ ε := (abs_nonneg _).trans h1
    have hiff : r.pValue < cfg.significance ↔ pValue D cfg c.1 c.2.1 c.2.2 < cfg.significance := by
      rw [h2]
      unfold pValue
      rcases hc with hc | hc
      · exact ⟨fun _ => lt_of_le_of_lt (hmono _ (by linarith)) hc,
          fun _ => lt_of_le_of_lt (hmono _ (by linarith)) hc⟩
      · have a1 : cfg.significance ≤ cfg.cdf r.statistic (dofOf D cfg.kind c.1 c.2.1 c.2.2) :=
          hc.trans (hmono _ (by linarith))
        have a2 : cfg.significance ≤ cfg.cdf (G D c.1 c.2.1 c.2.2) (dofOf D cfg.kind c.1 c.2.1 c.2.2) :=
          hc.trans (hmono _ (by linarith))
        exact ⟨fun h => absurd h (not_lt.2 a1), fun h => absurd h (not_lt.2 a2)⟩
    refine ⟨ha.insufficient, ?_, ?_⟩
    · rw [ha.independent, hiff]
    · rw [ha.dependent, ← not_lt, hiff, not_lt]
  · have hi := ha.insufficient.2 hen
    subst hi
    constructor <;> simp [hen]

theorem run_answers {D : Data} {cfg : Config} {ε : Call → ℝ}
    (hmono : ∀ k, Monotone (fun g => cfg.cdf g k)) {start : Nat} {calls : List Call}
    {answers : List Answer} {results : List Result}
    (hrun : IsRun D cfg ε start calls answers results) (hc : ∀ c ∈ calls, Clear D cfg (ε c) c) :
    AreAnswers D cfg calls answers := by
  induction calls generalizing start answers results with
  | nil =>
    match answers, results, hrun with
    | [], [], _ => trivial
  | cons c calls ih =>
    match answers, results, hrun with
    | a :: as, r :: rs, ⟨h1, h2, h3⟩ =>
      exact ⟨right_answer hmono (hc c (by simp)) h1 h2, ih h3 (fun c hm => hc c (by simp [hm]))⟩

end Mbtk.Fp
