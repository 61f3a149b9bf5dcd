import Verif.Exp.RestructureProps
import Verif.Exp.DcmiSetup
/-!
# C94, continued: the set-up of the experiment finds the restructured results
-/
namespace Mbtk.Exp.Restructure
open Mbtk Mbtk.Dataset Mbtk.Exp
open Mbtk.DsepSetup (subfolder)

/-- The folders for which the set-up of the experiment asks its definition, except the plots:
expsetup.py (experiment_dcmi) 49-55; and the one for logs: ExperimentRun.py 27.  (Specification.) -/
def usedFolders : List Str := ["algorithm_run_datapoints".toList, "adtrees".toList, "adtree_analysis".toList,
  "jht".toList, "dof_cache".toList, "ci_test_results".toList, "summaries".toList,
  "algorithm_run_logs".toList]

/-- The folder of a subexperiment in the old layout: repository, then the name of the experiment, an
underscore, and the name of the subexperiment. restructure.py 40-46. (Specification.) -/
def oldFolder (S : DcmiSetup.Setup) : Path :=
  S.root ++ ["exprun_repository".toList, "dcMIEvExpII_".toList ++ (DcmiSetup.definition S).sub]

theorem sub_literal (n : Str) : sub n = "dcMIEvExpII_".toList ++ n := by
  have : subPrefix = "dcMIEvExpII_".toList := by decide
  unfold sub
  rw [this]

theorem used_data : ∀ D ∈ usedFolders, D ∈ dataFolders := by decide +kernel

theorem definition_sub_ne (S : DcmiSetup.Setup) : (DcmiSetup.definition S).sub ≠ [] := by
  unfold DcmiSetup.definition
  simp

theorem subfolder_eq (S : DcmiSetup.Setup) (D : Str) (r : Path) :
    subfolder (DcmiSetup.definition S) D ++ r = (S.root ++ ["exprun_repository".toList]) ++
      (expName :: D :: (DcmiSetup.definition S).sub :: r) := by
  unfold subfolder
  have : (DcmiSetup.definition S).path = S.root ++ ["exprun_repository".toList] ++ [expName] := by
    rw [List.append_assoc]
    rfl
  rw [this]
  simp only [List.append_assoc, List.cons_append, List.nil_append]

theorem data_file_moved {h h' : Disk} (ht : Tree h) (hr : Restructured h h') {S D : Str} (hS : S ≠ [])
    (hD : D ∈ dataFolders) {r : Path} {c : Str} (hc : h (sub S :: D :: r) = some (.file c)) :
    h' (expName :: D :: S :: r) = some (.file c) ∧ h' (sub S :: D :: r) = none := by
  refine ⟨?_, hr.dataGone S D r hS hD⟩
  rw [hr.data S D r hS hD, hc]
  rcases r with _ | ⟨y, ys⟩
  · rw [hc]; simp
  · have h1 := ht.below (p := [sub S, D]) (r := y :: ys) (List.cons_ne_nil _ _) (by
      show h (sub S :: D :: y :: ys) ≠ none
      rw [hc]; simp)
    rw [h1]; simp

/-- **C94** (the results are found).  After restructuring, everything that the old layout held in a data folder
of the subexperiment is in the folder of the same name that the set-up of the experiment uses, and no longer in the old
one. -/
theorem restructured_results_found {iterdir : Fs → Path → List Str} (hi : Lists iterdir)
    (S : DcmiSetup.Setup) {fs : Fs}
    (hs : Sound (rel (S.root ++ ["exprun_repository".toList]) fs))
    (ha : Above (S.root ++ ["exprun_repository".toList]) fs) {b : Option Nat}
    (hd : (restructure iterdir (S.root ++ ["exprun_repository".toList]) b fs).2.2 = .done)
    {D : Str} (hD : D ∈ usedFolders) {r : Path} {c : Str}
    (hc : dictGet fs (oldFolder S ++ D :: r) = some (.file c)) :
    dictGet (restructure iterdir (S.root ++ ["exprun_repository".toList]) b fs).2.1
      (subfolder (DcmiSetup.definition S) D ++ r) = some (.file c) ∧
    dictGet (restructure iterdir (S.root ++ ["exprun_repository".toList]) b fs).2.1
      (oldFolder S ++ D :: r) = none := by
  have hD' : D ∈ dataFolders := used_data D hD
  have hr := restructure_result hi hs ha hd
  have hp : ∀ x : Path, oldFolder S ++ x =
      (S.root ++ ["exprun_repository".toList]) ++ sub (DcmiSetup.definition S).sub :: x := by
    intro x
    rw [sub_literal]
    simp [oldFolder]
  have hc' : rel (S.root ++ ["exprun_repository".toList]) fs (sub (DcmiSetup.definition S).sub :: D :: r) =
      some (.file c) := by
    unfold rel
    rw [← hp]
    exact hc
  have hdm := data_file_moved (S := (DcmiSetup.definition S).sub) (D := D) (r := r) (c := c) hs.tree hr
    (definition_sub_ne S) hD' hc'
  obtain ⟨h1, h2⟩ := hdm
  refine ⟨?_, ?_⟩
  · rw [subfolder_eq]
    exact h1
  · rw [hp]
    exact h2

/-- **C94** (what is not promised).  The plots are not among the moved folders: they stay in the old folder,
where the set-up does not look. -/
theorem plots_not_moved {iterdir : Fs → Path → List Str} (hi : Lists iterdir)
    (S : DcmiSetup.Setup) {fs : Fs}
    (hs : Sound (rel (S.root ++ ["exprun_repository".toList]) fs))
    (ha : Above (S.root ++ ["exprun_repository".toList]) fs) {b : Option Nat}
    (hd : (restructure iterdir (S.root ++ ["exprun_repository".toList]) b fs).2.2 = .done)
    {r : Path} {c : Str} (hc : dictGet fs (oldFolder S ++ "plots".toList :: r) = some (.file c)) :
    dictGet (restructure iterdir (S.root ++ ["exprun_repository".toList]) b fs).2.1
      (oldFolder S ++ "plots".toList :: r) = some (.file c) := by
  have hr := restructure_result hi hs ha hd
  have hp : ∀ x : Path, oldFolder S ++ x =
      (S.root ++ ["exprun_repository".toList]) ++ sub (DcmiSetup.definition S).sub :: x := by
    intro x
    rw [sub_literal]
    simp [oldFolder]
  have hpl : "plots".toList ∉ dataFolders := by decide
  have hlk : ¬ lockedPrefix <+: "plots".toList := by decide
  generalize "plots".toList = P at *
  have h2 := hr.rest (sub (DcmiSetup.definition S).sub :: P :: r) (by
      intro S' D x hS' hD
      refine ⟨?_, fun _ => by simp [sub_ne]⟩
      intro h3
      simp only [List.cons.injEq] at h3
      exact hpl (h3.2.1 ▸ hD)) (by
      intro S' n c' hS' hn hc'
      refine ⟨?_, by simp [sub_ne], by simp [sub_ne]⟩
      intro h3
      simp only [List.cons.injEq] at h3
      exact hlk (h3.2.1 ▸ hn)) (by simp) (by intro D _; simp [sub_ne]) (by intro _; simp [sub_ne])
  unfold rel at h2
  rw [hp, h2, ← hp]
  exact hc

/-- A set-up and a repository with results of its subexperiment. -/
example : let S : DcmiSetup.Setup := ⟨[], "alarm".toList, "4e3".toList, 4000⟩
    S.root ++ ["exprun_repository".toList] = exRepo ∧
    dictGet exFs (oldFolder S ++ ["jht".toList, "jht.pickle".toList]) = some (.file "tables".toList) ∧
    dictGet (restructure children exRepo none exFs).2.1
      (subfolder (DcmiSetup.definition S) "jht".toList ++ ["jht.pickle".toList]) =
        some (.file "tables".toList) := by decide +kernel

end Mbtk.Exp.Restructure
