import Verif.Exp.RunProps
import Verif.Exp.Index
/-!
# Model of the commands of an experiment script (C71)

`mbtk/utilities/experiment.py`: `handle_command` and the commands.  Every invocation of the script
handles one command and ends; what it leaves behind is the file system.

Simplifications: what is printed is a list of structured lines; what the algorithm, the dataset source,
`load` and `pickle` do is described by `Outside`; `ExperimentDef.exds_definition` is `ExDsDef`;
`ModelBuildingExperimentalDataset.save` looks for locks once; otherwise as in `Exp/Fs.lean`,
`Exp/Run.lean` and `Exp/Index.lean`.
-/
namespace Mbtk.Exp
open Mbtk Mbtk.Dataset Spec

/-! ## The experimental dataset on the file system -/

/-- The fields of `ExperimentalDatasetDefinition` that the commands read.
ExperimentalDatasetDefinition.py 36-55. -/
structure Exds where
  path : Path
  /-- `after_build__finalize_and_save` -/
  saves : Bool
  /-- `after_save__auto_lock` -/
  autoLock : Bool
  deriving DecidableEq, Repr

/-- ExperimentalDatasetDefinition.py 36-48. -/
def Exds.definition (x : Exds) : Def := ⟨x.path, .exds⟩

/-- `exds_ready()`: ExperimentalDatasetDefinition.py 54-55. -/
def Exds.ready (x : Exds) (fs : Fs) : Bool := exists' fs x.path && (x.definition.isLocked [] fs).1

/-- A file written by `DatasetMatrix.save`, in the folder of the label.
DatasetMatrix.py 460-490. -/
structure Saved where
  label : Str
  name : Str
  content : Str
  deriving DecidableEq, Repr

/-- DatasetMatrix.py 460-490. -/
def Exds.file (x : Exds) (f : Saved) : Path := x.path ++ [f.label, f.name]

/-- `matrix.save(path)`: DatasetMatrix.py 460-490. -/
def Exds.writes (x : Exds) (files : List Saved) : List Action :=
  files.flatMap (fun f => [.mkdir (x.path ++ [f.label]), .create (x.file f), .write (x.file f) f.content])

/-- `ExperimentalDatasetError`. dataset/Exceptions.py 28-34. -/
def exdsLocked : Err := .custom "ExperimentalDatasetError"

/-- `build()`, `finalize_and_save()`, `save()`: ExperimentalDataset.py 33-104,
ModelBuildingExperimentalDataset.py 54-102.  `source` is what the source raises, or the files of the
datasets. -/
def Exds.build (x : Exds) (source : Except Err (List Saved)) (fs : Fs) : Fs × Option Err :=
  match source with
  | .error e => (fs, some e)
  | .ok files =>
    if x.saves = false then (fs, none)
    else if (x.definition.isLocked [] (mkdirs fs x.path)).1 then (mkdirs fs x.path, some exdsLocked)
    else if x.autoLock then x.definition.lock [] (exec (mkdirs fs x.path) (x.writes files))
    else (exec (mkdirs fs x.path) (x.writes files), none)

/-! ## The script -/

/-- One element of `AlgorithmRunParameters`: `ID`, `skip`, `index`.
utilities/experiment.py 298-352. -/
structure Run where
  params : Params
  number : Int
  deriving DecidableEq, Repr

/-- `ExperimentalSetup`: experiment.py 45-52. -/
structure Setup where
  exp : Config
  exds : Option Exds
  runs : List Run

/-- What the rest of the system does while a command is handled.
utilities/experiment.py 133-352. -/
structure Outside (δ : Type) where
  behaviour : Params → Behaviour
  source : Except Err (List Saved)
  /-- the exception of `ExDs.load()` for the files found -/
  loading : Fs → Option Err
  /-- `pickle.load` -/
  unpickle : Str → Except Err δ

/-- `Arguments.object`. utilities/experiment.py 133-202. -/
inductive Obj where
  | paths | expDef | exdsDef | exds | exp | parameters | datapoints
  | other (name : Str)
  deriving DecidableEq, Repr

/-- `Arguments.verb` (`other []` if there is none). utilities/experiment.py 133-202. -/
inductive Verb where
  | show | build | run | lock | unlock | delete | list
  | other (name : Str)
  deriving DecidableEq, Repr

/-- The parsed command line. utilities/experiment.py 80-202. -/
structure Args where
  object : Obj
  verb : Verb
  /-- `--type`, default `''` -/
  type : Str := []
  /-- `--index`, default `None` -/
  index : Option Str := none
  deriving DecidableEq, Repr

/-- What is printed. utilities/experiment.py 205-352. -/
inductive Line (δ : Type) where
  | paths
  | expDef (locks : List Str) (folderExists : Bool)
  | exdsDef (locks : List Str) (ready folderExists : Bool)
  | exdsInfo
  | exdsMustBeBuilt
  | exdsAlreadyBuilt
  | exdsHasBeenBuilt
  | notImplemented
  | parameters (number : Int) (id : Str)
  /-- the data point, `none` for `(missing)` -/
  | datapoint (number : Int) (id : Str) (d : Option δ)
  | total (n : Nat)
  deriving DecidableEq, Repr

/-- The effect of handling a command. utilities/experiment.py 133-352. -/
structure Handled (δ : Type) where
  /-- the file system afterwards -/
  fs : Fs
  out : List (Line δ) := []
  /-- the parameters with which `algorithm_run.run()` was called -/
  ran : List Params := []
  /-- the exception, or what `handle_command` returns -/
  result : Except Err Bool := .ok true

variable {δ : Type}

/-- A call with an effect on the file system and perhaps an exception.
utilities/experiment.py 133-352. -/
def Handled.ofCall (r : Fs × Option Err) (out : List (Line δ) := []) : Handled δ :=
  match r.2 with
  | some e => { fs := r.1, result := .error e }
  | none => { fs := r.1, out := out }

/-- `get_locks()`: LockablePath.py 85-86, ExperimentDefinition.py 45-46. -/
def Def.locks (d : Def) (fs : Fs) : List Str × Fs :=
  (((d.touch fs).filter (fun e => isLockIn d.lockDir e.1)).map (fun e => e.1.getLast?.getD []), d.touch fs)

/-- `command_exp_def_show`: experiment.py 210-214. -/
def expDefShow (S : Setup) (fs : Fs) : Handled δ :=
  { fs := (S.exp.definition.locks fs).2,
    out := [.expDef (S.exp.definition.locks fs).1 (exists' (S.exp.definition.locks fs).2 S.exp.path)] }

/-- `command_exds_def_show`: experiment.py 218-223. -/
def exdsDefShow (x : Exds) (fs : Fs) : Handled δ :=
  { fs := fs, out := [.exdsDef (x.definition.locks fs).1 (x.ready fs) (exists' fs x.path)] }

/-- `command_exds_show`: experiment.py 232-238. -/
def exdsShow (O : Outside δ) (x : Exds) (fs : Fs) : Handled δ :=
  if x.ready fs then Handled.ofCall (fs, O.loading fs) [.exdsInfo]
  else { fs := fs, out := [.exdsMustBeBuilt] }

/-- `command_exds_build`: experiment.py 242-248. -/
def exdsBuild (O : Outside δ) (x : Exds) (fs : Fs) : Handled δ :=
  if x.ready fs then { fs := fs, out := [.exdsAlreadyBuilt] }
  else Handled.ofCall (x.build O.source fs) [.exdsHasBeenBuilt]

/-- `prepare_exds`: ExperimentRun.py 46-54. -/
def prepareExds (S : Setup) (O : Outside δ) (fs : Fs) : Fs × Option Err :=
  match S.exds with
  | none => (fs, none)
  | some x => if x.ready fs then (fs, O.loading fs) else x.build O.source fs

/-- `ExperimentRun.run`: ExperimentRun.py 22-43, as `program` (Exp/Run.lean) with the files of the
experimental dataset. -/
def runExperiment (S : Setup) (O : Outside δ) (runs : List Params) (fs : Fs) : Handled δ :=
  if exists' (exec fs (startActions S.exp)) S.exp.lockFile then
    { fs := exec fs (startActions S.exp), result := .error folderLocked }
  else match (prepareExds S O (exec fs (startActions S.exp ++ folderActions S.exp))).2 with
    | some e =>
      { fs := (prepareExds S O (exec fs (startActions S.exp ++ folderActions S.exp))).1, result := .error e }
    | none => match (loop S.exp O.behaviour runs).2.2 with
      | some e =>
        { fs := exec (prepareExds S O (exec fs (startActions S.exp ++ folderActions S.exp))).1
            (loop S.exp O.behaviour runs).1,
          ran := (loop S.exp O.behaviour runs).2.1, result := .error e }
      | none =>
        { fs := exec (prepareExds S O (exec fs (startActions S.exp ++ folderActions S.exp))).1
            ((loop S.exp O.behaviour runs).1 ++ endActions S.exp),
          ran := (loop S.exp O.behaviour runs).2.1 }

/-- `command_exp_run`: experiment.py 257-261. -/
def expRun (S : Setup) (O : Outside δ) (index : Option Str) (fs : Fs) : Handled δ :=
  match selectRuns index S.runs with
  | .error e => { fs := fs, result := .error e }
  | .ok runs => runExperiment S O (runs.map Run.params) fs

/-- `command_parameters_list`: experiment.py 298-316. -/
def parametersList (S : Setup) (index : Option Str) (fs : Fs) : Handled δ :=
  match selectRuns index S.runs with
  | .error e => { fs := fs, result := .error e }
  | .ok runs =>
    { fs := fs, out := runs.map (fun r => .parameters r.number r.params.id) ++ [.total runs.length] }

/-- The loop of `command_datapoints_list`: experiment.py 329-350. -/
def listDatapoints (S : Setup) (O : Outside δ) (fs : Fs) : List Run → List (Line δ) × Option Err
  | [] => ([], none)
  | r :: rs => match dictGet fs (S.exp.datapointFile r.params.id) with
    | none => (.datapoint r.number r.params.id none :: (listDatapoints S O fs rs).1, (listDatapoints S O fs rs).2)
    | some .dir => ([], some (.custom "IsADirectoryError"))
    | some (.file c) => match O.unpickle c with
      | .error e => ([], some e)
      | .ok d => (.datapoint r.number r.params.id (some d) :: (listDatapoints S O fs rs).1,
          (listDatapoints S O fs rs).2)

/-- `command_datapoints_list`: experiment.py 320-352. -/
def datapointsList (S : Setup) (O : Outside δ) (index : Option Str) (fs : Fs) : Handled δ :=
  match selectRuns index S.runs with
  | .error e => { fs := fs, result := .error e }
  | .ok runs => match (listDatapoints S O (mkdirs fs S.exp.datapointDir) runs).2 with
    | some e => { fs := mkdirs fs S.exp.datapointDir,
                  out := (listDatapoints S O (mkdirs fs S.exp.datapointDir) runs).1, result := .error e }
    | none => { fs := mkdirs fs S.exp.datapointDir,
                out := (listDatapoints S O (mkdirs fs S.exp.datapointDir) runs).1 ++ [.total runs.length] }

/-- A command about the experimental dataset; without definition `None.…` raises.
utilities/experiment.py 227-277. -/
def withExds (S : Setup) (fs : Fs) (f : Exds → Handled δ) : Handled δ :=
  match S.exds with
  | none => { fs := fs, result := .error .attributeError }
  | some x => f x

/-- `handle_command`: experiment.py 133-201, with the commands 205-282. -/
def handle (S : Setup) (O : Outside δ) (a : Args) (fs : Fs) : Handled δ :=
  match a.object, a.verb with
  | .paths, .show => { fs := fs, out := [.paths] }
  | .expDef, .show => expDefShow S fs
  | .exdsDef, .show => withExds S fs (fun x => exdsDefShow x fs)
  | .exds, .show => withExds S fs (fun x => exdsShow O x fs)
  | .exds, .build => withExds S fs (fun x => exdsBuild O x fs)
  | .exds, .lock => withExds S fs (fun x => .ofCall (x.definition.lock a.type fs))
  | .exds, .unlock => withExds S fs (fun x => .ofCall (x.definition.unlock a.type fs))
  | .exds, .delete => withExds S fs (fun x => .ofCall (x.definition.deleteFolder fs))
  | .exp, .show => { fs := fs, out := [.notImplemented] }
  | .exp, .run => expRun S O a.index fs
  | .exp, .lock => .ofCall (S.exp.definition.lock a.type fs)
  | .exp, .unlock => .ofCall (S.exp.definition.unlock a.type fs)
  | .exp, .delete => .ofCall (S.exp.definition.deleteFolder fs)
  | .parameters, .list => parametersList S a.index fs
  | .datapoints, .list => datapointsList S O a.index fs
  | _, _ => { fs := fs, result := .ok false }

/-- A history of invocations of the script. utilities/experiment.py 133-202, several calls. -/
def session (S : Setup) (h : List (Outside δ × Args)) (fs : Fs) : Fs :=
  h.foldl (fun fs c => (handle S c.1 c.2 fs).fs) fs

end Mbtk.Exp
