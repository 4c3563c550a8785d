/-
The functions of datasets.py that read a file of the package.

The directory `data_files` is a function from names to texts.  `load_quadruped` is in `Verif.Model.Quadruped`.
-/
import Verif.Model.Datasets

namespace CF

/-- The loaders that return instances. -/
inductive Loader where
  | forestFires
  | congressionalVoting
  | iris
  | mushroom
  | rbCom11
  | rbS07
  | rbS13
  | rbWb03
  | molecule
  deriving DecidableEq

/-- The file each of them reads: `load_forest_fires` (datasets.py:42-73), `load_congressional_voting` (76-110),
`load_iris` (113-135), `load_mushroom` (138-177), `load_rb_com_11` (180-199), `load_rb_s_07` (202-218), `load_rb_s_13`
(221-240), `load_rb_wb_03` (243-261), `load_molecule` (389-544). -/
def Loader.file : Loader → String
  | .forestFires => "forest_fires.json"
  | .congressionalVoting => "congressional_voting.json"
  | .iris => "iris.json"
  | .mushroom => "mushrooms.json"
  | .rbCom11 => "rb_com_11_continuous.json"
  | .rbS07 => "rb_s_07_continuous.json"
  | .rbS13 => "rb_s_13_continuous.json"
  | .rbWb03 => "rb_wb_03_continuous.json"
  | .molecule => "molecule.json"

/-- `FileNotFoundError` or an exception of `json.loads`. -/
inductive LoadErr where
  | notFound
  | py (e : PyErr)
  deriving DecidableEq

/-- Calling a loader with `num_instances` (datasets.py:17-29, 73, 110, 135, 177, 199, 218, 240, 261, 544). -/
def Loader.load {P : Type} (loads : List Char → Res P) (files : String → Option (List Char)) (d : Loader) (num : Option ℤ) :
    Except LoadErr (List P) :=
  match files d.file with
  | none => .error .notFound
  | some text =>
    match loadJson loads text num with
    | .ok l => .ok l
    | .error e => .error (.py e)

/-- `load_rb_s_07_human_predictions` (datasets.py:32-39, 264-281). -/
def loadHumanPredictions (files : String → Option (List Char)) : Except LoadErr (List (List Char)) :=
  match files "human_s_07_success_predictions.csv" with
  | none => .error .notFound
  | some text => .ok (loadFile text)

end CF
