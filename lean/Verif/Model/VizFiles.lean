/-
/repo/concept_formation/visualize.py:20-49, 73, 113, 162: the files that `visualize` and its variants write.

A path is a directory and a file name (`os.path.join`); directories are compared as resolved, so `realpath` is not
needed and `shutil.copy` to the file itself is copying within a directory.  A disk says which directories exist and what
is in the files; a directory that exists can be written to.  Opening the browser is the path that is returned.
`json.dumps` is a parameter, and may raise.
-/
import Verif.Model.Visualize

namespace CF

/-- A path: directory and name. -/
abbrev FilePath (D : Type) := D × String

/-- What is stored. -/
structure Disk (D : Type) where
  dirs : D → Bool
  file : FilePath D → Option String

/-- What is raised: `FileNotFoundError`, `shutil.SameFileError`, and the `TypeError` of `json.dumps`. -/
inductive IOErr where
  | notFound
  | sameFile
  | notJson
  deriving DecidableEq

/-- A call that may write before it raises. -/
abbrev IOCall (D α : Type) := Disk D → Except IOErr α × Disk D

section
variable {D : Type} [DecidableEq D]

/-- `open(p, 'w')`, which empties the file, and `write`. -/
def writeFile (p : FilePath D) (text : String) : IOCall D Unit := fun d =>
  if d.dirs p.1 then (.ok (), { d with file := Function.update d.file p (some text) }) else (.error .notFound, d)

/-- `shutil.copy(src, dst)` for files. -/
def copyFile (src dst : FilePath D) : IOCall D Unit := fun d =>
  match d.file src with
  | none => (.error .notFound, d)
  | some text => if src = dst then (.error .sameFile, d) else writeFile dst text d

/-- `_copy_file` (visualize.py:20-25); `home` is the directory `visualization_files` of the package. -/
def copyViz (home : D) (name : String) (target : D) : IOCall D (FilePath D) := fun d =>
  match copyFile (home, name) (target, name) d with
  | (.ok (), d') => (.ok (target, name), d')
  | (.error e, d') => (.error e, d')

/-- `_gen_output_file` (visualize.py:28-29). -/
def outputText (json : String) : String := "(function (){ window.trestle_output=" ++ json ++ "; })();"

/-- The three supporting files are copied (visualize.py:42-44); the path of the page. -/
def copyAll (home target : D) : IOCall D (FilePath D) := fun d =>
  match copyViz home "viz.html" target d with
  | (.error e, d) => (.error e, d)
  | (.ok page, d) =>
    match copyViz home "viz_logic.js" target d with
    | (.error e, d) => (.error e, d)
    | (.ok _, d) =>
      match copyViz home "viz_styling.css" target d with
      | (.error e, d) => (.error e, d)
      | (.ok _, d) => (.ok page, d)

/-- `with open(p, 'w') as out: out.write(_gen_output_file(js_ob))` (visualize.py:36-37, 47-48): the file is opened, and
so emptied, before the text is made. -/
def writeOutput (p : FilePath D) (json : Option String) : IOCall D Unit := fun d =>
  match writeFile p "" d with
  | (.error e, d) => (.error e, d)
  | (.ok (), d) =>
    match json with
    | none => (.error .notJson, d)
    | some j => writeFile p (outputText j) d

/-- `_gen_viz` (visualize.py:32-49); the path that is opened in the browser.  `json` is what `json.dumps` returns. -/
def genViz (home : D) (json : Option String) (dst : Option D) (recreate : Bool) : IOCall D (FilePath D) := fun d =>
  match dst with
  | none =>
    match writeOutput (home, "output.js") json d with
    | (.error e, d) => (.error e, d)
    | (.ok (), d) => (.ok (home, "viz.html"), d)
  | some dst =>
    let r := if recreate || (d.file (dst, "viz.html")).isNone then copyAll home dst d else (.ok (dst, "viz.html"), d)
    match r with
    | (.error e, d) => (.error e, d)
    | (.ok page, d) =>
      match writeOutput (dst, "output.js") json d with
      | (.error e, d) => (.error e, d)
      | (.ok (), d) => (.ok page, d)

end

section
variable {D S P : Type} [DecidableEq D] (entries : S → P) (dumps : JOb P → Option String) (home : D)

/-- `visualize` (visualize.py:52-73). -/
def visualizeTo (t : Tree S) (dst : Option D) (recreate : Bool) : IOCall D (FilePath D) :=
  genViz home (dumps (visualize entries t)) dst recreate

/-- `visualize_no_leaves` (visualize.py:83-113). -/
def visualizeNoLeavesTo (t : Tree S) (cuts : ℤ) (dst : Option D) (recreate : Bool) : IOCall D (FilePath D) :=
  genViz home (dumps (visualizeNoLeaves entries t cuts)) dst recreate

/-- `visualize_clusters` (visualize.py:126-162); an exception before anything is written is `none`. -/
def visualizeClustersTo (t : Tree S) (clusters : List ClusterArg) (dst : Option D) (recreate : Bool) :
    Disk D → Option (Except IOErr (FilePath D)) × Disk D := fun d =>
  match visualizeClusters entries t clusters with
  | .error _ => (none, d)
  | .ok j => ((genViz home (dumps j) dst recreate d).1, (genViz home (dumps j) dst recreate d).2)

end
end CF
