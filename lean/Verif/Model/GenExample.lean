/-
/repo/concept_formation/visualization_files/gen_example.py: the script that writes the example `output.js`.

`pprint` and `print` are left out, but not the exception of `instances[0]`.  The current directory is a directory of the
disk of `Verif.Model.VizFiles`.  The loaders, `random.seed`, `random.shuffle`, `str` and `json.dumps` are parameters; so
are the external searches of the structure mapper.
-/
import Verif.Model.Json3
import Verif.Model.Fit
import Verif.Model.Convert
import Verif.Model.Evaluation
import Verif.Model.VizFiles

namespace CF

/-! ### `output_json` on the store -/

section
variable {A V : Type} [DecidableEq A] [DecidableEq V]

/-- `Cobweb3Node.output_json` (cobweb3.py:561-597) of the object at an address.  The first number is how many nested calls
the interpreter still allows: without any, `RecursionError`, for which `outOfFuel` stands. -/
noncomputable def outputJson3H (strA : A → String) (strV : V → String) (g : A) (h : Heap (Stats3 A V)) :
    ℕ → ℕ → Res (NodeJson3 V)
  | 0, _ => .error .outOfFuel
  | n + 1, a =>
    match h.objs a with
    | none => .error .attrErr
    | some r => do
      let temp ← jsonCounts3 strA strV r.stats.av []
      let children ← mapRes (outputJson3H strA strV g h n) r.children
      pure (.mk (jsonGuid g r.stats) ("Concept" ++ toString r.cid) r.stats.count temp children)

end

/-! ### The script -/

/-- The functions of `datasets.py` that the script calls. -/
inductive ExampleData where
  | forestFires
  | congressionalVoting
  | iris
  | mushroom
  | rbCom11
  | rbS07
  | rbS13
  | rbWb03
  deriving DecidableEq

/-- Which data are loaded, and whether variables are marked (`variables`, gen_example.py:13-39). -/
def exampleData (file : String) : ExampleData × Bool :=
  if file = "forest" then (.forestFires, false)
  else if file = "voting" then (.congressionalVoting, false)
  else if file = "iris" then (.iris, false)
  else if file = "mushroom" then (.mushroom, false)
  else if file = "rb_com_11" then (.rbCom11, true)
  else if file = "rb_s_07" then (.rbS07, true)
  else if file = "rb_s_13" then (.rbS13, true)
  else if file = "rb_wb_03" then (.rbWb03, true)
  else (.forestFires, false)

/-- The values that the command line accepts for `-file` (gen_example.py:64-67). -/
def exampleChoices : List String :=
  ["forest", "voting", "iris", "mushroom", "rb_com_11", "rb_s_07", "rb_s_13"]

/-- What the script uses and does not define. -/
structure ExampleEnv (D : Type) where
  trestle : TrestleCfg
  load : ExampleData → Res (List PyInst)
  seed : ℤ → World → World
  shuffle : Shuffle PyInst
  searches : ℕ → Search
  limit : ℕ
  strA : Py → String
  strV : Py → String
  dumps : NodeJson3 Py → Option String
  dir : D

/-- The exceptions of the script: those of the package, and those of files. -/
inductive ExampleErr where
  | py (e : PyErr)
  | io (e : IOErr)

section
variable {D : Type} [DecidableEq D] (E : ExampleEnv D)

/-- The instances, from the shuffled ones, and the exception for lack of them (gen_example.py:42-48). -/
def exampleInstances (marked : Bool) (size : ℤ) (shuffled : List PyInst) : Res (List PyInst) :=
  match shuffled with
  | [] => .error .indexErr
  | _ =>
    let l := prefixTo shuffled size
    if marked then mapRes (fun t => variablizeD none t [] []) l else .ok l

/-- Lines 11-51 of the script: the tree, from a state that says what nodes and names there are already. -/
noncomputable def exampleTree (file : String) (size seed burn : ℤ) (st : TState) : Res Unit × TState :=
  let st := { st with h := { st.h with w := E.seed seed st.h.w } }
  match E.load (exampleData file).1 with
  | .error e => (.error e, st)
  | .ok data =>
    let p := E.shuffle data st.h.w
    let st := { st with h := { st.h with w := p.2 } }
    match exampleInstances (exampleData file).2 size p.1 with
    | .error e => (.error e, st)
    | .ok l =>
      let q := trestleFit E.trestle E.shuffle l burn.toNat true (E.searches, trestleClear st)
      (q.1, q.2.2.2)

/-- The text before the data (gen_example.py:56). -/
def exampleHead : String := "var trestle_output = "

/-- `output_json` of the script (gen_example.py:11-58).  `prune` is not used there.  The file is opened, and the first
part written, before the object is made; what was written is in the file when an exception closes it. -/
noncomputable def exampleOutput (file : String) (size : ℤ) (_prune : Bool) (seed burn : ℤ) (st : TState) (d : Disk D) :
    Except ExampleErr Unit × TState × Disk D :=
  match exampleTree E file size seed burn st with
  | (.error e, st) => (.error (.py e), st, d)
  | (.ok _, st) =>
    match writeFile (E.dir, "output.js") exampleHead d with
    | (.error e, d) => (.error (.io e), st, d)
    | (.ok _, d) =>
      match outputJson3H E.strA E.strV (.str c!"_guid") st.h E.limit st.h.root with
      | .error e => (.error (.py e), st, d)
      | .ok j =>
        match E.dumps j with
        | none => (.error (.io .notJson), st, d)
        | some text =>
          match writeFile (E.dir, "output.js") (exampleHead ++ text ++ ";") d with
          | (.error e, d) => (.error (.io e), st, d)
          | (.ok _, d) => (.ok (), st, d)

end
end CF
