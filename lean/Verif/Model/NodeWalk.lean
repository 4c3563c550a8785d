/-
The methods of the nodes that call themselves on the children, run on the store: `num_concepts`, `pretty_print` with
`__str__`, and `output_json` of Cobweb (that of Cobweb/3 is in `Verif.Model.GenExample`).

The first number is how many nested calls the interpreter still allows; without any there is a `RecursionError`, for which
`outOfFuel` stands.  Simplification: calls of the built-in `str` do not count.
-/
import Verif.Model.Heap
import Verif.Model.Predict
import Verif.Model.Print
import Verif.Model.Preprocessor

namespace CF
variable {A V S : Type}

/-- `num_concepts` (cobweb.py:1017-1031) of the object at an address. -/
def numConceptsH (h : Heap S) : ℕ → ℕ → Res ℕ
  | 0, _ => .error .outOfFuel
  | n + 1, a =>
    match h.objs a with
    | none => .error .attrErr
    | some r => do
      let counts ← mapRes (numConceptsH h n) r.children
      pure (1 + counts.sum)

/-- `pretty_print(depth)` (cobweb.py:964-984, cobweb3.py:289-321) of the object at an address, for a function that gives
the text of a node. -/
def prettyPrintH (row : S → Res PStr) (h : Heap S) : ℕ → ℕ → ℕ → Res PStr
  | 0, _, _ => .error .outOfFuel
  | n + 1, depth, a =>
    match h.objs a with
    | none => .error .attrErr
    | some r => do
      let ret ← row r.stats
      let rest ← mapRes (prettyPrintH row h n (depth + 1)) r.children
      pure (List.replicate depth '\t' ++ c!"|-" ++ ret ++ c!"\n" ++ rest.flatten)

/-- `str(node)` (cobweb.py:957-962). -/
def nodeStrH (row : S → Res PStr) (h : Heap S) : ℕ → ℕ → Res PStr
  | 0, _ => .error .outOfFuel
  | n + 1, a => prettyPrintH row h n 0 a

/-- `str(tree)` (cobweb.py:38-39). -/
def treeStrH (row : S → Res PStr) (h : Heap S) : ℕ → Res PStr
  | 0 => .error .outOfFuel
  | n + 1 => nodeStrH row h n h.root

/-- `CobwebNode.output_json` (cobweb.py:1033-1058) of the object at an address. -/
def outputJsonH [DecidableEq A] [DecidableEq V] (strA : A → String) (strV : V → String) (h : Heap (Stats A V)) :
    ℕ → ℕ → Res NodeJson
  | 0, _ => .error .outOfFuel
  | n + 1, a =>
    match h.objs a with
    | none => .error .attrErr
    | some r => do
      let children ← mapRes (outputJsonH strA strV h n) r.children
      pure (.mk ("Concept" ++ toString r.cid) r.stats.count (jsonCounts strA strV r.stats) children)

end CF
