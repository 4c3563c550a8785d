/-
/repo/concept_formation/visualize.py: the objects that are shown.  Writing the files and opening the browser
(`_copy_file`, `_gen_output_file`, `_gen_viz`) are in Model/VizFiles.lean.
-/
import Verif.Model.Predict3

namespace CF

/-- The dict that describes a concept (cobweb.py:1033-1058, cobweb3.py:561-597): its name, the other entries,
and the descriptions of the children. -/
inductive JOb (P : Type) where
  | mk (name : String) (rest : P) (children : List (JOb P))

namespace JOb
variable {P : Type}

def name : JOb P → String | .mk n _ _ => n
def rest : JOb P → P | .mk _ r _ => r
def children : JOb P → List (JOb P) | .mk _ _ cs => cs

mutual
/-- `_trim_leaves` (visualize.py:76-80). -/
def trimLeaves : JOb P → JOb P
  | .mk n r cs => .mk n r (trimKids cs)
/-- `[_trim_leaves(child) for child in j_ob['children'] if len(child['children']) > 0]`. -/
def trimKids : List (JOb P) → List (JOb P)
  | [] => []
  | c :: cs => if c.children.length > 0 then trimLeaves c :: trimKids cs else trimKids cs
end

mutual
/-- `_trim_to_clusters` (visualize.py:116-123). -/
def trimTo (clusters : List String) : JOb P → JOb P
  | .mk n r cs => .mk n r (if n ∉ clusters then trimToL clusters cs else [])
def trimToL (clusters : List String) : List (JOb P) → List (JOb P)
  | [] => []
  | c :: cs => trimTo clusters c :: trimToL clusters cs
end

end JOb

section
variable {S P : Type} (entries : S → P)

mutual
/-- `output_json` with the given other entries. -/
def outputOb : Tree S → JOb P
  | .node id s cs => .mk ("Concept" ++ toString id) (entries s) (outputObL cs)
def outputObL : List (Tree S) → List (JOb P)
  | [] => []
  | c :: cs => outputOb c :: outputObL cs
end

/-- What `visualize` shows (visualize.py:52-73). -/
def visualize (t : Tree S) : JOb P := outputOb entries t

/-- What `visualize_no_leaves` shows (visualize.py:83-113). -/
def visualizeNoLeaves (t : Tree S) (cuts : ℤ) : JOb P := JOb.trimLeaves^[cuts.toNat] (outputOb entries t)

/-- An element of the argument `clusters`: a label, or a concept, known by its id. -/
inductive ClusterArg where
  | label (s : String)
  | concept (id : ℕ)

/-- `{str(c.concept_id) for c in clusters}` (visualize.py:156). -/
def conceptIds : List ClusterArg → Res (List String)
  | [] => .ok []
  | .concept id :: cs => do
    let l ← conceptIds cs
    pure (toString id :: l)
  | .label _ :: _ => .error .attrErr

/-- The labels in `set(clusters)`; a concept is never equal to a string. -/
def labelSet : List ClusterArg → List String
  | [] => []
  | .label s :: cs => s :: labelSet cs
  | .concept _ :: cs => labelSet cs

/-- What `visualize_clusters` shows (visualize.py:126-162). -/
def visualizeClusters (t : Tree S) : List ClusterArg → Res (JOb P)
  | [] => .error .indexErr
  | .concept id :: cs => do
    let l ← conceptIds (.concept id :: cs)
    pure (JOb.trimTo l (outputOb entries t))
  | .label s :: cs => .ok (JOb.trimTo (labelSet (.label s :: cs)) (outputOb entries t))

end

/-- The other entries of the description of a `CobwebNode`. -/
def entriesOf {A V : Type} [DecidableEq A] [DecidableEq V] (strA : A → String) (strV : V → String)
    (s : Stats A V) : ℕ × Dict String (Dict String ℕ) := (s.count, jsonCounts strA strV s)

end CF
