/-
`output_json` of a `Cobweb3Node`.
-/
import Verif.Model.Cobweb3

namespace CF

/-- A value of `counts[attr]` in the output: a number of occurrences, or mean, standard deviation and number of a
`ContinuousValue` (continuous_value.py:219-224). -/
inductive JsonCount where
  | count (k : ℕ)
  | dist (mean std : ℝ) (n : ℕ)

/-- The object returned by `Cobweb3Node.output_json` (cobweb3.py:561-597), as a record of its five entries.  `guid` is
`none` if the entry is missing; a key `#ContinuousValue#` is `some none`. -/
inductive NodeJson3 (V : Type) where
  | mk (guid : Option (Option V)) (name : String) (size : ℕ) (counts : Dict String (Dict String JsonCount))
      (children : List (NodeJson3 V))

section
variable {A V : Type} [DecidableEq A] [DecidableEq V]

/-- The last key of `av_counts['_guid']` (cobweb3.py:574-576).  Simplification: the accumulator counts as last key,
whatever its place in the dict. -/
def jsonGuid (g : A) (s : Stats3 A V) : Option (Option V) :=
  match s.av.get? g with
  | none => none
  | some t => if t.cv.isSome then some none else t.noms.getLast?.map fun q => some q.1

/-- `temp[str(attr)]` after the inner loop (cobweb3.py:583-590).  Simplification: the accumulator comes after the
other values, whatever its place in the dict. -/
noncomputable def jsonTab (strV : V → String) (t : Tab V) : Res (Dict String JsonCount) := do
  let d := t.noms.foldl (fun d q => Dict.set d (strV q.1) (.count q.2)) []
  match t.cv with
  | none => pure d
  | some c => do
    let (m, s, n) ← c.outputJson
    pure (d.set "#ContinuousValue#" (.dist m s n))

/-- The loop over the attributes (cobweb3.py:581-590). -/
noncomputable def jsonCounts3 (strA : A → String) (strV : V → String) :
    Dict A (Tab V) → Dict String (Dict String JsonCount) → Res (Dict String (Dict String JsonCount))
  | [], temp => .ok temp
  | (a, t) :: av, temp => do
    let d ← jsonTab strV t
    jsonCounts3 strA strV av (temp.set (strA a) d)

mutual
/-- `Cobweb3Node.output_json` (cobweb3.py:561-597); `g` is the attribute `_guid`. -/
noncomputable def outputJson3 (strA : A → String) (strV : V → String) (g : A) :
    Tree (Stats3 A V) → Res (NodeJson3 V)
  | .node id s cs => do
    let temp ← jsonCounts3 strA strV s.av []
    let children ← outputJson3L strA strV g cs
    pure (.mk (jsonGuid g s) ("Concept" ++ toString id) s.count temp children)
/-- The loop over the children (cobweb3.py:592-593). -/
noncomputable def outputJson3L (strA : A → String) (strV : V → String) (g : A) :
    List (Tree (Stats3 A V)) → Res (List (NodeJson3 V))
  | [] => .ok []
  | c :: cs => do
    let j ← outputJson3 strA strV g c
    let js ← outputJson3L strA strV g cs
    pure (j :: js)
end

end
end CF
