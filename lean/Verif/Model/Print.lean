/-
`pretty_print` and `__str__` of the nodes and trees, and `__repr__` of continuous values.

`str` and `repr` of attributes and values and the format `%0.4f` are parameters.  Simplification: the
`ContinuousValue` of an attribute is printed after its other values, whatever its place in the dict.
-/
import Verif.Model.Cobweb3
import Verif.Py.Obj

namespace CF

/-- `str` of a natural number. -/
def natStr (n : ℕ) : PStr := Nat.toDigits 10 n

/-- `str` of a count, which is a float (cobweb.py:300).  Simplification: from 10^16 on Python writes an exponent;
adding 1 to a float never gets that far. -/
def countStr (n : ℕ) : PStr := natStr n ++ c!".0"

/-- `str(d)` of a dict, with `repr` for its keys and values. -/
def dictStr {α β : Type} (k : α → PStr) (v : β → PStr) (d : Dict α β) : PStr :=
  '{' :: (c!", ".intercalate (d.map fun p => k p.1 ++ c!": " ++ v p.2) ++ ['}'])

section
variable {A V S : Type}

/-- `str(self.av_counts) + ":" + str(self.count)` (cobweb.py:978-979). -/
def Stats.row (reprA : A → PStr) (reprV : V → PStr) (s : Stats A V) : PStr :=
  dictStr reprA (dictStr reprV natStr) s.av ++ c!":" ++ countStr s.count

/-- `ContinuousValue.__repr__` (continuous_value.py:144-149). -/
noncomputable def CV.repr (fmt : ℝ → PStr) (c : CV ℝ) : Res PStr := do
  let s ← c.unbiasedStd
  pure (fmt c.unbiasedMean ++ c!" (" ++ fmt s ++ c!") [" ++ natStr c.num ++ c!"]")

/-- The texts of the values of an attribute (cobweb3.py:308-311). -/
noncomputable def Tab.texts (fmt : ℝ → PStr) (strV : V → PStr) (t : Tab V) : Res (List PStr) := do
  let noms := t.noms.map fun q => c!"'" ++ strV q.1 ++ c!"': " ++ natStr q.2
  match t.cv with
  | none => pure noms
  | some c => do
    let r ← c.repr fmt
    pure (noms ++ [c!"'#ContinuousValue#': " ++ r])

/-- `attributes` (cobweb3.py:305-314). -/
noncomputable def attrTexts (fmt : ℝ → PStr) (strA : A → PStr) (strV : V → PStr) : Dict A (Tab V) → Res (List PStr)
  | [] => .ok []
  | (a, t) :: av => do
    let values ← t.texts fmt strV
    let rest ← attrTexts fmt strA strV av
    pure ((c!"'" ++ strA a ++ c!"': {" ++ c!", ".intercalate values ++ c!"}") :: rest)

/-- The text of a node of a `Cobweb3Tree` (cobweb3.py:305-316). -/
noncomputable def Stats3.row (fmt : ℝ → PStr) (strA : A → PStr) (strV : V → PStr) (s : Stats3 A V) : Res PStr := do
  let attributes ← attrTexts fmt strA strV s.av
  pure (c!"{" ++ c!", ".intercalate attributes ++ c!"}: " ++ countStr s.count)

mutual
/-- `pretty_print(depth)` (cobweb.py:964-984, cobweb3.py:289-321), for a function that gives the text of a node. -/
def prettyPrint (row : S → Res PStr) : ℕ → Tree S → Res PStr
  | depth, .node _ s cs => do
    let r ← row s
    let rest ← prettyPrintL row (depth + 1) cs
    pure (List.replicate depth '\t' ++ c!"|-" ++ r ++ c!"\n" ++ rest)
/-- The loop over the children (cobweb.py:981-982, cobweb3.py:318-319). -/
def prettyPrintL (row : S → Res PStr) : ℕ → List (Tree S) → Res PStr
  | _, [] => .ok []
  | depth, c :: cs => do
    let p ← prettyPrint row depth c
    let ps ← prettyPrintL row depth cs
    pure (p ++ ps)
end

/-- `str(tree)` (cobweb.py:38-39, 958-962). -/
def treeStr (row : S → Res PStr) (t : Tree S) : Res PStr := prettyPrint row 0 t

end
end CF
