/-
The loaders of datasets.py.

A file is its text after decoding, with `'\n'` between the lines (Python's text mode).  `json.loads` is a
parameter.
-/
import Verif.Py.Dict
import Mathlib.Data.Int.Notation

namespace CF

/-- Iterating over a file: the lines with their line ends (datasets.py:25, 38).  The last line may have none. -/
def fileLines : List Char → List (List Char)
  | [] => []
  | c :: cs =>
    if c = '\n' then [c] :: fileLines cs
    else
      match fileLines cs with
      | [] => [[c]]
      | l :: ls => (c :: l) :: ls

/-- The characters in `'[],\n'` (datasets.py:28). -/
def jsonJunk (c : Char) : Bool := c = '[' || c = ']' || c = ',' || c = '\n'

/-- `lin.strip('[],\n')` (datasets.py:28). -/
def stripJunk (l : List Char) : List Char := ((l.dropWhile jsonJunk).reverse.dropWhile jsonJunk).reverse

section
variable {P : Type} (loads : List Char → Res P)

/-- The loop of `_load_json` (datasets.py:25-28). -/
def loadLoop (num : Option ℤ) : ℤ → List (List Char) → Res (List P)
  | _, [] => .ok []
  | idx, lin :: ls =>
    match num with
    | none => do
      let p ← loads (stripJunk lin)
      let r ← loadLoop num (idx + 1) ls
      pure (p :: r)
    | some n =>
      if n < idx then .ok []
      else do
        let p ← loads (stripJunk lin)
        let r ← loadLoop num (idx + 1) ls
        pure (p :: r)

/-- `_load_json(filename, num_instances)` for a file with the given text (datasets.py:17-29), and with it the
loaders that call it. -/
def loadJson (text : List Char) (num : Option ℤ) : Res (List P) := loadLoop loads num 0 (fileLines text)

end

/-- `_load_file` (datasets.py:32-39). -/
def loadFile (text : List Char) : List (List Char) := (fileLines text).map List.dropLast

end CF
