/-
What the files contain, for C62.
-/
import Verif.Model.Datasets

namespace CF
variable {P : Type}

/-- The text of an instance in a file: on one line, and not beginning or ending with a character of the list
syntax (it begins with `{` and ends with `}`). -/
structure InstanceText (x : List Char) : Prop where
  ne : x ≠ []
  oneLine : '\n' ∉ x
  first : ∀ c, x.head? = some c → c ≠ '[' ∧ c ≠ ']' ∧ c ≠ ','
  last : ∀ c, x.getLast? = some c → c ≠ '[' ∧ c ≠ ']' ∧ c ≠ ','

/-- The lines after the first: `,` and a line end, then the instance. -/
def moreText : List (List Char) → List Char
  | [] => [']']
  | x :: xs => [',', '\n'] ++ x ++ moreText xs

/-- A list of instances as the data files have it, one on each line: `[{…},⏎{…},⏎{…}]`. -/
def datasetText : List (List Char) → List Char
  | [] => []
  | x :: xs => ['['] ++ x ++ moreText xs

/-- The file describes the instances. -/
def DescribesFile (loads : List Char → Res P) (text : List Char) (ps : List P) : Prop :=
  ∃ xs : List (List Char), text = datasetText xs ∧ (∀ x ∈ xs, InstanceText x) ∧ List.Forall₂ (fun x p => loads x = .ok p) xs ps

end CF
