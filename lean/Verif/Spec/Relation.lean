/-
Relations and how they are written as strings, for the properties of the tuplizer.
-/
import Verif.Py.Same

namespace CF

mutual
/-- A name is written as it is, a relation as its elements, separated by spaces, between parentheses. -/
def written : Py → PStr
  | .str s => s
  | .tup l => '(' :: writtenL l ++ [')']
  | _ => []
def writtenL : List Py → PStr
  | [] => []
  | [x] => written x
  | x :: y :: l => written x ++ ' ' :: writtenL (y :: l)
end

/-- A name: not empty, without spaces and parentheses, and not a number. -/
def RelName (pf : PStr → Option Py) (s : PStr) : Prop :=
  s ≠ [] ∧ (∀ c ∈ s, c ≠ ' ' ∧ c ≠ '(' ∧ c ≠ ')') ∧ pf s = none

mutual
/-- A nested relation: its first element is a name, the others are names or relations. -/
def Relation (pf : PStr → Option Py) : Py → Prop
  | .tup (.str s :: l) => RelName pf s ∧ RelationArgs pf l
  | _ => False
def RelationArgs (pf : PStr → Option Py) : List Py → Prop
  | [] => True
  | x :: xs => ((∃ t, x = .str t ∧ RelName pf t) ∨ Relation pf x) ∧ RelationArgs pf xs
end

end CF
