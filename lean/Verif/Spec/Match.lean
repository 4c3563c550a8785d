/-
What it means for an attribute to occur in another, and to match another.
-/
import Verif.Spec.Rename

namespace CF

/-- `x` is the attribute `a` or a part of it, at any depth. -/
inductive PartIn (x : Py) : Py → Prop
  | self : PartIn x x
  | el {y l} : y ∈ l → PartIn x y → PartIn x (.tup l)

/-- An attribute made of non-empty strings and non-empty tuples. -/
inductive GoodAttr : Py → Prop
  | str {c cs} : GoodAttr (.str (c :: cs))
  | tup {x l} : (∀ y ∈ x :: l, GoodAttr y) → GoodAttr (.tup (x :: l))

/-- Starts with an underscore: a string whose first character it is, or a tuple whose first element it is. -/
def Underscored (a : Py) : Prop := (∃ s, a = .str ('_' :: s)) ∨ ∃ l, a = .tup (.str c!"_" :: l)

/-- The second attribute is the first one with every string `s` in it replaced by `f s`. -/
inductive Renamed (f : PStr → PStr) : Py → Py → Prop
  | name {s} : Renamed f (.str s) (.str (f s))
  | rel {l l'} : List.Forall₂ (Renamed f) l l' → Renamed f (.tup l) (.tup l')

mutual
/-- The strings of an attribute from left to right. -/
def namesOf : Py → List PStr
  | .str s => [s]
  | .tup l => namesOfL l
  | _ => []
def namesOfL : List Py → List PStr
  | [] => []
  | x :: xs => namesOf x ++ namesOfL xs
end

/-- `f` extends the mapping `m`: the variables that `m` does not map become variables, and strings that are not
variables stay. -/
structure Extends (m : Dict Py Py) (f : PStr → PStr) : Prop where
  mapped : ∀ s v, m.get? (.str s) = some v → v = .str (f s)
  free : ∀ s, Variable (.str s) → m.get? (.str s) = none → Variable (.str (f s))
  const : ∀ s, ¬ Variable (.str s) → f s = s

/-- A mapping from variables to names. -/
def VarMap (m : Dict Py Py) : Prop := ∀ k v, m.get? k = some v → Variable k ∧ ∃ s, v = .str s

end CF
