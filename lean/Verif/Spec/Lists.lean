/-
Instances with lists.
-/
import Verif.Model.Lists
import Verif.Spec.Rename

namespace CF

mutual
/-- A property of all attributes, at every depth and in the components in lists. -/
def KeysV (P : Py → Prop) : Py → Prop
  | .dict l => KeysD P l
  | .list l => KeysL P l
  | _ => True
def KeysL (P : Py → Prop) : List Py → Prop
  | [] => True
  | x :: xs => KeysV P x ∧ KeysL P xs
def KeysD (P : Py → Prop) : List (Py × Py) → Prop
  | [] => True
  | (k, v) :: l => (P k ∧ KeysV P v) ∧ KeysD P l
end

mutual
/-- The value of attribute `a`: no list is hidden, and no component in a list has an attribute `val`. -/
def ListsOkV (a : Py) : Py → Prop
  | .dict l => ListsOkD l
  | .list l => (∃ x, a.index0 = .ok x ∧ x ≠ .str c!"_") ∧ ListsOkL l
  | _ => True
def ListsOkE : Py → Prop
  | .dict l => valKey ∉ Dict.keys l ∧ ListsOkD l
  | .list l => ListsOkL l
  | _ => True
def ListsOkL : List Py → Prop
  | [] => True
  | x :: xs => ListsOkE x ∧ ListsOkL xs
def ListsOkD : List (Py × Py) → Prop
  | [] => True
  | (k, v) :: l => ListsOkV k v ∧ ListsOkD l
end

mutual
/-- No list is empty. -/
def NoEmptyV : Py → Prop
  | .dict l => NoEmptyD l
  | .list l => l ≠ [] ∧ NoEmptyL l
  | _ => True
def NoEmptyL : List Py → Prop
  | [] => True
  | x :: xs => NoEmptyV x ∧ NoEmptyL xs
def NoEmptyD : List (Py × Py) → Prop
  | [] => True
  | (_, v) :: l => NoEmptyV v ∧ NoEmptyD l
end

mutual
/-- Every list is a non-empty list of different strings. -/
def FlatV : Py → Prop
  | .dict l => FlatD l
  | .list l => l ≠ [] ∧ l.Nodup ∧ ∀ e ∈ l, ∃ s, e = .str s
  | _ => True
def FlatD : List (Py × Py) → Prop
  | [] => True
  | (_, v) :: l => FlatV v ∧ FlatD l
end

/-- Not a relation that lists are turned into, nor `()`. -/
def NotListRel (k : Py) : Prop :=
  k ≠ .tup [] ∧ (∀ xs, k ≠ .tup (.str c!"has-element" :: xs)) ∧ ∀ xs, k ≠ .tup (.str c!"ordered-list" :: xs)

/-- The attributes of the instance itself: no list relations, and no pair with a list or component. -/
def TopAttrs (i : PyInst) : Prop :=
  ∀ p ∈ i, NotListRel p.1 ∧ ((p.2.isList || p.2.isDict) = true → ∀ a b, p.1 ≠ .tup [a, b])

/-- Not one of the names that will be generated from counter `s` on. -/
def FreshName (cfg : ListCfg) (s : ℕ) (k : Py) : Prop := ∀ n, s ≤ n → k ≠ .str (cfg.gensym n)

/-- The names to be generated are variables, pairwise different. -/
structure ListNames (cfg : ListCfg) : Prop where
  inj : Function.Injective cfg.gensym
  var : ∀ n, ∃ s, cfg.gensym n = '?' :: s

end CF
