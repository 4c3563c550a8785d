/-
Renaming the variables of an instance.
-/
import Verif.Spec.Preprocess

namespace CF

mutual
/-- An attribute with its variables renamed: in a relation at any depth. -/
def renEl (f : Py → Py) : Py → Py
  | .tup l => .tup (renEls f l)
  | a => if Variable a then f a else a
def renEls (f : Py → Py) : List Py → List Py
  | [] => []
  | x :: xs => renEl f x :: renEls f xs
end

mutual
/-- The attributes renamed in an instance, its components and the components in its lists. -/
def renV (f : Py → Py) : Py → Py
  | .dict l => .dict (renD f l)
  | .list l => .list (renL f l)
  | v => v
def renL (f : Py → Py) : List Py → List Py
  | [] => []
  | .dict l :: xs => .dict (renD f l) :: renL f xs
  | x :: xs => x :: renL f xs
def renD (f : Py → Py) : List (Py × Py) → List (Py × Py)
  | [] => []
  | (k, v) :: l => (renEl f k, renV f v) :: renD f l
end

mutual
/-- The variables of an attribute. -/
def varsEl : Py → List Py
  | .tup l => varsEls l
  | a => if Variable a then [a] else []
def varsEls : List Py → List Py
  | [] => []
  | x :: xs => varsEl x ++ varsEls xs
end

mutual
/-- The variables in the attributes of an instance, its components and the components in its lists. -/
def varsV : Py → List Py
  | .dict l => varsD l
  | .list l => varsL l
  | _ => []
def varsL : List Py → List Py
  | [] => []
  | .dict l :: xs => varsD l ++ varsL xs
  | _ :: xs => varsL xs
def varsD : List (Py × Py) → List Py
  | [] => []
  | (k, v) :: l => varsEl k ++ varsV v ++ varsD l
end

mutual
/-- The elements of a relation are strings and relations. -/
def relElOk : Py → Prop
  | .tup l => relElsOk l
  | .str _ => True
  | _ => False
def relElsOk : List Py → Prop
  | [] => True
  | x :: xs => relElOk x ∧ relElsOk xs
end

/-- The same for an attribute, if it is a relation. -/
def attrOk : Py → Prop
  | .tup l => relElsOk l
  | _ => True

mutual
/-- The same for all attributes. -/
def relsOkV : Py → Prop
  | .dict l => relsOkD l
  | .list l => relsOkL l
  | _ => True
def relsOkL : List Py → Prop
  | [] => True
  | .dict l :: xs => relsOkD l ∧ relsOkL xs
  | _ :: xs => relsOkL xs
def relsOkD : List (Py × Py) → Prop
  | [] => True
  | (k, v) :: l => (attrOk k ∧ relsOkV v) ∧ relsOkD l
end

mutual
/-- Variables stand for components and lists, and the values of relations with variables are neither. -/
def objectsOkV : Py → Prop
  | .dict l => objectsOkD l
  | .list l => objectsOkL l
  | _ => True
def objectsOkL : List Py → Prop
  | [] => True
  | .dict l :: xs => objectsOkD l ∧ objectsOkL xs
  | _ :: xs => objectsOkL xs
def objectsOkD : List (Py × Py) → Prop
  | [] => True
  | (k, v) :: l => ((Variable k → (v.isDict || v.isList) = true) ∧
      (k.isTup = true → varsEl k ≠ [] → (v.isDict || v.isList) = false) ∧ objectsOkV v) ∧ objectsOkD l
end

/-- Equal instances, the second one being well-formed. -/
def SameInst (i j : PyInst) : Prop := Py.same (.dict i) (.dict j) ∧ Py.wf (.dict j)

end CF
