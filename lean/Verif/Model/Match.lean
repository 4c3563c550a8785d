/-
/repo/concept_formation/structure_mapper.py and preprocessor.py: the functions on attributes that nothing else
in the package calls.

Simplification, for the whole file: attributes are keys of dicts, so lists and dicts, which are not hashable, do
not occur in them, and `x in mapping` does not raise.
-/
import Verif.Model.StructureMapper

namespace CF

/-- `x[0] != '_'`. -/
def notHidden (x : Py) : Res Bool := do
  let y ← x.index0
  pure (decide (y ≠ .str c!"_"))

mutual
/-- An element of a tuple in `get_attribute_components` (preprocessor.py:88-94) with `vars_only=False`: `len`
raises on an element that is not a string or a tuple. -/
def allComponentsE : Py → Res (List Py)
  | .tup l => do
    let b ← notHidden (.tup l)
    let r ← allComponentsL l
    pure (if b then .tup l :: r else r)
  | .str s => .ok (match s with
    | [] => []
    | c :: cs => if c = '_' then [] else [.str (c :: cs)])
  | _ => .error .typeErr
/-- The loop over a tuple (preprocessor.py:87-94) with `vars_only=False`. -/
def allComponentsL : List Py → Res (List Py)
  | [] => .ok []
  | x :: xs => do
    let a ← allComponentsE x
    let b ← allComponentsL xs
    pure (a ++ b)
end

/-- `get_attribute_components(attribute, vars_only=False)` (preprocessor.py:60-100).  The set is a list,
possibly with repetitions. -/
def allComponents : Py → Res (List Py)
  | .tup l => allComponentsE (.tup l)
  | a => do
    let b ← notHidden a
    pure (if b then [a] else [])

/-- `get_component_names(instance, False)` (structure_mapper.py:33-70) of the attributes of an instance. -/
def allComponentNames : List Py → Res (List Py)
  | [] => .ok []
  | a :: as => do
    let x ← allComponents a
    let xs ← allComponentNames as
    pure (x ++ xs)

mutual
/-- The list comprehension of `bind_flat_attr` (structure_mapper.py:143-145). -/
def bindEls (m : Dict Py Py) : List Py → List Py
  | [] => []
  | x :: xs => bindEl m x :: bindEls m xs
/-- One element of it. -/
def bindEl (m : Dict Py Py) : Py → Py
  | .tup l => .tup (bindEls m l)
  | x => match m.get? x with
    | some w => w
    | none => x
end

/-- `bind_flat_attr` (structure_mapper.py:106-145): the elements of a string are its characters; other objects
are not iterable. -/
def bindFlat (m : Dict Py Py) : Py → Res Py
  | .tup l => .ok (.tup (bindEls m l))
  | .str s => .ok (.tup (bindEls m (s.map fun c => .str [c])))
  | _ => .error .typeErr

mutual
/-- `contains_component` (structure_mapper.py:148-170). -/
def containsComponent (c : Py) : Py → Bool
  | .tup l => containsAny c l || decide (Py.tup l = c)
  | a => decide (a = c)
/-- Its loop. -/
def containsAny (c : Py) : List Py → Bool
  | [] => false
  | x :: xs => if containsComponent c x = true then true else containsAny c xs
end

/-- `type(x) == type(y)`; all objects outside the modelled classes are taken to be of one
class, and so are the numbers of any class. -/
def sameType : Py → Py → Bool
  | .none, .none => true
  | .bool _, .bool _ => true
  | .num _, .num _ => true
  | .str _, .str _ => true
  | .tup _, .tup _ => true
  | .list _, .list _ => true
  | .dict _, .dict _ => true
  | .other _ _ _, .other _ _ _ => true
  | _, _ => false

/-- The end of `is_partial_match`, for objects that are not tuples (structure_mapper.py:481-487).  Each test
reads the characters that the code reads before it decides. -/
def atomMatch (m : Dict Py Py) (i c : Py) : Res Bool := do
  let x ← i.index0
  if x = .str c!"?" then
    match m.get? i with
    | some w => pure (decide (w = c))
    | none => do
      let y ← c.index0
      if y = .str c!"?" then pure true else pure (decide (i = c))
  else pure (decide (i = c))

mutual
/-- `is_partial_match` (structure_mapper.py:439-487). -/
def partialMatch (m : Dict Py Py) : Py → Py → Res Bool
  | .tup l, .tup l' => if l.length ≠ l'.length then .ok false else partialMatchL m l l'
  | .tup _, _ => .ok false
  | i, c => if sameType i c = false then .ok false else atomMatch m i c
/-- Its loop over two tuples of one length. -/
def partialMatchL (m : Dict Py Py) : List Py → List Py → Res Bool
  | x :: xs, y :: ys => do
    let b ← partialMatch m x y
    if b then partialMatchL m xs ys else pure false
  | _, _ => .ok true
end

end CF
