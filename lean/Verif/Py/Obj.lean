/-
Python objects, as far as the modelled code looks at them.

These definitions model the Python language, not a file of /repo.  Simplifications: an `int` and a
`float` with the same value are one object (Python's `==` and `hash` identify them too), a `bool` differs
from every number (Python has `True == 1`), and `nan` and infinities are left out.
-/
import Verif.Py.Dict
import Mathlib.Data.Rat.Defs

namespace CF

/-- A Python string. -/
abbrev PStr := List Char

/-- `c!"ab"` is the Python string literal `'ab'`. -/
macro:max "c!" s:str : term => do
  let cs : Array (Lean.TSyntax `term) := (s.getString.toList.map fun c => Lean.Syntax.mkCharLit c).toArray
  `(([$cs,*] : List Char))

/-- A Python object.  `other n h i` is an object of another class: `n` is its identity, `h` says whether
`hash` accepts it and `i` whether `x[0]` returns. -/
inductive Py
  | none
  | bool (b : Bool)
  | num (q : ℚ)
  | str (s : PStr)
  | tup (l : List Py)
  | list (l : List Py)
  | dict (l : List (Py × Py))
  | other (n : ℕ) (h i : Bool)

namespace Py

mutual
/-- Structural equality, which is Python's `==` on the modelled objects up to the order of the entries of
a dict. -/
def beq : Py → Py → Bool
  | none, none => true
  | bool a, bool b => a == b
  | num a, num b => a == b
  | str a, str b => a == b
  | tup a, tup b => beqL a b
  | list a, list b => beqL a b
  | dict a, dict b => beqD a b
  | other n h i, other n' h' i' => n == n' && h == h' && i == i'
  | _, _ => false
def beqL : List Py → List Py → Bool
  | [], [] => true
  | a :: as, b :: bs => beq a b && beqL as bs
  | _, _ => false
def beqD : List (Py × Py) → List (Py × Py) → Bool
  | [], [] => true
  | (k, v) :: as, (k', v') :: bs => (beq k k' && beq v v') && beqD as bs
  | _, _ => false
end

mutual
theorem beq_iff : ∀ a b : Py, beq a b = true ↔ a = b
  | .none, b => by cases b <;> simp [beq]
  | .bool _, b => by cases b <;> simp [beq]
  | .num _, b => by cases b <;> simp [beq]
  | .str _, b => by cases b <;> simp [beq]
  | .tup l, b => by cases b <;> simp [beq, beqL_iff l]
  | .list l, b => by cases b <;> simp [beq, beqL_iff l]
  | .dict l, b => by cases b <;> simp [beq, beqD_iff l]
  | .other _ _ _, b => by cases b <;> simp [beq, and_assoc]
theorem beqL_iff : ∀ a b : List Py, beqL a b = true ↔ a = b
  | [], b => by cases b <;> simp [beqL]
  | a :: as, b => by cases b <;> simp [beqL, beq_iff a, beqL_iff as]
theorem beqD_iff : ∀ a b : List (Py × Py), beqD a b = true ↔ a = b
  | [], b => by cases b <;> simp [beqD]
  | (k, v) :: as, b => by
    rcases b with _ | ⟨⟨k', v'⟩, bs⟩ <;> simp [beqD, beq_iff k, beq_iff v, beqD_iff as]
end

instance : DecidableEq Py := fun a b => decidable_of_iff _ (beq_iff a b)

mutual
/-- `hash(x)` returns: lists and dicts are unhashable, a tuple hashes its elements. -/
def hashable : Py → Bool
  | list _ | dict _ => false
  | tup l => hashableL l
  | other _ h _ => h
  | _ => true
def hashableL : List Py → Bool
  | [] => true
  | x :: xs => hashable x && hashableL xs
end

/-- `x[0]`. -/
def index0 : Py → Res Py
  | str [] => .error .indexErr
  | str (c :: _) => .ok (str [c])
  | tup [] | list [] => .error .indexErr
  | tup (x :: _) | list (x :: _) => .ok x
  | dict l => match Dict.get? l (num 0) with
    | some v => .ok v
    | Option.none => .error .keyErr
  | other _ _ true => .ok none
  | _ => .error .typeErr

end Py
end CF
