/-
/repo/concept_formation/preprocessor.py: `Tuplizer`.

`float(val)` is a parameter: `pf s` is the number that `float` reads in `s`, or `none` when it raises
`ValueError`.
-/
import Verif.Model.Preprocessor

namespace CF

/-- `s.split(' ')`: at least one piece, and pieces may be empty. -/
def splitSp : PStr → List PStr
  | [] => [[]]
  | c :: s =>
    if c = ' ' then [] :: splitSp s
    else match splitSp s with
      | [] => [[c]]
      | p :: ps => (c :: p) :: ps

/-- `while val[-1] == ')'` (preprocessor.py:267-269) on the reversed string: the number of parentheses
and the rest, not reversed any more. -/
def stripEnd : PStr → ℕ → Res (PStr × ℕ)
  | [], _ => .error .indexErr
  | c :: cs, n => if c = ')' then stripEnd cs (n + 1) else .ok ((c :: cs).reverse, n)

/-- `while end > 0` (preprocessor.py:278-282); the top of the stack is the head of the list. -/
def closeN : ℕ → List (List Py) → Res (List (List Py))
  | 0, st => .ok st
  | n + 1, t :: c :: st => closeN n ((c ++ [.tup t]) :: st)
  | _ + 1, _ => .error .indexErr

/-- The string or number appended for a piece (preprocessor.py:272-276). -/
def readAtom (pf : PStr → Option Py) (s : PStr) : Py := (pf s).getD (.str s)

/-- `current.append(val)` (preprocessor.py:271-276). -/
def pushAtom (v : Py) : List (List Py) → Res (List (List Py))
  | [] => .error .indexErr
  | c :: st => .ok ((c ++ [v]) :: st)

/-- One round of the loop (preprocessor.py:260-282). -/
def tupStep (pf : PStr → Option Py) (val : PStr) (st : List (List Py)) : Res (List (List Py)) :=
  match val with
  | [] => .error .indexErr
  | c :: cs => do
    let start : PStr × List (List Py) := if c = '(' then (cs, [] :: st) else (val, st)
    let r ← stripEnd start.1.reverse 0
    let st ← pushAtom (readAtom pf r.1) start.2
    closeN r.2 st

/-- The loop (preprocessor.py:260-282). -/
def tupLoop (pf : PStr → Option Py) : List PStr → List (List Py) → Res (List (List Py))
  | [], st => .ok st
  | v :: vs, st => do
    let st ← tupStep pf v st
    tupLoop pf vs st

/-- `tuple(x)`.  Iterating over an object of another class is left out. -/
def toTuple : Py → Res Py
  | .tup l | .list l => .ok (.tup l)
  | .str s => .ok (.tup (s.map fun c => .str [c]))
  | .dict l => .ok (.tup (Dict.keys l))
  | _ => .error .typeErr

/-- `_tuplize_relation` (preprocessor.py:237-285). -/
def tuplize (pf : PStr → Option Py) (attr : Py) : Res Py := do
  let x ← attr.index0
  if x = .str c!"(" then
    match attr with
    | .str s => do
      let st ← tupLoop pf (splitSp s) [[]]
      match st with
      | [] => .error .indexErr
      | c :: _ => match c.getLast? with
        | none => .error .indexErr
        | some t => toTuple t
    | _ => .error .attrErr
  else pure attr

/-- `" ".join(l)`. -/
def joinSp : List Py → Res PStr
  | [] => .ok []
  | [.str s] => .ok s
  | .str s :: l => do
    let r ← joinSp l
    pure (s ++ ' ' :: r)
  | _ => .error .typeErr

mutual
/-- `_stringify_relation` (preprocessor.py:287-302). -/
def stringify : Py → Res Py
  | .tup l => do
    let l ← stringifyL l
    let s ← joinSp l
    pure (.str ('(' :: s ++ [')']))
  | a => .ok a
/-- The comprehension (preprocessor.py:297-298). -/
def stringifyL : List Py → Res (List Py)
  | [] => .ok []
  | x :: xs => do
    let y ← stringify x
    let ys ← stringifyL xs
    pure (y :: ys)
end

/-- `{f(attr): instance[attr] for attr in instance}`. -/
def mapKeys (f : Py → Res Py) : List (Py × Py) → PyInst → Res PyInst
  | [], new => .ok new
  | (a, v) :: rest, new => do
    let a ← f a
    mapKeys f rest (new.set a v)

/-- `Tuplizer` (preprocessor.py:197-301). -/
def tuplizer {γ τ : Type} (pf : PStr → Option Py) : Preproc γ τ :=
  stateless (fun i => mapKeys (tuplize pf) i []) (fun i => mapKeys stringify i [])

end CF
