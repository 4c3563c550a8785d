/-
/repo/concept_formation/preprocessor.py: `NumericToNominal`, `NominalToNumeric`, `ObjectVariablizer` and
`Sanitizer`; and the check of `TrestleTree` (trestle.py).

Simplifications: `str(x)` is a parameter; `float(s)` of a string is a parameter; an object of another
class is not a number and `float` raises `TypeError` on it.
-/
import Verif.Model.Preprocessor

namespace CF

/-- `attr in attrs`, `attrs` being all attributes when there are no targets (preprocessor.py:1491-1494,
1591-1594, 1417-1420). -/
def targeted (targets : Option (List Py)) (a : Py) : Bool :=
  match targets with
  | none => true
  | some l => l.contains a

/-! ### `NumericToNominal` -/

/-- `isinstance(x, Number)`: a `bool` is one. -/
def isNumber : Py → Bool
  | .num _ | .bool _ => true
  | _ => false

mutual
/-- The value stored for attribute `a` (preprocessor.py:1499-1504). -/
def nominalV (strOf : Py → PStr) (ts : Option (List Py)) (a : Py) : Py → Py
  | .dict l => .dict (nominalD strOf ts l [])
  | v => if targeted ts a && isNumber v then .str (strOf v) else v
/-- `NumericToNominal.transform` (preprocessor.py:1487-1505). -/
def nominalD (strOf : Py → PStr) (ts : Option (List Py)) : List (Py × Py) → PyInst → PyInst
  | [], new => new
  | (a, v) :: rest, new => nominalD strOf ts rest (new.set a (nominalV strOf ts a v))
end

/-- `NumericToNominal` (preprocessor.py:1446-1505). -/
def numericToNominal {γ τ : Type} (strOf : Py → PStr) (ts : Option (List Py)) : Preproc γ τ :=
  stateless (fun i => .ok (nominalD strOf ts i [])) oneWayUndo

/-! ### `NominalToNumeric` -/

/-- What to do when a string is not a number. -/
inductive OnFail
  | brk | drop | zero
  deriving DecidableEq

/-- `on_fail` (preprocessor.py:1582-1584). -/
def OnFail.ofStr (s : PStr) : OnFail :=
  if s = c!"drop" then .drop else if s = c!"zero" then .zero else .brk

/-- `float(x)`. -/
def floatOf (parse : PStr → Option ℚ) : Py → Res Py
  | .num q => .ok (.num q)
  | .bool b => .ok (.num (if b then 1 else 0))
  | .str s => match parse s with
    | some q => .ok (.num q)
    | none => .error .valueErr
  | _ => .error .typeErr

/-- The `try` statement (preprocessor.py:1600-1609): the value to store, or `none` for `continue`. -/
def tryFloat (parse : PStr → Option ℚ) (onFail : OnFail) (v : Py) : Res (Option Py) :=
  match floatOf parse v with
  | .ok x => .ok (some x)
  | .error .valueErr =>
    match onFail with
    | .brk => .error .valueErr
    | .drop => .ok none
    | .zero => .ok (some (.num 0))
  | .error e => .error e

mutual
/-- The value stored for an attribute that is no target (preprocessor.py:1611-1614). -/
def numericV (parse : PStr → Option ℚ) (onFail : OnFail) (ts : Option (List Py)) : Py → Res Py
  | .dict l => do
    let d ← numericD parse onFail ts l []
    pure (.dict d)
  | v => .ok v
/-- `NominalToNumeric.transform` (preprocessor.py:1586-1616). -/
def numericD (parse : PStr → Option ℚ) (onFail : OnFail) (ts : Option (List Py)) :
    List (Py × Py) → PyInst → Res PyInst
  | [], new => .ok new
  | (a, v) :: rest, new =>
    if targeted ts a then do
      let x ← tryFloat parse onFail v
      match x with
      | none => numericD parse onFail ts rest new
      | some x => numericD parse onFail ts rest (new.set a x)
    else do
      let v ← numericV parse onFail ts v
      numericD parse onFail ts rest (new.set a v)
end

/-- `NominalToNumeric` (preprocessor.py:1508-1616). -/
def nominalToNumeric {γ τ : Type} (parse : PStr → Option ℚ) (onFail : OnFail) (ts : Option (List Py)) :
    Preproc γ τ :=
  stateless (fun i => numericD parse onFail ts i []) oneWayUndo

/-! ### `ObjectVariablizer` -/

/-- The new name of a component (preprocessor.py:1433-1435). -/
def varName (a : Py) : Res Py := do
  let x ← a.index0
  if x = .str c!"?" then pure a
  else match a with
    | .str s => pure (.str ('?' :: s))
    | _ => .error .typeErr

mutual
/-- A component (preprocessor.py:1436-1437). -/
def variablizeV (ts : Option (List Py)) : Py → Res Py
  | .dict l => do
    let d ← variablizeD ts l [] []
    pure (.dict d)
  | v => .ok v
/-- `_variablize` (preprocessor.py:1412-1443); the accumulators are `new_instance` and the relations with
their values.  `mapping` is always empty, so `rename_relation` returns the relation; `prefix` is not
used. -/
def variablizeD (ts : Option (List Py)) : List (Py × Py) → PyInst → List (Py × Py) → Res PyInst
  | [], new, rels => .ok (addRelations [] new rels)
  | (a, v) :: rest, new, rels =>
    if a.isTup then variablizeD ts rest new (rels ++ [(a, v)])
    else if targeted ts a && v.isDict then do
      let name ← varName a
      let v ← variablizeV ts v
      variablizeD ts rest (new.set name v) rels
    else variablizeD ts rest (new.set a v) rels
end

/-- `ObjectVariablizer` (preprocessor.py:1359-1443). -/
def objectVariablizer {γ τ : Type} (ts : Option (List Py)) : Preproc γ τ :=
  stateless (fun i => variablizeD ts i [] []) oneWayUndo

/-! ### `Sanitizer` -/

/-- `isinstance(x, Hashable)`: the class has `__hash__`, whatever the elements of a tuple are. -/
def hasHash : Py → Bool
  | .list _ | .dict _ => false
  | .other _ h _ => h
  | _ => true

/-- `','.join(l)`. -/
def joinComma : List PStr → PStr
  | [] => []
  | [s] => s
  | s :: l => s ++ ',' :: joinComma l

mutual
/-- `_cob_str` (preprocessor.py:1672-1684). -/
def cobStr (strOf : Py → PStr) : Py → PStr
  | .str s => '\'' :: s ++ ['\'']
  | .dict l => '{' :: joinComma (((cobStrD strOf l).insertionSort fun a b => a.1 ≤ b.1).map Prod.snd) ++ ['}']
  | v => strOf v
/-- The entries as strings, each with its sort key. -/
def cobStrD (strOf : Py → PStr) : List (Py × Py) → List (PStr × PStr)
  | [] => []
  | (k, v) :: l => (strOf k, cobStr strOf k ++ ':' :: cobStr strOf v) :: cobStrD strOf l
end

mutual
/-- `_sanitize_tuple` (preprocessor.py:1686-1695). -/
def sanEl (strOf : Py → PStr) : Py → Py
  | .str s => .str s
  | .tup l => .tup (sanTup strOf l)
  | v => .str (strOf v)
def sanTup (strOf : Py → PStr) : List Py → List Py
  | [] => []
  | x :: xs => sanEl strOf x :: sanTup strOf xs
end

/-- The attribute under which `_sanitize` stores a value (preprocessor.py:1701-1740). -/
def sanAttr (strOf : Py → PStr) (trestle : Bool) : Py → Py
  | .str s => .str s
  | .tup l => if trestle then .tup (sanTup strOf l) else .tup l
  | a => .str (strOf a)

mutual
/-- The value that `_sanitize` stores; the three branches on the attribute do the same. -/
def sanVal (strOf : Py → PStr) (trestle : Bool) : Py → Py
  | .dict l => if trestle then .dict (sanitizeD strOf trestle l []) else .str (cobStr strOf (.dict l))
  | v => if hasHash v then v else .str (cobStr strOf v)
/-- `_sanitize` (preprocessor.py:1697-1741); the accumulator is `ret`. -/
def sanitizeD (strOf : Py → PStr) (trestle : Bool) : List (Py × Py) → PyInst → PyInst
  | [], ret => ret
  | (a, v) :: rest, ret =>
    sanitizeD strOf trestle rest (ret.set (sanAttr strOf trestle a) (sanVal strOf trestle v))
end

/-- `s.lower()` for ASCII letters. -/
def lower (s : PStr) : PStr := s.map Char.toLower

/-- `Sanitizer(spec)` (preprocessor.py:1663-1667). -/
def sanitizer {γ τ : Type} (strOf : Py → PStr) (spec : PStr) : Res (Preproc γ τ) :=
  if lower spec ∈ [c!"trestle", c!"cobweb", c!"cobweb3"] then
    .ok (stateless (fun i => .ok (sanitizeD strOf (spec == c!"trestle") i [])) oneWayUndo)
  else .error .valueErr

/-! ### The check of `TrestleTree` -/

mutual
/-- An element in `_sanity_check_relation` (trestle.py:118-130). -/
def checkRelEl : Py → Res Unit
  | .tup [] => .error .valueErr
  | .tup (x :: xs) => do
    checkRelEl x
    checkRel xs
  | v => match v.index0 with
    | .ok _ => .ok ()
    | .error _ => .error .valueErr
/-- `_sanity_check_relation` (trestle.py:118-130). -/
def checkRel : List Py → Res Unit
  | [] => .ok ()
  | v :: vs => do
    checkRelEl v
    checkRel vs
end

/-- The attribute (trestle.py:94-106). -/
def trestleAttr (a : Py) : Res Unit :=
  match a.hashable, a.index0 with
  | true, .ok _ => match a with
    | .tup l => checkRel l
    | _ => .ok ()
  | _, _ => .error .valueErr

mutual
/-- The value (trestle.py:107-115). -/
def trestleVal : Py → Res Unit
  | .dict l => trestleCheck l
  | v => if v.hashable then .ok () else .error .valueErr
/-- `TrestleTree._sanity_check_instance` (trestle.py:85-115). -/
def trestleCheck : List (Py × Py) → Res Unit
  | [] => .ok ()
  | (a, v) :: rest => do
    trestleAttr a
    trestleVal v
    trestleCheck rest
end

end CF
