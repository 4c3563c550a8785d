/-
Places in nested instances, and what the converting preprocessors should do there.
-/
import Verif.Model.Convert

namespace CF

/-- The value found by following attributes into components. -/
def atPath : Py → List Py → Option Py
  | v, [] => some v
  | .dict l, k :: ks => (Dict.get? l k).bind fun v => atPath v ks
  | _, _ :: _ => none

/-- The attribute is to be converted: it is one of the targets, or there are no targets. -/
def Targets (ts : Option (List Py)) (k : Py) : Prop := ∀ l, ts = some l → k ∈ l

/-- A Python number. -/
def IsNum (v : Py) : Prop := (∃ q, v = .num q) ∨ ∃ b, v = .bool b

/-- The number that a value stands for. -/
inductive ReadsAs (parse : PStr → Option ℚ) : Py → ℚ → Prop
  | num (q : ℚ) : ReadsAs parse (.num q) q
  | true : ReadsAs parse (.bool true) 1
  | false : ReadsAs parse (.bool false) 0
  | str {s : PStr} {q : ℚ} : parse s = some q → ReadsAs parse (.str s) q

/-- Two instances have the same components, with the same attributes in the same order. -/
def SameShape (i o : Py) : Prop :=
  ∀ ks, (∀ l, atPath i ks = some (.dict l) →
      ∃ l', atPath o ks = some (.dict l') ∧ Dict.keys l' = Dict.keys l) ∧
    (atPath i ks = none → atPath o ks = none)

/-! ### Sanitized instances -/

mutual
/-- A name that is not empty, whose elements have non-empty names, and so on. -/
def SanName (strOf : Py → PStr) : Py → Prop
  | .str s => s ≠ []
  | .tup l => l ≠ [] ∧ SanNames strOf l
  | x => strOf x ≠ []
def SanNames (strOf : Py → PStr) : List Py → Prop
  | [] => True
  | x :: xs => SanName strOf x ∧ SanNames strOf xs
end

mutual
/-- The attributes at every depth have non-empty names, and values that claim to be hashable are. -/
def SanOkV (strOf : Py → PStr) : Py → Prop
  | .dict l => SanOkD strOf l
  | v => hasHash v = true → v.hashable = true
def SanOkD (strOf : Py → PStr) : List (Py × Py) → Prop
  | [] => True
  | (k, v) :: l => (SanName strOf k ∧ SanOkV strOf v) ∧ SanOkD strOf l
end

mutual
/-- A relation made of strings. -/
def StrName : Py → Prop
  | .str _ => True
  | .tup l => StrNames l
  | _ => False
def StrNames : List Py → Prop
  | [] => True
  | x :: xs => StrName x ∧ StrNames xs
end

mutual
/-- At every depth, attributes are strings or relations made of strings, each one different, and values are
hashable or components. -/
def SaneV : Py → Prop
  | .dict l => Dict.Nodup l ∧ SaneD l
  | v => hasHash v = true
def SaneD : List (Py × Py) → Prop
  | [] => True
  | (k, v) :: l => (StrName k ∧ SaneV v) ∧ SaneD l
end

end CF
