/-
Places in instances, for the property of the object variablizer.
-/
import Verif.Spec.Convert

namespace CF

mutual
/-- All places of a value: the paths to its components (`none`) and to its other values. -/
def placesV : Py → List (List Py × Option Py)
  | .dict l => ([], none) :: placesD l
  | v => [([], some v)]
def placesD : List (Py × Py) → List (List Py × Option Py)
  | [] => []
  | (k, v) :: l => (placesV v).map (fun e => (k :: e.1, e.2)) ++ placesD l
end

/-- The name of an object marked as a variable: `?` is put in front unless it is there. -/
def markName : Py → Py
  | .str ('?' :: s) => .str ('?' :: s)
  | .str s => .str ('?' :: s)
  | k => k

/-- A component that is to be marked: a target that is not a relation. -/
def Marked (ts : Option (List Py)) (k : Py) : Prop := Targets ts k ∧ k.isTup = false

open Classical in
/-- The marked path of a place: the names of components are marked, from the outside in, up to the first one
that is no target; the name of a value is kept. -/
noncomputable def markPath (ts : Option (List Py)) : List Py → Option Py → List Py
  | [], _ => []
  | [k], some _ => [k]
  | k :: ks, x => if Marked ts k then markName k :: markPath ts ks x else k :: ks

open Classical in
/-- The name of an entry after marking. -/
noncomputable def entryName (ts : Option (List Py)) (p : Py × Py) : Py :=
  if Marked ts p.1 ∧ p.2.isDict = true then markName p.1 else p.1

mutual
/-- At every depth: components to be marked are named by non-empty strings, and marking does not make two
names equal. -/
def MarkableV (ts : Option (List Py)) : Py → Prop
  | .dict l => (l.map (entryName ts)).Nodup ∧ MarkableD ts l
  | _ => True
def MarkableD (ts : Option (List Py)) : List (Py × Py) → Prop
  | [] => True
  | (k, v) :: l => ((Marked ts k → v.isDict = true → ∃ c s, k = .str (c :: s)) ∧ MarkableV ts v) ∧ MarkableD ts l
end

end CF
