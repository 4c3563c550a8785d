/-
Runs of a `TrestleTree`.
-/
import Verif.Model.Trestle
import Verif.Spec.Heap
import Verif.Spec.StructureMapper

namespace CF

/-- A name that `gensym` returned before its counter became `n`. -/
def Generated (n : ℕ) (x : Py) : Prop := ∃ k < n, x = .str (defaultGensym k)

/-- What is assumed about Python: iterating over a set yields its elements. -/
def TrestleCfg.Ok (c : TrestleCfg) : Prop := ∀ l x, x ∈ c.setOrder l ↔ x ∈ l

/-- Drawing a random number makes no nodes. -/
def Numbers.Ok (N : Numbers) : Prop := ∀ m s w, (N.gauss m s w).2.ctr = w.ctr

/-- The first three stages of the preprocessing (trestle.py:251-252): the instance that is given to the
structure mapper. -/
def beforeMapping (c : TrestleCfg) (n : ℕ) (i : PyInst) : Res PyInst × ℕ × (ℕ → Option (Dict Py Py)) :=
  (pipeline [⟨0, nameStandardizer c.std⟩, ⟨1, flattener⟩, ⟨2, subComponent c.fuel⟩]).transform i
    (n, fun _ => none)

/-- The states of a tree after any calls, in any order, on any instances, with any outcome of the searches
and whether the calls return or raise. -/
inductive TrestleAny (c : TrestleCfg) : TState → Prop
  | clear (st : TState) : TrestleAny c (trestleClear st)
  | other {st : TState} {h' : Heap (Stats3 Py Py)} : TrestleAny c st → Undisturbed st.h h' →
      TrestleAny c { st with h := h' }
  | ifit {st : TState} {S : Search} {i : PyInst} : TrestleAny c st → SearchLaws S → Py.wf (.dict i) →
      TrestleAny c (trestleIfit c S i st).2
  | categorize {st : TState} {S : Search} {i : PyInst} : TrestleAny c st → SearchLaws S → Py.wf (.dict i) →
      TrestleAny c (trestleCategorize c S i st).2
  | infer {st : TState} {S : Search} {N : Numbers} {fn : ChoiceFn} {allowNone : Bool} {i : PyInst} :
      TrestleAny c st → SearchLaws S → Py.wf (.dict i) → N.Ok →
      TrestleAny c (trestleInfer c S N fn allowNone i st).2

/-- The states of a tree, with the preprocessed instances it was fitted with, after calls of `ifit` that
return or reject the instance before fitting it, and any calls of `categorize` and `infer_missing`. -/
inductive TrestleRuns (c : TrestleCfg) : TState → List PyInst → Prop
  | clear (st : TState) : TrestleRuns c (trestleClear st) []
  | other {st : TState} {hist : List PyInst} {h' : Heap (Stats3 Py Py)} : TrestleRuns c st hist →
      Undisturbed st.h h' → TrestleRuns c { st with h := h' } hist
  | ifit {st st' : TState} {hist : List PyInst} {S : Search} {i temp : PyInst} {a : ℕ} : TrestleRuns c st hist →
      SearchLaws S → Py.wf (.dict i) → (trestlePrep c S st i).1 = .ok temp →
      trestleIfit c S i st = (.ok a, st') → TrestleRuns c st' (hist ++ [temp])
  | rejected {st : TState} {hist : List PyInst} {S : Search} {i : PyInst} : TrestleRuns c st hist →
      SearchLaws S → Py.wf (.dict i) → (∀ temp, (trestlePrep c S st i).1 = .ok temp → trestleCheck temp ≠ .ok ()) →
      TrestleRuns c (trestleIfit c S i st).2 hist
  | categorize {st : TState} {hist : List PyInst} {S : Search} {i : PyInst} : TrestleRuns c st hist →
      SearchLaws S → Py.wf (.dict i) → TrestleRuns c (trestleCategorize c S i st).2 hist
  | infer {st : TState} {hist : List PyInst} {S : Search} {N : Numbers} {fn : ChoiceFn} {allowNone : Bool}
      {i : PyInst} : TrestleRuns c st hist → SearchLaws S → Py.wf (.dict i) → N.Ok →
      TrestleRuns c (trestleInfer c S N fn allowNone i st).2 hist

/-! ### Instances that can be fitted -/

mutual
/-- An attribute: a string or a tuple, neither of them empty, of attributes. -/
def FitAttr : Py → Prop
  | .str s => s ≠ []
  | .tup l => l ≠ [] ∧ FitAttrs l
  | _ => False
def FitAttrs : List Py → Prop
  | [] => True
  | x :: xs => FitAttr x ∧ FitAttrs xs
end

mutual
/-- A value: an instance, or hashable (so not a list). -/
def FitVal : Py → Prop
  | .dict l => FitInst l
  | v => v.hashable = true
/-- All attributes and values at all depths are so. -/
def FitInst : List (Py × Py) → Prop
  | [] => True
  | (a, v) :: l => (FitAttr a ∧ FitVal v) ∧ FitInst l
end

mutual
/-- The value of the attribute `a`, if it is not an instance, belongs to a visible attribute. -/
def VisLeaf : Py → (a : Py) → Prop
  | .dict l, _ => VisInst l
  | _, a => hid3 a = false
/-- Some value at some depth is not an instance and its attribute does not begin with `_`. -/
def VisInst : List (Py × Py) → Prop
  | [] => False
  | (a, v) :: l => VisLeaf v a ∨ VisInst l
end

/-- The external search returns. -/
structure SearchTotal (S : Search) : Prop where
  assign : ∀ is cs t, ∃ idx, S.assign is cs t = .ok idx
  climb : ∀ m t, ∃ s, S.climb m t = .ok s

end CF
