/-
Runs of a `TrestleTree` on which calls raised.
-/
import Verif.Spec.Trestle
import Verif.Spec.HeapFail

namespace CF

/-- `TrestleRuns` with calls that raise.  `hist` are the preprocessed instances of the calls of `ifit` that returned,
`bad` those of the calls that raised while the instance was being sorted into the tree; calls that raised before that,
in the preprocessing or in the check, are in neither list. -/
inductive TrestleRunsE (c : TrestleCfg) : TState → List PyInst → List PyInst → Prop
  | clear (st : TState) : TrestleRunsE c (trestleClear st) [] []
  | other {st : TState} {hist bad : List PyInst} {h' : Heap (Stats3 Py Py)} : TrestleRunsE c st hist bad →
      Undisturbed st.h h' → TrestleRunsE c { st with h := h' } hist bad
  | ifit {st st' : TState} {hist bad : List PyInst} {S : Search} {i temp : PyInst} {a : ℕ} :
      TrestleRunsE c st hist bad → SearchLaws S → Py.wf (.dict i) → (trestlePrep c S st i).1 = .ok temp →
      trestleIfit c S i st = (.ok a, st') → TrestleRunsE c st' (hist ++ [temp]) bad
  | rejected {st : TState} {hist bad : List PyInst} {S : Search} {i : PyInst} : TrestleRunsE c st hist bad →
      SearchLaws S → Py.wf (.dict i) → (∀ temp, (trestlePrep c S st i).1 = .ok temp → trestleCheck temp ≠ .ok ()) →
      TrestleRunsE c (trestleIfit c S i st).2 hist bad
  | fail {st st' : TState} {hist bad : List PyInst} {S : Search} {i temp : PyInst} {e : PyErr} :
      TrestleRunsE c st hist bad → SearchLaws S → Py.wf (.dict i) → (trestlePrep c S st i).1 = .ok temp →
      trestleCheck temp = .ok () → trestleIfit c S i st = (.error e, st') → TrestleRunsE c st' hist (bad ++ [temp])
  | categorize {st : TState} {hist bad : List PyInst} {S : Search} {i : PyInst} : TrestleRunsE c st hist bad →
      SearchLaws S → Py.wf (.dict i) → TrestleRunsE c (trestleCategorize c S i st).2 hist bad
  | infer {st : TState} {hist bad : List PyInst} {S : Search} {N : Numbers} {fn : ChoiceFn} {allowNone : Bool}
      {i : PyInst} : TrestleRunsE c st hist bad → SearchLaws S → Py.wf (.dict i) → N.Ok →
      TrestleRunsE c (trestleInfer c S N fn allowNone i st).2 hist bad

end CF
