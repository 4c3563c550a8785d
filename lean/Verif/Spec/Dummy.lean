/-
Runs of a `DummyTree`.
-/
import Verif.Model.Dummy
import Verif.Spec.Trestle

namespace CF

/-- The states of a `DummyTree` after any calls in any order, whether they return or raise. -/
inductive DummyAny (c : TrestleCfg) : TState → Prop
  | clear (st : TState) : DummyAny c (trestleClear st)
  | other {st : TState} {h' : Heap (Stats3 Py Py)} : DummyAny c st → Undisturbed st.h h' →
      DummyAny c { st with h := h' }
  | ifit {st : TState} {S : Search} {mapping : Bool} {i : PyInst} : DummyAny c st →
      DummyAny c (dummyIfit c S mapping i st).2
  | categorize {st : TState} {i : PyInst} : DummyAny c st → DummyAny c (dummyCategorize i st).2

/-- The states of a `DummyTree`, with the preprocessed instances of the calls of `ifit` that returned;
calls of `ifit` may also raise while the instance is preprocessed. -/
inductive DummyRuns (c : TrestleCfg) : TState → List PyInst → Prop
  | clear (st : TState) : DummyRuns c (trestleClear st) []
  | other {st : TState} {hist : List PyInst} {h' : Heap (Stats3 Py Py)} : DummyRuns c st hist →
      Undisturbed st.h h' → DummyRuns c { st with h := h' } hist
  | ifit {st st' : TState} {hist : List PyInst} {S : Search} {mapping : Bool} {i temp : PyInst} {a : ℕ} :
      DummyRuns c st hist → SearchLaws S → Py.wf (.dict i) → (dummyPrep c S mapping st i).1 = .ok temp →
      dummyIfit c S mapping i st = (.ok a, st') → DummyRuns c st' (hist ++ [temp])
  | rejected {st : TState} {hist : List PyInst} {S : Search} {mapping : Bool} {i : PyInst} :
      DummyRuns c st hist → (∀ temp, (dummyPrep c S mapping st i).1 ≠ .ok temp) →
      DummyRuns c (dummyIfit c S mapping i st).2 hist
  | categorize {st : TState} {hist : List PyInst} {i : PyInst} : DummyRuns c st hist →
      DummyRuns c (dummyCategorize i st).2 hist

end CF
