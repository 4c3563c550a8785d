/-
Runs of a `TrestleTree` with all Python floats.
-/
import Verif.Model.TrestleX
import Verif.Spec.Ext3
import Verif.Spec.Trestle

namespace CF

/-- The finite numbers in an instance, at any depth, have the property `X`. -/
def NumLeaves (X : XF → Prop) (i : PyInst) : Prop := ∀ p q, (p, Py.num q) ∈ leavesD i → X (.fin q)

/-- The states of a tree, with the preprocessed instances it was fitted with, after calls of `ifit` that return or
reject the instance before fitting it, and other calls in between: these move the counters at most (`categorize` does
so, `C101_categorize`).  Instances, searches, orders of dicts and of `nan`s are arbitrary; `X` holds of the numbers. -/
inductive TrestleRunsX (R : Rounding) (X : XF → Prop) (c : TrestleCfg) (sp : ℕ → Option Bool) :
    TStateX → List PyInst → Prop
  | clear (w : World) : TrestleRunsX R X c sp (trestleClearX R.fl w) []
  | other {st : TStateX} {hist : List PyInst} {ctr : ℕ} {w : World} : TrestleRunsX R X c sp st hist →
      st.ctr ≤ ctr → st.w.ctr ≤ w.ctr → TrestleRunsX R X c sp ⟨st.tree, ctr, w⟩ hist
  | ifit {st st' : TStateX} {hist : List PyInst} {S : Search} {e : XEnv Py} {i temp : PyInst} {a : ℕ} :
      TrestleRunsX R X c sp st hist → SearchLaws S → (e.ar R.fl).Sorts → Py.wf (.dict i) → NumLeaves X i →
      (trestlePrepX c S st i).1 = .ok temp → trestleIfitX R.fl c sp S e i st = (.ok a, st') →
      TrestleRunsX R X c sp st' (hist ++ [temp])
  | rejected {st : TStateX} {hist : List PyInst} {S : Search} {e : XEnv Py} {i : PyInst} :
      TrestleRunsX R X c sp st hist →
      (∀ temp, (trestlePrepX c S st i).1 = .ok temp → trestleCheck temp ≠ .ok ()) →
      TrestleRunsX R X c sp (trestleIfitX R.fl c sp S e i st).2 hist

end CF
