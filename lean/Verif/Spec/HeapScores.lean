/-
What it means that a scoring method is a pure function of the nodes.
-/
import Verif.Spec.Heap

namespace CF

/-- Run on the store `h`, `m` returns (or raises) `r`, and leaves all objects and the root as they were. -/
def Evaluates {S α : Type} (h : Heap S) (m : HM S α) (r : Res α) : Prop :=
  ∃ h', m h = (r, h') ∧ Undisturbed h h'

end CF
