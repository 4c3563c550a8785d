/-
Mappings that keep variables apart, and what is assumed of Munkres' algorithm.
-/
import Verif.Spec.StructureMapper
import Mathlib.Algebra.Order.Monoid.WithTop
import Mathlib.Data.Real.Basic

namespace CF

/-- The image of a variable under a mapping; other variables stay. -/
def image (m : Dict Py Py) (x : Py) : Py := (m.get? x).getD x

/-- The mapping sends variables to variables, and those of the attributes `as` to different ones. -/
structure KeepsApart (m : Dict Py Py) (as : List Py) : Prop where
  dom : ∀ x w, m.get? x = some w → Variable x
  vars : ∀ x ∈ varsOf as, Variable (image m x)
  inj : ∀ x ∈ varsOf as, ∀ y ∈ varsOf as, image m x = image m y → x = y

/-- The instance with the variables of its attributes renamed. -/
def renamedInst (m : Dict Py Py) (i : PyInst) : PyInst := i.map fun p => (renEl (image m) p.1, p.2)

/-- The sum of the entries that an assignment picks from a matrix; a place outside the matrix counts as
infinite. -/
noncomputable def totalCost (mat : List (List (WithTop ℝ))) (idx : List (ℕ × ℕ)) : WithTop ℝ :=
  (idx.map fun p => (mat[p.1]?.bind fun row => row[p.2]?).getD ⊤).sum

/-- Munkres' algorithm returns an assignment of all rows to different columns with the least total cost, for
matrices that have at least as many columns as rows. -/
def MunkresLaw (compute : List (List (WithTop ℝ)) → Res (List (ℕ × ℕ))) : Prop :=
  ∀ mat k idx, (∀ row ∈ mat, row.length = k + mat.length) → compute mat = .ok idx →
    Assignment mat.length k idx ∧ ∀ idx', Assignment mat.length k idx' → totalCost mat idx ≤ totalCost mat idx'

end CF
