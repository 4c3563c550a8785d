/-
The comparison of three formulas for the expected number of correct guesses of a numeric attribute:
/repo/concept_formation/examples/compare_mse_acc.py.
-/
import Verif.Model.Continuous

namespace CF

/-- `compute` (compare_mse_acc.py:11-22).  Exact real numbers; a quotient by 0 is Python's
`ZeroDivisionError` (the script calls it with numpy floats, for which it would be a warning, but never
with 0). -/
noncomputable def computeEcgs (std : ℝ) : Res (ℝ × ℝ × ℝ) := do
  let q1 ← pyDiv 1 (2 * Real.sqrt Real.pi)
  let r1 ← pyDiv 1 std
  let acuity ← pyDiv 1 (2 * Real.sqrt Real.pi)
  let r2 ← pyDiv 1 (max std acuity)
  let noise ← pyDiv 1 (4 * Real.pi)
  let root ← pySqrt (std * std + noise)
  let r3 ← pyDiv 1 root
  pure (q1 * r1, q1 * r2, q1 * r3)

end CF
