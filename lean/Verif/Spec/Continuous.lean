/-
Specification vocabulary for numeric summaries, independent of how they are computed.
-/
import Verif.Model.Continuous
import Mathlib.Algebra.BigOperators.Group.Multiset.Basic
import Mathlib.Algebra.Order.BigOperators.Group.Multiset

namespace CF
variable {K : Type} [Field K]

/-- The arithmetic mean of a sample (0 for the empty one). -/
def sampleMean (m : Multiset K) : K := m.sum / (Multiset.card m : K)

/-- The sum of the squared deviations of a sample from its mean. -/
def sqDev (m : Multiset K) : K := (m.map fun x => (x - sampleMean m) ^ 2).sum

/-- The accumulator `c` is the summary of the sample `m`: number, mean, squared error. -/
structure CV.Obs (c : CV K) (m : Multiset K) : Prop where
  num : c.num = Multiset.card m
  mean : c.mean = sampleMean m
  meanSq : c.meanSq = sqDev m

/-- The c4-corrected sample standard deviation: 0 below two values. -/
noncomputable def sampleStd (m : Multiset ℝ) : ℝ :=
  if Multiset.card m < 2 then 0
  else Real.sqrt (sqDev m / (Multiset.card m - 1)) /
    (((c4Table.get? (Multiset.card m)).getD 1 : ℚ) : ℝ)

/-- The variance with the added noise `1 / (4π)`. -/
noncomputable def noisyVar (m : Multiset ℝ) : ℝ := sampleStd m ^ 2 + 1 / (4 * Real.pi)

end CF
