/-
/repo/concept_formation/continuous_value.py once more, in floating point: the arithmetic of
`Verif.Model.Continuous` with every result rounded.

`num` and the counts are floats in the code and natural numbers here.  Up to 2^53 that is the same
(`C91_counts`).  `math.sqrt` is correctly rounded (IEEE 754).  `fl` is the rounding; Python's is
`ieee.fl`, and with the identity these are the definitions of `Verif.Model.Continuous` (`C91_unrounded`).
-/
import Verif.Model.Continuous
import Mathlib.Analysis.Real.Pi.Bounds

namespace CF
variable (fl : ℝ → ℝ)

/-- A quotient of floats: rounded; dividing by zero raises. -/
noncomputable def divF (a b : ℝ) : Res ℝ := if b = 0 then .error .zeroDiv else .ok (fl (a / b))

/-- `math.sqrt` on floats. -/
noncomputable def sqrtF (x : ℝ) : Res ℝ := if x < 0 then .error .valueErr else .ok (fl (Real.sqrt x))

/-- `math.pi`: π rounded. -/
noncomputable def piF : ℝ := fl Real.pi

/-- A count as a float. -/
noncomputable def natF (n : ℕ) : ℝ := fl (n : ℝ)

/-- `update` (continuous_value.py:161-175) in floating point. -/
noncomputable def CV.updateF (c : CV ℝ) (x : ℝ) : CV ℝ :=
  let num := c.num + 1
  let delta := fl (x - c.mean)
  let mean := fl (c.mean + fl (delta / natF fl num))
  ⟨num, mean, fl (c.meanSq + fl (delta * fl (x - mean)))⟩

/-- `update_batch` (continuous_value.py:151-159) in floating point. -/
noncomputable def CV.updateBatchF (c : CV ℝ) : List ℝ → CV ℝ
  | [] => c
  | x :: xs => (CV.updateF fl c x).updateBatchF xs

/-- `combine` (continuous_value.py:177-196) in floating point. -/
noncomputable def CV.combineF (c d : CV ℝ) : Res (CV ℝ) := do
  let delta := fl (d.mean - c.mean)
  let total := fl (natF fl c.num + natF fl d.num)
  let q ← divF fl (fl (natF fl c.num * natF fl d.num)) total
  let meanSq := fl (fl (c.meanSq + d.meanSq) + fl (fl (delta * delta) * q))
  let mean ← divF fl (fl (fl (natF fl c.num * c.mean) + fl (natF fl d.num * d.mean))) total
  pure ⟨c.num + d.num, mean, meanSq⟩

/-- `biased_std` (continuous_value.py:72-79) in floating point. -/
noncomputable def CV.biasedStdF (c : CV ℝ) : Res ℝ := do
  let v ← divF fl c.meanSq (natF fl c.num)
  sqrtF fl v

/-- `unbiased_std` (continuous_value.py:81-96) in floating point.  The entries of `c4n_table` are decimal
literals, read as the floats they round to. -/
noncomputable def CV.unbiasedStdF (c : CV ℝ) : Res ℝ :=
  if c.num < 2 then .ok 0 else do
    let v ← divF fl c.meanSq (fl (natF fl c.num - 1))
    let r ← sqrtF fl v
    let k ← c4 c.num
    divF fl r (fl (k : ℝ))

/-- `scaled_biased_std` (continuous_value.py:98-115) in floating point. -/
noncomputable def CV.scaledBiasedStdF (c : CV ℝ) (scale : ℝ) : Res ℝ := do
  let scale := if scale ≤ 0 then 1 else scale
  let s ← CV.biasedStdF fl c
  divF fl s scale

/-- `scaled_unbiased_std` (continuous_value.py:117-134) in floating point. -/
noncomputable def CV.scaledUnbiasedStdF (c : CV ℝ) (scale : ℝ) : Res ℝ := do
  let scale := if scale ≤ 0 then 1 else scale
  let s ← CV.unbiasedStdF fl c
  divF fl s scale

end CF
