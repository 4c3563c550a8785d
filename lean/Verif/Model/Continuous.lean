/-
/repo/concept_formation/continuous_value.py: the incremental mean and standard deviation.

Floating point numbers are modelled by the elements of an exact field: the rationals or the reals.
Methods that take a root are modelled over the reals.
-/
import Verif.Model.Utils
import Mathlib.Analysis.Real.Sqrt
import Mathlib.Analysis.SpecialFunctions.Exp
import Mathlib.Analysis.Real.Pi.Bounds

namespace CF

/-- The fields of a `ContinuousValue` (continuous_value.py:23-27).  `num` is a float in the code; it
only ever takes natural values. -/
structure CV (K : Type) where
  num : ℕ
  mean : K
  meanSq : K
  deriving DecidableEq

section
variable {K : Type} [Field K] [LinearOrder K]

/-- `ContinuousValue()` (continuous_value.py:23-27). -/
def CV.fresh : CV K := ⟨0, 0, 0⟩

/-- `copy` (continuous_value.py:32-43). -/
def CV.copy (c : CV K) : CV K :=
  let v : CV K := CV.fresh
  let v := { v with num := c.num }
  let v := { v with mean := c.mean }
  { v with meanSq := c.meanSq }

/-- `update` (continuous_value.py:161-175).  The divisor `num` is at least 1, so nothing raises. -/
def CV.update (c : CV K) (x : K) : CV K :=
  let num := c.num + 1
  let delta := x - c.mean
  let mean := c.mean + delta / (num : K)
  ⟨num, mean, c.meanSq + delta * (x - mean)⟩

/-- `update_batch` (continuous_value.py:151-159). -/
def CV.updateBatch (c : CV K) : List K → CV K
  | [] => c
  | x :: xs => (c.update x).updateBatch xs

/-- The value computed by `combine` when it does not raise (continuous_value.py:191-196). -/
def CV.join (c d : CV K) : CV K :=
  let delta := d.mean - c.mean
  ⟨c.num + d.num,
    ((c.num : K) * c.mean + (d.num : K) * d.mean) / ((c.num : K) + (d.num : K)),
    c.meanSq + d.meanSq + delta * delta * (((c.num : K) * (d.num : K)) / ((c.num : K) + (d.num : K)))⟩

/-- `combine` (continuous_value.py:177-196) with another `ContinuousValue`: dividing by the total
number of samples raises when there is none. -/
def CV.combine (c d : CV K) : Res (CV K) := do
  let delta := d.mean - c.mean
  let q ← pyDiv ((c.num : K) * (d.num : K)) ((c.num : K) + (d.num : K))
  let meanSq := c.meanSq + d.meanSq + delta * delta * q
  let mean ← pyDiv ((c.num : K) * c.mean + (d.num : K) * d.mean) ((c.num : K) + (d.num : K))
  pure ⟨c.num + d.num, mean, meanSq⟩

/-- `unbiased_mean` (continuous_value.py:45-52). -/
def CV.unbiasedMean (c : CV K) : K := c.mean

/-- `scaled_unbiased_mean` (continuous_value.py:54-70). -/
def CV.scaledUnbiasedMean (c : CV K) (shift scale : K) : K :=
  let scale := if scale ≤ 0 then 1 else scale
  (c.mean - shift) / scale

end

/-- `math.sqrt`: raises `ValueError` on negative numbers. -/
noncomputable def pySqrt (x : ℝ) : Res ℝ := if x < 0 then .error .valueErr else .ok (Real.sqrt x)

/-- `biased_std` (continuous_value.py:72-79). -/
noncomputable def CV.biasedStd (c : CV ℝ) : Res ℝ := do
  let v ← pyDiv c.meanSq (c.num : ℝ)
  pySqrt v

/-- `unbiased_std` (continuous_value.py:81-96). -/
noncomputable def CV.unbiasedStd (c : CV ℝ) : Res ℝ :=
  if c.num < 2 then .ok 0 else do
    let v ← pyDiv c.meanSq ((c.num : ℝ) - 1)
    let r ← pySqrt v
    let k ← c4 c.num
    pyDiv r (k : ℝ)

/-- `scaled_biased_std` (continuous_value.py:98-115). -/
noncomputable def CV.scaledBiasedStd (c : CV ℝ) (scale : ℝ) : Res ℝ := do
  let scale := if scale ≤ 0 then 1 else scale
  let s ← c.biasedStd
  pyDiv s scale

/-- `scaled_unbiased_std` (continuous_value.py:117-134). -/
noncomputable def CV.scaledUnbiasedStd (c : CV ℝ) (scale : ℝ) : Res ℝ := do
  let scale := if scale ≤ 0 then 1 else scale
  let s ← c.unbiasedStd
  pyDiv s scale

/-- `integral_of_gaussian_product` (continuous_value.py:198-217). -/
noncomputable def CV.gaussOverlap (c d : CV ℝ) : Res ℝ := do
  let mu1 := c.unbiasedMean
  let mu2 := d.unbiasedMean
  let sd1 ← c.unbiasedStd
  let sd2 ← d.unbiasedStd
  let noise := 1 / (4 * Real.pi)
  let sd1 ← pySqrt (sd1 * sd1 + noise)
  let sd2 ← pySqrt (sd2 * sd2 + noise)
  let root ← pySqrt (2 * Real.pi * (sd1 * sd1 + sd2 * sd2))
  let k ← pyDiv 1 root
  let e ← pyDiv (-1 * (mu1 - mu2) * (mu1 - mu2)) (2 * (sd1 * sd1 + sd2 * sd2))
  pure (k * Real.exp e)

/-- `output_json` (continuous_value.py:219-224): mean, std and n. -/
noncomputable def CV.outputJson (c : CV ℝ) : Res (ℝ × ℝ × ℕ) := do
  let s ← c.unbiasedStd
  pure (c.unbiasedMean, s, c.num)

end CF
