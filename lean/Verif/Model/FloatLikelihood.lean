/-
`log_likelihood` of a `Cobweb3Node` (/repo/concept_formation/cobweb3.py) in floating point; the exact version is
in `Verif.Model.Predict3`.

Simplifications: as in `Verif.Model.Float3`.  `math.exp` and `math.log` are correctly rounded here.  The C library
promises a little less, but all that is used of `exp` is that it is zero below -746 and at least 2^-938 from
-650 on.  The attributes and the keys are visited in the order of two Python sets; the orders `as` and `vals` are
arguments.  With `fl = id` the definitions are those of `Verif.Model.Predict3` (`C97_unrounded`).
-/
import Verif.Model.Float3
import Verif.Model.Predict3

namespace CF
variable (fl : ℝ → ℝ)

/-- `math.exp` on floats. -/
noncomputable def expF (x : ℝ) : ℝ := fl (Real.exp x)

/-- `integral_of_gaussian_product` (continuous_value.py:198-217). -/
noncomputable def CV.gaussOverlapF (c d : CV ℝ) : Res ℝ := do
  let mu1 := c.unbiasedMean
  let mu2 := d.unbiasedMean
  let sd1 ← CV.unbiasedStdF fl c
  let sd2 ← CV.unbiasedStdF fl d
  let noise ← divF fl 1 (fl (4 * piF fl))
  let sd1 ← sqrtF fl (fl (fl (sd1 * sd1) + noise))
  let sd2 ← sqrtF fl (fl (fl (sd2 * sd2) + noise))
  let root ← sqrtF fl (fl (fl (2 * piF fl) * fl (fl (sd1 * sd1) + fl (sd2 * sd2))))
  let k ← divF fl 1 root
  let e ← divF fl (fl (fl (-1 * fl (mu1 - mu2)) * fl (mu1 - mu2))) (fl (2 * fl (fl (sd1 * sd1) + fl (sd2 * sd2))))
  pure (fl (k * expF fl e))

section
variable {A B V : Type} [DecidableEq A] [DecidableEq B] [DecidableEq V]

/-- `probability(attr, None)` (cobweb3.py:442-448). -/
noncomputable def Stats3.probNoneF (s : Stats3 A V) (a : A) : Res ℝ :=
  let c : ℕ := match s.av.get? a with
    | none => 0
    | some t => t.total
  divF fl (fl (natF fl s.count - natF fl c)) (natF fl s.count)

/-- `probability(attr, v)` of a nominal value (cobweb3.py:476-479). -/
noncomputable def Stats3.probNomF (s : Stats3 A V) (a : A) (v : V) : Res ℝ :=
  match (s.av.get? a).bind fun t => t.noms.get? v with
  | none => .ok 0
  | some c => divF fl (natF fl c) (natF fl s.count)

/-- The case `val == cv_key` of `log_likelihood` (cobweb3.py:498-511): the summand. -/
noncomputable def llNumF (s leaf : Stats3 A V) (a : A) : Res ℝ :=
  match (s.av.get? a).bind Tab.cv, (leaf.av.get? a).bind Tab.cv with
  | some n1, some n2 => do
    let pn1 ← divF fl (natF fl n1.num) (natF fl s.count)
    let pn2 ← divF fl (natF fl n2.num) (natF fl leaf.count)
    let g ← CV.gaussOverlapF fl n1 n2
    let p := fl (fl (pn1 * pn2) * g)
    if p > 0 then pure (fl (Real.log p)) else .error .exc
  | _, _ => .ok 0

/-- The other case (cobweb3.py:513-519), given the probabilities `op` at the leaf and `q` at the concept. -/
noncomputable def llNomF (op q : Res ℝ) : Res ℝ := do
  let op ← op
  if op > 0 then do
    let q ← q
    let p := fl (q * op)
    if p > 0 then pure (fl (Real.log p)) else .error .exc
  else pure 0

/-- The summand of one key. -/
noncomputable def llKeyF (s leaf : Stats3 A V) (a : A) : Option (Option V) → Res ℝ
  | none => llNomF fl (Stats3.probNoneF fl leaf a) (Stats3.probNoneF fl s a)
  | some (some v) => llNomF fl (Stats3.probNomF fl leaf a v) (Stats3.probNomF fl s a v)
  | some none => llNumF fl s leaf a

/-- The inner loop of `log_likelihood` (cobweb3.py:496-519). -/
noncomputable def llInner3F (s leaf : Stats3 A V) (a : A) : List (Option (Option V)) → ℝ → Res ℝ
  | [], ll => .ok ll
  | k :: ks, ll => do
    let x ← llKeyF fl s leaf a k
    llInner3F s leaf a ks (fl (ll + x))

/-- `log_likelihood` (cobweb3.py:481-520): the outer loop over the attributes `as`, the keys of each in the order
`vals`. -/
noncomputable def logLikelihoodF (s leaf : Stats3 A V) (vals : A → List (Option (Option V))) :
    List A → ℝ → Res ℝ
  | [], ll => .ok ll
  | a :: as, ll => do
    let ll ← llInner3F fl s leaf a (vals a) ll
    logLikelihoodF s leaf vals as ll

end
end CF
