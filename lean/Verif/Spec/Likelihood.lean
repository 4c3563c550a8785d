/-
Specification of the log-likelihood of a concept below another one, and of the number of parameters.
-/
import Verif.Spec.Cobweb3
import Mathlib.Analysis.SpecialFunctions.Log.Basic

namespace CF

/-- The integral of the product of the two normal densities with the (noisy) moments of two samples. -/
noncomputable def overlap (xs ys : Multiset ℝ) : ℝ :=
  1 / Real.sqrt (2 * Real.pi * (noisyVar xs + noisyVar ys)) *
    Real.exp (-(sampleMean xs - sampleMean ys) ^ 2 / (2 * (noisyVar xs + noisyVar ys)))

variable {A V : Type} [DecidableEq A] [DecidableEq V]

/-- What the outcome `o` of the attribute `a` (a value, or missing) contributes: nothing if it does not
occur in the lower concept. -/
noncomputable def llTerm (mx my : Multiset (Inst A V)) (a : A) (o : Option V) : ℝ :=
  if freq ℝ my a o = 0 then 0 else Real.log (freq ℝ mx a o * freq ℝ my a o)

/-- The log-likelihood of the instances `my` under the instances `mx`: over the visible attributes, the
sum of the logarithms of the products of the shares of the outcomes that occur in `my`. -/
noncomputable def llSpec (hid : A → Bool) (mx my : Multiset (Inst A V)) : ℝ :=
  ∑ a ∈ visAttrs hid mx, (llTerm mx my a none + ∑ v ∈ valsOf my a, llTerm mx my a (some v))

/-- The same for mixed data, where `o` is missing, a number, or a nominal value; a number counts with the
overlap of the two normal densities. -/
noncomputable def llTerm3 (mx my : Multiset (Inst3 A V)) (a : A) (o : Option (Option V)) : ℝ :=
  if share my a o = 0 then 0
  else Real.log (share mx a o * share my a o *
    if o = some none then overlap (nums mx a) (nums my a) else 1)

noncomputable def llSpec3 (hid : A → Bool) (mx my : Multiset (Inst3 A V)) : ℝ :=
  ∑ a ∈ visAttrs hid mx, (llTerm3 mx my a none + llTerm3 mx my a (some none) +
    ∑ v ∈ nomVals my a, llTerm3 mx my a (some (some v)))

/-- The number of parameters of a concept with the instances `m`: one per value of a visible attribute,
but two if the value is the key reserved for numbers (`isKey`). -/
def nParams (hid : A → Bool) (isKey : V → Bool) (m : Multiset (Inst A V)) : ℕ :=
  ∑ a ∈ visAttrs hid m, ∑ v ∈ valsOf m a, if isKey v then 2 else 1

open Classical in
/-- For mixed data: one per nominal value, two per attribute that has numbers. -/
noncomputable def nParams3 (hid : A → Bool) (m : Multiset (Inst3 A V)) : ℕ :=
  ∑ a ∈ visAttrs hid m, ((nomVals m a).card + if nums m a = 0 then 0 else 2)

end CF
