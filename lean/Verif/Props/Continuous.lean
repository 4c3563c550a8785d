/-
Properties C25-C28 of /repo/concept_formation/continuous_value.py, over exact arithmetic.
-/
import Verif.Proofs.Std
import Mathlib.Probability.Distributions.Gaussian.Real

set_option linter.unusedSectionVars false

namespace CF
section
variable {K : Type} [Field K] [LinearOrder K] [IsStrictOrderedRing K]

/-! ### C25 -/

/-- **C25**: after `update_batch(xs)` on a fresh accumulator, `num` is the number of values, `mean` their
arithmetic mean and `meanSq` the sum of the squared deviations from it. -/
theorem C25_update_batch (xs : List K) :
    (CV.fresh.updateBatch xs).num = xs.length ∧
    (CV.fresh.updateBatch xs).mean = xs.sum / xs.length ∧
    (CV.fresh.updateBatch xs).meanSq = (xs.map fun x => (x - xs.sum / xs.length) ^ 2).sum := by
  have h := obs_updateBatch (obs_fresh (K := K)) xs
  rw [zero_add] at h
  refine ⟨by simpa using h.num, by simpa [sampleMean] using h.mean, ?_⟩
  simpa [sqDev, sampleMean] using h.meanSq

/-- **C25**: the order of the values is immaterial. -/
theorem C25_order_independent {xs ys : List K} (h : xs.Perm ys) :
    CV.fresh.updateBatch xs = CV.fresh.updateBatch ys := by
  have h1 := obs_updateBatch (obs_fresh (K := K)) xs
  have h2 := obs_updateBatch (obs_fresh (K := K)) ys
  rw [Multiset.coe_eq_coe.2 h] at h1
  exact h1.unique h2

/-- Four values: mean 5/2, squared error 5. -/
example : CV.fresh.updateBatch [1, 2, 3, (4 : ℚ)] = ⟨4, 5 / 2, 5⟩ := by decide +kernel

end

/-- **C25**: `biased_std` is `utils.std` of the values. -/
theorem C25_biased_std (xs : List ℝ) (hne : xs ≠ []) :
    (CV.fresh.updateBatch xs).biasedStd = pyStd xs := by
  obtain ⟨h1, h2, h3⟩ := C25_update_batch xs
  have hl : (xs.length : ℝ) ≠ 0 := by
    have : xs.length ≠ 0 := by simpa using hne
    exact_mod_cast this
  rw [C44_std xs hne, CV.biasedStd, h1, h3, pyDiv_ok hl]
  refine pySqrt_ok (div_nonneg (List.sum_nonneg ?_) (Nat.cast_nonneg _))
  intro x hx
  obtain ⟨y, -, rfl⟩ := List.mem_map.1 hx
  positivity

example : (CV.fresh.updateBatch [1, 3, (5 : ℝ)]).biasedStd = .ok (Real.sqrt (8 / 3)) := by
  rw [C25_biased_std _ (by simp), C44_std _ (by simp)]
  norm_num

/-! ### C26 -/

section
variable {K : Type} [Field K] [LinearOrder K] [IsStrictOrderedRing K]

/-- **C26**: combining the accumulators of two samples, not both empty, gives the accumulator of the
concatenated sample. -/
theorem C26_combine (xs ys : List K) (h : xs ≠ [] ∨ ys ≠ []) :
    (CV.fresh.updateBatch xs).combine (CV.fresh.updateBatch ys) =
      .ok (CV.fresh.updateBatch (xs ++ ys)) := by
  have h1 := obs_updateBatch (obs_fresh (K := K)) xs
  have h2 := obs_updateBatch (obs_fresh (K := K)) ys
  have h3 := obs_updateBatch (obs_fresh (K := K)) (xs ++ ys)
  rw [zero_add] at h1 h2 h3
  rw [combine_eq]
  · congr 1
    refine (obs_join h1 h2).unique ?_
    rwa [Multiset.coe_add]
  · rw [h1.num, h2.num]
    simp only [Multiset.coe_card]
    rcases h with h | h
    · have := List.length_pos_iff.2 h; omega
    · have := List.length_pos_iff.2 h; omega

/-- **C26**: combining two accumulators that saw nothing raises `ZeroDivisionError`. -/
theorem C26_both_empty : (CV.fresh : CV K).combine CV.fresh = .error .zeroDiv :=
  combine_zero rfl

/-- **C26**: `combine` is commutative on accumulators of samples. -/
theorem C26_comm (xs ys : List K) :
    (CV.fresh.updateBatch xs).combine (CV.fresh.updateBatch ys) =
      (CV.fresh.updateBatch ys).combine (CV.fresh.updateBatch xs) := by
  by_cases h : xs ≠ [] ∨ ys ≠ []
  · rw [C26_combine xs ys h, C26_combine ys xs h.symm,
      C25_order_independent List.perm_append_comm]
  · push Not at h; obtain ⟨rfl, rfl⟩ := h; rfl

/-- **C26**: `combine` is associative on accumulators of samples of which the middle one is not
empty. -/
theorem C26_assoc (xs ys zs : List K) (h : ys ≠ []) :
    ((CV.fresh.updateBatch xs).combine (CV.fresh.updateBatch ys) >>= fun c =>
        c.combine (CV.fresh.updateBatch zs)) =
      ((CV.fresh.updateBatch ys).combine (CV.fresh.updateBatch zs) >>= fun c =>
        (CV.fresh.updateBatch xs).combine c) := by
  rw [C26_combine xs ys (Or.inr h), C26_combine ys zs (Or.inl h)]
  show (CV.fresh.updateBatch (xs ++ ys)).combine _ = (CV.fresh.updateBatch xs).combine _
  rw [C26_combine _ _ (Or.inl (by simp [h])), C26_combine _ _ (Or.inr (by simp [h])),
    List.append_assoc]

/-- **C26**: a fresh accumulator is neutral on both sides. -/
theorem C26_neutral (xs : List K) (h : xs ≠ []) :
    CV.fresh.combine (CV.fresh.updateBatch xs) = .ok (CV.fresh.updateBatch xs) ∧
    (CV.fresh.updateBatch xs).combine CV.fresh = .ok (CV.fresh.updateBatch xs) := by
  have h1 := C26_combine [] xs (Or.inr h)
  have h2 := C26_combine xs [] (Or.inl h)
  rw [List.append_nil] at h2
  exact ⟨h1, h2⟩

/-- `combine` concretely: {1, 3} and {5, 7, 9}. -/
example : ((CV.fresh.updateBatch [1, (3 : ℚ)]).combine (CV.fresh.updateBatch [5, 7, 9])) =
    .ok ⟨5, 5, 40⟩ := by
  rw [C26_combine _ _ (Or.inl (by simp))]
  exact congrArg _ (by decide +kernel)

end

/-! ### C27 -/

theorem obs_batch (xs : List ℝ) : (CV.fresh.updateBatch xs).Obs (xs : Multiset ℝ) := by
  simpa using obs_updateBatch obs_fresh xs

/-- **C27**: `unbiased_std` of the accumulator of any sample returns a non-negative number which is 0
exactly when all values are equal (in particular when there are fewer than two). -/
theorem C27_unbiased_std (xs : List ℝ) :
    ∃ s, (CV.fresh.updateBatch xs).unbiasedStd = .ok s ∧ 0 ≤ s ∧
      (s = 0 ↔ ∀ x ∈ xs, ∀ y ∈ xs, x = y) :=
  ⟨_, unbiasedStd_eq (obs_batch xs), sampleStd_nonneg _, sampleStd_eq_zero⟩

/-- **C27**: the value, from two samples on: the root of the mean squared error with `n - 1` in the
denominator, divided by the tabulated correction `c4(n)`. -/
theorem C27_value (xs : List ℝ) (h : 2 ≤ xs.length) :
    ∃ k : ℚ, c4 xs.length = .ok k ∧ (CV.fresh.updateBatch xs).unbiasedStd =
      .ok (Real.sqrt ((xs.map fun x => (x - xs.sum / xs.length) ^ 2).sum / (xs.length - 1)) / k) := by
  refine ⟨_, c4_nat h, ?_⟩
  rw [unbiasedStd_eq (obs_batch xs), sampleStd_of_le (by simpa using h)]
  simp [sqDev, sampleMean, c4Real]

/-- **C27**: replacing every value `x` by `a * x + b` multiplies `unbiased_std` by `|a|`. -/
theorem C27_affine (xs : List ℝ) (a b s : ℝ) (h : (CV.fresh.updateBatch xs).unbiasedStd = .ok s) :
    (CV.fresh.updateBatch (xs.map fun x => a * x + b)).unbiasedStd = .ok (|a| * s) := by
  rw [unbiasedStd_eq (obs_batch xs)] at h
  rw [unbiasedStd_eq (obs_batch _), ← Except.ok.inj h, ← sampleStd_affine, Multiset.map_coe]

theorem sum_map_div_const (xs : List ℝ) (f : ℝ → ℝ) (r : ℝ) :
    (xs.map fun x => f x / r).sum = (xs.map f).sum / r := by
  induction xs with
  | nil => simp
  | cons x xs ih => simp only [List.map_cons, List.sum_cons, ih, add_div]

/-- **C27**: the scaled deviations are the deviations of the values measured in units of the scale. -/
theorem C27_scaled (xs : List ℝ) {r : ℝ} (hr : 0 < r) :
    (CV.fresh.updateBatch xs).scaledUnbiasedStd r
      = (CV.fresh.updateBatch (xs.map fun x => x / r)).unbiasedStd ∧
    (CV.fresh.updateBatch xs).scaledBiasedStd r
      = (CV.fresh.updateBatch (xs.map fun x => x / r)).biasedStd := by
  constructor
  · have e : (xs.map fun x => x / r) = xs.map fun x => r⁻¹ * x + 0 := by
      apply List.map_congr_left; intro x _; rw [add_zero, div_eq_inv_mul]
    obtain ⟨s, hs, -⟩ := C27_unbiased_std xs
    rw [e, C27_affine xs r⁻¹ 0 s hs, CV.scaledUnbiasedStd, hs, if_neg (not_le.2 hr)]
    show pyDiv s r = _
    rw [pyDiv_ok hr.ne', abs_of_pos (inv_pos.2 hr), div_eq_inv_mul]
  · rcases eq_or_ne xs [] with rfl | hne
    · simp [CV.scaledBiasedStd, CV.biasedStd, CV.updateBatch, CV.fresh, pyDiv, Bind.bind, Except.bind]
    · rw [CV.scaledBiasedStd, C25_biased_std xs hne, C25_biased_std _ (by simpa using hne), C44_std xs hne,
        C44_std _ (by simpa using hne), if_neg (not_le.2 hr)]
      show pyDiv _ r = _
      rw [pyDiv_ok hr.ne', Except.ok.injEq, List.length_map, List.map_map]
      have e : (fun v => (v - (xs.map fun x => x / r).sum / (xs.length : ℝ)) ^ 2) ∘ (fun x => x / r)
          = fun x => (x - xs.sum / xs.length) ^ 2 / r ^ 2 := by
        funext x
        simp only [Function.comp, sum_map_div_const xs (fun x => x) r, List.map_id']
        field_simp
      rw [e, sum_map_div_const xs _ (r ^ 2), div_right_comm, Real.sqrt_div' _ (sq_nonneg r),
        Real.sqrt_sq hr.le]

/-- **C27**: a scale that is not positive is ignored. -/
theorem C27_unscaled (xs : List ℝ) {r : ℝ} (hr : r ≤ 0) :
    (CV.fresh.updateBatch xs).scaledUnbiasedStd r = (CV.fresh.updateBatch xs).unbiasedStd ∧
    (CV.fresh.updateBatch xs).scaledBiasedStd r = (CV.fresh.updateBatch xs).biasedStd := by
  have key : ∀ y : Res ℝ, (y >>= fun s => pyDiv s (1 : ℝ)) = y := by
    intro y
    cases y with
    | error e => rfl
    | ok s => show pyDiv s 1 = _; rw [pyDiv_ok one_ne_zero, div_one]
  constructor
  · simp only [CV.scaledUnbiasedStd, if_pos hr]; exact key _
  · simp only [CV.scaledBiasedStd, if_pos hr]; exact key _

/-- With scale 2 the deviation of 1, 3, 5 is halved. -/
example : (CV.fresh.updateBatch [1, 3, (5 : ℝ)]).scaledBiasedStd 2 = .ok (Real.sqrt (2 / 3)) := by
  rw [(C27_scaled _ two_pos).2, C25_biased_std _ (by simp), C44_std _ (by simp)]
  norm_num

/-- Two values at distance 2: the deviation is positive. -/
example : ∃ s, (CV.fresh.updateBatch [1, (3 : ℝ)]).unbiasedStd = .ok s ∧ 0 < s := by
  obtain ⟨s, h, h0, hz⟩ := C27_unbiased_std [1, (3 : ℝ)]
  refine ⟨s, h, lt_of_le_of_ne h0 fun hs => ?_⟩
  have := hz.1 hs.symm 1 (by simp) 3 (by simp)
  norm_num at this

/-! ### C28 -/

theorem noisyVar_pos (m : Multiset ℝ) : 0 < noisyVar m := by
  unfold noisyVar
  have := Real.pi_pos
  positivity

theorem gaussOverlap_eq {c d : CV ℝ} {m k : Multiset ℝ} (h : c.Obs m) (h' : d.Obs k) :
    c.gaussOverlap d = .ok (1 / Real.sqrt (2 * Real.pi * (noisyVar m + noisyVar k)) *
      Real.exp (-(sampleMean m - sampleMean k) ^ 2 / (2 * (noisyVar m + noisyVar k)))) := by
  have hp := Real.pi_pos
  have h1 := noisyVar_pos m
  have h2 := noisyVar_pos k
  have e1 : sampleStd m * sampleStd m + 1 / (4 * Real.pi) = noisyVar m := by rw [noisyVar, sq]
  have e2 : sampleStd k * sampleStd k + 1 / (4 * Real.pi) = noisyVar k := by rw [noisyVar, sq]
  unfold CV.gaussOverlap
  rw [unbiasedStd_eq h, unbiasedStd_eq h']
  show (pySqrt _ >>= _) = _
  rw [e1, pySqrt_ok h1.le]
  show (pySqrt _ >>= _) = _
  rw [e2, pySqrt_ok h2.le]
  show (pySqrt _ >>= _) = _
  rw [Real.mul_self_sqrt h1.le, Real.mul_self_sqrt h2.le, pySqrt_ok (by positivity)]
  show (pyDiv _ _ >>= _) = _
  rw [pyDiv_ok (Real.sqrt_pos.2 (by positivity)).ne']
  show (pyDiv _ _ >>= _) = _
  rw [pyDiv_ok (by positivity)]
  show Except.ok _ = Except.ok _
  rw [CV.unbiasedMean, CV.unbiasedMean, h.mean, h'.mean]
  congr 3
  ring

/-- **C28**: `integral_of_gaussian_product` of the accumulators of any two samples succeeds, is
symmetric, positive and at most 1. -/
theorem C28_gaussian_overlap (xs ys : List ℝ) :
    ∃ p, (CV.fresh.updateBatch xs).gaussOverlap (CV.fresh.updateBatch ys) = .ok p ∧
      (CV.fresh.updateBatch ys).gaussOverlap (CV.fresh.updateBatch xs) = .ok p ∧ 0 < p ∧ p ≤ 1 := by
  have h1 := noisyVar_pos (xs : Multiset ℝ)
  have h2 := noisyVar_pos (ys : Multiset ℝ)
  have hp := Real.pi_pos
  have hs : 0 < Real.sqrt (2 * Real.pi * (noisyVar (xs : Multiset ℝ) + noisyVar (ys : Multiset ℝ))) :=
    Real.sqrt_pos.2 (by positivity)
  refine ⟨_, gaussOverlap_eq (obs_batch xs) (obs_batch ys), ?_, by positivity, ?_⟩
  · rw [gaussOverlap_eq (obs_batch ys) (obs_batch xs), add_comm (noisyVar (ys : Multiset ℝ))]
    congr 3
    ring
  · have hk : 1 / Real.sqrt (2 * Real.pi * (noisyVar (xs : Multiset ℝ) + noisyVar (ys : Multiset ℝ)))
        ≤ 1 := by
      rw [div_le_one hs, Real.one_le_sqrt]
      have : 1 / (4 * Real.pi) ≤ noisyVar (xs : Multiset ℝ) := by
        unfold noisyVar; nlinarith [sq_nonneg (sampleStd (xs : Multiset ℝ))]
      have : 1 / (4 * Real.pi) ≤ noisyVar (ys : Multiset ℝ) := by
        unfold noisyVar; nlinarith [sq_nonneg (sampleStd (ys : Multiset ℝ))]
      have e : 2 * Real.pi * (1 / (4 * Real.pi) + 1 / (4 * Real.pi)) = 1 := by field_simp; norm_num
      rw [← e]
      apply mul_le_mul_of_nonneg_left _ (by positivity)
      linarith
    have he : Real.exp (-(sampleMean (xs : Multiset ℝ) - sampleMean (ys : Multiset ℝ)) ^ 2 /
        (2 * (noisyVar (xs : Multiset ℝ) + noisyVar (ys : Multiset ℝ)))) ≤ 1 := by
      rw [Real.exp_le_one_iff]
      apply div_nonpos_of_nonpos_of_nonneg
      · simpa using sq_nonneg (sampleMean (xs : Multiset ℝ) - sampleMean (ys : Multiset ℝ))
      · positivity
    calc _ ≤ (1 : ℝ) * 1 := mul_le_mul hk he (Real.exp_pos _).le zero_le_one
      _ = 1 := one_mul 1

open ProbabilityTheory MeasureTheory in
theorem gauss_product (μ ν : ℝ) (v w : NNReal) (hv : v ≠ 0) (hw : w ≠ 0) :
    ∫ x, gaussianPDFReal μ v x * gaussianPDFReal ν w x =
      1 / Real.sqrt (2 * Real.pi * (v + w)) * Real.exp (-(μ - ν) ^ 2 / (2 * (v + w))) := by
  have hv' : (0:ℝ) < v := by positivity
  have hw' : (0:ℝ) < w := by positivity
  have hp := Real.pi_pos
  have hvw : v + w ≠ 0 := by positivity
  set u : NNReal := v * w / (v + w) with hu
  have hu0 : u ≠ 0 := by rw [hu]; positivity
  have hur : (u : ℝ) = v * w / (v + w) := by rw [hu]; push_cast; ring
  have hu' : (0:ℝ) < u := by positivity
  have key : ∀ x, gaussianPDFReal μ v x * gaussianPDFReal ν w x =
      (1 / Real.sqrt (2 * Real.pi * (v + w)) * Real.exp (-(μ - ν) ^ 2 / (2 * (v + w)))) *
        gaussianPDFReal ((μ * w + ν * v) / (v + w)) u x := by
    intro x
    simp only [gaussianPDFReal]
    have e1 : (Real.sqrt (2 * Real.pi * v))⁻¹ * (Real.sqrt (2 * Real.pi * w))⁻¹ =
        1 / Real.sqrt (2 * Real.pi * (v + w)) * (Real.sqrt (2 * Real.pi * u))⁻¹ := by
      rw [one_div, ← mul_inv, ← mul_inv, ← Real.sqrt_mul (by positivity), ← Real.sqrt_mul (by positivity), hur]
      congr 2
      field_simp
    have e2 : Real.exp (-(x - μ) ^ 2 / (2 * v)) * Real.exp (-(x - ν) ^ 2 / (2 * w)) =
        Real.exp (-(μ - ν) ^ 2 / (2 * (v + w))) *
          Real.exp (-(x - (μ * w + ν * v) / (v + w)) ^ 2 / (2 * u)) := by
      rw [← Real.exp_add, ← Real.exp_add, hur]
      congr 1
      field_simp
      ring
    calc _ = ((Real.sqrt (2 * Real.pi * v))⁻¹ * (Real.sqrt (2 * Real.pi * w))⁻¹) *
          (Real.exp (-(x - μ) ^ 2 / (2 * v)) * Real.exp (-(x - ν) ^ 2 / (2 * w))) := by ring
      _ = _ := by rw [e1, e2]; ring
  simp_rw [key]
  rw [integral_const_mul, integral_gaussianPDFReal_eq_one _ hu0, mul_one]

/-- **C28**: the number returned is what the method's name says: the integral of the product of two
normal densities, with the means of the two samples and the squares of their unbiased standard
deviations plus the noise `1 / (4π)` as variances. -/
theorem C28_is_integral (xs ys : List ℝ) {s1 s2 p : ℝ}
    (h1 : (CV.fresh.updateBatch xs).unbiasedStd = .ok s1)
    (h2 : (CV.fresh.updateBatch ys).unbiasedStd = .ok s2)
    (hp : (CV.fresh.updateBatch xs).gaussOverlap (CV.fresh.updateBatch ys) = .ok p) :
    p = ∫ x, ProbabilityTheory.gaussianPDFReal (xs.sum / xs.length)
          (Real.toNNReal (s1 ^ 2 + 1 / (4 * Real.pi))) x *
        ProbabilityTheory.gaussianPDFReal (ys.sum / ys.length)
          (Real.toNNReal (s2 ^ 2 + 1 / (4 * Real.pi))) x := by
  rw [unbiasedStd_eq (obs_batch xs)] at h1
  rw [unbiasedStd_eq (obs_batch ys)] at h2
  rw [gaussOverlap_eq (obs_batch xs) (obs_batch ys)] at hp
  cases h1; cases h2; cases hp
  have e1 := noisyVar_pos (xs : Multiset ℝ)
  have e2 := noisyVar_pos (ys : Multiset ℝ)
  change _ = ∫ x, ProbabilityTheory.gaussianPDFReal _ (Real.toNNReal (noisyVar (xs : Multiset ℝ))) x *
    ProbabilityTheory.gaussianPDFReal _ (Real.toNNReal (noisyVar (ys : Multiset ℝ))) x
  rw [gauss_product _ _ _ _ (Real.toNNReal_pos.2 e1).ne' (Real.toNNReal_pos.2 e2).ne',
    Real.coe_toNNReal _ e1.le, Real.coe_toNNReal _ e2.le]
  simp [sampleMean]

/-- Two single observations at distance 1. -/
example : (CV.fresh.updateBatch [(0 : ℝ)]).gaussOverlap (CV.fresh.updateBatch [1]) =
    .ok (Real.exp (-Real.pi)) := by
  have hp := Real.pi_pos
  rw [gaussOverlap_eq (obs_batch _) (obs_batch _)]
  have e : 2 * Real.pi * (1 / (4 * Real.pi) + 1 / (4 * Real.pi)) = 1 := by field_simp; norm_num
  have e3 : (2 : ℝ) * (1 / (4 * Real.pi) + 1 / (4 * Real.pi)) = 1 / Real.pi := by field_simp; norm_num
  have v1 : noisyVar (([0] : List ℝ) : Multiset ℝ) = 1 / (4 * Real.pi) := by simp [noisyVar, sampleStd]
  have v2 : noisyVar (([1] : List ℝ) : Multiset ℝ) = 1 / (4 * Real.pi) := by simp [noisyVar, sampleStd]
  rw [v1, v2, e, e3]
  simp [sampleMean]

end CF
