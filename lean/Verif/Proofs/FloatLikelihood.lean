/-
The overlap of two normal densities in floating point.
-/
import Verif.Model.FloatLikelihood
import Verif.Props.Float3
import Mathlib.Analysis.SpecialFunctions.Log.Basic
import Mathlib.Analysis.Complex.ExponentialBounds

set_option linter.unusedSectionVars false

namespace CF
variable {R : Rounding}

theorem relErr_le : relErr ≤ 1 / 10 ^ 12 := by unfold relErr; norm_num

theorem absErr_le : absErr ≤ 1 / 10 ^ 18 := by
  have : absErr ≤ (2 : ℝ) ^ (-60 : ℤ) := zpow_le_zpow_right₀ (by norm_num) (by norm_num)
  refine this.trans (by norm_num)

/-- Numbers that are not too small keep six digits and more. -/
theorem Rounding.near (R : Rounding) {y : ℝ} (h : 1 / 10 ^ 6 ≤ y) :
    (1 - 1 / 10 ^ 6) * y ≤ R.fl y ∧ R.fl y ≤ (1 + 1 / 10 ^ 6) * y := by
  have h0 : 0 < y := by linarith [show (0 : ℝ) < 1 / 10 ^ 6 by norm_num]
  have h1 := R.err y
  rw [abs_of_pos h0] at h1
  have h2 := relErr_le
  have h3 := absErr_le
  have h4 : relErr * y ≤ 1 / 10 ^ 12 * y := mul_le_mul_of_nonneg_right h2 h0.le
  rw [abs_le] at h1
  constructor <;> linarith [h1.1, h1.2]

theorem Rounding.near_sq (R : Rounding) (s : ℝ) :
    (1 - 1 / 10 ^ 6) * (s * s) - 1 / 10 ^ 18 ≤ R.fl (s * s) ∧
      R.fl (s * s) ≤ (1 + 1 / 10 ^ 6) * (s * s) + 1 / 10 ^ 18 := by
  have h0 : 0 ≤ s * s := mul_self_nonneg s
  have h1 := R.err (s * s)
  rw [abs_of_nonneg h0] at h1
  have h2 := relErr_le
  have h3 := absErr_le
  have h4 : relErr * (s * s) ≤ 1 / 10 ^ 12 * (s * s) := mul_le_mul_of_nonneg_right h2 h0
  rw [abs_le] at h1
  constructor <;> linarith [h1.1, h1.2]

/-- The noise that is added to the variances. -/
noncomputable def noiseF (fl : ℝ → ℝ) : ℝ := fl (1 / fl (4 * piF fl))

theorem pi_digits : (3.14159 : ℝ) < Real.pi ∧ Real.pi < 3.1416 := by
  have h1 := Real.pi_gt_d6
  have h2 := Real.pi_lt_d6
  constructor <;> linarith

theorem noiseF_near : 0.07956 ≤ noiseF R.fl ∧ noiseF R.fl ≤ 0.0796 ∧ 12 ≤ R.fl (4 * piF R.fl) := by
  obtain ⟨p1, p2⟩ := pi_digits
  obtain ⟨a1, a2⟩ := R.near (y := Real.pi) (by linarith [show (1 : ℝ) / 10 ^ 6 ≤ 1 by norm_num])
  have b1 : 3.1415 ≤ piF R.fl := by unfold piF; linarith
  have b2 : piF R.fl ≤ 3.1417 := by unfold piF; linarith
  obtain ⟨c1, c2⟩ := R.near (y := 4 * piF R.fl) (by linarith [show (1 : ℝ) / 10 ^ 6 ≤ 1 by norm_num])
  have d1 : 12.565 ≤ R.fl (4 * piF R.fl) := by linarith
  have d2 : R.fl (4 * piF R.fl) ≤ 12.568 := by linarith
  have e1 : 1 / 12.568 ≤ 1 / R.fl (4 * piF R.fl) := one_div_le_one_div_of_le (by linarith) d2
  have e2 : 1 / R.fl (4 * piF R.fl) ≤ 1 / 12.565 := one_div_le_one_div_of_le (by norm_num) d1
  obtain ⟨f1, f2⟩ := R.near (y := 1 / R.fl (4 * piF R.fl)) (le_trans (by norm_num) e1)
  unfold noiseF
  refine ⟨?_, ?_, by linarith⟩
  · refine le_trans ?_ f1
    refine le_trans ?_ (mul_le_mul_of_nonneg_left e1 (by norm_num)); norm_num
  · refine f2.trans ((mul_le_mul_of_nonneg_left e2 (by norm_num)).trans ?_); norm_num

/-- The square of a deviation with noise. -/
noncomputable def noisySqF (fl : ℝ → ℝ) (s : ℝ) : ℝ :=
  fl (fl (Real.sqrt (fl (fl (s * s) + noiseF fl))) * fl (Real.sqrt (fl (fl (s * s) + noiseF fl))))

theorem noisySqF_near (s : ℝ) : 0 < R.fl (R.fl (s * s) + noiseF R.fl) ∧
    0.999 * (s * s + 1 / (4 * Real.pi)) ≤ noisySqF R.fl s ∧
    noisySqF R.fl s ≤ 1.001 * (s * s + 1 / (4 * Real.pi)) := by
  obtain ⟨p1, p2⟩ := pi_digits
  obtain ⟨n1, n2, -⟩ := noiseF_near (R := R)
  obtain ⟨q1, q2⟩ := R.near_sq s
  have hs := mul_self_nonneg s
  have k1 : 0.07957 ≤ 1 / (4 * Real.pi) := by
    rw [le_div_iff₀ (by positivity)]; linarith
  have k2 : 1 / (4 * Real.pi) ≤ 0.07958 := by
    rw [div_le_iff₀ (by positivity)]; linarith
  generalize 1 / (4 * Real.pi) = k at k1 k2
  have u0 : 0 ≤ R.fl (s * s) := R.fl_nonneg hs
  obtain ⟨y1, y2⟩ := R.near (y := R.fl (s * s) + noiseF R.fl)
    (by linarith [show (1 : ℝ) / 10 ^ 6 ≤ 0.01 by norm_num])
  unfold noisySqF
  generalize R.fl (R.fl (s * s) + noiseF R.fl) = y at y1 y2
  have y3 : 0.07 ≤ y := by norm_num at *; linarith
  have hy := Real.mul_self_sqrt (show 0 ≤ y by linarith)
  have r1 : 0.2 ≤ Real.sqrt y := Real.le_sqrt_of_sq_le (by norm_num at y3 ⊢; linarith)
  obtain ⟨z1, z2⟩ := R.near (y := Real.sqrt y) (by linarith [show (1 : ℝ) / 10 ^ 6 ≤ 0.01 by norm_num])
  generalize Real.sqrt y = r at hy r1 z1 z2
  generalize R.fl r = z at z1 z2
  have z3 : (1 - 1 / 10 ^ 6) * (1 - 1 / 10 ^ 6) * y ≤ z * z := by
    rw [← hy]
    have := mul_le_mul z1 z1 (by nlinarith) (by nlinarith)
    linarith
  have z4 : z * z ≤ (1 + 1 / 10 ^ 6) * (1 + 1 / 10 ^ 6) * y := by
    rw [← hy]
    have := mul_le_mul z2 z2 (by nlinarith) (by nlinarith)
    linarith
  obtain ⟨w1, w2⟩ := R.near (y := z * z) (le_trans (by norm_num; linarith) z3)
  generalize R.fl (z * z) = w at w1 w2
  generalize R.fl (s * s) = u at *
  generalize noiseF R.fl = ν at *
  refine ⟨by linarith, ?_, ?_⟩
  · norm_num at *
    linarith
  · norm_num at *
    linarith

/-- The sum of the two noisy variances. -/
noncomputable def noisySumF (fl : ℝ → ℝ) (s t : ℝ) : ℝ := fl (noisySqF fl s + noisySqF fl t)

theorem noisySumF_near (s t : ℝ) :
    0.998 * (s * s + t * t + 1 / (2 * Real.pi)) ≤ noisySumF R.fl s t ∧
    noisySumF R.fl s t ≤ 1.002 * (s * s + t * t + 1 / (2 * Real.pi)) ∧ 0.1 ≤ noisySumF R.fl s t := by
  obtain ⟨-, a1, a2⟩ := noisySqF_near (R := R) s
  obtain ⟨-, b1, b2⟩ := noisySqF_near (R := R) t
  obtain ⟨p1, p2⟩ := pi_digits
  have k1 : 0.07957 ≤ 1 / (4 * Real.pi) := by
    rw [le_div_iff₀ (by positivity)]; linarith
  have e : 1 / (2 * Real.pi) = 1 / (4 * Real.pi) + 1 / (4 * Real.pi) := by
    have := Real.pi_pos.ne'
    field_simp; norm_num
  rw [e]
  generalize 1 / (4 * Real.pi) = k at *
  have hs := mul_self_nonneg s
  have ht := mul_self_nonneg t
  obtain ⟨w1, w2⟩ := R.near (y := noisySqF R.fl s + noisySqF R.fl t) (by norm_num at *; linarith)
  unfold noisySumF
  generalize R.fl (noisySqF R.fl s + noisySqF R.fl t) = w at *
  refine ⟨?_, ?_, ?_⟩ <;> norm_num at * <;> linarith

/-- The exponent. -/
noncomputable def exponentF (fl : ℝ → ℝ) (x s t : ℝ) : ℝ :=
  fl (fl (fl (-1 * fl x) * fl x) / fl (2 * noisySumF fl s t))

/-- The factor of the exponential. -/
noncomputable def factorF (fl : ℝ → ℝ) (s t : ℝ) : ℝ :=
  fl (1 / fl (Real.sqrt (fl (fl (2 * piF fl) * noisySumF fl s t))))

theorem twoPi_near : 6 ≤ R.fl (2 * piF R.fl) ∧ R.fl (2 * piF R.fl) ≤ 8 := by
  obtain ⟨h1, h2⟩ := R.fl_pi
  have f6 : IsFloat ((6 : ℕ) : ℝ) := .nat (by norm_num)
  have f8 : IsFloat ((8 : ℕ) : ℝ) := .nat (by norm_num)
  push_cast at f6 f8
  exact ⟨R.le_fl f6 (by linarith), R.fl_le f8 (by linarith)⟩

theorem root_near (s t : ℝ) : 0.5 ≤ R.fl (R.fl (2 * piF R.fl) * noisySumF R.fl s t) ∧
    0.25 ≤ R.fl (Real.sqrt (R.fl (R.fl (2 * piF R.fl) * noisySumF R.fl s t))) := by
  obtain ⟨-, -, h⟩ := noisySumF_near (R := R) s t
  obtain ⟨p1, -⟩ := twoPi_near (R := R)
  have f2 : IsFloat 0.5 := .mk 1 (-1) (by norm_num) (by norm_num) (by norm_num)
  have f4 : IsFloat 0.25 := .mk 1 (-2) (by norm_num) (by norm_num) (by norm_num)
  have h1 : 0.5 ≤ R.fl (R.fl (2 * piF R.fl) * noisySumF R.fl s t) :=
    R.le_fl f2 (by nlinarith)
  exact ⟨h1, R.le_fl f4 (Real.le_sqrt_of_sq_le (by norm_num at h1 ⊢; linarith))⟩

/-- The overlap, when the deviations are known. -/
theorem gaussOverlapF_eq {c d : CV ℝ} {s t : ℝ} (hs : CV.unbiasedStdF R.fl c = .ok s)
    (ht : CV.unbiasedStdF R.fl d = .ok t) :
    CV.gaussOverlapF R.fl c d =
      .ok (R.fl (factorF R.fl s t * expF R.fl (exponentF R.fl (c.mean - d.mean) s t))) := by
  obtain ⟨-, -, n3⟩ := noiseF_near (R := R)
  obtain ⟨a1, -, -⟩ := noisySqF_near (R := R) s
  obtain ⟨b1, -, -⟩ := noisySqF_near (R := R) t
  obtain ⟨r1, r2⟩ := root_near (R := R) s t
  obtain ⟨-, -, h⟩ := noisySumF_near (R := R) s t
  have hd : R.fl (2 * noisySumF R.fl s t) = 2 * noisySumF R.fl s t := R.fix (R.float _).double
  have h1 : ¬ R.fl (4 * piF R.fl) = 0 := by linarith
  have h2 : ¬ R.fl (R.fl (s * s) + noiseF R.fl) < 0 := not_lt.2 a1.le
  have h3 : ¬ R.fl (R.fl (t * t) + noiseF R.fl) < 0 := not_lt.2 b1.le
  have h4 : ¬ R.fl (R.fl (2 * piF R.fl) * noisySumF R.fl s t) < 0 := by linarith
  have h5 : ¬ R.fl (Real.sqrt (R.fl (R.fl (2 * piF R.fl) * noisySumF R.fl s t))) = 0 := by linarith
  have h6 : ¬ R.fl (2 * noisySumF R.fl s t) = 0 := by rw [hd]; linarith
  have e1 : divF R.fl 1 (R.fl (4 * piF R.fl)) = .ok (noiseF R.fl) := if_neg h1
  have e2 : sqrtF R.fl (R.fl (R.fl (s * s) + noiseF R.fl)) = .ok _ := if_neg h2
  have e3 : sqrtF R.fl (R.fl (R.fl (t * t) + noiseF R.fl)) = .ok _ := if_neg h3
  have e4 : sqrtF R.fl (R.fl (R.fl (2 * piF R.fl) * noisySumF R.fl s t)) = .ok _ := if_neg h4
  have e5 : divF R.fl 1 (R.fl (Real.sqrt (R.fl (R.fl (2 * piF R.fl) * noisySumF R.fl s t)))) =
      .ok (factorF R.fl s t) := if_neg h5
  have e6 : divF R.fl (R.fl (R.fl (-1 * R.fl (c.mean - d.mean)) * R.fl (c.mean - d.mean)))
      (R.fl (2 * noisySumF R.fl s t)) = .ok (exponentF R.fl (c.mean - d.mean) s t) := if_neg h6
  unfold CV.gaussOverlapF
  simp only [hs, ht, ok_bind, e1, e2, e3]
  simp only [noisySumF, noisySqF] at e4 e5 e6
  simp only [CV.unbiasedMean, e4, ok_bind, e5, e6]
  rfl

theorem fl_exponent (x s t : ℝ) :
    exponentF R.fl x s t = R.fl (R.fl (-(R.fl x * R.fl x)) / (2 * noisySumF R.fl s t)) := by
  unfold exponentF
  have h1 : R.fl (-1 * R.fl x) = -R.fl x := by rw [neg_one_mul]; exact R.fix (R.float _).neg
  have h2 : R.fl (2 * noisySumF R.fl s t) = 2 * noisySumF R.fl s t := R.fix (R.float _).double
  rw [h1, h2, neg_mul]

theorem fl_sq_near (x : ℝ) :
    0.999 * x ^ 2 - 0.001 ≤ -R.fl (-(R.fl x * R.fl x)) ∧ -R.fl (-(R.fl x * R.fl x)) ≤ 1.001 * x ^ 2 + 0.001 := by
  have h1 := R.err x
  have h2 := relErr_le
  have h3 := absErr_le
  have h4 := R.err (-(R.fl x * R.fl x))
  have hx := abs_nonneg x
  have e1 : relErr * |x| ≤ 1 / 10 ^ 12 * |x| := mul_le_mul_of_nonneg_right h2 hx
  have hq : |R.fl x - x| ≤ 1 / 10 ^ 12 * |x| + 1 / 10 ^ 18 := by linarith
  have d1 : |R.fl x| ≤ (1 + 1 / 10 ^ 12) * |x| + 1 / 10 ^ 18 := by
    have := abs_add_le (R.fl x - x) x
    rw [sub_add_cancel] at this; linarith
  have d2 : (1 - 1 / 10 ^ 12) * |x| - 1 / 10 ^ 18 ≤ |R.fl x| := by
    have := abs_sub_abs_le_abs_sub x (R.fl x)
    rw [abs_sub_comm] at this; linarith
  have s1 : x ^ 2 = |x| * |x| := by rw [← abs_mul, sq, abs_mul_self]
  have s2 : R.fl x * R.fl x = |R.fl x| * |R.fl x| := by rw [← abs_mul, abs_mul_self]
  rw [s1]
  rw [s2] at h4 ⊢
  have hd := abs_nonneg (R.fl x)
  generalize |x| = a at *
  generalize |R.fl x| = b at *
  rw [abs_neg, abs_of_nonneg (mul_nonneg hd hd)] at h4
  have e2 : relErr * (b * b) ≤ 1 / 10 ^ 12 * (b * b) := mul_le_mul_of_nonneg_right h2 (mul_nonneg hd hd)
  rw [abs_le] at h4
  have u1 : b * b ≤ ((1 + 1 / 10 ^ 12) * a + 1 / 10 ^ 18) * ((1 + 1 / 10 ^ 12) * a + 1 / 10 ^ 18) :=
    mul_le_mul d1 d1 hd (by positivity)
  have u2 : (1 - 1 / 10 ^ 12) ^ 2 * (a * a) - 2 / 10 ^ 18 * a ≤ b * b := by
    by_cases h0 : 0 ≤ (1 - 1 / 10 ^ 12) * a - 1 / 10 ^ 18
    · have := mul_le_mul d2 d2 h0 hd
      nlinarith
    · have : a ≤ 1 / 10 ^ 17 := by
        norm_num at h0 ⊢; linarith
      have : 0 ≤ b * b := mul_nonneg hd hd
      have h5 : a * ((1 - 1 / 10 ^ 12) ^ 2 * a - 2 / 10 ^ 18) ≤ 0 :=
        mul_nonpos_of_nonneg_of_nonpos hx (by norm_num at h0 ⊢; linarith)
      linarith
  have hq2 : 2 * a ≤ 1 + a * a := by nlinarith [sq_nonneg (a - 1)]
  constructor
  · norm_num at *
    nlinarith
  · norm_num at *
    nlinarith

end CF
