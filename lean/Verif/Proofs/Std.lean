/-
Standard deviations of accumulators.
-/
import Verif.Proofs.Continuous
import Verif.Props.Utils

set_option linter.unusedSectionVars false

namespace CF

/-- The correction factor for samples of size `n`. -/
noncomputable def c4Real (n : ℕ) : ℝ := (((c4Table.get? n).getD 1 : ℚ) : ℝ)

theorem c4_nat {n : ℕ} (h : 2 ≤ n) : c4 (n : ℤ) = .ok ((c4Table.get? n).getD 1) := by
  have h1 : ¬ (n : ℤ) ≤ 1 := by omega
  unfold c4
  rw [if_neg h1]
  by_cases h30 : n < 30
  · rw [if_pos (by omega)]
    simp only [Int.toNat_natCast]
    interval_cases n <;> rfl
  · rw [if_neg (by omega)]
    have : c4Table.get? n = none := by
      rw [Dict.get?_eq_none]
      intro hc
      have : ∀ k ∈ c4Table.keys, k < 30 := by decide
      exact h30 (this n hc)
    rw [this]; rfl

theorem c4Real_pos {n : ℕ} (h : 2 ≤ n) : 0 < c4Real n := by
  obtain ⟨x, hx, h0, -⟩ := c4_ok (n := (n : ℤ)) (by omega)
  rw [c4_nat h] at hx
  have := Except.ok.inj hx
  unfold c4Real; rw [this]; exact_mod_cast h0

theorem sampleStd_of_le {m : Multiset ℝ} (h : 2 ≤ Multiset.card m) :
    sampleStd m = Real.sqrt (sqDev m / (Multiset.card m - 1)) / c4Real (Multiset.card m) := by
  rw [sampleStd, if_neg (by omega)]; rfl

theorem pyDiv_ok {K : Type} [Field K] [LinearOrder K] {a b : K} (h : b ≠ 0) :
    pyDiv a b = .ok (a / b) := by simp [pyDiv, h]

theorem pySqrt_ok {x : ℝ} (h : 0 ≤ x) : pySqrt x = .ok (Real.sqrt x) := by
  simp [pySqrt, not_lt.2 h]

theorem unbiasedStd_eq {c : CV ℝ} {m : Multiset ℝ} (h : c.Obs m) :
    c.unbiasedStd = .ok (sampleStd m) := by
  unfold CV.unbiasedStd
  by_cases h2 : Multiset.card m < 2
  · rw [if_pos (by rw [h.num]; exact h2), sampleStd, if_pos h2]
  · have h2' : 2 ≤ Multiset.card m := by omega
    have hn : (0 : ℝ) < (Multiset.card m : ℝ) - 1 := by
      have : (2 : ℝ) ≤ (Multiset.card m : ℝ) := by exact_mod_cast h2'
      linarith
    rw [if_neg (by rw [h.num]; exact h2), h.num, h.meanSq, pyDiv_ok hn.ne']
    show (pySqrt _ >>= _) = _
    rw [pySqrt_ok (div_nonneg (sqDev_nonneg m) hn.le), c4_nat h2', sampleStd_of_le h2']
    exact pyDiv_ok (c4Real_pos h2').ne'

theorem sampleStd_nonneg (m : Multiset ℝ) : 0 ≤ sampleStd m := by
  by_cases h2 : Multiset.card m < 2
  · rw [sampleStd, if_pos h2]
  · rw [sampleStd_of_le (by omega)]
    exact div_nonneg (Real.sqrt_nonneg _) (c4Real_pos (by omega)).le

theorem sampleStd_eq_zero {m : Multiset ℝ} : sampleStd m = 0 ↔ ∀ x ∈ m, ∀ y ∈ m, x = y := by
  by_cases h2 : Multiset.card m < 2
  · rw [sampleStd, if_pos h2]
    refine iff_of_true rfl ?_
    interval_cases hc : Multiset.card m
    · rw [Multiset.card_eq_zero.1 hc]; simp
    · obtain ⟨a, rfl⟩ := Multiset.card_eq_one.1 hc
      intro x hx y hy
      rw [Multiset.mem_singleton.1 hx, Multiset.mem_singleton.1 hy]
  · have h2' : 2 ≤ Multiset.card m := by omega
    have hn : (0 : ℝ) < (Multiset.card m : ℝ) - 1 := by
      have : (2 : ℝ) ≤ (Multiset.card m : ℝ) := by exact_mod_cast h2'
      linarith
    rw [sampleStd_of_le h2', div_eq_zero_iff, or_iff_left (c4Real_pos h2').ne',
      Real.sqrt_eq_zero (div_nonneg (sqDev_nonneg m) hn.le), div_eq_zero_iff, or_iff_left hn.ne',
      sqDev_eq_zero, const_iff]

theorem sampleStd_affine (m : Multiset ℝ) (a b : ℝ) :
    sampleStd (m.map fun x => a * x + b) = |a| * sampleStd m := by
  by_cases h2 : Multiset.card m < 2
  · rw [sampleStd, sampleStd, Multiset.card_map, if_pos h2, if_pos h2, mul_zero]
  · rw [sampleStd_of_le (by rw [Multiset.card_map]; omega), sampleStd_of_le (by omega),
      Multiset.card_map, sqDev_affine, mul_div_assoc, Real.sqrt_mul (sq_nonneg a), Real.sqrt_sq_eq_abs,
      mul_div_assoc]

end CF
