/-
Floating point numbers: which real numbers are floats, what a rounding is, and the rounding of IEEE 754.

The binary64 format has 53 significant bits and a smallest positive number 2^-1074.  There is no largest
number here: overflow, infinities and `nan` are outside the model, so what is proved of a computation
holds as long as none of its results overflows.  The sign of zero is not modelled.
-/
import Mathlib.Analysis.Real.Sqrt
import Mathlib.Data.Int.Log
import Mathlib.Algebra.Order.Round
import Mathlib.Algebra.Order.Floor.Ring

namespace CF

/-- The floats: 53 significant bits, exponent at least -1074. -/
def IsFloat (x : ℝ) : Prop := ∃ k e : ℤ, |k| < 2 ^ 53 ∧ -1074 ≤ e ∧ x = (k : ℝ) * (2 : ℝ) ^ e

/-- A rounding of real numbers to floats: monotone, and exact on floats. -/
structure Rounding where
  fl : ℝ → ℝ
  mono : Monotone fl
  float : ∀ y, IsFloat (fl y)
  fix : ∀ {x}, IsFloat x → fl x = x

/-- The exponent of the last bit of `y`. -/
noncomputable def lastBit (y : ℝ) : ℤ := max (-1074) (Int.log 2 |y| - 52)

/-- Rounding at the last bit, given how to round to integers. -/
noncomputable def roundAt (r : ℝ → ℤ) (y : ℝ) : ℝ :=
  (r (y / (2 : ℝ) ^ lastBit y) : ℝ) * (2 : ℝ) ^ lastBit y

/-- Rounding to the nearest integer, ties to the even one. -/
noncomputable def nearestEven (x : ℝ) : ℤ :=
  if Int.fract x < 1 / 2 then ⌊x⌋
  else if 1 / 2 < Int.fract x then ⌊x⌋ + 1
  else if Even ⌊x⌋ then ⌊x⌋ else ⌊x⌋ + 1

/-! ### These are roundings -/

private theorem two_zpow_pos (e : ℤ) : (0 : ℝ) < (2 : ℝ) ^ e := zpow_pos (by norm_num) e

theorem nearestEven_int (k : ℤ) : nearestEven (k : ℝ) = k := by
  simp [nearestEven]

theorem nearestEven_between (x : ℝ) : ⌊x⌋ ≤ nearestEven x ∧ nearestEven x ≤ ⌊x⌋ + 1 := by
  unfold nearestEven
  split_ifs <;> omega

theorem nearestEven_mono : Monotone nearestEven := by
  intro x y h
  rcases lt_or_eq_of_le (Int.floor_le_floor h) with hf | hf
  · have h1 := (nearestEven_between x).2
    have h2 := (nearestEven_between y).1
    omega
  · have hfr : Int.fract x ≤ Int.fract y := by
      have h1 : (⌊x⌋ : ℝ) = (⌊y⌋ : ℝ) := by exact_mod_cast hf
      simp only [Int.fract, h1]; linarith
    unfold nearestEven
    rw [← hf]
    split_ifs <;> first | omega | linarith

theorem abs_lt_lastBit (y : ℝ) : |y| < (2 : ℝ) ^ (lastBit y + 53) := by
  have h1 : |y| < (2 : ℝ) ^ (Int.log 2 |y| + 1) := by
    have := Int.lt_zpow_succ_log_self (b := 2) (by norm_num) |y|
    exact_mod_cast this
  refine lt_of_lt_of_le h1 (zpow_le_zpow_right₀ (by norm_num) ?_)
  have := le_max_right (-1074) (Int.log 2 |y| - 52)
  unfold lastBit
  omega

theorem lastBit_le_abs {y : ℝ} (h : -1074 < lastBit y) (hy : y ≠ 0) :
    (2 : ℝ) ^ (lastBit y + 52) ≤ |y| := by
  have h1 : (2 : ℝ) ^ (Int.log 2 |y|) ≤ |y| := by
    have := Int.zpow_log_le_self (b := 2) (r := |y|) (by norm_num) (abs_pos.2 hy)
    exact_mod_cast this
  refine le_trans (zpow_le_zpow_right₀ (by norm_num) ?_) h1
  unfold lastBit at h ⊢
  omega

private theorem lastBit_mono {y z : ℝ} (hy : y ≠ 0) (h : |y| ≤ |z|) : lastBit y ≤ lastBit z := by
  unfold lastBit
  have := Int.log_mono_right (b := 2) (abs_pos.2 hy) h
  omega

private theorem zpow53 : (2 : ℝ) ^ (53 : ℤ) = ((2 ^ 53 : ℤ) : ℝ) := by norm_num

private theorem zpow52 : (2 : ℝ) ^ (52 : ℤ) = ((2 ^ 52 : ℤ) : ℝ) := by norm_num

section
variable {r : ℝ → ℤ} (hm : Monotone r) (hr : ∀ k : ℤ, r (k : ℝ) = k)
include hm hr

private theorem r_le (y : ℝ) : |r (y / (2 : ℝ) ^ lastBit y)| ≤ 2 ^ 53 := by
  have h := abs_lt_lastBit y
  have hp := two_zpow_pos (lastBit y)
  rw [zpow_add₀ (by norm_num), mul_comm, zpow53] at h
  have h2 : |y / (2 : ℝ) ^ lastBit y| < ((2 ^ 53 : ℤ) : ℝ) := by
    rw [abs_div, abs_of_pos hp, div_lt_iff₀ hp]
    exact h
  rw [abs_lt] at h2
  rw [abs_le]
  constructor
  · have := hm (le_of_lt h2.1)
    rw [← Int.cast_neg, hr] at this
    exact this
  · have := hm (le_of_lt h2.2)
    rw [hr] at this
    exact this

private theorem roundAt_float (y : ℝ) : IsFloat (roundAt r y) := by
  have h := r_le hm hr y
  have he : -1074 ≤ lastBit y := le_max_left _ _
  rcases lt_or_eq_of_le h with h | h
  · exact ⟨_, _, h, he, rfl⟩
  · unfold roundAt
    rcases (abs_eq (by norm_num)).1 h with h | h
    · refine ⟨2 ^ 52, lastBit y + 1, by norm_num, by omega, ?_⟩
      rw [h, zpow_add₀ (by norm_num)]; push_cast; ring
    · refine ⟨-2 ^ 52, lastBit y + 1, by norm_num, by omega, ?_⟩
      rw [h, zpow_add₀ (by norm_num)]; push_cast; ring

omit hm in
private theorem roundAt_fix {x : ℝ} (h : IsFloat x) : roundAt r x = x := by
  obtain ⟨k, e, hk, he, rfl⟩ := h
  by_cases h0 : k = 0
  · subst h0
    have h := hr 0
    simp only [Int.cast_zero] at h
    simp [roundAt, h]
  have hle : lastBit ((k : ℝ) * (2 : ℝ) ^ e) ≤ e := by
    have hkr : |(k : ℝ)| < (2 : ℝ) ^ (53 : ℤ) := by rw [zpow53, ← Int.cast_abs]; exact_mod_cast hk
    have hp := two_zpow_pos e
    have h1 : |(k : ℝ) * (2 : ℝ) ^ e| < (2 : ℝ) ^ (e + 53) := by
      rw [abs_mul, abs_of_pos hp, zpow_add₀ (by norm_num), mul_comm]
      exact mul_lt_mul_of_pos_left hkr hp
    have hpos : 0 < |(k : ℝ) * (2 : ℝ) ^ e| := by
      rw [abs_pos]
      exact mul_ne_zero (by exact_mod_cast h0) hp.ne'
    have h2 : (2 : ℝ) ^ Int.log 2 |(k : ℝ) * (2 : ℝ) ^ e| < (2 : ℝ) ^ (e + 53) := by
      refine lt_of_le_of_lt ?_ h1
      have := Int.zpow_log_le_self (b := 2) (by norm_num) hpos
      exact_mod_cast this
    have h3 := (zpow_lt_zpow_iff_right₀ (by norm_num : (1 : ℝ) < 2)).1 h2
    unfold lastBit
    omega
  unfold roundAt
  generalize lastBit ((k : ℝ) * (2 : ℝ) ^ e) = f at hle
  obtain ⟨n, rfl⟩ := Int.le.dest hle
  have : (k : ℝ) * (2 : ℝ) ^ (f + (n : ℤ)) / (2 : ℝ) ^ f = ((k * 2 ^ n : ℤ) : ℝ) := by
    rw [zpow_add₀ (by norm_num), zpow_natCast]
    have := (two_zpow_pos f).ne'
    push_cast
    field_simp
  rw [this, hr, zpow_add₀ (by norm_num), zpow_natCast]
  push_cast
  ring

private theorem roundAt_nonneg {y : ℝ} (h : 0 ≤ y) : 0 ≤ roundAt r y := by
  have hp := two_zpow_pos (lastBit y)
  have := hm (div_nonneg h hp.le)
  have h0 := hr 0
  simp only [Int.cast_zero] at h0
  rw [h0] at this
  exact mul_nonneg (by exact_mod_cast this) hp.le

private theorem roundAt_nonpos {y : ℝ} (h : y ≤ 0) : roundAt r y ≤ 0 := by
  have hp := two_zpow_pos (lastBit y)
  have := hm (div_nonpos_of_nonpos_of_nonneg h hp.le)
  have h0 := hr 0
  simp only [Int.cast_zero] at h0
  rw [h0] at this
  exact mul_nonpos_of_nonpos_of_nonneg (by exact_mod_cast this) hp.le

private theorem abs_roundAt_le (y : ℝ) : |roundAt r y| ≤ (2 : ℝ) ^ (lastBit y + 53) := by
  have hp := two_zpow_pos (lastBit y)
  unfold roundAt
  rw [abs_mul, abs_of_pos hp, zpow_add₀ (by norm_num), mul_comm, zpow53, ← Int.cast_abs]
  exact mul_le_mul_of_nonneg_left (by exact_mod_cast r_le hm hr y) hp.le

private theorem le_abs_roundAt {y : ℝ} (h : -1074 < lastBit y) (hy : y ≠ 0) :
    (2 : ℝ) ^ (lastBit y + 52) ≤ |roundAt r y| := by
  have h1 := lastBit_le_abs h hy
  have hp := two_zpow_pos (lastBit y)
  rw [zpow_add₀ (by norm_num), mul_comm, zpow52] at h1 ⊢
  unfold roundAt
  rw [abs_mul, abs_of_pos hp]
  refine mul_le_mul_of_nonneg_right ?_ hp.le
  rw [← Int.cast_abs, Int.cast_le, le_abs]
  rcases le_total 0 y with h0 | h0
  · left
    rw [abs_of_nonneg h0, ← le_div_iff₀ hp] at h1
    have := hm h1
    rwa [hr] at this
  · right
    rw [abs_of_nonpos h0, ← le_div_iff₀ hp, neg_div, le_neg] at h1
    have := hm h1
    rw [← Int.cast_neg, hr] at this
    omega

private theorem roundAt_mono : Monotone (roundAt r) := by
  intro y z h
  rcases le_or_gt y 0 with h1 | h1
  · rcases le_or_gt 0 z with h2 | h2
    · exact (roundAt_nonpos hm hr h1).trans (roundAt_nonneg hm hr h2)
    · have hy : y < 0 := lt_of_le_of_lt h h2
      have habs : |z| ≤ |y| := by rw [abs_of_neg h2, abs_of_neg hy]; linarith
      have hl := lastBit_mono h2.ne habs
      rcases lt_or_eq_of_le hl with hl | hl
      · have a1 := abs_roundAt_le hm hr z
        have he : -1074 ≤ lastBit z := le_max_left _ _
        have a2 := le_abs_roundAt hm hr (y := y) (by omega) hy.ne
        have a3 : (2 : ℝ) ^ (lastBit z + 53) ≤ (2 : ℝ) ^ (lastBit y + 52) :=
          zpow_le_zpow_right₀ (by norm_num) (by omega)
        rw [abs_of_nonpos (roundAt_nonpos hm hr h1)] at a2
        rw [abs_of_nonpos (roundAt_nonpos hm hr h2.le)] at a1
        linarith
      · unfold roundAt
        rw [hl]
        have hp := two_zpow_pos (lastBit y)
        refine mul_le_mul_of_nonneg_right ?_ hp.le
        exact_mod_cast hm (div_le_div_of_nonneg_right h hp.le)
  · have hz : 0 < z := lt_of_lt_of_le h1 h
    have habs : |y| ≤ |z| := by rw [abs_of_pos h1, abs_of_pos hz]; exact h
    have hl := lastBit_mono h1.ne' habs
    rcases lt_or_eq_of_le hl with hl | hl
    · have a1 := abs_roundAt_le hm hr y
      have he : -1074 ≤ lastBit y := le_max_left _ _
      have a2 := le_abs_roundAt hm hr (y := z) (by omega) hz.ne'
      have a3 : (2 : ℝ) ^ (lastBit y + 53) ≤ (2 : ℝ) ^ (lastBit z + 52) :=
        zpow_le_zpow_right₀ (by norm_num) (by omega)
      rw [abs_of_nonneg (roundAt_nonneg hm hr hz.le)] at a2
      rw [abs_of_nonneg (roundAt_nonneg hm hr h1.le)] at a1
      linarith
    · unfold roundAt
      rw [hl]
      have hp := two_zpow_pos (lastBit z)
      refine mul_le_mul_of_nonneg_right ?_ hp.le
      exact_mod_cast hm (div_le_div_of_nonneg_right h hp.le)

end

/-- Every monotone rounding to integers gives a rounding to floats: for instance the floor (towards minus
infinity) and the ceiling. -/
noncomputable def Rounding.ofInt (r : ℝ → ℤ) (hm : Monotone r) (hr : ∀ k : ℤ, r (k : ℝ) = k) : Rounding where
  fl := roundAt r
  mono := roundAt_mono hm hr
  float := roundAt_float hm hr
  fix := roundAt_fix hr

/-- The rounding of IEEE 754, to the nearest float, ties to even: the one Python uses. -/
noncomputable def ieee : Rounding := Rounding.ofInt nearestEven nearestEven_mono nearestEven_int

/-! ### Computing roundings -/

theorem lastBit_eq {y : ℝ} {e : ℤ} (h0 : y ≠ 0) (h1 : -1074 ≤ e) (h2 : |y| < (2 : ℝ) ^ (e + 53))
    (h3 : e = -1074 ∨ (2 : ℝ) ^ (e + 52) ≤ |y|) : lastBit y = e := by
  have hp : 0 < |y| := abs_pos.2 h0
  have a1 : (2 : ℝ) ^ Int.log 2 |y| < (2 : ℝ) ^ (e + 53) := by
    refine lt_of_le_of_lt ?_ h2
    have := Int.zpow_log_le_self (b := 2) (by norm_num) hp
    exact_mod_cast this
  have a2 := (zpow_lt_zpow_iff_right₀ (by norm_num : (1 : ℝ) < 2)).1 a1
  unfold lastBit
  rcases h3 with rfl | h3
  · omega
  · have a3 : (2 : ℝ) ^ (e + 52) < (2 : ℝ) ^ (Int.log 2 |y| + 1) := by
      refine lt_of_le_of_lt h3 ?_
      have := Int.lt_zpow_succ_log_self (b := 2) (by norm_num) |y|
      exact_mod_cast this
    have a4 := (zpow_lt_zpow_iff_right₀ (by norm_num : (1 : ℝ) < 2)).1 a3
    omega

theorem nearestEven_eq {x : ℝ} {k : ℤ} (h1 : (k : ℝ) - 1 / 2 < x) (h2 : x < (k : ℝ) + 1 / 2) :
    nearestEven x = k := by
  rcases le_or_gt (k : ℝ) x with h | h
  · have hf : ⌊x⌋ = k := Int.floor_eq_iff.2 ⟨h, by linarith⟩
    unfold nearestEven
    rw [if_pos (by rw [Int.fract, hf]; linarith), hf]
  · have hf : ⌊x⌋ = k - 1 := Int.floor_eq_iff.2 ⟨by push_cast; linarith, by push_cast; linarith⟩
    have hfr : 1 / 2 < Int.fract x := by rw [Int.fract, hf]; push_cast; linarith
    unfold nearestEven
    rw [if_neg (by linarith), if_pos hfr, hf]; omega

theorem nearestEven_tie {k : ℤ} (h : Odd k) : nearestEven ((k : ℝ) + 1 / 2) = k + 1 := by
  have hf : ⌊(k : ℝ) + 1 / 2⌋ = k := Int.floor_eq_iff.2 ⟨by linarith, by linarith⟩
  have hfr : Int.fract ((k : ℝ) + 1 / 2) = 1 / 2 := by rw [Int.fract, hf]; ring
  unfold nearestEven
  rw [hfr, hf, if_neg (lt_irrefl _), if_neg (lt_irrefl _), if_neg (by simpa using h)]

/-- The rounding of a number whose last bit is known. -/
theorem ieee_eq {y : ℝ} (k e : ℤ) (h0 : y ≠ 0) (h1 : -1074 ≤ e) (h2 : |y| < (2 : ℝ) ^ (e + 53))
    (h3 : e = -1074 ∨ (2 : ℝ) ^ (e + 52) ≤ |y|) (h4 : ((k : ℝ) - 1 / 2) * (2 : ℝ) ^ e < y)
    (h5 : y < ((k : ℝ) + 1 / 2) * (2 : ℝ) ^ e) : ieee.fl y = (k : ℝ) * (2 : ℝ) ^ e := by
  have hp : (0 : ℝ) < (2 : ℝ) ^ e := zpow_pos (by norm_num) e
  show roundAt nearestEven y = _
  unfold roundAt
  rw [lastBit_eq h0 h1 h2 h3, nearestEven_eq (k := k)]
  · rwa [lt_div_iff₀ hp]
  · rwa [div_lt_iff₀ hp]

/-- The rounding of a number halfway between an odd and an even multiple of its last bit. -/
theorem ieee_tie {y : ℝ} (k e : ℤ) (h0 : y ≠ 0) (h1 : -1074 ≤ e) (h2 : |y| < (2 : ℝ) ^ (e + 53))
    (h3 : e = -1074 ∨ (2 : ℝ) ^ (e + 52) ≤ |y|) (hk : Odd k) (h4 : y = ((k : ℝ) + 1 / 2) * (2 : ℝ) ^ e) :
    ieee.fl y = ((k : ℝ) + 1) * (2 : ℝ) ^ e := by
  have hp : (0 : ℝ) < (2 : ℝ) ^ e := zpow_pos (by norm_num) e
  show roundAt nearestEven y = _
  unfold roundAt
  rw [lastBit_eq h0 h1 h2 h3, show y / (2 : ℝ) ^ e = (k : ℝ) + 1 / 2 by rw [h4]; field_simp, nearestEven_tie hk]
  push_cast
  rfl

end CF
