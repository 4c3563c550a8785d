/-
Facts about roundings, and about the accumulator in floating point.
-/
import Verif.Model.FloatCV
import Verif.Spec.Float
import Verif.Proofs.NoRaise

namespace CF

/-! ### Floats -/

theorem two_zpow_pos' (e : ℤ) : (0 : ℝ) < (2 : ℝ) ^ e := zpow_pos (by norm_num) e

theorem IsFloat.zero : IsFloat 0 := ⟨0, 0, by norm_num, by norm_num, by simp⟩

theorem IsFloat.neg {x : ℝ} (h : IsFloat x) : IsFloat (-x) := by
  obtain ⟨k, e, h1, h2, rfl⟩ := h
  exact ⟨-k, e, by rwa [abs_neg], h2, by push_cast; ring⟩

theorem IsFloat.nat {n : ℕ} (h : n ≤ 2 ^ 53) : IsFloat (n : ℝ) := by
  rcases lt_or_eq_of_le h with h | rfl
  · exact ⟨n, 0, by simpa using (by exact_mod_cast h), by norm_num, by simp⟩
  · exact ⟨1, 53, by norm_num, by norm_num, by norm_num⟩

theorem IsFloat.one : IsFloat 1 := by simpa using IsFloat.nat (n := 1) (by norm_num)

/-- A dyadic number with few bits is a float. -/
theorem IsFloat.mk {x : ℝ} (k e : ℤ) (h1 : |k| < 2 ^ 53) (h2 : -1074 ≤ e) (h : x = (k : ℝ) * (2 : ℝ) ^ e) :
    IsFloat x := ⟨k, e, h1, h2, h⟩

/-- Twice a float is a float. -/
theorem IsFloat.double {x : ℝ} (h : IsFloat x) : IsFloat (2 * x) := by
  obtain ⟨k, e, h1, h2, rfl⟩ := h
  exact ⟨k, e + 1, h1, by omega, by rw [zpow_add₀ (by norm_num)]; ring⟩

/-- Floats are multiples of the smallest one. -/
theorem IsFloat.multiple {x : ℝ} (h : IsFloat x) : ∃ j : ℤ, x = (j : ℝ) * (2 : ℝ) ^ (-1074 : ℤ) := by
  obtain ⟨k, e, h1, h2, rfl⟩ := h
  obtain ⟨n, hn⟩ := Int.le.dest h2
  refine ⟨k * 2 ^ n, ?_⟩
  rw [← hn, zpow_add₀ (by norm_num), zpow_natCast]
  push_cast
  ring

theorem IsFloat.mk_le {k e : ℤ} (h1 : |k| ≤ 2 ^ 53) (h2 : -1074 ≤ e) : IsFloat ((k : ℝ) * (2 : ℝ) ^ e) := by
  rcases lt_or_eq_of_le h1 with h1 | h1
  · exact ⟨k, e, h1, h2, rfl⟩
  · rcases (abs_eq (by norm_num)).1 h1 with rfl | rfl
    · exact ⟨2 ^ 52, e + 1, by norm_num, by omega, by rw [zpow_add₀ (by norm_num)]; push_cast; ring⟩
    · exact ⟨-2 ^ 52, e + 1, by norm_num, by omega, by rw [zpow_add₀ (by norm_num)]; push_cast; ring⟩

/-- The relative error of a rounding. -/
noncomputable def relErr : ℝ := (2 : ℝ) ^ (-52 : ℤ)

/-- The absolute error of a rounding near zero. -/
noncomputable def absErr : ℝ := (2 : ℝ) ^ (-1074 : ℤ)

theorem relErr_pos : 0 < relErr := two_zpow_pos' _
theorem absErr_pos : 0 < absErr := two_zpow_pos' _

namespace Rounding
variable (R : Rounding)

/-- The error of a rounding. -/
theorem err (y : ℝ) : |R.fl y - y| ≤ relErr * |y| + absErr := by
  by_cases hy : y = 0
  · subst hy
    rw [R.fix .zero]; simpa using absErr_pos.le
  have hp := two_zpow_pos' (lastBit y)
  have hlast : -1074 ≤ lastBit y := le_max_left _ _
  have hlt := abs_lt_lastBit y
  rw [zpow_add₀ (by norm_num)] at hlt
  have hlt' : |y / (2 : ℝ) ^ lastBit y| < (2 : ℝ) ^ (53 : ℤ) := by
    rw [abs_div, abs_of_pos hp, div_lt_iff₀ hp]; linarith
  have h53 : (2 : ℝ) ^ (53 : ℤ) = ((2 ^ 53 : ℤ) : ℝ) := by norm_num
  rw [h53, abs_lt] at hlt'
  have hk1 : -2 ^ 53 ≤ ⌊y / (2 : ℝ) ^ lastBit y⌋ := Int.le_floor.2 (by push_cast at *; linarith)
  have hk2 : ⌊y / (2 : ℝ) ^ lastBit y⌋ < 2 ^ 53 := Int.floor_lt.2 (by exact_mod_cast hlt'.2)
  have f1 := IsFloat.mk_le (k := ⌊y / (2 : ℝ) ^ lastBit y⌋) (by rw [abs_le]; constructor <;> omega) hlast
  have f2 := IsFloat.mk_le (k := ⌊y / (2 : ℝ) ^ lastBit y⌋ + 1) (by rw [abs_le]; constructor <;> omega) hlast
  have b1 : (⌊y / (2 : ℝ) ^ lastBit y⌋ : ℝ) * (2 : ℝ) ^ lastBit y ≤ y := by
    rw [← le_div_iff₀ hp]; exact Int.floor_le _
  have b2 : y ≤ ((⌊y / (2 : ℝ) ^ lastBit y⌋ + 1 : ℤ) : ℝ) * (2 : ℝ) ^ lastBit y := by
    rw [← div_le_iff₀ hp]; push_cast; exact (Int.lt_floor_add_one _).le
  have c1 := R.mono b1
  rw [R.fix f1] at c1
  have c2 := R.mono b2
  rw [R.fix f2] at c2
  push_cast at b2 c2
  have hd : |R.fl y - y| ≤ (2 : ℝ) ^ lastBit y := by
    rw [abs_le]; constructor <;> nlinarith
  refine hd.trans ?_
  by_cases h : lastBit y = -1074
  · rw [h]
    have : 0 ≤ relErr * |y| := mul_nonneg relErr_pos.le (abs_nonneg _)
    unfold absErr; linarith
  · have := lastBit_le_abs (y := y) (by omega) hy
    rw [zpow_add₀ (by norm_num)] at this
    have h2 : (2 : ℝ) ^ lastBit y = relErr * ((2 : ℝ) ^ lastBit y * (2 : ℝ) ^ (52 : ℤ)) := by
      unfold relErr
      rw [mul_left_comm, ← zpow_add₀ (by norm_num)]; simp
    have h3 := mul_le_mul_of_nonneg_left this relErr_pos.le
    rw [← h2] at h3
    have := absErr_pos
    linarith

theorem fl_zero : R.fl 0 = 0 := R.fix .zero

theorem fl_one : R.fl 1 = 1 := R.fix .one

theorem fl_nonneg {y : ℝ} (h : 0 ≤ y) : 0 ≤ R.fl y := by
  have := R.mono h; rwa [R.fl_zero] at this

theorem fl_nonpos {y : ℝ} (h : y ≤ 0) : R.fl y ≤ 0 := by
  have := R.mono h; rwa [R.fl_zero] at this

theorem fl_le {y x : ℝ} (hx : IsFloat x) (h : y ≤ x) : R.fl y ≤ x := by
  have := R.mono h; rwa [R.fix hx] at this

theorem le_fl {y x : ℝ} (hx : IsFloat x) (h : x ≤ y) : x ≤ R.fl y := by
  have := R.mono h; rwa [R.fix hx] at this

theorem natF_eq {n : ℕ} (h : n ≤ 2 ^ 53) : natF R.fl n = n := R.fix (.nat h)

theorem one_le_natF {n : ℕ} (h : 1 ≤ n) : 1 ≤ natF R.fl n := R.le_fl .one (by exact_mod_cast h)

theorem two_le_natF {n : ℕ} (h : 2 ≤ n) : 2 ≤ natF R.fl n := by
  have h2 : IsFloat ((2 : ℕ) : ℝ) := IsFloat.nat (by norm_num)
  have := R.le_fl h2 (y := (n : ℝ)) (by exact_mod_cast h)
  simpa [natF] using this

theorem natF_nonneg (n : ℕ) : 0 ≤ natF R.fl n := R.fl_nonneg (by positivity)

/-- The difference of two floats, rounded and halved, does not exceed the difference. -/
theorem half_diff {x m : ℝ} (hx : IsFloat x) (hm : IsFloat m) (h : m ≤ x) :
    R.fl (R.fl (x - m) / 2) ≤ x - m := by
  have hd : IsFloat (R.fl (x - m)) := R.float _
  have h0 : 0 ≤ x - m := by linarith
  have hd0 : 0 ≤ R.fl (x - m) := R.fl_nonneg h0
  rcases le_or_gt (R.fl (x - m)) (x - m) with hle | hgt
  · exact (R.fl_le hd (by linarith)).trans hle
  · -- the float `d / 2`, if it is one, is at most `x - m`
    by_cases hh : IsFloat (R.fl (x - m) / 2)
    · rw [R.fix hh]
      by_contra hc
      have := R.fl_le hh (not_le.1 hc).le
      linarith
    · exfalso
      obtain ⟨k, e, h1, h2, h3⟩ := hd
      rcases lt_or_eq_of_le h2 with h2 | rfl
      · refine hh ⟨k, e - 1, h1, by omega, ?_⟩
        rw [h3, zpow_sub₀ (by norm_num)]
        simp; ring
      · -- then `x - m` is a multiple of the smallest float, and below `d`: a float itself
        obtain ⟨a, ha⟩ := hx.multiple
        obtain ⟨b, hb⟩ := hm.multiple
        have hp := two_zpow_pos' (-1074)
        have hxm : x - m = ((a - b : ℤ) : ℝ) * (2 : ℝ) ^ (-1074 : ℤ) := by
          rw [ha, hb]; push_cast; ring
        have hab : 0 ≤ a - b := by
          rw [hxm] at h0
          exact_mod_cast nonneg_of_mul_nonneg_left h0 hp
        have hk : a - b < k := by
          rw [h3, hxm] at hgt
          exact_mod_cast lt_of_mul_lt_mul_right hgt hp.le
        have hf : IsFloat (x - m) := ⟨a - b, -1074, by rw [abs_of_nonneg hab]; rw [abs_lt] at h1; omega, le_refl _, hxm⟩
        rw [R.fix hf] at hgt
        exact lt_irrefl _ hgt

/-- The mirrored rounding. -/
noncomputable def flip : Rounding where
  fl y := -R.fl (-y)
  mono := by intro a b h; have := R.mono (neg_le_neg h); simpa using this
  float y := (R.float _).neg
  fix h := by rw [R.fix h.neg, neg_neg]

theorem flip_fl (y : ℝ) : R.flip.fl y = -R.fl (-y) := rfl

theorem step_up {x m n : ℝ} (hx : IsFloat x) (hm : IsFloat m) (hn : 2 ≤ n) (h : m ≤ x) :
    0 ≤ R.fl (R.fl (x - m) / n) ∧ R.fl (R.fl (x - m) / n) ≤ x - m := by
  have hd0 : 0 ≤ R.fl (x - m) := R.fl_nonneg (by linarith)
  refine ⟨R.fl_nonneg (by positivity), le_trans (R.mono ?_) (R.half_diff hx hm h)⟩
  exact div_le_div_of_nonneg_left hd0 (by norm_num) hn

theorem step_down {x m n : ℝ} (hx : IsFloat x) (hm : IsFloat m) (hn : 2 ≤ n) (h : x ≤ m) :
    x - m ≤ R.fl (R.fl (x - m) / n) ∧ R.fl (R.fl (x - m) / n) ≤ 0 := by
  obtain ⟨h1, h2⟩ := R.flip.step_up hx.neg hm.neg hn (neg_le_neg h)
  have e1 : -(-x - -m) = x - m := by ring
  simp only [flip_fl, e1] at h1 h2
  have e2 : -(-R.fl (x - m) / n) = R.fl (x - m) / n := by ring
  simp only [e2] at h1 h2
  constructor <;> linarith

end Rounding

/-! ### The accumulator -/

/-- What holds of every accumulator: the mean is a float, the squared error a float that is not negative. -/
structure CV.Sound (c : CV ℝ) : Prop where
  mean : IsFloat c.mean
  meanSq : IsFloat c.meanSq
  nonneg : 0 ≤ c.meanSq

theorem CV.Sound.fresh : CV.Sound CV.fresh := ⟨.zero, .zero, le_refl _⟩

variable {R : Rounding}

/-- The first value becomes the mean. -/
theorem updateF_first {c : CV ℝ} (h0 : c.num = 0) (hm : c.mean = 0) {x : ℝ} (hx : IsFloat x) :
    (CV.updateF R.fl c x).mean = x ∧ (CV.updateF R.fl c x).meanSq = R.fl c.meanSq := by
  have h1 : natF R.fl 1 = 1 := by simpa using R.natF_eq (n := 1) (by norm_num)
  simp [CV.updateF, h0, hm, h1, R.fix hx, R.fl_zero]

/-- A new value moves the mean towards it, not beyond. -/
theorem updateF_between {c : CV ℝ} (h0 : 1 ≤ c.num) (hm : IsFloat c.mean) {x : ℝ} (hx : IsFloat x) :
    (c.mean ≤ x → c.mean ≤ (CV.updateF R.fl c x).mean ∧ (CV.updateF R.fl c x).mean ≤ x) ∧
    (x ≤ c.mean → x ≤ (CV.updateF R.fl c x).mean ∧ (CV.updateF R.fl c x).mean ≤ c.mean) := by
  have hn : 2 ≤ natF R.fl (c.num + 1) := R.two_le_natF (by omega)
  constructor
  · intro h
    obtain ⟨h1, h2⟩ := R.step_up hx hm hn h
    exact ⟨R.le_fl hm (by linarith), R.fl_le hx (by linarith)⟩
  · intro h
    obtain ⟨h1, h2⟩ := R.step_down hx hm hn h
    exact ⟨R.le_fl hx (by linarith), R.fl_le hm (by linarith)⟩

/-- The squared error does not decrease below zero. -/
theorem CV.Sound.update {c : CV ℝ} (h : c.Sound) (h0 : c.num = 0 → c.mean = 0) {x : ℝ} (hx : IsFloat x) :
    (CV.updateF R.fl c x).Sound := by
  refine ⟨R.float _, R.float _, ?_⟩
  rcases Nat.eq_zero_or_pos c.num with hz | hz
  · rw [(updateF_first hz (h0 hz) hx).2]
    exact R.fl_nonneg h.nonneg
  · obtain ⟨hu, hd⟩ := updateF_between (R := R) hz h.mean hx
    refine R.fl_nonneg (add_nonneg h.nonneg (R.fl_nonneg ?_))
    rcases le_total c.mean x with hle | hle
    · exact mul_nonneg (R.fl_nonneg (by linarith)) (R.fl_nonneg (sub_nonneg.2 (hu hle).2))
    · exact mul_nonneg_of_nonpos_of_nonpos (R.fl_nonpos (by linarith)) (R.fl_nonpos (sub_nonpos.2 (hd hle).1))

end CF
