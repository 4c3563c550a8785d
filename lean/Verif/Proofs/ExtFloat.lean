/-
Facts about the arithmetic of all Python floats, and about the accumulator with them.
-/
import Verif.Spec.Ext3
import Verif.Proofs.Float
import Verif.Props.FloatCV

namespace CF
variable {R : Rounding}

/-! ### Operations -/

theorem IsFloat.scale {x : ℝ} (h : IsFloat x) (n : ℕ) : IsFloat (x * 2 ^ n) := by
  obtain ⟨k, e, h1, h2, rfl⟩ := h
  exact ⟨k, e + n, h1, by omega, by rw [zpow_add₀ (by norm_num), zpow_natCast]; ring⟩

theorem IsFloat.two_pow (n : ℕ) : IsFloat (2 ^ n) := by simpa using IsFloat.one.scale n

theorem big_quarter : XF.big / 4 = 2 ^ 1022 := by
  unfold XF.big
  rw [pow_succ, pow_succ]; ring

theorem big_half : XF.big / 2 = 2 ^ 1023 := by
  unfold XF.big
  rw [pow_succ]; ring

theorem half_max : IsFloat (XF.big / 2) := by rw [big_half]; exact .two_pow _

theorem quarter_max : IsFloat (XF.big / 4) := by rw [big_quarter]; exact .two_pow _

theorem big_gt : 4 < XF.big := by
  have : (1 : ℝ) < XF.big / 4 := by rw [big_quarter]; exact one_lt_pow₀ (by norm_num) (by norm_num)
  linarith

/-- The largest float below a power of two. -/
theorem IsFloat.le_below {x : ℝ} (h : IsFloat x) {n : ℕ} (hn : 53 ≤ n) (hx : |x| < 2 ^ n) :
    |x| ≤ 2 ^ n - 2 ^ (n - 53) := by
  obtain ⟨k, e, hk, he, rfl⟩ := h
  have hp : (0 : ℝ) < (2 : ℝ) ^ e := zpow_pos (by norm_num) e
  rw [abs_mul, abs_of_pos hp] at hx ⊢
  rcases le_or_gt e ((n - 53 : ℕ) : ℤ) with hle | hgt
  · have h1 : (2 : ℝ) ^ e ≤ 2 ^ (n - 53) := by
      rw [← zpow_natCast]; exact zpow_le_zpow_right₀ (by norm_num) hle
    have h2 : |(k : ℝ)| ≤ 2 ^ 53 - 1 := by
      have : |k| ≤ 2 ^ 53 - 1 := by omega
      exact_mod_cast this
    have h3 : (2 : ℝ) ^ n = 2 ^ 53 * 2 ^ (n - 53) := by rw [← pow_add]; congr 1; omega
    have h4 : (0 : ℝ) ≤ 2 ^ (n - 53) := by positivity
    calc |(k : ℝ)| * 2 ^ e ≤ (2 ^ 53 - 1) * 2 ^ (n - 53) := mul_le_mul h2 h1 hp.le (by norm_num)
      _ = 2 ^ n - 2 ^ (n - 53) := by rw [h3]; ring
  · obtain ⟨m, rfl⟩ := Int.eq_ofNat_of_zero_le (show 0 ≤ e by omega)
    simp only [zpow_natCast] at hx hp ⊢
    have hm : (2 : ℝ) ^ (n - 53) ≤ 2 ^ m := pow_le_pow_right₀ (by norm_num) (by omega)
    rcases le_or_gt n m with h1 | h1
    · have hk0 : k = 0 := by
        by_contra h0
        have h2 : (1 : ℝ) ≤ |(k : ℝ)| := by exact_mod_cast Int.one_le_abs h0
        have h3 : (2 : ℝ) ^ n ≤ 2 ^ m := pow_le_pow_right₀ (by norm_num) h1
        nlinarith
      rw [hk0]
      have : (2 : ℝ) ^ (n - 53) ≤ 2 ^ n := pow_le_pow_right₀ (by norm_num) (by omega)
      simp only [Int.cast_zero, abs_zero, zero_mul]
      linarith
    · have h3 : (2 : ℝ) ^ n = 2 ^ (n - m) * 2 ^ m := by rw [← pow_add]; congr 1; omega
      have h4 : |(k : ℝ)| < 2 ^ (n - m) := by
        rw [h3] at hx; exact lt_of_mul_lt_mul_right hx hp.le
      have h5 : |(k : ℝ)| ≤ 2 ^ (n - m) - 1 := by
        have : |k| < 2 ^ (n - m) := by exact_mod_cast h4
        have : |k| ≤ 2 ^ (n - m) - 1 := by omega
        exact_mod_cast this
      calc |(k : ℝ)| * 2 ^ m ≤ (2 ^ (n - m) - 1) * 2 ^ m := mul_le_mul_of_nonneg_right h5 hp.le
        _ = 2 ^ n - 2 ^ m := by rw [h3]; ring
        _ ≤ 2 ^ n - 2 ^ (n - 53) := by linarith

/-- The largest float. -/
noncomputable def topF : ℝ := XF.big - 2 ^ 971

theorem topF_lt : topF < XF.big := by
  exact sub_lt_self _ (by positivity)

theorem topF_float : IsFloat topF := by
  refine ⟨2 ^ 53 - 1, 971, by norm_num, by norm_num, ?_⟩
  have : (2 : ℝ) ^ 1024 = 2 ^ 53 * 2 ^ 971 := by rw [← pow_add]
  have h : (2 : ℝ) ^ (971 : ℤ) = 2 ^ 971 := by exact_mod_cast zpow_natCast (2 : ℝ) 971
  unfold topF XF.big
  rw [this, h]; push_cast; ring

theorem half_topF_float : IsFloat (topF / 2) := by
  refine ⟨2 ^ 53 - 1, 970, by norm_num, by norm_num, ?_⟩
  have h1 : (2 : ℝ) ^ 1024 = 2 ^ 53 * (2 ^ 970 * 2) := by rw [← pow_succ, ← pow_add]
  have h2 : (2 : ℝ) ^ 971 = 2 ^ 970 * 2 := by rw [← pow_succ]
  have h : (2 : ℝ) ^ (970 : ℤ) = 2 ^ 970 := by exact_mod_cast zpow_natCast (2 : ℝ) 970
  unfold topF XF.big
  rw [h1, h2, h]; push_cast; ring

theorem IsFloat.le_top {x : ℝ} (h : IsFloat x) (hx : |x| < XF.big) : |x| ≤ topF :=
  h.le_below (n := 1024) (by norm_num) hx

/-- Below half the range. -/
theorem IsFloat.le_half_top {x : ℝ} (h : IsFloat x) (hx : |x| < XF.big / 2) : |x| ≤ topF / 2 := by
  rw [big_half] at hx
  have := h.le_below (n := 1023) (by norm_num) hx
  have e : topF / 2 = 2 ^ 1023 - 2 ^ (1023 - 53) := by
    have h1 : (2 : ℝ) ^ 1024 = 2 * 2 ^ 1023 := by rw [← pow_succ']
    have h2 : (2 : ℝ) ^ 971 = 2 * 2 ^ (1023 - 53) := by rw [← pow_succ']
    unfold topF XF.big
    rw [h1, h2]; ring
  rw [e]; exact this

/-- Results in the range of the floats do not overflow. -/
theorem round_fin {y b : ℝ} (hb : IsFloat b) (h : |y| ≤ b) (hb2 : b < XF.big) :
    XF.round R.fl y = .fin (R.fl y) := by
  have h1 : R.fl y ≤ b := R.fl_le hb (le_of_abs_le h)
  have h2 : -b ≤ R.fl y := R.le_fl hb.neg (neg_le_of_abs_le h)
  unfold XF.round
  rw [if_neg (by linarith), if_neg (by linarith)]

theorem round_float {x : ℝ} (h : IsFloat x) (h2 : |x| < XF.big) : XF.round R.fl x = .fin x := by
  have h1 := abs_lt.1 h2
  unfold XF.round
  rw [R.fix h, if_neg (by linarith), if_neg (by linarith)]

theorem round_zero : XF.round R.fl 0 = .fin 0 := round_float .zero (by have := big_gt; rw [abs_zero]; linarith)

theorem round_atLeast {r y : ℝ} (hr : IsFloat r) (h0 : 0 ≤ r) (h : r ≤ y) : (XF.round R.fl y).AtLeast r := by
  have := R.le_fl hr h
  unfold XF.round
  split_ifs with h1 h2
  · rfl
  · have := big_gt
    linarith
  · exact this

/-- A count is a positive number or infinite. -/
theorem ofNat_cases (n : ℕ) : (XF.ofNat R.fl n = .fin (natF R.fl n) ∧ natF R.fl n < XF.big) ∨
    (XF.ofNat R.fl n = .inf false ∧ XF.big ≤ natF R.fl n) := by
  have := R.natF_nonneg n
  have h0 := big_gt
  unfold XF.ofNat XF.round
  rw [show R.fl (n : ℝ) = natF R.fl n from rfl]
  by_cases h : XF.big ≤ natF R.fl n
  · right; rw [if_pos h]; exact ⟨rfl, h⟩
  · left; rw [if_neg h, if_neg (by linarith)]; exact ⟨rfl, not_le.1 h⟩

theorem ofNat_ne_zero {n : ℕ} (h : n ≠ 0) : XF.ofNat R.fl n ≠ .fin 0 := by
  have := R.one_le_natF (n := n) (by omega)
  rcases ofNat_cases (R := R) n with ⟨e, -⟩ | ⟨e, -⟩ <;> rw [e]
  · intro h; injection h with h; linarith
  · intro h; cases h

theorem ofNat_atLeast (n : ℕ) : (XF.ofNat R.fl n).AtLeast 0 := round_atLeast .zero le_rfl (by positivity)

theorem ofNat_one : XF.ofNat R.fl 1 = .fin 1 := by
  unfold XF.ofNat; simpa using round_float (R := R) (x := 1) .one (by have := big_gt; rw [abs_one]; linarith)

theorem div_ok {x y : XF} (h : y ≠ .fin 0) : XF.div R.fl x y = .ok (XF.quot R.fl x y) := if_neg h

namespace XF.AtLeast

theorem mono {r s : ℝ} {x : XF} (h : x.AtLeast s) (hr : r ≤ s) : x.AtLeast r := by
  cases x with
  | fin x => exact hr.trans h
  | inf s => exact h
  | nan => trivial

theorem ne_zero {r : ℝ} {x : XF} (h : x.AtLeast r) (hr : 0 < r) : x ≠ .fin 0 := by
  rintro rfl
  exact absurd h (not_le.2 hr)

theorem add {r : ℝ} {x y : XF} (hr : IsFloat r) (h0 : 0 ≤ r) (h1 : x.AtLeast 0) (h2 : y.AtLeast r) :
    (XF.add R.fl x y).AtLeast r := by
  cases x with
  | fin x =>
    cases y with
    | fin y => exact round_atLeast hr h0 (by simp only [AtLeast] at h1 h2; linarith)
    | inf t => exact h2
    | nan => trivial
  | inf s =>
    cases y with
    | fin y => exact h1
    | inf t =>
      simp only [AtLeast] at h1 h2
      subst h1 h2
      simp [XF.add, AtLeast]
    | nan => trivial
  | nan => cases y <;> trivial

theorem mul {r s q : ℝ} {x y : XF} (hq : IsFloat q) (hr : 0 ≤ r) (hs : 0 ≤ s) (h0 : 0 ≤ q) (hle : q ≤ r * s)
    (h1 : x.AtLeast r) (h2 : y.AtLeast s) : (XF.mul R.fl x y).AtLeast q := by
  cases x with
  | fin x =>
    cases y with
    | fin y => exact round_atLeast hq h0 (hle.trans (mul_le_mul h1 h2 hs (hr.trans h1)))
    | inf t =>
      simp only [AtLeast] at h1 h2
      subst h2
      simp only [XF.mul]
      split_ifs
      · trivial
      · simp [XF.infTimes, AtLeast, not_lt.2 (hr.trans h1)]
    | nan => trivial
  | inf t =>
    cases y with
    | fin y =>
      simp only [AtLeast] at h1 h2
      subst h1
      simp only [XF.mul]
      split_ifs
      · trivial
      · simp [XF.infTimes, AtLeast, not_lt.2 (hs.trans h2)]
    | inf t' =>
      simp only [AtLeast] at h1 h2
      subst h1 h2
      simp [XF.mul, AtLeast]
    | nan => trivial
  | nan => cases y <;> trivial

theorem mul_self (x : XF) : (XF.mul R.fl x x).AtLeast 0 := by
  cases x with
  | fin x => exact round_atLeast .zero le_rfl (mul_self_nonneg x)
  | inf s => simp [XF.mul, AtLeast]
  | nan => trivial

theorem quot {x y : XF} (h1 : x.AtLeast 0) (h2 : y.AtLeast 0) : (XF.quot R.fl x y).AtLeast 0 := by
  cases x with
  | fin x =>
    cases y with
    | fin y => exact round_atLeast .zero le_rfl (div_nonneg h1 h2)
    | inf t => exact le_rfl
    | nan => trivial
  | inf s =>
    cases y with
    | fin y =>
      simp only [AtLeast] at h1 h2
      subst h1
      simp [XF.quot, XF.infTimes, AtLeast, not_lt.2 h2]
    | inf t => trivial
    | nan => trivial
  | nan => cases y <;> trivial

/-- The root of what is not negative is defined. -/
theorem sqrt {r s : ℝ} {x : XF} (hr : IsFloat r) (h0 : 0 ≤ r) (hs : r * r ≤ s) (h : x.AtLeast s) :
    ∃ y, XF.sqrt R.fl x = .ok y ∧ y.AtLeast r := by
  cases x with
  | fin x =>
    have hx : r * r ≤ x := hs.trans h
    refine ⟨_, if_neg (not_lt.2 ((mul_self_nonneg r).trans hx)), round_atLeast hr h0 ?_⟩
    exact Real.le_sqrt_of_sq_le (by rw [sq]; exact hx)
  | inf t =>
    simp only [AtLeast] at h
    subst h
    exact ⟨_, rfl, rfl⟩
  | nan => exact ⟨_, rfl, trivial⟩

end XF.AtLeast

/-! ### `update` -/

theorem isFin_iff {x : XF} : x.IsFin ↔ ∃ r, x = .fin r := by
  cases x <;> simp [XF.IsFin]

theorem nan_add (x : XF) : XF.add R.fl .nan x = .nan := by cases x <;> rfl
theorem add_nan (x : XF) : XF.add R.fl x .nan = .nan := by cases x <;> rfl
theorem nan_mul (x : XF) : XF.mul R.fl .nan x = .nan := by cases x <;> rfl
theorem mul_nan (x : XF) : XF.mul R.fl x .nan = .nan := by cases x <;> rfl
theorem nan_quot (x : XF) : XF.quot R.fl .nan x = .nan := by cases x <;> rfl

theorem infTimes_pos {s : Bool} {y : ℝ} (h : 0 ≤ y) : XF.infTimes s y = .inf s := by
  simp [XF.infTimes, not_lt.2 h]

/-- Infinite values or means leave no squared error to speak of. -/
theorem updateX_nonfin {c : CV XF} {x : XF} (h : ¬ (x.IsFin ∧ c.mean.IsFin)) :
    (CV.updateX R.fl c x).meanSq = .nan ∧ ¬ (CV.updateX R.fl c x).mean.IsFin ∧
    (¬ c.mean.IsFin → (CV.updateX R.fl c x).mean = .nan) ∧
    (c.mean.IsFin → c.num = 0 → (CV.updateX R.fl c x).mean = x) := by
  obtain ⟨n, m, q⟩ := c
  have hp : 0 ≤ natF R.fl (n + 1) := R.natF_nonneg _
  simp only [CV.updateX]
  cases m with
  | nan =>
    cases x <;> simp [XF.sub, XF.neg, add_nan, nan_quot, nan_add, nan_mul, XF.IsFin]
  | inf s =>
    cases x with
    | nan => simp [XF.sub, nan_add, nan_quot, add_nan, nan_mul, XF.IsFin]
    | fin x =>
      rcases ofNat_cases (R := R) (n + 1) with ⟨e, -⟩ | ⟨e, -⟩ <;> rw [e]
      · simp [XF.sub, XF.add, XF.neg, XF.quot, infTimes_pos hp, XF.mul, XF.IsFin]
      · simp [XF.sub, XF.add, XF.neg, XF.quot, XF.mul, XF.IsFin]
    | inf t =>
      rcases ofNat_cases (R := R) (n + 1) with ⟨e, -⟩ | ⟨e, -⟩ <;> rw [e] <;> cases s <;> cases t <;>
      simp [XF.sub, XF.add, XF.neg, XF.quot, infTimes_pos hp, XF.mul, XF.IsFin]
  | fin m =>
    cases x with
    | fin x => exact absurd ⟨trivial, trivial⟩ h
    | nan => simp [XF.sub, nan_add, nan_quot, add_nan, nan_mul, XF.IsFin]
    | inf t =>
      refine ⟨?_, ?_, fun h => absurd trivial h, fun _ h0 => ?_⟩
      · rcases ofNat_cases (R := R) (n + 1) with ⟨e, -⟩ | ⟨e, -⟩ <;> rw [e] <;> cases t <;>
        simp [XF.sub, XF.add, XF.neg, XF.quot, infTimes_pos hp, XF.mul]
      · rcases ofNat_cases (R := R) (n + 1) with ⟨e, -⟩ | ⟨e, -⟩ <;> rw [e] <;>
        simp [XF.sub, XF.add, XF.neg, XF.quot, infTimes_pos hp, XF.IsFin]
      · subst h0
        rw [zero_add, ofNat_one]
        simp [XF.sub, XF.add, XF.neg, XF.quot, infTimes_pos zero_le_one]


/-- Numbers of moderate size: the new mean is one, too, and what is added to the squared error is not negative. -/
theorem updateX_fin {c : CV XF} {x m : ℝ} (hx : XF.Moderate (.fin x)) (hc : c.mean = .fin m) (hm : (XF.fin m).Moderate)
    (h0 : c.num = 0 → m = 0) :
    ∃ m', (CV.updateX R.fl c (.fin x)).mean = .fin m' ∧ (XF.fin m').Moderate ∧
      (natF R.fl (c.num + 1) < XF.big → m' = (CV.updateF R.fl ⟨c.num, m, 0⟩ x).mean) ∧
      (CV.updateX R.fl c (.fin x)).meanSq = XF.add R.fl c.meanSq (XF.round R.fl (R.fl (x - m) * R.fl (x - m'))) ∧
      0 ≤ R.fl (x - m) * R.fl (x - m') := by
  obtain ⟨hx1, hx2⟩ := hx
  obtain ⟨hm1, hm2⟩ := hm
  have x2 := abs_lt.1 hx2
  have m2 := abs_lt.1 hm2
  have x3 := abs_le.1 (hx1.le_half_top hx2)
  have b1 : ∀ z : ℝ, IsFloat z → |z| < XF.big / 2 → |x - z| ≤ topF := by
    intro z hf hz
    have := abs_le.1 (hf.le_half_top hz)
    rw [abs_le]; constructor <;> linarith
  have hbig := big_gt
  have hlt := topF_lt
  have e1 : XF.sub R.fl (.fin x) c.mean = .fin (R.fl (x - m)) := by
    rw [hc]
    simp only [XF.sub, XF.neg, XF.add, ← sub_eq_add_neg]
    exact round_fin topF_float (b1 m hm1 hm2) hlt
  -- the new mean
  have key : ∃ m', XF.add R.fl c.mean (XF.quot R.fl (.fin (R.fl (x - m))) (XF.ofNat R.fl (c.num + 1))) = .fin m' ∧
      IsFloat m' ∧ (natF R.fl (c.num + 1) < XF.big → m' = (CV.updateF R.fl ⟨c.num, m, 0⟩ x).mean) ∧
      ((m ≤ x → m ≤ m' ∧ m' ≤ x) ∧ (x ≤ m → x ≤ m' ∧ m' ≤ m) ∨ m' = x) := by
    rcases ofNat_cases (R := R) (c.num + 1) with ⟨e, -⟩ | ⟨e, hbig⟩
    · have hN : 1 ≤ natF R.fl (c.num + 1) := R.one_le_natF (by omega)
      have hd : |R.fl (x - m)| ≤ topF := by
        have := abs_le.1 (b1 m hm1 hm2)
        exact abs_le.2 ⟨R.le_fl topF_float.neg this.1, R.fl_le topF_float this.2⟩
      have e2 : XF.quot R.fl (.fin (R.fl (x - m))) (XF.ofNat R.fl (c.num + 1)) =
          .fin (R.fl (R.fl (x - m) / natF R.fl (c.num + 1))) := by
        rw [e]
        refine round_fin topF_float ?_ hlt
        rw [abs_div, abs_of_nonneg (by linarith : 0 ≤ natF R.fl (c.num + 1))]
        exact (div_le_self (abs_nonneg _) hN).trans hd
      have hb : ((m ≤ x → m ≤ (CV.updateF R.fl ⟨c.num, m, 0⟩ x).mean ∧ (CV.updateF R.fl ⟨c.num, m, 0⟩ x).mean ≤ x) ∧
          (x ≤ m → x ≤ (CV.updateF R.fl ⟨c.num, m, 0⟩ x).mean ∧ (CV.updateF R.fl ⟨c.num, m, 0⟩ x).mean ≤ m)) ∨
          (CV.updateF R.fl ⟨c.num, m, 0⟩ x).mean = x := by
        rcases Nat.eq_zero_or_pos c.num with hz | hz
        · exact Or.inr (updateF_first (c := ⟨c.num, m, 0⟩) hz (h0 hz) hx1).1
        · exact Or.inl (updateF_between (c := ⟨c.num, m, 0⟩) hz hm1 hx1)
      have hbound : |(CV.updateF R.fl ⟨c.num, m, 0⟩ x).mean| < XF.big / 2 := by
        rcases hb with ⟨hu, hd⟩ | hb
        · rcases le_total m x with h | h
          · exact abs_lt.2 ⟨by linarith [hu h], by linarith [hu h]⟩
          · exact abs_lt.2 ⟨by linarith [hd h], by linarith [hd h]⟩
        · rw [hb]; exact hx2
      refine ⟨_, ?_, R.float _, fun _ => rfl, hb⟩
      rw [e2, hc]
      have hfl : ∀ y, |R.fl y| < XF.big / 2 → XF.round R.fl y = .fin (R.fl y) := by
        intro y hy
        have := abs_lt.1 hy
        unfold XF.round
        rw [if_neg (by linarith), if_neg (by linarith)]
      exact hfl _ hbound
    · refine ⟨m, ?_, hm1, fun h => absurd hbig (not_le.2 h), Or.inl ⟨fun h => ⟨le_rfl, h⟩, fun h => ⟨h, le_rfl⟩⟩⟩
      rw [e, hc]
      simp only [XF.quot, XF.add, add_zero]
      exact round_float hm1 (lt_trans hm2 (by linarith))
  obtain ⟨m', k1, k2, k3, k4⟩ := key
  have hm' : |m'| < XF.big / 2 := by
    rcases k4 with ⟨hu, hd⟩ | rfl
    · rcases le_total m x with h | h
      · exact abs_lt.2 ⟨by linarith [hu h], by linarith [hu h]⟩
      · exact abs_lt.2 ⟨by linarith [hd h], by linarith [hd h]⟩
    · exact hx2
  refine ⟨m', ?_, ⟨k2, hm'⟩, k3, ?_, ?_⟩
  · simp only [CV.updateX]
    rw [e1, k1]
  · simp only [CV.updateX]
    rw [e1, k1]
    congr 1
    have : XF.sub R.fl (.fin x) (.fin m') = .fin (R.fl (x - m')) := by
      simp only [XF.sub, XF.neg, XF.add, ← sub_eq_add_neg]
      exact round_fin topF_float (b1 m' k2 hm') hlt
    rw [this]; rfl
  · rcases k4 with ⟨hu, hd⟩ | rfl
    · rcases le_total m x with h | h
      · exact mul_nonneg (R.fl_nonneg (by linarith)) (R.fl_nonneg (by linarith [hu h]))
      · exact mul_nonneg_of_nonpos_of_nonpos (R.fl_nonpos (by linarith)) (R.fl_nonpos (by linarith [hd h]))
    · simp [R.fl_zero]

/-! ### Sound accumulators -/

/-- The squared error is not negative, and the mean is infinite, `nan`, or of moderate size. -/
structure CV.SoundX (c : CV XF) : Prop where
  mean : c.mean.Moderate
  sq : c.meanSq.AtLeast 0
  zero : c.num = 0 → c.mean = .fin 0

theorem CV.SoundX.fresh : CV.SoundX CV.freshX :=
  ⟨⟨.zero, by have := big_gt; rw [abs_zero]; linarith⟩, le_refl (0 : ℝ), fun _ => rfl⟩

theorem CV.SoundX.update {c : CV XF} (h : c.SoundX) {x : XF} (hx : x.Moderate) : (CV.updateX R.fl c x).SoundX := by
  have hz : (CV.updateX R.fl c x).num = 0 → (CV.updateX R.fl c x).mean = .fin 0 := fun h => absurd h (by simp [CV.updateX])
  by_cases hf : x.IsFin ∧ c.mean.IsFin
  · obtain ⟨h1, h2⟩ := hf
    obtain ⟨x, rfl⟩ := isFin_iff.1 h1
    obtain ⟨m, hm⟩ := isFin_iff.1 h2
    have hmm := h.mean
    rw [hm] at hmm
    obtain ⟨m', e1, e2, -, e3, e4⟩ := updateX_fin (R := R) hx hm hmm (fun h0 => by
      have := h.zero h0; rw [hm] at this; injection this)
    refine ⟨by rw [e1]; exact e2, ?_, hz⟩
    rw [e3]
    exact h.sq.add .zero le_rfl (round_atLeast .zero le_rfl e4)
  · obtain ⟨e1, e2, -, -⟩ := updateX_nonfin (R := R) hf
    refine ⟨?_, by rw [e1]; trivial, hz⟩
    cases hm : (CV.updateX R.fl c x).mean with
    | fin y => rw [hm] at e2; exact absurd trivial e2
    | inf s => trivial
    | nan => trivial

theorem round_eq_fin {y z : ℝ} (h : XF.round R.fl y = .fin z) : z = R.fl y := by
  unfold XF.round at h
  split_ifs at h
  cases h; rfl

theorem round_valid (y : ℝ) : (XF.round R.fl y).Valid := by
  unfold XF.round
  split_ifs with h1 h2
  · trivial
  · trivial
  · exact ⟨R.float _, abs_lt.2 ⟨not_le.1 h2, not_le.1 h1⟩⟩

theorem add_valid (x y : XF) : (XF.add R.fl x y).Valid := by
  cases x <;> cases y <;> simp only [XF.add]
  · exact round_valid _
  all_goals first | trivial | (split_ifs <;> trivial)

/-- Combining does not move the mean out of the moderate range: the sum of at least two numbers is divided by two
or more, or else one of the accumulators is empty and the other holds one number. -/
theorem CV.SoundX.join {c d : CV XF} (hc : c.SoundX) (hd : d.SoundX) (hn : c.num + d.num ≠ 0) :
    (CV.joinX R.fl c d).SoundX := by
  refine ⟨?_, ?_, fun h => absurd h hn⟩
  · have hb := big_gt
    have z0 : (XF.fin 0).Moderate := ⟨.zero, by rw [abs_zero]; linarith⟩
    have hzero : ∀ y : ℝ, XF.mul R.fl (XF.ofNat R.fl 0) (.fin y) = .fin 0 := by
      intro y
      rw [show XF.ofNat R.fl 0 = .fin 0 by unfold XF.ofNat; simpa using round_zero (R := R)]
      simp only [XF.mul, zero_mul]; exact round_zero
    have hone : ∀ x : XF, x.Moderate → XF.mul R.fl (XF.ofNat R.fl 1) x = x ∧ XF.quot R.fl x (XF.ofNat R.fl 1) = x ∧
        XF.add R.fl x (.fin 0) = x ∧ XF.add R.fl (.fin 0) x = x := by
      intro x hx
      rw [ofNat_one]
      cases x with
      | fin x =>
        have h0 : XF.round R.fl x = .fin x := round_float hx.1 (lt_trans hx.2 (by linarith))
        simp only [XF.mul, XF.quot, XF.add, one_mul, div_one, add_zero, zero_add, h0, and_self]
      | inf s => simp [XF.mul, XF.quot, XF.add, infTimes_pos zero_le_one]
      | nan => simp [XF.mul, XF.quot, XF.add]
    have t1 : XF.add R.fl (XF.ofNat R.fl 0) (XF.ofNat R.fl 1) = XF.ofNat R.fl 1 ∧
        XF.add R.fl (XF.ofNat R.fl 1) (XF.ofNat R.fl 0) = XF.ofNat R.fl 1 := by
      have e0 : XF.ofNat R.fl 0 = .fin 0 := by unfold XF.ofNat; simpa using round_zero (R := R)
      have m1 : (XF.fin 1).Moderate := ⟨.one, by rw [abs_one]; linarith⟩
      rw [e0, ofNat_one]
      exact ⟨(hone _ m1).2.2.2, (hone _ m1).2.2.1⟩
    rcases Nat.lt_or_ge (c.num + d.num) 2 with h2 | h2
    · rcases Nat.eq_zero_or_pos c.num with h | h
      · have hd1 : d.num = 1 := by omega
        simp only [CV.joinX, h, hd1, hc.zero h, hzero, (hone _ hd.mean).1, (hone _ hd.mean).2.2.2, t1.1,
          (hone _ hd.mean).2.1]
        exact hd.mean
      · have hc1 : c.num = 1 := by omega
        have hd0 : d.num = 0 := by omega
        simp only [CV.joinX, hc1, hd0, hd.zero hd0, hzero, (hone _ hc.mean).1, (hone _ hc.mean).2.2.1, t1.2,
          (hone _ hc.mean).2.1]
        exact hc.mean
    · simp only [CV.joinX]
      generalize hs : XF.add R.fl (XF.mul R.fl (XF.ofNat R.fl c.num) c.mean)
        (XF.mul R.fl (XF.ofNat R.fl d.num) d.mean) = s
      have g2 : IsFloat ((2 : ℕ) : ℝ) := .nat (by norm_num)
      push_cast at g2
      have hT : (XF.add R.fl (XF.ofNat R.fl c.num) (XF.ofNat R.fl d.num)).AtLeast 2 := by
        rcases ofNat_cases (R := R) c.num with ⟨e1, -⟩ | ⟨e1, -⟩ <;>
          rcases ofNat_cases (R := R) d.num with ⟨e2, -⟩ | ⟨e2, -⟩ <;> rw [e1, e2]
        · refine round_atLeast g2 (by norm_num) ?_
          have k1 := R.natF_nonneg c.num
          have k2 := R.natF_nonneg d.num
          rcases Nat.lt_or_ge d.num 2 with h | h
          · rcases Nat.lt_or_ge c.num 2 with h' | h'
            · have := R.one_le_natF (n := c.num) (by omega)
              have := R.one_le_natF (n := d.num) (by omega)
              linarith
            · linarith [R.two_le_natF h']
          · linarith [R.two_le_natF h]
        · rfl
        · rfl
        · rfl
      have hsv : s.Valid := by rw [← hs]; exact add_valid _ _
      generalize XF.add R.fl (XF.ofNat R.fl c.num) (XF.ofNat R.fl d.num) = t at hT
      cases s with
      | nan => rw [nan_quot]; trivial
      | inf b => cases t <;> trivial
      | fin s =>
        cases t with
        | nan => trivial
        | inf b => exact z0
        | fin t =>
          have ht : (2 : ℝ) ≤ t := hT
          have h3 : |s / t| ≤ topF / 2 := by
            rw [abs_div, abs_of_pos (show 0 < t by linarith), div_le_div_iff₀ (by linarith) (by norm_num)]
            have h4 := hsv.1.le_top hsv.2
            have h5 := abs_nonneg s
            nlinarith
          simp only [XF.quot]
          have h6 : IsFloat (topF / 2) := half_topF_float
          have h7 : XF.round R.fl (s / t) = .fin (R.fl (s / t)) := round_fin h6 h3 (by linarith [topF_lt])
          rw [h7]
          refine ⟨R.float _, ?_⟩
          have h8 := abs_le.1 h3
          have h9 : |R.fl (s / t)| ≤ topF / 2 := abs_le.2 ⟨R.le_fl h6.neg h8.1, R.fl_le h6 h8.2⟩
          exact lt_of_le_of_lt h9 (by linarith [topF_lt])
  · refine XF.AtLeast.add .zero le_rfl (XF.AtLeast.add .zero le_rfl hc.sq hd.sq) ?_
    refine XF.AtLeast.mul (r := 0) (s := 0) .zero le_rfl le_rfl le_rfl (by norm_num) (.mul_self _) ?_
    refine XF.AtLeast.quot ?_ (.add .zero le_rfl (ofNat_atLeast _) (ofNat_atLeast _))
    exact XF.AtLeast.mul (r := 0) (s := 0) .zero le_rfl le_rfl le_rfl (by norm_num) (ofNat_atLeast _) (ofNat_atLeast _)

/-! ### Deviations -/

/-- `unbiased_std` is defined for sound accumulators. -/
theorem CV.SoundX.std {c : CV XF} (h : c.meanSq.AtLeast 0) : ∃ s, CV.unbiasedStdX R.fl c = .ok s ∧ s.AtLeast 0 := by
  unfold CV.unbiasedStdX
  split_ifs with hn
  · exact ⟨_, rfl, le_refl (0 : ℝ)⟩
  · have h2 : 2 ≤ c.num := by omega
    have hd : (XF.sub R.fl (XF.ofNat R.fl c.num) (.fin 1)).AtLeast 1 := by
      rcases ofNat_cases (R := R) c.num with ⟨e, -⟩ | ⟨e, -⟩ <;> rw [e]
      · exact round_atLeast .one zero_le_one (by linarith [R.two_le_natF h2])
      · rfl
    obtain ⟨k, hk, hk2⟩ := c4_float (R := R) h2
    have hv := XF.AtLeast.quot (R := R) h (hd.mono zero_le_one)
    obtain ⟨r, hr, hr0⟩ := XF.AtLeast.sqrt (R := R) .zero le_rfl (by norm_num : (0 : ℝ) * 0 ≤ 0) hv
    have hk3 : (XF.fin (R.fl (k : ℝ))) ≠ .fin 0 := by intro h; injection h with h; linarith
    refine ⟨_, by rw [div_ok (hd.ne_zero one_pos), ok_bind, hr, ok_bind, hk, ok_bind, div_ok hk3], ?_⟩
    exact hr0.quot (show (0 : ℝ) ≤ R.fl (k : ℝ) by linarith)

/-- `combine` does not raise and leaves `joinX`, unless both accumulators are empty. -/
theorem combineX_eq {c d : CV XF} (hn : c.num + d.num ≠ 0) :
    CV.combineX R.fl c d = .ok (CV.joinX R.fl c d) := by
  have hT : (XF.add R.fl (XF.ofNat R.fl c.num) (XF.ofNat R.fl d.num)) ≠ .fin 0 := by
    have h1 : ∀ n : ℕ, n ≠ 0 → (XF.ofNat R.fl n).AtLeast 1 := fun n h =>
      round_atLeast .one zero_le_one (by exact_mod_cast Nat.one_le_iff_ne_zero.2 h)
    rcases Nat.eq_zero_or_pos d.num with h | h
    · have hc := h1 c.num (by omega)
      rw [h, show XF.ofNat R.fl 0 = .fin 0 by unfold XF.ofNat; simpa using round_zero (R := R)]
      cases hx : XF.ofNat R.fl c.num with
      | fin x =>
        rw [hx] at hc
        exact (round_atLeast (R := R) .one zero_le_one (by simpa [XF.AtLeast] using hc)).ne_zero one_pos
      | inf s => intro h; cases h
      | nan => intro h; cases h
    · exact ((ofNat_atLeast _).add .one zero_le_one (h1 d.num (by omega))).ne_zero one_pos
  simp only [CV.combineX, div_ok hT, ok_bind, CV.joinX]
  rfl

theorem fin_sub_self {x : ℝ} : XF.sub R.fl (.fin x) (.fin x) = .fin 0 := by
  simp only [XF.sub, XF.neg, XF.add]
  rw [add_neg_cancel]; exact round_zero

theorem cv_eq {c d : CV XF} (h1 : c.num = d.num) (h2 : c.mean = d.mean) (h3 : c.meanSq = d.meanSq) : c = d := by
  cases c; cases d; cases h1; cases h2; cases h3; rfl

theorem updateX_const {x : XF} (hx : x.Valid) (n : ℕ) :
    CV.updateX R.fl (if n = 0 then CV.freshX else constX n x) x = constX (n + 1) x := by
  cases x with
  | fin x =>
    obtain ⟨h1, h2⟩ := hx
    have h0 : XF.round R.fl x = .fin x := round_float h1 h2
    by_cases hn : n = 0
    · subst hn
      rw [if_pos rfl]
      have e1 : XF.sub R.fl (.fin x) (.fin 0) = .fin x := by
        simp only [XF.sub, XF.neg, XF.add, neg_zero, add_zero, h0]
      have e2 : XF.quot R.fl (.fin x) (.fin 1) = .fin x := by simp only [XF.quot, div_one, h0]
      have e3 : XF.add R.fl (.fin 0) (.fin x) = .fin x := by simp only [XF.add, zero_add, h0]
      simp only [CV.updateX, CV.freshX, zero_add, ofNat_one, e1, e2, e3, fin_sub_self, constX]
      simp [XF.mul, XF.add, round_zero]
    · rw [if_neg hn]
      have e2 : XF.quot R.fl (.fin 0) (XF.ofNat R.fl (n + 1)) = .fin 0 := by
        rcases ofNat_cases (R := R) (n + 1) with ⟨e, -⟩ | ⟨e, -⟩ <;> rw [e]
        · simp only [XF.quot, zero_div, round_zero]
        · rfl
      have e3 : XF.add R.fl (.fin x) (.fin 0) = .fin x := by simp only [XF.add, add_zero, h0]
      simp only [CV.updateX, constX, fin_sub_self, e2, e3]
      simp [XF.mul, XF.add, round_zero]
  | inf s =>
    obtain ⟨c, hc, hcn, hcm⟩ : ∃ c, (if n = 0 then CV.freshX else constX n (.inf s)) = c ∧ c.num = n ∧
        ((n = 0 ∧ c.mean = .fin 0) ∨ (n ≠ 0 ∧ ¬ c.mean.IsFin)) := by
      refine ⟨_, rfl, ?_⟩
      split_ifs with h
      · exact ⟨h.symm, Or.inl ⟨h, rfl⟩⟩
      · refine ⟨rfl, Or.inr ⟨h, ?_⟩⟩
        simp only [constX]
        split_ifs <;> simp [XF.IsFin]
    rw [hc]
    obtain ⟨e1, -, e3, e4⟩ := updateX_nonfin (R := R) (c := c) (x := .inf s) (by simp [XF.IsFin])
    refine cv_eq (by simp [CV.updateX, hcn, constX]) ?_ e1
    rcases hcm with ⟨h, hm⟩ | ⟨h, hm⟩
    · rw [e4 (by rw [hm]; trivial) (by rw [hcn, h])]
      simp [constX, h]
    · rw [e3 hm]
      simp [constX, h]
  | nan =>
    obtain ⟨c, hc, hcn⟩ : ∃ c, (if n = 0 then CV.freshX else constX n .nan) = c ∧ c.num = n := by
      refine ⟨_, rfl, ?_⟩
      split_ifs with h
      · exact h.symm
      · rfl
    rw [hc]
    refine cv_eq (by simp [CV.updateX, hcn, constX]) ?_ ?_
    · simp only [CV.updateX, XF.sub, nan_add, nan_quot, add_nan, constX]
    · simp only [CV.updateX, XF.sub, nan_add, nan_mul, add_nan, constX]

theorem updateBatchX_append (c : CV XF) (xs : List XF) (x : XF) :
    CV.updateBatchX R.fl c (xs ++ [x]) = CV.updateX R.fl (CV.updateBatchX R.fl c xs) x := by
  induction xs generalizing c with
  | nil => rfl
  | cons y ys ih => exact ih _

theorem batchX_const {x : XF} (hx : x.Valid) (n : ℕ) :
    CV.updateBatchX R.fl CV.freshX (List.replicate n x) = if n = 0 then CV.freshX else constX n x := by
  induction n with
  | zero => rfl
  | succ n ih =>
    rw [List.replicate_succ', updateBatchX_append, ih, updateX_const hx, if_neg (by omega)]

open Classical in
/-- The deviation of equal numbers: zero, or `nan`. -/
theorem std_const (n : ℕ) (x : XF) :
    CV.unbiasedStdX R.fl (constX n x) = .ok (if n < 2 ∨ x.IsFin then .fin 0 else .nan) := by
  have hnum : (constX n x).num = n := by cases x <;> rfl
  unfold CV.unbiasedStdX
  rw [hnum]
  by_cases hn : n < 2
  · rw [if_pos hn, if_pos (Or.inl hn)]
  · rw [if_neg hn]
    have h2 : 2 ≤ n := by omega
    have hd : (XF.sub R.fl (XF.ofNat R.fl n) (.fin 1)).AtLeast 1 := by
      rcases ofNat_cases (R := R) n with ⟨e, -⟩ | ⟨e, -⟩ <;> rw [e]
      · exact round_atLeast .one zero_le_one (by linarith [R.two_le_natF h2])
      · rfl
    obtain ⟨k, hk, hk2⟩ := c4_float (R := R) h2
    have hk3 : (XF.fin (R.fl (k : ℝ))) ≠ .fin 0 := by intro h; injection h with h; linarith
    rw [div_ok (hd.ne_zero one_pos), ok_bind]
    cases x with
    | fin x =>
      have e1 : XF.quot R.fl (constX n (.fin x)).meanSq (XF.sub R.fl (XF.ofNat R.fl n) (.fin 1)) = .fin 0 := by
        simp only [constX]
        cases hs : XF.sub R.fl (XF.ofNat R.fl n) (.fin 1) with
        | fin y => simp only [XF.quot, zero_div, round_zero]
        | inf s => rfl
        | nan =>
          exfalso
          rcases ofNat_cases (R := R) n with ⟨e, -⟩ | ⟨e, -⟩ <;> rw [e] at hs
          · simp only [XF.sub, XF.neg, XF.add, XF.round] at hs
            split_ifs at hs
          · cases hs
      rw [e1, if_pos (Or.inr (show (XF.fin x).IsFin from trivial))]
      simp only [XF.sqrt, lt_irrefl, if_false, Real.sqrt_zero, round_zero, ok_bind, hk, div_ok hk3]
      simp only [XF.quot, zero_div, round_zero]
    | inf s =>
      rw [if_neg (by simp [hn, XF.IsFin])]
      simp only [constX, nan_quot, XF.sqrt, ok_bind, hk, div_ok hk3]
    | nan =>
      rw [if_neg (by simp [hn, XF.IsFin])]
      simp only [constX, nan_quot, XF.sqrt, ok_bind, hk, div_ok hk3]

end CF
