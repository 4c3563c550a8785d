/-
Property C93: how much rounding changes the accumulator of numeric values.
-/
import Verif.Props.FloatCV

namespace CF
variable {R : Rounding}

theorem absErr_small : absErr ≤ 1 / 16 := by
  unfold absErr
  have : (2 : ℝ) ^ (-1074 : ℤ) ≤ (2 : ℝ) ^ (-4 : ℤ) := zpow_le_zpow_right₀ (by norm_num) (by norm_num)
  exact this.trans (by norm_num)

theorem relErr_small : relErr ≤ 1 / 1024 := by unfold relErr; norm_num

theorem abs_mul_sub_mul (a b A B : ℝ) : |a * b - A * B| ≤ |a| * |b - B| + |B| * |a - A| := by
  have : a * b - A * B = a * (b - B) + B * (a - A) := by ring
  rw [this]
  refine (abs_add_le _ _).trans ?_
  rw [abs_mul, abs_mul]

theorem abs_le_of_sub {a A e K : ℝ} (h : |a - A| ≤ e) (hA : |A| ≤ K) : |a| ≤ K + e := by
  have := abs_add_le (a - A) A
  rw [sub_add_cancel] at this
  linarith

theorem R_err_le (y : ℝ) {K : ℝ} (h : |y| ≤ K) : |R.fl y - y| ≤ relErr * K + absErr := by
  have h1 := R.err y
  have h2 := mul_le_mul_of_nonneg_left h relErr_pos.le
  linarith

theorem fl_near {y Y e K : ℝ} (h : |y - Y| ≤ e) (hY : |Y| ≤ K) :
    |R.fl y - Y| ≤ e + (relErr * (K + e) + absErr) := by
  have h1 := R_err_le (R := R) y (abs_le_of_sub h hY)
  have h2 := abs_add_le (R.fl y - y) (y - Y)
  rw [sub_add_sub_cancel] at h2
  linarith

/-- **C93**, one step: adding a float to an accumulator, with and without rounding. -/
theorem C93_update_step {c : CV ℝ} (h1 : 1 ≤ c.num) (hbig : c.num + 1 ≤ 2 ^ 53) (hm : IsFloat c.mean)
    (hS : 0 ≤ c.meanSq) {x : ℝ} (hx : IsFloat x) {M : ℝ} (hmM : |c.mean| ≤ M) (hxM : |x| ≤ M) :
    (CV.updateF R.fl c x).num = (c.update x).num ∧
    |(CV.updateF R.fl c x).mean - (c.update x).mean| ≤ (2 : ℝ) ^ (-50 : ℤ) * M + 3 * (2 : ℝ) ^ (-1074 : ℤ) ∧
    |(CV.updateF R.fl c x).meanSq - (c.update x).meanSq| ≤
      (2 : ℝ) ^ (-52 : ℤ) * c.meanSq + (2 : ℝ) ^ (-47 : ℤ) * M ^ 2 + 17 * (2 : ℝ) ^ (-1074 : ℤ) * (M + 1) := by
  have hu := relErr_pos
  have hη := absErr_pos
  have hu1 := relErr_small
  have hη1 := absErr_small
  have hM0 : 0 ≤ M := (abs_nonneg x).trans hxM
  have hstep := step_error (R := R) h1 hbig hm hx hmM hxM
  have hmean : (c.update x).mean = c.mean + (x - c.mean) / (c.num + 1) := by simp [CV.update]
  have e50 : (2 : ℝ) ^ (-50 : ℤ) = 4 * relErr := by unfold relErr; norm_num
  have e47 : (2 : ℝ) ^ (-47 : ℤ) = 32 * relErr := by unfold relErr; norm_num
  have e52 : (2 : ℝ) ^ (-52 : ℤ) = relErr := rfl
  have e1074 : (2 : ℝ) ^ (-1074 : ℤ) = absErr := rfl
  rw [e50, e47, e52, e1074]
  clear e50 e47 e52 e1074
  refine ⟨rfl, by rw [hmean]; exact hstep, ?_⟩
  have hN2 : (2 : ℝ) ≤ (c.num : ℝ) + 1 := by
    have : (1 : ℝ) ≤ c.num := by exact_mod_cast h1
    linarith
  have hsqF : (CV.updateF R.fl c x).meanSq =
      R.fl (c.meanSq + R.fl (R.fl (x - c.mean) * R.fl (x - (CV.updateF R.fl c x).mean))) := rfl
  have hsq : (c.update x).meanSq = c.meanSq + (x - c.mean) * (x - (c.update x).mean) := by
    simp [CV.update]
  have hm'M : |(CV.updateF R.fl c x).mean| ≤ M := by
    obtain ⟨hup, hdn⟩ := updateF_between (R := R) h1 hm hx
    rw [abs_le] at hmM hxM ⊢
    rcases le_total c.mean x with h | h
    · have := hup h; constructor <;> linarith
    · have := hdn h; constructor <;> linarith
  rw [← hmean] at hstep
  have hmeM : |(c.update x).mean| ≤ M := by
    have e : (c.update x).mean = (1 - 1 / ((c.num : ℝ) + 1)) * c.mean + 1 / ((c.num : ℝ) + 1) * x := by
      rw [hmean]; ring
    have w1 : 0 ≤ 1 / ((c.num : ℝ) + 1) := by positivity
    have w2 : 1 / ((c.num : ℝ) + 1) ≤ 1 := by rw [div_le_one (by linarith)]; linarith
    rw [e]
    refine (abs_add_le _ _).trans ?_
    rw [abs_mul, abs_mul, abs_of_nonneg w1, abs_of_nonneg (sub_nonneg.2 w2)]
    have i1 := mul_le_mul_of_nonneg_left hmM (sub_nonneg.2 w2)
    have i2 := mul_le_mul_of_nonneg_left hxM w1
    linarith
  rw [hsqF, hsq]
  generalize (CV.updateF R.fl c x).mean = m' at *
  generalize (c.update x).mean = me at *
  generalize c.meanSq = S at *
  generalize c.mean = m at *
  have hD : |x - m| ≤ 2 * M := by have := abs_sub x m; linarith
  have hF : |x - me| ≤ 2 * M := by have := abs_sub x me; linarith
  have hF' : |x - m'| ≤ 2 * M := by have := abs_sub x m'; linarith
  have d1 := R_err_le (R := R) (x - m) hD
  have f1 := R_err_le (R := R) (x - m') hF'
  generalize R.fl (x - m) = d at *
  generalize R.fl (x - m') = f at *
  have f2 : |f - (x - me)| ≤ 6 * (relErr * M) + 4 * absErr := by
    have t := abs_add_le (f - (x - m')) (me - m')
    rw [show f - (x - m') + (me - m') = f - (x - me) by ring, abs_sub_comm me m'] at t
    linarith
  have d2 : |d| ≤ 3 * M + absErr := by
    have := abs_le_of_sub d1 hD
    nlinarith
  have p1 : |d * f - (x - m) * (x - me)| ≤ 22 * (relErr * M ^ 2) + 15 * (absErr * M) + absErr := by
    refine (abs_mul_sub_mul _ _ _ _).trans ?_
    have i1 := mul_le_mul d2 f2 (abs_nonneg _) (by positivity)
    have i2 := mul_le_mul hF d1 (abs_nonneg _) (by positivity)
    have j1 : relErr * (absErr * M) ≤ 1 / 1024 * (absErr * M) := mul_le_mul_of_nonneg_right hu1 (by positivity)
    have j2 : absErr * absErr ≤ 1 / 16 * absErr := mul_le_mul_of_nonneg_right hη1 hη.le
    have j3 : 0 ≤ absErr * M := by positivity
    nlinarith
  have hDF : |(x - m) * (x - me)| ≤ 4 * M ^ 2 := by
    rw [abs_mul]
    have := mul_le_mul hD hF (abs_nonneg _) (by positivity)
    nlinarith
  have p2 := fl_near (R := R) p1 hDF
  have q1 : 0 ≤ relErr * M ^ 2 := by positivity
  have q2 : 0 ≤ absErr * M := by positivity
  have r1 : relErr * (relErr * M ^ 2) ≤ 1 / 1024 * (relErr * M ^ 2) := mul_le_mul_of_nonneg_right hu1 q1
  have r2 : relErr * (absErr * M) ≤ 1 / 1024 * (absErr * M) := mul_le_mul_of_nonneg_right hu1 q2
  have r3 : relErr * absErr ≤ 1 / 1024 * absErr := mul_le_mul_of_nonneg_right hu1 hη.le
  have p3 : |R.fl (d * f) - (x - m) * (x - me)| ≤ 27 * (relErr * M ^ 2) + 16 * (absErr * M) + 3 * absErr := by
    refine p2.trans ?_
    nlinarith
  generalize R.fl (d * f) = p at *
  have p4 : |S + p - (S + (x - m) * (x - me))| ≤ 27 * (relErr * M ^ 2) + 16 * (absErr * M) + 3 * absErr := by
    rw [add_sub_add_left_eq_sub]; exact p3
  have hSum : |S + (x - m) * (x - me)| ≤ S + 4 * M ^ 2 := by
    refine (abs_add_le _ _).trans ?_
    rw [abs_of_nonneg hS]
    linarith
  have p5 := fl_near (R := R) p4 hSum
  refine p5.trans ?_
  nlinarith

/-- The weight `n1 * n2 / (n1 + n2)`, rounded. -/
theorem weight_near {n1 n2 : ℝ} (hn1 : 0 ≤ n1) (hn2 : 0 ≤ n2) (hN1 : 1 ≤ n1 + n2) :
    |R.fl (R.fl (n1 * n2) / (n1 + n2)) - n1 * n2 / (n1 + n2)| ≤
      3 * (relErr * (n1 * n2 / (n1 + n2))) + 3 * absErr := by
  have hu := relErr_pos
  have hη := absErr_pos
  have hu1 := relErr_small
  have hNpos : 0 < n1 + n2 := by linarith
  have hP0 : 0 ≤ n1 * n2 := mul_nonneg hn1 hn2
  have a1 := R.err (n1 * n2)
  rw [abs_of_nonneg hP0] at a1
  generalize R.fl (n1 * n2) = p at *
  have hQ0 : 0 ≤ n1 * n2 / (n1 + n2) := by positivity
  have a2 : |p / (n1 + n2) - n1 * n2 / (n1 + n2)| ≤ relErr * (n1 * n2 / (n1 + n2)) + absErr := by
    rw [← sub_div, abs_div, abs_of_pos hNpos]
    refine (div_le_div_of_nonneg_right a1 hNpos.le).trans ?_
    rw [add_div, mul_div_assoc]
    have : absErr / (n1 + n2) ≤ absErr := div_le_self hη.le hN1
    linarith
  refine (fl_near (R := R) a2 (abs_of_nonneg hQ0).le).trans ?_
  generalize n1 * n2 / (n1 + n2) = Q at *
  have uη : relErr * absErr ≤ 1 / 1024 * absErr := mul_le_mul_of_nonneg_right hu1 hη.le
  have uuQ : relErr * (relErr * Q) ≤ 1 / 1024 * (relErr * Q) := mul_le_mul_of_nonneg_right hu1 (by positivity)
  have uQ : 0 ≤ relErr * Q := by positivity
  linarith

/-- The square of a difference, rounded. -/
theorem square_near {D M : ℝ} (hD : |D| ≤ 2 * M) :
    |R.fl (R.fl D * R.fl D) - D * D| ≤ 15 * (relErr * M ^ 2) + 7 * (absErr * M) + 3 * absErr ∧ |D * D| ≤ 4 * M ^ 2 := by
  have hu := relErr_pos
  have hη := absErr_pos
  have hu1 := relErr_small
  have hη1 := absErr_small
  have hM0 : 0 ≤ M := by have := abs_nonneg D; linarith
  have uη : relErr * absErr ≤ 1 / 1024 * absErr := mul_le_mul_of_nonneg_right hu1 hη.le
  have ηη : absErr * absErr ≤ 1 / 16 * absErr := mul_le_mul_of_nonneg_right hη1 hη.le
  have d1 := R_err_le (R := R) D hD
  generalize R.fl D = δ at *
  have uM' : relErr * M ≤ 1 / 1024 * M := mul_le_mul_of_nonneg_right hu1 hM0
  have d2 : |δ| ≤ 3 * M + absErr := by
    have := abs_le_of_sub d1 hD
    linarith
  have ηM : 0 ≤ absErr * M := by positivity
  have uηM : relErr * (absErr * M) ≤ 1 / 1024 * (absErr * M) := mul_le_mul_of_nonneg_right hu1 ηM
  have uM : 0 ≤ relErr * M ^ 2 := by positivity
  have uuM : relErr * (relErr * M ^ 2) ≤ 1 / 1024 * (relErr * M ^ 2) := mul_le_mul_of_nonneg_right hu1 uM
  have d3 : |δ * δ - D * D| ≤ 10 * (relErr * M ^ 2) + 6 * (absErr * M) + absErr := by
    refine (abs_mul_sub_mul _ _ _ _).trans ?_
    have i1 := mul_le_mul d2 d1 (abs_nonneg _) (by positivity)
    have i2 := mul_le_mul hD d1 (abs_nonneg _) (by positivity)
    linarith
  have hDD : |D * D| ≤ 4 * M ^ 2 := by
    rw [abs_mul]
    have := mul_le_mul hD hD (abs_nonneg _) (by positivity)
    linarith
  refine ⟨(fl_near (R := R) d3 hDD).trans ?_, hDD⟩
  linarith

/-- The product of an approximate square and an approximate weight, rounded. -/
theorem product_near {s q X Q M : ℝ} (hM0 : 0 ≤ M) (hQ0 : 0 ≤ Q) (hX : |X| ≤ 4 * M ^ 2)
    (hs : |s - X| ≤ 15 * (relErr * M ^ 2) + 7 * (absErr * M) + 3 * absErr)
    (hq : |q - Q| ≤ 3 * (relErr * Q) + 3 * absErr) :
    |R.fl (s * q) - X * Q| ≤ 35 * (relErr * (M ^ 2 * Q)) + 29 * (absErr * ((M + 1) ^ 2 * (Q + 1))) ∧
      |X * Q| ≤ 4 * (M ^ 2 * Q) := by
  have hu := relErr_pos
  have hη := absErr_pos
  have hu1 := relErr_small
  have hη1 := absErr_small
  have hM2 : 0 ≤ M ^ 2 := sq_nonneg M
  have uη : relErr * absErr ≤ 1 / 1024 * absErr := mul_le_mul_of_nonneg_right hu1 hη.le
  have ηη : absErr * absErr ≤ 1 / 16 * absErr := mul_le_mul_of_nonneg_right hη1 hη.le
  have uM2 : relErr * M ^ 2 ≤ 1 / 1024 * M ^ 2 := mul_le_mul_of_nonneg_right hu1 hM2
  have d5 : |s| ≤ 5 * M ^ 2 + 7 * (absErr * M) + 3 * absErr := by
    have := abs_le_of_sub hs hX
    linarith
  have k1 : relErr * (absErr * (M * Q)) ≤ 1 / 1024 * (absErr * (M * Q)) :=
    mul_le_mul_of_nonneg_right hu1 (by positivity)
  have k2 : relErr * (absErr * Q) ≤ 1 / 1024 * (absErr * Q) := mul_le_mul_of_nonneg_right hu1 (by positivity)
  have k3 : absErr * (absErr * M) ≤ 1 / 16 * (absErr * M) := mul_le_mul_of_nonneg_right hη1 (by positivity)
  have k5 : 0 ≤ absErr * (M ^ 2 * Q) := by positivity
  have k6 : 0 ≤ absErr * M ^ 2 := by positivity
  have k7 : 0 ≤ absErr * (M * Q) := by positivity
  have k8 : 0 ≤ absErr * Q := by positivity
  have k9 : 0 ≤ absErr * M := by positivity
  have g1 : |s * q - X * Q| ≤ 30 * (relErr * (M ^ 2 * Q)) + 27 * (absErr * ((M + 1) ^ 2 * (Q + 1))) := by
    refine (abs_mul_sub_mul _ _ _ _).trans ?_
    rw [abs_of_nonneg hQ0]
    have i1 := mul_le_mul d5 hq (abs_nonneg _) (by positivity)
    have i2 := mul_le_mul_of_nonneg_left hs hQ0
    linarith
  have hXQ : |X * Q| ≤ 4 * (M ^ 2 * Q) := by
    rw [abs_mul, abs_of_nonneg hQ0]
    have := mul_le_mul_of_nonneg_right hX hQ0
    linarith
  refine ⟨(fl_near (R := R) g1 hXQ).trans ?_, hXQ⟩
  have ηH : absErr ≤ absErr * ((M + 1) ^ 2 * (Q + 1)) := by linarith
  have uηH : relErr * (absErr * ((M + 1) ^ 2 * (Q + 1))) ≤ 1 / 1024 * (absErr * ((M + 1) ^ 2 * (Q + 1))) :=
    mul_le_mul_of_nonneg_right hu1 (by positivity)
  have uX : 0 ≤ relErr * (M ^ 2 * Q) := by positivity
  have uuX : relErr * (relErr * (M ^ 2 * Q)) ≤ 1 / 1024 * (relErr * (M ^ 2 * Q)) :=
    mul_le_mul_of_nonneg_right hu1 uX
  generalize (M + 1) ^ 2 * (Q + 1) = H at *
  linarith

/-- **C93**, combining: the sum of squares of the combination, with and without rounding.  (The bound for the mean is
`C92_combine_error_partial`.) -/
theorem C93_combine_sq {c d : CV ℝ} (hn : c.num + d.num ≠ 0) (hbig : c.num + d.num ≤ 2 ^ 53)
    (hSc : 0 ≤ c.meanSq) (hSd : 0 ≤ d.meanSq) {M : ℝ}
    (hc : |c.mean| ≤ M) (hd : |d.mean| ≤ M) {r e : CV ℝ} (h : CV.combineF R.fl c d = .ok r) (he : c.combine d = .ok e) :
    |r.meanSq - e.meanSq| ≤ (2 : ℝ) ^ (-50 : ℤ) * (c.meanSq + d.meanSq) +
      (2 : ℝ) ^ (-46 : ℤ) * (M ^ 2 * (c.num * d.num / (c.num + d.num))) +
      (2 : ℝ) ^ (-1068 : ℤ) * ((M + 1) ^ 2 * (c.num * d.num / (c.num + d.num) + 1)) := by
  have hu := relErr_pos
  have hη := absErr_pos
  have hu1 := relErr_small
  have hM0 : 0 ≤ M := (abs_nonneg _).trans hc
  have e50 : (2 : ℝ) ^ (-50 : ℤ) = 4 * relErr := by unfold relErr; norm_num
  have e46 : (2 : ℝ) ^ (-46 : ℤ) = 64 * relErr := by unfold relErr; norm_num
  have e1068 : (2 : ℝ) ^ (-1068 : ℤ) = 64 * absErr := by
    unfold absErr
    rw [show (-1068 : ℤ) = 6 + -1074 by norm_num, zpow_add₀ (by norm_num)]
    norm_num
  rw [e50, e46, e1068]
  clear e50 e46 e1068
  have f1 : natF R.fl c.num = c.num := R.natF_eq (by omega)
  have f2 : natF R.fl d.num = d.num := R.natF_eq (by omega)
  have f3 : R.fl ((c.num : ℝ) + (d.num : ℝ)) = (c.num : ℝ) + (d.num : ℝ) := by
    have := R.fix (IsFloat.nat hbig)
    push_cast at this
    exact this
  have hN1 : (1 : ℝ) ≤ (c.num : ℝ) + (d.num : ℝ) := by
    have : 1 ≤ c.num + d.num := by omega
    exact_mod_cast this
  have hN0 : (c.num : ℝ) + (d.num : ℝ) ≠ 0 := by linarith
  have hr : r.meanSq = R.fl (R.fl (c.meanSq + d.meanSq) +
      R.fl (R.fl (R.fl (d.mean - c.mean) * R.fl (d.mean - c.mean)) *
        R.fl (R.fl (c.num * d.num) / (c.num + d.num)))) := by
    simp only [CV.combineF, f1, f2, f3, divF, hN0, if_false, ok_bind, pure_ok] at h
    rw [← h]
  have hes : e.meanSq = c.meanSq + d.meanSq +
      (d.mean - c.mean) * (d.mean - c.mean) * (c.num * d.num / (c.num + d.num)) := by
    simp only [CV.combine, pyDiv, hN0, if_false, ok_bind, pure_ok] at he
    rw [← he]
  rw [hr, hes]
  have hn1 : (0 : ℝ) ≤ c.num := by positivity
  have hn2 : (0 : ℝ) ≤ d.num := by positivity
  have hD : |d.mean - c.mean| ≤ 2 * M := by have := abs_sub d.mean c.mean; linarith
  obtain ⟨s1, s2⟩ := square_near (R := R) hD
  have hQ0 : 0 ≤ (c.num : ℝ) * d.num / (c.num + d.num) := by positivity
  obtain ⟨g2, g3⟩ := product_near (R := R) hM0 hQ0 s2 s1 (weight_near (R := R) hn1 hn2 hN1)
  clear hr hes f1 f2 f3 h he hbig hn s1 s2 hD hc hd hN1 hN0
  generalize R.fl (R.fl (R.fl (d.mean - c.mean) * R.fl (d.mean - c.mean)) *
        R.fl (R.fl (c.num * d.num) / (c.num + d.num))) = t at *
  generalize (d.mean - c.mean) * (d.mean - c.mean) * (c.num * d.num / (c.num + d.num)) = Y at *
  generalize (c.num : ℝ) * d.num / (c.num + d.num) = Q at *
  have hM2 : 0 ≤ M ^ 2 := sq_nonneg M
  have hH1 : 1 ≤ (M + 1) ^ 2 * (Q + 1) := by
    have : 0 ≤ M ^ 2 * Q := by positivity
    have : 0 ≤ M * Q := by positivity
    linarith
  generalize (M + 1) ^ 2 * (Q + 1) = H at *
  have hX0 : 0 ≤ M ^ 2 * Q := by positivity
  generalize M ^ 2 * Q = X at *
  have ηH : absErr ≤ absErr * H := le_mul_of_one_le_right hη.le hH1
  have uηH : relErr * (absErr * H) ≤ 1 / 1024 * (absErr * H) := mul_le_mul_of_nonneg_right hu1 (by positivity)
  have uX : 0 ≤ relErr * X := by positivity
  have uuX : relErr * (relErr * X) ≤ 1 / 1024 * (relErr * X) := mul_le_mul_of_nonneg_right hu1 uX
  have hSS : 0 ≤ c.meanSq + d.meanSq := add_nonneg hSc hSd
  have g4 := R.err (c.meanSq + d.meanSq)
  rw [abs_of_nonneg hSS] at g4
  generalize R.fl (c.meanSq + d.meanSq) = S at *
  generalize c.meanSq + d.meanSq = T at *
  have g5 : |S + t - (T + Y)| ≤ relErr * T + 35 * (relErr * X) + 30 * (absErr * H) := by
    have := abs_add_le (S - T) (t - Y)
    rw [show S - T + (t - Y) = S + t - (T + Y) by ring] at this
    linarith
  have hTD : |T + Y| ≤ T + 4 * X := by
    refine (abs_add_le _ _).trans ?_
    rw [abs_of_nonneg hSS]
    linarith
  have uuT : relErr * (relErr * T) ≤ 1 / 1024 * (relErr * T) := mul_le_mul_of_nonneg_right hu1 (by positivity)
  have uT : 0 ≤ relErr * T := by positivity
  refine (fl_near (R := R) g5 hTD).trans ?_
  linarith

theorem c4_half {n : ℕ} (h : 2 ≤ n) {k : ℚ} (hk : c4 (n : ℤ) = .ok k) : 1 / 2 ≤ k := by
  by_cases h30 : n < 30
  · interval_cases n <;> (cases hk; norm_num)
  · have : c4 (n : ℤ) = .ok 1 := by simp [c4, show ¬ (n : ℤ) < 30 by omega, show ¬ (n : ℤ) ≤ 1 by omega]
    rw [this] at hk
    cases hk
    norm_num

theorem abs_sqrt_sub_sqrt {v V e g : ℝ} (hv : 0 ≤ v) (hV : 0 ≤ V) (he : 0 ≤ e) (he1 : e ≤ 1) (hg : 0 < g)
    (h : |v - V| ≤ e * V + g ^ 2) : |Real.sqrt v - Real.sqrt V| ≤ e * Real.sqrt V + 2 * g := by
  have hs := Real.sqrt_nonneg v
  have hS := Real.sqrt_nonneg V
  have e1 := Real.mul_self_sqrt hv
  have e2 := Real.mul_self_sqrt hV
  generalize Real.sqrt v = a at *
  generalize Real.sqrt V = b at *
  subst e1 e2
  rw [abs_le] at h ⊢
  obtain ⟨h1, h2⟩ := h
  have k1 : 0 ≤ e * b := by positivity
  constructor
  · by_contra hc
    push Not at hc
    have : a < b - e * b - 2 * g := by linarith
    have hb : 0 < b - e * b - 2 * g := by linarith
    have : a * a < (b - e * b - 2 * g) * (b - e * b - 2 * g) := by nlinarith
    nlinarith
  · by_contra hc
    push Not at hc
    have : b + e * b + 2 * g < a := by linarith
    have : (b + e * b + 2 * g) * (b + e * b + 2 * g) < a * a := by nlinarith
    nlinarith

/-- **C93**, deviation: the estimate of the standard deviation, with and without rounding. -/
theorem C93_std_error {c : CV ℝ} (hbig : c.num ≤ 2 ^ 53) (hS : 0 ≤ c.meanSq) {s t : ℝ}
    (hs : CV.unbiasedStdF R.fl c = .ok s) (ht : c.unbiasedStd = .ok t) :
    |s - t| ≤ (2 : ℝ) ^ (-48 : ℤ) * t + (2 : ℝ) ^ (-534 : ℤ) := by
  by_cases h2 : c.num < 2
  · simp only [CV.unbiasedStdF, h2, if_true, Except.ok.injEq] at hs
    simp only [CV.unbiasedStd, h2, if_true, Except.ok.injEq] at ht
    subst hs ht
    simp only [sub_self, abs_zero, mul_zero, zero_add]
    exact (zpow_pos (by norm_num) _).le
  have h2' : 2 ≤ c.num := by omega
  obtain ⟨k, hk, hk2⟩ := c4_float (R := R) h2'
  obtain ⟨k', hk', hk0, hk1⟩ := c4_ok (n := c.num) (by omega)
  obtain rfl : k = k' := by rw [hk] at hk'; exact Except.ok.inj hk'
  have hu := relErr_pos
  have hη := absErr_pos
  have hu1 := relErr_small
  have f1 : natF R.fl c.num = c.num := R.natF_eq hbig
  have hN : (1 : ℝ) ≤ (c.num : ℝ) - 1 := by
    have : (2 : ℝ) ≤ c.num := by exact_mod_cast h2'
    linarith
  have f2 : R.fl ((c.num : ℝ) - 1) = (c.num : ℝ) - 1 := by
    have := R.fix (IsFloat.nat (n := c.num - 1) (by omega))
    rw [Nat.cast_sub (by omega)] at this
    simpa using this
  have hN0 : (c.num : ℝ) - 1 ≠ 0 := by linarith
  have hkk0 : (0 : ℝ) < (k : ℝ) := by exact_mod_cast hk0
  have hkk1 : (k : ℝ) ≤ 1 := by exact_mod_cast hk1
  have hv0 : 0 ≤ c.meanSq / ((c.num : ℝ) - 1) := div_nonneg hS (by linarith)
  have hv1 : 0 ≤ R.fl (c.meanSq / ((c.num : ℝ) - 1)) := R.fl_nonneg hv0
  simp only [CV.unbiasedStdF, h2, if_false, f1, f2, divF, hN0, ok_bind, sqrtF, not_lt.2 hv1, hk,
    show R.fl (k : ℝ) ≠ 0 by linarith, Except.ok.injEq] at hs
  simp only [CV.unbiasedStd, h2, if_false, pyDiv, hN0, ok_bind, pySqrt, not_lt.2 hv0, hk, hkk0.ne', Except.ok.injEq] at ht
  have kerr := R.err (k : ℝ)
  rw [abs_of_pos hkk0] at kerr
  have khalf : (1 : ℝ) / 2 ≤ k := by
    have : (1 / 2 : ℚ) ≤ k := c4_half h2' hk
    have : ((1 / 2 : ℚ) : ℝ) ≤ (k : ℝ) := by exact_mod_cast this
    simpa using this
  have verr := R.err (c.meanSq / ((c.num : ℝ) - 1))
  rw [abs_of_nonneg hv0] at verr
  subst hs ht
  generalize c.meanSq / ((c.num : ℝ) - 1) = V at *
  generalize R.fl V = v at *
  obtain ⟨g, hg0, hg, hg1, hg8⟩ : ∃ g : ℝ, 0 < g ∧ g ^ 2 = absErr ∧ g ≤ 1 / 16 ∧ (2 : ℝ) ^ (-534 : ℤ) = 8 * g := by
    refine ⟨(2 : ℝ) ^ (-537 : ℤ), zpow_pos (by norm_num) _, ?_, ?_, ?_⟩
    · unfold absErr
      rw [← zpow_natCast, ← zpow_mul]
      norm_num
    · have : (2 : ℝ) ^ (-537 : ℤ) ≤ (2 : ℝ) ^ (-4 : ℤ) := zpow_le_zpow_right₀ (by norm_num) (by norm_num)
      exact this.trans (by norm_num)
    · rw [show (-534 : ℤ) = 3 + -537 by norm_num, zpow_add₀ (by norm_num)]
      norm_num
  have e48 : (2 : ℝ) ^ (-48 : ℤ) = 16 * relErr := by unfold relErr; norm_num
  rw [e48, hg8]
  clear e48 hg8
  have hηu : absErr ≤ relErr := by
    unfold absErr relErr
    exact zpow_le_zpow_right₀ (by norm_num) (by norm_num)
  rw [← hg] at verr
  have hsq := abs_sqrt_sub_sqrt hv1 hv0 hu.le (by linarith) hg0 verr
  have hb0 := Real.sqrt_nonneg V
  generalize Real.sqrt v = a at *
  generalize Real.sqrt V = b at *
  have hηg : absErr ≤ 1 / 16 * g := by
    have := mul_le_mul_of_nonneg_right hg1 hg0.le
    nlinarith
  have ug : relErr * g ≤ 1 / 1024 * g := mul_le_mul_of_nonneg_right hu1 hg0.le
  have ub : 0 ≤ relErr * b := by positivity
  have uub : relErr * (relErr * b) ≤ 1 / 1024 * (relErr * b) := mul_le_mul_of_nonneg_right hu1 ub
  have hr : |R.fl a - b| ≤ 3 * (relErr * b) + 3 * g := by
    refine (fl_near (R := R) hsq (abs_of_nonneg hb0).le).trans ?_
    linarith
  generalize R.fl a = r at *
  generalize R.fl (k : ℝ) = κ at *
  generalize (k : ℝ) = k at *
  have hT0 : 0 ≤ b / k := by positivity
  have hb : b = b / k * k := by field_simp
  have hbT : b ≤ b / k := le_div_self hb0 hkk0 hkk1
  generalize b / k = T at *
  have hκ0 : 0 < κ := by linarith
  have ubT : relErr * b ≤ relErr * T := mul_le_mul_of_nonneg_left hbT hu.le
  have key : |r / κ - T| ≤ 10 * (relErr * T) + 6 * g := by
    have e : r / κ - T = ((r - b) + T * (k - κ)) / κ := by
      field_simp
      rw [hb]
      ring
    rw [e, abs_div, abs_of_pos hκ0, div_le_iff₀ hκ0]
    refine (abs_add_le _ _).trans ?_
    rw [abs_mul, abs_of_nonneg hT0, abs_sub_comm k κ]
    have i1 := mul_le_mul_of_nonneg_left kerr hT0
    have i2 : relErr * T * k ≤ relErr * T * 1 := mul_le_mul_of_nonneg_left hkk1 (by positivity)
    have i3 : absErr * T ≤ relErr * T := mul_le_mul_of_nonneg_right hηu hT0
    have i4 : (10 * (relErr * T) + 6 * g) * (1 / 2) ≤ (10 * (relErr * T) + 6 * g) * κ :=
      mul_le_mul_of_nonneg_left hk2 (by positivity)
    linarith
  have uT : 0 ≤ relErr * T := by positivity
  have uuT : relErr * (relErr * T) ≤ 1 / 1024 * (relErr * T) := mul_le_mul_of_nonneg_right hu1 uT
  refine (fl_near (R := R) key (abs_of_nonneg hT0).le).trans ?_
  linarith

/-- **C93**, biased deviation. -/
theorem C93_biased_std_error {c : CV ℝ} (h0 : c.num ≠ 0) (hbig : c.num ≤ 2 ^ 53) (hS : 0 ≤ c.meanSq) {s t : ℝ}
    (hs : CV.biasedStdF R.fl c = .ok s) (ht : c.biasedStd = .ok t) :
    |s - t| ≤ (2 : ℝ) ^ (-50 : ℤ) * t + (2 : ℝ) ^ (-535 : ℤ) := by
  have hu := relErr_pos
  have hu1 := relErr_small
  have f1 : natF R.fl c.num = c.num := R.natF_eq hbig
  have hN0 : (0 : ℝ) < (c.num : ℝ) := by exact_mod_cast Nat.pos_of_ne_zero h0
  have hv0 : 0 ≤ c.meanSq / (c.num : ℝ) := div_nonneg hS hN0.le
  have hv1 : 0 ≤ R.fl (c.meanSq / (c.num : ℝ)) := R.fl_nonneg hv0
  simp only [CV.biasedStdF, f1, divF, hN0.ne', if_false, ok_bind, sqrtF, not_lt.2 hv1, Except.ok.injEq] at hs
  simp only [CV.biasedStd, pyDiv, hN0.ne', if_false, ok_bind, pySqrt, not_lt.2 hv0, Except.ok.injEq] at ht
  have verr := R.err (c.meanSq / (c.num : ℝ))
  rw [abs_of_nonneg hv0] at verr
  subst hs ht
  generalize c.meanSq / (c.num : ℝ) = V at *
  generalize R.fl V = v at *
  obtain ⟨g, hg0, hg, hg1, hg4⟩ : ∃ g : ℝ, 0 < g ∧ g ^ 2 = absErr ∧ g ≤ 1 / 16 ∧ (2 : ℝ) ^ (-535 : ℤ) = 4 * g := by
    refine ⟨(2 : ℝ) ^ (-537 : ℤ), zpow_pos (by norm_num) _, ?_, ?_, ?_⟩
    · unfold absErr
      rw [← zpow_natCast, ← zpow_mul]
      norm_num
    · have : (2 : ℝ) ^ (-537 : ℤ) ≤ (2 : ℝ) ^ (-4 : ℤ) := zpow_le_zpow_right₀ (by norm_num) (by norm_num)
      exact this.trans (by norm_num)
    · rw [show (-535 : ℤ) = 2 + -537 by norm_num, zpow_add₀ (by norm_num)]
      norm_num
  have e50 : (2 : ℝ) ^ (-50 : ℤ) = 4 * relErr := by unfold relErr; norm_num
  rw [e50, hg4]
  clear e50 hg4
  rw [← hg] at verr
  have hsq := abs_sqrt_sub_sqrt hv1 hv0 hu.le (by linarith) hg0 verr
  have hb0 := Real.sqrt_nonneg V
  generalize Real.sqrt v = a at *
  generalize Real.sqrt V = b at *
  have hηg : absErr ≤ 1 / 16 * g := by
    have := mul_le_mul_of_nonneg_right hg1 hg0.le
    nlinarith
  have ug : relErr * g ≤ 1 / 1024 * g := mul_le_mul_of_nonneg_right hu1 hg0.le
  have ub : 0 ≤ relErr * b := by positivity
  have uub : relErr * (relErr * b) ≤ 1 / 1024 * (relErr * b) := mul_le_mul_of_nonneg_right hu1 ub
  refine (fl_near (R := R) hsq (abs_of_nonneg hb0).le).trans ?_
  linarith

theorem unbiasedStd_nonneg' {c : CV ℝ} {b : ℝ} (h : c.unbiasedStd = .ok b) : 0 ≤ b := by
  unfold CV.unbiasedStd at h
  split at h
  · cases h; exact le_rfl
  next h2 =>
    simp only [bind_ok] at h
    obtain ⟨v, _, r, hr, k, hk, h⟩ := h
    obtain ⟨k', hk', hk0, _⟩ := c4_ok (n := c.num) (by omega)
    obtain rfl : k = k' := by rw [hk] at hk'; exact Except.ok.inj hk'
    unfold pySqrt at hr
    split at hr
    · cases hr
    cases hr
    unfold pyDiv at h
    split at h
    · cases h
    cases h
    have : (0 : ℝ) < (k : ℝ) := by exact_mod_cast hk0
    exact div_nonneg (Real.sqrt_nonneg _) this.le

/-- **C93**, scaled deviation: dividing by a positive scale; a scale that is not positive counts as 1. -/
theorem C93_scaled_std_error {c : CV ℝ} (hbig : c.num ≤ 2 ^ 53) (hS : 0 ≤ c.meanSq) {scale s t : ℝ}
    (hs : CV.scaledUnbiasedStdF R.fl c scale = .ok s) (ht : c.scaledUnbiasedStd scale = .ok t) :
    |s - t| ≤ (2 : ℝ) ^ (-47 : ℤ) * t + (2 : ℝ) ^ (-533 : ℤ) / (if 0 < scale then scale else 1) +
      (2 : ℝ) ^ (-1074 : ℤ) := by
  have hu := relErr_pos
  have hu1 := relErr_small
  obtain ⟨k, hk, hk0⟩ : ∃ k, (if scale ≤ 0 then 1 else scale) = k ∧ 0 < k := by
    refine ⟨_, rfl, ?_⟩
    split <;> [exact one_pos; linarith]
  have hk' : (if 0 < scale then scale else 1) = k := by
    rw [← hk]
    by_cases h : scale ≤ 0
    · rw [if_pos h, if_neg (by linarith)]
    · rw [if_neg h, if_pos (by linarith)]
  rw [hk']
  simp only [CV.scaledUnbiasedStdF, hk, bind_ok] at hs
  simp only [CV.scaledUnbiasedStd, hk, bind_ok] at ht
  obtain ⟨a, ha, hs⟩ := hs
  obtain ⟨b, hb, ht⟩ := ht
  have e := C93_std_error hbig hS ha hb
  simp only [divF, hk0.ne', if_false, Except.ok.injEq] at hs
  simp only [pyDiv, hk0.ne', if_false, Except.ok.injEq] at ht
  subst hs ht
  have hb0 : 0 ≤ b := unbiasedStd_nonneg' hb
  have e47 : (2 : ℝ) ^ (-47 : ℤ) = 32 * relErr := by unfold relErr; norm_num
  have e48 : (2 : ℝ) ^ (-48 : ℤ) = 16 * relErr := by unfold relErr; norm_num
  have e1074 : (2 : ℝ) ^ (-1074 : ℤ) = absErr := rfl
  have e533 : (2 : ℝ) ^ (-533 : ℤ) = 2 * (2 : ℝ) ^ (-534 : ℤ) := by
    rw [show (-533 : ℤ) = 1 + -534 by norm_num, zpow_add₀ (by norm_num)]
    norm_num
  rw [e48] at e
  rw [e47, e1074, e533]
  have hg0 : (0 : ℝ) < (2 : ℝ) ^ (-534 : ℤ) := zpow_pos (by norm_num) _
  generalize (2 : ℝ) ^ (-534 : ℤ) = g at *
  clear e47 e48 e1074 e533
  have key : |a / k - b / k| ≤ 16 * (relErr * (b / k)) + g / k := by
    rw [← sub_div, abs_div, abs_of_pos hk0]
    refine (div_le_div_of_nonneg_right e hk0.le).trans (le_of_eq ?_)
    ring
  have hT0 : 0 ≤ b / k := by positivity
  have hG0 : 0 ≤ g / k := by positivity
  refine (fl_near (R := R) key (abs_of_nonneg hT0).le).trans ?_
  rw [mul_div_assoc]
  generalize b / k = T at *
  generalize g / k = G at *
  have uT : 0 ≤ relErr * T := by positivity
  have uuT : relErr * (relErr * T) ≤ 1 / 1024 * (relErr * T) := mul_le_mul_of_nonneg_right hu1 uT
  have uG : relErr * G ≤ 1 / 1024 * G := mul_le_mul_of_nonneg_right hu1 hG0
  linarith

/-- The values 0.5, 1, 1.5 (floats): no error at all, and far below the bounds. -/
example : |(CV.updateF ieee.fl ⟨2, 3 / 4, 1 / 8⟩ (3 / 2)).mean - 1| ≤ (2 : ℝ) ^ (-50 : ℤ) * (3 / 2) + 3 * (2 : ℝ) ^ (-1074 : ℤ) := by
  have := (C93_update_step (R := ieee) (c := ⟨2, 3 / 4, 1 / 8⟩) (by norm_num) (by norm_num)
    (.mk 3 (-2) (by norm_num) (by norm_num) (by norm_num)) (by norm_num)
    (x := 3 / 2) (.mk 3 (-1) (by norm_num) (by norm_num) (by norm_num)) (M := 3 / 2)
    (by norm_num [abs_of_pos]) (by norm_num [abs_of_pos])).2.1
  have e : (CV.update (⟨2, 3 / 4, 1 / 8⟩ : CV ℝ) (3 / 2)).mean = 1 := by norm_num [CV.update]
  rw [e] at this
  exact this

end CF
