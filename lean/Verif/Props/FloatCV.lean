/-
Properties C91 and C92: the accumulator of numeric values in floating point, for every rounding.
-/
import Verif.Proofs.Float
import Verif.Props.Continuous

namespace CF
variable {R : Rounding}

/-! ### C91 -/

theorem updateBatchF_append (c : CV ℝ) (xs : List ℝ) (x : ℝ) :
    CV.updateBatchF R.fl c (xs ++ [x]) = CV.updateF R.fl (CV.updateBatchF R.fl c xs) x := by
  induction xs generalizing c with
  | nil => rfl
  | cons y ys ih => exact ih _

theorem updateBatchF_num (c : CV ℝ) (xs : List ℝ) : (CV.updateBatchF R.fl c xs).num = c.num + xs.length := by
  induction xs generalizing c with
  | nil => rfl
  | cons y ys ih => rw [CV.updateBatchF, ih]; simp [CV.updateF]; omega

theorem batchF_sound {xs : List ℝ} (hf : ∀ x ∈ xs, IsFloat x) :
    (CV.updateBatchF R.fl CV.fresh xs).Sound ∧
      ((CV.updateBatchF R.fl CV.fresh xs).num = 0 → (CV.updateBatchF R.fl CV.fresh xs).mean = 0) := by
  induction xs using List.reverseRecOn with
  | nil => exact ⟨.fresh, fun _ => rfl⟩
  | append_singleton ys y ih =>
    obtain ⟨h1, h2⟩ := ih fun x hx => hf x (by simp [hx])
    rw [updateBatchF_append]
    exact ⟨h1.update h2 (hf y (by simp)), fun h => by simp [CV.updateF] at h⟩

/-- **C91**, the mean: however the operations are rounded, the mean of floats added one by one lies between
the smallest and the largest of them. -/
theorem C91_mean_between {xs : List ℝ} (hf : ∀ x ∈ xs, IsFloat x) (hne : xs ≠ []) {lo hi : ℝ}
    (hb : ∀ x ∈ xs, lo ≤ x ∧ x ≤ hi) :
    lo ≤ (CV.updateBatchF R.fl CV.fresh xs).mean ∧ (CV.updateBatchF R.fl CV.fresh xs).mean ≤ hi := by
  induction xs using List.reverseRecOn with
  | nil => exact absurd rfl hne
  | append_singleton ys y ih =>
    rw [updateBatchF_append]
    have hy := hb y (by simp)
    have hfy := hf y (by simp)
    obtain ⟨hs, h0⟩ := batchF_sound (R := R) (xs := ys) fun x hx => hf x (by simp [hx])
    rcases ys.eq_nil_or_concat' with rfl | ⟨zs, z, e⟩
    · rw [(updateF_first (R := R) (c := CV.updateBatchF R.fl CV.fresh []) rfl rfl hfy).1]; exact hy
    · have hne' : ys ≠ [] := by rw [e]; simp
      obtain ⟨h1, h2⟩ := ih (fun x hx => hf x (by simp [hx])) hne' fun x hx => hb x (by simp [hx])
      have hn : 1 ≤ (CV.updateBatchF R.fl CV.fresh ys).num := by
        rw [updateBatchF_num]
        have := List.length_pos_iff.2 hne'
        omega
      obtain ⟨hu, hd⟩ := updateF_between (R := R) hn hs.mean hfy
      rcases le_total (CV.updateBatchF R.fl CV.fresh ys).mean y with hle | hle
      · have := hu hle; constructor <;> linarith
      · have := hd hle; constructor <;> linarith

/-- The correction factors, rounded, are at least one half. -/
theorem c4_float {n : ℕ} (h : 2 ≤ n) : ∃ k, c4 (n : ℤ) = .ok k ∧ 1 / 2 ≤ R.fl (k : ℝ) := by
  have hh : IsFloat (1 / 2) := .mk 1 (-1) (by norm_num) (by norm_num) (by norm_num)
  have key : ∃ k : ℚ, c4 (n : ℤ) = .ok k ∧ 1 / 2 ≤ k := by
    by_cases h30 : n < 30
    · interval_cases n <;> exact ⟨_, rfl, by norm_num⟩
    · exact ⟨1, by simp [c4, show ¬ (n : ℤ) < 30 by omega, show ¬ (n : ℤ) ≤ 1 by omega], by norm_num⟩
  obtain ⟨k, h1, h2⟩ := key
  refine ⟨k, h1, R.le_fl hh ?_⟩
  have : ((1 / 2 : ℚ) : ℝ) ≤ (k : ℝ) := by exact_mod_cast h2
  simpa using this

/-- The standard deviations of a sound accumulator are defined and not negative. -/
theorem CV.Sound.std {c : CV ℝ} (h : c.Sound) :
    (∃ s, CV.unbiasedStdF R.fl c = .ok s ∧ 0 ≤ s ∧ IsFloat s) ∧
    (c.num ≠ 0 → ∃ s, CV.biasedStdF R.fl c = .ok s ∧ 0 ≤ s ∧ IsFloat s) := by
  constructor
  · unfold CV.unbiasedStdF
    split_ifs with hn
    · exact ⟨0, rfl, le_refl _, .zero⟩
    · have h2 : 2 ≤ c.num := by omega
      have hd : 1 ≤ R.fl (natF R.fl c.num - 1) := R.le_fl .one (by linarith [R.two_le_natF h2])
      obtain ⟨k, hk, hk2⟩ := c4_float (R := R) h2
      have hv : 0 ≤ R.fl (c.meanSq / R.fl (natF R.fl c.num - 1)) := R.fl_nonneg (div_nonneg h.nonneg (by linarith))
      refine ⟨R.fl (R.fl (Real.sqrt (R.fl (c.meanSq / R.fl (natF R.fl c.num - 1)))) / R.fl (k : ℝ)), ?_, ?_, R.float _⟩
      · simp [divF, sqrtF, hk, not_lt.2 hv, show R.fl (natF R.fl c.num - 1) ≠ 0 by linarith,
          show R.fl (k : ℝ) ≠ 0 by linarith, ok_bind]
      · exact R.fl_nonneg (div_nonneg (R.fl_nonneg (Real.sqrt_nonneg _)) (by linarith))
  · intro hn
    have hd : 1 ≤ natF R.fl c.num := R.one_le_natF (by omega)
    have hv : 0 ≤ R.fl (c.meanSq / natF R.fl c.num) := R.fl_nonneg (div_nonneg h.nonneg (by linarith))
    refine ⟨R.fl (Real.sqrt (R.fl (c.meanSq / natF R.fl c.num))), ?_, R.fl_nonneg (Real.sqrt_nonneg _), R.float _⟩
    simp [CV.biasedStdF, divF, sqrtF, not_lt.2 hv, show natF R.fl c.num ≠ 0 by linarith, ok_bind]

/-- No squared error, no deviation. -/
theorem unbiasedStdF_zero {c : CV ℝ} (h0 : c.meanSq = 0) : CV.unbiasedStdF R.fl c = .ok 0 := by
  unfold CV.unbiasedStdF
  split_ifs with hn
  · rfl
  · have h2 : 2 ≤ c.num := by omega
    have hd : 1 ≤ R.fl (natF R.fl c.num - 1) := R.le_fl .one (by linarith [R.two_le_natF h2])
    obtain ⟨k, hk, hk2⟩ := c4_float (R := R) h2
    simp [divF, sqrtF, hk, h0, R.fl_zero, show R.fl (natF R.fl c.num - 1) ≠ 0 by linarith,
      show R.fl (k : ℝ) ≠ 0 by linarith, ok_bind]

/-- **C91**, the deviation: the squared error never becomes negative by rounding, so that the standard
deviations never raise (the biased one needs a value). -/
theorem C91_std_defined {xs : List ℝ} (hf : ∀ x ∈ xs, IsFloat x) :
    0 ≤ (CV.updateBatchF R.fl CV.fresh xs).meanSq ∧
    (∃ s, CV.unbiasedStdF R.fl (CV.updateBatchF R.fl CV.fresh xs) = .ok s ∧ 0 ≤ s) ∧
    (xs ≠ [] → ∃ s, CV.biasedStdF R.fl (CV.updateBatchF R.fl CV.fresh xs) = .ok s ∧ 0 ≤ s) := by
  obtain ⟨hs, -⟩ := batchF_sound (R := R) hf
  obtain ⟨⟨s, h1, h2, -⟩, h3⟩ := hs.std (R := R)
  refine ⟨hs.nonneg, ⟨s, h1, h2⟩, fun hne => ?_⟩
  obtain ⟨s, h4, h5, -⟩ := h3 (by
    rw [updateBatchF_num]
    have := List.length_pos_iff.2 hne
    omega)
  exact ⟨s, h4, h5⟩

theorem batchF_constant_sq {v : ℝ} (hv : IsFloat v) (n : ℕ) :
    (CV.updateBatchF R.fl CV.fresh (List.replicate n v)).meanSq = 0 := by
  induction n with
  | zero => rfl
  | succ n ih =>
    obtain ⟨h3, h4⟩ := C91_mean_between (R := R) (xs := List.replicate (n + 1) v) (lo := v) (hi := v)
      (fun x hx => by rwa [List.eq_of_mem_replicate hx]) (by simp)
      (fun x hx => by rw [List.eq_of_mem_replicate hx]; simp)
    have hmean := le_antisymm h4 h3
    rw [List.replicate_succ', updateBatchF_append] at hmean ⊢
    generalize hc : CV.updateBatchF R.fl CV.fresh (List.replicate n v) = c at *
    simp only [CV.updateF] at hmean ⊢
    rw [hmean, ih]
    simp [R.fl_zero]

/-- **C91**, constant samples: a value added any number of times has exactly itself as mean, and deviation
exactly zero.  `is_exact_match` relies on it. -/
theorem C91_constant {v : ℝ} (hv : IsFloat v) {n : ℕ} (hn : n ≠ 0) :
    (CV.updateBatchF R.fl CV.fresh (List.replicate n v)).mean = v ∧
    CV.unbiasedStdF R.fl (CV.updateBatchF R.fl CV.fresh (List.replicate n v)) = .ok 0 ∧
    CV.biasedStdF R.fl (CV.updateBatchF R.fl CV.fresh (List.replicate n v)) = .ok 0 := by
  obtain ⟨h1, h2⟩ := C91_mean_between (R := R) (xs := List.replicate n v) (lo := v) (hi := v)
    (fun x hx => by rwa [List.eq_of_mem_replicate hx]) (by simpa using hn)
    (fun x hx => by rw [List.eq_of_mem_replicate hx]; simp)
  have hsq := batchF_constant_sq (R := R) hv
  have hnum : (CV.updateBatchF R.fl CV.fresh (List.replicate n v)).num = n := by
    rw [updateBatchF_num]; simp [CV.fresh]
  refine ⟨le_antisymm h2 h1, ?_, ?_⟩
  · exact unbiasedStdF_zero (hsq n)
  · have hd : 1 ≤ natF R.fl n := R.one_le_natF (by omega)
    simp [CV.biasedStdF, hsq, hnum, divF, sqrtF, R.fl_zero, show natF R.fl n ≠ 0 by linarith, ok_bind]

/-- **C91**, counts: counting in floating point is exact up to 2^53. -/
theorem C91_counts {n : ℕ} (h : n ≤ 2 ^ 53) :
    (fun c => R.fl (c + 1))^[n] 0 = (n : ℝ) := by
  induction n with
  | zero => simp
  | succ n ih =>
    rw [Function.iterate_succ_apply', ih (by omega)]
    have := R.fix (IsFloat.nat h)
    push_cast at this ⊢
    exact this

theorem divF_id : divF id = pyDiv (K := ℝ) := by
  funext a b
  unfold divF pyDiv
  split <;> rfl

theorem sqrtF_id : sqrtF id = pySqrt := by
  funext a
  unfold sqrtF pySqrt
  split <;> rfl

/-- **C91**, without rounding: the floating-point definitions are the exact ones with a rounding after each
operation. -/
theorem C91_unrounded (c d : CV ℝ) (x scale : ℝ) (xs : List ℝ) :
    CV.updateF id c x = c.update x ∧ CV.updateBatchF id c xs = c.updateBatch xs ∧ CV.combineF id c d = c.combine d ∧
    CV.biasedStdF id c = c.biasedStd ∧ CV.unbiasedStdF id c = c.unbiasedStd ∧
    CV.scaledBiasedStdF id c scale = c.scaledBiasedStd scale ∧
    CV.scaledUnbiasedStdF id c scale = c.scaledUnbiasedStd scale := by
  have hu : ∀ (c : CV ℝ) x, CV.updateF id c x = c.update x := fun c x => by
    simp [CV.updateF, CV.update, natF]
  have hb : CV.biasedStdF id c = c.biasedStd := by
    simp [CV.biasedStdF, CV.biasedStd, divF_id, sqrtF_id, natF]
  have hs : CV.unbiasedStdF id c = c.unbiasedStd := by
    simp [CV.unbiasedStdF, CV.unbiasedStd, divF_id, sqrtF_id, natF]
  refine ⟨hu c x, ?_, ?_, hb, hs, ?_, ?_⟩
  · clear hb hs
    induction xs generalizing c with
    | nil => rfl
    | cons y ys ih => rw [CV.updateBatchF, CV.updateBatch, hu, ih]
  · simp [CV.combineF, CV.combine, divF_id, natF]
  · simp [CV.scaledBiasedStdF, CV.scaledBiasedStd, hb, divF_id]
  · simp [CV.scaledUnbiasedStdF, CV.scaledUnbiasedStd, hs, divF_id]

/-- Three different floats under the rounding of Python. -/
example : ∃ xs : List ℝ, xs.length = 3 ∧ xs ≠ [] ∧ (∀ x ∈ xs, IsFloat x) ∧ ∀ x ∈ xs, -1 ≤ x ∧ x ≤ 3 / 4 := by
  refine ⟨[-1, 1 / 2, 3 / 4], rfl, by simp, ?_, ?_⟩
  · intro x hx
    simp only [List.mem_cons, List.not_mem_nil, or_false] at hx
    rcases hx with rfl | rfl | rfl
    · exact .mk (-1) 0 (by norm_num) (by norm_num) (by norm_num)
    · exact .mk 1 (-1) (by norm_num) (by norm_num) (by norm_num)
    · exact .mk 3 (-2) (by norm_num) (by norm_num) (by norm_num)
  · intro x hx
    simp only [List.mem_cons, List.not_mem_nil, or_false] at hx
    rcases hx with rfl | rfl | rfl <;> norm_num

/-! ### C92 -/

/-- **C92**: combining two accumulators that hold at least one value never raises; the counts add up and the
squared error is not negative, so the standard deviations of the result are defined. -/
theorem C92_combine_defined_partial {c d : CV ℝ} (hc : 0 ≤ c.meanSq) (hd : 0 ≤ d.meanSq) (hn : c.num + d.num ≠ 0) :
    ∃ r s, CV.combineF R.fl c d = .ok r ∧ r.num = c.num + d.num ∧ 0 ≤ r.meanSq ∧ IsFloat r.mean ∧
      CV.unbiasedStdF R.fl r = .ok s ∧ 0 ≤ s := by
  have hN : 1 ≤ R.fl (natF R.fl c.num + natF R.fl d.num) := by
    refine R.le_fl .one ?_
    have h1 := R.natF_nonneg c.num
    have h2 := R.natF_nonneg d.num
    rcases Nat.eq_zero_or_pos c.num with h | h
    · have := R.one_le_natF (n := d.num) (by omega); linarith
    · have := R.one_le_natF (n := c.num) h; linarith
  have hN0 : R.fl (natF R.fl c.num + natF R.fl d.num) ≠ 0 := by linarith
  let r : CV ℝ := ⟨c.num + d.num,
    R.fl (R.fl (R.fl (natF R.fl c.num * c.mean) + R.fl (natF R.fl d.num * d.mean)) / R.fl (natF R.fl c.num + natF R.fl d.num)),
    R.fl (R.fl (c.meanSq + d.meanSq) + R.fl (R.fl (R.fl (d.mean - c.mean) * R.fl (d.mean - c.mean)) *
      R.fl (R.fl (natF R.fl c.num * natF R.fl d.num) / R.fl (natF R.fl c.num + natF R.fl d.num))))⟩
  have hsq : 0 ≤ r.meanSq := by
    refine R.fl_nonneg (add_nonneg (R.fl_nonneg (add_nonneg hc hd)) (R.fl_nonneg (mul_nonneg
      (R.fl_nonneg (mul_self_nonneg _)) (R.fl_nonneg (div_nonneg (R.fl_nonneg (mul_nonneg (R.natF_nonneg _)
        (R.natF_nonneg _))) (by linarith))))))
  have hs : r.Sound := ⟨R.float _, R.float _, hsq⟩
  obtain ⟨⟨s, h1, h2, -⟩, -⟩ := hs.std (R := R)
  refine ⟨r, s, ?_, rfl, hsq, R.float _, h1, h2⟩
  simp [CV.combineF, divF, hN0, ok_bind, r]

/-- **C92**: how far the mean can be from the exact weighted mean of the two means. -/
theorem C92_combine_error_partial {c d : CV ℝ} (hn : c.num + d.num ≠ 0) (hbig : c.num + d.num ≤ 2 ^ 53) {M : ℝ}
    (hc : |c.mean| ≤ M) (hd : |d.mean| ≤ M) {r : CV ℝ} (h : CV.combineF R.fl c d = .ok r) :
    |r.mean - (c.num * c.mean + d.num * d.mean) / (c.num + d.num)| ≤
      (2 : ℝ) ^ (-50 : ℤ) * M + 5 * (2 : ℝ) ^ (-1074 : ℤ) := by
  have hu := relErr_pos
  have hη := absErr_pos
  have hu1 : relErr ≤ 1 / 8 := by unfold relErr; norm_num
  have e1 : (2 : ℝ) ^ (-50 : ℤ) = 4 * relErr := by unfold relErr; norm_num
  rw [e1]
  change _ ≤ _ + 5 * absErr
  have hM0 : 0 ≤ M := (abs_nonneg _).trans hc
  have f1 : natF R.fl c.num = c.num := R.natF_eq (by omega)
  have f2 : natF R.fl d.num = d.num := R.natF_eq (by omega)
  have f3 : R.fl ((c.num : ℝ) + (d.num : ℝ)) = (c.num : ℝ) + (d.num : ℝ) := by
    have := R.fix (IsFloat.nat hbig)
    push_cast at this
    exact this
  have hN1 : (1 : ℝ) ≤ (c.num : ℝ) + (d.num : ℝ) := by
    have : 1 ≤ c.num + d.num := by omega
    exact_mod_cast this
  have hr : r.mean = R.fl (R.fl (R.fl (c.num * c.mean) + R.fl (d.num * d.mean)) / (c.num + d.num)) := by
    simp only [CV.combineF, f1, f2, f3, divF, show (c.num : ℝ) + (d.num : ℝ) ≠ 0 by linarith, if_false, ok_bind,
      pure_ok] at h
    rw [← h]
  rw [hr]
  have hn1 : (0 : ℝ) ≤ c.num := by positivity
  have hn2 : (0 : ℝ) ≤ d.num := by positivity
  generalize (c.num : ℝ) = n1 at *
  generalize (d.num : ℝ) = n2 at *
  generalize c.mean = m1 at *
  generalize d.mean = m2 at *
  have a1 := R.err (n1 * m1)
  have a2 := R.err (n2 * m2)
  have a3 := R.err (R.fl (n1 * m1) + R.fl (n2 * m2))
  have a4 := R.err (R.fl (R.fl (n1 * m1) + R.fl (n2 * m2)) / (n1 + n2))
  generalize R.fl (R.fl (R.fl (n1 * m1) + R.fl (n2 * m2)) / (n1 + n2)) = q at *
  generalize R.fl (R.fl (n1 * m1) + R.fl (n2 * m2)) = s at *
  generalize R.fl (n1 * m1) = a at *
  generalize R.fl (n2 * m2) = b at *
  have hNpos : 0 < n1 + n2 := by linarith
  have c1 : |n1 * m1| ≤ n1 * M := by rw [abs_mul, abs_of_nonneg hn1]; exact mul_le_mul_of_nonneg_left hc hn1
  have c2 : |n2 * m2| ≤ n2 * M := by rw [abs_mul, abs_of_nonneg hn2]; exact mul_le_mul_of_nonneg_left hd hn2
  have d1 := mul_le_mul_of_nonneg_left c1 hu.le
  have d2 := mul_le_mul_of_nonneg_left c2 hu.le
  -- the sum of the two products
  have hab : |a + b - (n1 * m1 + n2 * m2)| ≤ relErr * ((n1 + n2) * M) + 2 * absErr := by
    have := abs_add_le (a - n1 * m1) (b - n2 * m2)
    rw [show a - n1 * m1 + (b - n2 * m2) = a + b - (n1 * m1 + n2 * m2) by ring] at this
    nlinarith
  have hsum : |n1 * m1 + n2 * m2| ≤ (n1 + n2) * M := by
    have := abs_add_le (n1 * m1) (n2 * m2)
    nlinarith
  have hab2 : |a + b| ≤ (n1 + n2) * M + (relErr * ((n1 + n2) * M) + 2 * absErr) := by
    have := abs_add_le (a + b - (n1 * m1 + n2 * m2)) (n1 * m1 + n2 * m2)
    rw [sub_add_cancel] at this
    linarith
  generalize hW : (n1 + n2) * M = W at *
  have hW0 : 0 ≤ W := by rw [← hW]; positivity
  have d3 := mul_le_mul_of_nonneg_left hab2 hu.le
  have g1 : relErr * (relErr * W) ≤ 1 / 8 * (relErr * W) := mul_le_mul_of_nonneg_right hu1 (by positivity)
  have g2 : relErr * absErr ≤ 1 / 8 * absErr := mul_le_mul_of_nonneg_right hu1 hη.le
  have g3 : 0 ≤ relErr * W := by positivity
  have hs : |s - (n1 * m1 + n2 * m2)| ≤ 5 / 2 * (relErr * W) + 7 / 2 * absErr := by
    have := abs_add_le (s - (a + b)) (a + b - (n1 * m1 + n2 * m2))
    rw [sub_add_sub_cancel] at this
    nlinarith
  have hs2 : |s| ≤ W + (5 / 2 * (relErr * W) + 7 / 2 * absErr) := by
    have := abs_add_le (s - (n1 * m1 + n2 * m2)) (n1 * m1 + n2 * m2)
    rw [sub_add_cancel] at this
    linarith
  have d4 := mul_le_mul_of_nonneg_left hs2 hu.le
  -- divide by the total
  have tri := abs_add_le (q - s / (n1 + n2)) (s / (n1 + n2) - (n1 * m1 + n2 * m2) / (n1 + n2))
  rw [sub_add_sub_cancel] at tri
  refine tri.trans ?_
  rw [abs_div, abs_of_pos hNpos] at a4
  rw [← sub_div, abs_div, abs_of_pos hNpos]
  have hfin : relErr * (|s| / (n1 + n2)) + |s - (n1 * m1 + n2 * m2)| / (n1 + n2) ≤ 4 * relErr * M + 4 * absErr := by
    rw [← mul_div_assoc, ← add_div, div_le_iff₀ hNpos]
    have hη2 : absErr ≤ absErr * (n1 + n2) := by nlinarith
    have : (4 * relErr * M + 4 * absErr) * (n1 + n2) = 4 * (relErr * W) + 4 * (absErr * (n1 + n2)) := by
      rw [← hW]; ring
    rw [this]
    nlinarith
  linarith

/-- Combining a half and three quarters under the rounding of Python. -/
example : ∃ r s, CV.combineF ieee.fl ⟨1, 1 / 2, 0⟩ ⟨2, 3 / 4, 1 / 8⟩ = .ok r ∧ r.num = 3 ∧ CV.unbiasedStdF ieee.fl r = .ok s ∧
    |r.mean - 2 / 3| ≤ (2 : ℝ) ^ (-50 : ℤ) * 1 + 5 * (2 : ℝ) ^ (-1074 : ℤ) := by
  obtain ⟨r, s, h1, h2, -, -, h3, -⟩ := C92_combine_defined_partial (R := ieee) (c := ⟨1, 1 / 2, 0⟩) (d := ⟨2, 3 / 4, 1 / 8⟩)
    le_rfl (by norm_num) (by norm_num)
  refine ⟨r, s, h1, h2, h3, ?_⟩
  have := C92_combine_error_partial (M := 1) (by norm_num) (by norm_num) (by norm_num [abs_of_pos])
    (by norm_num [abs_of_pos]) h1
  norm_num at this ⊢
  exact this

/-- Numbers below half the smallest float become zero. -/
theorem ieee_tiny {y : ℝ} (h0 : 0 ≤ y) (h : y < (2 : ℝ) ^ (-1075 : ℤ)) : ieee.fl y = 0 := by
  rcases h0.eq_or_lt with rfl | h0
  · exact ieee.fl_zero
  have hp := two_zpow_pos' (-1074)
  have e : (2 : ℝ) ^ (-1075 : ℤ) = 1 / 2 * (2 : ℝ) ^ (-1074 : ℤ) := by
    rw [show (-1075 : ℤ) = -1 + -1074 by norm_num, zpow_add₀ (by norm_num)]; norm_num
  have := ieee_eq (y := y) 0 (-1074) h0.ne' (le_refl _)
    (by rw [abs_of_pos h0]; exact h.trans (zpow_lt_zpow_right₀ (by norm_num) (by norm_num)))
    (Or.inl rfl) (by push_cast; nlinarith) (by push_cast; rw [e] at h; linarith)
  simpa using this

/-- The float that Python reads for `0.1`. -/
noncomputable def tenth : ℝ := 3602879701896397 / 2 ^ 55

/-- **C92**, a counterexample to more: the constant sample 0.1, 0.1, 0.1 combined with an empty accumulator
(as `update_counts_from_node` does when a node is copied) has a mean above 0.1, and after one more 0.1 its
standard deviation is positive. -/
theorem C92_copy_inexact : ∃ d s, CV.combineF ieee.fl CV.fresh (CV.updateBatchF ieee.fl CV.fresh [tenth, tenth, tenth]) = .ok d ∧
    tenth < d.mean ∧ CV.unbiasedStdF ieee.fl (CV.updateF ieee.fl d tenth) = .ok s ∧ 0 < s := by
  have hv : IsFloat tenth := .mk 3602879701896397 (-55) (by norm_num) (by norm_num) (by unfold tenth; norm_num)
  have hmean := (C91_constant (R := ieee) hv (n := 3) (by norm_num)).1
  have hsq := batchF_constant_sq (R := ieee) hv 3
  have hnum : (CV.updateBatchF ieee.fl CV.fresh (List.replicate 3 tenth)).num = 3 := by
    rw [updateBatchF_num]; simp [CV.fresh]
  have hl : List.replicate 3 tenth = [tenth, tenth, tenth] := rfl
  rw [hl] at hmean hsq hnum
  have hc : CV.updateBatchF ieee.fl CV.fresh [tenth, tenth, tenth] = ⟨3, tenth, 0⟩ := by
    generalize CV.updateBatchF ieee.fl CV.fresh [tenth, tenth, tenth] = c at *
    cases c; simp_all
  have n0 : natF ieee.fl 0 = 0 := by simpa using ieee.natF_eq (n := 0) (by norm_num)
  have n3 : natF ieee.fl 3 = 3 := by simpa using ieee.natF_eq (n := 3) (by norm_num)
  have n4 : natF ieee.fl 4 = 4 := by simpa using ieee.natF_eq (n := 4) (by norm_num)
  have f3 : ieee.fl 3 = 3 := by simpa [natF] using n3
  -- 3 * 0.1 is halfway between two floats
  have g1 : ieee.fl (3 * tenth) = 5404319552844596 / 2 ^ 54 := by
    rw [ieee_tie (y := 3 * tenth) 5404319552844595 (-54)]
    · norm_num
    · unfold tenth; norm_num
    · norm_num
    · rw [abs_of_pos (by unfold tenth; norm_num)]; unfold tenth; norm_num
    · right; rw [abs_of_pos (by unfold tenth; norm_num)]; unfold tenth; norm_num
    · decide
    · unfold tenth; norm_num
  have g1' : ieee.fl (5404319552844596 / 2 ^ 54) = 5404319552844596 / 2 ^ 54 :=
    ieee.fix (.mk 5404319552844596 (-54) (by norm_num) (by norm_num) (by norm_num))
  have g2 : ieee.fl (5404319552844596 / 2 ^ 54 / 3) = 7205759403792795 / 2 ^ 56 := by
    rw [ieee_eq (y := 5404319552844596 / 2 ^ 54 / 3) 7205759403792795 (-56)]
    · norm_num
    · norm_num
    · norm_num
    · rw [abs_of_pos (by norm_num)]; norm_num
    · right; rw [abs_of_pos (by norm_num)]; norm_num
    · norm_num
    · norm_num
  have hd : CV.combineF ieee.fl CV.fresh ⟨3, tenth, 0⟩ = .ok ⟨3, 7205759403792795 / 2 ^ 56, 0⟩ := by
    have z : ∀ x : ℝ, x * 0 = 0 := mul_zero
    simp only [CV.combineF, CV.fresh, n0, n3, divF, zero_mul, z, ieee.fl_zero, zero_add, f3,
      show (3 : ℝ) ≠ 0 by norm_num, if_false, ok_bind, zero_div, add_zero, g1, g1', g2]
    rfl
  have k1 : ieee.fl (tenth - 7205759403792795 / 2 ^ 56) = -1 / 2 ^ 56 := by
    rw [show tenth - 7205759403792795 / 2 ^ 56 = -1 / 2 ^ 56 by unfold tenth; norm_num]
    exact ieee.fix (.mk (-1) (-56) (by norm_num) (by norm_num) (by norm_num))
  have k2 : ieee.fl (-1 / 2 ^ 56 / 4) = -1 / 2 ^ 58 := by
    rw [show (-1 / 2 ^ 56 / 4 : ℝ) = -1 / 2 ^ 58 by norm_num]
    exact ieee.fix (.mk (-1) (-58) (by norm_num) (by norm_num) (by norm_num))
  have k3 : ieee.fl (7205759403792795 / 2 ^ 56 + -1 / 2 ^ 58) = 7205759403792795 / 2 ^ 56 := by
    rw [ieee_eq (y := 7205759403792795 / 2 ^ 56 + -1 / 2 ^ 58) 7205759403792795 (-56)]
    · norm_num
    · norm_num
    · norm_num
    · rw [abs_of_pos (by norm_num)]; norm_num
    · right; rw [abs_of_pos (by norm_num)]; norm_num
    · norm_num
    · norm_num
  have k4 : ieee.fl (1 / 2 ^ 112) = 1 / 2 ^ 112 :=
    ieee.fix (.mk 1 (-112) (by norm_num) (by norm_num) (by norm_num))
  have hu : CV.updateF ieee.fl ⟨3, 7205759403792795 / 2 ^ 56, 0⟩ tenth = ⟨4, 7205759403792795 / 2 ^ 56, 1 / 2 ^ 112⟩ := by
    simp only [CV.updateF, show 3 + 1 = 4 from rfl, n4, k1, k2, k3,
      show (-1 / 2 ^ 56 * (-1 / 2 ^ 56) : ℝ) = 1 / 2 ^ 112 by norm_num, k4, zero_add]
  have l1 : (1 / 2 ^ 114 : ℝ) ≤ ieee.fl (1 / 2 ^ 112 / ieee.fl (4 - 1)) := by
    rw [show (4 - 1 : ℝ) = 3 by norm_num, f3]
    exact ieee.le_fl (.mk 1 (-114) (by norm_num) (by norm_num) (by norm_num)) (by norm_num)
  have hroot : Real.sqrt (1 / 2 ^ 114) = 1 / 2 ^ 57 := by
    rw [show (1 / 2 ^ 114 : ℝ) = (1 / 2 ^ 57) ^ 2 by norm_num, Real.sqrt_sq (by norm_num)]
  have l2 : (1 / 2 ^ 57 : ℝ) ≤ ieee.fl (Real.sqrt (ieee.fl (1 / 2 ^ 112 / ieee.fl (4 - 1)))) := by
    refine ieee.le_fl (.mk 1 (-57) (by norm_num) (by norm_num) (by norm_num)) ?_
    rw [← hroot]
    exact Real.sqrt_le_sqrt l1
  have hk1 : (1 / 2 : ℝ) ≤ ieee.fl ((0.9213177319235613 : ℚ) : ℝ) :=
    ieee.le_fl (.mk 1 (-1) (by norm_num) (by norm_num) (by norm_num)) (by norm_num)
  have hk2 : ieee.fl ((0.9213177319235613 : ℚ) : ℝ) ≤ 1 := ieee.fl_le .one (by norm_num)
  refine ⟨_, ieee.fl (ieee.fl (Real.sqrt (ieee.fl (1 / 2 ^ 112 / ieee.fl (4 - 1)))) /
    ieee.fl ((0.9213177319235613 : ℚ) : ℝ)), by rw [hc]; exact hd, by unfold tenth; norm_num, ?_, ?_⟩
  · rw [hu]
    have h3 : ieee.fl (4 - 1) ≠ 0 := by rw [show (4 - 1 : ℝ) = 3 by norm_num, f3]; norm_num
    have hc4 : c4 ((4 : ℕ) : ℤ) = .ok 0.9213177319235613 := rfl
    simp only [CV.unbiasedStdF, show ¬ 4 < 2 by norm_num, if_false, n4, divF, h3, ok_bind, sqrtF,
      show ¬ ieee.fl (1 / 2 ^ 112 / ieee.fl (4 - 1)) < 0 by linarith [show (0 : ℝ) < 1 / 2 ^ 114 by norm_num], hc4,
      show ieee.fl ((0.9213177319235613 : ℚ) : ℝ) ≠ 0 by linarith]
  · refine lt_of_lt_of_le (show (0 : ℝ) < 1 / 2 ^ 57 by norm_num) ?_
    refine ieee.le_fl (.mk 1 (-57) (by norm_num) (by norm_num) (by norm_num)) (l2.trans ?_)
    rw [le_div_iff₀ (by linarith)]
    have := mul_le_mul_of_nonneg_left hk2 (le_trans (show (0 : ℝ) ≤ 1 / 2 ^ 57 by norm_num) l2)
    linarith

/-- **C92**: different values can have deviation zero, by underflow. -/
theorem C92_underflow : ∃ x y : ℝ, IsFloat x ∧ IsFloat y ∧ x ≠ y ∧
    CV.unbiasedStdF ieee.fl (CV.updateBatchF ieee.fl CV.fresh [x, y]) = .ok 0 := by
  have hx : IsFloat ((2 : ℝ) ^ (-600 : ℤ)) := .mk 1 (-600) (by norm_num) (by norm_num) (by norm_num)
  have hy : IsFloat ((2 : ℝ) ^ (-599 : ℤ)) := .mk 1 (-599) (by norm_num) (by norm_num) (by norm_num)
  refine ⟨_, _, hx, hy, ?_, unbiasedStdF_zero ?_⟩
  · exact fun h => by
      have := zpow_right_injective₀ (by norm_num : (0 : ℝ) < 2) (by norm_num) h
      omega
  · have h1 := updateF_first (R := ieee) (c := CV.fresh) rfl rfl hx
    rw [show (CV.fresh : CV ℝ).meanSq = 0 from rfl, ieee.fl_zero] at h1
    simp only [CV.updateBatchF]
    generalize hc : CV.updateF ieee.fl CV.fresh ((2 : ℝ) ^ (-600 : ℤ)) = c at *
    have hn : 1 ≤ c.num := by rw [← hc]; simp [CV.updateF]
    have hxy : (2 : ℝ) ^ (-599 : ℤ) = 2 * (2 : ℝ) ^ (-600 : ℤ) := by
      rw [show (-599 : ℤ) = 1 + -600 by norm_num, zpow_add₀ (by norm_num)]; norm_num
    have hp := two_zpow_pos' (-600)
    obtain ⟨hu, -⟩ := updateF_between (R := ieee) hn (by rw [h1.1]; exact hx) hy
    obtain ⟨b1, b2⟩ := hu (by rw [h1.1, hxy]; linarith)
    have hdelta : ieee.fl ((2 : ℝ) ^ (-599 : ℤ) - c.mean) = (2 : ℝ) ^ (-600 : ℤ) := by
      rw [h1.1, hxy, show 2 * (2 : ℝ) ^ (-600 : ℤ) - (2 : ℝ) ^ (-600 : ℤ) = (2 : ℝ) ^ (-600 : ℤ) by ring]
      exact ieee.fix hx
    have hlast : 0 ≤ ieee.fl ((2 : ℝ) ^ (-599 : ℤ) - (CV.updateF ieee.fl c ((2 : ℝ) ^ (-599 : ℤ))).mean) ∧
        ieee.fl ((2 : ℝ) ^ (-599 : ℤ) - (CV.updateF ieee.fl c ((2 : ℝ) ^ (-599 : ℤ))).mean) ≤ (2 : ℝ) ^ (-600 : ℤ) := by
      refine ⟨ieee.fl_nonneg (by linarith), ieee.fl_le hx ?_⟩
      rw [h1.1] at b1
      linarith
    have : (CV.updateF ieee.fl c ((2 : ℝ) ^ (-599 : ℤ))).meanSq = ieee.fl (c.meanSq + ieee.fl (ieee.fl ((2 : ℝ) ^ (-599 : ℤ) - c.mean) *
        ieee.fl ((2 : ℝ) ^ (-599 : ℤ) - (CV.updateF ieee.fl c ((2 : ℝ) ^ (-599 : ℤ))).mean))) := rfl
    rw [this, hdelta, h1.2, ieee_tiny (mul_nonneg hp.le hlast.1), zero_add, ieee.fl_zero]
    refine lt_of_le_of_lt (mul_le_mul_of_nonneg_left hlast.2 hp.le) ?_
    rw [← zpow_add₀ (by norm_num)]
    exact zpow_lt_zpow_right₀ (by norm_num) (by norm_num)

/-! ### C93 -/

/-- The rounding error of one step of the mean. -/
theorem step_error {c : CV ℝ} (h1 : 1 ≤ c.num) (hbig : c.num + 1 ≤ 2 ^ 53) (hm : IsFloat c.mean) {x : ℝ}
    (hx : IsFloat x) {M : ℝ} (hmM : |c.mean| ≤ M) (hxM : |x| ≤ M) :
    |(CV.updateF R.fl c x).mean - (c.mean + (x - c.mean) / (c.num + 1))| ≤ 4 * relErr * M + 3 * absErr := by
  have hu := relErr_pos
  have hη := absErr_pos
  have hu1 : relErr ≤ 1 / 4 := by unfold relErr; norm_num
  have hM0 : 0 ≤ M := (abs_nonneg x).trans hxM
  have hN : natF R.fl (c.num + 1) = (c.num : ℝ) + 1 := by rw [R.natF_eq hbig]; push_cast; rfl
  have hN2 : (2 : ℝ) ≤ (c.num : ℝ) + 1 := by
    have : (1 : ℝ) ≤ c.num := by exact_mod_cast h1
    linarith
  simp only [CV.updateF, hN]
  generalize hNdef : (c.num : ℝ) + 1 = N at *
  have hxm : |x - c.mean| ≤ 2 * M := by
    have := abs_sub x c.mean
    linarith
  have a1 := R.err (x - c.mean)
  have a2 := R.err (R.fl (x - c.mean) / N)
  have a3 := R.err (c.mean + R.fl (R.fl (x - c.mean) / N))
  have hmid : |c.mean + R.fl (R.fl (x - c.mean) / N)| ≤ M := by
    rw [abs_le] at hmM hxM ⊢
    rcases le_total c.mean x with h | h
    · have := R.step_up hx hm hN2 h
      constructor <;> linarith
    · have := R.step_down hx hm hN2 h
      constructor <;> linarith
  generalize R.fl (c.mean + R.fl (R.fl (x - c.mean) / N)) = m' at *
  generalize R.fl (R.fl (x - c.mean) / N) = q at *
  generalize R.fl (x - c.mean) = d at *
  have hd : |d| ≤ 2 * M + (relErr * (2 * M) + absErr) := by
    have h1 : |d| ≤ |d - (x - c.mean)| + |x - c.mean| := by
      have := abs_add_le (d - (x - c.mean)) (x - c.mean)
      simpa using this
    have h2 := mul_le_mul_of_nonneg_left hxm hu.le
    linarith
  have hNpos : 0 < N := by linarith
  have b1 : |d / N - (x - c.mean) / N| ≤ (relErr * (2 * M) + absErr) / 2 := by
    rw [← sub_div, abs_div, abs_of_pos hNpos]
    have h2 := mul_le_mul_of_nonneg_left hxm hu.le
    exact div_le_div₀ (by positivity) (by linarith) (by norm_num) hN2
  have b2 : |d / N| ≤ (2 * M + (relErr * (2 * M) + absErr)) / 2 := by
    rw [abs_div, abs_of_pos hNpos]
    exact div_le_div₀ (by positivity) hd (by norm_num) hN2
  have b3 := mul_le_mul_of_nonneg_left b2 hu.le
  have b4 := mul_le_mul_of_nonneg_left hmid hu.le
  have b5 : relErr * (relErr * M) ≤ 1 / 4 * (relErr * M) := mul_le_mul_of_nonneg_right hu1 (by positivity)
  have b6 : relErr * absErr ≤ 1 / 4 * absErr := mul_le_mul_of_nonneg_right hu1 hη.le
  have tri : |m' - (c.mean + (x - c.mean) / N)| ≤
      |m' - (c.mean + q)| + |q - d / N| + |d / N - (x - c.mean) / N| := by
    have := abs_add_le (m' - (c.mean + q) + (q - d / N)) (d / N - (x - c.mean) / N)
    have h2 := abs_add_le (m' - (c.mean + q)) (q - d / N)
    rw [show m' - (c.mean + q) + (q - d / N) + (d / N - (x - c.mean) / N) =
      m' - (c.mean + (x - c.mean) / N) by ring] at this
    linarith
  have b7 : 0 ≤ relErr * M := by positivity
  nlinarith

/-- **C93**: the rounding error of the incremental mean. -/
theorem C93_mean_error {xs : List ℝ} (hf : ∀ x ∈ xs, IsFloat x) (hne : xs ≠ []) (hbig : xs.length ≤ 2 ^ 53)
    {M : ℝ} (hM : ∀ x ∈ xs, |x| ≤ M) :
    |(CV.updateBatchF R.fl CV.fresh xs).mean - xs.sum / xs.length| ≤
      (xs.length + 1) * ((2 : ℝ) ^ (-51 : ℤ) * M + 2 * (2 : ℝ) ^ (-1074 : ℤ)) := by
  have hu := relErr_pos
  have hη := absErr_pos
  have hM0 : 0 ≤ M := by
    obtain ⟨x, hx⟩ := List.exists_mem_of_ne_nil _ hne
    exact (abs_nonneg x).trans (hM x hx)
  have e1 : (2 : ℝ) ^ (-51 : ℤ) = 2 * relErr := by unfold relErr; norm_num
  rw [e1]
  change _ ≤ _ * (2 * relErr * M + 2 * absErr)
  have key : xs.length * |(CV.updateBatchF R.fl CV.fresh xs).mean - xs.sum / xs.length| ≤
      (4 * relErr * M + 3 * absErr) * (xs.length * (xs.length + 1) / 2) := by
    clear e1
    induction xs using List.reverseRecOn with
    | nil => exact absurd rfl hne
    | append_singleton ys y ih =>
      have hy := hM y (by simp)
      have hfy := hf y (by simp)
      obtain ⟨hs, h0⟩ := batchF_sound (R := R) (xs := ys) fun x hx => hf x (by simp [hx])
      rw [updateBatchF_append]
      rcases Nat.eq_zero_or_pos ys.length with hz | hz
      · obtain rfl := List.length_eq_zero_iff.1 hz
        rw [(updateF_first (R := R) (c := CV.updateBatchF R.fl CV.fresh []) rfl rfl hfy).1]
        simp
        positivity
      · have hne' : ys ≠ [] := List.length_pos_iff.1 hz
        have hbig' : ys.length ≤ 2 ^ 53 := by simp at hbig; omega
        have ih := ih (fun x hx => hf x (by simp [hx])) hne' hbig' fun x hx => hM x (by simp [hx])
        obtain ⟨b1, b2⟩ := C91_mean_between (R := R) (lo := -M) (hi := M) (fun x hx => hf x (by simp [hx])) hne'
          fun x hx => abs_le.1 (hM x (by simp [hx]))
        have hnum : (CV.updateBatchF R.fl CV.fresh ys).num = ys.length := by rw [updateBatchF_num]; simp [CV.fresh]
        generalize CV.updateBatchF R.fl CV.fresh ys = c at *
        have hloc := step_error (R := R) (c := c) (by omega) (by rw [hnum]; simpa using hbig) hs.mean hfy
          (abs_le.2 ⟨b1, b2⟩) hy
        rw [hnum] at hloc
        generalize (CV.updateF R.fl c y).mean = m' at *
        have hn : (0 : ℝ) < ys.length := by exact_mod_cast hz
        simp only [List.length_append, List.length_cons, List.length_nil, List.sum_append, List.sum_cons, List.sum_nil,
          add_zero, zero_add, Nat.cast_add, Nat.cast_one]
        generalize (ys.length : ℝ) = n at *
        generalize ys.sum = S at *
        have hn1 : (0 : ℝ) < n + 1 := by linarith
        have i1 : (n + 1) * |m' - (S + y) / (n + 1)| = |(n + 1) * (m' - (c.mean + (y - c.mean) / (n + 1))) + (n * c.mean - S)| := by
          conv_lhs => rw [← abs_of_pos hn1, ← abs_mul, abs_of_pos hn1]
          congr 1
          field_simp
          ring
        have i2 : n * |c.mean - S / n| = |n * c.mean - S| := by
          conv_lhs => rw [← abs_of_pos hn, ← abs_mul, abs_of_pos hn]
          congr 1
          field_simp
        rw [i2] at ih
        rw [i1]
        refine (abs_add_le _ _).trans ?_
        rw [abs_mul, abs_of_pos hn1]
        have i3 := mul_le_mul_of_nonneg_left hloc hn1.le
        nlinarith
  have hn : (0 : ℝ) < xs.length := by exact_mod_cast List.length_pos_iff.2 hne
  have : xs.length * |(CV.updateBatchF R.fl CV.fresh xs).mean - xs.sum / xs.length| ≤
      xs.length * ((xs.length + 1) * (2 * relErr * M + 2 * absErr)) := by
    refine key.trans ?_
    have := mul_nonneg (mul_nonneg hn.le (by linarith : (0 : ℝ) ≤ xs.length + 1)) hη.le
    nlinarith
  exact le_of_mul_le_mul_left this hn

/-- Three different floats. -/
example : |(CV.updateBatchF ieee.fl CV.fresh [-1, 1 / 2, 3 / 4]).mean - 1 / 12| ≤
    4 * ((2 : ℝ) ^ (-51 : ℤ) * 1 + 2 * (2 : ℝ) ^ (-1074 : ℤ)) := by
  have := C93_mean_error (R := ieee) (xs := [-1, 1 / 2, 3 / 4]) (M := 1) (fun x hx => by
    simp only [List.mem_cons, List.not_mem_nil, or_false] at hx
    rcases hx with rfl | rfl | rfl
    · exact .mk (-1) 0 (by norm_num) (by norm_num) (by norm_num)
    · exact .mk 1 (-1) (by norm_num) (by norm_num) (by norm_num)
    · exact .mk 3 (-2) (by norm_num) (by norm_num) (by norm_num)) (by simp) (by simp) (fun x hx => by
    simp only [List.mem_cons, List.not_mem_nil, or_false] at hx
    rcases hx with rfl | rfl | rfl <;> norm_num [abs_of_pos])
  norm_num at this ⊢
  exact this

end CF
