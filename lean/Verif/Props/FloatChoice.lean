/-
Property C100: `weighted_choice` in floating point.
-/
import Verif.Model.FloatPredict
import Verif.Props.FloatCV

namespace CF
variable {R : Rounding} {α : Type}

/-- The weights of some options. -/
def weightsOf (l : List (α × ℝ)) : List ℝ := l.map Prod.snd

theorem sumF_append (ws vs : List ℝ) :
    sumF R.fl (ws ++ vs) = vs.foldl (fun acc w => R.fl (acc + w)) (sumF R.fl ws) := by
  simp [sumF, List.foldl_append]

theorem sumF_snoc (ws : List ℝ) (w : ℝ) : sumF R.fl (ws ++ [w]) = R.fl (sumF R.fl ws + w) := by
  rw [sumF_append]; rfl

theorem sumF_float (ws : List ℝ) : IsFloat (sumF R.fl ws) := by
  induction ws using List.reverseRecOn with
  | nil => exact .zero
  | append_singleton ws w _ => rw [sumF_snoc]; exact R.float _

/-- A prefix of nonnegative weights does not have a larger sum. -/
theorem sumF_le (ws vs : List ℝ) (h : ∀ v ∈ vs, 0 ≤ v) : sumF R.fl ws ≤ sumF R.fl (ws ++ vs) := by
  induction vs using List.reverseRecOn with
  | nil => simp
  | append_singleton vs v ih =>
    rw [← List.append_assoc, sumF_snoc]
    have h1 := ih fun v hv => h v (by simp [hv])
    have h2 := h v (by simp)
    exact h1.trans (R.le_fl (sumF_float _) (by linarith))

/-- Every weight is at most the sum. -/
theorem le_sumF (ws : List ℝ) (h : ∀ v ∈ ws, 0 ≤ v) {w : ℝ} (hw : w ∈ ws) (hf : IsFloat w) : w ≤ sumF R.fl ws := by
  obtain ⟨pre, post, rfl⟩ := List.append_of_mem hw
  have h1 : w ≤ sumF R.fl (pre ++ [w]) := by
    rw [sumF_snoc]
    refine R.le_fl hf ?_
    have : sumF R.fl [] ≤ sumF R.fl ([] ++ pre) := sumF_le [] pre fun v hv => h v (by simp [hv])
    simp only [sumF, List.foldl_nil, List.nil_append] at this ⊢
    linarith
  refine h1.trans ?_
  have := sumF_le (R := R) (pre ++ [w]) post fun v hv => h v (by simp [hv])
  simpa using this

/-- The loop from the option after `pre` on: it stops at the first option at which the running sum exceeds the number
drawn. -/
theorem weightedLoopF_stops {r : ℝ} (pre l : List (α × ℝ)) (h : ∀ p ∈ l, 0 ≤ p.2)
    (hlo : sumF R.fl (weightsOf pre) ≤ r) (hhi : r < sumF R.fl (weightsOf (pre ++ l))) :
    ∃ mid c w post, l = mid ++ (c, w) :: post ∧ weightedLoopF R.fl r l (sumF R.fl (weightsOf pre)) = .ok c ∧
      sumF R.fl (weightsOf (pre ++ mid)) ≤ r ∧ r < sumF R.fl (weightsOf (pre ++ mid ++ [(c, w)])) := by
  induction l generalizing pre with
  | nil => simp at hhi; linarith
  | cons p l ih =>
    obtain ⟨c, w⟩ := p
    have hw : ¬ w < 0 := not_lt.2 (h (c, w) (by simp))
    have e : R.fl (sumF R.fl (weightsOf pre) + w) = sumF R.fl (weightsOf (pre ++ [(c, w)])) := by
      simp [weightsOf, sumF_snoc]
    by_cases hs : R.fl (sumF R.fl (weightsOf pre) + w) > r
    · refine ⟨[], c, w, l, rfl, ?_, by simpa using hlo, by simpa [← e] using hs⟩
      simp only [weightedLoopF, if_neg hw, if_pos hs]
    · obtain ⟨mid, d, v, post, e1, e2, e3, e4⟩ := ih (pre ++ [(c, w)]) (fun p hp => h p (by simp [hp]))
        (by rw [← e]; exact not_lt.1 hs) (by simpa using hhi)
      refine ⟨(c, w) :: mid, d, v, post, by rw [e1]; rfl, ?_, by simpa using e3, by simpa using e4⟩
      simp only [weightedLoopF, if_neg hw, if_neg hs]
      rw [e, e2]

theorem weightedLoopF_raises {r : ℝ} (pre l : List (α × ℝ)) (h : ∀ p ∈ l, 0 ≤ p.2)
    (hr : sumF R.fl (weightsOf (pre ++ l)) ≤ r) :
    weightedLoopF R.fl r l (sumF R.fl (weightsOf pre)) = .error .valueErr := by
  induction l generalizing pre with
  | nil => rfl
  | cons p l ih =>
    obtain ⟨c, w⟩ := p
    have hw : ¬ w < 0 := not_lt.2 (h (c, w) (by simp))
    have e : R.fl (sumF R.fl (weightsOf pre) + w) = sumF R.fl (weightsOf (pre ++ [(c, w)])) := by
      simp [weightsOf, sumF_snoc]
    have hs : ¬ R.fl (sumF R.fl (weightsOf pre) + w) > r := by
      rw [e, gt_iff_lt, not_lt]
      refine le_trans ?_ hr
      have := sumF_le (R := R) (weightsOf (pre ++ [(c, w)])) (weightsOf l) (by
        intro v hv
        obtain ⟨p, hp, rfl⟩ := List.mem_map.1 hv
        exact h p (by simp [hp]))
      simpa [weightsOf] using this
    simp only [weightedLoopF, if_neg hw, if_neg hs]
    rw [e]
    exact ih (pre ++ [(c, w)]) (fun p hp => h p (by simp [hp])) (by simpa using hr)

/-- **C100**: in any rounding, however `sum` adds, `weighted_choice` of nonnegative weights returns an option at which
the running sum first exceeds the number drawn, which has a positive weight; it raises exactly if the running sum of
all weights does not exceed the number drawn. -/
theorem C100_choice {add : List ℝ → ℝ} {choices : List (α × ℝ)} (h : ∀ p ∈ choices, 0 ≤ p.2) {u : ℝ}
    (h0 : 0 ≤ add (weightsOf choices) * u) :
    (R.fl (add (weightsOf choices) * u) < sumF R.fl (weightsOf choices) →
      ∃ pre c w post, choices = pre ++ (c, w) :: post ∧ 0 < w ∧ weightedChoiceF R.fl add choices u = .ok c ∧
        sumF R.fl (weightsOf pre) ≤ R.fl (add (weightsOf choices) * u) ∧
        R.fl (add (weightsOf choices) * u) < sumF R.fl (weightsOf (pre ++ [(c, w)]))) ∧
    (sumF R.fl (weightsOf choices) ≤ R.fl (add (weightsOf choices) * u) →
      weightedChoiceF R.fl add choices u = .error .valueErr) := by
  have hz : sumF R.fl (weightsOf ([] : List (α × ℝ))) = 0 := rfl
  constructor
  · intro hr
    obtain ⟨mid, c, w, post, e1, e2, e3, e4⟩ := weightedLoopF_stops (R := R)
      (r := R.fl (add (weightsOf choices) * u)) [] choices h
      (by rw [hz]; exact R.fl_nonneg h0) (by simpa using hr)
    simp only [List.nil_append] at e3 e4
    refine ⟨mid, c, w, post, e1, ?_, e2, e3, e4⟩
    refine lt_of_le_of_ne (h (c, w) (by rw [e1]; simp)) ?_
    rintro rfl
    have : sumF R.fl (weightsOf (mid ++ [(c, 0)])) = sumF R.fl (weightsOf mid) := by
      simp only [weightsOf, List.map_append, List.map_cons, List.map_nil, sumF_snoc, add_zero]
      exact R.fix (sumF_float _)
    linarith
  · intro hr
    exact weightedLoopF_raises (R := R) (r := R.fl (add (weightsOf choices) * u)) [] choices h (by simpa using hr)

/-! ### The number drawn is below the sum -/

/-- A float that is not subnormal has a 53-bit significand. -/
theorem IsFloat.normal {x : ℝ} (hx : IsFloat x) (h : (2 : ℝ) ^ (-1021 : ℤ) ≤ x) :
    ∃ m e : ℤ, 2 ^ 52 ≤ m ∧ m < 2 ^ 53 ∧ -1073 ≤ e ∧ x = (m : ℝ) * (2 : ℝ) ^ e := by
  have h0 : 0 < x := lt_of_lt_of_le (two_zpow_pos' _) h
  have a1 := abs_lt_lastBit x
  rw [abs_of_pos h0] at a1
  have a2 : (-1021 : ℤ) < lastBit x + 53 :=
    (zpow_lt_zpow_iff_right₀ (by norm_num : (1 : ℝ) < 2)).1 (lt_of_le_of_lt h a1)
  have a3 := lastBit_le_abs (y := x) (by omega) h0.ne'
  rw [abs_of_pos h0] at a3
  have a4 : (nearestEven (x / (2 : ℝ) ^ lastBit x) : ℝ) * (2 : ℝ) ^ lastBit x = x := ieee.fix hx
  have hp := two_zpow_pos' (lastBit x)
  generalize lastBit x = e at *
  generalize nearestEven (x / (2 : ℝ) ^ e) = m at *
  refine ⟨m, e, ?_, ?_, by omega, a4.symm⟩
  · rw [← a4, zpow_add₀ (by norm_num), mul_comm] at a3
    have := le_of_mul_le_mul_right a3 hp
    have h2 : ((2 ^ 52 : ℤ) : ℝ) ≤ (m : ℝ) := by norm_num at this ⊢; exact this
    exact_mod_cast h2
  · rw [← a4, zpow_add₀ (by norm_num), mul_comm ((2 : ℝ) ^ e)] at a1
    have := lt_of_mul_lt_mul_right a1 hp.le
    have h2 : (m : ℝ) < ((2 ^ 53 : ℤ) : ℝ) := by norm_num at this ⊢; exact this
    exact_mod_cast h2

/-- `uniform(0, total)` is below `total`. -/
theorem draw_lt {t u : ℝ} (ht : IsFloat t) (h : (2 : ℝ) ^ (-1021 : ℤ) ≤ t) (hu : u ≤ 1 - 1 / 2 ^ 53) :
    ieee.fl (t * u) < t := by
  obtain ⟨m, e, h1, h2, h3, rfl⟩ := ht.normal h
  have hp := two_zpow_pos' e
  have h1' : (2 : ℝ) ^ 52 ≤ m := by exact_mod_cast h1
  have h2' : (m : ℝ) < 2 ^ 53 := by exact_mod_cast h2
  have hm : 0 ≤ (m : ℝ) * (2 : ℝ) ^ e := mul_nonneg (le_trans (by norm_num) h1') hp.le
  refine lt_of_le_of_lt (ieee.mono (mul_le_mul_of_nonneg_left hu hm)) ?_
  have e1 : (m : ℝ) * (2 : ℝ) ^ e * (1 - 1 / 2 ^ 53) = ((m : ℝ) - m / 2 ^ 53) * (2 : ℝ) ^ e := by ring
  rw [e1]
  have b1 : (m : ℝ) / 2 ^ 53 < 1 := by rw [div_lt_one (by norm_num)]; exact h2'
  rcases eq_or_lt_of_le h1 with h1 | h1
  · have e2 : ((m : ℝ) - m / 2 ^ 53) * (2 : ℝ) ^ e = ((2 ^ 53 - 1 : ℤ) : ℝ) * (2 : ℝ) ^ (e - 1) := by
      rw [← h1, zpow_sub₀ (by norm_num)]
      push_cast
      ring
    rw [e2, ieee.fix (.mk (2 ^ 53 - 1) (e - 1) (by norm_num) (by omega) rfl), ← e2]
    refine mul_lt_mul_of_pos_right ?_ hp
    have : 0 < (m : ℝ) / 2 ^ 53 := div_pos (lt_of_lt_of_le (by norm_num) h1') (by norm_num)
    linarith
  · have h1' : (2 : ℝ) ^ 52 < m := by exact_mod_cast h1
    have h1'' : (2 : ℝ) ^ 52 + 1 ≤ m := by exact_mod_cast h1
    have b2 : 1 / 2 < (m : ℝ) / 2 ^ 53 := by rw [lt_div_iff₀ (by norm_num)]; norm_num at h1' ⊢; linarith
    have hpos : 0 < ((m : ℝ) - m / 2 ^ 53) * (2 : ℝ) ^ e := mul_pos (by
      have : (1 : ℝ) < m := lt_trans (by norm_num) h1'
      linarith) hp
    rw [ieee_eq (m - 1) e hpos.ne' (by omega)]
    · refine mul_lt_mul_of_pos_right ?_ hp
      push_cast; linarith
    · rw [abs_of_pos hpos, zpow_add₀ (by norm_num), mul_comm ((2 : ℝ) ^ e)]
      refine mul_lt_mul_of_pos_right ?_ hp
      have : ((2 : ℝ) ^ (53 : ℤ)) = 2 ^ 53 := by norm_num
      rw [this]; linarith
    · right
      rw [abs_of_pos hpos, zpow_add₀ (by norm_num), mul_comm ((2 : ℝ) ^ e)]
      refine mul_le_mul_of_nonneg_right ?_ hp.le
      have : ((2 : ℝ) ^ (52 : ℤ)) = 2 ^ 52 := by norm_num
      rw [this]; linarith
    · refine mul_lt_mul_of_pos_right ?_ hp
      push_cast; linarith
    · refine mul_lt_mul_of_pos_right ?_ hp
      push_cast; linarith

/-- **C100**: with the rounding of Python, `sum` adding from the left, and a result of `random()`, `weighted_choice` does
not raise and returns an option of positive weight, if the weights are nonnegative and their sum is not subnormal. -/
theorem C100_choice_defined_partial {choices : List (α × ℝ)} (h : ∀ p ∈ choices, 0 ≤ p.2)
    (hs : (2 : ℝ) ^ (-1021 : ℤ) ≤ sumF ieee.fl (weightsOf choices)) {u : ℝ} (h0 : 0 ≤ u) (h1 : u ≤ 1 - 1 / 2 ^ 53) :
    ∃ pre c w post, choices = pre ++ (c, w) :: post ∧ 0 < w ∧
      weightedChoiceF ieee.fl (sumF ieee.fl) choices u = .ok c ∧
      sumF ieee.fl (weightsOf pre) ≤ ieee.fl (sumF ieee.fl (weightsOf choices) * u) ∧
      ieee.fl (sumF ieee.fl (weightsOf choices) * u) < sumF ieee.fl (weightsOf (pre ++ [(c, w)])) :=
  (C100_choice h (mul_nonneg ((two_zpow_pos' _).le.trans hs) h0)).1 (draw_lt (sumF_float _) hs h1)

/-- Three options, the second without weight. -/
example : (∀ p ∈ [('a', (1 / 4 : ℝ)), ('b', 0), ('c', 3 / 4)], 0 ≤ p.2) ∧
    (2 : ℝ) ^ (-1021 : ℤ) ≤ sumF ieee.fl (weightsOf [('a', (1 / 4 : ℝ)), ('b', 0), ('c', 3 / 4)]) := by
  have h0 : ∀ p ∈ [('a', (1 / 4 : ℝ)), ('b', 0), ('c', 3 / 4)], 0 ≤ p.2 := by
    intro p hp
    simp only [List.mem_cons, List.not_mem_nil, or_false] at hp
    rcases hp with rfl | rfl | rfl <;> norm_num
  refine ⟨h0, ?_⟩
  have h1 : (1 / 4 : ℝ) ≤ sumF ieee.fl (weightsOf [('a', (1 / 4 : ℝ)), ('b', 0), ('c', 3 / 4)]) := by
    refine le_sumF _ ?_ (by simp [weightsOf]) (.mk 1 (-2) (by norm_num) (by norm_num) (by norm_num))
    intro v hv
    obtain ⟨p, hp, rfl⟩ := List.mem_map.1 hv
    exact h0 p hp
  refine le_trans ?_ h1
  rw [show (1 / 4 : ℝ) = (2 : ℝ) ^ (-2 : ℤ) by norm_num]
  exact zpow_le_zpow_right₀ (by norm_num) (by norm_num)

/-- **C100**: with a subnormal weight `weighted_choice` can raise: the only option has the weight 2^-1074, the smallest
positive float, and `random()` returns 3/4. -/
theorem C100_choice_subnormal (c : α) :
    weightedChoiceF ieee.fl (sumF ieee.fl) [(c, (2 : ℝ) ^ (-1074 : ℤ))] (3 / 4) = .error .valueErr := by
  have hp := two_zpow_pos' (-1074)
  have e1 : sumF ieee.fl (weightsOf [(c, (2 : ℝ) ^ (-1074 : ℤ))]) = (2 : ℝ) ^ (-1074 : ℤ) := by
    have : IsFloat ((2 : ℝ) ^ (-1074 : ℤ)) := .mk 1 (-1074) (by norm_num) (by norm_num) (by simp)
    simp only [sumF, weightsOf, List.map_cons, List.map_nil, List.foldl_cons, List.foldl_nil, zero_add, ieee.fix this]
  have e2 : ieee.fl ((2 : ℝ) ^ (-1074 : ℤ) * (3 / 4)) = (2 : ℝ) ^ (-1074 : ℤ) := by
    have hy : 0 < (2 : ℝ) ^ (-1074 : ℤ) * (3 / 4) := by positivity
    rw [ieee_eq 1 (-1074) hy.ne' (by norm_num)]
    · simp
    · rw [abs_of_pos hy, zpow_add₀ (by norm_num)]
      exact mul_lt_mul_of_pos_left (by norm_num) hp
    · left; rfl
    · push_cast; linarith
    · push_cast; linarith
  refine (C100_choice (R := ieee) (by simp) ?_).2 ?_
  · rw [e1]; positivity
  · rw [e1, e2]

/-! ### Compensated summation -/

/-- The rounding of a number halfway between an even and an odd multiple of its last bit. -/
theorem ieee_tie_even {y : ℝ} (k e : ℤ) (h0 : y ≠ 0) (h1 : -1074 ≤ e) (h2 : |y| < (2 : ℝ) ^ (e + 53))
    (h3 : e = -1074 ∨ (2 : ℝ) ^ (e + 52) ≤ |y|) (hk : Even k) (h4 : y = ((k : ℝ) + 1 / 2) * (2 : ℝ) ^ e) :
    ieee.fl y = (k : ℝ) * (2 : ℝ) ^ e := by
  have hf : ⌊(k : ℝ) + 1 / 2⌋ = k := Int.floor_eq_iff.2 ⟨by linarith, by linarith⟩
  have hfr : Int.fract ((k : ℝ) + 1 / 2) = 1 / 2 := by rw [Int.fract, hf]; ring
  have hn : nearestEven ((k : ℝ) + 1 / 2) = k := by
    unfold nearestEven
    rw [hfr, hf, if_neg (lt_irrefl _), if_neg (lt_irrefl _), if_pos hk]
  show roundAt nearestEven y = _
  unfold roundAt
  rw [lastBit_eq h0 h1 h2 h3, show y / (2 : ℝ) ^ e = (k : ℝ) + 1 / 2 by rw [h4]; field_simp, hn]

/-- The running sums of ten weights 0.1. -/
theorem sumF_tenths : sumF ieee.fl (List.replicate 10 tenth) = 1 - 1 / 2 ^ 53 := by
  have step : ∀ (a b : ℝ) (k e : ℤ), 0 < a + tenth → -1074 ≤ e → a + tenth < (2 : ℝ) ^ (e + 53) →
      (2 : ℝ) ^ (e + 52) ≤ a + tenth → ((k : ℝ) - 1 / 2) * (2 : ℝ) ^ e < a + tenth →
      a + tenth < ((k : ℝ) + 1 / 2) * (2 : ℝ) ^ e → b = (k : ℝ) * (2 : ℝ) ^ e → ieee.fl (a + tenth) = b := by
    intro a b k e h0 h1 h2 h3 h4 h5 h6
    rw [h6]
    exact ieee_eq k e h0.ne' h1 (by rwa [abs_of_pos h0]) (.inr (by rwa [abs_of_pos h0])) h4 h5
  have g1 : ieee.fl (0 + tenth) = 7205759403792794 / 2 ^ 56 := by
    refine step _ _ 7205759403792794 (-56) ?_ ?_ ?_ ?_ ?_ ?_ ?_ <;> norm_num [tenth]
  have g2 : ieee.fl (7205759403792794 / 2 ^ 56 + tenth) = 7205759403792794 / 2 ^ 55 := by
    refine step _ _ 7205759403792794 (-55) ?_ ?_ ?_ ?_ ?_ ?_ ?_ <;> norm_num [tenth]
  have g3 : ieee.fl (7205759403792794 / 2 ^ 55 + tenth) = 5404319552844596 / 2 ^ 54 := by
    rw [ieee_tie 5404319552844595 (-54)]
    · norm_num
    · unfold tenth; norm_num
    · norm_num
    · unfold tenth; rw [abs_of_pos (by norm_num)]; norm_num
    · right; unfold tenth; rw [abs_of_pos (by norm_num)]; norm_num
    · decide
    · unfold tenth; norm_num
  have g4 : ieee.fl (5404319552844596 / 2 ^ 54 + tenth) = 7205759403792794 / 2 ^ 54 := by
    rw [ieee_tie_even 7205759403792794 (-54)]
    · norm_num
    · unfold tenth; norm_num
    · norm_num
    · unfold tenth; rw [abs_of_pos (by norm_num)]; norm_num
    · right; unfold tenth; rw [abs_of_pos (by norm_num)]; norm_num
    · decide
    · unfold tenth; norm_num
  have g5 : ieee.fl (7205759403792794 / 2 ^ 54 + tenth) = 4503599627370496 / 2 ^ 53 := by
    refine step _ _ 4503599627370496 (-53) ?_ ?_ ?_ ?_ ?_ ?_ ?_ <;> norm_num [tenth]
  have g6 : ieee.fl (4503599627370496 / 2 ^ 53 + tenth) = 5404319552844595 / 2 ^ 53 := by
    refine step _ _ 5404319552844595 (-53) ?_ ?_ ?_ ?_ ?_ ?_ ?_ <;> norm_num [tenth]
  have g7 : ieee.fl (5404319552844595 / 2 ^ 53 + tenth) = 6305039478318694 / 2 ^ 53 := by
    refine step _ _ 6305039478318694 (-53) ?_ ?_ ?_ ?_ ?_ ?_ ?_ <;> norm_num [tenth]
  have g8 : ieee.fl (6305039478318694 / 2 ^ 53 + tenth) = 7205759403792793 / 2 ^ 53 := by
    refine step _ _ 7205759403792793 (-53) ?_ ?_ ?_ ?_ ?_ ?_ ?_ <;> norm_num [tenth]
  have g9 : ieee.fl (7205759403792793 / 2 ^ 53 + tenth) = 8106479329266892 / 2 ^ 53 := by
    refine step _ _ 8106479329266892 (-53) ?_ ?_ ?_ ?_ ?_ ?_ ?_ <;> norm_num [tenth]
  have g10 : ieee.fl (8106479329266892 / 2 ^ 53 + tenth) = 9007199254740991 / 2 ^ 53 := by
    refine step _ _ 9007199254740991 (-53) ?_ ?_ ?_ ?_ ?_ ?_ ?_ <;> norm_num [tenth]
  simp only [sumF, List.replicate, List.foldl_cons, List.foldl_nil, g1, g2, g3, g4, g5, g6, g7, g8, g9, g10]
  norm_num

/-- **C100**: with compensated summation (Python 3.12) `weighted_choice` can raise: ten options with weight 0.1 each sum
up to 1, the running sum ends at 1 - 2^-53, and `random()` may return that number. -/
theorem C100_choice_compensated {choices : List (α × ℝ)} (h : weightsOf choices = List.replicate 10 tenth) :
    ieee.fl (weightsOf choices).sum = 1 ∧
    weightedChoiceF ieee.fl (fun ws => ieee.fl ws.sum) choices (1 - 1 / 2 ^ 53) = .error .valueErr := by
  have e1 : ieee.fl (weightsOf choices).sum = 1 := by
    rw [h, List.sum_replicate, nsmul_eq_mul, ieee_eq 4503599627370496 (-52)]
    · norm_num
    · unfold tenth; norm_num
    · norm_num
    · unfold tenth; rw [abs_of_pos (by norm_num)]; norm_num
    · right; unfold tenth; rw [abs_of_pos (by norm_num)]; norm_num
    · unfold tenth; norm_num
    · unfold tenth; norm_num
  have e2 : ieee.fl (1 * (1 - 1 / 2 ^ 53)) = 1 - 1 / 2 ^ 53 :=
    by rw [one_mul]; exact ieee.fix (.mk 9007199254740991 (-53) (by norm_num) (by norm_num) (by norm_num))
  refine ⟨e1, (C100_choice (R := ieee) ?_ ?_).2 ?_⟩
  · intro p hp
    have : p.2 ∈ weightsOf choices := List.mem_map_of_mem hp
    rw [h] at this
    rw [List.eq_of_mem_replicate this]
    unfold tenth; norm_num
  · simp only [e1]; norm_num
  · simp only [e1]
    rw [e2, h, sumF_tenths]

/-- Ten options. -/
example : weightsOf ((List.range 10).map fun k => (k, tenth)) = List.replicate 10 tenth := by
  simp [weightsOf, List.range_succ, List.replicate]

end CF
