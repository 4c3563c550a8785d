/-
C90: the numeric part of expected correct guesses as an integral, and the formulas compared in
compare_mse_acc.py.
-/
import Verif.Model.CompareEcg
import Verif.Props.Cobweb3
import Verif.Props.Continuous

namespace CF

/-! ## What the numbers should be -/

/-- The expected density of a normal variable with variance `v` at its own value: the integral of the square
of the density (its mean is irrelevant, see `selfOverlap_mean`). -/
noncomputable def selfOverlap (v : ℝ) : ℝ := ∫ x, ProbabilityTheory.gaussianPDFReal 0 (Real.toNNReal v) x ^ 2

theorem selfOverlap_mean {v : ℝ} (hv : 0 < v) (μ : ℝ) :
    ∫ x, ProbabilityTheory.gaussianPDFReal μ (Real.toNNReal v) x ^ 2 = 1 / (2 * Real.sqrt Real.pi * Real.sqrt v) := by
  have h0 : Real.toNNReal v ≠ 0 := (Real.toNNReal_pos.2 hv).ne'
  have hp := Real.pi_pos
  simp_rw [pow_two]
  rw [gauss_product _ _ _ _ h0 h0, Real.coe_toNNReal _ hv.le]
  have e : 2 * Real.pi * (v + v) = 2 ^ 2 * Real.pi * v := by ring
  rw [e, Real.sqrt_mul (by positivity), Real.sqrt_mul (by positivity), Real.sqrt_sq (by norm_num)]
  simp

theorem selfOverlap_eq {v : ℝ} (hv : 0 < v) : selfOverlap v = 1 / (2 * Real.sqrt Real.pi * Real.sqrt v) :=
  selfOverlap_mean hv 0

theorem selfOverlap_anti {v w : ℝ} (hv : 0 < v) (h : v ≤ w) : selfOverlap w ≤ selfOverlap v := by
  rw [selfOverlap_eq hv, selfOverlap_eq (hv.trans_le h)]
  have hp := Real.pi_pos
  have := Real.sqrt_le_sqrt h
  have h1 : 0 < Real.sqrt v := Real.sqrt_pos.2 hv
  have h2 : 0 < Real.sqrt Real.pi := Real.sqrt_pos.2 hp
  gcongr

theorem selfOverlap_strictAnti {v w : ℝ} (hv : 0 < v) (h : v < w) : selfOverlap w < selfOverlap v := by
  rw [selfOverlap_eq hv, selfOverlap_eq (hv.trans h)]
  have hp := Real.pi_pos
  have := Real.sqrt_lt_sqrt hv.le h
  have h1 : 0 < Real.sqrt v := Real.sqrt_pos.2 hv
  have h2 : 0 < Real.sqrt Real.pi := Real.sqrt_pos.2 hp
  gcongr

/-- The acuity: the standard deviation for which the integral is 1. -/
theorem selfOverlap_acuity : selfOverlap (1 / (4 * Real.pi)) = 1 := by
  have hp := Real.pi_pos
  rw [selfOverlap_eq (by positivity)]
  have e : Real.sqrt (1 / (4 * Real.pi)) = 1 / (2 * Real.sqrt Real.pi) := by
    rw [Real.sqrt_div zero_le_one, Real.sqrt_one, Real.sqrt_mul (by norm_num),
      show (4:ℝ) = 2 ^ 2 by norm_num, Real.sqrt_sq (by norm_num)]
  have h2 : 0 < Real.sqrt Real.pi := Real.sqrt_pos.2 hp
  rw [e]
  field_simp

/-- **C90.** `compute` raises exactly for a standard deviation of 0.  Otherwise, for a positive one, its three numbers
are the integrals of the squared normal density: with the given variance, with at least the variance
`1 / (4π)`, and with `1 / (4π)` added to the variance. -/
theorem C90_compute {std : ℝ} (h : 0 < std) :
    computeEcgs std = .ok (selfOverlap (std ^ 2), selfOverlap (max (std ^ 2) (1 / (4 * Real.pi))),
      selfOverlap (std ^ 2 + 1 / (4 * Real.pi))) := by
  have hp := Real.pi_pos
  have h2 : 0 < Real.sqrt Real.pi := Real.sqrt_pos.2 hp
  have ha : (0 : ℝ) < 1 / (2 * Real.sqrt Real.pi) := by positivity
  have hm : 0 < max std (1 / (2 * Real.sqrt Real.pi)) := lt_max_of_lt_left h
  have hsq : Real.sqrt (max (std ^ 2) (1 / (4 * Real.pi))) = max std (1 / (2 * Real.sqrt Real.pi)) := by
    have e : 1 / (4 * Real.pi) = (1 / (2 * Real.sqrt Real.pi)) ^ 2 := by
      rw [div_pow, mul_pow, Real.sq_sqrt hp.le]; norm_num
    have e' : max (std ^ 2) (1 / (4 * Real.pi)) = (max std (1 / (2 * Real.sqrt Real.pi))) ^ 2 := by
      rw [e]
      rcases le_total std (1 / (2 * Real.sqrt Real.pi)) with hle | hle
      · rw [max_eq_right hle, max_eq_right (by gcongr)]
      · rw [max_eq_left hle, max_eq_left (by gcongr)]
    rw [e', Real.sqrt_sq hm.le]
  have hs : 0 < std * std + 1 / (4 * Real.pi) := by positivity
  unfold computeEcgs
  rw [pyDiv_ok (by positivity), ok_bind, pyDiv_ok h.ne', ok_bind, ok_bind, pyDiv_ok hm.ne', ok_bind,
    pyDiv_ok (by positivity), ok_bind, pySqrt, if_neg (not_lt.2 hs.le), ok_bind,
    pyDiv_ok (Real.sqrt_pos.2 hs).ne', ok_bind, selfOverlap_eq (by positivity), selfOverlap_eq (lt_max_of_lt_left (by positivity)),
    selfOverlap_eq (by positivity), hsq, Real.sqrt_sq h.le, pow_two]
  simp only [one_div, mul_inv]
  rfl

/-- `compute` raises exactly for a standard deviation of 0. -/
theorem C90_raises_iff (std : ℝ) : (computeEcgs std).isOk = false ↔ std = 0 := by
  have hp := Real.pi_pos
  have h2 : 0 < Real.sqrt Real.pi := Real.sqrt_pos.2 hp
  have ha : (0 : ℝ) < 1 / (2 * Real.sqrt Real.pi) := by positivity
  have hm : 0 < max std (1 / (2 * Real.sqrt Real.pi)) := lt_max_of_lt_right ha
  have hs : 0 < std * std + 1 / (4 * Real.pi) :=
    add_pos_of_nonneg_of_pos (mul_self_nonneg _) (by positivity)
  unfold computeEcgs
  by_cases h : std = 0
  · rw [pyDiv_ok (by positivity), ok_bind, h]
    simp [pyDiv, error_bind]
    rfl
  · rw [pyDiv_ok (by positivity), ok_bind, pyDiv_ok h, ok_bind, ok_bind, pyDiv_ok hm.ne', ok_bind,
      pyDiv_ok (by positivity), ok_bind, pySqrt, if_neg (not_lt.2 hs.le), ok_bind,
      pyDiv_ok (Real.sqrt_pos.2 hs).ne', ok_bind]
    simp only [h, iff_false]
    exact Bool.noConfusion

/-- The order of the three curves: the unbounded formula is nowhere below the one bounded by the acuity, and
that one is everywhere above the one with noise, which stays below 1; the first two agree exactly from the
acuity on. -/
theorem C90_order {std e1 e2 e3 : ℝ} (h : 0 < std) (he : computeEcgs std = .ok (e1, e2, e3)) :
    e3 < e2 ∧ e2 ≤ e1 ∧ e2 ≤ 1 ∧ 0 < e3 ∧ (e1 = e2 ↔ 1 / (4 * Real.pi) ≤ std ^ 2) ∧ e2 ≤ Real.sqrt 2 * e3 := by
  have hp := Real.pi_pos
  rw [C90_compute h] at he
  simp only [Except.ok.injEq, Prod.mk.injEq] at he
  obtain ⟨rfl, rfl, rfl⟩ := he
  have hs : 0 < std ^ 2 := by positivity
  have ha : 0 < 1 / (4 * Real.pi) := by positivity
  have hm : 0 < max (std ^ 2) (1 / (4 * Real.pi)) := lt_max_of_lt_left hs
  refine ⟨selfOverlap_strictAnti hm ?_, selfOverlap_anti hs (le_max_left _ _), ?_, ?_, ?_, ?_⟩
  · exact max_lt (by linarith) (by linarith)
  · exact (selfOverlap_anti ha (le_max_right _ _)).trans selfOverlap_acuity.le
  · have h2 : 0 < Real.sqrt Real.pi := Real.sqrt_pos.2 hp
    have h3 : 0 < Real.sqrt (std ^ 2 + 1 / (4 * Real.pi)) := Real.sqrt_pos.2 (by positivity)
    rw [selfOverlap_eq (by positivity)]
    positivity
  · constructor
    · intro e
      by_contra hn
      have := selfOverlap_strictAnti hs (lt_of_not_ge hn)
      rw [max_eq_right (lt_of_not_ge hn).le] at e
      linarith
    · intro hle
      rw [max_eq_left hle]
  · have h2 : 0 < Real.sqrt Real.pi := Real.sqrt_pos.2 hp
    have h4 : 0 < Real.sqrt (max (std ^ 2) (1 / (4 * Real.pi))) := Real.sqrt_pos.2 hm
    have h3 : 0 < Real.sqrt (std ^ 2 + 1 / (4 * Real.pi)) := Real.sqrt_pos.2 (by positivity)
    have h5 : Real.sqrt (std ^ 2 + 1 / (4 * Real.pi)) ≤ Real.sqrt 2 * Real.sqrt (max (std ^ 2) (1 / (4 * Real.pi))) := by
      rw [← Real.sqrt_mul (by norm_num)]
      apply Real.sqrt_le_sqrt
      have := le_max_left (std ^ 2) (1 / (4 * Real.pi))
      have := le_max_right (std ^ 2) (1 / (4 * Real.pi))
      linarith
    rw [selfOverlap_eq hm, selfOverlap_eq (by positivity), mul_one_div, div_le_div_iff₀ (by positivity) (by positivity),
      one_mul]
    calc 2 * Real.sqrt Real.pi * Real.sqrt (std ^ 2 + 1 / (4 * Real.pi))
        ≤ 2 * Real.sqrt Real.pi * (Real.sqrt 2 * Real.sqrt (max (std ^ 2) (1 / (4 * Real.pi)))) := by gcongr
      _ = _ := by ring

section
variable {A B V : Type} [DecidableEq A] [DecidableEq B] [DecidableEq V] {hid : A → Bool}
  {cfg : Cfg3 A B} {st : State3 A B V} {hist : List (Inst3 A V)} {n : ℕ}

omit [DecidableEq V] in
theorem numTerm_eq (u : ℝ) (m : Multiset (Inst3 A V)) (a : A) :
    numTerm u m a = ((Multiset.card (nums m a) : ℝ) / (Multiset.card m : ℝ)) ^ 2 *
      selfOverlap ((sampleStd (nums m a) / u) ^ 2 + 1 / (4 * Real.pi)) := by
  have hp := Real.pi_pos
  rw [numTerm, selfOverlap_eq (by positivity)]

/-- **C90.** In every concept of every `Cobweb3Tree` the number computed by `expected_correct_guesses` is the
mean over the visible attributes of the sum of the squared probabilities of the nominal values and of the
squared probability of a number times the integral of the squared normal density, whose variance is that
of the concept's numbers, in units of the attribute's scale, plus `1 / (4π)`. -/
theorem C90_ecg_integral (h : Reach3 hid cfg st hist n) {x : Tree (Stats3 A V)} (hx : x ∈ st.root.nodes)
    (hv : ∃ a ∈ x.stats.av.keys, hid a = false) :
    ∃ m ≤ (hist : Multiset (Inst3 A V)), Summarizes3 x.stats m ∧
      Stats3.ecg hid cfg st.scales x.stats = .ok
        ((∑ a ∈ visAttrs hid m, (∑ v ∈ nomVals m a, prob ℝ m a (.nom v) ^ 2 +
          ((Multiset.card (nums m a) : ℝ) / (Multiset.card m : ℝ)) ^ 2 *
            selfOverlap ((sampleStd (nums m a) /
              effScale cfg (fun b => (scaleNums cfg.inner hist b : Multiset ℝ)) a) ^ 2 + 1 / (4 * Real.pi)))) /
          ((visAttrs hid m).card : ℝ)) := by
  obtain ⟨m, h1, h2, h3⟩ := C30_ecg_value h hx hv
  refine ⟨m, h1, h2, ?_⟩
  rw [h3, ecgSpec3]
  simp only [numTerm_eq]

/-- The third formula of `compute` is the one `Cobweb3Node` uses: with one visible attribute, numbers only and
no scaling, `expected_correct_guesses` is `ecg3` of the standard deviation of the numbers. -/
theorem C90_third_is_cobweb3 {m : Multiset (Inst3 A V)} {s : Stats3 A V} (hs : Summarizes3 s m) {sc : Scales B}
    {f : B → Multiset ℝ} (hsc : ScalesObs sc f) {a : A} (ha : visAttrs hid m = {a}) (hcfg : cfg.scaling = 0)
    (hnum : ∀ i ∈ m, ∃ y, Dict.get? i a = some (.num y)) (hstd : 0 < sampleStd (nums m a)) {e1 e2 e3 : ℝ}
    (he : computeEcgs (sampleStd (nums m a)) = .ok (e1, e2, e3)) :
    Stats3.ecg hid cfg sc s = .ok e3 := by
  rw [C90_compute hstd] at he
  simp only [Except.ok.injEq, Prod.mk.injEq] at he
  obtain ⟨-, -, rfl⟩ := he
  have hm : m ≠ 0 := by rintro rfl; simp [visAttrs, attrsOf] at ha
  have hc : (Multiset.card m : ℝ) ≠ 0 := by simpa using hm
  have hnom : nomVals m a = ∅ := by
    refine Finset.eq_empty_of_forall_notMem fun v hv => ?_
    obtain ⟨i, hi, hv⟩ := Finset.mem_biUnion.1 hv
    obtain ⟨y, hy⟩ := hnum i (Multiset.mem_toFinset.1 hi)
    simp [hy] at hv
  have hcard : Multiset.card (nums m a) = Multiset.card m := by
    have : ∀ m' : Multiset (Inst3 A V), (∀ i ∈ m', ∃ y, Dict.get? i a = some (.num y)) →
        Multiset.card (nums m' a) = Multiset.card m' := by
      intro m' hm'
      induction m' using Multiset.induction with
      | empty => simp [nums]
      | cons i m' ih =>
        obtain ⟨y, hy⟩ := hm' i (Multiset.mem_cons_self ..)
        have := ih fun i hi => hm' i (Multiset.mem_cons_of_mem hi)
        unfold nums at this ⊢
        rw [Multiset.filterMap_cons_some (b := y) _ _ _ (by simp [hy, Val.num?]), Multiset.card_cons,
          Multiset.card_cons, this]
    exact this m hnum
  rw [ecg3_eq hs hsc (by rw [ha]; exact Finset.singleton_nonempty a), ecgSpec3, ha]
  simp only [Finset.sum_singleton, hnom, Finset.sum_empty, zero_add, Finset.card_singleton, Nat.cast_one, div_one,
    numTerm_eq, hcard, div_self hc, one_pow, one_mul]
  congr 4
  simp [effScale, hcfg]

end

/-! ## Examples -/

/-- Two instances with one number each meet the conditions of `C90_third_is_cobweb3`. -/
example : let m : Multiset (Inst3 ℕ ℕ) := {[(0, .num 1)], [(0, .num 3)]}
    visAttrs (fun _ => false) m = {0} ∧ (∀ i ∈ m, ∃ y, Dict.get? i 0 = some (.num y)) ∧
      0 < sampleStd (nums m 0) := by
  have hn : nums (({[(0, .num 1)], [(0, .num 3)]} : Multiset (Inst3 ℕ ℕ))) 0 = {1, 3} := rfl
  refine ⟨?_, ?_, ?_⟩
  · ext a; simp [visAttrs, attrsOf, Dict.keys]
  · intro i hi
    simp only [Multiset.insert_eq_cons, Multiset.mem_cons, Multiset.mem_singleton] at hi
    rcases hi with rfl | rfl
    · exact ⟨1, rfl⟩
    · exact ⟨3, rfl⟩
  · rw [hn]
    have hc : c4Table.get? 2 = some 0.7978845608028654 := rfl
    have hd : sqDev ({1, 3} : Multiset ℝ) = 2 := by norm_num [sqDev, sampleMean]
    rw [sampleStd, if_neg (by simp), hd]
    simp only [Multiset.insert_eq_cons, Multiset.card_cons, Multiset.card_singleton, Nat.reduceAdd, hc]
    norm_num

/-- At the acuity the bounded formula gives 1 and the noisy one `1 / √2`. -/
example : selfOverlap (1 / (4 * Real.pi) + 1 / (4 * Real.pi)) = 1 / Real.sqrt 2 := by
  have hp := Real.pi_pos
  have e : 1 / (4 * Real.pi) + 1 / (4 * Real.pi) = 2 / (4 * Real.pi) := by ring
  have h2 : 0 < Real.sqrt Real.pi := Real.sqrt_pos.2 hp
  rw [selfOverlap_eq (by positivity), e, Real.sqrt_div (by norm_num), Real.sqrt_mul (by norm_num),
    show (4:ℝ) = 2 ^ 2 by norm_num, Real.sqrt_sq (by norm_num)]
  field_simp

end CF
