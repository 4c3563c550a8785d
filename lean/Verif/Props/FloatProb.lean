/-
Property C100: probabilities of a `Cobweb3Tree` in floating point; and a positive log-likelihood (C97).
-/
import Verif.Props.FloatPredict

set_option linter.unusedSectionVars false

namespace CF
variable {R : Rounding} {A B V : Type} [DecidableEq A] [DecidableEq B] [DecidableEq V] {hid : A → Bool}
  {cfg : Cfg3 A B} {st : State3 A B V} {hist : List (Inst3 A V)} {n : ℕ}

/-! ### The density -/

theorem probNoiseF_near : 1 / 8 ≤ R.fl (1 / R.fl (2 * piF R.fl)) ∧ 6 ≤ R.fl (2 * piF R.fl) := by
  obtain ⟨h1, h2⟩ := twoPi_near (R := R)
  refine ⟨R.le_fl (.mk 1 (-3) (by norm_num) (by norm_num) (by norm_num)) ?_, h1⟩
  exact one_div_le_one_div_of_le (by linarith) h2

/-- The computation of a density, for sound accumulators and a scale that is not zero. -/
theorem gaussDensityF_eq {c : CV ℝ} (hc : c.Sound) {scale : ℝ} (hs : scale ≠ 0) (prob x shift : ℝ) :
    ∃ std q e, gaussDensityF R.fl c prob x shift scale = .ok (R.fl (R.fl (prob * q) * expF R.fl e)) ∧
      R.fl (Real.sqrt (R.fl (1 / R.fl (2 * piF R.fl)))) ≤ std ∧
      q = R.fl (1 / R.fl (R.fl (Real.sqrt (R.fl (2 * piF R.fl))) * std)) ∧
      0 < R.fl (R.fl (Real.sqrt (R.fl (2 * piF R.fl))) * std) ∧ e ≤ 0 := by
  obtain ⟨⟨s, hsd, -, -⟩, -⟩ := hc.std (R := R)
  obtain ⟨n1, n2⟩ := probNoiseF_near (R := R)
  have f4 : IsFloat (1 / 4) := .mk 1 (-2) (by norm_num) (by norm_num) (by norm_num)
  have f16 : IsFloat (1 / 16) := .mk 1 (-4) (by norm_num) (by norm_num) (by norm_num)
  have f2 : IsFloat ((2 : ℕ) : ℝ) := .nat (by norm_num)
  push_cast at f2
  have hsc : ∃ o, CV.scaledUnbiasedStdF R.fl c scale = .ok o := by
    have : ¬ ((if scale ≤ 0 then 1 else scale) = 0) := by
      split
      · exact one_ne_zero
      · exact hs
    exact ⟨_, by simp only [CV.scaledUnbiasedStdF, hsd, ok_bind, divF, if_neg this]; rfl⟩
  obtain ⟨o, ho⟩ := hsc
  have hne : ¬ R.fl (2 * piF R.fl) = 0 := by linarith
  have hnn : ¬ R.fl (2 * piF R.fl) < 0 := by linarith
  have a1 : R.fl (1 / R.fl (2 * piF R.fl)) ≤ R.fl (R.fl (o * o) + R.fl (1 / R.fl (2 * piF R.fl))) :=
    R.le_fl (R.float _) (by linarith [R.fl_nonneg (mul_self_nonneg o)])
  have a2 : ¬ R.fl (R.fl (o * o) + R.fl (1 / R.fl (2 * piF R.fl))) < 0 := by linarith
  have a3 : R.fl (Real.sqrt (R.fl (1 / R.fl (2 * piF R.fl)))) ≤
      R.fl (Real.sqrt (R.fl (R.fl (o * o) + R.fl (1 / R.fl (2 * piF R.fl))))) := R.mono (Real.sqrt_le_sqrt a1)
  have a4 : 1 / 4 ≤ R.fl (Real.sqrt (R.fl (1 / R.fl (2 * piF R.fl)))) :=
    R.le_fl f4 (Real.le_sqrt_of_sq_le (by linarith))
  have a5 : 2 ≤ R.fl (Real.sqrt (R.fl (2 * piF R.fl))) := R.le_fl f2 (Real.le_sqrt_of_sq_le (by linarith))
  generalize hst : R.fl (Real.sqrt (R.fl (R.fl (o * o) + R.fl (1 / R.fl (2 * piF R.fl))))) = std at *
  have a6 : 1 / 4 ≤ R.fl (R.fl (Real.sqrt (R.fl (2 * piF R.fl))) * std) := R.le_fl f4 (by nlinarith)
  have a7 : 1 / 4 ≤ R.fl (2 * std) := R.le_fl f4 (by linarith)
  have a8 : 1 / 16 ≤ R.fl (R.fl (2 * std) * std) := R.le_fl f16 (by nlinarith)
  have b1 : ¬ R.fl (R.fl (Real.sqrt (R.fl (2 * piF R.fl))) * std) = 0 := by linarith
  have b2 : ¬ R.fl (R.fl (2 * std) * std) = 0 := by linarith
  refine ⟨std, _, R.fl (-(R.fl (R.fl (R.fl (R.fl (x - shift) / scale) - R.fl (R.fl (c.mean - shift) / scale)) *
    R.fl (R.fl (R.fl (x - shift) / scale) - R.fl (R.fl (c.mean - shift) / scale)))) / R.fl (R.fl (2 * std) * std)),
    ?_, a3, rfl, by linarith, ?_⟩
  · simp only [gaussDensityF, ho, ok_bind, divF, sqrtF, if_neg hs, if_neg hne, if_neg hnn, if_neg a2, hst,
      if_neg b1, if_neg b2]
    rfl
  · have := R.mono (a := -(R.fl (R.fl (R.fl (R.fl (x - shift) / scale) - R.fl (R.fl (c.mean - shift) / scale)) *
      R.fl (R.fl (R.fl (x - shift) / scale) - R.fl (R.fl (c.mean - shift) / scale)))) / R.fl (R.fl (2 * std) * std))
      (b := 0) (div_nonpos_of_nonpos_of_nonneg (neg_nonpos.2 (R.fl_nonneg (mul_self_nonneg _))) (by linarith))
    rwa [R.fl_zero] at this

/-- The constants of the density under IEEE rounding: the smallest deviation times the root of `2 * pi` is computed
as one. -/
theorem ieee_density : ieee.fl (2 * piF ieee.fl) = 7074237752028440 / 2 ^ 50 ∧
    ieee.fl (1 / ieee.fl (2 * piF ieee.fl)) = 5734161139222659 / 2 ^ 55 ∧
    ieee.fl (Real.sqrt (5734161139222659 / 2 ^ 55)) = 7186705221432913 / 2 ^ 54 ∧
    ieee.fl (Real.sqrt (7074237752028440 / 2 ^ 50)) = 5644425081792261 / 2 ^ 51 ∧
    ieee.fl (5644425081792261 / 2 ^ 51 * (7186705221432913 / 2 ^ 54)) = 1 := by
  have h2 : ieee.fl (2 * piF ieee.fl) = 7074237752028440 / 2 ^ 50 := by
    rw [ieee_noise.1, show (2 * (7074237752028440 / 2 ^ 51) : ℝ) = 7074237752028440 / 2 ^ 50 by norm_num]
    exact ieee.fix (.mk 7074237752028440 (-50) (by norm_num) (by norm_num) (by norm_num))
  have hs : ∀ (v lo hi : ℝ), 0 ≤ lo → lo ^ 2 < v → 0 < hi → v < hi ^ 2 → lo < Real.sqrt v ∧ Real.sqrt v < hi :=
    fun v lo hi h1 h2 h3 h4 => ⟨Real.lt_sqrt_of_sq_lt h2, (Real.sqrt_lt' h3).2 h4⟩
  refine ⟨h2, ?_, ?_, ?_, ?_⟩
  · rw [h2, ieee_eq 5734161139222659 (-55)]
    all_goals norm_num
  · obtain ⟨a, b⟩ := hs (5734161139222659 / 2 ^ 55) ((7186705221432913 - 1 / 2) / 2 ^ 54)
      ((7186705221432913 + 1 / 2) / 2 ^ 54) (by norm_num) (by norm_num) (by norm_num) (by norm_num)
    have c : 0 < Real.sqrt (5734161139222659 / 2 ^ 55) := by positivity
    rw [ieee_eq 7186705221432913 (-54) c.ne' (by norm_num)]
    · norm_num
    · rw [abs_of_pos c]; refine b.trans ?_; norm_num
    · right; rw [abs_of_pos c]; refine le_trans ?_ a.le; norm_num
    · refine lt_of_le_of_lt (le_of_eq ?_) a; norm_num
    · refine lt_of_lt_of_le b (le_of_eq ?_); norm_num
  · obtain ⟨a, b⟩ := hs (7074237752028440 / 2 ^ 50) ((5644425081792261 - 1 / 2) / 2 ^ 51)
      ((5644425081792261 + 1 / 2) / 2 ^ 51) (by norm_num) (by norm_num) (by norm_num) (by norm_num)
    have c : 0 < Real.sqrt (7074237752028440 / 2 ^ 50) := by positivity
    rw [ieee_eq 5644425081792261 (-51) c.ne' (by norm_num)]
    · norm_num
    · rw [abs_of_pos c]; refine b.trans ?_; norm_num
    · right; rw [abs_of_pos c]; refine le_trans ?_ a.le; norm_num
    · refine lt_of_le_of_lt (le_of_eq ?_) a; norm_num
    · refine lt_of_lt_of_le b (le_of_eq ?_); norm_num
  · rw [ieee_eq 9007199254740992 (-53)]
    all_goals norm_num

theorem fl_le_one {y : ℝ} (h : y ≤ 1) : R.fl y ≤ 1 :=
  R.fl_le (.mk 1 0 (by norm_num) (by norm_num) (by norm_num)) h

theorem shareF_range {k n : ℕ} (hk : k ≤ n) (hn : n ≠ 0) :
    0 ≤ R.fl (natF R.fl k / natF R.fl n) ∧ R.fl (natF R.fl k / natF R.fl n) ≤ 1 := by
  have h1 : 0 ≤ natF R.fl k := R.fl_nonneg (Nat.cast_nonneg k)
  have h2 : natF R.fl k ≤ natF R.fl n := R.mono (by exact_mod_cast hk)
  have h3 := R.one_le_natF (n := n) (by omega)
  exact ⟨R.fl_nonneg (div_nonneg h1 (by linarith)), fl_le_one ((div_le_one (by linarith)).2 h2)⟩

theorem gaussDensityF_range {c : CV ℝ} (hc : c.Sound) {scale : ℝ} (hs : scale ≠ 0) {prob : ℝ} (h0 : 0 ≤ prob)
    (x shift : ℝ) : ∃ p, gaussDensityF R.fl c prob x shift scale = .ok p ∧ 0 ≤ p ∧
      (R.fl = ieee.fl → prob ≤ 1 → p ≤ 1) := by
  obtain ⟨std, q, e, h, hstd, rfl, hpos, he⟩ := gaussDensityF_eq (R := R) hc hs prob x shift
  have hq : 0 ≤ R.fl (1 / R.fl (R.fl (Real.sqrt (R.fl (2 * piF R.fl))) * std)) :=
    R.fl_nonneg (div_nonneg zero_le_one hpos.le)
  have hx : 0 ≤ expF R.fl e := R.fl_nonneg (Real.exp_pos _).le
  have hx1 : expF R.fl e ≤ 1 := fl_le_one (Real.exp_le_one_iff.2 he)
  have hpq := R.fl_nonneg (mul_nonneg h0 hq)
  refine ⟨_, h, R.fl_nonneg (mul_nonneg hpq hx), fun hR h1 => fl_le_one ?_⟩
  have hq1 : R.fl (1 / R.fl (R.fl (Real.sqrt (R.fl (2 * piF R.fl))) * std)) ≤ 1 := by
    refine fl_le_one ((div_le_one hpos).2 ?_)
    obtain ⟨d1, d2, d3, d4, d5⟩ := ieee_density
    rw [hR] at hstd ⊢
    rw [d2, d3] at hstd
    rw [d1, d4, ← d5]
    exact ieee.mono (mul_le_mul_of_nonneg_left hstd (by positivity))
  have h2 := fl_le_one (R := R) (mul_le_one₀ h1 hq hq1)
  exact mul_le_one₀ h2 hx hx1

/-- A scale the code computes is defined and not zero, when the attribute has an entry in the table of scales. -/
theorem probScaleF_ok {sc : Scales B} (hsc : SoundScales sc) {a : A} (h : sc.get? (cfg.inner a) ≠ none) :
    ∃ shift scale, probScaleF R.fl cfg sc a = .ok (shift, scale) ∧ scale ≠ 0 := by
  unfold probScaleF
  by_cases h0 : cfg.scaling = 0
  · exact ⟨0, 1, by rw [if_pos h0], one_ne_zero⟩
  · obtain ⟨c, hc⟩ := Option.ne_none_iff_exists'.1 h
    obtain ⟨⟨s, hsd, -, -⟩, -⟩ := (hsc _ _ hc).std (R := R)
    refine ⟨c.mean, _, by simp only [if_neg h0, hc, divF, hsd, ok_bind]; rfl, ?_⟩
    split
    · exact one_ne_zero
    · assumption

/-- **C100**, probabilities: in a fitted tree, `probability` of any concept, attribute and value (a string, a number,
or none) returns a number, whatever the rounding: the code neither divides by zero, takes the root of a negative
number, nor misses the attribute's scale.  The number is at least zero.  For a string or none it is the share of the
concept's instances with that value, rounded once.  For a number it is the value of a density and could exceed one;
under IEEE rounding it does not, because the largest possible factor rounds to exactly one. -/
theorem C100_probability (h : Reach3F R hid cfg st hist n) (hne : hist ≠ []) (hlen : hist.length ≤ 2 ^ 53)
    {x : Tree (Stats3 A V)} (hx : x ∈ st.root.nodes) (a : A) :
    ∃ m : Multiset (Inst3 A V), m ≤ hist ∧ m ≠ 0 ∧ Counts3 x.stats m ∧
      (x.stats.probabilityF R.fl cfg st.scales a none =
        .ok (R.fl ((m.countP fun i => Dict.get? i a = none : ℕ) / (Multiset.card m : ℕ)))) ∧
      (∀ v, x.stats.probabilityF R.fl cfg st.scales a (some (.nom v)) =
        .ok (R.fl ((m.countP fun i => Dict.get? i a = some (.nom v) : ℕ) / (Multiset.card m : ℕ)))) ∧
      (∀ y, (∀ i ∈ m, ∀ z, Dict.get? i a ≠ some (.num z)) →
        x.stats.probabilityF R.fl cfg st.scales a (some (.num y)) = .ok 0) ∧
      ∀ v, ∃ p, x.stats.probabilityF R.fl cfg st.scales a v = .ok p ∧ 0 ≤ p ∧ (R.fl = ieee.fl → p ≤ 1) := by
  obtain ⟨m, hm, hle, hm0⟩ := node_sum3F h hx
  replace hm0 := hm0 hne
  have hcard : Multiset.card m ≤ 2 ^ 53 := (card_le_hist hle).trans hlen
  have hc0 : Multiset.card m ≠ 0 := by simpa using hm0
  have e1 := probNoneF_eq (R := R) hm hm0 hcard a
  have e2 := fun v => probNomF_eq (R := R) hm hm0 a v
  have hnat : ∀ k ≤ Multiset.card m, natF R.fl k = k := fun k hk => R.natF_eq (hk.trans hcard)
  have hnum : ∀ y, (x.stats.cvOf a = none ∧ x.stats.probNumF R.fl cfg st.scales a y = .ok 0) ∨
      ∃ p, x.stats.probNumF R.fl cfg st.scales a y = .ok p ∧ 0 ≤ p ∧ (R.fl = ieee.fl → p ≤ 1) := by
    intro y
    have hcv : (x.stats.av.get? a).bind Tab.cv = x.stats.cvOf a := rfl
    unfold Stats3.probNumF
    rw [hcv]
    rcases hm.cv a with ⟨-, e⟩ | ⟨hn, c, e, hcn, hcs⟩
    · left; rw [e]; exact ⟨rfl, rfl⟩
    · right
      have hscale : st.scales.get? (cfg.inner a) ≠ none := by
        rw [C95_scales h, if_neg]
        · simp
        · simpa using scale_of_nums hle hn cfg.inner
      obtain ⟨shift, scale, es, hs0⟩ := probScaleF_ok (R := R) (cfg := cfg) (scales_sound (reach3F_insts h) (C95_scales h)) hscale
      have hle' : c.num ≤ Multiset.card m := by
        rw [hcn]; exact tally_le m a (some none)
      obtain ⟨s1, s2⟩ := shareF_range (R := R) hle' hc0
      obtain ⟨p, ep, p0, p1⟩ := gaussDensityF_range (R := R) hcs hs0 s1 y shift
      refine ⟨p, ?_, p0, fun hR => p1 hR s2⟩
      rw [e]
      simp only [hm.count, divF, if_neg (natF_ne_zero (R := R) hc0), ok_bind, es]
      exact ep
  refine ⟨m, hle, hm0, hm, ?_, ?_, ?_, ?_⟩
  · rw [← hnat _ (Multiset.countP_le_card _ _), ← hnat _ le_rfl]; exact e1
  · intro v
    rw [← hnat _ (Multiset.countP_le_card _ _), ← hnat _ le_rfl]; exact e2 v
  · intro y hy
    rcases hm.cv a with ⟨-, e⟩ | ⟨hn, -⟩
    · rcases hnum y with ⟨-, h'⟩ | -
      · exact h'
      · show x.stats.probNumF R.fl cfg st.scales a y = .ok 0
        have hcv : (x.stats.av.get? a).bind Tab.cv = none := e
        unfold Stats3.probNumF
        rw [hcv]
    · obtain ⟨z, hz⟩ := Multiset.exists_mem_of_ne_zero hn
      obtain ⟨i, hi, hg⟩ := mem_nums.1 hz
      exact absurd hg (hy i hi z)
  · rintro (_ | v | y)
    · exact ⟨_, e1, (shareF_range (Multiset.countP_le_card _ _) hc0).1,
        fun _ => (shareF_range (Multiset.countP_le_card _ _) hc0).2⟩
    · exact ⟨_, e2 v, (shareF_range (Multiset.countP_le_card _ _) hc0).1,
        fun _ => (shareF_range (Multiset.countP_le_card _ _) hc0).2⟩
    · rcases hnum y with ⟨-, h'⟩ | h'
      · exact ⟨0, h', le_rfl, fun _ => zero_le_one⟩
      · exact h'

/-! ### An overlap above one -/

/-- **C97**: under IEEE rounding the overlap of a constant accumulator with itself is not one, but the next float. -/
theorem C97_overlap_above_one {c : CV ℝ} (hc : CV.unbiasedStdF ieee.fl c = .ok 0) :
    CV.gaussOverlapF ieee.fl c c = .ok (1 + 1 / 2 ^ 52) := by
  obtain ⟨-, -, n3, n4, -, -, n7⟩ := ieee_noise
  have d1 := ieee_density.1
  have hsq : noisySqF ieee.fl 0 = 5734161139222658 / 2 ^ 56 := by
    unfold noisySqF noiseF
    rw [n3, mul_zero, ieee.fl_zero, zero_add,
      ieee.fix (show IsFloat (5734161139222659 / 2 ^ 56) from
        .mk 5734161139222659 (-56) (by norm_num) (by norm_num) (by norm_num)), n4, ieee_eq 5734161139222658 (-56)]
    all_goals norm_num
  have hsum : noisySumF ieee.fl 0 0 = 5734161139222658 / 2 ^ 55 := by
    unfold noisySumF
    rw [hsq]
    exact (ieee.fix (.mk 5734161139222658 (-55) (by norm_num) (by norm_num) (by norm_num))).trans (by norm_num)
  have hfac : factorF ieee.fl 0 0 = 1 + 1 / 2 ^ 52 := by
    have e1 : ieee.fl (7074237752028440 / 2 ^ 50 * (5734161139222658 / 2 ^ 55)) = 9007199254740991 / 2 ^ 53 := by
      rw [ieee_eq 9007199254740991 (-53)]
      all_goals norm_num
    have e2 : ieee.fl (Real.sqrt (9007199254740991 / 2 ^ 53)) = 9007199254740991 / 2 ^ 53 := by
      have a : (9007199254740991 - 1 / 2) / 2 ^ 53 < Real.sqrt (9007199254740991 / 2 ^ 53) :=
        Real.lt_sqrt_of_sq_lt (by norm_num)
      have b : Real.sqrt (9007199254740991 / 2 ^ 53) < (9007199254740991 + 1 / 2) / 2 ^ 53 :=
        (Real.sqrt_lt' (by norm_num)).2 (by norm_num)
      have c : 0 < Real.sqrt (9007199254740991 / 2 ^ 53) := Real.sqrt_pos.2 (by norm_num)
      rw [ieee_eq 9007199254740991 (-53) c.ne' (by norm_num)]
      · norm_num
      · rw [abs_of_pos c]; refine b.trans ?_; norm_num
      · right; rw [abs_of_pos c]; refine le_trans ?_ a.le; norm_num
      · refine lt_of_le_of_lt (le_of_eq ?_) a; norm_num
      · refine lt_of_lt_of_le b (le_of_eq ?_); norm_num
    unfold factorF
    rw [hsum, d1, e1, e2, n7]
  have hexp : exponentF ieee.fl 0 0 0 = 0 := by
    simp [exponentF, ieee.fl_zero]
  have f1 : IsFloat 1 := .mk 1 0 (by norm_num) (by norm_num) (by norm_num)
  rw [gaussOverlapF_eq hc hc, sub_self, hfac, hexp, expF, Real.exp_zero, ieee.fix f1, mul_one,
    ieee.fix (.mk 4503599627370497 (-52) (by norm_num) (by norm_num) (by norm_num))]

theorem log_next_one : (2 : ℝ) ^ (-53 : ℤ) ≤ Real.log (1 + 1 / 2 ^ 52) := by
  have h := Real.one_sub_inv_le_log_of_pos (show (0 : ℝ) < 1 + 1 / 2 ^ 52 by norm_num)
  refine le_trans ?_ h
  norm_num

/-- **C97**: under IEEE rounding a log-likelihood can be positive.  After fitting one number (any number of times),
the likelihood of the concept under itself is computed as more than one.  Exactly, no log-likelihood is positive
(`C68_log_likelihood_nonpos`). -/
theorem C97_positive {a : A} (ha : hid a = false) {k : ℕ} (h0 : k ≠ 0) (hk : k ≤ 2 ^ 53)
    (h : Reach3F ieee hid cfg st (List.replicate k [(a, .num 0)]) n) :
    ∀ as vals, as.Perm (llAttrs3 hid st.root.stats st.root.stats) →
      (∀ a, (vals a).Perm (llVals3 st.root.stats st.root.stats a)) →
      ∃ ll, logLikelihoodF ieee.fl st.root.stats st.root.stats vals as 0 = .ok ll ∧ 0 < ll := by
  obtain ⟨id, hroot⟩ := zeros_root ha k h
  rw [hroot]
  intro as vals has hvals
  simp only [Tree.stats_node, if_neg h0] at has hvals ⊢
  have f1 : IsFloat 1 := .mk 1 0 (by norm_num) (by norm_num) (by norm_num)
  have hkr : (k : ℝ) ≠ 0 := by exact_mod_cast h0
  have hn := ieee.natF_eq hk
  have hnone : llKeyF ieee.fl (⟨k, [(a, ⟨[], some ⟨k, 0, 0⟩⟩)]⟩ : Stats3 A V)
      ⟨k, [(a, ⟨[], some ⟨k, 0, 0⟩⟩)]⟩ a none = .ok 0 := by
    simp [llKeyF, llNomF, Stats3.probNoneF, Dict.get?, Tab.total, Tab.entries, hn, divF, ieee.fl_zero, ok_bind, hkr]
    rfl
  have hnum : llKeyF ieee.fl (⟨k, [(a, ⟨[], some ⟨k, 0, 0⟩⟩)]⟩ : Stats3 A V)
      ⟨k, [(a, ⟨[], some ⟨k, 0, 0⟩⟩)]⟩ a (some none) = .ok (ieee.fl (Real.log (1 + 1 / 2 ^ 52))) := by
    have hpos : (1 + 1 / 2 ^ 52 : ℝ) > 0 := by norm_num
    simp only [llKeyF, llNumF, Dict.get?, if_true, Option.bind_some, divF, hn, if_neg hkr, ok_bind,
      C97_overlap_above_one (c := ⟨k, 0, 0⟩) (unbiasedStdF_zero rfl), div_self hkr, mul_one, one_mul, ieee.fix f1,
      ieee.fix (show IsFloat (1 + 1 / 2 ^ 52) from
        .mk 4503599627370497 (-52) (by norm_num) (by norm_num) (by norm_num)), if_pos hpos]
    rfl
  have hattrs : as = [a] := by
    have : llAttrs3 hid (⟨k, [(a, ⟨[], some ⟨k, 0, 0⟩⟩)]⟩ : Stats3 A V)
        ⟨k, [(a, ⟨[], some ⟨k, 0, 0⟩⟩)]⟩ = [a] := by
      simp [llAttrs3, Stats3.visible, Dict.keys, ha]
    rw [this] at has
    exact List.perm_singleton.1 has
  have hv := hvals a
  have hv' : llVals3 (⟨k, [(a, ⟨[], some ⟨k, 0, 0⟩⟩)]⟩ : Stats3 A V)
      ⟨k, [(a, ⟨[], some ⟨k, 0, 0⟩⟩)]⟩ a = [none, some none] := by
    simp [llVals3, Stats3.keysOf, Dict.get?, Tab.entries]
  rw [hv'] at hv
  have hv2 : vals a = [none, some none] ∨ vals a = [some none, none] := by
    generalize vals a = l at hv
    have hl := hv.length_eq
    match l, hl with
    | [x, y], _ =>
      have hx : x = none ∨ x = some none := by simpa using hv.mem_iff.1 (show x ∈ [x, y] by simp)
      have hy : y = none ∨ y = some none := by simpa using hv.mem_iff.1 (show y ∈ [x, y] by simp)
      have hnd : [x, y].Nodup := hv.nodup_iff.2 (by simp)
      rcases hx with rfl | rfl <;> rcases hy with rfl | rfl <;> simp_all
  subst hattrs
  have hfix : ieee.fl (ieee.fl (Real.log (1 + 1 / 2 ^ 52))) = ieee.fl (Real.log (1 + 1 / 2 ^ 52)) :=
    ieee.fix (ieee.float _)
  refine ⟨ieee.fl (Real.log (1 + 1 / 2 ^ 52)), ?_, lt_of_lt_of_le (by positivity)
    (ieee.le_fl (two_zpow_float (e := -53) (by norm_num)) log_next_one)⟩
  simp only [logLikelihoodF]
  rcases hv2 with e | e <;> rw [e] <;>
    simp only [llInner3F, hnone, hnum, ok_bind, zero_add, add_zero, ieee.fl_zero, hfix]

end CF
