/-
Expected correct guesses of Cobweb/3 on instances with two numbers, and rational bounds for them.
-/
import Verif.Props.Cobweb3CU
import Mathlib.Analysis.Real.Pi.Bounds

namespace CF

/-- The instance with the numbers `p.1` under attribute 0 and `p.2` under attribute 1. -/
def planePt (p : ℝ × ℝ) : Inst3 ℕ ℕ := [(0, .num p.1), (1, .num p.2)]

/-- The instances of a list of points. -/
def planePts (l : List (ℝ × ℝ)) : Multiset (Inst3 ℕ ℕ) := ((l.map planePt : List _) : Multiset _)

theorem planePts_cons (p : ℝ × ℝ) (l : List (ℝ × ℝ)) : planePts (p :: l) = planePt p ::ₘ planePts l := rfl

theorem planePts_nil : planePts [] = 0 := rfl

theorem mem_planePts {l : List (ℝ × ℝ)} {i : Inst3 ℕ ℕ} : i ∈ planePts l ↔ ∃ p ∈ l, planePt p = i := by
  simp [planePts]

theorem card_planePts (l : List (ℝ × ℝ)) : Multiset.card (planePts l) = l.length := by simp [planePts]

theorem nums_planePts0 (l : List (ℝ × ℝ)) : nums (planePts l) 0 = (l.map Prod.fst : List ℝ) := by
  induction l with
  | nil => rfl
  | cons p l ih =>
    rw [planePts_cons, nums, Multiset.filterMap_cons_some _ _ _ (b := p.1) (by rfl), ← nums, ih]
    rfl

theorem nums_planePts1 (l : List (ℝ × ℝ)) : nums (planePts l) 1 = (l.map Prod.snd : List ℝ) := by
  induction l with
  | nil => rfl
  | cons p l ih =>
    rw [planePts_cons, nums, Multiset.filterMap_cons_some _ _ _ (b := p.2) (by rfl), ← nums, ih]
    rfl

theorem nomVals_planePts (l : List (ℝ × ℝ)) (a : ℕ) : nomVals (planePts l) a = ∅ := by
  ext v
  rw [mem_nomVals]
  simp only [Finset.notMem_empty, iff_false]
  rintro ⟨i, hi, hv⟩
  obtain ⟨p, -, rfl⟩ := mem_planePts.1 hi
  simp only [planePt, Dict.get?] at hv
  split at hv
  · simp at hv
  · split at hv
    · simp at hv
    · simp at hv

theorem visAttrs_planePts {l : List (ℝ × ℝ)} (h : l ≠ []) : visAttrs Demo.hid (planePts l) = {0, 1} := by
  obtain ⟨p, l, rfl⟩ := List.exists_cons_of_ne_nil h
  ext a
  simp only [visAttrs, Finset.mem_filter, mem_attrsOf, Finset.mem_insert, Finset.mem_singleton]
  constructor
  · rintro ⟨⟨i, hi, ha⟩, -⟩
    obtain ⟨q, -, rfl⟩ := mem_planePts.1 hi
    simpa [planePt, Dict.keys] using ha
  · intro ha
    refine ⟨⟨planePt p, mem_planePts.2 ⟨p, by simp, rfl⟩, by simpa [planePt, Dict.keys] using ha⟩, ?_⟩
    rcases ha with rfl | rfl <;> decide

theorem scaleNums_plane0 (h : List (ℝ × ℝ)) : scaleNums id (h.map planePt) 0 = h.map Prod.fst := by
  induction h with
  | nil => rfl
  | cons p h ih =>
    have : scaleNums id ([planePt p] ++ h.map planePt) 0 = p.1 :: h.map Prod.fst := by
      rw [scaleNums_append, ih]; rfl
    simpa using this

theorem scaleNums_plane1 (h : List (ℝ × ℝ)) : scaleNums id (h.map planePt) 1 = h.map Prod.snd := by
  induction h with
  | nil => rfl
  | cons p h ih =>
    have : scaleNums id ([planePt p] ++ h.map planePt) 1 = p.2 :: h.map Prod.snd := by
      rw [scaleNums_append, ih]; rfl
    simpa using this

/-- The corrected variance of a list of numbers. -/
noncomputable def listVar (l : List ℝ) : ℝ := sampleStd (l : Multiset ℝ) ^ 2

theorem listVar_single (x : ℝ) : listVar [x] = 0 := by simp [listVar, sampleStd]

theorem listVar_eq {l : List ℝ} {c : ℚ} (hl : 2 ≤ l.length) (hc : c4Table.get? l.length = some c) :
    listVar l = (l.map fun x => (x - l.sum / l.length) ^ 2).sum / (l.length - 1) / (c : ℝ) ^ 2 := by
  have h0 : 0 ≤ (l.map fun x => (x - l.sum / l.length) ^ 2).sum :=
    List.sum_nonneg (by simp only [List.mem_map]; rintro _ ⟨x, -, rfl⟩; positivity)
  have h1 : (0 : ℝ) ≤ (l.length : ℝ) - 1 := by
    have : (2 : ℝ) ≤ l.length := by exact_mod_cast hl
    linarith
  unfold listVar sampleStd
  rw [Multiset.coe_card, if_neg (by omega), hc]
  simp only [Option.getD_some, sqDev, sampleMean, Multiset.map_coe, Multiset.sum_coe, Multiset.coe_card]
  rw [div_pow, Real.sq_sqrt (div_nonneg h0 h1)]

/-- The contribution of an attribute whose numbers have variance `v`, all numbers seen so far variance `w`,
with scaling 1/2. -/
noncomputable def guess (v w : ℝ) : ℝ := 1 / Real.sqrt (1 + Real.pi * (v / w))

theorem numTerm_guess {l : List (ℝ × ℝ)} {a : ℕ} {xs : List ℝ} (hl : l ≠ []) (hx : nums (planePts l) a = xs)
    (hlen : xs.length = l.length) {s : ℝ} (hs : 0 < s) :
    numTerm (2 * s) (planePts l) a = guess (listVar xs) (s ^ 2) := by
  have hc : (l.length : ℝ) ≠ 0 := by
    have := List.length_pos_of_ne_nil hl
    exact_mod_cast this.ne'
  unfold numTerm guess
  rw [hx, Multiset.coe_card, card_planePts, hlen, div_self hc, one_pow, one_mul, listVar]
  have hpi := Real.pi_pos
  congr 1
  rw [show (2 : ℝ) = Real.sqrt 4 by
      rw [show (4 : ℝ) = 2 ^ 2 by norm_num, Real.sqrt_sq (by norm_num)],
    ← Real.sqrt_mul (by norm_num), ← Real.sqrt_mul (by positivity)]
  congr 1
  rw [div_pow, mul_pow, Real.sq_sqrt (by norm_num)]
  field_simp
  ring

/-- The scales of a history of points. -/
noncomputable def planeScale (h : List (ℝ × ℝ)) (b : ℕ) : Multiset ℝ :=
  (scaleNums id (h.map planePt) b : Multiset ℝ)

/-- The parameters of the example: `scaling = 1/2`. -/
noncomputable def planeCfg : Cfg3 ℕ ℕ := ⟨1 / 2, id⟩

/-- Expected correct guesses of the points `l` after the history `h`. -/
noncomputable def planeEcg (h l : List (ℝ × ℝ)) : ℝ :=
  (guess (listVar (l.map Prod.fst)) (listVar (h.map Prod.fst)) +
    guess (listVar (l.map Prod.snd)) (listVar (h.map Prod.snd))) / 2

theorem effScale_plane {h : List (ℝ × ℝ)} {a : ℕ} {xs : List ℝ} (hx : scaleNums id (h.map planePt) a = xs)
    (hv : 0 < listVar xs) :
    effScale planeCfg (planeScale h) a = 2 * sampleStd (xs : Multiset ℝ) ∧ 0 < sampleStd (xs : Multiset ℝ) := by
  have h0 : 0 < sampleStd (xs : Multiset ℝ) := by
    rcases (sampleStd_nonneg (xs : Multiset ℝ)).eq_or_lt with e | e
    · rw [listVar, ← e] at hv; norm_num at hv
    · exact e
  refine ⟨?_, h0⟩
  have hne : ¬ ((1 / 2 : ℝ) = 0 ∨ (xs : Multiset ℝ) = 0) := by
    rintro (e | e)
    · norm_num at e
    · rw [e] at h0; simp [sampleStd] at h0
  unfold effScale planeScale planeCfg
  simp only [id]
  rw [hx, if_neg hne, if_neg (by norm_num; exact h0)]
  norm_num

theorem ecgSpec3_plane {h l : List (ℝ × ℝ)} (hl : l ≠ []) (h0 : 0 < listVar (h.map Prod.fst))
    (h1 : 0 < listVar (h.map Prod.snd)) :
    ecgSpec3 Demo.hid planeCfg (planeScale h) (planePts l) = planeEcg h l := by
  obtain ⟨e0, p0⟩ := effScale_plane (scaleNums_plane0 h) h0
  obtain ⟨e1, p1⟩ := effScale_plane (scaleNums_plane1 h) h1
  unfold ecgSpec3 planeEcg
  rw [visAttrs_planePts hl, Finset.sum_pair (by norm_num), nomVals_planePts, nomVals_planePts, e0, e1,
    numTerm_guess hl (nums_planePts0 l) (by simp) p0, numTerm_guess hl (nums_planePts1 l) (by simp) p1]
  simp [listVar]

theorem guess_bounds {v w lo hi : ℝ} (hv : 0 ≤ v) (hw : 0 < w) (hlo : 0 ≤ lo) (hhi : 0 < hi)
    (h1 : lo ^ 2 * (w + 3.1416 * v) ≤ w) (h2 : w ≤ hi ^ 2 * (w + 3.1415 * v)) :
    lo ≤ guess v w ∧ guess v w ≤ hi := by
  have hpi := Real.pi_gt_d4
  have hpi' := Real.pi_lt_d4
  have hq : 0 ≤ v / w := div_nonneg hv hw.le
  have hs : 0 < 1 + Real.pi * (v / w) := by positivity
  have hsq := Real.sqrt_pos.2 hs
  unfold guess
  constructor
  · rw [le_div_iff₀ hsq]
    rw [← Real.sqrt_sq hlo, ← Real.sqrt_mul (by positivity)]
    refine (Real.sqrt_le_sqrt (y := 1) ?_).trans Real.sqrt_one.le
    rw [show 1 + Real.pi * (v / w) = (w + Real.pi * v) / w by field_simp, ← mul_div_assoc, div_le_one hw]
    refine le_trans ?_ h1
    gcongr
  · rw [div_le_iff₀ hsq]
    rw [← Real.sqrt_sq hhi.le, ← Real.sqrt_mul (by positivity), Real.one_le_sqrt]
    rw [show 1 + Real.pi * (v / w) = (w + Real.pi * v) / w by field_simp, ← mul_div_assoc, one_le_div hw]
    refine le_trans h2 ?_
    gcongr

end CF
