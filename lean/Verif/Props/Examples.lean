/-
C80: `moving_average` and `avg_lines` of the example scripts.
C81: `lowess` is a locally weighted linear regression.
-/
import Verif.Model.Examples
import Verif.Proofs.Choose
import Mathlib.Algebra.Order.BigOperators.Group.Finset
import Mathlib.Algebra.BigOperators.Ring.Finset
import Mathlib.Algebra.BigOperators.Group.List.Lemmas
import Mathlib.Tactic.Linarith
import Mathlib.Tactic.FieldSimp
import Mathlib.Tactic.Ring
import Mathlib.Tactic.NormNum
import Mathlib.Tactic.FinCases
import Mathlib.Data.Fin.VecNotation

namespace CF

/-! ### C80: moving averages -/

lemma length_cumsum (l : List ℝ) (acc : ℝ) : (cumsum acc l).length = l.length := by
  induction l generalizing acc with
  | nil => rfl
  | cons x l ih => simp [cumsum, ih]

lemma getElem_cumsum (l : List ℝ) (acc : ℝ) (i : ℕ) (h : i < (cumsum acc l).length) :
    (cumsum acc l)[i] = acc + (l.take (i + 1)).sum := by
  induction l generalizing acc i with
  | nil => simp [cumsum] at h
  | cons x l ih =>
    cases i with
    | zero => simp [cumsum]
    | succ i => simp only [cumsum, List.getElem_cons_succ, List.take_succ_cons, List.sum_cons]
                rw [ih]; ring

lemma movingAverage_pos (a : List ℝ) (n : ℕ) (hn : 0 < n) :
    movingAverage a n = .ok ((((cumsum 0 a).take n ++ List.zipWith (· - ·) ((cumsum 0 a).drop n)
      ((cumsum 0 a).take ((cumsum 0 a).length - n))).drop (n - 1)).map fun s => s / (n : ℝ)) := by
  have h0 : n ≠ 0 := by omega
  have hl : ((cumsum 0 a).drop n).length = (sliceTo (cumsum 0 a) n).length := by
    simp [sliceTo, h0]
  have hl2 : (List.zipWith (· - ·) ((cumsum 0 a).drop n) (sliceTo (cumsum 0 a) n)).length
      = ((cumsum 0 a).drop n).length := by
    simp only [List.length_zipWith, ← hl, min_self]
  simp only [movingAverage, npSub, hl, if_true, bind, Except.bind, pure, Except.pure]
  rw [← hl, if_pos hl2]
  simp [sliceFrom, sliceTo, h0]

/-- **C80.** For a window of at least one value, `moving_average` returns one number for every
window of `n` consecutive values, in order: the average of that window. -/
theorem C80_moving_average (a : List ℝ) (n : ℕ) (hn : 0 < n) :
    ∃ l, movingAverage a n = .ok l ∧ l.length = a.length + 1 - n ∧
      ∀ (i : ℕ) (h : i < l.length), l[i] = ((a.drop i).take n).sum / (n : ℝ) := by
  refine ⟨_, movingAverage_pos a n hn, ?_, ?_⟩
  · simp [length_cumsum]; omega
  intro i h
  have hi : i + n ≤ a.length := by
    simp [length_cumsum] at h; omega
  simp only [List.getElem_map, List.getElem_drop]
  congr 1
  have key : ∀ j m : ℕ, (a.take (j + m)).sum = (a.take j).sum + ((a.drop j).take m).sum := by
    intro j m
    rw [List.take_add, List.sum_append]
  rw [List.getElem_append]
  split
  · rename_i hlt
    simp only [List.length_take, length_cumsum] at hlt
    have : i = 0 := by omega
    subst this
    simp only [List.getElem_take, getElem_cumsum]
    simp [Nat.sub_add_cancel hn]
  · rename_i hge
    simp only [List.length_take, length_cumsum] at hge
    have hmin : min n a.length = n := by omega
    simp only [List.getElem_zipWith, List.getElem_drop, List.getElem_take, getElem_cumsum,
      List.length_take, length_cumsum, hmin]
    have e1 : n + (n - 1 + i - n) + 1 = i + n := by omega
    have e2 : n - 1 + i - n + 1 = i := by omega
    rw [e1, e2, key i n]; ring

example : movingAverage [1, 2, 6, 4] 3 = .ok [3, 4] := by
  rw [movingAverage_pos _ _ (by norm_num)]
  norm_num [cumsum]

/-- **C80.** A window of no values raises `ValueError`, unless there are no values at all. -/
theorem C80_moving_zero (a : List ℝ) (ha : a ≠ []) : movingAverage a 0 = .error .valueErr := by
  match a, ha with
  | [x], _ => simp [movingAverage, npSub, cumsum, sliceTo, bind, Except.bind]
  | x :: y :: l, _ => simp [movingAverage, npSub, cumsum, sliceTo, bind, Except.bind]

/-! ### C80: averages of the values at equal positions -/

section
variable {α : Type} [DecidableEq α]

/-- The values of `y` at the positions where `x` is `a`. -/
def groupOf (x : List α) (y : List ℝ) (a : α) : List ℝ :=
  ((x.zip y).filter fun p => decide (p.1 = a)).map Prod.snd

lemma valuesAt_ok (a : α) (x : List α) (y : List ℝ) (h : y.length ≤ x.length) :
    valuesAt a x y = .ok (groupOf x y a) := by
  induction x generalizing y with
  | nil => cases y with
    | nil => rfl
    | cons _ _ => simp at h
  | cons b x ih => cases y with
    | nil => rfl
    | cons v y =>
      simp only [valuesAt, ih y (by simpa using h), bind, Except.bind, pure, Except.pure, groupOf,
        List.zip_cons_cons, List.filter_cons]
      split <;> simp_all

lemma valuesAt_error (a : α) (x : List α) (y : List ℝ) (h : x.length < y.length) :
    valuesAt a x y = .error .indexErr := by
  induction x generalizing y with
  | nil => cases y with
    | nil => simp at h
    | cons _ _ => rfl
  | cons b x ih => cases y with
    | nil => simp at h
    | cons v y => simp only [valuesAt, ih y (by simpa using h), bind, Except.bind]

lemma avgLoop_ok (tq : ℕ → ℝ) (x : List α) (y : List ℝ) (h : y.length ≤ x.length) (l : List α) :
    avgLoop tq x y l = .ok (l.map fun a => meanConfidence tq (groupOf x y a)) := by
  induction l with
  | nil => rfl
  | cons a l ih => simp only [avgLoop, valuesAt_ok a x y h, ih, bind, Except.bind, pure,
      Except.pure, List.map_cons]

/-- What `avg_lines` shows at a position whose group of values is `g`: nothing for an empty group,
the value without bounds for one value, and otherwise the average `m` and the bounds
`m ∓ q·s/√k`, where `s` is the sample standard deviation and `k` the size of the group. -/
def ShowsMean (tq : ℕ → ℝ) (g : List ℝ) (m lo up : Option ℝ) : Prop :=
  (g = [] ∧ m = none ∧ lo = none ∧ up = none) ∨
  (∃ v, g = [v] ∧ m = some v ∧ lo = none ∧ up = none) ∨
  (2 ≤ g.length ∧ ∃ a s : ℝ, (g.length : ℝ) * a = g.sum ∧ 0 ≤ s ∧
    ((g.length : ℝ) - 1) * s ^ 2 = (g.map fun v => (v - a) ^ 2).sum ∧
    m = some a ∧ lo = some (a - s / Real.sqrt g.length * tq (g.length - 1)) ∧
    up = some (a + s / Real.sqrt g.length * tq (g.length - 1)))

lemma meanConfidence_shows (tq : ℕ → ℝ) (g : List ℝ) :
    ShowsMean tq g (meanConfidence tq g).1 (meanConfidence tq g).2.1 (meanConfidence tq g).2.2 := by
  match g with
  | [] => left; simp [meanConfidence, npMean]
  | [v] => right; left; exact ⟨v, rfl, by simp [meanConfidence, npMean, sem]⟩
  | v :: w :: g =>
    right; right
    set l := v :: w :: g with hl
    have h2 : 2 ≤ l.length := by simp [hl]
    have hc : (2 : ℝ) ≤ (l.length : ℝ) := by exact_mod_cast h2
    have h0 : l.length ≠ 0 := by omega
    have h1 : ¬ l.length ≤ 1 := by omega
    have hnn : 0 ≤ (l.map fun v => (v - l.sum / (l.length : ℝ)) * (v - l.sum / (l.length : ℝ))).sum := by
      apply List.sum_nonneg
      intro z hz
      obtain ⟨u, -, rfl⟩ := List.mem_map.1 hz
      exact mul_self_nonneg _
    refine ⟨h2, l.sum / (l.length : ℝ), Real.sqrt ((l.map fun v => (v - l.sum / (l.length : ℝ)) *
      (v - l.sum / (l.length : ℝ))).sum / ((l.length : ℝ) - 1)), ?_, Real.sqrt_nonneg _, ?_, ?_, ?_, ?_⟩
    · field_simp
    · rw [Real.sq_sqrt (div_nonneg hnn (by linarith))]
      have : (l.length : ℝ) - 1 ≠ 0 := by linarith
      rw [mul_div_cancel₀ _ this]
      congr 1
      apply List.map_congr_left
      intro z _; ring
    · simp only [meanConfidence, npMean, if_neg h0]
    · simp only [meanConfidence, npMean, if_neg h0, sem, if_neg h1, Option.bind_some, Option.map_some]
    · simp only [meanConfidence, npMean, if_neg h0, sem, if_neg h1, Option.bind_some, Option.map_some]

lemma avgLines_ok (tq : ℕ → ℝ) (x : List α) (y : List ℝ) (h : y.length ≤ x.length) :
    avgLines tq x y = .ok ((x.map fun a => meanConfidence tq (groupOf x y a)).map (·.1),
      (x.map fun a => meanConfidence tq (groupOf x y a)).map (·.2.1),
      (x.map fun a => meanConfidence tq (groupOf x y a)).map (·.2.2)) := by
  simp only [avgLines, avgLoop_ok tq x y h, bind, Except.bind, pure, Except.pure]

/-- **C80.** `avg_lines` returns, at every position `i`, the average of the values whose position
has the same `x` and the confidence bounds of that average. -/
theorem C80_avg_lines (tq : ℕ → ℝ) (x : List α) (y : List ℝ) (h : y.length ≤ x.length) :
    ∃ m lo up, avgLines tq x y = .ok (m, lo, up) ∧ m.length = x.length ∧ lo.length = x.length ∧
      up.length = x.length ∧
      ∀ (i : ℕ) (hi : i < x.length) (hm : i < m.length) (hl : i < lo.length) (hu : i < up.length),
        ShowsMean tq (groupOf x y x[i]) m[i] lo[i] up[i] := by
  refine ⟨_, _, _, avgLines_ok tq x y h, by simp, by simp, by simp, ?_⟩
  intro i hi hm hl hu
  simpa using meanConfidence_shows tq (groupOf x y x[i])

/-- **C80.** With more values than positions, `avg_lines` raises `IndexError`. -/
theorem C80_avg_raises (tq : ℕ → ℝ) (x : List α) (y : List ℝ) (hx : x ≠ [])
    (h : x.length < y.length) : avgLines tq x y = .error .indexErr := by
  match x, hx with
  | a :: l, _ =>
    rw [avgLines, avgLoop, valuesAt_error a (a :: l) y h]
    rfl

lemma sum_swap {β γ : Type} (l : List β) (m : List γ) (f : β → γ → ℝ) :
    (l.map fun a => (m.map fun b => f a b).sum).sum
      = (m.map fun b => (l.map fun a => f a b).sum).sum := by
  induction l with
  | nil => simp
  | cons a l ih => simp [ih, List.sum_map_add]

lemma sum_filter_eq {β : Type} (l : List β) (p : β → Bool) (f : β → ℝ) :
    ((l.filter p).map f).sum = (l.map fun b => if p b then f b else 0).sum := by
  induction l with
  | nil => simp
  | cons b l ih => by_cases h : p b <;> simp [h, ih]

/-- **C80.** Averaging moves nothing: with as many values as positions, the averages returned by
`avg_lines` are numbers and have the same sum as the values. -/
theorem C80_avg_total (tq : ℕ → ℝ) (x : List α) (y : List ℝ) (h : y.length = x.length)
    (m lo up : List (Option ℝ)) (hr : avgLines tq x y = .ok (m, lo, up)) :
    ∃ r : List ℝ, m = r.map some ∧ r.sum = y.sum := by
  rw [avgLines_ok tq x y h.le] at hr
  simp only [Except.ok.injEq, Prod.mk.injEq] at hr
  obtain ⟨rfl, -, -⟩ := hr
  have hx : x = (x.zip y).map Prod.fst := by rw [List.map_fst_zip]; omega
  have hy : y = (x.zip y).map Prod.snd := by rw [List.map_snd_zip]; omega
  have hlen : ∀ p ∈ x.zip y, (groupOf x y p.1).length ≠ 0 := by
    intro p hp h0
    have : p.2 ∈ groupOf x y p.1 :=
      List.mem_map.2 ⟨p, List.mem_filter.2 ⟨hp, by simp⟩, rfl⟩
    rw [List.eq_nil_of_length_eq_zero h0] at this
    simp at this
  refine ⟨(x.zip y).map fun p => (groupOf x y p.1).sum / ((groupOf x y p.1).length : ℝ), ?_, ?_⟩
  · conv_lhs => rw [List.map_map, hx]
    rw [List.map_map, List.map_map]
    apply List.map_congr_left
    intro p hp
    simp only [Function.comp_apply, meanConfidence, npMean, ← hx, if_neg (hlen p hp)]
  · have e : ∀ p ∈ x.zip y, (groupOf x y p.1).sum / ((groupOf x y p.1).length : ℝ)
        = ((x.zip y).map fun q => if q.1 = p.1 then q.2 / ((groupOf x y q.1).length : ℝ) else 0).sum := by
      intro p _
      have : (groupOf x y p.1).sum
          = ((x.zip y).map fun q => if q.1 = p.1 then q.2 else 0).sum := by
        simpa [groupOf] using sum_filter_eq (x.zip y) (fun q => decide (q.1 = p.1)) Prod.snd
      rw [this, div_eq_mul_inv, ← List.sum_map_mul_right]
      congr 1
      apply List.map_congr_left
      intro q _
      by_cases hq : q.1 = p.1 <;> simp [hq, div_eq_mul_inv]
    rw [List.map_congr_left e, sum_swap]
    conv_rhs => rw [hy]
    congr 1
    apply List.map_congr_left
    intro q hq
    have hc : ((x.zip y).map fun p => if q.1 = p.1 then (1 : ℝ) else 0).sum
        = ((groupOf x y q.1).length : ℝ) := by
      have := sum_filter_eq (x.zip y) (fun p => decide (p.1 = q.1)) fun _ => (1 : ℝ)
      simp only [List.map_const', List.sum_replicate, nsmul_eq_mul, mul_one, decide_eq_true_eq] at this
      rw [groupOf, List.length_map, this]
      congr 1
      apply List.map_congr_left
      intro p _
      simp only [eq_comm]
    have hs : ∀ p ∈ x.zip y, (if q.1 = p.1 then q.2 / ((groupOf x y q.1).length : ℝ) else 0)
        = (q.2 / ((groupOf x y q.1).length : ℝ)) * (if q.1 = p.1 then (1 : ℝ) else 0) := by
      intro p _
      by_cases hq : q.1 = p.1 <;> simp [hq]
    rw [List.map_congr_left hs, List.sum_map_mul_left, hc]
    have := hlen q hq
    field_simp

end

/-- The hypotheses of C80 are met: two values at position 1, one at position 2. -/
example : ∃ m lo up, avgLines (fun _ => 2) [1, 2, 1] [3, 4, 5] = .ok (m, lo, up) ∧
    m = [some 4, some 4, some 4] ∧ lo.length = 3 ∧ up.length = 3 := by
  refine ⟨_, _, _, avgLines_ok _ _ _ (by simp), ?_, by simp, by simp⟩
  norm_num [meanConfidence, npMean, groupOf]

/-! ### C81: `lowess` -/

lemma eachIdx_ok {α : Type} : ∀ {n : ℕ} (f : Fin n → Res α) (g : Fin n → α),
    eachIdx f = .ok g ↔ ∀ i, f i = .ok (g i)
  | 0, f, g => by
    simp only [eachIdx]
    exact ⟨fun _ i => i.elim0, fun _ => congrArg _ (funext fun i => i.elim0)⟩
  | n + 1, f, g => by
    constructor
    · intro h
      simp only [eachIdx] at h
      obtain ⟨a, ha, h⟩ := bind_ok.1 h
      obtain ⟨t, ht, h⟩ := bind_ok.1 h
      cases h
      intro i
      refine Fin.cases ?_ ?_ i
      · simpa using ha
      · intro j; simpa using (eachIdx_ok _ _).1 ht j
    · intro h
      simp only [eachIdx]
      rw [h 0, (eachIdx_ok (fun i => f i.succ) (fun i => g i.succ)).2 fun i => h i.succ]
      show Except.ok _ = _
      congr 1
      funext i
      refine Fin.cases ?_ ?_ i <;> simp

lemma eachIdx_total {α : Type} {n : ℕ} (f : Fin n → Res α) (h : ∀ i, ∃ a, f i = .ok a) :
    ∃ g, eachIdx f = .ok g := by
  choose g hg using h
  exact ⟨g, (eachIdx_ok f g).2 hg⟩

lemma eachIdx_error {α : Type} : ∀ {n : ℕ} (f : Fin n → Res α) (e : PyErr),
    eachIdx f = .error e → ∃ i, f i = .error e
  | 0, f, e, h => by simp [eachIdx] at h
  | n + 1, f, e, h => by
    simp only [eachIdx] at h
    cases h0 : f 0 with
    | error e' =>
      rw [h0] at h
      cases h
      exact ⟨0, h0⟩
    | ok a =>
      rw [h0] at h
      change (eachIdx (fun i => f i.succ) >>= fun g => pure (Fin.cons a g : Fin (n + 1) → α))
        = .error e at h
      cases h1 : eachIdx (fun i => f i.succ) with
      | error e' =>
        rw [h1] at h
        cases h
        obtain ⟨i, hi⟩ := eachIdx_error _ _ h1
        exact ⟨i.succ, hi⟩
      | ok g => rw [h1] at h; cases h

/-- `v` has rank `r` among the numbers `f k`: at most `r` of them are smaller and more than `r` of
them are at most `v`.  So `v` is the number at index `r` of the sorted list. -/
def RankOf {n : ℕ} (f : Fin n → ℝ) (r : ℕ) (v : ℝ) : Prop :=
  (List.finRange n).countP (fun k => decide (f k < v)) ≤ r ∧
    r < (List.finRange n).countP fun k => decide (f k ≤ v)

lemma RankOf.unique {n : ℕ} {f : Fin n → ℝ} {r : ℕ} {v w : ℝ} (hv : RankOf f r v)
    (hw : RankOf f r w) : v = w := by
  have key : ∀ {a b : ℝ}, RankOf f r a → RankOf f r b → ¬ a < b := by
    intro a b ha hb hab
    have : (List.finRange n).countP (fun k => decide (f k ≤ a))
        ≤ (List.finRange n).countP fun k => decide (f k < b) := by
      apply List.countP_mono_left
      intro k _ hk
      simp only [decide_eq_true_eq] at hk ⊢
      linarith
    have := ha.2; have := hb.1; omega
  exact le_antisymm (not_lt.1 (key hw hv)) (not_lt.1 (key hv hw))

lemma rank_sorted {l : List ℝ} (hs : l.Pairwise (· ≤ ·)) {r : ℕ} {v : ℝ} (h : l[r]? = some v) :
    l.countP (fun a => decide (a < v)) ≤ r ∧ r < l.countP fun a => decide (a ≤ v) := by
  obtain ⟨hr, hv⟩ := List.getElem?_eq_some_iff.1 h
  constructor
  · conv_lhs => rw [← List.take_append_drop r l, List.countP_append]
    have h1 : (l.drop r).countP (fun a => decide (a < v)) = 0 := by
      rw [List.countP_eq_zero]
      intro a ha
      obtain ⟨j, hj, rfl⟩ := List.getElem_of_mem ha
      simp only [List.getElem_drop, decide_eq_true_eq, not_lt]
      rw [← hv]
      rcases Nat.eq_zero_or_pos j with rfl | hj0
      · simp
      · exact List.pairwise_iff_getElem.1 hs r (r + j) hr (by simp at hj; omega) (by omega)
    have h2 := List.countP_le_length (p := fun a => decide (a < v)) (l := l.take r)
    simp only [List.length_take] at h2
    omega
  · rw [← List.take_append_drop (r + 1) l, List.countP_append]
    have h1 : (l.take (r + 1)).countP (fun a => decide (a ≤ v)) = (l.take (r + 1)).length := by
      rw [List.countP_eq_length]
      intro a ha
      obtain ⟨j, hj, rfl⟩ := List.getElem_of_mem ha
      simp only [List.getElem_take, decide_eq_true_eq]
      rw [← hv]
      simp only [List.length_take] at hj
      rcases Nat.lt_or_ge j r with hj0 | hj0
      · exact List.pairwise_iff_getElem.1 hs j r _ hr hj0
      · have : j = r := by omega
        subst this; exact le_refl _
    rw [h1, List.length_take]
    omega

lemma rank_insertionSort {n : ℕ} (f : Fin n → ℝ) {r : ℕ} {v : ℝ}
    (h : ((List.ofFn f).insertionSort (· ≤ ·))[r]? = some v) : RankOf f r v := by
  have := rank_sorted (List.pairwise_insertionSort (· ≤ ·) (List.ofFn f)) h
  rw [(List.perm_insertionSort (· ≤ ·) (List.ofFn f)).countP_eq,
    (List.perm_insertionSort (· ≤ ·) (List.ofFn f)).countP_eq, List.ofFn_eq_map,
    List.countP_map, List.countP_map] at this
  exact this

lemma bandwidth_ok {n : ℕ} {f : ℝ} {x : Fin n → ℝ} {i : Fin n} {h : ℝ}
    (hb : bandwidth f x i = .ok h) : RankOf (fun k => |x k - x i|) ⌈f * n⌉₊ h := by
  unfold bandwidth at hb
  split at hb
  · rename_i v hv
    cases hb
    exact rank_insertionSort _ hv
  · cases hb

/-- `s` is the median of the numbers `f k`: the middle of the two numbers (or the one) in the
middle of the sorted list. -/
def MedianOf {n : ℕ} (f : Fin n → ℝ) (s : ℝ) : Prop :=
  ∃ a b, RankOf f ((n - 1) / 2) a ∧ RankOf f (n / 2) b ∧ s = (a + b) / 2

lemma median_spec {n : ℕ} (hn : 0 < n) (f : Fin n → ℝ) : MedianOf f (median (List.ofFn f)) := by
  have hl : ((List.ofFn f).insertionSort (· ≤ ·)).length = n := by simp
  have h1 : (n - 1) / 2 < ((List.ofFn f).insertionSort (· ≤ ·)).length := by omega
  have h2 : n / 2 < ((List.ofFn f).insertionSort (· ≤ ·)).length := by omega
  refine ⟨_, _, rank_insertionSort f (List.getElem?_eq_getElem h1),
    rank_insertionSort f (List.getElem?_eq_getElem h2), ?_⟩
  simp only [median, List.length_ofFn, List.getD_eq_getElem?_getD, List.getElem?_eq_getElem h1,
    List.getElem?_eq_getElem h2, Option.getD_some]

/-- The weight of a point at the distance `u` (in units of the bandwidth). -/
noncomputable def tricubeWeight (u : ℝ) : ℝ := if u < 1 then (1 - u ^ 3) ^ 3 else 0

/-- The weight of a point with a residual of `u` (in units of six times the median). -/
noncomputable def bisquareWeight (u : ℝ) : ℝ := if u < 1 then (1 - u ^ 2) ^ 2 else 0

/-- `e` is the value at `x i` of the line that fits the points `(x k, y k)` with the weights `w k`
best: every other line has a larger weighted sum of squared errors. -/
def BestLineAt {n : ℕ} (x y w : Fin n → ℝ) (i : Fin n) (e : ℝ) : Prop :=
  ∃ b0 b1, e = b0 + b1 * x i ∧ ∀ c0 c1, ¬ (c0 = b0 ∧ c1 = b1) →
    ∑ k, w k * (y k - (b0 + b1 * x k)) ^ 2 < ∑ k, w k * (y k - (c0 + c1 * x k)) ^ 2

lemma nanSum_some {n : ℕ} (f : Fin n → ℝ) : nanSum (fun k => some (f k)) = some (∑ k, f k) := by
  simp [nanSum]

lemma nanSum_isSome {n : ℕ} {f : Fin n → Option ℝ} {s : ℝ} (h : nanSum f = some s) (k : Fin n) :
    ∃ v, f k = some v := by
  unfold nanSum at h
  split at h
  · rename_i hk; exact Option.isSome_iff_exists.1 (hk k)
  · cases h

lemma solve2_weights {n : ℕ} {x y : Fin n → ℝ} {w : Fin n → Option ℝ} {b : ℝ × ℝ}
    (h : solve2 x y w = .ok b) (k : Fin n) : ∃ v, w k = some v := by
  unfold solve2 at h
  split at h
  · rename_i h3 _ _; exact nanSum_isSome h3 k
  · cases h

lemma solve2_some {n : ℕ} (x y w : Fin n → ℝ) :
    solve2 x y (fun k => some (w k)) =
      if (∑ k, w k) * (∑ k, w k * x k * x k) - (∑ k, w k * x k) * (∑ k, w k * x k) = 0
      then .error .exc
      else .ok (((∑ k, w k * y k) * (∑ k, w k * x k * x k) - (∑ k, w k * y k * x k) * (∑ k, w k * x k))
          / ((∑ k, w k) * (∑ k, w k * x k * x k) - (∑ k, w k * x k) * (∑ k, w k * x k)),
        ((∑ k, w k) * (∑ k, w k * y k * x k) - (∑ k, w k * x k) * (∑ k, w k * y k))
          / ((∑ k, w k) * (∑ k, w k * x k * x k) - (∑ k, w k * x k) * (∑ k, w k * x k))) := by
  simp only [solve2, Option.map_some, nanSum_some]

lemma det_eq {n : ℕ} (x w : Fin n → ℝ) :
    2 * ((∑ k, w k) * (∑ k, w k * x k * x k) - (∑ k, w k * x k) * (∑ k, w k * x k))
      = ∑ k, ∑ l, w k * w l * (x k - x l) ^ 2 := by
  have e : ∀ k l, w k * w l * (x k - x l) ^ 2
      = w k * x k * x k * w l + w k * (w l * x l * x l) - 2 * (w k * x k * (w l * x l)) := by
    intro k l; ring
  simp only [e, Finset.sum_sub_distrib, Finset.sum_add_distrib, ← Finset.mul_sum,
    ← Finset.sum_mul]
  ring

lemma det_nonneg {n : ℕ} (x w : Fin n → ℝ) (hw : ∀ k, 0 ≤ w k) :
    0 ≤ (∑ k, w k) * (∑ k, w k * x k * x k) - (∑ k, w k * x k) * (∑ k, w k * x k) := by
  have := det_eq x w
  have h2 : 0 ≤ ∑ k, ∑ l, w k * w l * (x k - x l) ^ 2 :=
    Finset.sum_nonneg fun k _ => Finset.sum_nonneg fun l _ =>
      mul_nonneg (mul_nonneg (hw k) (hw l)) (sq_nonneg _)
  linarith

/-- The matrix of the normal equations is singular exactly when all points with a positive weight
have the same `x`. -/
lemma det_zero {n : ℕ} (x w : Fin n → ℝ) (hw : ∀ k, 0 ≤ w k) :
    (∑ k, w k) * (∑ k, w k * x k * x k) - (∑ k, w k * x k) * (∑ k, w k * x k) = 0 ↔
      ∀ k l, 0 < w k → 0 < w l → x k = x l := by
  have hd := det_eq x w
  have hnn : ∀ k l, 0 ≤ w k * w l * (x k - x l) ^ 2 := fun k l =>
    mul_nonneg (mul_nonneg (hw k) (hw l)) (sq_nonneg _)
  constructor
  · intro h k l hk hl
    rw [h, mul_zero] at hd
    have h1 := (Finset.sum_eq_zero_iff_of_nonneg fun k _ =>
      Finset.sum_nonneg fun l _ => hnn k l).1 hd.symm k (Finset.mem_univ k)
    have h2 := (Finset.sum_eq_zero_iff_of_nonneg fun l _ => hnn k l).1 h1 l (Finset.mem_univ l)
    have h3 : (x k - x l) ^ 2 = 0 := by
      rcases mul_eq_zero.1 h2 with h | h
      · exact absurd h (mul_pos hk hl).ne'
      · exact h
    have := pow_eq_zero_iff (two_ne_zero) |>.1 h3
    linarith
  · intro h
    have : ∑ k, ∑ l, w k * w l * (x k - x l) ^ 2 = 0 := by
      apply Finset.sum_eq_zero; intro k _
      apply Finset.sum_eq_zero; intro l _
      rcases (hw k).eq_or_lt with hk | hk
      · rw [← hk]; ring
      rcases (hw l).eq_or_lt with hl | hl
      · rw [← hl]; ring
      rw [h k l hk hl]; ring
    rw [this] at hd
    linarith

lemma solve2_best {n : ℕ} (x y w : Fin n → ℝ) (hw : ∀ k, 0 ≤ w k) (b : ℝ × ℝ)
    (h : solve2 x y (fun k => some (w k)) = .ok b) (i : Fin n) :
    BestLineAt x y w i (b.1 + b.2 * x i) := by
  rw [solve2_some] at h
  split at h
  · cases h
  rename_i hdet
  have hpos := lt_of_le_of_ne (det_nonneg x w hw) (Ne.symm hdet)
  cases h
  have hS : 0 ≤ ∑ k, w k := Finset.sum_nonneg fun k _ => hw k
  refine ⟨_, _, rfl, ?_⟩
  intro c0 c1 hc
  simp only
  set s := ∑ k, w k with hs
  set sx := ∑ k, w k * x k with hsx
  set sxx := ∑ k, w k * x k * x k with hsxx
  set t0 := ∑ k, w k * y k with ht0
  set t1 := ∑ k, w k * y k * x k with ht1
  set D := s * sxx - sx * sx with hD
  have hspos : 0 < s := by
    rcases hS.eq_or_lt with h | h
    · exfalso
      have : ∀ k, w k = 0 := fun k =>
        (Finset.sum_eq_zero_iff_of_nonneg fun k _ => hw k).1 h.symm k (Finset.mem_univ k)
      apply hdet
      rw [hD, hs, hsx]; simp [this]
    · exact h
  set b0 := (t0 * sxx - t1 * sx) / D with hb0
  set b1 := (s * t1 - sx * t0) / D with hb1
  have n0 : s * b0 + sx * b1 = t0 := by
    rw [hb0, hb1]; field_simp; rw [hD]; ring
  have n1 : sx * b0 + sxx * b1 = t1 := by
    rw [hb0, hb1]; field_simp; rw [hD]; ring
  have hdiff : ∑ k, w k * (y k - (c0 + c1 * x k)) ^ 2 - ∑ k, w k * (y k - (b0 + b1 * x k)) ^ 2
      = (b0 - c0) ^ 2 * s + 2 * (b0 - c0) * (b1 - c1) * sx + (b1 - c1) ^ 2 * sxx := by
    rw [← Finset.sum_sub_distrib]
    have e : ∀ k, w k * (y k - (c0 + c1 * x k)) ^ 2 - w k * (y k - (b0 + b1 * x k)) ^ 2
        = 2 * (b0 - c0) * (w k * y k) + 2 * (b1 - c1) * (w k * y k * x k)
          + (c0 ^ 2 - b0 ^ 2) * w k + 2 * (c0 * c1 - b0 * b1) * (w k * x k)
          + (c1 ^ 2 - b1 ^ 2) * (w k * x k * x k) := by
      intro k; ring
    simp only [e, Finset.sum_add_distrib, ← Finset.mul_sum]
    rw [← hs, ← hsx, ← hsxx, ← ht0, ← ht1, ← n0, ← n1]; ring
  have hQ : 0 < (b0 - c0) ^ 2 * s + 2 * (b0 - c0) * (b1 - c1) * sx + (b1 - c1) ^ 2 * sxx := by
    have hid : s * ((b0 - c0) ^ 2 * s + 2 * (b0 - c0) * (b1 - c1) * sx + (b1 - c1) ^ 2 * sxx)
        = (s * (b0 - c0) + sx * (b1 - c1)) ^ 2 + D * (b1 - c1) ^ 2 := by rw [hD]; ring
    refine pos_of_mul_pos_right (a := s) ?_ hspos.le
    rw [hid]
    by_cases h1 : b1 - c1 = 0
    · have h0 : b0 - c0 ≠ 0 := fun h0 => hc ⟨by linarith, by linarith⟩
      rw [h1]
      have : 0 < (s * (b0 - c0)) ^ 2 := by positivity
      linarith [this, show (s * (b0 - c0) + sx * 0) ^ 2 + D * 0 ^ 2 = (s * (b0 - c0)) ^ 2 by ring]
    · have : 0 < D * (b1 - c1) ^ 2 := by positivity
      linarith [sq_nonneg (s * (b0 - c0) + sx * (b1 - c1))]
  linarith

lemma tricube_some {n : ℕ} (x h : Fin n → ℝ) (k i : Fin n) (hi : 0 < h i) :
    tricube x h k i = some (tricubeWeight (|x k - x i| / h i)) := by
  have hu : 0 ≤ |x k - x i| / h i := div_nonneg (abs_nonneg _) hi.le
  simp only [tricube, clipDiv, if_neg hi.ne', Option.map_some, max_eq_right hu, tricubeWeight]
  split
  · rename_i h1; rw [min_eq_right h1.le]
  · rename_i h1; rw [min_eq_left (not_lt.1 h1)]; norm_num

lemma tricubeWeight_nonneg {u : ℝ} (h0 : 0 ≤ u) : 0 ≤ tricubeWeight u := by
  unfold tricubeWeight
  split
  · rename_i h
    have : u ^ 3 ≤ 1 := pow_le_one₀ h0 h.le
    exact pow_nonneg (by linarith) 3
  · exact le_refl _

lemma tricubeWeight_pos {u : ℝ} (h0 : 0 ≤ u) : 0 < tricubeWeight u ↔ u < 1 := by
  unfold tricubeWeight
  split
  · rename_i h
    have : u ^ 3 < 1 := pow_lt_one₀ h0 h (by norm_num)
    exact ⟨fun _ => h, fun _ => pow_pos (by linarith) 3⟩
  · rename_i h; exact ⟨fun h' => absurd h' (lt_irrefl _), fun h' => absurd h' h⟩

lemma bisquareWeight_nonneg (u : ℝ) : 0 ≤ bisquareWeight u := by
  unfold bisquareWeight
  split
  · exact sq_nonneg _
  · exact le_refl _

lemma bisquare_some {n : ℕ} (res : Fin n → ℝ) (k : Fin n)
    (hs : 0 < median (List.ofFn fun j => |res j|)) :
    bisquare res k
      = some (bisquareWeight (|res k| / (6 * median (List.ofFn fun j => |res j|)))) := by
  set s := median (List.ofFn fun j => |res j|) with hsd
  have h6 : 0 < 6 * s := by linarith
  simp only [bisquare, clipDiv, ← hsd, if_neg h6.ne', Option.map_some, bisquareWeight]
  congr 1
  have habs : |res k| / (6 * s) = |res k / (6 * s)| := by rw [abs_div, abs_of_pos h6]
  rw [habs]
  set d := res k / (6 * s)
  split
  · rename_i h1
    obtain ⟨ha, hb⟩ := abs_lt.1 h1
    rw [max_eq_right ha.le, min_eq_right hb.le, sq_abs]
  · rename_i h1
    rcases le_abs.1 (not_lt.1 h1) with h | h
    · rw [max_eq_right (by linarith), min_eq_left h]; norm_num
    · rw [max_eq_left (by linarith)]; norm_num

/-- A pass that returns had numbers only: no robustness weight is `nan` and no bandwidth is 0. -/
lemma lowessPass_weights {n : ℕ} {x y h : Fin n → ℝ} {delta : Fin n → Option ℝ} {e : Fin n → ℝ}
    (hh : ∀ i, 0 ≤ h i) (hp : lowessPass x y h delta = .ok e) :
    (∀ i, 0 < h i) ∧ (0 < n → ∀ k, ∃ d, delta k = some d) := by
  have hi := (eachIdx_ok _ _).1 hp
  have key : ∀ i k, ∃ v, ((delta k).bind fun d => (tricube x h k i).map fun w => d * w) = some v := by
    intro i k
    obtain ⟨b, hb, -⟩ := bind_ok.1 (hi i)
    exact solve2_weights hb k
  constructor
  · intro i
    rcases (hh i).eq_or_lt with h0 | h0
    · exfalso
      obtain ⟨v, hv⟩ := key i i
      have : tricube x h i i = none := by simp [tricube, clipDiv, ← h0]
      rw [this] at hv
      cases hd : delta i <;> rw [hd] at hv <;> cases hv
    · exact h0
  · intro hn k
    obtain ⟨v, hv⟩ := key ⟨0, hn⟩ k
    cases hd : delta k with
    | none => rw [hd] at hv; cases hv
    | some d => exact ⟨d, rfl⟩

lemma lowessPass_best {n : ℕ} {x y h : Fin n → ℝ} {d : Fin n → ℝ} {e : Fin n → ℝ}
    (hh : ∀ i, 0 < h i) (hd : ∀ k, 0 ≤ d k)
    (hp : lowessPass x y h (fun k => some (d k)) = .ok e) (i : Fin n) :
    BestLineAt x y (fun k => d k * tricubeWeight (|x k - x i| / h i)) i (e i) := by
  obtain ⟨b, hb, he⟩ := bind_ok.1 ((eachIdx_ok _ _).1 hp i)
  rw [← Except.ok.inj he]
  have e1 : (fun k => (some (d k)).bind fun d => (tricube x h k i).map fun w => d * w)
      = fun k => some (d k * tricubeWeight (|x k - x i| / h i)) := by
    funext k
    rw [tricube_some x h k i (hh i)]; rfl
  rw [e1] at hb
  exact solve2_best x y _ (fun k => mul_nonneg (hd k)
    (tricubeWeight_nonneg (div_nonneg (abs_nonneg _) (hh i).le))) b hb i

lemma countP_zero_rank {n : ℕ} {f : Fin n → ℝ} {r : ℕ} {v : ℝ} (h : RankOf f r v) :
    ∃ k, f k ≤ v := by
  have : 0 < (List.finRange n).countP fun k => decide (f k ≤ v) := by have := h.2; omega
  obtain ⟨k, -, hk⟩ := List.countP_pos_iff.1 this
  exact ⟨k, by simpa using hk⟩

lemma rank_nonneg {n : ℕ} {f : Fin n → ℝ} {r : ℕ} {v : ℝ} (h : RankOf f r v) (hf : ∀ k, 0 ≤ f k) :
    0 ≤ v := by
  obtain ⟨k, hk⟩ := countP_zero_rank h
  exact (hf k).trans hk

/-- If the median of the absolute residuals is 0, some residual is 0 and gets a `nan` as weight. -/
lemma bisquare_zero {n : ℕ} (hn : 0 < n) (res : Fin n → ℝ)
    (hs : median (List.ofFn fun j => |res j|) = 0) : ∃ k, bisquare res k = none := by
  obtain ⟨a, b, ha, hb, h⟩ := median_spec hn fun j => |res j|
  rw [hs] at h
  have ha0 := rank_nonneg ha fun k => abs_nonneg _
  have hb0 := rank_nonneg hb fun k => abs_nonneg _
  obtain ⟨k, hk⟩ := countP_zero_rank ha
  have hk0 : res k = 0 := abs_eq_zero.1 (le_antisymm (by linarith) (abs_nonneg _))
  exact ⟨k, by simp [bisquare, hs, clipDiv, hk0]⟩

lemma median_nonneg {n : ℕ} (res : Fin n → ℝ) : 0 ≤ median (List.ofFn fun j => |res j|) := by
  rcases Nat.eq_zero_or_pos n with rfl | hn
  · simp [median]
  obtain ⟨a, b, ha, hb, h⟩ := median_spec hn fun j => |res j|
  have ha0 := rank_nonneg ha fun k => abs_nonneg _
  have hb0 := rank_nonneg hb fun k => abs_nonneg _
  rw [h]; linarith

/-- The run of `lowess` that C81 describes: `e t` is the estimate after `t + 1` iterations and `d t`
the robustness weights used in it. -/
def LowessRun {n : ℕ} (x y h : Fin n → ℝ) (iters : ℕ) (d e : ℕ → Fin n → ℝ) : Prop :=
  (∀ t < iters, ∀ i,
    BestLineAt x y (fun k => d t k * tricubeWeight (|x k - x i| / h i)) i (e t i)) ∧
  ∀ t, t + 1 < iters → ∃ s, 0 < s ∧ MedianOf (fun k => |y k - e t k|) s ∧
    ∀ k, d (t + 1) k = bisquareWeight (|y k - e t k| / (6 * s))

lemma lowessLoop_run {n : ℕ} (hn : 0 < n) {x y h : Fin n → ℝ} (hh : ∀ i, 0 ≤ h i) (iters : ℕ) :
    ∀ (d0 : Fin n → ℝ), (∀ k, 0 ≤ d0 k) → ∀ (prev last : Option (Fin n → ℝ)),
      lowessLoop x y h (iters + 1) (fun k => some (d0 k)) prev = .ok last →
      (∀ i, 0 < h i) ∧ ∃ d e : ℕ → Fin n → ℝ, d 0 = d0 ∧ LowessRun x y h (iters + 1) d e ∧
        last = some (e iters) := by
  induction iters with
  | zero =>
    intro d0 hd0 prev last hl
    obtain ⟨e, he, hl⟩ := bind_ok.1 hl
    cases hl
    have hpos := (lowessPass_weights hh he).1
    refine ⟨hpos, fun _ => d0, fun _ => e, rfl, ⟨?_, ?_⟩, rfl⟩
    · intro t _ i; exact lowessPass_best hpos hd0 he i
    · intro t ht; omega
  | succ m ih =>
    intro d0 hd0 prev last hl
    obtain ⟨e, he, hl⟩ := bind_ok.1 hl
    have hpos := (lowessPass_weights hh he).1
    have hl' := hl
    obtain ⟨e2, he2, -⟩ := bind_ok.1 hl'
    have hsome := (lowessPass_weights hh he2).2 hn
    have hs : 0 < median (List.ofFn fun j => |y j - e j|) := by
      rcases (median_nonneg fun j => y j - e j).eq_or_lt with h0 | h0
      · obtain ⟨k, hk⟩ := bisquare_zero hn (fun j => y j - e j) h0.symm
        obtain ⟨v, hv⟩ := hsome k
        rw [hk] at hv; cases hv
      · exact h0
    have hb : (bisquare fun k => y k - e k) = fun k =>
        some (bisquareWeight (|y k - e k| / (6 * median (List.ofFn fun j => |y j - e j|)))) := by
      funext k; exact bisquare_some (fun j => y j - e j) k hs
    rw [hb] at hl
    obtain ⟨-, d', e', hd', ⟨hr1, hr2⟩, hlast⟩ := ih _ (fun k => bisquareWeight_nonneg _) _ _ hl
    refine ⟨hpos, fun t => Nat.casesOn t d0 d', fun t => Nat.casesOn t e e', rfl, ⟨?_, ?_⟩, hlast⟩
    · intro t ht i
      cases t with
      | zero => exact lowessPass_best hpos hd0 he i
      | succ t => exact hr1 t (by omega) i
    · intro t ht
      cases t with
      | zero => exact ⟨_, hs, median_spec hn fun k => |y k - e k|, fun k => congrFun hd' k⟩
      | succ t => exact hr2 t (by omega)

/-- **C81.** The estimates of `lowess` are those of a robust locally weighted regression.  The
bandwidth of a point is the distance to the point of rank `⌈f·n⌉` in order of distance.  Every
iteration puts through every point the value of the best line for weights that fall with the distance
(tricube) and, after the first iteration, with the last residual (bisquare); there is exactly one
best line. -/
theorem C81_lowess {n : ℕ} (hn : 0 < n) (tq : ℕ → Option ℝ) (f : ℝ) (iters : ℕ) (x y : Fin n → ℝ)
    (est : Fin n → ℝ) (lo up : Fin n → Option ℝ)
    (hr : lowess tq f iters x y = .ok (est, lo, up)) :
    1 ≤ iters ∧ ∃ h : Fin n → ℝ, (∀ i, 0 < h i ∧ RankOf (fun k => |x k - x i|) ⌈f * n⌉₊ (h i)) ∧
      ∃ d e : ℕ → Fin n → ℝ, (∀ k, d 0 k = 1) ∧ LowessRun x y h iters d e ∧ est = e (iters - 1) := by
  obtain ⟨h, hb, hr⟩ := bind_ok.1 hr
  have hrank := fun i => bandwidth_ok ((eachIdx_ok _ _).1 hb i)
  have hnn : ∀ i, 0 ≤ h i := fun i => rank_nonneg (hrank i) fun k => abs_nonneg _
  obtain ⟨last, hl, hr⟩ := bind_ok.1 hr
  cases iters with
  | zero =>
    cases hl
    simp only [hn.ne', if_false] at hr
    cases hr
  | succ m =>
    obtain ⟨hpos, d, e, hd0, hrun, rfl⟩ := lowessLoop_run hn hnn m (fun _ => 1)
      (fun _ => zero_le_one) _ _ hl
    obtain ⟨w, -, hr⟩ := bind_ok.1 hr
    cases hr
    exact ⟨by omega, h, fun i => ⟨hpos i, hrank i⟩, d, e, fun k => by rw [hd0], hrun, rfl⟩

lemma lowessWidth_ok {n : ℕ} (tq : ℕ → Option ℝ) (x res : Fin n → ℝ) (i : Fin n) :
    lowessWidth tq x res i = .ok ((tq (((List.finRange n).filter fun k => decide (x k = x i)).length
      - 1)).map fun q => Real.sqrt ((((List.finRange n).filter fun k => decide (x k = x i)).map
        fun k => res k * res k).sum /
        (((List.finRange n).filter fun k => decide (x k = x i)).length : ℝ))
        / Real.sqrt (((List.finRange n).filter fun k => decide (x k = x i)).length : ℝ) * q) := by
  have hmem : i ∈ (List.finRange n).filter fun k => decide (x k = x i) :=
    List.mem_filter.2 ⟨List.mem_finRange i, by simp⟩
  have hlen : ((List.finRange n).filter fun k => decide (x k = x i)).length ≠ 0 := by
    intro h
    rw [List.eq_nil_of_length_eq_zero h] at hmem
    cases hmem
  have h0 : ¬ ((List.finRange n).filter fun k => decide (x k = x i)).length ≤ 0 := by omega
  have hc : (((List.finRange n).filter fun k => decide (x k = x i)).length : ℝ) ≠ 0 :=
    Nat.cast_ne_zero.2 hlen
  simp only [lowessWidth, pyMean, List.length_map, if_neg h0, pyDiv, if_neg hc, bind, Except.bind,
    pure, Except.pure]

/-- When `lowess` returns, for an array with at least one point. -/
lemma lowess_ok {n : ℕ} (hn : 0 < n) (tq : ℕ → Option ℝ) (f : ℝ) (iters : ℕ) (x y : Fin n → ℝ) :
    (∃ r, lowess tq f iters x y = .ok r) ↔ ∃ h est, eachIdx (bandwidth f x) = .ok h ∧
      lowessLoop x y h iters (fun _ => some 1) none = .ok (some est) := by
  constructor
  · rintro ⟨r, hr⟩
    obtain ⟨h, hb, hr⟩ := bind_ok.1 hr
    obtain ⟨last, hl, hr⟩ := bind_ok.1 hr
    cases last with
    | none =>
      simp only [hn.ne', if_false] at hr
      cases hr
    | some est => exact ⟨h, est, hb, hl⟩
  · rintro ⟨h, est, hb, hl⟩
    obtain ⟨w, hw⟩ := eachIdx_total (lowessWidth tq x fun k => y k - est k)
      fun i => ⟨_, lowessWidth_ok tq x _ i⟩
    refine ⟨(est, fun i => (w i).map fun w => est i - w, fun i => (w i).map fun w => est i + w), ?_⟩
    unfold lowess
    rw [hb]
    show (lowessLoop x y h iters (fun _ => some 1) none >>= _) = _
    rw [hl]
    show (eachIdx (lowessWidth tq x fun k => y k - est k) >>= _) = _
    rw [hw]
    rfl

/-- **C81.** The interval at a point: its middle is the estimate, and its half width is the
quantile times the root mean square of the residuals at that `x` over the root of their number. -/
theorem C81_bounds {n : ℕ} (hn : 0 < n) (tq : ℕ → Option ℝ) (f : ℝ) (iters : ℕ) (x y : Fin n → ℝ)
    (est : Fin n → ℝ) (lo up : Fin n → Option ℝ)
    (hr : lowess tq f iters x y = .ok (est, lo, up)) (i : Fin n) :
    let here := (List.finRange n).filter fun k => decide (x k = x i)
    let width := Real.sqrt ((here.map fun k => (y k - est k) ^ 2).sum / here.length)
      / Real.sqrt here.length
    match tq (here.length - 1) with
    | none => lo i = none ∧ up i = none
    | some q => lo i = some (est i - width * q) ∧ up i = some (est i + width * q) := by
  obtain ⟨h, hb, hr⟩ := bind_ok.1 hr
  obtain ⟨last, hl, hr⟩ := bind_ok.1 hr
  cases last with
  | none =>
    simp only [hn.ne', if_false] at hr
    cases hr
  | some e =>
    obtain ⟨w, hw, hr⟩ := bind_ok.1 hr
    cases hr
    have hi := (eachIdx_ok _ _).1 hw i
    rw [lowessWidth_ok] at hi
    have hi := Except.ok.inj hi
    intro here width
    cases hq : tq (here.length - 1) with
    | none =>
      rw [show ((List.finRange n).filter fun k => decide (x k = x i)) = here from rfl, hq] at hi
      simp only [← hi, Option.map_none, and_self]
    | some q =>
      rw [show ((List.finRange n).filter fun k => decide (x k = x i)) = here from rfl, hq] at hi
      have e2 : (here.map fun k => (y k - est k) * (y k - est k))
          = here.map fun k => (y k - est k) ^ 2 :=
        List.map_congr_left fun k _ => (sq _).symm
      rw [e2] at hi
      simp only [← hi, Option.map_some]
      exact ⟨rfl, rfl⟩

/-- **C81.** Where all `x` are different there is no interval at all: the quantile of Student's
distribution with 0 degrees of freedom is `nan`. -/
theorem C81_no_bounds {n : ℕ} (hn : 0 < n) (tq : ℕ → Option ℝ) (h0 : tq 0 = none) (f : ℝ)
    (iters : ℕ) (x y : Fin n → ℝ) (hx : Function.Injective x) (est : Fin n → ℝ)
    (lo up : Fin n → Option ℝ) (hr : lowess tq f iters x y = .ok (est, lo, up)) (i : Fin n) :
    lo i = none ∧ up i = none := by
  have h := C81_bounds hn tq f iters x y est lo up hr i
  have hone : ((List.finRange n).filter fun k => decide (x k = x i)) = [i] := by
    have e : ((List.finRange n).filter fun k => decide (x k = x i))
        = (List.finRange n).filter fun k => decide (k = i) := by
      apply List.filter_congr
      intro k _
      simp only [hx.eq_iff]
    rw [e]
    have h1 : ((List.finRange n).filter fun k => decide (k = i)).Nodup :=
      (List.nodup_finRange n).filter _
    have h2 : ∀ a, a ∈ (List.finRange n).filter (fun k => decide (k = i)) ↔ a ∈ [i] := by
      intro a; simp
    exact List.perm_singleton.1 ((List.perm_ext_iff_of_nodup h1 (by simp)).2 h2)
  rw [hone] at h
  simp only [List.length_singleton, Nat.sub_self, h0] at h
  exact h

lemma bandwidth_total {n : ℕ} (f : ℝ) (x : Fin n → ℝ) (i : Fin n) :
    (∃ h, bandwidth f x i = .ok h) ↔ ⌈f * n⌉₊ < n := by
  unfold bandwidth
  constructor
  · rintro ⟨h, hh⟩
    split at hh
    · rename_i v hv
      obtain ⟨hr, -⟩ := List.getElem?_eq_some_iff.1 hv
      simpa using hr
    · cases hh
  · intro hr
    rw [List.getElem?_eq_getElem (by simpa using hr)]
    exact ⟨_, rfl⟩

/-- A number `d` is below the number of rank `r` exactly when at most `r` numbers are at most `d`. -/
lemma lt_rank {n : ℕ} {f : Fin n → ℝ} {r : ℕ} {v : ℝ} (h : RankOf f r v) (d : ℝ) :
    d < v ↔ (List.finRange n).countP (fun k => decide (f k ≤ d)) ≤ r := by
  constructor
  · intro hd
    refine le_trans ?_ h.1
    apply List.countP_mono_left
    intro k _ hk
    simp only [decide_eq_true_eq] at hk ⊢
    linarith
  · intro hd
    by_contra hv
    have : (List.finRange n).countP (fun k => decide (f k ≤ v))
        ≤ (List.finRange n).countP fun k => decide (f k ≤ d) := by
      apply List.countP_mono_left
      intro k _ hk
      simp only [decide_eq_true_eq] at hk ⊢
      linarith
    have := h.2
    omega

lemma lowessPass_first {n : ℕ} {x y h : Fin n → ℝ} (hh : ∀ i, 0 ≤ h i) :
    (∃ e, lowessPass x y h (fun _ => some 1) = .ok e) ↔
      ∀ i, ∃ k, x k ≠ x i ∧ |x k - x i| < h i := by
  constructor
  · rintro ⟨e, he⟩ i
    have hpos := (lowessPass_weights hh he).1
    obtain ⟨b, hb, -⟩ := bind_ok.1 ((eachIdx_ok _ _).1 he i)
    have e1 : (fun k => (some (1 : ℝ)).bind fun d => (tricube x h k i).map fun w => d * w)
        = fun k => some (tricubeWeight (|x k - x i| / h i)) := by
      funext k
      rw [tricube_some x h k i (hpos i)]; simp
    rw [e1, solve2_some] at hb
    split at hb
    · cases hb
    rename_i hdet
    rw [det_zero x _ fun k => tricubeWeight_nonneg (div_nonneg (abs_nonneg _) (hpos i).le)] at hdet
    by_contra hno
    apply hdet
    have hall : ∀ k, 0 < tricubeWeight (|x k - x i| / h i) → x k = x i := by
      intro k hk
      rw [tricubeWeight_pos (div_nonneg (abs_nonneg _) (hpos i).le), div_lt_one (hpos i)] at hk
      by_contra hne
      exact hno ⟨k, hne, hk⟩
    intro k l hk hl
    rw [hall k hk, hall l hl]
  · intro hall
    have hpos : ∀ i, 0 < h i := fun i => by
      obtain ⟨k, -, hk⟩ := hall i
      exact lt_of_le_of_lt (abs_nonneg _) hk
    apply eachIdx_total
    intro i
    have e1 : (fun k => (some (1 : ℝ)).bind fun d => (tricube x h k i).map fun w => d * w)
        = fun k => some (tricubeWeight (|x k - x i| / h i)) := by
      funext k
      rw [tricube_some x h k i (hpos i)]; simp
    rw [e1, solve2_some, if_neg]
    · exact ⟨_, rfl⟩
    rw [det_zero x _ fun k => tricubeWeight_nonneg (div_nonneg (abs_nonneg _) (hpos i).le)]
    intro hsame
    obtain ⟨k, hne, hk⟩ := hall i
    apply hne
    apply hsame
    · rw [tricubeWeight_pos (div_nonneg (abs_nonneg _) (hpos i).le), div_lt_one (hpos i)]
      exact hk
    · rw [tricubeWeight_pos (div_nonneg (abs_nonneg _) (hpos i).le), div_lt_one (hpos i)]
      simpa using hpos i

/-- **C81.** Exactly when one iteration of `lowess` returns: the bandwidth index `⌈f·n⌉` lies within
the array, and around every point there is another `x` so close that at most `⌈f·n⌉` points are at
that distance or nearer.  Otherwise the code raises an exception. -/
theorem C81_returns {n : ℕ} (hn : 0 < n) (tq : ℕ → Option ℝ) (f : ℝ) (x y : Fin n → ℝ) :
    (∃ r, lowess tq f 1 x y = .ok r) ↔ ⌈f * n⌉₊ < n ∧ ∀ i, ∃ k, x k ≠ x i ∧
      (List.finRange n).countP (fun l => decide (|x l - x i| ≤ |x k - x i|)) ≤ ⌈f * n⌉₊ := by
  rw [lowess_ok hn]
  constructor
  · rintro ⟨h, est, hb, hl⟩
    have hbi := (eachIdx_ok _ _).1 hb
    have hrank := fun i => bandwidth_ok (hbi i)
    refine ⟨(bandwidth_total f x ⟨0, hn⟩).1 ⟨_, hbi _⟩, ?_⟩
    obtain ⟨e, he, -⟩ := bind_ok.1 hl
    intro i
    obtain ⟨k, hne, hk⟩ := (lowessPass_first fun i => rank_nonneg (hrank i) fun k =>
      abs_nonneg _).1 ⟨e, he⟩ i
    exact ⟨k, hne, (lt_rank (hrank i) _).1 hk⟩
  · rintro ⟨hr, hall⟩
    obtain ⟨h, hb⟩ := eachIdx_total (bandwidth f x) fun i => (bandwidth_total f x i).2 hr
    have hrank := fun i => bandwidth_ok ((eachIdx_ok _ _).1 hb i)
    obtain ⟨e, he⟩ := (lowessPass_first (y := y) fun i => rank_nonneg (hrank i) fun k =>
      abs_nonneg _).2 fun i => by
        obtain ⟨k, hne, hk⟩ := hall i
        exact ⟨k, hne, (lt_rank (hrank i) _).2 hk⟩
    refine ⟨h, e, hb, ?_⟩
    simp only [lowessLoop, he, bind, Except.bind]

lemma lowessLoop_first {n : ℕ} {x y h : Fin n → ℝ} {iters : ℕ} {delta : Fin n → Option ℝ}
    {prev : Option (Fin n → ℝ)} {r : Option (Fin n → ℝ)}
    (hl : lowessLoop x y h (iters + 1) delta prev = .ok r) :
    ∃ e, lowessPass x y h delta = .ok e ∧
      lowessLoop x y h iters (bisquare fun k => y k - e k) (some e) = .ok r := bind_ok.1 hl

/-- **C81.** A call with more iterations only returns when the call with one iteration does; so with
the default `f = 1/3` `lowess` raises on up to three points, whatever they are. -/
theorem C81_needs_points {n : ℕ} (hn : 0 < n) (h3 : n ≤ 3) (tq : ℕ → Option ℝ) (iters : ℕ)
    (x y : Fin n → ℝ) : ∃ e, lowess tq (1 / 3) iters x y = .error e := by
  cases hr : lowess tq (1 / 3) iters x y with
  | error e => exact ⟨e, rfl⟩
  | ok r =>
    exfalso
    have h1 : ∃ r, lowess tq (1 / 3) 1 x y = .ok r := by
      obtain ⟨h, est, hb, hl⟩ := (lowess_ok hn tq (1 / 3) iters x y).1 ⟨r, hr⟩
      cases iters with
      | zero => cases hl
      | succ m =>
        obtain ⟨e, he, -⟩ := lowessLoop_first hl
        exact (lowess_ok hn tq (1 / 3) 1 x y).2 ⟨h, e, hb, by
          simp only [lowessLoop, he, bind, Except.bind]⟩
    obtain ⟨-, hall⟩ := (C81_returns hn tq (1 / 3) x y).1 h1
    obtain ⟨k, hne, hk⟩ := hall ⟨0, hn⟩
    have hceil : ⌈(1 / 3 : ℝ) * n⌉₊ ≤ 1 := by
      rw [Nat.ceil_le]
      have : (n : ℝ) ≤ 3 := by exact_mod_cast h3
      push_cast; linarith
    have hsub : [k, ⟨0, hn⟩].Subperm ((List.finRange n).filter
        fun l => decide (|x l - x ⟨0, hn⟩| ≤ |x k - x ⟨0, hn⟩|)) := by
      apply List.Nodup.subperm
      · have : k ≠ ⟨0, hn⟩ := fun h => hne (by rw [h])
        simp [this]
      · intro a ha
        rw [List.mem_filter]
        refine ⟨List.mem_finRange a, ?_⟩
        simp only [List.mem_cons, List.not_mem_nil, or_false] at ha
        rcases ha with rfl | rfl <;> simp
    have := hsub.length_le
    rw [← List.countP_eq_length_filter] at this
    simp only [List.length_cons, List.length_nil] at this
    omega

lemma lowessPass_line {n : ℕ} {x h : Fin n → ℝ} (hh : ∀ i, 0 ≤ h i) (a b : ℝ) {e : Fin n → ℝ}
    (he : lowessPass x (fun k => a + b * x k) h (fun _ => some 1) = .ok e) :
    e = fun k => a + b * x k := by
  have hpos := (lowessPass_weights hh he).1
  funext i
  obtain ⟨b0, b1, hv, hbest⟩ := lowessPass_best hpos (fun _ => zero_le_one) he i
  by_cases hab : a = b0 ∧ b = b1
  · rw [hv, hab.1, hab.2]
  · exfalso
    have := hbest a b hab
    simp only [sub_self, ne_eq, OfNat.ofNat_ne_zero, not_false_eq_true, zero_pow, mul_zero,
      Finset.sum_const_zero] at this
    refine absurd this (not_lt.2 (Finset.sum_nonneg fun k _ => mul_nonneg (mul_nonneg zero_le_one
      (tricubeWeight_nonneg (div_nonneg (abs_nonneg _) (hpos i).le))) (sq_nonneg _)))

/-- **C81.** One iteration reproduces points on a line: the estimates are the values. -/
theorem C81_line {n : ℕ} (tq : ℕ → Option ℝ) (f : ℝ) (x : Fin n → ℝ) (a b : ℝ)
    (est : Fin n → ℝ) (lo up : Fin n → Option ℝ)
    (hr : lowess tq f 1 x (fun k => a + b * x k) = .ok (est, lo, up)) (i : Fin n) :
    est i = a + b * x i := by
  obtain ⟨h, hb, hr⟩ := bind_ok.1 hr
  obtain ⟨last, hl, hr⟩ := bind_ok.1 hr
  have hrank := fun i => bandwidth_ok ((eachIdx_ok _ _).1 hb i)
  obtain ⟨e, he, hl⟩ := lowessLoop_first hl
  cases hl
  obtain ⟨w, -, hr⟩ := bind_ok.1 hr
  cases hr
  rw [lowessPass_line (fun i => rank_nonneg (hrank i) fun k => abs_nonneg _) a b he]

/-- **C81, the code as it is.** With two or more iterations (the default is three) `lowess` never
returns for points that lie on a line, in particular not for constant values: all residuals are 0,
so is their median, and the quotient 0/0 makes every weight of the second iteration `nan`. -/
theorem C81_line_raises {n : ℕ} (hn : 0 < n) (tq : ℕ → Option ℝ) (f : ℝ) (iters : ℕ)
    (hi : 2 ≤ iters) (x : Fin n → ℝ) (a b : ℝ) :
    ∃ e, lowess tq f iters x (fun k => a + b * x k) = .error e := by
  cases hr : lowess tq f iters x (fun k => a + b * x k) with
  | error e => exact ⟨e, rfl⟩
  | ok r =>
    exfalso
    obtain ⟨h, est, hb, hl⟩ := (lowess_ok hn tq f iters x _).1 ⟨r, hr⟩
    have hrank := fun i => bandwidth_ok ((eachIdx_ok _ _).1 hb i)
    have hnn : ∀ i, 0 ≤ h i := fun i => rank_nonneg (hrank i) fun k => abs_nonneg _
    obtain ⟨m, rfl⟩ : ∃ m, iters = m + 1 + 1 := ⟨iters - 2, by omega⟩
    obtain ⟨e, he, hl⟩ := lowessLoop_first hl
    obtain ⟨e2, he2, hl⟩ := lowessLoop_first hl
    rw [lowessPass_line hnn a b he] at he2
    have hz : median (List.ofFn fun j => |(fun k => a + b * x k - (a + b * x k)) j|) = 0 := by
      obtain ⟨u, v, hu, hv, h⟩ := median_spec hn fun j => |a + b * x j - (a + b * x j)|
      have key : ∀ {r : ℕ} {u : ℝ}, RankOf (fun j => |a + b * x j - (a + b * x j)|) r u → u = 0 := by
        intro r u hu
        apply le_antisymm
        · by_contra hlt
          obtain ⟨h1, h2⟩ := hu
          simp only at h1 h2
          have : (List.finRange n).countP (fun k => decide (|a + b * x k - (a + b * x k)| ≤ u))
              ≤ (List.finRange n).countP fun k => decide (|a + b * x k - (a + b * x k)| < u) := by
            apply List.countP_mono_left
            intro k _ _
            simp only [decide_eq_true_eq]
            simpa using not_le.1 hlt
          omega
        · exact rank_nonneg hu fun _ => abs_nonneg _
      rw [h, key hu, key hv]; norm_num
    obtain ⟨k, hk⟩ := bisquare_zero hn (fun k => a + b * x k - (a + b * x k)) hz
    obtain ⟨d, hd⟩ := (lowessPass_weights hnn he2).2 hn k
    rw [hk] at hd
    cases hd

/-- **C81.** One iteration is local: a value has no influence on the estimates at the points whose
bandwidth does not reach it, i.e. that have more than `⌈f·n⌉` points at its distance or nearer. -/
theorem C81_local {n : ℕ} (hn : 0 < n) (tq : ℕ → Option ℝ) (f : ℝ) (x y y' : Fin n → ℝ) (i : Fin n)
    (hy : ∀ k, (List.finRange n).countP (fun l => decide (|x l - x i| ≤ |x k - x i|)) ≤ ⌈f * n⌉₊ →
      y k = y' k)
    (est est' : Fin n → ℝ) (lo up lo' up' : Fin n → Option ℝ)
    (hr : lowess tq f 1 x y = .ok (est, lo, up)) (hr' : lowess tq f 1 x y' = .ok (est', lo', up')) :
    est i = est' i := by
  obtain ⟨-, h, hh, d, e, hd, hrun, rfl⟩ := C81_lowess hn tq f 1 x y est lo up hr
  obtain ⟨-, h', hh', d', e', hd', hrun', rfl⟩ := C81_lowess hn tq f 1 x y' est' lo' up' hr'
  obtain rfl : h = h' := funext fun i => (hh i).2.unique (hh' i).2
  obtain ⟨b0, b1, hv, hbest⟩ := hrun.1 0 (by norm_num) i
  obtain ⟨c0, c1, hv', hbest'⟩ := hrun'.1 0 (by norm_num) i
  have e1 : (1 - 1 : ℕ) = 0 := rfl
  rw [e1, hv, hv']
  have hsum : ∀ p q : ℝ,
      ∑ k, d 0 k * tricubeWeight (|x k - x i| / h i) * (y k - (p + q * x k)) ^ 2
        = ∑ k, d' 0 k * tricubeWeight (|x k - x i| / h i) * (y' k - (p + q * x k)) ^ 2 := by
    intro p q
    apply Finset.sum_congr rfl
    intro k _
    rw [hd, hd']
    by_cases hk : |x k - x i| < h i
    · rw [hy k ((lt_rank (hh i).2 _).1 hk)]
    · have : ¬ |x k - x i| / h i < 1 := by rw [div_lt_one (hh i).1]; exact hk
      simp [tricubeWeight, this]
  by_cases hbc : c0 = b0 ∧ c1 = b1
  · rw [hbc.1, hbc.2]
  · exfalso
    have h1 := hbest c0 c1 hbc
    have h2 := hbest' b0 b1 fun h => hbc ⟨h.1.symm, h.2.symm⟩
    rw [hsum, hsum] at h1
    exact lt_asymm h1 h2

/-- The hypotheses of C81 are met: three points, bandwidth of rank two. -/
example : ∃ r, lowess (fun _ => none) (2 / 3) 1 (![0, 1, 3] : Fin 3 → ℝ) ![5, 7, 2] = .ok r := by
  rw [C81_returns (by norm_num)]
  have hc : ⌈(2 / 3 : ℝ) * ((3 : ℕ) : ℝ)⌉₊ = 2 := by norm_num
  rw [hc]
  refine ⟨by norm_num, ?_⟩
  intro i
  fin_cases i
  · refine ⟨1, by simp, ?_⟩
    simp [List.finRange_succ, List.countP_cons]
  · refine ⟨0, by simp, ?_⟩
    simp [List.finRange_succ, List.countP_cons]; norm_num
  · refine ⟨1, by simp, ?_⟩
    simp [List.finRange_succ, List.countP_cons]; norm_num

/-- Two pairs of points and one far away; the values of a pair cancel. -/
def demoX (k : Fin 5) : ℝ := match k with | 0 => 0 | 1 => 0 | 2 => 1 | 3 => 1 | 4 => 5

/-- The values at `demoX`. -/
def demoY (k : Fin 5) : ℝ := match k with | 0 => 1 | 1 => -1 | 2 => 1 | 3 => -1 | 4 => 0

/-- The distances at index 4 of the sorted distances. -/
def demoH (k : Fin 5) : ℝ := match k with | 0 => 5 | 1 => 5 | 2 => 4 | 3 => 4 | 4 => 5

/-- Robustness weights for `demoX`. -/
def demoW (c d : ℝ) (k : Fin 5) : ℝ := match k with | 0 => c | 1 => c | 2 => c | 3 => c | 4 => d

lemma forall_five {p : Fin 5 → Prop} (h0 : p 0) (h1 : p 1) (h2 : p 2) (h3 : p 3) (h4 : p 4) :
    ∀ i, p i := by
  intro i
  match i with
  | 0 => exact h0
  | 1 => exact h1
  | 2 => exact h2
  | 3 => exact h3
  | 4 => exact h4

lemma finRange_five : List.finRange 5 = [0, 1, 2, 3, 4] := rfl

lemma demo_rank (i : Fin 5) : RankOf (fun k => |demoX k - demoX i|) 4 (demoH i) := by
  unfold RankOf
  rw [finRange_five]
  revert i
  apply forall_five <;> norm_num [demoX, demoH, List.countP_cons]

lemma demo_bandwidth : eachIdx (bandwidth (4 / 5) demoX) = .ok demoH := by
  rw [eachIdx_ok]
  intro i
  have hc : ⌈(4 / 5 : ℝ) * ((5 : ℕ) : ℝ)⌉₊ = 4 := by norm_num
  obtain ⟨h, hh⟩ := (bandwidth_total (4 / 5) demoX i).2 (by rw [hc]; norm_num)
  have := bandwidth_ok hh
  rw [hc] at this
  rw [hh, this.unique (demo_rank i)]

lemma demo_pass (c d : ℝ) (hc : 0 < c) (hd : 0 < d) :
    lowessPass demoX demoY demoH (fun k => some (demoW c d k)) = .ok fun _ => 0 := by
  unfold lowessPass
  rw [eachIdx_ok]
  intro i
  have hH : ∀ i, 0 < demoH i := by apply forall_five <;> norm_num [demoH]
  have e1 : (fun k => (some (demoW c d k)).bind fun d =>
        (tricube demoX demoH k i).map fun w => d * w)
      = fun k => some (demoW c d k *
        tricubeWeight (|demoX k - demoX i| / demoH i)) := by
    funext k
    rw [tricube_some demoX demoH k i (hH i)]; simp
  have hw : ∀ k, 0 ≤ demoW c d k *
      tricubeWeight (|demoX k - demoX i| / demoH i) := by
    intro k
    refine mul_nonneg ?_ (tricubeWeight_nonneg (div_nonneg (abs_nonneg _) (hH i).le))
    revert k; apply forall_five <;> simp [demoW, hc.le, hd.le]
  have hdet : ¬ ∀ k l, 0 < demoW c d k *
      tricubeWeight (|demoX k - demoX i| / demoH i) → 0 < demoW c d l *
      tricubeWeight (|demoX l - demoX i| / demoH i) → demoX k = demoX l := by
    intro hall
    have hp : ∀ k, |demoX k - demoX i| < demoH i → 0 < demoW c d k →
        0 < demoW c d k * tricubeWeight (|demoX k - demoX i| / demoH i) := by
      intro k hk hck
      refine mul_pos hck ((tricubeWeight_pos (div_nonneg (abs_nonneg _) (hH i).le)).2 ?_)
      rw [div_lt_one (hH i)]; exact hk
    by_cases h4 : i = 4
    · subst h4
      have := hall 2 4 (hp 2 (by norm_num [demoX, demoH]) hc) (hp 4 (by norm_num [demoX, demoH]) hd)
      norm_num [demoX] at this
    · have hnear : i ≠ 4 → |demoX 0 - demoX i| < demoH i ∧ |demoX 2 - demoX i| < demoH i := by
        revert i
        intro i _ _ _ _ _ _
        revert i
        apply forall_five <;> norm_num [demoX, demoH]
      have := hall 0 2 (hp 0 (hnear h4).1 hc) (hp 2 (hnear h4).2 hc)
      norm_num [demoX] at this
  rw [e1, solve2_some, if_neg (by rw [det_zero demoX _ hw]; exact hdet)]
  have hz : ∀ (w : Fin 5 → ℝ), w 0 = w 1 → w 2 = w 3 →
      ∑ k, w k * demoY k = 0 ∧ ∑ k, w k * demoY k * demoX k = 0 := by
    intro w h1 h2
    constructor <;> simp only [Fin.sum_univ_five, demoX, demoY, h1, h2] <;> ring
  obtain ⟨z1, z2⟩ := hz (fun k => demoW c d k *
    tricubeWeight (|demoX k - demoX i| / demoH i)) rfl rfl
  show Except.ok _ = Except.ok _
  rw [z1, z2]
  simp

/-- The hypotheses of C81 are met for any number of iterations: all estimates are 0. -/
lemma demo_lowess (iters : ℕ) :
    ∃ r, lowess (fun _ => none) (4 / 5) (iters + 1) demoX demoY = .ok r := by
  rw [lowess_ok (by norm_num)]
  refine ⟨demoH, fun _ => 0, demo_bandwidth, ?_⟩
  have hmed : median (List.ofFn fun j => |demoY j|) = 1 := by
    obtain ⟨a, b, ha, hb, h⟩ := median_spec (by norm_num : 0 < 5) fun j => |demoY j|
    have h1 : RankOf (fun j => |demoY j|) 2 1 := by
      unfold RankOf
      rw [finRange_five]
      norm_num [demoY, List.countP_cons]
    rw [h, ha.unique h1, hb.unique h1]; norm_num
  have hb : (bisquare fun k => demoY k - 0)
      = fun k => some (demoW ((35 / 36) ^ 2) 1 k) := by
    funext k
    have e : (fun k => demoY k - 0) = demoY := by funext k; simp
    rw [e, bisquare_some demoY k (by rw [hmed]; norm_num), hmed]
    revert k; apply forall_five <;> norm_num [demoY, demoW, bisquareWeight]
  have key : ∀ (m : ℕ) (c d : ℝ), 0 < c → 0 < d → ∀ prev,
      lowessLoop demoX demoY demoH (m + 1) (fun k => some (demoW c d k)) prev
        = .ok (some fun _ => 0) := by
    intro m
    induction m with
    | zero =>
      intro c d hc hd prev
      simp only [lowessLoop, demo_pass c d hc hd, bind, Except.bind]
    | succ m ih =>
      intro c d hc hd prev
      rw [lowessLoop, demo_pass c d hc hd]
      show lowessLoop demoX demoY demoH (m + 1) (bisquare fun k => demoY k - 0) (some fun _ => 0) = _
      rw [hb]
      exact ih _ _ (by norm_num) (by norm_num) _
  have e : (fun _ : Fin 5 => some (1 : ℝ)) = fun k => some (demoW 1 1 k) := by
    funext k; revert k; apply forall_five <;> rfl
  rw [e]
  exact key iters 1 1 one_pos one_pos none

end CF
