/-
Properties C42-C44 of /repo/concept_formation/utils.py.
-/
import Verif.Model.Utils
import Verif.Proofs.Choose
import Mathlib.Algebra.Order.BigOperators.Group.List
import Mathlib.Algebra.Order.Field.Basic
import Mathlib.Tactic.Linarith
import Mathlib.Tactic.IntervalCases
import Mathlib.Tactic.NormNum
import Mathlib.Tactic.FieldSimp
import Mathlib.Tactic.Ring
import Mathlib.Analysis.Real.Sqrt

set_option linter.unusedSectionVars false

namespace CF
variable {α K : Type} [Field K] [LinearOrder K] [IsStrictOrderedRing K]

/-! ### C42: `weighted_choice` -/

/-- Sum of the weights of a list of options. -/
def weightSum (l : List (α × K)) : K := (l.map Prod.snd).sum

/-- `weighted_choice` evaluated on the number `r` drawn from `uniform(0, total)`. -/
def weightedPick (choices : List (α × K)) (r : K) : Res α := weightedLoop r choices 0

theorem weightedLoop_split {r : K} {pre post : List (α × K)} {c : α} {w : K} (u : K)
    (hpre : ∀ p ∈ pre, 0 ≤ p.2) (hlo : u + weightSum pre ≤ r) :
    weightedLoop r (pre ++ (c, w) :: post) u =
      if w < 0 then .error .valueErr
      else if u + weightSum pre + w > r then .ok c
      else weightedLoop r post (u + weightSum pre + w) := by
  induction pre generalizing u with
  | nil => simp [weightedLoop, weightSum]
  | cons p pre ih =>
    obtain ⟨a, x⟩ := p
    have h0 : 0 ≤ x := hpre (a, x) (by simp)
    have hp : ∀ p ∈ pre, 0 ≤ p.2 := fun p hp => hpre p (by simp [hp])
    have hs : 0 ≤ weightSum pre := List.sum_nonneg (by
      intro y hy; obtain ⟨q, hq, rfl⟩ := List.mem_map.1 hy; exact hp q hq)
    have e : weightSum ((a, x) :: pre) = x + weightSum pre := by simp [weightSum]
    rw [e] at hlo ⊢
    have h1 : ¬ (u + x > r) := by linarith
    have h2 := ih (u + x) hp (by linarith)
    simp only [List.cons_append, weightedLoop, not_lt.2 h0, if_false, h1]
    rw [h2, show u + x + weightSum pre = u + (x + weightSum pre) by ring]

/-- **C42**: for non-negative weights, the option at a given position is selected exactly on the draws
`r` in the half-open interval that starts at the cumulative weight of the options before it and has the
option's own weight as length. -/
theorem C42_interval (pre post : List (α × K)) (c : α) (w r : K)
    (hpre : ∀ p ∈ pre, 0 ≤ p.2) (hlo : weightSum pre ≤ r) (hhi : r < weightSum pre + w) :
    weightedPick (pre ++ (c, w) :: post) r = .ok c := by
  have hw : ¬ w < 0 := by linarith
  have := weightedLoop_split (c := c) (w := w) (post := post) 0 hpre (by simpa using hlo)
  rw [weightedPick, this]
  simp [hw, hhi]

/-- The intervals cover: every draw in `[0, total)` falls in exactly one of them, so an option is always
returned, and it has positive weight. -/
theorem C42_selects (choices : List (α × K)) (r : K) (hw : ∀ p ∈ choices, 0 ≤ p.2) (h0 : 0 ≤ r)
    (hr : r < weightSum choices) :
    ∃ pre c w post, choices = pre ++ (c, w) :: post ∧ weightSum pre ≤ r ∧ r < weightSum pre + w ∧
      0 < w ∧ weightedPick choices r = .ok c := by
  have key : ∀ (l pre : List (α × K)), (∀ p ∈ pre ++ l, 0 ≤ p.2) → weightSum pre ≤ r →
      r < weightSum (pre ++ l) →
      ∃ pre' c w post, pre ++ l = pre' ++ (c, w) :: post ∧ weightSum pre' ≤ r ∧
        r < weightSum pre' + w := by
    intro l
    induction l with
    | nil => intro pre _ h1 h2; simp at h2; exact absurd h2 (not_lt.2 h1)
    | cons p l ih =>
      intro pre hp h1 h2
      by_cases h : r < weightSum pre + p.2
      · exact ⟨pre, p.1, p.2, l, rfl, h1, h⟩
      · have := ih (pre ++ [p]) (by simpa using hp) (by simpa [weightSum] using not_lt.1 h)
          (by simpa using h2)
        simpa using this
  obtain ⟨pre, c, w, post, e, h1, h2⟩ := key choices [] (by simpa using hw) (by simpa [weightSum] using h0)
    (by simpa using hr)
  refine ⟨pre, c, w, post, by simpa using e, h1, h2, by linarith, ?_⟩
  have e' : choices = pre ++ (c, w) :: post := by simpa using e
  rw [e']
  exact C42_interval pre post c w r (fun p hp => hw p (by rw [e']; simp [hp])) h1 h2

/-- The number drawn by the function, `uniform(0, total)` with `random() = u` in `[0, 1)`, is in the
range of `C42_selects`. -/
theorem C42_draw (choices : List (α × K)) (u : K) (h0 : 0 ≤ u) (h1 : u < 1)
    (ht : 0 < weightSum choices) :
    weightedChoice choices u = weightedPick choices (weightSum choices * u) ∧
      0 ≤ weightSum choices * u ∧ weightSum choices * u < weightSum choices :=
  ⟨rfl, mul_nonneg ht.le h0, by nlinarith⟩

/-- **C42**, errors: the empty list raises `ValueError`, and so does a negative weight that is met. -/
theorem C42_errors :
    (∀ u : K, weightedChoice ([] : List (α × K)) u = .error .valueErr) ∧
    (∀ (pre post : List (α × K)) (c : α) (w r : K), (∀ p ∈ pre, 0 ≤ p.2) → weightSum pre ≤ r →
      w < 0 → weightedPick (pre ++ (c, w) :: post) r = .error .valueErr) := by
  refine ⟨fun u => rfl, fun pre post c w r hp h1 hw => ?_⟩
  have := weightedLoop_split (c := c) (w := w) (post := post) 0 hp (by simpa using h1)
  rw [weightedPick, this]; simp [hw]

/-- The edge of the domain: with non-negative weights, a draw that reaches the total (possible only by
rounding, or when all weights are zero) raises `ValueError`. -/
theorem C42_boundary (choices : List (α × K)) (r : K) (hw : ∀ p ∈ choices, 0 ≤ p.2)
    (hr : weightSum choices ≤ r) : weightedPick choices r = .error .valueErr := by
  have key : ∀ (l : List (α × K)) (u : K), (∀ p ∈ l, 0 ≤ p.2) → u + weightSum l ≤ r →
      weightedLoop r l u = .error .valueErr := by
    intro l
    induction l with
    | nil => intro u _ _; rfl
    | cons p l ih =>
      intro u hp h
      obtain ⟨a, x⟩ := p
      have e : weightSum ((a, x) :: l) = x + weightSum l := by simp [weightSum]
      rw [e] at h
      have h0 : 0 ≤ x := hp (a, x) (by simp)
      have hs : 0 ≤ weightSum l := List.sum_nonneg (by
        intro y hy; obtain ⟨q, hq, rfl⟩ := List.mem_map.1 hy; exact hp q (by simp [hq]))
      have h1 : ¬ (u + x > r) := by linarith
      simp only [weightedLoop, not_lt.2 h0, if_false, h1]
      exact ih (u + x) (fun q hq => hp q (by simp [hq])) (by linarith)
  exact key choices 0 hw (by simpa using hr)

/-- A case with an option of weight zero in the middle, which is never selected. -/
example : weightedPick [("a", (1 : ℚ)), ("b", 0), ("c", 3)] 1 = .ok "c" ∧
    weightedChoice [("a", (1 : ℚ)), ("b", 0), ("c", 3)] (1 / 5) = .ok "a" ∧
    weightedChoice [("a", (1 : ℚ)), ("b", -1), ("c", 3)] (3 / 4) = .error .valueErr := by
  decide +kernel

/-! ### C43: `most_likely_choice` -/

theorem mem_mlEntries {rnd : ℕ → ℚ} {choices : List (α × K)} {k : ℕ} {e : MLEntry α K}
    (h : e ∈ mlEntries rnd choices k) : (e.val, e.prob) ∈ choices := by
  induction choices generalizing k with
  | nil => simp [mlEntries] at h
  | cons p l ih =>
    obtain ⟨v, x⟩ := p
    rcases List.mem_cons.1 h with h | h
    · subst h; simp
    · exact List.mem_cons_of_mem _ (ih h)

theorem exists_mlEntry {rnd : ℕ → ℚ} {choices : List (α × K)} {k : ℕ} {v : α} {x : K}
    (h : (v, x) ∈ choices) : ∃ e ∈ mlEntries rnd choices k, e.val = v ∧ e.prob = x := by
  induction choices generalizing k with
  | nil => simp at h
  | cons p l ih =>
    rcases List.mem_cons.1 h with h | h
    · subst h; exact ⟨_, List.mem_cons_self, rfl, rfl⟩
    · obtain ⟨e, he, h⟩ := ih (k := k + 1) h
      exact ⟨e, List.mem_cons_of_mem _ he, h⟩

theorem length_mlEntries {rnd : ℕ → ℚ} {choices : List (α × K)} {k : ℕ} :
    (mlEntries rnd choices k).length = choices.length := by
  induction choices generalizing k with
  | nil => rfl
  | cons p l ih => obtain ⟨v, x⟩ := p; simp [mlEntries, ih]

/-- The draw attached to each entry is one of the draws from position `k` on. -/
theorem mlEntries_rnd {rnd : ℕ → ℚ} (choices : List (α × K)) (k : ℕ) :
    (mlEntries rnd choices k).map MLEntry.rnd = (List.range' k choices.length).map rnd := by
  induction choices generalizing k with
  | nil => rfl
  | cons p l ih => obtain ⟨v, x⟩ := p; simp [mlEntries, ih, List.range'_succ]

theorem key_le_prob {a b : MLEntry α K} (h : a.key ≤ b.key) : a.prob ≤ b.prob := by
  unfold MLEntry.key at h
  rw [Prod.Lex.toLex_le_toLex] at h
  rcases h with h | h
  · exact h.le
  · exact h.1.le

theorem head_insertionSort_max {l : List (MLEntry α K)} {e : MLEntry α K} {r : List (MLEntry α K)}
    (h : l.insertionSort (fun a b => b.key ≤ a.key) = e :: r) : e ∈ l ∧ ∀ d ∈ l, d.key ≤ e.key := by
  have hp : (l.insertionSort (fun a b => b.key ≤ a.key)).Perm l := List.perm_insertionSort _ _
  have hs : List.Pairwise (fun a b : MLEntry α K => b.key ≤ a.key)
      (l.insertionSort (fun a b => b.key ≤ a.key)) := by
    haveI : Std.Total (fun a b : MLEntry α K => b.key ≤ a.key) := ⟨fun a b => le_total _ _⟩
    haveI : IsTrans (MLEntry α K) (fun a b : MLEntry α K => b.key ≤ a.key) :=
      ⟨fun a b c h1 h2 => le_trans h2 h1⟩
    exact List.pairwise_insertionSort _ _
  rw [h] at hp hs
  refine ⟨hp.mem_iff.1 List.mem_cons_self, fun d hd => ?_⟩
  rcases List.mem_cons.1 (hp.mem_iff.2 hd) with rfl | hd
  · exact le_refl _
  · exact (List.pairwise_cons.1 hs).1 d hd

/-- **C43**: whatever the random numbers and however equal keys are ordered, the value returned is an
option of maximal weight. -/
theorem C43_maximal {tie : TieBreak α K} (htie : tie.Sound) {choices : List (α × K)} {rnd : ℕ → ℚ}
    {v : α} (h : mostLikelyChoice tie choices rnd = .ok v) :
    ∃ x, (v, x) ∈ choices ∧ ∀ p ∈ choices, p.2 ≤ x := by
  have main : ∃ e ∈ mlEntries rnd choices 0, e.val = v ∧
      ∀ d ∈ mlEntries rnd choices 0, d.key ≤ e.key := by
    unfold mostLikelyChoice at h
    split at h
    · cases h
    split at h
    · cases h
    dsimp only at h
    split at h
    · exact htie _ _ h
    · split at h
      · cases h
      · rename_i e r he
        cases h
        obtain ⟨h1, h2⟩ := head_insertionSort_max he
        exact ⟨e, h1, rfl, h2⟩
  obtain ⟨e, he, rfl, hmax⟩ := main
  refine ⟨e.prob, mem_mlEntries he, fun p hp => ?_⟩
  obtain ⟨d, hd, -, h2⟩ := exists_mlEntry (rnd := rnd) (k := 0) (v := p.1) (x := p.2) hp
  rw [← h2]
  exact key_le_prob (hmax d hd)

theorem neg_filter_iff {choices : List (α × K)} :
    (choices.filter fun c => c.2 < 0).length > 0 ↔ ∃ p ∈ choices, p.2 < 0 := by
  rw [gt_iff_lt, List.length_pos_iff_exists_mem]; simp

/-- **C43**, errors: `ValueError` exactly when the list is empty or some weight is negative; otherwise
the call succeeds (when the random numbers drawn are distinct: equal ones may make Python compare the
option values themselves, which can raise `TypeError`). -/
theorem C43_error_iff {tie : TieBreak α K} (htie : ∀ l, tie l ≠ .error .valueErr)
    {choices : List (α × K)} {rnd : ℕ → ℚ} :
    mostLikelyChoice tie choices rnd = .error .valueErr ↔
      choices = [] ∨ ∃ p ∈ choices, p.2 < 0 := by
  unfold mostLikelyChoice
  rw [← neg_filter_iff]
  constructor
  · intro h
    by_contra hc
    push Not at hc
    have h1 : ¬ choices.length = 0 := by simpa using hc.1
    rw [if_neg h1, if_neg (by omega)] at h
    dsimp only at h
    split at h
    · exact htie _ h
    · split at h <;> simp at h
  · rintro (rfl | h)
    · simp
    · split
      · rfl
      · rfl

theorem C43_ok {tie : TieBreak α K} {choices : List (α × K)} {rnd : ℕ → ℚ} (hne : choices ≠ [])
    (hpos : ∀ p ∈ choices, 0 ≤ p.2)
    (hrnd : ((List.range choices.length).map rnd).Nodup) :
    ∃ v, mostLikelyChoice tie choices rnd = .ok v := by
  unfold mostLikelyChoice
  have h1 : ¬ choices.length = 0 := by simpa using hne
  have h2 : ¬ (choices.filter fun c => c.2 < 0).length > 0 := by
    rw [neg_filter_iff]; rintro ⟨p, hp, h⟩; exact absurd (hpos p hp) (not_le.2 h)
  have h3 : ((mlEntries rnd choices 0).map MLEntry.key).Nodup := by
    have : ((mlEntries rnd choices 0).map MLEntry.rnd).Nodup := by
      rw [mlEntries_rnd, ← List.range_eq_range']; exact hrnd
    have e : (mlEntries rnd choices 0).map MLEntry.rnd =
        ((mlEntries rnd choices 0).map MLEntry.key).map (fun k => (ofLex k).2) := by
      simp [MLEntry.key, Function.comp_def]
    rw [e] at this
    exact List.Nodup.of_map _ this
  rw [if_neg h1, if_neg h2]
  dsimp only
  rw [if_neg (by simpa using h3)]
  split
  · rename_i he
    have := (List.perm_insertionSort (fun a b : MLEntry α K => b.key ≤ a.key)
      (mlEntries rnd choices 0)).length_eq
    rw [he, length_mlEntries] at this
    exact absurd this.symm h1
  · exact ⟨_, rfl⟩

example : mostLikelyChoice (fun _ => .error .typeErr) [("a", (1 : ℚ)), ("b", 3), ("c", 3)]
    (fun k => (k : ℚ) / 10) = .ok "c" := by decide +kernel

/-! ### C44: `mean`, `std`, `c4` -/

/-- `std` (utils.py:92-113). -/
noncomputable def pyStd (values : List ℝ) : Res ℝ := (pyVariance values).map Real.sqrt

/-- **C44**, mean: the sum divided by the number; `ValueError` on the empty list. -/
theorem C44_mean (xs : List K) (h : xs ≠ []) : pyMean xs = .ok (xs.sum / xs.length) := by
  have : xs.length ≠ 0 := by simpa using h
  have h2 : (xs.length : K) ≠ 0 := by exact_mod_cast this
  simp [pyMean, pyDiv, h2, h]

theorem pyVariance_eq (xs : List K) (h : xs ≠ []) :
    pyVariance xs = .ok ((xs.map fun v => (v - xs.sum / xs.length) ^ 2).sum / xs.length) := by
  have hl : xs.length ≠ 0 := by simpa using h
  have h2 : (xs.length : K) ≠ 0 := by exact_mod_cast hl
  unfold pyVariance
  rw [if_neg (by omega), C44_mean xs h]
  simp only [sq]
  show pyDiv _ _ = _
  rw [pyDiv, if_neg h2]

/-- **C44**, std: the root of the mean of the squared deviations from the mean. -/
theorem C44_std (xs : List ℝ) (h : xs ≠ []) :
    pyStd xs = .ok (Real.sqrt ((xs.map fun v => (v - xs.sum / xs.length) ^ 2).sum / xs.length)) := by
  rw [pyStd, pyVariance_eq xs h]; rfl

theorem C44_empty : pyMean ([] : List K) = .error .valueErr ∧ pyStd [] = .error .valueErr :=
  ⟨rfl, rfl⟩

theorem c4_ok {n : ℤ} (h : 2 ≤ n) : ∃ x, c4 n = .ok x ∧ 0 < x ∧ x ≤ 1 := by
  by_cases h30 : n < 30
  · interval_cases n <;> (refine ⟨_, rfl, ?_, ?_⟩ <;> norm_num)
  · exact ⟨1, by simp [c4, h30, show ¬ n ≤ 1 by omega], by norm_num, by norm_num⟩

theorem c4_step {n : ℤ} (h : 2 ≤ n) {x y : ℚ} (hx : c4 n = .ok x) (hy : c4 (n + 1) = .ok y) :
    x ≤ y := by
  by_cases h30 : n < 30
  · interval_cases n <;> (cases hx; cases hy; norm_num)
  · have e1 : c4 n = .ok 1 := by simp [c4, h30, show ¬ n ≤ 1 by omega]
    have e2 : c4 (n + 1) = .ok 1 := by
      simp [c4, show ¬ n + 1 < 30 by omega, show ¬ n + 1 ≤ 1 by omega]
    rw [e1] at hx; rw [e2] at hy
    cases hx; cases hy; exact le_refl _

/-- **C44**, c4: `ValueError` for `n ≤ 1`; in `(0, 1]` and non-decreasing for `n ≥ 2`; exactly 1 from 30
on. -/
theorem C44_c4 :
    (∀ n, n ≤ 1 → c4 n = .error .valueErr) ∧
    (∀ n, 2 ≤ n → ∃ x, c4 n = .ok x ∧ 0 < x ∧ x ≤ 1) ∧
    (∀ n m x y, 2 ≤ n → n ≤ m → c4 n = .ok x → c4 m = .ok y → x ≤ y) ∧
    (∀ n, 30 ≤ n → c4 n = .ok 1) := by
  refine ⟨fun n h => by simp [c4, h], fun n h => c4_ok h, ?_, fun n h => by
    simp [c4, show ¬ n < 30 by omega, show ¬ n ≤ 1 by omega]⟩
  intro n m x y h2 hnm hx hy
  obtain ⟨k, rfl⟩ := Int.le.dest hnm
  induction k generalizing y with
  | zero => simp [hx] at hy; exact hy.le
  | succ k ih =>
    obtain ⟨z, hz, -⟩ := c4_ok (n := n + k) (by omega)
    have h1 := ih z (by omega) hz
    exact h1.trans (c4_step (n := n + k) (by omega) hz (by rw [← hy]; congr 1; push_cast; ring))

example : pyMean [(1 : ℚ), 2, 6] = .ok 3 ∧ pyVariance [(1 : ℚ), 2, 6] = .ok (14 / 3) := by
  decide +kernel

end CF
