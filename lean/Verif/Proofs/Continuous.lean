/-
`ContinuousValue` accumulates exact summaries.
-/
import Verif.Spec.Continuous
import Verif.Proofs.Choose
import Mathlib.Algebra.CharZero.Defs
import Mathlib.Algebra.Order.BigOperators.Group.Multiset
import Mathlib.Algebra.BigOperators.Ring.Multiset
import Mathlib.Tactic.FieldSimp
import Mathlib.Tactic.Ring
import Mathlib.Tactic.Linarith
import Mathlib.Tactic.Positivity

set_option linter.unusedSectionVars false

namespace CF
section
variable {K : Type} [Field K] [LinearOrder K] [IsStrictOrderedRing K]

theorem CV.ext' {c d : CV K} (h1 : c.num = d.num) (h2 : c.mean = d.mean) (h3 : c.meanSq = d.meanSq) :
    c = d := by
  cases c; cases d; simp_all

theorem CV.Obs.unique {c d : CV K} {m : Multiset K} (h : c.Obs m) (h' : d.Obs m) : c = d :=
  CV.ext' (h.num.trans h'.num.symm) (h.mean.trans h'.mean.symm) (h.meanSq.trans h'.meanSq.symm)

theorem sum_dev (m : Multiset K) (μ : K) :
    (m.map fun x => (x - μ) ^ 2).sum =
      (m.map fun x => x ^ 2).sum - 2 * μ * m.sum + (Multiset.card m : K) * μ ^ 2 := by
  induction m using Multiset.induction_on with
  | empty => simp
  | cons x m ih =>
    simp only [Multiset.map_cons, Multiset.sum_cons, Multiset.card_cons, ih]
    push_cast; ring

theorem card_mul_sampleMean (m : Multiset K) : (Multiset.card m : K) * sampleMean m = m.sum := by
  unfold sampleMean
  by_cases h : Multiset.card m = 0
  · rw [Multiset.card_eq_zero.1 h]; simp
  · have : (Multiset.card m : K) ≠ 0 := by exact_mod_cast h
    field_simp

theorem sqDev_eq (m : Multiset K) :
    sqDev m = (m.map fun x => x ^ 2).sum - (Multiset.card m : K) * sampleMean m ^ 2 := by
  unfold sqDev; rw [sum_dev, ← card_mul_sampleMean m]; ring

@[simp] theorem sampleMean_zero : sampleMean (0 : Multiset K) = 0 := by simp [sampleMean]
@[simp] theorem sqDev_zero : sqDev (0 : Multiset K) = 0 := by simp [sqDev]

theorem sqDev_nonneg (m : Multiset K) : 0 ≤ sqDev m := by
  apply Multiset.sum_nonneg
  intro x hx
  obtain ⟨y, -, rfl⟩ := Multiset.mem_map.1 hx
  positivity

theorem obs_fresh : (CV.fresh : CV K).Obs 0 := ⟨rfl, by simp [CV.fresh], by simp [CV.fresh]⟩

theorem sampleMean_cons (x : K) (m : Multiset K) :
    sampleMean (x ::ₘ m) = sampleMean m + (x - sampleMean m) / ((Multiset.card m + 1 : ℕ) : K) := by
  have h : ((Multiset.card m + 1 : ℕ) : K) ≠ 0 := by exact_mod_cast Nat.succ_ne_zero (Multiset.card m)
  have e := card_mul_sampleMean m
  rw [sampleMean, Multiset.sum_cons, Multiset.card_cons, ← e]
  push_cast at h ⊢
  field_simp; ring

theorem obs_update {c : CV K} {m : Multiset K} (h : c.Obs m) (x : K) :
    (c.update x).Obs (x ::ₘ m) := by
  have hn : ((Multiset.card m : K) + 1) ≠ 0 := by
    exact_mod_cast Nat.succ_ne_zero (Multiset.card m)
  refine ⟨by simp [CV.update, h.num], ?_, ?_⟩
  · simp only [CV.update, h.num, h.mean]; rw [sampleMean_cons]
  · simp only [CV.update, h.num, h.mean, h.meanSq]
    rw [sqDev_eq, sqDev_eq, Multiset.map_cons, Multiset.sum_cons, sampleMean_cons, Multiset.card_cons]
    push_cast
    field_simp; ring

theorem obs_updateBatch {c : CV K} {m : Multiset K} (h : c.Obs m) (xs : List K) :
    (c.updateBatch xs).Obs (m + (xs : Multiset K)) := by
  induction xs generalizing c m with
  | nil => simpa [CV.updateBatch] using h
  | cons x xs ih =>
    have := ih (obs_update h x)
    rw [CV.updateBatch]
    rwa [← Multiset.cons_coe, Multiset.add_cons, ← Multiset.cons_add]

theorem sampleMean_add (m k : Multiset K) :
    sampleMean (m + k) = ((Multiset.card m : K) * sampleMean m + (Multiset.card k : K) * sampleMean k) /
      ((Multiset.card m : K) + (Multiset.card k : K)) := by
  rw [card_mul_sampleMean, card_mul_sampleMean, sampleMean]; simp

theorem obs_join {c d : CV K} {m k : Multiset K} (h : c.Obs m) (h' : d.Obs k) :
    (c.join d).Obs (m + k) := by
  refine ⟨by simp [CV.join, h.num, h'.num], ?_, ?_⟩
  · simp only [CV.join, h.num, h.mean, h'.num, h'.mean]; rw [sampleMean_add]
  · simp only [CV.join, h.num, h.mean, h.meanSq, h'.num, h'.mean, h'.meanSq]
    by_cases hz : Multiset.card m + Multiset.card k = 0
    · have h1 : m = 0 := Multiset.card_eq_zero.1 (by omega)
      have h2 : k = 0 := Multiset.card_eq_zero.1 (by omega)
      subst h1 h2; simp
    · have hn : ((Multiset.card m : K) + (Multiset.card k : K)) ≠ 0 := by exact_mod_cast hz
      rw [sqDev_eq, sqDev_eq, sqDev_eq, Multiset.map_add, Multiset.sum_add, sampleMean_add,
        Multiset.card_add]
      push_cast
      field_simp; ring

theorem combine_eq {c d : CV K} (h : c.num + d.num ≠ 0) : c.combine d = .ok (c.join d) := by
  have hn : ((c.num : K) + (d.num : K)) ≠ 0 := by exact_mod_cast h
  simp [CV.combine, CV.join, pyDiv, hn, bind, Except.bind, pure, Except.pure]

theorem combine_zero {c d : CV K} (h : c.num + d.num = 0) : c.combine d = .error .zeroDiv := by
  have hn : ((c.num : K) + (d.num : K)) = 0 := by exact_mod_cast h
  simp [CV.combine, pyDiv, hn, bind, Except.bind]

/-- Copying an accumulator through a fresh one. -/
theorem join_fresh {c : CV K} {m : Multiset K} (h : c.Obs m) : CV.fresh.join c = c := by
  have := obs_join obs_fresh h
  rw [zero_add] at this
  exact this.unique h

/-- A squared error of zero means that all values are the mean. -/
theorem sqDev_eq_zero {m : Multiset K} : sqDev m = 0 ↔ ∀ x ∈ m, x = sampleMean m := by
  unfold sqDev
  generalize sampleMean m = μ
  induction m using Multiset.induction_on with
  | empty => simp
  | cons x m ih =>
    have h0 : 0 ≤ (m.map fun x => (x - μ) ^ 2).sum := by
      apply Multiset.sum_nonneg
      intro x hx
      obtain ⟨y, -, rfl⟩ := Multiset.mem_map.1 hx
      positivity
    simp only [Multiset.map_cons, Multiset.sum_cons, Multiset.mem_cons, forall_eq_or_imp, ← ih]
    constructor
    · intro h
      have h1 : (x - μ) ^ 2 = 0 := le_antisymm (by linarith) (by positivity)
      exact ⟨by have := pow_eq_zero_iff (two_ne_zero) |>.1 h1; linarith, by rw [h1] at h; linarith⟩
    · rintro ⟨rfl, h⟩; simpa using h

theorem const_iff {m : Multiset K} : (∀ x ∈ m, x = sampleMean m) ↔ ∀ x ∈ m, ∀ y ∈ m, x = y := by
  constructor
  · intro h x hx y hy; rw [h x hx, h y hy]
  · intro h x hx
    have hs : m.sum = Multiset.card m • x := by
      have : m = Multiset.replicate (Multiset.card m) x :=
        Multiset.eq_replicate.2 ⟨rfl, fun y hy => h y hy x hx⟩
      conv_lhs => rw [this]
      simp
    have hc : (Multiset.card m : K) ≠ 0 := by
      have : Multiset.card m ≠ 0 := by
        intro h0; rw [Multiset.card_eq_zero.1 h0] at hx; simp at hx
      exact_mod_cast this
    rw [sampleMean, hs, nsmul_eq_mul]; field_simp

theorem sampleMean_affine (m : Multiset K) (hm : m ≠ 0) (a b : K) :
    sampleMean (m.map fun x => a * x + b) = a * sampleMean m + b := by
  have hc : (Multiset.card m : K) ≠ 0 := by
    have : Multiset.card m ≠ 0 := by simpa using hm
    exact_mod_cast this
  have hs : (m.map fun x => a * x + b).sum = a * m.sum + (Multiset.card m : K) * b := by
    clear hc hm
    induction m using Multiset.induction_on with
    | empty => simp
    | cons x m ih =>
      simp only [Multiset.map_cons, Multiset.sum_cons, Multiset.card_cons, ih]; push_cast; ring
  rw [sampleMean, hs, Multiset.card_map, sampleMean]; field_simp

theorem sqDev_affine (m : Multiset K) (a b : K) :
    sqDev (m.map fun x => a * x + b) = a ^ 2 * sqDev m := by
  by_cases hm : m = 0
  · subst hm; simp
  · rw [sqDev, sampleMean_affine m hm, Multiset.map_map, sqDev, ← Multiset.sum_map_mul_left]
    congr 1
    apply Multiset.map_congr rfl
    intro x _; simp only [Function.comp]; ring

end
end CF
