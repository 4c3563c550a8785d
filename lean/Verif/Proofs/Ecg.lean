/-
`expected_correct_guesses` computes its formula, and its bounds.
-/
import Verif.Spec.Score
import Verif.Proofs.Nominal
import Mathlib.Algebra.BigOperators.Ring.Finset
import Mathlib.Algebra.BigOperators.Field
import Mathlib.Algebra.Order.BigOperators.Group.Finset
import Mathlib.Algebra.Order.BigOperators.Ring.Finset
import Mathlib.Algebra.Order.Field.Basic
import Mathlib.Tactic.Ring
import Mathlib.Tactic.FieldSimp
import Mathlib.Tactic.Linarith
import Mathlib.Tactic.Positivity

set_option linter.unusedSectionVars false

namespace CF
open Finset
variable {A V : Type} [DecidableEq A] [DecidableEq V] {hid : A → Bool}

section
variable {K : Type} [Field K] [LinearOrder K]

theorem sqLoop_eq {n : ℕ} (hn : (n : K) ≠ 0) (cs : List ℕ) (acc : K) :
    sqLoop n cs acc = .ok (acc + (cs.map fun c : ℕ => ((c : K) / n) ^ 2).sum) := by
  induction cs generalizing acc with
  | nil => simp [sqLoop]
  | cons c cs ih =>
    simp only [sqLoop, pyDiv, hn, if_false, List.map_cons, List.sum_cons]
    change sqLoop n cs _ = _
    rw [ih]
    congr 1; ring

theorem ecgLoop_eq {n : ℕ} (hn : (n : K) ≠ 0) (ts : List (Dict V ℕ)) (acc : K) :
    ecgLoop n ts acc =
      .ok (acc + (ts.map fun t => (t.map fun p => ((p.2 : K) / n) ^ 2).sum).sum) := by
  induction ts generalizing acc with
  | nil => simp [ecgLoop]
  | cons t ts ih =>
    simp only [ecgLoop, sqLoop_eq hn, List.map_cons, List.sum_cons]
    change ecgLoop n ts _ = _
    rw [ih]
    congr 1
    simp only [List.map_map, Function.comp_def]
    ring

end

theorem mem_attrsOf {m : Multiset (Inst A V)} {a : A} :
    a ∈ attrsOf m ↔ ∃ i ∈ m, a ∈ Dict.keys i := by
  simp [attrsOf]

theorem mem_valsOf {m : Multiset (Inst A V)} {a : A} {v : V} :
    v ∈ valsOf m a ↔ ∃ i ∈ m, Dict.get? i a = some v := by
  simp [valsOf]

theorem occ_pos {m : Multiset (Inst A V)} {a : A} {v : V} :
    0 < occ m a v ↔ ∃ i ∈ m, Dict.get? i a = some v := Multiset.countP_pos

theorem mem_valsOf_iff_occ {m : Multiset (Inst A V)} {a : A} {v : V} :
    v ∈ valsOf m a ↔ occ m a v ≠ 0 := by
  rw [mem_valsOf, ← occ_pos, Nat.pos_iff_ne_zero]

theorem Summarizes.visible_keys {s : Stats A V} {m : Multiset (Inst A V)} (h : Summarizes s m) :
    ((s.visible hid).map Prod.fst).toFinset = visAttrs hid m := by
  ext a
  simp only [List.mem_toFinset, List.mem_map, visAttrs, Finset.mem_filter, mem_attrsOf,
    ← h.attrs, Stats.visible, List.mem_filter]
  simp only [Dict.keys, List.mem_map]
  constructor
  · rintro ⟨p, ⟨hp, hh⟩, rfl⟩; exact ⟨⟨p, hp, rfl⟩, by simpa using hh⟩
  · rintro ⟨⟨p, hp, rfl⟩, hh⟩; exact ⟨p, ⟨hp, by simpa using hh⟩, rfl⟩

theorem Summarizes.visible_nodup {s : Stats A V} {m : Multiset (Inst A V)} (h : Summarizes s m) :
    ((s.visible hid).map Prod.fst).Nodup :=
  (List.filter_sublist.map _).nodup h.nodup.1

theorem Summarizes.visible_length {s : Stats A V} {m : Multiset (Inst A V)} (h : Summarizes s m) :
    (s.visible hid).length = (visAttrs hid m).card := by
  rw [← h.visible_keys, List.toFinset_card_of_nodup h.visible_nodup, List.length_map]

/-- The entries of the table of `a` are the values of `a` with their numbers of occurrences. -/
theorem Summarizes.table {s : Stats A V} {m : Multiset (Inst A V)} (h : Summarizes s m)
    {a : A} {t : Dict V ℕ} (ht : (a, t) ∈ s.av) :
    (∀ p ∈ t, p.2 = occ m a p.1 ∧ occ m a p.1 ≠ 0) ∧ (t.map Prod.fst).Nodup ∧
      (t.map Prod.fst).toFinset = valsOf m a := by
  have hg : s.av.get? a = some t := Dict.get?_of_mem h.nodup.1 ht
  have hnd := h.nodup.2 _ ht
  have hl : ∀ v, t.get? v = if occ m a v = 0 then none else some (occ m a v) := by
    intro v; rw [← h.lookup]; simp [Stats.lookup, hg]
  refine ⟨?_, hnd, ?_⟩
  · rintro ⟨v, c⟩ hp
    have := Dict.get?_of_mem hnd hp
    rw [hl] at this
    split at this
    · cases this
    · rename_i h0; simp at this; exact ⟨this.symm, h0⟩
  · ext v
    rw [List.mem_toFinset, mem_valsOf_iff_occ]
    change v ∈ Dict.keys t ↔ _
    rw [← Dict.get?_isSome, hl]
    split <;> simp_all

section
variable {K : Type} [Field K] [LinearOrder K] [IsStrictOrderedRing K]

theorem Summarizes.table_sum {s : Stats A V} {m : Multiset (Inst A V)} (h : Summarizes s m)
    {a : A} {t : Dict V ℕ} (ht : (a, t) ∈ s.av) (f : ℕ → K) :
    (t.map fun p => f p.2).sum = ∑ v ∈ valsOf m a, f (occ m a v) := by
  obtain ⟨h1, h2, h3⟩ := h.table ht
  rw [← h3, List.sum_toFinset _ h2, List.map_map]
  congr 1
  apply List.map_congr_left
  intro p hp
  simp [(h1 p hp).1]

theorem Summarizes.visible_sum {s : Stats A V} {m : Multiset (Inst A V)} (h : Summarizes s m)
    (f : ℕ → K) :
    (((s.visible hid).map Prod.snd).map fun t => (t.map fun p => f p.2).sum).sum =
      ∑ a ∈ visAttrs hid m, ∑ v ∈ valsOf m a, f (occ m a v) := by
  rw [← h.visible_keys, List.sum_toFinset _ h.visible_nodup, List.map_map, List.map_map]
  congr 1
  apply List.map_congr_left
  rintro ⟨a, t⟩ hp
  exact h.table_sum (List.mem_filter.1 hp).1 f

/-- `expected_correct_guesses` is the formula, when there is a visible attribute. -/
theorem ecg_eq {s : Stats A V} {m : Multiset (Inst A V)} (h : Summarizes s m)
    (hv : (visAttrs hid m).Nonempty) : Stats.ecg (K := K) hid s = .ok (ecgSpec K hid m) := by
  have hm : m ≠ 0 := by
    rintro rfl; obtain ⟨a, ha⟩ := hv; simp [visAttrs, attrsOf] at ha
  have hc : (s.count : K) ≠ 0 := by rw [h.count]; simpa using hm
  have hk : ((visAttrs hid m).card : K) ≠ 0 := by simpa using hv.ne_empty
  simp only [Stats.ecg, ecgLoop_eq hc, zero_add]
  change pyDiv _ _ = _
  rw [h.visible_sum (fun c => ((c : K) / s.count) ^ 2), List.length_map, h.visible_length]
  simp only [pyDiv, hk, if_false]
  simp only [ecgSpec, prob, h.count]

/-- `expected_correct_guesses` raises `ZeroDivisionError` when no attribute is visible. -/
theorem ecg_error {s : Stats A V} {m : Multiset (Inst A V)} (h : Summarizes s m)
    (hv : visAttrs hid m = ∅) : Stats.ecg (K := K) hid s = .error .zeroDiv := by
  have : s.visible hid = [] := by
    apply List.length_eq_zero_iff.1
    rw [h.visible_length, hv]; simp
  simp [Stats.ecg, this, ecgLoop, pyDiv, Bind.bind, Except.bind]

/-! ### Bounds -/

theorem sum_occ_le (m : Multiset (Inst A V)) (a : A) (P : Finset V) :
    ∑ v ∈ P, occ m a v ≤ Multiset.card m := by
  induction m using Multiset.induction_on with
  | empty => simp [occ]
  | cons i m ih =>
    rw [Multiset.card_cons]
    cases h : Dict.get? i a with
    | none =>
      have : ∀ v, occ (i ::ₘ m) a v = occ m a v := fun v => occ_cons_of_neg (by simp [h])
      simp only [this]; omega
    | some x =>
      have : ∀ v, occ (i ::ₘ m) a v = occ m a v + if v = x then 1 else 0 := by
        intro v
        by_cases hv : v = x
        · subst hv; rw [occ_cons_of_pos h]; simp
        · rw [occ_cons_of_neg (by simp [h, Ne.symm hv])]; simp [hv]
      simp only [this, Finset.sum_add_distrib]
      have : (∑ v ∈ P, if v = x then 1 else 0) ≤ 1 := by
        rw [Finset.sum_ite_eq']; split <;> simp
      omega

theorem prob_nonneg (m : Multiset (Inst A V)) (a : A) (v : V) : 0 ≤ prob K m a v := by
  unfold prob; positivity

theorem sum_prob_le (m : Multiset (Inst A V)) (a : A) (P : Finset V) :
    ∑ v ∈ P, prob K m a v ≤ 1 := by
  unfold prob
  rw [← Finset.sum_div]
  apply div_le_one_of_le₀
  · exact_mod_cast sum_occ_le m a P
  · positivity

theorem sum_sq_le (m : Multiset (Inst A V)) (a : A) (P : Finset V) :
    ∑ v ∈ P, prob K m a v ^ 2 ≤ 1 := by
  refine le_trans (Finset.sum_le_sum fun v hv => ?_) (sum_prob_le m a P)
  have h0 := prob_nonneg (K := K) m a v
  have h1 : prob K m a v ≤ 1 := by
    have := sum_prob_le (K := K) m a {v}
    simpa using this
  nlinarith

theorem ecgSpec_le_one (m : Multiset (Inst A V)) : ecgSpec K hid m ≤ 1 := by
  unfold ecgSpec
  apply div_le_one_of_le₀ _ (by positivity)
  calc _ ≤ ∑ a ∈ visAttrs hid m, (1 : K) := Finset.sum_le_sum fun a _ => sum_sq_le m a _
    _ = _ := by simp

theorem ecgSpec_nonneg (m : Multiset (Inst A V)) : 0 ≤ ecgSpec K hid m := by
  unfold ecgSpec
  apply div_nonneg _ (by positivity)
  exact Finset.sum_nonneg fun a _ => Finset.sum_nonneg fun v _ => sq_nonneg _

theorem valsOf_nonempty {m : Multiset (Inst A V)} {a : A} (h : a ∈ attrsOf m) :
    (valsOf m a).Nonempty := by
  obtain ⟨i, hi, ha⟩ := mem_attrsOf.1 h
  rw [← Dict.get?_isSome, Option.isSome_iff_exists] at ha
  obtain ⟨v, hv⟩ := ha
  exact ⟨v, mem_valsOf.2 ⟨i, hi, hv⟩⟩

theorem ecgSpec_pos {m : Multiset (Inst A V)} (hv : (visAttrs hid m).Nonempty) :
    0 < ecgSpec K hid m := by
  unfold ecgSpec
  apply div_pos _ (by simpa using hv.card_pos)
  refine Finset.sum_pos (fun a ha => ?_) hv
  have ha' : a ∈ attrsOf m := (Finset.mem_filter.1 ha).1
  refine Finset.sum_pos (fun v hv => ?_) (valsOf_nonempty ha')
  have h1 := mem_valsOf_iff_occ.1 hv
  have hc : Multiset.card m ≠ 0 := by
    obtain ⟨i, hi, -⟩ := mem_attrsOf.1 ha'
    intro h0
    have := Multiset.card_eq_zero.1 h0
    subst this; simp at hi
  have : 0 < prob K m a v := by
    unfold prob
    apply div_pos <;> · exact_mod_cast Nat.pos_of_ne_zero (by assumption)
  positivity

/-- On a group of indistinguishable instances every visible attribute is guessed for sure. -/
theorem ecgSpec_pure {m : Multiset (Inst A V)} (hv : (visAttrs hid m).Nonempty)
    (hp : ∀ i ∈ m, ∀ j ∈ m, SameVisible hid i j) : ecgSpec K hid m = 1 := by
  have hk : ((visAttrs hid m).card : K) ≠ 0 := by simpa using hv.ne_empty
  have key : ∀ a ∈ visAttrs hid m, ∑ v ∈ valsOf m a, prob K m a v ^ 2 = 1 := by
    intro a ha
    obtain ⟨ha1, ha2⟩ := Finset.mem_filter.1 ha
    obtain ⟨v, hv⟩ := valsOf_nonempty ha1
    obtain ⟨i, hi, hiv⟩ := mem_valsOf.1 hv
    have hall : ∀ j ∈ m, Dict.get? j a = some v := by
      intro j hj; rw [← hp i hi j hj a ha2]; exact hiv
    have hvals : valsOf m a = {v} := by
      ext u
      rw [mem_valsOf, Finset.mem_singleton]
      constructor
      · rintro ⟨j, hj, hju⟩
        rw [hall j hj] at hju; exact (Option.some.inj hju).symm
      · rintro rfl; exact ⟨i, hi, hiv⟩
    have hocc : occ m a v = Multiset.card m := Multiset.countP_eq_card.2 hall
    have hc : (Multiset.card m : K) ≠ 0 := by
      have : m ≠ 0 := by rintro rfl; simp at hi
      simpa using this
    rw [hvals, Finset.sum_singleton, prob, hocc, div_self hc, one_pow]
  unfold ecgSpec
  rw [Finset.sum_congr rfl key]
  simp [hk]

end
end CF
