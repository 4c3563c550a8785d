/-
Cobweb/3's `expected_correct_guesses` and `probability`: closed forms and bounds; `attr_scales`.
-/
import Verif.Proofs.Cobweb3
import Verif.Proofs.Ecg
import Verif.Proofs.Terminate
import Verif.Proofs.NoRaise

set_option linter.unusedSectionVars false

namespace CF
open Finset
variable {A B V : Type} [DecidableEq A] [DecidableEq B] [DecidableEq V] {hid : A → Bool}
  {cfg : Cfg3 A B} {sc : Scales B} {f : B → Multiset ℝ}

theorem mem_nomVals {m : Multiset (Inst3 A V)} {a : A} {v : V} :
    v ∈ nomVals m a ↔ ∃ i ∈ m, Dict.get? i a = some (.nom v) := by
  simp only [nomVals, Finset.mem_biUnion, Multiset.mem_toFinset, Option.mem_toFinset,
    Option.mem_def]
  constructor
  · rintro ⟨i, hi, h⟩
    refine ⟨i, hi, ?_⟩
    cases hg : Dict.get? i a with
    | none => rw [hg] at h; simp at h
    | some x =>
      rw [hg] at h
      cases x with
      | nom u => simp at h; rw [h]
      | num y => simp at h
  · rintro ⟨i, hi, h⟩
    exact ⟨i, hi, by rw [h]; rfl⟩

theorem mem_nomVals_iff_occ {m : Multiset (Inst3 A V)} {a : A} {v : V} :
    v ∈ nomVals m a ↔ occ m a (.nom v) ≠ 0 := by
  rw [mem_nomVals, ← occ_pos, Nat.pos_iff_ne_zero]

/-- Nominal occurrences and numbers together are at most as many as the instances. -/
theorem sum_occ_nums_le (m : Multiset (Inst3 A V)) (a : A) (P : Finset V) :
    ∑ v ∈ P, occ m a (.nom v) + Multiset.card (nums m a) ≤ Multiset.card m := by
  induction m using Multiset.induction_on with
  | empty => simp [occ]
  | cons i m ih =>
    rw [Multiset.card_cons]
    cases h : Dict.get? i a with
    | none =>
      have e : ∀ v : V, occ (i ::ₘ m) a (.nom v) = occ m a (.nom v) :=
        fun v => occ_cons_of_neg (by simp [h])
      have e2 : nums (i ::ₘ m) a = nums m a := nums_cons_other (by simp [h])
      simp only [e, e2]; omega
    | some x =>
      cases x with
      | num x =>
        have e : ∀ v : V, occ (i ::ₘ m) a (.nom v) = occ m a (.nom v) :=
          fun v => occ_cons_of_neg (by simp [h])
        rw [nums_cons_num h, Multiset.card_cons]
        simp only [e]; omega
      | nom x =>
        have e2 : nums (i ::ₘ m) a = nums m a := nums_cons_other (by simp [h])
        have e : ∀ v : V, occ (i ::ₘ m) a (.nom v) = occ m a (.nom v) + if v = x then 1 else 0 := by
          intro v
          by_cases hv : v = x
          · subst hv; rw [occ_cons_of_pos h]; simp
          · rw [occ_cons_of_neg (by simp [h, Ne.symm hv])]; simp [hv]
        simp only [e, e2, Finset.sum_add_distrib]
        have : (∑ v ∈ P, if v = x then 1 else 0) ≤ 1 := by
          rw [Finset.sum_ite_eq']; split <;> simp
        omega

theorem Summarizes3.visible_keys {s : Stats3 A V} {m : Multiset (Inst3 A V)} (h : Summarizes3 s m) :
    ((s.visible hid).map Prod.fst).toFinset = visAttrs hid m := by
  ext a
  simp only [List.mem_toFinset, List.mem_map, visAttrs, Finset.mem_filter, mem_attrsOf,
    ← h.attrs, Stats3.visible, List.mem_filter]
  simp only [Dict.keys, List.mem_map]
  constructor
  · rintro ⟨p, ⟨hp, hh⟩, rfl⟩; exact ⟨⟨p, hp, rfl⟩, by simpa using hh⟩
  · rintro ⟨⟨p, hp, rfl⟩, hh⟩; exact ⟨p, ⟨hp, by simpa using hh⟩, rfl⟩

theorem Summarizes3.visible_nodup {s : Stats3 A V} {m : Multiset (Inst3 A V)}
    (h : Summarizes3 s m) : ((s.visible hid).map Prod.fst).Nodup :=
  (List.filter_sublist.map _).nodup h.nodup.1

theorem Summarizes3.visible_length {s : Stats3 A V} {m : Multiset (Inst3 A V)}
    (h : Summarizes3 s m) : (s.visible hid).length = (visAttrs hid m).card := by
  rw [← h.visible_keys, List.toFinset_card_of_nodup h.visible_nodup, List.length_map]

/-- The nominal entries of the table of `a`. -/
theorem Summarizes3.table {s : Stats3 A V} {m : Multiset (Inst3 A V)} (h : Summarizes3 s m)
    {a : A} {t : Tab V} (ht : (a, t) ∈ s.av) :
    (∀ p ∈ t.noms, p.2 = occ m a (.nom p.1) ∧ occ m a (.nom p.1) ≠ 0) ∧
      (t.noms.map Prod.fst).Nodup ∧ (t.noms.map Prod.fst).toFinset = nomVals m a := by
  have hnd := h.nodup.2 _ ht
  have hl := h.noms_of_mem ht
  refine ⟨?_, hnd, ?_⟩
  · rintro ⟨v, c⟩ hp
    have := Dict.get?_of_mem hnd hp
    rw [hl] at this
    split at this
    · cases this
    · rename_i h0; simp at this; exact ⟨this.symm, h0⟩
  · ext v
    rw [List.mem_toFinset, mem_nomVals_iff_occ]
    change v ∈ Dict.keys t.noms ↔ _
    rw [← Dict.get?_isSome, hl]
    split <;> simp_all

theorem Summarizes3.table_sum {s : Stats3 A V} {m : Multiset (Inst3 A V)} (h : Summarizes3 s m)
    {M : Type} [AddCommMonoid M]
    {a : A} {t : Tab V} (ht : (a, t) ∈ s.av) (g : ℕ → M) :
    (t.noms.map fun p => g p.2).sum = ∑ v ∈ nomVals m a, g (occ m a (.nom v)) := by
  obtain ⟨h1, h2, h3⟩ := h.table ht
  rw [← h3, List.sum_toFinset _ h2, List.map_map]
  congr 1
  apply List.map_congr_left
  intro p hp
  simp [(h1 p hp).1]

/-! ### Scales -/

theorem ecgScale_eq (hsc : ScalesObs sc f) (a : A) :
    ∃ r, ecgScale cfg sc a = .ok r ∧ (if r ≤ 0 then 1 else r) = effScale cfg f a := by
  unfold ecgScale effScale
  by_cases h0 : cfg.scaling = 0
  · exact ⟨1, by simp [h0], by simp [h0]⟩
  · rw [if_neg h0]
    rcases hsc (cfg.inner a) with ⟨hf, hg⟩ | ⟨hf, c, hg, ho⟩
    · exact ⟨1, by rw [hg], by simp [hf]⟩
    · refine ⟨(1 / cfg.scaling) * sampleStd (f (cfg.inner a)), ?_, ?_⟩
      · rw [hg]
        simp only
        rw [pyDiv_ok h0, unbiasedStd_eq ho]; rfl
      · simp only [h0, hf, or_self, if_false]

theorem effScale_pos (cfg : Cfg3 A B) (f : B → Multiset ℝ) (a : A) : 0 < effScale cfg f a := by
  unfold effScale
  dsimp only
  generalize (if cfg.scaling = 0 ∨ f (cfg.inner a) = 0 then (1 : ℝ)
    else (1 / cfg.scaling) * sampleStd (f (cfg.inner a))) = r
  split
  · exact one_pos
  · rename_i h; exact not_le.1 h

theorem scaledUnbiasedStd_eq {c : CV ℝ} {k : Multiset ℝ} (h : c.Obs k) (r : ℝ) :
    c.scaledUnbiasedStd r = .ok (sampleStd k / (if r ≤ 0 then 1 else r)) := by
  unfold CV.scaledUnbiasedStd
  rw [unbiasedStd_eq h]
  show pyDiv _ _ = _
  apply pyDiv_ok
  split
  · exact one_ne_zero
  · rename_i h; exact (not_le.1 h).ne'

theorem cvTerm_eq {c : CV ℝ} {k : Multiset ℝ} (h : c.Obs k) {n : ℕ} (hn : (n : ℝ) ≠ 0) (r : ℝ) :
    cvTerm n r c = .ok (((Multiset.card k : ℝ) / (n : ℝ)) ^ 2 *
      (1 / (2 * Real.sqrt Real.pi *
        Real.sqrt ((sampleStd k / (if r ≤ 0 then 1 else r)) ^ 2 + 1 / (4 * Real.pi))))) := by
  have hp := Real.pi_pos
  unfold cvTerm
  rw [scaledUnbiasedStd_eq h]
  generalize sampleStd k / (if r ≤ 0 then 1 else r) = z
  have hpos : 0 < z * z + 1 / (4 * Real.pi) := by
    have := mul_self_nonneg z
    positivity
  show (pySqrt _ >>= _) = _
  rw [pySqrt_ok hpos.le]
  show (pyDiv _ _ >>= _) = _
  rw [pyDiv_ok hn]
  show (pyDiv _ _ >>= _) = _
  have h1 : 2 * Real.sqrt Real.pi * Real.sqrt (z * z + 1 / (4 * Real.pi)) ≠ 0 := by
    have := Real.sqrt_pos.2 hpos
    have := Real.sqrt_pos.2 hp
    positivity
  rw [pyDiv_ok h1, h.num]
  show Except.ok _ = Except.ok _
  rw [sq, sq]

theorem numTerm_zero {u : ℝ} {m : Multiset (Inst3 A V)} {a : A} (h : nums m a = 0) :
    numTerm u m a = 0 := by
  simp [numTerm, h]

theorem cvPart_eq {s : Stats3 A V} {m : Multiset (Inst3 A V)} (h : Summarizes3 s m)
    (hm : (s.count : ℝ) ≠ 0) (hsc : ScalesObs sc f) {a : A} {t : Tab V} (ht : (a, t) ∈ s.av)
    (acc : ℝ) :
    cvPart cfg sc s.count a t.cv acc = .ok (acc + numTerm (effScale cfg f a) m a) := by
  cases hc : t.cv with
  | none =>
    have : s.cvOf a = none := by
      rw [Stats3.cvOf, Dict.get?_of_mem h.nodup.1 ht]; exact hc
    rcases h.cv a with ⟨h0, -⟩ | ⟨-, d, h1, -⟩
    · rw [numTerm_zero h0, add_zero]; rfl
    · rw [this] at h1; cases h1
  | some c =>
    obtain ⟨-, ho⟩ := h.cv_of_mem ht hc
    obtain ⟨r, hr, he⟩ := ecgScale_eq (cfg := cfg) hsc a
    simp only [cvPart]
    rw [hr]
    show (cvTerm _ _ _ >>= _) = _
    rw [cvTerm_eq ho hm, he, h.count]
    rfl

theorem ecgLoop3_eq {s : Stats3 A V} {m : Multiset (Inst3 A V)} (h : Summarizes3 s m)
    (hm : (s.count : ℝ) ≠ 0) (hsc : ScalesObs sc f) (ts : Dict A (Tab V)) (hts : ∀ p ∈ ts, p ∈ s.av)
    (acc : ℝ) :
    ecgLoop3 cfg sc s.count ts acc = .ok (acc + (ts.map fun p =>
      (∑ v ∈ nomVals m p.1, prob ℝ m p.1 (.nom v) ^ 2 + numTerm (effScale cfg f p.1) m p.1)).sum) := by
  induction ts generalizing acc with
  | nil => simp [ecgLoop3]
  | cons p ts ih =>
    obtain ⟨a, t⟩ := p
    have hp : (a, t) ∈ s.av := hts _ (by simp)
    simp only [ecgLoop3, sqLoop_eq hm]
    show (cvPart _ _ _ _ _ _ >>= _) = _
    rw [cvPart_eq h hm hsc hp]
    show ecgLoop3 _ _ _ _ _ = _
    rw [ih (fun p hp => hts p (by simp [hp]))]
    have e := h.table_sum hp (fun c => ((c : ℝ) / s.count) ^ 2)
    simp only [List.map_map, Function.comp_def]
    rw [e, List.map_cons, List.sum_cons]
    simp only [prob, h.count]
    congr 1
    ring

/-- `expected_correct_guesses` is the formula, when there is a visible attribute. -/
theorem ecg3_eq {s : Stats3 A V} {m : Multiset (Inst3 A V)} (h : Summarizes3 s m)
    (hsc : ScalesObs sc f) (hv : (visAttrs hid m).Nonempty) :
    Stats3.ecg hid cfg sc s = .ok (ecgSpec3 hid cfg f m) := by
  have hm : m ≠ 0 := by
    rintro rfl; obtain ⟨a, ha⟩ := hv; simp [visAttrs, attrsOf] at ha
  have hc : (s.count : ℝ) ≠ 0 := by rw [h.count]; simpa using hm
  have hk : ((visAttrs hid m).card : ℝ) ≠ 0 := by simpa using hv.ne_empty
  unfold Stats3.ecg
  rw [ecgLoop3_eq h hc hsc (s.visible hid) (fun p hp => (List.mem_filter.1 hp).1)]
  show pyDiv _ _ = _
  rw [h.visible_length, pyDiv_ok hk, zero_add, ecgSpec3]
  congr 2
  rw [← h.visible_keys, List.sum_toFinset _ h.visible_nodup, List.map_map]
  rfl

theorem ecg3_error {s : Stats3 A V} {m : Multiset (Inst3 A V)} (h : Summarizes3 s m)
    (hv : visAttrs hid m = ∅) : Stats3.ecg hid cfg sc s = .error .zeroDiv := by
  have : s.visible hid = [] := by
    apply List.length_eq_zero_iff.1
    rw [h.visible_length, hv]; simp
  simp [Stats3.ecg, this, ecgLoop3, pyDiv, Bind.bind, Except.bind]

/-! ### Bounds -/

theorem gaussSq_le_one (z : ℝ) :
    0 < 1 / (2 * Real.sqrt Real.pi * Real.sqrt (z ^ 2 + 1 / (4 * Real.pi))) ∧
    1 / (2 * Real.sqrt Real.pi * Real.sqrt (z ^ 2 + 1 / (4 * Real.pi))) ≤ 1 := by
  have hp := Real.pi_pos
  have h0 : 0 < z ^ 2 + 1 / (4 * Real.pi) := by positivity
  have h1 : 1 ≤ 2 * Real.sqrt Real.pi * Real.sqrt (z ^ 2 + 1 / (4 * Real.pi)) := by
    have e : 2 * Real.sqrt Real.pi * Real.sqrt (z ^ 2 + 1 / (4 * Real.pi)) =
        Real.sqrt (4 * Real.pi * (z ^ 2 + 1 / (4 * Real.pi))) := by
      rw [Real.sqrt_mul (by positivity), Real.sqrt_mul (by norm_num),
        show (4 : ℝ) = 2 ^ 2 by norm_num, Real.sqrt_sq (by norm_num)]
    rw [e, Real.one_le_sqrt]
    have : 4 * Real.pi * (z ^ 2 + 1 / (4 * Real.pi)) = 4 * Real.pi * z ^ 2 + 1 := by field_simp
    rw [this]; nlinarith [sq_nonneg z]
  exact ⟨by positivity, by rw [div_le_one (by linarith)]; exact h1⟩

theorem attrTerm_le_one (u : ℝ) (m : Multiset (Inst3 A V)) (a : A) :
    ∑ v ∈ nomVals m a, prob ℝ m a (.nom v) ^ 2 + numTerm u m a ≤ 1 := by
  by_cases hm : m = 0
  · subst hm; simp [nomVals, numTerm]
  have hc : (0 : ℝ) < Multiset.card m := by
    have : Multiset.card m ≠ 0 := by simpa using hm
    exact_mod_cast Nat.pos_of_ne_zero this
  set q : ℝ := (Multiset.card (nums m a) : ℝ) / Multiset.card m with hq
  have hle := sum_occ_nums_le m a (nomVals m a)
  have hsum : ∑ v ∈ nomVals m a, prob ℝ m a (.nom v) + q ≤ 1 := by
    unfold prob
    rw [← Finset.sum_div, hq, ← add_div, div_le_one hc]
    exact_mod_cast hle
  have hs0 : 0 ≤ ∑ v ∈ nomVals m a, prob ℝ m a (.nom v) :=
    Finset.sum_nonneg fun v _ => prob_nonneg m a _
  have hq0 : 0 ≤ q := by rw [hq]; positivity
  have h1 : ∑ v ∈ nomVals m a, prob ℝ m a (.nom v) ^ 2 ≤ ∑ v ∈ nomVals m a, prob ℝ m a (.nom v) := by
    refine Finset.sum_le_sum fun v hv => ?_
    have h0 := prob_nonneg (K := ℝ) m a (Val.nom v)
    have h1 : prob ℝ m a (Val.nom v) ≤ 1 := by
      have := sum_prob_le (K := ℝ) m a {Val.nom v}
      simpa using this
    nlinarith
  have h2 : numTerm u m a ≤ q := by
    unfold numTerm
    rw [← hq]
    have := gaussSq_le_one (sampleStd (nums m a) / u)
    calc _ ≤ q ^ 2 * 1 := mul_le_mul_of_nonneg_left this.2 (sq_nonneg q)
      _ ≤ q := by nlinarith
  linarith

theorem numTerm_nonneg (u : ℝ) (m : Multiset (Inst3 A V)) (a : A) : 0 ≤ numTerm u m a := by
  unfold numTerm
  have := (gaussSq_le_one (sampleStd (nums m a) / u)).1
  positivity

theorem attrTerm_pos (u : ℝ) {m : Multiset (Inst3 A V)} {a : A} (ha : a ∈ attrsOf m) :
    0 < ∑ v ∈ nomVals m a, prob ℝ m a (.nom v) ^ 2 + numTerm u m a := by
  obtain ⟨i, hi, hk⟩ := mem_attrsOf.1 ha
  have hc : (0 : ℝ) < Multiset.card m := by
    have : m ≠ 0 := by rintro rfl; simp at hi
    have : Multiset.card m ≠ 0 := by simpa using this
    exact_mod_cast Nat.pos_of_ne_zero this
  have hs0 : 0 ≤ ∑ v ∈ nomVals m a, prob ℝ m a (.nom v) ^ 2 :=
    Finset.sum_nonneg fun v _ => sq_nonneg _
  rw [← Dict.get?_isSome, Option.isSome_iff_exists] at hk
  obtain ⟨v, hv⟩ := hk
  cases v with
  | nom v =>
    have hv' : v ∈ nomVals m a := mem_nomVals.2 ⟨i, hi, hv⟩
    have hpos : 0 < prob ℝ m a (.nom v) := by
      unfold prob
      apply div_pos _ hc
      exact_mod_cast Nat.pos_of_ne_zero (mem_nomVals_iff_occ.1 hv')
    have : 0 < ∑ v ∈ nomVals m a, prob ℝ m a (.nom v) ^ 2 :=
      Finset.sum_pos' (fun v _ => sq_nonneg _) ⟨v, hv', by positivity⟩
    have := numTerm_nonneg u m a
    linarith
  | num x =>
    have hx : x ∈ nums m a := mem_nums.2 ⟨i, hi, hv⟩
    have hk : (0 : ℝ) < Multiset.card (nums m a) := by
      have : nums m a ≠ 0 := by intro h0; rw [h0] at hx; simp at hx
      have : Multiset.card (nums m a) ≠ 0 := by simpa using this
      exact_mod_cast Nat.pos_of_ne_zero this
    have : 0 < numTerm u m a := by
      unfold numTerm
      have := (gaussSq_le_one (sampleStd (nums m a) / u)).1
      positivity
    linarith

theorem ecgSpec3_le_one (m : Multiset (Inst3 A V)) : ecgSpec3 hid cfg f m ≤ 1 := by
  unfold ecgSpec3
  apply div_le_one_of_le₀ _ (by positivity)
  calc _ ≤ ∑ a ∈ visAttrs hid m, (1 : ℝ) := Finset.sum_le_sum fun a _ => attrTerm_le_one _ m a
    _ = _ := by simp

theorem ecgSpec3_pos {m : Multiset (Inst3 A V)} (hv : (visAttrs hid m).Nonempty) :
    0 < ecgSpec3 hid cfg f m := by
  unfold ecgSpec3
  apply div_pos _ (by simpa using hv.card_pos)
  exact Finset.sum_pos (fun a ha => attrTerm_pos _ (Finset.mem_filter.1 ha).1) hv

end CF
