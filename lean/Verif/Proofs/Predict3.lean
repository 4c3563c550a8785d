/-
Lemmas about predictions from Cobweb/3 concept tables.
-/
import Verif.Proofs.Ecg3
import Verif.Proofs.Predict
import Verif.Props.Continuous

set_option linter.unusedSectionVars false

namespace CF
variable {A B V : Type} [DecidableEq A] [DecidableEq B] [DecidableEq V] {hid : A → Bool}
  {cfg : Cfg3 A B} {sc : Scales B} {f : B → Multiset ℝ} {s : Stats3 A V} {m : Multiset (Inst3 A V)}

/-- Nominal values, numbers and "missing" exhaust the instances. -/
theorem countP_none_add3 (m : Multiset (Inst3 A V)) (a : A) (P : Finset V) (hP : nomVals m a ⊆ P) :
    (m.countP fun i => Dict.get? i a = none) + (∑ v ∈ P, occ m a (.nom v) +
      Multiset.card (nums m a)) = Multiset.card m := by
  induction m using Multiset.induction_on with
  | empty => simp [occ]
  | cons i m ih =>
    have hsub : nomVals m a ⊆ P := by
      intro v hv; apply hP
      obtain ⟨j, hj, h⟩ := mem_nomVals.1 hv
      exact mem_nomVals.2 ⟨j, by simp [hj], h⟩
    specialize ih hsub
    rw [Multiset.card_cons, ← ih]
    cases h : Dict.get? i a with
    | none =>
      have e : ∀ v : V, occ (i ::ₘ m) a (.nom v) = occ m a (.nom v) :=
        fun v => occ_cons_of_neg (by simp [h])
      have e2 : nums (i ::ₘ m) a = nums m a := nums_cons_other (by simp [h])
      simp only [e, e2]
      rw [Multiset.countP_cons, if_pos h]; omega
    | some x =>
      rw [Multiset.countP_cons_of_neg _ (by simp [h])]
      cases x with
      | num x =>
        have e : ∀ v : V, occ (i ::ₘ m) a (.nom v) = occ m a (.nom v) :=
          fun v => occ_cons_of_neg (by simp [h])
        rw [nums_cons_num h, Multiset.card_cons]
        simp only [e]; omega
      | nom x =>
        have e2 : nums (i ::ₘ m) a = nums m a := nums_cons_other (by simp [h])
        have e : ∀ v : V, occ (i ::ₘ m) a (.nom v) = occ m a (.nom v) + if v = x then 1 else 0 := by
          intro v
          by_cases hv : v = x
          · subst hv; rw [occ_cons_of_pos h]; simp
          · rw [occ_cons_of_neg (by simp [h, Ne.symm hv])]; simp [hv]
        simp only [e, e2, Finset.sum_add_distrib]
        have hx : x ∈ P := hP (mem_nomVals.2 ⟨i, by simp, h⟩)
        rw [Finset.sum_ite_eq', if_pos hx]; omega

theorem Summarizes3.count_ne (h : Summarizes3 s m) (hm : m ≠ 0) : (s.count : ℝ) ≠ 0 := by
  rw [h.count]; simpa using hm

theorem Summarizes3.cv_num (h : Summarizes3 s m) {a : A} {t : Tab V} (ht : (a, t) ∈ s.av) :
    ((t.cv.map CV.num).getD 0) = Multiset.card (nums m a) := by
  have e : s.cvOf a = t.cv := by rw [Stats3.cvOf, Dict.get?_of_mem h.nodup.1 ht]; rfl
  rw [← e]
  rcases h.cv a with ⟨h1, h2⟩ | ⟨-, c, h2, h3⟩
  · simp [h1, h2]
  · simp [h2, h3.num]

theorem Tab.total_eq (t : Tab V) : t.total = (t.noms.map Prod.snd).sum + (t.cv.map CV.num).getD 0 := by
  unfold Tab.total Tab.entries
  cases t.cv <;> simp [Function.comp_def]

theorem Summarizes3.total (h : Summarizes3 s m) {a : A} {t : Tab V} (ht : (a, t) ∈ s.av) :
    t.total = ∑ v ∈ nomVals m a, occ m a (.nom v) + Multiset.card (nums m a) := by
  rw [t.total_eq, h.cv_num ht]
  congr 1
  exact h.table_sum (M := ℕ) ht id

theorem freq_nom (a : A) (v : V) : freq ℝ m a (some (.nom v)) = prob ℝ m a (.nom v) := rfl

/-- The keys of a table with their shares. -/
theorem Summarizes3.entries (h : Summarizes3 s m) {a : A} {t : Tab V} (ht : (a, t) ∈ s.av) :
    (t.entries.map fun p => (some p.1, (p.2 : ℝ) / (s.count : ℝ))) =
      ((s.keysOf a).map some).map fun o => (o, share m a o) := by
  have e : s.keysOf a = t.entries.map Prod.fst := by
    unfold Stats3.keysOf; rw [Dict.get?_of_mem h.nodup.1 ht]
  rw [e, List.map_map, List.map_map]
  apply List.map_congr_left
  rintro ⟨k, c⟩ hp
  simp only [Function.comp, Prod.mk.injEq, true_and]
  unfold Tab.entries at hp
  rcases List.mem_append.1 hp with hp | hp
  · obtain ⟨q, hq, h1⟩ := List.mem_map.1 hp
    cases h1
    simp only [share, freq, h.count]
    rw [((h.table ht).1 q hq).1]; rfl
  · have hn := h.cv_num ht
    cases hcv : t.cv with
    | none => rw [hcv] at hp; simp at hp
    | some d =>
      rw [hcv] at hp hn
      simp at hp hn
      obtain ⟨rfl, rfl⟩ := hp
      simp only [share, hn, h.count]

theorem share_nonneg (m : Multiset (Inst3 A V)) (a : A) (o : Option (Option V)) : 0 ≤ share m a o := by
  rcases o with _ | _ | v
  · exact freq_nonneg m a none
  · simp only [share]; positivity
  · exact freq_nonneg m a _

theorem share_le_one (m : Multiset (Inst3 A V)) (a : A) (o : Option (Option V)) : share m a o ≤ 1 := by
  rcases o with _ | _ | v
  · exact freq_le_one m a none
  · simp only [share]
    apply div_le_one_of_le₀ _ (by positivity)
    have := sum_occ_nums_le m a ∅
    simp at this; exact_mod_cast this
  · exact freq_le_one m a _

theorem share_sum (hm : m ≠ 0) (a : A) :
    share m a none + (∑ v ∈ nomVals m a, share m a (some (some v)) + share m a (some none)) = 1 := by
  have h := countP_none_add3 m a (nomVals m a) (Finset.Subset.refl _)
  have hc : (Multiset.card m : ℝ) ≠ 0 := by simpa using hm
  simp only [share, freq]
  rw [← Finset.sum_div, ← add_div, ← add_div, div_eq_one_iff_eq hc]
  exact_mod_cast h

/-- `probability(attr, None)` is the share of the instances without the attribute. -/
theorem probNone_eq (h : Summarizes3 s m) (hm : m ≠ 0) (a : A) :
    s.probNone a = .ok (share m a none) := by
  have hc := h.count_ne hm
  have h2 := countP_none_add3 m a (nomVals m a) (Finset.Subset.refl _)
  have key : ∀ c : ℕ, c = ∑ v ∈ nomVals m a, occ m a (.nom v) + Multiset.card (nums m a) →
      pyDiv ((s.count : ℝ) - (c : ℝ)) (s.count : ℝ) = .ok (share m a none) := by
    rintro c rfl
    rw [pyDiv_ok hc]
    simp only [share, freq]
    rw [h.count]
    congr 2
    have h3 : ((m.countP fun i => Dict.get? i a = none : ℕ) : ℝ) +
        ((∑ v ∈ nomVals m a, occ m a (.nom v) + Multiset.card (nums m a) : ℕ) : ℝ)
        = (Multiset.card m : ℝ) := by exact_mod_cast h2
    rw [← h3]; ring
  unfold Stats3.probNone
  cases hg : s.av.get? a with
  | none =>
    refine key 0 ?_
    have hn : ∀ i ∈ m, Dict.get? i a = none := by
      intro i hi
      rw [Dict.get?_eq_none]
      intro hk
      exact Dict.get?_eq_none.1 hg ((h.attrs a).2 ⟨i, hi, hk⟩)
    have : (m.countP fun i => Dict.get? i a = none) = Multiset.card m :=
      Multiset.countP_eq_card.2 hn
    omega
  | some t => exact key _ (h.total (Dict.mem_of_get? hg))

theorem probNom_eq (h : Summarizes3 s m) (hm : m ≠ 0) (a : A) (v : V) :
    s.probNom a v = .ok (share m a (some (some v))) := by
  have hc := h.count_ne hm
  have hl := h.noms a v
  unfold Stats3.nomLookup at hl
  unfold Stats3.probNom
  rw [hl]
  by_cases h0 : occ m a (.nom v) = 0
  · rw [if_pos h0]
    simp only [share, freq_nom, prob, h0]; simp
  · rw [if_neg h0]
    simp only
    rw [pyDiv_ok hc, h.count]; rfl

/-! ### Numbers -/

theorem noise_pos (z : ℝ) : 0 < z ^ 2 + 1 / (2 * Real.pi) := by
  have := Real.pi_pos
  positivity

theorem gaussDensity_eq {c : CV ℝ} {k : Multiset ℝ} (h : c.Obs k) (x shift : ℝ) {u : ℝ} (hu : u ≠ 0) :
    gaussDensity c x shift u = .ok (ProbabilityTheory.gaussianPDFReal ((sampleMean k - shift) / u)
      (Real.toNNReal ((sampleStd k / (if u ≤ 0 then 1 else u)) ^ 2 + 1 / (2 * Real.pi)))
      ((x - shift) / u)) := by
  have hp := Real.pi_pos
  unfold gaussDensity
  rw [pyDiv_ok hu, pyDiv_ok hu, scaledUnbiasedStd_eq h, h.mean]
  generalize sampleStd k / (if u ≤ 0 then 1 else u) = z
  have hz := noise_pos z
  show (pySqrt _ >>= _) = _
  rw [show z * z = z ^ 2 by ring, pySqrt_ok hz.le]
  show (pyDiv _ _ >>= _) = _
  have hs := Real.sqrt_pos.2 hz
  have h2 : Real.sqrt (2 * Real.pi) * Real.sqrt (z ^ 2 + 1 / (2 * Real.pi)) ≠ 0 := by
    have := Real.sqrt_pos.2 (by positivity : 0 < 2 * Real.pi)
    positivity
  rw [pyDiv_ok h2]
  show (pyDiv _ _ >>= _) = _
  rw [pyDiv_ok (by positivity)]
  show Except.ok _ = Except.ok _
  unfold ProbabilityTheory.gaussianPDFReal
  rw [Real.coe_toNNReal _ hz.le]
  congr 1
  congr 1
  · rw [one_div, Real.sqrt_mul (by positivity : (0:ℝ) ≤ 2 * Real.pi)]
  · congr 1
    rw [mul_assoc, Real.mul_self_sqrt hz.le, sq ((x - shift) / u - _)]

theorem gaussDensity_le_one (μ z x : ℝ) :
    0 < ProbabilityTheory.gaussianPDFReal μ (Real.toNNReal (z ^ 2 + 1 / (2 * Real.pi))) x ∧
    ProbabilityTheory.gaussianPDFReal μ (Real.toNNReal (z ^ 2 + 1 / (2 * Real.pi))) x ≤ 1 := by
  have hp := Real.pi_pos
  have hz := noise_pos z
  refine ⟨ProbabilityTheory.gaussianPDFReal_pos _ _ _ (by simpa using hz), ?_⟩
  unfold ProbabilityTheory.gaussianPDFReal
  rw [Real.coe_toNNReal _ hz.le]
  have h1 : 1 ≤ Real.sqrt (2 * Real.pi * (z ^ 2 + 1 / (2 * Real.pi))) := by
    rw [Real.one_le_sqrt]
    have : 2 * Real.pi * (z ^ 2 + 1 / (2 * Real.pi)) = 2 * Real.pi * z ^ 2 + 1 := by field_simp
    rw [this]; nlinarith [sq_nonneg z]
  have h2 : (Real.sqrt (2 * Real.pi * (z ^ 2 + 1 / (2 * Real.pi))))⁻¹ ≤ 1 := inv_le_one_of_one_le₀ h1
  have h3 : Real.exp (-(x - μ) ^ 2 / (2 * (z ^ 2 + 1 / (2 * Real.pi)))) ≤ 1 := by
    rw [Real.exp_le_one_iff]
    apply div_nonpos_of_nonpos_of_nonneg
    · nlinarith [sq_nonneg (x - μ)]
    · positivity
  exact mul_le_one₀ h2 (Real.exp_pos _).le h3

theorem probScale_eq (hsc : ScalesObs sc f) {a : A} (hf : cfg.scaling ≠ 0 → f (cfg.inner a) ≠ 0) :
    probScale cfg sc a = .ok (probUnit cfg f a) := by
  unfold probScale probUnit
  by_cases h0 : cfg.scaling = 0
  · simp [h0]
  · rw [if_neg h0, if_neg h0]
    rcases hsc (cfg.inner a) with ⟨h1, -⟩ | ⟨-, c, hg, ho⟩
    · exact absurd h1 (hf h0)
    · rw [hg]
      simp only
      rw [pyDiv_ok h0, unbiasedStd_eq ho, ho.mean]; rfl

theorem probUnit_ne (cfg : Cfg3 A B) (f : B → Multiset ℝ) (a : A) : (probUnit cfg f a).2 ≠ 0 := by
  unfold probUnit
  split
  · exact one_ne_zero
  · dsimp only
    split
    · exact one_ne_zero
    · assumption

/-- The density that `probability` uses for numbers. -/
noncomputable def numDensity (cfg : Cfg3 A B) (f : B → Multiset ℝ) (k : Multiset ℝ) (a : A) (x : ℝ) : ℝ :=
  let p := probUnit cfg f a
  ProbabilityTheory.gaussianPDFReal ((sampleMean k - p.1) / p.2)
    (Real.toNNReal ((sampleStd k / (if p.2 ≤ 0 then 1 else p.2)) ^ 2 + 1 / (2 * Real.pi)))
    ((x - p.1) / p.2)

theorem probNum_eq (h : Summarizes3 s m) (hm : m ≠ 0) (hsc : ScalesObs sc f) (a : A) (x : ℝ)
    (hf : nums m a ≠ 0 → f (cfg.inner a) ≠ 0) :
    s.probNum cfg sc a x = .ok (share m a (some none) * numDensity cfg f (nums m a) a x) := by
  have hc := h.count_ne hm
  unfold Stats3.probNum
  rcases h.cv a with ⟨h1, h2⟩ | ⟨h1, c, h2, h3⟩
  · change (match s.cvOf a with | none => _ | some c => _) = _
    rw [h2]; simp [share, h1]
  · change (match s.cvOf a with | none => _ | some c => _) = _
    rw [h2]
    simp only
    rw [pyDiv_ok hc, probScale_eq hsc (fun _ => hf h1)]
    show (gaussDensity _ _ _ _ >>= _) = _
    rw [gaussDensity_eq h3 _ _ (probUnit_ne cfg f a)]
    simp only [share, h3.num, h.count]
    rfl

/-- `get_weighted_values` lists the candidates with their shares. -/
theorem weightedValues3_eq (h : Summarizes3 s m) (hm : m ≠ 0) {a : A} (ha : a ∈ s.av.keys) (an : Bool) :
    s.weightedValues a an = .ok ((s.candidates a an).map fun o => (o, share m a o)) := by
  have hc := h.count_ne hm
  obtain ⟨t, hg⟩ : ∃ t, s.av.get? a = some t := Option.isSome_iff_exists.1 (Dict.get?_isSome.2 ha)
  have e1 := h.entries (Dict.mem_of_get? hg)
  have hnone := probNone_eq h hm a
  unfold Stats3.probNone at hnone
  simp only [hg] at hnone
  unfold Stats3.weightedValues
  simp only [hg, weightLoop_eq hc, ok_bind, e1]
  cases an with
  | true => simp only [if_true, hnone, ok_bind, Stats3.candidates]; simp [pure, Except.pure]
  | false => simp [Stats3.candidates, pure, Except.pure]

theorem predict3_known (h : Summarizes3 s m) (hm : m ≠ 0) {tie : TieBreak (Option (Option V)) ℝ}
    {gauss : Gauss} {a : A} {t : Tab V} (hg : s.av.get? a = some t) {fn : ChoiceFn} (hfn : fn ≠ .other)
    (an : Bool) (w : World) :
    s.predict tie gauss a fn an w = (choose tie (fn = .sampled)
      ((s.candidates a an).map fun o => (o, share m a o)) w >>= finishPredict gauss t fn) := by
  unfold Stats3.predict
  rw [if_neg hfn]
  simp only [hg]
  rw [weightedValues3_eq h hm (Dict.get?_isSome.1 (by simp [hg])) an, ok_bind]

theorem mem_map_cand3 {a : A} {an : Bool} {o : Option (Option V)} {p : ℝ}
    (h : (o, p) ∈ (s.candidates a an).map fun o => (o, share m a o)) :
    o ∈ s.candidates a an ∧ p = share m a o := by
  obtain ⟨o', h1, h2⟩ := List.mem_map.1 h
  cases h2; exact ⟨h1, rfl⟩

/-- Membership in the keys. -/
theorem Summarizes3.mem_keysOf (h : Summarizes3 s m) {a : A} {k : Option V} :
    k ∈ s.keysOf a ↔ 0 < share m a (some k) := by
  have hpos : ∀ {c : ℕ}, c ≠ 0 → c ≤ Multiset.card m → 0 < (c : ℝ) / Multiset.card m := by
    intro c h1 h2
    exact div_pos (by exact_mod_cast Nat.pos_of_ne_zero h1)
      (by exact_mod_cast lt_of_lt_of_le (Nat.pos_of_ne_zero h1) h2)
  unfold Stats3.keysOf
  cases hg : s.av.get? a with
  | none =>
    have hn : ∀ i ∈ m, Dict.get? i a = none := by
      intro i hi
      rw [Dict.get?_eq_none]
      intro hk
      exact Dict.get?_eq_none.1 hg ((h.attrs a).2 ⟨i, hi, hk⟩)
    simp only [List.not_mem_nil, false_iff, not_lt]
    rcases k with _ | v
    · have : nums m a = 0 := by
        rw [Multiset.eq_zero_iff_forall_notMem]
        intro x hx
        obtain ⟨i, hi, h1⟩ := mem_nums.1 hx
        rw [hn i hi] at h1; cases h1
      simp [share, this]
    · have : (m.countP fun i => Dict.get? i a = some (.nom v)) = 0 := by
        rw [Multiset.countP_eq_zero]
        intro i hi h1; rw [hn i hi] at h1; cases h1
      simp [share, freq, this]
  | some t =>
    have ht := Dict.mem_of_get? hg
    have htab := h.table ht
    have hn := h.cv_num ht
    simp only [Tab.entries, List.map_append, List.map_map, List.mem_append]
    rcases k with _ | v
    · simp only [share]
      constructor
      · rintro (hk | hk)
        · simp at hk
        · cases hcv : t.cv with
          | none => rw [hcv] at hk; simp at hk
          | some d =>
            obtain ⟨h1, h2⟩ := h.cv_of_mem ht hcv
            have h3 : Multiset.card (nums m a) ≠ 0 := by simpa using h1
            have := sum_occ_nums_le m a ∅
            simp at this
            exact hpos h3 this
      · intro hk
        right
        cases hcv : t.cv with
        | none =>
          rw [hcv] at hn
          simp at hn
          rw [← hn] at hk; simp at hk
        | some d => simp
    · have e : v ∈ t.noms.map Prod.fst ↔ occ m a (.nom v) ≠ 0 := by
        rw [← List.mem_toFinset, htab.2.2, mem_nomVals_iff_occ]
      simp only [share, freq_nom, prob]
      constructor
      · rintro (hk | hk)
        · obtain ⟨q, hq, h1⟩ := List.mem_map.1 hk
          simp at h1
          subst h1
          exact hpos (e.1 (List.mem_map.2 ⟨q, hq, rfl⟩)) (Multiset.countP_le_card _ _)
        · cases hcv : t.cv with
          | none => rw [hcv] at hk; simp at hk
          | some d => rw [hcv] at hk; simp at hk
      · intro hk
        left
        have : occ m a (.nom v) ≠ 0 := by
          intro h0; rw [h0] at hk; simp at hk
        obtain ⟨q, hq, h1⟩ := List.mem_map.1 (e.2 this)
        exact List.mem_map.2 ⟨q, hq, by simp [h1]⟩

end CF
