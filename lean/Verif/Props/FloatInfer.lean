/-
Property C100: `infer_missing` of a `Cobweb3Tree` in floating point; and the definitions without rounding.
-/
import Verif.Props.FloatProb
import Verif.Props.Infer3

set_option linter.unusedSectionVars false

namespace CF
variable {R : Rounding} {A B V : Type} [DecidableEq A] [DecidableEq B] [DecidableEq V] {hid : A → Bool}
  {cfg : Cfg3 A B} {st : State3 A B V} {hist : List (Inst3 A V)} {n : ℕ}

theorem categorizeLoopA_rnd {I S K : Type} {ar : Arith K} {C : NodeClass I S} {ecg : S → Res K} {inst : I} :
    ∀ (fuel : ℕ) (x : Tree S) (w : World) (r : Tree S × World),
      categorizeLoopA ar C ecg inst fuel x w = .ok r → r.2.rnd = w.rnd := by
  intro fuel
  induction fuel with
  | zero => intro x w r h; simp [categorizeLoopA] at h
  | succ fuel ih =>
    intro x w r h
    match x, h with
    | .node id s [], h => simp [categorizeLoopA] at h; subst h; rfl
    | .node id s (d :: ds), h =>
      simp only [categorizeLoopA, bind_ok] at h
      obtain ⟨b, -, h⟩ := h
      split at h
      · cases h
      · rw [ih _ _ _ h]; rfl

/-- The loop of `infer_missing`, if the predictions are known to succeed and to satisfy `P`. -/
theorem inferLoop3F_spec {s : Stats3 A V} {pos : Tab V → ℕ} {add : List ℝ → ℝ} {tie : TieBreak (Option (Option V)) ℝ}
    {gauss : Gauss} {fn : ChoiceFn} {an : Bool} {P : A → Option (Val V) → Prop} {Good : World → Prop}
    (hpred : ∀ a ∈ s.av.keys, ∀ w, Good w → ∃ r w', Stats3.predictF R.fl pos add tie gauss s a fn an w = .ok (r, w') ∧
      Good w' ∧ P a r) :
    ∀ (as : List A), as.Nodup → (∀ a ∈ as, a ∈ s.av.keys) → ∀ (temp : Inst3 A V) (w : World), Good w →
      ∃ out w', inferLoop3F R.fl pos add tie gauss s fn an as temp w = .ok (out, w') ∧
        (∀ a ∈ Dict.keys temp, Dict.get? out a = Dict.get? temp a) ∧
        (∀ a ∉ Dict.keys temp, a ∈ as → P a (Dict.get? out a)) ∧
        (∀ a ∉ Dict.keys temp, a ∉ as → Dict.get? out a = none) ∧ (Dict.Nodup temp → Dict.Nodup out) := by
  intro as
  induction as with
  | nil =>
    intro _ _ temp w _
    exact ⟨temp, w, rfl, fun _ _ => rfl, by simp, fun a ha _ => Dict.get?_eq_none.2 ha, id⟩
  | cons a as ih =>
    intro hnd has temp w hw
    have has' : ∀ b ∈ as, b ∈ s.av.keys := fun b hb => has b (by simp [hb])
    obtain ⟨hna, hnd'⟩ := List.nodup_cons.1 hnd
    unfold inferLoop3F
    split
    · rename_i hin
      have hk := Dict.has_iff.1 hin
      obtain ⟨out, w', h0, h1, h2, h3, h4⟩ := ih hnd' has' temp w hw
      refine ⟨out, w', h0, h1, fun b hb hb' => ?_, fun b hb hb' => ?_, h4⟩
      · rcases List.mem_cons.1 hb' with rfl | hb'
        · exact absurd hk hb
        · exact h2 b hb hb'
      · exact h3 b hb fun h => hb' (by simp [h])
    · rename_i hin
      have hnk : a ∉ Dict.keys temp := fun hk => hin (Dict.has_iff.2 hk)
      obtain ⟨r, w1, hp, hw1, hP⟩ := hpred a (has a (by simp)) w hw
      rw [hp, ok_bind]
      cases r with
      | none =>
        obtain ⟨out, w', h0, h1, h2, h3, h4⟩ := ih hnd' has' temp w1 hw1
        refine ⟨out, w', h0, h1, fun b hb hb' => ?_, fun b hb hb' => ?_, h4⟩
        · rcases List.mem_cons.1 hb' with rfl | hb'
          · rw [h3 b hb hna]; exact hP
          · exact h2 b hb hb'
        · exact h3 b hb fun h => hb' (by simp [h])
      | some v =>
        obtain ⟨out, w', h0, h1, h2, h3, h4⟩ := ih hnd' has' (temp.set a v) w1 hw1
        refine ⟨out, w', h0, fun b hb => ?_, fun b hb hb' => ?_, fun b hb hb' => ?_,
          fun hn => h4 (Dict.nodup_set hn _ _)⟩
        · rw [h1 b (Dict.mem_keys_set.2 (Or.inr hb)), Dict.get?_set_ne _ (by rintro rfl; exact hnk hb)]
        · by_cases hba : b = a
          · subst hba
            rw [h1 b (Dict.mem_keys_set.2 (Or.inl rfl)), Dict.get?_set_self]; exact hP
          · exact h2 b (by rw [Dict.mem_keys_set]; simp [hba, hb]) (by simpa [hba] using hb')
        · exact h3 b (by rw [Dict.mem_keys_set]; rintro (rfl | h) <;> simp_all) fun h => hb' (by simp [h])

theorem mostLikely_rnd {s : Stats3 A V} {pos : Tab V → ℕ} {add : List ℝ → ℝ} {tie : TieBreak (Option (Option V)) ℝ}
    {gauss : Gauss} {a : A} {an : Bool} {w w' : World} {r : Option (Val V)}
    (h : Stats3.predictF R.fl pos add tie gauss s a .mostLikely an w = .ok (r, w')) : w'.rnd = w.rnd := by
  unfold Stats3.predictF at h
  rw [if_neg (by decide)] at h
  split at h
  · cases h; rfl
  · obtain ⟨cs, -, h⟩ := bind_ok.1 h
    obtain ⟨⟨k, w1⟩, hc, hf⟩ := bind_ok.1 h
    have e : w1.rnd = w.rnd := by
      simp only [chooseF, reduceCtorEq, decide_false, Bool.false_eq_true, if_false] at hc
      cases hml : mostLikelyChoice tie cs w.draw with
      | error e => rw [hml] at hc; simp [Except.map] at hc
      | ok k' =>
        rw [hml] at hc
        simp only [Except.map, Except.ok.injEq, Prod.mk.injEq] at hc
        rw [← hc.2]; rfl
    rw [← e]
    unfold finishPredictF at hf
    split at hf
    · simp_all
    · simp_all
    · split at hf
      · cases hf
      · simp_all

/-- **C100**: `infer_missing` with the default choice function, in any rounding (up to 2^52 instances).  It returns; the
argument is not modified; every given value is kept; exactly the attributes recorded in the concept that `categorize`
finds are considered, and each gets the option that is most frequent among the concept's instances: the nominal value,
the mean of the numbers, or nothing (only if that is allowed). -/
theorem C100_infer (h : Reach3F R hid cfg st hist n) (hlen : hist.length ≤ 2 ^ 52) (hv : ∀ i ∈ hist, HasVisible hid i)
    (pos : Tab V → ℕ) (add : List ℝ → ℝ) {tie : TieBreak (Option (Option V)) ℝ} (htie : tie.Sound) (gauss : Gauss)
    {i : Inst3 A V} (hi : FloatInst i) (an : Bool) {w : World} (hw : Function.Injective w.rnd) :
    ∃ out w', inferMissing3F R.fl pos add hid cfg tie gauss st i .mostLikely an w = .ok (out, i, w') ∧ Dict.Nodup out ∧
      ∃ leaf ∈ st.root.leaves, ∃ w1, categorize3F R.fl pos hid cfg st i w = .ok (leaf, w1) ∧
      ∃ m ≤ (hist : Multiset (Inst3 A V)), Counts3 leaf.stats m ∧
        (∀ a v, Dict.get? i a = some v → Dict.get? out a = some v) ∧
        (∀ a, Dict.get? i a = none → a ∉ leaf.stats.av.keys → Dict.get? out a = none) ∧
        ∀ a, Dict.get? i a = none → a ∈ leaf.stats.av.keys → ∃ k : Option (Option V),
          (∀ k', (k' = none → an = true) → tally m a k' ≤ tally m a k) ∧
          ((k = none ∧ Dict.get? out a = none ∧ an = true) ∨
           (∃ v, k = some (some v) ∧ Dict.get? out a = some (.nom v) ∧ 0 < occ m a (.nom v)) ∨
           (k = some none ∧ nums m a ≠ 0 ∧ ∃ c, leaf.stats.cvOf a = some c ∧ Dict.get? out a = some (.num c.mean))) := by
  obtain ⟨leaf, w1, hc, hl⟩ := (C95_never_raises h hv pos hi hw).2
  have hx : leaf ∈ st.root.nodes := Tree.leaves_subset_nodes _ _ hl
  obtain ⟨m, hs, hle, -⟩ := node_sum3F h hx
  have hcard := card_le_hist hle
  have hw1 : Function.Injective w1.rnd := by
    rw [categorizeLoopA_rnd _ _ _ _ hc]; exact hw
  obtain ⟨out, w2, h0, h1, h2, h3, h4⟩ := inferLoop3F_spec (R := R) (s := leaf.stats) (pos := pos) (add := add)
    (tie := tie) (gauss := gauss) (fn := .mostLikely) (an := an) (Good := fun w => Function.Injective w.rnd)
    (fun a ha w hw => by
      obtain ⟨⟨r, w'⟩, hp⟩ := C100_predict_defined h (by omega) hx a pos add htie gauss an hw
      exact ⟨r, w', hp, by rw [mostLikely_rnd hp]; exact hw, predictF_most_likely hs (by omega) ha pos add htie hp⟩)
    leaf.stats.av.keys hs.nodup.1 (fun a ha => ha) i w1 hw1
  refine ⟨out, w2, ?_, h4 hi.1, leaf, hl, w1, hc, m, hle, hs, fun a v hv => ?_, fun a ha hn => ?_, fun a ha hk => ?_⟩
  · simp only [inferMissing3F, hc, ok_bind, h0]; rfl
  · rw [h1 a (Dict.get?_isSome.1 (by simp [hv]))]; exact hv
  · exact h3 a (Dict.get?_eq_none.1 ha) hn
  · exact h2 a (Dict.get?_eq_none.1 ha) hk

/-- **C100**: `infer_missing` with sampling does not raise under the rounding of Python with `sum` adding from the left;
given values are kept, and what is added occurs in the concept's instances, or is drawn from the normal distribution of
their numbers. -/
theorem C100_infer_sampled_partial (h : Reach3F ieee hid cfg st hist n) (hlen : hist.length ≤ 2 ^ 53)
    (hv : ∀ i ∈ hist, HasVisible hid i) (pos : Tab V → ℕ) (tie : TieBreak (Option (Option V)) ℝ) {gauss : Gauss}
    (hgauss : ∀ x y w, (gauss x y w).2.rnd = w.rnd) {i : Inst3 A V} (hi : FloatInst i) (an : Bool) {w : World}
    (hw : Function.Injective w.rnd) (hw01 : ∀ k, 0 ≤ w.rnd k ∧ w.rnd k ≤ 1 - 1 / 2 ^ 53) :
    ∃ out w', inferMissing3F ieee.fl pos (sumF ieee.fl) hid cfg tie gauss st i .sampled an w = .ok (out, i, w') ∧
      ∃ leaf ∈ st.root.leaves, ∃ m ≤ (hist : Multiset (Inst3 A V)), Counts3 leaf.stats m ∧
        (∀ a v, Dict.get? i a = some v → Dict.get? out a = some v) ∧
        (∀ a, Dict.get? i a = none → a ∉ leaf.stats.av.keys → Dict.get? out a = none) ∧
        ∀ a, Dict.get? i a = none → a ∈ leaf.stats.av.keys →
          (Dict.get? out a = none ∧ an = true ∧ ∃ j ∈ m, Dict.get? j a = none) ∨
          (∃ v, Dict.get? out a = some (.nom v) ∧ ∃ j ∈ m, Dict.get? j a = some (.nom v)) ∨
          (∃ c sd w0, leaf.stats.cvOf a = some c ∧ CV.unbiasedStdF ieee.fl c = .ok sd ∧
            (∃ j ∈ m, ∃ y, Dict.get? j a = some (.num y)) ∧ Dict.get? out a = some (.num (gauss c.mean sd w0).1)) := by
  obtain ⟨leaf, w1, hc, hl⟩ := (C95_never_raises h hv pos hi hw).2
  have hx : leaf ∈ st.root.nodes := Tree.leaves_subset_nodes _ _ hl
  obtain ⟨m, hs, hle, -⟩ := node_sum3F h hx
  have hw1 : w1.rnd = w.rnd := categorizeLoopA_rnd _ _ _ _ hc
  have hmem : ∀ a ∈ leaf.stats.av.keys, ∀ w, (∀ k, 0 ≤ w.rnd k ∧ w.rnd k ≤ 1 - 1 / 2 ^ 53) →
      ∃ r w', Stats3.predictF ieee.fl pos (sumF ieee.fl) tie gauss leaf.stats a .sampled an w = .ok (r, w') ∧
        (∀ k, 0 ≤ w'.rnd k ∧ w'.rnd k ≤ 1 - 1 / 2 ^ 53) ∧
        ((r = none ∧ an = true ∧ ∃ j ∈ m, Dict.get? j a = none) ∨
          (∃ v, r = some (.nom v) ∧ ∃ j ∈ m, Dict.get? j a = some (.nom v)) ∨
          (∃ c sd w0, leaf.stats.cvOf a = some c ∧ CV.unbiasedStdF ieee.fl c = .ok sd ∧
            (∃ j ∈ m, ∃ y, Dict.get? j a = some (.num y)) ∧ r = some (.num (gauss c.mean sd w0).1))) := by
    intro a ha w hw
    obtain ⟨r, w', hp, hr⟩ := predictF_sampled hs ((card_le_hist hle).trans hlen) ha pos tie gauss an (hw _).1 (hw _).2
    refine ⟨r, w', hp, ?_⟩
    rcases hr with ⟨e, rfl, han, hj⟩ | ⟨v, e, rfl, hj⟩ | ⟨c, sd, hcv, hsd, hn, e, rfl⟩
    · exact ⟨hw, .inl ⟨e, han, hj⟩⟩
    · exact ⟨hw, .inr (.inl ⟨v, e, hj⟩)⟩
    · refine ⟨by rw [hgauss]; exact hw, .inr (.inr ⟨c, sd, w.skip 1, hcv, hsd, ?_, e⟩)⟩
      obtain ⟨y, hy⟩ := Multiset.exists_mem_of_ne_zero hn
      obtain ⟨j, hj, e⟩ := mem_nums.1 hy
      exact ⟨j, hj, y, e⟩
  obtain ⟨out, w2, h0, h1, h2, h3, h4⟩ := inferLoop3F_spec (R := ieee) (s := leaf.stats) hmem
    leaf.stats.av.keys hs.nodup.1 (fun a ha => ha) i w1 (by rw [hw1]; exact hw01)
  refine ⟨out, w2, ?_, leaf, hl, m, hle, hs, fun a v hv => ?_, fun a ha hn => ?_, fun a ha hk => ?_⟩
  · simp only [inferMissing3F, hc, ok_bind, h0]; rfl
  · rw [h1 a (Dict.get?_isSome.1 (by simp [hv]))]; exact hv
  · exact h3 a (Dict.get?_eq_none.1 ha) hn
  · exact h2 a (Dict.get?_eq_none.1 ha) hk

/-! ### Without rounding -/

theorem weightedLoopF_id {α : Type} (r : ℝ) (l : List (α × ℝ)) (u : ℝ) :
    weightedLoopF id r l u = weightedLoop r l u := by
  induction l generalizing u with
  | nil => rfl
  | cons p l ih => obtain ⟨c, w⟩ := p; simp only [weightedLoopF, weightedLoop, id, ih]

theorem chooseF_id {α : Type} (tie : TieBreak α ℝ) (b : Bool) (l : List (α × ℝ)) (w : World) :
    chooseF id List.sum tie b l w = choose tie b l w := by
  simp only [chooseF, choose, weightedChoiceF, weightedChoice, id, weightedLoopF_id]

theorem weightLoopF_id (n : ℕ) (l : List (Option V × ℕ)) : weightLoopF id n l = weightLoop (K := ℝ) n l := by
  induction l with
  | nil => rfl
  | cons p l ih => obtain ⟨v, c⟩ := p; simp only [weightLoopF, weightLoop, ih, divF_id, natF, id]

theorem entriesAt_last (t : Tab V) {k : ℕ} (h : t.noms.length ≤ k) : t.entriesAt k = t.entries := by
  unfold Tab.entriesAt Tab.entries
  cases t.cv with
  | none => simp
  | some c => simp [List.take_of_length_le, List.drop_of_length_le, h]

/-- **C100**, without rounding: the definitions are those of `Verif.Model.Predict3` and `Verif.Model.Cobweb3`. -/
theorem C100_unrounded {pos : Tab V → ℕ} (hp : ∀ t : Tab V, t.noms.length ≤ pos t)
    (tie : TieBreak (Option (Option V)) ℝ) (gauss : Gauss) (s : Stats3 A V) (sc : Scales B) (fn : ChoiceFn) (an : Bool) :
    (∀ a w, Stats3.predictF id pos List.sum tie gauss s a fn an w = s.predict tie gauss a fn an w) ∧
    (∀ a v, Stats3.probabilityF id cfg sc s a v = s.probability cfg sc a v) ∧
    ∀ st i w, inferMissing3F id pos List.sum hid cfg tie gauss st i fn an w =
      inferMissing3 hid cfg tie gauss st i fn an w := by
  have hu : ∀ c : CV ℝ, CV.unbiasedStdF id c = c.unbiasedStd := fun c => (C91_unrounded c c 0 1 []).2.2.2.2.1
  have hf : ∀ (t : Tab V) r, finishPredictF id gauss t fn r = finishPredict gauss t fn r := by
    rintro t ⟨_ | _ | v, w⟩
    · rfl
    · simp only [finishPredictF, finishPredict, hu]
      cases t.cv <;> rfl
    · rfl
  have hpred : ∀ (s : Stats3 A V) a w,
      Stats3.predictF id pos List.sum tie gauss s a fn an w = s.predict tie gauss a fn an w := by
    intro s a w
    have hwv : Stats3.weightedValuesF id pos s a an = s.weightedValues a an := by
      simp only [Stats3.weightedValuesF, Stats3.weightedValues, divF_id, natF, id, weightLoopF_id, entriesAt_last _ (hp _)]
      cases s.av.get? a <;> rfl
    simp only [Stats3.predictF, Stats3.predict, hwv, chooseF_id, hf]
    cases s.av.get? a <;> rfl
  refine ⟨hpred s, ?_, fun st i w => ?_⟩
  · rintro a (_ | v | y)
    · simp only [Stats3.probabilityF, Stats3.probability, Stats3.probNoneF, Stats3.probNone, divF_id, natF, id]
      cases s.av.get? a <;> simp
    · simp only [Stats3.probabilityF, Stats3.probability, Stats3.probNomF, Stats3.probNom, divF_id, natF, id]
      cases (s.av.get? a).bind fun t => t.noms.get? v <;> rfl
    · have hsc : probScaleF id cfg sc a = probScale cfg sc a := by
        simp only [probScaleF, probScale, divF_id, hu, id]
        cases sc.get? (cfg.inner a) <;> rfl
      have h2 : ¬ (2 * Real.pi = 0) := by positivity
      have h3 : ¬ (2 * Real.pi < 0) := not_lt.2 (by positivity)
      have hsu : ∀ (c : CV ℝ) x, CV.scaledUnbiasedStdF id c x = c.scaledUnbiasedStd x :=
        fun c x => (C91_unrounded c c 0 x []).2.2.2.2.2.2
      have e1 : pyDiv (1 : ℝ) (2 * Real.pi) = .ok (1 / (2 * Real.pi)) := if_neg h2
      have e2 : pySqrt (2 * Real.pi) = .ok (Real.sqrt (2 * Real.pi)) := if_neg h3
      simp only [Stats3.probabilityF, Stats3.probability, Stats3.probNumF, Stats3.probNum, hsc, divF_id, natF, id,
        gaussDensityF, gaussDensity, sqrtF_id, hsu, piF, expF, e1, e2, ok_bind, bind_assoc, pure_bind, mul_assoc]
      cases (s.av.get? a).bind Tab.cv <;> rfl
  · have hloop : ∀ (s : Stats3 A V) as temp w, inferLoop3F id pos List.sum tie gauss s fn an as temp w =
        inferLoop3 tie gauss s fn an as temp w := by
      intro s as
      induction as with
      | nil => intro temp w; rfl
      | cons a as ih =>
        intro temp w
        simp only [inferLoop3F, inferLoop3, hpred, ih]
        split
        · rfl
        · congr 1
    simp only [inferMissing3F, inferMissing3, hloop, (C95_unrounded st i w hp).2.1]

/-! ### Examples -/

theorem Demo.rnd_ok : Function.Injective (fun k : ℕ => (1 / ((k : ℚ) + 2))) ∧
    ∀ k : ℕ, 0 ≤ (1 / ((k : ℚ) + 2)) ∧ (1 / ((k : ℚ) + 2)) ≤ 1 - 1 / 2 ^ 53 := by
  refine ⟨fun a b hab => ?_, fun k => ⟨by positivity, ?_⟩⟩
  · have := inv_injective (by simpa using hab : ((a : ℚ) + 2)⁻¹ = ((b : ℚ) + 2)⁻¹)
    have h : (a : ℚ) = b := by linarith
    exact_mod_cast h
  · have : (1 / ((k : ℚ) + 2)) ≤ 1 / 2 := one_div_le_one_div_of_le (by norm_num) (by linarith [Nat.cast_nonneg (α := ℚ) k])
    refine this.trans ?_
    norm_num

/-- Completing an instance with the tree of a mixed history, in any rounding and, sampling, in that of Python;
and the probability of a number at the root. -/
example : (∃ st n out w', Reach3F R Demo.hid (⟨1 / 2, id⟩ : Cfg3 ℕ ℕ) st Demo.mixed n ∧
      inferMissing3F R.fl (fun _ => 0) (sumF R.fl) Demo.hid ⟨1 / 2, id⟩ (fun _ => .error .typeErr) (fun _ _ w => (0, w))
        st [(1, .num 2)] .mostLikely false Demo.w0 = .ok (out, [(1, .num 2)], w') ∧
      Dict.get? out 1 = some (.num 2) ∧
      ∃ p, st.root.stats.probabilityF R.fl ⟨1 / 2, id⟩ st.scales 1 (some (.num 2)) = .ok p ∧ 0 ≤ p) ∧
    ∃ st n out w', Reach3F ieee Demo.hid (⟨1 / 2, id⟩ : Cfg3 ℕ ℕ) st Demo.mixed n ∧
      inferMissing3F ieee.fl (fun _ => 0) (sumF ieee.fl) Demo.hid ⟨1 / 2, id⟩ (fun _ => .error .typeErr)
        (fun _ _ w => (0, w)) st [(1, .num 2)] .sampled false ⟨fun k => 1 / ((k : ℚ) + 2), 0, 0⟩ =
          .ok (out, [(1, .num 2)], w') ∧ Dict.get? out 1 = some (.num 2) := by
  have hlen : Demo.mixed.length ≤ 2 ^ 52 := by simp [Demo.mixed]
  have htie : TieBreak.Sound (fun _ => .error .typeErr : TieBreak (Option (Option ℕ)) ℝ) := fun l v hl => by cases hl
  have hi : FloatInst ([(1, .num 2)] : Inst3 ℕ ℕ) := by
    refine ⟨by simp [Dict.Nodup, Dict.keys], fun b y hy => ?_⟩
    simp only [Dict.get?] at hy
    split at hy
    · cases hy; exact .mk 2 0 (by norm_num) (by norm_num) (by norm_num)
    · cases hy
  constructor
  · obtain ⟨st, n, h⟩ := reach3F_exists R (⟨1 / 2, id⟩ : Cfg3 ℕ ℕ) Demo.mixed
      fun i hi => ⟨Demo.mixed_float i hi, (Demo.mixed_ok i hi).2⟩
    obtain ⟨out, w', h1, -, -, -, -, -, -, -, -, h2, -⟩ := C100_infer h hlen (fun j hj => (Demo.mixed_ok j hj).2)
      (fun _ => 0) (sumF R.fl) htie (fun _ _ w => (0, w)) hi false (w := Demo.w0)
      (fun a b hab => by simpa [Demo.w0] using hab)
    obtain ⟨-, -, -, -, -, -, -, h3⟩ := C100_probability h (by simp [Demo.mixed]) (by omega) (Tree.self_mem_nodes _) 1
    obtain ⟨p, hp, hp0, -⟩ := h3 (some (.num 2))
    exact ⟨st, n, out, w', h, h1, h2 1 _ rfl, p, hp, hp0⟩
  · obtain ⟨st, n, h⟩ := reach3F_exists ieee (⟨1 / 2, id⟩ : Cfg3 ℕ ℕ) Demo.mixed
      fun i hi => ⟨Demo.mixed_float i hi, (Demo.mixed_ok i hi).2⟩
    obtain ⟨out, w', h1, -, -, -, -, -, h2, -⟩ := C100_infer_sampled_partial h (by omega)
      (fun j hj => (Demo.mixed_ok j hj).2) (fun _ => 0) (fun _ => .error .typeErr) (gauss := fun _ _ w => (0, w))
      (fun _ _ _ => rfl) hi false (w := ⟨fun k => 1 / ((k : ℚ) + 2), 0, 0⟩) Demo.rnd_ok.1 Demo.rnd_ok.2
    exact ⟨st, n, out, w', h, h1, h2 1 _ rfl⟩

/-- Ten instances with ten different nominal values, for `C100_sampled_compensated`. -/
example : ∃ (st : State3 ℕ ℕ ℕ) (n : ℕ), Reach3F ieee (fun _ => false) ⟨0, id⟩ st
      ((List.range 10).map fun k => [(0, .nom k)]) n ∧
    Stats3.predictF ieee.fl (fun _ => 0) (fun ws => ieee.fl ws.sum) (fun _ => .error .typeErr) (fun _ _ w => (0, w))
      st.root.stats 0 .sampled false ⟨fun _ => 1 - 1 / 2 ^ 53, 0, 0⟩ = .error .valueErr := by
  obtain ⟨st, n, h⟩ := reach3F_exists (V := ℕ) (hid := fun _ : ℕ => false) ieee (⟨0, id⟩ : Cfg3 ℕ ℕ)
    ((List.range 10).map fun k => [(0, .nom k)]) (by
      intro i hi
      obtain ⟨k, -, rfl⟩ := List.mem_map.1 hi
      refine ⟨⟨by simp [Dict.Nodup, Dict.keys], fun b y hy => ?_⟩, 0, by simp [Dict.keys], rfl⟩
      simp only [Dict.get?] at hy
      split at hy <;> cases hy)
  refine ⟨st, n, h, C100_sampled_compensated h (by simp) (fun i hi => ?_) ?_ _ _ _ rfl⟩
  · obtain ⟨k, -, rfl⟩ := List.mem_map.1 hi
    exact ⟨k, by simp [Dict.get?]⟩
  · rw [List.map_map]
    refine List.nodup_range.map fun a b hab => ?_
    simpa [Dict.get?] using hab

/-- Regression: two of the three instances have the same visible value. -/
example : ∃ (st : State3 ℕ ℕ ℕ) (n : ℕ), Reach3F R (fun a => a == 1) ⟨1 / 2, id⟩ st
      [[(0, .num 0), (1, .num 1)], [(0, .num 1), (1, .num 2)], [(0, .num 0), (1, .num 3)]] n ∧
    ∃ leaf w' y w2, categorize3F R.fl (fun _ => 0) (fun a => a == 1) (⟨1 / 2, id⟩ : Cfg3 ℕ ℕ) st [(0, .num 0)] Demo.w0 =
        .ok (leaf, w') ∧
      Stats3.predictF R.fl (fun _ => 0) (sumF R.fl) (fun _ => .error .typeErr) (fun _ _ w => (0, w)) leaf.stats 1
        .mostLikely false Demo.w0 = .ok (some (.num y), w2) ∧ 1 ≤ y ∧ y ≤ 3 := by
  have f : ∀ k : ℤ, |k| < 2 ^ 53 → IsFloat (k : ℝ) := fun k hk => .mk k 0 hk (by norm_num) (by simp)
  have hf : ∀ x y : ℝ, IsFloat x → IsFloat y → FloatInst ([(0, .num x), (1, .num y)] : Inst3 ℕ ℕ) ∧
      HasVisible (fun a => a == 1) ([(0, .num x), (1, .num y)] : Inst3 ℕ ℕ) := by
    intro x y hx hy
    refine ⟨⟨by simp [Dict.Nodup, Dict.keys], fun b z hz => ?_⟩, 0, by simp [Dict.keys], rfl⟩
    simp only [Dict.get?] at hz
    split at hz
    · cases hz; exact hx
    · split at hz
      · cases hz; exact hy
      · cases hz
  have f0 : IsFloat 0 := .zero
  have f1 : IsFloat 1 := by simpa using f 1 (by norm_num)
  have f2 : IsFloat 2 := by simpa using f 2 (by norm_num)
  have f3 : IsFloat 3 := by simpa using f 3 (by norm_num)
  have hall : ∀ i ∈ ([[(0, .num 0), (1, .num 1)], [(0, .num 1), (1, .num 2)], [(0, .num 0), (1, .num 3)]] :
      List (Inst3 ℕ ℕ)), FloatInst i ∧ HasVisible (fun a => a == 1) i := by
    intro i hi
    simp only [List.mem_cons, List.not_mem_nil, or_false] at hi
    rcases hi with rfl | rfl | rfl
    · exact hf 0 1 f0 f1
    · exact hf 1 2 f1 f2
    · exact hf 0 3 f0 f3
  obtain ⟨st, n, h⟩ := reach3F_exists (hid := fun a => a == 1) R (⟨1 / 2, id⟩ : Cfg3 ℕ ℕ) _ hall
  have hi : FloatInst ([(0, .num 0)] : Inst3 ℕ ℕ) := by
    refine ⟨by simp [Dict.Nodup, Dict.keys], fun b y hy => ?_⟩
    simp only [Dict.get?] at hy
    split at hy
    · cases hy; exact f0
    · cases hy
  have hinj : Function.Injective Demo.w0.rnd := fun a b hab => by simpa [Demo.w0] using hab
  have hy : ∀ j ∈ ([[(0, .num 0), (1, .num 1)], [(0, .num 1), (1, .num 2)], [(0, .num 0), (1, .num 3)]] :
      List (Inst3 ℕ ℕ)), ∃ y, Dict.get? j 1 = some (.num y) ∧ 1 ≤ y ∧ y ≤ 3 := by
    intro i hi
    simp only [List.mem_cons, List.not_mem_nil, or_false] at hi
    rcases hi with rfl | rfl | rfl
    · exact ⟨1, by simp [Dict.get?], by norm_num, by norm_num⟩
    · exact ⟨2, by simp [Dict.get?], by norm_num, by norm_num⟩
    · exact ⟨3, by simp [Dict.get?], by norm_num, by norm_num⟩
  obtain ⟨leaf, w', hc, hp⟩ := C100_regression h (by simp) (by simp) (a := 1)
    (fun i hi => by obtain ⟨y, e, -⟩ := hy i hi; exact ⟨y, e⟩) (fun i hi => (hall i hi).2) (fun _ => 0) hi hinj
  obtain ⟨y, w2, e, j, hj, k, hk, yj, yk, ej, ek, b1, b2, -⟩ := hp (sumF R.fl) (fun _ => .error .typeErr)
    (fun l v hl => by cases hl) (fun _ _ w => (0, w)) false Demo.w0 hinj
  obtain ⟨y1, e1, l1, -⟩ := hy j hj
  obtain ⟨y2, e2, -, l2⟩ := hy k hk
  rw [ej] at e1; rw [ek] at e2
  cases e1; cases e2
  exact ⟨st, n, h, leaf, w', y, w2, hc, e, l1.trans b1, b2.trans l2⟩

/-- Three zeros, for `C97_positive`. -/
example : ∃ (st : State3 ℕ ℕ ℕ) (n : ℕ), Reach3F ieee (fun _ => false) ⟨0, id⟩ st (List.replicate 3 [(0, .num 0)]) n ∧
    ∃ ll, logLikelihoodF ieee.fl st.root.stats st.root.stats (llVals3 st.root.stats st.root.stats)
      (llAttrs3 (fun _ => false) st.root.stats st.root.stats) 0 = .ok ll ∧ 0 < ll := by
  obtain ⟨st, n, h⟩ := reach3F_exists (V := ℕ) (hid := fun _ : ℕ => false) ieee (⟨0, id⟩ : Cfg3 ℕ ℕ)
    (List.replicate 3 [(0, .num 0)]) (by
      intro i hi
      rw [List.eq_of_mem_replicate hi]
      refine ⟨⟨by simp [Dict.Nodup, Dict.keys], fun b y hy => ?_⟩, 0, by simp [Dict.keys], rfl⟩
      simp only [Dict.get?] at hy
      split at hy
      · cases hy; exact .zero
      · cases hy)
  exact ⟨st, n, h, C97_positive rfl (by norm_num) (by norm_num) h _ _ (List.Perm.refl _) fun _ => List.Perm.refl _⟩

end CF
