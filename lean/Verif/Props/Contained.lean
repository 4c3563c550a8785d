/-
C20, the other direction: `log_likelihood` of a concept that is not contained.
-/
import Verif.Props.Predict

namespace CF
variable {A V : Type} [DecidableEq A] [DecidableEq V] {hid : A → Bool}
  {s leaf : Stats A V} {mx my : Multiset (Inst A V)}

/-- Something of `my` never happens in `mx`. -/
def Foreign (mx my : Multiset (Inst A V)) (a : A) (o : Option V) : Prop := 0 < freq ℝ my a o ∧ freq ℝ mx a o = 0

theorem llInner_cases {lg : ℝ → ℝ} (hs : Summarizes s mx) (hl : Summarizes leaf my) (hmx : mx ≠ 0) (hmy : my ≠ 0)
    {a : A} (vs : List (Option V)) (acc : ℝ) :
    ((∃ o ∈ vs, Foreign mx my a o) → llInner lg s leaf a vs acc = .error .valueErr) ∧
    ((¬ ∃ o ∈ vs, Foreign mx my a o) → ∃ r, llInner lg s leaf a vs acc = .ok r) := by
  induction vs generalizing acc with
  | nil => simp [llInner]
  | cons o vs ih =>
    unfold llInner
    rw [probability_eq hl hmy, ok_bind]
    by_cases h : 0 < freq ℝ my a o
    · rw [if_pos h, probability_eq hs hmx, ok_bind]
      have h0 : 0 ≤ freq ℝ mx a o * freq ℝ my a o := mul_nonneg (freq_nonneg _ _ _) h.le
      rw [if_pos h0]
      by_cases hz : freq ℝ mx a o = 0
      · rw [if_pos (by rw [hz, zero_mul])]
        exact ⟨fun _ => rfl, fun hn => absurd ⟨o, by simp, h, hz⟩ hn⟩
      · rw [if_neg (mul_ne_zero hz h.ne')]
        obtain ⟨h1, h2⟩ := ih (acc + lg (freq ℝ mx a o * freq ℝ my a o))
        refine ⟨fun ⟨p, hp, hf⟩ => h1 ?_, fun hn => h2 fun ⟨p, hp, hf⟩ => hn ⟨p, by simp [hp], hf⟩⟩
        rcases List.mem_cons.1 hp with rfl | hp
        · exact absurd hf.2 hz
        · exact ⟨p, hp, hf⟩
    · rw [if_neg h]
      obtain ⟨h1, h2⟩ := ih acc
      refine ⟨fun ⟨p, hp, hf⟩ => h1 ?_, fun hn => h2 fun ⟨p, hp, hf⟩ => hn ⟨p, by simp [hp], hf⟩⟩
      rcases List.mem_cons.1 hp with rfl | hp
      · exact absurd hf.1 h
      · exact ⟨p, hp, hf⟩

theorem llOuter_cases {lg : ℝ → ℝ} (hs : Summarizes s mx) (hl : Summarizes leaf my) (hmx : mx ≠ 0) (hmy : my ≠ 0)
    (as : List A) (acc : ℝ) :
    ((∃ a ∈ as, ∃ o ∈ llVals s leaf a, Foreign mx my a o) → llOuter lg s leaf as acc = .error .valueErr) ∧
    ((¬ ∃ a ∈ as, ∃ o ∈ llVals s leaf a, Foreign mx my a o) → ∃ r, llOuter lg s leaf as acc = .ok r) := by
  induction as generalizing acc with
  | nil => simp [llOuter]
  | cons a as ih =>
    unfold llOuter
    obtain ⟨h1, h2⟩ := llInner_cases (lg := lg) hs hl hmx hmy (a := a) (llVals s leaf a) acc
    by_cases h : ∃ o ∈ llVals s leaf a, Foreign mx my a o
    · rw [h1 h]
      exact ⟨fun _ => rfl, fun hn => absurd ⟨a, by simp, h⟩ hn⟩
    · obtain ⟨r, hr⟩ := h2 h
      rw [hr, ok_bind]
      obtain ⟨h1, h2⟩ := ih r
      refine ⟨fun ⟨p, hp, hf⟩ => h1 ?_, fun hn => h2 fun ⟨p, hp, hf⟩ => hn ⟨p, by simp [hp], hf⟩⟩
      rcases List.mem_cons.1 hp with rfl | hp
      · exact absurd hf h
      · exact ⟨p, hp, hf⟩

/-- **C20**, when it raises: for two concepts that hold the nonempty collections of instances `mx` and `my`,
`log_likelihood` returns exactly when every value (or absence) of a visible attribute that occurs in `my` also
occurs in `mx`, and otherwise takes the logarithm of 0: the test `p >= 0` (cobweb.py:1177) lets 0 pass. -/
theorem C20_log_of_zero (hs : Summarizes s mx) (hl : Summarizes leaf my) (hmx : mx ≠ 0) (hmy : my ≠ 0) :
    ((∃ a, hid a = false ∧ ∃ i ∈ my, ∀ j ∈ mx, Dict.get? j a ≠ Dict.get? i a) →
      s.logLikelihood Real.log hid leaf = .error .valueErr) ∧
    ((∀ a, hid a = false → ∀ i ∈ my, ∃ j ∈ mx, Dict.get? j a = Dict.get? i a) →
      ∃ r, s.logLikelihood Real.log hid leaf = .ok r) := by
  have hfreq : ∀ (m : Multiset (Inst A V)) a o, m ≠ 0 → (0 < freq ℝ m a o ↔ ∃ i ∈ m, Dict.get? i a = o) := by
    intro m a o hm
    have hc : (0 : ℝ) < Multiset.card m := by
      have : 0 < Multiset.card m := Multiset.card_pos.2 hm
      exact_mod_cast this
    unfold freq
    rw [← Multiset.countP_pos]
    constructor
    · intro h
      rcases Nat.eq_zero_or_pos (m.countP fun i => Dict.get? i a = o) with h0 | h0
      · rw [h0] at h; simp at h
      · exact h0
    · intro h
      exact div_pos (by exact_mod_cast h) hc
  have hmem : ∀ a, hid a = false → ∀ i ∈ my, (∀ j ∈ mx, Dict.get? j a ≠ Dict.get? i a) →
      a ∈ llAttrs hid s leaf ∧ Dict.get? i a ∈ llVals s leaf a := by
    intro a ha i hi hj
    have hv : ∀ {t : Stats A V} {m : Multiset (Inst A V)}, Summarizes t m → ∀ k ∈ m, ∀ v, Dict.get? k a = some v →
        a ∈ (t.visible hid).keys ∧ v ∈ t.recorded a := by
      intro t m ht k hk v hv
      constructor
      · have : a ∈ visAttrs hid m := by
          simp only [visAttrs, Finset.mem_filter, mem_attrsOf]
          refine ⟨⟨k, hk, ?_⟩, ha⟩
          have := Dict.get?_isSome (d := k) (k := a)
          grind
        rw [← ht.attrs_eq.2] at this
        simpa using this
      · rw [← List.mem_toFinset, (ht.recorded a).2]
        exact mem_valsOf.2 ⟨k, hk, hv⟩
    constructor
    · unfold llAttrs
      simp only [List.mem_append, List.mem_filter, decide_eq_true_eq]
      cases hg : Dict.get? i a with
      | some v =>
        by_cases hm : a ∈ (s.visible hid).keys
        · exact .inl hm
        · exact .inr ⟨(hv hl i hi v hg).1, hm⟩
      | none =>
        obtain ⟨j, hjm⟩ := Multiset.exists_mem_of_ne_zero hmx
        have := hj j hjm
        rw [hg] at this
        obtain ⟨v, e⟩ := Option.ne_none_iff_exists'.1 this
        exact .inl (hv hs j hjm v e).1
    · rw [llVals_eq]
      cases hg : Dict.get? i a with
      | none => simp
      | some v =>
        have := (hv hl i hi v hg).2
        by_cases hm : v ∈ s.recorded a <;> simp [hm, this]
  obtain ⟨h1, h2⟩ := llOuter_cases (lg := Real.log) hs hl hmx hmy (llAttrs hid s leaf) 0
  constructor
  · rintro ⟨a, ha, i, hi, hj⟩
    obtain ⟨ma, mv⟩ := hmem a ha i hi hj
    refine h1 ⟨a, ma, _, mv, (hfreq my a _ hmy).2 ⟨i, hi, rfl⟩, ?_⟩
    by_contra hne
    obtain ⟨j, hjm, e⟩ := (hfreq mx a _ hmx).1 (lt_of_le_of_ne (freq_nonneg _ _ _) (Ne.symm hne))
    exact hj j hjm e
  · intro h
    refine h2 ?_
    rintro ⟨a, ma, o, -, hp, hz⟩
    obtain ⟨i, hi, e⟩ := (hfreq my a o hmy).1 hp
    have ha : hid a = false := by
      unfold llAttrs at ma
      simp only [List.mem_append, List.mem_filter] at ma
      have hvis : ∀ {t : Stats A V} {m : Multiset (Inst A V)}, Summarizes t m → a ∈ (t.visible hid).keys →
          hid a = false := by
        intro t m ht hm
        have : a ∈ visAttrs hid m := by rw [← ht.attrs_eq.2]; simpa using hm
        exact (Finset.mem_filter.1 this).2
      rcases ma with ma | ⟨ma, -⟩
      · exact hvis hs ma
      · exact hvis hl ma
    obtain ⟨j, hj, e'⟩ := h a ha i hi
    exact ((hfreq mx a o hmx).2 ⟨j, hj, e'.trans e⟩).ne' hz

/-- Two leaves of the demo tree differ in a visible attribute. -/
example : ∃ a, Demo.hid a = false ∧ ∃ i ∈ ({[(1, 1)]} : Multiset (Inst ℕ ℕ)), ∀ j ∈ ({[(1, 2)]} : Multiset (Inst ℕ ℕ)),
    Dict.get? j a ≠ Dict.get? i a := by
  refine ⟨1, by decide, [(1, 1)], by simp, ?_⟩
  intro j hj
  rw [Multiset.mem_singleton.1 hj]
  decide

end CF
