/-
Property C100: predictions and probabilities of a `Cobweb3Tree` in floating point.
-/
import Verif.Props.FloatChoice
import Verif.Props.FloatLikelihood
import Verif.Props.Infer3

set_option linter.unusedSectionVars false

namespace CF
variable {R : Rounding} {A B V : Type} [DecidableEq A] [DecidableEq B] [DecidableEq V] {hid : A → Bool}
  {cfg : Cfg3 A B} {st : State3 A B V} {hist : List (Inst3 A V)} {n : ℕ}

/-- How many of the instances lack the attribute (`none`), have a number (`some none`), or the nominal value `v`
(`some (some v)`). -/
noncomputable def tally (m : Multiset (Inst3 A V)) (a : A) : Option (Option V) → ℕ
  | none => m.countP fun i => Dict.get? i a = none
  | some none => Multiset.card (nums m a)
  | some (some v) => occ m a (.nom v)

/-! ### The weights -/

theorem mem_entriesAt {t : Tab V} {pos : ℕ} {p : Option V × ℕ} : p ∈ t.entriesAt pos ↔ p ∈ t.entries := by
  unfold Tab.entriesAt Tab.entries
  cases t.cv with
  | none => simp
  | some c =>
    simp only [List.mem_append, List.mem_cons, List.not_mem_nil, or_false]
    conv_rhs => rw [← List.take_append_drop pos (t.noms.map fun p => (some p.1, p.2)), List.mem_append]
    tauto

theorem Counts3.entry {s : Stats3 A V} {m : Multiset (Inst3 A V)} (h : Counts3 s m) {a : A} {t : Tab V}
    (ht : (a, t) ∈ s.av) {p : Option V × ℕ} (hp : p ∈ t.entries) : p.2 = tally m a (some p.1) ∧ p.2 ≠ 0 := by
  unfold Tab.entries at hp
  rcases List.mem_append.1 hp with hp | hp
  · obtain ⟨⟨v, c⟩, hv, rfl⟩ := List.mem_map.1 hp
    have e := Dict.get?_of_mem (h.nodup.2 _ ht) hv
    rw [h.noms_of_mem ht] at e
    simp only [tally]
    split at e
    · cases e
    · rename_i h0
      simp only [Option.some.injEq] at e
      exact ⟨e.symm, by rw [← e]; exact h0⟩
  · cases hc : t.cv with
    | none => rw [hc] at hp; simp at hp
    | some c =>
      rw [hc] at hp
      simp only [List.mem_singleton] at hp
      subst hp
      obtain ⟨h1, h2, -⟩ := h.cv_of_mem ht hc
      refine ⟨h2, ?_⟩
      simp only [h2]
      simpa using h1

theorem Counts3.entry_of_tally {s : Stats3 A V} {m : Multiset (Inst3 A V)} (h : Counts3 s m) {a : A} {t : Tab V}
    (ht : (a, t) ∈ s.av) {k : Option V} (hk : tally m a (some k) ≠ 0) : (k, tally m a (some k)) ∈ t.entries := by
  unfold Tab.entries
  cases k with
  | some v =>
    simp only [tally] at hk ⊢
    refine List.mem_append_left _ (List.mem_map.2 ⟨(v, occ m a (.nom v)), ?_, rfl⟩)
    refine Dict.mem_of_get? ?_
    rw [h.noms_of_mem ht, if_neg hk]
  | none =>
    simp only [tally] at hk ⊢
    have e : s.cvOf a = t.cv := by rw [Stats3.cvOf, Dict.get?_of_mem h.nodup.1 ht]; rfl
    rcases h.cv a with ⟨h1, -⟩ | ⟨-, c, h2, h3, -⟩
    · rw [h1] at hk; simp at hk
    · rw [← e, h2]
      simp [h3]

theorem tally_le (m : Multiset (Inst3 A V)) (a : A) (k : Option (Option V)) : tally m a k ≤ Multiset.card m := by
  rcases k with _ | _ | v
  · exact Multiset.countP_le_card _ _
  · induction m using Quotient.inductionOn
    simpa [nums, tally] using List.length_filterMap_le _ _
  · exact Multiset.countP_le_card _ _

/-- The options of `predict` in the order of the table. -/
def Tab.optionsAt (t : Tab V) (pos : ℕ) (an : Bool) : List (Option (Option V)) :=
  (t.entriesAt pos).map (fun p => some p.1) ++ if an then [none] else []

/-- The weight of `tally` out of `n`. -/
noncomputable def weightF (R : Rounding) (m : Multiset (Inst3 A V)) (a : A) (k : Option (Option V)) : ℝ :=
  R.fl (natF R.fl (tally m a k) / natF R.fl (Multiset.card m))

theorem weightLoopF_eq {k : ℕ} (hk : k ≠ 0) (l : List (Option V × ℕ)) :
    weightLoopF R.fl k l = .ok (l.map fun p => (some p.1, R.fl (natF R.fl p.2 / natF R.fl k))) := by
  induction l with
  | nil => rfl
  | cons p l ih =>
    obtain ⟨v, c⟩ := p
    simp only [weightLoopF, divF, if_neg (natF_ne_zero (R := R) hk), ok_bind, ih, List.map_cons]
    rfl

theorem weightedValuesF_eq {s : Stats3 A V} {m : Multiset (Inst3 A V)} (h : Counts3 s m) (hm : m ≠ 0)
    (hbig : Multiset.card m ≤ 2 ^ 53) {a : A} {t : Tab V} (hg : s.av.get? a = some t) (pos : Tab V → ℕ) (an : Bool) :
    Stats3.weightedValuesF R.fl pos s a an =
      .ok ((t.optionsAt (pos t) an).map fun k => (k, weightF R m a k)) := by
  have hc : s.count ≠ 0 := by rw [h.count]; simpa using hm
  have ht := Dict.mem_of_get? hg
  have hp := probNoneF_eq (R := R) h hm hbig a
  simp only [Stats3.probNoneF, hg] at hp
  have e : (t.entriesAt (pos t)).map (fun p => (some p.1, R.fl (natF R.fl p.2 / natF R.fl s.count))) =
      ((t.entriesAt (pos t)).map fun p => some p.1).map fun k => (k, weightF R m a k) := by
    rw [List.map_map]
    apply List.map_congr_left
    intro p hp
    have := (h.entry ht (mem_entriesAt.1 hp)).1
    simp only [Function.comp, weightF, ← this, h.count]
  simp only [Stats3.weightedValuesF, hg, weightLoopF_eq hc, ok_bind, e]
  cases an
  · simp only [Bool.false_eq_true, if_false, Tab.optionsAt, List.append_nil]; rfl
  · simp only [if_true, hp, ok_bind, Tab.optionsAt, List.map_append, List.map_cons, List.map_nil]
    rfl

/-- Distinct counts have distinct shares. -/
theorem weightF_lt {i j k : ℕ} (hij : i < j) (hjk : j ≤ k) (hk : k ≤ 2 ^ 52) :
    R.fl (natF R.fl i / natF R.fl k) < R.fl (natF R.fl j / natF R.fl k) := by
  have hk0 : (0 : ℝ) < k := by exact_mod_cast (by omega : 0 < k)
  have hk' : (k : ℝ) ≤ 2 ^ 52 := by exact_mod_cast hk
  rw [R.natF_eq (n := i) (by omega), R.natF_eq (n := j) (by omega), R.natF_eq (n := k) (by omega)]
  have hij' : (i : ℝ) + 1 ≤ j := by exact_mod_cast hij
  have hjk' : (j : ℝ) ≤ k := by exact_mod_cast hjk
  have h0 : (0 : ℝ) ≤ (i : ℝ) / k := by positivity
  -- two floats in between
  set c := ⌈(i : ℝ) / k * 2 ^ 53⌉ with hc
  have c1 : (i : ℝ) / k * 2 ^ 53 ≤ c := Int.le_ceil _
  have c2 : (c : ℝ) < (i : ℝ) / k * 2 ^ 53 + 1 := Int.ceil_lt_add_one _
  have c0 : 0 ≤ c := Int.ceil_nonneg (by positivity)
  have gap : (i : ℝ) / k * 2 ^ 53 + 2 ≤ (j : ℝ) / k * 2 ^ 53 := by
    have : (i : ℝ) / k + 1 / k ≤ (j : ℝ) / k := by
      rw [← add_div]; exact div_le_div_of_nonneg_right hij' hk0.le
    have h2 : (2 : ℝ) ≤ 1 / k * 2 ^ 53 := by
      rw [div_mul_eq_mul_div, le_div_iff₀ hk0]
      have : (2 : ℝ) * 2 ^ 52 = 1 * 2 ^ 53 := by norm_num
      linarith
    nlinarith
  have top : (j : ℝ) / k * 2 ^ 53 ≤ 2 ^ 53 := by
    have : (j : ℝ) / k ≤ 1 := by rw [div_le_one hk0]; exact hjk'
    nlinarith
  have c3 : c + 1 ≤ 2 ^ 53 := by
    have : ((c + 1 : ℤ) : ℝ) < ((2 ^ 53 + 1 : ℤ) : ℝ) := by push_cast; linarith
    have := Int.cast_lt.1 this
    omega
  have f1 : IsFloat ((c : ℝ) * (2 : ℝ) ^ (-53 : ℤ)) := .mk_le (by rw [abs_of_nonneg c0]; omega) (by norm_num)
  have f2 : IsFloat (((c + 1 : ℤ) : ℝ) * (2 : ℝ) ^ (-53 : ℤ)) :=
    .mk_le (by rw [abs_of_nonneg (by omega)]; exact c3) (by norm_num)
  have z : (2 : ℝ) ^ (-53 : ℤ) = 1 / 2 ^ 53 := by norm_num
  have g1 : R.fl ((i : ℝ) / k) ≤ (c : ℝ) * (2 : ℝ) ^ (-53 : ℤ) := R.fl_le f1 (by
    rw [z, mul_one_div, le_div_iff₀ (by norm_num)]; exact c1)
  have g2 : ((c + 1 : ℤ) : ℝ) * (2 : ℝ) ^ (-53 : ℤ) ≤ R.fl ((j : ℝ) / k) := R.le_fl f2 (by
    rw [z, mul_one_div, div_le_iff₀ (by norm_num)]; push_cast; linarith)
  refine lt_of_le_of_lt g1 (lt_of_lt_of_le ?_ g2)
  refine mul_lt_mul_of_pos_right ?_ (by positivity)
  push_cast; linarith

/-! ### The stored instances -/

theorem node_sum3F (h : Reach3F R hid cfg st hist n) {x : Tree (Stats3 A V)} (hx : x ∈ st.root.nodes) :
    ∃ m : Multiset (Inst3 A V), Counts3 x.stats m ∧ m ≤ hist ∧ (hist ≠ [] → m ≠ 0) := by
  rcases reach3F_holds h with ⟨he, id, e⟩ | hh
  · rw [e] at hx
    simp [Tree.nodes_node] at hx
    subst hx
    exact ⟨0, counts3_fresh, by simp, by simpa using he⟩
  · obtain ⟨m, hm, hle⟩ := hh.of_mem_nodes hx
    exact ⟨m, hm.sum, hle, fun _ => hm.ne_zero⟩

theorem card_le_hist {m : Multiset (Inst3 A V)} (h : m ≤ (hist : Multiset (Inst3 A V))) :
    Multiset.card m ≤ hist.length := by
  simpa using Multiset.card_le_card h

theorem Counts3.ne_zero {s : Stats3 A V} {m : Multiset (Inst3 A V)} (h : Counts3 s m) {a : A} (ha : a ∈ s.av.keys) :
    m ≠ 0 := by
  rintro rfl; obtain ⟨i, hi, -⟩ := (h.attrs a).1 ha; simp at hi

theorem weightF_nonneg (m : Multiset (Inst3 A V)) (a : A) (k : Option (Option V)) : 0 ≤ weightF R m a k :=
  R.fl_nonneg (div_nonneg (R.natF_nonneg _) (R.natF_nonneg _))

/-- An attribute that is known has an option with a positive tally. -/
theorem Counts3.exists_tally {s : Stats3 A V} {m : Multiset (Inst3 A V)} (h : Counts3 s m) {a : A}
    (ha : a ∈ s.av.keys) : ∃ k, tally m a (some k) ≠ 0 := by
  obtain ⟨i, hi, hia⟩ := (h.attrs a).1 ha
  rw [← Dict.get?_isSome, Option.isSome_iff_exists] at hia
  obtain ⟨v, hv⟩ := hia
  cases v with
  | nom v => exact ⟨some v, (occ_pos.2 ⟨i, hi, hv⟩).ne'⟩
  | num y =>
    refine ⟨none, ?_⟩
    intro h0
    have hy : y ∈ nums m a := mem_nums.2 ⟨i, hi, hv⟩
    rw [Multiset.card_eq_zero.1 h0] at hy
    simp at hy

theorem mem_optionsAt {s : Stats3 A V} {m : Multiset (Inst3 A V)} (h : Counts3 s m) {a : A} {t : Tab V}
    (ht : (a, t) ∈ s.av) {pos : ℕ} {an : Bool} {k : Option (Option V)} :
    k ∈ t.optionsAt pos an ↔ (k = none ∧ an = true) ∨ ∃ v, k = some v ∧ tally m a k ≠ 0 := by
  unfold Tab.optionsAt
  rw [List.mem_append, List.mem_map]
  constructor
  · rintro (⟨p, hp, rfl⟩ | hk)
    · obtain ⟨h1, h2⟩ := h.entry ht (mem_entriesAt.1 hp)
      exact .inr ⟨_, rfl, by rw [← h1]; exact h2⟩
    · cases an
      · simp at hk
      · exact .inl ⟨by simpa using hk, rfl⟩
  · rintro (⟨rfl, rfl⟩ | ⟨v, rfl, hv⟩)
    · right; simp
    · left; exact ⟨_, mem_entriesAt.2 (h.entry_of_tally ht hv), rfl⟩

/-! ### Most likely predictions -/

theorem predictF_known {s : Stats3 A V} {m : Multiset (Inst3 A V)} (h : Counts3 s m) (hm : m ≠ 0)
    (hbig : Multiset.card m ≤ 2 ^ 53) {a : A} {t : Tab V} (hg : s.av.get? a = some t) (pos : Tab V → ℕ)
    (add : List ℝ → ℝ) (tie : TieBreak (Option (Option V)) ℝ) (gauss : Gauss) {fn : ChoiceFn} (hfn : fn ≠ .other)
    (an : Bool) (w : World) :
    Stats3.predictF R.fl pos add tie gauss s a fn an w =
      (chooseF R.fl add tie (fn = .sampled) ((t.optionsAt (pos t) an).map fun k => (k, weightF R m a k)) w >>=
        finishPredictF R.fl gauss t fn) := by
  unfold Stats3.predictF
  rw [if_neg hfn, hg]
  simp only [weightedValuesF_eq h hm hbig hg, ok_bind]

/-- What a 'most likely' prediction returns, given the stored instances. -/
theorem predictF_most_likely {s : Stats3 A V} {m : Multiset (Inst3 A V)} (hs : Counts3 s m)
    (hbig : Multiset.card m ≤ 2 ^ 52) {a : A} (ha : a ∈ s.av.keys) (pos : Tab V → ℕ)
    (add : List ℝ → ℝ) {tie : TieBreak (Option (Option V)) ℝ} (htie : tie.Sound) {gauss : Gauss} {an : Bool}
    {w w' : World} {r : Option (Val V)}
    (hp : Stats3.predictF R.fl pos add tie gauss s a .mostLikely an w = .ok (r, w')) :
    ∃ k : Option (Option V),
      (∀ k', (k' = none → an = true) → tally m a k' ≤ tally m a k) ∧
      ((k = none ∧ r = none ∧ an = true) ∨
       (∃ v, k = some (some v) ∧ r = some (.nom v) ∧ 0 < occ m a (.nom v)) ∨
       (k = some none ∧ nums m a ≠ 0 ∧ ∃ c, s.cvOf a = some c ∧ r = some (.num c.mean))) := by
  have hm := hs.ne_zero ha
  obtain ⟨t, hg⟩ : ∃ t, s.av.get? a = some t := Option.isSome_iff_exists.1 (Dict.get?_isSome.2 ha)
  have ht := Dict.mem_of_get? hg
  rw [predictF_known hs hm (by omega) hg pos add tie gauss (by decide), bind_ok] at hp
  obtain ⟨⟨k, w1⟩, hc, hf⟩ := hp
  simp only [chooseF, reduceCtorEq, decide_false, Bool.false_eq_true, if_false] at hc
  cases hml : mostLikelyChoice tie ((t.optionsAt (pos t) an).map fun k => (k, weightF R m a k)) w.draw with
  | error e => rw [hml] at hc; simp [Except.map] at hc
  | ok k' =>
    rw [hml] at hc
    simp only [Except.map, Except.ok.injEq, Prod.mk.injEq] at hc
    obtain ⟨rfl, -⟩ := hc
    obtain ⟨p, h1, h2⟩ := C43_maximal htie hml
    obtain ⟨k, h3, h4⟩ := List.mem_map.1 h1
    simp only [Prod.mk.injEq] at h4
    obtain ⟨rfl, rfl⟩ := h4
    refine ⟨k, fun k' hk' => ?_, ?_⟩
    · by_cases h0 : tally m a k' = 0
      · omega
      · by_contra hlt
        have hmem : k' ∈ t.optionsAt (pos t) an := (mem_optionsAt hs ht).2 (by
          cases k' with
          | none => exact .inl ⟨rfl, hk' rfl⟩
          | some v => exact .inr ⟨v, rfl, h0⟩)
        have h5 := h2 _ (List.mem_map.2 ⟨k', hmem, rfl⟩)
        have h6 := weightF_lt (R := R) (not_le.1 hlt) (tally_le m a k') (by omega)
        exact absurd h5 (not_le.2 h6)
    · rcases (mem_optionsAt hs ht).1 h3 with ⟨rfl, rfl⟩ | ⟨v, rfl, hv⟩
      · left
        simp only [finishPredictF, Except.ok.injEq, Prod.mk.injEq] at hf
        exact ⟨rfl, hf.1.symm, rfl⟩
      · cases v with
        | some v =>
          right; left
          simp only [finishPredictF, Except.ok.injEq, Prod.mk.injEq] at hf
          exact ⟨v, rfl, hf.1.symm, Nat.pos_of_ne_zero hv⟩
        | none =>
          right; right
          have hv' : nums m a ≠ 0 := by
            intro h0; apply hv; simp [tally, h0]
          rcases hs.cv a with ⟨h0, -⟩ | ⟨-, c, hcv, -, -⟩
          · exact absurd h0 hv'
          · have hcv' : t.cv = some c := by simpa [Stats3.cvOf, hg] using hcv
            simp only [finishPredictF, hcv', if_true, Except.ok.injEq, Prod.mk.injEq] at hf
            exact ⟨rfl, hv', c, hcv, hf.1.symm⟩

/-- **C100**: the 'most likely' prediction for a known attribute is the most frequent option, in spite of the rounded
frequencies (up to 2^52 instances): `None` if it is allowed, a recorded nominal value, or the mean of the accumulator. -/
theorem C100_predict_most_likely (h : Reach3F R hid cfg st hist n) (hlen : hist.length ≤ 2 ^ 52)
    {x : Tree (Stats3 A V)} (hx : x ∈ st.root.nodes) {a : A} (ha : a ∈ x.stats.av.keys) (pos : Tab V → ℕ)
    (add : List ℝ → ℝ) {tie : TieBreak (Option (Option V)) ℝ} (htie : tie.Sound) {gauss : Gauss} {an : Bool}
    {w w' : World} {r : Option (Val V)}
    (hp : Stats3.predictF R.fl pos add tie gauss x.stats a .mostLikely an w = .ok (r, w')) :
    ∃ m ≤ (hist : Multiset (Inst3 A V)), Counts3 x.stats m ∧ ∃ k : Option (Option V),
      (∀ k', (k' = none → an = true) → tally m a k' ≤ tally m a k) ∧
      ((k = none ∧ r = none ∧ an = true) ∨
       (∃ v, k = some (some v) ∧ r = some (.nom v) ∧ 0 < occ m a (.nom v)) ∨
       (k = some none ∧ nums m a ≠ 0 ∧ ∃ c, x.stats.cvOf a = some c ∧ r = some (.num c.mean))) := by
  obtain ⟨m, hs, hle, -⟩ := node_sum3F h hx
  have hcard := card_le_hist hle
  exact ⟨m, hle, hs, predictF_most_likely hs (by omega) ha pos add htie hp⟩

theorem finishPredictF_ok {s : Stats3 A V} {m : Multiset (Inst3 A V)} (h : Counts3 s m) {a : A} {t : Tab V}
    (hg : s.av.get? a = some t) {k : Option (Option V)} (hk : k = some none → tally m a k ≠ 0) (gauss : Gauss)
    (fn : ChoiceFn) (w : World) : ∃ r, finishPredictF R.fl gauss t fn (k, w) = .ok r := by
  rcases k with _ | _ | v
  · exact ⟨_, rfl⟩
  · have hv' : nums m a ≠ 0 := by
      intro h0; apply hk rfl; simp [tally, h0]
    rcases h.cv a with ⟨h0, -⟩ | ⟨-, c, hcv, -, hs⟩
    · exact absurd h0 hv'
    · have hcv' : t.cv = some c := by simpa [Stats3.cvOf, hg] using hcv
      obtain ⟨⟨sd, hsd, -⟩, -⟩ := hs.std (R := R)
      simp only [finishPredictF, hcv']
      split
      · exact ⟨_, rfl⟩
      · exact ⟨_, by rw [hsd]; rfl⟩
  · exact ⟨_, rfl⟩

/-- **C100**: 'most likely' predictions do not raise, whatever the rounding, if the random numbers differ. -/
theorem C100_predict_defined (h : Reach3F R hid cfg st hist n) (hlen : hist.length ≤ 2 ^ 53)
    {x : Tree (Stats3 A V)} (hx : x ∈ st.root.nodes) (a : A) (pos : Tab V → ℕ) (add : List ℝ → ℝ)
    {tie : TieBreak (Option (Option V)) ℝ} (htie : tie.Sound) (gauss : Gauss) (an : Bool) {w : World}
    (hw : Function.Injective w.rnd) :
    ∃ r, Stats3.predictF R.fl pos add tie gauss x.stats a .mostLikely an w = .ok r := by
  cases hg : x.stats.av.get? a with
  | none => exact ⟨(none, w), by simp [Stats3.predictF, hg]⟩
  | some t =>
    have ha : a ∈ x.stats.av.keys := Dict.get?_isSome.1 (by simp [hg])
    obtain ⟨m, hs, hle, -⟩ := node_sum3F h hx
    have hm := hs.ne_zero ha
    have hcard := card_le_hist hle
    have ht := Dict.mem_of_get? hg
    rw [predictF_known hs hm (by omega) hg pos add tie gauss (by decide)]
    obtain ⟨v, hv⟩ := hs.exists_tally ha
    obtain ⟨k, hk⟩ := C43_ok (tie := tie) (rnd := w.draw)
      (choices := (t.optionsAt (pos t) an).map fun k => (k, weightF R m a k))
      (by
        have : some v ∈ t.optionsAt (pos t) an := (mem_optionsAt hs ht).2 (.inr ⟨v, rfl, hv⟩)
        simpa using List.ne_nil_of_mem this)
      (by
        rintro ⟨o, p⟩ hp
        obtain ⟨k, -, e⟩ := List.mem_map.1 hp
        simp only [Prod.mk.injEq] at e
        rw [← e.2]; exact weightF_nonneg m a k)
      (by
        refine List.nodup_range.map fun j k hjk => ?_
        have := hw hjk; omega)
    obtain ⟨p, h1, -⟩ := C43_maximal htie hk
    obtain ⟨k', h3, h4⟩ := List.mem_map.1 h1
    simp only [Prod.mk.injEq] at h4
    obtain ⟨rfl, -⟩ := h4
    simp only [chooseF, reduceCtorEq, decide_false, Bool.false_eq_true, if_false, hk, Except.map, ok_bind]
    refine finishPredictF_ok hs hg (fun hk' => ?_) gauss _ _
    rcases (mem_optionsAt hs ht).1 h3 with ⟨e, -⟩ | ⟨_, -, e⟩
    · rw [e] at hk'; cases hk'
    · exact e

/-! ### Sampled predictions -/

/-- What a sampled prediction returns, given the stored instances. -/
theorem predictF_sampled {s : Stats3 A V} {m : Multiset (Inst3 A V)} (hs : Counts3 s m)
    (hbig : Multiset.card m ≤ 2 ^ 53) {a : A} (ha : a ∈ s.av.keys) (pos : Tab V → ℕ)
    (tie : TieBreak (Option (Option V)) ℝ) (gauss : Gauss) (an : Bool) {w : World}
    (h0 : 0 ≤ w.draw 0) (h1 : w.draw 0 ≤ 1 - 1 / 2 ^ 53) :
    ∃ r w', Stats3.predictF ieee.fl pos (sumF ieee.fl) tie gauss s a .sampled an w = .ok (r, w') ∧
      ((r = none ∧ w' = w.skip 1 ∧ an = true ∧ ∃ i ∈ m, Dict.get? i a = none) ∨
       (∃ v, r = some (.nom v) ∧ w' = w.skip 1 ∧ ∃ i ∈ m, Dict.get? i a = some (.nom v)) ∨
       (∃ c sd, s.cvOf a = some c ∧ CV.unbiasedStdF ieee.fl c = .ok sd ∧ nums m a ≠ 0 ∧
         r = some (.num (gauss c.mean sd (w.skip 1)).1) ∧ w' = (gauss c.mean sd (w.skip 1)).2)) := by
  have hm := hs.ne_zero ha
  have hc0 : Multiset.card m ≠ 0 := by simpa using hm
  obtain ⟨t, hg⟩ : ∃ t, s.av.get? a = some t := Option.isSome_iff_exists.1 (Dict.get?_isSome.2 ha)
  have ht := Dict.mem_of_get? hg
  rw [predictF_known hs hm (by omega) hg pos (sumF ieee.fl) tie gauss (by decide)]
  have hnn : ∀ p ∈ (t.optionsAt (pos t) an).map (fun k => (k, weightF ieee m a k)), 0 ≤ p.2 := by
    intro p hp
    obtain ⟨k, -, rfl⟩ := List.mem_map.1 hp
    exact weightF_nonneg (R := ieee) m a k
  obtain ⟨v, hv⟩ := hs.exists_tally ha
  have hmem : some v ∈ t.optionsAt (pos t) an := (mem_optionsAt hs ht).2 (.inr ⟨v, rfl, hv⟩)
  have hsum : (2 : ℝ) ^ (-1021 : ℤ) ≤
      sumF ieee.fl (weightsOf ((t.optionsAt (pos t) an).map fun k => (k, weightF ieee m a k))) := by
    refine le_trans ?_ (le_sumF (w := weightF ieee m a (some v)) _ ?_ ?_ (ieee.float _))
    · refine le_trans ?_ (fl_share (R := ieee) hv hc0 (by omega))
      exact zpow_le_zpow_right₀ (by norm_num) (by norm_num)
    · intro q hq
      obtain ⟨p, hp, rfl⟩ := List.mem_map.1 hq
      exact hnn p hp
    · exact List.mem_map.2 ⟨_, List.mem_map.2 ⟨_, hmem, rfl⟩, rfl⟩
  obtain ⟨pre, k, wt, post, e1, hpos, e2, -, -⟩ := C100_choice_defined_partial hnn hsum
    (u := ((w.draw 0 : ℚ) : ℝ)) (by exact_mod_cast h0) (by
      have := (Rat.cast_le (K := ℝ)).2 h1
      push_cast at this ⊢
      exact this)
  simp only [chooseF, decide_true, if_true, e2, Except.map, ok_bind]
  have hk : (k, wt) ∈ (t.optionsAt (pos t) an).map fun k => (k, weightF ieee m a k) := by rw [e1]; simp
  obtain ⟨k', hk1, hk2⟩ := List.mem_map.1 hk
  simp only [Prod.mk.injEq] at hk2
  obtain ⟨rfl, rfl⟩ := hk2
  have htal : tally m a k' ≠ 0 := by
    intro hz
    rw [weightF, hz] at hpos
    simp [natF, ieee.fl_zero] at hpos
  rcases k' with _ | _ | u
  · refine ⟨none, w.skip 1, rfl, .inl ⟨rfl, rfl, ?_, ?_⟩⟩
    · rcases (mem_optionsAt hs ht).1 hk1 with ⟨-, e⟩ | ⟨_, e, -⟩
      · exact e
      · cases e
    · have := Multiset.countP_pos.1 (Nat.pos_of_ne_zero htal)
      exact this
  · have hv' : nums m a ≠ 0 := by
      intro hz; apply htal; simp [tally, hz]
    rcases hs.cv a with ⟨hz, -⟩ | ⟨-, c, hcv, -, hso⟩
    · exact absurd hz hv'
    · have hcv' : t.cv = some c := by simpa [Stats3.cvOf, hg] using hcv
      obtain ⟨⟨sd, hsd, -⟩, -⟩ := hso.std (R := ieee)
      refine ⟨_, _, ?_, .inr (.inr ⟨c, sd, hcv, hsd, hv', rfl, rfl⟩)⟩
      simp only [finishPredictF, hcv', reduceCtorEq, if_false, hsd, ok_bind, CV.unbiasedMean]
      rfl
  · refine ⟨some (.nom u), w.skip 1, rfl, .inr (.inl ⟨u, rfl, rfl, ?_⟩)⟩
    exact occ_pos.1 (Nat.pos_of_ne_zero htal)

/-- **C100**: with the rounding of Python and `sum` adding from the left, sampled predictions do not raise.  What is
drawn occurs among the stored instances: `None` (only if allowed, and some of them lack the attribute), a nominal value
of some of them, or, if some have a number, a number from the normal distribution with the mean and the deviation of the
accumulator. -/
theorem C100_predict_sampled_partial (h : Reach3F ieee hid cfg st hist n) (hlen : hist.length ≤ 2 ^ 53)
    {x : Tree (Stats3 A V)} (hx : x ∈ st.root.nodes) {a : A} (ha : a ∈ x.stats.av.keys) (pos : Tab V → ℕ)
    (tie : TieBreak (Option (Option V)) ℝ) (gauss : Gauss) (an : Bool) {w : World}
    (h0 : 0 ≤ w.draw 0) (h1 : w.draw 0 ≤ 1 - 1 / 2 ^ 53) :
    ∃ m ≤ (hist : Multiset (Inst3 A V)), Counts3 x.stats m ∧ ∃ r w',
      Stats3.predictF ieee.fl pos (sumF ieee.fl) tie gauss x.stats a .sampled an w = .ok (r, w') ∧
      ((r = none ∧ w' = w.skip 1 ∧ an = true ∧ ∃ i ∈ m, Dict.get? i a = none) ∨
       (∃ v, r = some (.nom v) ∧ w' = w.skip 1 ∧ ∃ i ∈ m, Dict.get? i a = some (.nom v)) ∨
       (∃ c sd, x.stats.cvOf a = some c ∧ CV.unbiasedStdF ieee.fl c = .ok sd ∧ nums m a ≠ 0 ∧
         r = some (.num (gauss c.mean sd (w.skip 1)).1) ∧ w' = (gauss c.mean sd (w.skip 1)).2)) := by
  obtain ⟨m, hs, hle, -⟩ := node_sum3F h hx
  have hcard := card_le_hist hle
  exact ⟨m, hle, hs, predictF_sampled hs (by omega) ha pos tie gauss an h0 h1⟩

/-- **C100**: with compensated summation (Python 3.12) a sampled prediction can raise: at the root of a tree fitted with
ten instances that have ten different nominal values, if `random()` returns 1 - 2^-53. -/
theorem C100_sampled_compensated (h : Reach3F ieee hid cfg st hist n) (hlen : hist.length = 10) {a : A}
    (hnom : ∀ i ∈ hist, ∃ v, Dict.get? i a = some (.nom v)) (hdist : (hist.map fun i => Dict.get? i a).Nodup)
    (pos : Tab V → ℕ) (tie : TieBreak (Option (Option V)) ℝ) (gauss : Gauss) {w : World}
    (hw : w.draw 0 = 1 - 1 / 2 ^ 53) :
    Stats3.predictF ieee.fl pos (fun ws => ieee.fl ws.sum) tie gauss st.root.stats a .sampled false w =
      .error .valueErr := by
  have hs := (C95_every_node h).1
  have hne : hist ≠ [] := by intro h0; rw [h0] at hlen; simp at hlen
  have hm : (hist : Multiset (Inst3 A V)) ≠ 0 := by simpa using hne
  have hcard : Multiset.card (hist : Multiset (Inst3 A V)) = 10 := by simpa using hlen
  obtain ⟨i, hi⟩ := List.exists_mem_of_ne_nil hist hne
  have ha : a ∈ st.root.stats.av.keys := (hs.attrs a).2 ⟨i, by simpa using hi, by
    obtain ⟨v, hv⟩ := hnom i hi
    exact Dict.get?_isSome.1 (by simp [hv])⟩
  obtain ⟨t, hg⟩ : ∃ t, st.root.stats.av.get? a = some t := Option.isSome_iff_exists.1 (Dict.get?_isSome.2 ha)
  have ht := Dict.mem_of_get? hg
  have hnums : nums (hist : Multiset (Inst3 A V)) a = 0 := by
    apply Multiset.eq_zero_of_forall_notMem
    intro y hy
    obtain ⟨j, hj, e⟩ := mem_nums.1 hy
    obtain ⟨v, hv⟩ := hnom j (by simpa using hj)
    rw [e] at hv; cases hv
  have hcv : t.cv = none := by
    cases hc : t.cv with
    | none => rfl
    | some c => exact absurd hnums (hs.cv_of_mem ht hc).1
  have hone : ∀ p ∈ t.entries, p.2 = 1 := by
    intro p hp
    obtain ⟨h1, h2⟩ := hs.entry ht hp
    rcases hpk : p.1 with _ | v
    · rw [hpk] at h1; simp [tally, hnums] at h1; exact absurd h1 h2
    · rw [hpk] at h1
      simp only [tally, occ] at h1
      have : ((hist.map fun i => Dict.get? i a).count (some (.nom v))) ≤ 1 := List.nodup_iff_count_le_one.1 hdist _
      rw [List.count, List.countP_map] at this
      rw [Multiset.coe_countP] at h1
      have e : hist.countP (fun i => decide (Dict.get? i a = some (.nom v))) =
          hist.countP ((fun x => x == some (.nom v)) ∘ fun i => Dict.get? i a) := by
        apply List.countP_congr
        intro j _
        simp
      rw [← e] at this
      omega
  have htot : t.entries.length = 10 := by
    have h1 := hs.total ht
    have h2 := countP_none_add3 (hist : Multiset (Inst3 A V)) a (nomVals _ a) (Finset.Subset.refl _)
    have h3 : (hist : Multiset (Inst3 A V)).countP (fun i => Dict.get? i a = none) = 0 := by
      rw [Multiset.countP_eq_zero]
      intro j hj e
      obtain ⟨v, hv⟩ := hnom j (by simpa using hj)
      rw [e] at hv; cases hv
    have h4 : t.total = t.entries.length := by
      unfold Tab.total
      rw [List.eq_replicate_of_mem (a := 1) (l := t.entries.map Prod.snd) (by
        intro b hb
        obtain ⟨p, hp, rfl⟩ := List.mem_map.1 hb
        exact hone p hp)]
      simp
    omega
  have hent : t.entriesAt (pos t) = t.entries := by simp [Tab.entriesAt, Tab.entries, hcv]
  have ht10 : ieee.fl (1 / 10) = tenth := by
    rw [ieee_eq 7205759403792794 (-56)]
    · norm_num [tenth]
    · norm_num
    · norm_num
    · rw [abs_of_pos (by norm_num)]; norm_num
    · right; rw [abs_of_pos (by norm_num)]; norm_num
    · norm_num
    · norm_num
  have hw10 : weightsOf ((t.optionsAt (pos t) false).map
      fun k => (k, weightF ieee (hist : Multiset (Inst3 A V)) a k)) = List.replicate 10 tenth := by
    rw [← htot]
    refine List.eq_replicate_iff.2 ⟨by simp [weightsOf, Tab.optionsAt, hent], ?_⟩
    intro b hb
    simp only [weightsOf, Tab.optionsAt, hent, Bool.false_eq_true, if_false, List.append_nil, List.map_map,
      List.mem_map, Function.comp] at hb
    obtain ⟨p, hp, rfl⟩ := hb
    have h1 := (hs.entry ht hp).1
    rw [hone p hp] at h1
    rw [weightF, ← h1, hcard, ieee.natF_eq (by norm_num), ieee.natF_eq (by norm_num)]
    push_cast
    exact ht10
  rw [predictF_known hs hm (by omega) hg pos _ tie gauss (by decide)]
  have := (C100_choice_compensated hw10).2
  have hu : ((w.draw 0 : ℚ) : ℝ) = 1 - 1 / 2 ^ 53 := by rw [hw]; norm_num
  simp only [chooseF, decide_true, if_true, hu, this, Except.map, error_bind]

/-! ### Leaves, and regression -/

/-- The accumulator of a leaf: its mean lies between two numbers of instances that agree on all visible attributes, and
near the exact mean of these numbers. -/
theorem leaf_group (h : Reach3F R hid cfg st hist n) (hne : hist ≠ []) {leaf : Tree (Stats3 A V)}
    (hl : leaf ∈ st.root.leaves) :
    ∃ g : List (Inst3 A V), g ≠ [] ∧ (g : Multiset (Inst3 A V)) ≤ hist ∧ Counts3 leaf.stats (g : Multiset (Inst3 A V)) ∧
      (∀ i ∈ g, ∀ j ∈ g, ∀ b, hid b = false → Dict.get? i b = Dict.get? j b) ∧
      ∀ a, leaf.stats.cvOf a = if numList g a = [] then none else some (CV.updateBatchF R.fl CV.fresh (numList g a)) := by
  rcases reachAny_holds (cobweb3LawsF R hid) (reach3F_any h) with ⟨h0, -⟩ | h
  · simp at h0; exact absurd h0 hne
  · obtain ⟨ls, h1, h2⟩ := h.leaves
    have key : ∀ (ts : List (Tree (Stats3 A V))) (ls : List (List (Inst3 A V))),
        List.Forall₂ (fun x l => l ≠ [] ∧ x.stats = (cobweb3ClassF R.fl hid).built l ∧ (∀ i ∈ l, FloatInst i) ∧
          ∀ i ∈ l, ∀ j ∈ l, SameVisible hid i j) ts ls → leaf ∈ ts →
        ∃ g ∈ ls, g ≠ [] ∧ leaf.stats = (cobweb3ClassF R.fl hid).built g ∧ (∀ i ∈ g, FloatInst i) ∧
          ∀ i ∈ g, ∀ j ∈ g, SameVisible hid i j := by
      intro ts ls hf
      induction hf with
      | nil => intro h; simp at h
      | cons h1 _ ih =>
        intro hm
        rcases List.mem_cons.1 hm with rfl | hm
        · exact ⟨_, by simp, h1⟩
        · obtain ⟨g, hg, hh⟩ := ih hm
          exact ⟨g, by simp [hg], hh⟩
    obtain ⟨g, hg, h3, h4, h5, h6⟩ := key _ _ h2 hl
    refine ⟨g, h3, ?_, by rw [h4]; exact counts3_built h5, h6, fun a => by rw [h4]; exact built_cvOf h5 a⟩
    rw [← h1]
    exact List.single_le_sum (by simp) _ (by simpa using ⟨g, hg, List.Perm.refl g⟩)

/-- **C100**: at a leaf the mean of an attribute's accumulator (the prediction of the attribute) lies between the
smallest and the largest of the numbers stored there, in any rounding; and it is near their exact mean. -/
theorem C100_leaf_mean (h : Reach3F R hid cfg st hist n) (hne : hist ≠ []) (hlen : hist.length ≤ 2 ^ 53)
    {leaf : Tree (Stats3 A V)} (hl : leaf ∈ st.root.leaves) {a : A} {c : CV ℝ} (hc : leaf.stats.cvOf a = some c) :
    ∃ g : List (Inst3 A V), (g : Multiset (Inst3 A V)) ≤ hist ∧
      (∀ i ∈ g, ∀ j ∈ g, ∀ b, hid b = false → Dict.get? i b = Dict.get? j b) ∧
      Counts3 leaf.stats (g : Multiset (Inst3 A V)) ∧
      (∃ i ∈ g, ∃ j ∈ g, ∃ x y, Dict.get? i a = some (.num x) ∧ Dict.get? j a = some (.num y) ∧
        x ≤ c.mean ∧ c.mean ≤ y) ∧
      ∀ M, (∀ i ∈ g, ∀ x, Dict.get? i a = some (.num x) → |x| ≤ M) →
        |c.mean - (nums (g : Multiset (Inst3 A V)) a).sum / Multiset.card (nums (g : Multiset (Inst3 A V)) a)| ≤
          (Multiset.card (nums (g : Multiset (Inst3 A V)) a) + 1) *
            ((2 : ℝ) ^ (-51 : ℤ) * M + 2 * (2 : ℝ) ^ (-1074 : ℤ)) := by
  obtain ⟨g, hg, hle, hs, hsame, hcv⟩ := leaf_group h hne hl
  have hok : ∀ i ∈ g, FloatInst i := fun i hi =>
    reach3F_insts h i (by simpa using Multiset.mem_of_le hle (by simpa using hi))
  rw [hcv] at hc
  split at hc
  · cases hc
  · rename_i hnl
    cases hc
    have hmem : ∀ x, x ∈ numList g a ↔ ∃ i ∈ g, Dict.get? i a = some (.num x) := by
      intro x
      have : x ∈ numList g a ↔ x ∈ nums (g : Multiset (Inst3 A V)) a := by rw [← numList_coe]; simp
      rw [this, mem_nums]; simp
    have hf : ∀ x ∈ numList g a, IsFloat x := by
      intro x hx
      obtain ⟨i, hi, e⟩ := (hmem x).1 hx
      exact (hok i hi).nums a x e
    have hfin : (numList g a).toFinset.Nonempty := by
      obtain ⟨x, hx⟩ := List.exists_mem_of_ne_nil _ hnl
      exact ⟨x, by simpa using hx⟩
    obtain ⟨lo, hlo, hlo'⟩ := Finset.exists_min_image (numList g a).toFinset id hfin
    obtain ⟨hi, hhi, hhi'⟩ := Finset.exists_max_image (numList g a).toFinset id hfin
    obtain ⟨i, hi1, ei⟩ := (hmem lo).1 (by simpa using hlo)
    obtain ⟨j, hj1, ej⟩ := (hmem hi).1 (by simpa using hhi)
    obtain ⟨b1, b2⟩ := C91_mean_between (R := R) hf hnl (lo := lo) (hi := hi)
      (fun x hx => ⟨hlo' x (by simpa using hx), hhi' x (by simpa using hx)⟩)
    refine ⟨g, hle, hsame, hs, ⟨i, hi1, j, hj1, lo, hi, ei, ej, b1, b2⟩, fun M hM => ?_⟩
    have hbig : (numList g a).length ≤ 2 ^ 53 := by
      have h1 := tally_le (g : Multiset (Inst3 A V)) a (some none)
      have h2 := card_le_hist hle
      simp only [tally, ← numList_coe, Multiset.coe_card] at h1 h2
      omega
    have := C93_mean_error (R := R) hf hnl hbig (M := M) (by
      intro x hx
      obtain ⟨i, hi, e⟩ := (hmem x).1 hx
      exact hM i hi x e)
    rw [← numList_coe]
    simpa using this

/-- **C100**, the regression examples: a tree is fitted with instances that all have a number under `a`, and a further
instance is sorted to a leaf.  Then the 'most likely' prediction of `a` at this leaf is a number between two of the
training targets, whose instances agree on all visible attributes; in any rounding. -/
theorem C100_regression (h : Reach3F R hid cfg st hist n) (hne : hist ≠ []) (hlen : hist.length ≤ 2 ^ 52) {a : A}
    (hnum : ∀ i ∈ hist, ∃ y, Dict.get? i a = some (.num y)) (hv : ∀ i ∈ hist, HasVisible hid i)
    (pos : Tab V → ℕ) {i : Inst3 A V} (hi : FloatInst i) {w : World} (hw : Function.Injective w.rnd) :
    ∃ leaf w', categorize3F R.fl pos hid cfg st i w = .ok (leaf, w') ∧
      ∀ (add : List ℝ → ℝ) (tie : TieBreak (Option (Option V)) ℝ), tie.Sound → ∀ (gauss : Gauss) (an : Bool) (w1 : World),
        Function.Injective w1.rnd →
        ∃ y w2, Stats3.predictF R.fl pos add tie gauss leaf.stats a .mostLikely an w1 = .ok (some (.num y), w2) ∧
        ∃ j ∈ hist, ∃ k ∈ hist, ∃ yj yk, Dict.get? j a = some (.num yj) ∧ Dict.get? k a = some (.num yk) ∧
          yj ≤ y ∧ y ≤ yk ∧ ∀ b, hid b = false → Dict.get? j b = Dict.get? k b := by
  obtain ⟨leaf, w', hc, hl⟩ := (C95_never_raises h hv pos hi hw).2
  refine ⟨leaf, w', hc, fun add tie htie gauss an w1 hw1 => ?_⟩
  have hx : leaf ∈ st.root.nodes := Tree.leaves_subset_nodes _ _ hl
  obtain ⟨⟨r, w2⟩, hp⟩ := C100_predict_defined h (by omega) hx a pos add htie gauss an hw1
  obtain ⟨g, hg, hle, hs, hsame, hcv⟩ := leaf_group h hne hl
  have hgh : ∀ i ∈ g, i ∈ hist := fun i hi => by simpa using Multiset.mem_of_le hle (by simpa using hi)
  obtain ⟨j0, hj0⟩ := List.exists_mem_of_ne_nil g hg
  have ha : a ∈ leaf.stats.av.keys := (hs.attrs a).2 ⟨j0, by simpa using hj0, by
    obtain ⟨v, hv⟩ := hnum j0 (hgh j0 hj0)
    exact Dict.get?_isSome.1 (by simp [hv])⟩
  have hcard := card_le_hist hle
  obtain ⟨k, hmax, hk⟩ := predictF_most_likely hs (by omega) ha pos add htie hp
  have hpos : tally (g : Multiset (Inst3 A V)) a (some none) ≠ 0 := by
    obtain ⟨y, hy⟩ := hnum j0 (hgh j0 hj0)
    have hy' : y ∈ nums (g : Multiset (Inst3 A V)) a := mem_nums.2 ⟨j0, by simpa using hj0, hy⟩
    simp only [tally]
    intro h0
    rw [Multiset.card_eq_zero.1 h0] at hy'
    simp at hy'
  have hk0 := hmax (some none) (by simp)
  rcases hk with ⟨rfl, -, -⟩ | ⟨v, rfl, -, hv⟩ | ⟨rfl, -, c, hc, rfl⟩
  · exfalso
    have : tally (g : Multiset (Inst3 A V)) a none = 0 := by
      simp only [tally]
      rw [Multiset.countP_eq_zero]
      intro j hj e
      obtain ⟨y, hy⟩ := hnum j (hgh j (by simpa using hj))
      rw [e] at hy; cases hy
    omega
  · exfalso
    obtain ⟨j, hj, e⟩ := occ_pos.1 hv
    obtain ⟨y, hy⟩ := hnum j (hgh j (by simpa using hj))
    rw [e] at hy; cases hy
  · obtain ⟨g', hle', hsame', -, ⟨i1, hi1, j1, hj1, x, y, e1, e2, b1, b2⟩, -⟩ :=
      C100_leaf_mean h hne (by omega) hl hc
    have hgh' : ∀ i ∈ g', i ∈ hist := fun i hi => by simpa using Multiset.mem_of_le hle' (by simpa using hi)
    exact ⟨c.mean, w2, hp, i1, hgh' _ hi1, j1, hgh' _ hj1, x, y, e1, e2, b1, b2, hsame' _ hi1 _ hj1⟩

/-- **C100**, the regression examples: the prediction of an attribute that never occurred is `None`
(`child.predict('y')`, examples/regression.py:49, where the targets are under `'_y'`). -/
theorem C100_predict_unknown (h : Reach3F R hid cfg st hist n) {a : A} (ha : ∀ i ∈ hist, a ∉ Dict.keys i)
    {x : Tree (Stats3 A V)} (hx : x ∈ st.root.nodes) (pos : Tab V → ℕ) (add : List ℝ → ℝ)
    (tie : TieBreak (Option (Option V)) ℝ) (gauss : Gauss) {fn : ChoiceFn} (hfn : fn ≠ .other) (an : Bool) (w : World) :
    Stats3.predictF R.fl pos add tie gauss x.stats a fn an w = .ok (none, w) := by
  obtain ⟨m, hs, hle, -⟩ := node_sum3F h hx
  have : x.stats.av.get? a = none := by
    rw [Dict.get?_eq_none]
    intro hk
    obtain ⟨i, hi, hia⟩ := (hs.attrs a).1 hk
    exact ha i (by simpa using Multiset.mem_of_le hle hi) hia
  simp [Stats3.predictF, hfn, this]

end CF
