/-
Properties C33, C64 and C65: probabilities, predictions, completion and log-likelihood in a
`Cobweb3Tree`.
-/
import Verif.Props.Cobweb3
import Verif.Proofs.Predict3
import Verif.Props.Predict

set_option linter.unusedSectionVars false

namespace CF
variable {A B V : Type} [DecidableEq A] [DecidableEq B] [DecidableEq V] {hid : A → Bool}
  {cfg : Cfg3 A B} {st : State3 A B V} {hist : List (Inst3 A V)} {n : ℕ}

/-- The instances stored in a concept of a reachable tree. -/
theorem node_sum3 (h : Reach3 hid cfg st hist n) {x : Tree (Stats3 A V)} (hx : x ∈ st.root.nodes) :
    ∃ m : Multiset (Inst3 A V), Summarizes3 x.stats m ∧ m ≤ hist ∧ (hist ≠ [] → m ≠ 0) ∧
      (x.children = [] → ∀ i ∈ m, ∀ j ∈ m, SameVisible hid i j) := by
  have L := cobweb3Laws (V := V) hid
  rcases reach3_holds h with ⟨he, id, e⟩ | hh
  · rw [e] at hx
    simp [Tree.nodes_node] at hx
    subst hx
    exact ⟨0, L.fresh, by simp, by simpa using he, by simp⟩
  · obtain ⟨m, hm, hle⟩ := hh.of_mem_nodes hx
    refine ⟨m, hm.sum, hle, fun _ => hm.ne_zero, fun h0 => ?_⟩
    cases hm with
    | leaf _ _ h => exact h
    | node h _ _ => simp only [Tree.children_node] at h0; subst h0; simp at h

/-- An attribute with numbers in some concept has a scale. -/
theorem scale_of_nums {m : Multiset (Inst3 A V)} (hle : m ≤ (hist : Multiset (Inst3 A V))) {a : A}
    (h : nums m a ≠ 0) (inner : A → B) :
    (scaleNums inner hist (inner a) : Multiset ℝ) ≠ 0 := by
  obtain ⟨x, hx⟩ := Multiset.exists_mem_of_ne_zero h
  obtain ⟨i, hi, hg⟩ := mem_nums.1 hx
  have hi' : i ∈ hist := by simpa using Multiset.mem_of_le hle hi
  have : x ∈ scaleNums inner hist (inner a) := by
    simp only [scaleNums, List.mem_flatMap, List.mem_filterMap, List.mem_filter]
    exact ⟨i, hi', (a, .num x), ⟨Dict.mem_of_get? hg, by simp⟩, rfl⟩
  intro h0
  rw [Multiset.coe_eq_zero] at h0
  rw [h0] at this; simp at this

/-! ### C33: probabilities -/

theorem probability3_eq (h : Reach3 hid cfg st hist n) {s : Stats3 A V} {m : Multiset (Inst3 A V)}
    (hs : Summarizes3 s m) (hle : m ≤ (hist : Multiset (Inst3 A V))) (hm : m ≠ 0) (a : A) :
    s.probability cfg st.scales a none = .ok (share m a none) ∧
    (∀ v, s.probability cfg st.scales a (some (.nom v)) = .ok (share m a (some (some v)))) ∧
    ∀ x, s.probability cfg st.scales a (some (.num x)) = .ok (share m a (some none) *
      numDensity cfg (fun b => (scaleNums cfg.inner hist b : Multiset ℝ)) (nums m a) a x) :=
  ⟨probNone_eq hs hm a, fun v => probNom_eq hs hm a v, fun x =>
    probNum_eq hs hm (reach3_scales h) a x (fun h0 => scale_of_nums hle h0 _)⟩

/-- **C33**, partial. Full statement: at *every* reachable concept `probability` is defined and lies in
`[0, 1]`. This fails on a tree that was never fitted (`C33_empty_tree_raises`), which is the only
exception: on a tree fitted at least once, at every concept, for every attribute, `probability` of
`None`, of every nominal value and of every number is defined and lies in `[0, 1]`. -/
theorem C33_probability_range_partial (h : Reach3 hid cfg st hist n) (hne : hist ≠ [])
    {x : Tree (Stats3 A V)} (hx : x ∈ st.root.nodes) (a : A) (o : Option (Val V)) :
    ∃ p, x.stats.probability cfg st.scales a o = .ok p ∧ 0 ≤ p ∧ p ≤ 1 := by
  obtain ⟨m, hs, hle, hm, -⟩ := node_sum3 h hx
  obtain ⟨h1, h2, h3⟩ := probability3_eq h hs hle (hm hne) a
  rcases o with _ | v | y
  · exact ⟨_, h1, share_nonneg _ _ _, share_le_one _ _ _⟩
  · exact ⟨_, h2 v, share_nonneg _ _ _, share_le_one _ _ _⟩
  · refine ⟨_, h3 y, ?_, ?_⟩
    · exact mul_nonneg (share_nonneg _ _ _) (gaussDensity_le_one _ _ _).1.le
    · exact mul_le_one₀ (share_le_one _ _ _) (gaussDensity_le_one _ _ _).1.le
        (gaussDensity_le_one _ _ _).2

/-- The counterexample to the full statement: the root of an empty tree has no probability for `None`
(`ZeroDivisionError`, cobweb3.py:441). -/
theorem C33_empty_tree_raises (cfg : Cfg3 A B) (sc : Scales B) (w : World) (a : A) :
    (emptyTree (cobweb3Class (V := V) hid) w).stats.probability cfg sc a none = .error .zeroDiv := by
  simp [emptyTree, cobweb3Class, Stats3.fresh, Stats3.probability, Stats3.probNone, Dict.get?,
    pyDiv]

/-- **C33**, the values: the share of the stored instances without the attribute, with that nominal
value, or with a number times a normal density (in units of the scale) around the mean of the stored
numbers; the shares sum to 1. -/
theorem C33_probability_value (h : Reach3 hid cfg st hist n) (hne : hist ≠ [])
    {x : Tree (Stats3 A V)} (hx : x ∈ st.root.nodes) (a : A) :
    ∃ m ≤ (hist : Multiset (Inst3 A V)), m ≠ 0 ∧ Summarizes3 x.stats m ∧
      x.stats.probability cfg st.scales a none = .ok (share m a none) ∧
      (∀ v, x.stats.probability cfg st.scales a (some (.nom v)) = .ok (share m a (some (some v)))) ∧
      (∀ y, x.stats.probability cfg st.scales a (some (.num y)) = .ok (share m a (some none) *
        numDensity cfg (fun b => (scaleNums cfg.inner hist b : Multiset ℝ)) (nums m a) a y)) ∧
      share m a none + (∑ v ∈ nomVals m a, share m a (some (some v)) + share m a (some none)) = 1 := by
  obtain ⟨m, hs, hle, hm, -⟩ := node_sum3 h hx
  obtain ⟨h1, h2, h3⟩ := probability3_eq h hs hle (hm hne) a
  exact ⟨m, hle, hm hne, hs, h1, h2, h3, share_sum (hm hne) a⟩

/-! ### C33: predictions -/

/-- **C33**, 'most likely': the prediction for a known attribute is `None` (only if allowed), a nominal
value recorded in the concept, or the mean of the numbers stored; whichever it is, no candidate has a
larger share of the stored instances. -/
theorem C33_predict_most_likely (h : Reach3 hid cfg st hist n) {x : Tree (Stats3 A V)}
    (hx : x ∈ st.root.nodes) {a : A} (ha : a ∈ x.stats.av.keys)
    {tie : TieBreak (Option (Option V)) ℝ} (htie : tie.Sound) {gauss : Gauss} {an : Bool}
    {w w' : World} {r : Option (Val V)}
    (hp : x.stats.predict tie gauss a .mostLikely an w = .ok (r, w')) :
    ∃ m ≤ (hist : Multiset (Inst3 A V)), Summarizes3 x.stats m ∧ ∃ k ∈ x.stats.candidates a an,
      (∀ k' ∈ x.stats.candidates a an, share m a k' ≤ share m a k) ∧
      ((k = none ∧ r = none ∧ an = true) ∨
       (∃ v, k = some (some v) ∧ r = some (.nom v) ∧ 0 < share m a k) ∨
       (k = some none ∧ r = some (.num ((nums m a).sum / Multiset.card (nums m a))) ∧
        nums m a ≠ 0)) := by
  obtain ⟨m, hs, hle, -, -⟩ := node_sum3 h hx
  have hm : m ≠ 0 := by
    rintro rfl; obtain ⟨i, hi, -⟩ := (hs.attrs a).1 ha; simp at hi
  obtain ⟨t, hg⟩ : ∃ t, x.stats.av.get? a = some t := Option.isSome_iff_exists.1 (Dict.get?_isSome.2 ha)
  rw [predict3_known hs hm hg (by decide), bind_ok] at hp
  obtain ⟨⟨k, w1⟩, hc, hf⟩ := hp
  simp only [choose, reduceCtorEq, decide_false, Bool.false_eq_true, if_false] at hc
  cases hml : mostLikelyChoice tie ((x.stats.candidates a an).map fun o => (o, share m a o)) w.draw with
  | error e => rw [hml] at hc; simp [Except.map] at hc
  | ok k' =>
    rw [hml] at hc
    simp only [Except.map, Except.ok.injEq, Prod.mk.injEq] at hc
    obtain ⟨rfl, -⟩ := hc
    obtain ⟨p, h1, h2⟩ := C43_maximal htie hml
    obtain ⟨h3, rfl⟩ := mem_map_cand3 h1
    refine ⟨m, hle, hs, k', h3, fun o ho => h2 _ (List.mem_map.2 ⟨o, ho, rfl⟩), ?_⟩
    rcases k' with _ | _ | v
    · left
      simp only [finishPredict, Except.ok.injEq, Prod.mk.injEq] at hf
      refine ⟨rfl, hf.1.symm, ?_⟩
      cases an
      · simp [Stats3.candidates] at h3
      · rfl
    · right; right
      have hk : 0 < share m a (some none) := by
        refine hs.mem_keysOf.1 ?_
        unfold Stats3.candidates at h3
        rcases List.mem_append.1 h3 with h3 | h3
        · simpa using h3
        · cases an <;> simp at h3
      simp only [finishPredict] at hf
      cases hcv : t.cv with
      | none => rw [hcv] at hf; simp at hf
      | some c =>
        rw [hcv] at hf
        simp only [if_true, Except.ok.injEq, Prod.mk.injEq] at hf
        obtain ⟨h5, h6⟩ := hs.cv_of_mem (Dict.mem_of_get? hg) hcv
        refine ⟨rfl, ?_, h5⟩
        rw [← hf.1, h6.mean]; rfl
    · right; left
      simp only [finishPredict, Except.ok.injEq, Prod.mk.injEq] at hf
      refine ⟨v, rfl, hf.1.symm, hs.mem_keysOf.1 ?_⟩
      unfold Stats3.candidates at h3
      rcases List.mem_append.1 h3 with h3 | h3
      · simpa using h3
      · cases an <;> simp at h3

theorem candidates3_ne_nil {s : Stats3 A V} {m : Multiset (Inst3 A V)} (hs : Summarizes3 s m) {a : A}
    (ha : a ∈ s.av.keys) (an : Bool) : s.candidates a an ≠ [] := by
  have : s.keysOf a ≠ [] := by
    obtain ⟨i, hi, hia⟩ := (hs.attrs a).1 ha
    rw [← Dict.get?_isSome, Option.isSome_iff_exists] at hia
    obtain ⟨v, hv⟩ := hia
    have hcard : (0 : ℝ) < Multiset.card m := by
      have : m ≠ 0 := by rintro rfl; simp at hi
      have : Multiset.card m ≠ 0 := by simpa using this
      exact_mod_cast Nat.pos_of_ne_zero this
    cases v with
    | nom v =>
      refine List.ne_nil_of_mem ((hs.mem_keysOf (k := some v)).2 ?_)
      simp only [share, freq_nom, prob]
      apply div_pos _ hcard
      exact_mod_cast occ_pos.2 ⟨i, hi, hv⟩
    | num y =>
      refine List.ne_nil_of_mem ((hs.mem_keysOf (k := none)).2 ?_)
      simp only [share]
      apply div_pos _ hcard
      have : nums m a ≠ 0 := by
        intro h0
        have hy : y ∈ nums m a := mem_nums.2 ⟨i, hi, hv⟩
        rw [h0] at hy; simp at hy
      have : Multiset.card (nums m a) ≠ 0 := by simpa using this
      exact_mod_cast Nat.pos_of_ne_zero this
  unfold Stats3.candidates
  simp [this]

/-- 'most likely' predictions always succeed when the random numbers are distinct. -/
theorem C33_predict_total (h : Reach3 hid cfg st hist n) {x : Tree (Stats3 A V)}
    (hx : x ∈ st.root.nodes) (a : A) {tie : TieBreak (Option (Option V)) ℝ} (htie : tie.Sound) (gauss : Gauss)
    (an : Bool) {w : World} (hw : Function.Injective w.rnd) :
    ∃ r w', x.stats.predict tie gauss a .mostLikely an w = .ok (r, w') ∧ w'.rnd = w.rnd := by
  cases hg : x.stats.av.get? a with
  | none => exact ⟨none, w, by simp [Stats3.predict, hg], rfl⟩
  | some t =>
    have ha : a ∈ x.stats.av.keys := Dict.get?_isSome.1 (by simp [hg])
    obtain ⟨m, hs, hle, -, -⟩ := node_sum3 h hx
    have hm : m ≠ 0 := by
      rintro rfl; obtain ⟨i, hi, -⟩ := (hs.attrs a).1 ha; simp at hi
    obtain ⟨k, hk⟩ := C43_ok (tie := tie) (rnd := w.draw)
      (choices := (x.stats.candidates a an).map fun o => (o, share m a o))
      (by simpa using candidates3_ne_nil hs ha an)
      (by rintro ⟨o, p⟩ hp; obtain ⟨-, rfl⟩ := mem_map_cand3 hp; exact share_nonneg m a o)
      (by
        refine List.nodup_range.map fun j k hjk => ?_
        have := hw hjk; omega)
    have hkm : k ∈ x.stats.candidates a an := by
      obtain ⟨p, h1, -⟩ := C43_maximal htie hk
      exact (mem_map_cand3 h1).1
    have hch : choose tie (decide (ChoiceFn.mostLikely = .sampled))
        ((x.stats.candidates a an).map fun o => (o, share m a o)) w =
        .ok (k, w.skip ((x.stats.candidates a an).map fun o => (o, share m a o)).length) := by
      simp [choose, hk, Except.map]
    rw [predict3_known hs hm hg (by decide), hch, ok_bind]
    rcases k with _ | _ | v
    · exact ⟨_, _, rfl, rfl⟩
    · have hk : 0 < share m a (some none) := by
        refine hs.mem_keysOf.1 ?_
        unfold Stats3.candidates at hkm
        rcases List.mem_append.1 hkm with h3 | h3
        · simpa using h3
        · cases an <;> simp at h3
      have hcv : ∃ c, t.cv = some c := by
        have hn := hs.cv_num (Dict.mem_of_get? hg)
        cases hcv : t.cv with
        | none => rw [hcv] at hn; simp at hn; simp [share, ← hn] at hk
        | some c => exact ⟨c, rfl⟩
      obtain ⟨c, hcv⟩ := hcv
      exact ⟨some (.num c.mean), w.skip _, by simp only [finishPredict, hcv, if_true]; rfl, rfl⟩
    · exact ⟨_, _, rfl, rfl⟩

/-- **C33**, partial. Full statement: the 'most likely' prediction of a numeric attribute is the mean of
the numbers stored in the concept. This fails when `None` is allowed and most of the stored instances
lack the attribute (`C33_predict_none`), or when nominal values are recorded under the same attribute.
Proved: for a purely numeric attribute the prediction is the mean, if `None` is not allowed, or if more than half of the stored instances have the
attribute. -/
theorem C33_predict_mean_partial (h : Reach3 hid cfg st hist n) {x : Tree (Stats3 A V)}
    (hx : x ∈ st.root.nodes) {a : A} {t : Tab V} (hg : x.stats.av.get? a = some t) (ht : t.noms = [])
    {tie : TieBreak (Option (Option V)) ℝ} (htie : tie.Sound) (gauss : Gauss) {an : Bool}
    (han : an = false ∨ x.stats.count < 2 * x.stats.numCount a)
    {w : World} (hw : Function.Injective w.rnd) :
    ∃ m ≤ (hist : Multiset (Inst3 A V)), Summarizes3 x.stats m ∧ ∃ w',
      x.stats.predict tie gauss a .mostLikely an w =
        .ok (some (.num ((nums m a).sum / Multiset.card (nums m a))), w') := by
  have ha : a ∈ x.stats.av.keys := Dict.get?_isSome.1 (by simp [hg])
  obtain ⟨r, w', hr, -⟩ := C33_predict_total h hx a htie gauss an hw
  obtain ⟨m, hle, hs, k, hk, hmax, hcase⟩ := C33_predict_most_likely h hx ha htie hr
  refine ⟨m, hle, hs, w', ?_⟩
  have hm : m ≠ 0 := by
    rintro rfl; obtain ⟨i, hi, -⟩ := (hs.attrs a).1 ha; simp at hi
  have hnv : nomVals m a = ∅ := by
    rw [← (hs.table (Dict.mem_of_get? hg)).2.2, ht]; rfl
  rcases hcase with ⟨rfl, rfl, rfl⟩ | ⟨v, rfl, rfl, h1⟩ | ⟨rfl, rfl, h1⟩
  · exfalso
    rcases han with h0 | h0
    · cases h0
    have hcard : (0 : ℝ) < Multiset.card m := by
      have : Multiset.card m ≠ 0 := by simpa using hm
      exact_mod_cast Nat.pos_of_ne_zero this
    rw [hs.count, (hs.numbers a).1] at h0
    have hsum := share_sum hm a
    rw [hnv, Finset.sum_empty, zero_add] at hsum
    have h2 : (1 : ℝ) / 2 < share m a (some none) := by
      simp only [share]
      rw [div_lt_div_iff₀ (by norm_num) hcard]
      exact_mod_cast (by omega : 1 * Multiset.card m < Multiset.card (nums m a) * 2)
    have h3 : some none ∈ x.stats.candidates a true := by
      have : (none : Option V) ∈ x.stats.keysOf a := hs.mem_keysOf.2 (by linarith)
      simp [Stats3.candidates, this]
    have h4 := hmax _ h3
    linarith
  · exfalso
    have : v ∈ nomVals m a := by
      rw [mem_nomVals_iff_occ]
      intro h0
      simp [share, freq_nom, prob, h0] at h1
    rw [hnv] at this; simp at this
  · exact hr

/-- The root of the mixed history predicts the mean `3 / 4` for attribute 1. -/
example : ∃ st n, Reach3 Demo.hid (⟨1 / 2, id⟩ : Cfg3 ℕ ℕ) st Demo.mixed n ∧ ∃ w',
    st.root.stats.predict (fun _ => .error .typeErr) (fun _ _ w => (0, w)) 1 .mostLikely true Demo.w0
      = .ok (some (.num (3 / 4)), w') := by
  obtain ⟨st, n, h⟩ := reach3_exists ⟨1 / 2, id⟩ Demo.mixed Demo.mixed_ok
  have h1 := (C29_every_node h).1
  have h2 : nums (Demo.mixed : Multiset (Inst3 ℕ ℕ)) 1 = {1, 3, -2, 1} := by
    simp [nums, Demo.mixed, Dict.get?, Val.num?, Multiset.filterMap_coe]
    rfl
  obtain ⟨t, hg⟩ : ∃ t, st.root.stats.av.get? 1 = some t := Option.isSome_iff_exists.1
    (Dict.get?_isSome.2 ((h1.attrs 1).2 ⟨_, by simp [Demo.mixed]; exact Or.inl rfl, by simp [Dict.keys]⟩))
  have ht : t.noms = [] := by
    have h3 := (h1.table (Dict.mem_of_get? hg)).2.2
    have h4 : nomVals (Demo.mixed : Multiset (Inst3 ℕ ℕ)) 1 = ∅ := by
      ext v
      rw [mem_nomVals_iff_occ]
      simp [occ, Demo.mixed, Dict.get?]
    rw [h4] at h3
    simpa using h3
  obtain ⟨m, -, hs, w', hp⟩ := C33_predict_mean_partial h (Tree.self_mem_nodes _) hg ht
    (tie := fun _ => .error .typeErr) (fun l v hl => by cases hl) (fun _ _ w => (0, w)) (an := true)
    (Or.inr (by rw [h1.count, (h1.numbers 1).1, h2]; decide)) (w := Demo.w0)
    (fun a b hab => by simpa [Demo.w0] using hab)
  refine ⟨st, n, h, w', ?_⟩
  rw [hp, ← (hs.numbers 1).1, ← (hs.numbers 1).2.1, (h1.numbers 1).1, (h1.numbers 1).2.1, h2]
  norm_num

/-- A history in which attribute 1 is numeric and mostly missing. -/
def Demo.sparse : List (Inst3 ℕ ℕ) := [[(1, .num 5)], [(2, .nom 3)], [(2, .nom 3)]]

/-- The counterexample to the full statement: at the root of the sparse history, with `None` allowed,
'most likely' does not predict the mean 5 but `None`. -/
theorem C33_predict_none : ∃ st n, Reach3 Demo.hid (⟨1 / 2, id⟩ : Cfg3 ℕ ℕ) st Demo.sparse n ∧
    (nums (Demo.sparse : Multiset (Inst3 ℕ ℕ)) 1 = {5}) ∧ ∃ w',
    st.root.stats.predict (fun _ => .error .typeErr) (fun _ _ w => (0, w)) 1 .mostLikely true Demo.w0
      = .ok (none, w') := by
  obtain ⟨st, n, h⟩ := reach3_exists (hid := Demo.hid) ⟨1 / 2, id⟩ Demo.sparse (by
    intro i hi
    simp only [Demo.sparse, List.mem_cons, List.not_mem_nil, or_false] at hi
    rcases hi with rfl | rfl | rfl
    · exact ⟨by simp [Dict.Nodup, Dict.keys], 1, by simp [Dict.keys], by decide⟩
    all_goals exact ⟨by simp [Dict.Nodup, Dict.keys], 2, by simp [Dict.keys], by decide⟩)
  have h1 := (C29_every_node h).1
  have h2 : nums (Demo.sparse : Multiset (Inst3 ℕ ℕ)) 1 = {5} := by
    simp [nums, Demo.sparse, Dict.get?, Val.num?, Multiset.filterMap_coe]
  have hk : (1 : ℕ) ∈ st.root.stats.av.keys :=
    (h1.attrs 1).2 ⟨_, by simp [Demo.sparse]; exact Or.inl rfl, by simp [Dict.keys]⟩
  obtain ⟨r, w', hr, -⟩ := C33_predict_total h (Tree.self_mem_nodes _) 1
    (tie := fun _ => .error .typeErr) (fun l v hl => by cases hl) (fun _ _ w => (0, w)) true (w := Demo.w0)
    (fun a b hab => by simpa [Demo.w0] using hab)
  obtain ⟨m, -, hs, k, hkm, hmax, hcase⟩ := C33_predict_most_likely h (Tree.self_mem_nodes _) hk
    (fun l v hl => by cases hl) hr
  refine ⟨st, n, h, h2, w', ?_⟩
  have hc : Multiset.card m = 3 := by rw [← hs.count, h1.count]; rfl
  have hn : Multiset.card (nums m 1) = 1 := by
    rw [← (hs.numbers 1).1, (h1.numbers 1).1, h2]; rfl
  have hv : nomVals m 1 = ∅ := by
    ext v
    rw [mem_nomVals_iff_occ]
    have h3 := hs.noms 1 v
    rw [h1.noms] at h3
    have h4 : occ (Demo.sparse : Multiset (Inst3 ℕ ℕ)) 1 (.nom v) = 0 := by
      simp [occ, Demo.sparse, Dict.get?]
    rw [h4] at h3
    by_contra h5
    simp at h5
    simp [h5] at h3
  have hm : m ≠ 0 := by rintro rfl; simp at hc
  have hsum := share_sum hm 1
  rw [hv, Finset.sum_empty, zero_add] at hsum
  have h5 : share m 1 (some none) = 1 / 3 := by simp [share, hc, hn]
  have h6 := hmax none (by simp [Stats3.candidates])
  rcases hcase with ⟨-, rfl, -⟩ | ⟨v, rfl, -, h7⟩ | ⟨rfl, -, -⟩
  · exact hr
  · exfalso
    have : v ∈ nomVals m 1 := by
      rw [mem_nomVals_iff_occ]
      intro h0
      simp [share, freq_nom, prob, h0] at h7
    rw [hv] at this; simp at this
  · exfalso
    rw [h5] at h6 hsum
    linarith

end CF
