/-
Property C85: the range of category utility and of expected correct guesses in Cobweb/3.
-/
import Verif.Props.Cobweb3Score
import Verif.Proofs.ClusterValue

set_option linter.unusedSectionVars false

namespace CF
variable {A B V : Type} [DecidableEq A] [DecidableEq B] [DecidableEq V] {hid : A → Bool}
  {cfg : Cfg3 A B} {st : State3 A B V} {hist : List (Inst3 A V)} {n : ℕ}

theorem weighted_mean_range {ms : List (Multiset (Inst3 A V))} {f : Multiset (Inst3 A V) → ℝ}
    (hf : ∀ m ∈ ms, 0 < f m ∧ f m ≤ 1) (hm : ∀ m ∈ ms, m ≠ 0) :
    (ms ≠ [] → 0 < (ms.map fun m => (Multiset.card m : ℝ) * f m).sum) ∧
      (ms.map fun m => (Multiset.card m : ℝ) * f m).sum ≤ (Multiset.card ms.sum : ℝ) := by
  induction ms with
  | nil => simp
  | cons m ms ih =>
    obtain ⟨h1, h2⟩ := ih (fun m hm => hf m (by simp [hm])) fun m' hm' => hm m' (by simp [hm'])
    obtain ⟨h3, h4⟩ := hf m (by simp)
    have h5 : (0 : ℝ) < Multiset.card m := by
      have := hm m (by simp)
      rw [← Multiset.card_pos] at this
      exact_mod_cast this
    simp only [List.map_cons, List.sum_cons, Multiset.card_add, Nat.cast_add]
    constructor
    · intro _
      have h6 : 0 ≤ (ms.map fun m => (Multiset.card m : ℝ) * f m).sum := by
        by_cases h : ms = []
        · subst h; simp
        · exact (h1 h).le
      have := mul_pos h5 h3
      linarith
    · have := mul_le_of_le_one_right h5.le h4
      linarith

/-- The category utility of a node whose table summarises `ms.sum` and whose children summarise `ms`. -/
theorem categoryUtility3_range {s : Stats3 A V} {cs : List (Stats3 A V)} {ms : List (Multiset (Inst3 A V))}
    {sc : Scales B} {f : B → Multiset ℝ} (hsc : ScalesObs sc f) (hs : Summarizes3 s ms.sum)
    (hcs : List.Forall₂ Summarizes3 cs ms) (hv : ∀ m ∈ ms, (visAttrs hid m).Nonempty) (hne : ms ≠ []) :
    ∃ u, categoryUtility (cobweb3Class hid) (Stats3.ecg hid cfg sc) s cs = .ok u ∧
      u = ((ms.map fun m => (Multiset.card m : ℝ) * ecgSpec3 hid cfg f m).sum / Multiset.card ms.sum -
        ecgSpec3 hid cfg f ms.sum) / ms.length ∧
      -(1 / ms.length) < u ∧ u < 1 / ms.length := by
  have hm0 : ∀ m ∈ ms, m ≠ 0 := fun m hm => visAttrs_ne_zero (hv m hm)
  obtain ⟨h1, h2⟩ := weighted_mean_range (f := ecgSpec3 hid cfg f)
    (fun m hm => ⟨ecgSpec3_pos (hv m hm), ecgSpec3_le_one m⟩) hm0
  have hvs : (visAttrs hid ms.sum).Nonempty := by
    cases ms with
    | nil => exact absurd rfl hne
    | cons m ms => rw [List.sum_cons]; exact visAttrs_add (hv m (by simp))
  have hcard : (0 : ℝ) < Multiset.card ms.sum := by
    exact_mod_cast Multiset.card_pos.2 (visAttrs_ne_zero hvs)
  have hlen : (0 : ℝ) < ms.length := by exact_mod_cast List.length_pos_of_ne_nil hne
  have hcount : (cobweb3Class (V := V) hid).count s ≠ 0 := by
    rw [(cobweb3Laws hid).count hs]; exact_mod_cast hcard.ne'
  have hcs0 : cs ≠ [] := by rintro rfl; cases hcs; exact hne rfl
  have key : (cs.map fun c => (((cobweb3Class (V := V) hid).count c : ℕ) : ℝ) /
      ((cobweb3Class (V := V) hid).count s : ℕ) * val (Stats3.ecg hid cfg sc c)).sum =
      (ms.map fun m => (Multiset.card m : ℝ) * ecgSpec3 hid cfg f m).sum / Multiset.card ms.sum := by
    rw [(cobweb3Laws hid).count hs]
    generalize (Multiset.card ms.sum : ℕ) = N
    clear hs h1 h2 hvs hcard hlen hcount hcs0 hne hm0
    induction hcs with
    | nil => simp
    | @cons c m cs ms hc _ ih =>
      rw [List.map_cons, List.map_cons, List.sum_cons, List.sum_cons, ih fun m hm => hv m (by simp [hm]),
        ecg3_eq hc hsc (hv _ (by simp)), val_ok, (cobweb3Laws hid).count hc]
      ring
  have hpos := ecgSpec3_pos (hid := hid) (cfg := cfg) (f := f) hvs
  have hle := ecgSpec3_le_one (hid := hid) (cfg := cfg) (f := f) ms.sum
  have h3 : 0 < (ms.map fun m => (Multiset.card m : ℝ) * ecgSpec3 hid cfg f m).sum / Multiset.card ms.sum :=
    div_pos (h1 hne) hcard
  have h4 : (ms.map fun m => (Multiset.card m : ℝ) * ecgSpec3 hid cfg f m).sum / Multiset.card ms.sum ≤ 1 :=
    div_le_one_of_le₀ h2 hcard.le
  refine ⟨_, (categoryUtility_ok_iff hcount hcs0).2 ⟨fun c hc => ?_, ⟨_, ecg3_eq hs hsc hvs⟩, rfl⟩, ?_, ?_, ?_⟩
  · obtain ⟨m, hm, hsum⟩ : ∃ m ∈ ms, Summarizes3 c m := by
      clear hs h1 h2 hvs hcard hlen hcount hcs0 hne hm0 key hpos hle h3 h4
      induction hcs with
      | nil => simp at hc
      | @cons c' m cs ms h' _ ih =>
        rcases List.mem_cons.1 hc with rfl | hc
        · exact ⟨m, by simp, h'⟩
        · obtain ⟨m', hm', h''⟩ := ih (fun m hm => hv m (by simp [hm])) hc
          exact ⟨m', by simp [hm'], h''⟩
    exact ⟨_, ecg3_eq hsum hsc (hv m hm)⟩
  · rw [key, ecg3_eq hs hsc hvs, val_ok, hcs.length_eq]
  · rw [key, ecg3_eq hs hsc hvs, val_ok, hcs.length_eq, ← neg_div, div_lt_div_iff_of_pos_right hlen]
    linarith
  · rw [key, ecg3_eq hs hsc hvs, val_ok, hcs.length_eq, div_lt_div_iff_of_pos_right hlen]
    linarith

/-- **C85**, partial. Full statement: category utility in Cobweb/3 lies in `[0, 1/n]` for a node with `n`
children, as in Cobweb (C14). It can be negative: `C85_negative_utility`, and on a
reachable tree `C85_negative_on_reachable`. Proved: at every node of a
reachable tree whose instances have visible attributes it is defined and lies strictly between `-1/n` and
`1/n`; on a leaf it is 0. -/
theorem C85_category_utility_range_partial (h : Reach3 hid cfg st hist n)
    (hv : ∀ j ∈ hist, HasVisible hid j) {x : Tree (Stats3 A V)} (hx : x ∈ st.root.nodes) :
    ∃ u, x.cu (cobweb3Class hid) (Stats3.ecg hid cfg st.scales) = .ok u ∧
      (x.children = [] → u = 0) ∧
      (x.children ≠ [] → -(1 / (x.children.length : ℝ)) < u ∧ u < 1 / x.children.length) := by
  have L := cobweb3Laws (V := V) hid
  obtain ⟨m, hm, hle⟩ := (reach3_holds h).of_mem_nodes hx
  by_cases hne : x.children = []
  · refine ⟨0, ?_, fun _ => rfl, fun h => absurd hne h⟩
    unfold Tree.cu; rw [hne]; rfl
  · have hs := hm.sum L
    have hm0 : m ≠ 0 := by
      rcases hm with ⟨-, id, rfl⟩ | hm
      · simp at hne
      · exact hm.ne_zero
    obtain ⟨ms, hf, rfl⟩ := hm.children hne
    have hf' : List.Forall₂ Summarizes3 (x.children.map Tree.stats) ms :=
      List.forall₂_map_left_iff.2 (hf.imp fun _ _ h => h.sum)
    have hms : ms ≠ [] := by rintro rfl; simp at hm0
    obtain ⟨u, hu, -, h1, h2⟩ := categoryUtility3_range (cfg := cfg) (reach3_scales h) hs hf' (fun m hm => by
      obtain ⟨c, hc, hh⟩ := forall₂_exists_left hf hm
      obtain ⟨j, hj⟩ := Multiset.exists_mem_of_ne_zero hh.ne_zero
      refine visAttrs_nonempty hj (hv j ?_)
      have := Multiset.mem_of_le hle (Multiset.mem_of_le (le_list_sum hm) hj)
      simpa using this) hms
    refine ⟨u, hu, fun h => absurd h hne, fun _ => ?_⟩
    rw [hf.length_eq]
    exact ⟨h1, h2⟩

theorem numTerm_const {m : Multiset (Inst3 A V)} {a : A} {y : ℝ} (h : ∀ x ∈ nums m a, x = y)
    (hc : Multiset.card (nums m a) = Multiset.card m) (hm : m ≠ 0) (u : ℝ) : numTerm u m a = 1 := by
  have hstd : sampleStd (nums m a) = 0 := by
    unfold sampleStd
    split
    · rfl
    · have e : nums m a = Multiset.replicate (Multiset.card (nums m a)) y := Multiset.eq_replicate_card.2 h
      have : sqDev (nums m a) = 0 := by
        have hn : (Multiset.card (nums m a) : ℝ) ≠ 0 := by
          rw [hc]; exact_mod_cast (Multiset.card_pos.2 hm).ne'
        rw [e]
        simp only [sqDev, sampleMean, Multiset.sum_replicate, Multiset.card_replicate, nsmul_eq_mul,
          Multiset.map_replicate]
        rw [mul_div_cancel_left₀ _ hn]
        simp
      rw [this]; simp
  have hcard : (Multiset.card m : ℝ) ≠ 0 := by exact_mod_cast (Multiset.card_pos.2 hm).ne'
  unfold numTerm
  rw [hstd, hc, div_self hcard]
  have hpi := Real.pi_pos
  have : Real.sqrt (1 / (4 * Real.pi)) = 1 / (2 * Real.sqrt Real.pi) := by
    rw [Real.sqrt_div' _ (by positivity), Real.sqrt_one, Real.sqrt_mul (by norm_num),
      show (4 : ℝ) = 2 ^ 2 by norm_num, Real.sqrt_sq (by norm_num)]
  rw [zero_div, zero_pow (by norm_num), zero_add, this]
  have := Real.sqrt_pos.2 hpi
  field_simp

/-- **C85**: on every leaf with a visible attribute the expected number of correct guesses is exactly 1. -/
theorem C85_leaf_guesses (h : Reach3 hid cfg st hist n) {x : Tree (Stats3 A V)} (hx : x ∈ st.root.nodes)
    (hleaf : x.children = []) (hv : ∃ a ∈ x.stats.av.keys, hid a = false) :
    Stats3.ecg hid cfg st.scales x.stats = .ok 1 := by
  have L := cobweb3Laws (V := V) hid
  obtain ⟨m, hm, hle⟩ := (reach3_holds h).of_mem_nodes hx
  have hs := hm.sum L
  obtain ⟨a, ha, hva⟩ := hv
  obtain ⟨i, hi, hia⟩ := (hs.attrs a).1 ha
  have hvis := visAttrs_nonempty hi ⟨a, hia, hva⟩
  have hm0 : m ≠ 0 := visAttrs_ne_zero hvis
  have hsame : ∀ i ∈ m, ∀ j ∈ m, SameVisible hid i j := by
    rcases hm with ⟨rfl, -⟩ | hm
    · simp at hi
    · cases hm with
      | leaf _ _ h => exact h
      | node h _ _ => simp only [Tree.children_node] at hleaf; subst hleaf; simp at h
  rw [ecg3_eq hs (reach3_scales h) hvis]
  congr 1
  unfold ecgSpec3
  have hk : ((visAttrs hid m).card : ℝ) ≠ 0 := by simpa using hvis.ne_empty
  rw [div_eq_one_iff_eq hk, Finset.card_eq_sum_ones]
  push_cast
  refine Finset.sum_congr rfl fun b hb => ?_
  simp only [visAttrs, Finset.mem_filter, mem_attrsOf] at hb
  obtain ⟨⟨j, hj, hjb⟩, hbv⟩ := hb
  obtain ⟨v, hjv⟩ := Option.isSome_iff_exists.1 (Dict.get?_isSome.2 hjb)
  have hall : ∀ k ∈ m, Dict.get? k b = some v := fun k hk =>
    (hsame k hk j hj b (by simpa using hbv)).trans hjv
  have hcard : (Multiset.card m : ℝ) ≠ 0 := by exact_mod_cast (Multiset.card_pos.2 hm0).ne'
  cases v with
  | nom v =>
    have h1 : nomVals m b = {v} := by
      ext u
      rw [mem_nomVals_iff_occ, Finset.mem_singleton]
      constructor
      · intro h0
        obtain ⟨k, hk, hku⟩ := occ_pos.1 (Nat.pos_of_ne_zero h0)
        rw [hall k hk] at hku
        simpa using hku.symm
      · rintro rfl
        exact (occ_pos.2 ⟨j, hj, hjv⟩).ne'
    have h2 : occ m b (.nom v) = Multiset.card m := Multiset.countP_eq_card.2 hall
    have h3 : nums m b = 0 := by
      rw [Multiset.eq_zero_iff_forall_notMem]
      intro y hy
      obtain ⟨k, hk, hky⟩ := mem_nums.1 hy
      rw [hall k hk] at hky
      cases hky
    rw [h1, Finset.sum_singleton, prob, h2, div_self hcard, numTerm, h3]
    simp
  | num y =>
    have h1 : nomVals m b = ∅ := by
      ext u
      rw [mem_nomVals_iff_occ]
      simp only [Finset.notMem_empty, iff_false, not_not]
      by_contra h0
      obtain ⟨k, hk, hku⟩ := occ_pos.1 (Nat.pos_of_ne_zero h0)
      rw [hall k hk] at hku
      cases hku
    rw [h1, Finset.sum_empty, zero_add]
    refine numTerm_const (y := y) (fun x hx => ?_) ?_ hm0 _
    · obtain ⟨k, hk, hky⟩ := mem_nums.1 hx
      rw [hall k hk] at hky
      cases hky
      rfl
    · unfold nums
      clear * - hall
      induction m using Multiset.induction with
      | empty => rfl
      | cons i m ih =>
        rw [Multiset.filterMap_cons_some (b := y) _ _ _ (by rw [hall i (by simp)]; rfl), Multiset.card_cons,
          Multiset.card_cons, ih fun k hk => hall k (by simp [hk])]

/-- The numbers 0 and 1 under attribute 1, in two instances. -/
def Demo.zeroOne : Multiset (Inst3 ℕ ℕ) := ([[(1, .num 0)], [(1, .num 1)]] : List (Inst3 ℕ ℕ))

theorem Demo.zeroOne_nums : nums Demo.zeroOne 1 = {0, 1} := by
  simp [Demo.zeroOne, nums, Dict.get?, Val.num?, Multiset.filterMap_coe]
  rfl

theorem Demo.zeroOne_std : sampleStd ({0, 1} + {0, 1}) < sampleStd {(0 : ℝ), 1} := by
  have h1 : sqDev {(0 : ℝ), 1} = 1 / 2 := by
    simp [sqDev, sampleMean]
    norm_num
  have h2 : sqDev ({(0 : ℝ), 1} + {0, 1}) = 1 := by
    simp [sqDev, sampleMean]
    norm_num
  have h3 : c4Table.get? 2 = some 0.7978845608028654 := rfl
  have h4 : c4Table.get? 4 = some 0.9213177319235613 := rfl
  unfold sampleStd
  rw [h1, h2]
  simp only [Multiset.card_add, Multiset.card_pair]
  norm_num [h3, h4]
  have h5 : Real.sqrt 2 < Real.sqrt 3 := Real.sqrt_lt_sqrt (by norm_num) (by norm_num)
  have h6 : 0 < Real.sqrt 2 := Real.sqrt_pos.2 (by norm_num)
  have h7 : (Real.sqrt 3)⁻¹ < (Real.sqrt 2)⁻¹ := inv_strictAnti₀ h6 h5
  have h8 : 0 < (Real.sqrt 2)⁻¹ := inv_pos.2 h6
  linarith

theorem Demo.zeroOne_ecg {m : Multiset (Inst3 ℕ ℕ)} (hm : m = Demo.zeroOne ∨ m = Demo.zeroOne + Demo.zeroOne) :
    ecgSpec3 Demo.hid (⟨0, id⟩ : Cfg3 ℕ ℕ) (fun _ => 0) m =
      1 / (2 * Real.sqrt Real.pi * Real.sqrt (sampleStd (nums m 1) ^ 2 + 1 / (4 * Real.pi))) ∧
    (visAttrs Demo.hid m).Nonempty := by
  have hmem : ∀ i ∈ m, ∃ x, i = [(1, .num x)] := by
    intro i hi
    have : i ∈ Demo.zeroOne := by
      rcases hm with rfl | rfl
      · exact hi
      · simpa using hi
    simp only [Demo.zeroOne, Multiset.mem_coe, List.mem_cons, List.not_mem_nil, or_false] at this
    rcases this with rfl | rfl
    · exact ⟨_, rfl⟩
    · exact ⟨_, rfl⟩
  have hex : [(1, .num 0)] ∈ m := by
    rcases hm with rfl | rfl <;> simp [Demo.zeroOne]
  have hvis : visAttrs Demo.hid m = {1} := by
    ext a
    simp only [visAttrs, Finset.mem_filter, mem_attrsOf, Finset.mem_singleton]
    constructor
    · rintro ⟨⟨i, hi, ha⟩, -⟩
      obtain ⟨x, rfl⟩ := hmem i hi
      simpa [Dict.keys] using ha
    · rintro rfl
      exact ⟨⟨_, hex, by simp [Dict.keys]⟩, by decide⟩
  have hnom : nomVals m 1 = ∅ := by
    ext v
    rw [mem_nomVals]
    simp only [Finset.notMem_empty, iff_false]
    rintro ⟨i, hi, hv⟩
    obtain ⟨x, rfl⟩ := hmem i hi
    simp [Dict.get?] at hv
  have hcard : Multiset.card (nums m 1) = Multiset.card m := by
    rcases hm with rfl | rfl
    · rw [Demo.zeroOne_nums]; rfl
    · rw [nums, Multiset.filterMap_add, ← nums, Demo.zeroOne_nums]; rfl
  have hc0 : (Multiset.card m : ℝ) ≠ 0 := by
    have : 0 < Multiset.card m := Multiset.card_pos_iff_exists_mem.2 ⟨_, hex⟩
    exact_mod_cast this.ne'
  refine ⟨?_, by rw [hvis]; simp⟩
  unfold ecgSpec3
  rw [hvis]
  simp only [Finset.sum_singleton, hnom, Finset.sum_empty, zero_add, Finset.card_singleton, Nat.cast_one, div_one,
    numTerm, hcard, div_self hc0, one_pow, one_mul]
  simp [effScale]

/-- The counterexample to the full statement of C85: two children, each with the numbers 0 and 1. The four
numbers together have a smaller corrected deviation than the two numbers in each child, so the category
utility of the partition is negative. -/
theorem C85_negative_utility : ∃ (s c : Stats3 ℕ ℕ) (u : ℝ), Summarizes3 c Demo.zeroOne ∧
    Summarizes3 s (Demo.zeroOne + Demo.zeroOne) ∧
    categoryUtility (cobweb3Class Demo.hid) (Stats3.ecg Demo.hid (⟨0, id⟩ : Cfg3 ℕ ℕ) []) s [c, c] = .ok u ∧
      u < 0 := by
  have L := cobweb3Laws (V := ℕ) Demo.hid
  obtain ⟨c, hc⟩ : ∃ c, Summarizes3 c Demo.zeroOne :=
    ⟨_, L.incr (L.incr L.fresh (i := [(1, .num 1)]) (by simp [Dict.Nodup, Dict.keys]))
      (i := [(1, .num 0)]) (by simp [Dict.Nodup, Dict.keys])⟩
  obtain ⟨s, hs⟩ : ∃ s, Summarizes3 s (Demo.zeroOne + Demo.zeroOne) := ⟨_, L.add hc hc⟩
  have hs' : Summarizes3 s (List.sum [Demo.zeroOne, Demo.zeroOne]) := by simpa using hs
  obtain ⟨u, hu, e, -, -⟩ := categoryUtility3_range (hid := Demo.hid) (cfg := (⟨0, id⟩ : Cfg3 ℕ ℕ)) (sc := [])
    (f := fun _ => 0) (fun b => .inl ⟨rfl, rfl⟩) hs' (.cons hc (.cons hc .nil))
    (by simpa using (Demo.zeroOne_ecg (.inl rfl)).2) (by simp)
  refine ⟨s, c, u, hc, hs, hu, ?_⟩
  have hn : nums (Demo.zeroOne + Demo.zeroOne) 1 = {0, 1} + {0, 1} := by
    rw [nums, Multiset.filterMap_add, ← nums, Demo.zeroOne_nums]
  have hcard : Multiset.card Demo.zeroOne = 2 := rfl
  simp only [List.map_cons, List.map_nil, List.sum_cons, List.sum_nil, add_zero, Multiset.card_add, hcard,
    List.length_cons, List.length_nil] at e
  rw [(Demo.zeroOne_ecg (.inl rfl)).1, (Demo.zeroOne_ecg (.inr rfl)).1, hn, Demo.zeroOne_nums] at e
  have h1 := Demo.zeroOne_std
  have h0 : 0 ≤ sampleStd ({0, 1} + {0, 1}) := sampleStd_nonneg _
  have hpi := Real.pi_pos
  have h2 : Real.sqrt (sampleStd ({0, 1} + {0, 1}) ^ 2 + 1 / (4 * Real.pi)) <
      Real.sqrt (sampleStd {0, 1} ^ 2 + 1 / (4 * Real.pi)) := by
    apply Real.sqrt_lt_sqrt (by positivity)
    have := pow_lt_pow_left₀ h1 h0 (n := 2) (by norm_num)
    linarith
  have h3 : 0 < Real.sqrt (sampleStd ({0, 1} + {0, 1}) ^ 2 + 1 / (4 * Real.pi)) :=
    Real.sqrt_pos.2 (by positivity)
  have h4 : 0 < 2 * Real.sqrt Real.pi := by have := Real.sqrt_pos.2 hpi; positivity
  have h5 : 1 / (2 * Real.sqrt Real.pi * Real.sqrt (sampleStd {0, 1} ^ 2 + 1 / (4 * Real.pi))) <
      1 / (2 * Real.sqrt Real.pi * Real.sqrt (sampleStd ({0, 1} + {0, 1}) ^ 2 + 1 / (4 * Real.pi))) :=
    one_div_lt_one_div_of_lt (by positivity) (by gcongr)
  rw [e]
  push_cast
  linarith

/-- The category utility of the root of the tree of a mixed history, and the guesses of one of its leaves. -/
example : ∃ st n u c, Reach3 Demo.hid (⟨1 / 2, id⟩ : Cfg3 ℕ ℕ) st Demo.mixed n ∧
    st.root.cu (cobweb3Class Demo.hid) (Stats3.ecg Demo.hid ⟨1 / 2, id⟩ st.scales) = .ok u ∧
    (st.root.children ≠ [] → u < 1 / st.root.children.length) ∧ c ∈ st.root.leaves ∧
    Stats3.ecg Demo.hid ⟨1 / 2, id⟩ st.scales c.stats = .ok 1 := by
  obtain ⟨st, n, h⟩ := reach3_exists ⟨1 / 2, id⟩ Demo.mixed Demo.mixed_ok
  obtain ⟨u, hu, -, h2⟩ := C85_category_utility_range_partial h (fun j hj => (Demo.mixed_ok j hj).2)
    (Tree.self_mem_nodes _)
  obtain ⟨⟨c, w'⟩, hc⟩ := C63_categorize_never_raises h (fun j hj => (Demo.mixed_ok j hj).2)
    (i := [(1, .num 2)]) (by simp [Dict.Nodup, Dict.keys]) (w := Demo.w0) (fun a b hab => by simpa [Demo.w0] using hab)
  have hl := (C84_categorize_descends h hc).1
  obtain ⟨hcn, hc0⟩ := (Tree.mem_leaves_iff _ _).1 hl
  refine ⟨st, n, u, c, h, hu, fun hne => (h2 hne).2, hl, C85_leaf_guesses h hcn hc0 ?_⟩
  rcases reach3_holds h with ⟨e, -⟩ | hh
  · exact absurd (congrArg Multiset.card e) (by simp [Demo.mixed])
  · obtain ⟨m, hm, hle⟩ := hh.of_mem_nodes hcn
    obtain ⟨j, hj⟩ := Multiset.exists_mem_of_ne_zero hm.ne_zero
    obtain ⟨a, ha, hva⟩ := (Demo.mixed_ok j (by simpa using Multiset.mem_of_le hle hj)).2
    exact ⟨a, (hm.sum.attrs a).2 ⟨j, hj, ha⟩, hva⟩

end CF
