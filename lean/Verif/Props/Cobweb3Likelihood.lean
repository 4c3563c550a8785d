/-
Property C68: `log_likelihood` in a `Cobweb3Tree`.
-/
import Verif.Props.Cobweb3Predict
import Verif.Spec.Likelihood

set_option linter.unusedSectionVars false

namespace CF

theorem overlap_range (xs ys : Multiset ℝ) : 0 < overlap xs ys ∧ overlap xs ys ≤ 1 := by
  obtain ⟨l, rfl⟩ := Quot.exists_rep xs
  obtain ⟨k, rfl⟩ := Quot.exists_rep ys
  obtain ⟨p, hp, -, h0, h1⟩ := C28_gaussian_overlap l k
  rw [gaussOverlap_eq (obs_batch l) (obs_batch k)] at hp
  cases hp
  exact ⟨h0, h1⟩

variable {A B V : Type} [DecidableEq A] [DecidableEq B] [DecidableEq V] {hid : A → Bool}
  {cfg : Cfg3 A B} {st : State3 A B V} {hist : List (Inst3 A V)} {n : ℕ}

theorem nums_mono {mx my : Multiset (Inst3 A V)} (hle : my ≤ mx) (a : A) : nums my a ≤ nums mx a :=
  Multiset.filterMap_le_filterMap _ hle

theorem share_mono_pos {mx my : Multiset (Inst3 A V)} (hle : my ≤ mx) (a : A) (o : Option (Option V))
    (h : 0 < share my a o) : 0 < share mx a o := by
  rcases o with _ | _ | v
  · exact freq_mono_pos hle a _ h
  · simp only [share] at h ⊢
    have h1 : my ≠ 0 := by rintro rfl; simp [nums] at h
    have h2 : nums my a ≠ 0 := by intro h0; rw [h0] at h; simp at h
    have h3 : mx ≠ 0 := by rintro rfl; exact h1 (Multiset.le_zero.1 hle)
    have h4 : nums mx a ≠ 0 := by intro h0; exact h2 (Multiset.le_zero.1 (h0 ▸ nums_mono hle a))
    have h5 : 0 < Multiset.card mx := Multiset.card_pos.2 h3
    have h6 : 0 < Multiset.card (nums mx a) := Multiset.card_pos.2 h4
    positivity
  · exact freq_mono_pos hle a _ h

theorem llTerm3_nonpos {mx my : Multiset (Inst3 A V)} (a : A) (o : Option (Option V)) :
    llTerm3 mx my a o ≤ 0 := by
  unfold llTerm3
  split
  · exact le_refl _
  · have h1 := share_nonneg mx a o
    have h2 := share_le_one mx a o
    have h3 := share_nonneg my a o
    have h4 := share_le_one my a o
    have h5 := overlap_range (nums mx a) (nums my a)
    apply Real.log_nonpos
    · split
      · exact mul_nonneg (mul_nonneg h1 h3) h5.1.le
      · exact mul_nonneg (mul_nonneg h1 h3) zero_le_one
    · have h6 : share mx a o * share my a o ≤ 1 := mul_le_one₀ h2 h3 h4
      split
      · exact mul_le_one₀ h6 h5.1.le h5.2
      · simpa using h6

theorem llKey_eq {s leaf : Stats3 A V} {mx my : Multiset (Inst3 A V)} (hs : Summarizes3 s mx)
    (hl : Summarizes3 leaf my) (hmx : mx ≠ 0) (hm : my ≠ 0)
    (hpos : ∀ a o, 0 < share my a o → 0 < share mx a o) (sc : Scales B) (a : A)
    (o : Option (Option V)) : llKey cfg sc s leaf a o = .ok (llTerm3 mx my a o) := by
  have nomCase : ∀ (q : Option (Val V)), o ≠ some none →
      leaf.probability cfg sc a q = .ok (share my a o) → s.probability cfg sc a q = .ok (share mx a o) →
      llNom cfg sc s leaf a q = .ok (llTerm3 mx my a o) := by
    intro q ho h1 h2
    unfold llNom llTerm3
    rw [h1, ok_bind]
    by_cases h0 : share my a o = 0
    · rw [if_neg (by rw [h0]; exact lt_irrefl _), if_pos h0]; rfl
    · have hp : 0 < share my a o := lt_of_le_of_ne (share_nonneg _ _ _) (Ne.symm h0)
      have hp' := mul_pos (hpos a o hp) hp
      rw [if_pos hp, h2, ok_bind, if_neg h0, if_neg ho, mul_one]
      dsimp only
      rw [if_pos hp']; rfl
  rcases o with _ | _ | v
  · exact nomCase none (by simp) (probNone_eq hl hm a) (probNone_eq hs hmx a)
  · show llNum s leaf a = _
    unfold llNum llTerm3
    have e1 : (s.av.get? a).bind Tab.cv = s.cvOf a := rfl
    have e2 : (leaf.av.get? a).bind Tab.cv = leaf.cvOf a := rfl
    rw [e1, e2]
    have hc1 := hs.count_ne hmx
    have hc2 := hl.count_ne hm
    have hsp : nums my a ≠ 0 → 0 < share my a (some none) := by
      intro h0
      simp only [share]
      have := Multiset.card_pos.2 h0
      have := Multiset.card_pos.2 hm
      positivity
    rcases hl.cv a with ⟨h0, hn⟩ | ⟨h0, c2, hc2', ho2⟩
    · rw [hn]
      have : share my a (some none) = 0 := by simp [share, h0]
      rw [if_pos this]
      cases s.cvOf a <;> rfl
    · rcases hs.cv a with ⟨h0', hn⟩ | ⟨h0', c1, hc1', ho1⟩
      · have := hpos a (some none) (hsp h0)
        simp [share, h0'] at this
      · rw [hc1', hc2']
        dsimp only
        rw [pyDiv_ok hc1, ok_bind, pyDiv_ok hc2, ok_bind, gaussOverlap_eq ho1 ho2, ok_bind]
        have g1 : (c1.num : ℝ) / (s.count : ℝ) = share mx a (some none) := by
          simp only [share]; rw [ho1.num, hs.count]
        have g2 : (c2.num : ℝ) / (leaf.count : ℝ) = share my a (some none) := by
          simp only [share]; rw [ho2.num, hl.count]
        have hp := hsp h0
        have hx := hpos a _ hp
        have ho := (overlap_range (nums mx a) (nums my a)).1
        rw [g1, g2, if_neg hp.ne', if_pos rfl]
        change (if share mx a (some none) * share my a (some none) * overlap (nums mx a) (nums my a) > 0
          then _ else _) = _
        rw [if_pos (mul_pos (mul_pos hx hp) ho)]; rfl
  · exact nomCase (some (.nom v)) (by simp) (probNom_eq hl hm a v) (probNom_eq hs hmx a v)

theorem llInner3_eq {s leaf : Stats3 A V} {sc : Scales B} {a : A} {f : Option (Option V) → ℝ}
    (h : ∀ o, llKey cfg sc s leaf a o = .ok (f o)) (ks : List (Option (Option V))) (acc : ℝ) :
    llInner3 cfg sc s leaf a ks acc = .ok (acc + (ks.map f).sum) := by
  induction ks generalizing acc with
  | nil => simp [llInner3]
  | cons k ks ih =>
    unfold llInner3
    rw [h, ok_bind, ih]
    simp [add_assoc]

theorem llOuter3_eq {s leaf : Stats3 A V} {sc : Scales B} {f : A → Option (Option V) → ℝ}
    (h : ∀ a o, llKey cfg sc s leaf a o = .ok (f a o)) (as : List A) (acc : ℝ) :
    llOuter3 cfg sc s leaf as acc =
      .ok (acc + (as.map fun a => ((llVals3 s leaf a).map (f a)).sum).sum) := by
  induction as generalizing acc with
  | nil => simp [llOuter3]
  | cons a as ih =>
    unfold llOuter3
    rw [llInner3_eq (h a), ok_bind, ih]
    simp [add_assoc]

theorem Summarizes3.keysOf_nodup {s : Stats3 A V} {m : Multiset (Inst3 A V)} (h : Summarizes3 s m)
    (a : A) : (s.keysOf a).Nodup := by
  unfold Stats3.keysOf
  cases hg : s.av.get? a with
  | none => simp
  | some t =>
    have hn : Dict.Nodup t.noms := h.nodup.2 (a, t) (Dict.mem_of_get? hg)
    simp only [Tab.entries, List.map_append, List.map_map]
    have h1 : (List.map (Prod.fst ∘ fun p : V × ℕ => (some p.1, p.2)) t.noms).Nodup := by
      have e : (Prod.fst ∘ fun p : V × ℕ => (some p.1, p.2)) = some ∘ Prod.fst := rfl
      rw [e, ← List.map_map]
      exact List.Nodup.map (Option.some_injective _) hn
    cases t.cv with
    | none => simpa using h1
    | some c =>
      rw [List.nodup_append]
      refine ⟨h1, by simp, ?_⟩
      rintro x hx y hy rfl
      simp at hy
      subst hy
      simp at hx

theorem llVals3_eq {s leaf : Stats3 A V} {mx my : Multiset (Inst3 A V)} (hs : Summarizes3 s mx)
    (hl : Summarizes3 leaf my) (hpos : ∀ a o, 0 < share my a o → 0 < share mx a o) (a : A) :
    llVals3 s leaf a = none :: (s.keysOf a).map some := by
  unfold llVals3
  rw [List.filter_eq_nil_iff.2, List.append_nil]
  intro k hk
  simp only [decide_eq_true_eq, not_not]
  exact hs.mem_keysOf.2 (hpos a _ (hl.mem_keysOf.1 hk))

theorem llAttrs3_eq {s leaf : Stats3 A V} {mx my : Multiset (Inst3 A V)}
    (hs : Summarizes3 s mx) (hl : Summarizes3 leaf my) (hm : my ≠ 0)
    (hpos : ∀ a o, 0 < share my a o → 0 < share mx a o) :
    llAttrs3 hid s leaf = (s.visible hid).keys := by
  unfold llAttrs3
  simp only
  rw [List.filter_eq_nil_iff.2, List.append_nil]
  intro a ha
  simp only [decide_eq_true_eq, not_not]
  have h1 : a ∈ visAttrs hid my := by rw [← hl.visible_keys]; simpa [Dict.keys] using ha
  have h2 : a ∈ visAttrs hid mx := by
    simp only [visAttrs, Finset.mem_filter, mem_attrsOf] at h1 ⊢
    obtain ⟨hia, hv⟩ := h1
    have hk : ∃ k, k ∈ leaf.keysOf a := by
      have h3 := candidates3_ne_nil hl ((hl.attrs a).2 hia) false
      simp only [Stats3.candidates, Bool.false_eq_true, if_false, List.append_nil, ne_eq,
        List.map_eq_nil_iff] at h3
      exact List.exists_mem_of_ne_nil _ h3
    obtain ⟨k, hk⟩ := hk
    have := hs.mem_keysOf.2 (hpos a _ (hl.mem_keysOf.1 hk))
    refine ⟨(hs.attrs a).1 ?_, hv⟩
    rw [← Dict.get?_isSome]
    unfold Stats3.keysOf at this
    cases hg : s.av.get? a with
    | none => rw [hg] at this; simp at this
    | some t => rfl
  rw [← hs.visible_keys] at h2; simpa [Dict.keys] using h2

theorem logLikelihood3_eq {s leaf : Stats3 A V} {mx my : Multiset (Inst3 A V)} (hs : Summarizes3 s mx)
    (hl : Summarizes3 leaf my) (hmx : mx ≠ 0) (hm : my ≠ 0)
    (hpos : ∀ a o, 0 < share my a o → 0 < share mx a o) (sc : Scales B) :
    s.logLikelihood hid cfg sc leaf = .ok (llSpec3 hid mx my) := by
  unfold Stats3.logLikelihood
  rw [llOuter3_eq (fun a o => llKey_eq hs hl hmx hm hpos sc a o), llAttrs3_eq hs hl hm hpos, zero_add, llSpec3,
    ← hs.visible_keys, List.sum_toFinset _ hs.visible_nodup]
  congr 2
  apply List.map_congr_left
  intro a _
  rw [llVals3_eq hs hl hpos, List.map_cons, List.sum_cons, List.map_map, add_assoc]
  congr 1
  rw [← Finset.sum_insertNone (fun k => llTerm3 mx my a (some k)), ← List.sum_toFinset _ (hs.keysOf_nodup a)]
  have hz : ∀ k, ¬ 0 < share my a (some k) → llTerm3 mx my a (some k) = 0 := by
    intro k hk
    unfold llTerm3
    rw [if_pos (le_antisymm (not_lt.1 hk) (share_nonneg _ _ _))]
  trans ∑ k ∈ (s.keysOf a).toFinset ∪ Finset.insertNone (nomVals my a), llTerm3 mx my a (some k)
  · apply Finset.sum_subset Finset.subset_union_left
    intro k _ hk
    refine hz k fun h => hk ?_
    rw [List.mem_toFinset]
    exact hs.mem_keysOf.2 (hpos a _ h)
  · symm
    apply Finset.sum_subset Finset.subset_union_right
    intro k _ hk
    refine hz k fun h => hk ?_
    rcases k with _ | v
    · simp
    · rw [Finset.some_mem_insertNone, mem_nomVals_iff_occ]
      intro h0
      simp [share, freq_nom, prob, h0] at h

theorem node_sum_below3 (h : Reach3 hid cfg st hist n) (hne : hist ≠ []) {x y : Tree (Stats3 A V)}
    (hx : x ∈ st.root.nodes) (hy : y ∈ x.nodes) :
    ∃ mx my : Multiset (Inst3 A V), Summarizes3 x.stats mx ∧ Summarizes3 y.stats my ∧ my ≤ mx ∧
      mx ≤ hist ∧ my ≠ 0 ∧ (y.children = [] → ∀ i ∈ my, ∀ j ∈ my, SameVisible hid i j) := by
  rcases reach3_holds h with ⟨he, -⟩ | hh
  · exact absurd (by simpa using he) hne
  · obtain ⟨mx, hmx, hle'⟩ := hh.of_mem_nodes hx
    obtain ⟨my, hmy, hle⟩ := hmx.of_mem_nodes hy
    refine ⟨mx, my, hmx.sum, hmy.sum, hle, hle', hmy.ne_zero, fun h0 => ?_⟩
    cases hmy with
    | leaf _ _ h => exact h
    | node h _ _ => simp only [Tree.children_node] at h0; subst h0; simp at h

/-- **C68**: for every concept of a reachable `Cobweb3Tree` and every concept below it, whatever mixture
of nominal and numeric data they hold, `log_likelihood` raises nothing and is at most 0. -/
theorem C68_log_likelihood_nonpos (h : Reach3 hid cfg st hist n) {x y : Tree (Stats3 A V)}
    (hx : x ∈ st.root.nodes) (hy : y ∈ x.nodes) :
    ∃ ll, x.stats.logLikelihood hid cfg st.scales y.stats = .ok ll ∧ ll ≤ 0 := by
  by_cases hne : hist = []
  · rcases reach3_holds h with ⟨-, id, e⟩ | hh
    · rw [e] at hx
      simp only [Tree.nodes_node, List.flatMap_nil, List.mem_singleton] at hx
      subst hx
      simp only [Tree.nodes_node, List.flatMap_nil, List.mem_singleton] at hy
      subst hy
      exact ⟨0, rfl, le_refl _⟩
    · subst hne; exact absurd rfl hh.ne_zero
  · obtain ⟨mx, my, hs, hl, hle, -, hm, -⟩ := node_sum_below3 h hne hx hy
    refine ⟨_, logLikelihood3_eq hs hl (by rintro rfl; exact hm (Multiset.le_zero.1 hle)) hm
      (share_mono_pos hle) _, ?_⟩
    unfold llSpec3
    apply Finset.sum_nonpos
    intro a _
    have h1 := llTerm3_nonpos (mx := mx) (my := my) a none
    have h2 := llTerm3_nonpos (mx := mx) (my := my) a (some none)
    have h3 : ∑ v ∈ nomVals my a, llTerm3 mx my a (some (some v)) ≤ 0 :=
      Finset.sum_nonpos fun v _ => llTerm3_nonpos a _
    linarith

/-- **C68**, the value: the sum over the visible attributes, for each outcome that occurs in the lower
concept, of the logarithm of the product of its shares in the two concepts, with the overlap of the two
fitted normal densities as a further factor for numbers. -/
theorem C68_log_likelihood_value (h : Reach3 hid cfg st hist n) (hne : hist ≠ [])
    {x y : Tree (Stats3 A V)} (hx : x ∈ st.root.nodes) (hy : y ∈ x.nodes) :
    ∃ mx my : Multiset (Inst3 A V), Summarizes3 x.stats mx ∧ Summarizes3 y.stats my ∧ my ≤ mx ∧ my ≠ 0 ∧
      x.stats.logLikelihood hid cfg st.scales y.stats = .ok (llSpec3 hid mx my) := by
  obtain ⟨mx, my, hs, hl, hle, -, hm, -⟩ := node_sum_below3 h hne hx hy
  exact ⟨mx, my, hs, hl, hle, hm, logLikelihood3_eq hs hl (by rintro rfl; exact hm (Multiset.le_zero.1 hle)) hm
      (share_mono_pos hle) _⟩

/-- An instance of the hypotheses: the root of the sparse history above the root itself, where the
value is that of the history under itself: attribute 1 is missing in two thirds and the number 5 in one
third, attribute 2 the other way round. -/
example : ∃ (st : State3 ℕ ℕ ℕ) (n : ℕ), Reach3 Demo.hid (⟨1 / 2, id⟩ : Cfg3 ℕ ℕ) st Demo.sparse n ∧
    st.root.stats.logLikelihood Demo.hid ⟨1 / 2, id⟩ st.scales st.root.stats =
      .ok (llSpec3 Demo.hid (Demo.sparse : Multiset (Inst3 ℕ ℕ)) Demo.sparse) := by
  obtain ⟨st, n, h⟩ := reach3_exists (hid := Demo.hid) ⟨1 / 2, id⟩ Demo.sparse (by
    intro i hi
    simp only [Demo.sparse, List.mem_cons, List.not_mem_nil, or_false] at hi
    rcases hi with rfl | rfl | rfl
    · exact ⟨by simp [Dict.Nodup, Dict.keys], 1, by simp [Dict.keys], by decide⟩
    all_goals exact ⟨by simp [Dict.Nodup, Dict.keys], 2, by simp [Dict.keys], by decide⟩)
  have h1 := (C29_every_node h).1
  exact ⟨st, n, h, logLikelihood3_eq h1 h1 (by simp [Demo.sparse]) (by simp [Demo.sparse])
    (fun _ _ h => h) _⟩

/-- In the sparse history the number contributes with the squared share 1/9. -/
example : llTerm3 (Demo.sparse : Multiset (Inst3 ℕ ℕ)) Demo.sparse 1 (some none) =
    Real.log (1 / 3 * (1 / 3) * overlap {5} {5}) := by
  have h2 : nums (Demo.sparse : Multiset (Inst3 ℕ ℕ)) 1 = {5} := by
    simp [nums, Demo.sparse, Dict.get?, Val.num?, Multiset.filterMap_coe]
  simp only [llTerm3, share, h2]
  norm_num [Demo.sparse]

end CF
