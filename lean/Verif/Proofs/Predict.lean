/-
Lemmas about predictions from nominal concept tables.
-/
import Verif.Model.Predict
import Verif.Spec.Predict
import Verif.Proofs.Ecg
import Verif.Proofs.Reach
import Verif.Proofs.NoRaise
import Verif.Props.Utils

set_option linter.unusedSectionVars false

namespace CF
variable {A V : Type} [DecidableEq A] [DecidableEq V] {hid : A → Bool}
variable {K : Type} [Field K] [LinearOrder K] [IsStrictOrderedRing K]
variable {s : Stats A V} {m : Multiset (Inst A V)}

theorem freq_some (m : Multiset (Inst A V)) (a : A) (v : V) : freq K m a (some v) = prob K m a v := rfl

theorem freq_nonneg (m : Multiset (Inst A V)) (a : A) (o : Option V) : 0 ≤ freq K m a o := by
  unfold freq; positivity

theorem freq_le_one (m : Multiset (Inst A V)) (a : A) (o : Option V) : freq K m a o ≤ 1 := by
  unfold freq
  apply div_le_one_of_le₀ _ (by positivity)
  exact_mod_cast Multiset.countP_le_card _ _

/-- The values and "missing" exhaust the instances. -/
theorem countP_none_add (m : Multiset (Inst A V)) (a : A) (P : Finset V) (hP : valsOf m a ⊆ P) :
    (m.countP fun i => Dict.get? i a = none) + ∑ v ∈ P, occ m a v = Multiset.card m := by
  induction m using Multiset.induction_on with
  | empty => simp [occ]
  | cons i m ih =>
    have hsub : valsOf m a ⊆ P := by
      intro v hv; apply hP
      obtain ⟨j, hj, h⟩ := mem_valsOf.1 hv
      exact mem_valsOf.2 ⟨j, by simp [hj], h⟩
    specialize ih hsub
    rw [Multiset.card_cons, ← ih]
    cases h : Dict.get? i a with
    | none =>
      have : ∀ v, occ (i ::ₘ m) a v = occ m a v := fun v => occ_cons_of_neg (by simp [h])
      simp only [this]
      rw [Multiset.countP_cons, if_pos h]; omega
    | some x =>
      have : ∀ v, occ (i ::ₘ m) a v = occ m a v + if v = x then 1 else 0 := by
        intro v
        by_cases hv : v = x
        · subst hv; rw [occ_cons_of_pos h]; simp
        · rw [occ_cons_of_neg (by simp [h, Ne.symm hv])]; simp [hv]
      simp only [this, Finset.sum_add_distrib]
      rw [Multiset.countP_cons_of_neg _ (by simp [h])]
      have hx : x ∈ P := hP (mem_valsOf.2 ⟨i, by simp, h⟩)
      rw [Finset.sum_ite_eq', if_pos hx]; omega

theorem freq_sum (m : Multiset (Inst A V)) (hm : m ≠ 0) (a : A) :
    freq K m a none + ∑ v ∈ valsOf m a, freq K m a (some v) = 1 := by
  have h := countP_none_add m a (valsOf m a) (Finset.Subset.refl _)
  have hc : (Multiset.card m : K) ≠ 0 := by simpa using hm
  unfold freq
  rw [← Finset.sum_div, ← add_div, div_eq_one_iff_eq hc]
  exact_mod_cast h

theorem Summarizes.recorded (h : Summarizes s m) (a : A) :
    (s.recorded a).Nodup ∧ (s.recorded a).toFinset = valsOf m a := by
  unfold Stats.recorded
  cases hg : s.av.get? a with
  | none =>
    refine ⟨by simp, ?_⟩
    ext v
    simp only [Option.getD_none, Dict.keys_nil, List.toFinset_nil, Finset.notMem_empty, false_iff]
    intro hv
    obtain ⟨i, hi, hiv⟩ := mem_valsOf.1 hv
    have : a ∈ s.av.keys := (h.attrs a).2 ⟨i, hi, by rw [← Dict.get?_isSome, hiv]; rfl⟩
    exact Dict.get?_eq_none.1 hg this
  | some t => exact (h.table (Dict.mem_of_get? hg)).2

theorem Summarizes.mem_recorded (h : Summarizes s m) {a : A} {v : V} :
    v ∈ s.recorded a ↔ s.lookup a v ≠ none := by
  rw [← List.mem_toFinset, (h.recorded a).2, mem_valsOf_iff_occ, h.lookup]
  split <;> simp_all

theorem Summarizes.sum_recorded (h : Summarizes s m) (a : A) (f : V → K) :
    ((s.recorded a).map f).sum = ∑ v ∈ valsOf m a, f v := by
  rw [← (h.recorded a).2, List.sum_toFinset _ (h.recorded a).1]

theorem Summarizes.recorded_ne_nil (h : Summarizes s m) {a : A} (ha : a ∈ s.av.keys) :
    s.recorded a ≠ [] := by
  obtain ⟨i, hi, hia⟩ := (h.attrs a).1 ha
  obtain ⟨v, hv⟩ := valsOf_nonempty (mem_attrsOf.2 ⟨i, hi, hia⟩)
  rw [← (h.recorded a).2, List.mem_toFinset] at hv
  exact List.ne_nil_of_mem hv

theorem Summarizes.count_ne (h : Summarizes s m) (hm : m ≠ 0) : (s.count : K) ≠ 0 := by
  rw [h.count]; simpa using hm

/-- The sum of the counts in the table of `a`. -/
theorem Summarizes.tab_total (h : Summarizes s m) (a : A) :
    (match s.av.get? a with | none => 0 | some t => (t.map Prod.snd).sum) =
      ∑ v ∈ valsOf m a, occ m a v := by
  cases hg : s.av.get? a with
  | none =>
    have := (h.recorded a).2
    rw [← this]; simp [Stats.recorded, hg]
  | some t =>
    have := h.table_sum (K := ℚ) (Dict.mem_of_get? hg) (fun c => (c : ℚ))
    have e : ((t.map Prod.snd).sum : ℚ) = (t.map fun p => (p.2 : ℚ)).sum := by
      rw [Nat.cast_list_sum, List.map_map]; rfl
    rw [← e] at this
    exact_mod_cast this

/-- `probability` is the share of the stored instances. -/
theorem probability_eq (h : Summarizes s m) (hm : m ≠ 0) (a : A) (o : Option V) :
    s.probability a o = .ok (freq K m a o) := by
  have hc := h.count_ne (K := K) hm
  cases o with
  | none =>
    show pyDiv _ _ = _
    have e := h.tab_total a
    have h2 := countP_none_add m a (valsOf m a) (Finset.Subset.refl _)
    rw [pyDiv, if_neg hc]
    have e' : ((match s.av.get? a with | none => 0 | some t => (t.map Prod.snd).sum : ℕ) : K) =
      ((∑ v ∈ valsOf m a, occ m a v : ℕ) : K) := by rw [← e]
    unfold freq
    congr 1
    rw [h.count] at hc ⊢
    congr 1
    have h3 : ((m.countP fun i => Dict.get? i a = none : ℕ) : K) + ((∑ v ∈ valsOf m a, occ m a v : ℕ) : K)
        = (Multiset.card m : K) := by exact_mod_cast h2
    rw [← h3, ← e']
    cases s.av.get? a <;> simp
  | some v =>
    unfold Stats.probability
    simp only
    rw [h.lookup]
    by_cases h0 : occ m a v = 0
    · rw [if_pos h0, freq_some, prob, h0]; simp
    · rw [if_neg h0]; simp only [pyDiv, if_neg hc]; rw [h.count]; rfl

theorem weightLoop_eq {n : ℕ} (hn : (n : K) ≠ 0) (t : Dict V ℕ) :
    weightLoop n t = .ok (t.map fun p => (some p.1, (p.2 : K) / (n : K))) := by
  induction t with
  | nil => rfl
  | cons p t ih =>
    obtain ⟨v, c⟩ := p
    simp [weightLoop, pyDiv, hn, ih, bind, Except.bind, pure, Except.pure]

/-- `get_weighted_values` lists the candidates with their shares. -/
theorem weightedValues_eq (h : Summarizes s m) (hm : m ≠ 0) {a : A} (ha : a ∈ s.av.keys)
    (allowNone : Bool) :
    s.weightedValues a allowNone =
      .ok ((s.candidates a allowNone).map fun o => (o, freq K m a o)) := by
  have hc := h.count_ne (K := K) hm
  obtain ⟨t, hg⟩ : ∃ t, s.av.get? a = some t := Option.isSome_iff_exists.1 (Dict.get?_isSome.2 ha)
  have ht := h.table (Dict.mem_of_get? hg)
  have e1 : (t.map fun p => (some p.1, (p.2 : K) / (s.count : K))) =
      ((s.recorded a).map some).map fun o => (o, freq K m a o) := by
    simp only [Stats.recorded, hg, Option.getD_some, Dict.keys, List.map_map]
    apply List.map_congr_left
    intro p hp
    simp only [Function.comp, freq_some, prob, h.count, (ht.1 p hp).1]
  have hnone : (pyDiv ((s.count : K) - ((t.map Prod.snd).sum : ℕ)) (s.count : K)) =
      .ok (freq K m a none) := by
    have := probability_eq (K := K) h hm a none
    simpa [Stats.probability, hg] using this
  unfold Stats.weightedValues
  simp only [hg, weightLoop_eq hc, ok_bind, e1]
  cases allowNone with
  | true => simp only [if_true, hnone, ok_bind, Stats.candidates]; simp [pure, Except.pure]
  | false => simp [Stats.candidates, pure, Except.pure]

theorem candidates_nodup (h : Summarizes s m) (a : A) (an : Bool) : (s.candidates a an).Nodup := by
  unfold Stats.candidates
  have h1 : ((s.recorded a).map some).Nodup :=
    (h.recorded a).1.map (Option.some_injective _)
  cases an
  · simpa using h1
  · rw [List.nodup_append]
    exact ⟨h1, by simp, by intro x hx y hy; simp at hx hy; obtain ⟨v, -, rfl⟩ := hx; subst hy; simp⟩

theorem weightSum_candidates (h : Summarizes s m) (hm : m ≠ 0) {a : A} (ha : a ∈ s.av.keys)
    (an : Bool) :
    0 < weightSum ((s.candidates a an).map fun o => (o, freq K m a o)) ∧
    (an = true → weightSum ((s.candidates a an).map fun o => (o, freq K m a o)) = 1) := by
  have e : weightSum ((s.candidates a an).map fun o => (o, freq K m a o)) =
      ∑ v ∈ valsOf m a, freq K m a (some v) + if an then freq K m a none else 0 := by
    rw [← h.sum_recorded]
    unfold weightSum Stats.candidates
    cases an <;> simp [Function.comp_def]
  have hpos : 0 < ∑ v ∈ valsOf m a, freq K m a (some v) := by
    obtain ⟨i, hi, hia⟩ := (h.attrs a).1 ha
    refine Finset.sum_pos (fun v hv => ?_) (valsOf_nonempty (mem_attrsOf.2 ⟨i, hi, hia⟩))
    rw [freq_some, prob]
    have h1 := mem_valsOf_iff_occ.1 hv
    have h2 : Multiset.card m ≠ 0 := by simpa using hm
    apply div_pos <;> · exact_mod_cast Nat.pos_of_ne_zero (by assumption)
  refine ⟨?_, ?_⟩
  · rw [e]
    split
    · have := freq_nonneg (K := K) m a none; linarith
    · simpa using hpos
  · rintro rfl
    rw [e, if_pos rfl, add_comm]
    exact freq_sum m hm a

/-- The instances stored in a concept of a reachable tree. -/
theorem node_sum {t : Tree (Stats A V)} {hist : List (Inst A V)} {n : ℕ}
    (h : CobwebReach hid t hist n) {x : Tree (Stats A V)} (hx : x ∈ t.nodes) :
    ∃ m : Multiset (Inst A V), Summarizes x.stats m ∧ m ≤ hist ∧ (hist ≠ [] → m ≠ 0) ∧
      (x.children = [] → ∀ i ∈ m, ∀ j ∈ m, SameVisible hid i j) := by
  have L := cobwebLaws (V := V) hid
  rcases reach_holds L h with ⟨he, id, rfl⟩ | hh
  · simp [Tree.nodes_node] at hx
    subst hx
    exact ⟨0, L.fresh, by simp, by simpa using he, by simp⟩
  · obtain ⟨m, hm, hle⟩ := hh.of_mem_nodes hx
    refine ⟨m, hm.sum, hle, fun _ => hm.ne_zero, fun h0 => ?_⟩
    cases hm with
    | leaf _ _ h => exact h
    | node h _ _ => simp only [Tree.children_node] at h0; subst h0; simp at h

end CF
