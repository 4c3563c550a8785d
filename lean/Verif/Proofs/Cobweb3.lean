/-
`Cobweb3Node` satisfies the laws of a node class.
-/
import Verif.Spec.Cobweb3
import Verif.Proofs.Nominal
import Verif.Proofs.Std

set_option linter.unusedSectionVars false

namespace CF
variable {A B V : Type} [DecidableEq A] [DecidableEq B] [DecidableEq V]

@[simp] theorem nums_zero (a : A) : nums (0 : Multiset (Inst3 A V)) a = 0 := rfl

theorem nums_add (m k : Multiset (Inst3 A V)) (a : A) : nums (m + k) a = nums m a + nums k a := by
  simp [nums, Multiset.filterMap_add]

theorem nums_cons_num {m : Multiset (Inst3 A V)} {i : Inst3 A V} {a : A} {x : ℝ}
    (h : Dict.get? i a = some (.num x)) : nums (i ::ₘ m) a = x ::ₘ nums m a := by
  unfold nums; rw [Multiset.filterMap_cons_some]; simp [h, Val.num?]

theorem nums_cons_other {m : Multiset (Inst3 A V)} {i : Inst3 A V} {a : A}
    (h : ∀ x, Dict.get? i a ≠ some (.num x)) : nums (i ::ₘ m) a = nums m a := by
  unfold nums; rw [Multiset.filterMap_cons_none]
  cases hi : Dict.get? i a with
  | none => rfl
  | some v =>
    cases v with
    | nom v => rfl
    | num x => exact absurd hi (h x)

theorem mem_nums {m : Multiset (Inst3 A V)} {a : A} {x : ℝ} :
    x ∈ nums m a ↔ ∃ i ∈ m, Dict.get? i a = some (.num x) := by
  simp only [nums, Multiset.mem_filterMap]
  constructor
  · rintro ⟨i, hi, h⟩
    refine ⟨i, hi, ?_⟩
    cases hg : Dict.get? i a with
    | none => rw [hg] at h; simp at h
    | some v =>
      rw [hg] at h
      cases v with
      | nom v => simp [Val.num?] at h
      | num y => simp [Val.num?] at h; rw [h]
  · rintro ⟨i, hi, h⟩
    exact ⟨i, hi, by rw [h]; rfl⟩

theorem summarizes3_fresh : Summarizes3 (Stats3.fresh : Stats3 A V) 0 where
  count := rfl
  noms := by intro a v; simp [Stats3.nomLookup, Stats3.fresh, occ]
  cv := by intro a; left; simp [Stats3.cvOf, Stats3.fresh]
  attrs := by intro a; simp [Stats3.fresh]
  nodup := by simp [Stats3.fresh]

theorem get?_incr3 (s : Stats3 A V) {i : Inst3 A V} (hi : Dict.Nodup i) (a : A) :
    (s.incr i).av.get? a = match Dict.get? i a with
      | none => s.av.get? a
      | some v => some (((s.av.get? a).getD Tab.empty).add v) := by
  simp only [Stats3.incr]
  rw [Dict.get?_updAll _ _ hi]; cases Dict.get? i a <;> rfl

theorem get?_addFrom3 (s n : Stats3 A V) (hn : n.av.Nodup) (a : A) :
    (s.addFrom n).av.get? a = match n.av.get? a with
      | none => s.av.get? a
      | some t => some (((s.av.get? a).getD Tab.empty).merge t) := by
  simp only [Stats3.addFrom]
  rw [Dict.get?_updAll _ _ hn]; cases n.av.get? a <;> rfl

theorem nomLookup_getD (s : Stats3 A V) (a : A) (v : V) :
    (((s.av.get? a).getD Tab.empty).noms.get? v) = s.nomLookup a v := by
  unfold Stats3.nomLookup; cases s.av.get? a <;> simp [Tab.empty]

theorem cvOf_getD (s : Stats3 A V) (a : A) : ((s.av.get? a).getD Tab.empty).cv = s.cvOf a := by
  unfold Stats3.cvOf; cases s.av.get? a <;> simp [Tab.empty]

theorem nomLookup_incr (s : Stats3 A V) {i : Inst3 A V} (hi : Dict.Nodup i) (a : A) (v : V) :
    (s.incr i).nomLookup a v = if Dict.get? i a = some (.nom v)
      then some ((s.nomLookup a v).getD 0 + 1) else s.nomLookup a v := by
  rw [Stats3.nomLookup, get?_incr3 s hi]
  cases h : Dict.get? i a with
  | none => simp [Stats3.nomLookup]
  | some x =>
    simp only [Option.bind_some]
    cases x with
    | num x => simp only [Tab.add]; rw [nomLookup_getD]; simp
    | nom u =>
      simp only [Tab.add, Dict.get?_set]
      by_cases hu : u = v
      · subst hu; rw [nomLookup_getD]; simp
      · have hv : ¬ (some (Val.nom u) = some (Val.nom v)) := by
          intro he; cases he; exact hu rfl
        rw [if_neg hu, if_neg hv, nomLookup_getD]

theorem cvOf_incr (s : Stats3 A V) {i : Inst3 A V} (hi : Dict.Nodup i) (a : A) :
    (s.incr i).cvOf a = match (Dict.get? i a).bind Val.num? with
      | none => s.cvOf a
      | some x => some (((s.cvOf a).getD CV.fresh).update x) := by
  rw [Stats3.cvOf, get?_incr3 s hi]
  cases h : Dict.get? i a with
  | none => simp [Stats3.cvOf]
  | some x =>
    simp only [Option.bind_some]
    cases x with
    | num x => simp only [Tab.add, Val.num?]; rw [cvOf_getD]
    | nom u => simp only [Tab.add, Val.num?]; rw [cvOf_getD]

theorem keys_incr3 (s : Stats3 A V) {i : Inst3 A V} (hi : Dict.Nodup i) (a : A) :
    a ∈ (s.incr i).av.keys ↔ a ∈ s.av.keys ∨ a ∈ Dict.keys i := by
  rw [← Dict.get?_isSome, ← Dict.get?_isSome, ← Dict.get?_isSome, get?_incr3 s hi]
  cases h : Dict.get? i a <;> simp

theorem summarizes3_incr {s : Stats3 A V} {m : Multiset (Inst3 A V)} {i : Inst3 A V}
    (h : Summarizes3 s m) (hi : Dict.Nodup i) : Summarizes3 (s.incr i) (i ::ₘ m) where
  count := by simp [Stats3.incr, h.count]
  noms := by
    intro a v
    rw [nomLookup_incr s hi, h.noms]
    by_cases hv : Dict.get? i a = some (.nom v)
    · rw [occ_cons_of_pos hv]
      by_cases h0 : occ m a (.nom v) = 0 <;> simp [hv, h0]
    · rw [occ_cons_of_neg hv]; simp [hv]
  cv := by
    intro a
    rw [cvOf_incr s hi]
    by_cases hx : ∃ x, Dict.get? i a = some (.num x)
    · obtain ⟨x, hx⟩ := hx
      right
      rw [nums_cons_num hx, hx]
      refine ⟨by simp, _, rfl, ?_⟩
      rcases h.cv a with ⟨h0, hc⟩ | ⟨-, c, hc, ho⟩
      · rw [hc, h0]; exact obs_update obs_fresh x
      · rw [hc]; exact obs_update ho x
    · push Not at hx
      rw [nums_cons_other hx]
      have : (Dict.get? i a).bind Val.num? = none := by
        cases hg : Dict.get? i a with
        | none => rfl
        | some v =>
          cases v with
          | nom v => rfl
          | num x => exact absurd hg (hx x)
      rw [this]; exact h.cv a
  attrs := by
    intro a
    rw [keys_incr3 s hi, h.attrs]
    simp [or_comm]
  nodup := by
    dsimp only [Stats3.incr]
    constructor
    · exact Dict.nodup_updAll _ _ h.nodup.1
    · apply forall_updAll (P := fun t : Tab V => Dict.Nodup t.noms) _ _ _ h.nodup.2
      intro o x ho
      have h0 : Dict.Nodup (o.getD Tab.empty).noms := by
        cases o with
        | none => simp [Tab.empty]
        | some t => exact ho t rfl
      cases x with
      | num x => exact h0
      | nom v => exact Dict.nodup_set h0 _ _

theorem nomLookup_addFrom (s n : Stats3 A V) (hn : n.av.Nodup)
    (hn' : ∀ p ∈ n.av, Dict.Nodup p.2.noms) (a : A) (v : V) :
    (s.addFrom n).nomLookup a v =
      match n.nomLookup a v with
      | none => s.nomLookup a v
      | some c => some ((s.nomLookup a v).getD 0 + c) := by
  rw [Stats3.nomLookup, get?_addFrom3 s n hn]
  unfold Stats3.nomLookup
  cases h : n.av.get? a with
  | none => simp
  | some t =>
    simp only [Option.bind_some, Tab.merge]
    rw [get?_addTab _ _ (hn' _ (Dict.mem_of_get? h))]
    have := nomLookup_getD s a v
    unfold Stats3.nomLookup at this
    rw [this]
    cases h2 : t.noms.get? v <;> simp

theorem cvOf_addFrom (s n : Stats3 A V) (hn : n.av.Nodup) (a : A) :
    (s.addFrom n).cvOf a = match n.cvOf a with
      | none => s.cvOf a
      | some d => some (((s.cvOf a).getD CV.fresh).join d) := by
  rw [Stats3.cvOf, get?_addFrom3 s n hn]
  unfold Stats3.cvOf
  cases h : n.av.get? a with
  | none => simp
  | some t =>
    simp only [Option.bind_some, Tab.merge]
    have := cvOf_getD s a
    unfold Stats3.cvOf at this
    rw [this]
    cases t.cv <;> rfl

theorem keys_addFrom3 (s n : Stats3 A V) (hn : n.av.Nodup) (a : A) :
    a ∈ (s.addFrom n).av.keys ↔ a ∈ s.av.keys ∨ a ∈ n.av.keys := by
  rw [← Dict.get?_isSome, ← Dict.get?_isSome, ← Dict.get?_isSome, get?_addFrom3 s n hn]
  cases h : n.av.get? a <;> simp

theorem summarizes3_add {s n : Stats3 A V} {m k : Multiset (Inst3 A V)}
    (h : Summarizes3 s m) (hn : Summarizes3 n k) : Summarizes3 (s.addFrom n) (m + k) where
  count := by simp [Stats3.addFrom, h.count, hn.count]
  noms := by
    intro a v
    rw [nomLookup_addFrom s n hn.nodup.1 hn.nodup.2, h.noms, hn.noms]
    have e : occ (m + k) a (.nom v) = occ m a (.nom v) + occ k a (.nom v) := by simp [occ]
    rw [e]
    by_cases h0 : occ m a (.nom v) = 0 <;> by_cases h1 : occ k a (.nom v) = 0 <;> simp [h0, h1]
  cv := by
    intro a
    rw [cvOf_addFrom s n hn.nodup.1, nums_add]
    rcases hn.cv a with ⟨h0, hc⟩ | ⟨h0, d, hc, ho⟩
    · rw [hc, h0, add_zero]; exact h.cv a
    · right
      rw [hc]
      refine ⟨by intro hz; exact h0 (by simpa using (add_eq_zero.1 hz).2), _, rfl, ?_⟩
      rcases h.cv a with ⟨h1, hc1⟩ | ⟨-, c, hc1, ho1⟩
      · rw [hc1, h1]; exact obs_join obs_fresh ho
      · rw [hc1]; exact obs_join ho1 ho
  attrs := by
    intro a
    rw [keys_addFrom3 s n hn.nodup.1, h.attrs, hn.attrs]
    simp only [Multiset.mem_add, or_and_right, exists_or]
  nodup := by
    dsimp only [Stats3.addFrom]
    constructor
    · exact Dict.nodup_updAll _ _ h.nodup.1
    · apply forall_updAll (P := fun t : Tab V => Dict.Nodup t.noms) _ _ _ h.nodup.2
      intro o x ho
      dsimp only [Tab.merge]
      apply Dict.nodup_updAll
      cases o with
      | none => simp [Tab.empty]
      | some t => exact ho t rfl

/-- The table of an attribute, with its accumulator. -/
theorem Summarizes3.cv_of_mem {s : Stats3 A V} {m : Multiset (Inst3 A V)} (h : Summarizes3 s m)
    {a : A} {t : Tab V} (ht : (a, t) ∈ s.av) {c : CV ℝ} (hc : t.cv = some c) :
    nums m a ≠ 0 ∧ c.Obs (nums m a) := by
  have hg : s.cvOf a = some c := by
    rw [Stats3.cvOf, Dict.get?_of_mem h.nodup.1 ht]; exact hc
  rcases h.cv a with ⟨-, h1⟩ | ⟨h0, d, h1, ho⟩
  · rw [hg] at h1; cases h1
  · rw [hg] at h1; cases h1; exact ⟨h0, ho⟩

theorem addFrom_fresh3 {s : Stats3 A V} {m : Multiset (Inst3 A V)} (h : Summarizes3 s m) :
    Stats3.fresh.addFrom s = s := by
  have key : ∀ p ∈ s.av, (Option.getD (none : Option (Tab V)) Tab.empty).merge p.2 = p.2 := by
    rintro ⟨a, t⟩ hp
    obtain ⟨noms, cv⟩ := t
    simp only [Option.getD_none, Tab.merge, Tab.empty, Tab.mk.injEq]
    constructor
    · rw [Dict.updAll_empty _ _ (h.nodup.2 _ hp)]
      apply Dict.mapVal_id'
      simp
    · cases hc : cv with
      | none => rfl
      | some c => simp [join_fresh (h.cv_of_mem hp (c := c) (by simp [hc])).2]
  have hn := h.nodup.1
  obtain ⟨c, av⟩ := s
  simp only [Stats3.addFrom, Stats3.fresh, Nat.zero_add, Stats3.mk.injEq, true_and]
  rw [Dict.updAll_empty _ _ hn]
  exact Dict.mapVal_id' _ _ key

theorem card_nums_eq {m : Multiset (Inst3 A V)} {a : A} :
    Multiset.card (nums m a) = Multiset.card m ↔ ∀ j ∈ m, ∃ x, Dict.get? j a = some (.num x) := by
  have hle : ∀ m : Multiset (Inst3 A V), Multiset.card (nums m a) ≤ Multiset.card m := by
    intro m
    induction m using Multiset.induction_on with
    | empty => simp
    | cons i m ih =>
      by_cases hx : ∃ x, Dict.get? i a = some (.num x)
      · obtain ⟨x, hx⟩ := hx
        rw [nums_cons_num hx]; simpa using ih
      · push Not at hx
        rw [nums_cons_other hx, Multiset.card_cons]; omega
  induction m using Multiset.induction_on with
  | empty => simp
  | cons i m ih =>
    simp only [Multiset.mem_cons, forall_eq_or_imp, ← ih, Multiset.card_cons]
    by_cases hx : ∃ x, Dict.get? i a = some (.num x)
    · obtain ⟨x, hx⟩ := hx
      rw [nums_cons_num hx]; simp [hx]
    · have hx' := hx
      push Not at hx'
      rw [nums_cons_other hx']
      have := hle m
      constructor
      · intro h; omega
      · rintro ⟨h, -⟩; exact absurd h hx

theorem occ_eq_card {m : Multiset (Inst3 A V)} {a : A} {v : Val V} :
    occ m a v = Multiset.card m ↔ ∀ j ∈ m, Dict.get? j a = some v := Multiset.countP_eq_card

theorem Summarizes3.noms_of_mem {s : Stats3 A V} {m : Multiset (Inst3 A V)} (h : Summarizes3 s m)
    {a : A} {t : Tab V} (ht : (a, t) ∈ s.av) (v : V) :
    t.noms.get? v = if occ m a (.nom v) = 0 then none else some (occ m a (.nom v)) := by
  rw [← h.noms, Stats3.nomLookup, Dict.get?_of_mem h.nodup.1 ht]; rfl

theorem summarizes3_matches {s : Stats3 A V} {m : Multiset (Inst3 A V)} (h : Summarizes3 s m)
    (hm : m ≠ 0) {a : A} {t : Tab V} (ht : (a, t) ∈ s.av) (v : Val V) :
    t.matches s.count v = true ↔ ∀ j ∈ m, Dict.get? j a = some v := by
  have hg := Dict.get?_of_mem h.nodup.1 ht
  cases v with
  | nom v =>
    have hc : Multiset.card m ≠ 0 := by simpa using hm
    simp only [Tab.matches]
    rw [h.noms_of_mem ht, ← occ_eq_card]
    by_cases h0 : occ m a (.nom v) = 0
    · simp only [h0, if_true]
      constructor
      · intro hf; cases hf
      · intro hf; exact absurd hf.symm hc
    · simp [h0, h.count]
  | num x =>
    simp only [Tab.matches]
    constructor
    · intro hmt
      cases hcv : t.cv with
      | none => rw [hcv] at hmt; cases hmt
      | some c =>
        rw [hcv] at hmt
        obtain ⟨-, ho⟩ := h.cv_of_mem ht hcv
        simp only at hmt
        split at hmt
        · cases hmt
        rename_i h1
        split at hmt
        · cases hmt
        rename_i h2
        split at hmt
        · cases hmt
        rename_i h3
        push Not at h1 h2 h3
        rw [ho.num, h.count] at h1
        have hall := card_nums_eq.1 h1.2
        rw [unbiasedStd_eq ho] at h2
        have hstd := sampleStd_eq_zero.1 (Except.ok.inj h2)
        rw [CV.unbiasedMean, ho.mean] at h3
        intro j hj
        obtain ⟨y, hy⟩ := hall j hj
        have hyx := const_iff.2 hstd y (mem_nums.2 ⟨j, hj, hy⟩)
        rw [hy, hyx, h3]
    · intro hall
      have hnum : nums m a = Multiset.replicate (Multiset.card m) x := by
        refine Multiset.eq_replicate.2 ⟨card_nums_eq.2 fun j hj => ⟨x, hall j hj⟩, ?_⟩
        intro y hy
        obtain ⟨j, hj, hjy⟩ := mem_nums.1 hy
        rw [hall j hj] at hjy
        cases hjy; rfl
      have hc : Multiset.card m ≠ 0 := by simpa using hm
      rcases h.cv a with ⟨h0, -⟩ | ⟨-, c, hcv, ho⟩
      · rw [h0] at hnum
        have := congrArg Multiset.card hnum
        simp at this; exact absurd this.symm hc
      rw [Stats3.cvOf, hg] at hcv
      simp only [Option.bind_some] at hcv
      have hnoms : t.noms = [] := by
        cases hn : t.noms with
        | nil => rfl
        | cons p l =>
          exfalso
          have hp : t.noms.get? p.1 = some p.2 := by rw [hn]; obtain ⟨a1, b1⟩ := p; exact if_pos rfl
          rw [h.noms_of_mem ht] at hp
          split at hp
          · cases hp
          · rename_i ho
            obtain ⟨j, hj, hjv⟩ := Multiset.countP_pos.1 (Nat.pos_of_ne_zero ho)
            rw [hall j hj] at hjv
            cases hjv
      have hconst : ∀ y ∈ nums m a, ∀ z ∈ nums m a, y = z := by
        intro y hy z hz
        rw [hnum] at hy hz
        rw [Multiset.eq_of_mem_replicate hy, Multiset.eq_of_mem_replicate hz]
      have hmean : sampleMean (nums m a) = x := by
        have hx : x ∈ nums m a := by
          rw [hnum]; exact Multiset.mem_replicate.2 ⟨hc, rfl⟩
        exact (const_iff.2 hconst x hx).symm
      rw [hcv]
      simp only
      rw [if_neg, if_neg, if_neg]
      · rw [not_not, CV.unbiasedMean, ho.mean, hmean]
      · rw [not_not, unbiasedStd_eq ho, sampleStd_eq_zero.2 hconst]
      · push Not
        refine ⟨by simp [Tab.size, hnoms, hcv], ?_⟩
        rw [ho.num, h.count, hnum, Multiset.card_replicate]

theorem summarizes3_exact {hid : A → Bool} {s : Stats3 A V} {m : Multiset (Inst3 A V)}
    {i : Inst3 A V} (h : Summarizes3 s m) (hm : m ≠ 0) (hi : Dict.Nodup i) :
    s.isExact hid i = true ↔ ∀ j ∈ m, SameVisible hid i j := by
  simp only [Stats3.isExact, Bool.and_eq_true, List.all_eq_true, Bool.or_eq_true]
  constructor
  · rintro ⟨h1, h2⟩ j hj a ha
    cases hia : Dict.get? i a with
    | some v =>
      have := h1 (a, v) (Dict.mem_of_get? hia)
      simp only [ha, Bool.false_eq_true, false_or] at this
      cases hg : s.av.get? a with
      | none => rw [hg] at this; cases this
      | some t =>
        rw [hg] at this
        exact ((summarizes3_matches h hm (Dict.mem_of_get? hg) v).1 this j hj).symm
    | none =>
      symm
      by_contra hja
      have hja' : (Dict.get? j a).isSome := by
        cases hx : Dict.get? j a
        · exact absurd hx hja
        · rfl
      rw [Dict.get?_isSome] at hja'
      have hk : a ∈ s.av.keys := (h.attrs a).2 ⟨j, hj, hja'⟩
      obtain ⟨⟨a', t⟩, hp, rfl⟩ := List.mem_map.1 hk
      have := h2 _ hp
      simp only [ha, Bool.false_eq_true, false_or, Dict.has_iff] at this
      exact Dict.get?_eq_none.1 hia this
  · intro hs
    constructor
    · rintro ⟨a, v⟩ hp
      cases ha : hid a with
      | true => exact Or.inl rfl
      | false =>
        right
        have hv := Dict.get?_of_mem hi hp
        obtain ⟨j, hj⟩ := Multiset.exists_mem_of_ne_zero hm
        have hja : a ∈ Dict.keys j := by
          rw [← Dict.get?_isSome, ← hs j hj a ha, hv]; rfl
        have hk : a ∈ s.av.keys := (h.attrs a).2 ⟨j, hj, hja⟩
        obtain ⟨⟨a', t⟩, hp', rfl⟩ := List.mem_map.1 hk
        simp only
        rw [Dict.get?_of_mem h.nodup.1 hp']
        refine (summarizes3_matches h hm hp' v).2 ?_
        intro j hj
        rw [← hs j hj _ ha]; exact hv
    · rintro ⟨a, t⟩ hp
      cases ha : hid a with
      | true => exact Or.inl rfl
      | false =>
        right
        rw [Dict.has_iff]
        obtain ⟨j, hj, hk⟩ := (h.attrs a).1 (List.mem_map.2 ⟨_, hp, rfl⟩)
        rw [← Dict.get?_isSome] at hk ⊢
        rwa [hs j hj a ha]

/-- `Cobweb3Node` is a lawful node class. -/
theorem cobweb3Laws (hid : A → Bool) :
    Laws (cobweb3Class hid : NodeClass (Inst3 A V) (Stats3 A V)) Dict.Nodup Summarizes3
      (SameVisible hid) where
  fresh := summarizes3_fresh
  incr := summarizes3_incr
  add := summarizes3_add
  count h := h.count
  copy h := addFrom_fresh3 h
  exact := summarizes3_exact
  refl _ _ _ := rfl
  symm h a ha := (h a ha).symm
  trans h h' a ha := (h a ha).trans (h' a ha)

end CF
