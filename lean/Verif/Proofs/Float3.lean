/-
`Cobweb3Node` in floating point satisfies the laws of `Verif.Proofs.Tables`.
-/
import Verif.Spec.Float3
import Verif.Proofs.Cobweb3
import Verif.Proofs.ArithTotal
import Verif.Props.FloatCV
import Verif.Props.Score

set_option linter.unusedSectionVars false

namespace CF
variable {A B V : Type} [DecidableEq A] [DecidableEq B] [DecidableEq V] {R : Rounding} {hid : A → Bool}

/-! ### Accumulators -/

/-- `combine` does not raise and leaves `joinF`, unless both accumulators are empty. -/
theorem combineF_eq_joinF (c d : CV ℝ) (hn : c.num + d.num ≠ 0) :
    CV.combineF R.fl c d = .ok (CV.joinF R.fl c d) := by
  have hN : 1 ≤ R.fl (natF R.fl c.num + natF R.fl d.num) := by
    refine R.le_fl .one ?_
    have h1 := R.natF_nonneg c.num
    have h2 := R.natF_nonneg d.num
    rcases Nat.eq_zero_or_pos c.num with h | h
    · have := R.one_le_natF (n := d.num) (by omega); linarith
    · have := R.one_le_natF (n := c.num) h; linarith
  have hN0 : R.fl (natF R.fl c.num + natF R.fl d.num) ≠ 0 := by linarith
  simp [CV.combineF, CV.joinF, divF, hN0, ok_bind]

theorem CV.Sound.join {c d : CV ℝ} (hc : c.Sound) (hd : d.Sound) (hn : c.num + d.num ≠ 0) :
    (CV.joinF R.fl c d).Sound ∧ (CV.joinF R.fl c d).num = c.num + d.num := by
  obtain ⟨r, s, h1, -, h2, -⟩ := C92_combine_defined_partial (R := R) hc.nonneg hd.nonneg hn
  rw [combineF_eq_joinF c d hn] at h1
  cases h1
  exact ⟨⟨R.float _, R.float _, h2⟩, rfl⟩

/-! ### Tables -/

theorem counts3_fresh : Counts3 (Stats3.fresh : Stats3 A V) 0 where
  count := rfl
  noms := by intro a v; simp [Stats3.nomLookup, Stats3.fresh, occ]
  cv := by intro a; left; simp [Stats3.cvOf, Stats3.fresh]
  attrs := by intro a; simp [Stats3.fresh]
  nodup := by simp [Stats3.fresh]

section
variable (fl : ℝ → ℝ)

theorem get?_incrF (s : Stats3 A V) {i : Inst3 A V} (hi : Dict.Nodup i) (a : A) :
    (Stats3.incrF fl s i).av.get? a = match Dict.get? i a with
      | none => s.av.get? a
      | some v => some (Tab.addF fl ((s.av.get? a).getD Tab.empty) v) := by
  simp only [Stats3.incrF]
  rw [Dict.get?_updAll _ _ hi]; cases Dict.get? i a <;> rfl

theorem get?_addFromF (s n : Stats3 A V) (hn : n.av.Nodup) (a : A) :
    (Stats3.addFromF fl s n).av.get? a = match n.av.get? a with
      | none => s.av.get? a
      | some t => some (Tab.mergeF fl ((s.av.get? a).getD Tab.empty) t) := by
  simp only [Stats3.addFromF]
  rw [Dict.get?_updAll _ _ hn]; cases n.av.get? a <;> rfl

theorem nomLookup_incrF (s : Stats3 A V) {i : Inst3 A V} (hi : Dict.Nodup i) (a : A) (v : V) :
    (Stats3.incrF fl s i).nomLookup a v = if Dict.get? i a = some (.nom v)
      then some ((s.nomLookup a v).getD 0 + 1) else s.nomLookup a v := by
  rw [Stats3.nomLookup, get?_incrF fl s hi]
  cases h : Dict.get? i a with
  | none => simp [Stats3.nomLookup]
  | some x =>
    simp only [Option.bind_some]
    cases x with
    | num x => simp only [Tab.addF]; rw [nomLookup_getD]; simp
    | nom u =>
      simp only [Tab.addF, Dict.get?_set]
      by_cases hu : u = v
      · subst hu; rw [nomLookup_getD]; simp
      · have hv : ¬ (some (Val.nom u) = some (Val.nom v)) := by
          intro he; cases he; exact hu rfl
        rw [if_neg hu, if_neg hv, nomLookup_getD]

theorem cvOf_incrF (s : Stats3 A V) {i : Inst3 A V} (hi : Dict.Nodup i) (a : A) :
    (Stats3.incrF fl s i).cvOf a = match (Dict.get? i a).bind Val.num? with
      | none => s.cvOf a
      | some x => some (CV.updateF fl ((s.cvOf a).getD CV.fresh) x) := by
  rw [Stats3.cvOf, get?_incrF fl s hi]
  cases h : Dict.get? i a with
  | none => simp [Stats3.cvOf]
  | some x =>
    simp only [Option.bind_some]
    cases x with
    | num x => simp only [Tab.addF, Val.num?]; rw [cvOf_getD]
    | nom u => simp only [Tab.addF, Val.num?]; rw [cvOf_getD]

theorem keys_incrF (s : Stats3 A V) {i : Inst3 A V} (hi : Dict.Nodup i) (a : A) :
    a ∈ (Stats3.incrF fl s i).av.keys ↔ a ∈ s.av.keys ∨ a ∈ Dict.keys i := by
  rw [← Dict.get?_isSome, ← Dict.get?_isSome, ← Dict.get?_isSome, get?_incrF fl s hi]
  cases h : Dict.get? i a <;> simp

theorem nomLookup_addFromF (s n : Stats3 A V) (hn : n.av.Nodup)
    (hn' : ∀ p ∈ n.av, Dict.Nodup p.2.noms) (a : A) (v : V) :
    (Stats3.addFromF fl s n).nomLookup a v =
      match n.nomLookup a v with
      | none => s.nomLookup a v
      | some c => some ((s.nomLookup a v).getD 0 + c) := by
  rw [Stats3.nomLookup, get?_addFromF fl s n hn]
  unfold Stats3.nomLookup
  cases h : n.av.get? a with
  | none => simp
  | some t =>
    simp only [Option.bind_some, Tab.mergeF]
    rw [get?_addTab _ _ (hn' _ (Dict.mem_of_get? h))]
    have := nomLookup_getD s a v
    unfold Stats3.nomLookup at this
    rw [this]
    cases h2 : t.noms.get? v <;> simp

theorem cvOf_addFromF (s n : Stats3 A V) (hn : n.av.Nodup) (a : A) :
    (Stats3.addFromF fl s n).cvOf a = match n.cvOf a with
      | none => s.cvOf a
      | some d => some (CV.joinF fl ((s.cvOf a).getD CV.fresh) d) := by
  rw [Stats3.cvOf, get?_addFromF fl s n hn]
  unfold Stats3.cvOf
  cases h : n.av.get? a with
  | none => simp
  | some t =>
    simp only [Option.bind_some, Tab.mergeF]
    have := cvOf_getD s a
    unfold Stats3.cvOf at this
    rw [this]
    cases t.cv <;> rfl

theorem keys_addFromF (s n : Stats3 A V) (hn : n.av.Nodup) (a : A) :
    a ∈ (Stats3.addFromF fl s n).av.keys ↔ a ∈ s.av.keys ∨ a ∈ n.av.keys := by
  rw [← Dict.get?_isSome, ← Dict.get?_isSome, ← Dict.get?_isSome, get?_addFromF fl s n hn]
  cases h : n.av.get? a <;> simp

end

theorem num?_none {i : Inst3 A V} {a : A} (hx : ∀ x, Dict.get? i a ≠ some (.num x)) :
    (Dict.get? i a).bind Val.num? = none := by
  cases hg : Dict.get? i a with
  | none => rfl
  | some v =>
    cases v with
    | nom v => rfl
    | num x => exact absurd hg (hx x)

theorem counts3_incr {s : Stats3 A V} {m : Multiset (Inst3 A V)} {i : Inst3 A V}
    (h : Counts3 s m) (hi : FloatInst i) : Counts3 (Stats3.incrF R.fl s i) (i ::ₘ m) where
  count := by simp [Stats3.incrF, h.count]
  noms := by
    intro a v
    rw [nomLookup_incrF R.fl s hi.nodup, h.noms]
    by_cases hv : Dict.get? i a = some (.nom v)
    · rw [occ_cons_of_pos hv]
      by_cases h0 : occ m a (.nom v) = 0 <;> simp [hv, h0]
    · rw [occ_cons_of_neg hv]; simp [hv]
  cv := by
    intro a
    rw [cvOf_incrF R.fl s hi.nodup]
    by_cases hx : ∃ x, Dict.get? i a = some (.num x)
    · obtain ⟨x, hx⟩ := hx
      right
      rw [nums_cons_num hx, hx]
      refine ⟨by simp, _, rfl, ?_⟩
      rcases h.cv a with ⟨h0, hc⟩ | ⟨h0, c, hc, hn, ho⟩
      · rw [hc, h0]
        exact ⟨rfl, CV.Sound.fresh.update (fun _ => rfl) (hi.nums a x hx)⟩
      · rw [hc]
        refine ⟨by simp [CV.updateF, hn], ho.update (fun hz => ?_) (hi.nums a x hx)⟩
        rw [hn] at hz
        exact absurd (Multiset.card_eq_zero.1 hz) h0
    · push Not at hx
      rw [nums_cons_other hx, num?_none hx]; exact h.cv a
  attrs := by
    intro a
    rw [keys_incrF R.fl s hi.nodup, h.attrs]
    simp [or_comm]
  nodup := by
    dsimp only [Stats3.incrF]
    constructor
    · exact Dict.nodup_updAll _ _ h.nodup.1
    · apply forall_updAll (P := fun t : Tab V => Dict.Nodup t.noms) _ _ _ h.nodup.2
      intro o x ho
      have h0 : Dict.Nodup (o.getD Tab.empty).noms := by
        cases o with
        | none => simp [Tab.empty]
        | some t => exact ho t rfl
      cases x with
      | num x => exact h0
      | nom v => exact Dict.nodup_set h0 _ _

theorem counts3_add {s n : Stats3 A V} {m k : Multiset (Inst3 A V)}
    (h : Counts3 s m) (hn : Counts3 n k) : Counts3 (Stats3.addFromF R.fl s n) (m + k) where
  count := by simp [Stats3.addFromF, h.count, hn.count]
  noms := by
    intro a v
    rw [nomLookup_addFromF R.fl s n hn.nodup.1 hn.nodup.2, h.noms, hn.noms]
    have e : occ (m + k) a (.nom v) = occ m a (.nom v) + occ k a (.nom v) := by simp [occ]
    rw [e]
    by_cases h0 : occ m a (.nom v) = 0 <;> by_cases h1 : occ k a (.nom v) = 0 <;> simp [h0, h1]
  cv := by
    intro a
    rw [cvOf_addFromF R.fl s n hn.nodup.1, nums_add]
    rcases hn.cv a with ⟨h0, hc⟩ | ⟨h0, d, hc, hnd, hsd⟩
    · rw [hc, h0, add_zero]; exact h.cv a
    · right
      rw [hc]
      have hd0 : d.num ≠ 0 := by rw [hnd]; simpa using h0
      refine ⟨by intro hz; exact h0 (by simpa using (add_eq_zero.1 hz).2), _, rfl, ?_⟩
      rcases h.cv a with ⟨h1, hc1⟩ | ⟨-, c, hc1, hnc, hsc⟩
      · rw [hc1, h1]
        obtain ⟨e1, e2⟩ := CV.Sound.fresh.join (R := R) hsd (by simp [CV.fresh, hd0])
        exact ⟨by simpa [CV.fresh, hnd] using e2, e1⟩
      · rw [hc1]
        obtain ⟨e1, e2⟩ := hsc.join (R := R) hsd (by omega)
        exact ⟨by simpa [hnd, hnc] using e2, e1⟩
  attrs := by
    intro a
    rw [keys_addFromF R.fl s n hn.nodup.1, h.attrs, hn.attrs]
    simp only [Multiset.mem_add, or_and_right, exists_or]
  nodup := by
    dsimp only [Stats3.addFromF]
    constructor
    · exact Dict.nodup_updAll _ _ h.nodup.1
    · apply forall_updAll (P := fun t : Tab V => Dict.Nodup t.noms) _ _ _ h.nodup.2
      intro o x ho
      dsimp only [Tab.mergeF]
      apply Dict.nodup_updAll
      cases o with
      | none => simp [Tab.empty]
      | some t => exact ho t rfl

/-! ### Tables built instance by instance -/

/-- The numbers of the attribute in the order of the instances. -/
def numList (l : List (Inst3 A V)) (a : A) : List ℝ := l.filterMap fun i => (Dict.get? i a).bind Val.num?

theorem numList_coe (l : List (Inst3 A V)) (a : A) : (numList l a : Multiset ℝ) = nums (l : Multiset (Inst3 A V)) a := by
  simp [numList, nums]

theorem built_cvOf {l : List (Inst3 A V)} (hl : ∀ j ∈ l, FloatInst j) (a : A) :
    ((cobweb3ClassF R.fl hid).built l).cvOf a =
      if numList l a = [] then none else some (CV.updateBatchF R.fl CV.fresh (numList l a)) := by
  induction l using List.reverseRecOn with
  | nil => simp [NodeClass.built, numList, cobweb3ClassF, Stats3.fresh, Stats3.cvOf]
  | append_singleton l i ih =>
    have ih := ih fun j hj => hl j (by simp [hj])
    rw [NodeClass.built_append]
    change (Stats3.incrF R.fl _ i).cvOf a = _
    rw [cvOf_incrF R.fl _ (hl i (by simp)).nodup, ih]
    have e : numList (l ++ [i]) a = numList l a ++ ((Dict.get? i a).bind Val.num?).toList := by
      simp only [numList, List.filterMap_append, List.append_cancel_left_eq]
      cases h : (Dict.get? i a).bind Val.num? with
      | none => exact List.filterMap_cons_none (f := fun i : Inst3 A V => (Dict.get? i a).bind Val.num?) h
      | some x => exact List.filterMap_cons_some (f := fun i : Inst3 A V => (Dict.get? i a).bind Val.num?) h
    rw [e]
    cases h : (Dict.get? i a).bind Val.num? with
    | none => simp
    | some x =>
      simp only [Option.toList_some, List.append_eq_nil_iff, List.cons_ne_self, and_false, if_false,
        updateBatchF_append]
      by_cases h0 : numList l a = []
      · simp [h0, CV.updateBatchF]
      · simp [h0]


theorem counts3_built {l : List (Inst3 A V)} (hl : ∀ j ∈ l, FloatInst j) :
    Counts3 ((cobweb3ClassF R.fl hid).built l) (l : Multiset (Inst3 A V)) := by
  induction l using List.reverseRecOn with
  | nil => exact counts3_fresh
  | append_singleton l i ih =>
    rw [NodeClass.built_append, ← Multiset.coe_add, add_comm, Multiset.coe_singleton, Multiset.singleton_add]
    exact counts3_incr (ih fun j hj => hl j (by simp [hj])) (hl i (by simp))

theorem Counts3.cv_of_mem {s : Stats3 A V} {m : Multiset (Inst3 A V)} (h : Counts3 s m)
    {a : A} {t : Tab V} (ht : (a, t) ∈ s.av) {c : CV ℝ} (hc : t.cv = some c) :
    nums m a ≠ 0 ∧ c.num = Multiset.card (nums m a) ∧ c.Sound := by
  have hg : s.cvOf a = some c := by
    rw [Stats3.cvOf, Dict.get?_of_mem h.nodup.1 ht]; exact hc
  rcases h.cv a with ⟨-, h1⟩ | ⟨h0, d, h1, ho⟩
  · rw [hg] at h1; cases h1
  · rw [hg] at h1; cases h1; exact ⟨h0, ho⟩

theorem Counts3.noms_of_mem {s : Stats3 A V} {m : Multiset (Inst3 A V)} (h : Counts3 s m)
    {a : A} {t : Tab V} (ht : (a, t) ∈ s.av) (v : V) :
    t.noms.get? v = if occ m a (.nom v) = 0 then none else some (occ m a (.nom v)) := by
  rw [← h.noms, Stats3.nomLookup, Dict.get?_of_mem h.nodup.1 ht]; rfl

/-- When all instances have the number `x`, the accumulator has it as its mean, and no squared error. -/
theorem built_constant {l : List (Inst3 A V)} (hl : ∀ j ∈ l, FloatInst j) (hne : l ≠ []) {a : A} {x : ℝ}
    (hx : ∀ j ∈ l, Dict.get? j a = some (.num x)) :
    numList l a = List.replicate l.length x ∧
    ∃ c, ((cobweb3ClassF R.fl hid).built l).cvOf a = some c ∧ c.num = l.length ∧ c.mean = x ∧ c.meanSq = 0 := by
  have e : numList l a = List.replicate l.length x := by
    clear hne
    induction l with
    | nil => rfl
    | cons i l ih =>
      have h1 : (Dict.get? i a).bind Val.num? = some x := by rw [hx i (by simp)]; rfl
      rw [List.length_cons, List.replicate_succ,
        ← ih (fun j hj => hl j (by simp [hj])) fun j hj => hx j (by simp [hj])]
      exact List.filterMap_cons_some (f := fun i : Inst3 A V => (Dict.get? i a).bind Val.num?) h1
  have h0 : l.length ≠ 0 := by simpa using hne
  obtain ⟨j, hj⟩ := List.exists_mem_of_ne_nil l hne
  have hf : IsFloat x := (hl j hj).nums a x (hx j hj)
  refine ⟨e, CV.updateBatchF R.fl CV.fresh (List.replicate l.length x), ?_, ?_, ?_, batchF_constant_sq hf _⟩
  · rw [built_cvOf hl, e, if_neg (by simpa using h0)]
  · simp [updateBatchF_num, CV.fresh]
  · obtain ⟨h3, h4⟩ := C91_mean_between (R := R) (xs := List.replicate l.length x) (lo := x) (hi := x)
      (fun y hy => by rwa [List.eq_of_mem_replicate hy]) (by simpa using h0)
      (fun y hy => by rw [List.eq_of_mem_replicate hy]; simp)
    exact le_antisymm h4 h3

theorem built_matchesF {l : List (Inst3 A V)} (hl : ∀ j ∈ l, FloatInst j) (hne : l ≠ []) {a : A}
    (hp : ∀ j ∈ l, ∀ k ∈ l, Dict.get? j a = Dict.get? k a) {t : Tab V}
    (ht : (a, t) ∈ ((cobweb3ClassF R.fl hid).built l).av) (v : Val V) :
    Tab.matchesF R.fl ((cobweb3ClassF R.fl hid).built l).count t v = true ↔ ∀ j ∈ l, Dict.get? j a = some v := by
  have h := counts3_built (R := R) (hid := hid) hl
  generalize hs : (cobweb3ClassF R.fl hid).built l = s at *
  have hg := Dict.get?_of_mem h.nodup.1 ht
  have hm : (l : Multiset (Inst3 A V)) ≠ 0 := by simpa using hne
  have hc : Multiset.card (l : Multiset (Inst3 A V)) ≠ 0 := by simpa using hne
  cases v with
  | nom v =>
    simp only [Tab.matchesF]
    rw [h.noms_of_mem ht]
    have := occ_eq_card (m := (l : Multiset (Inst3 A V))) (a := a) (v := .nom v)
    simp only [Multiset.mem_coe] at this
    rw [← this]
    by_cases h0 : occ (l : Multiset (Inst3 A V)) a (.nom v) = 0
    · simp only [h0, if_true]
      constructor
      · intro hf; cases hf
      · intro hf; exact absurd hf.symm hc
    · simp only [h0, if_false, beq_iff_eq, h.count]
  | num x =>
    simp only [Tab.matchesF]
    constructor
    · intro hmt
      cases hcv : t.cv with
      | none => rw [hcv] at hmt; cases hmt
      | some c =>
        rw [hcv] at hmt
        obtain ⟨-, hn, -⟩ := h.cv_of_mem ht hcv
        simp only at hmt
        split at hmt
        · cases hmt
        rename_i h1
        split at hmt
        · cases hmt
        split at hmt
        · cases hmt
        rename_i h3
        push Not at h1 h3
        rw [hn, h.count] at h1
        have hall := card_nums_eq.1 h1.2
        simp only [Multiset.mem_coe] at hall
        obtain ⟨j, hj⟩ := List.exists_mem_of_ne_nil l hne
        obtain ⟨y, hy⟩ := hall j hj
        obtain ⟨-, d, hd, -, hmean, -⟩ := built_constant (R := R) (hid := hid) hl hne
          (fun k hk => (hp k hk j hj).trans hy)
        rw [hs, Stats3.cvOf, hg] at hd
        simp only [Option.bind_some, hcv, Option.some.injEq] at hd
        subst hd
        rw [CV.unbiasedMean, hmean] at h3
        subst h3
        exact fun k hk => (hp k hk j hj).trans hy
    · intro hall
      obtain ⟨-, c, hcv, hnum, hmean, hsq⟩ := built_constant (R := R) (hid := hid) hl hne hall
      rw [hs, Stats3.cvOf, hg] at hcv
      simp only [Option.bind_some] at hcv
      have hnoms : t.noms = [] := by
        cases hn : t.noms with
        | nil => rfl
        | cons p l' =>
          exfalso
          have hp : t.noms.get? p.1 = some p.2 := by rw [hn]; obtain ⟨a1, b1⟩ := p; exact if_pos rfl
          rw [h.noms_of_mem ht] at hp
          split at hp
          · cases hp
          · rename_i ho
            obtain ⟨j, hj, hjv⟩ := Multiset.countP_pos.1 (Nat.pos_of_ne_zero ho)
            rw [hall j (by simpa using hj)] at hjv
            cases hjv
      rw [hcv]
      simp only
      rw [if_neg, if_neg, if_neg]
      · rw [not_not, CV.unbiasedMean, hmean]
      · rw [not_not, unbiasedStdF_zero hsq]
      · push Not
        refine ⟨by simp [Tab.size, hnoms, hcv], ?_⟩
        rw [hnum, h.count, Multiset.coe_card]

theorem built_exactF {l : List (Inst3 A V)} {i : Inst3 A V} (hne : l ≠ []) (hl : ∀ j ∈ l, FloatInst j)
    (hp : ∀ j ∈ l, ∀ k ∈ l, SameVisible hid j k) (hi : FloatInst i) :
    Stats3.isExactF R.fl hid ((cobweb3ClassF R.fl hid).built l) i = true ↔ ∀ j ∈ l, SameVisible hid i j := by
  have h := counts3_built (R := R) (hid := hid) hl
  have hmt := fun (a : A) (ha : hid a = false) (t : Tab V) (ht : (a, t) ∈ ((cobweb3ClassF R.fl hid).built l).av) =>
    built_matchesF hl hne (fun j hj k hk => hp j hj k hk a ha) ht
  generalize (cobweb3ClassF R.fl hid).built l = s at *
  simp only [Stats3.isExactF, Bool.and_eq_true, List.all_eq_true, Bool.or_eq_true]
  constructor
  · rintro ⟨h1, h2⟩ j hj a ha
    cases hia : Dict.get? i a with
    | some v =>
      have := h1 (a, v) (Dict.mem_of_get? hia)
      simp only [ha, Bool.false_eq_true, false_or] at this
      cases hg : s.av.get? a with
      | none => rw [hg] at this; cases this
      | some t =>
        rw [hg] at this
        exact ((hmt a ha t (Dict.mem_of_get? hg) v).1 this j hj).symm
    | none =>
      symm
      by_contra hja
      have hja' : (Dict.get? j a).isSome := by
        cases hx : Dict.get? j a
        · exact absurd hx hja
        · rfl
      rw [Dict.get?_isSome] at hja'
      have hk : a ∈ s.av.keys := (h.attrs a).2 ⟨j, by simpa using hj, hja'⟩
      obtain ⟨⟨a', t⟩, hp, rfl⟩ := List.mem_map.1 hk
      have := h2 _ hp
      simp only [ha, Bool.false_eq_true, false_or, Dict.has_iff] at this
      exact Dict.get?_eq_none.1 hia this
  · intro hs
    constructor
    · rintro ⟨a, v⟩ hpv
      cases ha : hid a with
      | true => exact Or.inl rfl
      | false =>
        right
        have hv := Dict.get?_of_mem hi.nodup hpv
        obtain ⟨j, hj⟩ := List.exists_mem_of_ne_nil l hne
        have hja : a ∈ Dict.keys j := by
          rw [← Dict.get?_isSome, ← hs j hj a ha, hv]; rfl
        have hk : a ∈ s.av.keys := (h.attrs a).2 ⟨j, by simpa using hj, hja⟩
        obtain ⟨⟨a', t⟩, hp', rfl⟩ := List.mem_map.1 hk
        simp only
        rw [Dict.get?_of_mem h.nodup.1 hp']
        refine (hmt _ ha t hp' v).2 ?_
        intro j hj
        rw [← hs j hj _ ha]; exact hv
    · rintro ⟨a, t⟩ hpt
      cases ha : hid a with
      | true => exact Or.inl rfl
      | false =>
        right
        rw [Dict.has_iff]
        obtain ⟨j, hj, hk⟩ := (h.attrs a).1 (List.mem_map.2 ⟨_, hpt, rfl⟩)
        rw [← Dict.get?_isSome] at hk ⊢
        rwa [hs j (by simpa using hj) a ha]

/-- `Cobweb3Node` in floating point has the laws of `Verif.Proofs.Tables`. -/
theorem cobweb3LawsF (R : Rounding) (hid : A → Bool) :
    TableLaws (cobweb3ClassF R.fl hid : NodeClass (Inst3 A V) (Stats3 A V)) FloatInst Counts3
      (SameVisible hid) where
  fresh := counts3_fresh
  incr := counts3_incr
  add := counts3_add
  count h := h.count
  exact h1 h2 h3 h4 := (built_exactF h1 h2 h3 h4).1
  refl _ _ _ := rfl
  symm h a ha := (h a ha).symm
  trans h h' a ha := (h a ha).trans (h' a ha)

end CF
