/-
`Cobweb3Node` with all Python floats satisfies the laws of `Verif.Proofs.Tables`.
-/
import Verif.Proofs.ExtFloat
import Verif.Proofs.Cobweb3
import Verif.Proofs.ArithTotal

set_option linter.unusedSectionVars false

namespace CF
variable {A B V : Type} [DecidableEq A] [DecidableEq B] [DecidableEq V] {R : Rounding} {hid : A → Bool}
variable {X : XF → Prop} {P : CV XF → Prop}

/-- Numbers with the property `X` leave accumulators with the property `P`. -/
structure KeepsX (R : Rounding) (X : XF → Prop) (P : CV XF → Prop) : Prop where
  valid {x} : X x → x.Valid
  fresh : P CV.freshX
  update {c x} : P c → X x → P (CV.updateX R.fl c x)
  join {c d} : P c → P d → c.num + d.num ≠ 0 → P (CV.joinX R.fl c d)

theorem keeps_any {X : XF → Prop} (h : ∀ x, X x → x.Valid) : KeepsX R X AnyCV :=
  ⟨fun {x} => h x, trivial, fun _ _ => trivial, fun _ _ _ => trivial⟩

theorem keeps_sound : KeepsX R XF.Moderate CV.SoundX where
  valid {x} h := by
    cases x with
    | fin x => exact ⟨h.1, lt_trans h.2 (by linarith [big_gt])⟩
    | inf s => trivial
    | nan => trivial
  fresh := .fresh
  update h hx := h.update hx
  join h h' hn := h.join h' hn

/-! ### Multisets of numbers -/

theorem numsX_add (m k : Multiset (XInst A V)) (a : A) : numsX (m + k) a = numsX m a + numsX k a := by
  simp [numsX, Multiset.filterMap_add]

theorem numsX_cons_num {m : Multiset (XInst A V)} {i : XInst A V} {a : A} {x : XF}
    (h : Dict.get? i a = some (.num x)) : numsX (i ::ₘ m) a = x ::ₘ numsX m a := by
  unfold numsX; rw [Multiset.filterMap_cons_some]; simp [h, XVal.num?]

theorem numX?_none {i : XInst A V} {a : A} (hx : ∀ x, Dict.get? i a ≠ some (.num x)) :
    (Dict.get? i a).bind XVal.num? = none := by
  cases hg : Dict.get? i a with
  | none => rfl
  | some v =>
    cases v with
    | nom v => rfl
    | num x => exact absurd hg (hx x)

theorem numsX_cons_other {m : Multiset (XInst A V)} {i : XInst A V} {a : A}
    (h : ∀ x, Dict.get? i a ≠ some (.num x)) : numsX (i ::ₘ m) a = numsX m a := by
  unfold numsX; rw [Multiset.filterMap_cons_none]; exact numX?_none h

theorem nomLookupX_getD (s : XStats A V) (a : A) (v : V) :
    (((s.av.get? a).getD XTab.empty).noms.get? v) = s.nomLookup a v := by
  unfold XStats.nomLookup; cases s.av.get? a <;> simp [XTab.empty]

theorem cvOfX_getD (s : XStats A V) (a : A) : ((s.av.get? a).getD XTab.empty).cv = s.cvOf a := by
  unfold XStats.cvOf; cases s.av.get? a <;> simp [XTab.empty]

/-! ### Tables -/

theorem countsX_fresh : CountsX P (XStats.fresh : XStats A V) 0 where
  count := rfl
  noms := by intro a v; simp [XStats.nomLookup, XStats.fresh, occ]
  cv := by intro a; left; simp [XStats.cvOf, XStats.fresh, numsX]
  attrs := by intro a; simp [XStats.fresh]
  nodup := by simp [XStats.fresh]

section
variable (fl : ℝ → ℝ)

theorem get?X_incr (s : XStats A V) {i : XInst A V} (hi : Dict.Nodup i) (a : A) :
    (XStats.incr fl s i).av.get? a = match Dict.get? i a with
      | none => s.av.get? a
      | some v => some (XTab.add fl ((s.av.get? a).getD XTab.empty) v) := by
  simp only [XStats.incr]
  rw [Dict.get?_updAll _ _ hi]; cases Dict.get? i a <;> rfl

theorem get?X_addFrom (s n : XStats A V) (hn : n.av.Nodup) (a : A) :
    (XStats.addFrom fl s n).av.get? a = match n.av.get? a with
      | none => s.av.get? a
      | some t => some (XTab.merge fl ((s.av.get? a).getD XTab.empty) t) := by
  simp only [XStats.addFrom]
  rw [Dict.get?_updAll _ _ hn]; cases n.av.get? a <;> rfl

theorem nomLookupX_incr (s : XStats A V) {i : XInst A V} (hi : Dict.Nodup i) (a : A) (v : V) :
    (XStats.incr fl s i).nomLookup a v = if Dict.get? i a = some (.nom v)
      then some ((s.nomLookup a v).getD 0 + 1) else s.nomLookup a v := by
  rw [XStats.nomLookup, get?X_incr fl s hi]
  cases h : Dict.get? i a with
  | none => simp [XStats.nomLookup]
  | some x =>
    simp only [Option.bind_some]
    cases x with
    | num x => simp only [XTab.add]; rw [nomLookupX_getD]; simp
    | nom u =>
      simp only [XTab.add, Dict.get?_set]
      by_cases hu : u = v
      · subst hu; rw [nomLookupX_getD]; simp
      · have hv : ¬ (some (XVal.nom u) = some (XVal.nom v)) := by
          intro he; cases he; exact hu rfl
        rw [if_neg hu, if_neg hv, nomLookupX_getD]

theorem cvOfX_incr (s : XStats A V) {i : XInst A V} (hi : Dict.Nodup i) (a : A) :
    (XStats.incr fl s i).cvOf a = match (Dict.get? i a).bind XVal.num? with
      | none => s.cvOf a
      | some x => some (CV.updateX fl ((s.cvOf a).getD CV.freshX) x) := by
  rw [XStats.cvOf, get?X_incr fl s hi]
  cases h : Dict.get? i a with
  | none => simp [XStats.cvOf]
  | some x =>
    simp only [Option.bind_some]
    cases x with
    | num x => simp only [XTab.add, XVal.num?]; rw [cvOfX_getD]
    | nom u => simp only [XTab.add, XVal.num?]; rw [cvOfX_getD]

theorem keysX_incr (s : XStats A V) {i : XInst A V} (hi : Dict.Nodup i) (a : A) :
    a ∈ (XStats.incr fl s i).av.keys ↔ a ∈ s.av.keys ∨ a ∈ Dict.keys i := by
  rw [← Dict.get?_isSome, ← Dict.get?_isSome, ← Dict.get?_isSome, get?X_incr fl s hi]
  cases h : Dict.get? i a <;> simp

theorem nomLookupX_addFrom (s n : XStats A V) (hn : n.av.Nodup)
    (hn' : ∀ p ∈ n.av, Dict.Nodup p.2.noms) (a : A) (v : V) :
    (XStats.addFrom fl s n).nomLookup a v =
      match n.nomLookup a v with
      | none => s.nomLookup a v
      | some c => some ((s.nomLookup a v).getD 0 + c) := by
  rw [XStats.nomLookup, get?X_addFrom fl s n hn]
  unfold XStats.nomLookup
  cases h : n.av.get? a with
  | none => simp
  | some t =>
    simp only [Option.bind_some, XTab.merge]
    rw [get?_addTab _ _ (hn' _ (Dict.mem_of_get? h))]
    have := nomLookupX_getD s a v
    unfold XStats.nomLookup at this
    rw [this]
    cases h2 : t.noms.get? v <;> simp

theorem cvOfX_addFrom (s n : XStats A V) (hn : n.av.Nodup) (a : A) :
    (XStats.addFrom fl s n).cvOf a = match n.cvOf a with
      | none => s.cvOf a
      | some d => some (CV.joinX fl ((s.cvOf a).getD CV.freshX) d) := by
  rw [XStats.cvOf, get?X_addFrom fl s n hn]
  unfold XStats.cvOf
  cases h : n.av.get? a with
  | none => simp
  | some t =>
    simp only [Option.bind_some, XTab.merge]
    have := cvOfX_getD s a
    unfold XStats.cvOf at this
    rw [this]
    cases t.cv <;> rfl

theorem keysX_addFrom (s n : XStats A V) (hn : n.av.Nodup) (a : A) :
    a ∈ (XStats.addFrom fl s n).av.keys ↔ a ∈ s.av.keys ∨ a ∈ n.av.keys := by
  rw [← Dict.get?_isSome, ← Dict.get?_isSome, ← Dict.get?_isSome, get?X_addFrom fl s n hn]
  cases h : n.av.get? a <;> simp

end

theorem countsX_incr {s : XStats A V} {m : Multiset (XInst A V)} {i : XInst A V}
    (h : CountsX P s m) (K : KeepsX R X P) (hi : XInstOk X i) : CountsX P (XStats.incr R.fl s i) (i ::ₘ m) where
  count := by simp [XStats.incr, h.count]
  noms := by
    intro a v
    rw [nomLookupX_incr R.fl s hi.nodup, h.noms]
    by_cases hv : Dict.get? i a = some (.nom v)
    · rw [occ_cons_of_pos hv]
      by_cases h0 : occ m a (.nom v) = 0 <;> simp [hv, h0]
    · rw [occ_cons_of_neg hv]; simp [hv]
  cv := by
    intro a
    rw [cvOfX_incr R.fl s hi.nodup]
    by_cases hx : ∃ x, Dict.get? i a = some (.num x)
    · obtain ⟨x, hx⟩ := hx
      right
      rw [numsX_cons_num hx, hx]
      refine ⟨by simp, _, rfl, ?_⟩
      rcases h.cv a with ⟨h0, hc⟩ | ⟨h0, c, hc, hn, ho⟩
      · rw [hc, h0]
        exact ⟨rfl, K.update K.fresh (hi.nums a x hx)⟩
      · rw [hc]
        exact ⟨by simp [CV.updateX, hn], K.update ho (hi.nums a x hx)⟩
    · push Not at hx
      rw [numsX_cons_other hx, numX?_none hx]; exact h.cv a
  attrs := by
    intro a
    rw [keysX_incr R.fl s hi.nodup, h.attrs]
    simp [or_comm]
  nodup := by
    dsimp only [XStats.incr]
    constructor
    · exact Dict.nodup_updAll _ _ h.nodup.1
    · apply forall_updAll (P := fun t : XTab V => Dict.Nodup t.noms) _ _ _ h.nodup.2
      intro o x ho
      have h0 : Dict.Nodup (o.getD XTab.empty).noms := by
        cases o with
        | none => simp [XTab.empty]
        | some t => exact ho t rfl
      cases x with
      | num x => exact h0
      | nom v => exact Dict.nodup_set h0 _ _

theorem countsX_add {s n : XStats A V} {m k : Multiset (XInst A V)} (K : KeepsX R X P)
    (h : CountsX P s m) (hn : CountsX P n k) : CountsX P (XStats.addFrom R.fl s n) (m + k) where
  count := by simp [XStats.addFrom, h.count, hn.count]
  noms := by
    intro a v
    rw [nomLookupX_addFrom R.fl s n hn.nodup.1 hn.nodup.2, h.noms, hn.noms]
    have e : occ (m + k) a (.nom v) = occ m a (.nom v) + occ k a (.nom v) := by simp [occ]
    rw [e]
    by_cases h0 : occ m a (.nom v) = 0 <;> by_cases h1 : occ k a (.nom v) = 0 <;> simp [h0, h1]
  cv := by
    intro a
    rw [cvOfX_addFrom R.fl s n hn.nodup.1, numsX_add]
    rcases hn.cv a with ⟨h0, hc⟩ | ⟨h0, d, hc, hnd, hsd⟩
    · rw [hc, h0, add_zero]; exact h.cv a
    · right
      rw [hc]
      have hd0 : d.num ≠ 0 := by rw [hnd]; simpa using h0
      refine ⟨by intro hz; exact h0 (by simpa using (add_eq_zero.1 hz).2), _, rfl, ?_⟩
      rcases h.cv a with ⟨h1, hc1⟩ | ⟨-, c, hc1, hnc, hsc⟩
      · rw [hc1, h1]
        exact ⟨by simp [CV.joinX, CV.freshX, hnd], K.join K.fresh hsd (by simp [CV.freshX, hd0])⟩
      · rw [hc1]
        exact ⟨by simp [CV.joinX, hnd, hnc], K.join hsc hsd (by omega)⟩
  attrs := by
    intro a
    rw [keysX_addFrom R.fl s n hn.nodup.1, h.attrs, hn.attrs]
    simp only [Multiset.mem_add, or_and_right, exists_or]
  nodup := by
    dsimp only [XStats.addFrom]
    constructor
    · exact Dict.nodup_updAll _ _ h.nodup.1
    · apply forall_updAll (P := fun t : XTab V => Dict.Nodup t.noms) _ _ _ h.nodup.2
      intro o x ho
      dsimp only [XTab.merge]
      apply Dict.nodup_updAll
      cases o with
      | none => simp [XTab.empty]
      | some t => exact ho t rfl


/-! ### Tables built instance by instance -/

/-- The numbers of the attribute in the order of the instances. -/
def numListX (l : List (XInst A V)) (a : A) : List XF := l.filterMap fun i => (Dict.get? i a).bind XVal.num?

theorem builtX_cvOf {l : List (XInst A V)} (hl : ∀ j ∈ l, XInstOk X j) (a : A) :
    ((extClass R.fl hid).built l).cvOf a =
      if numListX l a = [] then none else some (CV.updateBatchX R.fl CV.freshX (numListX l a)) := by
  induction l using List.reverseRecOn with
  | nil => simp [NodeClass.built, numListX, extClass, XStats.fresh, XStats.cvOf]
  | append_singleton l i ih =>
    have ih := ih fun j hj => hl j (by simp [hj])
    rw [NodeClass.built_append]
    change (XStats.incr R.fl _ i).cvOf a = _
    rw [cvOfX_incr R.fl _ (hl i (by simp)).nodup, ih]
    have e : numListX (l ++ [i]) a = numListX l a ++ ((Dict.get? i a).bind XVal.num?).toList := by
      simp only [numListX, List.filterMap_append, List.append_cancel_left_eq]
      cases h : (Dict.get? i a).bind XVal.num? with
      | none => exact List.filterMap_cons_none (f := fun i : XInst A V => (Dict.get? i a).bind XVal.num?) h
      | some x => exact List.filterMap_cons_some (f := fun i : XInst A V => (Dict.get? i a).bind XVal.num?) h
    rw [e]
    cases h : (Dict.get? i a).bind XVal.num? with
    | none => simp
    | some x =>
      simp only [Option.toList_some, List.append_eq_nil_iff, List.cons_ne_self, and_false, if_false,
        updateBatchX_append]
      by_cases h0 : numListX l a = []
      · simp [h0, CV.updateBatchX]
      · simp [h0]

theorem countsX_built (K : KeepsX R X P) {l : List (XInst A V)} (hl : ∀ j ∈ l, XInstOk X j) :
    CountsX P ((extClass R.fl hid).built l) (l : Multiset (XInst A V)) := by
  induction l using List.reverseRecOn with
  | nil => exact countsX_fresh
  | append_singleton l i ih =>
    rw [NodeClass.built_append, ← Multiset.coe_add, add_comm, Multiset.coe_singleton, Multiset.singleton_add]
    exact countsX_incr (ih fun j hj => hl j (by simp [hj])) K (hl i (by simp))

theorem CountsX.cv_of_mem {s : XStats A V} {m : Multiset (XInst A V)} (h : CountsX P s m)
    {a : A} {t : XTab V} (ht : (a, t) ∈ s.av) {c : CV XF} (hc : t.cv = some c) :
    numsX m a ≠ 0 ∧ c.num = Multiset.card (numsX m a) ∧ P c := by
  have hg : s.cvOf a = some c := by
    rw [XStats.cvOf, Dict.get?_of_mem h.nodup.1 ht]; exact hc
  rcases h.cv a with ⟨-, h1⟩ | ⟨h0, d, h1, ho⟩
  · rw [hg] at h1; cases h1
  · rw [hg] at h1; cases h1; exact ⟨h0, ho⟩

theorem CountsX.noms_of_mem {s : XStats A V} {m : Multiset (XInst A V)} (h : CountsX P s m)
    {a : A} {t : XTab V} (ht : (a, t) ∈ s.av) (v : V) :
    t.noms.get? v = if occ m a (.nom v) = 0 then none else some (occ m a (.nom v)) := by
  rw [← h.noms, XStats.nomLookup, Dict.get?_of_mem h.nodup.1 ht]; rfl

theorem card_numsX_eq {m : Multiset (XInst A V)} {a : A} :
    Multiset.card (numsX m a) = Multiset.card m ↔ ∀ j ∈ m, ∃ x, Dict.get? j a = some (.num x) := by
  have hle : ∀ m : Multiset (XInst A V), Multiset.card (numsX m a) ≤ Multiset.card m := by
    intro m
    induction m using Multiset.induction_on with
    | empty => simp [numsX]
    | cons i m ih =>
      by_cases hx : ∃ x, Dict.get? i a = some (.num x)
      · obtain ⟨x, hx⟩ := hx
        rw [numsX_cons_num hx]; simpa using ih
      · push Not at hx
        rw [numsX_cons_other hx]; simp; omega
  induction m using Multiset.induction_on with
  | empty => simp [numsX]
  | cons i m ih =>
    by_cases hx : ∃ x, Dict.get? i a = some (.num x)
    · obtain ⟨x, hx⟩ := hx
      rw [numsX_cons_num hx]
      simp only [Multiset.card_cons, Nat.add_right_cancel_iff, ih, Multiset.mem_cons, forall_eq_or_imp]
      exact ⟨fun h => ⟨⟨x, hx⟩, h⟩, fun h => h.2⟩
    · have hx' := hx
      push Not at hx
      rw [numsX_cons_other hx]
      have := hle m
      constructor
      · intro h; simp at h; omega
      · intro h; exact absurd (h i (by simp)) hx'

theorem occ_eq_cardX {m : Multiset (XInst A V)} {a : A} {v : XVal V} :
    occ m a v = Multiset.card m ↔ ∀ j ∈ m, Dict.get? j a = some v := Multiset.countP_eq_card

/-- When all instances have the number `x`, the accumulator is that of a repeated number. -/
theorem builtX_constant (hX : ∀ x, X x → x.Valid) {l : List (XInst A V)} (hl : ∀ j ∈ l, XInstOk X j) (hne : l ≠ [])
    {a : A} {x : XF} (hx : ∀ j ∈ l, Dict.get? j a = some (.num x)) :
    ((extClass R.fl hid).built l).cvOf a = some (constX l.length x) := by
  have e : numListX l a = List.replicate l.length x := by
    clear hne
    induction l with
    | nil => rfl
    | cons i l ih =>
      have h1 : (Dict.get? i a).bind XVal.num? = some x := by rw [hx i (by simp)]; rfl
      rw [List.length_cons, List.replicate_succ,
        ← ih (fun j hj => hl j (by simp [hj])) fun j hj => hx j (by simp [hj])]
      exact List.filterMap_cons_some (f := fun i : XInst A V => (Dict.get? i a).bind XVal.num?) h1
  have h0 : l.length ≠ 0 := by simpa using hne
  obtain ⟨j, hj⟩ := List.exists_mem_of_ne_nil l hne
  have hf : x.Valid := hX x ((hl j hj).nums a x (hx j hj))
  rw [builtX_cvOf hl, e, if_neg (by simpa using h0), batchX_const hf, if_neg h0]

theorem constX_num (n : ℕ) (x : XF) : (constX n x).num = n := by cases x <;> rfl

theorem same_iff {x y : XF} : x.same y ↔ x = y ∧ x ≠ .nan := by cases x <;> simp [XF.same]

open Classical in
theorem constX_matches {n : ℕ} (hn : n ≠ 0) {x : XF} (hx : x ≠ .nan) (y : XF) :
    ((if n < 2 ∨ y.IsFin then XF.fin 0 else .nan).same (.fin 0) ∧ (constX n y).mean.same x) ↔
      y = x ∧ Matchable n x := by
  simp only [same_iff, Matchable]
  cases y with
  | fin y =>
    simp only [constX, XF.IsFin, or_true, if_true]
    constructor
    · rintro ⟨-, rfl, -⟩; simp
    · rintro ⟨rfl, -⟩; simp
  | inf s =>
    simp only [constX, XF.IsFin, or_false]
    by_cases h1 : n = 1
    · subst h1
      simp only [show (1 : ℕ) < 2 by norm_num, if_true]
      constructor
      · rintro ⟨-, rfl, -⟩; simp
      · rintro ⟨rfl, -⟩; simp
    · rw [if_neg (by omega)]
      constructor
      · rintro ⟨⟨h, -⟩, -⟩; cases h
      · rintro ⟨rfl, h | h⟩
        · exact absurd h id
        · exact absurd h h1
  | nan =>
    constructor
    · rintro ⟨-, -, h⟩; simp [constX] at h
    · rintro ⟨rfl, -⟩
      exact absurd rfl hx

open Classical in
/-- The test on one attribute of a table that was built from instances that agree on it: it does not raise. -/
theorem builtX_matches (hX : ∀ x, X x → x.Valid) {l : List (XInst A V)} (hl : ∀ j ∈ l, XInstOk X j) (hne : l ≠ [])
    {a : A} (hp : ∀ j ∈ l, ∀ k ∈ l, Dict.get? j a = Dict.get? k a) {t : XTab V}
    (ht : (a, t) ∈ ((extClass R.fl hid).built l).av) (v : XVal V) :
    ∃ b, XTab.matches R.fl ((extClass R.fl hid).built l).count t v = .ok b ∧
      (v ≠ .num .nan → (b = true ↔ (∀ j ∈ l, Dict.get? j a = some v) ∧ ∀ x, v = .num x → Matchable l.length x)) := by
  have h := countsX_built (hid := hid) (keeps_any (R := R) hX) hl
  have hcon := fun (x : XF) => builtX_constant (R := R) (hid := hid) hX hl hne (a := a) (x := x)
  generalize (extClass R.fl hid).built l = s at *
  have hg := Dict.get?_of_mem h.nodup.1 ht
  have h0 : l.length ≠ 0 := by simpa using hne
  have hcount : s.count = l.length := by rw [h.count, Multiset.coe_card]
  have hnoms : ∀ x, (∀ j ∈ l, Dict.get? j a = some (.num x)) → t.noms = [] := by
    intro x hall
    cases hn : t.noms with
    | nil => rfl
    | cons p l' =>
      exfalso
      have hp : t.noms.get? p.1 = some p.2 := by rw [hn]; obtain ⟨a1, b1⟩ := p; exact if_pos rfl
      rw [h.noms_of_mem ht] at hp
      split at hp
      · cases hp
      · rename_i ho
        obtain ⟨j, hj, hjv⟩ := Multiset.countP_pos.1 (Nat.pos_of_ne_zero ho)
        rw [hall j (by simpa using hj)] at hjv
        cases hjv
  have hcv' : ∀ x, (∀ j ∈ l, Dict.get? j a = some (.num x)) → t.cv = some (constX l.length x) := by
    intro x hall
    have := hcon x hall
    rw [XStats.cvOf, hg] at this
    simpa using this
  cases v with
  | nom v =>
    simp only [XTab.matches]
    rw [h.noms_of_mem ht]
    have := occ_eq_cardX (m := (l : Multiset (XInst A V))) (a := a) (v := .nom v)
    simp only [Multiset.mem_coe] at this
    rw [← this]
    by_cases ho : occ (l : Multiset (XInst A V)) a (.nom v) = 0
    · refine ⟨false, by rw [if_pos ho], fun _ => ?_⟩
      rw [ho, Multiset.coe_card]
      exact ⟨fun h => (Bool.false_ne_true h).elim, fun h => absurd h.1.symm h0⟩
    · refine ⟨_, by rw [if_neg ho], fun _ => ?_⟩
      simp [hcount]
  | num x =>
    simp only [XTab.matches]
    cases hcv : t.cv with
    | none =>
      refine ⟨false, rfl, fun _ => ⟨by simp, ?_⟩⟩
      rintro ⟨hall, -⟩
      rw [hcv' x hall] at hcv; cases hcv
    | some c =>
      obtain ⟨-, hn, -⟩ := h.cv_of_mem ht hcv
      simp only
      by_cases h1 : t.size ≠ 1 ∨ c.num ≠ s.count
      · refine ⟨false, by rw [if_pos h1], fun _ => ⟨by simp, ?_⟩⟩
        rintro ⟨hall, -⟩
        exfalso
        have e := hcv' x hall
        rw [hcv] at e
        cases e
        rcases h1 with h1 | h1
        · exact h1 (by simp [XTab.size, hnoms x hall, hcv])
        · exact h1 (by rw [constX_num, hcount])
      · rw [if_neg h1]
        push Not at h1
        obtain ⟨-, h1⟩ := h1
        rw [hn, h.count] at h1
        have hall := card_numsX_eq.1 h1
        simp only [Multiset.mem_coe] at hall
        obtain ⟨j, hj⟩ := List.exists_mem_of_ne_nil l hne
        obtain ⟨y, hy⟩ := hall j hj
        have hyall : ∀ k ∈ l, Dict.get? k a = some (.num y) := fun k hk => (hp k hk j hj).trans hy
        have e := hcv' y hyall
        rw [hcv] at e
        cases e
        rw [std_const, ok_bind]
        have key := fun hx => constX_matches h0 (x := x) hx y
        have hiff : (∀ j ∈ l, Dict.get? j a = some (.num x)) ↔ y = x := by
          constructor
          · intro h
            have := h j hj
            rw [hy] at this
            cases this; rfl
          · rintro rfl; exact hyall
        have hmm : (∀ z, XVal.num x = (XVal.num z : XVal V) → Matchable l.length z) ↔ Matchable l.length x :=
          ⟨fun h => h x rfl, fun h z hz => by cases hz; exact h⟩
        have hxn : XVal.num x ≠ (XVal.num .nan : XVal V) → x ≠ .nan := fun h e => h (by rw [e])
        rw [hiff, hmm]
        by_cases k1 : (if l.length < 2 ∨ y.IsFin then XF.fin 0 else .nan).same (.fin 0)
        · rw [if_neg (not_not.2 k1)]
          by_cases k2 : (constX l.length y).mean.same x
          · rw [if_neg (not_not.2 k2)]
            exact ⟨true, rfl, fun hx => ⟨fun _ => (key (hxn hx)).1 ⟨k1, k2⟩, fun _ => rfl⟩⟩
          · rw [if_pos k2]
            exact ⟨false, rfl, fun hx => ⟨fun h => (Bool.false_ne_true h).elim,
              fun h => absurd ((key (hxn hx)).2 h).2 k2⟩⟩
        · rw [if_pos k1]
          exact ⟨false, rfl, fun hx => ⟨fun h => (Bool.false_ne_true h).elim,
            fun h => absurd ((key (hxn hx)).2 h).1 k1⟩⟩

theorem builtX_exact (hX : ∀ x, X x → x.Valid) {l : List (XInst A V)} {i : XInst A V} (hne : l ≠ [])
    (hl : ∀ j ∈ l, XInstOk X j) (hp : ∀ j ∈ l, ∀ k ∈ l, SameVisible hid j k) (hi : Dict.Nodup i)
    (hin : ∀ a, Dict.get? i a ≠ some (.num .nan)) :
    XStats.isExact R.fl hid ((extClass R.fl hid).built l) i = true ↔
      (∀ j ∈ l, SameVisible hid i j) ∧ Repeats hid l.length i := by
  have h := countsX_built (hid := hid) (keeps_any (R := R) hX) hl
  have hmt := fun (a : A) (ha : hid a = false) (t : XTab V) (ht : (a, t) ∈ ((extClass R.fl hid).built l).av) =>
    builtX_matches hX hl hne (fun j hj k hk => hp j hj k hk a ha) ht
  generalize (extClass R.fl hid).built l = s at *
  have hmt' : ∀ a, hid a = false → ∀ t, (a, t) ∈ s.av → ∀ v, v ≠ .num .nan → (XTab.matches R.fl s.count t v = .ok true ↔
      (∀ j ∈ l, Dict.get? j a = some v) ∧ ∀ x, v = .num x → Matchable l.length x) := by
    intro a ha t ht v hv
    obtain ⟨b, e, hb⟩ := hmt a ha t ht v
    rw [e, ← hb hv]
    simp
  simp only [XStats.isExact, Bool.and_eq_true, List.all_eq_true, Bool.or_eq_true]
  constructor
  · rintro ⟨h1, h2⟩
    have key : ∀ a v, hid a = false → Dict.get? i a = some v →
        (∀ j ∈ l, Dict.get? j a = some v) ∧ ∀ x, v = .num x → Matchable l.length x := by
      intro a v ha hia
      have := h1 (a, v) (Dict.mem_of_get? hia)
      simp only [ha, Bool.false_eq_true, false_or] at this
      cases hg : s.av.get? a with
      | none => rw [hg] at this; cases this
      | some t =>
        rw [hg] at this
        exact (hmt' a ha t (Dict.mem_of_get? hg) v fun e => hin a (e ▸ hia)).1 (by simpa using this)
    refine ⟨fun j hj a ha => ?_, fun a x ha hx => (key a _ ha hx).2 x rfl⟩
    cases hia : Dict.get? i a with
    | some v => exact ((key a v ha hia).1 j hj).symm
    | none =>
      symm
      by_contra hja
      have hja' : (Dict.get? j a).isSome := by
        cases hx : Dict.get? j a
        · exact absurd hx hja
        · rfl
      rw [Dict.get?_isSome] at hja'
      have hk : a ∈ s.av.keys := (h.attrs a).2 ⟨j, by simpa using hj, hja'⟩
      obtain ⟨⟨a', t⟩, hp, rfl⟩ := List.mem_map.1 hk
      have := h2 _ hp
      simp only [ha, Bool.false_eq_true, false_or, Dict.has_iff] at this
      exact Dict.get?_eq_none.1 hia this
  · rintro ⟨hs, hr⟩
    constructor
    · rintro ⟨a, v⟩ hpv
      cases ha : hid a with
      | true => exact Or.inl rfl
      | false =>
        right
        have hv := Dict.get?_of_mem hi hpv
        obtain ⟨j, hj⟩ := List.exists_mem_of_ne_nil l hne
        have hja : a ∈ Dict.keys j := by
          rw [← Dict.get?_isSome, ← hs j hj a ha, hv]; rfl
        have hk : a ∈ s.av.keys := (h.attrs a).2 ⟨j, by simpa using hj, hja⟩
        obtain ⟨⟨a', t⟩, hp', rfl⟩ := List.mem_map.1 hk
        simp only
        rw [Dict.get?_of_mem h.nodup.1 hp']
        simp only [decide_eq_true_eq]
        refine (hmt' _ ha t hp' v fun e => hin _ (e ▸ hv)).2 ⟨?_, ?_⟩
        · intro j hj
          rw [← hs j hj _ ha]; exact hv
        · rintro x rfl
          exact hr _ x ha hv
    · rintro ⟨a, t⟩ hpt
      cases ha : hid a with
      | true => exact Or.inl rfl
      | false =>
        right
        rw [Dict.has_iff]
        obtain ⟨j, hj, hk⟩ := (h.attrs a).1 (List.mem_map.2 ⟨_, hpt, rfl⟩)
        rw [← Dict.get?_isSome] at hk ⊢
        rwa [hs j (by simpa using hj) a ha]

/-- `Cobweb3Node` with all Python floats has the laws of `Verif.Proofs.Tables`. -/
theorem extLaws (K : KeepsX R X P) (hid : A → Bool) :
    TableLaws (extClass R.fl hid : NodeClass (XInst A V) (XStats A V)) (XInstOk X) (CountsX P)
      (SameVisible hid) where
  fresh := countsX_fresh
  incr h hi := countsX_incr h K hi
  add h h' := countsX_add K h h'
  count h := h.count
  exact h1 h2 h3 h4 h5 := ((builtX_exact (fun _ => K.valid) h1 h2 h3 h4.nodup h4.number).1 h5).1
  refl _ _ _ := rfl
  symm h a ha := (h a ha).symm
  trans h h' a ha := (h a ha).trans (h' a ha)

end CF
