/-
`CobwebNode` satisfies the laws of a node class.
-/
import Verif.Spec.Nominal
import Verif.Proofs.Invariant

set_option linter.unusedSectionVars false

namespace CF
variable {A V : Type} [DecidableEq A] [DecidableEq V]

theorem get?_bump (t : Dict V ℕ) (v : V) (c : ℕ) (v' : V) :
    (bump t v c).get? v' = if v = v' then some ((t.get? v).getD 0 + c) else t.get? v' := by
  unfold bump; rw [Dict.get?_set]

theorem lookup_incr (s : Stats A V) {i : Inst A V} (hi : Dict.Nodup i) (a : A) (v : V) :
    (s.incr i).lookup a v =
      if Dict.get? i a = some v then some ((s.lookup a v).getD 0 + 1) else s.lookup a v := by
  simp only [Stats.lookup, Stats.incr]
  rw [Dict.get?_updAll _ _ hi]
  cases h : Dict.get? i a with
  | none => simp
  | some x =>
    simp only [Option.bind_some, get?_bump, Option.some.injEq]
    by_cases hx : x = v
    · subst hx
      cases s.av.get? a <;> simp
    · cases s.av.get? a <;> simp [hx]

theorem keys_incr (s : Stats A V) {i : Inst A V} (hi : Dict.Nodup i) (a : A) :
    a ∈ (s.incr i).av.keys ↔ a ∈ s.av.keys ∨ a ∈ Dict.keys i := by
  rw [← Dict.get?_isSome, ← Dict.get?_isSome, ← Dict.get?_isSome]
  simp only [Stats.incr]
  rw [Dict.get?_updAll _ _ hi]
  cases h : Dict.get? i a <;> simp

theorem get?_addTab (t tn : Dict V ℕ) (h : Dict.Nodup tn) (v : V) :
    (t.updAll (fun o c => o.getD 0 + c) tn).get? v =
      match tn.get? v with
      | none => t.get? v
      | some c => some ((t.get? v).getD 0 + c) := by
  rw [Dict.get?_updAll _ _ h]; cases tn.get? v <;> rfl

theorem lookup_addFrom (s n : Stats A V) (hn : n.av.Nodup) (hn' : ∀ p ∈ n.av, Dict.Nodup p.2)
    (a : A) (v : V) :
    (s.addFrom n).lookup a v =
      match n.lookup a v with
      | none => s.lookup a v
      | some c => some ((s.lookup a v).getD 0 + c) := by
  simp only [Stats.lookup, Stats.addFrom]
  rw [Dict.get?_updAll _ _ hn]
  cases h : n.av.get? a with
  | none => simp
  | some t =>
    simp only [Option.bind_some]
    rw [get?_addTab _ _ (hn' _ (Dict.mem_of_get? h))]
    cases h2 : t.get? v <;> cases h3 : s.av.get? a <;> simp

theorem keys_addFrom (s n : Stats A V) (hn : n.av.Nodup) (a : A) :
    a ∈ (s.addFrom n).av.keys ↔ a ∈ s.av.keys ∨ a ∈ n.av.keys := by
  rw [← Dict.get?_isSome, ← Dict.get?_isSome, ← Dict.get?_isSome]
  simp only [Stats.addFrom]
  rw [Dict.get?_updAll _ _ hn]
  cases h : n.av.get? a <;> simp

/-- A property of all tables is kept by an update loop that keeps it for each key. -/
theorem forall_updAll {K V W : Type} [DecidableEq K] (P : V → Prop) (f : Option V → W → V)
    (d : Dict K V) (ps : Dict K W) (hd : ∀ p ∈ d, P p.2)
    (hf : ∀ o x, (∀ y, o = some y → P y) → P (f o x)) : ∀ p ∈ d.updAll f ps, P p.2 := by
  induction ps generalizing d with
  | nil => exact hd
  | cons q ps ih =>
    rw [Dict.updAll_cons]
    apply ih
    have key : ∀ (e : Dict K V) (k : K) (y : V), (∀ p ∈ e, P p.2) → P y →
        ∀ p ∈ e.set k y, P p.2 := by
      intro e k y he hy
      induction e with
      | nil => intro p hp; simp [Dict.set] at hp; subst hp; exact hy
      | cons r e ih2 =>
        obtain ⟨r1, r2⟩ := r
        intro p hp
        simp only [Dict.set] at hp
        split at hp
        · rcases List.mem_cons.1 hp with rfl | hp
          · exact hy
          · exact he p (List.mem_cons_of_mem _ hp)
        · rcases List.mem_cons.1 hp with rfl | hp
          · exact he _ (List.mem_cons_self ..)
          · exact ih2 (fun p hp => he p (List.mem_cons_of_mem _ hp)) p hp
    apply key _ _ _ hd
    apply hf
    intro y hy
    exact hd _ (Dict.mem_of_get? hy)

theorem occ_cons_of_pos {m : Multiset (Inst A V)} {i : Inst A V} {a : A} {v : V}
    (h : Dict.get? i a = some v) : occ (i ::ₘ m) a v = occ m a v + 1 :=
  Multiset.countP_cons_of_pos m h

theorem occ_cons_of_neg {m : Multiset (Inst A V)} {i : Inst A V} {a : A} {v : V}
    (h : ¬ Dict.get? i a = some v) : occ (i ::ₘ m) a v = occ m a v :=
  Multiset.countP_cons_of_neg m h

theorem summarizes_fresh : Summarizes (Stats.fresh : Stats A V) 0 where
  count := rfl
  lookup := by intro a v; simp [Stats.lookup, Stats.fresh, occ]
  attrs := by intro a; simp [Stats.fresh]
  nodup := by simp [Stats.fresh]

theorem summarizes_incr {s : Stats A V} {m : Multiset (Inst A V)} {i : Inst A V}
    (h : Summarizes s m) (hi : Dict.Nodup i) : Summarizes (s.incr i) (i ::ₘ m) where
  count := by simp [Stats.incr, h.count]
  lookup := by
    intro a v
    rw [lookup_incr s hi, h.lookup]
    by_cases hv : Dict.get? i a = some v
    · rw [occ_cons_of_pos hv]
      by_cases h0 : occ m a v = 0 <;> simp [hv, h0]
    · rw [occ_cons_of_neg hv]; simp [hv]
  attrs := by
    intro a
    rw [keys_incr s hi, h.attrs]
    simp [or_comm]
  nodup := by
    dsimp only [Stats.incr]
    constructor
    · exact Dict.nodup_updAll _ _ h.nodup.1
    · apply forall_updAll (P := fun t : Dict V ℕ => Dict.Nodup t) _ _ _ h.nodup.2
      intro o x ho
      apply Dict.nodup_set
      cases o with
      | none => simp
      | some t => exact ho t rfl

theorem summarizes_add {s n : Stats A V} {m k : Multiset (Inst A V)}
    (h : Summarizes s m) (hn : Summarizes n k) : Summarizes (s.addFrom n) (m + k) where
  count := by simp [Stats.addFrom, h.count, hn.count]
  lookup := by
    intro a v
    rw [lookup_addFrom s n hn.nodup.1 hn.nodup.2, h.lookup, hn.lookup]
    have e : occ (m + k) a v = occ m a v + occ k a v := by simp [occ]
    rw [e]
    by_cases h0 : occ m a v = 0 <;> by_cases h1 : occ k a v = 0 <;> simp [h0, h1]
  attrs := by
    intro a
    rw [keys_addFrom s n hn.nodup.1, h.attrs, hn.attrs]
    simp only [Multiset.mem_add, or_and_right, exists_or]
  nodup := by
    dsimp only [Stats.addFrom]
    constructor
    · exact Dict.nodup_updAll _ _ h.nodup.1
    · apply forall_updAll (P := fun t : Dict V ℕ => Dict.Nodup t) _ _ _ h.nodup.2
      intro o x ho
      apply Dict.nodup_updAll
      cases o with
      | none => simp
      | some t => exact ho t rfl

theorem addFrom_fresh {s : Stats A V} (h : s.av.Nodup) (h' : ∀ p ∈ s.av, Dict.Nodup p.2) :
    Stats.fresh.addFrom s = s := by
  obtain ⟨c, av⟩ := s
  simp only [Stats.addFrom, Stats.fresh, Nat.zero_add, Stats.mk.injEq, true_and]
  rw [Dict.updAll_empty _ _ h]
  apply Dict.mapVal_id'
  intro p hp
  simp only [Option.getD_none]
  rw [Dict.updAll_empty _ _ (h' p hp)]
  apply Dict.mapVal_id'
  simp

theorem summarizes_exact {hid : A → Bool} {s : Stats A V} {m : Multiset (Inst A V)} {i : Inst A V}
    (h : Summarizes s m) (hm : m ≠ 0) (hi : Dict.Nodup i) :
    s.isExact hid i = true ↔ ∀ j ∈ m, SameVisible hid i j := by
  have hcard : Multiset.card m ≠ 0 := by simpa using hm
  have hocc : ∀ a v, s.lookup a v = some s.count ↔ ∀ j ∈ m, Dict.get? j a = some v := by
    intro a v
    rw [h.lookup, h.count]
    constructor
    · intro h1
      split at h1
      · cases h1
      · simp only [Option.some.injEq, occ] at h1
        exact Multiset.countP_eq_card.1 h1
    · intro h1
      have : occ m a v = Multiset.card m := Multiset.countP_eq_card.2 h1
      rw [this]; simp [hm]
  simp only [Stats.isExact, Bool.and_eq_true, List.all_eq_true, Bool.or_eq_true, beq_iff_eq, hocc]
  constructor
  · rintro ⟨h1, h2⟩ j hj a ha
    cases hia : Dict.get? i a with
    | some v =>
      have := h1 (a, v) (Dict.mem_of_get? hia)
      simp only [ha, Bool.false_eq_true, false_or] at this
      exact (this j hj).symm
    | none =>
      symm
      by_contra hja
      have hja' : (Dict.get? j a).isSome := by
        cases hx : Dict.get? j a
        · exact absurd hx hja
        · rfl
      rw [Dict.get?_isSome] at hja'
      have hk : a ∈ s.av.keys := (h.attrs a).2 ⟨j, hj, hja'⟩
      obtain ⟨⟨a', t⟩, hp, rfl⟩ := List.mem_map.1 hk
      have := h2 _ hp
      simp only [ha, Bool.false_eq_true, false_or, Dict.has_iff] at this
      exact Dict.get?_eq_none.1 hia this
  · intro hs
    constructor
    · rintro ⟨a, v⟩ hp
      cases ha : hid a with
      | true => exact Or.inl rfl
      | false =>
        right
        intro j hj
        rw [← hs j hj a ha]
        exact Dict.get?_of_mem hi hp
    · rintro ⟨a, t⟩ hp
      cases ha : hid a with
      | true => exact Or.inl rfl
      | false =>
        right
        rw [Dict.has_iff]
        obtain ⟨j, hj, hk⟩ := (h.attrs a).1 (List.mem_map.2 ⟨_, hp, rfl⟩)
        rw [← Dict.get?_isSome] at hk ⊢
        rwa [hs j hj a ha]

/-- `CobwebNode` is a lawful node class. -/
theorem cobwebLaws (hid : A → Bool) :
    Laws (cobwebClass hid : NodeClass (Inst A V) (Stats A V)) Dict.Nodup Summarizes
      (SameVisible hid) where
  fresh := summarizes_fresh
  incr := summarizes_incr
  add := summarizes_add
  count h := h.count
  copy h := addFrom_fresh h.nodup.1 h.nodup.2
  exact := summarizes_exact
  refl _ _ _ := rfl
  symm h a ha := (h a ha).symm
  trans h h' a ha := (h a ha).trans (h' a ha)

end CF
