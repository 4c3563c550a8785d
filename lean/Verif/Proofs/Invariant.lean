/-
The central invariant of the Cobweb algorithm, for any node class: a tree *holds* a multiset of
instances.
-/
import Verif.Proofs.Choose
import Verif.Proofs.ListAux
import Verif.Proofs.TreeAux
import Mathlib.Algebra.BigOperators.Group.Multiset.Basic
import Mathlib.Algebra.Order.Group.Multiset

set_option linter.unusedSectionVars false

namespace CF

/-- What the algorithm's correctness needs from a node class.  `Ok i` says that `i` is a legal
instance, `Sum s m` that the table `s` is the summary of the instances `m`, and `Same i j` that
`i` and `j` are indistinguishable to `is_exact_match`. -/
structure Laws {I S : Type} (C : NodeClass I S) (Ok : I → Prop) (Sum : S → Multiset I → Prop)
    (Same : I → I → Prop) : Prop where
  fresh : Sum C.fresh 0
  incr {s m i} : Sum s m → Ok i → Sum (C.incr s i) (i ::ₘ m)
  add {s m s' m'} : Sum s m → Sum s' m' → Sum (C.addFrom s s') (m + m')
  count {s m} : Sum s m → C.count s = Multiset.card m
  copy {s m} : Sum s m → C.addFrom C.fresh s = s
  exact {s m i} : Sum s m → m ≠ 0 → Ok i → (C.isExact s i = true ↔ ∀ j ∈ m, Same i j)
  refl (i) : Same i i
  symm {i j} : Same i j → Same j i
  trans {i j k} : Same i j → Same j k → Same i k

section
variable {I S : Type} (Sum : S → Multiset I → Prop) (Same : I → I → Prop)

mutual
/-- `Holds t m`: the subtree `t` stores exactly the instances `m`: its table is the summary of
`m`; a leaf stores a non-empty group of indistinguishable instances; an internal node has at least
two children which partition `m`. -/
inductive Holds : Tree S → Multiset I → Prop
  | leaf {id s m} : Sum s m → m ≠ 0 → (∀ i ∈ m, ∀ j ∈ m, Same i j) → Holds (.node id s []) m
  | node {id s cs m} : 2 ≤ cs.length → HoldsL cs m → Sum s m → Holds (.node id s cs) m
/-- A list of subtrees partitions `m`. -/
inductive HoldsL : List (Tree S) → Multiset I → Prop
  | nil : HoldsL [] 0
  | cons {c cs m m'} : Holds c m → HoldsL cs m' → HoldsL (c :: cs) (m + m')
end

variable {Sum Same}

theorem Holds.sum {t : Tree S} {m : Multiset I} (h : Holds Sum Same t m) : Sum t.stats m := by
  cases h with
  | leaf h _ _ => exact h
  | node _ _ h => exact h

theorem HoldsL.nil_iff {m : Multiset I} : HoldsL Sum Same [] m ↔ m = 0 := by
  constructor
  · intro h; cases h; rfl
  · rintro rfl; exact .nil

theorem HoldsL.cons_iff {c : Tree S} {cs : List (Tree S)} {m : Multiset I} :
    HoldsL Sum Same (c :: cs) m ↔
      ∃ m1 m2, m = m1 + m2 ∧ Holds Sum Same c m1 ∧ HoldsL Sum Same cs m2 := by
  constructor
  · intro h; cases h with
    | cons h1 h2 => exact ⟨_, _, rfl, h1, h2⟩
  · rintro ⟨m1, m2, rfl, h1, h2⟩; exact .cons h1 h2

theorem HoldsL.perm {cs cs' : List (Tree S)} (hp : cs.Perm cs') :
    ∀ {m : Multiset I}, HoldsL Sum Same cs m → HoldsL Sum Same cs' m := by
  induction hp with
  | nil => exact id
  | cons x _ ih =>
    intro m h
    obtain ⟨m1, m2, rfl, h1, h2⟩ := HoldsL.cons_iff.1 h
    exact .cons h1 (ih h2)
  | swap x y l =>
    intro m h
    obtain ⟨m1, m2, rfl, h1, h2⟩ := HoldsL.cons_iff.1 h
    obtain ⟨m3, m4, rfl, h3, h4⟩ := HoldsL.cons_iff.1 h2
    rw [add_left_comm]
    exact .cons h3 (.cons h1 h4)
  | trans _ _ ih1 ih2 => exact fun h => ih2 (ih1 h)

theorem HoldsL.append_iff {cs cs' : List (Tree S)} {m : Multiset I} :
    HoldsL Sum Same (cs ++ cs') m ↔
      ∃ m1 m2, m = m1 + m2 ∧ HoldsL Sum Same cs m1 ∧ HoldsL Sum Same cs' m2 := by
  induction cs generalizing m with
  | nil => simp [HoldsL.nil_iff]
  | cons c cs ih =>
    simp only [List.cons_append, HoldsL.cons_iff, ih]
    constructor
    · rintro ⟨m1, m2, rfl, h1, m3, m4, rfl, h3, h4⟩
      exact ⟨m1 + m3, m4, (add_assoc _ _ _).symm, ⟨m1, m3, rfl, h1, h3⟩, h4⟩
    · rintro ⟨m1, m2, rfl, ⟨m3, m4, rfl, h3, h4⟩, h2⟩
      exact ⟨m3, m4 + m2, add_assoc _ _ _, h3, m4, m2, rfl, h4, h2⟩

theorem HoldsL.mem {cs : List (Tree S)} {m : Multiset I} (h : HoldsL Sum Same cs m)
    {c : Tree S} (hc : c ∈ cs) : ∃ m', Holds Sum Same c m' ∧ m' ≤ m := by
  induction cs generalizing m with
  | nil => simp at hc
  | cons d cs ih =>
    obtain ⟨m1, m2, rfl, h1, h2⟩ := HoldsL.cons_iff.1 h
    rcases List.mem_cons.1 hc with rfl | hc
    · exact ⟨m1, h1, Multiset.le_add_right _ _⟩
    · obtain ⟨m', h', hle⟩ := ih h2 hc
      exact ⟨m', h', hle.trans (Multiset.le_add_left _ _)⟩

theorem Holds.ne_zero {t : Tree S} {m : Multiset I} (h : Holds Sum Same t m) : m ≠ 0 := by
  have key : ∀ n, ∀ t : Tree S, ∀ m : Multiset I, t.numConcepts ≤ n → Holds Sum Same t m → m ≠ 0 := by
    intro n
    induction n with
    | zero => intro t m hn; have := t.numConcepts_pos; omega
    | succ n ih =>
      intro t m hn h
      cases h with
      | leaf _ h _ => exact h
      | @node id s cs m hl hcs _ =>
        cases cs with
        | nil => simp at hl
        | cons c cs =>
          obtain ⟨m1, m2, rfl, h1, h2⟩ := HoldsL.cons_iff.1 hcs
          have : m1 ≠ 0 := ih c m1 (by simp [Tree.numConcepts_node] at hn; omega) h1
          intro h0
          exact this (by
            have := congrArg Multiset.card h0
            simp only [Multiset.card_add, Multiset.card_zero] at this
            exact Multiset.card_eq_zero.1 (by omega))
  exact key _ t m le_rfl h

end

section
variable {I S K : Type} [Field K] [LinearOrder K]
variable {C : NodeClass I S} {Ok : I → Prop} {Sum : S → Multiset I → Prop} {Same : I → I → Prop}
variable {ecg : S → Res K}

/-- One run of the sorting loop keeps the invariant and adds exactly the new instance. -/
theorem cobwebLoop_holds (L : Laws C Ok Sum Same) {inst : I} (hi : Ok inst) :
    ∀ (fuel : ℕ) (t : Tree S) (w : World) (m : Multiset I) (o : Out S), Holds Sum Same t m →
      cobwebLoop C ecg inst fuel t w = .ok o → Holds Sum Same o.tree (inst ::ₘ m) := by
  intro fuel
  induction fuel with
  | zero => intro t w m o _ h; simp [cobwebLoop] at h
  | succ fuel ih =>
    intro t w m o ht h
    match t, ht with
    | .node id s [], ht =>
      have hm := ht.ne_zero
      have hsum : Sum s m := ht.sum
      have hpure : ∀ i ∈ m, ∀ j ∈ m, Same i j := by
        cases ht with
        | leaf _ _ h => exact h
        | node h _ _ => simp at h
      simp only [cobwebLoop] at h
      split at h
      · rename_i hc
        simp only [Bool.or_eq_true, beq_iff_eq] at hc
        have hc : C.isExact s inst = true := by
          rcases hc with hc | hc
          · exact hc
          · rw [L.count hsum] at hc
            exact absurd (Multiset.card_eq_zero.1 hc) hm
        cases h
        have hsame := (L.exact hsum hm hi).1 hc
        refine .leaf (L.incr hsum hi) (Multiset.cons_ne_zero) ?_
        intro i hi' j hj
        rcases Multiset.mem_cons.1 hi' with rfl | hi2
        · rcases Multiset.mem_cons.1 hj with rfl | hj
          · exact L.refl _
          · exact hsame j hj
        · rcases Multiset.mem_cons.1 hj with rfl | hj
          · exact L.symm (hsame i hi2)
          · exact hpure i hi2 j hj
      · cases h
        refine .node (by simp) ?_ ?_
        · rw [← Multiset.singleton_add, add_comm {inst} m]
          refine .cons ht ?_
          rw [← add_zero ({inst} : Multiset I)]
          refine .cons (.leaf (L.incr L.fresh hi) (by simp) ?_) .nil
          intro i hi' j hj
          simp at hi' hj; subst hi'; subst hj; exact L.refl _
        · rw [show shallowCopy C s = s from L.copy hsum]
          exact L.incr hsum hi
    | .node id s (c :: cs'), ht =>
      simp only [cobwebLoop, bind_ok] at h
      obtain ⟨⟨b, op, w'⟩, hch, h⟩ := h
      obtain ⟨⟨t1, ht1, hsplit⟩, hmerge, -, -⟩ := chooseOp_spec C ecg hch
      generalize hcs : c :: cs' = cs at *
      have hsum : Sum s m := ht.sum
      have hl : 2 ≤ cs.length ∧ HoldsL Sum Same cs m := by
        cases ht with
        | leaf => simp at hcs
        | node h1 h2 _ => exact ⟨h1, h2⟩
      obtain ⟨m1, m2, rfl, h1, h2⟩ := HoldsL.cons_iff.1 (hl.2.perm (perm_eraseIdx ht1))
      have hlen := (perm_eraseIdx ht1).length_eq
      cases op with
      | best =>
        simp only [ht1, bind_ok, pure_ok] at h
        obtain ⟨o', ho', rfl⟩ := h
        have h3 := ih _ _ _ _ h1 ho'
        have hp := perm_putChild ht1 o'
        refine .node (by rw [hp.length_eq]; simp at hlen ⊢; omega) ?_ (L.incr hsum hi)
        refine HoldsL.perm hp.symm ?_
        rw [← Multiset.cons_add]
        exact .cons h3 h2
      | new =>
        simp only [pure_ok] at h
        cases h
        refine .node (by simp; omega) ?_ (L.incr hsum hi)
        rw [← Multiset.singleton_add, add_comm {inst} (m1 + m2)]
        refine HoldsL.append_iff.2 ⟨_, _, rfl, hl.2, ?_⟩
        rw [← add_zero ({inst} : Multiset I)]
        refine .cons (.leaf (L.incr L.fresh hi) (by simp) ?_) .nil
        intro i hi' j hj
        simp at hi' hj; subst hi'; subst hj; exact L.refl _
      | merge =>
        obtain ⟨h2', j, t2, hj, hne, ht2⟩ := hmerge rfl
        simp only [hj, ht1, ht2, bind_ok, pure_ok] at h
        obtain ⟨o', ho', rfl⟩ := h
        have hp := perm_dropTwo hne ht1 ht2
        have hlen2 := length_dropTwo hne ht1 ht2
        obtain ⟨n1, n2, hn, k1, k2⟩ := HoldsL.cons_iff.1 (hl.2.perm hp)
        obtain ⟨n3, n4, rfl, k3, k4⟩ := HoldsL.cons_iff.1 k2
        rw [hn] at hsum ⊢
        have hnew : Holds Sum Same (.node (w'.ctr + 1)
            (C.addFrom (C.addFrom C.fresh t1.stats) t2.stats) [t1, t2]) (n1 + n3) := by
          refine .node (by simp) ?_ ?_
          · rw [← add_zero n3]; exact .cons k1 (.cons k3 .nil)
          · have := L.add (L.add L.fresh k1.sum) k3.sum
            rwa [zero_add] at this
        have h3 := ih _ _ _ _ hnew ho'
        refine .node (by simp only [removeTwo, List.length_append, List.length_singleton]; omega)
          ?_ (L.incr hsum hi)
        unfold removeTwo
        refine HoldsL.perm (List.perm_append_singleton _ _).symm ?_
        rw [← add_assoc, ← Multiset.cons_add]
        exact .cons h3 k4
      | split =>
        simp only [ht1] at h
        refine ih _ _ _ _ ?_ h
        have hne := hsplit rfl
        have : 2 ≤ t1.children.length ∧ HoldsL Sum Same t1.children m1 := by
          cases h1 with
          | leaf => simp at hne
          | node a b _ => exact ⟨a, b⟩
        refine .node (by simp; omega) ?_ hsum
        rw [add_comm]
        exact HoldsL.append_iff.2 ⟨_, _, rfl, h2, this.2⟩

/-- The invariant of a whole tree: empty (a fresh root) or holding a non-empty multiset. -/
def TreeHolds (C : NodeClass I S) (Sum : S → Multiset I → Prop) (Same : I → I → Prop)
    (t : Tree S) (m : Multiset I) : Prop :=
  (m = 0 ∧ ∃ id, t = .node id C.fresh []) ∨ Holds Sum Same t m

theorem TreeHolds.sum (L : Laws C Ok Sum Same) {t : Tree S} {m : Multiset I}
    (h : TreeHolds C Sum Same t m) : Sum t.stats m := by
  rcases h with ⟨rfl, id, rfl⟩ | h
  · exact L.fresh
  · exact h.sum

theorem cobweb_holds (L : Laws C Ok Sum Same) {inst : I} (hi : Ok inst) {t : Tree S} {w : World}
    {m : Multiset I} {o : Out S} (ht : TreeHolds C Sum Same t m)
    (h : cobweb C ecg t inst w = .ok o) : TreeHolds C Sum Same o.tree (inst ::ₘ m) := by
  right
  rcases ht with ⟨rfl, id, rfl⟩ | ht
  · have h0 : C.count C.fresh = 0 := by simpa using L.count L.fresh
    simp [cobweb, cobwebLoop, Tree.numConcepts_node, h0] at h
    subst h
    refine .leaf (L.incr L.fresh hi) (by simp) ?_
    intro i hi' j hj
    simp at hi' hj; subst hi'; subst hj; exact L.refl _
  · exact cobwebLoop_holds L hi _ _ _ _ _ ht h

end
end CF
