/-
What calls that raise leave behind.
-/
import Verif.Spec.HeapFail
import Verif.Proofs.HeapReach
import Verif.Proofs.Raises

set_option linter.unusedSectionVars false

namespace CF
section
variable {I S : Type} {C : NodeClass I S} {Ok : I → Prop} {Sum : S → Multiset I → Prop} {Same : I → I → Prop}

/-! ### Lists of subtrees -/

theorem RetainsL.nil_iff {m x : Multiset I} : RetainsL Sum Same [] m x ↔ m = 0 ∧ x = 0 := by
  constructor
  · intro h; cases h; exact ⟨rfl, rfl⟩
  · rintro ⟨rfl, rfl⟩; exact .nil

theorem RetainsL.cons_iff {c : Tree S} {cs : List (Tree S)} {m x : Multiset I} :
    RetainsL Sum Same (c :: cs) m x ↔ ∃ m1 m2 x1 x2, m = m1 + m2 ∧ x = x1 + x2 ∧ Retains Sum Same c m1 x1 ∧
      RetainsL Sum Same cs m2 x2 := by
  constructor
  · intro h; cases h with
    | cons h1 h2 => exact ⟨_, _, _, _, rfl, rfl, h1, h2⟩
  · rintro ⟨m1, m2, x1, x2, rfl, rfl, h1, h2⟩; exact .cons h1 h2

theorem RetainsL.perm {cs cs' : List (Tree S)} (hp : cs.Perm cs') :
    ∀ {m x : Multiset I}, RetainsL Sum Same cs m x → RetainsL Sum Same cs' m x := by
  induction hp with
  | nil => exact id
  | cons x _ ih =>
    intro m x h
    obtain ⟨m1, m2, x1, x2, rfl, rfl, h1, h2⟩ := RetainsL.cons_iff.1 h
    exact .cons h1 (ih h2)
  | swap x y l =>
    intro m x h
    obtain ⟨m1, m2, x1, x2, rfl, rfl, h1, h2⟩ := RetainsL.cons_iff.1 h
    obtain ⟨m3, m4, x3, x4, rfl, rfl, h3, h4⟩ := RetainsL.cons_iff.1 h2
    rw [add_left_comm m1, add_left_comm x1]
    exact .cons h3 (.cons h1 h4)
  | trans _ _ ih1 ih2 => exact fun h => ih2 (ih1 h)

theorem RetainsL.append {cs cs' : List (Tree S)} : ∀ {m x m' x' : Multiset I}, RetainsL Sum Same cs m x →
    RetainsL Sum Same cs' m' x' → RetainsL Sum Same (cs ++ cs') (m + m') (x + x') := by
  induction cs with
  | nil =>
    intro m x m' x' h h'
    obtain ⟨rfl, rfl⟩ := RetainsL.nil_iff.1 h
    simpa using h'
  | cons c cs ih =>
    intro m x m' x' h h'
    obtain ⟨m1, m2, x1, x2, rfl, rfl, h1, h2⟩ := RetainsL.cons_iff.1 h
    rw [add_assoc, add_assoc]
    exact .cons h1 (ih h2 h')

theorem Retains.sum {t : Tree S} {m x : Multiset I} (h : Retains Sum Same t m x) : Sum t.stats (m + x) := by
  cases h with
  | leaf h _ _ => simpa using h
  | node _ _ _ h => exact h

theorem Retains.single (L : Laws C Ok Sum Same) (id : ℕ) {i : I} (hi : Ok i) :
    Retains Sum Same (.node id (C.incr C.fresh i) []) {i} 0 :=
  .leaf (L.incr L.fresh hi) (by simp) (by simpa using L.refl i)

theorem Retains.merged (L : Laws C Ok Sum Same) {t1 t2 : Tree S} {m1 m2 x1 x2 : Multiset I} (id : ℕ)
    (h1 : Retains Sum Same t1 m1 x1) (h2 : Retains Sum Same t2 m2 x2) :
    Retains Sum Same (.node id (C.addFrom (C.addFrom C.fresh t1.stats) t2.stats) [t1, t2]) (m1 + m2) (x1 + x2) := by
  refine .node (by simp) ?_ (le_refl (x1 + x2)) ?_
  · rw [← add_zero m2, ← add_zero x2]; exact .cons h1 (.cons h2 .nil)
  · have := L.add (L.add L.fresh h1.sum) h2.sum
    rwa [zero_add, add_add_add_comm] at this

variable {K : Type} [Field K] [LinearOrder K] {ch : S → List (Tree S) → I → World → Res (Best K × Op × World)} {inst : I}

/-! ### A call that returns -/

/-- However the operations are chosen, the loop adds the instance to the leaves. -/
theorem LoopBy.retains (L : Laws C Ok Sum Same) (hi : Ok inst) {t : Tree S} {w : World} {o : Out S}
    (h : LoopBy C ch inst t w o) :
    ∀ {m x : Multiset I}, Retains Sum Same t m x → Retains Sum Same o.tree (inst ::ₘ m) x := by
  induction h with
  | @hit id s w hx =>
    intro m x ht
    cases ht with
    | leaf h1 h2 h3 =>
      have hx : C.isExact s inst = true := by
        rcases hx with hx | hx
        · exact hx
        · rw [L.count h1] at hx
          exact absurd (Multiset.card_eq_zero.1 hx) h2
      have hs := (L.exact h1 h2 hi).1 hx
      refine .leaf (L.incr h1 hi) (by simp) ?_
      intro i hi' j hj
      rcases Multiset.mem_cons.1 hi' with rfl | hi'
      · rcases Multiset.mem_cons.1 hj with rfl | hj
        · exact L.refl _
        · exact hs j hj
      · rcases Multiset.mem_cons.1 hj with hj' | hj
        · rw [hj']; exact L.symm (hs i hi')
        · exact h3 i hi' j hj
    | node h _ _ => simp at h
  | @fringe id s w hx h0 =>
    intro m x ht
    have hx0 : x = 0 := by
      cases ht with
      | leaf => rfl
      | node h _ _ => simp at h
    subst hx0
    refine .node (y := 0 + (0 + 0)) (by simp) ?_ (by simp) ?_
    · rw [← Multiset.singleton_add, add_comm {inst} m, ← add_zero ({inst} : Multiset I)]
      exact .cons ht (.cons (Retains.single L _ hi) .nil)
    · have := L.add L.fresh ht.sum
      rw [zero_add] at this
      rw [Multiset.cons_add]
      exact L.incr this hi
  | @best id s cs w w' b t1 o hne _ hw ht1 _ ih =>
    intro m x ht
    cases ht with
    | leaf => simp at hne
    | node hlen hl hle hsum =>
    obtain ⟨m1, m2, x1, x2, rfl, rfl, h1, h2⟩ := RetainsL.cons_iff.1 (hl.perm (perm_eraseIdx ht1))
    have hlen2 := (perm_eraseIdx ht1).length_eq
    have hp := perm_putChild ht1 o
    refine .node (by rw [hp.length_eq]; simp at hlen2 ⊢; omega) ?_ hle (by
      rw [Multiset.cons_add]; exact L.incr hsum hi)
    refine RetainsL.perm hp.symm ?_
    rw [← Multiset.cons_add]
    exact .cons (ih h1) h2
  | @new id s cs w w' b hne _ hw =>
    intro m x ht
    cases ht with
    | leaf => simp at hne
    | @node _ _ _ _ _ y hlen hl hle hsum =>
    refine .node (y := y + (0 + 0)) (by simp; omega) ?_ (by simpa using hle) (by
      rw [Multiset.cons_add]; exact L.incr hsum hi)
    rw [← Multiset.singleton_add, add_comm {inst} m, ← add_zero ({inst} : Multiset I)]
    exact hl.append (.cons (Retains.single L _ hi) .nil)
  | @merge id s cs w w' b j t1 t2 o h2' _ hw hj hne ht1 ht2 _ ih =>
    intro m x ht
    cases ht with
    | leaf => simp at h2'
    | node hlen hl hle hsum =>
    have hp := perm_dropTwo hne ht1 ht2
    have hlen2 := length_dropTwo hne ht1 ht2
    obtain ⟨n1, n2, x1, x2, hn, rfl, k1, k2⟩ := RetainsL.cons_iff.1 (hl.perm hp)
    obtain ⟨n3, n4, x3, x4, rfl, rfl, k3, k4⟩ := RetainsL.cons_iff.1 k2
    rw [hn] at hsum ⊢
    refine .node (by simp only [removeTwo, List.length_append, List.length_singleton]; omega)
      ?_ hle (by rw [Multiset.cons_add]; exact L.incr hsum hi)
    unfold removeTwo
    refine RetainsL.perm (List.perm_append_singleton _ _).symm ?_
    rw [← add_assoc, ← Multiset.cons_add, ← add_assoc]
    exact .cons (ih (Retains.merged L _ k1 k3)) k4
  | @split id s cs w w' b t1 o hne0 _ hw ht1 hne _ ih =>
    intro m x ht
    cases ht with
    | leaf => simp at hne0
    | node hlen hl hle hsum =>
    obtain ⟨m1, m2, x1, x2, rfl, rfl, h1, h2⟩ := RetainsL.cons_iff.1 (hl.perm (perm_eraseIdx ht1))
    have hlen2 := (perm_eraseIdx ht1).length_eq
    have : 2 ≤ t1.children.length ∧ ∃ y ≤ x1, RetainsL Sum Same t1.children m1 y := by
      cases h1 with
      | leaf => simp at hne
      | node a b c _ => exact ⟨a, _, c, b⟩
    obtain ⟨h4, y, hy, h3⟩ := this
    refine ih (.node (y := x2 + y) (by simp at hlen2 ⊢; omega) ?_ ?_ hsum)
    · rw [add_comm m1]
      exact h2.append h3
    · rw [add_comm]
      exact (add_le_add_left hy _).trans hle

theorem LoopBy.treeRetains (L : Laws C Ok Sum Same) (hi : Ok inst) {t : Tree S} {w : World} {o : Out S}
    (h : LoopBy C ch inst t w o) {m x : Multiset I} (ht : TreeRetains Sum Same C t m x) :
    Retains Sum Same o.tree (inst ::ₘ m) x := by
  rcases ht with ⟨rfl, rfl, id, rfl⟩ | ht
  · have h0 : C.count C.fresh = 0 := by simpa using L.count L.fresh
    cases h with
    | hit _ => simpa using Retains.single L id hi
    | fringe _ h => exact absurd h0 h
    | best h => exact absurd rfl h
    | new h => exact absurd rfl h
    | merge h => simp at h
    | split h => exact absurd rfl h
  · exact h.retains L hi ht

/-! ### A call that raises -/

theorem Left.retains (L : Laws C Ok Sum Same) (hi : Ok inst) {e : PyErr} {ecg : S → Res K} {t t' : Tree S} {w : World} {n' : ℕ}
    (h : Left C ecg inst e t w t' n') : ∀ {m x : Multiset I}, Retains Sum Same t m x →
      ∃ x', (x' = x ∨ x' = inst ::ₘ x) ∧ Retains Sum Same t' m x' := by
  induction h with
  | stop => intro m x ht; exact ⟨x, .inl rfl, ht⟩
  | @best id s cs b t1 t' w w' n' _ _ ht1 _ ih =>
    intro m x ht
    cases ht with
    | leaf => simp at ht1
    | node hlen hl hle hsum =>
    obtain ⟨m1, m2, x1, x2, rfl, rfl, h1, h2⟩ := RetainsL.cons_iff.1 (hl.perm (perm_eraseIdx ht1))
    obtain ⟨x', hx', h3⟩ := ih h1
    have hp := perm_set ht1 t'
    refine ⟨inst ::ₘ x, .inr rfl, .node (y := x' + x2) (by simpa using hlen) ((RetainsL.cons h3 h2).perm hp.symm) ?_ ?_⟩
    · rcases hx' with rfl | rfl
      · exact hle.trans (Multiset.le_cons_self _ _)
      · rw [Multiset.cons_add]; exact (Multiset.cons_le_cons_iff _).2 hle
    · rw [Multiset.add_cons]; exact L.incr hsum hi
  | @merge id s cs b l t1 t2 t' w w' n' _ _ hlen2 _ hne ht1 ht2 _ ih =>
    intro m x ht
    cases ht with
    | leaf => simp at ht1
    | node hlen hl hle hsum =>
    have hp := perm_dropTwo hne ht1 ht2
    have hlen3 := length_dropTwo hne ht1 ht2
    obtain ⟨n1, n2, x1, x2, hn, rfl, k1, k2⟩ := RetainsL.cons_iff.1 (hl.perm hp)
    obtain ⟨n3, n4, x3, x4, rfl, rfl, k3, k4⟩ := RetainsL.cons_iff.1 k2
    obtain ⟨x', hx', h3⟩ := ih (Retains.merged L _ k1 k3)
    refine ⟨inst ::ₘ x, .inr rfl, .node (y := x' + x4)
      (by simp only [removeTwo, List.length_append, List.length_singleton]; omega) ?_ ?_ ?_⟩
    · unfold removeTwo
      refine RetainsL.perm (List.perm_append_singleton _ _).symm ?_
      rw [hn, ← add_assoc]
      exact .cons h3 k4
    · rw [← add_assoc] at hle
      rcases hx' with rfl | rfl
      · exact hle.trans (Multiset.le_cons_self _ _)
      · rw [Multiset.cons_add]; exact (Multiset.cons_le_cons_iff _).2 hle
    · rw [Multiset.add_cons]; exact L.incr hsum hi
  | @split id s cs b t1 t' w w' n' _ _ ht1 hne _ ih =>
    intro m x ht
    cases ht with
    | leaf => simp at ht1
    | node hlen hl hle hsum =>
    obtain ⟨m1, m2, x1, x2, rfl, rfl, h1, h2⟩ := RetainsL.cons_iff.1 (hl.perm (perm_eraseIdx ht1))
    have hlen2 := (perm_eraseIdx ht1).length_eq
    have : 2 ≤ t1.children.length ∧ ∃ y ≤ x1, RetainsL Sum Same t1.children m1 y := by
      cases h1 with
      | leaf => simp at hne
      | node a b c _ => exact ⟨a, _, c, b⟩
    obtain ⟨h4, y, hy, h3⟩ := this
    refine ih (.node (y := x2 + y) (by simp at hlen2 ⊢; omega) ?_ ?_ hsum)
    · rw [add_comm m1]
      exact h2.append h3
    · rw [add_comm]
      exact (add_le_add_left hy _).trans hle

/-- A leaf cannot be changed by a call that raises. -/
theorem Left.of_leaf {id : ℕ} {s : S} {t' : Tree S} {e : PyErr} {ecg : S → Res K} {w : World} {n' : ℕ} (h : Left C ecg inst e (.node id s []) w t' n') :
    t' = .node id s [] := by
  cases h with
  | stop => rfl
  | best _ _ h => simp at h
  | merge _ _ h => simp at h
  | split _ _ h => simp at h

theorem Left.treeRetains (L : Laws C Ok Sum Same) (hi : Ok inst) {e : PyErr} {ecg : S → Res K} {t t' : Tree S} {w : World} {n' : ℕ}
    (h : Left C ecg inst e t w t' n') {m x : Multiset I} (ht : TreeRetains Sum Same C t m x) :
    ∃ x', (x' = x ∨ x' = inst ::ₘ x) ∧ TreeRetains Sum Same C t' m x' := by
  rcases ht with ⟨rfl, rfl, id, rfl⟩ | ht
  · rw [h.of_leaf]
    exact ⟨0, .inl rfl, .inl ⟨rfl, rfl, id, rfl⟩⟩
  · obtain ⟨x', h1, h2⟩ := h.retains L hi ht
    exact ⟨x', h1, .inr h2⟩

theorem Left.id {e : PyErr} {ecg : S → Res K} {t t' : Tree S} {w : World} {n' : ℕ} (h : Left C ecg inst e t w t' n') :
    t'.id = t.id := by
  induction h with
  | stop => rfl
  | best => rfl
  | merge => rfl
  | split _ _ _ _ _ ih => exact ih

/-- The leaves are what they were, up to their order. -/
theorem Left.leaves {e : PyErr} {ecg : S → Res K} {t t' : Tree S} {w : World} {n' : ℕ} (h : Left C ecg inst e t w t' n') : t'.leaves.Perm t.leaves := by
  have fl : ∀ {l l' : List (Tree S)}, l.Perm l' → (l.flatMap Tree.leaves).Perm (l'.flatMap Tree.leaves) :=
    fun hp => hp.flatMap_right _
  induction h with
  | stop => exact .refl _
  | @best id s cs b t1 t' w w' n' _ _ ht1 _ ih =>
    have hne : cs ≠ [] := by rintro rfl; simp at ht1
    rw [Tree.leaves_node _ _ hne, Tree.leaves_node _ _ (by simpa using hne)]
    refine (fl (perm_set ht1 t')).trans (.trans ?_ (fl (perm_eraseIdx ht1)).symm)
    rw [List.flatMap_cons, List.flatMap_cons]
    exact ih.append_right _
  | @merge id s cs b l t1 t2 t' w w' n' _ _ hlen2 _ hne ht1 ht2 _ ih =>
    have hne' : cs ≠ [] := by rintro rfl; simp at ht1
    rw [Tree.leaves_node _ _ hne', Tree.leaves_node _ _ (by simp)]
    refine (fl (List.perm_append_singleton _ _)).trans (.trans ?_ (fl (perm_dropTwo hne ht1 ht2)).symm)
    rw [Tree.leaves_node _ _ (by simp)] at ih
    simp only [List.flatMap_cons, List.flatMap_nil, List.append_nil] at ih ⊢
    rw [← List.append_assoc]
    exact ih.append_right _
  | @split id s cs b t1 t' w w' n' _ _ ht1 hne _ ih =>
    have hne' : cs ≠ [] := by rintro rfl; simp at ht1
    refine ih.trans ?_
    rw [Tree.leaves_node _ _ hne', Tree.leaves_node _ _ (by simp [hne])]
    refine .trans ?_ (fl (perm_eraseIdx ht1)).symm
    obtain ⟨i1, s1, c1⟩ := t1
    rw [List.flatMap_cons, Tree.leaves_node i1 s1 (cs := c1) hne, List.flatMap_append]
    exact List.perm_append_comm

/-- The ids after a call that raised: still distinct, each one old or newly generated. -/
theorem Left.ids {e : PyErr} {ecg : S → Res K} {t t' : Tree S} {w : World} {n' : ℕ} (h : Left C ecg inst e t w t' n') :
    t.ids.Nodup → (∀ x ∈ t.ids, x ≤ w.ctr) →
      w.ctr ≤ n' ∧ t'.ids.Nodup ∧ ∀ x ∈ t'.ids, x ∈ t.ids ∨ (w.ctr < x ∧ x ≤ n') := by
  induction h with
  | stop h _ => intro h1 h2; exact ⟨h, h1, fun x hx => .inl hx⟩
  | @best id s cs b t t' w w' n' _ hw ht _ ih =>
    intro h1 h2
    simp only [Tree.ids_node] at h1 h2 ⊢
    have p1 := flatMap_perm (perm_eraseIdx ht)
    have p2 := flatMap_perm (perm_set ht t')
    simp only [List.flatMap_cons] at p1 p2
    rw [(p1.cons id).nodup_iff] at h1
    have h2' : ∀ x ∈ id :: (t.ids ++ (cs.eraseIdx b.b1).flatMap Tree.ids), x ≤ w.ctr :=
      fun x hx => h2 x ((p1.cons id).mem_iff.2 hx)
    simp only [List.nodup_cons, List.mem_append, not_or, List.nodup_append] at h1
    obtain ⟨⟨n1, n2⟩, n3, n4, n5⟩ := h1
    obtain ⟨a1, a2, a3⟩ := ih n3 (fun x hx => (h2' x (by simp [hx])).trans hw)
    refine ⟨hw.trans a1, ?_, ?_⟩
    · rw [(p2.cons id).nodup_iff]
      simp only [List.nodup_cons, List.mem_append, not_or, List.nodup_append]
      have hid := h2' id (by simp)
      refine ⟨⟨?_, n2⟩, a2, n4, ?_⟩
      · intro hx
        rcases a3 _ hx with hx | hx
        · exact n1 hx
        · omega
      · intro x hx y hy he
        subst he
        rcases a3 _ hx with hx | hx
        · exact n5 x hx x hy rfl
        · have := h2' x (by simp [hy]); omega
    · intro x hx
      rw [(p2.cons id).mem_iff] at hx
      rw [(p1.cons id).mem_iff]
      simp only [List.mem_cons, List.mem_append] at hx ⊢
      rcases hx with hx | hx | hx
      · simp [hx]
      · rcases a3 _ hx with hx | hx
        · simp [hx]
        · right; omega
      · simp [hx]
  | @merge id s cs b l t1 t2 t' w w' n' _ hw _ _ hne ht1 ht2 _ ih =>
    intro h1 h2
    simp only [Tree.ids_node] at h1 h2 ⊢
    have p1 := flatMap_perm (perm_dropTwo hne ht1 ht2)
    have p2 := flatMap_perm (List.perm_append_singleton t' (removeTwo cs b.b1 l))
    simp only [List.flatMap_cons] at p1 p2
    rw [(p1.cons id).nodup_iff] at h1
    have h2' := fun x hx => h2 x ((p1.cons id).mem_iff.2 hx)
    simp only [List.nodup_cons, List.mem_append, not_or, List.nodup_append] at h1
    obtain ⟨⟨n1, n2, n3⟩, n4, ⟨n5, n6, n7⟩, n8⟩ := h1
    simp only [Tree.ids_node, List.flatMap_cons, List.flatMap_nil, List.append_nil,
      World.bump] at ih
    have hb : ∀ x, x ∈ t1.ids ∨ x ∈ t2.ids → x ≤ w.ctr := by
      intro x hx
      apply h2' x
      simp only [List.mem_cons, List.mem_append]
      tauto
    obtain ⟨a1, a2, a3⟩ := ih
      (by
        simp only [List.nodup_cons, List.mem_append, List.nodup_append]
        refine ⟨?_, n4, n5, fun x hx y hy => n8 x hx y (Or.inl hy)⟩
        intro hx
        have := hb _ hx; omega)
      (by
        intro x hx
        simp only [List.mem_cons, List.mem_append] at hx
        rcases hx with hx | hx
        · omega
        · have := hb _ hx; omega)
    refine ⟨by omega, ?_, ?_⟩
    · rw [(p2.cons id).nodup_iff]
      simp only [List.nodup_cons, List.mem_append, not_or, List.nodup_append]
      have hid := h2' id (by simp)
      refine ⟨⟨?_, n3⟩, a2, n6, ?_⟩
      · intro hx
        rcases a3 _ hx with hx | hx
        · simp only [List.mem_cons, List.mem_append] at hx
          rcases hx with hx | hx | hx
          · omega
          · exact n1 hx
          · exact n2 hx
        · omega
      · intro x hx y hy he
        subst he
        have hy' := h2' x (by simp only [List.mem_cons, List.mem_append]; exact Or.inr (Or.inr (Or.inr hy)))
        rcases a3 _ hx with hx | hx
        · simp only [List.mem_cons, List.mem_append] at hx
          rcases hx with hx | hx | hx
          · omega
          · exact n8 x hx x (Or.inr hy) rfl
          · exact n7 x hx x hy rfl
        · omega
    · intro x hx
      rw [(p2.cons id).mem_iff] at hx
      rw [(p1.cons id).mem_iff]
      simp only [List.mem_cons, List.mem_append] at hx ⊢
      rcases hx with hx | hx | hx
      · simp [hx]
      · rcases a3 _ hx with hx | hx
        · simp only [List.mem_cons, List.mem_append] at hx
          rcases hx with hx | hx | hx
          · right; omega
          · simp [hx]
          · simp [hx]
        · right; omega
      · unfold removeTwo at hx
        simp only [hx, or_true, true_or]
  | @split id s cs b t t' w w' n' _ hw ht hne _ ih =>
    intro h1 h2
    have p1 := flatMap_perm (perm_eraseIdx ht)
    have e : t.ids = t.id :: t.children.flatMap Tree.ids := by cases t; exact Tree.ids_node _ _ _
    simp only [List.flatMap_cons, e] at p1
    simp only [Tree.ids_node, List.flatMap_append] at h1 h2 ih ⊢
    have q : (id :: cs.flatMap Tree.ids).Perm
        (t.id :: (id :: ((cs.eraseIdx b.b1).flatMap Tree.ids ++ t.children.flatMap Tree.ids))) := by
      refine (p1.cons id).trans ?_
      refine (List.Perm.swap _ _ _).trans ?_
      exact ((List.perm_append_comm).cons id).cons t.id
    rw [q.nodup_iff, List.nodup_cons] at h1
    obtain ⟨a1, a2, a3⟩ := ih h1.2 (fun x hx => (h2 x (q.mem_iff.2 (by simp only [List.mem_cons] at hx ⊢; tauto))).trans hw)
    refine ⟨hw.trans a1, a2, ?_⟩
    intro x hx
    rcases a3 x hx with hx | hx
    · left; rw [q.mem_iff]; exact List.mem_cons_of_mem _ hx
    · right; omega

/-! ### Consequences -/

theorem RetainsL.mem {cs : List (Tree S)} {c : Tree S} (hc : c ∈ cs) : ∀ {m x : Multiset I}, RetainsL Sum Same cs m x →
    ∃ m' x', m' ≤ m ∧ x' ≤ x ∧ Retains Sum Same c m' x' := by
  induction cs with
  | nil => cases hc
  | cons d cs ih =>
    intro m x h
    obtain ⟨m1, m2, x1, x2, rfl, rfl, h1, h2⟩ := RetainsL.cons_iff.1 h
    rcases List.mem_cons.1 hc with rfl | hc
    · exact ⟨m1, x1, Multiset.le_add_right _ _, Multiset.le_add_right _ _, h1⟩
    · obtain ⟨m', x', a, b, k⟩ := ih hc h2
      exact ⟨m', x', a.trans (Multiset.le_add_left _ _), b.trans (Multiset.le_add_left _ _), k⟩

/-- Every subtree has its own instances and leftovers, some of those of the whole. -/
theorem Retains.sub {t : Tree S} {m x : Multiset I} (h : Retains Sum Same t m x) {n : Tree S} (hn : n ∈ t.nodes) :
    ∃ m' x', m' ≤ m ∧ x' ≤ x ∧ Retains Sum Same n m' x' := by
  induction t using Tree.ind generalizing m x with
  | h id s cs ih =>
    rcases Tree.mem_nodes_node.1 hn with rfl | ⟨c, hc, hn⟩
    · exact ⟨m, x, le_refl _, le_refl _, h⟩
    · cases h with
      | leaf => cases hc
      | node _ hl hle _ =>
        obtain ⟨m1, x1, a, b, k⟩ := hl.mem hc
        obtain ⟨m2, x2, a', b', k'⟩ := ih c hc k hn
        exact ⟨m2, x2, a'.trans a, (b'.trans b).trans hle, k'⟩

theorem RetainsL.sum_count (L : Laws C Ok Sum Same) {cs : List (Tree S)} : ∀ {m x : Multiset I},
    RetainsL Sum Same cs m x → (cs.map fun c => C.count c.stats).sum = Multiset.card m + Multiset.card x := by
  induction cs with
  | nil => intro m x h; obtain ⟨rfl, rfl⟩ := RetainsL.nil_iff.1 h; simp
  | cons c cs ih =>
    intro m x h
    obtain ⟨m1, m2, x1, x2, rfl, rfl, h1, h2⟩ := RetainsL.cons_iff.1 h
    rw [List.map_cons, List.sum_cons, ih h2, L.count h1.sum]
    simp only [Multiset.card_add]
    omega

/-- The leaves count the instances that they hold. -/
theorem Retains.leaf_counts (L : Laws C Ok Sum Same) {t : Tree S} {m x : Multiset I} (h : Retains Sum Same t m x) :
    (t.leaves.map fun l => C.count l.stats).sum = Multiset.card m := by
  induction t using Tree.ind generalizing m x with
  | h id s cs ih =>
    cases h with
    | leaf h1 _ _ => simp [Tree.leaves_nil, Tree.stats, L.count h1]
    | node hlen hl _ _ =>
      rw [Tree.leaves_node _ _ (by rintro rfl; simp at hlen)]
      clear hlen
      rename_i y _ _
      clear * - ih hl
      induction cs generalizing m y with
      | nil => obtain ⟨rfl, -⟩ := RetainsL.nil_iff.1 hl; simp
      | cons c cs ih2 =>
        obtain ⟨m1, m2, x1, x2, rfl, rfl, h1, h2⟩ := RetainsL.cons_iff.1 hl
        rw [List.flatMap_cons, List.map_append, List.sum_append, ih c (by simp) h1,
          ih2 (fun c hc => ih c (by simp [hc])) h2, Multiset.card_add]

/-- A node counts at least what its children count together; what it counts beyond the leaves below it is left over. -/
theorem TreeRetains.counts (L : Laws C Ok Sum Same) {t : Tree S} {m x : Multiset I} (h : TreeRetains Sum Same C t m x) :
    (t.leaves.map fun l => C.count l.stats).sum = Multiset.card m ∧
    ∀ n ∈ t.nodes, n.children ≠ [] → 2 ≤ n.children.length ∧
      (n.children.map fun c => C.count c.stats).sum ≤ C.count n.stats ∧
      C.count n.stats ≤ (n.leaves.map fun l => C.count l.stats).sum + Multiset.card x := by
  rcases h with ⟨rfl, rfl, id, rfl⟩ | h
  · refine ⟨by simpa [Tree.leaves_nil, Tree.stats] using L.count L.fresh, fun n hn hne => ?_⟩
    simp [Tree.nodes_node] at hn
    subst hn
    exact absurd rfl hne
  · refine ⟨h.leaf_counts L, fun n hn hne => ?_⟩
    obtain ⟨m', x', -, hx, k⟩ := h.sub hn
    rw [k.leaf_counts L, L.count k.sum, Multiset.card_add]
    cases k with
    | leaf => exact absurd rfl hne
    | node hlen hl hle _ =>
      refine ⟨hlen, ?_, Nat.add_le_add_left (Multiset.card_le_card hx) _⟩
      simp only [Tree.children]
      rw [hl.sum_count L]
      exact Nat.add_le_add_left (Multiset.card_le_card hle) _

end

/-! ### Reachable stores -/

section
variable {I S K : Type} [Field K] [LinearOrder K]
variable {C : NodeClass I S} {Ok : I → Prop} {Sum : S → Multiset I → Prop} {Same : I → I → Prop}
  {E : (Bool → S → Res K) → Prop}

/-- What is known about the objects of a store, `t` being the tree that they form. -/
structure Sound (C : NodeClass I S) (Sum : S → Multiset I → Prop) (Same : I → I → Prop) (h : Heap S)
    (dt : Tree (ℕ × S)) (m x : Multiset I) : Prop where
  pre : Pre h none dt
  root : h.root = dt.addr
  retains : TreeRetains Sum Same C dt.erase m x
  nodup : dt.erase.ids.Nodup
  ids : ∀ k ∈ dt.erase.ids, k ≤ h.w.ctr

theorem Sound.init {h h' : Heap S} (he : clearH C h = (.ok (), h')) :
    Sound C Sum Same h' (.node (h.w.ctr + 1) (h.next, C.fresh) []) 0 0 := by
  obtain ⟨h1, h2, h3⟩ := clearH_pre he
  refine ⟨h1, h2, .inl ⟨rfl, rfl, _, by rw [Tree.erase_node]; rfl⟩, ?_, ?_⟩
  · simp [Tree.erase_node, Tree.ids_node]
  · simp [Tree.erase_node, Tree.ids_node, h3]

theorem Sound.other {h h' : Heap S} {dt : Tree (ℕ × S)} {m x : Multiset I} (hs : Sound C Sum Same h dt m x)
    (hu : Undisturbed h h') : Sound C Sum Same h' dt m x :=
  ⟨hs.pre.undisturbed hu, hu.root.trans hs.root, hs.retains, hs.nodup, fun k hk => (hs.ids k hk).trans hu.ctr⟩

theorem Sound.step (L : Laws C Ok Sum Same) {e : Bool → S → Res K} (hf : ∀ s, Fueled (e true s)) {h h' : Heap S}
    {dt : Tree (ℕ × S)} {m x : Multiset I} (hs : Sound C Sum Same h dt m x) {i : I} (hi : Ok i) {a : ℕ}
    (hc : cobwebH C e i h = (.ok a, h')) :
    ∃ dt', Sound C Sum Same h' dt' (i ::ₘ m) x := by
  obtain ⟨o, dt', ho, he, hp, hroot, hw, -⟩ := hs.pre.step hf hs.root hc
  have hl := loopRel_of_cobweb ho
  obtain ⟨h1, h2, h3⟩ := hl.ids hs.nodup hs.ids
  refine ⟨dt', hp, hroot, .inr (he ▸ hl.treeRetains L hi hs.retains), he ▸ h2, fun k hk => ?_⟩
  rw [he] at hk
  rw [hw]
  rcases h3 k hk with hk | hk
  · exact (hs.ids k hk).trans h1
  · exact hk.2

/-- What a call that raises does to the objects. -/
theorem Pre.fail {e : Bool → S → Res K} (hf : ∀ s, Fueled (e true s)) {h h' : Heap S} {dt : Tree (ℕ × S)}
    (hp : Pre h none dt) (hroot : h.root = dt.addr) {i : I} {x : PyErr} (hc : cobwebH C e i h = (.error x, h')) :
    cobweb C (e true) dt.erase i h.w = .error x ∧ ∃ dt', Pre h' none dt' ∧ h'.root = h.root ∧ h'.root = dt'.addr ∧
      Left C (e true) i x dt.erase h.w dt'.erase h'.w.ctr ∧ dt.LeavesStay dt' ∧ h.next ≤ h'.next ∧
      ∀ y < h.next, y ∉ dt.addrs → h'.objs y = h.objs y := by
  have hA := cobwebH_agrees (C := C) hf hp hroot i
  cases hco : cobweb C (e true) dt.erase i h.w with
  | ok o =>
    rw [hco] at hA
    obtain ⟨h1, dt', a', h2, -⟩ := hA
    rw [hc] at h2; cases h2
  | error y =>
    rw [hco] at hA
    obtain ⟨h1, h2, dt', o, a', hm, hl, P⟩ := hA
    rw [hc] at h2; cases h2
    refine ⟨rfl, dt', ⟨P.rep, P.nodup, fun x hx => (P.fresh x hx).1, fun q hq => by cases hq⟩, (P.stay hm).2.1, ?_, hl,
      P.leaves, P.next, fun y hy hyd => P.frame y hy hyd (by simp)⟩
    rw [(P.stay hm).2.1, (P.stay hm).1, hroot]

theorem Sound.fail (L : Laws C Ok Sum Same) {e : Bool → S → Res K} (hf : ∀ s, Fueled (e true s)) {h h' : Heap S}
    {dt : Tree (ℕ × S)} {m x : Multiset I} (hs : Sound C Sum Same h dt m x) {i : I} (hi : Ok i) {err : PyErr}
    (hc : cobwebH C e i h = (.error err, h')) :
    ∃ dt' x', (x' = x ∨ x' = i ::ₘ x) ∧ Sound C Sum Same h' dt' m x' := by
  obtain ⟨-, dt', hp, -, hroot, hl, -⟩ := hs.pre.fail hf hs.root hc
  obtain ⟨x', hx', hk⟩ := hl.treeRetains L hi hs.retains
  obtain ⟨h1, h2, h3⟩ := hl.ids hs.nodup hs.ids
  refine ⟨dt', x', hx', hp, hroot, hk, h2, fun k hk => ?_⟩
  rcases h3 k hk with hk | hk
  · exact (hs.ids k hk).trans h1
  · exact hk.2

theorem hreachE_sound (L : Laws C Ok Sum Same) (hf : ∀ e, E e → ∀ s, Fueled (e true s)) {h : Heap S}
    {hist bad : List I} (hr : HReachE C Ok E h hist bad) :
    ∃ dt x, x ≤ (bad : Multiset I) ∧ Sound C Sum Same h dt (hist : Multiset I) x := by
  have snoc : ∀ (l : List I) (i : I), ((l ++ [i] : List I) : Multiset I) = i ::ₘ (l : Multiset I) := by
    intro l i
    rw [← Multiset.coe_add, add_comm, Multiset.coe_singleton, Multiset.singleton_add]
  induction hr with
  | init he => exact ⟨_, 0, by simp, Sound.init he⟩
  | other _ hu ih =>
    obtain ⟨dt, x, hx, hs⟩ := ih
    exact ⟨dt, x, hx, hs.other hu⟩
  | @step h h' hist bad e i a _ he hi hc ih =>
    obtain ⟨dt, x, hx, hs⟩ := ih
    obtain ⟨dt', hs'⟩ := hs.step L (hf e he) hi hc
    exact ⟨dt', x, hx, by rw [snoc]; exact hs'⟩
  | @fail h h' hist bad e i err _ he hi hc ih =>
    obtain ⟨dt, x, hx, hs⟩ := ih
    obtain ⟨dt', x', hx', hs'⟩ := hs.fail L (hf e he) hi hc
    refine ⟨dt', x', ?_, hs'⟩
    rw [snoc]
    rcases hx' with rfl | rfl
    · exact hx.trans (Multiset.le_cons_self _ _)
    · exact (Multiset.cons_le_cons_iff _).2 hx

theorem HReach.toE {h : Heap S} {hist : List I} (hr : HReach C Ok E h hist) : HReachE C Ok E h hist [] := by
  induction hr with
  | init he => exact .init he
  | other _ hu ih => exact .other ih hu
  | step _ he hi hc ih => exact .step ih he hi hc

/-- A call that raises while it chooses the operation at the root changes no object. -/
theorem Pre.fail_root {e : Bool → S → Res K} {h : Heap S} {dt : Tree (ℕ × S)} (hp : Pre h none dt)
    (hroot : h.root = dt.addr) (hne : dt.children ≠ []) {i : I} {x : PyErr}
    (hc : chooseOp C (e true) dt.erase.stats dt.erase.children i h.w = .error x) :
    ∃ h', cobwebH C e i h = (.error x, h') ∧ Undisturbed h h' := by
  obtain ⟨id, ⟨a, s⟩, cs⟩ := dt
  have hn : 0 < h.next := lt_of_le_of_lt (Nat.zero_le _) (hp.lt a (by simp [Tree.addrs_node]))
  obtain ⟨f, hfu⟩ := Nat.exists_eq_succ_of_ne_zero hn.ne'
  cases cs with
  | nil => exact absurd rfl hne
  | cons c cs' =>
    have H := hp.rep.around hp.nodup hp.lt (le_refl _)
    have hch := chooseH_spec (C := C) (ecg := e) (i := i) H
    have e1 := (rep_node.1 hp.rep).1
    rw [Tree.erase_node] at hc
    simp only [Tree.stats, Tree.children, List.map_cons] at hc hch
    rw [hc] at hch
    obtain ⟨h1, K, hc1, hrun⟩ := hch
    refine ⟨h1, ?_, K.objs, K.next, K.root, hc1⟩
    unfold cobwebH
    rw [hroot, hfu]
    show cobwebLoopH C e i (f + 1) a h = _
    unfold cobwebLoopH
    rw [HM.bind_ok' (HM.get_ok e1)]
    simp only [List.map_cons, List.isEmpty_cons, if_false, Bool.false_eq_true]
    exact hrun _

end
end CF
