/-
The loop of `cobweb` as a relation, and the facts that do not depend on the node class:
termination, concept ids, persistence of leaves.
-/
import Verif.Proofs.Choose
import Verif.Proofs.ListAux
import Verif.Proofs.TreeAux

set_option linter.unusedSectionVars false

namespace CF
section
variable {I S K : Type}

/-- Successful runs of the loop when `ch` chooses the operations, one constructor per branch. -/
inductive LoopBy (C : NodeClass I S) (ch : S → List (Tree S) → I → World → Res (Best K × Op × World)) (inst : I) :
    Tree S → World → Out S → Prop
  | hit {id s w} : (C.isExact s inst = true ∨ C.count s = 0) →
      LoopBy C ch inst (.node id s []) w ⟨.node id (C.incr s inst) [], id, false, w⟩
  | fringe {id s w} : C.isExact s inst = false → C.count s ≠ 0 →
      LoopBy C ch inst (.node id s []) w
        ⟨.node (w.ctr + 1) (C.incr (shallowCopy C s) inst)
            [.node id s [], .node (w.ctr + 2) (C.incr C.fresh inst) []],
          w.ctr + 2, true, w.bump 2⟩
  | best {id s cs w w' b t o} : cs ≠ [] → ch s cs inst w = .ok (b, .best, w') →
      w.ctr ≤ w'.ctr → cs[b.b1]? = some t → LoopBy C ch inst t w' o →
      LoopBy C ch inst (.node id s cs) w
        ⟨.node id (C.incr s inst) (putChild cs b.b1 o), o.leaf, false, o.w⟩
  | new {id s cs w w' b} : cs ≠ [] → ch s cs inst w = .ok (b, .new, w') →
      w.ctr ≤ w'.ctr →
      LoopBy C ch inst (.node id s cs) w
        ⟨.node id (C.incr s inst) (cs ++ [.node (w'.ctr + 1) (C.incr C.fresh inst) []]),
          w'.ctr + 1, false, w'.bump 1⟩
  | merge {id s cs w w' b j t1 t2 o} : cs.length > 2 →
      ch s cs inst w = .ok (b, .merge, w') → w.ctr ≤ w'.ctr → b.b2 = some j →
      j ≠ b.b1 → cs[b.b1]? = some t1 → cs[j]? = some t2 →
      LoopBy C ch inst (.node (w'.ctr + 1) (C.addFrom (C.addFrom C.fresh t1.stats) t2.stats) [t1, t2])
        (w'.bump 1) o →
      LoopBy C ch inst (.node id s cs) w
        ⟨.node id (C.incr s inst) (removeTwo cs b.b1 j ++ [o.tree]), o.leaf, false, o.w⟩
  | split {id s cs w w' b t o} : cs ≠ [] → ch s cs inst w = .ok (b, .split, w') →
      w.ctr ≤ w'.ctr → cs[b.b1]? = some t → t.children ≠ [] →
      LoopBy C ch inst (.node id s (cs.eraseIdx b.b1 ++ t.children)) w' o →
      LoopBy C ch inst (.node id s cs) w o

variable [Field K] [LinearOrder K]
variable (C : NodeClass I S) (ecg : S → Res K) (inst : I)

/-- Successful runs of the loop of the model. -/
abbrev LoopRel : Tree S → World → Out S → Prop := LoopBy C (chooseOp C ecg) inst

variable {C ecg inst}

theorem loopRel_of_cobwebLoop : ∀ (fuel : ℕ) (t : Tree S) (w : World) (o : Out S),
    cobwebLoop C ecg inst fuel t w = .ok o → LoopRel C ecg inst t w o := by
  intro fuel
  induction fuel with
  | zero => intro t w o h; simp [cobwebLoop] at h
  | succ fuel ih =>
    intro t w o h
    match t with
    | .node id s [] =>
      simp only [cobwebLoop] at h
      split at h
      · rename_i hc
        cases h; exact .hit (by simpa using hc)
      · rename_i hc
        cases h
        simp only [Bool.or_eq_true, beq_iff_eq, not_or, Bool.not_eq_true] at hc
        exact .fringe hc.1 hc.2
    | .node id s (c :: cs') =>
      simp only [cobwebLoop, bind_ok] at h
      obtain ⟨⟨b, op, w'⟩, hch, h⟩ := h
      obtain ⟨⟨t1, ht1, hsplit⟩, hmerge, hctr, -⟩ := chooseOp_spec C ecg hch
      have hne : c :: cs' ≠ [] := by simp
      generalize c :: cs' = cs at *
      cases op with
      | best =>
        simp only [ht1, bind_ok, pure_ok] at h
        obtain ⟨o', ho', rfl⟩ := h
        exact .best hne hch hctr ht1 (ih _ _ _ ho')
      | new =>
        simp only [pure_ok] at h
        cases h
        exact .new hne hch hctr
      | merge =>
        obtain ⟨h2', j, t2, hj, hne2, ht2⟩ := hmerge rfl
        simp only [hj, ht1, ht2, bind_ok, pure_ok] at h
        obtain ⟨o', ho', rfl⟩ := h
        exact .merge h2' hch hctr hj hne2 ht1 ht2 (ih _ _ _ ho')
      | split =>
        simp only [ht1] at h
        exact .split hne hch hctr ht1 (hsplit rfl) (ih _ _ _ h)

theorem loopRel_of_cobweb {t : Tree S} {w : World} {o : Out S}
    (h : cobweb C ecg t inst w = .ok o) : LoopRel C ecg inst t w o :=
  loopRel_of_cobwebLoop _ _ _ _ h

end

section
variable {I S K : Type} {C : NodeClass I S} {ch : S → List (Tree S) → I → World → Res (Best K × Op × World)} {inst : I}

/-! ### Concept ids -/

theorem flatMap_perm {cs cs' : List (Tree S)} (h : cs.Perm cs') :
    (cs.flatMap Tree.ids).Perm (cs'.flatMap Tree.ids) := h.flatMap_right _

/-- The ids of the result: still distinct, each one old or newly generated. -/
theorem LoopBy.ids {t : Tree S} {w : World} {o : Out S} (h : LoopBy C ch inst t w o) :
    t.ids.Nodup → (∀ x ∈ t.ids, x ≤ w.ctr) →
    w.ctr ≤ o.w.ctr ∧ o.tree.ids.Nodup ∧
      ∀ x ∈ o.tree.ids, x ∈ t.ids ∨ (w.ctr < x ∧ x ≤ o.w.ctr) := by
  induction h with
  | hit _ =>
    intro h1 h2
    simp only [Tree.ids_node] at *
    exact ⟨le_refl _, h1, fun x hx => Or.inl hx⟩
  | @fringe id s w _ _ =>
    intro h1 h2
    simp only [Tree.ids_node, List.flatMap_nil, List.mem_singleton, forall_eq] at h2
    simp only [Tree.ids_node, World.bump, List.flatMap_cons, List.flatMap_nil, List.append_nil]
    refine ⟨by omega, ?_, ?_⟩
    · simp; omega
    · intro x hx; simp at hx ⊢; omega
  | @best id s cs w w' b t o _ _ hw ht _ ih =>
    intro h1 h2
    simp only [Tree.ids_node] at h1 h2 ⊢
    have p1 := flatMap_perm (perm_eraseIdx ht)
    have p2 := flatMap_perm (perm_putChild ht o)
    simp only [List.flatMap_cons] at p1 p2
    rw [(p1.cons id).nodup_iff] at h1
    have h2' : ∀ x ∈ id :: (t.ids ++ (cs.eraseIdx b.b1).flatMap Tree.ids), x ≤ w.ctr :=
      fun x hx => h2 x ((p1.cons id).mem_iff.2 hx)
    simp only [List.nodup_cons, List.mem_append, not_or, List.nodup_append] at h1
    obtain ⟨⟨n1, n2⟩, n3, n4, n5⟩ := h1
    obtain ⟨a1, a2, a3⟩ := ih n3 (fun x hx => (h2' x (by simp [hx])).trans hw)
    refine ⟨hw.trans a1, ?_, ?_⟩
    · rw [(p2.cons id).nodup_iff]
      simp only [List.nodup_cons, List.mem_append, not_or, List.nodup_append]
      have hid := h2' id (by simp)
      refine ⟨⟨?_, n2⟩, a2, n4, ?_⟩
      · intro hx
        rcases a3 _ hx with hx | hx
        · exact n1 hx
        · omega
      · intro x hx y hy he
        subst he
        rcases a3 _ hx with hx | hx
        · exact n5 x hx x hy rfl
        · have := h2' x (by simp [hy]); omega
    · intro x hx
      rw [(p2.cons id).mem_iff] at hx
      rw [(p1.cons id).mem_iff]
      simp only [List.mem_cons, List.mem_append] at hx ⊢
      rcases hx with hx | hx | hx
      · simp [hx]
      · rcases a3 _ hx with hx | hx
        · simp [hx]
        · right; omega
      · simp [hx]
  | @new id s cs w w' b _ _ hw =>
    intro h1 h2
    simp only [Tree.ids_node, List.flatMap_append, List.flatMap_cons, List.flatMap_nil,
      List.append_nil, World.bump] at h1 h2 ⊢
    refine ⟨by omega, ?_, ?_⟩
    · rw [List.nodup_cons] at h1 ⊢
      have hid := h2 id (by simp)
      constructor
      · simp only [List.mem_append, List.mem_singleton, not_or]
        exact ⟨h1.1, by omega⟩
      · rw [List.nodup_append]
        refine ⟨h1.2, by simp, ?_⟩
        intro x hx y hy
        have := h2 x (by simp only [List.mem_cons, hx, or_true])
        simp at hy; omega
    · intro x hx
      simp only [List.mem_cons, List.mem_append, List.not_mem_nil, or_false] at hx ⊢
      rcases hx with hx | hx | hx
      · simp [hx]
      · simp [hx]
      · right; omega
  | @merge id s cs w w' b j t1 t2 o _ _ hw hj hne ht1 ht2 _ ih =>
    intro h1 h2
    simp only [Tree.ids_node] at h1 h2 ⊢
    have p1 := flatMap_perm (perm_dropTwo hne ht1 ht2)
    have p2 := flatMap_perm (List.perm_append_singleton o.tree (removeTwo cs b.b1 j))
    simp only [List.flatMap_cons] at p1 p2
    rw [(p1.cons id).nodup_iff] at h1
    have h2' := fun x hx => h2 x ((p1.cons id).mem_iff.2 hx)
    simp only [List.nodup_cons, List.mem_append, not_or, List.nodup_append] at h1
    obtain ⟨⟨n1, n2, n3⟩, n4, ⟨n5, n6, n7⟩, n8⟩ := h1
    simp only [Tree.ids_node, List.flatMap_cons, List.flatMap_nil, List.append_nil,
      World.bump] at ih
    have hb : ∀ x, x ∈ t1.ids ∨ x ∈ t2.ids → x ≤ w.ctr := by
      intro x hx
      apply h2' x
      simp only [List.mem_cons, List.mem_append]
      tauto
    obtain ⟨a1, a2, a3⟩ := ih
      (by
        simp only [List.nodup_cons, List.mem_append, List.nodup_append]
        refine ⟨?_, n4, n5, fun x hx y hy => n8 x hx y (Or.inl hy)⟩
        intro hx
        have := hb _ hx; omega)
      (by
        intro x hx
        simp only [List.mem_cons, List.mem_append] at hx
        rcases hx with hx | hx
        · omega
        · have := hb _ hx; omega)
    refine ⟨by omega, ?_, ?_⟩
    · rw [(p2.cons id).nodup_iff]
      simp only [List.nodup_cons, List.mem_append, not_or, List.nodup_append]
      have hid := h2' id (by simp)
      refine ⟨⟨?_, n3⟩, a2, n6, ?_⟩
      · intro hx
        rcases a3 _ hx with hx | hx
        · simp only [List.mem_cons, List.mem_append] at hx
          rcases hx with hx | hx | hx
          · omega
          · exact n1 hx
          · exact n2 hx
        · omega
      · intro x hx y hy he
        subst he
        have hy' := h2' x (by simp only [List.mem_cons, List.mem_append]; exact Or.inr (Or.inr (Or.inr hy)))
        rcases a3 _ hx with hx | hx
        · simp only [List.mem_cons, List.mem_append] at hx
          rcases hx with hx | hx | hx
          · omega
          · exact n8 x hx x (Or.inr hy) rfl
          · exact n7 x hx x hy rfl
        · omega
    · intro x hx
      rw [(p2.cons id).mem_iff] at hx
      rw [(p1.cons id).mem_iff]
      simp only [List.mem_cons, List.mem_append] at hx ⊢
      rcases hx with hx | hx | hx
      · simp [hx]
      · rcases a3 _ hx with hx | hx
        · simp only [List.mem_cons, List.mem_append] at hx
          rcases hx with hx | hx | hx
          · right; omega
          · simp [hx]
          · simp [hx]
        · right; omega
      · unfold removeTwo at hx
        simp only [hx, or_true, true_or]
  | @split id s cs w w' b t o _ _ hw ht hne _ ih =>
    intro h1 h2
    have p1 := flatMap_perm (perm_eraseIdx ht)
    have e : t.ids = t.id :: t.children.flatMap Tree.ids := by cases t; exact Tree.ids_node _ _ _
    simp only [List.flatMap_cons, e] at p1
    simp only [Tree.ids_node, List.flatMap_append] at h1 h2 ih ⊢
    have q : (id :: cs.flatMap Tree.ids).Perm
        (t.id :: (id :: ((cs.eraseIdx b.b1).flatMap Tree.ids ++ t.children.flatMap Tree.ids))) := by
      refine (p1.cons id).trans ?_
      refine (List.Perm.swap _ _ _).trans ?_
      exact ((List.perm_append_comm).cons id).cons t.id
    rw [q.nodup_iff, List.nodup_cons] at h1
    obtain ⟨a1, a2, a3⟩ := ih h1.2 (fun x hx => (h2 x (q.mem_iff.2 (by simp only [List.mem_cons] at hx ⊢; tauto))).trans hw)
    refine ⟨hw.trans a1, a2, ?_⟩
    intro x hx
    rcases a3 x hx with hx | hx
    · left; rw [q.mem_iff]; exact List.mem_cons_of_mem _ hx
    · right; omega

/-! ### The returned concept -/

/-- The returned concept is a leaf of the resulting tree, the same kind of leaf as before plus the
instance, or a new leaf for the instance alone. -/
theorem LoopBy.leaf {t : Tree S} {w : World} {o : Out S} (h : LoopBy C ch inst t w o) :
    ∃ s, .node o.leaf s [] ∈ o.tree.leaves ∧
      (s = C.incr C.fresh inst ∨
        ∃ s0, .node o.leaf s0 [] ∈ t.leaves ∧ s = C.incr s0 inst ∧
          (C.isExact s0 inst = true ∨ C.count s0 = 0)) := by
  induction h with
  | @hit id s w hx =>
    refine ⟨C.incr s inst, by rw [Tree.leaves_nil]; simp, Or.inr ⟨s, by rw [Tree.leaves_nil]; simp, rfl, hx⟩⟩
  | @fringe id s w _ _ =>
    refine ⟨C.incr C.fresh inst, ?_, Or.inl rfl⟩
    rw [Tree.leaves_node _ _ (by simp)]
    simp [Tree.leaves_nil]
  | @best id s cs w w' b t o hne _ hw ht _ ih =>
    obtain ⟨s', h1, h2⟩ := ih
    have hp := perm_putChild ht o
    have hne' : putChild cs b.b1 o ≠ [] := by
      intro h0; rw [h0] at hp; exact List.cons_ne_nil _ _ hp.symm.eq_nil
    refine ⟨s', ?_, ?_⟩
    · rw [Tree.leaves_node _ _ hne']
      exact List.mem_flatMap.2 ⟨o.tree, hp.mem_iff.2 (by simp), h1⟩
    · rcases h2 with h2 | ⟨s0, h2, h3⟩
      · exact Or.inl h2
      · refine Or.inr ⟨s0, ?_, h3⟩
        rw [Tree.leaves_node _ _ hne]
        exact List.mem_flatMap.2 ⟨t, List.mem_of_getElem? ht, h2⟩
  | @new id s cs w w' b hne _ hw =>
    refine ⟨C.incr C.fresh inst, ?_, Or.inl rfl⟩
    rw [Tree.leaves_node _ _ (by simp)]
    simp [Tree.leaves_nil]
  | @merge id s cs w w' b j t1 t2 o hlen _ hw hj hne ht1 ht2 _ ih =>
    obtain ⟨s', h1, h2⟩ := ih
    refine ⟨s', ?_, ?_⟩
    · rw [Tree.leaves_node _ _ (by simp)]
      exact List.mem_flatMap.2 ⟨o.tree, by simp, h1⟩
    · rcases h2 with h2 | ⟨s0, h2, h3⟩
      · exact Or.inl h2
      · refine Or.inr ⟨s0, ?_, h3⟩
        rw [Tree.leaves_node _ _ (by rintro rfl; simp at hlen)]
        rw [Tree.leaves_node _ _ (by simp)] at h2
        obtain ⟨c, hc, h2⟩ := List.mem_flatMap.1 h2
        refine List.mem_flatMap.2 ⟨c, ?_, h2⟩
        simp at hc
        rcases hc with rfl | rfl
        · exact List.mem_of_getElem? ht1
        · exact List.mem_of_getElem? ht2
  | @split id s cs w w' b t o hne0 _ hw ht hne _ ih =>
    obtain ⟨s', h1, h2⟩ := ih
    refine ⟨s', h1, ?_⟩
    rcases h2 with h2 | ⟨s0, h2, h3⟩
    · exact Or.inl h2
    · refine Or.inr ⟨s0, ?_, h3⟩
      rw [Tree.leaves_node _ _ hne0]
      rw [Tree.leaves_node _ _ (by simp [hne])] at h2
      obtain ⟨c, hc, h2⟩ := List.mem_flatMap.1 h2
      rcases List.mem_append.1 hc with hc | hc
      · exact List.mem_flatMap.2 ⟨c, List.mem_of_mem_eraseIdx hc, h2⟩
      · refine List.mem_flatMap.2 ⟨t, List.mem_of_getElem? ht, ?_⟩
        obtain ⟨i, s1, cs1⟩ := t
        rw [Tree.leaves_node i s1 (cs := cs1) hne]
        exact List.mem_flatMap.2 ⟨c, hc, by assumption⟩

/-- No leaf is ever lost: each leaf of the old tree is a leaf of the new one with the same id, with
the same table or with the instance added (then it is the returned concept). -/
theorem LoopBy.leaves_persist {t : Tree S} {w : World} {o : Out S}
    (h : LoopBy C ch inst t w o) :
    ∀ id s, .node id s [] ∈ t.leaves →
      .node id s [] ∈ o.tree.leaves ∨
        (.node id (C.incr s inst) [] ∈ o.tree.leaves ∧ id = o.leaf) := by
  induction h with
  | @hit id s w hx =>
    intro id' s' h
    rw [Tree.leaves_nil] at h; simp at h; obtain ⟨rfl, rfl⟩ := h
    right; rw [Tree.leaves_nil]; simp
  | @fringe id s w _ _ =>
    intro id' s' h
    rw [Tree.leaves_nil] at h; simp at h; obtain ⟨rfl, rfl⟩ := h
    left; rw [Tree.leaves_node _ _ (by simp)]; simp [Tree.leaves_nil]
  | @best id s cs w w' b t o hne _ hw ht _ ih =>
    intro id' s' h
    have hp := perm_putChild ht o
    have hne' : putChild cs b.b1 o ≠ [] := by
      intro h0; rw [h0] at hp; exact List.cons_ne_nil _ _ hp.symm.eq_nil
    rw [Tree.leaves_node _ _ hne] at h
    rw [Tree.leaves_node _ _ hne']
    have h' := ((perm_eraseIdx ht).flatMap_right Tree.leaves).mem_iff.1 h
    have q := (hp.flatMap_right Tree.leaves)
    simp only [List.flatMap_cons] at h' q
    simp only [q.mem_iff, List.mem_append]
    rcases List.mem_append.1 h' with h' | h'
    · rcases ih _ _ h' with h'' | h''
      · exact Or.inl (Or.inl h'')
      · exact Or.inr ⟨Or.inl h''.1, h''.2⟩
    · exact Or.inl (Or.inr h')
  | @new id s cs w w' b hne _ hw =>
    intro id' s' h
    rw [Tree.leaves_node _ _ hne] at h
    left
    rw [Tree.leaves_node _ _ (by simp), List.flatMap_append]
    exact List.mem_append_left _ h
  | @merge id s cs w w' b j t1 t2 o hlen _ hw hj hne ht1 ht2 _ ih =>
    intro id' s' h
    rw [Tree.leaves_node _ _ (by rintro rfl; simp at hlen)] at h
    have h' := ((perm_dropTwo hne ht1 ht2).flatMap_right Tree.leaves).mem_iff.1 h
    rw [Tree.leaves_node _ _ (by simp), List.flatMap_append]
    simp only [List.flatMap_cons, List.flatMap_nil, List.append_nil, List.mem_append] at h' ⊢
    have step : (.node id' s' [] : Tree S) ∈ t1.leaves ∨ (.node id' s' [] : Tree S) ∈ t2.leaves →
        _ := fun hx => ih id' s' (by
          rw [Tree.leaves_node _ _ (by simp)]
          simpa only [List.flatMap_cons, List.flatMap_nil, List.append_nil, List.mem_append] using hx)
    rcases h' with h' | h' | h'
    · rcases step (Or.inl h') with h'' | h''
      · exact Or.inl (Or.inr h'')
      · exact Or.inr ⟨Or.inr h''.1, h''.2⟩
    · rcases step (Or.inr h') with h'' | h''
      · exact Or.inl (Or.inr h'')
      · exact Or.inr ⟨Or.inr h''.1, h''.2⟩
    · exact Or.inl (Or.inl h')
  | @split id s cs w w' b t o hne0 _ hw ht hne _ ih =>
    intro id' s' h
    apply ih
    rw [Tree.leaves_node _ _ hne0] at h
    have h' := ((perm_eraseIdx ht).flatMap_right Tree.leaves).mem_iff.1 h
    rw [Tree.leaves_node _ _ (by simp [hne]), List.flatMap_append]
    simp only [List.flatMap_cons, List.mem_append] at h' ⊢
    rcases h' with h' | h'
    · right
      obtain ⟨i, s1, cs1⟩ := t
      rwa [Tree.leaves_node i s1 (cs := cs1) hne] at h'
    · exact Or.inl h'

end
end CF
