/-
The scores predicted by the `cu_for_*` functions are the category utilities of the nodes obtained by
really performing the operations.
-/
import Verif.Proofs.NoRaise
import Verif.Proofs.Loop
import Verif.Model.NodeOps

set_option linter.unusedSectionVars false

namespace CF
section
variable {I S K : Type} [Field K] [LinearOrder K] [IsStrictOrderedRing K]
variable {C : NodeClass I S} {ecg : S → Res K}

/-- Reordering the children does not change the category utility (when it is defined). -/
theorem categoryUtility_perm {s : S} (h0 : C.count s ≠ 0) {cs cs' : List S} (hp : cs.Perm cs')
    (u : K) : categoryUtility C ecg s cs = .ok u ↔ categoryUtility C ecg s cs' = .ok u := by
  by_cases hne : cs = []
  · subst hne; rw [hp.symm.eq_nil]
  · have hne' : cs' ≠ [] := by rintro rfl; exact hne hp.eq_nil
    rw [categoryUtility_ok_iff h0 hne, categoryUtility_ok_iff h0 hne', (hp.map _).sum_eq,
      hp.length_eq]
    simp only [hp.mem_iff]

theorem map_dropTwo {α β : Type} (f : α → β) (l : List α) (i j : ℕ) :
    dropTwo (l.map f) i j = (dropTwo l i j).map f := by
  unfold dropTwo
  rw [List.zipIdx_map, List.filter_map, List.map_map, List.map_map]
  rfl

theorem map_copy {cs : List (Tree S)} (h : ∀ c ∈ cs, shallowCopy C c.stats = c.stats) :
    (cs.map Tree.stats).map (shallowCopy C) = cs.map Tree.stats := by
  rw [List.map_map]
  exact List.map_congr_left fun c hc => h c hc

theorem mem_of_mem_dropTwo {α : Type} {l : List α} {i j : ℕ} {x : α} (h : x ∈ dropTwo l i j) :
    x ∈ l := by
  unfold dropTwo at h
  obtain ⟨p, hp, rfl⟩ := List.mem_map.1 h
  have := List.mem_map_of_mem (f := Prod.fst) (List.mem_of_mem_filter hp)
  rwa [List.zipIdx_map_fst] at this

/-- A node whose own table and whose children's tables are reproduced by `shallow_copy`. -/
structure Copies (C : NodeClass I S) (x : Tree S) : Prop where
  self : shallowCopy C x.stats = x.stats
  child : ∀ c ∈ x.children, shallowCopy C c.stats = c.stats
  grandchild : ∀ c ∈ x.children, ∀ d ∈ c.children, shallowCopy C d.stats = d.stats

theorem cuForInsert_real {x : Tree S} (hx : Copies C x) {k : ℕ} (hk : k < x.children.length)
    (i : I) : cuForInsert C ecg x.stats (x.children.map Tree.stats) k i =
      ((x.incr C i).incrChild C k i).cu C ecg := by
  unfold cuForInsert Tree.cu
  rw [hx.self, insertChildren_eq (ck := x.children[k].stats) _ k i (by simp [hk])]
  · cases x with
    | node id s cs =>
      simp only [Tree.incrChild, Tree.incr, Tree.stats_node, Tree.children_node] at *
      congr 1
      have hk' : k < cs.length := hk
      rw [List.modify_eq_set_getElem?, List.getElem?_eq_getElem hk']
      simp only [Option.map_eq_map, Option.map_some, Option.getD_some, List.map_set]
      rfl
  · intro c hc
    obtain ⟨c, hc', rfl⟩ := List.mem_map.1 hc
    exact hx.child c hc'

theorem cuForNewChild_real {x : Tree S} (hx : Copies C x) (n : ℕ) (i : I) :
    cuForNewChild C ecg x.stats (x.children.map Tree.stats) i =
      ((x.incr C i).createNewChild C n i).cu C ecg := by
  unfold cuForNewChild Tree.cu
  rw [hx.self, map_copy hx.child]
  cases x
  simp [Tree.createNewChild, Tree.incr]

theorem cuForMerge_real {x : Tree S} (hx : Copies C x)
    (hincr : ∀ i, C.count (C.incr x.stats i) ≠ 0) {a b : ℕ} {t1 t2 : Tree S}
    (h1 : x.children[a]? = some t1) (h2 : x.children[b]? = some t2) (hab : b ≠ a) (n : ℕ) (i : I)
    (u : K) :
    cuForMerge C ecg x.stats (x.children.map Tree.stats) a b t1.stats t2.stats i = .ok u ↔
      (((x.incr C i).merge C n a b).incrChild C (x.children.length - 2) i).cu C ecg = .ok u := by
  unfold cuForMerge Tree.cu
  rw [hx.self, map_dropTwo, map_copy fun c hc => hx.child c (mem_of_mem_dropTwo hc)]
  have hlen := length_dropTwo hab h1 h2
  cases x with
  | node id s cs =>
    simp only [Tree.children_node, Tree.stats_node] at h1 h2 hlen hincr ⊢
    have e : ((Tree.node id s cs).incr C i).merge C n a b =
        .node id (C.incr s i) (dropTwo cs a b ++
          [.node n (C.addFrom (C.addFrom C.fresh t1.stats) t2.stats) [t1, t2]]) := by
      simp [Tree.merge, Tree.incr, h1, h2]
    rw [e]
    simp only [Tree.incrChild, Tree.stats_node, Tree.children_node]
    have e2 : cs.length - 2 = (dropTwo cs a b).length := by omega
    rw [e2, List.modify_eq_set_getElem?]
    simp only [List.getElem?_concat_length]
    apply categoryUtility_perm (hincr i)
    simp only [Option.map_eq_map, Option.map_some, Option.getD_some,
      List.set_append_right _ _ le_rfl, Nat.sub_self, List.set_cons_zero, List.map_append,
      List.map_cons, List.map_nil, Tree.incr, Tree.stats_node]
    exact (List.perm_append_singleton _ _).symm

theorem cuForSplit_real {x : Tree S} (hx : Copies C x) {a : ℕ} {t1 : Tree S}
    (h1 : x.children[a]? = some t1) :
    cuForSplit C ecg x.stats (x.children.map Tree.stats) a (t1.children.map Tree.stats) =
      (x.split a).cu C ecg := by
  unfold cuForSplit Tree.cu
  have e : (x.children.map Tree.stats).eraseIdx a ++ t1.children.map Tree.stats =
      (x.children.eraseIdx a ++ t1.children).map Tree.stats := by
    rw [List.map_append, List.eraseIdx_map]
  rw [hx.self, e, map_copy]
  · cases x; simp only [Tree.children_node] at h1; simp [Tree.split, h1]
  · intro c hc
    rcases List.mem_append.1 hc with hc | hc
    · exact hx.child c (List.mem_of_mem_eraseIdx hc)
    · exact hx.grandchild _ (List.mem_of_getElem? h1) c hc

theorem cuForFringeSplit_real {id : ℕ} {s : S} (hx : shallowCopy C s = s) (n n' : ℕ) (i : I) :
    cuForFringeSplit C ecg s i =
      ((((Tree.node id s []).createChildWithCurrentCounts C n).incr C i).createNewChild C n' i).cu
        C ecg := by
  unfold cuForFringeSplit Tree.cu Tree.createChildWithCurrentCounts
  simp only [hx, Tree.stats_node]
  split <;> simp [Tree.createNewChild, Tree.incr]

/-- The table of the node where the loop started is incremented exactly once, whatever happened
below. -/
theorem LoopBy.stats {L : Type} {ch : S → List (Tree S) → I → World → Res (Best L × Op × World)}
    {inst : I} {t : Tree S} {w : World} {o : Out S} (h : LoopBy C ch inst t w o)
    (hcopy : ∀ id s, t = .node id s [] → shallowCopy C s = s) :
    o.tree.stats = C.incr t.stats inst := by
  induction h with
  | hit _ => rfl
  | fringe _ _ => rw [Tree.stats_node, hcopy _ _ rfl]; rfl
  | best _ _ _ _ _ _ => rfl
  | new _ _ _ => rfl
  | merge _ _ _ _ _ _ _ _ _ => rfl
  | split _ _ _ _ hne _ ih =>
    refine ih ?_
    intro id s he
    simp at he
    exact absurd he.2.2.2 hne

end
end CF
