/-
C72: how large a tree can become.
-/
import Verif.Props.CobwebTree
import Verif.Props.Trestle
import Verif.Spec.Visualize

set_option linter.unusedSectionVars false

namespace CF
section
variable {I S : Type} {Sum : S → Multiset I → Prop} {Same : I → I → Prop}

theorem forall₂_card {α : Type} {R : α → Multiset I → Prop} {ls : List α} {ms : List (Multiset I)}
    (h : List.Forall₂ R ls ms) (hne : ∀ a m, R a m → m ≠ 0) : ls.length ≤ Multiset.card ms.sum := by
  induction h with
  | nil => simp
  | cons hr _ ih =>
    have := Multiset.card_pos.2 (hne _ _ hr)
    simp only [List.length_cons, List.sum_cons, Multiset.card_add]
    omega

/-- There are at most as many leaves as instances. -/
theorem Holds.leaves_le {t : Tree S} {m : Multiset I} (h : Holds Sum Same t m) :
    t.leaves.length ≤ Multiset.card m := by
  obtain ⟨ms, rfl, h2⟩ := h.leaves
  exact forall₂_card h2 fun _ _ hr => hr.2.1

theorem Tree.leaves_pos (t : Tree S) : 1 ≤ t.leaves.length := by
  induction t using Tree.ind with
  | h id s cs ih =>
    cases cs with
    | nil => simp [Tree.leaves]
    | cons c cs =>
      have := ih c (by simp)
      simp only [Tree.leaves, List.isEmpty_cons, Bool.false_eq_true, if_false, Tree.leavesL, List.length_append]
      omega

/-- Every inner node has at least two children. -/
def Bushy (t : Tree S) : Prop := ∀ x ∈ t.nodes, x.children = [] ∨ 2 ≤ x.children.length

theorem Tree.mem_nodesL {l : List (Tree S)} {c x : Tree S} (hc : c ∈ l) (hx : x ∈ c.nodes) :
    x ∈ Tree.nodesL l := by
  induction l with
  | nil => cases hc
  | cons d l ih =>
    rw [Tree.nodesL, List.mem_append]
    rcases List.mem_cons.1 hc with rfl | h
    · exact Or.inl hx
    · exact Or.inr (ih h)

theorem Bushy.child {id : ℕ} {s : S} {cs : List (Tree S)} (h : Bushy (.node id s cs)) : ∀ c ∈ cs, Bushy c := by
  intro c hc x hx
  refine h x ?_
  rw [Tree.nodes]
  exact List.mem_cons_of_mem _ (Tree.mem_nodesL hc hx)

/-- In a tree whose inner nodes have two children, less than half of the nodes are inner nodes. -/
theorem Bushy.concepts {t : Tree S} (h : Bushy t) : t.numConcepts + 1 ≤ 2 * t.leaves.length := by
  induction t using Tree.ind with
  | h id s cs ih =>
    have h0 := h (.node id s cs) (Tree.self_mem_nodes _)
    have hl : ∀ l : List (Tree S), (∀ c ∈ l, c ∈ cs) →
        Tree.numConceptsL l + l.length ≤ 2 * (Tree.leavesL l).length := by
      intro l
      induction l with
      | nil => intro _; simp [Tree.numConceptsL, Tree.leavesL]
      | cons c l ihl =>
        intro hm
        have h1 := ih c (hm c (by simp)) (h.child c (hm c (by simp)))
        have h2 := ihl fun d hd => hm d (by simp [hd])
        simp only [Tree.numConceptsL, Tree.leavesL, List.length_append, List.length_cons]
        omega
    cases cs with
    | nil => simp [Tree.numConcepts, Tree.numConceptsL, Tree.leaves]
    | cons c cs =>
      have h1 := hl (c :: cs) fun _ h => h
      have h2 : 2 ≤ (c :: cs).length := by simpa [Tree.children] using h0
      simp only [Tree.numConcepts, Tree.leaves, List.isEmpty_cons, Bool.false_eq_true, if_false]
      omega

/-- Each step down leaves at least one leaf aside. -/
theorem Bushy.height {t : Tree S} (h : Bushy t) : t.heightOf + 1 ≤ t.leaves.length := by
  induction t using Tree.ind with
  | h id s cs ih =>
    have h0 := h (.node id s cs) (Tree.self_mem_nodes _)
    have hlen : ∀ l : List (Tree S), l.length ≤ (Tree.leavesL l).length := by
      intro l
      induction l with
      | nil => simp
      | cons c l ihl =>
        have := c.leaves_pos
        simp only [Tree.leavesL, List.length_append, List.length_cons]
        omega
    have hl : ∀ l : List (Tree S), (∀ c ∈ l, c ∈ cs) →
        Tree.heightOfL l + (l.length - 1) ≤ (Tree.leavesL l).length := by
      intro l
      induction l with
      | nil => intro _; simp [Tree.heightOfL]
      | cons c l ihl =>
        intro hm
        have h1 := ih c (hm c (by simp)) (h.child c (hm c (by simp)))
        have h2 := ihl fun d hd => hm d (by simp [hd])
        have h3 := hlen l
        have h4 := c.leaves_pos
        simp only [Tree.heightOfL, Tree.leavesL, List.length_append, List.length_cons]
        omega
    cases cs with
    | nil => simp [Tree.heightOf, Tree.heightOfL, Tree.leaves]
    | cons c cs =>
      have h1 := hl (c :: cs) fun _ h => h
      have h2 : 2 ≤ (c :: cs).length := by simpa [Tree.children] using h0
      simp only [Tree.heightOf, Tree.leaves, List.isEmpty_cons, Bool.false_eq_true, if_false]
      omega

/-- Instances that can be told apart are in different leaves. -/
theorem Holds.leaves_ge {t : Tree S} {m : Multiset I} (h : Holds Sum Same t m) {l : List I} (hl : ∀ i ∈ l, i ∈ m)
    (hd : l.Pairwise fun i j => ¬ Same i j) : l.length ≤ t.leaves.length := by
  obtain ⟨ms, hs, h2⟩ := h.leaves
  rw [h2.length_eq]
  have hp : ∀ g ∈ ms, ∀ i ∈ g, ∀ j ∈ g, Same i j := by
    clear hs
    generalize t.leaves = ls at h2
    induction h2 with
    | nil => simp
    | cons hr _ ih => simpa using ⟨hr.2.2, ih⟩
  have hm : ∀ i ∈ l, ∃ k, ∃ hk : k < ms.length, i ∈ ms[k] := by
    intro i hi
    have := hl i hi
    rw [← hs] at this
    have key : ∀ ms : List (Multiset I), i ∈ ms.sum → ∃ g ∈ ms, i ∈ g := by
      intro ms
      induction ms with
      | nil => simp
      | cons g ms ih =>
        intro h
        rcases Multiset.mem_add.1 (by simpa using h) with h | h
        · exact ⟨g, by simp, h⟩
        · obtain ⟨g', h1, h2⟩ := ih h
          exact ⟨g', by simp [h1], h2⟩
    obtain ⟨g, hg, hig⟩ := key ms this
    obtain ⟨k, hk, e⟩ := List.getElem_of_mem hg
    exact ⟨k, hk, e ▸ hig⟩
  choose! f hf using hm
  have hnd : (l.map f).Nodup := by
    rw [List.Nodup, List.pairwise_map]
    refine hd.imp_of_mem ?_
    intro i j hi hj hne e
    obtain ⟨h1, h2⟩ := hf i hi
    obtain ⟨h3, h4⟩ := hf j hj
    refine hne (hp _ (List.getElem_mem h1) i h2 j ?_)
    simpa only [e] using h4
  have hsub : l.map f ⊆ List.range ms.length := by
    intro k hk
    obtain ⟨i, hi, rfl⟩ := List.mem_map.1 hk
    exact List.mem_range.2 (hf i hi).1
  simpa using (hnd.subperm hsub).length_le

/-- What C72 says about the size of a tree after fitting `hist`: the number of leaves lies between the number
of different instances and the number of instances, the number of concepts is less than twice the number of
instances, and no way down is longer than the number of instances before the last. -/
structure SizeOk (Same : I → I → Prop) (t : Tree S) (hist : List I) : Prop where
  leaves_le : t.leaves.length ≤ hist.length
  leaves_ge : ∀ l : List I, (∀ i ∈ l, i ∈ hist) → (l.Pairwise fun i j => ¬ Same i j) → l.length ≤ t.leaves.length
  concepts : t.numConcepts ≤ 2 * hist.length - 1
  height : t.heightOf ≤ hist.length - 1

theorem Holds.size {t : Tree S} {hist : List I} (h : Holds Sum Same t (hist : Multiset I)) (hb : Bushy t) :
    SizeOk Same t hist := by
  have h1 := h.leaves_le
  have h2 := hb.concepts
  have h3 := hb.height
  rw [Multiset.coe_card] at h1
  exact ⟨h1, fun l hl hd => h.leaves_ge (by simpa using hl) hd, by omega, by omega⟩

end

variable {A B V : Type} [DecidableEq A] [DecidableEq B] [DecidableEq V] {hid : A → Bool}

/-- **C72**: after `n ≥ 1` successful `ifit` calls a `CobwebTree` has at most `n` leaves and at most `2 n - 1`
concepts, no concept lies deeper than `n - 1`, and there is a leaf for each visibly different instance. -/
theorem C72_size {t : Tree (Stats A V)} {hist : List (Inst A V)} {n : ℕ} (h : CobwebReach hid t hist n)
    (hne : hist ≠ []) : SizeOk (fun i j => ∀ a, hid a = false → Dict.get? i a = Dict.get? j a) t hist := by
  rcases reach_holds (cobwebLaws hid) h with ⟨h0, -⟩ | hh
  · simp at h0; exact absurd h0 hne
  · exact hh.size (C05_at_least_two_children h)

/-- **C72** for `Cobweb3Tree`. -/
theorem C72_size_cobweb3 {cfg : Cfg3 A B} {st : State3 A B V} {hist : List (Inst3 A V)} {n : ℕ}
    (h : Reach3 hid cfg st hist n) (hne : hist ≠ []) :
    SizeOk (fun i j => ∀ a, hid a = false → Dict.get? i a = Dict.get? j a) st.root hist := by
  rcases reach3_holds h with ⟨h0, -⟩ | hh
  · simp at h0; exact absurd h0 hne
  · exact hh.size (C29_at_least_two_children h)

/-- **C72** for `TrestleTree`, with respect to the preprocessed instances. -/
theorem C72_size_trestle {c : TrestleCfg} {st : TState} {hist : List PyInst} (hc : c.Ok)
    (h : TrestleRuns c st hist) (hne : hist ≠ []) {t : Tree (Stats3 Py Py)} (ht : IsTree st.h st.h.root t) :
    SizeOk (fun i j => ∀ a, hid3 a = false → Dict.get? i a = Dict.get? j a) t (hist.map inst3) := by
  obtain ⟨n, hr, -⟩ := trestle_reach hc h ht
  exact C72_size_cobweb3 hr (by simpa using hne)

/-- The demonstration history meets the hypotheses: five instances, four of them different, four leaves, seven
concepts, height two. -/
example : (∃ n, CobwebReach Demo.hid Demo.demoTree Demo.insts n) ∧ Demo.insts.length = 5 ∧
    Demo.demoTree.leaves.length = 4 ∧ Demo.demoTree.numConcepts = 7 ∧ Demo.demoTree.heightOf = 2 :=
  ⟨demo_reach, by decide +kernel⟩

/-- The bounds are attained: two different instances make a tree of three concepts and height one. -/
example : (Demo.treeOf (Demo.run [[(1, 1)], [(1, 2)]])).numConcepts = 2 * 2 - 1 ∧
    (Demo.treeOf (Demo.run [[(1, 1)], [(1, 2)]])).leaves.length = 2 ∧
    (Demo.treeOf (Demo.run [[(1, 1)], [(1, 2)]])).heightOf = 2 - 1 := by decide +kernel

end CF
