/-
Structural induction and traversal facts for `Tree`.
-/
import Verif.Model.Cobweb
import Mathlib.Data.List.Perm.Basic
import Mathlib.Data.List.Flatten

namespace CF
namespace Tree
variable {S : Type}

/-- Structural induction with a hypothesis for every child. -/
theorem ind {P : Tree S → Prop} (h : ∀ id s cs, (∀ c ∈ cs, P c) → P (.node id s cs)) :
    ∀ t, P t
  | .node id s cs => h id s cs fun c _ => ind h c

theorem nodesL_eq (cs : List (Tree S)) : nodesL cs = cs.flatMap nodes := by
  induction cs with
  | nil => simp [nodesL]
  | cons c cs ih => simp [nodesL, ih]

theorem leavesL_eq (cs : List (Tree S)) : leavesL cs = cs.flatMap leaves := by
  induction cs with
  | nil => simp [leavesL]
  | cons c cs ih => simp [leavesL, ih]

theorem numConceptsL_eq (cs : List (Tree S)) : numConceptsL cs = (cs.map numConcepts).sum := by
  induction cs with
  | nil => simp [numConceptsL]
  | cons c cs ih => simp [numConceptsL, ih]

theorem nodes_node (id : ℕ) (s : S) (cs : List (Tree S)) :
    (Tree.node id s cs).nodes = .node id s cs :: cs.flatMap nodes := by
  rw [nodes, nodesL_eq]

theorem numConcepts_node (id : ℕ) (s : S) (cs : List (Tree S)) :
    (Tree.node id s cs).numConcepts = 1 + (cs.map numConcepts).sum := by
  rw [numConcepts, numConceptsL_eq]

theorem leaves_nil (id : ℕ) (s : S) : (Tree.node id s []).leaves = [.node id s []] := by
  simp [leaves]

theorem leaves_node (id : ℕ) (s : S) {cs : List (Tree S)} (h : cs ≠ []) :
    (Tree.node id s cs).leaves = cs.flatMap leaves := by
  cases cs with
  | nil => exact absurd rfl h
  | cons c cs => simp only [leaves, List.isEmpty_cons, Bool.false_eq_true, if_false, leavesL_eq]

theorem mem_nodes_node {id : ℕ} {s : S} {cs : List (Tree S)} {x : Tree S} :
    x ∈ (Tree.node id s cs).nodes ↔ x = .node id s cs ∨ ∃ c ∈ cs, x ∈ c.nodes := by
  rw [nodes_node]; simp

theorem self_mem_nodes (t : Tree S) : t ∈ t.nodes := by
  cases t; rw [nodes_node]; simp

theorem mem_nodes_child {t c x : Tree S} (hc : c ∈ t.children) (hx : x ∈ c.nodes) : x ∈ t.nodes := by
  cases t; exact mem_nodes_node.2 (Or.inr ⟨c, hc, hx⟩)

theorem ids_node (id : ℕ) (s : S) (cs : List (Tree S)) :
    (Tree.node id s cs).ids = id :: cs.flatMap ids := by
  unfold ids
  rw [nodes_node]
  simp [List.map_flatMap]

theorem id_mem_ids (t : Tree S) : t.id ∈ t.ids := by
  cases t; rw [ids_node]; simp

theorem numConcepts_pos (t : Tree S) : 0 < t.numConcepts := by
  cases t; rw [numConcepts_node]; omega

theorem length_nodes (t : Tree S) : t.nodes.length = t.numConcepts := by
  induction t using ind with
  | h id s cs ih =>
    rw [nodes_node, numConcepts_node, List.length_cons, List.length_flatMap, add_comm]
    congr 2
    exact List.map_congr_left ih

theorem leaves_subset_nodes (t : Tree S) : ∀ x ∈ t.leaves, x ∈ t.nodes := by
  induction t using ind with
  | h id s cs ih =>
    intro x hx
    by_cases h : cs = []
    · subst h; rw [leaves_nil] at hx; rw [nodes_node]; simpa using hx
    · rw [leaves_node _ _ h] at hx
      obtain ⟨c, hc, hx⟩ := List.mem_flatMap.1 hx
      exact mem_nodes_node.2 (Or.inr ⟨c, hc, ih c hc x hx⟩)

/-- The leaves are exactly the nodes without children. -/
theorem mem_leaves_iff (t : Tree S) (x : Tree S) : x ∈ t.leaves ↔ x ∈ t.nodes ∧ x.children = [] := by
  constructor
  · intro hx
    refine ⟨leaves_subset_nodes t x hx, ?_⟩
    induction t using ind with
    | h id s cs ih =>
      by_cases h : cs = []
      · subst h; rw [leaves_nil] at hx; simp at hx; subst hx; rfl
      · rw [leaves_node _ _ h] at hx
        obtain ⟨c, hc, hx⟩ := List.mem_flatMap.1 hx
        exact ih c hc hx
  · rintro ⟨hx, h0⟩
    induction t using ind with
    | h id s cs ih =>
      rcases mem_nodes_node.1 hx with rfl | ⟨c, hc, hx⟩
      · simp at h0; subst h0; rw [leaves_nil]; simp
      · have : cs ≠ [] := by rintro rfl; simp at hc
        rw [leaves_node _ _ this]
        exact List.mem_flatMap.2 ⟨c, hc, ih c hc hx⟩

theorem leaves_ne_nil (t : Tree S) : t.leaves ≠ [] := by
  induction t using ind with
  | h id s cs ih =>
    cases cs with
    | nil => rw [leaves_nil]; simp
    | cons c cs =>
      rw [leaves_node _ _ (by simp)]
      simp [ih c (by simp)]

theorem nodes_trans {t x y : Tree S} (hx : x ∈ t.nodes) (hy : y ∈ x.nodes) : y ∈ t.nodes := by
  induction t using ind with
  | h id s cs ih =>
    rcases mem_nodes_node.1 hx with rfl | ⟨c, hc, hx⟩
    · exact hy
    · exact mem_nodes_node.2 (Or.inr ⟨c, hc, ih c hc hx⟩)

end Tree
end CF
