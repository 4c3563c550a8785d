/-
C66, the other direction for Cobweb/3: the trees of the tree model are exactly those of stores.
-/
import Verif.Props.HeapFail
import Verif.Props.CobwebTree

namespace CF
variable {A B V : Type} [DecidableEq A] [DecidableEq B] [DecidableEq V] {hid : A → Bool}

/-- What the generator of random numbers does between calls does not change the tree. -/
theorem IsTree.world {S : Type} {h : Heap S} {w : World} {t : Tree S} : ∀ {a : ℕ}, IsTree h a t →
    IsTree { h with w := w } a t := by
  induction t using Tree.ind with
  | h id s cs ih =>
    rintro a ⟨e, hf⟩
    refine .mk e ?_
    clear e
    generalize Rec.children _ = l at hf
    induction hf with
    | nil => exact .nil
    | cons hx _ ih2 => exact .cons (ih _ (by simp) hx) (ih2 fun c hc => ih c (by simp [hc]))

/-- **C66** for Cobweb/3, the other direction: every state that the tree model reaches is that of a store that a program can
produce. -/
theorem C66_tree_has_store_cobweb3 {cfg : Cfg3 A B} {st : State3 A B V} {hist : List (Inst3 A V)} {n : ℕ}
    (hr : Reach3 hid cfg st hist n) :
    ∃ h, HReach3 hid cfg h st.scales hist ∧ IsTree h h.root st.root ∧ h.w.ctr = n := by
  induction hr with
  | init w =>
    refine ⟨_, .init (h := ⟨fun _ => none, 0, 0, w⟩) rfl, ?_, rfl⟩
    obtain ⟨h1, h2, -⟩ := clearH_pre (C := (cobweb3Class hid : NodeClass (Inst3 A V) (Stats3 A V)))
      (h := ⟨fun _ => none, 0, 0, w⟩) rfl
    have := h1.rep.isTree
    rw [Tree.erase_node] at this
    rw [h2]
    exact this
  | @step st hist n i w o _ hi hn ho ih =>
    obtain ⟨h, hh, ht, hc⟩ := ih
    have hh1 : HReach3 hid cfg { h with w := w } st.scales hist :=
      .other hh ⟨fun _ _ => rfl, le_refl _, rfl, by rw [hc]; exact hn⟩
    have := C66_ifit_agrees_cobweb3 hh1 (IsTree.world (w := w) ht) i
    rw [show ({ h with w := w } : Heap (Stats3 A V)).w = w from rfl,
      show (⟨st.root, st.scales⟩ : State3 A B V) = st from rfl, ho] at this
    obtain ⟨a, h', r, hrun, hT, hw, -⟩ := this
    exact ⟨h', .step hh1 hi hrun, hT, by rw [hw]⟩

/-- **C66**: the tree model and the store reach the same trees with the same histories and scales. -/
theorem C66_same_trees_cobweb3 {cfg : Cfg3 A B} {t : Tree (Stats3 A V)} {sc : Scales B} {hist : List (Inst3 A V)} :
    (∃ n, Reach3 hid cfg ⟨t, sc⟩ hist n) ↔ ∃ h, HReach3 hid cfg h sc hist ∧ IsTree h h.root t := by
  constructor
  · rintro ⟨n, h⟩
    obtain ⟨g, h1, h2, -⟩ := C66_tree_has_store_cobweb3 h
    exact ⟨g, h1, h2⟩
  · rintro ⟨g, h1, h2⟩
    obtain ⟨t', n, h3, -, h4⟩ := C66_store_is_tree_cobweb3 h1
    rw [h2.unique h4]
    exact ⟨n, h3⟩

/-- **C66** for Cobweb. -/
theorem C66_same_trees {t : Tree (Stats A V)} {hist : List (Inst A V)} :
    (∃ n, CobwebReach hid t hist n) ↔ ∃ h, CobwebHeap hid h hist ∧ IsTree h h.root t := by
  constructor
  · rintro ⟨n, h⟩
    obtain ⟨g, h1, h2, -⟩ := C66_tree_has_store h
    exact ⟨g, h1, h2⟩
  · rintro ⟨g, h1, h2⟩
    obtain ⟨t', n, h3, -, h4⟩ := C66_store_is_tree h1
    rw [h2.unique h4]
    exact ⟨n, h3⟩

/-- Non-vacuity: the tree of the running example is that of a store. -/
example : ∃ h, CobwebHeap Demo.hid h Demo.insts ∧ IsTree h h.root Demo.demoTree :=
  C66_same_trees.1 demo_reach

end CF
