/-
Consequences of the invariant for every node of a reachable tree, for any lawful node class.
-/
import Verif.Model.History
import Verif.Proofs.Invariant
import Verif.Proofs.Terminate

set_option linter.unusedSectionVars false

namespace CF
section
variable {I S K : Type} [Field K] [LinearOrder K]
variable {C : NodeClass I S} {Ok : I → Prop} {Sum : S → Multiset I → Prop} {Same : I → I → Prop}
variable {E : (S → Res K) → Prop}

theorem Holds.of_mem_nodes {t x : Tree S} {m : Multiset I} (h : Holds Sum Same t m)
    (hx : x ∈ t.nodes) : ∃ m', Holds Sum Same x m' ∧ m' ≤ m := by
  induction t using Tree.ind generalizing m with
  | h id s cs ih =>
    rcases Tree.mem_nodes_node.1 hx with rfl | ⟨c, hc, hx⟩
    · exact ⟨m, h, le_rfl⟩
    · cases h with
      | leaf => simp at hc
      | node _ hl _ =>
        obtain ⟨m1, h1, hle⟩ := hl.mem hc
        obtain ⟨m2, h2, hle2⟩ := ih c hc h1 hx
        exact ⟨m2, h2, hle2.trans hle⟩

theorem HoldsL.exists_list {cs : List (Tree S)} {m : Multiset I} (h : HoldsL Sum Same cs m) :
    ∃ ms : List (Multiset I), List.Forall₂ (fun c m => Holds Sum Same c m) cs ms ∧ ms.sum = m := by
  induction cs generalizing m with
  | nil => exact ⟨[], .nil, (HoldsL.nil_iff.1 h).symm⟩
  | cons c cs ih =>
    obtain ⟨m1, m2, rfl, h1, h2⟩ := HoldsL.cons_iff.1 h
    obtain ⟨ms, h3, rfl⟩ := ih h2
    exact ⟨m1 :: ms, .cons h1 h3, by simp⟩

/-- The leaves partition the instances into non-empty groups of indistinguishable instances. -/
theorem Holds.leaves {t : Tree S} {m : Multiset I} (h : Holds Sum Same t m) :
    ∃ ms : List (Multiset I), ms.sum = m ∧
      List.Forall₂ (fun l g => Sum l.stats g ∧ g ≠ 0 ∧ ∀ i ∈ g, ∀ j ∈ g, Same i j) t.leaves ms := by
  induction t using Tree.ind generalizing m with
  | h id s cs ih =>
    cases h with
    | leaf h1 h2 h3 =>
      exact ⟨[m], by simp, by rw [Tree.leaves_nil]; exact .cons ⟨h1, h2, h3⟩ .nil⟩
    | node hlen hl hs =>
      have hne : cs ≠ [] := by rintro rfl; simp at hlen
      rw [Tree.leaves_node _ _ hne]
      clear hlen hne hs
      induction cs generalizing m with
      | nil => exact ⟨[], (HoldsL.nil_iff.1 hl).symm, .nil⟩
      | cons c cs ih2 =>
        obtain ⟨m1, m2, rfl, h1, h2⟩ := HoldsL.cons_iff.1 hl
        obtain ⟨ms1, rfl, k1⟩ := ih c (by simp) h1
        obtain ⟨ms2, rfl, k2⟩ := ih2 (fun c hc => ih c (by simp [hc])) (m := m2) h2
        refine ⟨ms1 ++ ms2, by simp, ?_⟩
        rw [List.flatMap_cons]
        exact List.rel_append k1 k2

/-- The invariant of reachable trees. -/
theorem reach_holds (L : Laws C Ok Sum Same) {t : Tree S} {h : List I} {n : ℕ}
    (hr : Reach C Ok E t h n) : TreeHolds C Sum Same t (h : Multiset I) := by
  induction hr with
  | init w => exact Or.inl ⟨rfl, w.ctr + 1, rfl⟩
  | step _ _ hi _ ho ih =>
    have := cobweb_holds L hi ih ho
    rwa [← Multiset.coe_add, add_comm, Multiset.coe_singleton, Multiset.singleton_add]

/-- Ids of reachable trees are distinct and bounded by the counter. -/
theorem reach_ids {t : Tree S} {h : List I} {n : ℕ} (hr : Reach C Ok E t h n) :
    t.ids.Nodup ∧ ∀ x ∈ t.ids, x ≤ n := by
  induction hr with
  | init w => simp [emptyTree, Tree.ids_node]
  | step _ _ _ hn ho ih =>
    obtain ⟨h1, h2, h3⟩ := (loopRel_of_cobweb ho).ids ih.1 (fun x hx => (ih.2 x hx).trans hn)
    refine ⟨h2, fun x hx => ?_⟩
    rcases h3 x hx with hx | hx
    · exact ((ih.2 x hx).trans hn).trans h1
    · exact hx.2

theorem reach_ok {t : Tree S} {h : List I} {n : ℕ} (hr : Reach C Ok E t h n) : ∀ i ∈ h, Ok i := by
  induction hr with
  | init => simp
  | step _ _ hi _ _ ih =>
    intro i hi'
    rcases List.mem_append.1 hi' with h | h
    · exact ih i h
    · simp at h; exact h ▸ hi

theorem TreeHolds.of_mem_nodes {t x : Tree S} {m : Multiset I} (h : TreeHolds C Sum Same t m)
    (hx : x ∈ t.nodes) : ∃ m', TreeHolds C Sum Same x m' ∧ m' ≤ m := by
  rcases h with ⟨rfl, id, rfl⟩ | h
  · simp [Tree.nodes_node] at hx; subst hx
    exact ⟨0, Or.inl ⟨rfl, id, rfl⟩, le_rfl⟩
  · obtain ⟨m', h1, h2⟩ := h.of_mem_nodes hx
    exact ⟨m', Or.inr h1, h2⟩

theorem TreeHolds.two_children {t : Tree S} {m : Multiset I} (h : TreeHolds C Sum Same t m) :
    t.children = [] ∨ 2 ≤ t.children.length := by
  rcases h with ⟨rfl, id, rfl⟩ | h
  · simp
  · cases h with
    | leaf => simp
    | node h _ _ => exact Or.inr h

theorem TreeHolds.children {t : Tree S} {m : Multiset I} (h : TreeHolds C Sum Same t m)
    (hne : t.children ≠ []) :
    ∃ ms : List (Multiset I), List.Forall₂ (fun c m => Holds Sum Same c m) t.children ms ∧
      ms.sum = m := by
  rcases h with ⟨rfl, id, rfl⟩ | h
  · simp at hne
  · cases h with
    | leaf => simp at hne
    | node _ h _ => exact h.exists_list

/-- Successful `fit`-style sequences of calls are histories. -/
theorem reach_fitList {ecg : S → Res K} (hE : E ecg) {l : List I} (hl : ∀ i ∈ l, Ok i)
    {t t' : Tree S} {w w' : World} {h : List I} {n : ℕ} (hr : Reach C Ok E t h n) (hn : n ≤ w.ctr)
    (hf : fitList C ecg l t w = .ok (t', w')) :
    ∃ n' ≤ w'.ctr, Reach C Ok E t' (h ++ l) n' := by
  induction l generalizing t w h n with
  | nil => simp [fitList] at hf; obtain ⟨rfl, rfl⟩ := hf; exact ⟨n, hn, by simpa⟩
  | cons i l ih =>
    simp only [fitList, bind_ok] at hf
    obtain ⟨o, ho, hf⟩ := hf
    have := ih (fun i hi => hl i (by simp [hi])) (.step hr hE (hl i (by simp)) hn ho) le_rfl hf
    simpa using this

theorem reach_fitIter {ecg : S → Res K} (hE : E ecg) {sh : Shuffle I}
    (hsh : ∀ l w, (sh l w).1.Perm l) (hsc : ∀ l w, (sh l w).2.ctr = w.ctr) {rf : Bool}
    {x todo : ℕ} {l : List I} (hl : ∀ i ∈ l, Ok i)
    {t t' : Tree S} {w w' : World} {h : List I} {n : ℕ} (hr : Reach C Ok E t h n) (hn : n ≤ w.ctr)
    (hf : fitIter C ecg sh rf x todo l t w = .ok (t', w')) :
    ∃ n' ≤ w'.ctr, ∃ h', Reach C Ok E t' (h ++ h') n' ∧
      (h' : Multiset I) = todo • (l : Multiset I) := by
  induction todo generalizing x l t w h n with
  | zero =>
    simp [fitIter] at hf; obtain ⟨rfl, rfl⟩ := hf
    exact ⟨n, hn, [], by simpa, by simp⟩
  | succ todo ih =>
    simp only [fitIter, bind_ok] at hf
    obtain ⟨⟨t1, w1⟩, h1, h2⟩ := hf
    obtain ⟨l1, w0, he, hp, hc⟩ : ∃ l1 w0, (if x = 0 ∧ rf = true then sh l w else (l, w)) = (l1, w0) ∧
        l1.Perm l ∧ w0.ctr = w.ctr := by
      split
      · exact ⟨_, _, rfl, hsh l w, hsc l w⟩
      · exact ⟨_, _, rfl, .refl _, rfl⟩
    rw [he] at h1 h2
    simp only at h1 h2
    have hl1 : ∀ i ∈ l1, Ok i := fun i hi => hl i (hp.mem_iff.1 hi)
    obtain ⟨n1, hn1, hr1⟩ := reach_fitList hE hl1 hr (by omega) h1
    have hp2 := hsh l1 w1
    obtain ⟨n2, hn2, h', hr2, hm⟩ := ih (fun i hi => hl1 i (hp2.mem_iff.1 hi)) hr1
      (by rw [hsc]; exact hn1) h2
    refine ⟨n2, hn2, l1 ++ h', by simpa using hr2, ?_⟩
    rw [← Multiset.coe_add, hm, succ_nsmul, add_comm]
    rw [Multiset.coe_eq_coe.2 (hp2.trans hp), Multiset.coe_eq_coe.2 hp]

end
end CF
