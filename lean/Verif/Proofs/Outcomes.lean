/-
Nothing is missing from the lists of `Model.Outcomes`: whatever the random numbers, the outcome is in the list.
-/
import Verif.Model.Outcomes
import Verif.Proofs.Textbook

set_option linter.unusedSectionVars false

namespace CF

section bare
variable {S : Type}

theorem Tree.bareL_eq (cs : List (Tree S)) : Tree.bareL cs = cs.map Tree.bare := by
  induction cs with
  | nil => rfl
  | cons c cs ih => rw [Tree.bareL, ih, List.map_cons]

theorem Tree.bare_node (id : ℕ) (s : S) (cs : List (Tree S)) : (Tree.node id s cs).bare = .node s (cs.map Tree.bare) := by
  rw [Tree.bare, Tree.bareL_eq]

@[simp] theorem Tree.bare_stats (t : Tree S) : t.bare.stats = t.stats := by
  obtain ⟨id, s, cs⟩ := t; rw [Tree.bare_node]; rfl

@[simp] theorem Tree.bare_children (t : Tree S) : t.bare.children = t.children.map Tree.bare := by
  obtain ⟨id, s, cs⟩ := t; rw [Tree.bare_node]; rfl

theorem bare_map_stats (cs : List (Tree S)) : (cs.map Tree.bare).map Bare.stats = cs.map Tree.stats := by
  simp [Function.comp_def]

mutual
theorem bare_size : ∀ t : Tree S, t.bare.size = t.numConcepts
  | .node id s cs => by rw [Tree.bare, Bare.size, Tree.numConcepts, bare_sizeL]
theorem bare_sizeL : ∀ cs : List (Tree S), Bare.sizeL (Tree.bareL cs) = Tree.numConceptsL cs
  | [] => rfl
  | c :: cs => by rw [Tree.bareL, Bare.sizeL, Tree.numConceptsL, bare_size, bare_sizeL]
end

mutual
theorem bare_leaves : ∀ t : Tree S, t.bare.leaves = t.leaves.map Tree.stats
  | .node id s [] => by simp [Tree.bare, Tree.bareL, Bare.leaves, Tree.leaves]
  | .node id s (c :: cs) => by
    rw [Tree.bare, Bare.leaves, Tree.leaves, bare_leavesL]
    simp [Tree.bareL]
theorem bare_leavesL : ∀ cs : List (Tree S), Bare.leavesL (Tree.bareL cs) = (Tree.leavesL cs).map Tree.stats
  | [] => rfl
  | c :: cs => by rw [Tree.bareL, Bare.leavesL, Tree.leavesL, bare_leaves, bare_leavesL, List.map_append]
end

theorem map_putChild {cs : List (Tree S)} {k : ℕ} {o : Out S} :
    (putChild cs k o).map Tree.bare = if o.moved then (cs.map Tree.bare).eraseIdx k ++ [o.tree.bare]
      else (cs.map Tree.bare).set k o.tree.bare := by
  unfold putChild
  split <;> simp [List.eraseIdx_map, List.map_set]

end bare

variable {I S K : Type} [Field K] [LinearOrder K] [IsStrictOrderedRing K]
variable {C : NodeClass I S} {Ok : I → Prop} {Sum : S → Multiset I → Prop} {Same : I → I → Prop}
variable {ecg : S → Res K}

theorem behind_of_notBetter {u u' : K} {n n' : ℕ} {r r' : ℚ} (h : NotBetter u n r u' n' r') :
    behind (.ok u, n) (.ok u', n') = true := by
  unfold behind
  rcases h with h | ⟨h1, h2⟩
  · simp [h]
  · have : n ≤ n' := by
      rcases h2 with h2 | h2
      · exact h2.le
      · exact h2.1.le
    simp [h1, this]

theorem behind_of_le {u u' : K} (h : u ≤ u') : behind (.ok u, 0) (.ok u', 0) = true := by
  unfold behind
  rcases h.lt_or_eq with h | h <;> simp [h]

/-- The tables can be copied. -/
def CopiesOk (C : NodeClass I S) (s : S) (cs : List S) : Prop := shallowCopy C s = s ∧ ∀ c ∈ cs, shallowCopy C c = c

theorem twoBest_listed {s : S} {cs : List S} {inst : I} {w : World} {b : Best K} (hc : CopiesOk C s cs)
    (hinc : ∀ s, C.count (C.incr s inst) = C.count s + 1) (h : twoBest C ecg s cs inst w = .ok b) :
    b.b1 ∈ firsts C ecg s cs inst ∧ b.b2 ∈ seconds C ecg s cs inst b.b1 ∧
      cuForInsert C ecg s cs b.b1 inst = .ok b.cu := by
  obtain ⟨c1, h1, h2, h3, h4, h5⟩ := twoBest_optimal hc.2 hc.1 hinc h
  obtain ⟨hlt, -⟩ := List.getElem?_eq_some_iff.1 h1
  refine ⟨?_, ?_, h2⟩
  · simp only [firsts, List.mem_filter, List.mem_range, List.all_eq_true]
    refine ⟨hlt, fun k hk => ?_⟩
    obtain ⟨u, hu, hnb⟩ := h3 k cs[k] (List.getElem?_eq_getElem hk)
    rw [bid, bid, hu, h2, h1, List.getElem?_eq_getElem hk]
    exact behind_of_notBetter hnb
  · unfold seconds
    by_cases hl : cs.length = 1
    · rw [if_pos hl, h4.2 hl]; simp
    · rw [if_neg hl]
      cases hb2 : b.b2 with
      | none => exact absurd (h4.1 hb2) hl
      | some j =>
        obtain ⟨hne, c2, u2, hc2, hu2, hall⟩ := h5 j hb2
        obtain ⟨hlt2, -⟩ := List.getElem?_eq_some_iff.1 hc2
        refine List.mem_map_of_mem ?_
        simp only [List.mem_filter, List.mem_range, Bool.and_eq_true, bne_iff_ne, List.all_eq_true,
          Bool.or_eq_true, beq_iff_eq]
        refine ⟨hlt2, hne, fun k hk => ?_⟩
        by_cases hkb : k = b.b1
        · exact .inl hkb
        · obtain ⟨u, hu, -⟩ := h3 k cs[k] (List.getElem?_eq_getElem hk)
          refine .inr ?_
          rw [bid, bid, hu, hu2, hc2, List.getElem?_eq_getElem hk]
          exact behind_of_notBetter (hall k _ u hkb (List.getElem?_eq_getElem hk) hu)

theorem bestOp_listed {s : S} {cs : List (Tree S)} {inst : I} {cu1 : K} {i : ℕ} {b2 : Option ℕ} {w : World} {off : ℕ}
    {cu : K} {op : Op} {n : ℕ} (hcu : cuForInsert C ecg s (cs.map Tree.stats) i inst = .ok cu1) {t1 : Tree S}
    (ht1 : cs[i]? = some t1) (h : bestOp C ecg allOps s cs inst cu1 (some i) b2 w off = .ok (cu, op, n)) :
    op ∈ topOps C ecg s (cs.map Tree.bare) inst i b2 := by
  obtain ⟨i', hi', -, hsc, hmax⟩ := C12_best_operation h
  cases hi'
  obtain ⟨⟨un, hn⟩, hmg, hsp⟩ := bestOp_scores h ht1
  have hall : ∀ q ∈ offers C ecg s (cs.map Tree.bare) inst i b2, ∃ u, q.2 = .ok u ∧
      OpScore C ecg s cs inst cu1 i b2 q.1 u := by
    intro q hq
    simp only [offers, bare_map_stats, List.mem_append, List.mem_cons, List.not_mem_nil, or_false,
      List.getElem?_map, ht1, Option.map_some, Option.getD_some, Tree.bare_children, List.length_map] at hq
    rcases hq with ((rfl | rfl) | hq) | hq
    · exact ⟨cu1, hcu, .best⟩
    · exact ⟨un, hn, .new hn⟩
    · cases hb : b2 with
      | none => simp [hb] at hq
      | some j =>
        cases hj : cs[j]? with
        | none => simp [hb, hj] at hq
        | some t2 =>
          simp only [hb, Option.bind_some, hj, Option.map_some] at hq
          split at hq
          · rename_i hl
            obtain ⟨u, hu⟩ := hmg j t2 hb hj hl
            simp only [List.mem_singleton] at hq
            subst hq
            exact ⟨u, hu, .merge rfl ht1 hj hl hu⟩
          · simp at hq
    · split at hq
      · rename_i hl
        have hne : t1.children ≠ [] := by rintro h0; simp [h0] at hl
        obtain ⟨u, hu⟩ := hsp hne
        simp only [List.mem_singleton] at hq
        subst hq
        exact ⟨u, hu, .split ht1 hne hu⟩
      · simp at hq
  have hmem : (op, .ok cu) ∈ offers C ecg s (cs.map Tree.bare) inst i b2 := by
    simp only [offers, bare_map_stats, List.mem_append, List.mem_cons, List.not_mem_nil, or_false,
      List.getElem?_map, ht1, Option.map_some, Option.getD_some, Tree.bare_children, List.length_map]
    cases hsc with
    | best => exact .inl (.inl (.inl (by rw [hcu])))
    | new hu => exact .inl (.inl (.inr (by rw [hu])))
    | @merge j t1' t2 _ h1 h2 h3 h4 hu =>
      rw [ht1] at h2; cases h2
      subst h1
      refine .inl (.inr ?_)
      simp [h3, h4, hu]
    | @split t1' _ h1 h2 hu =>
      rw [ht1] at h1; cases h1
      refine .inr ?_
      rw [if_pos (List.length_pos_iff.2 h2), hu]
      simp
  refine List.mem_map.2 ⟨(op, .ok cu), List.mem_filter.2 ⟨hmem, ?_⟩, rfl⟩
  rw [List.all_eq_true]
  intro q hq
  obtain ⟨u, hu, hs⟩ := hall q hq
  rw [hu]
  refine behind_of_le (hmax q.1 u ?_ hs)
  cases q.1 <;> simp [allOps]

theorem chooseOp_listed {s : S} {cs : List (Tree S)} {inst : I} {w w' : World} {b : Best K} {op : Op}
    (hc : CopiesOk C s (cs.map Tree.stats)) (hinc : ∀ s, C.count (C.incr s inst) = C.count s + 1)
    (h : chooseOp C ecg s cs inst w = .ok (b, op, w')) :
    b.b1 ∈ firsts C ecg s ((cs.map Tree.bare).map Bare.stats) inst ∧
    b.b2 ∈ seconds C ecg s ((cs.map Tree.bare).map Bare.stats) inst b.b1 ∧
    op ∈ topOps C ecg s (cs.map Tree.bare) inst b.b1 b.b2 := by
  unfold chooseOp at h
  simp only [bind_ok] at h
  obtain ⟨b', hb, ⟨cu, op', n⟩, ho, h⟩ := h
  simp only [pure_ok, Prod.mk.injEq] at h
  obtain ⟨rfl, rfl, -⟩ := h
  obtain ⟨h1, h2, h3⟩ := twoBest_listed hc hinc hb
  rw [bare_map_stats]
  refine ⟨h1, h2, ?_⟩
  have hlt : b'.b1 < cs.length := by
    have := List.mem_range.1 (List.mem_filter.1 h1).1
    simpa using this
  exact bestOp_listed h3 (List.getElem?_eq_getElem hlt) ho

/-- Every table below is that of some instances. -/
def AllSum (Sum : S → Multiset I → Prop) (t : Tree S) : Prop := ∀ x ∈ t.nodes, ∃ m, Sum x.stats m

theorem mem_nodesL {cs : List (Tree S)} {x : Tree S} : x ∈ Tree.nodesL cs ↔ ∃ c ∈ cs, x ∈ c.nodes := by
  induction cs with
  | nil => simp [Tree.nodesL]
  | cons c cs ih => simp [Tree.nodesL, ih]

theorem allSum_node {id : ℕ} {s : S} {cs : List (Tree S)} :
    AllSum Sum (.node id s cs) ↔ (∃ m, Sum s m) ∧ ∀ c ∈ cs, AllSum Sum c := by
  constructor
  · intro h
    exact ⟨h (.node id s cs) (by simp [Tree.nodes]), fun c hc x hx => h x (by
      rw [Tree.nodes, List.mem_cons, mem_nodesL]; exact .inr ⟨c, hc, hx⟩)⟩
  · rintro ⟨h1, h2⟩ x hx
    rw [Tree.nodes, List.mem_cons, mem_nodesL] at hx
    rcases hx with rfl | ⟨c, hc, hx⟩
    · exact h1
    · exact h2 c hc x hx

theorem AllSum.self {t : Tree S} (h : AllSum Sum t) : ∃ m, Sum t.stats m := by
  obtain ⟨id, s, cs⟩ := t; exact (allSum_node.1 h).1

theorem AllSum.copies (L : Laws C Ok Sum Same) {id : ℕ} {s : S} {cs : List (Tree S)} (h : AllSum Sum (.node id s cs)) :
    CopiesOk C s (cs.map Tree.stats) := by
  obtain ⟨⟨m, hm⟩, h2⟩ := allSum_node.1 h
  refine ⟨L.copy hm, fun c hc => ?_⟩
  obtain ⟨t, ht, rfl⟩ := List.mem_map.1 hc
  obtain ⟨m', hm'⟩ := (h2 t ht).self
  exact L.copy hm'

/-- Whatever the random numbers, the result of the loop is listed. -/
theorem sortAll_complete (L : Laws C Ok Sum Same) {inst : I} (hinc : ∀ s, C.count (C.incr s inst) = C.count s + 1) :
    ∀ (fuel : ℕ) (t : Tree S) (w : World) (o : Out S), AllSum Sum t → cobwebLoop C ecg inst fuel t w = .ok o →
      (o.tree.bare, o.moved) ∈ sortAll C ecg inst fuel t.bare := by
  intro fuel
  induction fuel with
  | zero => intro t w o _ h; simp [cobwebLoop] at h
  | succ fuel ih =>
    intro t w o ht h
    obtain ⟨id, s, cs⟩ := t
    cases cs with
    | nil =>
      simp only [cobwebLoop] at h
      rw [Tree.bare_node, List.map_nil, sortAll]
      split at h
      · rename_i hc
        rw [if_pos hc]
        cases h
        simp [Tree.bare_node]
      · rename_i hc
        rw [if_neg hc]
        cases h
        simp [Tree.bare_node]
    | cons c cs' =>
      simp only [cobwebLoop, bind_ok] at h
      obtain ⟨⟨b, op, w1⟩, hch, h⟩ := h
      obtain ⟨h1, h2, h3⟩ := chooseOp_listed (ht.copies L) hinc hch
      obtain ⟨hself, hsub⟩ := allSum_node.1 ht
      rw [Tree.bare_node, List.map_cons, sortAll, ← List.map_cons]
      refine List.mem_flatMap.2 ⟨_, h1, List.mem_flatMap.2 ⟨_, h2, List.mem_flatMap.2 ⟨_, h3, ?_⟩⟩⟩
      cases op with
      | best =>
        simp only at h ⊢
        cases ht1 : (c :: cs')[b.b1]? with
        | none => rw [ht1] at h; simp at h
        | some t1 =>
          rw [ht1] at h
          simp only [bind_ok, pure_ok] at h
          obtain ⟨o1, ho1, rfl⟩ := h
          have hm := ih t1 w1 o1 (hsub t1 (List.mem_of_getElem? ht1)) ho1
          rw [List.getElem?_map, ht1, Option.map_some]
          refine List.mem_map.2 ⟨_, hm, ?_⟩
          rw [Tree.bare_node, map_putChild]
      | new =>
        simp only [pure_ok] at h ⊢
        subst h
        simp [Tree.bare_node]
      | merge =>
        simp only at h ⊢
        cases hb2 : b.b2 with
        | none => rw [hb2] at h; simp at h
        | some j =>
          rw [hb2] at h
          simp only at h ⊢
          cases ht1 : (c :: cs')[b.b1]? with
          | none => rw [ht1] at h; simp at h
          | some t1 =>
            cases ht2 : (c :: cs')[j]? with
            | none => rw [ht1, ht2] at h; simp at h
            | some t2 =>
              rw [ht1, ht2] at h
              simp only [bind_ok, pure_ok] at h
              obtain ⟨o1, ho1, rfl⟩ := h
              have a1 := hsub t1 (List.mem_of_getElem? ht1)
              have a2 := hsub t2 (List.mem_of_getElem? ht2)
              obtain ⟨m1, hm1⟩ := a1.self
              obtain ⟨m2, hm2⟩ := a2.self
              have hm := ih _ _ o1 (allSum_node.2 ⟨⟨_, L.add (L.add L.fresh hm1) hm2⟩, by
                intro z hz
                simp only [List.mem_cons, List.not_mem_nil, or_false] at hz
                rcases hz with rfl | rfl
                · exact a1
                · exact a2⟩) ho1
              rw [List.getElem?_map, ht1, List.getElem?_map, ht2]
              simp only [Option.map_some]
              rw [Tree.bare_node] at hm
              simp only [Tree.bare_stats]
              refine List.mem_map.2 ⟨_, hm, ?_⟩
              rw [Tree.bare_node]
              rw [removeTwo, List.map_append, map_dropTwo]
              simp
      | split =>
        simp only at h ⊢
        cases ht1 : (c :: cs')[b.b1]? with
        | none => rw [ht1] at h; simp at h
        | some t1 =>
          rw [ht1] at h
          simp only at h
          have a1 := hsub t1 (List.mem_of_getElem? ht1)
          have hm := ih _ _ o (allSum_node.2 ⟨hself, by
            intro z hz
            rcases List.mem_append.1 hz with hz | hz
            · exact hsub z (List.mem_of_mem_eraseIdx hz)
            · obtain ⟨id1, s1, cs1⟩ := t1
              exact (allSum_node.1 a1).2 z hz⟩) h
          rw [List.getElem?_map, ht1]
          simp only [Option.map_some]
          rw [Tree.bare_node] at hm
          rw [Tree.bare_children]
          rw [List.map_append, ← List.eraseIdx_map] at hm
          exact hm

/-- So is the leaf at which `categorize` ends. -/
theorem placeAll_complete (L : Laws C Ok Sum Same) {inst : I} (hinc : ∀ s, C.count (C.incr s inst) = C.count s + 1) :
    ∀ (fuel : ℕ) (t : Tree S) (w : World) (r : Tree S × World), AllSum Sum t →
      categorizeLoop C ecg inst fuel t w = .ok r → r.1.stats ∈ placeAll C ecg inst fuel t.bare := by
  intro fuel
  induction fuel with
  | zero => intro t w r _ h; simp [categorizeLoop] at h
  | succ fuel ih =>
    intro t w r ht h
    obtain ⟨id, s, cs⟩ := t
    cases cs with
    | nil =>
      simp only [categorizeLoop, Except.ok.injEq] at h
      subst h
      simp [Tree.bare_node, placeAll]
    | cons c cs' =>
      simp only [categorizeLoop, bind_ok] at h
      obtain ⟨b, hb, h⟩ := h
      obtain ⟨h1, -, -⟩ := twoBest_listed (ht.copies L) hinc hb
      rw [Tree.bare_node, List.map_cons, placeAll, ← List.map_cons]
      refine List.mem_flatMap.2 ⟨b.b1, by rwa [bare_map_stats], ?_⟩
      cases ht1 : (c :: cs')[b.b1]? with
      | none => rw [ht1] at h; simp at h
      | some t1 =>
        rw [ht1] at h
        simp only at h
        rw [List.getElem?_map, ht1]
        exact ih t1 _ r ((allSum_node.1 ht).2 t1 (List.mem_of_getElem? ht1)) h

theorem learnAll_snoc (h : List I) (i : I) (t : Bare S) :
    learnAll C ecg (h ++ [i]) t = (learnAll C ecg h t).flatMap fun t' => (sortAll C ecg i t'.size t').map Prod.fst := by
  induction h generalizing t with
  | nil => simp [learnAll, List.map_eq_flatMap]
  | cons j h ih =>
    simp only [List.cons_append, learnAll, ih, List.flatMap_assoc]

end CF
