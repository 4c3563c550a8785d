/-
How many tables are evaluated at one level of the loops, and over a whole call.
-/
import Verif.Proofs.Trace
import Verif.Proofs.Terminate

namespace CF

variable {I S K : Type} [Field K] [LinearOrder K] {C : NodeClass I S} {ecg : S → Res K}

/-- What `get_best_operation` evaluates: `new`, `merge` (only if there are more than two children), `split` (only if the best
child has children). -/
theorem costs_bestOp {s : S} {cs : List (Tree S)} {inst : I} {cu1 : K} {i : ℕ} {b2 : Option ℕ} {w : World} {off : ℕ}
    {t1 : Tree S} (h1 : cs[i]? = some t1) (h2 : ∀ j, b2 = some j → j < cs.length ∧ j ≠ i)
    (h2' : b2 = none → cs.length ≤ 1) :
    Costs (bestOpT C ecg allOps s cs inst cu1 (some i) b2 w off)
      ((cs.length + 2) + ((if 2 < cs.length then cs.length else 0) +
        (if 0 < t1.children.length then cs.length + t1.children.length else 0))) := by
  unfold bestOpT
  simp only [h1]
  refine Costs.bind ?_ fun l1 _ => Costs.bind ?_ fun l2 _ => ?_
  · unfold opsNewT
    rw [if_pos (by simp [allOps])]
    have := costs_new (C := C) (ecg := ecg) s (cs.map Tree.stats) inst
    rw [List.length_map] at this
    exact costs_addOp _ _ _ _ this
  · unfold opsMergeT
    cases b2 with
    | none =>
      have := h2' rfl
      rw [if_neg (by omega)]
      exact costs_pure _
    | some j =>
      obtain ⟨hj, hne⟩ := h2 j rfl
      obtain ⟨t2, ht2⟩ : ∃ t2, cs[j]? = some t2 := ⟨_, List.getElem?_eq_getElem hj⟩
      simp only [Option.bind_some, ht2, Option.map_some]
      by_cases hl : 2 < cs.length
      · rw [if_pos ⟨by simp [allOps], hl⟩, if_pos hl]
        have := costs_merge (C := C) (ecg := ecg) s (cs := cs.map Tree.stats) hne (x := t1.stats) (y := t2.stats)
          (by simp [h1]) (by simp [ht2]) t1.stats t2.stats inst
        rw [List.length_map] at this
        exact costs_addOp _ _ _ _ this
      · rw [if_neg (fun h => hl h.2), if_neg hl]
        exact costs_pure _
  · refine Costs.bind (m := if 0 < t1.children.length then cs.length + t1.children.length else 0) (n := 0) ?_ fun l3 _ => ?_
    · unfold opsSplitT
      by_cases hl : 0 < t1.children.length
      · rw [if_pos ⟨by simp [allOps], hl⟩, if_pos hl]
        have := costs_split (C := C) (ecg := ecg) s (cs := cs.map Tree.stats) (i := i)
          (by rw [List.length_map]; exact (List.getElem?_eq_some_iff.1 h1).1) (bcs := t1.children.map Tree.stats)
          (by intro h; rw [List.map_eq_nil_iff] at h; rw [h] at hl; simp at hl)
        rw [List.length_map, List.length_map] at this
        exact costs_addOp _ _ _ _ this
      · rw [if_neg (fun h => hl h.2), if_neg hl]
        exact costs_pure _
    · cases sortOps l3 with
      | nil => exact costs_error _ _
      | cons c l => exact costs_pure _

/-- One level of the loop of `cobweb` with the choice made. -/
theorem costs_chooseOp {s : S} {cs : List (Tree S)} {inst : I} {w : World} {b : Best K}
    (hb : twoBest C ecg s (cs.map Tree.stats) inst w = .ok b) {t1 : Tree S} (h1 : cs[b.b1]? = some t1) :
    Costs (chooseOpT C ecg s cs inst w)
      ((3 * cs.length + 1) + ((cs.length + 2) + ((if 2 < cs.length then cs.length else 0) +
        (if 0 < t1.children.length then cs.length + t1.children.length else 0)))) := by
  unfold chooseOpT
  refine Costs.bind ?_ ?_
  · have := costs_twoBest (C := C) (ecg := ecg) s (cs.map Tree.stats) inst w
    rwa [List.length_map] at this
  · intro b' hb'
    rw [twoBestT_res, hb] at hb'
    cases hb'
    obtain ⟨-, hx⟩ := twoBest_idx C ecg hb
    have h2' := twoBest_second hb
    rw [List.length_map] at h2'
    exact (costs_bestOp h1 (fun j hj => by have := hx j hj; rwa [List.length_map] at this) h2').bind_pure

theorem chooseOp_best {s : S} {cs : List (Tree S)} {inst : I} {w w' : World} {b : Best K} {op : Op}
    (h : chooseOp C ecg s cs inst w = .ok (b, op, w')) : twoBest C ecg s (cs.map Tree.stats) inst w = .ok b := by
  unfold chooseOp at h
  simp only [bind_ok, pure_ok] at h
  obtain ⟨b', hb, ⟨cu, op', n⟩, -, h⟩ := h
  simp only [Prod.mk.injEq] at h
  obtain ⟨rfl, -, -⟩ := h
  exact hb

theorem length_le_concepts (cs : List (Tree S)) : cs.length ≤ (cs.map Tree.numConcepts).sum := by
  induction cs with
  | nil => simp
  | cons t cs ih =>
    have := t.numConcepts_pos
    simp only [List.length_cons, List.map_cons, List.sum_cons]
    omega

theorem concepts_children (t : Tree S) : t.numConcepts = 1 + (t.children.map Tree.numConcepts).sum := by
  cases t; exact Tree.numConcepts_node _ _ _

/-- One level, whether or not something is raised. -/
theorem level_le (s : S) (cs : List (Tree S)) (inst : I) (w : World) :
    (chooseOpT C ecg s cs inst w).seen.length ≤ 6 * (cs.map Tree.numConcepts).sum + 3 := by
  have hl := length_le_concepts cs
  cases hb : twoBest C ecg s (cs.map Tree.stats) inst w with
  | error e =>
    have h0 : (twoBestT C ecg s (cs.map Tree.stats) inst w).res = .error e := by rw [twoBestT_res, hb]
    have h1 := (costs_twoBest (C := C) (ecg := ecg) s (cs.map Tree.stats) inst w).1
    rw [List.length_map] at h1
    unfold chooseOpT
    rw [traced_bind_error h0]
    omega
  | ok b =>
    have hi := (twoBest_idx C ecg hb).1
    rw [List.length_map] at hi
    have h1 : cs[b.b1]? = some cs[b.b1] := List.getElem?_eq_getElem hi
    have hc := (costs_chooseOp hb h1).1
    have hs := sum_perm (perm_eraseIdx h1)
    have hn := concepts_children cs[b.b1]
    have hm := length_le_concepts cs[b.b1].children
    have hr := length_le_concepts (cs.eraseIdx b.b1)
    rw [List.length_eraseIdx_of_lt hi] at hr
    simp only [List.map_cons, List.sum_cons] at hs
    refine hc.trans ?_
    split_ifs <;> omega

theorem square_step {N M : ℕ} (h : M + 1 ≤ N) : 6 * (N - 1) + 3 + 3 * M ^ 2 ≤ 3 * N ^ 2 := by
  obtain ⟨d, rfl⟩ := Nat.exists_eq_add_of_le h
  have : M + 1 + d - 1 = M + d := by omega
  rw [this]
  nlinarith [Nat.zero_le (M * d), Nat.zero_le (d ^ 2)]

/-- The whole sorting loop evaluates at most `3 N²` tables on a tree of `N` concepts, raising or not. -/
theorem cobwebLoopT_le (inst : I) : ∀ (fuel : ℕ) (t : Tree S) (w : World),
    (cobwebLoopT C ecg inst fuel t w).seen.length ≤ 3 * t.numConcepts ^ 2 := by
  intro fuel
  induction fuel with
  | zero => intro t w; simp [cobwebLoopT]
  | succ fuel ih =>
    intro t w
    match t with
    | .node id s [] =>
      simp only [cobwebLoopT]
      split <;> simp
    | .node id s (c :: cs') =>
      rw [cobwebLoopT]
      have hlev := level_le (C := C) (ecg := ecg) s (c :: cs') inst w
      have hN := Tree.numConcepts_node id s (c :: cs')
      set N := (Tree.node id s (c :: cs')).numConcepts with hNdef
      clear_value N
      generalize c :: cs' = cs at *
      have hlev' : (chooseOpT C ecg s cs inst w).seen.length ≤ 6 * (N - 1) + 3 := by omega
      have big : 6 * (N - 1) + 3 + 3 * 0 ^ 2 ≤ 3 * N ^ 2 := square_step (by omega)
      cases hr : (chooseOpT C ecg s cs inst w).res with
      | error e =>
        rw [traced_bind_error hr]
        omega
      | ok q =>
        obtain ⟨b, op, w'⟩ := q
        rw [traced_bind_ok hr, List.length_append]
        rw [chooseOpT_res] at hr
        obtain ⟨⟨t1, ht1, hsplit⟩, hmerge, -, -⟩ := chooseOp_spec C ecg hr
        have hs := sum_perm (perm_eraseIdx ht1)
        simp only [List.map_cons, List.sum_cons] at hs
        have fin : ∀ {M : ℕ} {α : Type} {x : Traced S α}, x.seen.length ≤ 3 * M ^ 2 → M + 1 ≤ N →
            (chooseOpT C ecg s cs inst w).seen.length + x.seen.length ≤ 3 * N ^ 2 := by
          intro M α x hx hM
          have := square_step hM
          omega
        have post : ∀ {α β : Type} (x : Traced S α) (f : α → β), (x >>= fun a => (pure (f a) : Traced S β)).seen = x.seen := by
          intro α β x f
          cases hx : x.res with
          | error e => rw [traced_bind_error hx]
          | ok a => rw [traced_bind_ok hx]; simp
        cases op with
        | best =>
          simp only [ht1]
          rw [post]
          exact fin (ih t1 w') (by omega)
        | new => exact fin (M := 0) (by simp) (by omega)
        | merge =>
          obtain ⟨hlen, j, t2, hj, hne, ht2⟩ := hmerge rfl
          simp only [hj, ht1, ht2]
          rw [post]
          refine fin (ih _ _) ?_
          have hp := sum_perm (perm_dropTwo hne ht1 ht2)
          have hl := length_dropTwo hne ht1 ht2
          have hd := length_le_concepts (dropTwo cs b.b1 j)
          rw [Tree.numConcepts_node]
          simp only [List.map_cons, List.sum_cons, List.map_nil, List.sum_nil] at hp ⊢
          omega
        | split =>
          simp only [ht1]
          refine fin (ih _ _) ?_
          rw [Tree.numConcepts_node]
          have e := concepts_children t1
          simp only [List.map_append, List.sum_append]
          omega

/-- The descent evaluates at most four tables per concept below the root. -/
theorem categorizeLoopT_le (inst : I) : ∀ (fuel : ℕ) (t : Tree S) (w : World),
    (categorizeLoopT C ecg inst fuel t w).seen.length ≤ 4 * (t.numConcepts - 1) := by
  intro fuel
  induction fuel with
  | zero => intro t w; simp [categorizeLoopT]
  | succ fuel ih =>
    intro t w
    match t with
    | .node id s [] => simp [categorizeLoopT]
    | .node id s (c :: cs') =>
      rw [categorizeLoopT]
      have hc := (costs_twoBest (C := C) (ecg := ecg) s ((c :: cs').map Tree.stats) inst w).1
      have hN := Tree.numConcepts_node id s (c :: cs')
      have hl := length_le_concepts (c :: cs')
      have hpos : 0 < (c :: cs').length := by simp
      generalize c :: cs' = cs at *
      rw [List.length_map] at hc
      cases hr : (twoBestT C ecg s (cs.map Tree.stats) inst w).res with
      | error e => rw [traced_bind_error hr]; omega
      | ok b =>
        rw [traced_bind_ok hr, List.length_append]
        rw [twoBestT_res] at hr
        have hi := (twoBest_idx C ecg hr).1
        rw [List.length_map] at hi
        have h1 : cs[b.b1]? = some cs[b.b1] := List.getElem?_eq_getElem hi
        simp only [h1]
        have hs := sum_perm (perm_eraseIdx h1)
        have hr := length_le_concepts (cs.eraseIdx b.b1)
        rw [List.length_eraseIdx_of_lt hi] at hr
        have hn := cs[b.b1].numConcepts_pos
        simp only [List.map_cons, List.sum_cons] at hs
        have := ih cs[b.b1] ((w.skip cs.length).bump (cs.length + 1))
        omega

end CF
