/-
Which tables are evaluated: each summarises some of the instances of the tree and the one being sorted.
-/
import Verif.Proofs.TraceCost
import Verif.Proofs.Invariant

namespace CF

variable {I S K : Type} [Field K] [LinearOrder K] {C : NodeClass I S} {ecg : S → Res K}

theorem sees_evaluate {P : S → Prop} {s : S} (h : P s) : Sees P (evaluate ecg s) := by
  intro x hx
  rw [evaluate_seen, List.mem_singleton] at hx
  exact hx ▸ h

theorem sees_cuSum {P : S → Prop} (n : ℕ) {cs : List S} (h : ∀ c ∈ cs, P c) (acc : K) : Sees P (cuSumT C ecg n cs acc) := by
  induction cs generalizing acc with
  | nil => exact sees_pure _
  | cons c cs ih =>
    exact (sees_lift _).bind fun p _ => (sees_evaluate (h c (by simp))).bind fun e _ =>
      ih (fun d hd => h d (by simp [hd])) _

theorem sees_categoryUtility {P : S → Prop} {s : S} (hs : P s) {cs : List S} (h : ∀ c ∈ cs, P c) :
    Sees P (categoryUtilityT C ecg s cs) := by
  cases cs with
  | nil => exact sees_lift _
  | cons c cs => exact (sees_cuSum _ h _).bind fun g _ => (sees_evaluate hs).bind fun e _ => sees_lift _

theorem sees_constSum {P : S → Prop} (n : ℕ) {cs : List S} (h : ∀ c ∈ cs, P c) (acc : K) :
    Sees P (constSumT C ecg n cs acc) := by
  induction cs generalizing acc with
  | nil => exact sees_pure _
  | cons c cs ih =>
    exact (sees_evaluate (h c (by simp))).bind fun e _ => ih (fun d hd => h d (by simp [hd])) _

theorem sees_mkCands {P : S → Prop} {inst : I} {w : World} {cs : List S} (h : ∀ c ∈ cs, P c)
    (h' : ∀ c ∈ cs, P (C.incr (shallowCopy C c) inst)) (k : ℕ) : Sees P (mkCandsT C ecg inst w cs k) := by
  induction cs generalizing k with
  | nil => exact sees_pure _
  | cons c cs ih =>
    refine Sees.bind ?_ fun r _ => (ih (fun d hd => h d (by simp [hd])) (fun d hd => h' d (by simp [hd])) _).bind
      fun l _ => sees_pure _
    exact (sees_evaluate (h' c (by simp))).bind fun e _ => (sees_evaluate (h c (by simp))).bind fun e _ => sees_pure _

theorem sees_twoBest {P : S → Prop} {inst : I} {w : World} {s : S} {cs : List S} (h : ∀ c ∈ cs, P c)
    (h' : ∀ c ∈ cs, P (C.incr (shallowCopy C c) inst)) (hs : P (C.incr (shallowCopy C s) inst)) :
    Sees P (twoBestT C ecg s cs inst w) := by
  unfold twoBestT
  split
  · exact sees_lift _
  · refine (sees_mkCands h h' 0).bind fun l _ => ?_
    split
    · exact sees_lift _
    · refine Sees.bind ?_ fun q _ => ?_
      · exact (sees_evaluate hs).bind fun u _ => (sees_constSum _ h _).bind fun c _ => sees_lift _
      · cases sortCands l with
        | nil => exact sees_lift _
        | cons c1 rest => exact sees_pure _

theorem sees_addOp {P : S → Prop} (w : World) (off : ℕ) (l : List (OpCand K)) (op : Op) {cu : Traced S K} (h : Sees P cu) :
    Sees P (addOpT w off l op cu) := h.bind fun _ _ => sees_pure _

variable {Ok : I → Prop} {Sum : S → Multiset I → Prop} {Same : I → I → Prop}

/-- The table summarises some of the instances `M`, each at most as often as there. -/
def Part (Sum : S → Multiset I → Prop) (M : Multiset I) (s : S) : Prop := ∃ m, m ≤ M ∧ Sum s m

theorem Part.mono {M M' : Multiset I} (h : M ≤ M') {s : S} (hs : Part Sum M s) : Part Sum M' s := by
  obtain ⟨m, hm, hs⟩ := hs
  exact ⟨m, hm.trans h, hs⟩

theorem Part.copy (L : Laws C Ok Sum Same) {M : Multiset I} {s : S} (hs : Part Sum M s) : shallowCopy C s = s := by
  obtain ⟨m, hm, hs⟩ := hs
  exact L.copy hs

theorem Part.grow (L : Laws C Ok Sum Same) {inst : I} (hi : Ok inst) {M : Multiset I} {s : S} (hs : Part Sum M s) :
    Part Sum (inst ::ₘ M) (C.incr (shallowCopy C s) inst) := by
  rw [hs.copy L]
  obtain ⟨m, hm, hs⟩ := hs
  exact ⟨inst ::ₘ m, (Multiset.cons_le_cons_iff _).2 hm, L.incr hs hi⟩

theorem HoldsL.part {cs : List (Tree S)} {m : Multiset I} (h : HoldsL Sum Same cs m) : ∀ x ∈ cs.map Tree.stats, Part Sum m x := by
  intro x hx
  obtain ⟨c, hc, rfl⟩ := List.mem_map.1 hx
  obtain ⟨m', h1, h2⟩ := h.mem hc
  exact ⟨m', h2, h1.sum⟩

theorem Holds.part_children {t : Tree S} {m : Multiset I} (h : Holds Sum Same t m) :
    ∀ x ∈ t.children.map Tree.stats, Part Sum m x := by
  cases h with
  | leaf => simp [Tree.children]
  | node h2 hl hs => exact hl.part

theorem mem_dropTwo_sub {α : Type} {cs : List α} {i j : ℕ} {x : α} (h : x ∈ dropTwo cs i j) : x ∈ cs := by
  unfold dropTwo at h
  obtain ⟨⟨y, k⟩, h1, rfl⟩ := List.mem_map.1 h
  exact (List.mem_zipIdx (List.mem_filter.1 h1).1).2.2 ▸ List.getElem_mem _

theorem sees_chooseOp (L : Laws C Ok Sum Same) {inst : I} (hi : Ok inst) {s : S} {cs : List (Tree S)} {m : Multiset I}
    (hl : HoldsL Sum Same cs m) (hs : Sum s m) (w : World) :
    Sees (Part Sum (inst ::ₘ m)) (chooseOpT C ecg s cs inst w) := by
  have up : m ≤ inst ::ₘ m := Multiset.le_cons_self _ _
  have hp := hl.part
  have hps : Part Sum m s := ⟨m, le_refl _, hs⟩
  have hcopy : ∀ x ∈ (cs.map Tree.stats), Part Sum (inst ::ₘ m) (shallowCopy C x) := by
    intro x hx
    rw [(hp x hx).copy L]
    exact (hp x hx).mono up
  have hfresh : Part Sum (inst ::ₘ m) (C.incr C.fresh inst) :=
    ⟨inst ::ₘ 0, (Multiset.cons_le_cons_iff _).2 (Multiset.zero_le _), L.incr L.fresh hi⟩
  unfold chooseOpT
  refine (sees_twoBest (fun c hc => (hp c hc).mono up) (fun c hc => (hp c hc).grow L hi) (hps.grow L hi)).bind fun b hb => ?_
  refine Sees.bind ?_ fun q _ => sees_pure _
  rw [twoBestT_res] at hb
  have hx := (twoBest_idx C ecg hb).2
  simp only [List.length_map] at hx
  unfold bestOpT
  dsimp only
  cases h1 : cs[b.b1]? with
  | none => exact sees_lift _
  | some t1 =>
    obtain ⟨m1, ht1, hm1⟩ := hl.mem (List.mem_of_getElem? h1)
    dsimp only
    refine Sees.bind ?_ fun l1 _ => Sees.bind ?_ fun l2 _ => Sees.bind ?_ fun l3 _ => ?_
    · unfold opsNewT
      split
      · refine sees_addOp _ _ _ _ (sees_categoryUtility (hps.grow L hi) ?_)
        intro c hc
        rcases List.mem_append.1 hc with hc | hc
        · obtain ⟨x, hx', rfl⟩ := List.mem_map.1 hc
          exact hcopy x hx'
        · rw [List.mem_singleton] at hc
          exact hc ▸ hfresh
      · exact sees_pure _
    · unfold opsMergeT
      cases hb2 : b.b2 with
      | none => exact sees_pure _
      | some j =>
        obtain ⟨hj, hne⟩ := hx j hb2
        have h2 : cs[j]? = some cs[j] := List.getElem?_eq_getElem hj
        simp only [Option.bind_some, h2, Option.map_some]
        split
        · refine sees_addOp _ _ _ _ (sees_categoryUtility (hps.grow L hi) ?_)
          intro c hc
          rcases List.mem_cons.1 hc with rfl | hc
          · have hq := hl.perm (perm_dropTwo hne h1 h2)
            obtain ⟨a, r, rfl, ha, hr⟩ := HoldsL.cons_iff.1 hq
            obtain ⟨b', r', rfl, hb', hr'⟩ := HoldsL.cons_iff.1 hr
            refine ⟨inst ::ₘ (a + b'), (Multiset.cons_le_cons_iff _).2 ?_, L.incr ?_ hi⟩
            · exact Multiset.le_iff_exists_add.2 ⟨r', (add_assoc _ _ _).symm⟩
            · rw [show C.addFrom C.fresh t1.stats = t1.stats from L.copy ha.sum]
              exact L.add ha.sum hb'.sum
          · obtain ⟨x, hx', rfl⟩ := List.mem_map.1 hc
            exact hcopy x (mem_dropTwo_sub hx')
        · exact sees_pure _
    · unfold opsSplitT
      split
      · refine sees_addOp _ _ _ _ (sees_categoryUtility ?_ ?_)
        · rw [hps.copy L]; exact hps.mono up
        · intro c hc
          obtain ⟨x, hx', rfl⟩ := List.mem_map.1 hc
          rcases List.mem_append.1 hx' with hx' | hx'
          · exact hcopy x (List.mem_of_mem_eraseIdx hx')
          · have := ht1.part_children x hx'
            rw [this.copy L]
            exact this.mono (hm1.trans up)
      · exact sees_pure _
    · cases sortOps l3 with
      | nil => exact sees_lift _
      | cons c l => exact sees_pure _

/-- Every table evaluated while sorting. -/
theorem cobwebLoopT_sees (L : Laws C Ok Sum Same) {inst : I} (hi : Ok inst) : ∀ (fuel : ℕ) (t : Tree S) (w : World)
    (m : Multiset I), Holds Sum Same t m → Sees (Part Sum (inst ::ₘ m)) (cobwebLoopT C ecg inst fuel t w) := by
  intro fuel
  induction fuel with
  | zero => intro t w m _; exact sees_lift _
  | succ fuel ih =>
    intro t w m ht
    match t with
    | .node id s [] =>
      simp only [cobwebLoopT]
      split <;> exact sees_pure _
    | .node id s (c :: cs') =>
      rw [cobwebLoopT]
      obtain ⟨h2, hl, hs⟩ : 2 ≤ (c :: cs').length ∧ HoldsL Sum Same (c :: cs') m ∧ Sum s m := by
        cases ht with | node h2 hl hs => exact ⟨h2, hl, hs⟩
      generalize c :: cs' = cs at *
      refine (sees_chooseOp L hi hl hs w).bind ?_
      rintro ⟨b, op, w'⟩ hr
      rw [chooseOpT_res] at hr
      obtain ⟨⟨t1, ht1, hsplit⟩, hmerge, -, -⟩ := chooseOp_spec C ecg hr
      have up : ∀ {m' : Multiset I} {α : Type} {x : Traced S α}, m' ≤ m → Sees (Part Sum (inst ::ₘ m')) x →
          Sees (Part Sum (inst ::ₘ m)) x := fun hle hx s hs => (hx s hs).mono ((Multiset.cons_le_cons_iff _).2 hle)
      cases op with
      | best =>
        simp only [ht1]
        obtain ⟨m1, h1, hm1⟩ := hl.mem (List.mem_of_getElem? ht1)
        exact (up hm1 (ih t1 w' m1 h1)).bind fun _ _ => sees_pure _
      | new => exact sees_pure _
      | merge =>
        obtain ⟨hlen, j, t2, hj, hne, ht2⟩ := hmerge rfl
        simp only [hj, ht1, ht2]
        have hq := hl.perm (perm_dropTwo hne ht1 ht2)
        obtain ⟨a, r, rfl, ha, hr⟩ := HoldsL.cons_iff.1 hq
        obtain ⟨b', r', rfl, hb', hr'⟩ := HoldsL.cons_iff.1 hr
        refine (up (m' := a + b') (Multiset.le_iff_exists_add.2 ⟨r', (add_assoc _ _ _).symm⟩) (ih _ _ _ ?_)).bind
          fun _ _ => sees_pure _
        refine .node (by simp) (HoldsL.cons_iff.2 ⟨a, b', rfl, ha, ?_⟩) ?_
        · exact HoldsL.cons_iff.2 ⟨b', 0, (add_zero _).symm, hb', .nil⟩
        · rw [show C.addFrom C.fresh t1.stats = t1.stats from L.copy ha.sum]
          exact L.add ha.sum hb'.sum
      | split =>
        simp only [ht1]
        refine ih _ _ m ?_
        have hq := hl.perm (perm_eraseIdx ht1)
        obtain ⟨a, r, rfl, ha, hr⟩ := HoldsL.cons_iff.1 hq
        have hlt := (List.getElem?_eq_some_iff.1 ht1).1
        cases ha with
        | leaf => exact absurd rfl (hsplit rfl)
        | node h3 hl3 hs3 =>
          refine .node ?_ (HoldsL.append_iff.2 ⟨r, a, add_comm _ _, hr, hl3⟩) hs
          rw [List.length_append, Tree.children]
          omega

/-- Every table evaluated while categorizing. -/
theorem categorizeLoopT_sees (L : Laws C Ok Sum Same) {inst : I} (hi : Ok inst) : ∀ (fuel : ℕ) (t : Tree S) (w : World)
    (m : Multiset I), Holds Sum Same t m → Sees (Part Sum (inst ::ₘ m)) (categorizeLoopT C ecg inst fuel t w) := by
  intro fuel
  induction fuel with
  | zero => intro t w m _; exact sees_lift _
  | succ fuel ih =>
    intro t w m ht
    match t with
    | .node id s [] => exact sees_pure _
    | .node id s (c :: cs') =>
      rw [categorizeLoopT]
      obtain ⟨h2, hl, hs⟩ : 2 ≤ (c :: cs').length ∧ HoldsL Sum Same (c :: cs') m ∧ Sum s m := by
        cases ht with | node h2 hl hs => exact ⟨h2, hl, hs⟩
      generalize c :: cs' = cs at *
      have up : m ≤ inst ::ₘ m := Multiset.le_cons_self _ _
      have hp := hl.part
      have hps : Part Sum m s := ⟨m, le_refl _, hs⟩
      refine (sees_twoBest (fun c hc => (hp c hc).mono up) (fun c hc => (hp c hc).grow L hi) (hps.grow L hi)).bind
        fun b hb => ?_
      cases h1 : cs[b.b1]? with
      | none => exact sees_lift _
      | some t1 =>
        obtain ⟨m1, h1, hm1⟩ := hl.mem (List.mem_of_getElem? h1)
        intro x hx
        exact (ih t1 _ m1 h1 x hx).mono ((Multiset.cons_le_cons_iff _).2 hm1)

end CF
