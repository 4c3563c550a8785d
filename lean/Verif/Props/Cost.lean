/-
C109: what sorting and categorizing an instance costs, counted in evaluations of `expected_correct_guesses` and, within one,
in squared probabilities.
-/
import Verif.Proofs.TraceSees
import Verif.Proofs.TraceHonest
import Verif.Props.Size
import Verif.Props.Cobweb3

set_option linter.unusedSectionVars false

namespace CF

section
variable {I S K : Type} [Field K] [LinearOrder K] {C : NodeClass I S} {ecg : S → Res K}

theorem fitListT_res (l : List I) (t : Tree S) (w : World) : (fitListT C ecg l t w).res = fitList C ecg l t w := by
  induction l generalizing t w with
  | nil => rfl
  | cons i l ih =>
    rw [fitListT, fitList, traced_bind_res]
    unfold cobwebT cobweb
    rw [cobwebLoopT_res]
    congr 1
    funext o
    exact ih _ _

/-- **C109**: the functions with the record are the functions of the model. -/
theorem C109_same (t : Tree S) (i : I) (w : World) (l : List I) :
    (cobwebT C ecg t i w).res = cobweb C ecg t i w ∧ (categorizeT C ecg t i w).res = categorize C ecg t i w ∧
      (fitListT C ecg l t w).res = fitList C ecg l t w :=
  ⟨cobwebLoopT_res _ _ _ _, categorizeLoopT_res _ _ _ _, fitListT_res _ _ _⟩

/-- **C109**: the record is right.  What `cobweb` does depends on the scores of the recorded tables only, and if the score of one
of them raises, the ones recorded before having been as they were, the call raises just that. -/
theorem C109_record (t : Tree S) (i : I) (w : World) {ecg' : S → Res K} :
    ((∀ s ∈ (cobwebT C ecg t i w).seen, ecg' s = ecg s) → cobweb C ecg' t i w = cobweb C ecg t i w) ∧
    ∀ pre s post e, (cobwebT C ecg t i w).seen = pre ++ s :: post → (∀ x ∈ pre, ecg' x = ecg x) → ecg' s = .error e →
      cobweb C ecg' t i w = .error e := by
  have h := honest_cobwebLoop (C := C) (K := K) i t.numConcepts t w
  refine ⟨fun ha => ?_, fun pre s post e h1 h2 h3 => ?_⟩
  · have := congrArg Traced.res (h.only ecg ecg' ha)
    rwa [cobwebLoopT_res, cobwebLoopT_res] at this
  · have := h.all ecg ecg' pre s post e h1 h2 h3
    rwa [cobwebLoopT_res] at this

/-- **C109**: the same for `categorize`. -/
theorem C109_record_categorize (t : Tree S) (i : I) (w : World) {ecg' : S → Res K} :
    ((∀ s ∈ (categorizeT C ecg t i w).seen, ecg' s = ecg s) → categorize C ecg' t i w = categorize C ecg t i w) ∧
    ∀ pre s post e, (categorizeT C ecg t i w).seen = pre ++ s :: post → (∀ x ∈ pre, ecg' x = ecg x) → ecg' s = .error e →
      categorize C ecg' t i w = .error e := by
  have h := honest_categorizeLoop (C := C) (K := K) i t.numConcepts t w
  refine ⟨fun ha => ?_, fun pre s post e h1 h2 h3 => ?_⟩
  · have := congrArg Traced.res (h.only ecg ecg' ha)
    rwa [categorizeLoopT_res, categorizeLoopT_res] at this
  · have := h.all ecg ecg' pre s post e h1 h2 h3
    rwa [categorizeLoopT_res] at this

/-- **C109**: choosing the best two of `B` children takes `3 B + 1` evaluations, where computing `cu_for_insert` for each of
them would take `B (B + 1)`. -/
theorem C109_two_best {s : S} {cs : List S} {i : I} {w : World} {b : Best K} (h : twoBest C ecg s cs i w = .ok b) :
    (twoBestT C ecg s cs i w).seen.length = 3 * cs.length + 1 ∧
    ((∀ k < cs.length, ∃ x, cuForInsert C ecg s cs k i = .ok x) →
      ((List.range cs.length).flatMap fun k => (cuForInsertT C ecg s cs k i).seen).length = cs.length * (cs.length + 1)) := by
  refine ⟨(costs_twoBest s cs i w).2 b (by rw [twoBestT_res, h]), fun hall => ?_⟩
  have hne : cs ≠ [] := by
    rintro rfl
    have := (twoBest_idx C ecg h).1
    simp at this
  rw [List.length_flatMap]
  have : (List.range cs.length).map (fun k => (cuForInsertT C ecg s cs k i).seen.length) =
      (List.range cs.length).map fun _ => cs.length + 1 := by
    refine List.map_congr_left fun k hk => ?_
    obtain ⟨x, hx⟩ := hall k (List.mem_range.1 hk)
    exact (costs_insert s hne k i).2 x (by rw [cuForInsertT_res, hx])
  rw [this]
  simp

/-- The way chosen is the cheaper one from three children on. -/
theorem C109_worth_it (B : ℕ) : 3 * B + 1 < B * (B + 1) ↔ 3 ≤ B := by
  constructor
  · intro h
    by_contra hB
    interval_cases B <;> omega
  · intro h
    nlinarith

/-- **C109**: what one pass through the loop of `cobweb` evaluates, with `B` children of which the best has `m` children. -/
theorem C109_level {s : S} {cs : List (Tree S)} {i : I} {w w' : World} {b : Best K} {op : Op}
    (h : chooseOp C ecg s cs i w = .ok (b, op, w')) : ∃ t1, cs[b.b1]? = some t1 ∧
      (chooseOpT C ecg s cs i w).seen.length =
        (3 * cs.length + 1) + (cs.length + 2) + (if 2 < cs.length then cs.length else 0) +
          (if t1.children = [] then 0 else cs.length + t1.children.length) := by
  obtain ⟨⟨t1, h1, -⟩, -⟩ := chooseOp_spec C ecg h
  refine ⟨t1, h1, ?_⟩
  rw [(costs_chooseOp (chooseOp_best h) h1).2 _ (by rw [chooseOpT_res, h])]
  have : (if 0 < t1.children.length then cs.length + t1.children.length else 0) =
      if t1.children = [] then 0 else cs.length + t1.children.length := by
    cases t1.children <;> simp
  rw [this]
  omega

/-- **C109**: a call of `cobweb` on a tree of `N` concepts makes at most `3 N²` evaluations, also if it raises. -/
theorem C109_cobweb (t : Tree S) (i : I) (w : World) : (cobwebT C ecg t i w).seen.length ≤ 3 * t.numConcepts ^ 2 :=
  cobwebLoopT_le _ _ _ _

/-- **C109**: a call of `categorize` on a tree of `N` concepts makes at most `4 (N - 1)` evaluations, also if it raises. -/
theorem C109_categorize (t : Tree S) (i : I) (w : World) : (categorizeT C ecg t i w).seen.length ≤ 4 * (t.numConcepts - 1) :=
  categorizeLoopT_le _ _ _ _

theorem heightOf_child {id : ℕ} {s : S} {cs : List (Tree S)} {c : Tree S} (h : c ∈ cs) :
    c.heightOf + 1 ≤ (Tree.node id s cs).heightOf := by
  rw [Tree.heightOf]
  induction cs with
  | nil => cases h
  | cons d cs ih =>
    rw [Tree.heightOfL]
    rcases List.mem_cons.1 h with rfl | h
    · exact le_max_left _ _
    · exact (ih h).trans (le_max_right _ _)

theorem categorizeLoopT_height {B : ℕ} (i : I) : ∀ (fuel : ℕ) (t : Tree S) (w : World),
    (∀ x ∈ t.nodes, x.children.length ≤ B) →
    (categorizeLoopT C ecg i fuel t w).seen.length ≤ t.heightOf * (3 * B + 1) := by
  intro fuel
  induction fuel with
  | zero => intro t w _; simp [categorizeLoopT]
  | succ fuel ih =>
    intro t w hB
    match t with
    | .node id s [] => simp [categorizeLoopT]
    | .node id s (c :: cs') =>
      rw [categorizeLoopT]
      have hc := (costs_twoBest (C := C) (ecg := ecg) s ((c :: cs').map Tree.stats) i w).1
      have h0 : (c :: cs').length ≤ B := hB _ (Tree.self_mem_nodes _)
      have hch : ∀ d ∈ c :: cs', d.heightOf + 1 ≤ (Tree.node id s (c :: cs')).heightOf ∧
          ∀ x ∈ d.nodes, x.children.length ≤ B := by
        intro d hd
        refine ⟨heightOf_child hd, fun x hx => hB x ?_⟩
        rw [Tree.nodes]
        exact List.mem_cons_of_mem _ (Tree.mem_nodesL hd hx)
      have hpos : 1 ≤ (Tree.node id s (c :: cs')).heightOf := (Nat.le_add_left 1 _).trans (hch c (by simp)).1
      generalize (Tree.node id s (c :: cs')).heightOf = H at *
      generalize c :: cs' = cs at *
      rw [List.length_map] at hc
      have hstep : 3 * cs.length + 1 ≤ 3 * B + 1 := by omega
      cases hr : (twoBestT C ecg s (cs.map Tree.stats) i w).res with
      | error e =>
        rw [traced_bind_error hr]
        nlinarith
      | ok b =>
        rw [traced_bind_ok hr, List.length_append]
        rw [twoBestT_res] at hr
        have hi := (twoBest_idx C ecg hr).1
        rw [List.length_map] at hi
        have h1 : cs[b.b1]? = some cs[b.b1] := List.getElem?_eq_getElem hi
        simp only [h1]
        obtain ⟨h2, h3⟩ := hch cs[b.b1] (List.getElem_mem hi)
        have := ih cs[b.b1] ((w.skip cs.length).bump (cs.length + 1)) h3
        have hm : (cs[b.b1].heightOf + 1) * (3 * B + 1) ≤ H * (3 * B + 1) := Nat.mul_le_mul_right _ h2
        rw [Nat.add_mul, Nat.one_mul] at hm
        omega

/-- **C109**: if no concept has more than `B` children, `categorize` makes at most `3 B + 1` evaluations per level. -/
theorem C109_categorize_height {B : ℕ} {t : Tree S} (h : ∀ x ∈ t.nodes, x.children.length ≤ B) (i : I) (w : World) :
    (categorizeT C ecg t i w).seen.length ≤ t.heightOf * (3 * B + 1) := categorizeLoopT_height i _ _ _ h

/-- **C109**: the height cannot be below the logarithm of the number of leaves. -/
theorem C109_height_log {B : ℕ} {t : Tree S} (hB : 1 ≤ B) (h : ∀ x ∈ t.nodes, x.children.length ≤ B) :
    t.leaves.length ≤ B ^ t.heightOf := by
  induction t using Tree.ind with
  | h id s cs ih =>
    have h0 : cs.length ≤ B := h _ (Tree.self_mem_nodes _)
    cases cs with
    | nil => simp [Tree.leaves, Tree.heightOf, Tree.heightOfL]
    | cons c cs =>
      set H := (Tree.node id s (c :: cs)).heightOf with hH
      have hch : ∀ d ∈ c :: cs, d.leaves.length ≤ B ^ (H - 1) := by
        intro d hd
        have h1 := ih d hd fun x hx => h x (by
          rw [Tree.nodes]; exact List.mem_cons_of_mem _ (Tree.mem_nodesL hd hx))
        have h2 : d.heightOf + 1 ≤ H := heightOf_child hd
        exact h1.trans (Nat.pow_le_pow_right hB (by omega))
      have hpos : 1 ≤ H := (Nat.le_add_left 1 _).trans (heightOf_child (id := id) (s := s) (List.mem_cons_self (a := c) (l := cs)))
      have hsum : ∀ l : List (Tree S), (∀ d ∈ l, d.leaves.length ≤ B ^ (H - 1)) →
          (Tree.leavesL l).length ≤ l.length * B ^ (H - 1) := by
        intro l
        induction l with
        | nil => simp [Tree.leavesL]
        | cons d l ihl =>
          intro hl
          have h1 := hl d (by simp)
          have h2 := ihl fun e he => hl e (by simp [he])
          rw [Tree.leavesL, List.length_append, List.length_cons, Nat.add_mul, Nat.one_mul]
          omega
      have h3 := hsum _ hch
      have h4 : (Tree.node id s (c :: cs)).leaves = Tree.leavesL (c :: cs) := by simp [Tree.leaves]
      rw [h4]
      refine h3.trans ((Nat.mul_le_mul_right _ h0).trans ?_)
      rw [← Nat.pow_succ', show (H - 1).succ = H by omega]

variable {Ok : I → Prop} {Sum : S → Multiset I → Prop} {Same : I → I → Prop}

/-- What C109 says of one call on a tree of `n` instances `hist`. -/
theorem TreeHolds.cost (L : Laws C Ok Sum Same) {t : Tree S} {hist : List I} (h : TreeHolds C Sum Same t (hist : Multiset I))
    (hb : Bushy t) {i : I} (hi : Ok i) (w : World) :
    ((cobwebT C ecg t i w).seen.length ≤ 12 * hist.length ^ 2 ∧ Sees (Part Sum (i ::ₘ (hist : Multiset I))) (cobwebT C ecg t i w)) ∧
      (categorizeT C ecg t i w).seen.length ≤ 8 * (hist.length - 1) ∧
        Sees (Part Sum (i ::ₘ (hist : Multiset I))) (categorizeT C ecg t i w) := by
  rcases h with ⟨h0, id, rfl⟩ | h
  · have e1 : (cobwebT C ecg (.node id C.fresh []) i w).seen = [] := by
      rw [cobwebT, show (Tree.node id C.fresh []).numConcepts = 0 + 1 from rfl, cobwebLoopT]
      split <;> rfl
    have e2 : (categorizeT C ecg (.node id C.fresh []) i w).seen = [] := by
      rw [categorizeT, show (Tree.node id C.fresh []).numConcepts = 0 + 1 from rfl, categorizeLoopT]
      rfl
    refine ⟨⟨by rw [e1]; simp, ?_⟩, by rw [e2]; simp, ?_⟩
    · intro s hs; rw [e1] at hs; cases hs
    · intro s hs; rw [e2] at hs; cases hs
  · have hN := (h.size hb).concepts
    refine ⟨⟨(C109_cobweb t i w).trans ?_, cobwebLoopT_sees L hi _ _ _ _ h⟩, (C109_categorize t i w).trans (by omega),
      categorizeLoopT_sees L hi _ _ _ _ h⟩
    have : t.numConcepts ^ 2 ≤ (2 * hist.length) ^ 2 := Nat.pow_le_pow_left (by omega) 2
    nlinarith

end

variable {A B V : Type} [DecidableEq A] [DecidableEq B] [DecidableEq V] {hid : A → Bool}

/-- The probabilities squared by one evaluation of `expected_correct_guesses` (cobweb.py:395-400). -/
def Stats.squares (hid : A → Bool) (s : Stats A V) : ℕ := ((s.visible hid).map fun p => p.2.length).sum

/-- The different visible attribute-value pairs in some instances. -/
def visiblePairs (hid : A → Bool) (l : List (Inst A V)) : List (A × V) :=
  (l.flatMap fun i => i.filter fun p => !hid p.1).dedup

theorem nodup_flatten_dict {X Y : Type} [DecidableEq X] {d : Dict X (List Y)} (hd : Dict.Nodup d)
    (hn : ∀ p ∈ d, p.2.Nodup) : (d.flatMap fun p => p.2.map fun y => (p.1, y)).Nodup := by
  induction d with
  | nil => simp
  | cons p d ih =>
    rw [Dict.nodup_cons] at hd
    rw [List.flatMap_cons]
    refine List.Nodup.append ((hn p (by simp)).map fun a b h => (Prod.mk.inj h).2) (ih hd.2 fun q hq => hn q (by simp [hq])) ?_
    intro x hx hy
    obtain ⟨y, -, rfl⟩ := List.mem_map.1 hx
    obtain ⟨q, hq, hy⟩ := List.mem_flatMap.1 hy
    obtain ⟨y', -, hy⟩ := List.mem_map.1 hy
    exact hd.1 (List.mem_map.2 ⟨q, hq, (Prod.mk.inj hy).1⟩)

theorem Part.squares_le {s : Stats A V} {l : List (Inst A V)} (h : Part Summarizes (l : Multiset (Inst A V)) s) :
    s.squares hid ≤ (visiblePairs hid l).length := by
  obtain ⟨m, hm, hs⟩ := h
  have hnd := nodup_flatten_dict (d := (s.visible hid).map fun p => (p.1, p.2.map Prod.fst)) (by
      have h1 : ((s.visible hid).map Prod.fst).Nodup := hs.nodup.1.sublist (List.filter_sublist.map _)
      simpa [Dict.Nodup, Dict.keys, List.map_map, Function.comp_def] using h1) (by
      intro p hp
      obtain ⟨q, hq, rfl⟩ := List.mem_map.1 hp
      exact hs.nodup.2 q (List.mem_filter.1 hq).1)
  have hsub : (((s.visible hid).map fun p => (p.1, p.2.map Prod.fst)).flatMap fun p => p.2.map fun y => (p.1, y)) ⊆
      visiblePairs hid l := by
    intro x hx
    obtain ⟨p, hp, hx⟩ := List.mem_flatMap.1 hx
    obtain ⟨⟨a, d⟩, hq, rfl⟩ := List.mem_map.1 hp
    obtain ⟨v, hv, rfl⟩ := List.mem_map.1 hx
    obtain ⟨⟨v', c⟩, hvc, rfl⟩ := List.mem_map.1 hv
    obtain ⟨hq1, hq2⟩ := List.mem_filter.1 hq
    have hl : s.lookup a v' = some c := by
      rw [Stats.lookup, Dict.get?_of_mem hs.nodup.1 hq1]
      exact Dict.get?_of_mem (hs.nodup.2 _ hq1) hvc
    have ho : 0 < occ m a v' := by
      rw [hs.lookup] at hl
      split at hl
      · cases hl
      · omega
    obtain ⟨i, hi, hi2⟩ := occ_pos.1 ho
    refine List.mem_dedup.2 (List.mem_flatMap.2 ⟨i, by simpa using Multiset.mem_of_le hm hi, List.mem_filter.2 ⟨?_, hq2⟩⟩)
    exact Dict.mem_of_get? hi2
  have := (hnd.subperm hsub).length_le
  rw [List.length_flatMap, List.map_map] at this
  simpa [Stats.squares, Function.comp_def] using this

/-- **C109**: an `ifit` on a `CobwebTree` with `n` instances makes at most `12 n²` evaluations, each with at most one squared
probability for each visible attribute-value pair that occurs in these instances or in the new one; a `categorize` makes at
most `8 (n - 1)`. -/
theorem C109_cost {t : Tree (Stats A V)} {hist : List (Inst A V)} {n : ℕ} (h : CobwebReach hid t hist n) {i : Inst A V}
    (hi : Dict.Nodup i) (w : World) :
    ((cobwebT (cobwebClass hid) (Stats.ecg (K := ℚ) hid) t i w).seen.length ≤ 12 * hist.length ^ 2 ∧
      ∀ s ∈ (cobwebT (cobwebClass hid) (Stats.ecg (K := ℚ) hid) t i w).seen,
        s.squares hid ≤ (visiblePairs hid (i :: hist)).length) ∧
    (categorizeT (cobwebClass hid) (Stats.ecg (K := ℚ) hid) t i w).seen.length ≤ 8 * (hist.length - 1) ∧
      ∀ s ∈ (categorizeT (cobwebClass hid) (Stats.ecg (K := ℚ) hid) t i w).seen,
        s.squares hid ≤ (visiblePairs hid (i :: hist)).length := by
  obtain ⟨⟨h1, h2⟩, h3, h4⟩ := (reach_holds (cobwebLaws hid) h).cost (ecg := Stats.ecg (K := ℚ) hid) (cobwebLaws hid)
    (C05_at_least_two_children h) hi w
  exact ⟨⟨h1, fun s hs => (h2 s hs).squares_le⟩, h3, fun s hs => (h4 s hs).squares_le⟩

/-- **C109** for `Cobweb3Tree`: the same bounds, each evaluated table is the summary of some of these instances. -/
theorem C109_cost3 {cfg : Cfg3 A B} {st : State3 A B V} {hist : List (Inst3 A V)} {n : ℕ} (h : Reach3 hid cfg st hist n)
    {i : Inst3 A V} (hi : Dict.Nodup i) (sc : Scales B) (w : World) :
    ((cobwebT (cobweb3Class hid) (Stats3.ecg hid cfg sc) st.root i w).seen.length ≤ 12 * hist.length ^ 2 ∧
      ∀ s ∈ (cobwebT (cobweb3Class hid) (Stats3.ecg hid cfg sc) st.root i w).seen,
        ∃ m, m ≤ i ::ₘ (hist : Multiset (Inst3 A V)) ∧ Summarizes3 s m) ∧
    (categorizeT (cobweb3Class hid) (Stats3.ecg hid cfg sc) st.root i w).seen.length ≤ 8 * (hist.length - 1) ∧
      ∀ s ∈ (categorizeT (cobweb3Class hid) (Stats3.ecg hid cfg sc) st.root i w).seen,
        ∃ m, m ≤ i ::ₘ (hist : Multiset (Inst3 A V)) ∧ Summarizes3 s m := by
  obtain ⟨⟨h1, h2⟩, h3, h4⟩ := (reach3_holds h).cost (ecg := Stats3.ecg hid cfg sc) (cobweb3Laws hid)
    (C29_at_least_two_children h) hi w
  exact ⟨⟨h1, h2⟩, h3, h4⟩

theorem fitListT_le {l hist : List (Inst A V)} (hl : ∀ i ∈ l, Dict.Nodup i) {t : Tree (Stats A V)} {n : ℕ}
    (h : CobwebReach hid t hist n) {w : World} (hw : n ≤ w.ctr) :
    (fitListT (cobwebClass hid) (Stats.ecg (K := ℚ) hid) l t w).seen.length + 4 * hist.length ^ 3 ≤
      4 * (hist.length + l.length) ^ 3 := by
  induction l generalizing t hist n w with
  | nil => simp [fitListT]
  | cons i l ih =>
    have hc := (C109_cost h (hl i (by simp)) w).1.1
    have hcube : 12 * hist.length ^ 2 + 4 * hist.length ^ 3 ≤ 4 * (hist.length + 1) ^ 3 := by
      generalize hist.length = k
      have : (k + 1) ^ 3 = k ^ 3 + 3 * k ^ 2 + 3 * k + 1 := by ring
      omega
    rw [fitListT]
    cases hr : (cobwebT (cobwebClass hid) (Stats.ecg (K := ℚ) hid) t i w).res with
    | error e =>
      rw [traced_bind_error hr]
      have : (hist.length + 1) ^ 3 ≤ (hist.length + (i :: l).length) ^ 3 := Nat.pow_le_pow_left (by simp) 3
      omega
    | ok o =>
      rw [traced_bind_ok hr, List.length_append]
      rw [cobwebT, cobwebLoopT_res] at hr
      have hs : CobwebReach hid o.tree (hist ++ [i]) o.w.ctr := .step h rfl (hl i (by simp)) hw hr
      have := ih (fun j hj => hl j (by simp [hj])) hs (le_refl _)
      rw [List.length_append, List.length_singleton] at this
      rw [List.length_cons, show hist.length + (l.length + 1) = hist.length + 1 + l.length by omega]
      omega

/-- **C109**: fitting `n` instances to a new tree makes at most `4 n³` evaluations. -/
theorem C109_fit {l : List (Inst A V)} (hl : ∀ i ∈ l, Dict.Nodup i) (w : World) :
    (fitListT (cobwebClass hid) (Stats.ecg (K := ℚ) hid) l (emptyTree (cobwebClass hid) w) (w.bump 1)).seen.length ≤
      4 * l.length ^ 3 := by
  have := fitListT_le hl (.init w : CobwebReach hid _ _ _) (w := w.bump 1) (le_refl _)
  simpa using this

/-- The demonstration tree: five instances, seven concepts.  Sorting one more. -/
example : (∃ n, CobwebReach Demo.hid Demo.demoTree Demo.insts n) ∧ Demo.demoTree.numConcepts = 7 ∧
    (cobwebT (cobwebClass Demo.hid) (Stats.ecg (K := ℚ) Demo.hid) Demo.demoTree [(1, 1), (2, 2)]
      ⟨fun n => (n : ℚ), 0, 100⟩).seen.length = 44 ∧
    (categorizeT (cobwebClass Demo.hid) (Stats.ecg (K := ℚ) Demo.hid) Demo.demoTree [(1, 1), (2, 2)]
      ⟨fun n => (n : ℚ), 0, 100⟩).seen.length = 14 ∧
    (fitListT (cobwebClass Demo.hid) (Stats.ecg (K := ℚ) Demo.hid) Demo.insts (emptyTree (cobwebClass Demo.hid) Demo.w0)
      (Demo.w0.bump 1)).seen.length = 51 :=
  ⟨demo_reach, by decide +kernel⟩

end CF
