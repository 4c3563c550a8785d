/-
Properties C07 and C11-C15: category utility and the choice of operations.
-/
import Verif.Proofs.Ops
import Verif.Proofs.Best
import Verif.Props.CobwebTree

set_option linter.unusedSectionVars false

namespace CF
variable {A V : Type} [DecidableEq A] [DecidableEq V] {hid : A → Bool}
variable {t : Tree (Stats A V)} {hist : List (Inst A V)} {n : ℕ}

/-- The instance has an attribute that is not hidden. -/
def HasVisible (hid : A → Bool) (i : Inst A V) : Prop := ∃ a ∈ Dict.keys i, hid a = false

theorem visAttrs_nonempty {m : Multiset (Inst A V)} {i : Inst A V} (hi : i ∈ m)
    (h : HasVisible hid i) : (visAttrs hid m).Nonempty := by
  obtain ⟨a, ha, hv⟩ := h
  exact ⟨a, Finset.mem_filter.2 ⟨mem_attrsOf.2 ⟨i, hi, ha⟩, hv⟩⟩

theorem cobweb_scores (K : Type) [Field K] [LinearOrder K] [IsStrictOrderedRing K] :
    Scores Summarizes (Stats.ecg (K := K) hid) (HasVisible (V := V) hid) := by
  rintro s m h ⟨i, hi, hv⟩
  exact ⟨_, ecg_eq h (visAttrs_nonempty hi hv)⟩

theorem holds_copies {x : Tree (Stats A V)} {m : Multiset (Inst A V)}
    (h : TreeHolds (cobwebClass hid) Summarizes (SameVisible hid) x m) :
    Copies (cobwebClass hid) x := by
  have L := cobwebLaws (V := V) hid
  have key : ∀ y ∈ x.nodes, shallowCopy (cobwebClass hid) y.stats = y.stats := by
    intro y hy
    obtain ⟨m', h', -⟩ := h.of_mem_nodes hy
    exact L.copy (h'.sum L)
  refine ⟨key x (Tree.self_mem_nodes x), fun c hc => ?_, fun c hc d hd => ?_⟩
  · exact key c (Tree.mem_nodes_child hc (Tree.self_mem_nodes c))
  · exact key d (Tree.mem_nodes_child hc (Tree.mem_nodes_child hd (Tree.self_mem_nodes d)))

theorem reach_copies (h : CobwebReach hid t hist n) {x : Tree (Stats A V)} (hx : x ∈ t.nodes) :
    Copies (cobwebClass hid) x := by
  obtain ⟨m, hm, -⟩ := (reach_holds (cobwebLaws hid) h).of_mem_nodes hx
  exact holds_copies hm

/-! ### C07 -/

/-- **C07**, the part that is true of the code: fitting never raises when every instance fitted so
far and the new one have at least one visible attribute, and no two random numbers coincide.

The full property, without the requirement of a visible attribute, is false:
see `C07_hidden_only_instance_raises` and `C07_poisoned_tree`. -/
theorem C07_ifit_never_raises_partial (h : CobwebReach hid t hist n)
    (hv : ∀ j ∈ hist, HasVisible hid j) {i : Inst A V} (hi : Dict.Nodup i) (hiv : HasVisible hid i)
    {w : World} (hw : Function.Injective w.rnd) : ∃ o, ifit hid t i w = .ok o := by
  rcases reach_holds (cobwebLaws hid) h with ⟨-, id, rfl⟩ | hh
  · refine ⟨⟨.node id (Stats.fresh.incr i) [], id, false, w⟩, ?_⟩
    simp [ifit, cobweb, cobwebLoop, Tree.numConcepts_node, cobwebClass, Stats.fresh]
  · rcases cobwebLoop_total (cobwebLaws hid) (cobweb_scores ℚ) hi hiv t.numConcepts t w _ hh
      (fun j hj => hv j (by simpa using hj)) hw with ho | ho
    · exact ho
    · exact absurd ho (C06_ifit_terminates t i w 0).2

/-- C07 for `categorize`: any instance, even an empty one. -/
theorem C07_categorize_never_raises_partial (h : CobwebReach hid t hist n)
    (hv : ∀ j ∈ hist, HasVisible hid j) {i : Inst A V} (hi : Dict.Nodup i)
    {w : World} (hw : Function.Injective w.rnd) :
    ∃ o, categorize (cobwebClass hid) (Stats.ecg (K := ℚ) hid) t i w = .ok o := by
  rcases reach_holds (cobwebLaws hid) h with ⟨-, id, rfl⟩ | hh
  · exact ⟨(.node id Stats.fresh [], w), by
      simp [categorize, categorizeLoop, Tree.numConcepts_node, cobwebClass]⟩
  · rcases categorizeLoop_total (cobwebLaws hid) (cobweb_scores ℚ) hi t.numConcepts t w _ hh
      (fun j hj => hv j (by simpa using hj)) hw with ho | ho
    · exact ho
    · exact absurd ho (C06_categorize_terminates t i w)

/-- The hypotheses of C07 hold on the demonstration history. -/
example : (∀ j ∈ Demo.insts, HasVisible Demo.hid j) ∧ Function.Injective Demo.w0.rnd :=
  ⟨by
    have : Demo.insts.all (fun j => (Dict.keys j).any fun a => !Demo.hid a) = true := by decide
    intro j hj
    have := List.all_eq_true.1 this j hj
    obtain ⟨a, ha, hb⟩ := List.any_eq_true.1 this
    exact ⟨a, ha, by simpa using hb⟩,
  fun a b hab => by simpa [Demo.w0] using hab⟩

theorem cuSum_error {K : Type} [Field K] [LinearOrder K] [IsStrictOrderedRing K] {I S : Type}
    {C : NodeClass I S} {ecg : S → Res K} {n : ℕ} (hn : n ≠ 0) {cs : List S} {x : S} {e : PyErr}
    (hcs : ∀ c ∈ cs, ∃ e, ecg c = .ok e) (hx : ecg x = .error e) (acc : K) :
    cuSum C ecg n (cs ++ [x]) acc = .error e := by
  have hn' : (n : K) ≠ 0 := by exact_mod_cast hn
  induction cs generalizing acc with
  | nil => simp [cuSum, pyDiv, hn', hx, bind, Except.bind]
  | cons c cs ih =>
    obtain ⟨y, hy⟩ := hcs c (by simp)
    have := ih (fun c hc => hcs c (by simp [hc]))
    simp [cuSum, pyDiv, hn', hy, bind, Except.bind, this]

/-- **The code violates C07**: on every reachable tree whose root has children (and whose instances
have visible attributes), `ifit` of an instance without visible attributes, for instance `{}`, raises
`ZeroDivisionError`. -/
theorem C07_hidden_only_instance_raises (h : CobwebReach hid t hist n)
    (hv : ∀ j ∈ hist, HasVisible hid j) (hne : t.children ≠ []) {i : Inst A V} (hi : Dict.Nodup i)
    (hiv : ¬ HasVisible hid i) {w : World} (hw : Function.Injective w.rnd) :
    ifit hid t i w = .error .zeroDiv := by
  rcases reach_holds (cobwebLaws hid) h with ⟨-, id, rfl⟩ | hh
  · simp at hne
  have hG : ∀ j ∈ (hist : Multiset (Inst A V)), HasVisible hid j := fun j hj => hv j (by simpa using hj)
  have hgood : GoodTable Summarizes (HasVisible (V := V) hid) t.stats := hh.good hG
  have hgc := hh.children_good hG
  have L := cobwebLaws (V := V) hid
  have hE := cobweb_scores (V := V) (hid := hid) ℚ
  match t, hne with
  | .node id s (c :: cs'), _ =>
  simp only [Tree.stats_node, Tree.children_node] at hgood hgc
  obtain ⟨b, hb⟩ := twoBest_total L hE hi (cs := (c :: cs').map Tree.stats) hw hgood (by
    intro x hx
    obtain ⟨c, hc, rfl⟩ := List.mem_map.1 hx
    exact hgc c hc) (by simp)
  obtain ⟨hb1, -⟩ := twoBest_idx _ _ hb
  rw [List.length_map] at hb1
  have ht1 : (c :: cs')[b.b1]? = some (c :: cs')[b.b1] := List.getElem?_eq_getElem hb1
  have hbad : Stats.ecg (K := ℚ) hid ((cobwebClass hid).incr (cobwebClass hid).fresh i)
      = .error .zeroDiv := by
    refine ecg_error (m := {i}) ?_ ?_
    · have := L.incr L.fresh hi; rwa [Multiset.cons_zero] at this
    · ext a
      simp only [visAttrs, Finset.mem_filter, mem_attrsOf, Multiset.mem_singleton, exists_eq_left,
        Finset.notMem_empty, iff_false, not_and]
      intro ha hv; exact hiv ⟨a, ha, hv⟩
  have hnew : cuForNewChild (cobwebClass hid) (Stats.ecg (K := ℚ) hid) s
      ((c :: cs').map Tree.stats) i = .error .zeroDiv := by
    unfold cuForNewChild
    rw [map_copy fun c hc => (hgc c hc).copy L, hgood.copy L, List.map_cons, List.cons_append,
      categoryUtility, ← List.cons_append, ← List.map_cons, cuSum_error (hgood.incr_score L hE hi).2
        _ hbad]
    · rfl
    · intro x hx
      obtain ⟨c, hc, rfl⟩ := List.mem_map.1 hx
      exact (hgc c hc).score hE
  have hbest : bestOp (cobwebClass hid) (Stats.ecg (K := ℚ) hid) allOps s (c :: cs') i b.cu
      (some b.b1) b.b2 w (c :: cs').length = .error .zeroDiv := by
    unfold bestOp
    simp only [ht1, opsNew, hnew, addOp, Except.map, allOps, List.mem_cons, List.not_mem_nil,
      reduceCtorEq, or_true, false_or, true_or, if_true, error_bind]
  have hch : chooseOp (cobwebClass hid) (Stats.ecg (K := ℚ) hid) s (c :: cs') i w
      = .error .zeroDiv := by
    unfold chooseOp
    rw [hb, ok_bind, hbest, error_bind]
  unfold ifit cobweb
  rw [Tree.numConcepts_node, add_comm]
  simp only [cobwebLoop, hch, error_bind]

/-- The demonstration tree meets those hypotheses, with the empty instance. -/
example : ifit Demo.hid Demo.demoTree [] Demo.w0 = .error .zeroDiv := by
  obtain ⟨n, h⟩ := demo_reach
  refine C07_hidden_only_instance_raises h ?_ ?_ ?_ ?_ ?_
  · intro j hj
    have h0 : Demo.insts.all (fun j => (Dict.keys j).any fun a => !Demo.hid a) = true := by decide
    obtain ⟨a, ha, hb⟩ := List.any_eq_true.1 (List.all_eq_true.1 h0 j hj)
    exact ⟨a, ha, by simpa using hb⟩
  · have h0 : (Demo.demoTree.children.isEmpty = false) := by decide +kernel
    intro h; rw [h] at h0; simp at h0
  · simp [Dict.Nodup]
  · rintro ⟨a, ha, -⟩; simp [Dict.keys] at ha
  · intro a b hab; simpa [Demo.w0] using hab

/-- **The code violates C07** in a second way: an empty instance fitted first is accepted, and then
poisons the tree: the call after next raises although its instance is perfectly ordinary. -/
theorem C07_poisoned_tree :
    (Demo.run [[], [(1, 1)]]).isOk = true ∧
      (match Demo.run [[], [(1, 1)], [(1, 2)]] with
        | .error e => decide (e = .zeroDiv) | .ok _ => false) = true := by
  decide +kernel

/-! ### C11 -/

/-- **C11**, first half: the category utility of inserting into a child is
`relative_cu_for_insert / (count + 1) / n + const`. -/
theorem C11_relative_cu (h : CobwebReach hid t hist n) {x : Tree (Stats A V)} (hx : x ∈ t.nodes)
    {i : Inst A V} {k : ℕ} {c : Tree (Stats A V)} (hk : x.children[k]? = some c) {r const : ℚ}
    (hr : relativeCuForInsert (cobwebClass hid) (Stats.ecg hid) c.stats i = .ok r)
    (hc : relativeCuConst (cobwebClass hid) (Stats.ecg hid) x.stats (x.children.map Tree.stats) i
      = .ok const) :
    cuForInsert (cobwebClass hid) (Stats.ecg hid) x.stats (x.children.map Tree.stats) k i =
      .ok (r / (x.stats.count + 1) / x.children.length + const) := by
  have hcp := reach_copies h hx
  have := cuForInsert_eq_relative (C := cobwebClass hid) (ecg := Stats.ecg (K := ℚ) hid)
    (s := x.stats) (cs := x.children.map Tree.stats) (inst := i) (k := k) (ck := c.stats)
    (fun c hc => by
      obtain ⟨c, hc', rfl⟩ := List.mem_map.1 hc
      exact hcp.child c hc') hcp.self (fun _ => rfl) (by simp [hk]) hr hc
  rwa [List.length_map] at this

/-- **C11**, second half: `two_best_children` returns the child that maximises `cu_for_insert`, ties
broken by size and then by the random number, with its score; there is a second best child exactly
when there are at least two, and it is the best among the others. -/
theorem C11_two_best (h : CobwebReach hid t hist n) {x : Tree (Stats A V)} (hx : x ∈ t.nodes)
    {i : Inst A V} {w : World} {b : Best ℚ}
    (hb : twoBest (cobwebClass hid) (Stats.ecg hid) x.stats (x.children.map Tree.stats) i w = .ok b) :
    let cu := fun k => cuForInsert (cobwebClass hid) (Stats.ecg (K := ℚ) hid) x.stats
      (x.children.map Tree.stats) k i
    ∃ c1, x.children[b.b1]? = some c1 ∧ cu b.b1 = .ok b.cu ∧
      (∀ k c, x.children[k]? = some c → ∃ u, cu k = .ok u ∧
        NotBetter u c.stats.count (w.draw k) b.cu c1.stats.count (w.draw b.b1)) ∧
      (b.b2 = none ↔ x.children.length = 1) ∧
      ∀ j, b.b2 = some j → j ≠ b.b1 ∧ ∃ c2 u2, x.children[j]? = some c2 ∧ cu j = .ok u2 ∧
        ∀ k c u, k ≠ b.b1 → x.children[k]? = some c → cu k = .ok u →
          NotBetter u c.stats.count (w.draw k) u2 c2.stats.count (w.draw j) := by
  have hcp := reach_copies h hx
  obtain ⟨c1, h1, h2, h3, h4, h5⟩ := twoBest_optimal (C := cobwebClass hid)
    (fun c hc => by
      obtain ⟨c, hc', rfl⟩ := List.mem_map.1 hc
      exact hcp.child c hc') hcp.self (fun _ => rfl) hb
  simp only [List.getElem?_map, Option.map_eq_some_iff, List.length_map] at *
  obtain ⟨t1, ht1, rfl⟩ := h1
  refine ⟨t1, ht1, h2, fun k c hk => h3 k _ ⟨c, hk, rfl⟩, h4, fun j hj => ?_⟩
  obtain ⟨h6, c2, u2, ⟨t2, ht2, rfl⟩, h7, h8⟩ := h5 j hj
  exact ⟨h6, t2, u2, ht2, h7, fun k c u hk hc hu => h8 k _ u hk ⟨c, hc, rfl⟩ hu⟩

/-- `two_best_children` succeeds on the root of the demonstration tree. -/
example : (twoBest (cobwebClass Demo.hid) (Stats.ecg (K := ℚ) Demo.hid) Demo.demoTree.stats
    (Demo.demoTree.children.map Tree.stats) [(1, 3), (2, 1)] Demo.w0).isOk = true := by
  decide +kernel

/-! ### C12 -/

/-- **C12**: the operation returned is one of those asked for, is applicable with exactly the returned
score, and no applicable operation asked for scores higher.  (For any node class, any tables.) -/
theorem C12_best_operation {I S K : Type} [Field K] [LinearOrder K] {C : NodeClass I S}
    {ecg : S → Res K} {ops : List Op} {s : S} {cs : List (Tree S)} {inst : I} {cu1 : K}
    {b1 b2 : Option ℕ} {w : World} {off : ℕ} {cu : K} {op : Op} {k : ℕ}
    (h : bestOp C ecg ops s cs inst cu1 b1 b2 w off = .ok (cu, op, k)) :
    ∃ i, b1 = some i ∧ op ∈ ops ∧ OpScore C ecg s cs inst cu1 i b2 op cu ∧
      ∀ op' cu', op' ∈ ops → OpScore C ecg s cs inst cu1 i b2 op' cu' → cu' ≤ cu := by
  obtain ⟨i, t1, l, c, rest, hi, -, hs, hr, hall, hex⟩ := bestOp_spec C ecg h
  simp only [Prod.mk.injEq] at hr
  obtain ⟨rfl, rfl, rfl⟩ := hr
  have hp := perm_sortOps l
  have hpw := pairwise_sortOps l
  rw [hs] at hp hpw
  have hc := hall c (hp.mem_iff.1 (by simp))
  refine ⟨i, hi, hc.1, hc.2, ?_⟩
  intro op' cu' ho hsc
  obtain ⟨e, he, rfl, rfl⟩ := hex op' cu' ho hsc
  rcases List.mem_cons.1 (hp.mem_iff.2 he) with rfl | he
  · exact le_rfl
  · have := (List.pairwise_cons.1 hpw).1 e he
    simp only [OpCand.key, Prod.Lex.toLex_le_toLex] at this
    rcases this with h | h
    · exact h.le
    · exact h.1.le

/-- C12: without a best child `get_best_operation` raises `ValueError`. -/
theorem C12_no_best_child {I S K : Type} [Field K] [LinearOrder K] (C : NodeClass I S)
    (ecg : S → Res K) (ops : List Op) (s : S) (cs : List (Tree S)) (inst : I) (cu1 : K)
    (b2 : Option ℕ) (w : World) (off : ℕ) :
    bestOp C ecg ops s cs inst cu1 none b2 w off = .error .valueErr := rfl

/-- A call that asks for three of the four operations, on the demonstration tree. -/
example : (bestOp (cobwebClass Demo.hid) (Stats.ecg (K := ℚ) Demo.hid) [.new, .merge, .split]
    Demo.demoTree.stats Demo.demoTree.children [(1, 3), (2, 1)] 0 (some 0) (some 1) Demo.w0 0).isOk
      = true := by
  decide +kernel

/-! ### C13 -/

/-- **C13**: at every node of a reachable tree, each `cu_for_*` function returns the category utility
that the node has after the operation was really performed (`n'`, `n''` are the ids of the nodes the
operation creates). For `merge` the two nodes list their children in a different order, so the
statement is that one is defined with value `u` exactly when the other is. -/
theorem C13_scores_are_real (h : CobwebReach hid t hist n) {x : Tree (Stats A V)} (hx : x ∈ t.nodes)
    (i : Inst A V) (n' n'' : ℕ) :
    let C := cobwebClass (V := V) hid
    let E := Stats.ecg (K := ℚ) (V := V) hid
    (∀ k < x.children.length, cuForInsert C E x.stats (x.children.map Tree.stats) k i =
      ((x.incr C i).incrChild C k i).cu C E) ∧
    (cuForNewChild C E x.stats (x.children.map Tree.stats) i =
      ((x.incr C i).createNewChild C n' i).cu C E) ∧
    (∀ a b t1 t2 u, x.children[a]? = some t1 → x.children[b]? = some t2 → b ≠ a →
      (cuForMerge C E x.stats (x.children.map Tree.stats) a b t1.stats t2.stats i = .ok u ↔
        (((x.incr C i).merge C n' a b).incrChild C (x.children.length - 2) i).cu C E = .ok u)) ∧
    (∀ a t1, x.children[a]? = some t1 →
      cuForSplit C E x.stats (x.children.map Tree.stats) a (t1.children.map Tree.stats) =
        (x.split a).cu C E) ∧
    (x.children = [] → cuForFringeSplit C E x.stats i =
      (((x.createChildWithCurrentCounts C n').incr C i).createNewChild C n'' i).cu C E) := by
  have hcp := reach_copies h hx
  refine ⟨fun k hk => cuForInsert_real hcp hk i, cuForNewChild_real hcp n' i, ?_,
    fun a t1 h1 => cuForSplit_real hcp h1, fun h0 => ?_⟩
  · intro a b t1 t2 u h1 h2 hab
    exact cuForMerge_real hcp (fun i => Nat.succ_ne_zero _) h1 h2 hab n' i u
  · cases x with
    | node id s cs =>
      simp only [Tree.children_node] at h0; subst h0
      exact cuForFringeSplit_real hcp.self n' n'' i

theorem ecg_incr_copy (h : CobwebReach hid t hist n) : ∀ id s, t = .node id s [] →
    shallowCopy (cobwebClass hid) s = s := by
  rintro id s rfl
  exact (reach_copies h (Tree.self_mem_nodes _)).self

/-- C13 in the running algorithm: when `ifit` performs the operation 'new' or 'best' at the root, then
after the whole call (whatever happened further down) the root's category utility is the score that was
predicted for the operation; after a fringe split of the root it is `cu_for_fringe_split`. -/
theorem C13_prediction_comes_true (h : CobwebReach hid t hist n) {i : Inst A V}
    {w : World} {o : Out (Stats A V)} (ho : ifit hid t i w = .ok o) :
    let C := cobwebClass (V := V) hid
    let E := Stats.ecg (K := ℚ) (V := V) hid
    (∀ b w', chooseOp C E t.stats t.children i w = .ok (b, .new, w') → t.children ≠ [] →
      o.tree.cu C E = cuForNewChild C E t.stats (t.children.map Tree.stats) i) ∧
    (∀ b w' u, chooseOp C E t.stats t.children i w = .ok (b, .best, w') → t.children ≠ [] →
      (o.tree.cu C E = .ok u ↔ cuForInsert C E t.stats (t.children.map Tree.stats) b.b1 i = .ok u)) ∧
    (∀ b w' u j t1 t2, chooseOp C E t.stats t.children i w = .ok (b, .merge, w') → t.children ≠ [] →
      b.b2 = some j → t.children[b.b1]? = some t1 → t.children[j]? = some t2 →
      (o.tree.cu C E = .ok u ↔
        cuForMerge C E t.stats (t.children.map Tree.stats) b.b1 j t1.stats t2.stats i = .ok u)) ∧
    (t.children = [] → t.stats.count ≠ 0 → t.stats.isExact hid i = false →
      o.tree.cu C E = cuForFringeSplit C E t.stats i) := by
  intro C E
  have hcp := reach_copies h (Tree.self_mem_nodes t)
  have hchild : ∀ c ∈ t.children, ∀ id s, c = .node id s [] → shallowCopy C s = s := by
    rintro c hc id s rfl; exact hcp.child _ hc
  have hl := loopRel_of_cobweb ho
  have hch : ∀ {id s cs} {b b' : Best ℚ} {op op' w1 w2},
      chooseOp C E (Tree.node id s cs).stats (Tree.node id s cs).children i w = .ok (b, op, w1) →
      chooseOp C E s cs i w = .ok (b', op', w2) → b = b' ∧ op = op' := by
    intro id s cs b b' op op' w1 w2 h1 h2
    simp only [Tree.stats_node, Tree.children_node] at h1
    rw [h1] at h2; cases h2; exact ⟨rfl, rfl⟩
  cases hl with
  | hit h0 =>
    refine ⟨fun _ _ _ h => absurd rfl h, fun _ _ _ _ h => absurd rfl h,
      fun _ _ _ _ _ _ _ h => absurd rfl h, fun _ h1 h2 => ?_⟩
    rcases h0 with h0 | h0
    · exact absurd (h0.symm.trans h2) (by simp)
    · exact absurd h0 h1
  | fringe _ _ =>
    refine ⟨fun _ _ _ h => absurd rfl h, fun _ _ _ _ h => absurd rfl h,
      fun _ _ _ _ _ _ _ h => absurd rfl h, fun _ h1 _ => ?_⟩
    have e : shallowCopy C _ = _ := hcp.self
    simp only [Tree.stats_node] at e h1 ⊢
    unfold cuForFringeSplit Tree.cu
    simp only [e, Tree.stats_node, Tree.children_node]
    have e2 : shallowCopy (cobwebClass hid) _ = _ := hcp.self
    rw [if_pos (show C.count _ > 0 from Nat.pos_of_ne_zero h1), Tree.stats_node] at *
    rw [e2]
    rfl
  | @new id s cs w w' b hne hc hw =>
    refine ⟨fun b' w'' h1 _ => ?_, fun b' w'' u h1 => ?_, fun _ _ _ _ _ _ h1 => ?_,
      fun h0 => absurd h0 hne⟩
    · rw [cuForNewChild_real hcp (w'.ctr + 1) i]; rfl
    · have := (hch h1 hc).2; cases this
    · have := (hch h1 hc).2; cases this
  | @best id s cs w w' b t1 o' hne hc hw ht1 hrec =>
    refine ⟨fun b' w'' h1 => ?_, fun b' w'' u h1 _ => ?_, fun _ _ _ _ _ _ h1 => ?_,
      fun h0 => absurd h0 hne⟩
    · have := (hch h1 hc).2; cases this
    · obtain ⟨rfl, -⟩ := hch h1 hc
      have hst : o'.tree.stats = C.incr t1.stats i :=
        hrec.stats fun id s he => hchild t1 (List.mem_of_getElem? ht1) id s he
      unfold Tree.cu cuForInsert
      rw [insertChildren_eq (ck := t1.stats) (C := C) _ b'.b1 i (by simp [ht1])]
      · simp only [Tree.stats_node, Tree.children_node]
        rw [show shallowCopy C s = s from hcp.self]
        refine categoryUtility_perm (C := C) (show C.count (C.incr _ i) ≠ 0 from Nat.succ_ne_zero _) ?_ u
        have p1 := (perm_putChild ht1 o').map Tree.stats
        have p2 := perm_set (cs := cs.map Tree.stats) (i := b'.b1) (x := t1.stats) (by simp [ht1])
          (C.incr t1.stats i)
        rw [List.map_cons, hst, ← List.eraseIdx_map] at p1
        exact p1.trans p2.symm
      · intro c hc
        obtain ⟨c, hc', rfl⟩ := List.mem_map.1 hc
        exact hcp.child c hc'
    · have := (hch h1 hc).2; cases this
  | @merge id s cs w w' b j t1 t2 o' hlen hc hw hj hne2 ht1 ht2 hrec =>
    refine ⟨fun b' w'' h1 => ?_, fun b' w'' u h1 _ => ?_, fun b' w'' u j' t1' t2' h1 _ hj' h2 h3 => ?_,
      fun h0 => by simp only [Tree.children_node] at h0; subst h0; simp at hlen⟩
    · have := (hch h1 hc).2; cases this
    · have := (hch h1 hc).2; cases this
    · obtain ⟨rfl, -⟩ := hch h1 hc
      simp only [Tree.children_node] at h2 h3
      rw [hj] at hj'; cases hj'
      rw [ht1] at h2; cases h2
      rw [ht2] at h3; cases h3
      have hst := hrec.stats (by intro id s he; simp at he)
      unfold Tree.cu cuForMerge
      rw [map_dropTwo, map_copy fun c hc => hcp.child c (mem_of_mem_dropTwo hc), hcp.self]
      refine categoryUtility_perm (C := C) (show C.count (C.incr _ i) ≠ 0 from Nat.succ_ne_zero _) ?_ u
      simp only [Tree.children_node, removeTwo, List.map_append, List.map_cons, List.map_nil, hst,
        Tree.stats_node]
      exact List.perm_append_singleton _ _
  | @split id s cs w w' b t1 o' hne hc hw ht1 hne1 hrec =>
    refine ⟨fun b' w'' h1 => ?_, fun b' w'' u h1 _ => ?_, fun _ _ _ _ _ _ h1 => ?_,
      fun h0 => absurd h0 hne⟩
    · have := (hch h1 hc).2; cases this
    · have := (hch h1 hc).2; cases this
    · have := (hch h1 hc).2; cases this

/-! ### C14 -/

theorem forall₂_exists_left {α β : Type} {R : α → β → Prop} {l : List α} {l' : List β}
    (h : List.Forall₂ R l l') {b : β} (hb : b ∈ l') : ∃ a ∈ l, R a b := by
  induction h with
  | nil => simp at hb
  | cons hab _ ih =>
    rcases List.mem_cons.1 hb with rfl | hb
    · exact ⟨_, by simp, hab⟩
    · obtain ⟨a, ha, h⟩ := ih hb
      exact ⟨a, by simp [ha], h⟩

/-- **C14**: at every node of a reachable tree the category utility, when defined, lies between 0 and
1/n for n children; on a leaf it is 0. It is defined on every tree whose instances have visible
attributes. -/
theorem C14_category_utility_range (h : CobwebReach hid t hist n) {x : Tree (Stats A V)}
    (hx : x ∈ t.nodes) :
    (∀ u, x.cu (cobwebClass hid) (Stats.ecg (K := ℚ) hid) = .ok u →
      0 ≤ u ∧ (x.children ≠ [] → u ≤ 1 / x.children.length) ∧ (x.children = [] → u = 0)) ∧
    ((∀ j ∈ hist, HasVisible hid j) →
      ∃ u, x.cu (cobwebClass hid) (Stats.ecg (K := ℚ) hid) = .ok u) := by
  have L := cobwebLaws (V := V) hid
  obtain ⟨m, hm, hle⟩ := (reach_holds L h).of_mem_nodes hx
  by_cases hne : x.children = []
  · have : x.cu (cobwebClass hid) (Stats.ecg (K := ℚ) hid) = .ok 0 := by
      unfold Tree.cu; rw [hne]; rfl
    refine ⟨fun u hu => ?_, fun _ => ⟨0, this⟩⟩
    rw [this] at hu; cases hu
    exact ⟨le_rfl, fun h => absurd hne h, fun _ => rfl⟩
  · have hs := hm.sum L
    have hm0 : m ≠ 0 := by
      rcases hm with ⟨-, id, rfl⟩ | hm
      · simp at hne
      · exact hm.ne_zero
    obtain ⟨ms, hf, rfl⟩ := hm.children hne
    have hf' : List.Forall₂ Summarizes (x.children.map Tree.stats) ms :=
      List.forall₂_map_left_iff.2 (hf.imp fun _ _ h => h.sum)
    have hms : ms ≠ [] := by rintro rfl; simp at hm0
    have hcount : (cobwebClass (V := V) hid).count x.stats ≠ 0 := by
      rw [L.count hs]; simpa using hm0
    have key : (∀ m ∈ ms, (visAttrs hid m).Nonempty) →
        x.cu (cobwebClass hid) (Stats.ecg (K := ℚ) hid) = .ok (cuSpec ℚ hid ms) :=
      fun hv => categoryUtility_eq_spec hms hs hf' hv
    refine ⟨fun u hu => ?_, fun hv => ⟨_, key fun m hm => ?_⟩⟩
    · have hv : ∀ m ∈ ms, (visAttrs hid m).Nonempty := by
        intro m hm
        obtain ⟨s, hsmem, hsum⟩ := forall₂_exists_left hf' hm
        obtain ⟨e, he⟩ := ((categoryUtility_ok_iff hcount (by simpa using hne)).1 hu).1 s hsmem
        by_contra hc
        rw [ecg_error hsum (Finset.not_nonempty_iff_eq_empty.1 hc)] at he
        cases he
      rw [key hv] at hu; cases hu
      refine ⟨cuSpec_nonneg hms hv, fun _ => ?_, fun h => absurd h hne⟩
      rw [hf.length_eq]
      exact cuSpec_le
    · obtain ⟨c, hc, hh⟩ := forall₂_exists_left hf hm
      obtain ⟨j, hj⟩ := Multiset.exists_mem_of_ne_zero hh.ne_zero
      refine visAttrs_nonempty hj (hv j ?_)
      have := Multiset.mem_of_le hle (Multiset.mem_of_le (le_list_sum hm) hj)
      simpa using this

/-- A node with a strictly positive category utility. -/
example : ∃ u, Demo.demoTree.cu (cobwebClass Demo.hid) (Stats.ecg (K := ℚ) Demo.hid) = .ok u ∧
    0 < u ∧ u < 1 / Demo.demoTree.children.length := by
  have h : (match Demo.demoTree.cu (cobwebClass Demo.hid) (Stats.ecg (K := ℚ) Demo.hid) with
    | .ok u => decide (0 < u ∧ u < 1 / Demo.demoTree.children.length) | .error _ => false) = true := by
    decide +kernel
  split at h
  · rename_i u hu; exact ⟨u, hu, by simpa using h⟩
  · cases h

/-! ### C15 -/

/-- **C15**: `expected_correct_guesses` of every reachable node that has a visible attribute is
defined, positive, at most 1, and equals 1 on every leaf. (Without visible attributes it raises
`ZeroDivisionError`.) -/
theorem C15_ecg_range (h : CobwebReach hid t hist n) {x : Tree (Stats A V)} (hx : x ∈ t.nodes) :
    ((∃ a ∈ x.stats.av.keys, hid a = false) →
      ∃ e : ℚ, Stats.ecg hid x.stats = .ok e ∧ 0 < e ∧ e ≤ 1 ∧ (x.children = [] → e = 1)) ∧
    ((∀ a ∈ x.stats.av.keys, hid a = true) →
      Stats.ecg (K := ℚ) hid x.stats = .error .zeroDiv) := by
  have L := cobwebLaws (V := V) hid
  obtain ⟨m, hm, hle⟩ := (reach_holds L h).of_mem_nodes hx
  have hs := hm.sum L
  constructor
  · rintro ⟨a, ha, hv⟩
    obtain ⟨i, hi, hia⟩ := (hs.attrs a).1 ha
    have hvis := visAttrs_nonempty hi ⟨a, hia, hv⟩
    refine ⟨_, ecg_eq hs hvis, ecgSpec_pos hvis, ecgSpec_le_one m, fun h0 => ?_⟩
    refine ecgSpec_pure hvis ?_
    rcases hm with ⟨rfl, -⟩ | hm
    · simp at hi
    · cases hm with
      | leaf _ _ h => exact h
      | node h _ _ => simp only [Tree.children_node] at h0; subst h0; simp at h
  · intro hall
    refine ecg_error hs ?_
    ext a
    simp only [visAttrs, Finset.mem_filter, mem_attrsOf, Finset.notMem_empty, iff_false, not_and]
    rw [← hs.attrs]
    intro ha; simp [hall a ha]

/-- The root of the demonstration tree is strictly between the bounds. -/
example : (match Stats.ecg (K := ℚ) Demo.hid Demo.demoTree.stats with
    | .ok u => decide (0 < u ∧ u < 1) | .error _ => false) = true := by
  decide +kernel

end CF
