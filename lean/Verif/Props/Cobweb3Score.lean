/-
Property C84: in a `Cobweb3Tree` too, insertions are ranked by category utility, `categorize` descends to
a child of maximal category utility, and the `cu_for_*` functions predict the category utility of the real
operation.
-/
import Verif.Props.Cobweb3
import Verif.Props.Predict

set_option linter.unusedSectionVars false

namespace CF
variable {A B V : Type} [DecidableEq A] [DecidableEq B] [DecidableEq V] {hid : A → Bool}
  {cfg : Cfg3 A B} {st : State3 A B V} {hist : List (Inst3 A V)} {n : ℕ}

theorem reach3_copies (h : Reach3 hid cfg st hist n) {x : Tree (Stats3 A V)} (hx : x ∈ st.root.nodes) :
    Copies (cobweb3Class hid) x := by
  have L := cobweb3Laws (V := V) hid
  have key : ∀ y ∈ x.nodes, shallowCopy (cobweb3Class hid) y.stats = y.stats := by
    intro y hy
    obtain ⟨m, hm, -⟩ := (reach3_holds h).of_mem_nodes (Tree.nodes_trans hx hy)
    exact L.copy (hm.sum L)
  refine ⟨key x (Tree.self_mem_nodes x), fun c hc => ?_, fun c hc d hd => ?_⟩
  · exact key c (Tree.mem_nodes_child hc (Tree.self_mem_nodes c))
  · exact key d (Tree.mem_nodes_child hc (Tree.mem_nodes_child hd (Tree.self_mem_nodes d)))

/-- **C84**: the category utility of inserting into a child is `relative_cu_for_insert / (count + 1) / n +
const`, whatever the scales (`ifit` has updated them before). -/
theorem C84_relative_cu (h : Reach3 hid cfg st hist n) (sc : Scales B) {x : Tree (Stats3 A V)}
    (hx : x ∈ st.root.nodes) {i : Inst3 A V} {k : ℕ} {c : Tree (Stats3 A V)} (hk : x.children[k]? = some c)
    {r const : ℝ}
    (hr : relativeCuForInsert (cobweb3Class hid) (Stats3.ecg hid cfg sc) c.stats i = .ok r)
    (hc : relativeCuConst (cobweb3Class hid) (Stats3.ecg hid cfg sc) x.stats (x.children.map Tree.stats) i
      = .ok const) :
    cuForInsert (cobweb3Class hid) (Stats3.ecg hid cfg sc) x.stats (x.children.map Tree.stats) k i =
      .ok (r / (x.stats.count + 1) / x.children.length + const) := by
  have hcp := reach3_copies h hx
  have := cuForInsert_eq_relative (C := cobweb3Class hid) (ecg := Stats3.ecg hid cfg sc)
    (s := x.stats) (cs := x.children.map Tree.stats) (inst := i) (k := k) (ck := c.stats)
    (fun c hc => by
      obtain ⟨c, hc', rfl⟩ := List.mem_map.1 hc
      exact hcp.child c hc') hcp.self (fun _ => rfl) (by simp [hk]) hr hc
  rwa [List.length_map] at this

/-- **C84**: `two_best_children` returns the child that maximises `cu_for_insert`, ties broken by size and
then by the random number, with its score; there is a second best child exactly when there are at least
two, and it is the best among the others. -/
theorem C84_two_best (h : Reach3 hid cfg st hist n) {sc : Scales B} {x : Tree (Stats3 A V)}
    (hx : x ∈ st.root.nodes) {i : Inst3 A V} {w : World} {b : Best ℝ}
    (hb : twoBest (cobweb3Class hid) (Stats3.ecg hid cfg sc) x.stats (x.children.map Tree.stats) i w = .ok b) :
    let cu := fun k => cuForInsert (cobweb3Class hid) (Stats3.ecg hid cfg sc) x.stats
      (x.children.map Tree.stats) k i
    ∃ c1, x.children[b.b1]? = some c1 ∧ cu b.b1 = .ok b.cu ∧
      (∀ k c, x.children[k]? = some c → ∃ u, cu k = .ok u ∧
        NotBetter u c.stats.count (w.draw k) b.cu c1.stats.count (w.draw b.b1)) ∧
      (b.b2 = none ↔ x.children.length = 1) ∧
      ∀ j, b.b2 = some j → j ≠ b.b1 ∧ ∃ c2 u2, x.children[j]? = some c2 ∧ cu j = .ok u2 ∧
        ∀ k c u, k ≠ b.b1 → x.children[k]? = some c → cu k = .ok u →
          NotBetter u c.stats.count (w.draw k) u2 c2.stats.count (w.draw j) := by
  have hcp := reach3_copies h hx
  obtain ⟨c1, h1, h2, h3, h4, h5⟩ := twoBest_optimal (C := cobweb3Class hid)
    (fun c hc => by
      obtain ⟨c, hc', rfl⟩ := List.mem_map.1 hc
      exact hcp.child c hc') hcp.self (fun _ => rfl) hb
  simp only [List.getElem?_map, Option.map_eq_some_iff, List.length_map] at *
  obtain ⟨t1, ht1, rfl⟩ := h1
  refine ⟨t1, ht1, h2, fun k c hk => h3 k _ ⟨c, hk, rfl⟩, h4, fun j hj => ?_⟩
  obtain ⟨h6, c2, u2, ⟨t2, ht2, rfl⟩, h7, h8⟩ := h5 j hj
  exact ⟨h6, t2, u2, ht2, h7, fun k c u hk hc hu => h8 k _ u hk ⟨c, hc, rfl⟩ hu⟩

theorem descent_leaf {S : Type} {better : Tree S → ℕ → Prop} {x c : Tree S} {path : List (Tree S)}
    (hp : Descent better x path) (hl : path.getLast? = some c) : c ∈ x.leaves := by
  rw [Tree.mem_leaves_iff]
  induction hp with
  | leaf id s => simp at hl; subst hl; exact ⟨Tree.self_mem_nodes _, rfl⟩
  | @step x d k path hk _ hd ih =>
    have : path.getLast? = some c := by
      cases hd <;> simpa using hl
    exact ⟨Tree.mem_nodes_child (List.mem_of_getElem? hk) (ih this).1, (ih this).2⟩

/-- **C84**: `categorize` returns a leaf of the tree, reached from the root by always moving to a child of
maximal category utility. -/
theorem C84_categorize_descends (h : Reach3 hid cfg st hist n) {i : Inst3 A V} {w w' : World}
    {c : Tree (Stats3 A V)} (hc : categorize3 hid cfg st i w = .ok (c, w')) :
    c ∈ st.root.leaves ∧
    ∃ path, Descent (BestChild (cobweb3Class hid) (Stats3.ecg hid cfg st.scales) i) st.root path ∧
      path.getLast? = some c := by
  have key : ∀ (fuel : ℕ) (x : Tree (Stats3 A V)) (w : World) (c : Tree (Stats3 A V)) (w' : World),
      x ∈ st.root.nodes →
      categorizeLoop (cobweb3Class hid) (Stats3.ecg hid cfg st.scales) i fuel x w = .ok (c, w') →
      ∃ path, Descent (BestChild (cobweb3Class hid) (Stats3.ecg hid cfg st.scales) i) x path ∧
        path.getLast? = some c := by
    intro fuel
    induction fuel with
    | zero => intro x w c w' _ h; simp [categorizeLoop] at h
    | succ fuel ih =>
      intro x w c w' hx hc
      match x, hx, hc with
      | .node id s [], hx, hc =>
        simp [categorizeLoop] at hc
        obtain ⟨rfl, -⟩ := hc
        exact ⟨_, .leaf id s, rfl⟩
      | .node id s (d :: ds), hx, hc =>
        simp only [categorizeLoop, bind_ok] at hc
        obtain ⟨b, hb, hc⟩ := hc
        obtain ⟨c1, h1, h2, h3, -, -⟩ := C84_two_best h hx hb
        simp only [Tree.children_node] at h1
        rw [h1] at hc
        simp only at hc
        have hc1 : c1 ∈ st.root.nodes :=
          Tree.nodes_trans hx (Tree.mem_nodes_child (t := .node id s (d :: ds))
            (List.mem_of_getElem? h1) (Tree.self_mem_nodes c1))
        obtain ⟨path, hp, hl⟩ := ih c1 _ c w' hc1 hc
        refine ⟨.node id s (d :: ds) :: path, .step (k := b.b1) h1 ?_ hp, ?_⟩
        · refine ⟨_, h2, fun j hj => ?_⟩
          obtain ⟨u, hu, hnb⟩ := h3 j _ (List.getElem?_eq_getElem hj)
          refine ⟨u, hu, ?_⟩
          rcases hnb with hlt | ⟨rfl, -⟩
          · exact hlt.le
          · exact le_refl _
        · cases path with
          | nil => cases hp
          | cons y ys => simpa using hl
  obtain ⟨path, hp, hl⟩ := key _ st.root w c w' (Tree.self_mem_nodes _) hc
  exact ⟨descent_leaf hp hl, path, hp, hl⟩

/-- **C84**: at every node of a reachable tree, each `cu_for_*` function returns the category utility that
the node has after the operation was really performed (`n'`, `n''` are the ids of the nodes the operation
creates), whatever the scales. For `merge` the two nodes list their children in a different order, so the
statement is that one is defined with value `u` exactly when the other is. -/
theorem C84_scores_are_real (h : Reach3 hid cfg st hist n) (sc : Scales B) {x : Tree (Stats3 A V)}
    (hx : x ∈ st.root.nodes) (i : Inst3 A V) (n' n'' : ℕ) :
    let C := cobweb3Class (V := V) hid
    let E := Stats3.ecg (V := V) hid cfg sc
    (∀ k < x.children.length, cuForInsert C E x.stats (x.children.map Tree.stats) k i =
      ((x.incr C i).incrChild C k i).cu C E) ∧
    (cuForNewChild C E x.stats (x.children.map Tree.stats) i =
      ((x.incr C i).createNewChild C n' i).cu C E) ∧
    (∀ a b t1 t2 u, x.children[a]? = some t1 → x.children[b]? = some t2 → b ≠ a →
      (cuForMerge C E x.stats (x.children.map Tree.stats) a b t1.stats t2.stats i = .ok u ↔
        (((x.incr C i).merge C n' a b).incrChild C (x.children.length - 2) i).cu C E = .ok u)) ∧
    (∀ a t1, x.children[a]? = some t1 →
      cuForSplit C E x.stats (x.children.map Tree.stats) a (t1.children.map Tree.stats) =
        (x.split a).cu C E) ∧
    (x.children = [] → cuForFringeSplit C E x.stats i =
      (((x.createChildWithCurrentCounts C n').incr C i).createNewChild C n'' i).cu C E) := by
  have hcp := reach3_copies h hx
  refine ⟨fun k hk => cuForInsert_real hcp hk i, cuForNewChild_real hcp n' i, ?_,
    fun a t1 h1 => cuForSplit_real hcp h1, fun h0 => ?_⟩
  · intro a b t1 t2 u h1 h2 hab
    exact cuForMerge_real hcp (fun i => Nat.succ_ne_zero _) h1 h2 hab n' i u
  · cases x with
    | node id s cs =>
      simp only [Tree.children_node] at h0; subst h0
      exact cuForFringeSplit_real hcp.self n' n'' i

/-- **C84** in the running algorithm: when `ifit` performs the operation 'new', 'best' or 'merge' at the
root, then after the whole call the root's category utility is the score that was predicted for the
operation; after a fringe split of the root it is `cu_for_fringe_split`. -/
theorem C84_prediction_comes_true (h : Reach3 hid cfg st hist n) {i : Inst3 A V} {w : World}
    {o : Out3 A B V} (ho : ifit3 hid cfg st i w = .ok o) :
    let C := cobweb3Class (V := V) hid
    let E := Stats3.ecg (V := V) hid cfg o.state.scales
    let t := st.root
    (∀ b w', chooseOp C E t.stats t.children i w = .ok (b, .new, w') → t.children ≠ [] →
      o.state.root.cu C E = cuForNewChild C E t.stats (t.children.map Tree.stats) i) ∧
    (∀ b w' u, chooseOp C E t.stats t.children i w = .ok (b, .best, w') → t.children ≠ [] →
      (o.state.root.cu C E = .ok u ↔
        cuForInsert C E t.stats (t.children.map Tree.stats) b.b1 i = .ok u)) ∧
    (∀ b w' u j t1 t2, chooseOp C E t.stats t.children i w = .ok (b, .merge, w') → t.children ≠ [] →
      b.b2 = some j → t.children[b.b1]? = some t1 → t.children[j]? = some t2 →
      (o.state.root.cu C E = .ok u ↔
        cuForMerge C E t.stats (t.children.map Tree.stats) b.b1 j t1.stats t2.stats i = .ok u)) ∧
    (t.children = [] → t.stats.count ≠ 0 → t.stats.isExact hid i = false →
      o.state.root.cu C E = cuForFringeSplit C E t.stats i) := by
  have hcp := reach3_copies h (Tree.self_mem_nodes st.root)
  unfold ifit3 at ho
  obtain ⟨o0, ho0, he⟩ := bind_ok.1 ho
  clear ho
  simp only [pure_ok] at he
  subst he
  dsimp only
  have hl := loopRel_of_cobweb ho0
  clear ho0
  generalize st.root = t at hl hcp ⊢
  generalize hE : Stats3.ecg (V := V) hid cfg (updateScales cfg.inner st.scales i) = E at hl ⊢
  generalize hC : cobweb3Class (V := V) hid = C at hl hcp ⊢
  have hinc : ∀ s, C.count (C.incr s i) ≠ 0 := by subst hC; exact fun s => Nat.succ_ne_zero _
  have hcount : ∀ s : Stats3 A V, C.count s = s.count := by subst hC; exact fun s => rfl
  have hex : ∀ s : Stats3 A V, C.isExact s i = s.isExact hid i := by subst hC; exact fun s => rfl
  have hchild : ∀ c ∈ t.children, ∀ id s, c = .node id s [] → shallowCopy C s = s := by
    rintro c hc id s rfl; exact hcp.child _ hc
  have hch : ∀ {id s cs} {b b' : Best ℝ} {op op' w1 w2},
      chooseOp C E (Tree.node id s cs).stats (Tree.node id s cs).children i w = .ok (b, op, w1) →
      chooseOp C E s cs i w = .ok (b', op', w2) → b = b' ∧ op = op' := by
    intro id s cs b b' op op' w1 w2 h1 h2
    simp only [Tree.stats_node, Tree.children_node] at h1
    rw [h1] at h2; cases h2; exact ⟨rfl, rfl⟩
  cases hl with
  | hit h0 =>
    refine ⟨fun _ _ _ h => absurd rfl h, fun _ _ _ _ h => absurd rfl h,
      fun _ _ _ _ _ _ _ h => absurd rfl h, fun _ h1 h2 => ?_⟩
    rcases h0 with h0 | h0
    · rw [hex] at h0; exact absurd (h0.symm.trans h2) (by simp)
    · rw [hcount] at h0; exact absurd h0 h1
  | fringe _ _ =>
    refine ⟨fun _ _ _ h => absurd rfl h, fun _ _ _ _ h => absurd rfl h,
      fun _ _ _ _ _ _ _ h => absurd rfl h, fun _ h1 _ => ?_⟩
    have e : shallowCopy C _ = _ := hcp.self
    simp only [Tree.stats_node] at e h1 ⊢
    unfold cuForFringeSplit Tree.cu
    simp only [e, Tree.stats_node, Tree.children_node]
    rw [if_pos (show C.count _ > 0 from Nat.pos_of_ne_zero (by rw [hcount]; exact h1))]
    rfl
  | @new id s cs w w' b hne hc hw =>
    refine ⟨fun b' w'' h1 _ => ?_, fun b' w'' u h1 => ?_, fun _ _ _ _ _ _ h1 => ?_,
      fun h0 => absurd h0 hne⟩
    · rw [cuForNewChild_real hcp (w'.ctr + 1) i]; rfl
    · have := (hch h1 hc).2; cases this
    · have := (hch h1 hc).2; cases this
  | @best id s cs w w' b t1 o' hne hc hw ht1 hrec =>
    refine ⟨fun b' w'' h1 => ?_, fun b' w'' u h1 _ => ?_, fun _ _ _ _ _ _ h1 => ?_,
      fun h0 => absurd h0 hne⟩
    · have := (hch h1 hc).2; cases this
    · obtain ⟨rfl, -⟩ := hch h1 hc
      have hst : o'.tree.stats = C.incr t1.stats i :=
        hrec.stats fun id s he => hchild t1 (List.mem_of_getElem? ht1) id s he
      unfold Tree.cu cuForInsert
      rw [insertChildren_eq (ck := t1.stats) (C := C) _ b'.b1 i (by simp [ht1])]
      · simp only [Tree.stats_node, Tree.children_node]
        rw [show shallowCopy C s = s from hcp.self]
        refine categoryUtility_perm (C := C) (hinc _) ?_ u
        have p1 := (perm_putChild ht1 o').map Tree.stats
        have p2 := perm_set (cs := cs.map Tree.stats) (i := b'.b1) (x := t1.stats) (by simp [ht1])
          (C.incr t1.stats i)
        rw [List.map_cons, hst, ← List.eraseIdx_map] at p1
        exact p1.trans p2.symm
      · intro c hc
        obtain ⟨c, hc', rfl⟩ := List.mem_map.1 hc
        exact hcp.child c hc'
    · have := (hch h1 hc).2; cases this
  | @merge id s cs w w' b j t1 t2 o' hlen hc hw hj hne2 ht1 ht2 hrec =>
    refine ⟨fun b' w'' h1 => ?_, fun b' w'' u h1 _ => ?_, fun b' w'' u j' t1' t2' h1 _ hj' h2 h3 => ?_,
      fun h0 => by simp only [Tree.children_node] at h0; subst h0; simp at hlen⟩
    · have := (hch h1 hc).2; cases this
    · have := (hch h1 hc).2; cases this
    · obtain ⟨rfl, -⟩ := hch h1 hc
      simp only [Tree.children_node] at h2 h3
      rw [hj] at hj'; cases hj'
      rw [ht1] at h2; cases h2
      rw [ht2] at h3; cases h3
      have hst := hrec.stats (by intro id s he; simp at he)
      unfold Tree.cu cuForMerge
      rw [map_dropTwo, map_copy fun c hc => hcp.child c (mem_of_mem_dropTwo hc), hcp.self]
      refine categoryUtility_perm (C := C) (hinc _) ?_ u
      simp only [Tree.children_node, removeTwo, List.map_append, List.map_cons, List.map_nil, hst,
        Tree.stats_node]
      exact List.perm_append_singleton _ _
  | @split id s cs w w' b t1 o' hne hc hw ht1 hne1 hrec =>
    refine ⟨fun b' w'' h1 => ?_, fun b' w'' u h1 _ => ?_, fun _ _ _ _ _ _ h1 => ?_,
      fun h0 => absurd h0 hne⟩
    · have := (hch h1 hc).2; cases this
    · have := (hch h1 hc).2; cases this
    · have := (hch h1 hc).2; cases this

/-- Categorising an instance in the tree of a mixed history. -/
example : ∃ st n c w', Reach3 Demo.hid (⟨1 / 2, id⟩ : Cfg3 ℕ ℕ) st Demo.mixed n ∧
    categorize3 Demo.hid ⟨1 / 2, id⟩ st [(1, .num 2)] Demo.w0 = .ok (c, w') ∧ c ∈ st.root.leaves ∧
    ∃ path, Descent (BestChild (cobweb3Class Demo.hid) (Stats3.ecg Demo.hid ⟨1 / 2, id⟩ st.scales) [(1, .num 2)])
      st.root path ∧ path.getLast? = some c := by
  obtain ⟨st, n, h⟩ := reach3_exists ⟨1 / 2, id⟩ Demo.mixed Demo.mixed_ok
  obtain ⟨⟨c, w'⟩, hc⟩ := C63_categorize_never_raises h (fun j hj => (Demo.mixed_ok j hj).2)
    (i := [(1, .num 2)]) (by simp [Dict.Nodup, Dict.keys]) (w := Demo.w0) (fun a b hab => by simpa [Demo.w0] using hab)
  exact ⟨st, n, c, w', h, hc, C84_categorize_descends h hc⟩

/-- Fitting one more instance. -/
example : ∃ st n o, Reach3 Demo.hid (⟨1 / 2, id⟩ : Cfg3 ℕ ℕ) st Demo.mixed n ∧
    ifit3 Demo.hid ⟨1 / 2, id⟩ st [(1, .num 2)] Demo.w0 = .ok o := by
  obtain ⟨st, n, h⟩ := reach3_exists ⟨1 / 2, id⟩ Demo.mixed Demo.mixed_ok
  obtain ⟨o, ho⟩ := C63_ifit_never_raises h (fun j hj => (Demo.mixed_ok j hj).2)
    (i := [(1, .num 2)]) (by simp [Dict.Nodup, Dict.keys]) ⟨1, by simp [Dict.keys], by decide⟩ (w := Demo.w0)
    (fun a b hab => by simpa [Demo.w0] using hab)
  exact ⟨st, n, o, h, ho⟩

end CF
