/-
The loop of `cobweb` on the store refines the loop of Model/Cobweb.lean.
-/
import Verif.Proofs.HeapLoop

set_option linter.unusedSectionVars false

namespace CF
variable {I S K : Type} [Field K] [LinearOrder K]
variable {C : NodeClass I S} {ecg : Bool → S → Res K}

theorem erase_eq_eraseIdx {as : List ℕ} (hnd : as.Nodup) {k b : ℕ} (h : as[k]? = some b) :
    as.erase b = as.eraseIdx k := by
  obtain ⟨hk, rfl⟩ := List.getElem?_eq_some_iff.1 h
  exact hnd.erase_getElem k hk

theorem erase_erase_eq_dropTwo {as : List ℕ} (hnd : as.Nodup) {i j b1 b2 : ℕ} (h1 : as[i]? = some b1)
    (h2 : as[j]? = some b2) : (as.erase b1).erase b2 = dropTwo as i j := by
  rw [(hnd.erase b1).erase_eq_filter, hnd.erase_eq_filter, List.filter_filter,
    ← filter_eq_dropTwo hnd h1 h2]
  apply List.filter_congr
  intro x _
  by_cases hx1 : x = b1 <;> by_cases hx2 : x = b2 <;> simp [hx1, hx2]

/-- The root of the tree moves only when a node without a parent is replaced. -/
theorem Post.root_of_some {h h' : Heap S} {q : ℕ} {dt dt' : Tree (ℕ × S)} {o : Out S} {a' : ℕ}
    (P : Post h h' (some q) dt dt' o a') {r : Rec S} (e : h.objs q = some r) : h'.root = h.root := by
  cases hm : o.moved with
  | false => exact (P.stay hm).2.1
  | true => exact ((P.move hm).2 q r rfl e).1

/-- Putting together what the loop did below a child and the rest of the node. -/
theorem Post.node {h g h' : Heap S} {p : Option ℕ} {id a : ℕ} {s s' : S} {cs L rest : List (Tree (ℕ × S))}
    {ct ct' : Tree (ℕ × S)} {oc : Out S} {a' : ℕ} {ra : Rec S}
    (P : Post g h' (some a) ct ct' oc a')
    (hL : L.Perm (ct' :: rest))
    (hself : h'.objs a = some ⟨id, s', L.map Tree.addr, p, true⟩)
    (hag : g.objs a = some ra)
    (hrest : ∀ c ∈ rest, Rep g (some a) c)
    (hct : ∀ x ∈ ct.addrs, x ∈ (Tree.node id (a, s) cs).addrs ∨ h.next ≤ x)
    (hsub : ∀ x ∈ rest.flatMap Tree.addrs, x ∈ cs.flatMap Tree.addrs)
    (hac : a ∉ ct.addrs) (hdis : ∀ x ∈ rest.flatMap Tree.addrs, x ∉ ct.addrs)
    (hndr : (rest.flatMap Tree.addrs).Nodup)
    (hnd : (Tree.node id (a, s) cs).addrs.Nodup)
    (hlt : ∀ x ∈ (Tree.node id (a, s) cs).addrs, x < h.next)
    (hn : h.next ≤ g.next) (hroot : g.root = h.root)
    (hframe : ∀ x < h.next, x ∉ (Tree.node id (a, s) cs).addrs → g.objs x = h.objs x)
    (hup : ∀ q, p = some q → q < h.next ∧ q ∉ (Tree.node id (a, s) cs).addrs)
    (hne : cs ≠ []) (hstay : ∀ c ∈ cs, (∃ d ∈ ct.children, c = d) ∨ c = ct ∨ c ∈ rest) :
    Post h h' p (.node id (a, s) cs) (.node id (a, s') L)
      ⟨.node id s' (L.map Tree.erase), oc.leaf, false, oc.w⟩ a' := by
  have haddr := Tree.addrs_node id a s cs
  have hnd' := hnd
  rw [haddr, List.nodup_cons] at hnd'
  have han : a < h.next := hlt a (by simp [haddr])
  have har : a ∉ rest.flatMap Tree.addrs := fun hx => hnd'.1 (hsub a hx)
  have hrlt : ∀ x ∈ rest.flatMap Tree.addrs, x < h.next := fun x hx =>
    hlt x (by rw [haddr]; exact List.mem_cons_of_mem _ (hsub x hx))
  have hrobj : ∀ x ∈ rest.flatMap Tree.addrs, h'.objs x = g.objs x := fun x hx =>
    P.frame x (lt_of_lt_of_le (hrlt x hx) hn) (hdis x hx) (by
      intro hxa; cases hxa; exact har hx)
  have hflat : (L.flatMap Tree.addrs).Perm (ct'.addrs ++ rest.flatMap Tree.addrs) := by
    have := hL.flatMap_right Tree.addrs
    simpa [List.flatMap_cons] using this
  have hct' : ∀ x ∈ ct'.addrs, x < h'.next ∧ (x ∈ ct.addrs ∨ g.next ≤ x) := P.fresh
  refine ⟨by rw [Tree.erase_node], ?_, ?_, ?_, hn.trans P.next, P.w, ?_, ?_, ?_, ?_, ?_⟩
  · rw [rep_node]
    refine ⟨hself, fun c hc => ?_⟩
    rcases List.mem_cons.1 (hL.subset hc) with rfl | hc
    · exact P.rep
    · exact (hrest c hc).congr c fun x hx => hrobj x (List.mem_flatMap.2 ⟨c, hc, hx⟩)
  · rw [Tree.addrs_node, List.nodup_cons]
    constructor
    · intro hx
      rcases List.mem_append.1 (hflat.subset hx) with hx | hx
      · rcases (hct' a hx).2 with h1 | h1
        · exact hac h1
        · omega
      · exact har hx
    · rw [hflat.nodup_iff, List.nodup_append]
      refine ⟨P.nodup, hndr, ?_⟩
      rintro x hx y hy rfl
      rcases (hct' x hx).2 with h1 | h1
      · exact hdis x hy h1
      · have := hrlt x hy; omega
  · intro x hx
    rw [Tree.addrs_node] at hx
    rcases List.mem_cons.1 hx with rfl | hx
    · exact ⟨lt_of_lt_of_le han (hn.trans P.next), .inl (by simp [haddr])⟩
    · rcases List.mem_append.1 (hflat.subset hx) with hx | hx
      · refine ⟨(hct' x hx).1, ?_⟩
        rcases (hct' x hx).2 with h1 | h1
        · exact hct x h1
        · exact .inr (hn.trans h1)
      · exact ⟨lt_of_lt_of_le (hrlt x hx) (hn.trans P.next), .inl (by
          rw [haddr]; exact List.mem_cons_of_mem _ (hsub x hx))⟩
  · intro x hx hxd hxp
    have hxa : x ≠ a := by rintro rfl; exact hxd (by simp [haddr])
    rw [P.frame x (lt_of_lt_of_le hx hn) (fun hxc => by
      rcases hct x hxc with h1 | h1
      · exact hxd h1
      · omega) (by simpa using (Ne.symm hxa))]
    exact hframe x hx hxd
  · intro _
    refine ⟨rfl, (P.root_of_some hag).trans hroot, fun q hq => ?_⟩
    obtain ⟨hq1, hq2⟩ := hup q hq
    have hqa : q ≠ a := by rintro rfl; exact hq2 (by simp [haddr])
    rw [P.frame q (lt_of_lt_of_le hq1 hn) (fun hxc => by
      rcases hct q hxc with h1 | h1
      · exact hq2 h1
      · omega) (by simpa using (Ne.symm hqa))]
    exact hframe q hq1 hq2
  · intro h0; cases h0
  · obtain ⟨x, hx, hx'⟩ := P.leaf
    exact ⟨x, by
      rw [Tree.mem_nodes_node]
      exact .inr ⟨ct', hL.mem_iff.2 (by simp), hx⟩, hx'⟩
  · intro x hx hxc
    rcases Tree.mem_nodes_node.1 hx with rfl | ⟨c, hc, hx⟩
    · exact absurd hxc hne
    · have inct : x ∈ ct.nodes → ∃ y ∈ (Tree.node id (a, s') L).nodes,
          y.addr = x.addr ∧ y.id = x.id ∧ y.children = [] := fun hx => by
        obtain ⟨y, hy, hy'⟩ := P.leaves x hx hxc
        exact ⟨y, Tree.mem_nodes_node.2 (.inr ⟨ct', hL.mem_iff.2 (by simp), hy⟩), hy'⟩
      rcases hstay c hc with ⟨d, hd, rfl⟩ | rfl | hc
      · exact inct (Tree.mem_nodes_child hd hx)
      · exact inct hx
      · exact ⟨x, Tree.mem_nodes_node.2 (.inr ⟨c, hL.mem_iff.2 (by simp [hc]), hx⟩), rfl, rfl, hxc⟩

/-- What a run of the loop that raises `x` leaves of a tree, with the world before and the counter after: the nodes that
it passed have counted the instance, merges and splits have been done. -/
inductive Left (C : NodeClass I S) (ecg : S → Res K) (i : I) (x : PyErr) : Tree S → World → Tree S → ℕ → Prop
  | stop {t w n'} : w.ctr ≤ n' → (chooseOp C ecg t.stats t.children i w = .error x ∨ x = .outOfFuel) →
      Left C ecg i x t w t n'
  | best {id s cs b t t' w w' n'} : chooseOp C ecg s cs i w = .ok (b, .best, w') → w.ctr ≤ w'.ctr →
      cs[b.b1]? = some t → Left C ecg i x t w' t' n' →
      Left C ecg i x (.node id s cs) w (.node id (C.incr s i) (cs.set b.b1 t')) n'
  | merge {id s cs b l t1 t2 t' w w' n'} : chooseOp C ecg s cs i w = .ok (b, .merge, w') → w.ctr ≤ w'.ctr →
      cs.length > 2 → b.b2 = some l → l ≠ b.b1 → cs[b.b1]? = some t1 → cs[l]? = some t2 →
      Left C ecg i x (.node (w'.ctr + 1) (C.addFrom (C.addFrom C.fresh t1.stats) t2.stats) [t1, t2]) (w'.bump 1) t' n' →
      Left C ecg i x (.node id s cs) w (.node id (C.incr s i) (removeTwo cs b.b1 l ++ [t'])) n'
  | split {id s cs b t t' w w' n'} : chooseOp C ecg s cs i w = .ok (b, .split, w') → w.ctr ≤ w'.ctr →
      cs[b.b1]? = some t → t.children ≠ [] →
      Left C ecg i x (.node id s (cs.eraseIdx b.b1 ++ t.children)) w' t' n' → Left C ecg i x (.node id s cs) w t' n'

/-- The run `run` on the store agrees with the result `x` of the tree model.  When it raises, the objects still form a
tree. -/
def Agrees (C : NodeClass I S) (ecg : Bool → S → Res K) (i : I) (h : Heap S) (p : Option ℕ) (dt : Tree (ℕ × S)) (x : Res (Out S))
    (run : Res ℕ × Heap S) : Prop :=
  match x with
  | .error e => ∃ h', run = (.error e, h') ∧ ∃ dt' o a', o.moved = false ∧
      Left C (ecg true) i e dt.erase h.w dt'.erase h'.w.ctr ∧ Post h h' p dt dt' o a'
  | .ok o => ∃ h' dt' a', run = (.ok a', h') ∧ Post h h' p dt dt' o a'

/-- Nothing happened but the construction of other objects. -/
theorem Post.stop {h h' : Heap S} {p : Option ℕ} {dt : Tree (ℕ × S)} (hp : Pre h p dt) (K : Keep h.next h h') :
    ∃ o a', o.moved = false ∧ Post h h' p dt dt o a' := by
  obtain ⟨x, hx⟩ := List.exists_mem_of_ne_nil _ dt.leaves_ne_nil
  refine ⟨⟨dt.erase, x.id, false, h'.w⟩, x.addr, rfl, rfl, ?_, hp.nodup, ?_, K.next, rfl, ?_, ?_, by simp, ?_, ?_⟩
  · exact hp.rep.congr dt fun y hy => K.objs y (hp.lt y hy)
  · exact fun y hy => ⟨(hp.lt y hy).trans_le K.next, .inl hy⟩
  · exact fun y hy _ _ => K.objs y hy
  · exact fun _ => ⟨rfl, K.root, fun q hq => K.objs q (hp.up q hq).1⟩
  · exact ⟨x, Tree.leaves_subset_nodes _ _ hx, rfl, rfl, ((Tree.mem_leaves_iff _ _).1 hx).2⟩
  · exact fun y hy hyc => ⟨y, hy, rfl, rfl, hyc⟩

/-- The main refinement statement. -/
def Refines (C : NodeClass I S) (ecg : Bool → S → Res K) (i : I) (fuel : ℕ) : Prop :=
  ∀ (h : Heap S) (p : Option ℕ) (dt : Tree (ℕ × S)), Pre h p dt →
    Agrees C ecg i h p dt (cobwebLoop C (ecg true) i fuel dt.erase h.w) (cobwebLoopH C ecg i fuel dt.addr h)

theorem refines_leaf {i : I} {h : Heap S} {p : Option ℕ} {id a : ℕ} {s : S}
    (hp : Pre h p (.node id (a, s) [])) (fuel : ℕ) :
    Agrees C ecg i h p (.node id (a, s) []) (cobwebLoop C (ecg true) i (fuel + 1) (.node id s []) h.w)
      (cobwebLoopH C ecg i (fuel + 1) a h) := by
  have e := (rep_node.1 hp.rep).1
  have ha : a < h.next := hp.lt a (by simp [Tree.addrs_node])
  unfold cobwebLoop cobwebLoopH
  rw [HM.bind_ok' (HM.get_ok e)]
  simp only [List.map_nil, List.isEmpty_nil, if_true]
  by_cases hex : C.isExact s i || C.count s == 0
  · simp only [hex, if_true]
    refine ⟨h.upd a ⟨id, C.incr s i, [], p, true⟩, .node id (a, C.incr s i) [], a, ?_, ?_⟩
    · unfold incrH
      rw [HM.bind_ok' (HM.mod_ok e)]
      rfl
    · refine ⟨by rw [Tree.erase_node]; rfl, ?_, by simp [Tree.addrs_node], ?_, le_refl _, rfl, ?_, ?_, ?_, ?_, ?_⟩
      · rw [rep_node]; simp
      · intro x hx
        have hx : x = a := by simpa [Tree.addrs_node] using hx
        subst hx
        exact ⟨ha, .inl (by simp [Tree.addrs_node])⟩
      · intro x _ hxa _
        exact upd_objs_ne _ _ (by rintro rfl; exact hxa (by simp [Tree.addrs_node]))
      · intro _
        refine ⟨rfl, rfl, fun q hq => upd_objs_ne _ _ ?_⟩
        rintro rfl
        exact (hp.up q hq).2.1 (by simp [Tree.addrs_node])
      · intro h0; cases h0
      · exact ⟨_, Tree.self_mem_nodes _, rfl, rfl, rfl⟩
      · intro x hx _
        rcases Tree.mem_nodes_node.1 hx with rfl | ⟨c, hc, -⟩
        · exact ⟨_, Tree.self_mem_nodes _, rfl, rfl, rfl⟩
        · simp at hc
  · simp only [hex, if_false, Bool.false_eq_true]
    obtain ⟨h', e', hn, hw, hnew, hkid, hself, hframe, hroot, hq⟩ := fringe_spec (C := C) (i := i) hp
    refine ⟨h', .node (h.w.ctr + 1) (h.next, C.incr (shallowCopy C s) i)
      [.node id (a, s) [], .node (h.w.ctr + 2) (h.next + 1, C.incr C.fresh i) []], h.next + 1, e', ?_⟩
    refine ⟨by rw [Tree.erase_node]; simp [Tree.erase_node], ?_, ?_, ?_, by omega, hw, ?_, ?_, ?_, ?_, ?_⟩
    · rw [rep_node]
      refine ⟨hnew, ?_⟩
      intro c hc
      rcases List.mem_cons.1 hc with rfl | hc
      · rw [rep_node]; exact ⟨hself, by simp⟩
      · rcases List.mem_cons.1 hc with rfl | hc
        · rw [rep_node]; exact ⟨hkid, by simp⟩
        · simp at hc
    · simp [Tree.addrs_node]; omega
    · intro x hx
      have hx : x = h.next ∨ x = a ∨ x = h.next + 1 := by simpa [Tree.addrs_node] using hx
      rcases hx with rfl | rfl | rfl
      · omega
      · exact ⟨by omega, .inl (by simp [Tree.addrs_node])⟩
      · omega
    · intro x hx hxa hxp
      exact hframe x hx (by rintro rfl; exact hxa (by simp [Tree.addrs_node])) hxp
    · intro h0; cases h0
    · intro _
      exact ⟨hroot, fun q r hq1 hq2 => hq q r hq1 hq2⟩
    · refine ⟨.node (h.w.ctr + 2) (h.next + 1, C.incr C.fresh i) [], ?_, rfl, rfl, rfl⟩
      rw [Tree.mem_nodes_node]
      exact .inr ⟨_, List.mem_cons_of_mem _ (List.mem_singleton.2 rfl), Tree.self_mem_nodes _⟩
    · intro x hx _
      rcases Tree.mem_nodes_node.1 hx with rfl | ⟨c, hc, -⟩
      · exact ⟨_, Tree.mem_nodes_node.2 (.inr ⟨_, List.mem_cons_self, Tree.self_mem_nodes _⟩), rfl, rfl, rfl⟩
      · simp at hc

section
variable {i : I} {h : Heap S} {p : Option ℕ} {id a : ℕ} {s : S} {cs : List (Tree (ℕ × S))}

theorem flat_disjoint {l : List (Tree (ℕ × S))} (hnd : (l.flatMap Tree.addrs).Nodup)
    {c d : Tree (ℕ × S)} (hc : c ∈ l) (hd : d ∈ l) {x : ℕ} (hxc : x ∈ c.addrs) (hxd : x ∈ d.addrs) :
    c = d := by
  induction l with
  | nil => simp at hc
  | cons t l ih =>
    rw [List.flatMap_cons, List.nodup_append] at hnd
    rcases List.mem_cons.1 hc with rfl | hc' <;> rcases List.mem_cons.1 hd with rfl | hd'
    · rfl
    · exact absurd rfl (hnd.2.2 x hxc x (List.mem_flatMap.2 ⟨d, hd', hxd⟩))
    · exact absurd rfl (hnd.2.2 x hxd x (List.mem_flatMap.2 ⟨c, hc', hxc⟩))
    · exact ih hnd.2.1 hc' hd'

/-- Facts about a represented internal node used in every branch. -/
theorem Pre.kids (hp : Pre h p (.node id (a, s) cs)) :
    a ∉ cs.flatMap Tree.addrs ∧ (cs.flatMap Tree.addrs).Nodup ∧ (cs.map Tree.addr).Nodup ∧
    (∀ c ∈ cs, Rep h (some a) c) ∧ (∀ x ∈ cs.flatMap Tree.addrs, x < h.next) ∧ a < h.next := by
  have hnd := hp.nodup
  rw [Tree.addrs_node, List.nodup_cons] at hnd
  have hl := hp.lt
  rw [Tree.addrs_node] at hl
  exact ⟨hnd.1, hnd.2, (sublist_addr cs).nodup hnd.2, (rep_node.1 hp.rep).2,
    fun x hx => hl x (List.mem_cons_of_mem _ hx), hl a (by simp)⟩

theorem Rep.keep {n : ℕ} {g g' : Heap S} (K : Keep n g g') {q : Option ℕ} {t : Tree (ℕ × S)}
    (hr : Rep g q t) (hlt : ∀ x ∈ t.addrs, x < n) : Rep g' q t :=
  hr.congr t fun x hx => K.objs x (hlt x hx)

theorem refines_best {fuel : ℕ} (ih : Refines C ecg i fuel) (hp : Pre h p (.node id (a, s) cs))
    {b : Best K} {h1 : Heap S} (K : Keep h.next h h1) (hcc : chooseOp C (ecg true) s (cs.map Tree.erase) i h.w = .ok (b, .best, h1.w))
    (hc1 : h.w.ctr ≤ h1.w.ctr) {k : ℕ} (hb : b.b1 = k) {t : Tree (ℕ × S)} (hk : cs[k]? = some t) :
    Agrees C ecg i h p (.node id (a, s) cs) (cobwebLoop C (ecg true) i fuel t.erase h1.w >>= fun o =>
        pure (⟨.node id (C.incr s i) (putChild (cs.map Tree.erase) k o), o.leaf, false, o.w⟩ : Out S))
      ((incrH C a i >>= fun _ => cobwebLoopH C ecg i fuel t.addr) h1) := by
  obtain ⟨ha, hnd, hndm, hrep, hlt, hal⟩ := hp.kids
  have e := (K.objs a hal).trans (rep_node.1 hp.rep).1
  have htm : t ∈ cs := List.mem_of_getElem? hk
  have htl : ∀ x ∈ t.addrs, x ∈ cs.flatMap Tree.addrs := fun x hx => List.mem_flatMap.2 ⟨t, htm, hx⟩
  have hperm := perm_eraseIdx hk
  have hfl : (cs.flatMap Tree.addrs).Perm (t.addrs ++ (cs.eraseIdx k).flatMap Tree.addrs) := by
    simpa [List.flatMap_cons] using hperm.flatMap_right Tree.addrs
  have hnd2 := (hfl.nodup_iff.1 hnd)
  rw [List.nodup_append] at hnd2
  unfold incrH
  rw [HM.bind_ok' (HM.mod_ok e)]
  set ra : Rec S := ⟨id, C.incr s i, cs.map Tree.addr, p, true⟩ with hra
  show Agrees _ _ _ _ _ _ _ (cobwebLoopH C ecg i fuel t.addr (h1.upd a ra))
  set g := h1.upd a ra with hg
  have hgo : ∀ x < h.next, x ≠ a → g.objs x = h.objs x := fun x hx hxa => by
    rw [hg, upd_objs_ne _ _ hxa, K.objs x hx]
  have hgrep : ∀ c ∈ cs, Rep g (some a) c := fun c hc => (hrep c hc).congr c fun x hx => by
    have hx' : x ∈ cs.flatMap Tree.addrs := List.mem_flatMap.2 ⟨c, hc, hx⟩
    exact hgo x (hlt x hx') (by rintro rfl; exact ha hx')
  have hpre : Pre g (some a) t := by
    refine ⟨hgrep t htm, hnd2.1, fun x hx => lt_of_lt_of_le (hlt x (htl x hx)) K.next, ?_⟩
    intro q hq
    cases hq
    exact ⟨lt_of_lt_of_le hal K.next, fun hx => ha (htl a hx), ra, upd_objs_self _ _ _,
      List.mem_map_of_mem htm⟩
  have hrun := ih g (some a) t hpre
  have hw : g.w = h1.w := rfl
  rw [hw] at hrun
  have key : ∀ {h' : Heap S} {ct' : Tree (ℕ × S)} {o : Out S} {a' : ℕ}, Post g h' (some a) t ct' o a' →
      Post h h' p (.node id (a, s) cs)
        (.node id (a, C.incr s i) (if o.moved then cs.eraseIdx k ++ [ct'] else cs.set k ct'))
        ⟨.node id (C.incr s i) (putChild (cs.map Tree.erase) k o), o.leaf, false, o.w⟩ a' := by
    intro h' ct' o a' P
    set L : List (Tree (ℕ × S)) := if o.moved then cs.eraseIdx k ++ [ct'] else cs.set k ct' with hL
    have hLe : putChild (cs.map Tree.erase) k o = L.map Tree.erase := by
      unfold putChild
      rw [hL, ← P.erase]
      cases o.moved <;> simp [List.eraseIdx_map, List.map_set]
    have hLp : L.Perm (ct' :: cs.eraseIdx k) := by
      rw [hL]
      cases o.moved
      · exact perm_set hk ct'
      · exact List.perm_append_singleton _ _
    have hself : h'.objs a = some ⟨id, C.incr s i, L.map Tree.addr, p, true⟩ := by
      cases hm : o.moved with
      | false =>
        obtain ⟨ha1, -, ha3⟩ := P.stay hm
        rw [ha3 a rfl, hg, upd_objs_self, hra, hL]
        congr 2
        rw [if_neg (by simp [hm]), List.map_set, ha1]
        refine (List.ext_getElem? fun m => ?_).symm
        rw [List.getElem?_set]
        split
        · rename_i hkm
          subst hkm
          obtain ⟨hkl, hkt⟩ := List.getElem?_eq_some_iff.1 hk
          simp [hkl, hkt]
        · rfl
      | true =>
        rw [((P.move hm).2 a ra rfl (upd_objs_self _ _ _)).2, hra, hL]
        simp only [hm, if_true, List.map_append, List.map_cons, List.map_nil]
        rw [erase_eq_eraseIdx hndm (k := k) (by simp [hk]), List.eraseIdx_map]
    rw [hLe]
    refine Post.node P hLp hself (upd_objs_self _ _ _) ?_ ?_ ?_ ?_ ?_ hnd2.2.1 hp.nodup hp.lt K.next
      K.root ?_ (fun q hq => ⟨(hp.up q hq).1, (hp.up q hq).2.1⟩)
      (List.ne_nil_of_mem htm) (fun c hc => by
        rcases List.mem_cons.1 (hperm.subset hc) with h0 | h0
        · exact .inr (.inl h0)
        · exact .inr (.inr h0))
    · exact fun c hc => hgrep c (List.mem_of_mem_eraseIdx hc)
    · intro x hx
      rw [Tree.addrs_node]
      exact .inl (List.mem_cons_of_mem _ (htl x hx))
    · intro x hx; exact hfl.mem_iff.2 (List.mem_append_right _ hx)
    · exact fun hx => ha (htl a hx)
    · exact fun x hx hxt => hnd2.2.2 x hxt x hx rfl
    · intro x hx hxd
      exact hgo x hx (by rintro rfl; exact hxd (by simp [Tree.addrs_node]))
  cases hc : cobwebLoop C (ecg true) i fuel t.erase h1.w with
  | error x =>
    rw [hc] at hrun
    obtain ⟨h', e', ct', o, a', hm, hl, P⟩ := hrun
    have P' := key P
    rw [hm, if_neg (by simp)] at P'
    refine ⟨h', e', _, _, a', rfl, ?_, P'⟩
    rw [Tree.erase_node, Tree.erase_node, List.map_set]
    subst hb
    exact .best hcc hc1 (by rw [List.getElem?_map, hk]; rfl) hl
  | ok o =>
    rw [hc] at hrun
    obtain ⟨h', ct', a', e', P⟩ := hrun
    exact ⟨h', _, a', e', key P⟩

theorem refines_new (hne : cs ≠ []) (hp : Pre h p (.node id (a, s) cs)) {h1 : Heap S} (K : Keep h.next h h1) :
    Agrees C ecg i h p (.node id (a, s) cs)
      (pure (⟨.node id (C.incr s i) (cs.map Tree.erase ++ [.node (h1.w.ctr + 1) (C.incr C.fresh i) []]),
        h1.w.ctr + 1, false, h1.w.bump 1⟩ : Out S))
      ((incrH C a i >>= fun _ => createNewChildH C a i) h1) := by
  obtain ⟨ha, hnd, hndm, hrep, hlt, hal⟩ := hp.kids
  have e := (K.objs a hal).trans (rep_node.1 hp.rep).1
  have hnx := K.next
  unfold incrH
  rw [HM.bind_ok' (HM.mod_ok e)]
  set g := h1.upd a ⟨id, C.incr s i, cs.map Tree.addr, p, true⟩ with hg
  have ec := createNewChildH_eq (C := C) (h := g) (upd_objs_self _ _ _) (by simp [hg]; omega) i
  set h' := (g.push ⟨g.w.ctr + 1, C.incr C.fresh i, [], some a, true⟩).upd a
    ⟨id, C.incr s i, cs.map Tree.addr ++ [g.next], p, true⟩ with hh'
  have hgn : g.next = h1.next := rfl
  have hgw : g.w = h1.w := rfl
  have ho : ∀ x < h.next, x ≠ a → h'.objs x = h.objs x := fun x hx hxa => by
    rw [hh', upd_objs_ne _ _ hxa, push_objs_ne _ _ (by omega), hg, upd_objs_ne _ _ hxa, K.objs x hx]
  refine ⟨h', .node id (a, C.incr s i) (cs ++ [.node (h1.w.ctr + 1) (g.next, C.incr C.fresh i) []]), g.next,
    ec, ?_⟩
  have hfl : (cs ++ [Tree.node (h1.w.ctr + 1) (g.next, C.incr C.fresh i) []]).flatMap Tree.addrs =
      cs.flatMap Tree.addrs ++ [g.next] := by
    simp [List.flatMap_append, List.flatMap_cons, Tree.addrs_node]
  refine ⟨?_, ?_, ?_, ?_, ?_, rfl, ?_, ?_, ?_, ?_, ?_⟩
  · simp [Tree.erase_node]
  · rw [rep_node]
    refine ⟨by rw [hh', upd_objs_self]; simp [Tree.addr], fun c hc => ?_⟩
    rcases List.mem_append.1 hc with hc | hc
    · refine (hrep c hc).congr c fun x hx => ?_
      have hx' : x ∈ cs.flatMap Tree.addrs := List.mem_flatMap.2 ⟨c, hc, hx⟩
      exact ho x (hlt x hx') (by rintro rfl; exact ha hx')
    · obtain rfl := List.mem_singleton.1 hc
      rw [rep_node]
      refine ⟨?_, by simp⟩
      rw [hh', upd_objs_ne _ _ (by omega), push_objs_self]
      rfl
  · rw [Tree.addrs_node, hfl, List.nodup_cons, List.nodup_append]
    refine ⟨?_, hnd, by simp, ?_⟩
    · intro hx
      rcases List.mem_append.1 hx with hx | hx
      · exact ha hx
      · have := List.mem_singleton.1 hx; omega
    · intro x hx y hy
      have := List.mem_singleton.1 hy
      have := hlt x hx
      omega
  · intro x hx
    rw [Tree.addrs_node, hfl] at hx
    have hn' : h'.next = h1.next + 1 := rfl
    rcases List.mem_cons.1 hx with rfl | hx
    · exact ⟨by omega, .inl (by simp [Tree.addrs_node])⟩
    · rcases List.mem_append.1 hx with hx | hx
      · have := hlt x hx
        exact ⟨by omega, .inl (by rw [Tree.addrs_node]; exact List.mem_cons_of_mem _ hx)⟩
      · have := List.mem_singleton.1 hx
        exact ⟨by omega, .inr (by omega)⟩
  · show h.next ≤ h1.next + 1; omega
  · intro x hx hxd _
    exact ho x hx (by rintro rfl; exact hxd (by simp [Tree.addrs_node]))
  · intro _
    refine ⟨rfl, K.root, fun q hq => ho q (hp.up q hq).1 ?_⟩
    rintro rfl
    exact (hp.up q hq).2.1 (by simp [Tree.addrs_node])
  · intro h0; cases h0
  · refine ⟨.node (h1.w.ctr + 1) (g.next, C.incr C.fresh i) [], ?_, rfl, rfl, rfl⟩
    rw [Tree.mem_nodes_node]
    exact .inr ⟨_, by simp, Tree.self_mem_nodes _⟩
  · intro x hx hxc
    rcases Tree.mem_nodes_node.1 hx with rfl | ⟨c, hc, hx⟩
    · exact absurd hxc hne
    · exact ⟨x, Tree.mem_nodes_node.2 (.inr ⟨c, by simp [hc], hx⟩), rfl, rfl, hxc⟩

theorem split_leaves {k : ℕ} {t x : Tree (ℕ × S)} (hk : cs[k]? = some t) (htc : t.children ≠ [])
    (hx : x ∈ (Tree.node id (a, s) cs).nodes) (hxc : x.children = []) :
    x ∈ (Tree.node id (a, s) (cs.eraseIdx k ++ t.children)).nodes := by
  rcases Tree.mem_nodes_node.1 hx with rfl | ⟨c, hc, hx⟩
  · have : cs = [] := hxc
    subst this
    simp at hk
  · rw [Tree.mem_nodes_node]
    rcases List.mem_cons.1 ((perm_eraseIdx hk).subset hc) with rfl | h0
    · obtain ⟨ci, cs', cc⟩ := c
      rcases Tree.mem_nodes_node.1 hx with rfl | ⟨d, hd, hx⟩
      · exact absurd hxc htc
      · exact .inr ⟨d, List.mem_append_right _ hd, hx⟩
    · exact .inr ⟨c, List.mem_append_left _ h0, hx⟩

theorem refines_split {fuel : ℕ} (ih : Refines C ecg i fuel) (hp : Pre h p (.node id (a, s) cs))
    {b : Best K} {h1 : Heap S} (K : Keep h.next h h1)
    (hcc : chooseOp C (ecg true) s (cs.map Tree.erase) i h.w = .ok (b, .split, h1.w)) (hc1 : h.w.ctr ≤ h1.w.ctr) {k : ℕ} {t : Tree (ℕ × S)} (hb : b.b1 = k) (hk : cs[k]? = some t)
    (htc : t.children ≠ []) :
    Agrees C ecg i h p (.node id (a, s) cs)
      (cobwebLoop C (ecg true) i fuel
        (.node id s ((cs.map Tree.erase).eraseIdx k ++ t.erase.children)) h1.w)
      ((splitH a t.addr >>= fun _ => cobwebLoopH C ecg i fuel a) h1) := by
  obtain ⟨ha, hnd, hndm, hrep, hlt, hal⟩ := hp.kids
  have e := (K.objs a hal).trans (rep_node.1 hp.rep).1
  have htm : t ∈ cs := List.mem_of_getElem? hk
  have htl : ∀ x ∈ t.addrs, x ∈ cs.flatMap Tree.addrs := fun x hx => List.mem_flatMap.2 ⟨t, htm, hx⟩
  have hperm := perm_eraseIdx hk
  have hfl : (cs.flatMap Tree.addrs).Perm (t.addrs ++ (cs.eraseIdx k).flatMap Tree.addrs) := by
    simpa [List.flatMap_cons] using hperm.flatMap_right Tree.addrs
  have hnd2 := (hfl.nodup_iff.1 hnd)
  rw [List.nodup_append] at hnd2
  have ht1 : Rep h1 (some a) t := (hrep t htm).keep K fun x hx => hlt x (htl x hx)
  have hndt : t.addrs.Nodup := hnd2.1
  have htaddrs : t.addrs = t.addr :: t.children.flatMap Tree.addrs := by
    obtain ⟨id', ⟨a', s'⟩, cs'⟩ := t
    exact Tree.addrs_node _ _ _ _
  have hndt' := hndt
  rw [htaddrs, List.nodup_cons] at hndt'
  have hsubk : ∀ c ∈ t.children, ∀ x ∈ c.addrs, x ∈ t.addrs := fun c hc x hx => kids_addr_mem hc hx
  have hat : a ∉ t.addrs := fun hx => ha (htl a hx)
  obtain ⟨g, eg, gn, gw, gr, ga, gk, go⟩ := splitH_spec e ht1.obj
    (b := t.addr) (by rintro hta; exact hat (hta ▸ t.addr_mem)) (List.mem_map_of_mem htm)
    (by
      intro hx
      obtain ⟨c, hc, hca⟩ := List.mem_map.1 hx
      exact hat (hsubk c hc a (hca ▸ c.addr_mem)))
    ((sublist_addr _).nodup hndt'.2)
    (by
      intro x hx
      obtain ⟨c, hc, rfl⟩ := List.mem_map.1 hx
      exact ⟨_, (ht1.kid hc).obj⟩)
  rw [HM.bind_ok' eg]
  simp only at ga gk go
  rw [erase_eq_eraseIdx hndm (k := k) (by simp [hk])] at ga
  set cs2 := cs.eraseIdx k ++ t.children with hcs2
  have hfl2 : cs2.flatMap Tree.addrs =
      (cs.eraseIdx k).flatMap Tree.addrs ++ t.children.flatMap Tree.addrs := by
    rw [hcs2, List.flatMap_append]
  have hsub2 : ∀ x ∈ cs2.flatMap Tree.addrs, x ∈ cs.flatMap Tree.addrs := by
    intro x hx
    rw [hfl2] at hx
    rcases List.mem_append.1 hx with hx | hx
    · exact hfl.mem_iff.2 (List.mem_append_right _ hx)
    · exact htl x (by rw [htaddrs]; exact List.mem_cons_of_mem _ hx)
  have hpre : Pre g p (.node id (a, s) cs2) := by
    refine ⟨?_, ?_, ?_, ?_⟩
    · rw [rep_node]
      refine ⟨by rw [ga, hcs2, List.map_append, List.eraseIdx_map], fun c hc => ?_⟩
      rcases List.mem_append.1 hc with hc | hc
      · -- an untouched sibling
        have hcm : c ∈ cs := List.mem_of_mem_eraseIdx hc
        refine (hrep c hcm).congr c fun x hx => ?_
        have hxs : x ∈ (cs.eraseIdx k).flatMap Tree.addrs := List.mem_flatMap.2 ⟨c, hc, hx⟩
        have hxc : x ∈ cs.flatMap Tree.addrs := List.mem_flatMap.2 ⟨c, hcm, hx⟩
        have hxt : x ∉ t.addrs := fun h0 => hnd2.2.2 x h0 x hxs rfl
        rw [go x (by rintro rfl; exact ha hxc) (fun hm => by
          obtain ⟨d, hd, rfl⟩ := List.mem_map.1 hm
          exact hxt (hsubk d hd _ d.addr_mem)), K.objs x (hlt x hxc)]
      · -- a promoted grandchild
        have hR := ht1.kid hc
        have hndc : c.addrs.Nodup := (List.nodup_flatMap.1 hndt'.2).1 c hc
        refine hR.reparent hndc (gk c.addr (List.mem_map_of_mem hc) _ hR.obj) fun x hx hxc => ?_
        refine go x (by rintro rfl; exact hat (hsubk c hc x hx)) fun hm => ?_
        obtain ⟨d, hd, rfl⟩ := List.mem_map.1 hm
        by_cases hdc : d = c
        · exact hxc (by rw [hdc])
        · exact hdc (flat_disjoint hndt'.2 hd hc d.addr_mem hx)
    · rw [Tree.addrs_node, List.nodup_cons, hfl2]
      refine ⟨fun hx => ha (hsub2 a (hfl2 ▸ hx)), List.nodup_append.2 ⟨hnd2.2.1, hndt'.2, ?_⟩⟩
      rintro x hx y hy rfl
      exact hnd2.2.2 x (by rw [htaddrs]; exact List.mem_cons_of_mem _ hy) x hx rfl
    · intro x hx
      rw [Tree.addrs_node] at hx
      rw [gn]
      refine lt_of_lt_of_le ?_ K.next
      rcases List.mem_cons.1 hx with rfl | hx
      · exact hal
      · exact hlt x (hsub2 x hx)
    · intro q hq
      obtain ⟨q1, q2, r, q3, q4⟩ := hp.up q hq
      rw [Tree.addrs_node] at q2
      refine ⟨by rw [gn]; exact lt_of_lt_of_le q1 K.next, ?_, r, ?_, q4⟩
      · rw [Tree.addrs_node]
        intro hx
        rcases List.mem_cons.1 hx with rfl | hx
        · exact q2 (by simp)
        · exact q2 (List.mem_cons_of_mem _ (hsub2 q hx))
      · rw [go q (by rintro rfl; exact q2 (by simp)) (fun hm => by
          obtain ⟨d, hd, rfl⟩ := List.mem_map.1 hm
          exact q2 (List.mem_cons_of_mem _ (htl _ (hsubk d hd _ d.addr_mem)))), K.objs q q1]
        exact q3
  have hrun := ih g p (.node id (a, s) cs2) hpre
  rw [Tree.erase_node, hcs2, List.map_append, gw] at hrun
  have hE : (cs.map Tree.erase).eraseIdx k = (cs.eraseIdx k).map Tree.erase := List.eraseIdx_map _ _ _
  rw [hE, Tree.children_erase]
  have key : ∀ {h' : Heap S} {dt' : Tree (ℕ × S)} {o : Out S} {a' : ℕ}, Post g h' p (.node id (a, s) cs2) dt' o a' →
      Post h h' p (.node id (a, s) cs) dt' o a' := by
    intro h' dt' o a' P
    have hnn : h.next ≤ g.next := by rw [gn]; exact K.next
    have haddr : ∀ x ∈ (Tree.node id (a, s) cs2).addrs, x ∈ (Tree.node id (a, s) cs).addrs := by
      intro x hx
      rw [Tree.addrs_node] at hx ⊢
      rcases List.mem_cons.1 hx with rfl | hx
      · simp
      · exact List.mem_cons_of_mem _ (hsub2 x hx)
    have hgo : ∀ x < h.next, x ∉ (Tree.node id (a, s) cs).addrs → g.objs x = h.objs x := by
      intro x hx hxd
      rw [Tree.addrs_node] at hxd
      rw [go x (by rintro rfl; exact hxd (by simp)) (fun hm => by
        obtain ⟨d, hd, rfl⟩ := List.mem_map.1 hm
        exact hxd (List.mem_cons_of_mem _ (htl _ (hsubk d hd _ d.addr_mem)))), K.objs x hx]
    refine ⟨P.erase, P.rep, P.nodup, ?_, hnn.trans P.next, P.w, ?_, ?_, ?_, P.leaf,
      fun x hx hxc => P.leaves x (split_leaves hk htc hx hxc) hxc⟩
    · intro x hx
      refine ⟨(P.fresh x hx).1, ?_⟩
      rcases (P.fresh x hx).2 with h0 | h0
      · exact .inl (haddr x h0)
      · exact .inr (hnn.trans h0)
    · intro x hx hxd hxp
      rw [P.frame x (lt_of_lt_of_le hx hnn) (fun h0 => hxd (haddr x h0)) hxp, hgo x hx hxd]
    · intro hm
      obtain ⟨s1, s2, s3⟩ := P.stay hm
      exact ⟨s1, s2.trans (gr.trans K.root), fun q hq => by
        rw [s3 q hq, hgo q (hp.up q hq).1 (hp.up q hq).2.1]⟩
    · intro hm
      obtain ⟨s1, s2⟩ := P.move hm
      refine ⟨s1, fun q r hq hr => ?_⟩
      obtain ⟨u1, u2⟩ := s2 q r hq (by rw [hgo q (hp.up q hq).1 (hp.up q hq).2.1]; exact hr)
      exact ⟨u1.trans (gr.trans K.root), u2⟩
  cases hc : cobwebLoop C (ecg true) i fuel
      (.node id s ((cs.eraseIdx k).map Tree.erase ++ t.children.map Tree.erase)) h1.w with
  | error x =>
    rw [hc] at hrun
    obtain ⟨h', e', dt', o, a', hm, hl, P⟩ := hrun
    refine ⟨h', e', dt', o, a', hm, ?_, key P⟩
    rw [Tree.erase_node]
    subst hb
    refine .split (t := t.erase) hcc hc1 (by rw [List.getElem?_map, hk]; rfl) ?_ ?_
    · rw [Tree.children_erase]; simpa using htc
    · rw [List.eraseIdx_map, Tree.children_erase]
      rw [Tree.erase_node, gw, List.map_append] at hl
      exact hl
  | ok o =>
    rw [hc] at hrun
    obtain ⟨h', dt', a', e', P⟩ := hrun
    exact ⟨h', dt', a', e', key P⟩

theorem refines_merge {fuel : ℕ} (ih : Refines C ecg i fuel) (hp : Pre h p (.node id (a, s) cs))
    {b : Best K} {h1 : Heap S} (K : Keep h.next h h1)
    (hcc : chooseOp C (ecg true) s (cs.map Tree.erase) i h.w = .ok (b, .merge, h1.w)) (hc1 : h.w.ctr ≤ h1.w.ctr) (hlen : cs.length > 2)
    {k l : ℕ} {t1 t2 : Tree (ℕ × S)} (hb1 : b.b1 = k) (hb2 : b.b2 = some l) (hk : cs[k]? = some t1)
    (hl : cs[l]? = some t2) (hkl : l ≠ k) :
    Agrees C ecg i h p (.node id (a, s) cs)
      (cobwebLoop C (ecg true) i fuel
          (.node (h1.w.ctr + 1) (C.addFrom (C.addFrom C.fresh t1.erase.stats) t2.erase.stats)
            [t1.erase, t2.erase]) (h1.w.bump 1) >>= fun o =>
        pure (⟨.node id (C.incr s i) (removeTwo (cs.map Tree.erase) k l ++ [o.tree]), o.leaf, false,
          o.w⟩ : Out S))
      ((incrH C a i >>= fun _ => mergeH C a t1.addr t2.addr >>= fun new =>
        cobwebLoopH C ecg i fuel new) h1) := by
  obtain ⟨ha, hnd, hndm, hrep, hlt, hal⟩ := hp.kids
  have e := (K.objs a hal).trans (rep_node.1 hp.rep).1
  have hnx := K.next
  have ht1 : t1 ∈ cs := List.mem_of_getElem? hk
  have ht2 : t2 ∈ cs := List.mem_of_getElem? hl
  have htl1 : ∀ x ∈ t1.addrs, x ∈ cs.flatMap Tree.addrs := fun x hx => List.mem_flatMap.2 ⟨t1, ht1, hx⟩
  have htl2 : ∀ x ∈ t2.addrs, x ∈ cs.flatMap Tree.addrs := fun x hx => List.mem_flatMap.2 ⟨t2, ht2, hx⟩
  have hperm := perm_dropTwo hkl hk hl
  have hfl : (cs.flatMap Tree.addrs).Perm
      (t1.addrs ++ (t2.addrs ++ (dropTwo cs k l).flatMap Tree.addrs)) := by
    simpa [List.flatMap_cons] using hperm.flatMap_right Tree.addrs
  have hnd2 := (hfl.nodup_iff.1 hnd)
  rw [List.nodup_append, List.nodup_append] at hnd2
  obtain ⟨nd1, ⟨nd2, ndr, dis2⟩, dis1⟩ := hnd2
  have n1 : t1.addr ≠ a := fun h0 => ha (htl1 a (h0 ▸ t1.addr_mem))
  have n2 : t2.addr ≠ a := fun h0 => ha (htl2 a (h0 ▸ t2.addr_mem))
  have n12 : t2.addr ≠ t1.addr := fun h0 =>
    dis1 t1.addr t1.addr_mem t2.addr (List.mem_append_left _ t2.addr_mem) h0.symm
  unfold incrH
  rw [HM.bind_ok' (HM.mod_ok e)]
  set f := h1.upd a ⟨id, C.incr s i, cs.map Tree.addr, p, true⟩ with hf
  have fo : ∀ x < h.next, x ≠ a → f.objs x = h.objs x := fun x hx hxa => by
    rw [hf, upd_objs_ne _ _ hxa, K.objs x hx]
  have frep : ∀ c ∈ cs, Rep f (some a) c := fun c hc => (hrep c hc).congr c fun x hx => by
    have hx' : x ∈ cs.flatMap Tree.addrs := List.mem_flatMap.2 ⟨c, hc, hx⟩
    exact fo x (hlt x hx') (by rintro rfl; exact ha hx')
  have r1 := frep t1 ht1
  have r2 := frep t2 ht2
  have hfn : f.next = h1.next := rfl
  obtain ⟨g, eg, gn, gw, gr, gnew, g1, g2, ga, go⟩ := mergeH_spec (C := C) (h := f) (a := a)
    (upd_objs_self _ _ _) r1.obj r2.obj (by omega)
    (by have := hlt _ (htl1 _ t1.addr_mem); omega) (by have := hlt _ (htl2 _ t2.addr_mem); omega)
    n1 n2 n12 (List.mem_map_of_mem ht1) (List.mem_map_of_mem ht2)
  rw [HM.bind_ok' eg]
  simp only at ga g1 g2 gnew
  rw [erase_erase_eq_dropTwo hndm (i := k) (j := l) (by simp [hk]) (by simp [hl]), map_dropTwo] at ga
  set dm : Tree (ℕ × S) := .node (h1.w.ctr + 1)
    (f.next, C.addFrom (C.addFrom C.fresh t1.stats.2) t2.stats.2) [t1, t2] with hdm
  have hdma : dm.addrs = f.next :: (t1.addrs ++ t2.addrs) := by
    rw [hdm, Tree.addrs_node]; simp [List.flatMap_cons]
  have gother : ∀ x ∈ cs.flatMap Tree.addrs, x ≠ t1.addr → x ≠ t2.addr → g.objs x = f.objs x :=
    fun x hx h1' h2' => go x (by have := hlt x hx; omega) (by rintro rfl; exact ha hx) h1' h2'
  have hpre : Pre g (some a) dm := by
    refine ⟨?_, ?_, ?_, ?_⟩
    · rw [hdm, rep_node]
      refine ⟨gnew, fun c hc => ?_⟩
      rcases List.mem_cons.1 hc with rfl | hc
      · refine r1.reparent nd1 g1 fun x hx hxa => gother x (htl1 x hx) hxa ?_
        rintro rfl
        exact dis1 _ hx _ (List.mem_append_left _ t2.addr_mem) rfl
      · obtain rfl := List.mem_singleton.1 hc
        refine r2.reparent nd2 g2 fun x hx hxa => gother x (htl2 x hx) ?_ hxa
        rintro rfl
        exact dis1 _ t1.addr_mem _ (List.mem_append_left _ hx) rfl
    · rw [hdma, List.nodup_cons, List.nodup_append]
      refine ⟨fun hx => ?_, nd1, nd2, fun x hx y hy => dis1 x hx y (List.mem_append_left _ hy)⟩
      rcases List.mem_append.1 hx with hx | hx
      · have := hlt _ (htl1 _ hx); omega
      · have := hlt _ (htl2 _ hx); omega
    · intro x hx
      rw [hdma] at hx
      rw [gn]
      rcases List.mem_cons.1 hx with rfl | hx
      · omega
      · rcases List.mem_append.1 hx with hx | hx
        · have := hlt _ (htl1 _ hx); omega
        · have := hlt _ (htl2 _ hx); omega
    · intro q hq
      cases hq
      refine ⟨by rw [gn]; omega, fun hx => ?_, _, ga, List.mem_append_right _ (by simp [hdm, Tree.addr])⟩
      rw [hdma] at hx
      rcases List.mem_cons.1 hx with hx | hx
      · omega
      · rcases List.mem_append.1 hx with hx | hx
        · exact ha (htl1 _ hx)
        · exact ha (htl2 _ hx)
  have hrun := ih g (some a) dm hpre
  have hde : dm.erase = .node (h1.w.ctr + 1)
      (C.addFrom (C.addFrom C.fresh t1.erase.stats) t2.erase.stats) [t1.erase, t2.erase] := by
    rw [hdm, Tree.erase_node, Tree.stats_erase, Tree.stats_erase]; rfl
  rw [hde, gw] at hrun
  have hfw : f.w = h1.w := rfl
  rw [hfw] at hrun
  have hdaddr : dm.addr = f.next := rfl
  rw [hdaddr] at hrun
  have key : ∀ {h' : Heap S} {ct' : Tree (ℕ × S)} {o : Out S} {a' : ℕ}, Post g h' (some a) dm ct' o a' →
      Post h h' p (.node id (a, s) cs) (.node id (a, C.incr s i) (dropTwo cs k l ++ [ct']))
        ⟨.node id (C.incr s i) (removeTwo (cs.map Tree.erase) k l ++ [o.tree]), o.leaf, false, o.w⟩ a' := by
    intro h' ct' o a' P
    have hself : h'.objs a = some ⟨id, C.incr s i, (dropTwo cs k l ++ [ct']).map Tree.addr, p, true⟩ := by
      cases hm : o.moved with
      | false =>
        obtain ⟨ha1, -, ha3⟩ := P.stay hm
        rw [ha3 a rfl, ga, List.map_append, List.map_singleton, ha1, hdaddr]
      | true =>
        rw [((P.move hm).2 a _ rfl ga).2, List.map_append, List.map_singleton, hdaddr]
        have : f.next ∉ (dropTwo cs k l).map Tree.addr := by
          intro hx
          obtain ⟨c, hc, hca⟩ := List.mem_map.1 hx
          have := hlt c.addr (List.mem_flatMap.2 ⟨c, mem_of_mem_dropTwo hc, c.addr_mem⟩)
          omega
        rw [List.erase_append_right _ this]
        simp
    have hE : removeTwo (cs.map Tree.erase) k l ++ [o.tree] = (dropTwo cs k l ++ [ct']).map Tree.erase := by
      unfold removeTwo
      rw [map_dropTwo, ← P.erase]; simp
    rw [hE]
    refine Post.node P (List.perm_append_singleton _ _) hself ga ?_ ?_ ?_ ?_ ?_ ndr hp.nodup hp.lt
      (by rw [gn]; omega) (gr.trans K.root) ?_ (fun q hq => ⟨(hp.up q hq).1, (hp.up q hq).2.1⟩)
      (List.ne_nil_of_mem ht1) (fun c hc => by
        rcases List.mem_cons.1 (hperm.subset hc) with h0 | h0
        · exact .inl ⟨t1, by simp [hdm], h0⟩
        · rcases List.mem_cons.1 h0 with h0 | h0
          · exact .inl ⟨t2, by simp [hdm], h0⟩
          · exact .inr (.inr h0))
    · intro c hc
      refine (frep c (mem_of_mem_dropTwo hc)).congr c fun x hx => ?_
      have hxr : x ∈ (dropTwo cs k l).flatMap Tree.addrs := List.mem_flatMap.2 ⟨c, hc, hx⟩
      refine gother x (List.mem_flatMap.2 ⟨c, mem_of_mem_dropTwo hc, hx⟩) ?_ ?_
      · rintro rfl; exact dis1 _ t1.addr_mem _ (List.mem_append_right _ hxr) rfl
      · rintro rfl; exact dis2 _ t2.addr_mem _ hxr rfl
    · intro x hx
      rw [hdma] at hx
      rw [Tree.addrs_node]
      rcases List.mem_cons.1 hx with rfl | hx
      · exact .inr (by omega)
      · rcases List.mem_append.1 hx with hx | hx
        · exact .inl (List.mem_cons_of_mem _ (htl1 _ hx))
        · exact .inl (List.mem_cons_of_mem _ (htl2 _ hx))
    · intro x hx
      obtain ⟨c, hc, hxc⟩ := List.mem_flatMap.1 hx
      exact List.mem_flatMap.2 ⟨c, mem_of_mem_dropTwo hc, hxc⟩
    · intro hx
      rw [hdma] at hx
      rcases List.mem_cons.1 hx with hx | hx
      · omega
      · rcases List.mem_append.1 hx with hx | hx
        · exact ha (htl1 _ hx)
        · exact ha (htl2 _ hx)
    · intro x hx hxd
      rw [hdma] at hxd
      rcases List.mem_cons.1 hxd with rfl | hxd
      · obtain ⟨c, hc, hxc⟩ := List.mem_flatMap.1 hx
        have := hlt f.next (List.mem_flatMap.2 ⟨c, mem_of_mem_dropTwo hc, hxc⟩)
        omega
      · rcases List.mem_append.1 hxd with hxd | hxd
        · exact dis1 _ hxd _ (List.mem_append_right _ hx) rfl
        · exact dis2 _ hxd _ hx rfl
    · intro x hx hxd
      rw [Tree.addrs_node] at hxd
      rw [go x (by omega) (by rintro rfl; exact hxd (by simp))
        (by rintro rfl; exact hxd (List.mem_cons_of_mem _ (htl1 _ t1.addr_mem)))
        (by rintro rfl; exact hxd (List.mem_cons_of_mem _ (htl2 _ t2.addr_mem)))]
      exact fo x hx (by rintro rfl; exact hxd (by simp))
  cases hc : cobwebLoop C (ecg true) i fuel (.node (h1.w.ctr + 1)
      (C.addFrom (C.addFrom C.fresh t1.erase.stats) t2.erase.stats) [t1.erase, t2.erase])
      (h1.w.bump 1) with
  | error x =>
    rw [hc] at hrun
    obtain ⟨h', e', ct', o, a', hm, hl', P⟩ := hrun
    refine ⟨h', e', _, _, a', rfl, ?_, key P⟩
    rw [Tree.erase_node, Tree.erase_node, List.map_append, ← map_dropTwo]
    rw [hde, gw] at hl'
    subst hb1
    exact .merge (t1 := t1.erase) (t2 := t2.erase) hcc hc1 (by simpa using hlen) hb2 hkl (by rw [List.getElem?_map, hk]; rfl)
      (by rw [List.getElem?_map, hl]; rfl) hl'
  | ok o =>
    rw [hc] at hrun
    obtain ⟨h', ct', a', e', P⟩ := hrun
    exact ⟨h', _, a', e', key P⟩

end

/-- The loop of `cobweb` on the store refines the loop of the tree model. -/
theorem refines (i : I) : ∀ fuel, Refines C ecg i fuel := by
  intro fuel
  induction fuel with
  | zero =>
    intro h p dt hp
    obtain ⟨o, a', hm, P⟩ := Post.stop hp (.refl _ h)
    exact ⟨h, rfl, dt, o, a', hm, .stop (le_refl _) (.inr rfl), P⟩
  | succ fuel ih =>
    intro h p dt hp
    obtain ⟨id, ⟨a, s⟩, cs⟩ := dt
    cases cs with
    | nil =>
      rw [Tree.erase_node]
      exact refines_leaf hp fuel
    | cons c cs' =>
      have H := hp.rep.around hp.nodup hp.lt (le_refl _)
      have hch := chooseH_spec (C := C) (ecg := ecg) (i := i) H
      have e := (rep_node.1 hp.rep).1
      rw [Tree.erase_node]
      show Agrees _ _ _ _ _ _ _ (cobwebLoopH C ecg i (fuel + 1) a h)
      unfold cobwebLoopH
      rw [HM.bind_ok' (HM.get_ok e)]
      simp only [List.map_cons, List.isEmpty_cons, if_false, Bool.false_eq_true]
      simp only [cobwebLoop]
      simp only [List.map_cons] at hch
      cases hcc : chooseOp C (ecg true) s (c.erase :: cs'.map Tree.erase) i h.w with
      | error x =>
        rw [hcc] at hch
        obtain ⟨h1, K, hc, hrun⟩ := hch
        obtain ⟨o, a', hm, P⟩ := Post.stop hp K
        exact ⟨h1, hrun _, _, o, a', hm, .stop hc (.inl (by rw [Tree.erase_node]; exact hcc)), P⟩
      | ok r =>
        obtain ⟨b, op, w'⟩ := r
        rw [hcc] at hch
        obtain ⟨h1, x, K, hw, hrun⟩ := hch
        rw [hrun]
        subst hw
        obtain ⟨⟨t1', ht1', hsplit⟩, hmerge, hc1, -⟩ := chooseOp_spec C (ecg true) hcc
        have getE : ∀ {m : ℕ} {t' : Tree S}, (c.erase :: cs'.map Tree.erase)[m]? = some t' →
            ∃ t, (c :: cs')[m]? = some t ∧ t' = t.erase := by
          intro m t' hm
          rw [← List.map_cons, List.getElem?_map] at hm
          obtain ⟨t, ht, rfl⟩ := Option.map_eq_some_iff.1 hm
          exact ⟨t, ht, rfl⟩
        obtain ⟨t1, ht1, rfl⟩ := getE ht1'
        have addrE : ∀ {m : ℕ} {t : Tree (ℕ × S)}, (c :: cs')[m]? = some t →
            addrAt (c.addr :: cs'.map Tree.addr) m = t.addr := by
          intro m t hm
          refine addrAt_eq ?_
          rw [← List.map_cons, List.getElem?_map, hm]; rfl
        have hb1 : (b.rename (addrAt (c.addr :: cs'.map Tree.addr))).b1 = t1.addr := addrE ht1
        simp only [ok_bind]
        cases op with
        | best =>
          simp only [ht1', hb1]
          exact refines_best ih hp K hcc hc1 rfl ht1
        | new =>
          exact refines_new (by simp) hp K
        | merge =>
          obtain ⟨hlen, j, t2', hj, hne, ht2'⟩ := hmerge rfl
          obtain ⟨t2, ht2, rfl⟩ := getE ht2'
          have hb2 : (b.rename (addrAt (c.addr :: cs'.map Tree.addr))).b2 = some t2.addr := by
            simp only [Best.rename, hj, Option.map_some, addrE ht2]
          simp only [hj, ht1', ht2', hb1, hb2]
          exact refines_merge ih hp K hcc hc1 (by simpa using hlen) rfl hj ht1 ht2 hne
        | split =>
          simp only [ht1', hb1]
          exact refines_split ih hp K hcc hc1 rfl ht1 (by
            have h0 := hsplit rfl
            rw [Tree.children_erase] at h0
            exact fun h1 => h0 (by rw [h1]; rfl))

end CF
