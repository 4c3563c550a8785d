/-
The loop of `cobweb` on the store computes the tree of Model/Cobweb.lean.
-/
import Verif.Proofs.HeapChoose
import Verif.Proofs.Terminate

set_option linter.unusedSectionVars false

namespace CF
variable {I S K : Type} [Field K] [LinearOrder K]

/-! ### Trees decorated with addresses -/

mutual
/-- Forget the addresses. -/
def Tree.erase : Tree (ℕ × S) → Tree S
  | .node id as cs => .node id as.2 (Tree.eraseL cs)
def Tree.eraseL : List (Tree (ℕ × S)) → List (Tree S)
  | [] => []
  | c :: cs => Tree.erase c :: Tree.eraseL cs
end

theorem Tree.eraseL_eq (cs : List (Tree (ℕ × S))) : Tree.eraseL cs = cs.map Tree.erase := by
  induction cs with
  | nil => rfl
  | cons c cs ih => simp [Tree.eraseL, ih]

theorem Tree.erase_node (id : ℕ) (a : ℕ) (s : S) (cs : List (Tree (ℕ × S))) :
    Tree.erase (.node id (a, s) cs) = .node id s (cs.map Tree.erase) := by
  simp [Tree.erase, Tree.eraseL_eq]

/-- The address of the root of a decorated tree. -/
def Tree.addr (t : Tree (ℕ × S)) : ℕ := t.stats.1
/-- The addresses of all nodes. -/
def Tree.addrs (t : Tree (ℕ × S)) : List ℕ := t.nodes.map Tree.addr

theorem Tree.addrs_node (id : ℕ) (a : ℕ) (s : S) (cs : List (Tree (ℕ × S))) :
    Tree.addrs (.node id (a, s) cs) = a :: cs.flatMap Tree.addrs := by
  simp [Tree.addrs, Tree.nodes_node, Tree.addr, List.map_flatMap]
  rfl

theorem Tree.addr_mem (t : Tree (ℕ × S)) : t.addr ∈ t.addrs :=
  List.mem_map.2 ⟨t, t.self_mem_nodes, rfl⟩

mutual
/-- The objects of the store form the decorated tree, with the given parent of its root. -/
def Rep (h : Heap S) : Option ℕ → Tree (ℕ × S) → Prop
  | p, .node id as cs =>
    h.objs as.1 = some ⟨id, as.2, cs.map Tree.addr, p, true⟩ ∧ RepL h as.1 cs
def RepL (h : Heap S) : ℕ → List (Tree (ℕ × S)) → Prop
  | _, [] => True
  | a, c :: cs => Rep h (some a) c ∧ RepL h a cs
end

theorem repL_iff {h : Heap S} {a : ℕ} {cs : List (Tree (ℕ × S))} :
    RepL h a cs ↔ ∀ c ∈ cs, Rep h (some a) c := by
  induction cs with
  | nil => simp [RepL]
  | cons c cs ih => simp [RepL, ih]

theorem rep_node {h : Heap S} {p : Option ℕ} {id a : ℕ} {s : S} {cs : List (Tree (ℕ × S))} :
    Rep h p (.node id (a, s) cs) ↔
      h.objs a = some ⟨id, s, cs.map Tree.addr, p, true⟩ ∧ ∀ c ∈ cs, Rep h (some a) c := by
  rw [Rep, repL_iff]

theorem Rep.congr {h h' : Heap S} : ∀ (t : Tree (ℕ × S)) {p : Option ℕ}, Rep h p t →
    (∀ x ∈ t.addrs, h'.objs x = h.objs x) → Rep h' p t := by
  apply Tree.ind
  rintro id ⟨a, s⟩ cs ih p hr hx
  rw [rep_node] at hr ⊢
  rw [Tree.addrs_node] at hx
  refine ⟨(hx a (by simp)).trans hr.1, fun c hc => ih c hc (hr.2 c hc) fun x hxc => hx x ?_⟩
  exact List.mem_cons_of_mem _ (List.mem_flatMap.2 ⟨c, hc, hxc⟩)

theorem Rep.obj {h : Heap S} {p : Option ℕ} {t : Tree (ℕ × S)} (hr : Rep h p t) :
    h.objs t.addr = some ⟨t.id, t.stats.2, t.children.map Tree.addr, p, true⟩ := by
  obtain ⟨id, ⟨a, s⟩, cs⟩ := t
  exact (rep_node.1 hr).1

/-- Changing only the parent of the root. -/
theorem Rep.reparent {h h' : Heap S} {t : Tree (ℕ × S)} {p p' : Option ℕ} (hr : Rep h p t)
    (hnd : t.addrs.Nodup)
    (hself : h'.objs t.addr = some ⟨t.id, t.stats.2, t.children.map Tree.addr, p', true⟩)
    (hx : ∀ x ∈ t.addrs, x ≠ t.addr → h'.objs x = h.objs x) : Rep h' p' t := by
  obtain ⟨id, ⟨a, s⟩, cs⟩ := t
  rw [rep_node] at hr ⊢
  refine ⟨hself, fun c hc => (hr.2 c hc).congr c fun x hxc => ?_⟩
  rw [Tree.addrs_node] at hnd hx
  have hm : x ∈ cs.flatMap Tree.addrs := List.mem_flatMap.2 ⟨c, hc, hxc⟩
  refine hx x (List.mem_cons_of_mem _ hm) ?_
  rintro rfl
  exact (List.nodup_cons.1 hnd).1 hm

theorem Tree.stats_erase (t : Tree (ℕ × S)) : t.erase.stats = t.stats.2 := by
  obtain ⟨id, ⟨a, s⟩, cs⟩ := t; rw [Tree.erase_node]; rfl
theorem Tree.children_erase (t : Tree (ℕ × S)) : t.erase.children = t.children.map Tree.erase := by
  obtain ⟨id, ⟨a, s⟩, cs⟩ := t; rw [Tree.erase_node]; rfl
theorem Tree.id_erase (t : Tree (ℕ × S)) : t.erase.id = t.id := by
  obtain ⟨id, ⟨a, s⟩, cs⟩ := t; rw [Tree.erase_node]; rfl

theorem numConcepts_erase : ∀ t : Tree (ℕ × S), t.erase.numConcepts = t.numConcepts := by
  apply Tree.ind
  rintro id ⟨a, s⟩ cs ih
  rw [Tree.erase_node, Tree.numConcepts_node, Tree.numConcepts_node, List.map_map]
  congr 2
  exact List.map_congr_left fun c hc => ih c hc

theorem Rep.at {h : Heap S} {p : Option ℕ} {t : Tree (ℕ × S)} (hr : Rep h p t) :
    At h t.addr t.erase.stats := ⟨_, hr.obj, t.stats_erase.symm, rfl⟩

theorem Rep.kid {h : Heap S} {p : Option ℕ} {t c : Tree (ℕ × S)} (hr : Rep h p t)
    (hc : c ∈ t.children) : Rep h (some t.addr) c := by
  obtain ⟨id, ⟨a, s⟩, cs⟩ := t
  exact (rep_node.1 hr).2 c hc

theorem kids_addr_mem {t c : Tree (ℕ × S)} (hc : c ∈ t.children) {x : ℕ} (hx : x ∈ c.addrs) :
    x ∈ t.addrs := by
  obtain ⟨id, ⟨a, s⟩, cs⟩ := t
  rw [Tree.addrs_node]
  exact List.mem_cons_of_mem _ (List.mem_flatMap.2 ⟨c, hc, hx⟩)

theorem Rep.nodeAt {n : ℕ} {h : Heap S} {p : Option ℕ} {t : Tree (ℕ × S)} (hr : Rep h p t)
    (hlt : ∀ x ∈ t.addrs, x < n) (hn : n ≤ h.next) :
    NodeAt n h t.addr t.erase.stats (t.children.map Tree.addr) (t.erase.children.map Tree.stats) := by
  refine ⟨⟨_, hr.obj, t.stats_erase.symm, rfl, rfl⟩, hlt _ t.addr_mem, ?_, ?_, hn⟩
  · intro c hc
    obtain ⟨d, hd, rfl⟩ := List.mem_map.1 hc
    exact hlt _ (kids_addr_mem hd d.addr_mem)
  · rw [Tree.children_erase, List.map_map, List.forall₂_map_left_iff, List.forall₂_map_right_iff,
      List.forall₂_same]
    intro c hc
    exact (hr.kid hc).at

theorem sublist_addr (cs : List (Tree (ℕ × S))) :
    List.Sublist (cs.map Tree.addr) (cs.flatMap Tree.addrs) := by
  induction cs with
  | nil => simp
  | cons c cs ih =>
    rw [List.map_cons, List.flatMap_cons, ← List.singleton_append]
    exact List.Sublist.append (List.singleton_sublist.2 c.addr_mem) ih

theorem nodup_kid {id a : ℕ} {s : S} {cs : List (Tree (ℕ × S))}
    (hnd : (Tree.node id (a, s) cs).addrs.Nodup) {c : Tree (ℕ × S)} (hc : c ∈ cs) : c.addrs.Nodup := by
  rw [Tree.addrs_node] at hnd
  exact (List.nodup_flatMap.1 (List.nodup_cons.1 hnd).2).1 c hc

theorem nodup_root {t : Tree (ℕ × S)} (hnd : t.addrs.Nodup) : t.addr ∉ t.children.map Tree.addr := by
  obtain ⟨id, ⟨a, s⟩, cs⟩ := t
  rw [Tree.addrs_node] at hnd
  exact fun h => (List.nodup_cons.1 hnd).1 ((sublist_addr cs).subset h)

theorem Rep.around {n : ℕ} {h : Heap S} {p : Option ℕ} {id a : ℕ} {s : S} {cs : List (Tree (ℕ × S))}
    (hr : Rep h p (.node id (a, s) cs)) (hnd : (Tree.node id (a, s) cs).addrs.Nodup)
    (hlt : ∀ x ∈ (Tree.node id (a, s) cs).addrs, x < n) (hn : n ≤ h.next) :
    Around n h a s (cs.map Tree.addr) (cs.map Tree.erase) := by
  have h1 := hr.nodeAt hlt hn
  rw [Tree.erase_node] at h1
  refine ⟨h1, ?_, ?_⟩
  · rw [Tree.addrs_node] at hnd
    exact (sublist_addr cs).nodup (List.nodup_cons.1 hnd).2
  · intro k t hk
    rw [List.getElem?_map] at hk
    obtain ⟨c, hc, rfl⟩ := Option.map_eq_some_iff.1 hk
    have hcm : c ∈ cs := List.mem_of_getElem? hc
    refine ⟨c.addr, c.children.map Tree.addr, by simp [hc], ?_, ?_⟩
    · exact (hr.kid hcm).nodeAt (fun x hx => hlt x (kids_addr_mem (t := .node id (a, s) cs) hcm hx)) hn
    · exact nodup_root (nodup_kid hnd hcm)

/-! ### One call of the loop -/

/-- The leaf objects of `t` are leaf objects of `t'`, with the same concept ids. -/
def Tree.LeavesStay (t t' : Tree (ℕ × S)) : Prop :=
  ∀ x ∈ t.nodes, x.children = [] → ∃ y ∈ t'.nodes, y.addr = x.addr ∧ y.id = x.id ∧ y.children = []

/-- What a run of the loop from a node leaves behind. -/
structure Post (h h' : Heap S) (p : Option ℕ) (dt dt' : Tree (ℕ × S)) (o : Out S) (a' : ℕ) : Prop where
  erase : dt'.erase = o.tree
  rep : Rep h' p dt'
  nodup : dt'.addrs.Nodup
  fresh : ∀ x ∈ dt'.addrs, x < h'.next ∧ (x ∈ dt.addrs ∨ h.next ≤ x)
  next : h.next ≤ h'.next
  w : h'.w = o.w
  frame : ∀ x < h.next, x ∉ dt.addrs → p ≠ some x → h'.objs x = h.objs x
  stay : o.moved = false → dt'.addr = dt.addr ∧ h'.root = h.root ∧
    ∀ q, p = some q → h'.objs q = h.objs q
  move : o.moved = true → (p = none → h'.root = dt'.addr) ∧
    ∀ q r, p = some q → h.objs q = some r → h'.root = h.root ∧
      h'.objs q = some { r with children := r.children.erase dt.addr ++ [dt'.addr] }
  leaf : ∃ x ∈ dt'.nodes, x.id = o.leaf ∧ x.addr = a' ∧ x.children = []
  leaves : dt.LeavesStay dt'

/-- What a run of the loop needs. -/
structure Pre (h : Heap S) (p : Option ℕ) (dt : Tree (ℕ × S)) : Prop where
  rep : Rep h p dt
  nodup : dt.addrs.Nodup
  lt : ∀ x ∈ dt.addrs, x < h.next
  up : ∀ q, p = some q → q < h.next ∧ q ∉ dt.addrs ∧ ∃ r, h.objs q = some r ∧ dt.addr ∈ r.children

variable {C : NodeClass I S} {ecg : Bool → S → Res K}

theorem HM.remove_ok {h : Heap S} {a c : ℕ} {r : Rec S} (e : h.objs a = some r) (hc : c ∈ r.children) :
    HM.remove a c h = (.ok (), h.upd a { r with children := r.children.erase c }) := by
  unfold HM.remove
  rw [HM.bind_ok' (HM.get_ok e), if_pos hc, HM.mod_ok e]

theorem copyLeaf_eq {h : Heap S} {a : ℕ} {r : Rec S} (e : h.objs a = some r) (ha : a < h.next)
    (hr : r.children = []) :
    copyNodeH C 1 a h =
      (.ok h.next, h.push ⟨h.w.ctr + 1, shallowCopy C r.stats, [], r.parent, r.tree⟩) := by
  have hne : a ≠ h.next := by omega
  unfold copyNodeH
  rw [HM.bind_ok' (newNode_eq C h), HM.bind_ok' (HM.get_ok ((push_objs_ne h _ hne).trans e))]
  unfold HM.setTree HM.setParent addFromH
  rw [HM.bind_ok' (HM.mod_ok (push_objs_self h _)), push_upd,
    HM.bind_ok' (HM.mod_ok (push_objs_self h _)), push_upd]
  have : (HM.get a >>= fun rb => HM.mod h.next fun r => { r with stats := C.addFrom r.stats rb.stats })
      (h.push ⟨h.w.ctr + 1, C.fresh, [], r.parent, r.tree⟩) =
      (.ok (), h.push ⟨h.w.ctr + 1, shallowCopy C r.stats, [], r.parent, r.tree⟩) := by
    rw [HM.bind_ok' (HM.get_ok ((push_objs_ne h _ hne).trans e)), HM.mod_ok (push_objs_self h _),
      push_upd]
    rfl
  rw [HM.bind_ok' this, hr]
  rfl

/-- The store after a fringe split, up to the relinking of the parent. -/
theorem fringe_spec {h : Heap S} {p : Option ℕ} {id a : ℕ} {s : S} {i : I}
    (hp : Pre h p (.node id (a, s) [])) :
    ∃ h', fringeH C a i h = (.ok (h.next + 1), h') ∧ h'.next = h.next + 2 ∧ h'.w = h.w.bump 2 ∧
      h'.objs h.next = some ⟨h.w.ctr + 1, C.incr (shallowCopy C s) i, [a, h.next + 1], p, true⟩ ∧
      h'.objs (h.next + 1) = some ⟨h.w.ctr + 2, C.incr C.fresh i, [], some h.next, true⟩ ∧
      h'.objs a = some ⟨id, s, [], some h.next, true⟩ ∧
      (∀ x < h.next, x ≠ a → p ≠ some x → h'.objs x = h.objs x) ∧
      (p = none → h'.root = h.next) ∧
      ∀ q r, p = some q → h.objs q = some r → h'.root = h.root ∧
        h'.objs q = some { r with children := r.children.erase a ++ [h.next] } := by
  have e := (rep_node.1 hp.rep).1
  have ha : a < h.next := hp.lt a (by simp [Tree.addrs_node])
  unfold fringeH
  rw [HM.bind_ok' (copyLeaf_eq e ha rfl)]
  set q0 : Rec S := ⟨h.w.ctr + 1, shallowCopy C s, [], p, true⟩ with hq0
  set h1 := h.push q0 with hh1
  have e1 : h1.objs a = some ⟨id, s, [], p, true⟩ := (push_objs_ne h _ (by omega)).trans e
  unfold HM.setParent HM.append
  rw [HM.bind_ok' (HM.mod_ok e1)]
  set ra : Rec S := ⟨id, s, [], some h.next, true⟩ with hra
  set h2 := h1.upd a ra with hh2
  have e2 : h2.objs h.next = some q0 := by
    rw [hh2, upd_objs_ne _ _ (by omega), hh1, push_objs_self]
  rw [HM.bind_ok' (HM.mod_ok e2)]
  set q1 : Rec S := ⟨h.w.ctr + 1, shallowCopy C s, [a], p, true⟩ with hq1
  show ∃ h', (relinkH a h.next >>= _) (h2.upd h.next q1) = _ ∧ _
  set h3 := h2.upd h.next q1 with hh3
  have e3 : h3.objs h.next = some q1 := upd_objs_self _ _ _
  have n3 : h3.next = h.next + 1 := rfl
  have w3 : h3.w = h.w.bump 1 := rfl
  have o3 : ∀ x, x ≠ h.next → x ≠ a → h3.objs x = h.objs x := by
    intro x h1' h2'
    rw [hh3, upd_objs_ne _ _ h1', hh2, upd_objs_ne _ _ h2', hh1, push_objs_ne _ _ h1']
  have a3 : h3.objs a = some ra := by rw [hh3, upd_objs_ne _ _ (by omega), hh2, upd_objs_self]
  -- relinking
  obtain ⟨h4, e4, n4, w4, f4, x4, r4, q4⟩ : ∃ h4, relinkH a h.next h3 = (.ok (), h4) ∧
      h4.next = h.next + 1 ∧ h4.w = h.w.bump 1 ∧ h4.objs h.next = some q1 ∧
      (∀ x, p ≠ some x → h4.objs x = h3.objs x) ∧ (p = none → h4.root = h.next) ∧
      ∀ q r, p = some q → h.objs q = some r → h4.root = h.root ∧
        h4.objs q = some { r with children := r.children.erase a ++ [h.next] } := by
    cases hpp : p with
    | none =>
      refine ⟨{ h3 with root := h.next }, ?_, n3, w3, e3, fun x _ => rfl, fun _ => rfl, fun q r hq => by cases hq⟩
      unfold relinkH
      rw [HM.bind_ok' (HM.get_ok e3)]
      simp only [hq1, hpp]
      rfl
    | some q =>
      obtain ⟨hql, hqn, r, er, hmem⟩ := hp.up q hpp
      have hqa : q ≠ a := by
        rintro rfl; exact hqn (by simp [Tree.addrs_node])
      have hqx : q ≠ h.next := by omega
      have eq3 : h3.objs q = some r := (o3 q hqx hqa).trans er
      refine ⟨h3.upd q { r with children := r.children.erase a ++ [h.next] }, ?_, n3, w3, ?_, ?_, ?_, ?_⟩
      · unfold relinkH
        rw [HM.bind_ok' (HM.get_ok e3)]
        simp only [hq1, hpp]
        rw [HM.bind_ok' (HM.remove_ok (c := a) eq3 hmem)]
        unfold HM.append
        rw [HM.mod_ok (upd_objs_self _ _ _), upd_upd]
      · rw [upd_objs_ne _ _ (Ne.symm hqx)]; exact e3
      · intro x hx; rw [upd_objs_ne]; rintro rfl; exact hx rfl
      · intro h0; cases h0
      · intro q' r' hq' hr'
        cases hq'
        rw [er] at hr'; cases hr'
        exact ⟨rfl, upd_objs_self _ _ _⟩
  rw [HM.bind_ok' e4]
  unfold incrH
  rw [HM.bind_ok' (HM.mod_ok f4)]
  have e5 := createNewChildH_eq (C := C) (h := h4.upd h.next { q1 with stats := C.incr q1.stats i })
    (upd_objs_self _ _ _) (by simp [n4]) i
  rw [show (h4.upd h.next { q1 with stats := C.incr q1.stats i }).next = h.next + 1 from n4] at e5
  refine ⟨_, e5, ?_, ?_, ?_, ?_, ?_, ?_, ?_, ?_⟩
  · simp [n4]
  · simp [w4, World.bump]
  · simp [n4, hq1]
  · rw [upd_objs_ne _ _ (by omega), show h.next + 1 = (h4.upd h.next { q1 with stats := C.incr q1.stats i }).next
      from n4.symm, push_objs_self]
    simp [w4, World.bump, hq1]
  · rw [upd_objs_ne _ _ (by omega), push_objs_ne _ _ (by simp [n4]; omega), upd_objs_ne _ _ (by omega)]
    have : p ≠ some a := by
      intro hpa; exact (hp.up a hpa).2.1 (by simp [Tree.addrs_node])
    rw [x4 a this, a3]
  · intro x hx hxa hxp
    rw [upd_objs_ne _ _ (by omega), push_objs_ne _ _ (by simp [n4]; omega), upd_objs_ne _ _ (by omega),
      x4 x hxp, o3 x (by omega) hxa]
  · intro h0; exact r4 h0
  · intro q r hq hr
    have hql := (hp.up q hq).1
    refine ⟨(q4 q r hq hr).1, ?_⟩
    rw [upd_objs_ne _ _ (by omega), push_objs_ne _ _ (by simp [n4]; omega), upd_objs_ne _ _ (by omega)]
    exact (q4 q r hq hr).2

/-- What `merge` does to the store. -/
theorem mergeH_spec {h : Heap S} {a b1 b2 : ℕ} {ra r1 r2 : Rec S} (ea : h.objs a = some ra)
    (e1 : h.objs b1 = some r1) (e2 : h.objs b2 = some r2) (ha : a < h.next) (h1 : b1 < h.next)
    (h2 : b2 < h.next) (n1 : b1 ≠ a) (n2 : b2 ≠ a) (n12 : b2 ≠ b1) (m1 : b1 ∈ ra.children)
    (m2 : b2 ∈ ra.children) :
    ∃ h', mergeH C a b1 b2 h = (.ok h.next, h') ∧ h'.next = h.next + 1 ∧ h'.w = h.w.bump 1 ∧
      h'.root = h.root ∧
      h'.objs h.next = some ⟨h.w.ctr + 1, C.addFrom (C.addFrom C.fresh r1.stats) r2.stats, [b1, b2],
        some a, ra.tree⟩ ∧
      h'.objs b1 = some { r1 with parent := some h.next } ∧
      h'.objs b2 = some { r2 with parent := some h.next } ∧
      h'.objs a = some { ra with children := (ra.children.erase b1).erase b2 ++ [h.next] } ∧
      ∀ x < h.next, x ≠ a → x ≠ b1 → x ≠ b2 → h'.objs x = h.objs x := by
  unfold mergeH
  rw [HM.bind_ok' (newNode_eq C h)]
  unfold HM.setParent HM.setTree HM.append
  have eap : ∀ q, (h.push q).objs a = some ra := fun q => (push_objs_ne h q (by omega)).trans ea
  have add : ∀ {b : ℕ} {rb : Rec S} (q : Rec S), b < h.next → h.objs b = some rb →
      addFromH C h.next b (h.push q) =
        (.ok (), h.push { q with stats := C.addFrom q.stats rb.stats }) := by
    intro b rb q hb eb
    unfold addFromH
    rw [HM.bind_ok' (HM.get_ok ((push_objs_ne h q (by omega)).trans eb)), HM.mod_ok (push_objs_self h _),
      push_upd]
  rw [HM.bind_ok' (HM.mod_ok (push_objs_self h _)), push_upd, HM.bind_ok' (HM.get_ok (eap _)),
    HM.bind_ok' (HM.mod_ok (push_objs_self h _)), push_upd, HM.bind_ok' (add _ h1 e1),
    HM.bind_ok' (add _ h2 e2)]
  set q : Rec S := ⟨h.w.ctr + 1, C.addFrom (C.addFrom C.fresh r1.stats) r2.stats, [], some a, ra.tree⟩
    with hq
  show ∃ h', (HM.mod b1 _ >>= _) (h.push q) = _ ∧ _
  rw [HM.bind_ok' (HM.mod_ok (r := r1) ((push_objs_ne h q (by omega)).trans e1))]
  set g1 := (h.push q).upd b1 { r1 with parent := some h.next } with hg1
  have g1b2 : g1.objs b2 = some r2 := by
    rw [hg1, upd_objs_ne _ _ n12, push_objs_ne _ _ (by omega)]; exact e2
  rw [HM.bind_ok' (HM.mod_ok g1b2)]
  set g2 := g1.upd b2 { r2 with parent := some h.next } with hg2
  have g2n : g2.objs h.next = some q := by
    rw [hg2, upd_objs_ne _ _ (by omega), hg1, upd_objs_ne _ _ (by omega), push_objs_self]
  rw [HM.bind_ok' (HM.mod_ok g2n), HM.bind_ok' (HM.mod_ok (upd_objs_self _ _ _)), upd_upd]
  set q' : Rec S := ⟨h.w.ctr + 1, C.addFrom (C.addFrom C.fresh r1.stats) r2.stats, [b1, b2], some a,
    ra.tree⟩ with hq'
  show ∃ h', (HM.remove a b1 >>= _) (g2.upd h.next q') = _ ∧ _
  set g3 := g2.upd h.next q' with hg3
  have g3o : ∀ x, x ≠ h.next → x ≠ b1 → x ≠ b2 → g3.objs x = h.objs x := by
    intro x hx hx1 hx2
    rw [hg3, upd_objs_ne _ _ hx, hg2, upd_objs_ne _ _ hx2, hg1, upd_objs_ne _ _ hx1, push_objs_ne _ _ hx]
  have g3a : g3.objs a = some ra := (g3o a (by omega) (Ne.symm n1) (Ne.symm n2)).trans ea
  rw [HM.bind_ok' (HM.remove_ok g3a m1),
    HM.bind_ok' (HM.remove_ok (upd_objs_self _ _ _)
      (show b2 ∈ ra.children.erase b1 from (List.mem_erase_of_ne n12).2 m2)), upd_upd,
    HM.bind_ok' (HM.mod_ok (upd_objs_self _ _ _)), upd_upd]
  refine ⟨_, rfl, rfl, rfl, rfl, ?_, ?_, ?_, upd_objs_self _ _ _, ?_⟩
  · rw [upd_objs_ne _ _ (by omega), hg3, upd_objs_self]
  · rw [upd_objs_ne _ _ n1, hg3, upd_objs_ne _ _ (by omega), hg2, upd_objs_ne _ _ (Ne.symm n12), hg1,
      upd_objs_self]
  · rw [upd_objs_ne _ _ n2, hg3, upd_objs_ne _ _ (by omega), hg2, upd_objs_self]
  · intro x hx hxa hx1 hx2
    rw [upd_objs_ne _ _ hxa, g3o x (by omega) hx1 hx2]

/-- What the loop of `split` does to the store. -/
theorem splitKids_spec {a : ℕ} {bs : List ℕ} : ∀ {h : Heap S} {ra : Rec S}, h.objs a = some ra →
    a ∉ bs → bs.Nodup → (∀ b ∈ bs, ∃ r, h.objs b = some r) →
    ∃ h', splitKidsH a bs h = (.ok (), h') ∧ h'.next = h.next ∧ h'.w = h.w ∧ h'.root = h.root ∧
      h'.objs a = some { ra with children := ra.children ++ bs } ∧
      (∀ b ∈ bs, ∀ r, h.objs b = some r →
        h'.objs b = some { r with parent := some a, tree := ra.tree }) ∧
      ∀ x, x ≠ a → x ∉ bs → h'.objs x = h.objs x := by
  induction bs with
  | nil =>
    intro h ra ea _ _ _
    exact ⟨h, rfl, rfl, rfl, rfl, by simp [ea], by simp, fun _ _ _ => rfl⟩
  | cons b bs ih =>
    intro h ra ea hab hnd hex
    obtain ⟨r, er⟩ := hex b (by simp)
    have hba : b ≠ a := fun h => hab (by simp [h])
    have hbs : b ∉ bs := (List.nodup_cons.1 hnd).1
    unfold splitKidsH HM.setParent HM.setTree HM.append
    rw [HM.bind_ok' (HM.mod_ok er)]
    have e1 : ∀ q, (h.upd b q).objs a = some ra := fun q => (upd_objs_ne _ _ (Ne.symm hba)).trans ea
    rw [HM.bind_ok' (HM.get_ok (e1 _)), HM.bind_ok' (HM.mod_ok (upd_objs_self _ _ _)), upd_upd,
      HM.bind_ok' (HM.mod_ok (e1 _))]
    set g := (h.upd b { r with parent := some a, tree := ra.tree }).upd a
      { ra with children := ra.children ++ [b] } with hg
    have go : ∀ x, x ≠ a → x ≠ b → g.objs x = h.objs x := by
      intro x h1 h2; rw [hg, upd_objs_ne _ _ h1, upd_objs_ne _ _ h2]
    obtain ⟨h', e', hn, hw, hr, ha', hb', hx'⟩ := ih (h := g) (upd_objs_self _ _ _)
      (fun h => hab (by simp [h])) (List.nodup_cons.1 hnd).2 (fun b' hb' => by
        obtain ⟨r', hr'⟩ := hex b' (by simp [hb'])
        refine ⟨r', (go b' ?_ ?_).trans hr'⟩
        · rintro rfl; exact hab (by simp [hb'])
        · rintro rfl; exact hbs hb')
    refine ⟨h', e', hn, hw, hr, ?_, ?_, ?_⟩
    · rw [ha']; simp
    · intro b' hb2 r' hr'
      rcases List.mem_cons.1 hb2 with rfl | hb3
      · rw [hx' b' hba hbs, hg, upd_objs_ne _ _ hba, upd_objs_self]
        rw [er] at hr'; cases hr'; rfl
      · refine hb' b' hb3 r' ((go b' ?_ ?_).trans hr')
        · rintro rfl; exact hab (by simp [hb3])
        · rintro rfl; exact hbs hb3
    · intro x hxa hxb
      rw [hx' x hxa (fun h => hxb (by simp [h])), go x hxa (fun h => hxb (by simp [h]))]

/-- What `split` does to the store. -/
theorem splitH_spec {h : Heap S} {a b : ℕ} {ra rb : Rec S} (ea : h.objs a = some ra)
    (eb : h.objs b = some rb) (hba : b ≠ a) (m : b ∈ ra.children) (hab : a ∉ rb.children)
    (hnd : rb.children.Nodup) (hex : ∀ c ∈ rb.children, ∃ r, h.objs c = some r) :
    ∃ h', splitH a b h = (.ok (), h') ∧ h'.next = h.next ∧ h'.w = h.w ∧ h'.root = h.root ∧
      h'.objs a = some { ra with children := ra.children.erase b ++ rb.children } ∧
      (∀ c ∈ rb.children, ∀ r, h.objs c = some r →
        h'.objs c = some { r with parent := some a, tree := ra.tree }) ∧
      ∀ x, x ≠ a → x ∉ rb.children → h'.objs x = h.objs x := by
  unfold splitH
  rw [HM.bind_ok' (HM.remove_ok ea m)]
  have o : ∀ x, x ≠ a → (h.upd a { ra with children := ra.children.erase b }).objs x = h.objs x :=
    fun x hx => upd_objs_ne _ _ hx
  rw [HM.bind_ok' (HM.get_ok ((o b hba).trans eb))]
  have na : ∀ c ∈ rb.children, c ≠ a := fun c hc h => hab (h ▸ hc)
  obtain ⟨h', e', hn, hw, hr, ha', hb', hx'⟩ := splitKids_spec
    (upd_objs_self h a { ra with children := ra.children.erase b }) hab hnd
    (fun c hc => by
      obtain ⟨r, hr⟩ := hex c hc
      exact ⟨r, (o c (na c hc)).trans hr⟩)
  exact ⟨h', e', hn, hw, hr, ha', fun c hc r hr' => hb' c hc r ((o c (na c hc)).trans hr'),
    fun x h1 h2 => (hx' x h1 h2).trans (o x h1)⟩

end CF
