/-
Reachable stores: the objects below the root form a reachable tree.
-/
import Verif.Spec.Heap
import Verif.Proofs.HeapRefine
import Verif.Model.History

set_option linter.unusedSectionVars false

namespace CF
variable {I S K : Type} [Field K] [LinearOrder K]
variable {C : NodeClass I S} {ecg : Bool → S → Res K} {Ok : I → Prop} {E : (Bool → S → Res K) → Prop}

/-! ### `categorize` -/

/-- The run of `categorize` on the store agrees with the tree model. -/
def CatAgrees (n : ℕ) (h : Heap S) (dt : Tree (ℕ × S)) (x : Res (Tree S × World))
    (run : Res ℕ × Heap S) : Prop :=
  Keep n h run.2 ∧ h.w.ctr ≤ run.2.w.ctr ∧
  match x with
  | .error e => run.1 = .error e
  | .ok (t, w) => run.2.w = w ∧ ∃ y ∈ dt.nodes, y.erase = t ∧ y.children = [] ∧ run.1 = .ok y.addr

theorem categorizeLoopH_spec {n : ℕ} (i : I) : ∀ (fuel : ℕ) (h : Heap S) (p : Option ℕ)
    (dt : Tree (ℕ × S)), Rep h p dt → (∀ x ∈ dt.addrs, x < n) → n ≤ h.next →
    CatAgrees n h dt (categorizeLoop C (ecg true) i fuel dt.erase h.w)
      (categorizeLoopH C ecg i fuel dt.addr h) := by
  intro fuel
  induction fuel with
  | zero => intro h p dt _ _ _; exact ⟨.refl _ _, le_refl _, rfl⟩
  | succ fuel ih =>
    intro h p dt hr hlt hn
    obtain ⟨id, ⟨a, s⟩, cs⟩ := dt
    have e := (rep_node.1 hr).1
    cases cs with
    | nil =>
      have run : categorizeLoopH C ecg i (fuel + 1) a h = (.ok a, h) := by
        unfold categorizeLoopH
        rw [HM.bind_ok' (HM.get_ok e)]
        rfl
      show CatAgrees _ _ _ _ (categorizeLoopH C ecg i (fuel + 1) a h)
      rw [run, Tree.erase_node]
      exact ⟨.refl _ _, le_refl _, rfl, _, Tree.self_mem_nodes _, by rw [Tree.erase_node]; rfl, rfl, rfl⟩
    | cons c cs' =>
      have hN : NodeAt n h a s (c.addr :: cs'.map Tree.addr)
          (c.erase.stats :: (cs'.map Tree.erase).map Tree.stats) := by
        have := hr.nodeAt hlt hn
        rw [Tree.erase_node] at this
        exact this
      obtain ⟨h1, e1, k1, c1, -, w1⟩ := twoBestH_does (C := C) (ecg := ecg) hN i
      show CatAgrees _ _ _ _ (categorizeLoopH C ecg i (fuel + 1) a h)
      rw [Tree.erase_node]
      unfold categorizeLoopH
      rw [HM.bind_ok' (HM.get_ok e)]
      simp only [List.map_cons, List.isEmpty_cons, if_false, Bool.false_eq_true]
      simp only [categorizeLoop]
      cases hb : twoBest C (ecg true) s (c.erase.stats :: (cs'.map Tree.erase).map Tree.stats) i h.w with
      | error x =>
        simp only [List.map_cons] at hb ⊢
        rw [hb] at e1
        simp only [hb]
        rw [HM.bind_err e1]
        exact ⟨k1, c1, rfl⟩
      | ok b =>
        have hb' := hb
        obtain ⟨hlt1, -⟩ := twoBest_idx C (ecg true) hb
        rw [hb] at e1 w1
        simp only [List.map_cons, hb, ok_bind]
        rw [HM.bind_ok' e1]
        have hlt2 : b.b1 < (c :: cs').length := by simpa using hlt1
        have hk : (c :: cs')[b.b1]? = some (c :: cs')[b.b1] := List.getElem?_eq_getElem hlt2
        set t := (c :: cs')[b.b1] with ht
        have htm : t ∈ c :: cs' := List.getElem_mem hlt2
        have hk2 : (c.erase :: cs'.map Tree.erase)[b.b1]? = some t.erase := by
          rw [← List.map_cons, List.getElem?_map, hk]; rfl
        simp only [hk2]
        have ha : (b.rename (addrAt (c.addr :: cs'.map Tree.addr))).b1 = t.addr := by
          refine addrAt_eq ?_
          rw [← List.map_cons, List.getElem?_map, hk]; rfl
        have hw := w1 _ rfl
        rw [ha]
        have htr : Rep h1 (some a) t :=
          (hr.kid (c := t) htm).congr t fun x hx => k1.objs x (hlt x (kids_addr_mem (t := .node id (a, s) (c :: cs')) htm hx))
        have := ih h1 (some a) t htr
          (fun x hx => hlt x (kids_addr_mem (t := .node id (a, s) (c :: cs')) htm hx)) (hn.trans k1.next)
        have hww : h1.w = (h.w.skip (c.erase :: cs'.map Tree.erase).length).bump
            ((c.erase :: cs'.map Tree.erase).length + 1) := by
          rw [hw]; simp
        rw [← hww]
        obtain ⟨ka, kb, kc⟩ := this
        refine ⟨k1.trans ka, c1.trans kb, ?_⟩
        cases hcl : categorizeLoop C (ecg true) i fuel t.erase h1.w with
        | error x => rw [hcl] at kc; exact kc
        | ok r =>
          rw [hcl] at kc
          obtain ⟨kw, y, hy, hye, hyc, hyr⟩ := kc
          exact ⟨kw, y, Tree.mem_nodes_child (t := .node id (a, s) (c :: cs')) htm hy, hye, hyc, hyr⟩

/-! ### Reachable stores -/

theorem Pre.size {h : Heap S} {p : Option ℕ} {dt : Tree (ℕ × S)} (hp : Pre h p dt) :
    dt.erase.numConcepts ≤ h.next := by
  rw [numConcepts_erase, ← Tree.length_nodes, ← List.length_map (f := Tree.addr)]
  have : dt.addrs ⊆ List.range h.next := fun x hx => List.mem_range.2 (hp.lt x hx)
  have := (hp.nodup.subperm this).length_le
  simpa [Tree.addrs] using this

/-- The fuel of `cobwebH` suffices. -/
theorem cobwebH_agrees (hf : ∀ s, Fueled (ecg true s)) {h : Heap S} {dt : Tree (ℕ × S)}
    (hp : Pre h none dt) (hroot : h.root = dt.addr) (i : I) :
    Agrees C ecg i h none dt (cobweb C (ecg true) dt.erase i h.w) (cobwebH C ecg i h) := by
  have h1 := refines (C := C) (ecg := ecg) i h.next h none dt hp
  have hle := hp.size
  have hfu := fueled_cobwebLoop (C := C) (inst := i) hf dt.erase.numConcepts dt.erase h.w le_rfl
  have := cobwebLoop_mono _ _ _ hfu (h.next - dt.erase.numConcepts)
  rw [Nat.add_sub_cancel' hle] at this
  rw [this] at h1
  unfold cobwebH cobweb
  rw [hroot]
  exact h1

theorem categorizeLoop_mono {ecg : S → Res K} {inst : I} : ∀ (fuel : ℕ) (t : Tree S) (w : World),
    Fueled (categorizeLoop C ecg inst fuel t w) → ∀ k,
      categorizeLoop C ecg inst (fuel + k) t w = categorizeLoop C ecg inst fuel t w := by
  intro fuel
  induction fuel with
  | zero => intro t w h; exact absurd (by simp [categorizeLoop]) h
  | succ fuel ih =>
    intro t w h k
    rw [Nat.succ_add]
    obtain ⟨id, s, cs⟩ := t
    cases cs with
    | nil => simp [categorizeLoop]
    | cons c cs' =>
      simp only [categorizeLoop] at h ⊢
      cases hb : twoBest C ecg s ((c :: cs').map Tree.stats) inst w with
      | error x => rfl
      | ok b =>
        rw [hb, ok_bind] at h
        simp only [ok_bind]
        cases hk : (c :: cs')[b.b1]? with
        | none => rfl
        | some t =>
          rw [hk] at h
          exact ih _ _ h k

theorem categorizeH_agrees (hf : ∀ s, Fueled (ecg true s)) {h : Heap S} {dt : Tree (ℕ × S)}
    (hp : Pre h none dt) (hroot : h.root = dt.addr) (i : I) :
    CatAgrees h.next h dt (categorize C (ecg true) dt.erase i h.w) (categorizeH C ecg i h) := by
  have h1 := categorizeLoopH_spec (C := C) (ecg := ecg) (n := h.next) i h.next h none dt hp.rep hp.lt le_rfl
  have hle := hp.size
  have hfu := fueled_categorizeLoop (C := C) (inst := i) hf dt.erase.numConcepts dt.erase h.w le_rfl
  have := categorizeLoop_mono _ _ _ hfu (h.next - dt.erase.numConcepts)
  rw [Nat.add_sub_cancel' hle] at this
  rw [this] at h1
  unfold categorizeH categorize
  rw [hroot]
  exact h1

theorem Pre.undisturbed {h h' : Heap S} {dt : Tree (ℕ × S)} (hp : Pre h none dt)
    (hu : Undisturbed h h') : Pre h' none dt :=
  ⟨hp.rep.congr dt fun x hx => hu.objs x (hp.lt x hx), hp.nodup,
    fun x hx => (hp.lt x hx).trans_le hu.next, fun q hq => by cases hq⟩

theorem clearH_pre {h h' : Heap S} (he : clearH C h = (.ok (), h')) :
    Pre h' none (.node (h.w.ctr + 1) (h.next, C.fresh) []) ∧ h'.root = h.next ∧
      h'.w.ctr = h.w.ctr + 1 := by
  have : clearH C h = (.ok (), { (h.push ⟨h.w.ctr + 1, C.fresh, [], none, true⟩) with root := h.next }) := by
    unfold clearH
    rw [HM.bind_ok' (newNode_eq C h)]
    unfold HM.setTree
    rw [HM.bind_ok' (show HM.setRoot h.next _ = (.ok (), _) from rfl), HM.mod_ok (h := { (h.push ⟨h.w.ctr + 1, C.fresh, [], none, false⟩) with root := h.next })
        (push_objs_self h _)]
    simp [Heap.upd, Heap.push]
  rw [this] at he
  cases he
  refine ⟨⟨?_, ?_, ?_, fun q hq => by cases hq⟩, rfl, rfl⟩
  · rw [rep_node]
    exact ⟨push_objs_self h _, by simp⟩
  · simp [Tree.addrs_node]
  · intro x hx
    simp [Tree.addrs_node] at hx
    subst hx
    simp

/-- The objects below the root of a reachable store form a reachable tree. -/
theorem hreach_rep (hf : ∀ e, E e → ∀ s, Fueled (e true s)) {h : Heap S} {hist : List I}
    (hr : HReach C Ok E h hist) :
    ∃ dt n, Reach C Ok (fun f => ∃ e, E e ∧ f = e true) dt.erase hist n ∧ n ≤ h.w.ctr ∧
      Pre h none dt ∧ h.root = dt.addr := by
  induction hr with
  | @init h h' he =>
    obtain ⟨h1, h2, h3⟩ := clearH_pre he
    refine ⟨_, h.w.ctr + 1, ?_, h3.ge, h1, h2⟩
    rw [Tree.erase_node]
    exact .init h.w
  | other _ hu ih =>
    obtain ⟨dt, n, hr, hn, hp, hroot⟩ := ih
    exact ⟨dt, n, hr, hn.trans hu.ctr, hp.undisturbed hu, hu.root.trans hroot⟩
  | @step h h' hist e i a _ he hi hc ih =>
    obtain ⟨dt, n, hr, hn, hp, hroot⟩ := ih
    have hA := cobwebH_agrees (C := C) (hf e he) hp hroot i
    cases hco : cobweb C (e true) dt.erase i h.w with
    | error x =>
      rw [hco] at hA
      obtain ⟨h1, h2, -⟩ := hA
      rw [hc] at h2; cases h2
    | ok o =>
      rw [hco] at hA
      obtain ⟨h1, dt', a', h2, P⟩ := hA
      rw [hc] at h2; cases h2
      refine ⟨dt', o.w.ctr, ?_, by rw [P.w], ⟨P.rep, P.nodup, fun x hx => (P.fresh x hx).1, fun q hq => by cases hq⟩, ?_⟩
      · rw [P.erase]
        exact .step hr ⟨e, he, rfl⟩ hi hn hco
      · cases hm : o.moved with
        | false => rw [(P.stay hm).2.1, (P.stay hm).1, hroot]
        | true => exact (P.move hm).1 rfl

/-! ### Links -/

theorem rep_below {h : Heap S} {p : Option ℕ} {dt : Tree (ℕ × S)} (hr : Rep h p dt) {d b : ℕ}
    (hb : Below h dt.addr d b) : ∃ x ∈ dt.nodes, ∃ q, Rep h q x ∧ x.addr = b ∧
      d + x.numConcepts ≤ dt.numConcepts ∧ (q = none → p = none) := by
  induction hb with
  | refl => exact ⟨dt, dt.self_mem_nodes, p, hr, rfl, by simp, id⟩
  | @step d b c r hb e hc ih =>
    obtain ⟨x, hx, q, hq, rfl, hsz, -⟩ := ih
    have he := hq.obj
    rw [e] at he
    cases he
    obtain ⟨y, hy, rfl⟩ := List.mem_map.1 hc
    refine ⟨y, Tree.nodes_trans hx (Tree.mem_nodes_child hy y.self_mem_nodes), _, hq.kid hy, rfl, ?_,
      by simp⟩
    have : y.numConcepts + 1 ≤ x.numConcepts := by
      obtain ⟨xi, xs, xc⟩ := x
      rw [Tree.numConcepts_node]
      have := List.single_le_sum (l := xc.map Tree.numConcepts) (by simp) _ (List.mem_map_of_mem hy)
      omega
    omega

/-- Every node of the tree is below its root. -/
theorem below_of_rep {h : Heap S} : ∀ (dt : Tree (ℕ × S)) {p : Option ℕ}, Rep h p dt → ∀ x ∈ dt.nodes,
    ∃ d, Below h dt.addr d x.addr := by
  have trans : ∀ {a b c d d' : ℕ}, Below h a d b → Below h b d' c → ∃ k, Below h a k c := by
    intro a b c d d' h1 h2
    induction h2 with
    | refl => exact ⟨_, h1⟩
    | step _ e hc ih => obtain ⟨k, hk⟩ := ih; exact ⟨_, .step hk e hc⟩
  apply Tree.ind
  rintro id ⟨a, s⟩ cs ih p hr x hx
  rcases Tree.mem_nodes_node.1 hx with rfl | ⟨c, hc, hx⟩
  · exact ⟨0, .refl _⟩
  · obtain ⟨d, hd⟩ := ih c hc ((rep_node.1 hr).2 c hc) x hx
    have h1 : Below h a 1 c.addr := .step (.refl a) (rep_node.1 hr).1 (List.mem_map_of_mem hc)
    exact trans h1 hd

/-- What is known about the links of the objects below the root. -/
structure Linked (h : Heap S) : Prop where
  root : ∃ r, h.objs h.root = some r ∧ r.parent = none
  node : ∀ {d a}, Below h h.root d a → d < h.next ∧ ∃ r, h.objs a = some r ∧ r.tree = true ∧
    r.children.Nodup ∧ ∀ c ∈ r.children, ∃ rc, h.objs c = some rc ∧ rc.parent = some a

theorem Below.trans {h : Heap S} {a b c d d' : ℕ} (h1 : Below h a d b) (h2 : Below h b d' c) :
    Below h a (d + d') c := by
  induction h2 with
  | refl => exact h1
  | step _ e hc ih => exact .step ih e hc

theorem Linked.parent_unique {h : Heap S} (L : Linked h) {d d' a b c : ℕ} {r r' : Rec S}
    (ha : Below h h.root d a) (ea : h.objs a = some r) (ca : c ∈ r.children)
    (hb : Below h h.root d' b) (eb : h.objs b = some r') (cb : c ∈ r'.children) : a = b := by
  obtain ⟨-, q, e1, -, -, h1⟩ := L.node ha
  obtain ⟨-, q', e2, -, -, h2⟩ := L.node hb
  rw [ea] at e1; cases e1
  rw [eb] at e2; cases e2
  obtain ⟨rc, e3, h3⟩ := h1 c ca
  obtain ⟨rc', e4, h4⟩ := h2 c cb
  rw [e3] at e4; cases e4
  rw [h3] at h4; exact Option.some.inj h4

theorem Linked.root_not_child {h : Heap S} (L : Linked h) {d a : ℕ} {r : Rec S}
    (ha : Below h h.root d a) (ea : h.objs a = some r) : h.root ∉ r.children := by
  intro hc
  obtain ⟨-, q, e1, -, -, h1⟩ := L.node ha
  rw [ea] at e1; cases e1
  obtain ⟨rc, e3, h3⟩ := h1 _ hc
  obtain ⟨r0, e0, h0⟩ := L.root
  rw [e3] at e0; cases e0
  rw [h3] at h0; cases h0

theorem Linked.depth {h : Heap S} (L : Linked h) {d a : ℕ} (ha : Below h h.root d a) :
    ∀ fuel, d < fuel → depthH fuel a h = (.ok d, h) := by
  induction ha with
  | refl =>
    intro fuel hf
    obtain ⟨r0, e0, h0⟩ := L.root
    obtain ⟨fuel, rfl⟩ := Nat.exists_eq_succ_of_ne_zero (by omega : fuel ≠ 0)
    show depthH (fuel + 1) _ h = _
    unfold depthH
    rw [HM.bind_ok' (HM.get_ok e0)]
    simp only [h0]
    rfl
  | @step d b c rb hb e hc ih =>
    intro fuel hf
    obtain ⟨fuel, rfl⟩ := Nat.exists_eq_succ_of_ne_zero (by omega : fuel ≠ 0)
    obtain ⟨-, q, e1, -, -, h1⟩ := L.node hb
    rw [e] at e1; cases e1
    obtain ⟨rc, e3, h3⟩ := h1 c hc
    show depthH (fuel + 1) _ h = _
    unfold depthH
    rw [HM.bind_ok' (HM.get_ok e3)]
    simp only [h3]
    rw [HM.bind_ok' (ih fuel (by omega))]
    show (Except.ok (1 + d), h) = _
    rw [Nat.add_comm]

theorem Linked.isParent {h : Heap S} (L : Linked h) {d' a : ℕ} (ha : Below h h.root d' a) {d b : ℕ}
    (hb : Below h h.root d b) : ∀ fuel, d < fuel → ∃ v, isParentH a fuel (some b) h = (.ok v, h) ∧
      (v = true ↔ ∃ k, Below h a k b) := by
  induction hb with
  | refl =>
    intro fuel hf
    obtain ⟨r0, e0, h0⟩ := L.root
    obtain ⟨fuel, rfl⟩ := Nat.exists_eq_succ_of_ne_zero (by omega : fuel ≠ 0)
    show ∃ v, isParentH a (fuel + 1) _ h = _ ∧ _
    unfold isParentH
    by_cases hra : h.root = a
    · exact ⟨true, by rw [if_pos hra]; rfl, by subst hra; simpa using ⟨0, .refl _⟩⟩
    · rw [if_neg hra, HM.bind_ok' (HM.get_ok e0), h0]
      refine ⟨false, by unfold isParentH; rfl, ?_⟩
      simp only [Bool.false_eq_true, false_iff]
      rintro ⟨k, hk⟩
      generalize hx : h.root = x at hk
      cases hk with
      | refl => exact hra hx
      | step hb e hc => rw [← hx] at hc; exact L.root_not_child (ha.trans hb) e hc
  | @step d b c rb hb e hc ih =>
    intro fuel hf
    obtain ⟨fuel, rfl⟩ := Nat.exists_eq_succ_of_ne_zero (by omega : fuel ≠ 0)
    obtain ⟨-, q, e1, -, -, h1⟩ := L.node hb
    rw [e] at e1; cases e1
    obtain ⟨rc, e3, h3⟩ := h1 c hc
    show ∃ v, isParentH a (fuel + 1) _ h = _ ∧ _
    unfold isParentH
    by_cases hra : c = a
    · exact ⟨true, by rw [if_pos hra]; rfl, by subst hra; simpa using ⟨0, .refl _⟩⟩
    · rw [if_neg hra, HM.bind_ok' (HM.get_ok e3), h3]
      obtain ⟨v, hv, hiff⟩ := ih fuel (by omega)
      refine ⟨v, hv, hiff.trans ⟨fun ⟨k, hk⟩ => ⟨_, .step hk e hc⟩, ?_⟩⟩
      rintro ⟨k, hk⟩
      cases hk with
      | refl => exact absurd rfl hra
      | step hk e' hc' =>
        have := L.parent_unique (ha.trans hk) e' hc' hb e hc
        subst this
        exact ⟨_, hk⟩

theorem Pre.step {e : Bool → S → Res K} (hf : ∀ s, Fueled (e true s)) {h h' : Heap S} {dt : Tree (ℕ × S)}
    (hp : Pre h none dt) (hroot : h.root = dt.addr) {i : I} {a : ℕ}
    (hc : cobwebH C e i h = (.ok a, h')) :
    ∃ o dt', cobweb C (e true) dt.erase i h.w = .ok o ∧ dt'.erase = o.tree ∧ Pre h' none dt' ∧
      h'.root = dt'.addr ∧ h'.w = o.w ∧ dt.LeavesStay dt' ∧
      ∃ x ∈ dt'.nodes, x.id = o.leaf ∧ x.addr = a ∧ x.children = [] := by
  have hA := cobwebH_agrees (C := C) hf hp hroot i
  cases hco : cobweb C (e true) dt.erase i h.w with
  | error x =>
    rw [hco] at hA
    obtain ⟨h1, h2, -⟩ := hA
    rw [hc] at h2; cases h2
  | ok o =>
    rw [hco] at hA
    obtain ⟨h1, dt', a', h2, P⟩ := hA
    rw [hc] at h2; cases h2
    refine ⟨o, dt', rfl, P.erase, ⟨P.rep, P.nodup, fun x hx => (P.fresh x hx).1, fun q hq => by cases hq⟩,
      ?_, P.w, P.leaves, P.leaf⟩
    cases hm : o.moved with
    | false => rw [(P.stay hm).2.1, (P.stay hm).1, hroot]
    | true => exact (P.move hm).1 rfl

theorem Rep.isTree {h : Heap S} : ∀ (dt : Tree (ℕ × S)) {p : Option ℕ}, Rep h p dt →
    IsTree h dt.addr dt.erase := by
  apply Tree.ind
  rintro id ⟨a, s⟩ cs ih p hr
  rw [Tree.erase_node]
  have e := (rep_node.1 hr).1
  refine IsTree.mk (r := ⟨id, s, cs.map Tree.addr, p, true⟩) e ?_
  rw [List.forall₂_map_left_iff, List.forall₂_map_right_iff, List.forall₂_same]
  exact fun c hc => ih c hc ((rep_node.1 hr).2 c hc)

theorem Pre.linked {h : Heap S} {dt : Tree (ℕ × S)} (hp : Pre h none dt) (hroot : h.root = dt.addr) :
    Linked h := by
  refine ⟨⟨_, hroot ▸ hp.rep.obj, rfl⟩, ?_⟩
  intro d a hb
  rw [hroot] at hb
  obtain ⟨x, hx, q, hq, rfl, hsz, -⟩ := rep_below hp.rep hb
  have h1 := hp.size
  rw [numConcepts_erase] at h1
  have h2 := x.numConcepts_pos
  refine ⟨by omega, _, hq.obj, rfl, ?_, ?_⟩
  · obtain ⟨id, ⟨b, s⟩, cs⟩ := x
    have : (Tree.node id (b, s) cs).addrs.Nodup := by
      have : ∀ t : Tree (ℕ × S), t.addrs.Nodup → ∀ y ∈ t.nodes, y.addrs.Nodup := by
        apply Tree.ind
        rintro id ⟨a, s⟩ cs ih hnd y hy
        rcases Tree.mem_nodes_node.1 hy with rfl | ⟨c, hc, hy⟩
        · exact hnd
        · exact ih c hc (nodup_kid hnd hc) y hy
      exact this dt hp.nodup _ hx
    rw [Tree.addrs_node] at this
    exact (sublist_addr cs).nodup (List.nodup_cons.1 this).2
  · intro c hc
    obtain ⟨y, hy, rfl⟩ := List.mem_map.1 hc
    exact ⟨_, (hq.kid hy).obj, rfl⟩

theorem Linked.linksOk {h : Heap S} (L : Linked h) : LinksOk h where
  root_parent := L.root
  child_parent hb := by
    obtain ⟨-, r, e, ht, -, hk⟩ := L.node hb
    exact ⟨r, e, ht, hk⟩
  one_list := by
    intro d c hb hne
    cases hb with
    | refl => exact absurd rfl hne
    | @step d b _ r hb e hc =>
      obtain ⟨-, r', e', -, hnd, -⟩ := L.node hb
      rw [e] at e'; cases e'
      refine ⟨b, r, ⟨d, hb⟩, e, List.count_eq_one_of_mem hnd hc, ?_⟩
      rintro b' rb ⟨k, hk⟩ eb hcb
      exact L.parent_unique hk eb hcb hb e hc
  root_no_list hb e := L.root_not_child hb e
  depth hb fuel hf := L.depth hb fuel ((L.node hb).1.trans_le hf)
  is_parent ha hb fuel hf := L.isParent ha hb fuel ((L.node hb).1.trans_le hf)

end CF
