/-
The copy constructor of `CobwebNode` on the store.
-/
import Verif.Proofs.HeapReach

set_option linter.unusedSectionVars false

namespace CF
variable {I S K : Type} [Field K] [LinearOrder K] {C : NodeClass I S}

theorem CopyOf.mono {C : NodeClass I S} {h g : Heap S} {lo lo' hi hi' : ℕ} (hlo : lo' ≤ lo)
    (hhi : hi ≤ hi') {g' : Heap S} (hg : ∀ x, lo ≤ x → x < hi → g'.objs x = g.objs x) :
    ∀ (dt : Tree (ℕ × S)) {p : Option ℕ} {b : ℕ}, Rep h p dt → CopyOf C h g lo hi dt.addr b →
      CopyOf C h g' lo' hi' dt.addr b := by
  apply Tree.ind
  rintro id ⟨a, s⟩ cs ih p b hr hc
  have e := (rep_node.1 hr).1
  cases hc with
  | @mk _ _ r r' e1 e2 hlb hub hs hp ht hk =>
    replace e1 : h.objs a = some r := e1
    rw [e] at e1; cases e1
    refine .mk (r' := r') e ((hg b hlb hub).trans e2) (hlo.trans hlb) (hub.trans_le hhi) hs hp ht ?_
    simp only [List.forall₂_map_left_iff] at hk ⊢
    exact forall₂_imp_mem hk fun c c' hc h' => ih c hc ((rep_node.1 hr).2 c hc) h'

/-- What the loop of the copy constructor does to the store. -/
theorem copyKidsH_spec {h : Heap S} {n a new : ℕ} {copy : ℕ → HM S ℕ} : ∀ (cs : List (Tree (ℕ × S)))
    (g : Heap S) (r0 : Rec S),
    (∀ c ∈ cs, Rep h (some a) c ∧ ∀ x ∈ c.addrs, x < n) →
    (∀ c ∈ cs, ∀ g : Heap S, (∀ x < n, g.objs x = h.objs x) → n ≤ g.next → ∃ b g',
      copy c.addr g = (.ok b, g') ∧ Keep g.next g g' ∧ g.w.ctr ≤ g'.w.ctr ∧
        CopyOf C h g' g.next g'.next c.addr b) →
    (∀ x < n, g.objs x = h.objs x) → n ≤ new → new < g.next → g.objs new = some r0 →
    ∃ g' bs, copyKidsH copy new (cs.map Tree.addr) g = (.ok (), g') ∧ g.next ≤ g'.next ∧
      g'.root = g.root ∧ g.w.ctr ≤ g'.w.ctr ∧
      (∀ x < g.next, x ≠ new → g'.objs x = g.objs x) ∧
      g'.objs new = some { r0 with children := r0.children ++ bs } ∧
      List.Forall₂ (CopyOf C h g' g.next g'.next) (cs.map Tree.addr) bs := by
  intro cs
  induction cs with
  | nil =>
    intro g r0 _ _ _ _ _ e
    exact ⟨g, [], rfl, le_refl _, rfl, le_refl _, fun _ _ _ => rfl, by simpa using e, .nil⟩
  | cons c cs ih =>
    intro g r0 hrep hcopy hg hn hlt e
    obtain ⟨b, g1, e1, k1, ct1, c1⟩ := hcopy c (by simp) g hg (hn.trans hlt.le)
    have e2 : g1.objs new = some r0 := (k1.objs new hlt).trans e
    set g2 := g1.upd new { r0 with children := r0.children ++ [b] } with hg2
    obtain ⟨g3, bs, e3, n3, r3, ct3, o3, s3, f3⟩ := ih g2 { r0 with children := r0.children ++ [b] }
      (fun c hc => hrep c (by simp [hc])) (fun c hc => hcopy c (by simp [hc]))
      (fun x hx => by
        rw [hg2, upd_objs_ne _ _ (by omega), k1.objs x (by omega), hg x hx]) hn
      (by rw [hg2, upd_next]; exact hlt.trans_le k1.next) (upd_objs_self _ _ _)
    have n2 : g2.next = g1.next := rfl
    refine ⟨g3, b :: bs, ?_, k1.next.trans n3, ?_, ?_, ?_, ?_, ?_⟩
    · simp only [List.map_cons, copyKidsH]
      rw [HM.bind_ok' e1, HM.bind_ok' (show HM.append new b g1 = (.ok (), g2) from HM.mod_ok e2)]
      exact e3
    · rw [r3]; exact k1.root
    · exact ct1.trans ct3
    · intro x hx hne
      rw [o3 x (hx.trans_le k1.next) hne, hg2, upd_objs_ne _ _ hne, k1.objs x hx]
    · rw [s3]; simp
    · rw [List.map_cons]
      refine .cons ?_ ?_
      · refine CopyOf.mono (le_refl _) n3 ?_ c (hrep c (by simp)).1 c1
        intro x h1 h2
        rw [o3 x h2 (by omega), hg2, upd_objs_ne _ _ (by omega)]
      · simp only [List.forall₂_map_left_iff] at f3 ⊢
        exact forall₂_imp_mem f3 fun c' b' hc' h' =>
          CopyOf.mono k1.next (le_refl _) (fun _ _ _ => rfl) c' (hrep c' (by simp [hc'])).1 h'

/-- The copy constructor returns and copies the tree below the node, `parent` and `tree` included. -/
theorem copyNodeH_spec {h : Heap S} {n : ℕ} : ∀ (dt : Tree (ℕ × S)) {p : Option ℕ}, Rep h p dt →
    (∀ x ∈ dt.addrs, x < n) → ∀ fuel, dt.numConcepts ≤ fuel →
    ∀ g : Heap S, (∀ x < n, g.objs x = h.objs x) → n ≤ g.next →
    ∃ b g', copyNodeH C fuel dt.addr g = (.ok b, g') ∧ Keep g.next g g' ∧ g.w.ctr ≤ g'.w.ctr ∧
      CopyOf C h g' g.next g'.next dt.addr b := by
  apply Tree.ind
  rintro id ⟨a, s⟩ cs ih p hr hlt fuel hf g hg hn
  have ha : a < n := hlt a (by simp [Tree.addrs_node])
  have e := (rep_node.1 hr).1
  rw [Tree.numConcepts_node] at hf
  obtain ⟨fuel, rfl⟩ := Nat.exists_eq_succ_of_ne_zero (by omega : fuel ≠ 0)
  have hfk : ∀ c ∈ cs, c.numConcepts ≤ fuel := fun c hc => by
    have := List.single_le_sum (l := cs.map Tree.numConcepts) (by simp) _ (List.mem_map_of_mem hc)
    omega
  have hltk : ∀ c ∈ cs, ∀ x ∈ c.addrs, x < n := fun c hc x hx =>
    hlt x (kids_addr_mem (t := .node id (a, s) cs) hc hx)
  have eg := (hg a ha).trans e
  have hne : a ≠ g.next := by omega
  set r0 : Rec S := ⟨g.w.ctr + 1, shallowCopy C s, [], p, true⟩ with hr0
  obtain ⟨g', bs, e1, n1, rt1, ct1, o1, s1, f1⟩ := copyKidsH_spec (C := C) (h := h) (n := n) (a := a)
    (new := g.next) (copy := copyNodeH C fuel) cs (g.push r0) r0
    (fun c hc => ⟨(rep_node.1 hr).2 c hc, hltk c hc⟩)
    (fun c hc g1 hg1 hn1 => ih c hc ((rep_node.1 hr).2 c hc) (hltk c hc) fuel (hfk c hc) g1 hg1 hn1)
    (fun x hx => by rw [push_objs_ne _ _ (by omega), hg x hx]) hn (by simp) (push_objs_self _ _)
  refine ⟨g.next, g', ?_, ⟨?_, ?_, ?_⟩, ?_, ?_⟩
  · show copyNodeH C (fuel + 1) a g = _
    unfold copyNodeH
    rw [HM.bind_ok' (newNode_eq C g), HM.bind_ok' (HM.get_ok ((push_objs_ne g _ hne).trans eg))]
    unfold HM.setTree HM.setParent addFromH
    rw [HM.bind_ok' (HM.mod_ok (push_objs_self g _)), push_upd,
      HM.bind_ok' (HM.mod_ok (push_objs_self g _)), push_upd]
    have : (HM.get a >>= fun rb => HM.mod g.next fun r => { r with stats := C.addFrom r.stats rb.stats })
        (g.push ⟨g.w.ctr + 1, C.fresh, [], p, true⟩) = (.ok (), g.push r0) := by
      rw [HM.bind_ok' (HM.get_ok ((push_objs_ne g _ hne).trans eg)), HM.mod_ok (push_objs_self g _),
        push_upd]
      rfl
    rw [HM.bind_ok' this, HM.bind_ok' e1]
    rfl
  · intro x hx
    rw [o1 x (by simp; omega) (by omega), push_objs_ne _ _ (by omega)]
  · exact (Nat.le_succ _).trans n1
  · rw [rt1]; rfl
  · exact (Nat.le_succ _).trans ct1
  · refine .mk (r := ⟨id, s, cs.map Tree.addr, p, true⟩) e s1 (le_refl _) (lt_of_lt_of_le (by simp) n1)
      rfl rfl rfl ?_
    simp only [hr0, List.nil_append]
    simp only [List.forall₂_map_left_iff] at f1 ⊢
    exact forall₂_imp_mem f1 fun c b hc h' =>
      CopyOf.mono (Nat.le_succ _) (le_refl _) (fun _ _ _ => rfl) c ((rep_node.1 hr).2 c hc) h'

end CF
