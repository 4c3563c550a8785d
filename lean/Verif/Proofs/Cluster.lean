/-
Flat clusterings: what the loops of cluster.py do on the store of a tree.
-/
import Verif.Spec.Cluster
import Verif.Proofs.HeapReach
import Std.Data.String.ToNat

set_option linter.unusedSectionVars false

namespace CF
variable {I S K H : Type} [Field K] [LinearOrder K] [LinearOrder H]
variable {C : NodeClass I S} {ecg : Bool → S → Res K}

/-! ### `split` -/

section
variable {h : Heap S} {p : Option ℕ} {id a : ℕ} {s : S} {cs : List (Tree (ℕ × S))}

/-- `split` puts the children of a child in its place. -/
theorem Pre.split (hp : Pre h p (.node id (a, s) cs)) {k : ℕ} {t : Tree (ℕ × S)}
    (hk : cs[k]? = some t) :
    ∃ g, splitH a t.addr h = (.ok (), g) ∧ g.next = h.next ∧ g.w = h.w ∧ g.root = h.root ∧
      Pre g p (.node id (a, s) (cs.eraseIdx k ++ t.children)) := by
  obtain ⟨ha, hnd, hndm, hrep, hlt, hal⟩ := hp.kids
  have e := (rep_node.1 hp.rep).1
  have htm : t ∈ cs := List.mem_of_getElem? hk
  have htl : ∀ x ∈ t.addrs, x ∈ cs.flatMap Tree.addrs := fun x hx => List.mem_flatMap.2 ⟨t, htm, hx⟩
  have hperm := perm_eraseIdx hk
  have hfl : (cs.flatMap Tree.addrs).Perm (t.addrs ++ (cs.eraseIdx k).flatMap Tree.addrs) := by
    simpa [List.flatMap_cons] using hperm.flatMap_right Tree.addrs
  have hnd2 := (hfl.nodup_iff.1 hnd)
  rw [List.nodup_append] at hnd2
  have ht1 : Rep h (some a) t := hrep t htm
  have hndt : t.addrs.Nodup := hnd2.1
  have htaddrs : t.addrs = t.addr :: t.children.flatMap Tree.addrs := by
    obtain ⟨id', ⟨a', s'⟩, cs'⟩ := t
    exact Tree.addrs_node _ _ _ _
  have hndt' := hndt
  rw [htaddrs, List.nodup_cons] at hndt'
  have hsubk : ∀ c ∈ t.children, ∀ x ∈ c.addrs, x ∈ t.addrs := fun c hc x hx => kids_addr_mem hc hx
  have hat : a ∉ t.addrs := fun hx => ha (htl a hx)
  obtain ⟨g, eg, gn, gw, gr, ga, gk, go⟩ := splitH_spec e ht1.obj
    (b := t.addr) (by rintro hta; exact hat (hta ▸ t.addr_mem)) (List.mem_map_of_mem htm)
    (by
      intro hx
      obtain ⟨c, hc, hca⟩ := List.mem_map.1 hx
      exact hat (hsubk c hc a (hca ▸ c.addr_mem)))
    ((sublist_addr _).nodup hndt'.2)
    (by
      intro x hx
      obtain ⟨c, hc, rfl⟩ := List.mem_map.1 hx
      exact ⟨_, (ht1.kid hc).obj⟩)
  simp only at ga gk go
  rw [erase_eq_eraseIdx hndm (k := k) (by simp [hk])] at ga
  set cs2 := cs.eraseIdx k ++ t.children with hcs2
  have hfl2 : cs2.flatMap Tree.addrs =
      (cs.eraseIdx k).flatMap Tree.addrs ++ t.children.flatMap Tree.addrs := by
    rw [hcs2, List.flatMap_append]
  have hsub2 : ∀ x ∈ cs2.flatMap Tree.addrs, x ∈ cs.flatMap Tree.addrs := by
    intro x hx
    rw [hfl2] at hx
    rcases List.mem_append.1 hx with hx | hx
    · exact hfl.mem_iff.2 (List.mem_append_right _ hx)
    · exact htl x (by rw [htaddrs]; exact List.mem_cons_of_mem _ hx)
  have hpre : Pre g p (.node id (a, s) cs2) := by
    refine ⟨?_, ?_, ?_, ?_⟩
    · rw [rep_node]
      refine ⟨by rw [ga, hcs2, List.map_append, List.eraseIdx_map], fun c hc => ?_⟩
      rcases List.mem_append.1 hc with hc | hc
      · -- an untouched sibling
        have hcm : c ∈ cs := List.mem_of_mem_eraseIdx hc
        refine (hrep c hcm).congr c fun x hx => ?_
        have hxs : x ∈ (cs.eraseIdx k).flatMap Tree.addrs := List.mem_flatMap.2 ⟨c, hc, hx⟩
        have hxc : x ∈ cs.flatMap Tree.addrs := List.mem_flatMap.2 ⟨c, hcm, hx⟩
        have hxt : x ∉ t.addrs := fun h0 => hnd2.2.2 x h0 x hxs rfl
        rw [go x (by rintro rfl; exact ha hxc) (fun hm => by
          obtain ⟨d, hd, rfl⟩ := List.mem_map.1 hm
          exact hxt (hsubk d hd _ d.addr_mem))]
      · -- a promoted grandchild
        have hR := ht1.kid hc
        have hndc : c.addrs.Nodup := (List.nodup_flatMap.1 hndt'.2).1 c hc
        refine hR.reparent hndc (gk c.addr (List.mem_map_of_mem hc) _ hR.obj) fun x hx hxc => ?_
        refine go x (by rintro rfl; exact hat (hsubk c hc x hx)) fun hm => ?_
        obtain ⟨d, hd, rfl⟩ := List.mem_map.1 hm
        by_cases hdc : d = c
        · exact hxc (by rw [hdc])
        · exact hdc (flat_disjoint hndt'.2 hd hc d.addr_mem hx)
    · rw [Tree.addrs_node, List.nodup_cons, hfl2]
      refine ⟨fun hx => ha (hsub2 a (hfl2 ▸ hx)), List.nodup_append.2 ⟨hnd2.2.1, hndt'.2, ?_⟩⟩
      rintro x hx y hy rfl
      exact hnd2.2.2 x (by rw [htaddrs]; exact List.mem_cons_of_mem _ hy) x hx rfl
    · intro x hx
      rw [Tree.addrs_node] at hx
      rw [gn]
      rcases List.mem_cons.1 hx with rfl | hx
      · exact hal
      · exact hlt x (hsub2 x hx)
    · intro q hq
      obtain ⟨q1, q2, r, q3, q4⟩ := hp.up q hq
      rw [Tree.addrs_node] at q2
      refine ⟨by rw [gn]; exact q1, ?_, r, ?_, q4⟩
      · rw [Tree.addrs_node]
        intro hx
        rcases List.mem_cons.1 hx with rfl | hx
        · exact q2 (by simp)
        · exact q2 (List.mem_cons_of_mem _ (hsub2 q hx))
      · rw [go q (by rintro rfl; exact q2 (by simp)) (fun hm => by
          obtain ⟨d, hd, rfl⟩ := List.mem_map.1 hm
          exact q2 (List.mem_cons_of_mem _ (htl _ (hsubk d hd _ d.addr_mem))))]
        exact q3
  exact ⟨g, eg, gn, gw, gr, hpre⟩

end

theorem rep_nodes {h : Heap S} : ∀ (dt : Tree (ℕ × S)) {p : Option ℕ}, Rep h p dt → ∀ x ∈ dt.nodes,
    ∃ q, Rep h q x := by
  apply Tree.ind
  rintro id ⟨a, s⟩ cs ih p hr x hx
  rcases Tree.mem_nodes_node.1 hx with rfl | ⟨c, hc, hx⟩
  · exact ⟨p, hr⟩
  · exact ih c hc ((rep_node.1 hr).2 c hc) x hx

theorem conceptName_inj {i j : ℕ} (h : conceptName i = conceptName j) : i = j := by
  have h2 : toString i = toString j := by
    apply String.toList_injective
    have := congrArg String.toList h
    simpa [conceptName] using this
  exact Nat.repr_injective h2

/-! ### Climbing from a leaf to its cluster -/

theorem climb_up {h : Heap S} : ∀ (y : Tree (ℕ × S)) {q : ℕ}, Rep h (some q) y → ∀ x ∈ y.nodes,
    ∃ d, d < y.numConcepts ∧ ∀ ch, ∃ ch',
      (x = y ∧ ch' = ch ∨ ∃ k ∈ y.children, x ∈ k.nodes ∧ ch' = some k.addr) ∧
      ∀ fuel, climbLoopH (fuel + d) x.addr ch h = climbLoopH fuel y.addr ch' h := by
  apply Tree.ind
  rintro id ⟨a, s⟩ cs ih q hr x hx
  rcases Tree.mem_nodes_node.1 hx with rfl | ⟨c, hc, hx⟩
  · exact ⟨0, Tree.numConcepts_pos _, fun ch => ⟨ch, .inl ⟨rfl, rfl⟩, fun _ => rfl⟩⟩
  · have hrc := (rep_node.1 hr).2 c hc
    obtain ⟨d, hd, hch⟩ := ih c hc hrc x hx
    refine ⟨d + 1, ?_, fun ch => ⟨some c.addr, .inr ⟨c, hc, hx, rfl⟩, fun fuel => ?_⟩⟩
    · rw [Tree.numConcepts_node]
      have := List.single_le_sum (l := cs.map Tree.numConcepts) (by simp) _ (List.mem_map_of_mem hc)
      omega
    · obtain ⟨ch', -, he⟩ := hch ch
      have := he (fuel + 1)
      rw [show fuel + (d + 1) = fuel + 1 + d by omega, this]
      show climbLoopH (fuel + 1) c.addr ch' h = climbLoopH fuel a (some c.addr) h
      conv_lhs => unfold climbLoopH
      rw [HM.bind_ok' (HM.get_ok hrc.obj)]
      simp only
      rw [HM.bind_ok' (HM.get_ok (rep_node.1 hr).1)]

/-- `p` is the cluster of the leaf `x` of `dt` and the child of the cluster towards `x`. -/
def Assigned (dt x : Tree (ℕ × S)) (p : ℕ × Option ℕ) : Prop :=
  (x = dt ∧ dt.children = [] ∧ p = (dt.addr, none)) ∨
    ∃ c ∈ dt.children, p.1 = c.addr ∧ x ∈ c.nodes ∧
      (x = c ∧ p.2 = none ∨ ∃ k ∈ c.children, x ∈ k.nodes ∧ p.2 = some k.addr)

theorem climbH_spec {h : Heap S} {dt x : Tree (ℕ × S)} (hp : Pre h none dt) (hx : x ∈ dt.nodes)
    (hxc : x.children = []) : ∃ p, climbH x.addr h = (.ok p, h) ∧ Assigned dt x p := by
  have hsz := hp.size
  rw [numConcepts_erase] at hsz
  obtain ⟨id, ⟨a, s⟩, cs⟩ := dt
  have hr := hp.rep
  rcases Tree.mem_nodes_node.1 hx with rfl | ⟨c, hc, hx⟩
  · refine ⟨(a, none), ?_, .inl ⟨rfl, hxc, rfl⟩⟩
    have hpos : 0 < h.next := lt_of_lt_of_le (Tree.numConcepts_pos _) hsz
    obtain ⟨n, hn⟩ := Nat.exists_eq_succ_of_ne_zero hpos.ne'
    show climbLoopH h.next a none h = _
    rw [hn]
    unfold climbLoopH
    rw [HM.bind_ok' (HM.get_ok (rep_node.1 hr).1)]
    rfl
  · have hrc := (rep_node.1 hr).2 c hc
    obtain ⟨d, hd, hch⟩ := climb_up c hrc x hx
    obtain ⟨ch', h1, h2⟩ := hch none
    have hlt : d + 1 ≤ h.next := by
      rw [Tree.numConcepts_node] at hsz
      have := List.single_le_sum (l := cs.map Tree.numConcepts) (by simp) _ (List.mem_map_of_mem hc)
      omega
    obtain ⟨n, hn⟩ := Nat.exists_eq_add_of_le hlt
    refine ⟨(c.addr, ch'), ?_, .inr ⟨c, hc, rfl, hx, h1⟩⟩
    show climbLoopH h.next x.addr none h = _
    rw [hn, show d + 1 + n = n + 1 + d by omega, h2]
    unfold climbLoopH
    rw [HM.bind_ok' (HM.get_ok hrc.obj)]
    simp only
    rw [HM.bind_ok' (HM.get_ok (rep_node.1 hr).1)]
    rfl

theorem assignH_spec {h : Heap S} {dt : Tree (ℕ × S)} (hp : Pre h none dt) :
    ∀ {xs : List (Tree (ℕ × S))}, (∀ x ∈ xs, x ∈ dt.nodes ∧ x.children = []) →
    ∃ as, assignH (xs.map Tree.addr) h = (.ok as, h) ∧ List.Forall₂ (Assigned dt) xs as := by
  intro xs
  induction xs with
  | nil => exact fun _ => ⟨[], rfl, .nil⟩
  | cons x xs ih =>
    intro hx
    obtain ⟨p, e, hA⟩ := climbH_spec hp (hx x (by simp)).1 (hx x (by simp)).2
    obtain ⟨as, e', hAs⟩ := ih fun y hy => hx y (by simp [hy])
    refine ⟨p :: as, ?_, .cons hA hAs⟩
    rw [List.map_cons]
    unfold assignH
    rw [HM.bind_ok' e, HM.bind_ok' e']
    rfl

/-- The label of a cluster. -/
def mkLabel (labels : Bool) (h : Heap S) (c : ℕ) : Label := if labels then nameOf h c else .obj c

theorem labelsH_spec {h : Heap S} (labels : Bool) : ∀ {cl : List ℕ},
    (∀ c ∈ cl, ∃ r, h.objs c = some r) →
    labelsH labels cl h = (.ok (cl.map (mkLabel labels h)), h) := by
  intro cl
  induction cl with
  | nil => intro _; rfl
  | cons c cl ih =>
    intro hc
    obtain ⟨r, e⟩ := hc c (by simp)
    unfold labelsH
    rw [HM.bind_ok' (HM.get_ok e), HM.bind_ok' (ih fun d hd => hc d (by simp [hd]))]
    simp [mkLabel, nameOf, e, HM.pure_eq]

theorem addr_inj {dt x y : Tree (ℕ × S)} (hnd : dt.addrs.Nodup) (hx : x ∈ dt.nodes) (hy : y ∈ dt.nodes)
    (h : x.addr = y.addr) : x = y := List.inj_on_of_nodup_map hnd hx hy h

theorem Assigned.mem {dt x : Tree (ℕ × S)} {p : ℕ × Option ℕ} (h : Assigned dt x p) :
    ∃ c ∈ dt.nodes, p.1 = c.addr ∧ x ∈ c.nodes := by
  rcases h with ⟨rfl, -, rfl⟩ | ⟨c, hc, h1, h2, -⟩
  · exact ⟨x, x.self_mem_nodes, rfl, x.self_mem_nodes⟩
  · exact ⟨c, Tree.mem_nodes_child hc c.self_mem_nodes, h1, h2⟩

theorem relabel_spec {dt t : Tree (ℕ × S)} (hnd : dt.addrs.Nodup) (ht : t ∈ dt.children)
    (htc : t.children ≠ []) {xs : List (Tree (ℕ × S))} {as : List (ℕ × Option ℕ)}
    (hxs : ∀ x ∈ xs, x.children = []) (hA : List.Forall₂ (Assigned dt) xs as) :
    ∃ ds, relabel t.addr as = .ok ds ∧
      List.Forall₂ (fun x d => ∃ c ∈ dt.nodes, d = c.addr ∧ x ∈ c.nodes) xs ds := by
  induction hA with
  | nil => exact ⟨[], rfl, .nil⟩
  | @cons x p xs as hp _ ih =>
    obtain ⟨ds, e, hF⟩ := ih fun y hy => hxs y (by simp [hy])
    obtain ⟨p1, p2⟩ := p
    by_cases hpt : p1 = t.addr
    · subst hpt
      rcases hp with ⟨rfl, h0, -⟩ | ⟨c, hc, h1, h2, h3⟩
      · rw [h0] at ht; simp at ht
      · have hct : c = t := addr_inj hnd (Tree.mem_nodes_child hc c.self_mem_nodes)
          (Tree.mem_nodes_child ht t.self_mem_nodes) h1.symm
        subst hct
        rcases h3 with ⟨rfl, -⟩ | ⟨k, hk, hxk, h4⟩
        · exact absurd (hxs x (by simp)) htc
        · simp only at h4
          subst h4
          refine ⟨k.addr :: ds, ?_, .cons ⟨k, Tree.mem_nodes_child hc
            (Tree.mem_nodes_child hk k.self_mem_nodes), rfl, hxk⟩ hF⟩
          unfold relabel
          simp [e]
          rfl
    · obtain ⟨c, hc, h1, h2⟩ := hp.mem
      refine ⟨p1 :: ds, ?_, .cons ⟨c, hc, h1, h2⟩ hF⟩
      unfold relabel
      simp [e, hpt]
      rfl

/-! ### Choosing and doing the split -/

theorem Undisturbed.refl (h : Heap S) : Undisturbed h h := ⟨fun _ _ => rfl, le_refl _, rfl, le_refl _⟩

theorem Undisturbed.trans {h h' h'' : Heap S} (a : Undisturbed h h') (b : Undisturbed h' h'') :
    Undisturbed h h'' :=
  ⟨fun x hx => (b.objs x (hx.trans_le a.next)).trans (a.objs x hx), a.next.trans b.next,
    b.root.trans a.root, a.ctr.trans b.ctr⟩

/-- Running a quiet program after another. -/
theorem undisturbed_bind {α β : Type} {m : HM S α} {f : α → HM S β} {h : Heap S}
    (hm : Undisturbed h (m h).2) (hf : ∀ a h', m h = (.ok a, h') → Undisturbed h' (f a h').2) :
    Undisturbed h ((m >>= f) h).2 := by
  cases e : m h with
  | mk r h' =>
    rw [e] at hm
    cases r with
    | error x => rw [HM.bind_err e]; exact hm
    | ok a => rw [HM.bind_ok' e]; exact hm.trans (hf a h' e)

theorem splitCusH_spec {heur : Heuristic S H} (hq : Quiet heur) {as : List (ℕ × Option ℕ)}
    {temp : List ℕ} : ∀ {ts : List ℕ} {i : ℕ} {h : Heap S},
    (∀ t ∈ ts, t < h.next) →
    Undisturbed h (splitCusH heur as temp i ts h).2 ∧
    ∀ l h', splitCusH heur as temp i ts h = (.ok l, h') →
      (∀ e ∈ l, (e.2.2 ∈ ts ∧ ∃ r, h.objs e.2.2 = some r ∧ r.children ≠ []) ∧
        ∃ cl h', Undisturbed h h' ∧ relabel e.2.2 as = .ok cl ∧ (heur cl temp h').1 = .ok e.1) ∧
      ∀ t ∈ ts, ∀ r, h.objs t = some r → r.children ≠ [] → ∃ e ∈ l, e.2.2 = t := by
  intro ts
  induction ts with
  | nil =>
    intro i h _
    refine ⟨.refl _, fun l h' e => ?_⟩
    obtain ⟨rfl, rfl⟩ : [] = l ∧ h = h' := by simpa [splitCusH, HM.pure_eq] using e
    simp
  | cons t ts ih =>
    intro i h ht
    have htl : ∀ u ∈ ts, u < h.next := fun u hu => ht u (by simp [hu])
    cases et : h.objs t with
    | none =>
      have : splitCusH heur as temp i (t :: ts) h = (.error .exc, h) := by
        unfold splitCusH
        exact HM.bind_err (by simp [HM.get, et])
      rw [this]
      exact ⟨.refl _, fun l h' e => by cases e⟩
    | some r =>
      by_cases hl : r.children.length = 0
      · have : splitCusH heur as temp i (t :: ts) h = splitCusH heur as temp (i + 1) ts h := by
          conv_lhs => unfold splitCusH
          rw [HM.bind_ok' (HM.get_ok et), if_pos hl]
        rw [this]
        obtain ⟨h1, h2⟩ := ih (i := i + 1) (h := h) htl
        refine ⟨h1, fun l h' e => ?_⟩
        obtain ⟨h3, h4⟩ := h2 l h' e
        refine ⟨fun x hx => ⟨⟨List.mem_cons_of_mem _ (h3 x hx).1.1, (h3 x hx).1.2⟩, (h3 x hx).2⟩,
          fun u hu ru eu hru => ?_⟩
        rcases List.mem_cons.1 hu with rfl | hu
        · rw [et] at eu; cases eu
          exact absurd (List.length_eq_zero_iff.1 hl) hru
        · exact h4 u hu ru eu hru
      · have hrun : splitCusH heur as temp i (t :: ts) h = (HM.lift (relabel t as) >>= fun cl =>
            heur cl temp >>= fun v => splitCusH heur as temp (i + 1) ts >>= fun rest =>
              pure ((v, i, t) :: rest)) h := by
          conv_lhs => unfold splitCusH
          rw [HM.bind_ok' (HM.get_ok et), if_neg hl]
        rw [hrun]
        cases er : relabel t as with
        | error x =>
          rw [HM.bind_err (show HM.lift (Except.error x) h = (.error x, h) from rfl)]
          exact ⟨.refl _, fun l h' e => by cases e⟩
        | ok cl =>
          rw [HM.bind_ok' (show HM.lift (Except.ok cl) h = (.ok cl, h) from rfl)]
          have hu := hq cl temp h
          cases ev : heur cl temp h with
          | mk rv h1 =>
            rw [ev] at hu
            cases rv with
            | error x =>
              rw [HM.bind_err ev]
              exact ⟨hu, fun l h' e => by cases e⟩
            | ok v =>
              rw [HM.bind_ok' ev]
              obtain ⟨k1, k2⟩ := ih (i := i + 1) (h := h1) fun u hut => (htl u hut).trans_le hu.next
              cases es : splitCusH heur as temp (i + 1) ts h1 with
              | mk rs h2 =>
                rw [es] at k1
                cases rs with
                | error x =>
                  rw [HM.bind_err es]
                  exact ⟨hu.trans k1, fun l h' e => by cases e⟩
                | ok rest =>
                  rw [HM.bind_ok' es]
                  refine ⟨hu.trans k1, fun l h' e => ?_⟩
                  obtain ⟨rfl, rfl⟩ : (v, i, t) :: rest = l ∧ h2 = h' := by
                    simpa [HM.pure_eq] using e
                  obtain ⟨k3, k4⟩ := k2 _ _ es
                  constructor
                  · intro x hx
                    rcases List.mem_cons.1 hx with rfl | hx
                    · exact ⟨⟨by simp, r, et, fun h0 => hl (by simp [h0])⟩, cl, h, .refl _, er, by rw [ev]⟩
                    · obtain ⟨⟨m1, r', e', m2⟩, cl', hx', m3, m4⟩ := k3 x hx
                      exact ⟨⟨List.mem_cons_of_mem _ m1, r', by rw [← hu.objs _ (htl _ m1)]; exact e', m2⟩,
                        cl', hx', hu.trans m3, m4⟩
                  · intro u hu' ru eu hru
                    rcases List.mem_cons.1 hu' with rfl | hu'
                    · exact ⟨(v, i, u), List.mem_cons_self, rfl⟩
                    · obtain ⟨x, hx, hx'⟩ := k4 u hu' ru (by rw [hu.objs _ (htl _ hu')]; exact eu) hru
                      exact ⟨x, List.mem_cons_of_mem _ hx, hx'⟩

/-- A tree on the store with unique concept ids. -/
structure Good (h : Heap S) (dt : Tree (ℕ × S)) : Prop where
  pre : Pre h none dt
  root : h.root = dt.addr
  ids : dt.ids.Nodup

theorem Good.undisturbed {h h' : Heap S} {dt : Tree (ℕ × S)} (g : Good h dt) (hu : Undisturbed h h') :
    Good h' dt := ⟨g.pre.undisturbed hu, hu.root.trans g.root, g.ids⟩

/-- The tree after the child `t` of the root has been split. -/
def Tree.splitAt (dt : Tree (ℕ × S)) (k : ℕ) (t : Tree (ℕ × S)) : Tree (ℕ × S) :=
  .node dt.id dt.stats (dt.children.eraseIdx k ++ t.children)

theorem Good.split {h : Heap S} {dt t : Tree (ℕ × S)} {k : ℕ} (g : Good h dt)
    (hk : dt.children[k]? = some t) :
    ∃ h', splitH h.root t.addr h = (.ok (), h') ∧ h'.root = h.root ∧ Good h' (dt.splitAt k t) := by
  obtain ⟨id, ⟨a, s⟩, cs⟩ := dt
  obtain ⟨h', e, -, -, hroot, hp⟩ := g.pre.split hk
  refine ⟨h', by rw [g.root]; exact e, hroot, hp, hroot.trans g.root, ?_⟩
  have := g.ids
  show (Tree.node id (a, s) (cs.eraseIdx k ++ t.children)).ids.Nodup
  rw [Tree.ids_node, List.nodup_cons] at this ⊢
  have hperm : (cs.flatMap Tree.ids).Perm (t.ids ++ (cs.eraseIdx k).flatMap Tree.ids) := by
    simpa [List.flatMap_cons] using (perm_eraseIdx hk).flatMap_right Tree.ids
  obtain ⟨ti, ts, tc⟩ := t
  rw [Tree.ids_node] at hperm
  have hsub : ((cs.eraseIdx k ++ tc).flatMap Tree.ids).Subperm (cs.flatMap Tree.ids) := by
    rw [List.flatMap_append]
    refine (List.Perm.subperm List.perm_append_comm).trans (List.Subperm.trans ?_ hperm.symm.subperm)
    rw [List.cons_append]
    exact (List.sublist_cons_self _ _).subperm
  obtain ⟨l, hl, hs⟩ := hsub
  exact ⟨fun h0 => this.1 (hs.subset (hl.mem_iff.2 h0)), (hl.nodup_iff.1 (this.2.sublist hs))⟩

theorem sortSplits_perm (l : List (H × ℕ × ℕ)) : (sortSplits l).Perm l :=
  List.perm_insertionSort _ _

/-- The three outcomes of lines 448-465. -/
theorem splitStage_spec {ord : List ℕ → List ℕ} (ho : SetOrder ord) {heur : Heuristic S H}
    (hq : Quiet heur) {h : Heap S} {dt : Tree (ℕ × S)} (g : Good h dt) {temp : List ℕ}
    {xs : List (Tree (ℕ × S))} {as : List (ℕ × Option ℕ)} (hA : List.Forall₂ (Assigned dt) xs as) :
    (∃ e h', splitStageH ord heur as temp h = (.error e, h') ∧
      splitCusH heur as temp 0 (ord (as.map Prod.fst)) h = (.error e, h')) ∨
    (∃ h', splitStageH ord heur as temp h = (.ok false, h') ∧
      ∀ c ∈ dt.nodes, c.addr ∈ as.map Prod.fst → c.children = []) ∨
    ∃ h' k t, splitStageH ord heur as temp h = (.ok true, h') ∧ dt.children[k]? = some t ∧
      t.children ≠ [] ∧ t.addr ∈ as.map Prod.fst ∧ h'.root = h.root ∧ Good h' (dt.splitAt k t) ∧
      SplitFrom h h' ∧
      ∃ v, (∃ cl hv, Undisturbed h hv ∧ relabel t.addr as = .ok cl ∧ (heur cl temp hv).1 = .ok v) ∧
        ∀ u ∈ dt.nodes, u.addr ∈ as.map Prod.fst → u.children ≠ [] →
          ∃ v', (∃ cl hv, Undisturbed h hv ∧ relabel u.addr as = .ok cl ∧ (heur cl temp hv).1 = .ok v') ∧
            v ≤ v' := by
  have hcl : ∀ c ∈ as.map Prod.fst, ∃ t ∈ dt.nodes, t.addr = c ∧ (t ∈ dt.children ∨ t = dt ∧ dt.children = []) := by
    intro c hc
    obtain ⟨p, hp, rfl⟩ := List.mem_map.1 hc
    obtain ⟨i, hi, rfl⟩ := List.getElem_of_mem hp
    have := hA.get (i := i) (by rw [hA.length_eq]; exact hi) hi
    simp only [List.get_eq_getElem] at this
    rcases this with ⟨h1, h2, h3⟩ | ⟨t, ht, h1, -, -⟩
    · exact ⟨dt, dt.self_mem_nodes, by rw [h3], .inr ⟨rfl, h2⟩⟩
    · exact ⟨t, Tree.mem_nodes_child ht t.self_mem_nodes, h1.symm, .inl ht⟩
  have hobj : ∀ t ∈ dt.nodes, ∃ r, h.objs t.addr = some r ∧ r.children = t.children.map Tree.addr := by
    intro t ht
    obtain ⟨q, hq⟩ := rep_nodes dt g.pre.rep t ht
    exact ⟨_, hq.obj, rfl⟩
  have hlt : ∀ t ∈ ord (as.map Prod.fst), t < h.next := by
    intro t ht
    obtain ⟨u, hu, rfl, -⟩ := hcl t ((ho.mem _ _).1 ht)
    exact g.pre.lt _ (List.mem_map_of_mem hu)
  obtain ⟨hu, hs⟩ := splitCusH_spec hq (as := as) (temp := temp) (i := 0) hlt
  unfold splitStageH
  cases e : splitCusH heur as temp 0 (ord (as.map Prod.fst)) h with
  | mk r h1 =>
    rw [e] at hu
    cases r with
    | error x => exact .inl ⟨x, h1, HM.bind_err e, rfl⟩
    | ok l =>
      rw [HM.bind_ok' e]
      obtain ⟨h2, h3⟩ := hs l h1 e
      have hperm := sortSplits_perm l
      cases el : sortSplits l with
      | nil =>
        refine .inr (.inl ⟨h1, rfl, fun c hc hca => ?_⟩)
        rw [el] at hperm
        have hl := hperm.symm.eq_nil
        subst hl
        obtain ⟨r, er, hr⟩ := hobj c hc
        by_contra hne
        obtain ⟨x, hx, -⟩ := h3 c.addr ((ho.mem _ _).2 hca) r er (by rw [hr]; simpa using hne)
        simp at hx
      | cons t0 tl =>
        rw [el] at hperm
        obtain ⟨⟨m1, r, er, hr⟩, htry⟩ := h2 t0 (hperm.subset (by simp))
        obtain ⟨t, ht, hta, hor⟩ := hcl t0.2.2 ((ho.mem _ _).1 m1)
        obtain ⟨r', er', hr'⟩ := hobj t ht
        rw [hta, er] at er'
        cases er'
        have htc : t.children ≠ [] := by rw [hr'] at hr; simpa using hr
        have htd : t ∈ dt.children := by
          rcases hor with h0 | ⟨rfl, h0⟩
          · exact h0
          · exact absurd h0 htc
        obtain ⟨k, hk⟩ := List.getElem?_of_mem htd
        obtain ⟨h4, e4, r4, g4⟩ := (g.undisturbed hu).split hk
        refine .inr (.inr ⟨h4, k, t, ?_, hk, htc, ?_, r4.trans hu.root, g4, ?_, t0.1, ?_, ?_⟩)
        · simp only
          rw [HM.bind_ok' (show HM.getRoot h1 = (.ok h1.root, h1) from rfl)]
          rw [← hta, HM.bind_ok' e4]
          rfl
        · rw [hta]; exact (ho.mem _ _).1 m1
        · have g1 := g.undisturbed hu
          exact .split (.other .refl hu) (show h1.objs h1.root = _ from g1.root ▸ g1.pre.rep.obj)
            (List.mem_map_of_mem htd) e4
        · rw [hta]; exact htry
        · intro u hud hua huc
          obtain ⟨ru, eru, hru⟩ := hobj u hud
          obtain ⟨x, hx, hxu⟩ := h3 u.addr ((ho.mem _ _).2 hua) ru eru (by rw [hru]; simpa using huc)
          have hx2 := (h2 x hx).2
          rw [hxu] at hx2
          refine ⟨x.1, hx2, ?_⟩
          have hsort : (sortSplits l).Pairwise fun a b => toLex (a.1, a.2.1) ≤ toLex (b.1, b.2.1) :=
            List.pairwise_insertionSort (fun a b : H × ℕ × ℕ => toLex (a.1, a.2.1) ≤ toLex (b.1, b.2.1)) l
          rw [el, List.pairwise_cons] at hsort
          rcases List.mem_cons.1 (hperm.symm.subset hx) with rfl | hx'
          · exact le_refl _
          · have := hsort.1 x hx'
            rw [Prod.Lex.toLex_le_toLex] at this
            rcases this with h0 | ⟨h0, -⟩
            · exact h0.le
            · exact h0.le

/-- What the loop of `cluster_iter` returns. -/
structure LoopOk (heur : Heuristic S H) (labels : Bool) (temp : List ℕ) (k : ℕ)
    (h : Heap S) (r : List (Yield S H) × Option PyErr) : Prop where
  length : r.1.length ≤ k
  yields : ∀ y ∈ r.1, YieldOk heur labels temp y
  stores : ∀ y ∈ r.1, SplitFrom h y.store
  steps : r.1.IsChain (Refined heur temp)
  stop : r.2 = none → r.1.length = k ∨ ∃ y, r.1.getLast? = some y ∧ Finest y

theorem Good.names {h : Heap S} {dt : Tree (ℕ × S)} (g : Good h dt) : NamesDiffer h := by
  intro a b d d' ha hb hab
  rw [g.root] at ha hb
  obtain ⟨x, hx, q, hq, rfl, -⟩ := rep_below g.pre.rep ha
  obtain ⟨y, hy, q', hq', rfl, -⟩ := rep_below g.pre.rep hb
  have : conceptName x.id = conceptName y.id := by
    simpa [nameOf, hq.obj, hq'.obj] using hab
  have hid : x.id = y.id := conceptName_inj this
  rw [List.inj_on_of_nodup_map g.ids hx hy hid]

theorem Good.yieldOk {heur : Heuristic S H} {labels : Bool} {h : Heap S} {dt : Tree (ℕ × S)}
    (g : Good h dt) {xs : List (Tree (ℕ × S))} (hxs : ∀ x ∈ xs, x ∈ dt.nodes ∧ x.children = [])
    {as : List (ℕ × Option ℕ)} (hA : List.Forall₂ (Assigned dt) xs as) {v : H}
    (hv : (heur (as.map Prod.fst) (xs.map Tree.addr) h).1 = .ok v) :
    YieldOk heur labels (xs.map Tree.addr) ⟨(as.map Prod.fst).map (mkLabel labels h), v, as.map Prod.fst, h⟩ where
  links := (g.pre.linked g.root).linksOk
  names := g.names
  leaf := by
    intro a ha
    obtain ⟨x, hx, rfl⟩ := List.mem_map.1 ha
    obtain ⟨d, hd⟩ := below_of_rep dt g.pre.rep x (hxs x hx).1
    obtain ⟨q, hq⟩ := rep_nodes dt g.pre.rep x (hxs x hx).1
    exact ⟨⟨d, g.root ▸ hd⟩, _, hq.obj, by simp [(hxs x hx).2]⟩
  clusters := by
    rw [List.forall₂_map_left_iff, List.forall₂_map_right_iff]
    refine hA.imp fun x p hp => ?_
    have hroot : h.objs h.root = _ := g.root ▸ g.pre.rep.obj
    rcases hp with ⟨rfl, h0, rfl⟩ | ⟨c, hc, h1, h2, -⟩
    · exact ⟨⟨0, .refl _⟩, _, hroot, .inr ⟨g.root.symm, by simp [h0]⟩⟩
    · rw [h1]
      obtain ⟨d, hd⟩ := below_of_rep c (g.pre.rep.kid hc) x h2
      exact ⟨⟨d, hd⟩, _, hroot, .inl (List.mem_map_of_mem hc)⟩
  labels := rfl
  value := hv

theorem Assigned.unique {dt x : Tree (ℕ × S)} (hnd : dt.addrs.Nodup) {p : ℕ × Option ℕ}
    (hp : Assigned dt x p) {c : Tree (ℕ × S)} (hc : c ∈ dt.children) (hx : x ∈ c.nodes) : p.1 = c.addr := by
  obtain ⟨id, ⟨a, s⟩, cs⟩ := dt
  rcases hp with ⟨-, h0, -⟩ | ⟨d, hd, h1, h2, -⟩
  · rw [h0] at hc; simp at hc
  · rw [h1]
    rw [Tree.addrs_node, List.nodup_cons] at hnd
    rw [flat_disjoint hnd.2 hd hc (List.mem_map_of_mem h2) (List.mem_map_of_mem hx)]

theorem splitAt_children (dt : Tree (ℕ × S)) (k : ℕ) (t : Tree (ℕ × S)) :
    (dt.splitAt k t).children = dt.children.eraseIdx k ++ t.children := rfl

theorem splitAt_addr (dt : Tree (ℕ × S)) (k : ℕ) (t : Tree (ℕ × S)) : (dt.splitAt k t).addr = dt.addr := rfl

theorem splitAt_mem {dt t x : Tree (ℕ × S)} {k : ℕ} (hk : dt.children[k]? = some t) (htc : t.children ≠ [])
    (hx : x ∈ dt.nodes) (hxc : x.children = []) : x ∈ (dt.splitAt k t).nodes := by
  obtain ⟨id, ⟨a, s⟩, cs⟩ := dt
  exact split_leaves hk htc hx hxc

theorem refined_step {h h' : Heap S} {dt t : Tree (ℕ × S)} {k : ℕ} (g : Good h dt)
    (hk : dt.children[k]? = some t) (htc : t.children ≠ []) (g' : Good h' (dt.splitAt k t))
    (hroot : h'.root = h.root) {xs : List (Tree (ℕ × S))} (hxs : ∀ x ∈ xs, x ∈ dt.nodes ∧ x.children = [])
    {as as' : List (ℕ × Option ℕ)} (hA : List.Forall₂ (Assigned dt) xs as)
    (hA' : List.Forall₂ (Assigned (dt.splitAt k t)) xs as') (ht : t.addr ∈ as.map Prod.fst)
    {y y' : Yield S H} (e1 : y.store = h) (e2 : y'.store = h') (e3 : y.clusters = as.map Prod.fst)
    (e4 : y'.clusters = as'.map Prod.fst) : SplitOf t.addr y y' := by
  subst e1 e2
  have htm : t ∈ dt.children := List.mem_of_getElem? hk
  have hnd := g.pre.nodup
  refine ⟨_, _, _, e3 ▸ ht, (g.pre.rep.kid htm).obj, by simpa using htc, ?_, hroot,
    g.root ▸ g.pre.rep.obj, List.mem_map_of_mem htm, g'.root ▸ g'.pre.rep.obj, ?_⟩
  · rw [e3, e4, List.forall₂_map_left_iff, List.forall₂_map_right_iff, List.forall₂_iff_get]
    refine ⟨hA.length_eq.symm.trans hA'.length_eq, fun i hi hi' => ?_⟩
    have hix : i < xs.length := by rw [hA.length_eq]; exact hi
    have h1 := hA.get hix hi
    have h2 := hA'.get hix hi'
    have hxi := hxs _ (List.get_mem xs ⟨i, hix⟩)
    generalize xs.get ⟨i, hix⟩ = x at h1 h2 hxi
    generalize as.get ⟨i, hi⟩ = p at h1
    generalize as'.get ⟨i, hi'⟩ = p' at h2
    rcases h1 with ⟨rfl, h0, -⟩ | ⟨c, hc, hp, hx, hor⟩
    · rw [h0] at htm; simp at htm
    · constructor
      · intro hpt
        have hct : c = t := addr_inj hnd (Tree.mem_nodes_child hc c.self_mem_nodes)
          (Tree.mem_nodes_child htm t.self_mem_nodes) (hp.symm.trans hpt)
        subst hct
        rcases hor with ⟨rfl, -⟩ | ⟨d, hd, hxd, -⟩
        · exact absurd hxi.2 htc
        · rw [h2.unique g'.pre.nodup (List.mem_append_right _ hd) hxd]
          exact List.mem_map_of_mem hd
      · intro hpt
        rw [hp]
        refine h2.unique g'.pre.nodup (List.mem_append_left _ ?_) hx
        rcases List.mem_cons.1 ((perm_eraseIdx hk).subset hc) with rfl | h0
        · exact absurd hp hpt
        · exact h0
  · obtain ⟨id, ⟨a, s⟩, cs⟩ := dt
    have hndm := g.pre.kids.2.2.1
    show (cs.eraseIdx k ++ t.children).map Tree.addr = (cs.map Tree.addr).erase t.addr ++ _
    have hk' : cs[k]? = some t := hk
    rw [erase_eq_eraseIdx hndm (k := k) (by simp [hk']), List.map_append, List.eraseIdx_map]

theorem yieldStage_cases {heur : Heuristic S H} (hq : Quiet heur) {labels : Bool} {h : Heap S}
    {dt : Tree (ℕ × S)} (g : Good h dt) {xs : List (Tree (ℕ × S))}
    (hxs : ∀ x ∈ xs, x ∈ dt.nodes ∧ x.children = []) :
    ∃ as, List.Forall₂ (Assigned dt) xs as ∧
      ((∃ e h', yieldStageH heur labels (xs.map Tree.addr) h = (.error e, h') ∧
          heur (as.map Prod.fst) (xs.map Tree.addr) h = (.error e, h')) ∨
        ∃ v h', yieldStageH heur labels (xs.map Tree.addr) h =
          (.ok (as, ⟨(as.map Prod.fst).map (mkLabel labels h), v, as.map Prod.fst, h⟩), h') ∧
          (heur (as.map Prod.fst) (xs.map Tree.addr) h).1 = .ok v ∧ Undisturbed h h') := by
  obtain ⟨as, e, hA⟩ := assignH_spec g.pre hxs
  refine ⟨as, hA, ?_⟩
  have hl : labelsH labels (as.map Prod.fst) h = (.ok ((as.map Prod.fst).map (mkLabel labels h)), h) := by
    refine labelsH_spec labels fun c hc => ?_
    obtain ⟨p, hp, rfl⟩ := List.mem_map.1 hc
    obtain ⟨i, hi, rfl⟩ := List.getElem_of_mem hp
    obtain ⟨c, hc, h1, -⟩ := (hA.get (i := i) (by rw [hA.length_eq]; exact hi) hi).mem
    obtain ⟨q, hq⟩ := rep_nodes dt g.pre.rep c hc
    exact ⟨_, h1 ▸ hq.obj⟩
  have hu := hq (as.map Prod.fst) (xs.map Tree.addr) h
  unfold yieldStageH
  rw [HM.bind_ok' e, HM.bind_ok' hl]
  cases ev : heur (as.map Prod.fst) (xs.map Tree.addr) h with
  | mk r h' =>
    rw [ev] at hu
    cases r with
    | error x => exact .inl ⟨x, h', HM.bind_err ev, rfl⟩
    | ok v => exact .inr ⟨v, h', by rw [HM.bind_ok' ev]; rfl, rfl, hu⟩

theorem SplitFrom.trans {h1 h2 h3 : Heap S} (a : SplitFrom h1 h2) (b : SplitFrom h2 h3) :
    SplitFrom h1 h3 := by
  induction b with
  | refl => exact a
  | other _ hu ih => exact .other ih hu
  | split _ hr hc e ih => exact .split ih hr hc e

theorem assigned_obj {h : Heap S} {dt : Tree (ℕ × S)} (g : Good h dt) {xs : List (Tree (ℕ × S))}
    {as : List (ℕ × Option ℕ)} (hA : List.Forall₂ (Assigned dt) xs as) {u : ℕ} (hu : u ∈ as.map Prod.fst)
    {ru : Rec S} (eu : h.objs u = some ru) :
    ∃ x ∈ dt.nodes, x.addr = u ∧ ru.children = x.children.map Tree.addr := by
  obtain ⟨p, hp, rfl⟩ := List.mem_map.1 hu
  obtain ⟨i, hi, rfl⟩ := List.getElem_of_mem hp
  obtain ⟨c, hc', h1, -⟩ := (hA.get (i := i) (by rw [hA.length_eq]; exact hi) hi).mem
  simp only [List.get_eq_getElem] at h1
  obtain ⟨q, hq⟩ := rep_nodes dt g.pre.rep c hc'
  rw [h1, hq.obj] at eu
  cases eu
  exact ⟨c, hc', h1.symm, rfl⟩

theorem relabel_replaced {h : Heap S} {dt : Tree (ℕ × S)} (g : Good h dt)
    {xs : List (Tree (ℕ × S))} {as : List (ℕ × Option ℕ)} (hxs : ∀ x ∈ xs, x ∈ dt.nodes ∧ x.children = [])
    (hA : List.Forall₂ (Assigned dt) xs as) {u : ℕ} {cl : List ℕ} (e : relabel u as = .ok cl) :
    Replaced h u (xs.map Tree.addr) (as.map Prod.fst) cl := by
  refine ⟨by simp [hA.length_eq], ?_⟩
  induction hA generalizing cl with
  | nil => cases e; exact .nil
  | @cons x p xs as hp _ ih =>
    obtain ⟨p1, p2⟩ := p
    unfold relabel at e
    by_cases hpt : p1 = u
    · subst hpt
      cases p2 with
      | none => simp [error_bind] at e
      | some d' =>
        simp only [ne_eq, not_true_eq_false, if_false, ok_bind] at e
        obtain ⟨ds, e2, e⟩ := bind_ok.1 e
        cases e
        refine .cons ⟨fun h0 => absurd rfl h0, fun _ => ?_⟩ (ih (fun y hy => hxs y (by simp [hy])) e2)
        rcases hp with ⟨rfl, h0, h1⟩ | ⟨c, hc, h1, h2, h3⟩
        · cases h1
        · simp only at h1
          subst h1
          rcases h3 with ⟨-, h4⟩ | ⟨k, hk, hxk, h4⟩
          · cases h4
          · cases h4
            have hr := g.pre.rep.kid hc
            obtain ⟨n, hn⟩ := below_of_rep k (hr.kid hk) x hxk
            exact ⟨⟨_, hr.obj, List.mem_map_of_mem hk⟩, n, hn⟩
    · simp only [ne_eq, hpt, not_false_eq_true, if_true, ok_bind] at e
      obtain ⟨ds, e2, e⟩ := bind_ok.1 e
      cases e
      exact .cons ⟨fun _ => rfl, fun h0 => absurd h0 hpt⟩ (ih (fun y hy => hxs y (by simp [hy])) e2)

/-- The loop from the first yielding round on. -/
theorem clusterLoop_ok {ord : List ℕ → List ℕ} (ho : SetOrder ord) {heur : Heuristic S H}
    (hq : Quiet heur) (labels : Bool) {minsplit : ℤ} {xs : List (Tree (ℕ × S))} :
    ∀ (k nth : ℕ) (h : Heap S) (dt : Tree (ℕ × S)), Good h dt →
    (∀ x ∈ xs, x ∈ dt.nodes ∧ x.children = []) → minsplit ≤ nth →
    LoopOk heur labels (xs.map Tree.addr) k h
        (clusterLoopH ord heur labels minsplit (xs.map Tree.addr) k nth h) ∧
      ∀ y, (clusterLoopH ord heur labels minsplit (xs.map Tree.addr) k nth h).1.head? = some y →
        y.store = h ∧ ∃ as, List.Forall₂ (Assigned dt) xs as ∧ y.clusters = as.map Prod.fst := by
  intro k
  induction k with
  | zero =>
    intro nth h dt g hxs hm
    exact ⟨⟨le_refl _, by simp [clusterLoopH], by simp [clusterLoopH], .nil, fun _ => .inl rfl⟩,
      by simp [clusterLoopH]⟩
  | succ k ih =>
    intro nth h dt g hxs hm
    obtain ⟨as, hA, hy⟩ := yieldStage_cases hq (labels := labels) g hxs
    unfold clusterLoopH
    rw [if_pos hm]
    rcases hy with ⟨e, h', e1, -⟩ | ⟨v, h1, e1, hv, hu⟩
    · rw [e1]
      exact ⟨⟨by simp, by simp, by simp, .nil, fun h0 => by cases h0⟩, by simp⟩
    · rw [e1]
      simp only
      have hY := g.yieldOk (labels := labels) hxs hA hv
      rcases splitStage_spec ho hq (g.undisturbed hu) (temp := xs.map Tree.addr) hA with
        ⟨e, h2, e2, e2'⟩ | ⟨h2, e2, hleaf⟩ | ⟨h2, j, t, e2, hj, htc, hta, hr2, g2, hsf, v0, ⟨cl, hv0, hb1, hb2, hb3⟩, hbest⟩
      · rw [e2]
        refine ⟨⟨by simp, ?_, ?_, .singleton _, fun h0 => by cases h0⟩, ?_⟩
        · intro y hy; rw [List.mem_singleton] at hy; subst hy; exact hY
        · intro y hy; rw [List.mem_singleton] at hy; subst hy; exact .refl
        · intro y hy; cases hy; exact ⟨rfl, as, hA, rfl⟩
      · rw [e2]
        refine ⟨⟨by simp, ?_, ?_, .singleton _, fun _ => .inr ⟨_, rfl, ?_⟩⟩, ?_⟩
        · intro y hy; rw [List.mem_singleton] at hy; subst hy; exact hY
        · intro y hy; rw [List.mem_singleton] at hy; subst hy; exact .refl
        · intro c hc
          obtain ⟨p, hp, rfl⟩ := List.mem_map.1 hc
          obtain ⟨i, hi, rfl⟩ := List.getElem_of_mem hp
          obtain ⟨c, hc', h1, -⟩ := (hA.get (i := i) (by rw [hA.length_eq]; exact hi) hi).mem
          simp only [List.get_eq_getElem] at h1
          obtain ⟨q, hq⟩ := rep_nodes dt g.pre.rep c hc'
          rw [h1] at hc ⊢
          exact ⟨_, hq.obj, by simp [hleaf c hc' hc]⟩
        · intro y hy; cases hy; exact ⟨rfl, as, hA, rfl⟩
      · rw [e2]
        simp only
        obtain ⟨L, hh⟩ := ih (nth + 1) h2 _ g2 (fun x hx => ⟨splitAt_mem hj htc (hxs x hx).1 (hxs x hx).2,
          (hxs x hx).2⟩) (by push_cast; omega)
        refine ⟨⟨?_, ?_, ?_, ?_, ?_⟩, ?_⟩
        · simpa using L.length
        · intro y hy
          rcases List.mem_cons.1 hy with rfl | hy
          · exact hY
          · exact L.yields y hy
        · intro y hy
          rcases List.mem_cons.1 hy with rfl | hy
          · exact .refl
          · exact ((SplitFrom.other .refl hu).trans hsf).trans (L.stores y hy)
        · refine List.isChain_cons.2 ⟨fun y hy => ?_, L.steps⟩
          obtain ⟨h3, as', hA', h4⟩ := hh y hy
          refine ⟨t.addr, refined_step g hj htc g2 (hr2.trans hu.root) hxs hA hA' hta rfl h3 rfl h4, v0,
            ⟨cl, hv0, hu.trans hb1, relabel_replaced g hxs hA hb2, hb3⟩, fun u hu' ru eu hru => ?_⟩
          obtain ⟨x, hx, rfl, hxr⟩ := assigned_obj g hA hu' eu
          obtain ⟨v', ⟨cl', hv', hc1, hc2, hc3⟩, hle⟩ := hbest x hx hu' (by
            rintro h0; rw [h0] at hxr; exact hru hxr)
          exact ⟨v', ⟨cl', hv', hu.trans hc1, relabel_replaced g hxs hA hc2, hc3⟩, hle⟩
        · intro h0
          rcases L.stop h0 with h5 | ⟨y, h5, h6⟩
          · exact .inl (by simp [h5])
          · refine .inr ⟨y, ?_, h6⟩
            rw [List.getLast?_cons, h5]; rfl
        · intro y hy; cases hy; exact ⟨rfl, as, hA, rfl⟩

theorem SetOrder.empty {ord : List ℕ → List ℕ} (ho : SetOrder ord) : ord [] = [] :=
  List.eq_nil_iff_forall_not_mem.2 fun a ha => by simpa using (ho.mem [] a).1 ha

/-- Before `minsplit` no assignment is made, so nothing can be split and the loop ends. -/
theorem clusterLoop_early {ord : List ℕ → List ℕ} (ho : SetOrder ord) {heur : Heuristic S H} {labels : Bool}
    {minsplit : ℤ} {temp : List ℕ} {k nth : ℕ} {h : Heap S} (hm : (nth : ℤ) < minsplit) :
    clusterLoopH ord heur labels minsplit temp k nth h = ([], none) := by
  cases k with
  | zero => rfl
  | succ k =>
    unfold clusterLoopH
    rw [if_neg (by omega)]
    have : splitStageH ord heur [] temp h = (.ok false, h) := by
      unfold splitStageH
      rw [List.map_nil, ho.empty]
      rfl
    rw [this]

/-! ### Exceptions -/

/-- The heuristic returns a number for every clustering of the leaves `xs` of a tree in which `Q` holds
between a concept and the concepts below it. -/
def Returns (Q : S → S → Prop) (heur : Heuristic S H) : Prop :=
  ∀ (h : Heap S) (dt : Tree (ℕ × S)) (xs cs : List (Tree (ℕ × S))), Good h dt →
    (∀ x ∈ dt.nodes, ∀ y ∈ x.nodes, Q x.stats.2 y.stats.2) → (∀ x ∈ xs, x ∈ dt.nodes) → (∀ c ∈ cs, c ∈ dt.nodes) → xs ≠ [] →
    List.Forall₂ (fun x c => x ∈ c.nodes) xs cs →
    ∃ v h', heur (cs.map Tree.addr) (xs.map Tree.addr) h = (.ok v, h')

theorem forall₂_addr {dt : Tree (ℕ × S)} {xs : List (Tree (ℕ × S))} {ds : List ℕ}
    (h : List.Forall₂ (fun x d => ∃ c ∈ dt.nodes, d = c.addr ∧ x ∈ c.nodes) xs ds) :
    ∃ cs, ds = cs.map Tree.addr ∧ (∀ c ∈ cs, c ∈ dt.nodes) ∧ List.Forall₂ (fun x c => x ∈ c.nodes) xs cs := by
  induction h with
  | nil => exact ⟨[], rfl, by simp, .nil⟩
  | cons hp _ ih =>
    obtain ⟨c, hc, rfl, hx⟩ := hp
    obtain ⟨cs, rfl, h1, h2⟩ := ih
    exact ⟨c :: cs, rfl, by simpa [hc] using h1, .cons hx h2⟩

theorem splitCusH_ok {heur : Heuristic S H} (hq : Quiet heur) {as : List (ℕ × Option ℕ)}
    {temp : List ℕ} : ∀ {ts : List ℕ} {i : ℕ} {h0 h : Heap S}, Undisturbed h0 h →
    (∀ t ∈ ts, t < h0.next ∧ ∃ r, h0.objs t = some r ∧ (r.children ≠ [] → ∃ cl, relabel t as = .ok cl ∧
      ∀ h', Undisturbed h0 h' → ∃ v h'', heur cl temp h' = (.ok v, h''))) →
    ∃ l h', splitCusH heur as temp i ts h = (.ok l, h') := by
  intro ts
  induction ts with
  | nil => intro i h0 h _ _; exact ⟨[], h, rfl⟩
  | cons t ts ih =>
    intro i h0 h hu ht
    have htl : ∀ u ∈ ts, _ := fun u hu => ht u (List.mem_cons_of_mem _ hu)
    obtain ⟨hlt, r, er, hr⟩ := ht t (by simp)
    have et := (hu.objs t hlt).trans er
    by_cases hl : r.children.length = 0
    · obtain ⟨l, h', e⟩ := ih (i := i + 1) hu htl
      refine ⟨l, h', ?_⟩
      conv_lhs => unfold splitCusH
      rw [HM.bind_ok' (HM.get_ok et), if_pos hl, e]
    · obtain ⟨cl, ecl, hv⟩ := hr fun h0 => hl (by simp [h0])
      obtain ⟨v, h1, ev⟩ := hv h hu
      have hu1 := hq cl temp h
      rw [ev] at hu1
      obtain ⟨l, h', e⟩ := ih (i := i + 1) (hu.trans hu1) htl
      refine ⟨(v, i, t) :: l, h', ?_⟩
      conv_lhs => unfold splitCusH
      rw [HM.bind_ok' (HM.get_ok et), if_neg hl, ecl,
        HM.bind_ok' (show HM.lift (Except.ok cl) h = (.ok cl, h) from rfl), HM.bind_ok' ev, HM.bind_ok' e]
      rfl

theorem splitAt_stats {Q : S → S → Prop} {dt t : Tree (ℕ × S)} {k : ℕ} (hk : dt.children[k]? = some t)
    (hQ : ∀ x ∈ dt.nodes, ∀ y ∈ x.nodes, Q x.stats.2 y.stats.2) :
    ∀ x ∈ (dt.splitAt k t).nodes, ∀ y ∈ x.nodes, Q x.stats.2 y.stats.2 := by
  have htm : t ∈ dt.children := List.mem_of_getElem? hk
  have hkid : ∀ c ∈ dt.children.eraseIdx k ++ t.children, c ∈ dt.nodes := by
    intro c hc
    rcases List.mem_append.1 hc with hc | hc
    · exact Tree.mem_nodes_child ((List.eraseIdx_sublist _ _).subset hc) c.self_mem_nodes
    · exact Tree.mem_nodes_child htm (Tree.mem_nodes_child hc c.self_mem_nodes)
  intro x hx y hy
  rcases Tree.mem_nodes_node.1 hx with rfl | ⟨c, hc, hx⟩
  · rcases Tree.mem_nodes_node.1 hy with rfl | ⟨c, hc, hy⟩
    · exact hQ dt dt.self_mem_nodes dt dt.self_mem_nodes
    · exact hQ dt dt.self_mem_nodes y (Tree.nodes_trans (hkid c hc) hy)
  · exact hQ x (Tree.nodes_trans (hkid c hc) hx) y hy

theorem clusterLoop_noRaise {Q : S → S → Prop} {ord : List ℕ → List ℕ} (ho : SetOrder ord)
    {heur : Heuristic S H} (hq : Quiet heur) (hR : Returns Q heur) (labels : Bool) {minsplit : ℤ}
    {xs : List (Tree (ℕ × S))} (hne : xs ≠ []) :
    ∀ (k nth : ℕ) (h : Heap S) (dt : Tree (ℕ × S)), Good h dt →
    (∀ x ∈ dt.nodes, ∀ y ∈ x.nodes, Q x.stats.2 y.stats.2) →
    (∀ x ∈ xs, x ∈ dt.nodes ∧ x.children = []) →
    (clusterLoopH ord heur labels minsplit (xs.map Tree.addr) k nth h).2 = none := by
  intro k
  induction k with
  | zero => intros; rfl
  | succ k ih =>
    intro nth h dt g hQ hxs
    by_cases hm : (nth : ℤ) < minsplit
    · rw [clusterLoop_early ho hm]
    obtain ⟨as, hA, hy⟩ := yieldStage_cases hq (labels := labels) g hxs
    unfold clusterLoopH
    rw [if_pos (by omega)]
    have hmem : ∀ x ∈ xs, x ∈ dt.nodes := fun x hx => (hxs x hx).1
    rcases hy with ⟨e, h', e1, e2⟩ | ⟨v, h1, e1, hv, hu⟩
    · exfalso
      have : List.Forall₂ (fun x d => ∃ c ∈ dt.nodes, d = c.addr ∧ x ∈ c.nodes) xs (as.map Prod.fst) := by
        rw [List.forall₂_map_right_iff]
        exact hA.imp fun x p hp => hp.mem
      obtain ⟨cs, e3, h3, h4⟩ := forall₂_addr this
      obtain ⟨v, h5, e5⟩ := hR h dt xs cs g hQ hmem h3 hne h4
      rw [e3, e5] at e2
      cases e2
    · rw [e1]
      simp only
      rcases splitStage_spec ho hq (g.undisturbed hu) (temp := xs.map Tree.addr) hA with
        ⟨e, h2, e2, e2'⟩ | ⟨h2, e2, hleaf⟩ | ⟨h2, j, t, e2, hj, htc, hta, hr2, g2, -⟩
      · exfalso
        have : ∃ l h', splitCusH heur as (xs.map Tree.addr) 0 (ord (as.map Prod.fst)) h1 = (.ok l, h') := by
          refine splitCusH_ok hq (.refl h1) fun u hu' => ?_
          obtain ⟨p, hp, rfl⟩ := List.mem_map.1 ((ho.mem _ _).1 hu')
          obtain ⟨i, hi, rfl⟩ := List.getElem_of_mem hp
          have hA1 := hA.get (i := i) (by rw [hA.length_eq]; exact hi) hi
          simp only [List.get_eq_getElem] at hA1
          obtain ⟨c, hc, h1', -⟩ := hA1.mem
          have g1 := g.undisturbed hu
          obtain ⟨q, hq'⟩ := rep_nodes dt g1.pre.rep c hc
          rw [h1']
          refine ⟨g1.pre.lt _ (List.mem_map_of_mem hc), _, hq'.obj, fun hcc => ?_⟩
          have hcc' : c.children ≠ [] := by simpa using hcc
          have hcd : c ∈ dt.children := by
            rcases hA1 with ⟨-, h0, h7⟩ | ⟨d, hd, h7, -⟩
            · have : c = dt := addr_inj g.pre.nodup hc dt.self_mem_nodes (by rw [← h1', h7])
              exact absurd (this ▸ h0) hcc'
            · have : c = d := addr_inj g.pre.nodup hc (Tree.mem_nodes_child hd d.self_mem_nodes)
                (h1'.symm.trans h7)
              exact this ▸ hd
          obtain ⟨ds, e3, hF⟩ := relabel_spec g.pre.nodup hcd hcc' (fun x hx => (hxs x hx).2) hA
          obtain ⟨cs, rfl, h3, h4⟩ := forall₂_addr hF
          exact ⟨_, e3, fun h' hu'' => hR h' dt xs cs (g1.undisturbed hu'') hQ hmem h3 hne h4⟩
        obtain ⟨l, h3, e3⟩ := this
        rw [e3] at e2'
        cases e2'
      · rw [e2]
      · rw [e2]
        exact ih (nth + 1) h2 _ g2 (splitAt_stats hj hQ) fun x hx =>
          ⟨splitAt_mem hj htc (hxs x hx).1 (hxs x hx).2, (hxs x hx).2⟩

end CF
