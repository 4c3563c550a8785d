/-
`cu_for_insert` and `cu_for_fringe_split` on the store compute the scores of Model/Cobweb.lean.
-/
import Verif.Model.HeapScores
import Verif.Proofs.HeapReach

set_option linter.unusedSectionVars false

namespace CF
variable {I S K : Type} [Field K] [LinearOrder K]
variable {C : NodeClass I S} {ecg : Bool → S → Res K} {n : ℕ}

theorem insertKidsH_does {temp child : ℕ} {i : I} {as : List ℕ} {css : List S} :
    ∀ {h : Heap S} {r : Rec S}, h.objs temp = some r → n ≤ temp → temp < h.next →
      List.Forall₂ (At h) as css → (∀ a ∈ as, a < n) →
      ∃ h', insertKidsH C temp child i as h = (.ok (), h') ∧ Keep n h h' ∧ h'.w = h.w.bump as.length ∧
        (∀ x < h.next, x ≠ temp → h'.objs x = h.objs x) ∧
        ∃ new, h'.objs temp = some { r with children := r.children ++ new } ∧
          List.Forall₂ (At h') new (List.zipWith (fun a s => if a = child then C.incr (shallowCopy C s) i
            else shallowCopy C s) as css) ∧
          ∀ x ∈ new, h.next ≤ x ∧ x < h'.next := by
  induction as generalizing css with
  | nil =>
    intro h r e hn ht hf _
    cases hf
    exact ⟨h, rfl, .refl _ _, rfl, fun _ _ _ => rfl, [], by simp [e], .nil, by simp⟩
  | cons a as ih =>
    intro h r e hn ht hf hlt
    cases hf with
    | cons ha hf =>
    rename_i s css
    obtain ⟨ra, ea, rfl, hat⟩ := ha
    have han : a < n := hlt a (by simp)
    set q1 : Rec S := ⟨h.w.ctr + 1, shallowCopy C ra.stats, [], ra.parent, ra.tree⟩ with hq1
    set h1 := h.push q1 with hh1
    have e1 : h1.objs temp = some r := (push_objs_ne h _ (by omega)).trans e
    set h2 := h1.upd temp { r with children := r.children ++ [h.next] } with hh2
    have e2 : h2.objs h.next = some q1 := by rw [hh2, upd_objs_ne _ _ (by omega), hh1, push_objs_self]
    set h3 := h2.upd h.next { q1 with parent := some temp } with hh3
    have e3 : h3.objs h.next = some { q1 with parent := some temp } := upd_objs_self _ _ _
    set st : S := if a = child then C.incr (shallowCopy C ra.stats) i else shallowCopy C ra.stats with hst
    set h4 := h2.upd h.next { q1 with parent := some temp, stats := st } with hh4
    have e4 : (if a = child then incrH C h.next i else pure ()) h3 = (.ok (), h4) := by
      by_cases hc : a = child
      · rw [if_pos hc]
        unfold incrH
        rw [HM.mod_ok e3, hh3, upd_upd, hh4, hst, if_pos hc]
      · rw [if_neg hc, HM.pure_eq, hh4, hst, if_neg hc]
    have hk1 : Keep n h h1 := .push h _ (by omega)
    have hk4 : Keep n h h4 := (hk1.trans (.upd h1 hn _)).trans (.upd h2 (by omega) _)
    have ht4 : h4.objs temp = some { r with children := r.children ++ [h.next] } := by
      rw [hh4, upd_objs_ne _ _ (by omega), hh2, upd_objs_self]
    obtain ⟨h', e', hk, hw, hold, new, en, hnew, hrange⟩ := ih (h := h4) (css := css) ht4 hn
      (by simp [hh4, hh2, hh1]; omega)
      (forall₂_imp_mem hf fun x y hx hxy => At.keep hk4 hxy (hlt x (by simp [hx])))
      (fun x hx => hlt x (by simp [hx]))
    refine ⟨h', ?_, hk4.trans hk, ?_, ?_, h.next :: new, ?_, ?_, ?_⟩
    · unfold insertKidsH
      rw [HM.bind_ok' (shallowCopyH_eq C ea (by omega))]
      unfold HM.append HM.setParent
      rw [HM.bind_ok' (HM.mod_ok e1), HM.bind_ok' (HM.mod_ok e2)]
      by_cases hc : a = child
      · rw [if_pos hc] at e4 ⊢
        exact (HM.bind_ok' e4).trans e'
      · rw [if_neg hc] at e4 ⊢
        rw [HM.pure_eq, Prod.mk.injEq] at e4
        have : h3 = h4 := e4.2
        show insertKidsH C temp child i as h3 = _
        rw [this]; exact e'
    · rw [hw]; simp [hh4, hh2, hh1, World.bump]; omega
    · intro x hx hxt
      rw [hold x (by simp [hh4, hh2, hh1]; omega) hxt, hh4, upd_objs_ne _ _ (by omega), hh2, upd_objs_ne _ _ hxt,
        hh1, push_objs_ne _ _ (by omega)]
    · rw [en]; simp
    · refine .cons ⟨{ q1 with parent := some temp, stats := st }, ?_, rfl, hat⟩ hnew
      rw [hold h.next (by simp [hh4, hh2, hh1]) (by omega), hh4, upd_objs_self]
    · have hx2 : h4.next = h.next + 1 := rfl
      have := hk.next
      intro x hx
      rcases List.mem_cons.1 hx with rfl | hx
      · omega
      · have := hrange x hx; omega

theorem zipWith_eq_mapIdx {α β : Type} {as : List ℕ} {css : List α} (hl : as.length = css.length)
    (hnd : as.Nodup) {k b : ℕ} (hk : as[k]? = some b) (f g : α → β) :
    List.zipWith (fun a s => if a = b then f s else g s) as css =
      css.mapIdx fun j s => if j = k then f s else g s := by
  apply List.ext_getElem
  · simp [hl]
  · intro j h1 h2
    obtain ⟨hk1, hk2⟩ := List.getElem?_eq_some_iff.1 hk
    have hj : j < as.length := by simp at h2; omega
    have : as[j] = b ↔ j = k := by rw [← hk2]; exact hnd.getElem_inj_iff
    simp [this]

theorem cuForInsertH_does {h : Heap S} {a b : ℕ} {s : S} {as : List ℕ} {css : List S} {k : ℕ}
    (ha : NodeAt n h a s as css) (hk : as[k]? = some b) (hnd : as.Nodup) (i : I) :
    Does n (cuForInsertH C ecg a b i) h (cuForInsert C (ecg true) s css k i) (1 + as.length) 0 := by
  obtain ⟨r, e, rfl, rfl, ht⟩ := ha.self
  have hn := ha.le
  have hlt := ha.lt
  unfold cuForInsertH cuForInsert
  refine Does.shallow e (by omega) hn ?_
  refine Does.mod (push_objs_self h _) hn ?_
  rw [push_upd]
  set q0 : Rec S := ⟨h.w.ctr + 1, C.incr (shallowCopy C r.stats) i, [], r.parent, r.tree⟩ with hq0
  show Does n _ (h.push q0) _ _ _
  refine Does.get (((Keep.push h _ hn).objs a hlt).trans e) ?_
  obtain ⟨h', e', hk', hw, hold, new, en, hnew, hrange⟩ := insertKidsH_does (C := C) (child := b) (i := i)
    (push_objs_self h q0) hn (by simp) (ha.keep (.push h _ hn)).kids ha.ltc
  refine (Does.after (k' := 0) e' hk' hw ?_).cast rfl (Nat.add_zero _) rfl
  apply Does.done
  have := categoryUtilityH_eq C ecg en ht (by simpa [hq0] using hnew)
  rw [this, zipWith_eq_mapIdx ha.kids.length_eq hnd hk]

theorem createChildWithCurrentCountsH_eq {h : Heap S} {a : ℕ} {r : Rec S} (e : h.objs a = some r) (ha : a < h.next)
    (hc : r.children = []) :
    createChildWithCurrentCountsH C a h =
      if C.count r.stats > 0 then (.ok (some h.next),
        (h.push ⟨h.w.ctr + 1, shallowCopy C r.stats, [], some a, r.tree⟩).upd a
          { r with children := [h.next] })
      else (.ok none, h) := by
  have hne : a ≠ h.next := by omega
  unfold createChildWithCurrentCountsH
  rw [HM.bind_ok' (HM.get_ok e)]
  by_cases h0 : C.count r.stats > 0
  · rw [if_pos h0, if_pos h0]
    have hcopy : copyNodeH C 1 a h =
        (.ok h.next, h.push ⟨h.w.ctr + 1, shallowCopy C r.stats, [], r.parent, r.tree⟩) := by
      have := shallowCopyH_eq C e ha
      unfold shallowCopyH at this
      unfold copyNodeH
      rw [HM.bind_ok' (newNode_eq C h), HM.bind_ok' (HM.get_ok ((push_objs_ne h _ hne).trans e))] at this ⊢
      unfold HM.setTree HM.setParent addFromH at this ⊢
      rw [HM.bind_ok' (HM.mod_ok (push_objs_self h _)), push_upd,
        HM.bind_ok' (HM.mod_ok (push_objs_self h _)), push_upd] at this ⊢
      have e2 : (HM.get a >>= fun rb => HM.mod h.next fun r => { r with stats := C.addFrom r.stats rb.stats })
          (h.push ⟨h.w.ctr + 1, C.fresh, [], r.parent, r.tree⟩) =
          (.ok (), h.push ⟨h.w.ctr + 1, shallowCopy C r.stats, [], r.parent, r.tree⟩) := by
        rw [HM.bind_ok' (HM.get_ok ((push_objs_ne h _ hne).trans e)), HM.mod_ok (push_objs_self h _), push_upd]
        rfl
      rw [HM.bind_ok' e2, hc]
      rfl
    rw [HM.bind_ok' hcopy]
    unfold HM.setParent HM.setTree HM.append
    rw [HM.bind_ok' (HM.mod_ok (push_objs_self h _)), push_upd,
      HM.bind_ok' (HM.get_ok ((push_objs_ne h _ hne).trans e)),
      HM.bind_ok' (HM.mod_ok (push_objs_self h _)), push_upd,
      HM.bind_ok' (HM.mod_ok ((push_objs_ne h _ hne).trans e)), hc]
    rfl
  · rw [if_neg h0, if_neg h0]
    rfl

theorem cuForFringeSplitH_does {h : Heap S} {a : ℕ} {s : S} {as : List ℕ} {css : List S}
    (ha : NodeAt n h a s as css) (i : I) :
    ∃ k, Does n (cuForFringeSplitH C ecg a i) h (cuForFringeSplit C (ecg true) s i) k 0 := by
  obtain ⟨r, e, rfl, rfl, ht⟩ := ha.self
  have hn := ha.le
  have hlt := ha.lt
  -- the temporary after `create_child_with_current_counts`
  set r0 : Rec S := ⟨h.w.ctr + 1, shallowCopy C r.stats, [], r.parent, r.tree⟩ with hr0
  have key : ∀ (h1 : Heap S) (r1 : Rec S) (pre : List S), Keep n (h.push r0) h1 → h1.objs h.next = some r1 →
      r1.stats = r0.stats → r1.tree = true → List.Forall₂ (At h1) r1.children pre →
      (∀ x ∈ r1.children, x < h1.next ∧ x ≠ h.next) →
      Does n (incrH C h.next i >>= fun _ => createNewChildH C h.next i >>= fun _ => categoryUtilityH C ecg h.next) h1
        (categoryUtility C (ecg true) (C.incr (shallowCopy C r.stats) i) (pre ++ [C.incr C.fresh i])) 1 0 := by
    intro h1 r1 pre hk e1 hs ht1 hpre hlt1
    have hnx : h.next + 1 ≤ h1.next := hk.next
    unfold incrH
    refine Does.mod e1 hn ?_
    set r2 : Rec S := { r1 with stats := C.incr r1.stats i } with hr2
    have e2 : (h1.upd h.next r2).objs h.next = some r2 := upd_objs_self _ _ _
    refine (Does.after (k := 1) (k' := 0) (createNewChildH_eq e2 (by simp; omega) i)
      ((Keep.push _ _ (by simp; omega)).trans (.upd _ hn _)) rfl ?_).cast rfl rfl rfl
    apply Does.done
    have hst : r2.stats = C.incr (shallowCopy C r.stats) i := by rw [hr2, hs]
    rw [← hst]
    refine categoryUtilityH_eq C ecg (r := { r2 with children := r2.children ++ [(h1.upd h.next r2).next] })
      (upd_objs_self _ _ _) ht1 ?_
    refine List.rel_append ?_ (.cons ?_ .nil)
    · refine forall₂_imp_mem hpre fun x y hx hxy => ?_
      obtain ⟨q, hq, hq'⟩ := hxy
      have hx' := hlt1 x hx
      refine ⟨q, ?_, hq'⟩
      rw [upd_objs_ne _ _ hx'.2, push_objs_ne _ _ (by simp; omega), upd_objs_ne _ _ hx'.2]
      exact hq
    · refine ⟨⟨(h1.upd h.next r2).w.ctr + 1, C.incr C.fresh i, [], some h.next, r2.tree⟩, ?_, rfl, ht1⟩
      rw [upd_objs_ne _ _ (by simp; omega), push_objs_self]
  have hcc := createChildWithCurrentCountsH_eq (C := C) (push_objs_self h r0) (by simp) (by rfl)
  unfold cuForFringeSplitH cuForFringeSplit
  by_cases h0 : C.count r0.stats > 0
  · rw [if_pos h0] at hcc
    refine ⟨_, Does.shallow (k := 1 + 1) e (by omega) hn ?_⟩
    refine Does.after (k := 1) hcc ((Keep.push _ _ (by simp; omega)).trans (.upd _ hn _)) rfl ?_
    simp only [if_pos (show C.count (shallowCopy C r.stats) > 0 from h0)]
    refine key _ { r0 with children := [(h.push r0).next] } [shallowCopy C (shallowCopy C r.stats)]
      ((Keep.push _ _ (by simp; omega)).trans (.upd _ hn _)) (upd_objs_self _ _ _) rfl ht ?_ ?_
    · refine .cons ⟨⟨(h.push r0).w.ctr + 1, shallowCopy C r0.stats, [], some h.next, r0.tree⟩, ?_, rfl, ht⟩ .nil
      · rw [upd_objs_ne _ _ (by simp), push_objs_self]
    · intro x hx
      have : x = h.next + 1 := by simpa using hx
      subst this
      simp
  · rw [if_neg h0] at hcc
    refine ⟨_, Does.shallow (k := 0 + 1) e (by omega) hn ?_⟩
    refine Does.after (k := 0) hcc (.refl _ _) rfl ?_
    simp only [if_neg (show ¬ C.count (shallowCopy C r.stats) > 0 from h0)]
    exact key _ r0 [] (.refl _ _) (push_objs_self h _) rfl ht .nil (by simp [hr0])

theorem categoryUtilityH_does {h : Heap S} {a : ℕ} {s : S} {as : List ℕ} {css : List S}
    (ha : NodeAt n h a s as css) :
    Does n (categoryUtilityH C ecg a) h (categoryUtility C (ecg true) s css) 0 0 := by
  obtain ⟨r, e, rfl, rfl, ht⟩ := ha.self
  exact Does.done (categoryUtilityH_eq C ecg e ht ha.kids)

theorem Does.undisturbed {α : Type} {m : HM S α} {h : Heap S} {r : Res α} {k d : ℕ} (hm : Does h.next m h r k d) :
    ∃ h', m h = (r, h') ∧ Undisturbed h h' := by
  obtain ⟨h', e, hk, hc, -⟩ := hm
  exact ⟨h', e, hk.objs, hk.next, hk.root, hc⟩

theorem nodup_sub : ∀ t : Tree (ℕ × S), t.addrs.Nodup → ∀ y ∈ t.nodes, y.addrs.Nodup := by
  apply Tree.ind
  rintro id ⟨b, s⟩ cs ih h y hy
  rw [Tree.nodes_node] at hy
  rcases List.mem_cons.1 hy with rfl | hy
  · exact h
  · obtain ⟨c, hc, hy⟩ := List.mem_flatMap.1 hy
    exact ih c hc (nodup_kid h hc) y hy

end CF
