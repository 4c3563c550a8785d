/-
Property C86: `TrestleTree.infer_missing` completes an instance.  It does on flat instances; with components it can
lose what was given.
-/
import Verif.Props.TrestleFlat
import Verif.Props.Infer3
import Verif.Props.Trestle

namespace CF

section
variable {c : TrestleCfg}

theorem trestleInferLoop_spec {N : Numbers} {s : Stats3 Py Py} {fn : ChoiceFn} {an : Bool} {P : Py → Val Py → Prop}
    (hpred : ∀ a ∈ s.av.keys, ∀ w r w', s.predict N.tie N.gauss a fn an w = .ok (r, w') →
      (r = none ∧ an = true) ∨ ∃ v, r = some v ∧ P a v ∧ N.toPy v ≠ .none) :
    ∀ (as : List Py), (∀ a ∈ as, a ∈ s.av.keys) → ∀ (temp out : PyInst) (w w' : World),
      trestleInferLoop N s fn an as temp w = .ok (out, w') →
      (∀ a ∈ Dict.keys temp, Dict.get? out a = Dict.get? temp a) ∧
      (∀ a v, a ∉ Dict.keys temp → Dict.get? out a = some v → a ∈ as ∧ ∃ u, P a u ∧ v = N.toPy u) ∧
      (an = false → ∀ a ∈ as, a ∈ Dict.keys out) ∧ (Dict.Nodup temp → Dict.Nodup out) := by
  intro as
  induction as with
  | nil =>
    intro _ temp out w w' h
    simp [trestleInferLoop] at h
    obtain ⟨rfl, -⟩ := h
    refine ⟨fun _ _ => rfl, fun a v ha hv => absurd (Dict.get?_isSome.1 (by simp [hv])) ha, by simp, id⟩
  | cons a as ih =>
    intro has temp out w w' h
    have has' : ∀ b ∈ as, b ∈ s.av.keys := fun b hb => has b (by simp [hb])
    unfold trestleInferLoop at h
    split at h
    · rename_i hin
      obtain ⟨h1, h2, h3, h4⟩ := ih has' temp out w w' h
      refine ⟨h1, fun b v hb hv => ?_, fun han b hb => ?_, h4⟩
      · obtain ⟨h5, h6⟩ := h2 b v hb hv; exact ⟨by simp [h5], h6⟩
      · rcases List.mem_cons.1 hb with rfl | hb
        · have := Dict.has_iff.1 hin
          rw [← Dict.get?_isSome, h1 b this]; exact hin
        · exact h3 han b hb
    · rename_i hin
      have hnk : a ∉ Dict.keys temp := fun hk => hin (Dict.has_iff.2 hk)
      rw [bind_ok] at h
      obtain ⟨⟨v, w1⟩, hp, h⟩ := h
      have hc := hpred a (has a (by simp)) w v w1 hp
      cases v with
      | none =>
        simp only at h
        obtain ⟨h1, h2, h3, h4⟩ := ih has' temp out w1 w' h
        refine ⟨h1, fun b v hb hv => ?_, fun han b hb => ?_, h4⟩
        · obtain ⟨h5, h6⟩ := h2 b v hb hv; exact ⟨by simp [h5], h6⟩
        · subst han; simp at hc
      | some v =>
        have hv : P a v ∧ N.toPy v ≠ .none := by simpa using hc
        simp only [hv.2, if_false] at h
        obtain ⟨h1, h2, h3, h4⟩ := ih has' _ out w1 w' h
        refine ⟨fun b hb => ?_, fun b u hb hu => ?_, fun han b hb => ?_, fun hnd => h4 (Dict.nodup_set hnd _ _)⟩
        · rw [h1 b (Dict.mem_keys_set.2 (Or.inr hb)), Dict.get?_set_ne _ (by rintro rfl; exact hnk hb)]
        · by_cases hba : b = a
          · subst hba
            rw [h1 b (Dict.mem_keys_set.2 (Or.inl rfl)), Dict.get?_set_self] at hu
            cases hu; exact ⟨by simp, v, hv.1, rfl⟩
          · obtain ⟨h5, h6⟩ := h2 b u (by rw [Dict.mem_keys_set]; simp [hba, hb]) hu
            exact ⟨by simp [h5], h6⟩
        · rcases List.mem_cons.1 hb with rfl | hb
          · rw [← Dict.get?_isSome, h1 b (Dict.mem_keys_set.2 (Or.inl rfl)), Dict.get?_set_self]; rfl
          · exact h3 han b hb

/-- **C86**, `None`: the loop of `infer_missing` changes nothing that was given and never enters `None`. -/
theorem C86_no_none {N : Numbers} {s : Stats3 Py Py} {fn : ChoiceFn} {an : Bool} :
    ∀ {as : List Py} {temp out : PyInst} {w w' : World}, trestleInferLoop N s fn an as temp w = .ok (out, w') →
      (∀ a ∈ Dict.keys temp, Dict.get? out a = Dict.get? temp a) ∧
      ∀ a, a ∉ Dict.keys temp → Dict.get? out a ≠ some .none := by
  intro as
  induction as with
  | nil =>
    intro temp out w w' h
    simp [trestleInferLoop] at h
    obtain ⟨rfl, -⟩ := h
    exact ⟨fun _ _ => rfl, fun a ha hn => ha (Dict.get?_isSome.1 (by simp [hn]))⟩
  | cons a as ih =>
    intro temp out w w' h
    unfold trestleInferLoop at h
    split at h
    · exact ih h
    · rename_i hin
      have hnk : a ∉ Dict.keys temp := fun hk => hin (Dict.has_iff.2 hk)
      rw [bind_ok] at h
      obtain ⟨⟨v, w1⟩, hp, h⟩ := h
      cases v with
      | none => exact ih h
      | some v =>
        simp only at h
        by_cases hv : N.toPy v = .none
        · rw [if_pos hv] at h; exact ih h
        · rw [if_neg hv] at h
          obtain ⟨h1, h2⟩ := ih h
          refine ⟨fun b hb => ?_, fun b hb => ?_⟩
          · rw [h1 b (Dict.mem_keys_set.2 (Or.inr hb)), Dict.get?_set_ne _ (by rintro rfl; exact hnk hb)]
          · by_cases hba : b = a
            · subst hba
              rw [h1 b (Dict.mem_keys_set.2 (Or.inl rfl)), Dict.get?_set_self]
              simpa using hv
            · exact h2 b (by rw [Dict.mem_keys_set]; simp [hba, hb])

/-- The concept of `{'k': None}` predicts `None` for `k`, and the instance stays empty. -/
example (N : Numbers) (w : World) :
    (∃ w', (Stats3.fresh.incr (inst3 [(.str c!"k", .none)])).predict N.tie N.gauss (.str c!"k") .mostLikely false w =
      .ok (some (.nom .none), w')) ∧
    ∃ w', trestleInferLoop N (Stats3.fresh.incr (inst3 [(.str c!"k", .none)])) .mostLikely false [.str c!"k"] [] w =
      .ok ([], w') := by
  have h : ∃ w', (Stats3.fresh.incr (inst3 [(.str c!"k", .none)])).predict N.tie N.gauss (.str c!"k") .mostLikely false w =
      .ok (some (.nom .none), w') := by
    have e : (Tab.empty.add (Val.nom Py.none)).entries = [(some Py.none, 1)] := rfl
    simp [Stats3.predict, Stats3.fresh, Stats3.incr, inst3, val3, Dict.get?, Stats3.weightedValues, choose,
      mostLikelyChoice, e, weightLoop, finishPredict, pyDiv, ok_bind, mlEntries, Except.map]
  refine ⟨h, ?_⟩
  obtain ⟨w', h⟩ := h
  refine ⟨w', ?_⟩
  simp [trestleInferLoop, Dict.has, Dict.get?, h, ok_bind, Numbers.toPy]

/-- What a table of flat instances can predict. -/
theorem flat_predictable {s : Stats3 Py Py} {m : Multiset (Inst3 Py Py)} (hs : Summarizes3 s m) {hist : List PyInst}
    (hm : m ≤ (hist.map inst3 : List _)) (hf : ∀ j ∈ hist, FlatInst j) {N : Numbers} {fn : ChoiceFn} {a : Py}
    (ha : a ∈ s.av.keys) {v : Val Py} (hv : Predictable s fn a v) :
    PlainAttr a ∧ (N.toPy v).hashable = true ∧ N.toPy v ≠ .none := by
  have key : ∀ i ∈ m, ∃ j ∈ hist, inst3 j = i := fun i hi => by
    have := Multiset.mem_of_le hm hi
    simpa using this
  refine ⟨?_, ?_⟩
  · obtain ⟨i, hi, hk⟩ := (hs.attrs a).1 ha
    obtain ⟨j, hj, rfl⟩ := key i hi
    obtain ⟨p, hp, rfl⟩ := List.mem_map.1 hk
    obtain ⟨q, hq, rfl⟩ := List.mem_map.1 hp
    exact (hf j hj).attr q hq
  · cases v with
    | num x => simp [Numbers.toPy, Py.hashable]
    | nom v =>
      have h0 : occ m a (.nom v) ≠ 0 := by
        intro h0
        have := hs.noms a v
        rw [if_pos h0] at this
        exact hv this
      obtain ⟨i, hi, hg⟩ : ∃ i ∈ m, Dict.get? i a = some (.nom v) := by
        by_contra hne
        push Not at hne
        exact h0 (by unfold occ; rw [Multiset.countP_eq_zero]; exact hne)
      obtain ⟨j, hj, rfl⟩ := key i hi
      have hmem := Dict.mem_of_get? hg
      obtain ⟨q, hq, he⟩ := List.mem_map.1 hmem
      have h2 : val3 q.2 = .nom v := congrArg Prod.snd he
      have h3 : q.2 = v := by
        cases hq2 : q.2 <;> rw [hq2] at h2 <;> simp [val3] at h2 <;> exact h2
      exact h3 ▸ (hf j hj).val q hq

/-- The course of `infer_missing` for a flat instance in a tree of flat instances. -/
theorem infer_flat {st : TState} {hist : List PyInst} (hr : HReach3 hid3 c.cobweb3 st.h st.sc (hist.map inst3))
    (hf : ∀ j ∈ hist, FlatInst j) {i : PyInst} (hi : FlatInst i) (S : Search) (N : Numbers) (fn : ChoiceFn) (an : Bool)
    {t : Tree (Stats3 Py Py)} (ht : IsTree st.h st.h.root t) :
    ∃ i' : PyInst, i'.Perm i ∧ FlatInst i' ∧ ∃ s, NoNames s ∧
    match categorize3 hid3 c.cobweb3 ⟨t, st.sc⟩ (inst3 i') st.h.w with
    | .error e => ∃ h', trestleInfer c S N fn an i st = (.error e, h')
    | .ok (x, w) => ∃ h1 a r, Undisturbed st.h h1 ∧ h1.w = w ∧
      trestleCategorize c S i st = (.ok a, ⟨h1, st.sc, st.ctr⟩) ∧
      st.h.objs a = some r ∧ r.children = [] ∧ r.stats = x.stats ∧
      trestleInfer c S N fn an i st =
        match trestleInferLoop N x.stats fn an x.stats.av.keys i' w with
        | .error e => (.error e, ⟨h1, st.sc, st.ctr⟩)
        | .ok (temp, w) =>
          (((trestlePipe c S st.rootAttrs).undo temp (st.ctr, s)).1,
            ⟨{ h1 with w := w }, st.sc, ((trestlePipe c S st.rootAttrs).undo temp (st.ctr, s)).2.1⟩) := by
  have hi' : FlatInst (sortEntries c.std i) := hi.perm (List.perm_insertionSort _ _)
  obtain ⟨s, h1, hs⟩ := prep_flat (c := c) (S := S) (rootAttrs_plain hr hf) hi.list hi.nodup
  refine ⟨sortEntries c.std i, List.perm_insertionSort _ _, hi', s, hs, ?_⟩
  have hall : ((sortEntries c.std i).all fun p => p.1.index0.isOk && p.2.hashable) = true := by
    rw [List.all_eq_true]
    intro p hp
    obtain ⟨ch, u, e, -⟩ := hi'.attr p hp
    rw [e, (hi'.val p hp).1]
    rfl
  obtain ⟨dt, n, hreach, -, hp, hroot⟩ := heap_rep3 hr
  have : t = dt.erase := ht.unique (hroot ▸ hp.rep.isTree)
  subst this
  obtain ⟨k, kc, hA⟩ := categorizeH_agrees (C := cobweb3Class hid3) (ecg := ecg3H hid3 c.cobweb3 st.sc)
    (fun s => fueled_ecg3 _ s) hp hroot (inst3 (sortEntries c.std i))
  generalize hrun : categorizeH (cobweb3Class hid3) (ecg3H hid3 c.cobweb3 st.sc) (inst3 (sortEntries c.std i)) st.h
    = run at k kc hA
  obtain ⟨res, h'⟩ := run
  have e : categorize3 hid3 c.cobweb3 ⟨dt.erase, st.sc⟩ (inst3 (sortEntries c.std i)) st.h.w =
    categorize (cobweb3Class hid3) (ecg3H hid3 c.cobweb3 st.sc true) dt.erase (inst3 (sortEntries c.std i)) st.h.w := rfl
  rw [e]
  cases hc : categorize (cobweb3Class hid3) (ecg3H hid3 c.cobweb3 st.sc true) dt.erase
      (inst3 (sortEntries c.std i)) st.h.w with
  | error e =>
    rw [hc] at hA
    dsimp only at hA
    subst hA
    simp only [trestleInfer, h1, hall, Bool.or_true, if_true, hrun]
    exact ⟨_, rfl⟩
  | ok q =>
    obtain ⟨x, w⟩ := q
    rw [hc] at hA
    obtain ⟨hw, y, hy, hye, hy0, hya⟩ := hA
    dsimp only at hya hw
    subst hya hw
    obtain ⟨q, hq⟩ := rep_nodes dt hp.rep y hy
    have hylt : y.addr < st.h.next := hp.lt _ (List.mem_map_of_mem hy)
    have hobj := hq.obj
    have hobj' := (k.objs _ hylt).trans hobj
    have hxs : x.stats = y.stats.2 := by rw [← hye, Tree.stats_erase]
    refine ⟨h', y.addr, _, ⟨k.objs, k.next, k.root, kc⟩, rfl, ?_, hobj, by simp [hy0], hxs.symm, ?_⟩
    · simp only [trestleCategorize, h1, hi'.trestleCheck, hrun]
    · simp only [trestleInfer, h1, hall, Bool.or_true, if_true, hrun, hxs]
      generalize h'.objs y.addr = o at hobj'
      subst hobj'
      dsimp only
      cases trestleInferLoop N y.stats.2 fn an y.stats.2.av.keys (sortEntries c.std i) h'.w with
      | error e => rfl
      | ok q => rfl

/-- **C86**, for flat instances: `infer_missing` changes neither the tree nor the names, keeps every given attribute
and adds only attributes of the leaf that `categorize` finds, with values recorded there (numbers become floats;
with 'most likely' they are means).  Without `None` every attribute of the leaf is filled. -/
theorem C86_infer_missing_partial (hc : c.Ok) (hfu : c.fuel ≠ 0) {st : TState} {hist : List PyInst}
    (hr : TrestleRuns c st hist) (hf : ∀ j ∈ hist, FlatInst j) {i : PyInst} (hi : FlatInst i) {S : Search} {N : Numbers}
    (hN : N.Ok) (htie : N.tie.Sound) {fn : ChoiceFn} {an : Bool} {out : PyInst} {st' : TState}
    (hx : trestleInfer c S N fn an i st = (.ok out, st')) :
    Undisturbed st.h st'.h ∧ st'.sc = st.sc ∧ st'.ctr = st.ctr ∧ FlatInst out ∧
    ∃ a r st1, trestleCategorize c S i st = (.ok a, st1) ∧ st.h.objs a = some r ∧ r.children = [] ∧
      (∀ k v, Dict.get? i k = some v → Dict.get? out k = some v) ∧
      (∀ k v, Dict.get? i k = none → Dict.get? out k = some v → k ∈ r.stats.av.keys ∧
        (r.stats.nomLookup k v ≠ none ∨ ∃ m x, r.stats.cvOf k = some m ∧ v = .num (N.round x) ∧
          (fn = .mostLikely → x = m.mean))) ∧
      (an = false → ∀ k ∈ r.stats.av.keys, k ∈ Dict.keys out) := by
  have hr' := trestle_heap hc hr
  obtain ⟨t, n, hreach, -, ht⟩ := C66_store_is_tree_cobweb3 hr'
  obtain ⟨i', hp, hi', s, hs, hm⟩ := infer_flat hr' hf hi S N fn an ht
  cases hcat : categorize3 hid3 c.cobweb3 ⟨t, st.sc⟩ (inst3 i') st.h.w with
  | error e =>
    rw [hcat] at hm
    obtain ⟨h', hm⟩ := hm
    rw [hm] at hx
    cases hx
  | ok q =>
    obtain ⟨x, w⟩ := q
    rw [hcat] at hm
    obtain ⟨h1, a, r, hu, hw, hcc, hobj, hr0, hrs, hm⟩ := hm
    rw [hm] at hx
    have hcn : x ∈ t.nodes := ((Tree.mem_leaves_iff _ _).1 (C84_categorize_descends hreach hcat).1).1
    obtain ⟨m, hle, hsum⟩ := (C29_every_node hreach).2 x hcn
    cases hl : trestleInferLoop N x.stats fn an x.stats.av.keys i' w with
    | error e => rw [hl] at hx; cases hx
    | ok q =>
      obtain ⟨temp, w'⟩ := q
      rw [hl] at hx
      dsimp only at hx
      obtain ⟨g1, g2, g3, g4⟩ := trestleInferLoop_spec (P := fun a v => Predictable x.stats fn a v ∧ PlainAttr a ∧
          (N.toPy v).hashable = true ∧ N.toPy v ≠ .none) (fun a ha w r w' hpr => by
        rcases predict3_range hreach hcn htie ha hpr with h | ⟨v, h1, h2⟩
        · exact .inl h
        · have := flat_predictable (N := N) hsum hle hf ha h2
          exact .inr ⟨v, h1, ⟨h2, this⟩, this.2.2⟩) _ (fun _ h => h) _ _ _ _ hl
      have hn := g4 hi'.nodup
      have hget : ∀ k, Dict.get? i' k = Dict.get? i k := fun k => get?_perm hi'.nodup hp k
      have hfl : FlatInst temp := by
        have : ∀ p ∈ temp, PlainAttr p.1 ∧ p.2.hashable = true ∧ p.2 ≠ .none := by
          rintro ⟨k, v⟩ hpm
          have hg := Dict.get?_of_mem hn hpm
          by_cases hk : k ∈ Dict.keys i'
          · rw [g1 k hk] at hg
            have := Dict.mem_of_get? hg
            exact ⟨hi'.attr _ this, hi'.val _ this⟩
          · obtain ⟨-, u, ⟨-, h3⟩, rfl⟩ := g2 k v hk hg
            exact h3
        exact ⟨hn, fun p hp => (this p hp).1, fun p hp => (this p hp).2⟩
      obtain ⟨s', hs'⟩ := undo_flat (S := S) (base := st.rootAttrs) hfu hfl.list hn (n := st.ctr) hs
      rw [hs'] at hx
      simp only [Prod.mk.injEq, Except.ok.injEq] at hx
      obtain ⟨rfl, rfl⟩ := hx
      refine ⟨⟨hu.objs, hu.next, hu.root, ?_⟩, rfl, rfl, hfl, a, r, _, hcc, hobj, hr0, fun k v hv => ?_,
        fun k v hv hv' => ?_, fun han k hk => ?_⟩
      · have := trestleInferLoop_ctr hN hl
        dsimp only
        rw [this, ← hw]; exact hu.ctr
      · rw [← hget] at hv
        rw [g1 k (Dict.get?_isSome.1 (by simp [hv]))]; exact hv
      · rw [← hget] at hv
        obtain ⟨h2, u, ⟨h3, -⟩, rfl⟩ := g2 k v (Dict.get?_eq_none.1 hv) hv'
        rw [hrs]
        refine ⟨h2, ?_⟩
        cases u with
        | nom v => exact .inl h3
        | num y => obtain ⟨m, h4, h5⟩ := h3; exact .inr ⟨m, y, h4, rfl, h5⟩
      · rw [hrs] at hk
        exact g3 han k hk

theorem trestleInferLoop_total {cfg : Cfg3 Py Py} {st : State3 Py Py Py} {hist : List (Inst3 Py Py)} {n : ℕ}
    (h : Reach3 hid3 cfg st hist n) {x : Tree (Stats3 Py Py)} (hx : x ∈ st.root.nodes) {N : Numbers}
    (htie : N.tie.Sound) (an : Bool) :
    ∀ (as : List Py) (temp : PyInst) (w : World), Function.Injective w.rnd →
      ∃ r, trestleInferLoop N x.stats .mostLikely an as temp w = .ok r := by
  intro as
  induction as with
  | nil => intro temp w _; exact ⟨_, rfl⟩
  | cons a as ih =>
    intro temp w hw
    unfold trestleInferLoop
    split
    · exact ih temp w hw
    · obtain ⟨v, w', hp, hr⟩ := C33_predict_total h hx a htie N.gauss an hw
      have hw' : Function.Injective w'.rnd := by rw [hr]; exact hw
      rw [hp, ok_bind]
      cases v with
      | none => exact ih temp w' hw'
      | some v => exact ih _ w' hw'

/-- **C86**: on flat instances with a visible attribute in the tree, the default choice function succeeds. -/
theorem C86_infer_missing_total (hc : c.Ok) (hfu : c.fuel ≠ 0) {st : TState} {hist : List PyInst}
    (hr : TrestleRuns c st hist) (hf : ∀ j ∈ hist, FlatInst j) (hv : ∀ j ∈ hist, HasVisible hid3 (inst3 j))
    {i : PyInst} (hi : FlatInst i) (S : Search) {N : Numbers} (htie : N.tie.Sound) (an : Bool)
    (hw : Function.Injective st.h.w.rnd) : ∃ out st', trestleInfer c S N .mostLikely an i st = (.ok out, st') := by
  have hr' := trestle_heap hc hr
  obtain ⟨t, n, hreach, -, ht⟩ := C66_store_is_tree_cobweb3 hr'
  obtain ⟨i', hp, hi', s, hs, hm⟩ := infer_flat hr' hf hi S N .mostLikely an ht
  obtain ⟨⟨x, w⟩, hcat⟩ := C63_categorize_never_raises hreach (by
    intro j hj
    obtain ⟨k, hk, rfl⟩ := List.mem_map.1 hj
    exact hv k hk) (inst3_nodup hi'.nodup) hw
  rw [hcat] at hm
  obtain ⟨h1, a, r, hu, hw1, hcc, hobj, hr0, hrs, hm⟩ := hm
  have hcn : x ∈ t.nodes := ((Tree.mem_leaves_iff _ _).1 (C84_categorize_descends hreach hcat).1).1
  obtain ⟨m, hle, hsum⟩ := (C29_every_node hreach).2 x hcn
  have hwi : Function.Injective w.rnd := by rw [categorizeLoop_rnd _ _ _ _ hcat]; exact hw
  obtain ⟨⟨temp, w'⟩, hl⟩ := trestleInferLoop_total hreach hcn htie an x.stats.av.keys i' w hwi
  rw [hl] at hm
  have hgood : FlatInst temp := by
    obtain ⟨g1, g2, g3, g4⟩ := trestleInferLoop_spec (P := fun a v => PlainAttr a ∧
        (N.toPy v).hashable = true ∧ N.toPy v ≠ .none) (fun a ha w r w' hpr => by
      rcases predict3_range hreach hcn htie ha hpr with h | ⟨v, h1, h2⟩
      · exact .inl h
      · have := flat_predictable (N := N) hsum hle hf ha h2
        exact .inr ⟨v, h1, this, this.2.2⟩) _ (fun _ h => h) _ _ _ _ hl
    have : ∀ p ∈ temp, PlainAttr p.1 ∧ p.2.hashable = true ∧ p.2 ≠ .none := by
      rintro ⟨k, v⟩ hpm
      have hg := Dict.get?_of_mem (g4 hi'.nodup) hpm
      by_cases hk : k ∈ Dict.keys i'
      · rw [g1 k hk] at hg
        have := Dict.mem_of_get? hg
        exact ⟨hi'.attr _ this, hi'.val _ this⟩
      · obtain ⟨-, u, h3, rfl⟩ := g2 k v hk hg
        exact h3
    exact ⟨g4 hi'.nodup, fun p hp => (this p hp).1, fun p hp => (this p hp).2⟩
  obtain ⟨s', hs'⟩ := undo_flat (S := S) (base := st.rootAttrs) hfu hgood.list hgood.nodup (n := st.ctr) hs
  simp only [hs'] at hm
  exact ⟨_, _, hm⟩

/-! ### With components -/

theorem reach3_single {A B V : Type} [DecidableEq A] [DecidableEq B] [DecidableEq V] {hid : A → Bool} {cfg : Cfg3 A B}
    {st : State3 A B V} {j : Inst3 A V} {n : ℕ} (h : Reach3 hid cfg st [j] n) :
    st.root.stats = Stats3.fresh.incr j ∧ st.root.children = [] := by
  generalize hh : [j] = hist at h
  cases h with
  | init => cases hh
  | @step st0 h0 n0 i w o h1 h2 h3 h4 =>
    obtain ⟨rfl, hj⟩ : h0 = [] ∧ j = i := by
      have := List.append_inj' (s₁ := []) (t₁ := [j]) hh rfl
      exact ⟨this.1.symm, by simpa using this.2⟩
    subst hj
    unfold ifit3 at h4
    obtain ⟨o', h5, h6⟩ := bind_ok.1 h4
    cases h6
    rcases reach3_holds h1 with ⟨-, id, e⟩ | hh
    · rw [e] at h5
      have : cobweb (cobweb3Class hid) (Stats3.ecg hid cfg (updateScales cfg.inner st0.scales j))
          (.node id (cobweb3Class hid).fresh []) j w = .ok ⟨.node id (Stats3.fresh.incr j) [], id, false, w⟩ := by
        simp [cobweb, cobwebLoop, Tree.numConcepts_node, cobweb3Class, Stats3.fresh]
      rw [this] at h5
      cases h5
      exact ⟨rfl, rfl⟩
    · exact absurd rfl hh.ne_zero

/-- The course of `infer_missing` in a tree that was fitted with one instance. -/
theorem infer_single (hc : c.Ok) {st : TState} {j : PyInst} (hr : TrestleRuns c st [j]) {S : Search} {N : Numbers}
    {fn : ChoiceFn} {an : Bool} {i temp : PyInst} {s : ℕ × (ℕ → Option (Dict Py Py))}
    (hp : trestlePrep c S st i = (.ok temp, s)) :
    st.rootAttrs = (Stats3.fresh.incr (inst3 j)).av.keys ∧
    (trestleInfer c S N fn an i st).1 =
      match trestleInferLoop N (Stats3.fresh.incr (inst3 j)) fn an (Stats3.fresh.incr (inst3 j)).av.keys temp st.h.w with
      | .error e => .error e
      | .ok (temp, _) => ((trestlePipe c S st.rootAttrs).undo temp s).1 := by
  have hr' := trestle_heap hc hr
  obtain ⟨dt, n, hreach, -, hpre, hroot⟩ := heap_rep3 hr'
  obtain ⟨h1, h2⟩ := reach3_single hreach
  have hobj := hpre.rep.obj
  rw [← hroot] at hobj
  have e1 : dt.stats.2 = Stats3.fresh.incr (inst3 j) := by rw [← h1, Tree.stats_erase]
  have e2 : dt.children = [] := by
    cases dt with | node id s cs => cases cs with
      | nil => rfl
      | cons =>
        obtain ⟨a, s⟩ := s
        simp [Tree.erase_node] at h2
  obtain ⟨k, kc, hA⟩ := categorizeH_agrees (C := cobweb3Class hid3) (ecg := ecg3H hid3 c.cobweb3 st.sc)
    (fun s => fueled_ecg3 _ s) hpre hroot (inst3 temp)
  have hcat : categorize (cobweb3Class hid3) (ecg3H hid3 c.cobweb3 st.sc true) dt.erase (inst3 temp) st.h.w =
      .ok (dt.erase, st.h.w) := by
    generalize dt.erase = t at h2
    obtain ⟨id, s, cs⟩ := t
    simp only [Tree.children_node] at h2
    subst h2
    simp [categorize, categorizeLoop, Tree.numConcepts_node, cobweb3Class]
  rw [hcat] at hA
  generalize hrun : categorizeH (cobweb3Class hid3) (ecg3H hid3 c.cobweb3 st.sc) (inst3 temp) st.h = run at k kc hA
  obtain ⟨res, h'⟩ := run
  obtain ⟨hw, y, hy, hye, hy0, hya⟩ := hA
  dsimp only at hya hw
  subst hya
  have hy' : y = dt := by
    obtain ⟨id, s, cs⟩ := dt
    simp only [Tree.children_node] at e2
    subst e2
    simpa [Tree.nodes_node] using hy
  subst hy'
  have hlt : y.addr < st.h.next := hpre.lt _ (List.mem_map_of_mem hy)
  have hobj' := (k.objs _ hlt).trans (hroot ▸ hobj)
  have hleaf : st.rootIsLeaf = true := by
    rw [TState.rootIsLeaf, hobj]
    simp [e2]
  refine ⟨by rw [TState.rootAttrs, hobj, ← e1], ?_⟩
  simp only [trestleInfer, hp, hleaf, Bool.true_or, if_true, hrun]
  generalize h'.objs y.addr = o at hobj'
  subst hobj'
  dsimp only
  rw [e1, ← hw]
  cases trestleInferLoop N (Stats3.fresh.incr (inst3 j)) fn an (Stats3.fresh.incr (inst3 j)).av.keys temp h'.w with
  | error e => rfl
  | ok q => rfl

theorem trestleInferLoop_present {N : Numbers} {s : Stats3 Py Py} {fn : ChoiceFn} {an : Bool} {temp : PyInst} {w : World} :
    ∀ as : List Py, (∀ b ∈ as, temp.has b = true) → trestleInferLoop N s fn an as temp w = .ok (temp, w) := by
  intro as
  induction as with
  | nil => intro _; rfl
  | cons a as ih =>
    intro h
    rw [trestleInferLoop, if_pos (h a (by simp))]
    exact ih fun b hb => h b (by simp [hb])

theorem trestleInferLoop_one {N : Numbers} {s : Stats3 Py Py} {fn : ChoiceFn} {an : Bool} {temp : PyInst} {w w' : World}
    {k : Py} {v : Val Py} (hk : temp.has k = false) (hp : s.predict N.tie N.gauss k fn an w = .ok (some v, w'))
    (hv : N.toPy v ≠ .none) :
    ∀ as : List Py, as.Nodup → k ∈ as → (∀ b ∈ as, b ≠ k → temp.has b = true) →
      trestleInferLoop N s fn an as temp w = .ok (temp.set k (N.toPy v), w') := by
  intro as
  induction as with
  | nil => intro _ h; simp at h
  | cons a as ih =>
    intro hn hka h
    have hn' := List.nodup_cons.1 hn
    by_cases hak : a = k
    · subst hak
      rw [trestleInferLoop, if_neg (by simp [hk]), hp, ok_bind]
      simp only [hv, if_false]
      refine trestleInferLoop_present as fun b hb => ?_
      have hba : b ≠ a := by rintro rfl; exact hn'.1 hb
      rw [Dict.has_iff, Dict.mem_keys_set]
      exact .inr (Dict.has_iff.1 (h b (by simp [hb]) hba))
    · rw [trestleInferLoop, if_pos (h a (by simp) hak)]
      exact ih hn'.2 (by simpa [Ne.symm hak] using hka) fun b hb hbk => h b (by simp [hb]) hbk

/-- `infer_missing`, in a tree fitted with one instance, adds the one attribute that is missing. -/
theorem infer_one (hc : c.Ok) {st : TState} {j : PyInst} (hr : TrestleRuns c st [j])
    (hw : Function.Injective st.h.w.rnd) {S : Search} {N : Numbers} (htie : N.tie.Sound)
    {i temp : PyInst} {s : ℕ × (ℕ → Option (Dict Py Py))} {base : List Py}
    (hb : (Stats3.fresh.incr (inst3 j)).av.keys = base)
    (hp : (trestlePipe c S base).transform i (st.ctr, fun _ => Option.none) = (.ok temp, s)) {k : Py}
    (hk : temp.has k = false) (hkb : k ∈ base) (hn : base.Nodup) (ho : ∀ b ∈ base, b ≠ k → temp.has b = true)
    (hv : ∀ v, Predictable (Stats3.fresh.incr (inst3 j)) .mostLikely k v → N.toPy v ≠ .none) :
    ∃ v, Predictable (Stats3.fresh.incr (inst3 j)) .mostLikely k v ∧
      (trestleInfer c S N .mostLikely false i st).1 =
        ((trestlePipe c S base).undo (temp.set k (N.toPy v)) s).1 := by
  subst hb
  have hr' := trestle_heap hc hr
  obtain ⟨t, n, hreach, -, ht⟩ := C66_store_is_tree_cobweb3 hr'
  obtain ⟨h1, h2⟩ := reach3_single hreach
  have hattrs : st.rootAttrs = (Stats3.fresh.incr (inst3 j)).av.keys := by
    cases ht with
    | mk hobj _ => rw [TState.rootAttrs, hobj]; exact congrArg (fun s => s.av.keys) h1
  obtain ⟨r, w', hpr, -⟩ := C33_predict_total hreach (Tree.self_mem_nodes _) k htie N.gauss false hw
  have hka : k ∈ t.stats.av.keys := by
    have h1' : t.stats = _ := h1
    rw [h1']; exact hkb
  rcases predict3_range hreach (Tree.self_mem_nodes _) htie hka hpr with ⟨-, h⟩ | ⟨v, rfl, hpv⟩
  · cases h
  · have h1' : t.stats = _ := h1
    have hprep : trestlePrep c S st i = (.ok temp, s) := by rw [trestlePrep, hattrs]; exact hp
    obtain ⟨-, hx⟩ := infer_single (N := N) (fn := .mostLikely) (an := false) hc hr hprep
    simp only [h1'] at hpr hpv
    rw [trestleInferLoop_one hk hpr (hv v hpv) _ hn hkb ho, hattrs] at hx
    exact ⟨v, hpv, hx⟩

end

/-- A new tree. -/
noncomputable def demoNew : TState := trestleClear ⟨⟨fun _ => Option.none, 0, 0, Demo.w0⟩, [], 0⟩

theorem single_exists {i j : PyInst} {n : ℕ} {s : ℕ → Option (Dict Py Py)} (hw : Py.wf (.dict i)) (hi : FitInst i)
    (hv : VisInst i) (hp : (trestlePipe demoTrestle demoSearch []).transform i (0, fun _ => Option.none) = (.ok j, n, s)) :
    ∃ st, TrestleRuns demoTrestle st [j] ∧ Function.Injective st.h.w.rnd ∧ st.ctr = n := by
  have h0 : TrestleRuns demoTrestle demoNew [] := .clear _
  have hinj : Function.Injective demoNew.h.w.rnd := fun a b hab => by simpa [Demo.w0] using Nat.cast_injective (R := ℚ) hab
  obtain ⟨a, st', temp, h1, -, -⟩ := C71_ifit_never_raises demoTrestle_ok h0 (by simp) demoSearch_ok demoSearch_total
    hw hi hv hinj
  have hp' : trestlePrep demoTrestle demoSearch demoNew i = (.ok j, n, s) := hp
  have h2 : TrestleRuns demoTrestle st' ([] ++ [j]) := .ifit h0 demoSearch_ok hw (by rw [hp']) h1
  have h3 : st'.ctr = n := by
    have e : st' = (trestleIfit demoTrestle demoSearch i demoNew).2 := by rw [h1]
    rw [e, trestleIfit, hp']
    dsimp only
    split <;> rfl
  refine ⟨{ st' with h := { st'.h with w := ⟨fun k => (k : ℚ), 0, st'.h.w.ctr⟩ } },
    .other h2 ⟨fun _ _ => rfl, le_refl _, rfl, le_refl _⟩, fun a b hab => by simpa using hab, h3⟩

/-- **C86** (negation): a given component can be lost.  In a tree fitted with `{'size': 'big'}`, `infer_missing`
completes `{'size': {'w': 1}}` to `{'size': 'big'}`: the predicted attribute `size` replaces the component. -/
theorem C86_component_lost : ∃ st, TrestleRuns demoTrestle st [[(.str c!"size", .str c!"big")]] ∧
    ∀ N : Numbers, N.tie.Sound →
      (trestleInfer demoTrestle demoSearch N .mostLikely false [(.str c!"size", .dict [(.str c!"w", .num 1)])] st).1 =
        .ok [(.str c!"size", .str c!"big")] := by
  obtain ⟨st, h1, h2, h3⟩ := single_exists (i := [(.str c!"size", .str c!"big")]) (j := [(.str c!"size", .str c!"big")])
    (n := 0) (s := _) (by simp [Py.wf, Py.wfD, Dict.Nodup, Dict.keys]) (by simp [FitInst, FitVal, FitAttr, Py.hashable])
    (by simp [VisInst, VisLeaf, hid3, Py.index0]) rfl
  refine ⟨st, h1, fun N hN => ?_⟩
  have hpred : ∀ v, Predictable (Stats3.fresh.incr (inst3 [(.str c!"size", .str c!"big")])) .mostLikely (.str c!"size") v →
      v = .nom (.str c!"big") := by
    intro v hv
    cases v with
    | num x => obtain ⟨k, hk, -⟩ := hv; exact nomatch hk
    | nom x =>
      by_contra hne
      refine hv ?_
      show Dict.get? [(Py.str c!"big", 1)] x = Option.none
      rw [Dict.get?_eq_none]
      simp [Dict.keys]
      rintro rfl
      exact hne rfl
  obtain ⟨v, hv, hx⟩ := infer_one demoTrestle_ok h1 h2 hN (i := [(.str c!"size", .dict [(.str c!"w", .num 1)])])
    (temp := [(.tup [.str c!"w", .str c!"size"], .num 1)]) (base := [.str c!"size"]) (S := demoSearch)
    (k := .str c!"size") (s := _) rfl (by rw [h3]; rfl) rfl (by simp) (by simp) (by simp)
    (fun v hv => by rw [hpred v hv]; simp [Numbers.toPy])
  rw [hx, hpred v hv]
  rfl

/-- **C86** (negation): `infer_missing` can raise.  In a tree fitted with `{'size': {'w': 1}}`, completing
`{'size': 'big'}` puts the predicted attribute `w` into the string. -/
theorem C86_infer_raises : ∃ st, TrestleRuns demoTrestle st [[(.tup [.str c!"w", .str c!"size"], .num 1)]] ∧
    ∀ N : Numbers, N.tie.Sound →
      (trestleInfer demoTrestle demoSearch N .mostLikely false [(.str c!"size", .str c!"big")] st).1 = .error .typeErr := by
  obtain ⟨st, h1, h2, h3⟩ := single_exists (i := [(.str c!"size", .dict [(.str c!"w", .num 1)])])
    (j := [(.tup [.str c!"w", .str c!"size"], .num 1)])
    (n := 0) (s := _) (by simp [Py.wf, Py.wfD, Dict.Nodup, Dict.keys]) (by simp [FitInst, FitVal, FitAttr, Py.hashable])
    (by simp [VisInst, VisLeaf, hid3, Py.index0]) rfl
  refine ⟨st, h1, fun N hN => ?_⟩
  have hpred : ∀ v, Predictable (Stats3.fresh.incr (inst3 [(.tup [.str c!"w", .str c!"size"], .num 1)])) .mostLikely
      (.tup [.str c!"w", .str c!"size"]) v → ∃ x, v = .num x := by
    intro v hv
    cases v with
    | num x => exact ⟨x, rfl⟩
    | nom x => exact absurd rfl hv
  obtain ⟨v, hv, hx⟩ := infer_one demoTrestle_ok h1 h2 hN (i := [(.str c!"size", .str c!"big")])
    (temp := [(.str c!"size", .str c!"big")]) (base := [.tup [.str c!"w", .str c!"size"]]) (S := demoSearch)
    (k := .tup [.str c!"w", .str c!"size"]) (s := _) rfl (by rw [h3]; rfl) rfl (by simp) (by simp) (by simp)
    (fun v hv => by obtain ⟨x, rfl⟩ := hpred v hv; simp [Numbers.toPy])
  rw [hx]
  rfl

/-- `{'?a': {'k': 1, '?b': {'m': 2}}}` -/
def demoNested : PyInst :=
  [(.str c!"?a", .dict [(.str c!"k", .num 1), (.str c!"?b", .dict [(.str c!"m", .num 2)])])]

/-- `{'?a': {'k': 1}, '?b': {'m': 2}}` -/
def demoApart : PyInst :=
  [(.str c!"?a", .dict [(.str c!"k", .num 1)]), (.str c!"?b", .dict [(.str c!"m", .num 2)])]

/-- `demoNested` after the preprocessing. -/
def demoNestedFlat : PyInst :=
  [(.tup [.str c!"k", .str c!"?o1"], .num 1), (.tup [.str c!"has-component", .str c!"?o1", .str c!"?o2"], .bool true),
    (.tup [.str c!"m", .str c!"?o2"], .num 2)]

theorem demoNested_prep : ∃ s,
    (trestlePipe demoTrestle demoSearch []).transform demoNested (0, fun _ => Option.none) = (.ok demoNestedFlat, 2, s) :=
  ⟨_, rfl⟩

theorem demoNested_keys : (Stats3.fresh.incr (inst3 demoNestedFlat)).av.keys = demoNestedFlat.map Prod.fst := rfl

theorem demoApart_prep : ∃ s,
    (trestlePipe demoTrestle demoSearch (demoNestedFlat.map Prod.fst)).transform demoApart (2, fun _ => Option.none) =
      (.ok [(.tup [.str c!"k", .str c!"?o1"], .num 1), (.tup [.str c!"m", .str c!"?o2"], .num 2)], s) ∧
    ((trestlePipe demoTrestle demoSearch (demoNestedFlat.map Prod.fst)).undo
      (Dict.set [(.tup [.str c!"k", .str c!"?o1"], .num 1), (.tup [.str c!"m", .str c!"?o2"], .num 2)]
        (.tup [.str c!"has-component", .str c!"?o1", .str c!"?o2"]) (.bool true)) s).1 = .ok demoNested := by
  refine ⟨((trestlePipe demoTrestle demoSearch (demoNestedFlat.map Prod.fst)).transform demoApart
    (2, fun _ => Option.none)).2, Prod.ext ?_ rfl, ?_⟩
  · rfl
  · rfl

theorem demoNested_predict : ∀ v, Predictable (Stats3.fresh.incr (inst3 demoNestedFlat)) .mostLikely
    (.tup [.str c!"has-component", .str c!"?o1", .str c!"?o2"]) v → v = .nom (.bool true) := by
  intro v hv
  cases v with
  | num x => obtain ⟨k, hk, -⟩ := hv; exact nomatch hk
  | nom x =>
    by_contra hne
    refine hv ?_
    show Dict.get? [(Py.bool true, 1)] x = Option.none
    rw [Dict.get?_eq_none]
    simp [Dict.keys]
    rintro rfl
    exact hne rfl

/-- **C86** (negation): a given object can be moved.  In a tree fitted with
`{'?a': {'k': 1, '?b': {'m': 2}}}`, the instance `{'?a': {'k': 1}, '?b': {'m': 2}}` is completed by the relation
'has-component', and the object `?b` is inside `?a` in the result. -/
theorem C86_object_moved : ∃ st, TrestleRuns demoTrestle st [demoNestedFlat] ∧ ∀ N : Numbers, N.tie.Sound →
    (trestleInfer demoTrestle demoSearch N .mostLikely false demoApart st).1 = .ok demoNested := by
  obtain ⟨s1, hp1⟩ := demoNested_prep
  obtain ⟨st, h1, h2, h3⟩ := single_exists (by simp [demoNested, Py.wf, Py.wfD, Dict.Nodup, Dict.keys])
    (by simp [demoNested, FitInst, FitVal, FitAttr, Py.hashable])
    (by simp [demoNested, VisInst, VisLeaf, hid3, Py.index0]) hp1
  refine ⟨st, h1, fun N hN => ?_⟩
  obtain ⟨s2, hp2, hu2⟩ := demoApart_prep
  obtain ⟨v, hv, hx⟩ := infer_one demoTrestle_ok h1 h2 hN demoNested_keys (by rw [h3]; exact hp2)
    (k := .tup [.str c!"has-component", .str c!"?o1", .str c!"?o2"]) rfl (by simp [demoNestedFlat])
    (by simp [demoNestedFlat])
    (by intro b hb; simp only [demoNestedFlat, List.map_cons, List.map_nil, List.mem_cons, List.not_mem_nil, or_false] at hb
        rcases hb with rfl | rfl | rfl <;> first | exact fun _ => rfl | exact fun h => absurd rfl h)
    (fun v hv => by rw [demoNested_predict v hv]; simp [Numbers.toPy])
  rw [hx, demoNested_predict v hv]
  exact hu2

/-- Completing a flat instance in a tree fitted with a flat instance: what was given is kept, the rest is filled in. -/
example : ∃ st, TrestleRuns demoTrestle st [[(.str c!"k", .num 2), (.str c!"shape", .str c!"box")]] ∧
    ∀ N : Numbers, N.Ok → N.tie.Sound → ∃ out st',
      trestleInfer demoTrestle demoSearch N .mostLikely false [(.str c!"shape", .str c!"ball")] st = (.ok out, st') ∧
      Dict.get? out (.str c!"shape") = some (.str c!"ball") := by
  have hflat : FlatInst [(.str c!"k", .num 2), (.str c!"shape", .str c!"box")] :=
    ⟨by simp [Dict.Nodup, Dict.keys], by
      have h1 : PlainAttr (.str c!"shape") := ⟨'s', _, rfl, by decide⟩
      have h2 : PlainAttr (.str c!"k") := ⟨'k', _, rfl, by decide⟩
      simp [h1, h2], by simp [Py.hashable]⟩
  have hi : FlatInst [(.str c!"shape", .str c!"ball")] :=
    ⟨by simp [Dict.Nodup, Dict.keys], by
      have h1 : PlainAttr (.str c!"shape") := ⟨'s', _, rfl, by decide⟩
      simp [h1], by simp [Py.hashable]⟩
  obtain ⟨st, h1, h2, h3⟩ := single_exists (i := [(.str c!"k", .num 2), (.str c!"shape", .str c!"box")])
    (j := [(.str c!"k", .num 2), (.str c!"shape", .str c!"box")])
    (n := 0) (s := _) (by simp [Py.wf, Py.wfD, Dict.Nodup, Dict.keys]) (by simp [FitInst, FitVal, FitAttr, Py.hashable])
    (by simp [VisInst, VisLeaf, hid3, Py.index0]) rfl
  refine ⟨st, h1, fun N hN htie => ?_⟩
  have hf : ∀ j ∈ [[(Py.str c!"k", Py.num 2), (.str c!"shape", .str c!"box")]], FlatInst j := by simpa using hflat
  obtain ⟨out, st', hx⟩ := C86_infer_missing_total demoTrestle_ok (by simp [demoTrestle]) h1 hf
    (fun j hj => ⟨.str c!"k", by rw [List.mem_singleton.1 hj]; simp [inst3, Dict.keys], rfl⟩) hi demoSearch htie false h2
  obtain ⟨-, -, -, -, a, r, st1, -, -, -, h5, -⟩ := C86_infer_missing_partial demoTrestle_ok (by simp [demoTrestle]) h1 hf hi
    hN htie hx
  exact ⟨out, st', hx, h5 _ _ rfl⟩

end CF
