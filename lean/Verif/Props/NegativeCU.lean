/-
Property C85: a history after which a concept of the Cobweb/3 tree has a negative category utility.
-/
import Verif.Proofs.NegNumbers

namespace CF

section choice
variable {I S K : Type} [Field K] [LinearOrder K] [IsStrictOrderedRing K] {C : NodeClass I S} {ecg : S → Res K}

/-- The choice at a node with two children, from the scores. -/
theorem choose_two {s : S} {t0 t1 : Tree S} {i : I} {w w' : World} {b : Best K} {op : Op}
    (hcopy : ∀ c ∈ [t0.stats, t1.stats], shallowCopy C c = c) (hcs : shallowCopy C s = s)
    (hincr : ∀ c, C.count (C.incr c i) = C.count c + 1)
    (h : chooseOp C ecg s [t0, t1] i w = .ok (b, op, w')) {u0 u1 un s0 s1 : K}
    (h0 : cuForInsert C ecg s [t0.stats, t1.stats] 0 i = .ok u0)
    (h1 : cuForInsert C ecg s [t0.stats, t1.stats] 1 i = .ok u1)
    (hn : cuForNewChild C ecg s [t0.stats, t1.stats] i = .ok un)
    (hs0 : t0.children ≠ [] → cuForSplit C ecg s [t0.stats, t1.stats] 0 (t0.children.map Tree.stats) = .ok s0)
    (hs1 : t1.children ≠ [] → cuForSplit C ecg s [t0.stats, t1.stats] 1 (t1.children.map Tree.stats) = .ok s1) :
    ∃ u sp : K, ∃ t, [t0, t1][b.b1]? = some t ∧ u0 ≤ u ∧ u1 ≤ u ∧
      (b.b1 = 0 ∧ u = u0 ∧ sp = s0 ∨ b.b1 = 1 ∧ u = u1 ∧ sp = s1) ∧
      (op = .best ∧ un ≤ u ∧ (t.children ≠ [] → sp ≤ u) ∨
        op = .new ∧ u ≤ un ∧ (t.children ≠ [] → sp ≤ un) ∨
        op = .split ∧ t.children ≠ [] ∧ u ≤ sp ∧ un ≤ sp) := by
  simp only [chooseOp, bind_ok] at h
  obtain ⟨b', hb, ⟨cu, op', k⟩, ho, h⟩ := h
  simp only [pure_ok, Prod.mk.injEq] at h
  obtain ⟨rfl, rfl, -⟩ := h
  obtain ⟨c1, hc1, hcu, hall, -, -⟩ := twoBest_optimal (by simpa using hcopy) hcs hincr hb
  simp only [List.map_cons, List.map_nil] at hc1 hcu hall
  obtain ⟨v0, hv0, hle0⟩ := hall 0 t0.stats rfl
  obtain ⟨v1, hv1, hle1⟩ := hall 1 t1.stats rfl
  rw [h0] at hv0; cases hv0
  rw [h1] at hv1; cases hv1
  have le_of : ∀ {u n r u' n' r'}, NotBetter (K := K) u n r u' n' r' → u ≤ u' := by
    rintro _ _ _ _ _ _ (h | h)
    · exact h.le
    · exact h.1.le
  obtain ⟨j, hj, -, hsc, hmax⟩ := C12_best_operation ho
  cases hj
  have hbest := hmax .best _ (by simp [allOps]) .best
  have hnew := hmax .new un (by simp [allOps]) (.new hn)
  have main : ∀ (t : Tree S) (sp : K), [t0, t1][b'.b1]? = some t →
      (t.children ≠ [] → cuForSplit C ecg s [t0.stats, t1.stats] b'.b1 (t.children.map Tree.stats) = .ok sp) →
      (op' = .best ∧ un ≤ b'.cu ∧ (t.children ≠ [] → sp ≤ b'.cu) ∨
        op' = .new ∧ b'.cu ≤ un ∧ (t.children ≠ [] → sp ≤ un) ∨
        op' = .split ∧ t.children ≠ [] ∧ b'.cu ≤ sp ∧ un ≤ sp) := by
    intro t sp ht hsp
    have hspl : t.children ≠ [] → sp ≤ cu := fun hne =>
      hmax .split sp (by simp [allOps]) (.split ht hne (hsp hne))
    cases hsc with
    | best => exact .inl ⟨rfl, hnew, hspl⟩
    | new hn' =>
      simp only [List.map_cons, List.map_nil] at hn'
      rw [hn] at hn'; cases hn'
      exact .inr (.inl ⟨rfl, hbest, hspl⟩)
    | merge _ _ _ hl => simp at hl
    | split ht' hne hsp' =>
      rw [ht] at ht'; cases ht'
      simp only [List.map_cons, List.map_nil] at hsp'
      rw [hsp hne] at hsp'; cases hsp'
      exact .inr (.inr ⟨rfl, hne, hbest, hnew⟩)
  have hlt : b'.b1 = 0 ∨ b'.b1 = 1 := by
    obtain ⟨hlt, -⟩ := List.getElem?_eq_some_iff.1 hc1
    simp at hlt
    omega
  rcases hlt with e | e
  · rw [e] at hcu
    rw [h0] at hcu; cases hcu
    exact ⟨_, s0, t0, by rw [e]; rfl, le_of hle0, le_of hle1, .inl ⟨e, rfl, rfl⟩,
      main t0 s0 (by rw [e]; rfl) (by rw [e]; exact hs0)⟩
  · rw [e] at hcu
    rw [h1] at hcu; cases hcu
    exact ⟨_, s1, t1, by rw [e]; rfl, le_of hle0, le_of hle1, .inr ⟨e, rfl, rfl⟩,
      main t1 s1 (by rw [e]; rfl) (by rw [e]; exact hs1)⟩

end choice

/-- The table summarises the points `l`. -/
abbrev SumPts (s : Stats3 ℕ ℕ) (l : List (ℝ × ℝ)) : Prop := Summarizes3 s (planePts l)

/-- The category utility of a partition of the points `r` into the groups `ls`, after the history `h`. -/
noncomputable def planeCu (h r : List (ℝ × ℝ)) (ls : List (List (ℝ × ℝ))) : ℝ :=
  ((ls.map fun l => (l.length : ℝ) * planeEcg h l).sum / r.length - planeEcg h r) / ls.length

theorem planePts_append (l l' : List (ℝ × ℝ)) : planePts (l ++ l') = planePts l + planePts l' := by
  simp [planePts]

theorem planePts_flatten (ls : List (List (ℝ × ℝ))) : planePts ls.flatten = (ls.map planePts).sum := by
  induction ls with
  | nil => rfl
  | cons l ls ih => rw [List.flatten_cons, planePts_append, ih]; rfl

theorem cu_plane {h r : List (ℝ × ℝ)} {ls : List (List (ℝ × ℝ))} {sc : Scales ℕ} {s : Stats3 ℕ ℕ}
    {cs : List (Stats3 ℕ ℕ)} (hsc : ScalesObs sc (planeScale h)) (hs : SumPts s r)
    (hcs : List.Forall₂ SumPts cs ls) (hp : ls.flatten.Perm r) (hl : ∀ l ∈ ls, l ≠ []) (hls : ls ≠ [])
    (h0 : 0 < listVar (h.map Prod.fst)) (h1 : 0 < listVar (h.map Prod.snd)) :
    categoryUtility (cobweb3Class Demo.hid) (Stats3.ecg Demo.hid planeCfg sc) s cs = .ok (planeCu h r ls) := by
  have hsum : (ls.map planePts).sum = planePts r := by
    rw [← planePts_flatten]
    exact Multiset.coe_eq_coe.2 (hp.map _)
  have hr : r ≠ [] := by
    rintro rfl
    obtain ⟨l, ls, rfl⟩ := List.exists_cons_of_ne_nil hls
    have := hp.eq_nil
    rw [List.flatten_cons, List.append_eq_nil_iff] at this
    exact hl l (by simp) this.1
  obtain ⟨u, hu, e, -, -⟩ := categoryUtility3_range (hid := Demo.hid) (cfg := planeCfg) hsc
    (ms := ls.map planePts) (by rw [hsum]; exact hs)
    (List.forall₂_map_right_iff.2 hcs) (by
      intro m hm
      obtain ⟨l, hl', rfl⟩ := List.mem_map.1 hm
      rw [visAttrs_planePts (hl l hl')]; simp) (by simpa using hls)
  rw [hu, e, hsum, ecgSpec3_plane hr h0 h1, List.map_map, card_planePts, List.length_map]
  congr 1
  unfold planeCu
  congr 4
  refine List.map_congr_left fun l hl' => ?_
  simp only [Function.comp_apply]
  rw [ecgSpec3_plane (hl l hl') h0 h1, card_planePts]

theorem nodup_planePt (p : ℝ × ℝ) : Dict.Nodup (planePt p) := by simp [planePt, Dict.Nodup, Dict.keys]

theorem sumPts_copy {s : Stats3 ℕ ℕ} {l : List (ℝ × ℝ)} (h : SumPts s l) :
    shallowCopy (cobweb3Class Demo.hid) s = s := (cobweb3Laws Demo.hid).copy h

theorem sumPts_incr {s : Stats3 ℕ ℕ} {l : List (ℝ × ℝ)} (h : SumPts s l) (p : ℝ × ℝ) :
    SumPts ((cobweb3Class Demo.hid).incr s (planePt p)) (p :: l) :=
  (cobweb3Laws Demo.hid).incr h (nodup_planePt p)

theorem sumPts_new (p : ℝ × ℝ) :
    SumPts ((cobweb3Class Demo.hid).incr (cobweb3Class Demo.hid).fresh (planePt p)) [p] :=
  sumPts_incr (l := []) (cobweb3Laws Demo.hid).fresh p

section scores
variable {h r l0 l1 : List (ℝ × ℝ)} {p : ℝ × ℝ} {sc : Scales ℕ} {s s0 s1 : Stats3 ℕ ℕ}
  (hsc : ScalesObs sc (planeScale h)) (hs : SumPts s r) (hs0 : SumPts s0 l0) (hs1 : SumPts s1 l1)
  (hp : (l0 ++ l1).Perm r) (hl0 : l0 ≠ []) (hl1 : l1 ≠ [])
  (h0 : 0 < listVar (h.map Prod.fst)) (h1 : 0 < listVar (h.map Prod.snd))
include hsc hs hs0 hs1 hp hl0 hl1 h0 h1

theorem plane_insert0 : cuForInsert (cobweb3Class Demo.hid) (Stats3.ecg Demo.hid planeCfg sc) s [s0, s1] 0
    (planePt p) = .ok (planeCu h (p :: r) [p :: l0, l1]) := by
  have := cu_plane hsc (sumPts_incr hs p) (.cons (sumPts_incr hs0 p) (.cons hs1 .nil)) (by simpa using hp)
    (by simp [hl1]) (by simp) h0 h1
  rw [← this, cuForInsert]
  simp [sumPts_copy hs, sumPts_copy hs0, sumPts_copy hs1]

theorem plane_insert1 : cuForInsert (cobweb3Class Demo.hid) (Stats3.ecg Demo.hid planeCfg sc) s [s0, s1] 1
    (planePt p) = .ok (planeCu h (p :: r) [l0, p :: l1]) := by
  have := cu_plane hsc (sumPts_incr hs p) (.cons hs0 (.cons (sumPts_incr hs1 p) .nil))
    (by simpa using (List.perm_middle).trans (hp.cons p)) (by simp [hl0]) (by simp) h0 h1
  rw [← this, cuForInsert]
  simp [sumPts_copy hs, sumPts_copy hs0, sumPts_copy hs1]

theorem plane_new : cuForNewChild (cobweb3Class Demo.hid) (Stats3.ecg Demo.hid planeCfg sc) s [s0, s1]
    (planePt p) = .ok (planeCu h (p :: r) [l0, l1, [p]]) := by
  have := cu_plane hsc (sumPts_incr hs p) (.cons hs0 (.cons hs1 (.cons (sumPts_new p) .nil)))
    (by
      simp only [List.flatten_cons, List.flatten_nil, List.append_nil, ← List.append_assoc]
      exact (List.perm_append_singleton p (l0 ++ l1)).trans (hp.cons p)) (by simp [hl0, hl1]) (by simp) h0 h1
  rw [← this, cuForNewChild]
  simp [sumPts_copy hs, sumPts_copy hs0, sumPts_copy hs1]

theorem plane_split1 {s2 s3 : Stats3 ℕ ℕ} {l2 l3 : List (ℝ × ℝ)} (hs2 : SumPts s2 l2) (hs3 : SumPts s3 l3)
    (hp' : (l2 ++ l3).Perm l1) (hl2 : l2 ≠ []) (hl3 : l3 ≠ []) :
    cuForSplit (cobweb3Class Demo.hid) (Stats3.ecg Demo.hid planeCfg sc) s [s0, s1] 1 [s2, s3] =
      .ok (planeCu h r [l0, l2, l3]) := by
  have := cu_plane hsc hs (.cons hs0 (.cons hs2 (.cons hs3 .nil)))
    (by
      simp only [List.flatten_cons, List.flatten_nil, List.append_nil]
      exact (hp'.append_left l0).trans hp) (by simp [hl0, hl2, hl3]) (by simp) h0 h1
  rw [← this, cuForSplit]
  simp [sumPts_copy hs, sumPts_copy hs0, sumPts_copy hs2, sumPts_copy hs3]

end scores

theorem planeEcg_single (h : List (ℝ × ℝ)) (p : ℝ × ℝ) : planeEcg h [p] = 1 := by
  simp [planeEcg, listVar_single, guess]

theorem neg3_d : planeCu negHist3 [negA, negB, negD] [[negA, negD], [negB]] <
    planeCu negHist3 [negA, negB, negD] [[negD], [negA, negB]] := by
  simp only [planeCu, List.map_cons, List.map_nil, List.sum_cons, List.sum_nil, List.length_cons, List.length_nil,
    planeEcg_single]
  push_cast
  linarith [negEcg3_ad.1, negEcg3_ad.2, negEcg3_ab.1, negEcg3_ab.2, negEcg3_abd.1, negEcg3_abd.2]

theorem neg3_new : planeCu negHist3 [negA, negB, negD] [[negD], [negB], [negA]] <
    planeCu negHist3 [negA, negB, negD] [[negD], [negA, negB]] := by
  simp only [planeCu, List.map_cons, List.map_nil, List.sum_cons, List.sum_nil, List.length_cons, List.length_nil,
    planeEcg_single]
  push_cast
  linarith [negEcg3_ab.1, negEcg3_ab.2, negEcg3_abd.1, negEcg3_abd.2]

theorem neg4_d : planeCu negHist4 [negC, negA, negB, negD] [[negC, negD], [negA, negB]] <
    planeCu negHist4 [negC, negA, negB, negD] [[negD], [negC, negA, negB]] := by
  simp only [planeCu, List.map_cons, List.map_nil, List.sum_cons, List.sum_nil, List.length_cons, List.length_nil,
    planeEcg_single]
  push_cast
  linarith [negEcg4_cd.1, negEcg4_cd.2, negEcg4_ab.1, negEcg4_ab.2, negEcg4_cab.1, negEcg4_cab.2, negEcg4_cabd.1, negEcg4_cabd.2]

theorem neg4_new : planeCu negHist4 [negC, negA, negB, negD] [[negD], [negA, negB], [negC]] <
    planeCu negHist4 [negC, negA, negB, negD] [[negD], [negC, negA, negB]] := by
  simp only [planeCu, List.map_cons, List.map_nil, List.sum_cons, List.sum_nil, List.length_cons, List.length_nil,
    planeEcg_single]
  push_cast
  linarith [negEcg4_ab.1, negEcg4_ab.2, negEcg4_cab.1, negEcg4_cab.2, negEcg4_cabd.1, negEcg4_cabd.2]

theorem neg4_split : planeCu negHist4 [negA, negB, negD] [[negD], [negB], [negA]] <
    planeCu negHist4 [negC, negA, negB, negD] [[negD], [negC, negA, negB]] := by
  simp only [planeCu, List.map_cons, List.map_nil, List.sum_cons, List.sum_nil, List.length_cons, List.length_nil,
    planeEcg_single]
  push_cast
  linarith [negEcg4_cab.1, negEcg4_cab.2, negEcg4_cabd.1, negEcg4_cabd.2, negEcg4_abd.1, negEcg4_abd.2]

theorem neg4_a : planeCu negHist4 [negC, negA, negB] [[negB], [negC, negA]] <
    planeCu negHist4 [negC, negA, negB] [[negC, negB], [negA]] := by
  simp only [planeCu, List.map_cons, List.map_nil, List.sum_cons, List.sum_nil, List.length_cons, List.length_nil,
    planeEcg_single]
  push_cast
  linarith [negEcg4_cb.1, negEcg4_cb.2, negEcg4_ca.1, negEcg4_ca.2, negEcg4_cab.1, negEcg4_cab.2]

theorem neg4_new' : planeCu negHist4 [negC, negA, negB] [[negB], [negA], [negC]] <
    planeCu negHist4 [negC, negA, negB] [[negC, negB], [negA]] := by
  simp only [planeCu, List.map_cons, List.map_nil, List.sum_cons, List.sum_nil, List.length_cons, List.length_nil,
    planeEcg_single]
  push_cast
  linarith [negEcg4_cb.1, negEcg4_cb.2, negEcg4_cab.1, negEcg4_cab.2]

theorem neg5_d : planeCu negHist5 [negE, negC, negA, negB, negD] [[negE, negD], [negC, negA, negB]] <
    planeCu negHist5 [negE, negC, negA, negB, negD] [[negD], [negC, negA, negB], [negE]] := by
  simp only [planeCu, List.map_cons, List.map_nil, List.sum_cons, List.sum_nil, List.length_cons, List.length_nil,
    planeEcg_single]
  push_cast
  linarith [negEcg5_ed.1, negEcg5_ed.2, negEcg5_cab.1, negEcg5_cab.2, negEcg5_ecabd.1, negEcg5_ecabd.2]

theorem neg5_n : planeCu negHist5 [negE, negC, negA, negB, negD] [[negD], [negE, negC, negA, negB]] <
    planeCu negHist5 [negE, negC, negA, negB, negD] [[negD], [negC, negA, negB], [negE]] := by
  simp only [planeCu, List.map_cons, List.map_nil, List.sum_cons, List.sum_nil, List.length_cons, List.length_nil,
    planeEcg_single]
  push_cast
  linarith [negEcg5_ecab.1, negEcg5_ecab.2, negEcg5_cab.1, negEcg5_cab.2, negEcg5_ecabd.1, negEcg5_ecabd.2]

theorem neg5_split : planeCu negHist5 [negC, negA, negB, negD] [[negD], [negA], [negC, negB]] <
    planeCu negHist5 [negE, negC, negA, negB, negD] [[negD], [negC, negA, negB], [negE]] := by
  simp only [planeCu, List.map_cons, List.map_nil, List.sum_cons, List.sum_nil, List.length_cons, List.length_nil,
    planeEcg_single]
  push_cast
  linarith [negEcg5_cb.1, negEcg5_cb.2, negEcg5_cab.1, negEcg5_cab.2, negEcg5_ecabd.1, negEcg5_ecabd.2, negEcg5_cabd.1, negEcg5_cabd.2]

theorem neg5_final : planeCu negHist5 [negC, negA, negB] [[negA], [negC, negB]] <
    0 := by
  simp only [planeCu, List.map_cons, List.map_nil, List.sum_cons, List.sum_nil, List.length_cons, List.length_nil,
    planeEcg_single]
  push_cast
  linarith [negEcg5_cb.1, negEcg5_cb.2, negEcg5_cab.1, negEcg5_cab.2]

theorem reach3_last {st : State3 ℕ ℕ ℕ} {h : List (ℝ × ℝ)} {p : ℝ × ℝ} {n : ℕ}
    (hr : Reach3 Demo.hid planeCfg st ((h ++ [p]).map planePt) n) :
    ∃ st' n' w o, Reach3 Demo.hid planeCfg st' (h.map planePt) n' ∧
      cobweb (cobweb3Class Demo.hid) (Stats3.ecg Demo.hid planeCfg st.scales) st'.root (planePt p) w = .ok o ∧
      st.root = o.tree := by
  generalize e : (h ++ [p]).map planePt = hist at hr
  cases hr with
  | init w => simp at e
  | @step st' hist' n' i w o hr' _ _ ho =>
    simp only [List.map_append, List.map_cons, List.map_nil, List.append_singleton_inj] at e
    obtain ⟨rfl, rfl⟩ := e
    simp only [ifit3, bind_ok, pure_ok] at ho
    obtain ⟨o', ho', rfl⟩ := ho
    exact ⟨st', n', w, o', hr', ho', rfl⟩

theorem not_exact {s : Stats3 ℕ ℕ} {p q : ℝ × ℝ} (h : SumPts s [p]) (hne : p ≠ q) :
    (cobweb3Class Demo.hid).isExact s (planePt q) = false := by
  by_contra hx
  rw [Bool.not_eq_false, (cobweb3Laws Demo.hid).exact h (by simp [planePts]) (nodup_planePt q)] at hx
  have := hx (planePt p) (by simp [planePts])
  have e0 := this 0 (by decide)
  have e1 := this 1 (by decide)
  simp [planePt, Dict.get?] at e0 e1
  exact hne (Prod.ext e0.symm e1.symm)

/-- The fringe split of a leaf with one point. -/
theorem loop_leaf {E : Stats3 ℕ ℕ → Res ℝ} {id : ℕ} {s : Stats3 ℕ ℕ} {p q : ℝ × ℝ} {fuel : ℕ} {w : World}
    {o : Out (Stats3 ℕ ℕ)} (h : SumPts s [p]) (hne : p ≠ q)
    (ho : cobwebLoop (cobweb3Class Demo.hid) E (planePt q) fuel (.node id s []) w = .ok o) :
    o.moved = true ∧ ∃ id' s' i2 s2, o.tree = .node id' s' [.node id s [], .node i2 s2 []] ∧
      SumPts s' [q, p] ∧ SumPts s2 [q] := by
  cases fuel with
  | zero => simp [cobwebLoop] at ho
  | succ fuel =>
    have hc : (cobweb3Class Demo.hid).count s = 1 := by
      rw [(cobweb3Laws Demo.hid).count h]; rfl
    simp only [cobwebLoop, not_exact h hne, hc] at ho
    simp at ho
    subst ho
    exact ⟨rfl, _, _, _, _, rfl, by rw [sumPts_copy h]; exact sumPts_incr h q, sumPts_new q⟩

theorem neg_ne : negD ≠ negB ∧ negB ≠ negA ∧ negB ≠ negC := by
  simp [negA, negB, negC, negD]

theorem count_incr (c : Stats3 ℕ ℕ) (i : Inst3 ℕ ℕ) :
    (cobweb3Class (V := ℕ) Demo.hid).count ((cobweb3Class Demo.hid).incr c i) = (cobweb3Class (V := ℕ) Demo.hid).count c + 1 := rfl

section run
variable {st : State3 ℕ ℕ ℕ} {n : ℕ}

/-- After `D`, `B`. -/
theorem neg_shape2 (h : Reach3 Demo.hid planeCfg st ([negD, negB].map planePt) n) :
    ∃ id s i0 s0 i1 s1, st.root = .node id s [.node i0 s0 [], .node i1 s1 []] ∧ SumPts s [negB, negD] ∧
      SumPts s0 [negD] ∧ SumPts s1 [negB] := by
  obtain ⟨st1, n1, w1, o1, h1, ho1, e1⟩ := reach3_last (h := [negD]) h
  obtain ⟨st0, n0, w0, o0, h0, ho0, e0⟩ := reach3_last (h := []) h1
  obtain ⟨id, e⟩ : ∃ id, st0.root = .node id (cobweb3Class Demo.hid).fresh [] := by
    rcases reach3_holds h0 with ⟨-, h⟩ | h
    · exact h
    · exact absurd rfl h.ne_zero
  rw [e] at ho0
  have hc : (cobweb3Class (A := ℕ) (V := ℕ) Demo.hid).count (cobweb3Class Demo.hid).fresh = 0 := rfl
  simp only [cobweb, Tree.numConcepts_node, List.map_nil, List.sum_nil, Nat.add_zero, cobwebLoop, hc] at ho0
  simp at ho0
  subst ho0
  rw [e1]
  simp only at e0
  rw [e0] at ho1
  obtain ⟨-, id', s', i2, s2, ht, hs', hs2⟩ := loop_leaf (sumPts_new negD) neg_ne.1 ho1
  exact ⟨_, _, _, _, _, _, ht, hs', sumPts_new negD, hs2⟩

/-- After `D`, `B`, `A`: the point `A` has joined `B`. -/
theorem neg_shape3 (h : Reach3 Demo.hid planeCfg st (negHist3.map planePt) n) :
    ∃ id s i0 s0 i1 s1 i2 s2 i3 s3, st.root = .node id s [.node i0 s0 [], .node i1 s1 [.node i2 s2 [], .node i3 s3 []]] ∧
      SumPts s [negA, negB, negD] ∧ SumPts s0 [negD] ∧ SumPts s1 [negA, negB] ∧ SumPts s2 [negB] ∧
      SumPts s3 [negA] := by
  have hsc : ScalesObs st.scales (planeScale negHist3) := reach3_scales h
  obtain ⟨st2, n2, w2, o2, h2, ho2, e2⟩ := reach3_last (h := [negD, negB]) h
  obtain ⟨id, s, i0, s0, i1, s1, et, hs, hs0, hs1⟩ := neg_shape2 h2
  rw [et] at ho2
  unfold cobweb at ho2
  generalize Tree.numConcepts _ = fuel at ho2
  cases fuel with
  | zero => simp [cobwebLoop] at ho2
  | succ fuel =>
  simp only [cobwebLoop, bind_ok] at ho2
  obtain ⟨⟨b, op, w'⟩, hch, ho2⟩ := ho2
  have hp : ([negD] ++ [negB]).Perm [negB, negD] := List.perm_append_comm
  obtain ⟨u, sp, t, ht, hu0, hu1, hb, hop⟩ := choose_two (s0 := 0) (s1 := 0)
    (by simp [sumPts_copy hs0, sumPts_copy hs1]) (sumPts_copy hs) (fun c => count_incr c _) hch
    (plane_insert0 hsc hs hs0 hs1 hp (by simp) (by simp) negPos30 negPos31)
    (plane_insert1 hsc hs hs0 hs1 hp (by simp) (by simp) negPos30 negPos31)
    (plane_new hsc hs hs0 hs1 hp (by simp) (by simp) negPos30 negPos31) (by simp) (by simp)
  have k1 := neg3_d
  have k2 := neg3_new
  obtain ⟨hbb, rfl⟩ : b.b1 = 1 ∧ u = planeCu negHist3 [negA, negB, negD] [[negD], [negA, negB]] := by
    rcases hb with ⟨-, rfl, -⟩ | ⟨hb, rfl, -⟩
    · exact absurd hu1 (not_le.2 k1)
    · exact ⟨hb, rfl⟩
  rw [hbb] at ht
  cases ht
  obtain ⟨rfl⟩ : op = .best := by
    rcases hop with ⟨rfl, -⟩ | ⟨-, hle, -⟩ | ⟨-, hne, -⟩
    · rfl
    · exact absurd hle (not_le.2 k2)
    · simp at hne
  simp only [hbb, List.getElem?_cons_succ, List.getElem?_cons_zero, bind_ok, pure_ok] at ho2
  obtain ⟨o, ho, rfl⟩ := ho2
  obtain ⟨hmv, id', s', i2, s2, hto, hs', hs2⟩ := loop_leaf hs1 neg_ne.2.1 ho
  rw [e2]
  simp only [putChild, hmv, if_true, hto]
  exact ⟨_, _, _, _, _, _, _, _, _, _, rfl, sumPts_incr hs negA, hs0, hs', hs1, hs2⟩

/-- After `D`, `B`, `A`, `C`: the point `C` has joined `B` below the concept of `A` and `B`. -/
theorem neg_shape4 (h : Reach3 Demo.hid planeCfg st (negHist4.map planePt) n) :
    ∃ id s i0 s0 i1 s1 i2 s2 i3 s3 cs, st.root = .node id s [.node i0 s0 [], .node i1 s1 [.node i2 s2 [], .node i3 s3 cs]] ∧
      SumPts s [negC, negA, negB, negD] ∧ SumPts s0 [negD] ∧ SumPts s1 [negC, negA, negB] ∧ SumPts s2 [negA] ∧
      SumPts s3 [negC, negB] := by
  have hsc : ScalesObs st.scales (planeScale negHist4) := reach3_scales h
  obtain ⟨st2, n2, w2, o2, h2, ho2, e2⟩ := reach3_last (h := negHist3) h
  obtain ⟨id, s, i0, s0, i1, s1, i2, s2, i3, s3, et, hs, hs0, hs1, hs2, hs3⟩ := neg_shape3 h2
  rw [et] at ho2
  unfold cobweb at ho2
  generalize Tree.numConcepts _ = fuel at ho2
  cases fuel with
  | zero => simp [cobwebLoop] at ho2
  | succ fuel =>
  simp only [cobwebLoop, bind_ok] at ho2
  obtain ⟨⟨b, op, w'⟩, hch, ho2⟩ := ho2
  have hp : ([negD] ++ [negA, negB]).Perm [negA, negB, negD] := List.perm_append_comm
  have hp' : ([negB] ++ [negA]).Perm [negA, negB] := List.perm_append_comm
  obtain ⟨u, sp, t, ht, hu0, hu1, hb, hop⟩ := choose_two (s0 := 0)
    (by simp [sumPts_copy hs0, sumPts_copy hs1]) (sumPts_copy hs) (fun c => count_incr c _) hch
    (plane_insert0 hsc hs hs0 hs1 hp (by simp) (by simp) negPos40 negPos41)
    (plane_insert1 hsc hs hs0 hs1 hp (by simp) (by simp) negPos40 negPos41)
    (plane_new hsc hs hs0 hs1 hp (by simp) (by simp) negPos40 negPos41) (by simp)
    (fun _ => plane_split1 hsc hs hs0 hs1 hp (by simp) (by simp) negPos40 negPos41 hs2 hs3 hp' (by simp) (by simp))
  have k1 := neg4_d
  have k2 := neg4_new
  have k3 := neg4_split
  obtain ⟨hbb, rfl, rfl⟩ : b.b1 = 1 ∧ u = planeCu negHist4 [negC, negA, negB, negD] [[negD], [negC, negA, negB]] ∧
      sp = planeCu negHist4 [negA, negB, negD] [[negD], [negB], [negA]] := by
    rcases hb with ⟨-, rfl, -⟩ | ⟨hb, rfl, rfl⟩
    · exact absurd hu1 (not_le.2 k1)
    · exact ⟨hb, rfl, rfl⟩
  rw [hbb] at ht
  cases ht
  obtain ⟨rfl⟩ : op = .best := by
    rcases hop with ⟨rfl, -⟩ | ⟨-, hle, -⟩ | ⟨-, -, hle, -⟩
    · rfl
    · exact absurd hle (not_le.2 k2)
    · exact absurd hle (not_le.2 k3)
  simp only [hbb, List.getElem?_cons_succ, List.getElem?_cons_zero, bind_ok, pure_ok] at ho2
  obtain ⟨o, ho, rfl⟩ := ho2
  rw [e2]
  -- the loop goes on in the concept of `A` and `B`
  cases fuel with
  | zero => simp [cobwebLoop] at ho
  | succ fuel =>
  simp only [cobwebLoop, bind_ok] at ho
  obtain ⟨⟨b', op', w''⟩, hch', ho⟩ := ho
  obtain ⟨u, sp, t, ht, hu0, hu1, hb', hop⟩ := choose_two (s0 := 0) (s1 := 0)
    (by simp [sumPts_copy hs2, sumPts_copy hs3]) (sumPts_copy hs1) (fun c => count_incr c _) hch'
    (plane_insert0 hsc hs1 hs2 hs3 hp' (by simp) (by simp) negPos40 negPos41)
    (plane_insert1 hsc hs1 hs2 hs3 hp' (by simp) (by simp) negPos40 negPos41)
    (plane_new hsc hs1 hs2 hs3 hp' (by simp) (by simp) negPos40 negPos41) (by simp) (by simp)
  have k1 := neg4_a
  have k2 := neg4_new'
  obtain ⟨hbb', rfl⟩ : b'.b1 = 0 ∧ u = planeCu negHist4 [negC, negA, negB] [[negC, negB], [negA]] := by
    rcases hb' with ⟨hb, rfl, -⟩ | ⟨-, rfl, -⟩
    · exact ⟨hb, rfl⟩
    · exact absurd hu0 (not_le.2 k1)
  rw [hbb'] at ht
  cases ht
  obtain ⟨rfl⟩ : op' = .best := by
    rcases hop with ⟨rfl, -⟩ | ⟨-, hle, -⟩ | ⟨-, hne, -⟩
    · rfl
    · exact absurd hle (not_le.2 k2)
    · simp at hne
  simp only [hbb', List.getElem?_cons_zero, bind_ok, pure_ok] at ho
  obtain ⟨o', ho', rfl⟩ := ho
  obtain ⟨hmv, id', s', i5, s5, hto, hs', hs5⟩ := loop_leaf hs2 neg_ne.2.2 ho'
  simp only [putChild, hmv, if_true, hto]
  exact ⟨_, _, _, _, _, _, _, _, _, _, _, rfl, sumPts_incr hs negC, hs0, sumPts_incr hs1 negC, hs3, hs'⟩

/-- **C85**, the counterexample to the full statement on a reachable tree: after five instances with two
numbers each, whatever the random numbers, some concept of the tree has a negative category utility. The fifth
instance stretches the scale of the first attribute, for which the concept had been divided, and the division
is a bad one for the second attribute (the corrected deviation of `{0, 1}` is larger than that of
`{0, 0, 1}`). -/
theorem C85_negative_on_reachable (h : Reach3 Demo.hid planeCfg st (negHist5.map planePt) n) :
    ∃ x ∈ st.root.nodes, ∃ u,
      x.cu (cobweb3Class Demo.hid) (Stats3.ecg Demo.hid planeCfg st.scales) = .ok u ∧ u < 0 := by
  have hsc : ScalesObs st.scales (planeScale negHist5) := reach3_scales h
  obtain ⟨st2, n2, w2, o2, h2, ho2, e2⟩ := reach3_last (h := negHist4) h
  obtain ⟨id, s, i0, s0, i1, s1, i2, s2, i3, s3, cs, et, hs, hs0, hs1, hs2, hs3⟩ := neg_shape4 h2
  rw [et] at ho2
  unfold cobweb at ho2
  generalize Tree.numConcepts _ = fuel at ho2
  cases fuel with
  | zero => simp [cobwebLoop] at ho2
  | succ fuel =>
  simp only [cobwebLoop, bind_ok] at ho2
  obtain ⟨⟨b, op, w'⟩, hch, ho2⟩ := ho2
  have hp : ([negD] ++ [negC, negA, negB]).Perm [negC, negA, negB, negD] := List.perm_append_comm
  have hp' : ([negA] ++ [negC, negB]).Perm [negC, negA, negB] := List.Perm.swap _ _ _
  obtain ⟨u, sp, t, ht, hu0, hu1, hb, hop⟩ := choose_two (s0 := 0)
    (by simp [sumPts_copy hs0, sumPts_copy hs1]) (sumPts_copy hs) (fun c => count_incr c _) hch
    (plane_insert0 hsc hs hs0 hs1 hp (by simp) (by simp) negPos50 negPos51)
    (plane_insert1 hsc hs hs0 hs1 hp (by simp) (by simp) negPos50 negPos51)
    (plane_new hsc hs hs0 hs1 hp (by simp) (by simp) negPos50 negPos51) (by simp)
    (fun _ => plane_split1 hsc hs hs0 hs1 hp (by simp) (by simp) negPos50 negPos51 hs2 hs3 hp' (by simp) (by simp))
  have k1 := neg5_d
  have k2 := neg5_n
  have k3 := neg5_split
  obtain ⟨rfl⟩ : op = .new := by
    rcases hop with ⟨-, hle, -⟩ | ⟨rfl, -⟩ | ⟨-, hne, -, hle⟩
    · rcases hb with ⟨-, rfl, -⟩ | ⟨-, rfl, -⟩
      · exact absurd hle (not_le.2 k1)
      · exact absurd hle (not_le.2 k2)
    · rfl
    · rcases hb with ⟨hb, -, -⟩ | ⟨-, -, rfl⟩
      · rw [hb] at ht
        cases ht
        simp at hne
      · exact absurd hle (not_le.2 k3)
  simp only [pure_ok] at ho2
  subst ho2
  refine ⟨.node i1 s1 [.node i2 s2 [], .node i3 s3 cs], ?_, _, ?_, neg5_final⟩
  · rw [e2]
    exact Tree.mem_nodes_child (by simp) (Tree.self_mem_nodes _)
  · exact cu_plane hsc hs1 (.cons hs2 (.cons hs3 .nil)) hp' (by simp) (by simp) negPos50 negPos51

end run

/-- There is such a tree. -/
example : ∃ st n, Reach3 Demo.hid planeCfg st (negHist5.map planePt) n ∧ ∃ x ∈ st.root.nodes, ∃ u,
    x.cu (cobweb3Class Demo.hid) (Stats3.ecg Demo.hid planeCfg st.scales) = .ok u ∧ u < 0 := by
  obtain ⟨st, n, h⟩ := reach3_exists (hid := Demo.hid) planeCfg (negHist5.map planePt) (by
    intro i hi
    obtain ⟨p, -, rfl⟩ := List.mem_map.1 hi
    exact ⟨nodup_planePt p, 0, by simp [planePt, Dict.keys], by decide⟩)
  exact ⟨st, n, h, C85_negative_on_reachable h⟩

end CF
