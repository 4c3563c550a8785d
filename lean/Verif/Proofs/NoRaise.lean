/-
When nothing raises: if every table that summarises a good instance can be scored, and the random
numbers are pairwise different, then the loops of `ifit` and `categorize` always return.
-/
import Verif.Proofs.CU

set_option linter.unusedSectionVars false

namespace CF
section
variable {I S K : Type} [Field K] [LinearOrder K] [IsStrictOrderedRing K]
variable {C : NodeClass I S} {Ok : I → Prop} {Sum : S → Multiset I → Prop} {Same : I → I → Prop}
variable {ecg : S → Res K} {G : I → Prop}

/-- Every table that summarises at least one good instance has a score. -/
def Scores (Sum : S → Multiset I → Prop) (ecg : S → Res K) (G : I → Prop) : Prop :=
  ∀ s m, Sum s m → (∃ i ∈ m, G i) → ∃ e, ecg s = .ok e

/-- A table of good instances. -/
def GoodTable (Sum : S → Multiset I → Prop) (G : I → Prop) (s : S) : Prop :=
  ∃ m, Sum s m ∧ m ≠ 0 ∧ ∀ i ∈ m, G i

theorem GoodTable.score (hE : Scores Sum ecg G) {s : S} (h : GoodTable Sum G s) :
    ∃ e, ecg s = .ok e := by
  obtain ⟨m, h1, h2, h3⟩ := h
  obtain ⟨i, hi⟩ := Multiset.exists_mem_of_ne_zero h2
  exact hE s m h1 ⟨i, hi, h3 i hi⟩

theorem GoodTable.count (L : Laws C Ok Sum Same) {s : S} (h : GoodTable Sum G s) :
    C.count s ≠ 0 := by
  obtain ⟨m, h1, h2, h3⟩ := h
  rw [L.count h1]; simpa using h2

theorem GoodTable.copy (L : Laws C Ok Sum Same) {s : S} (h : GoodTable Sum G s) :
    shallowCopy C s = s := by
  obtain ⟨m, h1, -, -⟩ := h
  exact L.copy h1

theorem GoodTable.add (L : Laws C Ok Sum Same) {s s' : S} (h : GoodTable Sum G s)
    (h' : GoodTable Sum G s') : GoodTable Sum G (C.addFrom (C.addFrom C.fresh s) s') := by
  obtain ⟨m, h1, h2, h3⟩ := h
  obtain ⟨m', h1', h2', h3'⟩ := h'
  refine ⟨m + m', ?_, ?_, ?_⟩
  · have := L.add (L.add L.fresh h1) h1'
    rwa [zero_add] at this
  · intro h0
    have := congrArg Multiset.card h0
    simp only [Multiset.card_add, Multiset.card_zero] at this
    exact h2 (Multiset.card_eq_zero.1 (by omega))
  · intro i hi
    rcases Multiset.mem_add.1 hi with hi | hi
    · exact h3 i hi
    · exact h3' i hi

/-- The table after adding an instance (good or not) to good ones is scored, and counted. -/
theorem GoodTable.incr_score (L : Laws C Ok Sum Same) (hE : Scores Sum ecg G) {inst : I}
    (hi : Ok inst) {s : S} (h : GoodTable Sum G s) :
    (∃ e, ecg (C.incr s inst) = .ok e) ∧ C.count (C.incr s inst) ≠ 0 := by
  obtain ⟨m, h1, h2, h3⟩ := h
  obtain ⟨i, hi'⟩ := Multiset.exists_mem_of_ne_zero h2
  have h4 := L.incr h1 hi
  exact ⟨hE _ _ h4 ⟨i, by simp [hi'], h3 i hi'⟩, by rw [L.count h4]; simp⟩

theorem fresh_score (L : Laws C Ok Sum Same) (hE : Scores Sum ecg G) {inst : I}
    (hi : Ok inst) (hg : G inst) : ∃ e, ecg (C.incr C.fresh inst) = .ok e :=
  hE _ _ (L.incr L.fresh hi) ⟨inst, by simp, hg⟩

theorem ok_bind {α β : Type} (a : α) (f : α → Res β) : ((.ok a : Res α) >>= f) = f a := rfl
theorem error_bind {α β : Type} (e : PyErr) (f : α → Res β) :
    ((.error e : Res α) >>= f) = .error e := rfl

theorem mkCands_total {inst : I} {w : World} {cs : List S} {k : ℕ}
    (h : ∀ c ∈ cs, ∃ r, relativeCuForInsert C ecg c inst = .ok r) :
    ∃ l, mkCands C ecg inst w cs k = .ok l := by
  induction cs generalizing k with
  | nil => exact ⟨[], rfl⟩
  | cons c cs ih =>
    obtain ⟨r, hr⟩ := h c (by simp)
    obtain ⟨l, hl⟩ := ih (k := k + 1) fun c hc => h c (by simp [hc])
    refine ⟨⟨r, C.count c, w.draw k, k⟩ :: l, ?_⟩
    simp only [mkCands, bind_ok, pure_ok]
    exact ⟨r, hr, l, hl, rfl⟩

/-- The next `n` random numbers are different. -/
def World.DistinctDraws (w : World) (n : ℕ) : Prop := ∀ a b, a < n → b < n → w.draw a = w.draw b → a = b

theorem World.distinctDraws {w : World} (hw : Function.Injective w.rnd) (n : ℕ) : w.DistinctDraws n :=
  fun a b _ _ h => by have := hw h; omega

theorem keys_nodup' {inst : I} {w : World} {cs : List S} (hw : w.DistinctDraws cs.length)
    {l : List (Cand K)} (h : mkCands C ecg inst w cs 0 = .ok l) : (l.map Cand.key).Nodup := by
  obtain ⟨hlen, hidx, hmem⟩ := mkCands_spec C ecg h
  have hn : (l.map Cand.idx).Nodup := by rw [hidx]; exact List.nodup_range'
  have hlt : ∀ x ∈ l, x.idx < cs.length := by
    intro x hx
    have := List.mem_map_of_mem (f := Cand.idx) hx
    rw [hidx] at this
    simp at this
    omega
  refine (List.Nodup.of_map _ hn).map_on ?_
  intro x hx y hy hk
  apply List.inj_on_of_nodup_map hn hx hy
  obtain ⟨-, -, -, -, -, h1⟩ := hmem x hx
  obtain ⟨-, -, -, -, -, h2⟩ := hmem y hy
  have hk' := congrArg (fun k : K ×ₗ ℕ ×ₗ ℚ => (ofLex (ofLex k).2).2) hk
  simp only [Cand.key, ofLex_toLex, h1, h2] at hk'
  exact hw _ _ (hlt x hx) (hlt y hy) hk'

theorem keys_nodup {inst : I} {w : World} (hw : Function.Injective w.rnd) {cs : List S}
    {l : List (Cand K)} (h : mkCands C ecg inst w cs 0 = .ok l) : (l.map Cand.key).Nodup :=
  keys_nodup' (World.distinctDraws hw _) h

theorem twoBest_total' (L : Laws C Ok Sum Same) (hE : Scores Sum ecg G) {inst : I} (hi : Ok inst)
    {s : S} {cs : List S} {w : World} (hw : w.DistinctDraws cs.length) (hs : GoodTable Sum G s)
    (hcs : ∀ c ∈ cs, GoodTable Sum G c) (hne : cs ≠ []) :
    ∃ b, twoBest C ecg s cs inst w = .ok b := by
  obtain ⟨l, hl⟩ := mkCands_total (C := C) (ecg := ecg) (inst := inst) (w := w) (k := 0) (cs := cs)
    (by
      intro c hc
      have h := hcs c hc
      refine ⟨_, relative_ok_iff.2 ⟨?_, h.score hE, rfl⟩⟩
      rw [h.copy L]; exact (h.incr_score L hE hi).1)
  obtain ⟨const, hconst⟩ : ∃ r, relativeCuConst C ecg s cs inst = .ok r := by
    refine ⟨_, (relativeCuConst_ok_iff hne).2 ⟨fun c hc => (hcs c hc).score hE, ?_, rfl⟩⟩
    rw [hs.copy L]; exact (hs.incr_score L hE hi).1
  have hnd := keys_nodup' hw hl
  have hlen : cs.length ≠ 0 := by simpa using hne
  have hll := (mkCands_spec C ecg hl).1
  cases hso : sortCands l with
  | nil =>
    have := (perm_sortCands l).length_eq
    rw [hso] at this; simp at this; omega
  | cons c1 rest =>
    unfold twoBest
    rw [if_neg hlen]
    refine ⟨⟨c1.rel / ((C.count s : K) + 1) / (cs.length : K) + const, c1.idx,
      rest.head?.map Cand.idx⟩, bind_ok.2 ⟨l, hl, ?_⟩⟩
    rw [if_neg (not_not.2 hnd)]
    refine bind_ok.2 ⟨const, hconst, ?_⟩
    rw [hso]
    rfl

theorem twoBest_total (L : Laws C Ok Sum Same) (hE : Scores Sum ecg G) {inst : I} (hi : Ok inst)
    {s : S} {cs : List S} {w : World} (hw : Function.Injective w.rnd) (hs : GoodTable Sum G s)
    (hcs : ∀ c ∈ cs, GoodTable Sum G c) (hne : cs ≠ []) :
    ∃ b, twoBest C ecg s cs inst w = .ok b :=
  twoBest_total' L hE hi (World.distinctDraws hw _) hs hcs hne

theorem categoryUtility_total {s : S} {cs : List S} (h0 : C.count s ≠ 0)
    (hs : ∃ e, ecg s = .ok e) (hcs : ∀ c ∈ cs, ∃ e, ecg c = .ok e) :
    ∃ r, categoryUtility C ecg s cs = .ok r := by
  by_cases hne : cs = []
  · subst hne; exact ⟨0, rfl⟩
  · exact ⟨_, (categoryUtility_ok_iff h0 hne).2 ⟨hcs, hs, rfl⟩⟩

theorem bestOp_total (L : Laws C Ok Sum Same) (hE : Scores Sum ecg G) {inst : I} (hi : Ok inst)
    (hg : G inst) {s : S} {cs : List (Tree S)} {w : World} {off : ℕ} {cu1 : K} {i : ℕ} {t1 : Tree S}
    (ht1 : cs[i]? = some t1) (b2 : Option ℕ) (hs : GoodTable Sum G s)
    (hcs : ∀ c ∈ cs, GoodTable Sum G c.stats) (hcs1 : ∀ c ∈ t1.children, GoodTable Sum G c.stats) :
    ∃ r, bestOp C ecg allOps s cs inst cu1 (some i) b2 w off = .ok r := by
  have hcopy : ∀ c ∈ cs.map Tree.stats, shallowCopy C c = c := by
    intro c hc
    obtain ⟨c, hc', rfl⟩ := List.mem_map.1 hc
    exact (hcs c hc').copy L
  have hsc : ∀ c ∈ cs.map Tree.stats, ∃ e, ecg c = .ok e := by
    intro c hc
    obtain ⟨c, hc', rfl⟩ := List.mem_map.1 hc
    exact (hcs c hc').score hE
  -- the three computed scores
  obtain ⟨x1, hx1⟩ : ∃ x, cuForNewChild C ecg s (cs.map Tree.stats) inst = .ok x := by
    unfold cuForNewChild
    rw [hs.copy L]
    refine categoryUtility_total (hs.incr_score L hE hi).2 (hs.incr_score L hE hi).1 ?_
    intro c hc
    rcases List.mem_append.1 hc with hc | hc
    · obtain ⟨c, hc', rfl⟩ := List.mem_map.1 hc
      rw [hcopy c hc']; exact hsc c hc'
    · simp at hc; subst hc; exact fresh_score L hE hi hg
  have hmerge : ∀ j t2, cs[j]? = some t2 →
      ∃ x, cuForMerge C ecg s (cs.map Tree.stats) i j t1.stats t2.stats inst = .ok x := by
    intro j t2 ht2
    unfold cuForMerge
    rw [hs.copy L]
    refine categoryUtility_total (hs.incr_score L hE hi).2 (hs.incr_score L hE hi).1 ?_
    intro c hc
    rcases List.mem_cons.1 hc with rfl | hc
    · exact (((hcs t1 (List.mem_of_getElem? ht1)).add L
        (hcs t2 (List.mem_of_getElem? ht2))).incr_score L hE hi).1
    · obtain ⟨c, hc', rfl⟩ := List.mem_map.1 hc
      unfold dropTwo at hc'
      obtain ⟨p, hp, rfl⟩ := List.mem_map.1 hc'
      have : p.1 ∈ cs.map Tree.stats := by
        have := List.mem_of_mem_filter hp
        rw [← List.zipIdx_map_fst 0 (cs.map Tree.stats)]
        exact List.mem_map_of_mem this
      rw [hcopy _ this]; exact hsc _ this
  obtain ⟨x3, hx3⟩ : ∃ x, cuForSplit C ecg s (cs.map Tree.stats) i (t1.children.map Tree.stats)
      = .ok x := by
    unfold cuForSplit
    rw [hs.copy L]
    refine categoryUtility_total (hs.count L) (hs.score hE) ?_
    intro c hc
    obtain ⟨c, hc0, rfl⟩ := List.mem_map.1 hc
    rcases List.mem_append.1 hc0 with hc | hc
    · have := List.mem_of_mem_eraseIdx hc
      rw [hcopy c this]; exact hsc c this
    · obtain ⟨c, hc', rfl⟩ := List.mem_map.1 hc
      rw [(hcs1 c hc').copy L]; exact (hcs1 c hc').score hE
  -- the stages
  obtain ⟨l1, hl1, hne1⟩ : ∃ l1, opsNew C ecg allOps s (cs.map Tree.stats) inst w off
      (opsBest allOps cu1 w off) = .ok l1 ∧ l1 ≠ [] := by
    unfold opsNew
    rw [if_pos (by simp [allOps])]
    exact ⟨_, addOp_ok.2 ⟨x1, hx1, rfl⟩, by simp⟩
  obtain ⟨l2, hl2, hne2⟩ : ∃ l2, opsMerge C ecg allOps s cs inst i t1 b2 w off l1 = .ok l2 ∧
      l2 ≠ [] := by
    unfold opsMerge
    split
    · rename_i j t2 hj
      split
      · have hj' : cs[j]? = some t2 := by
          cases b2 with
          | none => simp at hj
          | some j' =>
            simp only [Option.bind_some, Option.map_eq_some_iff, Prod.mk.injEq] at hj
            obtain ⟨a, ha, rfl, rfl⟩ := hj
            exact ha
        obtain ⟨x, hx⟩ := hmerge j t2 hj'
        exact ⟨_, addOp_ok.2 ⟨x, hx, rfl⟩, by simp⟩
      · exact ⟨_, rfl, hne1⟩
    · exact ⟨_, rfl, hne1⟩
  obtain ⟨l3, hl3, hne3⟩ : ∃ l3, opsSplit C ecg allOps s (cs.map Tree.stats) i t1 w off l2 = .ok l3 ∧
      l3 ≠ [] := by
    unfold opsSplit
    split
    · exact ⟨_, addOp_ok.2 ⟨x3, hx3, rfl⟩, by simp⟩
    · exact ⟨_, rfl, hne2⟩
  unfold bestOp
  simp only [ht1]
  cases hso : sortOps l3 with
  | nil =>
    have := (perm_sortOps l3).length_eq
    rw [hso] at this; simp at this
    exact absurd (List.length_eq_zero_iff.1 this.symm) hne3
  | cons c rest =>
    refine ⟨(c.cu, c.op, l3.length),
      bind_ok.2 ⟨l1, hl1, bind_ok.2 ⟨l2, hl2, bind_ok.2 ⟨l3, hl3, ?_⟩⟩⟩⟩
    rw [hso]
    rfl

theorem Holds.good {t : Tree S} {m : Multiset I} (h : Holds Sum Same t m) (hG : ∀ i ∈ m, G i) :
    GoodTable Sum G t.stats := ⟨m, h.sum, h.ne_zero, hG⟩

theorem HoldsL.good {cs : List (Tree S)} {m : Multiset I} (h : HoldsL Sum Same cs m)
    (hG : ∀ i ∈ m, G i) : ∀ c ∈ cs, GoodTable Sum G c.stats := by
  intro c hc
  obtain ⟨m', h', hle⟩ := h.mem hc
  exact h'.good fun i hi => hG i (Multiset.mem_of_le hle hi)

theorem Holds.children_good {t : Tree S} {m : Multiset I} (h : Holds Sum Same t m)
    (hG : ∀ i ∈ m, G i) : ∀ c ∈ t.children, GoodTable Sum G c.stats := by
  cases h with
  | leaf => simp
  | node _ h _ => exact h.good hG

theorem chooseOp_total (L : Laws C Ok Sum Same) (hE : Scores Sum ecg G) {inst : I} (hi : Ok inst)
    (hg : G inst) {s : S} {cs : List (Tree S)} {w : World} (hw : Function.Injective w.rnd)
    {m : Multiset I} (hcs : HoldsL Sum Same cs m) (hs : Sum s m) (hG : ∀ i ∈ m, G i) (hne : cs ≠ []) :
    ∃ r, chooseOp C ecg s cs inst w = .ok r := by
  have hm : m ≠ 0 := by
    obtain ⟨c, hc⟩ := List.exists_mem_of_ne_nil cs hne
    obtain ⟨m', h', hle⟩ := hcs.mem hc
    rintro rfl
    exact h'.ne_zero (by simpa using hle)
  have hsg : GoodTable Sum G s := ⟨m, hs, hm, hG⟩
  have hcg := hcs.good hG
  obtain ⟨b, hb⟩ := twoBest_total L hE hi (cs := cs.map Tree.stats) hw hsg (by
    intro c hc
    obtain ⟨c, hc', rfl⟩ := List.mem_map.1 hc
    exact hcg c hc') (by simpa using hne)
  obtain ⟨hb1, -⟩ := twoBest_idx C ecg hb
  rw [List.length_map] at hb1
  have ht1 : cs[b.b1]? = some cs[b.b1] := List.getElem?_eq_getElem hb1
  obtain ⟨m1, hm1, hle⟩ := hcs.mem (List.mem_of_getElem? ht1)
  obtain ⟨⟨x, op, n⟩, hr⟩ := bestOp_total L hE hi hg (w := w) (off := cs.length) (cu1 := b.cu) ht1
    b.b2 hsg hcg
    (hm1.children_good fun i hi => hG i (Multiset.mem_of_le hle hi))
  refine ⟨_, bind_ok.2 ⟨b, hb, bind_ok.2 ⟨_, hr, rfl⟩⟩⟩

/-- On a tree of good instances, `ifit` of a good instance returns. -/
theorem cobwebLoop_total (L : Laws C Ok Sum Same) (hE : Scores Sum ecg G) {inst : I} (hi : Ok inst)
    (hg : G inst) :
    ∀ (fuel : ℕ) (t : Tree S) (w : World) (m : Multiset I), Holds Sum Same t m → (∀ i ∈ m, G i) →
      Function.Injective w.rnd →
      (∃ o, cobwebLoop C ecg inst fuel t w = .ok o) ∨
        cobwebLoop C ecg inst fuel t w = .error .outOfFuel := by
  intro fuel
  induction fuel with
  | zero => intro t w m _ _ _; right; simp [cobwebLoop]
  | succ fuel ih =>
    intro t w m ht hG hw
    match t, ht with
    | .node id s [], ht =>
      simp only [cobwebLoop]
      split <;> exact Or.inl ⟨_, rfl⟩
    | .node id s (c :: cs'), ht =>
      have hsum : Sum s m := ht.sum
      have hl : 2 ≤ (c :: cs').length ∧ HoldsL Sum Same (c :: cs') m := by
        cases ht with
        | node h1 h2 _ => exact ⟨h1, h2⟩
      obtain ⟨⟨b, op, w'⟩, hch⟩ := chooseOp_total L hE hi hg hw hl.2 hsum hG (by simp)
      obtain ⟨⟨t1, ht1, hsplit⟩, hmerge, -, hrnd⟩ := chooseOp_spec C ecg hch
      have hw' : Function.Injective w'.rnd := hrnd ▸ hw
      simp only [cobwebLoop, hch, ok_bind]
      generalize hcs : c :: cs' = cs at *
      obtain ⟨m1, m2, rfl, h1, h2⟩ := HoldsL.cons_iff.1 (hl.2.perm (perm_eraseIdx ht1))
      cases op with
      | best =>
        simp only [ht1]
        rcases ih t1 w' m1 h1 (fun i hi => hG i (by simp [hi])) hw' with ⟨o, ho⟩ | ho
        · left; exact ⟨_, by simp only [ho, ok_bind]; rfl⟩
        · right; simp only [ho, error_bind]
      | new => exact Or.inl ⟨_, rfl⟩
      | merge =>
        obtain ⟨h2', j, t2, hj, hne, ht2⟩ := hmerge rfl
        simp only [hj, ht1, ht2]
        have hp := perm_dropTwo hne ht1 ht2
        obtain ⟨n1, n2, hn, k1, k2⟩ := HoldsL.cons_iff.1 (hl.2.perm hp)
        obtain ⟨n3, n4, rfl, k3, k4⟩ := HoldsL.cons_iff.1 k2
        have hnew : Holds Sum Same (.node (w'.ctr + 1)
            (C.addFrom (C.addFrom C.fresh t1.stats) t2.stats) [t1, t2]) (n1 + n3) := by
          refine .node (by simp) ?_ ?_
          · rw [← add_zero n3]; exact .cons k1 (.cons k3 .nil)
          · have := L.add (L.add L.fresh k1.sum) k3.sum
            rwa [zero_add] at this
        rcases ih _ (w'.bump 1) _ hnew (fun i hi => hG i (by
          rw [hn]; simp only [Multiset.mem_add] at hi ⊢; tauto)) hw' with ⟨o, ho⟩ | ho
        · left; exact ⟨_, by simp only [ho, ok_bind]; rfl⟩
        · right; simp only [ho, error_bind]
      | split =>
        simp only [ht1]
        refine ih _ w' (m1 + m2) ?_ hG hw'
        have hne := hsplit rfl
        have hlen := (perm_eraseIdx ht1).length_eq
        have : 2 ≤ t1.children.length ∧ HoldsL Sum Same t1.children m1 := by
          cases h1 with
          | leaf => simp at hne
          | node a b _ => exact ⟨a, b⟩
        refine .node (by simp; omega) ?_ hsum
        rw [add_comm]
        exact HoldsL.append_iff.2 ⟨_, _, rfl, h2, this.2⟩

/-- On a tree of good instances, `categorize` of any instance returns. -/
theorem categorizeLoop_total (L : Laws C Ok Sum Same) (hE : Scores Sum ecg G) {inst : I}
    (hi : Ok inst) :
    ∀ (fuel : ℕ) (t : Tree S) (w : World) (m : Multiset I), Holds Sum Same t m → (∀ i ∈ m, G i) →
      Function.Injective w.rnd →
      (∃ o, categorizeLoop C ecg inst fuel t w = .ok o) ∨
        categorizeLoop C ecg inst fuel t w = .error .outOfFuel := by
  intro fuel
  induction fuel with
  | zero => intro t w m _ _ _; right; simp [categorizeLoop]
  | succ fuel ih =>
    intro t w m ht hG hw
    match t, ht with
    | .node id s [], ht => exact Or.inl ⟨_, rfl⟩
    | .node id s (c :: cs'), ht =>
      have hgood : GoodTable Sum G s := ht.good hG
      have hgc := ht.children_good hG
      obtain ⟨b, hb⟩ := twoBest_total L hE hi (cs := (c :: cs').map Tree.stats) hw hgood (by
        intro x hx
        obtain ⟨c, hc, rfl⟩ := List.mem_map.1 hx
        exact hgc c hc) (by simp)
      obtain ⟨hb1, -⟩ := twoBest_idx C ecg hb
      rw [List.length_map] at hb1
      have ht1 : (c :: cs')[b.b1]? = some (c :: cs')[b.b1] := List.getElem?_eq_getElem hb1
      have hl : HoldsL Sum Same (c :: cs') m := by
        cases ht with
        | node h1 h2 _ => exact h2
      obtain ⟨m1, hm1, hle⟩ := hl.mem (List.mem_of_getElem? ht1)
      simp only [categorizeLoop]
      simp only [hb, ok_bind, ht1]
      exact ih _ _ _ hm1 (fun i hi => hG i (Multiset.mem_of_le hle hi)) hw

end
end CF
