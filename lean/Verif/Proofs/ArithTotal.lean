/-
When nothing raises, for any arithmetic.
-/
import Verif.Proofs.Tables

set_option linter.unusedSectionVars false

namespace CF

section
variable {I S K : Type} {C : NodeClass I S} {Ok : I → Prop} {Sum : S → Multiset I → Prop} {Same : I → I → Prop}
variable {ar : Arith K} {ecg : S → Res K} {G : I → Prop}

theorem GoodTable.scoreA (hE : Scores Sum ecg G) {s : S} (h : GoodTable Sum G s) :
    ∃ e, ecg s = .ok e := by
  obtain ⟨m, h1, h2, h3⟩ := h
  obtain ⟨i, hi⟩ := Multiset.exists_mem_of_ne_zero h2
  exact hE s m h1 ⟨i, hi, h3 i hi⟩

theorem GoodTable.countA (L : TableLaws C Ok Sum Same) {s : S} (h : GoodTable Sum G s) :
    C.count s ≠ 0 := by
  obtain ⟨m, h1, h2, h3⟩ := h
  rw [L.count h1]; simpa using h2

theorem GoodTable.copyA (L : TableLaws C Ok Sum Same) {s : S} (h : GoodTable Sum G s) :
    GoodTable Sum G (shallowCopy C s) := by
  obtain ⟨m, h1, h2, h3⟩ := h
  refine ⟨m, ?_, h2, h3⟩
  have := L.add L.fresh h1
  rwa [zero_add] at this

theorem GoodTable.addA (L : TableLaws C Ok Sum Same) {s s' : S} (h : GoodTable Sum G s)
    (h' : GoodTable Sum G s') : GoodTable Sum G (C.addFrom (C.addFrom C.fresh s) s') := by
  obtain ⟨m, h1, h2, h3⟩ := h
  obtain ⟨m', h1', h2', h3'⟩ := h'
  refine ⟨m + m', ?_, ?_, ?_⟩
  · have := L.add (L.add L.fresh h1) h1'
    rwa [zero_add] at this
  · intro h0
    have := congrArg Multiset.card h0
    simp only [Multiset.card_add, Multiset.card_zero] at this
    exact h2 (Multiset.card_eq_zero.1 (by omega))
  · intro i hi
    rcases Multiset.mem_add.1 hi with hi | hi
    · exact h3 i hi
    · exact h3' i hi

theorem GoodTable.incr_scoreA (L : TableLaws C Ok Sum Same) (hE : Scores Sum ecg G) {inst : I}
    (hi : Ok inst) {s : S} (h : GoodTable Sum G s) :
    (∃ e, ecg (C.incr s inst) = .ok e) ∧ C.count (C.incr s inst) ≠ 0 := by
  obtain ⟨m, h1, h2, h3⟩ := h
  obtain ⟨i, hi'⟩ := Multiset.exists_mem_of_ne_zero h2
  have h4 := L.incr h1 hi
  exact ⟨hE _ _ h4 ⟨i, by simp [hi'], h3 i hi'⟩, by rw [L.count h4]; simp⟩

theorem mkCandsA_total (L : TableLaws C Ok Sum Same) (hE : Scores Sum ecg G) {inst : I} (hi : Ok inst)
    {w : World} (hw : Function.Injective w.rnd) {cs : List S} (hcs : ∀ c ∈ cs, GoodTable Sum G c) (k : ℕ) :
    ∃ l, mkCandsA ar C ecg inst w cs k = .ok l ∧ (l.map Cand.rnd).Nodup ∧ l.length = cs.length ∧
      ∀ c ∈ l, ∃ j, k ≤ j ∧ c.rnd = w.draw j := by
  induction cs generalizing k with
  | nil => exact ⟨[], rfl, by simp, rfl, by simp⟩
  | cons c cs ih =>
    obtain ⟨l, hl, h1, h2, h3⟩ := ih (fun c hc => hcs c (by simp [hc])) (k + 1)
    have hc := hcs c (by simp)
    obtain ⟨e1, he1⟩ := ((hc.copyA L).incr_scoreA L hE hi).1
    obtain ⟨e0, he0⟩ := hc.scoreA hE
    refine ⟨_, by simp only [mkCandsA, relativeCuForInsertA, he1, he0, hl, ok_bind]; rfl, ?_, by simp [h2], ?_⟩
    · simp only [List.map_cons, List.nodup_cons, h1, and_true]
      intro hm
      obtain ⟨x, hx, hxr⟩ := List.mem_map.1 hm
      obtain ⟨j, hj, hjr⟩ := h3 x hx
      rw [hjr] at hxr
      have := hw hxr
      omega
    · intro x hx
      rcases List.mem_cons.1 hx with rfl | hx
      · exact ⟨k, le_rfl, rfl⟩
      · obtain ⟨j, hj, hjr⟩ := h3 x hx
        exact ⟨j, by omega, hjr⟩

theorem constSumA_total (hT : ar.Total) (hE : Scores Sum ecg G) {cs : List S}
    (hcs : ∀ c ∈ cs, GoodTable Sum G c) (n : ℕ) (acc : K) : ∃ r, constSumA ar C ecg n cs acc = .ok r := by
  induction cs generalizing acc with
  | nil => exact ⟨acc, rfl⟩
  | cons c cs ih =>
    obtain ⟨q, hq⟩ := hT.ratio (C.count c) (n + 1) (by omega)
    obtain ⟨e, he⟩ := (hcs c (by simp)).scoreA hE
    obtain ⟨r, hr⟩ := ih (fun c hc => hcs c (by simp [hc])) (ar.add acc (ar.mul q e))
    exact ⟨r, by simp only [constSumA, hq, he, ok_bind, hr]⟩

theorem twoBestA_total (L : TableLaws C Ok Sum Same) (hS : ar.Sorts) (hT : ar.Total) (hE : Scores Sum ecg G)
    {inst : I} (hi : Ok inst) {s : S} {cs : List S} {w : World} (hw : Function.Injective w.rnd)
    (hs : GoodTable Sum G s) (hcs : ∀ c ∈ cs, GoodTable Sum G c) (hne : cs ≠ []) :
    ∃ b, twoBestA ar C ecg s cs inst w = .ok b := by
  obtain ⟨l, hl, hnd, hlen, -⟩ := mkCandsA_total (ar := ar) L hE hi hw hcs 0
  obtain ⟨l', hl'⟩ := hT.sort l hnd
  obtain ⟨u, hu⟩ := ((hs.copyA L).incr_scoreA L hE hi).1
  obtain ⟨c, hc⟩ := constSumA_total (C := C) hT hE hcs (C.count s) (ar.ofNat 0)
  have h0 : cs.length ≠ 0 := by simpa using hne
  obtain ⟨const, hconst⟩ := hT.div (ar.sub c u) cs.length h0
  have hp := (hS.cands hl').length_eq
  cases l' with
  | nil => simp at hp; omega
  | cons c1 rest =>
    obtain ⟨q1, hq1⟩ := hT.div c1.rel (C.count s + 1) (by omega)
    obtain ⟨q2, hq2⟩ := hT.div q1 cs.length h0
    refine ⟨⟨ar.add q2 const, c1.idx, rest.head?.map Cand.idx⟩, ?_⟩
    unfold twoBestA
    rw [if_neg h0]
    simp only [hl, hl', relativeCuConstA, hu, hc, hconst, ok_bind, hq1, hq2]
    rfl

theorem cuSumA_total (hT : ar.Total) {cs : List S} (hcs : ∀ c ∈ cs, ∃ e, ecg c = .ok e) {n : ℕ} (hn : n ≠ 0)
    (acc : K) : ∃ r, cuSumA ar C ecg n cs acc = .ok r := by
  induction cs generalizing acc with
  | nil => exact ⟨acc, rfl⟩
  | cons c cs ih =>
    obtain ⟨q, hq⟩ := hT.ratio (C.count c) n hn
    obtain ⟨e, he⟩ := hcs c (by simp)
    obtain ⟨r, hr⟩ := ih (fun c hc => hcs c (by simp [hc])) (ar.add acc (ar.mul q e))
    exact ⟨r, by simp only [cuSumA, hq, he, ok_bind, hr]⟩

theorem categoryUtilityA_total (hT : ar.Total) {s : S} {cs : List S} (h0 : C.count s ≠ 0)
    (hs : ∃ e, ecg s = .ok e) (hcs : ∀ c ∈ cs, ∃ e, ecg c = .ok e) :
    ∃ r, categoryUtilityA ar C ecg s cs = .ok r := by
  cases cs with
  | nil => exact ⟨_, rfl⟩
  | cons c cs =>
    obtain ⟨e, he⟩ := hs
    obtain ⟨g, hg⟩ := cuSumA_total (C := C) hT hcs h0 (ar.ofNat 0)
    obtain ⟨r, hr⟩ := hT.div (ar.sub g e) (c :: cs).length (by simp)
    exact ⟨r, by simp only [categoryUtilityA, hg, he, ok_bind, hr]⟩

theorem bestOpA_total (L : TableLaws C Ok Sum Same) (hS : ar.Sorts) (hT : ar.Total) (hE : Scores Sum ecg G)
    {inst : I} (hi : Ok inst) (hg : G inst) {s : S} {cs : List (Tree S)} {w : World} {off : ℕ} {cu1 : K}
    {i : ℕ} {t1 : Tree S} (ht1 : cs[i]? = some t1) (b2 : Option ℕ) (hs : GoodTable Sum G s)
    (hcs : ∀ c ∈ cs, GoodTable Sum G c.stats) (hcs1 : ∀ c ∈ t1.children, GoodTable Sum G c.stats) :
    ∃ r, bestOpA ar C ecg allOps s cs inst cu1 (some i) b2 w off = .ok r := by
  have hcg : ∀ c ∈ cs.map Tree.stats, GoodTable Sum G c := by
    intro c hc
    obtain ⟨c, hc', rfl⟩ := List.mem_map.1 hc
    exact hcs c hc'
  have hfresh : ∃ e, ecg (C.incr C.fresh inst) = .ok e :=
    hE _ _ (L.incr L.fresh hi) ⟨inst, by simp, hg⟩
  have hsi := (hs.copyA L).incr_scoreA L hE hi
  obtain ⟨x1, hx1⟩ : ∃ x, cuForNewChildA ar C ecg s (cs.map Tree.stats) inst = .ok x := by
    refine categoryUtilityA_total hT hsi.2 hsi.1 ?_
    intro c hc
    rcases List.mem_append.1 hc with hc | hc
    · obtain ⟨c, hc', rfl⟩ := List.mem_map.1 hc
      exact ((hcg c hc').copyA L).scoreA hE
    · simp at hc; subst hc; exact hfresh
  have hmerge : ∀ j t2, cs[j]? = some t2 →
      ∃ x, cuForMergeA ar C ecg s (cs.map Tree.stats) i j t1.stats t2.stats inst = .ok x := by
    intro j t2 ht2
    refine categoryUtilityA_total hT hsi.2 hsi.1 ?_
    intro c hc
    rcases List.mem_cons.1 hc with rfl | hc
    · exact (((hcs t1 (List.mem_of_getElem? ht1)).addA L
        (hcs t2 (List.mem_of_getElem? ht2))).incr_scoreA L hE hi).1
    · obtain ⟨c, hc', rfl⟩ := List.mem_map.1 hc
      unfold dropTwo at hc'
      obtain ⟨p, hp, rfl⟩ := List.mem_map.1 hc'
      have : p.1 ∈ cs.map Tree.stats := by
        have := List.mem_of_mem_filter hp
        rw [← List.zipIdx_map_fst 0 (cs.map Tree.stats)]
        exact List.mem_map_of_mem this
      exact ((hcg _ this).copyA L).scoreA hE
  obtain ⟨x3, hx3⟩ : ∃ x, cuForSplitA ar C ecg s (cs.map Tree.stats) i (t1.children.map Tree.stats)
      = .ok x := by
    refine categoryUtilityA_total hT ((hs.copyA L).countA L) ((hs.copyA L).scoreA hE) ?_
    intro c hc
    obtain ⟨c, hc0, rfl⟩ := List.mem_map.1 hc
    rcases List.mem_append.1 hc0 with hc | hc
    · exact ((hcg c (List.mem_of_mem_eraseIdx hc)).copyA L).scoreA hE
    · obtain ⟨c, hc', rfl⟩ := List.mem_map.1 hc
      exact ((hcs1 c hc').copyA L).scoreA hE
  obtain ⟨l1, hl1, hne1⟩ : ∃ l1, opsNewA ar C ecg allOps s (cs.map Tree.stats) inst w off
      (opsBest allOps cu1 w off) = .ok l1 ∧ l1 ≠ [] := by
    unfold opsNewA
    rw [if_pos (by simp [allOps])]
    exact ⟨_, addOpA_ok.2 ⟨x1, hx1, rfl⟩, by simp⟩
  obtain ⟨l2, hl2, hne2⟩ : ∃ l2, opsMergeA ar C ecg allOps s cs inst i t1 b2 w off l1 = .ok l2 ∧
      l2 ≠ [] := by
    unfold opsMergeA
    split
    · rename_i j t2 hj
      split
      · have hj' : cs[j]? = some t2 := by
          cases b2 with
          | none => simp at hj
          | some j' =>
            simp only [Option.bind_some, Option.map_eq_some_iff, Prod.mk.injEq] at hj
            obtain ⟨a, ha, rfl, rfl⟩ := hj
            exact ha
        obtain ⟨x, hx⟩ := hmerge j t2 hj'
        exact ⟨_, addOpA_ok.2 ⟨x, hx, rfl⟩, by simp⟩
      · exact ⟨_, rfl, hne1⟩
    · exact ⟨_, rfl, hne1⟩
  obtain ⟨l3, hl3, hne3⟩ : ∃ l3, opsSplitA ar C ecg allOps s (cs.map Tree.stats) i t1 w off l2 = .ok l3 ∧
      l3 ≠ [] := by
    unfold opsSplitA
    split
    · exact ⟨_, addOpA_ok.2 ⟨x3, hx3, rfl⟩, by simp⟩
    · exact ⟨_, rfl, hne2⟩
  unfold bestOpA
  simp only [ht1]
  cases hso : ar.sortOps l3 with
  | nil =>
    have := (hS.ops l3).length_eq
    rw [hso] at this; simp at this
    exact absurd (List.length_eq_zero_iff.1 this.symm) hne3
  | cons c rest =>
    refine ⟨(c.cu, c.op, l3.length),
      bind_ok.2 ⟨l1, hl1, bind_ok.2 ⟨l2, hl2, bind_ok.2 ⟨l3, hl3, ?_⟩⟩⟩⟩
    rw [hso]
    rfl

theorem chooseOpA_total (L : TableLaws C Ok Sum Same) (hS : ar.Sorts) (hT : ar.Total) (hE : Scores Sum ecg G)
    {inst : I} (hi : Ok inst) (hg : G inst) {s : S} {cs : List (Tree S)} {w : World}
    (hw : Function.Injective w.rnd) {m : Multiset I} (hcs : HoldsL Sum Same cs m) (hs : Sum s m)
    (hG : ∀ i ∈ m, G i) (hne : cs ≠ []) : ∃ r, chooseOpA ar C ecg s cs inst w = .ok r := by
  have hm : m ≠ 0 := by
    obtain ⟨c, hc⟩ := List.exists_mem_of_ne_nil cs hne
    obtain ⟨m', h', hle⟩ := hcs.mem hc
    rintro rfl
    exact h'.ne_zero (by simpa using hle)
  have hsg : GoodTable Sum G s := ⟨m, hs, hm, hG⟩
  have good : ∀ {c : Tree S} {m' : Multiset I}, Holds Sum Same c m' → m' ≤ m → GoodTable Sum G c.stats :=
    fun h hle => ⟨_, h.sum, h.ne_zero, fun i hi => hG i (Multiset.mem_of_le hle hi)⟩
  have hcg : ∀ c ∈ cs, GoodTable Sum G c.stats := by
    intro c hc
    obtain ⟨m', h', hle⟩ := hcs.mem hc
    exact good h' hle
  obtain ⟨b, hb⟩ := twoBestA_total L hS hT hE hi (cs := cs.map Tree.stats) hw hsg (by
    intro c hc
    obtain ⟨c, hc', rfl⟩ := List.mem_map.1 hc
    exact hcg c hc') (by simpa using hne)
  obtain ⟨hb1, -⟩ := twoBestA_idx hS hb
  rw [List.length_map] at hb1
  have ht1 : cs[b.b1]? = some cs[b.b1] := List.getElem?_eq_getElem hb1
  obtain ⟨m1, hm1, hle⟩ := hcs.mem (List.mem_of_getElem? ht1)
  have hch : ∀ c ∈ cs[b.b1].children, GoodTable Sum G c.stats := by
    generalize cs[b.b1] = x at hm1
    cases hm1 with
    | leaf => simp
    | node _ h _ =>
      intro c hc
      obtain ⟨m', h', hle'⟩ := h.mem hc
      exact good h' (hle'.trans hle)
  obtain ⟨⟨x, op, n⟩, hr⟩ := bestOpA_total L hS hT hE hi hg (w := w) (off := cs.length) (cu1 := b.cu) ht1
    b.b2 hsg hcg hch
  exact ⟨_, bind_ok.2 ⟨b, hb, bind_ok.2 ⟨_, hr, rfl⟩⟩⟩

/-- On a tree of good instances, fitting a good instance returns, within one iteration per node. -/
theorem cobwebLoopBy_total (L : TableLaws C Ok Sum Same) (hS : ar.Sorts) (hT : ar.Total)
    (hE : Scores Sum ecg G) {inst : I} (hi : Ok inst) (hg : G inst) :
    ∀ (fuel : ℕ) (t : Tree S) (w : World) (m : Multiset I), t.numConcepts ≤ fuel → Holds Sum Same t m →
      (∀ i ∈ m, G i) → Function.Injective w.rnd →
      ∃ o, cobwebLoopBy C (chooseOpA ar C ecg) inst fuel t w = .ok o := by
  intro fuel
  induction fuel with
  | zero => intro t w m hf; have := t.numConcepts_pos; omega
  | succ fuel ih =>
    intro t w m hf ht hG hw
    match t, ht with
    | .node id s [], ht =>
      simp only [cobwebLoopBy]
      split <;> exact ⟨_, rfl⟩
    | .node id s (c :: cs'), ht =>
      have hsum : Sum s m := ht.sum
      have hl : 2 ≤ (c :: cs').length ∧ HoldsL Sum Same (c :: cs') m := by
        cases ht with
        | node h1 h2 _ => exact ⟨h1, h2⟩
      obtain ⟨⟨b, op, w'⟩, hch⟩ := chooseOpA_total L hS hT hE hi hg hw hl.2 hsum hG (by simp)
      obtain ⟨⟨t1, ht1, hsplit⟩, hmerge, -, hrnd⟩ := chooseOpA_eligible hS hch
      have hw' : Function.Injective w'.rnd := hrnd ▸ hw
      simp only [cobwebLoopBy, hch, ok_bind]
      rw [Tree.numConcepts_node] at hf
      generalize hcs : c :: cs' = cs at *
      obtain ⟨m1, m2, rfl, h1, h2⟩ := HoldsL.cons_iff.1 (hl.2.perm (perm_eraseIdx ht1))
      have hs := numConcepts_sum_perm (perm_eraseIdx ht1)
      simp only [List.map_cons, List.sum_cons] at hs
      cases op with
      | best =>
        simp only [ht1]
        obtain ⟨o, ho⟩ := ih t1 w' m1 (by omega) h1 (fun i hi => hG i (by simp [hi])) hw'
        exact ⟨_, by simp only [ho, ok_bind]; rfl⟩
      | new => exact ⟨_, rfl⟩
      | merge =>
        obtain ⟨h2', j, t2, hj, hne, ht2⟩ := hmerge rfl
        simp only [hj, ht1, ht2]
        have hp := perm_dropTwo hne ht1 ht2
        obtain ⟨n1, n2, hn, k1, k2⟩ := HoldsL.cons_iff.1 (hl.2.perm hp)
        obtain ⟨n3, n4, rfl, k3, k4⟩ := HoldsL.cons_iff.1 k2
        have hnew : Holds Sum Same (.node (w'.ctr + 1)
            (C.addFrom (C.addFrom C.fresh t1.stats) t2.stats) [t1, t2]) (n1 + n3) := by
          refine .node (by simp) ?_ ?_
          · rw [← add_zero n3]; exact .cons k1 (.cons k3 .nil)
          · have := L.add (L.add L.fresh k1.sum) k3.sum
            rwa [zero_add] at this
        obtain ⟨o, ho⟩ := ih _ (w'.bump 1) _ (by
          have hp := numConcepts_sum_perm (perm_dropTwo hne ht1 ht2)
          have hl := length_dropTwo hne ht1 ht2
          rw [Tree.numConcepts_node]
          simp only [List.map_cons, List.sum_cons, List.map_nil, List.sum_nil] at hp ⊢
          have : 0 < ((dropTwo cs b.b1 j).map Tree.numConcepts).sum := by
            cases hd : dropTwo cs b.b1 j with
            | nil => rw [hd] at hl; simp at hl; omega
            | cons x l =>
              simp only [List.map_cons, List.sum_cons]
              have := x.numConcepts_pos; omega
          omega) hnew (fun i hi => hG i (by
          rw [hn]; simp only [Multiset.mem_add] at hi ⊢; tauto)) hw'
        exact ⟨_, by simp only [ho, ok_bind]; rfl⟩
      | split =>
        simp only [ht1]
        have hne := hsplit rfl
        have hlen := (perm_eraseIdx ht1).length_eq
        have : 2 ≤ t1.children.length ∧ HoldsL Sum Same t1.children m1 := by
          cases h1 with
          | leaf => simp at hne
          | node a b _ => exact ⟨a, b⟩
        refine ih _ w' (m1 + m2) ?_ (.node (by simp; omega) ?_ hsum) hG hw'
        · rw [Tree.numConcepts_node]
          have e : t1.numConcepts = 1 + (t1.children.map Tree.numConcepts).sum := by
            cases t1; exact Tree.numConcepts_node _ _ _
          simp only [List.map_append, List.sum_append]
          omega
        · rw [add_comm]
          exact HoldsL.append_iff.2 ⟨_, _, rfl, h2, this.2⟩

/-- On a tree of good instances, categorizing any instance returns a leaf of the tree. -/
theorem categorizeLoopA_total (L : TableLaws C Ok Sum Same) (hS : ar.Sorts) (hT : ar.Total)
    (hE : Scores Sum ecg G) {inst : I} (hi : Ok inst) :
    ∀ (fuel : ℕ) (t : Tree S) (w : World) (m : Multiset I), t.numConcepts ≤ fuel → Holds Sum Same t m →
      (∀ i ∈ m, G i) → Function.Injective w.rnd →
      ∃ o, categorizeLoopA ar C ecg inst fuel t w = .ok o := by
  intro fuel
  induction fuel with
  | zero => intro t w m hf; have := t.numConcepts_pos; omega
  | succ fuel ih =>
    intro t w m hf ht hG hw
    match t, ht with
    | .node id s [], ht => exact ⟨_, rfl⟩
    | .node id s (c :: cs'), ht =>
      have hl : HoldsL Sum Same (c :: cs') m := by
        cases ht with
        | node h1 h2 _ => exact h2
      obtain ⟨b, hb⟩ := twoBestA_total L hS hT hE hi (cs := (c :: cs').map Tree.stats) hw
        ⟨m, ht.sum, ht.ne_zero, hG⟩ (by
        intro x hx
        obtain ⟨c, hc, rfl⟩ := List.mem_map.1 hx
        obtain ⟨m', h', hle⟩ := hl.mem hc
        exact ⟨m', h'.sum, h'.ne_zero, fun i hi => hG i (Multiset.mem_of_le hle hi)⟩) (by simp)
      obtain ⟨hb1, -⟩ := twoBestA_idx hS hb
      rw [List.length_map] at hb1
      have ht1 : (c :: cs')[b.b1]? = some (c :: cs')[b.b1] := List.getElem?_eq_getElem hb1
      obtain ⟨m1, hm1, hle⟩ := hl.mem (List.mem_of_getElem? ht1)
      have hs := numConcepts_sum_perm (perm_eraseIdx ht1)
      simp only [List.map_cons, List.sum_cons] at hs
      rw [Tree.numConcepts_node] at hf
      simp only [List.map_cons, List.sum_cons] at hf
      obtain ⟨o, ho⟩ := ih _ ((w.skip (c :: cs').length).bump ((c :: cs').length + 1)) m1 (by omega) hm1
        (fun i hi => hG i (Multiset.mem_of_le hle hi)) (by simpa [World.bump, World.skip] using hw)
      refine ⟨o, ?_⟩
      simp only [categorizeLoopA]
      refine bind_ok.2 ⟨b, hb, ?_⟩
      rw [ht1]
      exact ho

/-- Whatever the arithmetic, `categorize` returns a leaf of the tree. -/
theorem categorizeLoopA_leaf {inst : I} : ∀ (fuel : ℕ) (t : Tree S) (w : World) (r : Tree S × World),
    categorizeLoopA ar C ecg inst fuel t w = .ok r → r.1 ∈ t.leaves ∧ r.1.children = [] := by
  intro fuel
  induction fuel with
  | zero => intro t w r h; simp [categorizeLoopA] at h
  | succ fuel ih =>
    intro t w r h
    match t with
    | .node id s [] =>
      simp only [categorizeLoopA] at h
      cases h
      rw [Tree.leaves_nil]; simp
    | .node id s (c :: cs') =>
      simp only [categorizeLoopA, bind_ok] at h
      obtain ⟨b, -, h⟩ := h
      split at h
      · cases h
      · rename_i t1 ht1
        obtain ⟨h1, h2⟩ := ih _ _ _ h
        refine ⟨?_, h2⟩
        rw [Tree.leaves_node _ _ (by simp)]
        exact List.mem_flatMap.2 ⟨t1, List.mem_of_getElem? ht1, h1⟩

end
end CF
