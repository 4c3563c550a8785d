/-
Any arithmetic chooses an eligible operation; the loop with an eligible chooser.
-/
import Verif.Spec.AnyArith
import Verif.Proofs.Terminate
import Verif.Proofs.NoRaise

set_option linter.unusedSectionVars false

namespace CF
section
variable {I S K : Type}

/-- A chooser returns the position of a child; a split only of a child with children, a merge only with a
second child and more than two. -/
def Eligible (ch : Chooser I S K) : Prop :=
  ∀ {s cs inst w b op w'}, ch s cs inst w = .ok (b, op, w') →
    (∃ t1, cs[b.b1]? = some t1 ∧ (op = .split → t1.children ≠ [])) ∧
    (op = .merge → cs.length > 2 ∧ ∃ j t2, b.b2 = some j ∧ j ≠ b.b1 ∧ cs[j]? = some t2) ∧
    w.ctr ≤ w'.ctr ∧ w'.rnd = w.rnd

theorem addOpA_ok {w : World} {off : ℕ} {l l' : List (OpCand K)} {op : Op} {cu : Res K} :
    addOp w off l op cu = .ok l' ↔
      ∃ x, cu = .ok x ∧ l ++ [⟨x, w.draw (off + l.length), op⟩] = l' := by
  unfold addOp; cases cu <;> simp [Except.map]

theorem numConcepts_sum_perm {cs cs' : List (Tree S)} (h : cs.Perm cs') :
    (cs.map Tree.numConcepts).sum = (cs'.map Tree.numConcepts).sum :=
  (h.map _).sum_eq

variable {ar : Arith K} {C : NodeClass I S} {ecg : S → Res K}

theorem mkCandsA_idx {inst : I} {w : World} {cs : List S} {k : ℕ} {l : List (Cand K)}
    (h : mkCandsA ar C ecg inst w cs k = .ok l) : l.map Cand.idx = List.range' k cs.length := by
  induction cs generalizing k l with
  | nil => simp [mkCandsA] at h; subst h; simp
  | cons x cs ih =>
    simp only [mkCandsA, bind_ok, pure_ok] at h
    obtain ⟨r, hr, rest, hrest, rfl⟩ := h
    simp [ih hrest, List.range'_succ]

theorem twoBestA_idx (hs : ar.Sorts) {s : S} {cs : List S} {inst : I} {w : World} {b : Best K}
    (h : twoBestA ar C ecg s cs inst w = .ok b) :
    b.b1 < cs.length ∧ ∀ j, b.b2 = some j → j < cs.length ∧ j ≠ b.b1 := by
  unfold twoBestA at h
  split at h
  · cases h
  simp only [bind_ok] at h
  obtain ⟨cands, hc, sorted, hso, const, -, h⟩ := h
  have hp := hs.cands hso
  have hidx := mkCandsA_idx hc
  have hlt : ∀ c ∈ cands, c.idx < cs.length := by
    intro c hc
    have : c.idx ∈ cands.map Cand.idx := List.mem_map_of_mem hc
    rw [hidx] at this; simpa using this
  have hnd : (sorted.map Cand.idx).Nodup := by
    rw [(hp.map Cand.idx).nodup_iff, hidx]; exact List.nodup_range'
  cases sorted with
  | nil => cases h
  | cons c1 rest =>
    simp only [bind_ok, pure_ok] at h
    obtain ⟨q, -, q', -, rfl⟩ := h
    refine ⟨hlt _ (hp.mem_iff.1 (by simp)), ?_⟩
    intro j hj
    cases rest with
    | nil => simp at hj
    | cons c2 rest =>
      simp at hj; subst hj
      refine ⟨hlt _ (hp.mem_iff.1 (by simp)), ?_⟩
      simp only [List.map_cons, List.nodup_cons, List.mem_cons, not_or] at hnd
      exact fun h => hnd.1.1 h.symm

/-- The operation returned is applicable. -/
theorem bestOpA_eligible (hs : ar.Sorts) {ops : List Op} {s : S} {cs : List (Tree S)} {inst : I} {cu1 : K}
    {i : ℕ} {b2 : Option ℕ} {w : World} {off : ℕ} {x : K} {op : Op} {n : ℕ}
    (h : bestOpA ar C ecg ops s cs inst cu1 (some i) b2 w off = .ok (x, op, n)) :
    ∃ t1, cs[i]? = some t1 ∧ op ∈ ops ∧ (op = .split → t1.children ≠ []) ∧
      (op = .merge → cs.length > 2 ∧ ∃ j t2, b2 = some j ∧ cs[j]? = some t2) := by
  unfold bestOpA at h
  simp only at h
  cases ht : cs[i]? with
  | none => rw [ht] at h; cases h
  | some t1 =>
  rw [ht] at h
  simp only [bind_ok] at h
  obtain ⟨l1, hl1, l2, hl2, l3, hl3, h⟩ := h
  let P : OpCand K → Prop := fun e => e.op ∈ ops ∧ (e.op = .split → t1.children ≠ []) ∧
    (e.op = .merge → cs.length > 2 ∧ ∃ j t2, b2 = some j ∧ cs[j]? = some t2)
  have s0 : ∀ e ∈ opsBest ops cu1 w off, P e := by
    intro e he
    unfold opsBest at he
    split at he
    · rename_i hb; simp at he; subst he; exact ⟨hb, by simp, by simp⟩
    · simp at he
  have s1 : ∀ e ∈ l1, P e := by
    unfold opsNewA at hl1
    split at hl1
    · rename_i hn
      rw [addOpA_ok] at hl1
      obtain ⟨cu, hcu, rfl⟩ := hl1
      intro e he
      rcases List.mem_append.1 he with he | he
      · exact s0 e he
      · simp at he; subst he; exact ⟨hn, by simp, by simp⟩
    · cases hl1; exact s0
  have s2 : ∀ e ∈ l2, P e := by
    unfold opsMergeA at hl2
    split at hl2
    · rename_i j t2 hj
      have hj' : b2 = some j ∧ cs[j]? = some t2 := by
        cases b2 with
        | none => simp at hj
        | some j' =>
          simp only [Option.bind_some, Option.map_eq_some_iff, Prod.mk.injEq] at hj
          obtain ⟨a, ha, rfl, rfl⟩ := hj
          exact ⟨rfl, ha⟩
      split at hl2
      · rename_i hm
        rw [addOpA_ok] at hl2
        obtain ⟨cu, hcu, rfl⟩ := hl2
        intro e he
        rcases List.mem_append.1 he with he | he
        · exact s1 e he
        · simp at he; subst he; exact ⟨hm.1, by simp, fun _ => ⟨hm.2, j, t2, hj'⟩⟩
      · cases hl2; exact s1
    · cases hl2; exact s1
  have s3 : ∀ e ∈ l3, P e := by
    unfold opsSplitA at hl3
    split at hl3
    · rename_i hm
      rw [addOpA_ok] at hl3
      obtain ⟨cu, hcu, rfl⟩ := hl3
      intro e he
      rcases List.mem_append.1 he with he | he
      · exact s2 e he
      · simp at he; subst he
        exact ⟨hm.1, fun _ => List.length_pos_iff.1 hm.2, by simp⟩
    · cases hl3; exact s2
  cases hso : ar.sortOps l3 with
  | nil => rw [hso] at h; cases h
  | cons c rest =>
    rw [hso] at h
    simp only [pure_ok, Prod.mk.injEq] at h
    obtain ⟨-, rfl, -⟩ := h
    have := s3 c ((hs.ops l3).mem_iff.1 (by rw [hso]; simp))
    exact ⟨t1, rfl, this⟩

theorem chooseOpA_eligible (hs : ar.Sorts) : Eligible (chooseOpA ar C ecg) := by
  intro s cs inst w b op w' h
  unfold chooseOpA at h
  simp only [bind_ok] at h
  obtain ⟨b', hb, ⟨cu, op', n⟩, ho, h⟩ := h
  simp only [pure_ok, Prod.mk.injEq] at h
  obtain ⟨rfl, rfl, rfl⟩ := h
  obtain ⟨t1, ht, -, h1, h2⟩ := bestOpA_eligible hs ho
  refine ⟨⟨t1, ht, h1⟩, ?_, by simp [World.bump, World.skip], by simp [World.bump, World.skip]⟩
  intro he
  obtain ⟨h3, j, t2, h4, h5⟩ := h2 he
  exact ⟨h3, j, t2, h4, ((twoBestA_idx hs hb).2 j h4).2, h5⟩

/-! ### The loop with an eligible chooser -/

variable {ch : Chooser I S K} {inst : I}

theorem loopBy_of_cobwebLoopBy (hch : Eligible ch) : ∀ (fuel : ℕ) (t : Tree S) (w : World) (o : Out S),
    cobwebLoopBy C ch inst fuel t w = .ok o → LoopBy C ch inst t w o := by
  intro fuel
  induction fuel with
  | zero => intro t w o h; simp [cobwebLoopBy] at h
  | succ fuel ih =>
    intro t w o h
    match t with
    | .node id s [] =>
      simp only [cobwebLoopBy] at h
      split at h
      · rename_i hc
        cases h; exact .hit (by simpa using hc)
      · rename_i hc
        cases h
        simp only [Bool.or_eq_true, beq_iff_eq, not_or, Bool.not_eq_true] at hc
        exact .fringe hc.1 hc.2
    | .node id s (c :: cs') =>
      simp only [cobwebLoopBy, bind_ok] at h
      obtain ⟨⟨b, op, w'⟩, hc, h⟩ := h
      obtain ⟨⟨t1, ht1, hsplit⟩, hmerge, hctr, -⟩ := hch hc
      have hne : c :: cs' ≠ [] := by simp
      generalize c :: cs' = cs at *
      cases op with
      | best =>
        simp only [ht1, bind_ok, pure_ok] at h
        obtain ⟨o', ho', rfl⟩ := h
        exact .best hne hc hctr ht1 (ih _ _ _ ho')
      | new =>
        simp only [pure_ok] at h
        cases h
        exact .new hne hc hctr
      | merge =>
        obtain ⟨h2', j, t2, hj, hne2, ht2⟩ := hmerge rfl
        simp only [hj, ht1, ht2, bind_ok, pure_ok] at h
        obtain ⟨o', ho', rfl⟩ := h
        exact .merge h2' hc hctr hj hne2 ht1 ht2 (ih _ _ _ ho')
      | split =>
        simp only [ht1] at h
        exact .split hne hc hctr ht1 (hsplit rfl) (ih _ _ _ h)

/-- The loop terminates within one iteration per node, on any tree and however the choices are made. -/
theorem fueled_cobwebLoopBy (hch : Eligible ch) (hf : ∀ s cs w, Fueled (ch s cs inst w)) :
    ∀ (fuel : ℕ) (t : Tree S) (w : World), t.numConcepts ≤ fuel →
      Fueled (cobwebLoopBy C ch inst fuel t w) := by
  intro fuel
  induction fuel with
  | zero => intro t w h; have := t.numConcepts_pos; omega
  | succ fuel ih =>
    intro t w hn
    match t with
    | .node id s [] =>
      simp only [cobwebLoopBy]
      split <;> exact fueled_ok _
    | .node id s (c :: cs') =>
      simp only [cobwebLoopBy]
      refine (hf _ _ _).bind ?_
      rintro ⟨b, op, w'⟩ hc
      obtain ⟨⟨t1, ht1, hsplit⟩, hmerge, -, -⟩ := hch hc
      rw [Tree.numConcepts_node] at hn
      generalize c :: cs' = cs at *
      have hs := numConcepts_sum_perm (perm_eraseIdx ht1)
      simp only [List.map_cons, List.sum_cons] at hs
      cases op with
      | best =>
        simp only [ht1]
        exact (ih _ _ (by omega)).bind fun _ _ => fueled_pure _
      | new => exact fueled_pure _
      | merge =>
        obtain ⟨hlen, j, t2, hj, hne, ht2⟩ := hmerge rfl
        simp only [hj, ht1, ht2]
        refine (ih _ _ ?_).bind fun _ _ => fueled_pure _
        have hp := numConcepts_sum_perm (perm_dropTwo hne ht1 ht2)
        have hl := length_dropTwo hne ht1 ht2
        rw [Tree.numConcepts_node]
        simp only [List.map_cons, List.sum_cons, List.map_nil, List.sum_nil] at hp ⊢
        have : 0 < ((dropTwo cs b.b1 j).map Tree.numConcepts).sum := by
          cases hd : dropTwo cs b.b1 j with
          | nil => rw [hd] at hl; simp at hl; omega
          | cons x l =>
            simp only [List.map_cons, List.sum_cons]
            have := x.numConcepts_pos; omega
        omega
      | split =>
        simp only [ht1]
        apply ih
        rw [Tree.numConcepts_node]
        have e : t1.numConcepts = 1 + (t1.children.map Tree.numConcepts).sum := by
          cases t1; exact Tree.numConcepts_node _ _ _
        simp only [List.map_append, List.sum_append]
        omega

end

/-! ### The arithmetic of a field -/

section
variable {I S K : Type} [Field K] [LinearOrder K]

theorem exactArith_sorts : (exactArith K).Sorts where
  cands := by
    intro l l' h
    simp only [exactArith] at h
    split at h
    · cases h; exact perm_sortCands l
    · cases h
  ops := perm_sortOps

theorem chooseOp_eligible (C : NodeClass I S) (ecg : S → Res K) : Eligible (chooseOp C ecg) :=
  fun h => chooseOp_spec C ecg h

theorem cobwebLoopBy_exact (C : NodeClass I S) (ecg : S → Res K) (inst : I) : ∀ (fuel : ℕ) (t : Tree S) (w : World),
    cobwebLoopBy C (chooseOp C ecg) inst fuel t w = cobwebLoop C ecg inst fuel t w := by
  intro fuel
  induction fuel with
  | zero => intro t w; rfl
  | succ fuel ih =>
    intro t w
    match t with
    | .node id s [] => rfl
    | .node id s (c :: cs') =>
      simp only [cobwebLoopBy, cobwebLoop, ih]
      rfl

variable [IsStrictOrderedRing K] (C : NodeClass I S) (ecg : S → Res K)

theorem cuSumA_exact (n : ℕ) (cs : List S) (acc : K) :
    cuSumA (exactArith K) C ecg n cs acc = cuSum C ecg n cs acc := by
  induction cs generalizing acc with
  | nil => rfl
  | cons c cs ih => simp only [cuSumA, cuSum, ih]; rfl

theorem categoryUtilityA_exact (s : S) (cs : List S) :
    categoryUtilityA (exactArith K) C ecg s cs = categoryUtility C ecg s cs := by
  cases cs with
  | nil => simp [categoryUtilityA, categoryUtility, exactArith]
  | cons c cs =>
    simp only [categoryUtilityA, categoryUtility, cuSumA_exact]
    simp [exactArith]

theorem constSumA_exact (n : ℕ) (cs : List S) (acc : K) :
    constSumA (exactArith K) C ecg n cs acc = constSum C ecg n cs acc := by
  induction cs generalizing acc with
  | nil => rfl
  | cons c cs ih =>
    have h : ((n + 1 : ℕ) : K) ≠ 0 := Nat.cast_ne_zero.2 (by omega)
    have e : (exactArith K).ratio (C.count c) (n + 1) = .ok ((C.count c : K) / ((n : K) + 1)) := by
      simp only [exactArith, pyDiv, if_neg h]; push_cast; rfl
    simp only [constSumA, constSum, ih, e, ok_bind]
    rfl

theorem mkCandsA_exact (inst : I) (w : World) (cs : List S) (k : ℕ) :
    mkCandsA (exactArith K) C ecg inst w cs k = mkCands C ecg inst w cs k := by
  induction cs generalizing k with
  | nil => rfl
  | cons c cs ih =>
    have e : relativeCuForInsertA (exactArith K) C ecg c inst = relativeCuForInsert C ecg c inst := by
      simp only [relativeCuForInsertA, relativeCuForInsert, exactArith]
      push_cast; rfl
    simp only [mkCandsA, mkCands, ih, e]

theorem twoBestA_exact (s : S) (cs : List S) (inst : I) (w : World) :
    twoBestA (exactArith K) C ecg s cs inst w = twoBest C ecg s cs inst w := by
  unfold twoBestA twoBest
  split
  · rfl
  rename_i hne
  have h1 : ((C.count s + 1 : ℕ) : K) ≠ 0 := Nat.cast_ne_zero.2 (by omega)
  have h2 : (cs.length : K) ≠ 0 := Nat.cast_ne_zero.2 hne
  have hconst : relativeCuConstA (exactArith K) C ecg s cs inst = relativeCuConst C ecg s cs inst := by
    simp only [relativeCuConstA, relativeCuConst, constSumA_exact]
    simp [exactArith]
  simp only [mkCandsA_exact, hconst]
  congr 1
  funext cands
  by_cases hn : (cands.map Cand.key).Nodup
  · simp only [exactArith, hn, if_true, not_true_eq_false, if_false, ok_bind]
    congr 1
    funext const
    cases sortCands cands with
    | nil => rfl
    | cons c1 rest =>
      simp only [pyDiv, if_neg h1, if_neg h2, ok_bind]
      push_cast; rfl
  · simp only [exactArith, hn, if_false, not_false_eq_true, if_true, error_bind]

theorem chooseOpA_exact : chooseOpA (exactArith K) C ecg = chooseOp C ecg := by
  funext s cs inst w
  unfold chooseOpA chooseOp
  simp only [twoBestA_exact]
  congr 1
  funext b
  congr 1
  unfold bestOpA bestOp
  simp only [opsNewA, opsNew, opsMergeA, opsMerge, opsSplitA, opsSplit, cuForNewChildA, cuForNewChild,
    cuForMergeA, cuForMerge, cuForSplitA, cuForSplit, categoryUtilityA_exact]
  rfl

theorem cobwebBy_exact (t : Tree S) (inst : I) (w : World) :
    cobwebBy C (chooseOpA (exactArith K) C ecg) t inst w = cobweb C ecg t inst w := by
  rw [chooseOpA_exact]
  exact cobwebLoopBy_exact C ecg inst _ t w

theorem categorizeA_exact (t : Tree S) (inst : I) (w : World) :
    categorizeA (exactArith K) C ecg t inst w = categorize C ecg t inst w := by
  unfold categorizeA categorize
  generalize t.numConcepts = fuel
  induction fuel generalizing t w with
  | zero => rfl
  | succ fuel ih =>
    match t with
    | .node id s [] => rfl
    | .node id s (c :: cs') => 
      simp only [categorizeLoopA, categorizeLoop, ih, twoBestA_exact]
      rfl

end
end CF
