/-
Facts about `two_best_children` and `get_best_operation` used by the invariants.
-/
import Verif.Model.Cobweb
import Verif.Spec.Ops
import Mathlib.Data.List.Perm.Basic
import Mathlib.Data.List.Nodup

set_option linter.unusedSectionVars false

namespace CF

theorem bind_ok {α β : Type} {x : Res α} {f : α → Res β} {b : β} :
    (x >>= f) = .ok b ↔ ∃ a, x = .ok a ∧ f a = .ok b := by
  cases x with
  | error e => simp [bind, Except.bind]
  | ok a => simp [bind, Except.bind]

theorem pure_ok {α : Type} {a b : α} : (pure a : Res α) = .ok b ↔ a = b := by
  simp [pure, Except.pure]

section
variable {I S K : Type} [Field K] [LinearOrder K]
variable (C : NodeClass I S) (ecg : S → Res K)

theorem mkCands_spec {inst : I} {w : World} {cs : List S} {k : ℕ} {l : List (Cand K)}
    (h : mkCands C ecg inst w cs k = .ok l) :
    l.length = cs.length ∧ l.map Cand.idx = List.range' k cs.length ∧
    ∀ c ∈ l, ∃ x, cs[c.idx - k]? = some x ∧ k ≤ c.idx ∧
      relativeCuForInsert C ecg x inst = .ok c.rel ∧ c.size = C.count x ∧ c.rnd = w.draw c.idx := by
  induction cs generalizing k l with
  | nil => simp [mkCands] at h; subst h; simp
  | cons x cs ih =>
    simp only [mkCands, bind_ok, pure_ok] at h
    obtain ⟨r, hr, rest, hrest, rfl⟩ := h
    obtain ⟨h1, h2, h3⟩ := ih hrest
    refine ⟨by simp [h1], by simp [h2, List.range'_succ], ?_⟩
    intro c hc
    rcases List.mem_cons.1 hc with rfl | hc
    · exact ⟨x, by simp, le_refl _, hr, rfl, rfl⟩
    · obtain ⟨y, hy, hk, h4⟩ := h3 c hc
      refine ⟨y, ?_, by omega, h4⟩
      have : c.idx - k = (c.idx - (k + 1)) + 1 := by omega
      rw [this]; simpa using hy

theorem perm_sortCands (l : List (Cand K)) : (sortCands l).Perm l :=
  List.perm_insertionSort _ _

theorem perm_sortOps (l : List (OpCand K)) : (sortOps l).Perm l :=
  List.perm_insertionSort _ _

theorem pairwise_sortCands (l : List (Cand K)) :
    (sortCands l).Pairwise fun a b => b.key ≤ a.key := by
  have : Std.Total (fun a b : Cand K => b.key ≤ a.key) := ⟨fun a b => le_total _ _⟩
  have : IsTrans (Cand K) (fun a b : Cand K => b.key ≤ a.key) :=
    ⟨fun a b c h1 h2 => le_trans h2 h1⟩
  exact List.pairwise_insertionSort _ l

theorem pairwise_sortOps (l : List (OpCand K)) :
    (sortOps l).Pairwise fun a b => b.key ≤ a.key := by
  have : Std.Total (fun a b : OpCand K => b.key ≤ a.key) := ⟨fun a b => le_total _ _⟩
  have : IsTrans (OpCand K) (fun a b : OpCand K => b.key ≤ a.key) :=
    ⟨fun a b c h1 h2 => le_trans h2 h1⟩
  exact List.pairwise_insertionSort _ l

/-- Everything `two_best_children` says about its result. -/
theorem twoBest_spec {s : S} {cs : List S} {inst : I} {w : World} {b : Best K}
    (h : twoBest C ecg s cs inst w = .ok b) :
    ∃ cands c1 rest const, mkCands C ecg inst w cs 0 = .ok cands ∧
      (cands.map Cand.key).Nodup ∧
      sortCands cands = c1 :: rest ∧ relativeCuConst C ecg s cs inst = .ok const ∧
      b = ⟨c1.rel / ((C.count s : K) + 1) / (cs.length : K) + const, c1.idx,
        rest.head?.map Cand.idx⟩ ∧ cs ≠ [] := by
  unfold twoBest at h
  split at h
  · cases h
  · rename_i hne
    rw [bind_ok] at h
    obtain ⟨cands, hc, h⟩ := h
    split at h
    · cases h
    · rename_i hnd
      rw [bind_ok] at h
      obtain ⟨const, hconst, h⟩ := h
      revert h
      cases hs : sortCands cands with
      | nil => intro h; cases h
      | cons c1 rest =>
        intro h
        rw [pure_ok] at h
        exact ⟨cands, c1, rest, const, hc, by simpa using hnd, hs, hconst, h.symm,
          by rintro rfl; simp at hne⟩

theorem twoBest_idx {s : S} {cs : List S} {inst : I} {w : World} {b : Best K}
    (h : twoBest C ecg s cs inst w = .ok b) :
    b.b1 < cs.length ∧ ∀ j, b.b2 = some j → j < cs.length ∧ j ≠ b.b1 := by
  obtain ⟨cands, c1, rest, const, hc, -, hs, -, rfl, -⟩ := twoBest_spec C ecg h
  obtain ⟨hl, hidx, hmem⟩ := mkCands_spec C ecg hc
  have hp : (sortCands cands).Perm cands := perm_sortCands cands
  rw [hs] at hp
  have hlt : ∀ c ∈ cands, c.idx < cs.length := by
    intro c hc
    have : c.idx ∈ cands.map Cand.idx := List.mem_map_of_mem hc
    rw [hidx] at this; simpa using this
  have hnd : ((c1 :: rest).map Cand.idx).Nodup := by
    rw [(hp.map Cand.idx).nodup_iff, hidx]; exact List.nodup_range'
  refine ⟨hlt _ (hp.mem_iff.1 (by simp)), ?_⟩
  intro j hj
  cases rest with
  | nil => simp at hj
  | cons c2 rest =>
    simp at hj; subst hj
    refine ⟨hlt _ (hp.mem_iff.1 (by simp)), ?_⟩
    simp only [List.map_cons, List.nodup_cons, List.mem_cons, not_or] at hnd
    exact fun h => hnd.1.1 h.symm

theorem addOp_ok {w : World} {off : ℕ} {l l' : List (OpCand K)} {op : Op} {cu : Res K} :
    addOp w off l op cu = .ok l' ↔
      ∃ x, cu = .ok x ∧ l ++ [⟨x, w.draw (off + l.length), op⟩] = l' := by
  unfold addOp; cases cu <;> simp [Except.map]

/-- `get_best_operation` returns the head of a sorted list of entries that contains exactly the
applicable operations. -/
theorem bestOp_spec {ops : List Op} {s : S} {cs : List (Tree S)} {inst : I} {cu1 : K}
    {b1 b2 : Option ℕ} {w : World} {off : ℕ} {r : K × Op × ℕ}
    (h : bestOp C ecg ops s cs inst cu1 b1 b2 w off = .ok r) :
    ∃ i t1 l c rest, b1 = some i ∧ cs[i]? = some t1 ∧ sortOps l = c :: rest ∧
      r = (c.cu, c.op, l.length) ∧
      (∀ e ∈ l, e.op ∈ ops ∧ OpScore C ecg s cs inst cu1 i b2 e.op e.cu) ∧
      (∀ op cu, op ∈ ops → OpScore C ecg s cs inst cu1 i b2 op cu →
        ∃ e ∈ l, e.op = op ∧ e.cu = cu) := by
  unfold bestOp at h
  cases b1 with
  | none => cases h
  | some i =>
  simp only at h
  cases ht : cs[i]? with
  | none => rw [ht] at h; cases h
  | some t1 =>
  rw [ht] at h
  simp only [bind_ok] at h
  obtain ⟨l1, hl1, l2, hl2, l3, hl3, h⟩ := h
  -- the four stages
  set l0 : List (OpCand K) := opsBest ops cu1 w off with hl0
  unfold opsBest at hl0
  unfold opsNew at hl1
  unfold opsMerge at hl2
  unfold opsSplit at hl3
  have s0 : (∀ e ∈ l0, e.op ∈ ops ∧ OpScore C ecg s cs inst cu1 i b2 e.op e.cu) ∧
      (∀ cu, .best ∈ ops → OpScore C ecg s cs inst cu1 i b2 .best cu →
        ∃ e ∈ l0, e.op = .best ∧ e.cu = cu) := by
    constructor
    · intro e he
      rw [hl0] at he
      split at he
      · rename_i hb; simp at he; subst he; exact ⟨hb, .best⟩
      · simp at he
    · intro cu hb ho
      cases ho
      rw [hl0, if_pos hb]; exact ⟨_, List.mem_singleton.2 rfl, rfl, rfl⟩
  have s1 : l0 ⊆ l1 ∧ (∀ e ∈ l1, e.op ∈ ops ∧ OpScore C ecg s cs inst cu1 i b2 e.op e.cu) ∧
      (∀ cu, .new ∈ ops → OpScore C ecg s cs inst cu1 i b2 .new cu →
        ∃ e ∈ l1, e.op = .new ∧ e.cu = cu) := by
    split at hl1
    · rename_i hn
      rw [addOp_ok] at hl1
      obtain ⟨cu, hcu, rfl⟩ := hl1
      refine ⟨by simp, ?_, ?_⟩
      · intro e he
        rcases List.mem_append.1 he with he | he
        · exact s0.1 e he
        · simp at he; subst he; exact ⟨hn, .new hcu⟩
      · intro cu' _ ho
        cases ho with
        | new h' => rw [hcu] at h'; cases h'; exact ⟨_, List.mem_append_right _ (List.mem_singleton.2 rfl), rfl, rfl⟩
    · rename_i hn
      rw [← Except.ok.inj hl1]
      exact ⟨fun _ h => h, s0.1, fun _ h => absurd h hn⟩
  have s2 : l1 ⊆ l2 ∧ (∀ e ∈ l2, e.op ∈ ops ∧ OpScore C ecg s cs inst cu1 i b2 e.op e.cu) ∧
      (∀ cu, .merge ∈ ops → OpScore C ecg s cs inst cu1 i b2 .merge cu →
        ∃ e ∈ l2, e.op = .merge ∧ e.cu = cu) := by
    split at hl2
    · rename_i j t2 hj
      have hj' : b2 = some j ∧ cs[j]? = some t2 := by
        cases b2 with
        | none => simp at hj
        | some j' =>
          simp only [Option.bind_some, Option.map_eq_some_iff, Prod.mk.injEq] at hj
          obtain ⟨a, ha, rfl, rfl⟩ := hj
          exact ⟨rfl, ha⟩
      split at hl2
      · rename_i hm
        rw [addOp_ok] at hl2
        obtain ⟨cu, hcu, rfl⟩ := hl2
        refine ⟨by simp, ?_, ?_⟩
        · intro e he
          rcases List.mem_append.1 he with he | he
          · exact s1.2.1 e he
          · simp at he; subst he; exact ⟨hm.1, .merge hj'.1 ht hj'.2 hm.2 hcu⟩
        · intro cu' _ ho
          cases ho with
          | merge h1 h2 h3 h4 h5 =>
            rw [hj'.1] at h1; cases h1
            rw [hj'.2] at h3; cases h3
            rw [ht] at h2; cases h2
            rw [hcu] at h5; cases h5
            exact ⟨_, List.mem_append_right _ (List.mem_singleton.2 rfl), rfl, rfl⟩
      · rename_i hm
        cases hl2
        refine ⟨fun _ h => h, s1.2.1, ?_⟩
        intro cu hmem ho
        cases ho with
        | merge h1 h2 h3 h4 h5 => exact absurd ⟨hmem, h4⟩ hm
    · rename_i hj
      cases hl2
      refine ⟨fun _ h => h, s1.2.1, ?_⟩
      intro cu hmem ho
      cases ho with
      | merge h1 h2 h3 h4 h5 => subst h1; simp [h3] at hj
  have s3 : l2 ⊆ l3 ∧ (∀ e ∈ l3, e.op ∈ ops ∧ OpScore C ecg s cs inst cu1 i b2 e.op e.cu) ∧
      (∀ cu, .split ∈ ops → OpScore C ecg s cs inst cu1 i b2 .split cu →
        ∃ e ∈ l3, e.op = .split ∧ e.cu = cu) := by
    split at hl3
    · rename_i hm
      rw [addOp_ok] at hl3
      obtain ⟨cu, hcu, rfl⟩ := hl3
      refine ⟨by simp, ?_, ?_⟩
      · intro e he
        rcases List.mem_append.1 he with he | he
        · exact s2.2.1 e he
        · simp at he; subst he
          exact ⟨hm.1, .split ht (by intro h0; simp [h0] at hm) hcu⟩
      · intro cu' _ ho
        cases ho with
        | split h1 h2 h3 =>
          rw [ht] at h1; cases h1
          rw [hcu] at h3; cases h3
          exact ⟨_, List.mem_append_right _ (List.mem_singleton.2 rfl), rfl, rfl⟩
    · rename_i hm
      cases hl3
      refine ⟨fun _ h => h, s2.2.1, ?_⟩
      intro cu hmem ho
      cases ho with
      | split h1 h2 h3 =>
        rw [ht] at h1; cases h1
        exact absurd ⟨hmem, List.length_pos_iff.2 h2⟩ hm
  revert h
  cases hs : sortOps l3 with
  | nil => intro h; cases h
  | cons c rest =>
    intro h
    rw [pure_ok] at h
    refine ⟨i, t1, l3, c, rest, rfl, ht, hs, h.symm, s3.2.1, ?_⟩
    intro op cu hop ho
    cases op with
    | best =>
      obtain ⟨e, he, h'⟩ := s0.2 cu hop ho
      exact ⟨e, s3.1 (s2.1 (s1.1 he)), h'⟩
    | new => obtain ⟨e, he, h'⟩ := s1.2.2 cu hop ho; exact ⟨e, s3.1 (s2.1 he), h'⟩
    | merge => obtain ⟨e, he, h'⟩ := s2.2.2 cu hop ho; exact ⟨e, s3.1 he, h'⟩
    | split => exact s3.2.2 cu hop ho

/-- What the loop of `cobweb` may rely on after choosing an operation. -/
theorem chooseOp_spec {s : S} {cs : List (Tree S)} {inst : I} {w w' : World} {b : Best K} {op : Op}
    (h : chooseOp C ecg s cs inst w = .ok (b, op, w')) :
    (∃ t1, cs[b.b1]? = some t1 ∧ (op = .split → t1.children ≠ [])) ∧
    (op = .merge → cs.length > 2 ∧ ∃ j t2, b.b2 = some j ∧ j ≠ b.b1 ∧ cs[j]? = some t2) ∧
    w.ctr ≤ w'.ctr ∧ w'.rnd = w.rnd := by
  unfold chooseOp at h
  simp only [bind_ok] at h
  obtain ⟨b', hb, ⟨cu, op', n⟩, ho, h⟩ := h
  simp only [pure_ok, Prod.mk.injEq] at h
  obtain ⟨rfl, rfl, rfl⟩ := h
  obtain ⟨i, t1, l, c, rest, hi, ht, hs, hr, hl, -⟩ := bestOp_spec C ecg ho
  cases hi
  have hc : c ∈ l := (perm_sortOps l).mem_iff.1 (by rw [hs]; simp)
  obtain ⟨rfl, rfl, rfl⟩ : _ ∧ _ ∧ _ := by simpa [Prod.ext_iff] using hr
  have hsc := (hl c hc).2
  refine ⟨⟨t1, ht, ?_⟩, ?_, ?_, ?_⟩
  · intro he; rw [he] at hsc
    cases hsc with
    | split h1 h2 h3 => rw [ht] at h1; cases h1; exact h2
  · intro he; rw [he] at hsc
    cases hsc with
    | merge h1 h2 h3 h4 h5 =>
      exact ⟨h4, _, _, h1, ((twoBest_idx C ecg hb).2 _ h1).2, h3⟩
  · simp [World.bump, World.skip]
  · simp [World.bump, World.skip]

end
end CF
