/-
Property C12, ties: which operation is returned when several have the best score.
-/
import Verif.Props.Score

namespace CF

/-- The names of the operations in the code (cobweb.py:523-532). -/
def Op.name : Op → String
  | .best => "best" | .new => "new" | .merge => "merge" | .split => "split"

/-- The operations that `get_best_operation` looks at before this one. -/
def Op.earlier : Op → List Op
  | .best => [] | .new => [.best] | .merge => [.best, .new] | .split => [.best, .new, .merge]

section
variable {I S K : Type} [Field K] [LinearOrder K] {C : NodeClass I S} {ecg : S → Res K}

/-- Asked for and applicable. -/
def Considered (C : NodeClass I S) (ecg : S → Res K) (ops : List Op) (s : S) (cs : List (Tree S)) (inst : I) (cu1 : K)
    (i : ℕ) (b2 : Option ℕ) (op : Op) : Prop := op ∈ ops ∧ ∃ u, OpScore C ecg s cs inst cu1 i b2 op u

open Classical in
/-- The random number of an operation: the stream from `off` on has one for each operation considered. -/
noncomputable def opDraw (C : NodeClass I S) (ecg : S → Res K) (ops : List Op) (s : S) (cs : List (Tree S)) (inst : I)
    (cu1 : K) (i : ℕ) (b2 : Option ℕ) (w : World) (off : ℕ) (op : Op) : ℚ :=
  w.draw (off + (op.earlier.filter fun o => Considered C ecg ops s cs inst cu1 i b2 o).length)

theorem OpScore.unique {s : S} {cs : List (Tree S)} {inst : I} {cu1 : K} {i : ℕ} {b2 : Option ℕ} {op : Op} {u u' : K}
    (h : OpScore C ecg s cs inst cu1 i b2 op u) (h' : OpScore C ecg s cs inst cu1 i b2 op u') : u = u' := by
  cases h with
  | best => cases h'; rfl
  | new h => cases h' with | new h' => rw [h] at h'; exact Except.ok.inj h'
  | merge h1 h2 h3 _ h =>
    cases h' with
    | merge h1' h2' h3' _ h' =>
      rw [h1] at h1'; cases h1'
      rw [h2] at h2'; cases h2'
      rw [h3] at h3'; cases h3'
      rw [h] at h'; exact Except.ok.inj h'
  | split h1 _ h =>
    cases h' with
    | split h1' _ h' =>
      rw [h1] at h1'; cases h1'
      rw [h] at h'; exact Except.ok.inj h'

/-- What each of the four steps does to the list of candidates. -/
def OpStep (C : NodeClass I S) (ecg : S → Res K) (ops : List Op) (s : S) (cs : List (Tree S)) (inst : I) (cu1 : K)
    (i : ℕ) (b2 : Option ℕ) (w : World) (off : ℕ) (op : Op) (l l' : List (OpCand K)) : Prop :=
  (op ∈ ops ∧ ∃ u, OpScore C ecg s cs inst cu1 i b2 op u ∧ l' = l ++ [⟨u, w.draw (off + l.length), op⟩]) ∨
  (¬ Considered C ecg ops s cs inst cu1 i b2 op ∧ l' = l)

theorem bestOp_steps {ops : List Op} {s : S} {cs : List (Tree S)} {inst : I} {cu1 : K} {b1 b2 : Option ℕ} {w : World}
    {off : ℕ} {r : K × Op × ℕ} (h : bestOp C ecg ops s cs inst cu1 b1 b2 w off = .ok r) :
    ∃ i l0 l1 l2 l3 c rest, b1 = some i ∧ OpStep C ecg ops s cs inst cu1 i b2 w off .best [] l0 ∧
      OpStep C ecg ops s cs inst cu1 i b2 w off .new l0 l1 ∧ OpStep C ecg ops s cs inst cu1 i b2 w off .merge l1 l2 ∧
      OpStep C ecg ops s cs inst cu1 i b2 w off .split l2 l3 ∧ sortOps l3 = c :: rest ∧ r = (c.cu, c.op, l3.length) := by
  unfold bestOp at h
  cases b1 with
  | none => cases h
  | some i =>
  simp only at h
  cases ht : cs[i]? with
  | none => rw [ht] at h; cases h
  | some t1 =>
  rw [ht] at h
  simp only [bind_ok] at h
  obtain ⟨l1, hl1, l2, hl2, l3, hl3, h⟩ := h
  unfold opsNew at hl1
  unfold opsMerge at hl2
  unfold opsSplit at hl3
  revert h
  cases hs : sortOps l3 with
  | nil => intro h; cases h
  | cons c rest =>
    intro h
    rw [pure_ok] at h
    refine ⟨i, opsBest ops cu1 w off, l1, l2, l3, c, rest, rfl, ?_, ?_, ?_, ?_, hs, h.symm⟩
    · unfold opsBest
      by_cases hb : Op.best ∈ ops
      · exact .inl ⟨hb, cu1, .best, by simp [hb]⟩
      · exact .inr ⟨fun h => hb h.1, by simp [hb]⟩
    · split at hl1
      · next hn =>
        rw [addOp_ok] at hl1
        obtain ⟨u, hu, rfl⟩ := hl1
        exact .inl ⟨hn, u, .new hu, rfl⟩
      · next hn => exact .inr ⟨fun h => hn h.1, (Except.ok.inj hl1).symm⟩
    · split at hl2
      · next j t2 hj =>
        have hj' : b2 = some j ∧ cs[j]? = some t2 := by
          cases b2 with
          | none => simp at hj
          | some j' =>
            simp only [Option.bind_some, Option.map_eq_some_iff, Prod.mk.injEq] at hj
            obtain ⟨a, ha, rfl, rfl⟩ := hj
            exact ⟨rfl, ha⟩
        split at hl2
        · next hm =>
          rw [addOp_ok] at hl2
          obtain ⟨u, hu, rfl⟩ := hl2
          exact .inl ⟨hm.1, u, .merge hj'.1 ht hj'.2 hm.2 hu, rfl⟩
        · next hm =>
          refine .inr ⟨?_, (Except.ok.inj hl2).symm⟩
          rintro ⟨h1, u, hu⟩
          cases hu with
          | merge _ _ _ h4 _ => exact hm ⟨h1, h4⟩
      · next hj =>
        refine .inr ⟨?_, (Except.ok.inj hl2).symm⟩
        rintro ⟨h1, u, hu⟩
        cases hu with
        | merge h1 _ h3 _ _ => subst h1; simp [h3] at hj
    · split at hl3
      · next hm =>
        rw [addOp_ok] at hl3
        obtain ⟨u, hu, rfl⟩ := hl3
        exact .inl ⟨hm.1, u, .split ht (by intro h0; simp [h0] at hm) hu, rfl⟩
      · next hm =>
        refine .inr ⟨?_, (Except.ok.inj hl3).symm⟩
        rintro ⟨h1, u, hu⟩
        cases hu with
        | split h2 h3 _ =>
          rw [ht] at h2; cases h2
          exact hm ⟨h1, List.length_pos_iff.2 h3⟩

/-- **C12**, ties: an operation with the same score as the one returned has a smaller random number, or the same one
and a name that is not later in the alphabet. The number of draws is the number of operations considered. -/
theorem C12_ties {ops : List Op} {s : S} {cs : List (Tree S)} {inst : I} {cu1 : K}
    {b1 b2 : Option ℕ} {w : World} {off : ℕ} {cu : K} {op : Op} {k : ℕ}
    (h : bestOp C ecg ops s cs inst cu1 b1 b2 w off = .ok (cu, op, k)) :
    ∃ i, b1 = some i ∧ (∀ op', op' ∈ ops → OpScore C ecg s cs inst cu1 i b2 op' cu →
      opDraw C ecg ops s cs inst cu1 i b2 w off op' < opDraw C ecg ops s cs inst cu1 i b2 w off op ∨
      opDraw C ecg ops s cs inst cu1 i b2 w off op' = opDraw C ecg ops s cs inst cu1 i b2 w off op ∧
        op'.name ≤ op.name) ∧
      ∃ l : List Op, l.Sublist [.best, .new, .merge, .split] ∧ l.length = k ∧
        ∀ o, o ∈ l ↔ Considered C ecg ops s cs inst cu1 i b2 o := by
  classical
  obtain ⟨i, l0, l1, l2, l3, c, rest, hi, s0, s1, s2, s3, hs, hr⟩ := bestOp_steps h
  refine ⟨i, hi, ?_⟩
  simp only [Prod.mk.injEq] at hr
  obtain ⟨rfl, rfl, rfl⟩ := hr
  -- every operation considered has its entry
  have conv : ∀ {o l l'}, OpStep C ecg ops s cs inst cu1 i b2 w off o l l' →
      (Considered C ecg ops s cs inst cu1 i b2 o ∧ ∃ u, OpScore C ecg s cs inst cu1 i b2 o u ∧
        l' = l ++ [⟨u, w.draw (off + l.length), o⟩]) ∨ (¬ Considered C ecg ops s cs inst cu1 i b2 o ∧ l' = l) := by
    rintro o l l' (⟨h1, u, h2, h3⟩ | h)
    · exact .inl ⟨⟨h1, u, h2⟩, u, h2, h3⟩
    · exact .inr h
  have key : (∀ e ∈ l3, OpScore C ecg s cs inst cu1 i b2 e.op e.cu ∧
      e.rnd = opDraw C ecg ops s cs inst cu1 i b2 w off e.op) ∧
      (∀ o, Considered C ecg ops s cs inst cu1 i b2 o → ∃ e ∈ l3, e.op = o) ∧
      (l3.map OpCand.op).Sublist [.best, .new, .merge, .split] ∧
      ∀ e ∈ l3, Considered C ecg ops s cs inst cu1 i b2 e.op := by
    clear hs h
    rcases conv s0 with ⟨k0, u0, h0, rfl⟩ | ⟨k0, rfl⟩ <;> rcases conv s1 with ⟨k1, u1, h1, rfl⟩ | ⟨k1, rfl⟩ <;>
      rcases conv s2 with ⟨k2, u2, h2, rfl⟩ | ⟨k2, rfl⟩ <;> rcases conv s3 with ⟨k3, u3, h3, rfl⟩ | ⟨k3, rfl⟩ <;>
      (refine ⟨?_, fun o ho => ?_, by simp; try decide, ?_⟩ <;>
        [simp [opDraw, Op.earlier, List.filter, *]; (cases o <;> simp_all); simp [*]])
  have hent := key.1
  have hall : ∀ o ∈ ops, ∀ u, OpScore C ecg s cs inst cu1 i b2 o u → ∃ e ∈ l3, e.op = o :=
    fun o ho u hu => key.2.1 o ⟨ho, u, hu⟩
  refine ⟨?_, l3.map OpCand.op, key.2.2.1, by simp, fun o => ⟨fun ho => ?_, fun ho => ?_⟩⟩
  rotate_left
  · obtain ⟨e, he, rfl⟩ := List.mem_map.1 ho
    exact key.2.2.2 e he
  · obtain ⟨e, he, rfl⟩ := key.2.1 o ho
    exact List.mem_map_of_mem he
  intro op' ho hsc
  obtain ⟨e, he, rfl⟩ := hall op' ho _ hsc
  obtain ⟨h1, h2⟩ := hent e he
  have hp := perm_sortOps l3
  have hpw := pairwise_sortOps l3
  rw [hs] at hp hpw
  obtain ⟨h3, h4⟩ := hent c (hp.mem_iff.1 (by simp))
  have hcu := h1.unique hsc
  rw [← h2, ← h4]
  rcases List.mem_cons.1 (hp.mem_iff.2 he) with rfl | he
  · exact .inr ⟨rfl, String.le_refl _⟩
  · have := (List.pairwise_cons.1 hpw).1 e he
    simp only [OpCand.key, Prod.Lex.toLex_le_toLex] at this
    rcases this with h | ⟨-, h | ⟨h5, h6⟩⟩
    · exact absurd hcu h.ne
    · exact .inl h
    · refine .inr ⟨h5, ?_⟩
      revert h6
      cases e.op <;> cases c.op <;> simp [Op.rank, Op.name] <;> decide

end

/-- A tie of scores and of random numbers, on the demonstration tree: `new` comes after `best` in the alphabet. -/
example : ∃ u : ℚ, cuForNewChild (cobwebClass Demo.hid) (Stats.ecg (K := ℚ) Demo.hid) Demo.demoTree.stats
    (Demo.demoTree.children.map Tree.stats) [(1, 3), (2, 1)] = .ok u ∧
    (bestOp (cobwebClass Demo.hid) (Stats.ecg (K := ℚ) Demo.hid) [.best, .new] Demo.demoTree.stats
      Demo.demoTree.children [(1, 3), (2, 1)] u (some 0) (some 1) { Demo.w0 with rnd := fun _ => 1 / 2 } 0).map
        (fun r => (r.2.1, r.2.2)) = .ok (.new, 2) := by
  refine ⟨5 / 36, ?_, ?_⟩ <;> decide +kernel

end CF
