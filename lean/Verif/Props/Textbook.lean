/-
Property C107: the trees of Cobweb and Cobweb/3 are exactly the hierarchies of the textbook algorithm, whatever the
ties; the random numbers only decide ties.
-/
import Verif.Proofs.TextbookRun
import Verif.Props.CobwebTree
import Verif.Props.Cobweb3
import Verif.Props.Score

set_option linter.unusedSectionVars false

namespace CF

section generic
variable {I S K : Type} [Field K] [LinearOrder K] [IsStrictOrderedRing K]
variable {C : NodeClass I S} {Ok : I → Prop} {Sum : S → Multiset I → Prop} {Same : I → I → Prop}
variable {ecg : S → Res K} {E : Multiset I → K} {G : I → Prop}

/-- Proper, or the hierarchy before the first instance. -/
def Hier.Start (T : Hier I) : Prop := T.Proper ∨ T = .node 0 []

theorem Sorts.start {i : I} {T T' : Hier I} (h : Sorts E Same i T T') (hT : T.Start) :
    T'.Proper ∧ T'.group = i ::ₘ T.group := by
  rcases hT with hT | rfl
  · exact h.proper hT
  · cases h with
    | join _ => exact ⟨.leaf (by simp), rfl⟩
    | divide h => exact absurd (fun j hj => by simp at hj) h
    | best hH _ _ => exact absurd hH.all.symm.eq_nil (by simp)
    | new hH _ => exact absurd hH.all.symm.eq_nil (by simp)
    | merge hH _ _ => exact absurd hH.all.symm.eq_nil (by simp)
    | split hH _ _ => exact absurd hH.all.symm.eq_nil (by simp)

theorem Learns.start {E : List I → Multiset I → K} {h : List I} {T : Hier I} (hl : Learns E Same h T) :
    T.Start ∧ T.group = (h : Multiset I) := by
  induction hl with
  | empty => exact ⟨.inr rfl, rfl⟩
  | @sort h T i T' _ hs ih =>
    obtain ⟨h1, h2⟩ := hs.start ih.1
    refine ⟨.inl h1, ?_⟩
    rw [h2, ih.2, Multiset.cons_coe]
    exact Multiset.coe_eq_coe.2 (List.perm_append_singleton i h).symm

/-- One call. -/
theorem cobweb_sorts (L : Laws C Ok Sum Same) (hV : Values Sum ecg E) {inst : I} (hi : Ok inst)
    (hinc : ∀ s, C.count (C.incr s inst) = C.count s + 1) {t : Tree S} {T : Hier I} (ht : Depicts Sum t T) (hT : T.Start)
    {w : World} {o : Out S} (ho : cobweb C ecg t inst w = .ok o) : ∃ T', Sorts E Same inst T T' ∧ Depicts Sum o.tree T' := by
  rcases hT with hT | rfl
  · exact LoopRel.sorts L hV hi hinc (loopRel_of_cobweb ho) T ht hT
  · obtain ⟨id, s, cs⟩ := t
    obtain ⟨h1, hs', h2, h3⟩ := shows_inv ht
    cases h3.eq_nil
    cases h2
    have hc : C.count s = 0 := by rw [L.count h1]; rfl
    have : o = ⟨.node id (C.incr s inst) [], id, false, w⟩ := by
      unfold cobweb at ho
      rw [Tree.numConcepts_node, add_comm] at ho
      simp only [cobwebLoop, hc, beq_self_eq_true, Bool.or_true, if_true] at ho
      exact (Except.ok.inj ho).symm
    subst this
    exact ⟨_, .join (by simp), shows_node (L.incr h1 hi) .nil (.refl _)⟩

theorem sorts_cobweb (L : Laws C Ok Sum Same) (hV : Values Sum ecg E) (hE : Scores Sum ecg G) {inst : I} (hi : Ok inst)
    (hg : G inst) (hinc : ∀ s, C.count (C.incr s inst) = C.count s + 1) (hf : ∀ s, Fueled (ecg s)) {T T' : Hier I}
    (h : Sorts E Same inst T T') (hT : T.Start) (hG : ∀ j ∈ T.group, G j) {t : Tree S} (ht : Depicts Sum t T) (c : ℕ) :
    ∃ pre : List ℚ, (∀ q ∈ pre, 0 ≤ q ∧ q < 1) ∧ ∃ t' leaf mv c', Depicts Sum t' T' ∧ ∀ w, w.ctr = c → Draws w pre →
      cobweb C ecg t inst w = .ok ⟨t', leaf, mv, ⟨w.rnd, w.pos + pre.length, c'⟩⟩ := by
  rcases hT with hT | rfl
  · exact h.run_cobweb L hV hE hi hg hinc hf hT hG ht c
  · obtain ⟨id, s, cs⟩ := t
    obtain ⟨h1, hs', h2, h3⟩ := shows_inv ht
    cases h3.eq_nil
    cases h2
    have hc : C.count s = 0 := by rw [L.count h1]; rfl
    have hT' : T' = .node {inst} [] := by
      cases h with
      | join _ => rfl
      | divide h => exact absurd (fun j hj => by simp at hj) h
      | best hH _ _ => exact absurd hH.all.symm.eq_nil (by simp)
      | new hH _ => exact absurd hH.all.symm.eq_nil (by simp)
      | merge hH _ _ => exact absurd hH.all.symm.eq_nil (by simp)
      | split hH _ _ => exact absurd hH.all.symm.eq_nil (by simp)
    subst hT'
    refine ⟨[], by simp, .node id (C.incr s inst) [], id, false, c, shows_node (L.incr h1 hi) .nil (.refl _), ?_⟩
    rintro w rfl -
    unfold cobweb
    rw [Tree.numConcepts_node, add_comm]
    simp only [cobwebLoop, hc, beq_self_eq_true, Bool.or_true, if_true]
    rfl

theorem shows_empty (L : Laws C Ok Sum Same) (w : World) : Depicts Sum (emptyTree C w) (.node 0 []) :=
  shows_node L.fresh .nil (.refl _)

theorem draws_skip_of {w w' : World} {l l' : List ℚ} (h : Draws w (l ++ l')) (hr : w'.rnd = w.rnd)
    (hp : w'.pos = w.pos + l.length) : Draws w' l' := by
  intro k q hk
  have := (draws_append h).2 k q hk
  simpa [World.draw, World.skip, hr, hp] using this

theorem fitList_snoc (l : List I) (i : I) (t : Tree S) (w : World) :
    fitList C ecg (l ++ [i]) t w = (fitList C ecg l t w).bind fun p => (cobweb C ecg p.1 i p.2).bind fun o => .ok (o.tree, o.w) := by
  induction l generalizing t w with
  | nil => rfl
  | cons j l ih =>
    simp only [List.cons_append, fitList]
    cases cobweb C ecg t j w with
    | error e => rfl
    | ok o => exact ih o.tree o.w

/-- A sequence of calls on one stream. -/
theorem learns_fitList (L : Laws C Ok Sum Same) (hV : Values Sum ecg E) (hE : Scores Sum ecg G)
    (hinc : ∀ s i, C.count (C.incr s i) = C.count s + 1) (hf : ∀ s, Fueled (ecg s)) {hist : List I} {T : Hier I}
    (h : Learns (fun _ => E) Same hist T) (hok : ∀ i ∈ hist, Ok i ∧ G i) {t0 : Tree S} (ht0 : Depicts Sum t0 (.node 0 []))
    (c : ℕ) :
    ∃ pre : List ℚ, (∀ q ∈ pre, 0 ≤ q ∧ q < 1) ∧ ∃ t c', Depicts Sum t T ∧ ∀ w, w.ctr = c → Draws w pre →
      fitList C ecg hist t0 w = .ok (t, ⟨w.rnd, w.pos + pre.length, c'⟩) := by
  induction h with
  | empty => exact ⟨[], by simp, t0, c, ht0, by rintro w rfl -; rfl⟩
  | @sort hist T i T' hl hs ih =>
    obtain ⟨pre, hp, t, c', ht, hrun⟩ := ih fun j hj => hok j (by simp [hj])
    obtain ⟨hi, hg⟩ := hok i (by simp)
    have hG : ∀ j ∈ T.group, G j := by
      rw [hl.start.2]; intro j hj; exact (hok j (by simp [Multiset.mem_coe.1 hj])).2
    obtain ⟨pre', hp', t', leaf, mv, c'', ht', hrun'⟩ :=
      sorts_cobweb L hV hE hi hg (fun s => hinc s i) hf hs hl.start.1 hG ht c'
    refine ⟨pre ++ pre', ?_, t', c'', ht', ?_⟩
    · intro q hq
      rcases List.mem_append.1 hq with hq | hq
      · exact hp q hq
      · exact hp' q hq
    · intro w hc hw
      have h1 := hrun w hc (draws_append hw).1
      have h2 := hrun' ⟨w.rnd, w.pos + pre.length, c'⟩ rfl (draws_skip_of hw rfl rfl)
      rw [fitList_snoc, h1]
      show (cobweb C ecg t i _).bind _ = _
      rw [h2]
      simp [Except.bind, Nat.add_assoc]

end generic

/-! ### Cobweb -/

section
variable {A V : Type} [DecidableEq A] [DecidableEq V] {hid : A → Bool}
variable {t : Tree (Stats A V)} {hist : List (Inst A V)} {n : ℕ}

theorem cobweb_values : Values Summarizes (Stats.ecg (K := ℚ) hid) (ecgSpec (V := V) ℚ hid) := by
  intro s m e hs he
  rcases Finset.eq_empty_or_nonempty (visAttrs hid m) with hv | hv
  · rw [ecg_error hs hv] at he; cases he
  · rw [ecg_eq hs hv] at he; exact (Except.ok.inj he).symm

/-- The hierarchies of the textbook algorithm for nominal instances. -/
abbrev LearnsC (hid : A → Bool) : List (Inst A V) → Hier (Inst A V) → Prop :=
  Learns (fun _ => ecgSpec ℚ hid) (SameVisible hid)

/-- **C107**, one call: a successful `ifit` sorts the instance as the textbook says, in whatever order the tree keeps its
children, whatever random numbers are drawn. -/
theorem C107_ifit_sorts {T : Hier (Inst A V)} (hT : LearnsC hid hist T) (ht : Depicts Summarizes t T) {i : Inst A V}
    (hi : Dict.Nodup i) {w : World} {o : Out (Stats A V)} (ho : ifit hid t i w = .ok o) :
    ∃ T', Sorts (ecgSpec ℚ hid) (SameVisible hid) i T T' ∧ Depicts Summarizes o.tree T' :=
  cobweb_sorts (cobwebLaws hid) cobweb_values hi (fun _ => rfl) ht hT.start.1 ho

/-- **C107**, soundness: every tree of Cobweb is one that the textbook algorithm can learn from the same instances. -/
theorem C107_every_tree_is_textbook (h : CobwebReach hid t hist n) : ∃ T, LearnsC hid hist T ∧ Depicts Summarizes t T := by
  induction h with
  | init w => exact ⟨_, .empty, shows_empty (cobwebLaws hid) w⟩
  | step _ hE hi _ ho ih =>
    subst hE
    obtain ⟨T, h1, h2⟩ := ih
    obtain ⟨T', h3, h4⟩ := C107_ifit_sorts h1 h2 hi ho
    exact ⟨T', h1.sort h3, h4⟩

/-- **C107**, completeness: every hierarchy that the textbook algorithm can learn from instances with visible attributes
is learnt by Cobweb, from the same instances in the same order, for some outcomes of the random numbers. Only the first
few random numbers matter, and they are numbers that `random()` can return. -/
theorem C107_every_textbook_tree {T : Hier (Inst A V)} (hT : LearnsC hid hist T)
    (hok : ∀ i ∈ hist, Dict.Nodup i ∧ HasVisible hid i) (w0 : World) :
    ∃ pre : List ℚ, (∀ q ∈ pre, 0 ≤ q ∧ q < 1) ∧ ∃ t, Depicts Summarizes t T ∧ ∀ w, w.ctr = w0.ctr → Draws w pre →
      ∃ w' n, fitList (cobwebClass hid) (Stats.ecg (K := ℚ) hid) hist (emptyTree (cobwebClass hid) w) (w.bump 1) = .ok (t, w') ∧
        CobwebReach hid t hist n := by
  obtain ⟨pre, hp, t, c', ht, hrun⟩ := learns_fitList (cobwebLaws hid) cobweb_values (cobweb_scores ℚ) (fun _ _ => rfl)
    fueled_ecg hT hok (shows_empty (cobwebLaws hid) w0) (w0.ctr + 1)
  refine ⟨pre, hp, t, ht, fun w hc hw => ?_⟩
  have h1 := hrun (w.bump 1) (by simp [World.bump, hc]) hw
  have h2 : emptyTree (cobwebClass (A := A) (V := V) hid) w = emptyTree (cobwebClass hid) w0 := by simp [emptyTree, hc]
  rw [← h2] at h1
  obtain ⟨n, -, hr⟩ := reach_fitList (Ok := Dict.Nodup) (E := (· = Stats.ecg (K := ℚ) hid)) rfl (fun i hi => (hok i hi).1)
    (Reach.init w) (le_refl _) h1
  exact ⟨_, n, h1, by simpa using hr⟩

end

/-! ### Cobweb/3 -/

section
variable {A B V : Type} [DecidableEq A] [DecidableEq B] [DecidableEq V] {hid : A → Bool} {cfg : Cfg3 A B}
variable {st : State3 A B V} {hist : List (Inst3 A V)} {n : ℕ}

/-- The value of a group of instances after the instances `hist`. -/
noncomputable abbrev value3 (hid : A → Bool) (cfg : Cfg3 A B) (hist : List (Inst3 A V)) : Multiset (Inst3 A V) → ℝ :=
  ecgSpec3 hid cfg fun b => (scaleNums cfg.inner hist b : Multiset ℝ)

/-- The hierarchies of the textbook algorithm for nominal and numeric instances. -/
abbrev Learns3 (hid : A → Bool) (cfg : Cfg3 A B) : List (Inst3 A V) → Hier (Inst3 A V) → Prop :=
  Learns (value3 hid cfg) (SameVisible hid)

theorem cobweb3_values {sc : Scales B} {f : B → Multiset ℝ} (hsc : ScalesObs sc f) :
    Values Summarizes3 (Stats3.ecg (V := V) hid cfg sc) (ecgSpec3 hid cfg f) := by
  intro s m e hs he
  rcases Finset.eq_empty_or_nonempty (visAttrs hid m) with hv | hv
  · rw [ecg3_error hs hv] at he; cases he
  · rw [ecg3_eq hs hsc hv] at he; exact (Except.ok.inj he).symm

theorem scales_next (h : Reach3 hid cfg st hist n) (i : Inst3 A V) :
    ScalesObs (updateScales cfg.inner st.scales i) (fun b => (scaleNums cfg.inner (hist ++ [i]) b : Multiset ℝ)) := by
  have := scalesObs_update cfg.inner (reach3_scales h) i
  convert this using 2 with b
  rw [scaleNums_append, Multiset.coe_add]

/-- **C107**, one call of Cobweb/3. -/
theorem C107_ifit_sorts3 (h : Reach3 hid cfg st hist n) {T : Hier (Inst3 A V)} (hT : Learns3 hid cfg hist T)
    (ht : Depicts Summarizes3 st.root T) {i : Inst3 A V} (hi : Dict.Nodup i) {w : World} {o : Out3 A B V}
    (ho : ifit3 hid cfg st i w = .ok o) :
    ∃ T', Sorts (value3 hid cfg (hist ++ [i])) (SameVisible hid) i T T' ∧ Depicts Summarizes3 o.state.root T' := by
  simp only [ifit3, bind_ok, pure_ok] at ho
  obtain ⟨o', ho', rfl⟩ := ho
  exact cobweb_sorts (cobweb3Laws hid) (cobweb3_values (scales_next h i)) hi (fun _ => rfl) ht hT.start.1 ho'

/-- **C107**, soundness for Cobweb/3. -/
theorem C107_every_tree_is_textbook3 (h : Reach3 hid cfg st hist n) :
    ∃ T, Learns3 hid cfg hist T ∧ Depicts Summarizes3 st.root T := by
  induction h with
  | init w => exact ⟨_, .empty, shows_empty (cobweb3Laws hid) w⟩
  | step hr hi _ ho ih =>
    obtain ⟨T, h1, h2⟩ := ih
    obtain ⟨T', h3, h4⟩ := C107_ifit_sorts3 hr h1 h2 hi ho
    exact ⟨T', h1.sort h3, h4⟩

/-- **C107**, completeness of one call of Cobweb/3. -/
theorem C107_sorts_ifit3 (h : Reach3 hid cfg st hist n) {T T' : Hier (Inst3 A V)} (hT : Learns3 hid cfg hist T)
    (ht : Depicts Summarizes3 st.root T) {i : Inst3 A V} (hok : ∀ j ∈ hist, HasVisible hid j) (hi : Dict.Nodup i)
    (hv : HasVisible hid i) (hs : Sorts (value3 hid cfg (hist ++ [i])) (SameVisible hid) i T T') (c : ℕ) :
    ∃ pre : List ℚ, (∀ q ∈ pre, 0 ≤ q ∧ q < 1) ∧ ∃ st' leaf c', Depicts Summarizes3 st'.root T' ∧ ∀ w, w.ctr = c →
      Draws w pre → ifit3 hid cfg st i w = .ok ⟨st', leaf, ⟨w.rnd, w.pos + pre.length, c'⟩⟩ := by
  have hG : ∀ j ∈ T.group, HasVisible hid j := by
    rw [hT.start.2]; intro j hj; exact hok j (Multiset.mem_coe.1 hj)
  obtain ⟨pre, hp, t', leaf, mv, c', ht', hrun⟩ := sorts_cobweb (cobweb3Laws hid) (cobweb3_values (scales_next h i))
    (cobweb3_scores (scales_next h i)) hi hv (fun _ => rfl) (fueled_ecg3 _) hs hT.start.1 hG ht c
  refine ⟨pre, hp, ⟨t', updateScales cfg.inner st.scales i⟩, leaf, c', ht', fun w hc hw => ?_⟩
  simp only [ifit3, hrun w hc hw]
  rfl

/-- `for i in instances: self.ifit(i)` (cobweb.py:111-112) on a `Cobweb3Tree`. -/
noncomputable def fitList3 (hid : A → Bool) (cfg : Cfg3 A B) : List (Inst3 A V) → State3 A B V → World →
    Res (State3 A B V × World)
  | [], st, w => .ok (st, w)
  | i :: is, st, w => do
    let o ← ifit3 hid cfg st i w
    fitList3 hid cfg is o.state o.w

theorem fitList3_snoc (l : List (Inst3 A V)) (i : Inst3 A V) (st : State3 A B V) (w : World) :
    fitList3 hid cfg (l ++ [i]) st w =
      (fitList3 hid cfg l st w).bind fun p => (ifit3 hid cfg p.1 i p.2).bind fun o => .ok (o.state, o.w) := by
  induction l generalizing st w with
  | nil =>
    show (do let o ← ifit3 hid cfg st i w; fitList3 hid cfg [] o.state o.w) = _
    rfl
  | cons j l ih =>
    simp only [List.cons_append, fitList3]
    cases ifit3 hid cfg st j w with
    | error e => rfl
    | ok o => exact ih o.state o.w

theorem reach3_fitList3 {l : List (Inst3 A V)} (hl : ∀ i ∈ l, Dict.Nodup i) {st' : State3 A B V} {w w' : World}
    (hr : Reach3 hid cfg st hist n) (hn : n ≤ w.ctr) (hf : fitList3 hid cfg l st w = .ok (st', w')) :
    ∃ n' ≤ w'.ctr, Reach3 hid cfg st' (hist ++ l) n' := by
  induction l generalizing st w hist n with
  | nil => simp [fitList3] at hf; obtain ⟨rfl, rfl⟩ := hf; exact ⟨n, hn, by simpa⟩
  | cons i l ih =>
    simp only [fitList3, bind_ok] at hf
    obtain ⟨o, ho, hf⟩ := hf
    have := ih (fun i hi => hl i (by simp [hi])) (.step hr (hl i (by simp)) hn ho) le_rfl hf
    simpa using this

/-- **C107**, completeness for Cobweb/3. -/
theorem C107_every_textbook_tree3 {T : Hier (Inst3 A V)} (hT : Learns3 hid cfg hist T)
    (hok : ∀ i ∈ hist, Dict.Nodup i ∧ HasVisible hid i) (w0 : World) :
    ∃ pre : List ℚ, (∀ q ∈ pre, 0 ≤ q ∧ q < 1) ∧ ∃ st : State3 A B V, Depicts Summarizes3 st.root T ∧
      ∀ w, w.ctr = w0.ctr → Draws w pre → ∃ w' n, fitList3 hid cfg hist (emptyState3 hid w) (w.bump 1) = .ok (st, w') ∧
        Reach3 hid cfg st hist n := by
  suffices h : ∃ pre : List ℚ, (∀ q ∈ pre, 0 ≤ q ∧ q < 1) ∧ ∃ (st : State3 A B V) (c' : ℕ), Depicts Summarizes3 st.root T ∧
      ∀ w, w.ctr = w0.ctr → Draws w pre → fitList3 hid cfg hist (emptyState3 hid w) (w.bump 1) =
        .ok (st, ⟨w.rnd, w.pos + pre.length, c'⟩) by
    obtain ⟨pre, hp, st, c', ht, hrun⟩ := h
    refine ⟨pre, hp, st, ht, fun w hc hw => ?_⟩
    obtain ⟨n, -, hr⟩ := reach3_fitList3 (fun i hi => (hok i hi).1) (Reach3.init w) (le_refl _) (hrun w hc hw)
    exact ⟨_, n, hrun w hc hw, by simpa using hr⟩
  induction hT with
  | empty =>
    refine ⟨[], by simp, emptyState3 hid w0, w0.ctr + 1, shows_empty (cobweb3Laws hid) w0, ?_⟩
    rintro w hc -
    simp [fitList3, emptyState3, emptyTree, World.bump, hc]
  | @sort hist T i T' hl hs ih =>
    obtain ⟨pre, hp, st, c', ht, hrun⟩ := ih fun j hj => hok j (by simp [hj])
    obtain ⟨hi, hg⟩ := hok i (by simp)
    -- the tree before the last call
    let w1 : World := ⟨fun k => (pre[k]?).getD 0, 0, w0.ctr⟩
    have hw1 : Draws w1 pre := by
      intro k q hk
      simp [World.draw, w1, hk]
    obtain ⟨n, -, hr⟩ := reach3_fitList3 (fun j hj => (hok j (by simp [hj])).1) (Reach3.init w1) (le_refl _)
      (hrun w1 rfl hw1)
    rw [List.nil_append] at hr
    obtain ⟨pre', hp', st', leaf, c'', ht', hrun'⟩ :=
      C107_sorts_ifit3 hr hl ht (fun j hj => (hok j (by simp [hj])).2) hi hg hs c'
    refine ⟨pre ++ pre', ?_, st', c'', ht', ?_⟩
    · intro q hq
      rcases List.mem_append.1 hq with hq | hq
      · exact hp q hq
      · exact hp' q hq
    · intro w hc hw
      have h1 := hrun w hc (draws_append hw).1
      have h2 := hrun' ⟨w.rnd, w.pos + pre.length, c'⟩ rfl (draws_skip_of hw rfl rfl)
      rw [fitList3_snoc, h1]
      show (ifit3 hid cfg st i _).bind _ = _
      rw [h2]
      simp [Except.bind, Nat.add_assoc]

end

/-! ### Examples -/

/-- The hypothesis of soundness is met by the demonstration tree: it is a textbook tree. -/
example : ∃ T, LearnsC Demo.hid Demo.insts T ∧ Depicts Summarizes Demo.demoTree T := by
  obtain ⟨n, h⟩ := demo_reach
  exact C107_every_tree_is_textbook h

/-- Four instances with two attributes of two values. -/
def Demo.square : List (Inst ℕ ℕ) := [[(1, 1), (2, 1)], [(1, 2), (2, 2)], [(1, 1), (2, 2)], [(1, 2), (2, 1)]]

/-- The numbers of instances of the root's children after fitting the square with the given random numbers. -/
def Demo.squareSizes (rnd : ℕ → ℚ) : Option (List ℕ) :=
  match fitList (cobwebClass Demo.hid) (Stats.ecg (K := ℚ) Demo.hid) Demo.square
    (emptyTree (cobwebClass Demo.hid) ⟨rnd, 0, 0⟩) ⟨rnd, 0, 1⟩ with
  | .ok (t, _) => some (t.children.map fun c => c.stats.count)
  | .error _ => none

theorem Demo.square_up : Demo.squareSizes (fun n => mkRat n 1000) = some [1, 1, 1, 1] := by decide +kernel
theorem Demo.square_down : Demo.squareSizes (fun n => mkRat (999 - n : ℤ) 1000) = some [1, 1, 2] := by decide +kernel

theorem Demo.square_learns {rnd : ℕ → ℚ} {l : List ℕ} (h : Demo.squareSizes rnd = some l) :
    ∃ T, LearnsC Demo.hid Demo.square T ∧ T.subs.length = l.length := by
  unfold Demo.squareSizes at h
  split at h
  · rename_i t w' hf
    obtain ⟨n, -, hr⟩ := reach_fitList (Ok := Dict.Nodup) (E := (· = Stats.ecg (K := ℚ) Demo.hid)) rfl (by decide)
      (Reach.init ⟨rnd, 0, 0⟩) (le_refl _) hf
    rw [List.nil_append] at hr
    obtain ⟨T, h1, h2⟩ := C107_every_tree_is_textbook hr
    refine ⟨T, h1, ?_⟩
    obtain ⟨hs', h3, h4⟩ := h2.subs
    rw [← h4.length_eq, ← h3.length_eq, ← Option.some.inj h, List.length_map]
  · cases h

/-- **C107**: ties do occur, and matter: two different hierarchies are textbook results for the same four instances in the
same order. -/
theorem C107_ties_matter : ∃ T T' : Hier (Inst ℕ ℕ), LearnsC Demo.hid Demo.square T ∧ LearnsC Demo.hid Demo.square T' ∧
    T.subs.length = 4 ∧ T'.subs.length = 3 := by
  obtain ⟨T, h1, h2⟩ := Demo.square_learns Demo.square_up
  obtain ⟨T', h3, h4⟩ := Demo.square_learns Demo.square_down
  exact ⟨T, T', h1, h3, h2, h4⟩

theorem Demo.square_ok : ∀ i ∈ Demo.square, Dict.Nodup i ∧ HasVisible Demo.hid i := by
  intro i hi
  simp only [Demo.square, List.mem_cons, List.not_mem_nil, or_false] at hi
  rcases hi with rfl | rfl | rfl | rfl <;>
    exact ⟨by simp [Dict.Nodup, Dict.keys], 1, by simp [Dict.keys], by decide⟩

/-- The hypotheses of completeness are met, for a hierarchy with four concepts and for another one with three. -/
example (T : Hier (Inst ℕ ℕ)) (h : LearnsC Demo.hid Demo.square T) : ∃ t n, CobwebReach Demo.hid t Demo.square n ∧
    Depicts Summarizes t T := by
  obtain ⟨pre, -, t, ht, hrun⟩ := C107_every_textbook_tree h Demo.square_ok Demo.w0
  obtain ⟨-, n, -, hr⟩ := hrun ⟨fun k => (pre[k]?).getD 0, 0, Demo.w0.ctr⟩ rfl
    (fun k q hk => by simp [World.draw, hk])
  exact ⟨t, n, hr, ht⟩

/-- The hypothesis of soundness for Cobweb/3 is met by a mixed history. -/
example : ∃ T, Learns3 Demo.hid (⟨1 / 2, id⟩ : Cfg3 ℕ ℕ) Demo.mixed T := by
  obtain ⟨st, n, hr⟩ := reach3_exists (⟨1 / 2, id⟩ : Cfg3 ℕ ℕ) Demo.mixed Demo.mixed_ok
  obtain ⟨T, h, -⟩ := C107_every_tree_is_textbook3 hr
  exact ⟨T, h⟩

end CF
