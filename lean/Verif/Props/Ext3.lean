/-
Property C99: `Cobweb3Tree` with all Python floats: infinities, `nan` and overflow.
-/
import Verif.Proofs.Ext3
import Verif.Props.Float3

set_option linter.unusedSectionVars false

namespace CF
variable {A B V : Type} [DecidableEq A] [DecidableEq B] [DecidableEq V] {R : Rounding} {hid : A → Bool}
variable {X : XF → Prop} {cfg : Cfg3 A B} {st : XState A B V} {hist : List (XInst A V)} {n : ℕ}

/-! ### The tree -/

theorem ifitX_by {e : XEnv V} {i : XInst A V} {w : World} {o : XOut A B V}
    (ho : ifitX R.fl e hid cfg st i w = .ok o) :
    ∃ o', cobwebBy (extClass R.fl hid) (chooseOpA (e.ar R.fl) (extClass R.fl hid)
        (XStats.ecg R.fl e.pos hid cfg (updateScalesX R.fl cfg.inner st.scales i))) st.root i w = .ok o' ∧
      o.state.root = o'.tree ∧ o.leaf = o'.leaf ∧ o.w = o'.w ∧
      o.state.scales = updateScalesX R.fl cfg.inner st.scales i := by
  simp only [ifitX, bind_ok, pure_ok] at ho
  obtain ⟨o', ho', rfl⟩ := ho
  exact ⟨o', ho', rfl, rfl, rfl, rfl⟩

theorem reachX_any (h : ReachX R X hid cfg st hist n) :
    ReachAny (extClass R.fl hid) (XInstOk X) st.root hist n := by
  induction h with
  | init w => exact .init w
  | step _ hs hi hw ho ih =>
    obtain ⟨o', ho', e1, -, e3, -⟩ := ifitX_by ho
    rw [e1, e3]
    exact .step ih hs hi hw ho'

theorem reachX_holds {P : CV XF → Prop} (K : KeepsX R X P) (h : ReachX R X hid cfg st hist n) :
    TreeHolds (extClass R.fl hid) (CountsX P) (SameVisible hid) st.root (hist : Multiset (XInst A V)) :=
  (reachAny_holds (extLaws K hid) (reachX_any h)).holds (extLaws K hid)

theorem CountsX.getD {P : CV XF → Prop} {s : XStats A V} {m : Multiset (XInst A V)} (h : CountsX P s m) (a : A) (v : V) :
    (s.nomLookup a v).getD 0 = occ m a (.nom v) := by
  rw [h.noms]; split <;> simp_all

theorem CountsX.numCount {P : CV XF → Prop} {s : XStats A V} {m : Multiset (XInst A V)} (h : CountsX P s m) (a : A) :
    s.numCount a = Multiset.card (numsX m a) := by
  unfold XStats.numCount
  rcases h.cv a with ⟨h1, h2⟩ | ⟨h1, c, h2, h3, -⟩
  · simp [h1, h2]
  · rw [h2]; simpa using h3

theorem valid_id : ∀ x : XF, x.Valid → x.Valid := fun _ h => h

/-- **C99**: whatever floats are fitted, infinities and `nan` among them, and whatever overflows, every concept counts
some of the fitted instances and the root all of them (instances, nominal values, and how many numbers each
accumulator holds), and the concept ids are distinct. -/
theorem C99_every_node (h : ReachX R XF.Valid hid cfg st hist n) :
    CountsX AnyCV st.root.stats (hist : Multiset (XInst A V)) ∧ st.root.ids.Nodup ∧
    ∀ x ∈ st.root.nodes, ∃ m ≤ (hist : Multiset (XInst A V)), CountsX AnyCV x.stats m := by
  have K := keeps_any (R := R) valid_id
  refine ⟨(reachX_holds K h).sum_table (extLaws K hid), (reachAny_ids (reachX_any h)).1, fun x hx => ?_⟩
  obtain ⟨m, hm, hle⟩ := (reachX_holds K h).of_mem_nodes hx
  exact ⟨m, hle, hm.sum_table (extLaws K hid)⟩

theorem numsX_sum (ms : List (Multiset (XInst A V))) (a : A) :
    numsX ms.sum a = (ms.map fun m => numsX m a).sum := by
  induction ms with
  | nil => simp [numsX]
  | cons m ms ih => simp [numsX_add, ih]

/-- **C99**: an internal concept has at least two children, and its counts are the sums of theirs. -/
theorem C99_conserved (h : ReachX R XF.Valid hid cfg st hist n) :
    ∀ x ∈ st.root.nodes, x.children ≠ [] → 2 ≤ x.children.length ∧
      x.stats.count = (x.children.map fun c => c.stats.count).sum ∧
      (∀ a v, (x.stats.nomLookup a v).getD 0 =
        (x.children.map fun c => (c.stats.nomLookup a v).getD 0).sum) ∧
      ∀ a, x.stats.numCount a = (x.children.map fun c => c.stats.numCount a).sum := by
  intro x hx hne
  have K := keeps_any (R := R) valid_id
  obtain ⟨m, hm, -⟩ := (reachX_holds K h).of_mem_nodes hx
  have hs := hm.sum_table (extLaws K hid)
  refine ⟨hm.two_children.resolve_left hne, ?_⟩
  obtain ⟨ms, hf, rfl⟩ := hm.children hne
  refine ⟨?_, fun a v => ?_, fun a => ?_⟩
  · rw [hs.count, map_eq_of_forall₂ (g := Multiset.card) (fun c m hc => hc.sum.count) hf]
    exact sum_hom Multiset.cardHom ms
  · rw [hs.getD, sum_occ]
    congr 1
    exact (map_eq_of_forall₂ (fun c m hc => hc.sum.getD a v) hf).symm
  · rw [hs.numCount, numsX_sum, map_eq_of_forall₂ (fun c m hc => hc.sum.numCount a) hf]
    have := sum_hom Multiset.cardHom (ms.map fun m => numsX m a)
    simpa [Function.comp_def] using this

/-- **C99**: the history is distributed over the leaves in groups of instances that agree on the visible attributes.
The accumulator of a visible attribute of a leaf is that of a repeated number.  The tests of `is_exact_match` on a
leaf never raise, and an instance matches a leaf if and only if it agrees with its instances, and has no visible
infinity that the leaf has seen twice. -/
theorem C99_leaves (h : ReachX R XF.Valid hid cfg st hist n) (hne : hist ≠ []) :
    ∃ groups : List (List (XInst A V)), (groups.map fun g => (g : Multiset (XInst A V))).sum = (hist : Multiset _) ∧
      List.Forall₂ (fun leaf g => g ≠ [] ∧ CountsX AnyCV leaf.stats (g : Multiset (XInst A V)) ∧
        (∀ i ∈ g, ∀ j ∈ g, ∀ a, hid a = false → Dict.get? i a = Dict.get? j a) ∧
        (∀ i ∈ g, ∀ a x, hid a = false → Dict.get? i a = some (.num x) →
          leaf.stats.cvOf a = some (constX g.length x)) ∧
        (∀ a t v, hid a = false → (a, t) ∈ leaf.stats.av → ∃ b, XTab.matches R.fl leaf.stats.count t v = .ok b) ∧
        ∀ i, XInstOk XF.Valid i → (leaf.stats.isExact R.fl hid i = true ↔
          (∀ j ∈ g, ∀ a, hid a = false → Dict.get? i a = Dict.get? j a) ∧ Repeats hid g.length i))
        st.root.leaves groups := by
  have K := keeps_any (R := R) valid_id
  rcases reachAny_holds (extLaws K hid) (reachX_any h) with ⟨h0, -⟩ | h
  · simp at h0; exact absurd h0 hne
  · obtain ⟨ls, h1, h2⟩ := h.leaves
    refine ⟨ls, h1, h2.imp ?_⟩
    rintro leaf g ⟨hg, hb, hok, hsame⟩
    rw [hb]
    refine ⟨hg, countsX_built K hok, hsame, fun i hi a x ha hx => ?_, fun a t v ha ht => ?_,
      fun i hi => builtX_exact valid_id hg hok hsame hi.nodup hi.number⟩
    · exact builtX_constant valid_id hok hg (fun j hj => by rw [← hsame i hi j hj a ha]; exact hx)
    · obtain ⟨b, e, -⟩ := builtX_matches valid_id hok hg (fun j hj k hk => hsame j hj k hk a ha) ht v
      exact ⟨b, e⟩

theorem LoopBy.leaf_old {I S K : Type} {C : NodeClass I S} {ch : Chooser I S K} {inst : I} {t : Tree S} {w : World}
    {o : Out S} (h : LoopBy C ch inst t w o) : o.leaf ≤ w.ctr →
    ∃ s0, .node o.leaf s0 [] ∈ t.leaves ∧ (C.isExact s0 inst = true ∨ C.count s0 = 0) := by
  induction h with
  | @hit id s w hx => exact fun _ => ⟨s, by rw [Tree.leaves_nil]; simp, hx⟩
  | @fringe id s w _ _ => intro h; exact absurd h (by simp)
  | @best id s cs w w' b t o hne _ hw ht _ ih =>
    intro h
    obtain ⟨s0, h1, h2⟩ := ih (h.trans hw)
    refine ⟨s0, ?_, h2⟩
    rw [Tree.leaves_node _ _ hne]
    exact List.mem_flatMap.2 ⟨t, List.mem_of_getElem? ht, h1⟩
  | @new id s cs w w' b hne _ hw => intro h; simp only at h; omega
  | @merge id s cs w w' b j t1 t2 o hlen _ hw hj hne ht1 ht2 _ ih =>
    intro h
    obtain ⟨s0, h2, h3⟩ := ih (h.trans (hw.trans (by simp [World.bump])))
    refine ⟨s0, ?_, h3⟩
    rw [Tree.leaves_node _ _ (by rintro rfl; simp at hlen)]
    rw [Tree.leaves_node _ _ (by simp)] at h2
    obtain ⟨c, hc, h2⟩ := List.mem_flatMap.1 h2
    refine List.mem_flatMap.2 ⟨c, ?_, h2⟩
    simp at hc
    rcases hc with rfl | rfl
    · exact List.mem_of_getElem? ht1
    · exact List.mem_of_getElem? ht2
  | @split id s cs w w' b t o hne0 _ hw ht hne _ ih =>
    intro h
    obtain ⟨s0, h2, h3⟩ := ih (h.trans hw)
    refine ⟨s0, ?_, h3⟩
    have hm : ∀ c ∈ cs.eraseIdx b.b1 ++ t.children, .node o.leaf s0 [] ∈ c.leaves → ∃ d ∈ cs, .node o.leaf s0 [] ∈ d.leaves := by
      intro c hc hl
      rcases List.mem_append.1 hc with hc | hc
      · exact ⟨c, List.mem_of_mem_eraseIdx hc, hl⟩
      · refine ⟨t, List.mem_of_getElem? ht, ?_⟩
        obtain ⟨id', s', cs'⟩ := t
        rw [Tree.leaves_node _ _ (by simpa using hne)]
        exact List.mem_flatMap.2 ⟨c, by simpa using hc, hl⟩
    have hnn : cs.eraseIdx b.b1 ++ t.children ≠ [] := by simp [hne]
    rw [Tree.leaves_node _ _ hnn] at h2
    rw [Tree.leaves_node _ _ hne0]
    obtain ⟨c, hc, h2⟩ := List.mem_flatMap.1 h2
    obtain ⟨d, hd, h⟩ := hm c hc h2
    exact List.mem_flatMap.2 ⟨d, hd, h⟩

/-- **C99**: `ifit` returns a leaf, the only concept with its id, that holds the instance; the other leaves are
untouched.  The leaf of an instance with a visible infinity counts one or two instances, however often it is fitted. -/
theorem C99_ifit (h : ReachX R XF.Valid hid cfg st hist n) {e : XEnv V} (he : (e.ar R.fl).Sorts)
    {i : XInst A V} (hi : XInstOk XF.Valid i) {w : World} (hw : n ≤ w.ctr) {o : XOut A B V}
    (ho : ifitX R.fl e hid cfg st i w = .ok o) :
    ReachX R XF.Valid hid cfg o.state (hist ++ [i]) o.w.ctr ∧
    (∃ leaf ∈ o.state.root.leaves, leaf.id = o.leaf ∧ leaf.children = [] ∧
      (∀ x ∈ o.state.root.nodes, x.id = o.leaf → x = leaf) ∧
      (∀ a x, hid a = false → Dict.get? i a = some (.num x) →
        leaf.stats.cvOf a = some (constX leaf.stats.count x)) ∧
      (∀ a v, hid a = false → Dict.get? i a = some (.nom v) → leaf.stats.nomLookup a v = some leaf.stats.count) ∧
      ∀ a b, hid a = false → Dict.get? i a = some (.num (.inf b)) → leaf.stats.count ≤ 2) ∧
    ∀ id s, .node id s [] ∈ st.root.leaves → id ≠ o.leaf → .node id s [] ∈ o.state.root.leaves := by
  have K := keeps_any (R := R) valid_id
  have L := extLaws (V := V) K hid
  obtain ⟨o', ho', e1, e2, e3, -⟩ := ifitX_by ho
  refine ⟨.step h he hi hw ho, ?_, fun id s hx hid' => ?_⟩
  · obtain ⟨l, h1, h2, h3, h4⟩ := reachAny_leaf L he (reachX_any h) hi hw ho'
    have hok : ∀ j ∈ l ++ [i], XInstOk XF.Valid j := by
      intro j hj
      rcases List.mem_append.1 hj with hj | hj
      · exact h2 j hj
      · rwa [List.mem_singleton.1 hj]
    have hsum := L.built hok
    rw [e1, e2]
    refine ⟨_, h1, rfl, rfl, h4, fun a x ha hx => ?_, fun a v ha hv => ?_, fun a b ha hx => ?_⟩
    · simp only [Tree.stats_node]
      rw [builtX_constant valid_id hok (by simp) (fun j hj => by rw [← h3 i (by simp) j hj a ha]; exact hx),
        hsum.count, Multiset.coe_card]
    · have hocc : occ ((l ++ [i] : List (XInst A V)) : Multiset (XInst A V)) a (.nom v)
          = Multiset.card ((l ++ [i] : List (XInst A V)) : Multiset (XInst A V)) := by
        apply Multiset.countP_eq_card.2
        intro j hj
        rw [← h3 i (by simp) j (by simpa using hj) a ha]; exact hv
      simp only [Tree.stats_node]
      rw [hsum.noms, hocc, hsum.count]; simp
    · -- where the leaf comes from
      obtain ⟨s, hs, hcase⟩ := (reachAny_loop he ho').leaf
      have hst := h4 _ (Tree.leaves_subset_nodes _ _ hs) rfl
      simp only [Tree.node.injEq, true_and, and_true] at hst
      simp only [Tree.stats_node]
      rw [← hst]
      rcases hcase with hc | ⟨s0, h0, hc, hx'⟩
      · rw [hc]
        show (XStats.incr R.fl XStats.fresh i).count ≤ 2
        simp [XStats.incr, XStats.fresh]
      · have hcount : s.count = s0.count + 1 := by rw [hc]; rfl
        rcases hx' with hx' | hx'
        · by_cases hne : hist = []
          · rcases reachAny_holds L (reachX_any h) with ⟨-, id, hr⟩ | hh
            · rw [hr, Tree.leaves_nil] at h0
              simp at h0
              have : s0.count = 0 := by rw [h0.2]; rfl
              omega
            · exact absurd (by simp [hne]) (hh.holds L).ne_zero
          · obtain ⟨gs, -, hf⟩ := C99_leaves h hne
            obtain ⟨g, -, -, g2, -, -, -, g3⟩ := forall₂_left_mem hf h0
            have hc' := g2.count
            simp only [Tree.stats_node, Multiset.coe_card] at hc'
            rcases ((g3 i hi).1 hx').2 a _ ha hx with h | h
            · exact absurd h id
            · omega
        · have : s0.count = 0 := hx'
          omega
  · rw [e1]
    rw [e2] at hid'
    rcases (reachAny_loop he ho').leaves_persist id s hx with h | h
    · exact h
    · exact absurd h.2 hid'

/-! ### Scales -/

theorem updateScalesX_get (inner : A → B) (sc : XScales B) (i : XInst A V) (b : B) :
    (updateScalesX R.fl inner sc i).get? b = if scaleNumsX inner [i] b = [] then sc.get? b
      else some (CV.updateBatchX R.fl ((sc.get? b).getD CV.freshX) (scaleNumsX inner [i] b)) := by
  induction i generalizing sc with
  | nil => simp [updateScalesX, scaleNumsX]
  | cons p i ih =>
    obtain ⟨a, v⟩ := p
    cases v with
    | nom v =>
      have e : scaleNumsX inner [((a, .nom v) :: i : XInst A V)] b = scaleNumsX inner [i] b := by
        simp only [scaleNumsX, List.flatMap_cons, List.flatMap_nil, List.append_nil]
        by_cases hb : inner a = b
        · simp [hb, XVal.num?]
        · simp [hb]
      simp only [updateScalesX]
      rw [ih, e]
    | num x =>
      simp only [updateScalesX]
      rw [ih, Dict.get?_set]
      by_cases hb : inner a = b
      · have e : scaleNumsX inner [((a, .num x) :: i : XInst A V)] b = x :: scaleNumsX inner [i] b := by
          simp only [scaleNumsX, List.flatMap_cons, List.flatMap_nil, List.append_nil]
          simp [hb, XVal.num?]
        rw [e, if_neg (List.cons_ne_nil _ _), if_pos hb, hb]
        split
        · rename_i h0; rw [h0]; rfl
        · rfl
      · have e : scaleNumsX inner [((a, .num x) :: i : XInst A V)] b = scaleNumsX inner [i] b := by
          simp only [scaleNumsX, List.flatMap_cons, List.flatMap_nil, List.append_nil]
          simp [hb]
        rw [e, if_neg hb]

theorem updateBatchX_append' (c : CV XF) (xs ys : List XF) :
    CV.updateBatchX R.fl c (xs ++ ys) = CV.updateBatchX R.fl (CV.updateBatchX R.fl c xs) ys := by
  induction xs generalizing c with
  | nil => rfl
  | cons y ys ih => exact ih _

theorem scalesX_step {sc : XScales B} {i : XInst A V}
    (h : ∀ b, sc.get? b = if scaleNumsX cfg.inner hist b = [] then none
      else some (CV.updateBatchX R.fl CV.freshX (scaleNumsX cfg.inner hist b))) (b : B) :
    (updateScalesX R.fl cfg.inner sc i).get? b = if scaleNumsX cfg.inner (hist ++ [i]) b = [] then none
      else some (CV.updateBatchX R.fl CV.freshX (scaleNumsX cfg.inner (hist ++ [i]) b)) := by
  have happ : scaleNumsX cfg.inner (hist ++ [i]) b = scaleNumsX cfg.inner hist b ++ scaleNumsX cfg.inner [i] b := by
    simp [scaleNumsX]
  rw [updateScalesX_get, h, happ]
  by_cases h1 : scaleNumsX cfg.inner [i] b = [] <;> by_cases h2 : scaleNumsX cfg.inner hist b = []
  · simp [h1, h2]
  · simp [h1, h2]
  · simp [h1, h2]
  · simp [h1, h2, updateBatchX_append']

/-- **C99**: `attr_scales` holds, for each inner name under which numbers were fitted, the accumulator of
exactly these numbers in their order, hidden attributes included. -/
theorem C99_scales (h : ReachX R X hid cfg st hist n) (b : B) :
    st.scales.get? b = if scaleNumsX cfg.inner hist b = [] then none
      else some (CV.updateBatchX R.fl CV.freshX (scaleNumsX cfg.inner hist b)) := by
  induction h generalizing b with
  | init w => simp [scaleNumsX]
  | step _ _ _ _ ho ih =>
    obtain ⟨o', -, -, -, -, e⟩ := ifitX_by ho
    rw [e]
    exact scalesX_step ih b

theorem reachX_insts (h : ReachX R X hid cfg st hist n) : ∀ i ∈ hist, XInstOk X i := by
  induction h with
  | init w => simp
  | step _ _ hi _ _ ih =>
    intro j hj
    rcases List.mem_append.1 hj with hj | hj
    · exact ih j hj
    · rwa [List.mem_singleton.1 hj]

/-! ### Exceptions -/

theorem big_gt' : 16 < XF.big := by
  have : (4 : ℝ) < XF.big / 4 := by
    rw [big_quarter, show (4 : ℝ) = 2 ^ 2 by norm_num]
    exact pow_lt_pow_right₀ (by norm_num) (by norm_num)
  linarith

theorem ofNat_pos {k : ℕ} (hk : k ≠ 0) : (XF.ofNat R.fl k).AtLeast 1 :=
  round_atLeast .one zero_le_one (by exact_mod_cast Nat.one_le_iff_ne_zero.2 hk)

/-- The divisors in the contribution of an accumulator are far from zero, or infinite, or `nan`. -/
theorem cvTermX_ok {c : CV XF} (hc : c.meanSq.AtLeast 0) {k : ℕ} (hk : k ≠ 0) (scale : XF) :
    ∃ x, cvTermX R.fl k scale c = .ok x := by
  classical
  obtain ⟨s, hs, hs0⟩ := CV.SoundX.std (R := R) hc
  have h1 : ∃ r, CV.scaledUnbiasedStdX R.fl c scale = .ok r := by
    have : (if scale.nonpos then XF.fin 1 else scale) ≠ .fin 0 := by
      split
      · intro h; injection h with h; exact one_ne_zero h
      · rename_i h; rintro rfl; exact h (le_refl (0 : ℝ))
    exact ⟨_, by simp only [CV.scaledUnbiasedStdX, hs, ok_bind]; exact div_ok this⟩
  obtain ⟨r, hr⟩ := h1
  obtain ⟨p1, p2⟩ := R.fl_pi
  have f16 : IsFloat (1 / 16) := .mk 1 (-4) (by norm_num) (by norm_num) (by norm_num)
  have f4 : IsFloat (1 / 4) := .mk 1 (-2) (by norm_num) (by norm_num) (by norm_num)
  have f2 : IsFloat (1 / 2) := .mk 1 (-1) (by norm_num) (by norm_num) (by norm_num)
  have g16 : IsFloat ((16 : ℕ) : ℝ) := .nat (by norm_num)
  have g2 : IsFloat ((2 : ℕ) : ℝ) := .nat (by norm_num)
  push_cast at g16 g2
  have a1 : 1 ≤ R.fl (4 * piF R.fl) := R.le_fl .one (by linarith)
  have a2 : R.fl (4 * piF R.fl) ≤ 16 := R.fl_le g16 (by linarith)
  have e1 : XF.mul R.fl (.fin 4) (XF.pi R.fl) = .fin (R.fl (4 * piF R.fl)) :=
    round_fin g16 (by rw [abs_of_nonneg (by linarith)]; linarith) big_gt'
  have n1 : XF.fin (R.fl (4 * piF R.fl)) ≠ .fin 0 := by intro h; injection h with h; linarith
  have a3 : (XF.quot R.fl (.fin 1) (.fin (R.fl (4 * piF R.fl)))).AtLeast (1 / 16) :=
    round_atLeast f16 (by norm_num) (one_div_le_one_div_of_le (by linarith) a2)
  have a4 := XF.AtLeast.add (R := R) f16 (by norm_num) (XF.AtLeast.mul_self (R := R) r) a3
  obtain ⟨std, h5, a5⟩ := XF.AtLeast.sqrt (R := R) (r := 1 / 4) f4 (by norm_num) (by norm_num) a4
  have a0 : (XF.pi R.fl).AtLeast 1 := by simp only [XF.pi, XF.AtLeast]; linarith
  obtain ⟨root, h6, a6⟩ := XF.AtLeast.sqrt (R := R) (r := 1) .one (by norm_num) (by norm_num) a0
  have a7 : (XF.mul R.fl (.fin 2) root).AtLeast 2 :=
    XF.AtLeast.mul (r := 2) (s := 1) g2 (by norm_num) (by norm_num) (by norm_num) (by norm_num) (le_refl (2 : ℝ)) a6
  have a8 : (XF.mul R.fl (XF.mul R.fl (.fin 2) root) std).AtLeast (1 / 2) :=
    XF.AtLeast.mul f2 (by norm_num) (by norm_num) (by norm_num) (by norm_num) a7 a5
  exact ⟨_, by simp only [cvTermX, hr, ok_bind, e1, div_ok n1, h5, div_ok (ofNat_ne_zero (R := R) hk), h6,
    div_ok (a8.ne_zero (by norm_num))]; rfl⟩

/-- No scale of the tree has a negative squared error. -/
def SoundScalesX (sc : XScales B) : Prop := ∀ b c, sc.get? b = some c → c.meanSq.AtLeast 0

theorem batchX_sound {xs : List XF} (h : ∀ x ∈ xs, x.Moderate) {c : CV XF} (hc : c.SoundX) :
    (CV.updateBatchX R.fl c xs).SoundX := by
  induction xs generalizing c with
  | nil => exact hc
  | cons x xs ih => exact ih (fun y hy => h y (by simp [hy])) (hc.update (h x (by simp)))

theorem scalesX_sound {sc : XScales B} (hok : ∀ i ∈ hist, XInstOk XF.Moderate i)
    (h : ∀ b, sc.get? b = if scaleNumsX cfg.inner hist b = [] then none
      else some (CV.updateBatchX R.fl CV.freshX (scaleNumsX cfg.inner hist b))) : SoundScalesX sc := by
  intro b c hc
  rw [h] at hc
  split at hc
  · cases hc
  · cases hc
    refine (batchX_sound ?_ CV.SoundX.fresh).sq
    intro x hx
    simp only [scaleNumsX, List.mem_flatMap, List.mem_filterMap, List.mem_filter] at hx
    obtain ⟨i, hi, ⟨a, v⟩, ⟨hp, -⟩, hv⟩ := hx
    cases v with
    | nom v => simp [XVal.num?] at hv
    | num y =>
      simp only [XVal.num?, Option.some.injEq] at hv
      subst hv
      exact (hok i hi).nums a y (Dict.get?_of_mem (hok i hi).nodup hp)

theorem ecgScaleX_ok {sc : XScales B} (hsc : SoundScalesX sc) (a : A) : ∃ x, ecgScaleX R.fl cfg sc a = .ok x := by
  unfold ecgScaleX
  split
  · exact ⟨_, rfl⟩
  · rename_i h0
    split
    · exact ⟨_, rfl⟩
    · rename_i c hc
      obtain ⟨s, hs, -⟩ := CV.SoundX.std (R := R) (hsc _ _ hc)
      have n1 : XF.fin cfg.scaling ≠ .fin 0 := by intro h; injection h with h; exact h0 h
      exact ⟨_, by simp only [div_ok n1, ok_bind, hs]; rfl⟩

theorem cellLoopX_ok {sc : XScales B} (hsc : SoundScalesX sc) {k : ℕ} (hk : k ≠ 0) (a : A) (l : List (ℕ ⊕ CV XF))
    (hl : ∀ c, Sum.inr c ∈ l → c.meanSq.AtLeast 0) (acc : XF) : ∃ x, cellLoopX R.fl cfg sc k a l acc = .ok x := by
  induction l generalizing acc with
  | nil => exact ⟨_, rfl⟩
  | cons c l ih =>
    have ih := ih fun c hc => hl c (List.mem_cons_of_mem _ hc)
    cases c with
    | inl c =>
      simp only [cellLoopX, div_ok (ofNat_ne_zero (R := R) hk), ok_bind]
      exact ih _
    | inr c =>
      obtain ⟨s, hs⟩ := ecgScaleX_ok (R := R) (cfg := cfg) hsc a
      obtain ⟨x, hx⟩ := cvTermX_ok (R := R) (hl c (by simp)) hk s
      simp only [cellLoopX, hs, hx, ok_bind]
      exact ih _

theorem cellsX_cv {t : XTab V} {k : ℕ} {c : CV XF} (hc : Sum.inr c ∈ t.cells k) : t.cv = some c := by
  unfold XTab.cells at hc
  cases ht : t.cv with
  | none => rw [ht] at hc; simp at hc
  | some d =>
    rw [ht] at hc
    rcases List.mem_append.1 hc with hc | hc
    · have := List.mem_of_mem_take hc
      simp at this
    · rcases List.mem_cons.1 hc with hc | hc
      · cases hc; rfl
      · have := List.mem_of_mem_drop hc
        simp at this

theorem ecgX_scores {sc : XScales B} (hsc : SoundScalesX sc) (pos : XTab V → ℕ) :
    Scores (CountsX CV.SoundX) (XStats.ecg R.fl pos hid cfg sc) (HasVisible (V := XVal V) hid) := by
  rintro s m h ⟨i, hi, hv⟩
  have h0 : s.count ≠ 0 := by
    rw [h.count]; intro h0; rw [Multiset.card_eq_zero.1 h0] at hi; simp at hi
  have h1 : ∀ (ts : Dict A (XTab V)) (acc : XF), (∀ p ∈ ts, p ∈ s.av) →
      ∃ r, ecgLoopX R.fl pos cfg sc s.count ts acc = .ok r := by
    intro ts
    induction ts with
    | nil => intro acc _; exact ⟨_, rfl⟩
    | cons p ts ih =>
      intro acc hp
      obtain ⟨a, t⟩ := p
      obtain ⟨x, hx⟩ := cellLoopX_ok (R := R) (cfg := cfg) hsc h0 a (t.cells (pos t)) (by
        intro c hc
        exact (h.cv_of_mem (hp _ List.mem_cons_self) (cellsX_cv hc)).2.2.sq) acc
      obtain ⟨r, hr⟩ := ih x fun q hq => hp q (List.mem_cons_of_mem _ hq)
      exact ⟨r, by simp only [ecgLoopX, hx, ok_bind, hr]⟩
  have h2 : (s.visible hid).length ≠ 0 := by
    obtain ⟨a, ha, hh⟩ := hv
    have : a ∈ s.av.keys := (h.attrs a).2 ⟨i, hi, ha⟩
    obtain ⟨p, hp, rfl⟩ := List.mem_map.1 this
    exact (List.length_pos_of_mem (List.mem_filter.2 ⟨hp, by simpa using hh⟩)).ne'
  obtain ⟨g, hg⟩ := h1 (s.visible hid) (.fin 0) fun p hp => (List.mem_filter.1 hp).1
  exact ⟨_, by simp only [XStats.ecg, hg, ok_bind]; exact div_ok (ofNat_ne_zero h2)⟩

theorem extArith_total {e : XEnv V}
    (hs : ∀ l : List (Cand XF), (l.map Cand.rnd).Nodup → ∃ l', e.srt l = .ok l') : (e.ar R.fl).Total where
  ratio a b h := ⟨_, div_ok (ofNat_ne_zero h)⟩
  div x n h := ⟨_, div_ok (ofNat_ne_zero h)⟩
  sort := hs

/-- **C99**: if the finite numbers are below 2^1023 in magnitude, every instance has a visible attribute and the
random numbers differ, then neither `ifit` nor `categorize` raises, whatever infinities and `nan`s there are, whatever
overflows on the way and however results are rounded.  `categorize` returns a leaf of the tree.

Partial: from 2^1023 on the claim is false (`C99_overflow_raises`), so the bound is the best possible.  That
`sort` only rearranges, and does not compare two concepts when the random numbers differ, is derived in `C99_sort`. -/
theorem C99_never_raises_partial (h : ReachX R XF.Moderate hid cfg st hist n) (hv : ∀ j ∈ hist, HasVisible hid j)
    {e : XEnv V} (he : (e.ar R.fl).Sorts)
    (hs : ∀ l : List (Cand XF), (l.map Cand.rnd).Nodup → ∃ l', e.srt l = .ok l')
    {i : XInst A V} (hi : XInstOk XF.Moderate i) {w : World} (hw : Function.Injective w.rnd) :
    (HasVisible hid i → ∃ o, ifitX R.fl e hid cfg st i w = .ok o) ∧
    ∃ leaf w', categorizeX R.fl e hid cfg st i w = .ok (leaf, w') ∧ leaf ∈ st.root.leaves := by
  have L := extLaws (V := V) (keeps_sound (R := R)) hid
  have hok := reachX_insts h
  have hs1 : SoundScalesX st.scales := scalesX_sound hok (C99_scales h)
  have hs2 : SoundScalesX (updateScalesX R.fl cfg.inner st.scales i) := by
    refine scalesX_sound (hist := hist ++ [i]) ?_ (scalesX_step (C99_scales h))
    intro j hj
    rcases List.mem_append.1 hj with hj | hj
    · exact hok j hj
    · rwa [List.mem_singleton.1 hj]
  rcases reachX_holds (keeps_sound (R := R)) h with ⟨-, id, he'⟩ | hh
  · refine ⟨fun _ => ⟨⟨⟨.node id (XStats.incr R.fl XStats.fresh i) [],
        updateScalesX R.fl cfg.inner st.scales i⟩, id, w⟩, ?_⟩, .node id XStats.fresh [], w, ?_, ?_⟩
    · simp [ifitX, he', cobwebBy, cobwebLoopBy, Tree.numConcepts_node, extClass, XStats.fresh]
    · simp [categorizeX, he', categorizeA, categorizeLoopA, Tree.numConcepts_node, extClass]
    · rw [he', Tree.leaves_nil]; simp [extClass]
  · have hG : ∀ j ∈ (hist : Multiset (XInst A V)), HasVisible hid j := fun j hj => hv j (by simpa using hj)
    refine ⟨fun hiv => ?_, ?_⟩
    · obtain ⟨o, ho⟩ := cobwebLoopBy_total L he (extArith_total hs)
        (ecgX_scores (R := R) (cfg := cfg) hs2 e.pos) hi hiv
        _ st.root w _ le_rfl hh hG hw
      exact ⟨_, by simp only [ifitX, cobwebBy, ho, ok_bind]; rfl⟩
    · obtain ⟨⟨leaf, w'⟩, ho⟩ := categorizeLoopA_total L he (extArith_total hs)
        (ecgX_scores (R := R) (cfg := cfg) hs1 e.pos) hi _ st.root w _ le_rfl hh hG hw
      exact ⟨leaf, w', ho, (categorizeLoopA_leaf _ _ _ _ ho).1⟩

/-- **C99**: `combine` raises exactly when both accumulators are empty, by a division by zero. -/
theorem C99_combine (c d : CV XF) :
    CV.combineX R.fl c d = if c.num + d.num = 0 then .error .zeroDiv else .ok (CV.joinX R.fl c d) := by
  split
  · rename_i h
    have h0 : XF.ofNat R.fl 0 = .fin 0 := by unfold XF.ofNat; rw [Nat.cast_zero]; exact round_zero
    have h1 : XF.add R.fl (.fin 0) (.fin 0) = .fin 0 := by
      simp only [XF.add, add_zero]; exact round_zero
    have hc : c.num = 0 := by omega
    have hd : d.num = 0 := by omega
    simp only [CV.combineX, hc, hd, h0, h1, XF.div, if_true, error_bind]
  · rename_i h; exact combineX_eq h

/-! ### Overflow -/

theorem cellLoopX_raises {sc : XScales B} {a : A} {err : PyErr} (hs : ecgScaleX R.fl cfg sc a = .error err) {k : ℕ}
    (hk : k ≠ 0) (l : List (ℕ ⊕ CV XF)) (hl : ∃ c, Sum.inr c ∈ l) (acc : XF) :
    cellLoopX R.fl cfg sc k a l acc = .error err := by
  induction l generalizing acc with
  | nil => obtain ⟨c, hc⟩ := hl; simp at hc
  | cons d l ih =>
    cases d with
    | inl m =>
      simp only [cellLoopX, div_ok (ofNat_ne_zero (R := R) hk), ok_bind]
      obtain ⟨c, hc⟩ := hl
      exact ih ⟨c, by simpa using hc⟩ _
    | inr c => simp only [cellLoopX, hs, error_bind]

/-- A first visible attribute whose scale raises. -/
theorem ecgX_raises {sc : XScales B} {a : A} {err : PyErr} (hs : ecgScaleX R.fl cfg sc a = .error err)
    (ha : hid a = false) {pos : XTab V → ℕ} {s : XStats A V} {t : XTab V} {d : Dict A (XTab V)} (hk : s.count ≠ 0)
    (hav : s.av = (a, t) :: d) (hcv : t.cv.isSome) : XStats.ecg R.fl pos hid cfg sc s = .error err := by
  have hl : ∃ c, Sum.inr c ∈ t.cells (pos t) := by
    obtain ⟨c, hc⟩ := Option.isSome_iff_exists.1 hcv
    exact ⟨c, by simp [XTab.cells, hc]⟩
  simp only [XStats.ecg, XStats.visible, hav, List.filter_cons, ha, Bool.not_false, if_true, ecgLoopX,
    cellLoopX_raises hs hk _ hl, error_bind]

/-- The first attribute stays first, and its accumulator stays. -/
theorem incrX_first {a : A} (i : XInst A V) {s : XStats A V} {t : XTab V} {d : Dict A (XTab V)}
    (hav : s.av = (a, t) :: d) (hcv : t.cv.isSome) :
    ∃ t' d', (XStats.incr R.fl s i).av = (a, t') :: d' ∧ t'.cv.isSome := by
  simp only [XStats.incr, hav]
  clear hav
  induction i generalizing t d with
  | nil => exact ⟨t, d, rfl, hcv⟩
  | cons p i ih =>
    obtain ⟨b, v⟩ := p
    rw [Dict.updAll_cons]
    by_cases hb : a = b
    · subst hb
      simp only [Dict.set, if_true, Dict.get?]
      refine ih ?_
      cases v with
      | num x => rfl
      | nom v => exact hcv
    · simp only [Dict.set, if_neg hb]
      exact ih hcv

/-- The scale after the two numbers: `inf` less than nothing. -/
theorem overflow_scale {x : ℝ} (hx : IsFloat x) (h1 : XF.big / 2 ≤ x) (h2 : x < XF.big) :
    CV.updateX R.fl (CV.updateX R.fl CV.freshX (.fin x)) (.fin (-x)) = ⟨2, .inf true, .inf true⟩ ∧
    CV.unbiasedStdX R.fl ⟨2, .inf true, .inf true⟩ = .error .valueErr := by
  have hb := big_gt
  have hv : (XF.fin x).Valid := ⟨hx, by rw [abs_of_nonneg (by linarith)]; exact h2⟩
  have e1 : CV.updateX R.fl CV.freshX (.fin x) = ⟨1, .fin x, .fin 0⟩ := updateX_const hv 0
  have fb : IsFloat (-XF.big) := by unfold XF.big; exact (IsFloat.two_pow _).neg
  have g2 : IsFloat ((2 : ℕ) : ℝ) := .nat (by norm_num)
  push_cast at g2
  have e2 : XF.ofNat R.fl 2 = .fin 2 := by
    unfold XF.ofNat; push_cast; exact round_float g2 (by rw [abs_of_nonneg (by norm_num)]; linarith)
  have e3 : XF.round R.fl (-x + -x) = .inf true := by
    have : R.fl (-x + -x) ≤ -XF.big := R.fl_le fb (by linarith)
    unfold XF.round
    rw [if_neg (by linarith), if_pos this]
  have e4 : XF.round R.fl (2 + -1) = .fin 1 := by
    rw [show (2 + -1 : ℝ) = 1 by norm_num]
    exact round_float .one (by rw [abs_one]; linarith)
  refine ⟨?_, ?_⟩
  · rw [e1]
    simp [CV.updateX, XF.sub, XF.neg, XF.add, e3, e2, XF.quot, XF.infTimes, XF.mul]
  · have n1 : XF.fin 1 ≠ .fin 0 := by intro h; injection h with h; exact one_ne_zero h
    have q : XF.quot R.fl (.inf true) (.fin 1) = .inf true := infTimes_pos zero_le_one
    have s : XF.sqrt R.fl (.inf true) = .error .valueErr := rfl
    simp only [CV.unbiasedStdX, e2, XF.sub, XF.neg, XF.add, e4, div_ok n1, q, ok_bind, s, error_bind]
    rfl

theorem mkCandsA_raises {I S K : Type} {ar : Arith K} {C : NodeClass I S} {ecg : S → Res K} {i : I} {w : World} {c : S}
    {cs : List S} {k : ℕ} {err : PyErr} (h : ecg (C.incr (shallowCopy C c) i) = .error err) :
    mkCandsA ar C ecg i w (c :: cs) k = .error err := by
  simp only [mkCandsA, relativeCuForInsertA, h, error_bind]

/-- **C99**, a finding: `update` squares by multiplying two differences, and the mean between two numbers of
magnitude 2^1023 or more and of different signs overflows to the far side of both.  After `{a: x}` and `{a: -x}` the
squared error of the scale is `-inf`.  From then on `categorize` raises `ValueError` for every instance, and so does
`ifit` for every instance without a number under that inner name. -/
theorem C99_overflow_raises {a : A} (ha : hid a = false) (hsc : cfg.scaling ≠ 0) {x : ℝ} (hx : IsFloat x)
    (h1 : XF.big / 2 ≤ x) (h2 : x < XF.big) (e1 e2 : XEnv V) (w : World) :
    ∃ o1 o2, ifitX R.fl e1 hid cfg ⟨emptyTree (extClass R.fl hid) w, []⟩ [(a, .num (.fin x))] (w.bump 1) = .ok o1 ∧
      ifitX R.fl e2 hid cfg o1.state [(a, .num (.fin (-x)))] o1.w = .ok o2 ∧
      ∀ (e : XEnv V) (i : XInst A V) (w' : World), categorizeX R.fl e hid cfg o2.state i w' = .error .valueErr ∧
        ((∀ p ∈ i, cfg.inner p.1 = cfg.inner a → ∀ y, p.2 ≠ .num y) →
          ifitX R.fl e hid cfg o2.state i w' = .error .valueErr) := by
  have hb := big_gt
  have hv : (XF.fin x).Valid := ⟨hx, by rw [abs_of_nonneg (by linarith)]; exact h2⟩
  let i1 : XInst A V := [(a, .num (.fin x))]
  let i2 : XInst A V := [(a, .num (.fin (-x)))]
  let C := extClass (V := V) R.fl hid
  have hi1 : XInstOk XF.Valid i1 := by
    refine ⟨by simp [i1, Dict.Nodup, Dict.keys], fun b y hy => ?_, fun b => ?_⟩
    · simp only [i1, Dict.get?] at hy
      split at hy
      · cases hy; exact hv
      · cases hy
    · simp only [i1, Dict.get?]
      split <;> simp
  have hex : XStats.isExact R.fl hid (XStats.incr R.fl XStats.fresh i1) i2 = false := by
    rw [Bool.eq_false_iff]
    intro h
    have hh := (builtX_exact (R := R) (hid := hid) (l := [i1]) valid_id (by simp) (by simpa using hi1)
      (by simp [SameVisible]) (by simp [i2, Dict.Nodup, Dict.keys])
      (by intro b; simp only [i2, Dict.get?]; split <;> simp)).1 h
    have := hh.1 i1 (by simp) a ha
    simp [i1, i2, Dict.get?] at this
    linarith
  let s1 : XStats A V := XStats.incr R.fl XStats.fresh i1
  let sc1 : XScales B := updateScalesX R.fl cfg.inner [] i1
  let sc2 : XScales B := updateScalesX R.fl cfg.inner sc1 i2
  obtain ⟨hsc2, hstd⟩ := overflow_scale (R := R) hx h1 h2
  have hget : sc2.get? (cfg.inner a) = some ⟨2, .inf true, .inf true⟩ := by
    simp only [sc2, sc1, i1, i2, updateScalesX, Dict.get?_set, if_true, Option.getD_some]
    rw [← hsc2]; rfl
  have hbad : ∀ sc : XScales B, sc.get? (cfg.inner a) = some ⟨2, .inf true, .inf true⟩ →
      ecgScaleX R.fl cfg sc a = .error .valueErr := by
    intro sc h
    have n1 : XF.fin cfg.scaling ≠ .fin 0 := by intro h; injection h with h; exact hsc h
    simp only [ecgScaleX, if_neg hsc, h, div_ok n1, ok_bind, hstd, error_bind]
  have hs1 : s1.av = [(a, ⟨[], some (CV.updateX R.fl CV.freshX (.fin x))⟩)] := by
    simp [s1, i1, XStats.incr, XStats.fresh, Dict.updAll, XTab.add, Dict.set, Dict.get?, XTab.empty]
  have hcopy : ∃ t, (shallowCopy C s1).av = [(a, t)] ∧ t.cv.isSome := by
    refine ⟨XTab.merge R.fl XTab.empty ⟨[], some (CV.updateX R.fl CV.freshX (.fin x))⟩, ?_, rfl⟩
    simp [shallowCopy, C, extClass, XStats.addFrom, hs1, XStats.fresh, Dict.updAll, Dict.set, Dict.get?]
  have herr : ∀ (pos : XTab V → ℕ) (sc : XScales B) (i : XInst A V),
      sc.get? (cfg.inner a) = some ⟨2, .inf true, .inf true⟩ →
      XStats.ecg R.fl pos hid cfg sc ((extClass R.fl hid).incr (shallowCopy (extClass R.fl hid) s1) i) =
        .error .valueErr := by
    intro pos sc i h
    obtain ⟨t, ht, hc⟩ := hcopy
    obtain ⟨t', d', ht', hc'⟩ := incrX_first (R := R) i ht hc
    exact ecgX_raises (hbad sc h) ha (by simp [extClass, XStats.incr]) ht' hc'
  refine ⟨⟨⟨.node (w.ctr + 1) s1 [], sc1⟩, w.ctr + 1, w.bump 1⟩,
    ⟨⟨.node (w.ctr + 2) (C.incr (shallowCopy C s1) i2)
      [.node (w.ctr + 1) s1 [], .node (w.ctr + 3) (C.incr C.fresh i2) []], sc2⟩, w.ctr + 3, w.bump 3⟩, ?_, ?_, ?_⟩
  · simp [ifitX, emptyTree, cobwebBy, cobwebLoopBy, Tree.numConcepts_node, extClass, XStats.fresh, s1, sc1, i1]
  · have hcount : s1.count ≠ 0 := by simp [s1, XStats.incr]
    have hex' : (extClass R.fl hid).isExact s1 i2 = false := hex
    have hcount' : ((extClass R.fl hid).count s1 == 0) = false := by simpa [extClass] using hcount
    simp only [ifitX, cobwebBy, cobwebLoopBy, Tree.numConcepts_node]
    show (do
      let o ← cobwebLoopBy (extClass R.fl hid) _ i2 _ (Tree.node (w.ctr + 1) s1 []) (w.bump 1)
      pure (⟨⟨o.tree, sc2⟩, o.leaf, o.w⟩ : XOut A B V) : Res _) = _
    simp only [List.map_nil, List.sum_nil, cobwebLoopBy, hex', hcount', Bool.or_false, Bool.false_eq_true, if_false, ok_bind]
    rfl
  · intro e i w'
    refine ⟨?_, fun hi => ?_⟩
    · simp only [categorizeX, categorizeA]
      obtain ⟨f, hf⟩ := Nat.exists_eq_succ_of_ne_zero (Tree.numConcepts_pos (.node (w.ctr + 2)
        (C.incr (shallowCopy C s1) i2) [.node (w.ctr + 1) s1 [], .node (w.ctr + 3) (C.incr C.fresh i2) []])).ne'
      rw [hf]
      simp only [categorizeLoopA, twoBestA, List.map_cons,
        Tree.stats_node, List.length_cons, Nat.succ_ne_zero, if_false, mkCandsA_raises (herr e.pos sc2 i hget), error_bind]
    · have hnone : scaleNumsX cfg.inner [i] (cfg.inner a) = [] := by
        simp only [scaleNumsX, List.flatMap_cons, List.flatMap_nil, List.append_nil, List.filterMap_eq_nil_iff,
          List.mem_filter, decide_eq_true_eq]
        rintro ⟨b, v⟩ ⟨hm, hb'⟩
        cases v with
        | nom v => rfl
        | num y => exact absurd rfl (hi _ hm hb' y)
      have hget' : (updateScalesX R.fl cfg.inner sc2 i).get? (cfg.inner a) = some ⟨2, .inf true, .inf true⟩ := by
        rw [updateScalesX_get, if_pos hnone]; exact hget
      simp only [ifitX, cobwebBy]
      obtain ⟨f, hf⟩ := Nat.exists_eq_succ_of_ne_zero (Tree.numConcepts_pos (.node (w.ctr + 2)
        (C.incr (shallowCopy C s1) i2) [.node (w.ctr + 1) s1 [], .node (w.ctr + 3) (C.incr C.fresh i2) []])).ne'
      rw [hf]
      simp only [cobwebLoopBy, chooseOpA, twoBestA, List.map_cons,
        Tree.stats_node, List.length_cons, Nat.succ_ne_zero, if_false, mkCandsA_raises (herr e.pos _ i hget'), error_bind]

/-! ### Agreement with the floats that do not overflow -/

theorem add_fin_iff {x y : XF} {r : ℝ} (h : XF.add R.fl x y = .fin r) :
    ∃ a b, x = .fin a ∧ y = .fin b ∧ r = R.fl (a + b) := by
  cases x <;> cases y <;> simp only [XF.add, reduceCtorEq] at h
  · exact ⟨_, _, rfl, rfl, round_eq_fin h⟩
  · split at h <;> cases h

theorem sub_fin_iff {x y : XF} {r : ℝ} (h : XF.sub R.fl x y = .fin r) :
    ∃ a b, x = .fin a ∧ y = .fin b ∧ r = R.fl (a - b) := by
  obtain ⟨a, b, rfl, h2, rfl⟩ := add_fin_iff h
  cases y <;> simp only [XF.neg, reduceCtorEq] at h2
  injection h2 with h2
  exact ⟨_, _, rfl, rfl, by rw [← h2]; ring_nf⟩

theorem mul_fin_iff {x y : XF} {r : ℝ} (h : XF.mul R.fl x y = .fin r) :
    ∃ a b, x = .fin a ∧ y = .fin b ∧ r = R.fl (a * b) := by
  cases x <;> cases y <;> simp only [XF.mul, XF.infTimes, reduceCtorEq] at h
  · exact ⟨_, _, rfl, rfl, round_eq_fin h⟩
  · split at h <;> cases h
  · split at h <;> cases h

theorem quot_fin_iff {x : XF} {d r : ℝ} (h : XF.quot R.fl x (.fin d) = .fin r) :
    ∃ a, x = .fin a ∧ r = R.fl (a / d) := by
  cases x <;> simp only [XF.quot, XF.infTimes, reduceCtorEq] at h
  exact ⟨_, rfl, round_eq_fin h⟩

/-- An accumulator of numbers among those of floats. -/
def CV.lift (c : CV ℝ) : CV XF := ⟨c.num, .fin c.mean, .fin c.meanSq⟩

theorem ofNat_small {n : ℕ} (h : n ≤ 2 ^ 53) : XF.ofNat R.fl n = .fin (natF R.fl n) := by
  have g : IsFloat ((2 ^ 53 : ℝ)) := .two_pow _
  refine round_fin g ?_ ?_
  · rw [abs_of_nonneg (by positivity)]; exact_mod_cast h
  · unfold XF.big; exact pow_lt_pow_right₀ (by norm_num) (by norm_num)

theorem updateX_agrees {c d : CV ℝ} {x : ℝ} (hn : c.num < 2 ^ 53) (h : CV.updateX R.fl c.lift (.fin x) = d.lift) :
    d = CV.updateF R.fl c x := by
  obtain ⟨n, m, q⟩ := c
  obtain ⟨n', m', q'⟩ := d
  simp only [CV.updateX, CV.lift, CV.mk.injEq] at h hn
  obtain ⟨h1, h2, h3⟩ := h
  rw [ofNat_small hn] at h2 h3
  rw [h2] at h3
  obtain ⟨a, b, ha, hb, rfl⟩ := add_fin_iff h2
  cases ha
  obtain ⟨dl, hd, rfl⟩ := quot_fin_iff hb
  obtain ⟨_, _, e1, e2, rfl⟩ := sub_fin_iff hd
  cases e1; cases e2
  rw [hd] at h3
  obtain ⟨_, _, e1, e2, rfl⟩ := add_fin_iff h3
  cases e1
  obtain ⟨_, _, e3, e4, rfl⟩ := mul_fin_iff e2
  cases e3
  obtain ⟨_, _, e5, e6, rfl⟩ := sub_fin_iff e4
  cases e5; cases e6
  subst h1
  rfl

/-- Once a mean or a squared error is not a number it never is one again. -/
theorem batchX_fin {c : CV XF} {xs : List XF} {d : CV ℝ} (h : CV.updateBatchX R.fl c xs = d.lift)
    : c.mean.IsFin ∧ c.meanSq.IsFin := by
  induction xs generalizing c with
  | nil => simp only [CV.updateBatchX] at h; subst h; exact ⟨trivial, trivial⟩
  | cons x xs ih =>
    obtain ⟨h1, h2⟩ := ih h
    obtain ⟨m, hm⟩ := isFin_iff.1 h1
    obtain ⟨q, hq⟩ := isFin_iff.1 h2
    simp only [CV.updateX] at hm hq
    obtain ⟨a, -, ha, -, -⟩ := add_fin_iff hm
    obtain ⟨b, -, hb, -, -⟩ := add_fin_iff hq
    rw [ha, hb]; exact ⟨trivial, trivial⟩

/-- **C99**: as long as the results are numbers, the floats with overflow are those without (C91, C95).  If the
accumulator of a list of numbers is finite in the end, nothing overflowed on the way and it is the one computed
without overflow; and so for `combine` and `unbiased_std`. -/
theorem C99_agrees :
    (∀ (xs : List ℝ) (c d : CV ℝ), c.num + xs.length ≤ 2 ^ 53 →
      CV.updateBatchX R.fl c.lift (xs.map .fin) = d.lift → d = CV.updateBatchF R.fl c xs) ∧
    (∀ c d e : CV ℝ, c.num + d.num ≤ 2 ^ 53 → CV.joinX R.fl c.lift d.lift = e.lift → e = CV.joinF R.fl c d) ∧
    ∀ (c : CV ℝ) (s : ℝ), c.num ≤ 2 ^ 53 → CV.unbiasedStdX R.fl c.lift = .ok (.fin s) →
      CV.unbiasedStdF R.fl c = .ok s := by
  refine ⟨?_, ?_, ?_⟩
  · intro xs
    induction xs with
    | nil =>
      intro c d _ h
      obtain ⟨n, m, q⟩ := c
      obtain ⟨n', m', q'⟩ := d
      simp only [List.map_nil, CV.updateBatchX, CV.lift, CV.mk.injEq, XF.fin.injEq] at h
      obtain ⟨rfl, rfl, rfl⟩ := h
      rfl
    | cons x xs ih =>
      intro c d hn h
      simp only [List.map_cons, CV.updateBatchX, List.length_cons] at h hn
      obtain ⟨h1, h2⟩ := batchX_fin h
      obtain ⟨m, hm⟩ := isFin_iff.1 h1
      obtain ⟨q, hq⟩ := isFin_iff.1 h2
      have e : CV.updateX R.fl c.lift (.fin x) = (⟨c.num + 1, m, q⟩ : CV ℝ).lift := cv_eq rfl hm hq
      have e' := updateX_agrees (by omega) e
      rw [e] at h
      have := ih _ _ (by simp only; omega) h
      rw [this, e']; rfl
  · intro c d e hn h
    obtain ⟨n1, m1, q1⟩ := c
    obtain ⟨n2, m2, q2⟩ := d
    obtain ⟨n3, m3, q3⟩ := e
    simp only at hn
    have hT : XF.add R.fl (.fin (natF R.fl n1)) (.fin (natF R.fl n2)) = .fin (R.fl (natF R.fl n1 + natF R.fl n2)) := by
      have g : IsFloat ((2 ^ 53 : ℝ)) := .two_pow _
      refine round_fin g ?_ (by unfold XF.big; exact pow_lt_pow_right₀ (by norm_num) (by norm_num))
      rw [R.natF_eq (by omega), R.natF_eq (by omega), abs_of_nonneg (by positivity)]
      exact_mod_cast hn
    simp only [CV.joinX, CV.lift, CV.mk.injEq] at h
    obtain ⟨h1, h2, h3⟩ := h
    rw [ofNat_small (by omega), ofNat_small (by omega), hT] at h2 h3
    obtain ⟨_, e1, rfl⟩ := quot_fin_iff h2
    obtain ⟨_, _, e2, e3, rfl⟩ := add_fin_iff e1
    obtain ⟨_, _, e4, e5, rfl⟩ := mul_fin_iff e2
    obtain ⟨_, _, e6, e7, rfl⟩ := mul_fin_iff e3
    cases e4; cases e5; cases e6; cases e7
    obtain ⟨_, _, e1, e2, rfl⟩ := add_fin_iff h3
    obtain ⟨_, _, e3, e4, rfl⟩ := add_fin_iff e1
    cases e3; cases e4
    obtain ⟨_, _, e5, e6, rfl⟩ := mul_fin_iff e2
    obtain ⟨_, _, e7, e8, rfl⟩ := mul_fin_iff e5
    rw [e7] at e8; cases e8
    obtain ⟨_, _, e9, e10, rfl⟩ := sub_fin_iff e7
    cases e9; cases e10
    obtain ⟨_, e11, rfl⟩ := quot_fin_iff e6
    obtain ⟨_, _, e12, e13, rfl⟩ := mul_fin_iff e11
    cases e12; cases e13
    subst h1
    rfl
  · intro c s hn h
    unfold CV.unbiasedStdX at h
    unfold CV.unbiasedStdF
    by_cases h0 : c.num < 2
    · rw [if_pos (show c.lift.num < 2 from h0)] at h
      rw [if_pos h0]
      injection h with h; injection h with h; rw [h]
    · rw [if_neg (show ¬ c.lift.num < 2 from h0)] at h
      rw [if_neg h0]
      simp only [CV.lift] at h
      have h2 : 2 ≤ c.num := by omega
      have hN := R.natF_eq (n := c.num) hn
      have h2' : (2 : ℝ) ≤ natF R.fl c.num := R.two_le_natF h2
      have g : IsFloat ((2 ^ 53 : ℝ)) := .two_pow _
      have hle : (natF R.fl c.num : ℝ) ≤ 2 ^ 53 := by rw [hN]; exact_mod_cast hn
      have hD : XF.sub R.fl (XF.ofNat R.fl c.num) (.fin 1) = .fin (R.fl (natF R.fl c.num - 1)) := by
        rw [ofNat_small hn]
        simp only [XF.sub, XF.neg, XF.add, ← sub_eq_add_neg]
        refine round_fin g ?_ (by unfold XF.big; exact pow_lt_pow_right₀ (by norm_num) (by norm_num))
        rw [abs_of_nonneg (by linarith)]
        linarith
      have hD1 : 1 ≤ R.fl (natF R.fl c.num - 1) := R.le_fl .one (by linarith)
      have hD0 : R.fl (natF R.fl c.num - 1) ≠ 0 := by linarith
      have hD0' : XF.fin (R.fl (natF R.fl c.num - 1)) ≠ .fin 0 := by intro h; injection h with h; exact hD0 h
      obtain ⟨k, hk, hk2⟩ := c4_float (R := R) h2
      have hk0 : R.fl (k : ℝ) ≠ 0 := by linarith
      have hk0' : XF.fin (R.fl (k : ℝ)) ≠ .fin 0 := by intro h; injection h with h; exact hk0 h
      simp only [bind_ok, hD, div_ok hD0', hk] at h
      obtain ⟨v, hv, r, hr, k', hk', hs⟩ := h
      injection hv with hv
      injection hk' with hk'
      subst hk'
      rw [div_ok hk0'] at hs
      injection hs with hs
      obtain ⟨r', rfl, rfl⟩ := quot_fin_iff hs
      cases v with
      | nan => cases hr
      | inf b => cases b <;> cases hr
      | fin v =>
        obtain ⟨q, e1, rfl⟩ := quot_fin_iff hv
        cases e1
        simp only [XF.sqrt] at hr
        split at hr
        · cases hr
        · rename_i hneg
          injection hr with hr
          have := round_eq_fin hr
          subst this
          simp only [divF, if_neg hD0, ok_bind, sqrtF, if_neg hneg, hk, if_neg hk0]

/-- **C99**: the contribution of an attribute with numbers.  If the scaled deviation is a number whose square is at
most a quarter of the range, it is the one computed without overflow (C95), from 0 to 2; if the deviation is infinite, the
attribute contributes nothing; if it is `nan`, the score of the concept is `nan`. -/
theorem C99_term {k : ℕ} (hk : k ≠ 0) (hk' : k ≤ 2 ^ 53) {c : CV XF} (hc : c.num ≤ k) {scale s : XF}
    (hs : CV.scaledUnbiasedStdX R.fl c scale = .ok s) :
    (∀ d : CV ℝ, ∀ z r : ℝ, c.num = d.num → s = .fin r → r * r ≤ XF.big / 4 →
      CV.scaledUnbiasedStdF R.fl d z = .ok r → ∃ x, 0 ≤ x ∧ x ≤ 2 ∧ cvTermF R.fl k z d = .ok x ∧
        cvTermX R.fl k scale c = .ok (.fin x)) ∧
    (∀ b, s = .inf b → cvTermX R.fl k scale c = .ok (.fin 0)) ∧
    (s = .nan → cvTermX R.fl k scale c = .ok .nan) := by
  have hb := big_gt'
  obtain ⟨p1, p2⟩ := R.fl_pi
  have f16 : IsFloat (1 / 16) := .mk 1 (-4) (by norm_num) (by norm_num) (by norm_num)
  have f4 : IsFloat (1 / 4) := .mk 1 (-2) (by norm_num) (by norm_num) (by norm_num)
  have f2 : IsFloat (1 / 2) := .mk 1 (-1) (by norm_num) (by norm_num) (by norm_num)
  have g16 : IsFloat ((16 : ℕ) : ℝ) := .nat (by norm_num)
  have g4 : IsFloat ((4 : ℕ) : ℝ) := .nat (by norm_num)
  have g2 : IsFloat ((2 : ℕ) : ℝ) := .nat (by norm_num)
  push_cast at g16 g4 g2
  have a1 : 1 ≤ R.fl (4 * piF R.fl) := R.le_fl .one (by linarith)
  have a2 : R.fl (4 * piF R.fl) ≤ 16 := R.fl_le g16 (by linarith)
  have e1 : XF.mul R.fl (.fin 4) (XF.pi R.fl) = .fin (R.fl (4 * piF R.fl)) :=
    round_fin g16 (by rw [abs_of_nonneg (by linarith)]; linarith) big_gt'
  have n1 : R.fl (4 * piF R.fl) ≠ 0 := by linarith
  have n1' : XF.fin (R.fl (4 * piF R.fl)) ≠ .fin 0 := by intro h; injection h with h; exact n1 h
  generalize hz : R.fl (4 * piF R.fl) = z1 at *
  have b1 : 1 / 16 ≤ 1 / z1 := one_div_le_one_div_of_le (by linarith) a2
  have b2 : 1 / z1 ≤ 1 := by rw [div_le_one (by linarith)]; exact a1
  have e2 : XF.quot R.fl (.fin 1) (.fin z1) = .fin (R.fl (1 / z1)) :=
    round_fin .one (by rw [abs_of_nonneg (by linarith)]; exact b2) (by linarith)
  have b3 : 1 / 16 ≤ R.fl (1 / z1) := R.le_fl f16 b1
  have b4 : R.fl (1 / z1) ≤ 1 := R.fl_le .one b2
  generalize hnz : R.fl (1 / z1) = nz at *
  -- the proportion
  have hk1 : (1 : ℝ) ≤ natF R.fl k := R.one_le_natF (Nat.one_le_iff_ne_zero.2 hk)
  have hk0 : natF R.fl k ≠ 0 := by linarith
  have hk0' : XF.fin (natF R.fl k) ≠ .fin 0 := by intro h; injection h with h; exact hk0 h
  have hc0 : 0 ≤ natF R.fl c.num := R.natF_nonneg _
  have hck : natF R.fl c.num ≤ natF R.fl k := R.mono (by exact_mod_cast hc)
  have c1 : 0 ≤ natF R.fl c.num / natF R.fl k := div_nonneg hc0 (by linarith)
  have c2 : natF R.fl c.num / natF R.fl k ≤ 1 := by rw [div_le_one (by linarith)]; exact hck
  have e3 : XF.quot R.fl (.fin (natF R.fl c.num)) (.fin (natF R.fl k)) =
      .fin (R.fl (natF R.fl c.num / natF R.fl k)) :=
    round_fin .one (by rw [abs_of_nonneg c1]; exact c2) (by linarith)
  have c3 : 0 ≤ R.fl (natF R.fl c.num / natF R.fl k) := R.fl_nonneg c1
  have c4 : R.fl (natF R.fl c.num / natF R.fl k) ≤ 1 := R.fl_le .one c2
  generalize hp : R.fl (natF R.fl c.num / natF R.fl k) = p at *
  have e4 : XF.mul R.fl (.fin p) (.fin p) = .fin (R.fl (p * p)) :=
    round_fin .one (by rw [abs_of_nonneg (mul_self_nonneg p)]; nlinarith) (by linarith)
  have c5 : 0 ≤ R.fl (p * p) := R.fl_nonneg (mul_self_nonneg p)
  have c6 : R.fl (p * p) ≤ 1 := R.fl_le .one (by nlinarith)
  generalize hpp : R.fl (p * p) = pp at *
  -- the root of pi
  have npi : ¬ piF R.fl < 0 := by linarith
  have d1 : 1 ≤ Real.sqrt (piF R.fl) := Real.le_sqrt_of_sq_le (by linarith)
  have d2 : Real.sqrt (piF R.fl) ≤ 2 := Real.sqrt_le_iff.2 ⟨by norm_num, by linarith⟩
  have e5 : XF.sqrt R.fl (XF.pi R.fl) = .ok (.fin (R.fl (Real.sqrt (piF R.fl)))) := by
    simp only [XF.sqrt, XF.pi, if_neg npi]
    rw [round_fin g2 (by rw [abs_of_nonneg (by linarith)]; exact d2) (by linarith)]
  have d3 : 1 ≤ R.fl (Real.sqrt (piF R.fl)) := R.le_fl .one d1
  have d4 : R.fl (Real.sqrt (piF R.fl)) ≤ 2 := R.fl_le g2 d2
  generalize hrt : R.fl (Real.sqrt (piF R.fl)) = rt at *
  have e6 : XF.mul R.fl (.fin 2) (.fin rt) = .fin (R.fl (2 * rt)) :=
    round_fin g4 (by rw [abs_of_nonneg (by linarith)]; linarith) (by linarith)
  have d5 : 2 ≤ R.fl (2 * rt) := R.le_fl g2 (by linarith)
  have d6 : R.fl (2 * rt) ≤ 4 := R.fl_le g4 (by linarith)
  generalize h2r : R.fl (2 * rt) = rr at *
  refine ⟨?_, ?_, ?_⟩
  · rintro d z r hd rfl hr hF
    have gq := quarter_max
    have gh := half_max
    have r0 := mul_self_nonneg r
    have e7 : XF.mul R.fl (.fin r) (.fin r) = .fin (R.fl (r * r)) :=
      round_fin gq (by rw [abs_of_nonneg r0]; exact hr) (by linarith)
    have r1 : 0 ≤ R.fl (r * r) := R.fl_nonneg r0
    have r2 : R.fl (r * r) ≤ XF.big / 4 := R.fl_le gq hr
    have e8 : XF.add R.fl (.fin (R.fl (r * r))) (.fin nz) = .fin (R.fl (R.fl (r * r) + nz)) :=
      round_fin gh (by rw [abs_of_nonneg (by linarith)]; linarith) (by linarith)
    have r3 : 1 / 16 ≤ R.fl (R.fl (r * r) + nz) := R.le_fl f16 (by linarith)
    have r4 : R.fl (R.fl (r * r) + nz) ≤ XF.big / 2 := R.fl_le gh (by linarith)
    generalize hv : R.fl (R.fl (r * r) + nz) = v at *
    have nv : ¬ v < 0 := by linarith
    have gr : IsFloat (2 ^ 512) := .two_pow _
    have hsq : XF.big = (2 ^ 512) ^ 2 := by unfold XF.big; rw [← pow_mul]
    have hlt : ((2 : ℝ) ^ 512) * 4 < XF.big := by
      unfold XF.big
      rw [show (4 : ℝ) = 2 ^ 2 by norm_num, ← pow_add]
      exact pow_lt_pow_right₀ (by norm_num) (by norm_num)
    have gr' : IsFloat ((2 : ℝ) ^ 512 * 4) := by
      rw [show (4 : ℝ) = 2 ^ 2 by norm_num]; exact gr.scale 2
    have p512 : (0 : ℝ) < 2 ^ 512 := by positivity
    generalize hB : (2 : ℝ) ^ 512 = B at *
    have s1 : 1 / 4 ≤ Real.sqrt v := Real.le_sqrt_of_sq_le (by linarith)
    have s2 : Real.sqrt v ≤ B := Real.sqrt_le_iff.2 ⟨p512.le, by rw [← hsq]; linarith⟩
    have e9 : XF.sqrt R.fl (.fin v) = .ok (.fin (R.fl (Real.sqrt v))) := by
      simp only [XF.sqrt, if_neg nv]
      rw [round_fin gr (by rw [abs_of_nonneg (by linarith)]; exact s2) (by linarith)]
    have s3 : 1 / 4 ≤ R.fl (Real.sqrt v) := R.le_fl f4 s1
    have s4 : R.fl (Real.sqrt v) ≤ B := R.fl_le gr s2
    generalize hst : R.fl (Real.sqrt v) = std at *
    have t1 : 1 / 2 ≤ rr * std := by
      have := mul_le_mul d5 s3 (by norm_num) (by linarith); linarith
    have t2 : rr * std ≤ B * 4 := by rw [mul_comm B]; exact mul_le_mul d6 s4 (by linarith) (by norm_num)
    have e10 : XF.mul R.fl (.fin rr) (.fin std) = .fin (R.fl (rr * std)) :=
      round_fin gr' (by rw [abs_of_nonneg (by linarith)]; exact t2) hlt
    have t3 : 1 / 2 ≤ R.fl (rr * std) := R.le_fl f2 t1
    generalize hm : R.fl (rr * std) = m at *
    have nm : m ≠ 0 := by linarith
    have nm' : XF.fin m ≠ .fin 0 := by intro h; injection h with h; exact nm h
    have t4 : 0 ≤ 1 / m := by positivity
    have t5 : 1 / m ≤ 2 := by rw [div_le_iff₀ (by linarith)]; linarith
    have e11 : XF.quot R.fl (.fin 1) (.fin m) = .fin (R.fl (1 / m)) :=
      round_fin g2 (by rw [abs_of_nonneg t4]; exact t5) (by linarith)
    have t6 : 0 ≤ R.fl (1 / m) := R.fl_nonneg t4
    have t7 : R.fl (1 / m) ≤ 2 := R.fl_le g2 t5
    generalize hq : R.fl (1 / m) = q at *
    have e12 : XF.mul R.fl (.fin pp) (.fin q) = .fin (R.fl (pp * q)) :=
      round_fin g2 (by
        rw [abs_of_nonneg (mul_nonneg c5 t6)]
        have := mul_le_mul c6 t7 t6 zero_le_one; linarith) (by linarith)
    have t8 : pp * q ≤ 2 := by
      have := mul_le_mul c6 t7 t6 zero_le_one; linarith
    refine ⟨R.fl (pp * q), R.fl_nonneg (mul_nonneg c5 t6), R.fl_le g2 t8, ?_, ?_⟩
    · simp only [cvTermF, hF, ok_bind, divF, sqrtF, hz, if_neg n1, hnz, hv, if_neg nv, hst, ← hd, if_neg hk0, hp,
        if_neg npi, hrt, h2r, hm, if_neg nm, hq, hpp]
      rfl
    · simp only [cvTermX, hs, ok_bind, e1, div_ok n1', e2, e7, e8, e9, ofNat_small hk', ofNat_small (hc.trans hk'),
        div_ok hk0', e3, e5, e6, e10, div_ok nm', e11, e4, e12]
      rfl
  · rintro b rfl
    have e7 : XF.mul R.fl (.inf b) (.inf b) = .inf false := by simp [XF.mul]
    have e8 : XF.add R.fl (.inf false) (.fin nz) = .inf false := rfl
    have e9 : XF.sqrt R.fl (.inf false) = .ok (.inf false) := rfl
    have e10 : XF.mul R.fl (.fin rr) (.inf false) = .inf false := by
      simp only [XF.mul]; rw [if_neg (by linarith), infTimes_pos (by linarith)]
    have n2 : XF.inf false ≠ .fin 0 := by simp
    have e11 : XF.quot R.fl (.fin 1) (.inf false) = .fin 0 := rfl
    have e12 : XF.mul R.fl (.fin pp) (.fin 0) = .fin 0 := by simp only [XF.mul, mul_zero]; exact round_zero
    simp only [cvTermX, hs, ok_bind, e1, div_ok n1', e2, e7, e8, e9, ofNat_small hk', ofNat_small (hc.trans hk'),
        div_ok hk0', e3, e5, e6, e10, div_ok n2, e11, e4, e12]
    rfl
  · rintro rfl
    have e9 : XF.sqrt R.fl .nan = .ok .nan := rfl
    have n2 : XF.nan ≠ .fin 0 := by simp
    have e11 : XF.quot R.fl (.fin 1) .nan = .nan := rfl
    simp only [cvTermX, hs, ok_bind, e1, div_ok n1', e2, nan_mul, nan_add, e9, ofNat_small hk',
      ofNat_small (hc.trans hk'), div_ok hk0', e3, e5, e6, mul_nan, div_ok n2, e11]
    rfl

/-! ### Examples -/

/-- The order of the candidates is left as it is. -/
def Demo.env : XEnv ℕ := ⟨fun _ => 0, .ok, id⟩

theorem Demo.env_sorts (fl : ℝ → ℝ) : (Demo.env.ar fl).Sorts :=
  ⟨fun h => by cases h; exact .refl _, fun _ => .refl _⟩

theorem reachX_exists (cfg : Cfg3 A B) (hist : List (XInst A ℕ))
    (h : ∀ i ∈ hist, XInstOk XF.Moderate i ∧ HasVisible hid i) : ∃ st n, ReachX R XF.Moderate hid cfg st hist n := by
  induction hist using List.reverseRecOn with
  | nil => exact ⟨_, _, .init Demo.w0⟩
  | append_singleton l i ih =>
    obtain ⟨st, n, hr⟩ := ih fun j hj => h j (by simp [hj])
    obtain ⟨hi, hv⟩ := h i (by simp)
    obtain ⟨o, ho⟩ := (C99_never_raises_partial hr (fun j hj => (h j (by simp [hj])).2) (Demo.env_sorts _)
      (fun l _ => ⟨l, rfl⟩) hi (w := ⟨fun k => (k : ℚ), 0, n⟩) (fun a b hab => by simpa using hab)).1 hv
    exact ⟨_, _, .step hr (Demo.env_sorts _) hi (le_refl n) ho⟩

theorem XF.Moderate.valid {x : XF} (h : x.Moderate) : x.Valid := by
  cases x with
  | fin x => exact ⟨h.1, lt_trans h.2 (by have := big_gt; linarith)⟩
  | inf s => trivial
  | nan => trivial

theorem reachX_mono {X Y : XF → Prop} (hXY : ∀ x, X x → Y x) (h : ReachX R X hid cfg st hist n) :
    ReachX R Y hid cfg st hist n := by
  induction h with
  | init w => exact .init w
  | step _ hs hi hw ho ih => exact .step ih hs ⟨hi.nodup, fun a x hx => hXY x (hi.nums a x hx), hi.number⟩ hw ho

/-- A history with an infinity, a `nan` (the nominal value 7) and the largest numbers below 2^1023. -/
noncomputable def Demo.wild : List (XInst ℕ ℕ) :=
  [[(1, .num (.fin (topF / 2))), (2, .nom 0)], [(1, .num (.inf true)), (2, .nom 0)], [(1, .nom 7)],
    [(1, .num (.inf false))], [(1, .num (.fin (-(topF / 2)))), (3, .num (.fin 1))]]

theorem Demo.wild_ok : ∀ i ∈ Demo.wild, XInstOk XF.Moderate i ∧ HasVisible Demo.hid i := by
  have hb := big_gt
  have ht : |topF / 2| < XF.big / 2 := by
    have h := topF_lt
    have h' : (2 : ℝ) ^ 971 ≤ XF.big := pow_le_pow_right₀ (by norm_num) (by norm_num)
    rw [abs_of_nonneg (by unfold topF; linarith)]; linarith
  have h1 : (XF.fin (topF / 2)).Moderate := ⟨half_topF_float, ht⟩
  have h2 : (XF.fin (-(topF / 2))).Moderate := ⟨half_topF_float.neg, by rw [abs_neg]; exact ht⟩
  have h3 : (XF.fin 1).Moderate := ⟨.one, by rw [abs_one]; linarith⟩
  intro i hi
  simp only [Demo.wild, List.mem_cons, List.not_mem_nil, or_false] at hi
  refine ⟨⟨?_, fun a x hx => ?_, fun a ha => ?_⟩, ?_⟩
  · rcases hi with rfl | rfl | rfl | rfl | rfl <;> simp [Dict.Nodup, Dict.keys]
  · have hm := Dict.mem_of_get? hx
    rcases hi with rfl | rfl | rfl | rfl | rfl <;>
    · simp only [List.mem_cons, Prod.mk.injEq, XVal.num.injEq, reduceCtorEq, and_false, or_false,
        List.not_mem_nil] at hm
      try first
      | rcases hm with ⟨-, rfl⟩ | ⟨-, rfl⟩ <;> first | assumption | trivial
      | obtain ⟨-, rfl⟩ := hm; first | assumption | trivial
  · have hm := Dict.mem_of_get? ha
    rcases hi with rfl | rfl | rfl | rfl | rfl <;> simp at hm
  · rcases hi with rfl | rfl | rfl | rfl | rfl <;> exact ⟨1, by simp [Dict.keys], rfl⟩

/-- The wild history, with scaling: it is fitted without an exception, and the root counts all of it. -/
example : ∃ st n, ReachX ieee XF.Moderate Demo.hid (⟨1 / 2, id⟩ : Cfg3 ℕ ℕ) st Demo.wild n ∧
    ReachX ieee XF.Valid Demo.hid (⟨1 / 2, id⟩ : Cfg3 ℕ ℕ) st Demo.wild n ∧
    (∀ j ∈ Demo.wild, HasVisible Demo.hid j) ∧ st.root.stats.count = 5 := by
  obtain ⟨st, n, h⟩ := reachX_exists (R := ieee) ⟨1 / 2, id⟩ Demo.wild Demo.wild_ok
  have h' := reachX_mono (fun x hx => XF.Moderate.valid hx) h
  exact ⟨st, n, h, h', fun j hj => (Demo.wild_ok j hj).2, (C99_every_node h').1.count.trans rfl⟩

/-- The largest power of two for `C99_overflow_raises`. -/
example : IsFloat (XF.big / 2) ∧ XF.big / 2 < XF.big := ⟨half_max, by have := big_gt; linarith⟩

/-- A deviation that is a number and one that is infinite for `C99_term`. -/
example : CV.scaledUnbiasedStdX R.fl ⟨1, .fin 3, .fin 0⟩ (.fin 1) = .ok (.fin 0) ∧
    CV.scaledUnbiasedStdF R.fl ⟨1, 3, 0⟩ 1 = .ok 0 ∧
    CV.scaledUnbiasedStdX R.fl ⟨1, .nan, .nan⟩ (.inf false) = .ok (.fin 0) := by
  have n1 : XF.fin 1 ≠ .fin 0 := by intro h; injection h with h; exact one_ne_zero h
  have h1 : ¬ (XF.fin 1).nonpos := by simp [XF.nonpos]
  have h2 : ¬ (XF.inf false).nonpos := by simp [XF.nonpos]
  refine ⟨?_, ?_, ?_⟩
  · simp only [CV.scaledUnbiasedStdX, CV.unbiasedStdX, Nat.one_lt_ofNat, if_true, ok_bind, if_neg h1, div_ok n1]
    simp only [XF.quot, zero_div]; rw [round_zero]
  · simp [CV.scaledUnbiasedStdF, CV.unbiasedStdF, ok_bind, divF, R.fl_zero, not_le.2 (zero_lt_one (α := ℝ))]
  · simp only [CV.scaledUnbiasedStdX, CV.unbiasedStdX, Nat.one_lt_ofNat, if_true, ok_bind, if_neg h2,
      div_ok (show XF.inf false ≠ .fin 0 by simp)]
    rfl

/-- Numbers for `C99_agrees`: none overflows. -/
example : CV.updateBatchX R.fl (CV.lift ⟨0, 0, 0⟩) ([1, 1].map .fin) = CV.lift ⟨2, 1, 0⟩ :=
  batchX_const (x := .fin 1) ⟨.one, by have := big_gt; rw [abs_one]; linarith⟩ 2

end CF
