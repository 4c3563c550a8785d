/-
Properties C29, C30 and C34 of `Cobweb3Tree`.
-/
import Verif.Proofs.Ecg3
import Verif.Proofs.Reach
import Verif.Props.Score

set_option linter.unusedSectionVars false

namespace CF
variable {A B V : Type} [DecidableEq A] [DecidableEq B] [DecidableEq V] {hid : A → Bool}
  {cfg : Cfg3 A B} {st : State3 A B V} {hist : List (Inst3 A V)} {n : ℕ}

/-! ### C34: the scales -/

theorem scaleNums_append (inner : A → B) (h h' : List (Inst3 A V)) (b : B) :
    scaleNums inner (h ++ h') b = scaleNums inner h b ++ scaleNums inner h' b := by
  simp [scaleNums]

theorem scalesObs_update (inner : A → B) {sc : Scales B} {f : B → Multiset ℝ}
    (h : ScalesObs sc f) (i : Inst3 A V) :
    ScalesObs (updateScales inner sc i) (fun b => f b + (scaleNums inner [i] b : Multiset ℝ)) := by
  induction i generalizing sc f with
  | nil => simpa [updateScales, scaleNums] using h
  | cons p i ih =>
    obtain ⟨a, v⟩ := p
    cases v with
    | nom v =>
      have := ih h
      simp only [updateScales]
      convert this using 2 with b
      simp only [scaleNums, List.flatMap_cons, List.flatMap_nil, List.append_nil]
      by_cases hb : inner a = b
      · simp [hb, Val.num?]
      · simp [hb]
    | num x =>
      have h1 : ScalesObs (sc.set (inner a) (((sc.get? (inner a)).getD CV.fresh).update x))
          (fun b => if b = inner a then x ::ₘ f b else f b) := by
        intro b
        rw [Dict.get?_set]
        by_cases hb : b = inner a
        · subst hb
          simp only [if_true]
          right
          refine ⟨by simp, _, rfl, obs_update ?_ x⟩
          rcases h (inner a) with ⟨h0, h1⟩ | ⟨-, c, h1, h2⟩
          · rw [h0, h1]; exact obs_fresh
          · rw [h1]; exact h2
        · simpa [hb, Ne.symm hb] using h b
      have := ih h1
      simp only [updateScales]
      convert this using 2 with b
      simp only [scaleNums, List.flatMap_cons, List.flatMap_nil, List.append_nil]
      by_cases hb : b = inner a
      · subst hb
        simp [Val.num?]
        rw [← Multiset.cons_coe, Multiset.add_cons]
      · simp [hb, Ne.symm hb]

theorem reach3_scales (h : Reach3 hid cfg st hist n) :
    ScalesObs st.scales (fun b => (scaleNums cfg.inner hist b : Multiset ℝ)) := by
  induction h with
  | init w => intro b; left; simp [emptyState3, scaleNums]
  | @step st hist n i w o _ _ _ ho ih =>
    simp only [ifit3, bind_ok, pure_ok] at ho
    obtain ⟨o', -, rfl⟩ := ho
    have := scalesObs_update cfg.inner ih i
    convert this using 2 with b
    rw [scaleNums_append, Multiset.coe_add]

/-- **C34**: after any history, `attr_scales` has an entry for an inner name exactly when a number was
fitted under an attribute with that inner name, and the entry is the count, mean and squared error of
all those numbers. -/
theorem C34_scales_summarise (h : Reach3 hid cfg st hist n) (b : B) :
    (st.scales.get? b = none ↔ scaleNums cfg.inner hist b = []) ∧
    ∀ c, st.scales.get? b = some c →
      c.num = (scaleNums cfg.inner hist b).length ∧
      c.mean = (scaleNums cfg.inner hist b).sum / (scaleNums cfg.inner hist b).length ∧
      c.meanSq = ((scaleNums cfg.inner hist b).map fun x => (x - c.mean) ^ 2).sum := by
  rcases reach3_scales h b with ⟨h0, h1⟩ | ⟨h0, c, h1, h2⟩
  · rw [h1]; simp only [Multiset.coe_eq_zero] at h0; simp [h0]
  · rw [h1]
    simp only [ne_eq, Multiset.coe_eq_zero] at h0
    refine ⟨by simp [h0], ?_⟩
    intro c' hc'
    obtain rfl := Option.some.inj hc'
    have hm := h2.mean
    refine ⟨by simpa using h2.num, by simpa [sampleMean] using hm, ?_⟩
    rw [h2.meanSq, hm]
    simp [sqDev]

/-- **C34**, `clear`: the cleared tree is the empty tree of the empty history, whatever was there
before, so it has no scales and everything proved about histories starts afresh. -/
theorem C34_clear (st : State3 A B V) (w : World) :
    Reach3 hid cfg (clear3 hid st w) [] (w.ctr + 1) ∧ (clear3 hid st w).scales = [] ∧
      (clear3 hid st w).root.children = [] ∧ (clear3 hid st w).root.stats.count = 0 ∧
      (clear3 hid st w).root.stats.av = [] :=
  ⟨.init w, rfl, rfl, rfl, rfl⟩

/-! ### C29 -/

/-- The scoring functions that a `Cobweb3Tree` may use. -/
def Scoring3 (hid : A → Bool) (cfg : Cfg3 A B) (e : Stats3 A V → Res ℝ) : Prop :=
  ∃ sc f, ScalesObs sc f ∧ e = Stats3.ecg hid cfg sc

theorem reach3_reach (h : Reach3 hid cfg st hist n) :
    Reach (K := ℝ) (cobweb3Class hid) Dict.Nodup (Scoring3 hid cfg) st.root hist n := by
  induction h with
  | init w => exact .init w
  | @step st hist n i w o hr hi hn ho ih =>
    simp only [ifit3, bind_ok, pure_ok] at ho
    obtain ⟨o', ho', rfl⟩ := ho
    exact .step ih ⟨_, _, scalesObs_update cfg.inner (reach3_scales hr) i, rfl⟩ hi hn ho'

theorem reach3_holds (h : Reach3 hid cfg st hist n) :
    TreeHolds (cobweb3Class hid) Summarizes3 (SameVisible hid) st.root (hist : Multiset _) :=
  reach_holds (cobweb3Laws hid) (reach3_reach h)

/-- **C29**: every concept is the exact summary of some of the fitted instances (for each attribute the
nominal counts, and the count, mean and squared error of the numbers), the root of all of them. -/
theorem C29_every_node (h : Reach3 hid cfg st hist n) :
    Summarizes3 st.root.stats (hist : Multiset (Inst3 A V)) ∧
    ∀ x ∈ st.root.nodes, ∃ m ≤ (hist : Multiset (Inst3 A V)), Summarizes3 x.stats m := by
  refine ⟨(reach3_holds h).sum (cobweb3Laws hid), fun x hx => ?_⟩
  obtain ⟨m, hm, hle⟩ := (reach3_holds h).of_mem_nodes hx
  exact ⟨m, hle, hm.sum (cobweb3Laws hid)⟩

/-- C29: the order of the instances and the random choices do not matter for the root. -/
theorem C29_order_independent {st' : State3 A B V} {hist' : List (Inst3 A V)} {n' : ℕ}
    (h : Reach3 hid cfg st hist n) (h' : Reach3 hid cfg st' hist' n') (hp : hist.Perm hist') :
    st.root.stats.count = st'.root.stats.count ∧
    (∀ a v, st.root.stats.nomLookup a v = st'.root.stats.nomLookup a v) ∧
    ∀ a, st.root.stats.cvOf a = st'.root.stats.cvOf a := by
  have h1 := (C29_every_node h).1
  have h2 := (C29_every_node h').1
  rw [← Multiset.coe_eq_coe.2 hp] at h2
  refine ⟨h1.count.trans h2.count.symm, fun a v => (h1.noms a v).trans (h2.noms a v).symm,
    fun a => ?_⟩
  rcases h1.cv a with ⟨h3, h4⟩ | ⟨h3, c, h4, h5⟩ <;> rcases h2.cv a with ⟨h6, h7⟩ | ⟨h6, d, h7, h8⟩
  · rw [h4, h7]
  · exact absurd h3 h6
  · exact absurd h6 h3
  · rw [h4, h7, h5.unique h8]

theorem Summarizes3.numbers {s : Stats3 A V} {m : Multiset (Inst3 A V)} (h : Summarizes3 s m) (a : A) :
    s.numCount a = Multiset.card (nums m a) ∧ s.numSum a = (nums m a).sum ∧
      s.numSqSum a = ((nums m a).map fun x => x ^ 2).sum := by
  unfold Stats3.numCount Stats3.numSum Stats3.numSqSum
  rcases h.cv a with ⟨h1, h2⟩ | ⟨h1, c, h2, h3⟩
  · simp [h1, h2]
  · rw [h2]
    simp only [Option.map_some, Option.getD_some, h3.num, h3.mean, h3.meanSq]
    refine ⟨trivial, card_mul_sampleMean _, ?_⟩
    rw [sqDev_eq]; ring

theorem Summarizes3.getD {s : Stats3 A V} {m : Multiset (Inst3 A V)} (h : Summarizes3 s m) (a : A)
    (v : V) : (s.nomLookup a v).getD 0 = occ m a (.nom v) := by
  rw [h.noms]; split <;> simp_all

theorem nums_sum (ms : List (Multiset (Inst3 A V))) (a : A) :
    nums ms.sum a = (ms.map fun m => nums m a).sum := by
  induction ms with
  | nil => rfl
  | cons m ms ih => rw [List.sum_cons, nums_add, ih, List.map_cons, List.sum_cons]

theorem sum_hom {α M : Type} [AddCommMonoid M] (f : Multiset α →+ M) (l : List (Multiset α)) :
    f l.sum = (l.map f).sum := by
  induction l with
  | nil => simp
  | cons m l ih => simp [ih]

/-- **C29**, conservation (the analogue of C01): at every internal concept the count, the count of every
nominal value, and for every attribute the number of numbers, their sum and the sum of their squares
are the sums of the children's. -/
theorem C29_counts_conserved (h : Reach3 hid cfg st hist n) :
    ∀ x ∈ st.root.nodes, x.children ≠ [] →
      x.stats.count = (x.children.map fun c => c.stats.count).sum ∧
      (∀ a v, (x.stats.nomLookup a v).getD 0 =
        (x.children.map fun c => (c.stats.nomLookup a v).getD 0).sum) ∧
      ∀ a, x.stats.numCount a = (x.children.map fun c => c.stats.numCount a).sum ∧
        x.stats.numSum a = (x.children.map fun c => c.stats.numSum a).sum ∧
        x.stats.numSqSum a = (x.children.map fun c => c.stats.numSqSum a).sum := by
  intro x hx hne
  obtain ⟨m, hm, -⟩ := (reach3_holds h).of_mem_nodes hx
  have hs := hm.sum (cobweb3Laws hid)
  obtain ⟨ms, hf, rfl⟩ := hm.children hne
  refine ⟨?_, fun a v => ?_, fun a => ⟨?_, ?_, ?_⟩⟩
  · rw [hs.count, map_eq_of_forall₂ (g := Multiset.card) (fun c m hc => hc.sum.count) hf]
    exact sum_hom Multiset.cardHom ms
  · rw [hs.getD, sum_occ]
    congr 1
    exact (map_eq_of_forall₂ (fun c m hc => hc.sum.getD a v) hf).symm
  · rw [(hs.numbers a).1, nums_sum, map_eq_of_forall₂ (fun c m hc => (hc.sum.numbers a).1) hf]
    have := sum_hom Multiset.cardHom (ms.map fun m => nums m a)
    simpa [Function.comp_def] using this
  · rw [(hs.numbers a).2.1, nums_sum, map_eq_of_forall₂ (fun c m hc => (hc.sum.numbers a).2.1) hf]
    have := sum_hom Multiset.sumAddMonoidHom (ms.map fun m => nums m a)
    simpa [Function.comp_def] using this
  · rw [(hs.numbers a).2.2, nums_sum, map_eq_of_forall₂ (fun c m hc => (hc.sum.numbers a).2.2) hf]
    have := sum_hom (Multiset.sumAddMonoidHom.comp (Multiset.mapAddMonoidHom fun x : ℝ => x ^ 2))
      (ms.map fun m => nums m a)
    simpa [Function.comp_def] using this

/-- **C29** (the analogue of C03): the instances are distributed over the leaves, and the instances of a
leaf agree on all visible attributes. -/
theorem C29_leaves_partition (h : Reach3 hid cfg st hist n) (hne : hist ≠ []) :
    ∃ groups : List (Multiset (Inst3 A V)), groups.sum = (hist : Multiset (Inst3 A V)) ∧
      List.Forall₂ (fun leaf g => Summarizes3 leaf.stats g ∧ g ≠ 0 ∧
        ∀ i ∈ g, ∀ j ∈ g, ∀ a, hid a = false → Dict.get? i a = Dict.get? j a)
        st.root.leaves groups := by
  rcases reach3_holds h with ⟨h0, -⟩ | h
  · simp at h0; exact absurd h0 hne
  · exact h.leaves

/-- **C29** (the analogue of C05). -/
theorem C29_at_least_two_children (h : Reach3 hid cfg st hist n) :
    ∀ x ∈ st.root.nodes, x.children = [] ∨ 2 ≤ x.children.length := by
  intro x hx
  obtain ⟨m, hm, -⟩ := (reach3_holds h).of_mem_nodes hx
  exact hm.two_children

theorem ifit3_cobweb {i : Inst3 A V} {w : World} {o : Out3 A B V}
    (ho : ifit3 hid cfg st i w = .ok o) :
    ∃ o', cobweb (cobweb3Class hid) (Stats3.ecg hid cfg (updateScales cfg.inner st.scales i))
      st.root i w = .ok o' ∧ o.state.root = o'.tree ∧ o.leaf = o'.leaf ∧ o.w = o'.w ∧
      o.state.scales = updateScales cfg.inner st.scales i := by
  simp only [ifit3, bind_ok, pure_ok] at ho
  obtain ⟨o', ho', rfl⟩ := ho
  exact ⟨o', ho', rfl, rfl, rfl, rfl⟩

/-- **C29** (the analogue of C04): `ifit` returns a leaf of the new tree that exactly matches the
instance: all instances stored in it, the new one among them, agree with it on all visible
attributes. -/
theorem C29_ifit_returns_matching_leaf (h : Reach3 hid cfg st hist n) {i : Inst3 A V}
    (hi : Dict.Nodup i) {w : World} (hw : n ≤ w.ctr) {o : Out3 A B V}
    (ho : ifit3 hid cfg st i w = .ok o) :
    ∃ leaf ∈ o.state.root.leaves, leaf.id = o.leaf ∧ leaf.children = [] ∧
      (∀ x ∈ o.state.root.nodes, x.id = o.leaf → x = leaf) ∧
      leaf.stats.isExact hid i = true ∧
      ∃ m, Summarizes3 leaf.stats (i ::ₘ m) ∧
        ∀ j ∈ m, ∀ a, hid a = false → Dict.get? i a = Dict.get? j a := by
  have L := cobweb3Laws (V := V) hid
  have hh := reach3_holds h
  have hreach : Reach3 hid cfg o.state (hist ++ [i]) o.w.ctr := .step h hi hw ho
  have hids := (reach_ids (reach3_reach hreach)).1
  obtain ⟨o', ho', e1, e2, -, -⟩ := ifit3_cobweb ho
  obtain ⟨s, hs, hcase⟩ := (loopRel_of_cobweb ho').leaf
  have key : ∃ m, Summarizes3 s (i ::ₘ m) ∧ ∀ j ∈ m, SameVisible hid i j := by
    rcases hcase with rfl | ⟨s0, h0, rfl, hx⟩
    · exact ⟨0, L.incr L.fresh hi, by simp⟩
    · obtain ⟨m, hm, -⟩ := hh.of_mem_nodes (Tree.leaves_subset_nodes _ _ h0)
      have hsum := hm.sum L
      refine ⟨m, L.incr hsum hi, ?_⟩
      by_cases hm0 : m = 0
      · subst hm0; simp
      · rcases hx with hx | hx
        · exact (L.exact hsum hm0 hi).1 hx
        · exact absurd (Multiset.card_eq_zero.1 (hsum.count.symm.trans hx)) hm0
  obtain ⟨m, hsum, hsame⟩ := key
  have hex : s.isExact hid i = true := by
    refine (L.exact hsum (by simp) hi).2 ?_
    intro j hj
    rcases Multiset.mem_cons.1 hj with rfl | hj
    · exact L.refl _
    · exact hsame j hj
  rw [← e1, ← e2] at hs
  refine ⟨_, hs, rfl, rfl, ?_, hex, m, hsum, hsame⟩
  intro x hx hxid
  exact List.inj_on_of_nodup_map hids hx (Tree.leaves_subset_nodes _ _ hs) hxid

/-- **C29** (the analogue of C08). -/
theorem C29_ids_unique (h : Reach3 hid cfg st hist n) :
    st.root.ids.Nodup ∧ (∀ x ∈ st.root.ids, x ≤ n) ∧
    ∀ {i : Inst3 A V} {w : World} {o : Out3 A B V}, n ≤ w.ctr → ifit3 hid cfg st i w = .ok o →
      n ≤ o.w.ctr ∧ ∀ x ∈ o.state.root.ids, x ∈ st.root.ids ∨ (n < x ∧ x ≤ o.w.ctr) := by
  have h1 := reach_ids (reach3_reach h)
  refine ⟨h1.1, h1.2, ?_⟩
  intro i w o hw ho
  obtain ⟨o', ho', e1, -, e3, -⟩ := ifit3_cobweb ho
  obtain ⟨a, -, c⟩ := (loopRel_of_cobweb ho').ids h1.1 (fun x hx => (h1.2 x hx).trans hw)
  rw [e1, e3]
  refine ⟨hw.trans a, fun x hx => ?_⟩
  rcases c x hx with hx | hx
  · exact Or.inl hx
  · exact Or.inr ⟨by omega, hx.2⟩

/-- The accumulators that `update_counts_from_node` combines are never both empty, so `combine` does
not raise and is the total function used in `Tab.merge`. -/
theorem C29_combine_never_raises (h : Reach3 hid cfg st hist n) {x : Tree (Stats3 A V)}
    (hx : x ∈ st.root.nodes) {a : A} {d : CV ℝ} (hd : x.stats.cvOf a = some d) (c : CV ℝ) :
    c.combine d = .ok (c.join d) := by
  obtain ⟨m, -, hm⟩ := (C29_every_node h).2 x hx
  rcases hm.cv a with ⟨-, h1⟩ | ⟨h0, d', h1, h2⟩
  · rw [hd] at h1; cases h1
  · rw [hd] at h1; cases h1
    apply combine_eq
    have : d.num ≠ 0 := by rw [h2.num]; simpa using h0
    omega

/-! ### Termination and exceptions -/

theorem fueled_pySqrt (x : ℝ) : Fueled (pySqrt x) := by
  unfold pySqrt; split
  · intro h; cases h
  · exact fueled_ok _


theorem fueled_c4 (k : ℤ) : Fueled (c4 k) := by
  unfold c4
  split
  · intro h; cases h
  · split
    · split
      · exact fueled_ok _
      · intro h; cases h
    · exact fueled_ok _

theorem fueled_unbiasedStd (c : CV ℝ) : Fueled c.unbiasedStd := by
  unfold CV.unbiasedStd
  split
  · exact fueled_ok _
  · exact (fueled_pyDiv _ _).bind fun _ _ => (fueled_pySqrt _).bind fun _ _ =>
      (fueled_c4 _).bind fun _ _ => fueled_pyDiv _ _

theorem fueled_cvTerm (k : ℕ) (r : ℝ) (c : CV ℝ) : Fueled (cvTerm k r c) := by
  unfold cvTerm
  exact ((fueled_unbiasedStd _).bind fun _ _ => fueled_pyDiv _ _).bind fun _ _ =>
    (fueled_pySqrt _).bind fun _ _ => (fueled_pyDiv _ _).bind fun _ _ =>
      (fueled_pyDiv _ _).bind fun _ _ => fueled_pure _

theorem fueled_cvPart (sc : Scales B) (k : ℕ) (a : A) (c : Option (CV ℝ)) (acc : ℝ) :
    Fueled (cvPart cfg sc k a c acc) := by
  cases c with
  | none => exact fueled_ok _
  | some c =>
    simp only [cvPart]
    refine Fueled.bind ?_ fun _ _ => (fueled_cvTerm _ _ _).bind fun _ _ => fueled_pure _
    unfold ecgScale
    split
    · exact fueled_ok _
    · split
      · exact fueled_ok _
      · exact (fueled_pyDiv _ _).bind fun _ _ => (fueled_unbiasedStd _).bind fun _ _ => fueled_pure _

theorem fueled_sqLoopR (k : ℕ) (cs : List ℕ) (acc : ℝ) : Fueled (sqLoop k cs acc) := by
  induction cs generalizing acc with
  | nil => exact fueled_ok _
  | cons c cs ih => exact (fueled_pyDiv _ _).bind fun _ _ => ih _

theorem fueled_ecg3 (sc : Scales B) (s : Stats3 A V) : Fueled (Stats3.ecg hid cfg sc s) := by
  have : ∀ (ts : Dict A (Tab V)) (acc : ℝ), Fueled (ecgLoop3 cfg sc s.count ts acc) := by
    intro ts
    induction ts with
    | nil => intro acc; exact fueled_ok _
    | cons t ts ih =>
      intro acc
      exact (fueled_sqLoopR _ _ _).bind fun _ _ => (fueled_cvPart _ _ _ _ _).bind fun _ _ => ih _
  exact (this _ _).bind fun _ _ => fueled_pyDiv _ _

/-- **C63**: `ifit` and `categorize` of a `Cobweb3Tree` end on any tree, within `num_concepts`
iterations (allowing more does not change the result). -/
theorem C63_terminates (st : State3 A B V) (i : Inst3 A V) (w : World) (k : ℕ) (sc : Scales B) :
    cobwebLoop (cobweb3Class hid) (Stats3.ecg hid cfg sc) i (st.root.numConcepts + k) st.root w =
      cobweb (cobweb3Class hid) (Stats3.ecg hid cfg sc) st.root i w ∧
    ifit3 hid cfg st i w ≠ .error .outOfFuel ∧ categorize3 hid cfg st i w ≠ .error .outOfFuel := by
  have h := fun sc : Scales B => fueled_cobwebLoop (C := cobweb3Class hid) (inst := i)
    (fueled_ecg3 (hid := hid) (cfg := cfg) (V := V) sc) st.root.numConcepts st.root w le_rfl
  refine ⟨cobwebLoop_mono _ _ _ (h sc) k, ?_, ?_⟩
  · exact Fueled.bind (h _) fun _ _ => fueled_pure _
  · exact fueled_categorizeLoop (fueled_ecg3 (hid := hid) (cfg := cfg) _) _ _ _ le_rfl

theorem cobweb3_scores {sc : Scales B} {f : B → Multiset ℝ} (hsc : ScalesObs sc f) :
    Scores Summarizes3 (Stats3.ecg hid cfg sc) (HasVisible (V := Val V) hid) := by
  rintro s m h ⟨i, hi, hv⟩
  exact ⟨_, ecg3_eq h hsc (visAttrs_nonempty hi hv)⟩

/-- **C63**: fitting never raises when all instances have a visible attribute, whatever mixture of
nominal and numeric values they have and whatever the scaling, if no two random numbers coincide. -/
theorem C63_ifit_never_raises (h : Reach3 hid cfg st hist n)
    (hv : ∀ j ∈ hist, HasVisible hid j) {i : Inst3 A V} (hi : Dict.Nodup i) (hiv : HasVisible hid i)
    {w : World} (hw : Function.Injective w.rnd) : ∃ o, ifit3 hid cfg st i w = .ok o := by
  have key : ∃ o, cobweb (cobweb3Class hid)
      (Stats3.ecg hid cfg (updateScales cfg.inner st.scales i)) st.root i w = .ok o := by
    have hsc := scalesObs_update cfg.inner (reach3_scales h) i
    rcases reach3_holds h with ⟨-, id, e⟩ | hh
    · rw [e]
      refine ⟨⟨.node id (Stats3.fresh.incr i) [], id, false, w⟩, ?_⟩
      simp [cobweb, cobwebLoop, Tree.numConcepts_node, cobweb3Class, Stats3.fresh]
    · rcases cobwebLoop_total (cobweb3Laws hid) (cobweb3_scores hsc) hi hiv st.root.numConcepts
        st.root w _ hh (fun j hj => hv j (by simpa using hj)) hw with ho | ho
      · exact ho
      · exact absurd ho (fueled_cobwebLoop (C := cobweb3Class hid) (inst := i)
          (fueled_ecg3 (hid := hid) (cfg := cfg) _) st.root.numConcepts st.root w le_rfl)
  obtain ⟨o, ho⟩ := key
  refine ⟨⟨⟨o.tree, updateScales cfg.inner st.scales i⟩, o.leaf, o.w⟩, ?_⟩
  unfold ifit3
  simp only [ho]
  rfl

/-- **C63** for `categorize`: any instance, even an empty one. -/
theorem C63_categorize_never_raises (h : Reach3 hid cfg st hist n)
    (hv : ∀ j ∈ hist, HasVisible hid j) {i : Inst3 A V} (hi : Dict.Nodup i)
    {w : World} (hw : Function.Injective w.rnd) : ∃ o, categorize3 hid cfg st i w = .ok o := by
  unfold categorize3
  rcases reach3_holds h with ⟨-, id, e⟩ | hh
  · rw [e]
    exact ⟨(.node id Stats3.fresh [], w), by
      simp [categorize, categorizeLoop, Tree.numConcepts_node, cobweb3Class]⟩
  · rcases categorizeLoop_total (cobweb3Laws hid) (cobweb3_scores (reach3_scales h)) hi
      st.root.numConcepts st.root w _ hh (fun j hj => hv j (by simpa using hj)) hw with ho | ho
    · exact ho
    · exact absurd ho (fueled_categorizeLoop (fueled_ecg3 (hid := hid) (cfg := cfg) _) _ _ _ le_rfl)

/-- Histories of any instances with visible attributes exist: the hypothesis `Reach3` of the theorems
of this file can be met for every list of mixed data. -/
theorem reach3_exists (cfg : Cfg3 A B) (hist : List (Inst3 A V))
    (h : ∀ i ∈ hist, Dict.Nodup i ∧ HasVisible hid i) :
    ∃ st n, Reach3 hid cfg st hist n := by
  induction hist using List.reverseRecOn with
  | nil => exact ⟨_, _, .init Demo.w0⟩
  | append_singleton l i ih =>
    obtain ⟨st, n, hr⟩ := ih fun j hj => h j (by simp [hj])
    obtain ⟨hi, hv⟩ := h i (by simp)
    obtain ⟨o, ho⟩ := C63_ifit_never_raises hr (fun j hj => (h j (by simp [hj])).2) hi hv
      (w := ⟨fun k => (k : ℚ), 0, n⟩) (fun a b hab => by simpa using hab)
    exact ⟨_, _, .step hr hi (le_refl n) ho⟩

/-- A mixed history: numbers under 1, names under 2, a number and a name under 3. -/
def Demo.mixed : List (Inst3 ℕ ℕ) :=
  [[(1, .num 1), (2, .nom 7)], [(1, .num 3), (2, .nom 7), (3, .num 5)],
    [(1, .num (-2)), (2, .nom 8), (3, .nom 4)], [(1, .num 1), (2, .nom 7)]]

theorem Demo.mixed_ok : ∀ i ∈ Demo.mixed, Dict.Nodup i ∧ HasVisible Demo.hid i := by
  intro i hi
  simp only [Demo.mixed, List.mem_cons, List.not_mem_nil, or_false] at hi
  rcases hi with rfl | rfl | rfl | rfl <;>
    exact ⟨by simp [Dict.Nodup, Dict.keys], 1, by simp [Dict.keys], by decide⟩

/-- The mixed history is reachable, and its root has the accumulator of 1, 3, -2, 1. -/
example : ∃ st n, Reach3 Demo.hid (⟨1 / 2, id⟩ : Cfg3 ℕ ℕ) st Demo.mixed n ∧
    st.root.stats.count = 4 ∧ st.root.stats.nomLookup 2 7 = some 3 ∧ st.root.stats.numCount 1 = 4 ∧
    st.root.stats.numSum 1 = 3 := by
  obtain ⟨st, n, h⟩ := reach3_exists ⟨1 / 2, id⟩ Demo.mixed Demo.mixed_ok
  have h1 := (C29_every_node h).1
  have h2 : nums (Demo.mixed : Multiset (Inst3 ℕ ℕ)) 1 = {1, 3, -2, 1} := by
    simp [nums, Demo.mixed, Dict.get?, Val.num?, Multiset.filterMap_coe]
    rfl
  refine ⟨st, n, h, by rw [h1.count]; rfl, ?_, ?_, ?_⟩
  · rw [h1.noms]
    have : occ (Demo.mixed : Multiset (Inst3 ℕ ℕ)) 2 (.nom 7) = 3 := by
      simp [occ, Demo.mixed, Dict.get?]
    simp [this]
  · rw [(h1.numbers 1).1, h2]; rfl
  · rw [(h1.numbers 1).2.1, h2]; norm_num

/-! ### C30 -/

/-- **C30**: at every concept with a visible attribute, whatever the scaling, `expected_correct_guesses`
succeeds with a value in `(0, 1]`. -/
theorem C30_ecg_range (h : Reach3 hid cfg st hist n) {x : Tree (Stats3 A V)}
    (hx : x ∈ st.root.nodes) (hv : ∃ a ∈ x.stats.av.keys, hid a = false) :
    ∃ e, Stats3.ecg hid cfg st.scales x.stats = .ok e ∧ 0 < e ∧ e ≤ 1 := by
  obtain ⟨m, -, hm⟩ := (C29_every_node h).2 x hx
  have hne : (visAttrs hid m).Nonempty := by
    obtain ⟨a, ha, hva⟩ := hv
    obtain ⟨i, hi, hia⟩ := (hm.attrs a).1 ha
    exact ⟨a, Finset.mem_filter.2 ⟨mem_attrsOf.2 ⟨i, hi, hia⟩, hva⟩⟩
  exact ⟨_, ecg3_eq hm (reach3_scales h) hne, ecgSpec3_pos hne, ecgSpec3_le_one m⟩

/-- **C30**, the value: the mean over the visible attributes of the sum of the squared shares of the
nominal values plus, for the numbers, the squared share times the integral of the squared normal
density whose deviation is the (scaled) sample deviation with noise `1 / (4π)` added to its square. -/
theorem C30_ecg_value (h : Reach3 hid cfg st hist n) {x : Tree (Stats3 A V)}
    (hx : x ∈ st.root.nodes) (hv : ∃ a ∈ x.stats.av.keys, hid a = false) :
    ∃ m ≤ (hist : Multiset (Inst3 A V)), Summarizes3 x.stats m ∧
      Stats3.ecg hid cfg st.scales x.stats =
        .ok (ecgSpec3 hid cfg (fun b => (scaleNums cfg.inner hist b : Multiset ℝ)) m) := by
  obtain ⟨m, hle, hm⟩ := (C29_every_node h).2 x hx
  have hne : (visAttrs hid m).Nonempty := by
    obtain ⟨a, ha, hva⟩ := hv
    obtain ⟨i, hi, hia⟩ := (hm.attrs a).1 ha
    exact ⟨a, Finset.mem_filter.2 ⟨mem_attrsOf.2 ⟨i, hi, hia⟩, hva⟩⟩
  exact ⟨m, hle, hm, ecg3_eq hm (reach3_scales h) hne⟩

/-- The root of the mixed history has a visible attribute. -/
example : ∃ st n e, Reach3 Demo.hid (⟨1 / 2, id⟩ : Cfg3 ℕ ℕ) st Demo.mixed n ∧
    Stats3.ecg Demo.hid ⟨1 / 2, id⟩ st.scales st.root.stats = .ok e ∧ 0 < e ∧ e ≤ 1 := by
  obtain ⟨st, n, h⟩ := reach3_exists ⟨1 / 2, id⟩ Demo.mixed Demo.mixed_ok
  obtain ⟨e, he⟩ := C30_ecg_range h (Tree.self_mem_nodes _)
    ⟨1, ((C29_every_node h).1.attrs 1).2 ⟨_, by simp [Demo.mixed]; exact Or.inl rfl, by simp [Dict.keys]⟩, by decide⟩
  exact ⟨st, n, e, h, he⟩

end CF
