/-
Property C95: `Cobweb3Tree` in floating point, for every rounding.
-/
import Verif.Proofs.Float3
import Verif.Props.Cobweb3
import Verif.Props.AnyArith

set_option linter.unusedSectionVars false

namespace CF
variable {A B V : Type} [DecidableEq A] [DecidableEq B] [DecidableEq V] {R : Rounding} {hid : A → Bool}
variable {cfg : Cfg3 A B} {st : State3 A B V} {hist : List (Inst3 A V)} {n : ℕ}

/-! ### The arithmetic -/

theorem floatArith_sorts (fl : ℝ → ℝ) : (floatArith fl).Sorts where
  cands h := by
    simp only [floatArith] at h
    split at h
    · cases h; exact perm_sortCands _
    · cases h
  ops l := perm_sortOps _

theorem natF_ne_zero {n : ℕ} (h : n ≠ 0) : natF R.fl n ≠ 0 := by
  have := R.one_le_natF (n := n) (by omega)
  linarith

theorem floatArith_total : (floatArith R.fl).Total where
  ratio a b h := ⟨_, if_neg (natF_ne_zero h)⟩
  div x n h := ⟨_, if_neg (natF_ne_zero h)⟩
  sort l h := by
    refine ⟨_, if_pos ?_⟩
    refine List.Nodup.of_map (fun k => (ofLex (ofLex k).2).2) ?_
    simpa [Function.comp_def, Cand.key] using h

/-- `r` is `x` rounded to one of the floats next to it: no float lies between them. -/
structure Faithful (x r : ℝ) : Prop where
  float : IsFloat r
  below : ∀ y, IsFloat y → y ≤ x → y ≤ r
  above : ∀ y, IsFloat y → x ≤ y → r ≤ y

theorem Rounding.faithful (R : Rounding) (x : ℝ) : Faithful x (R.fl x) :=
  ⟨R.float x, fun _ hy h => R.le_fl hy h, fun _ hy h => R.fl_le hy h⟩

/-- **C95**: every operation on scores is that on real numbers, rounded once to a float next to the result.
Counts up to 2^53 are exact. -/
theorem C95_arith (R : Rounding) (x y : ℝ) :
    Faithful (x + y) ((floatArith R.fl).add x y) ∧ Faithful (x - y) ((floatArith R.fl).sub x y) ∧
    Faithful (x * y) ((floatArith R.fl).mul x y) ∧
    (∀ q, (floatArith R.fl).div x y = .ok q → Faithful (x / y) q) ∧
    ∀ a b : ℕ, a ≤ 2 ^ 53 → b ≤ 2 ^ 53 → (floatArith R.fl).ofNat a = a ∧
      ∀ q, (floatArith R.fl).ratio a b = .ok q → Faithful ((a : ℝ) / b) q := by
  refine ⟨R.faithful _, R.faithful _, R.faithful _, fun q h => ?_, fun a b ha hb => ⟨R.natF_eq ha, fun q h => ?_⟩⟩
  · simp only [floatArith, divF] at h
    split at h
    · cases h
    · cases h; exact R.faithful _
  · simp only [floatArith, divF, R.natF_eq ha, R.natF_eq hb] at h
    split at h
    · cases h
    · cases h; exact R.faithful _

/-- **C95**: the scores that are compared, the utility of inserting into the best child and the category utilities,
are floats. -/
theorem C95_scores_floats {I S : Type} (R : Rounding) (C : NodeClass I S) (ecg : S → Res ℝ) (s : S) (cs : List S) :
    (∀ x, categoryUtilityA (floatArith R.fl) C ecg s cs = .ok x → IsFloat x) ∧
    (∀ i x, relativeCuForInsertA (floatArith R.fl) C ecg s i = .ok x → IsFloat x) ∧
    ∀ i w b, twoBestA (floatArith R.fl) C ecg s cs i w = .ok b → IsFloat b.cu := by
  refine ⟨fun x h => ?_, fun i x h => ?_, fun i w b h => ?_⟩
  · cases cs with
    | nil => cases h; exact R.float _
    | cons c cs =>
      simp only [categoryUtilityA, bind_ok] at h
      obtain ⟨g, -, e, -, h⟩ := h
      exact ((C95_arith R _ _).2.2.2.1 _ h).float
  · simp only [relativeCuForInsertA, bind_ok, pure_ok] at h
    obtain ⟨e1, -, e0, -, rfl⟩ := h
    exact ((C95_arith R _ _).2.1).float
  · unfold twoBestA at h
    split at h
    · cases h
    · simp only [bind_ok] at h
      obtain ⟨cands, -, sorted, -, const, -, h⟩ := h
      split at h
      · cases h
      · simp only [bind_ok, pure_ok] at h
        obtain ⟨q, -, q', -, rfl⟩ := h
        exact ((C95_arith R _ _).1).float

/-- A third is not a float: the ratio of the counts 1 and 3 is not exact. -/
example (R : Rounding) {q : ℝ} (h : (floatArith R.fl).ratio 1 3 = .ok q) : IsFloat q ∧ 1 / 4 ≤ q ∧ q ≤ 1 / 2 := by
  have := ((C95_arith R 0 0).2.2.2.2 1 3 (by norm_num) (by norm_num)).2 q h
  exact ⟨this.float, this.below _ (.mk 1 (-2) (by norm_num) (by norm_num) (by norm_num)) (by norm_num),
    this.above _ (.mk 1 (-1) (by norm_num) (by norm_num) (by norm_num)) (by norm_num)⟩

/-! ### Without rounding -/

theorem floatArith_id : floatArith id = exactArith ℝ := by
  unfold floatArith exactArith
  simp [divF_id, natF]

theorem joinF_id (c d : CV ℝ) : CV.joinF id c d = c.join d := by
  simp [CV.joinF, CV.join, natF]

theorem class3F_id : cobweb3ClassF id hid = cobweb3Class (V := V) hid := by
  have h1 : (Tab.addF id : Tab V → Val V → Tab V) = Tab.add := by
    funext t v
    cases v with
    | nom v => rfl
    | num x => simp only [Tab.addF, Tab.add, (C91_unrounded _ CV.fresh x 1 []).1]
  have h2 : (Tab.mergeF id : Tab V → Tab V → Tab V) = Tab.merge := by
    funext t n
    simp only [Tab.mergeF, Tab.merge, joinF_id]
    cases n.cv <;> rfl
  have h3 : (Tab.matchesF id : ℕ → Tab V → Val V → Bool) = Tab.matches := by
    funext k t v
    cases v with
    | nom v => rfl
    | num x =>
      simp only [Tab.matchesF, Tab.matches, (C91_unrounded _ CV.fresh x 1 []).2.2.2.2.1]
      cases t.cv <;> rfl
  unfold cobweb3ClassF cobweb3Class
  have e1 : (Stats3.incrF id : Stats3 A V → Inst3 A V → Stats3 A V) = Stats3.incr := by
    funext s i; simp only [Stats3.incrF, Stats3.incr, h1]
  have e2 : (Stats3.addFromF id : Stats3 A V → Stats3 A V → Stats3 A V) = Stats3.addFrom := by
    funext s i; simp only [Stats3.addFromF, Stats3.addFrom, h2]
  have e3 : (Stats3.isExactF id hid : Stats3 A V → Inst3 A V → Bool) = Stats3.isExact hid := by
    funext s i
    simp only [Stats3.isExactF, Stats3.isExact, h3]
    congr 2
  rw [e1, e2, e3]

theorem updateScalesF_id (inner : A → B) (sc : Scales B) (i : Inst3 A V) :
    updateScalesF id inner sc i = updateScales inner sc i := by
  induction i generalizing sc with
  | nil => rfl
  | cons p i ih =>
    obtain ⟨a, v⟩ := p
    cases v with
    | nom v => exact ih _
    | num x => simp only [updateScalesF, updateScales, ih, (C91_unrounded _ CV.fresh x 1 []).1]

theorem ecgScaleF_id (sc : Scales B) (a : A) : ecgScaleF id cfg sc a = ecgScale cfg sc a := by
  unfold ecgScaleF ecgScale
  split
  · rfl
  · cases sc.get? (cfg.inner a) with
    | none => rfl
    | some c => simp only [divF_id, (C91_unrounded _ CV.fresh 0 1 []).2.2.2.2.1]; rfl

theorem cvTermF_id (k : ℕ) (scale : ℝ) (c : CV ℝ) : cvTermF id k scale c = cvTerm k scale c := by
  have h1 : ¬ (4 * Real.pi = 0) := by positivity
  have h2 : ¬ Real.pi < 0 := not_lt.2 Real.pi_pos.le
  simp only [cvTermF, cvTerm, (C91_unrounded c CV.fresh 0 scale []).2.2.2.2.2.2, sqrtF_id, natF, piF, id,
    divF_id]
  simp only [pyDiv, h1, if_false, ok_bind, pySqrt, h2]

theorem cellLoopF_noms (sc : Scales B) (k : ℕ) (a : A) (l : List ℕ) (tl : List Cell) (acc : ℝ) :
    cellLoopF id cfg sc k a (l.map Sum.inl ++ tl) acc =
      (do let acc ← sqLoop k l acc
          cellLoopF id cfg sc k a tl acc) := by
  induction l generalizing acc with
  | nil => rfl
  | cons c l ih =>
    simp only [List.map_cons, List.cons_append, cellLoopF, sqLoop, divF_id, natF, id, ih]
    cases pyDiv (c : ℝ) (k : ℝ) with
    | error e => rfl
    | ok p => rfl

theorem cells_eq (t : Tab V) (pos : ℕ) : t.cells pos = match t.cv with
    | none => (t.noms.map Prod.snd).map Sum.inl
    | some c => ((t.noms.map Prod.snd).take pos).map Sum.inl ++
        Sum.inr c :: ((t.noms.map Prod.snd).drop pos).map Sum.inl := by
  have hm : (t.noms.map fun p => (Sum.inl p.2 : Cell)) = (t.noms.map Prod.snd).map Sum.inl := by simp
  unfold Tab.cells
  rw [hm]
  generalize t.noms.map Prod.snd = l
  cases t.cv <;> simp

/-- Without rounding, and with the accumulator last, the loop is that of `Verif.Model.Cobweb3`. -/
theorem cellLoopF_last (sc : Scales B) (k : ℕ) (a : A) (t : Tab V) {pos : ℕ} (hp : t.noms.length ≤ pos) (acc : ℝ) :
    cellLoopF id cfg sc k a (t.cells pos) acc =
      (do let acc ← sqLoop k (t.noms.map Prod.snd) acc
          cvPart cfg sc k a t.cv acc) := by
  rw [cells_eq]
  have h1 : (t.noms.map Prod.snd).take pos = t.noms.map Prod.snd := List.take_of_length_le (by simpa using hp)
  have h2 : (t.noms.map Prod.snd).drop pos = [] := List.drop_eq_nil_of_le (by simpa using hp)
  cases t.cv with
  | none =>
    have := cellLoopF_noms (cfg := cfg) sc k a (t.noms.map Prod.snd) [] acc
    rw [List.append_nil] at this
    exact this
  | some c =>
    simp only [h1, h2]
    rw [cellLoopF_noms]
    congr 1
    funext acc
    simp only [cellLoopF, ecgScaleF_id, cvTermF_id, cvPart, List.map_nil]
    rfl

/-- The position of the accumulator is immaterial in exact arithmetic. -/
theorem cellLoopF_position (sc : Scales B) {k : ℕ} (hk : k ≠ 0) (a : A) (t : Tab V) (pos : ℕ) (acc : ℝ) :
    cellLoopF id cfg sc k a (t.cells pos) acc =
      (do let acc ← sqLoop k (t.noms.map Prod.snd) acc
          cvPart cfg sc k a t.cv acc) := by
  have hk' : ¬ ((k : ℝ) = 0) := by exact_mod_cast hk
  have hn : ∀ (l : List ℕ) (acc : ℝ),
      sqLoop k l acc = .ok (acc + (l.map fun c : ℕ => ((c : ℝ) / k) * (c / k)).sum) := by
    intro l
    induction l with
    | nil => intro acc; simp [sqLoop]
    | cons c l ih => intro acc; simp only [sqLoop, pyDiv, hk', if_false, ok_bind, ih]; simp; ring
  rw [cells_eq]
  generalize t.noms.map Prod.snd = l
  cases t.cv with
  | none =>
    have := cellLoopF_noms (cfg := cfg) sc k a l [] acc
    rw [List.append_nil] at this
    exact this
  | some c =>
    simp only [cellLoopF_noms, hn, ok_bind, cellLoopF, ecgScaleF_id, cvTermF_id, cvPart]
    cases ecgScale cfg sc a with
    | error e => rfl
    | ok s =>
      simp only [ok_bind]
      cases cvTerm k s c with
      | error e => rfl
      | ok x =>
        have := cellLoopF_noms (cfg := cfg) sc k a (l.drop pos) []
        simp only [List.append_nil] at this
        simp only [ok_bind, this, hn, cellLoopF, id]
        show Except.ok _ = Except.ok _
        congr 1
        conv_rhs => rw [← List.take_append_drop pos l, List.map_append, List.sum_append]
        ring

theorem ecgF_of {sc : Scales B} {s : Stats3 A V} {pos : Tab V → ℕ}
    (h : ∀ (a : A) (t : Tab V) acc, cellLoopF id cfg sc s.count a (t.cells (pos t)) acc =
      (do let acc ← sqLoop s.count (t.noms.map Prod.snd) acc
          cvPart cfg sc s.count a t.cv acc)) :
    Stats3.ecgF id pos hid cfg sc s = Stats3.ecg hid cfg sc s := by
  have hl : ∀ (ts : Dict A (Tab V)) (acc : ℝ),
      ecgLoop3F id pos cfg sc s.count ts acc = ecgLoop3 cfg sc s.count ts acc := by
    intro ts
    induction ts with
    | nil => intro acc; rfl
    | cons p ts ih =>
      intro acc
      simp only [ecgLoop3F, ecgLoop3, h, ih]
      cases sqLoop s.count (p.2.noms.map Prod.snd) acc with
      | error e => rfl
      | ok r => rfl
  simp only [Stats3.ecgF, Stats3.ecg, hl, divF_id, natF]
  rfl

/-- **C95**: without rounding, and with the accumulators last, this is the exact model; in the exact model
the score of a concept that holds an instance does not depend on where the accumulators are. -/
theorem C95_unrounded (st : State3 A B V) (i : Inst3 A V) (w : World) {pos : Tab V → ℕ}
    (hp : ∀ t : Tab V, t.noms.length ≤ pos t) :
    ifit3F id pos hid cfg st i w = ifit3 hid cfg st i w ∧
    categorize3F id pos hid cfg st i w = categorize3 hid cfg st i w ∧
    ∀ (pos' : Tab V → ℕ) (s : Stats3 A V), s.count ≠ 0 →
      Stats3.ecgF id pos' hid cfg st.scales s = Stats3.ecg hid cfg st.scales s := by
  have he : ∀ sc : Scales B, Stats3.ecgF id pos hid cfg sc = Stats3.ecg hid cfg sc := fun sc =>
    funext fun s => ecgF_of fun a t acc => cellLoopF_last sc s.count a t (hp t) acc
  refine ⟨?_, ?_, fun pos' s hs => ecgF_of fun a t acc => cellLoopF_position _ hs a t _ acc⟩
  · simp only [ifit3F, ifit3, he, class3F_id, floatArith_id, updateScalesF_id, cobwebBy_exact]
  · simp only [categorize3F, categorize3, he, class3F_id, floatArith_id, categorizeA_exact]

/-! ### The tree -/

theorem ifit3F_by {pos : Tab V → ℕ} {i : Inst3 A V} {w : World} {o : Out3 A B V}
    (ho : ifit3F R.fl pos hid cfg st i w = .ok o) :
    ∃ o', cobwebBy (cobweb3ClassF R.fl hid) (chooseOpA (floatArith R.fl) (cobweb3ClassF R.fl hid)
        (Stats3.ecgF R.fl pos hid cfg (updateScalesF R.fl cfg.inner st.scales i))) st.root i w = .ok o' ∧
      o.state.root = o'.tree ∧ o.leaf = o'.leaf ∧ o.w = o'.w ∧
      o.state.scales = updateScalesF R.fl cfg.inner st.scales i := by
  simp only [ifit3F, bind_ok, pure_ok] at ho
  obtain ⟨o', ho', rfl⟩ := ho
  exact ⟨o', ho', rfl, rfl, rfl, rfl⟩

theorem reach3F_any (h : Reach3F R hid cfg st hist n) :
    ReachAny (cobweb3ClassF R.fl hid) FloatInst st.root hist n := by
  induction h with
  | init w => exact .init w
  | step _ hi hw ho ih =>
    obtain ⟨o', ho', e1, -, e3, -⟩ := ifit3F_by ho
    rw [e1, e3]
    exact .step ih (floatArith_sorts _) hi hw ho'

theorem reach3F_holds (h : Reach3F R hid cfg st hist n) :
    TreeHolds (cobweb3ClassF R.fl hid) Counts3 (SameVisible hid) st.root (hist : Multiset (Inst3 A V)) :=
  (reachAny_holds (cobweb3LawsF R hid) (reach3F_any h)).holds (cobweb3LawsF R hid)

theorem Counts3.getD {s : Stats3 A V} {m : Multiset (Inst3 A V)} (h : Counts3 s m) (a : A) (v : V) :
    (s.nomLookup a v).getD 0 = occ m a (.nom v) := by
  rw [h.noms]; split <;> simp_all

theorem Counts3.numCount {s : Stats3 A V} {m : Multiset (Inst3 A V)} (h : Counts3 s m) (a : A) :
    s.numCount a = Multiset.card (nums m a) := by
  unfold Stats3.numCount
  rcases h.cv a with ⟨h1, h2⟩ | ⟨h1, c, h2, h3, -⟩
  · simp [h1, h2]
  · rw [h2]; simpa using h3

theorem TreeHolds.sum_table {I S : Type} {C : NodeClass I S} {Ok : I → Prop} {Sum : S → Multiset I → Prop}
    {Same : I → I → Prop} (L : TableLaws C Ok Sum Same) {t : Tree S} {m : Multiset I}
    (h : TreeHolds C Sum Same t m) : Sum t.stats m := by
  rcases h with ⟨rfl, id, rfl⟩ | h
  · exact L.fresh
  · exact h.sum

/-- **C95**: however the operations are rounded, every concept counts some of the fitted instances and the
root all of them (instances, nominal values, and how many numbers each accumulator holds), the deviation of
every accumulator is defined, and the concept ids are distinct. -/
theorem C95_every_node (h : Reach3F R hid cfg st hist n) :
    Counts3 st.root.stats (hist : Multiset (Inst3 A V)) ∧ st.root.ids.Nodup ∧
    ∀ x ∈ st.root.nodes, (∃ m ≤ (hist : Multiset (Inst3 A V)), Counts3 x.stats m) ∧
      ∀ a c, x.stats.cvOf a = some c → IsFloat c.mean ∧ 0 ≤ c.meanSq ∧
        ∃ s, CV.unbiasedStdF R.fl c = .ok s ∧ 0 ≤ s := by
  have L := cobweb3LawsF (V := V) R hid
  refine ⟨(reach3F_holds h).sum_table L, (reachAny_ids (reach3F_any h)).1, fun x hx => ?_⟩
  obtain ⟨m, hm, hle⟩ := (reach3F_holds h).of_mem_nodes hx
  have hs := hm.sum_table L
  refine ⟨⟨m, hle, hs⟩, fun a c hc => ?_⟩
  rcases hs.cv a with ⟨-, h2⟩ | ⟨-, d, h2, -, h3⟩
  · rw [hc] at h2; cases h2
  · rw [hc] at h2; cases h2
    obtain ⟨⟨s, e1, e2, -⟩, -⟩ := h3.std (R := R)
    exact ⟨h3.mean, h3.nonneg, s, e1, e2⟩

/-- **C95**: an internal concept has at least two children, and its counts are the sums of theirs. -/
theorem C95_conserved (h : Reach3F R hid cfg st hist n) :
    ∀ x ∈ st.root.nodes, x.children ≠ [] → 2 ≤ x.children.length ∧
      x.stats.count = (x.children.map fun c => c.stats.count).sum ∧
      (∀ a v, (x.stats.nomLookup a v).getD 0 =
        (x.children.map fun c => (c.stats.nomLookup a v).getD 0).sum) ∧
      ∀ a, x.stats.numCount a = (x.children.map fun c => c.stats.numCount a).sum := by
  intro x hx hne
  obtain ⟨m, hm, -⟩ := (reach3F_holds h).of_mem_nodes hx
  have hs := hm.sum_table (cobweb3LawsF R hid)
  refine ⟨hm.two_children.resolve_left hne, ?_⟩
  obtain ⟨ms, hf, rfl⟩ := hm.children hne
  refine ⟨?_, fun a v => ?_, fun a => ?_⟩
  · rw [hs.count, map_eq_of_forall₂ (g := Multiset.card) (fun c m hc => hc.sum.count) hf]
    exact sum_hom Multiset.cardHom ms
  · rw [hs.getD, sum_occ]
    congr 1
    exact (map_eq_of_forall₂ (fun c m hc => hc.sum.getD a v) hf).symm
  · rw [hs.numCount, nums_sum, map_eq_of_forall₂ (fun c m hc => hc.sum.numCount a) hf]
    have := sum_hom Multiset.cardHom (ms.map fun m => nums m a)
    simpa [Function.comp_def] using this

/-- **C95**: the history is distributed over the leaves in groups of instances that agree on the visible
attributes, and the accumulator of a visible attribute of a leaf has the common number as its mean, and
squared error zero. -/
theorem C95_leaves (h : Reach3F R hid cfg st hist n) (hne : hist ≠ []) :
    ∃ groups : List (List (Inst3 A V)), (groups.map fun g => (g : Multiset (Inst3 A V))).sum = (hist : Multiset _) ∧
      List.Forall₂ (fun leaf g => g ≠ [] ∧ Counts3 leaf.stats (g : Multiset (Inst3 A V)) ∧
        (∀ i ∈ g, ∀ j ∈ g, ∀ a, hid a = false → Dict.get? i a = Dict.get? j a) ∧
        ∀ i ∈ g, ∀ a x, hid a = false → Dict.get? i a = some (.num x) →
          leaf.stats.cvOf a = some ⟨g.length, x, 0⟩) st.root.leaves groups := by
  rcases reachAny_holds (cobweb3LawsF R hid) (reach3F_any h) with ⟨h0, -⟩ | h
  · simp at h0; exact absurd h0 hne
  · obtain ⟨ls, h1, h2⟩ := h.leaves
    refine ⟨ls, h1, h2.imp ?_⟩
    rintro leaf g ⟨hg, hb, hok, hsame⟩
    rw [hb]
    refine ⟨hg, counts3_built hok, hsame, fun i hi a x ha hx => ?_⟩
    obtain ⟨-, c, hc, e1, e2, e3⟩ := built_constant (R := R) (hid := hid) hok hg (a := a) (x := x)
      (fun j hj => by rw [← hsame i hi j hj a ha]; exact hx)
    rw [hc]
    obtain ⟨c1, c2, c3⟩ := c
    simp only at e1 e2 e3
    rw [e1, e2, e3]

/-- **C95**: `ifit` returns a leaf that matches the instance exactly, and whose accumulators of visible
attributes have the instance's numbers as their means; the other leaves are untouched. -/
theorem C95_ifit (h : Reach3F R hid cfg st hist n) {pos : Tab V → ℕ} {i : Inst3 A V} (hi : FloatInst i)
    {w : World} (hw : n ≤ w.ctr) {o : Out3 A B V} (ho : ifit3F R.fl pos hid cfg st i w = .ok o) :
    Reach3F R hid cfg o.state (hist ++ [i]) o.w.ctr ∧
    (∃ leaf ∈ o.state.root.leaves, leaf.id = o.leaf ∧ leaf.children = [] ∧
      (∀ x ∈ o.state.root.nodes, x.id = o.leaf → x = leaf) ∧ leaf.stats.isExactF R.fl hid i = true ∧
      (∀ a x, hid a = false → Dict.get? i a = some (.num x) →
        leaf.stats.cvOf a = some ⟨leaf.stats.count, x, 0⟩) ∧
      ∀ a v, hid a = false → Dict.get? i a = some (.nom v) → leaf.stats.nomLookup a v = some leaf.stats.count) ∧
    ∀ id s, .node id s [] ∈ st.root.leaves → id ≠ o.leaf → .node id s [] ∈ o.state.root.leaves := by
  have L := cobweb3LawsF (V := V) R hid
  obtain ⟨o', ho', e1, e2, e3, -⟩ := ifit3F_by ho
  refine ⟨.step h hi hw ho, ?_, fun id s hx hid' => ?_⟩
  · obtain ⟨l, h1, h2, h3, h4⟩ := reachAny_leaf L (floatArith_sorts R.fl) (reach3F_any h) hi hw ho'
    have hok : ∀ j ∈ l ++ [i], FloatInst j := by
      intro j hj
      rcases List.mem_append.1 hj with hj | hj
      · exact h2 j hj
      · rwa [List.mem_singleton.1 hj]
    have hsum := L.built hok
    have hex : (cobweb3ClassF R.fl hid).isExact ((cobweb3ClassF R.fl hid).built (l ++ [i])) i = true :=
      (built_exactF (by simp) hok h3 hi).2 (fun j hj => h3 i (by simp) j hj)
    rw [e1, e2]
    refine ⟨_, h1, rfl, rfl, h4, hex, fun a x ha hx => ?_, fun a v ha hv => ?_⟩
    · obtain ⟨-, c, hc, f1, f2, f3⟩ := built_constant (R := R) (hid := hid) hok (by simp) (a := a) (x := x)
        (fun j hj => by rw [← h3 i (by simp) j hj a ha]; exact hx)
      simp only [Tree.stats_node]
      rw [hc, hsum.count]
      obtain ⟨c1, c2, c3⟩ := c
      simp only at f1 f2 f3
      rw [f1, f2, f3, Multiset.coe_card]
    · have hocc : occ ((l ++ [i] : List (Inst3 A V)) : Multiset (Inst3 A V)) a (.nom v)
          = Multiset.card ((l ++ [i] : List (Inst3 A V)) : Multiset (Inst3 A V)) := by
        apply Multiset.countP_eq_card.2
        intro j hj
        rw [← h3 i (by simp) j (by simpa using hj) a ha]; exact hv
      simp only [Tree.stats_node]
      rw [hsum.noms, hocc, hsum.count]; simp
  · rw [e1]
    rw [e2] at hid'
    rcases (reachAny_loop (floatArith_sorts R.fl) ho').leaves_persist id s hx with h | h
    · exact h
    · exact absurd h.2 hid'

/-! ### Scales -/

theorem updateScalesF_get (inner : A → B) (sc : Scales B) (i : Inst3 A V) (b : B) :
    (updateScalesF R.fl inner sc i).get? b = if scaleNums inner [i] b = [] then sc.get? b
      else some (CV.updateBatchF R.fl ((sc.get? b).getD CV.fresh) (scaleNums inner [i] b)) := by
  induction i generalizing sc with
  | nil => simp [updateScalesF, scaleNums]
  | cons p i ih =>
    obtain ⟨a, v⟩ := p
    cases v with
    | nom v =>
      have e : scaleNums inner [((a, .nom v) :: i : Inst3 A V)] b = scaleNums inner [i] b := by
        simp only [scaleNums, List.flatMap_cons, List.flatMap_nil, List.append_nil]
        by_cases hb : inner a = b
        · simp [hb, Val.num?]
        · simp [hb]
      simp only [updateScalesF]
      rw [ih, e]
    | num x =>
      simp only [updateScalesF]
      rw [ih, Dict.get?_set]
      by_cases hb : inner a = b
      · have e : scaleNums inner [((a, .num x) :: i : Inst3 A V)] b = x :: scaleNums inner [i] b := by
          simp only [scaleNums, List.flatMap_cons, List.flatMap_nil, List.append_nil]
          simp [hb, Val.num?]
        rw [e, if_neg (List.cons_ne_nil _ _), if_pos hb, hb]
        split
        · rename_i h0; rw [h0]; rfl
        · rfl
      · have e : scaleNums inner [((a, .num x) :: i : Inst3 A V)] b = scaleNums inner [i] b := by
          simp only [scaleNums, List.flatMap_cons, List.flatMap_nil, List.append_nil]
          simp [hb]
        rw [e, if_neg hb]

theorem updateBatchF_append' (c : CV ℝ) (xs ys : List ℝ) :
    CV.updateBatchF R.fl c (xs ++ ys) = CV.updateBatchF R.fl (CV.updateBatchF R.fl c xs) ys := by
  induction xs generalizing c with
  | nil => rfl
  | cons y ys ih => exact ih _

theorem scalesF_step {sc : Scales B} {i : Inst3 A V}
    (h : ∀ b, sc.get? b = if scaleNums cfg.inner hist b = [] then none
      else some (CV.updateBatchF R.fl CV.fresh (scaleNums cfg.inner hist b))) (b : B) :
    (updateScalesF R.fl cfg.inner sc i).get? b = if scaleNums cfg.inner (hist ++ [i]) b = [] then none
      else some (CV.updateBatchF R.fl CV.fresh (scaleNums cfg.inner (hist ++ [i]) b)) := by
  rw [updateScalesF_get, h, scaleNums_append]
  by_cases h1 : scaleNums cfg.inner [i] b = [] <;> by_cases h2 : scaleNums cfg.inner hist b = []
  · simp [h1, h2]
  · simp [h1, h2]
  · simp [h1, h2]
  · simp [h1, h2, updateBatchF_append']

/-- **C95**: `attr_scales` holds, for each inner name under which numbers were fitted, the accumulator of
exactly these numbers in their order. -/
theorem C95_scales (h : Reach3F R hid cfg st hist n) (b : B) :
    st.scales.get? b = if scaleNums cfg.inner hist b = [] then none
      else some (CV.updateBatchF R.fl CV.fresh (scaleNums cfg.inner hist b)) := by
  induction h generalizing b with
  | init w => simp [scaleNums]
  | @step st hist n i w o pos _ _ _ ho ih =>
    obtain ⟨o', -, -, -, -, e⟩ := ifit3F_by ho
    rw [e]
    exact scalesF_step ih b

theorem reach3F_insts (h : Reach3F R hid cfg st hist n) : ∀ i ∈ hist, FloatInst i := by
  induction h with
  | init w => simp
  | step _ hi _ _ ih =>
    intro j hj
    rcases List.mem_append.1 hj with hj | hj
    · exact ih j hj
    · rwa [List.mem_singleton.1 hj]

/-! ### Exceptions -/

theorem Rounding.fl_pi : 3 ≤ piF R.fl ∧ piF R.fl ≤ 4 := by
  have h3 : IsFloat ((3 : ℕ) : ℝ) := .nat (by norm_num)
  have h4 : IsFloat ((4 : ℕ) : ℝ) := .nat (by norm_num)
  push_cast at h3 h4
  exact ⟨R.le_fl h3 Real.pi_gt_three.le, R.fl_le h4 Real.pi_le_four⟩

/-- The divisors in the contribution of an accumulator are far from zero. -/
theorem cvTermF_ok {c : CV ℝ} (hc : c.Sound) {k : ℕ} (hk : k ≠ 0) (scale : ℝ) :
    ∃ x, cvTermF R.fl k scale c = .ok x ∧ 0 ≤ x := by
  obtain ⟨⟨s, hs, hs0, -⟩, -⟩ := hc.std (R := R)
  have h1 : ∃ r, CV.scaledUnbiasedStdF R.fl c scale = .ok r := by
    have : ¬ ((if scale ≤ 0 then 1 else scale) = 0) := by
      split
      · exact one_ne_zero
      · rename_i h; exact (lt_of_not_ge h).ne'
    exact ⟨_, by simp only [CV.scaledUnbiasedStdF, hs, ok_bind, divF, if_neg this]; rfl⟩
  obtain ⟨r, hr⟩ := h1
  obtain ⟨p1, p2⟩ := R.fl_pi
  have f16 : IsFloat (1 / 16) := .mk 1 (-4) (by norm_num) (by norm_num) (by norm_num)
  have f4 : IsFloat (1 / 4) := .mk 1 (-2) (by norm_num) (by norm_num) (by norm_num)
  have f2 : IsFloat (1 / 2) := .mk 1 (-1) (by norm_num) (by norm_num) (by norm_num)
  have g16 : IsFloat ((16 : ℕ) : ℝ) := .nat (by norm_num)
  have g2 : IsFloat ((2 : ℕ) : ℝ) := .nat (by norm_num)
  push_cast at g16 g2
  have a1 : 1 ≤ R.fl (4 * piF R.fl) := R.le_fl .one (by linarith)
  have a2 : R.fl (4 * piF R.fl) ≤ 16 := R.fl_le g16 (by linarith)
  have a3 : 1 / 16 ≤ R.fl (1 / R.fl (4 * piF R.fl)) :=
    R.le_fl f16 (one_div_le_one_div_of_le (by linarith) a2)
  have a4 : 1 / 16 ≤ R.fl (R.fl (r * r) + R.fl (1 / R.fl (4 * piF R.fl))) :=
    R.le_fl f16 (by linarith [R.fl_nonneg (mul_self_nonneg r)])
  have a5 : 1 / 4 ≤ R.fl (Real.sqrt (R.fl (R.fl (r * r) + R.fl (1 / R.fl (4 * piF R.fl))))) :=
    R.le_fl f4 (Real.le_sqrt_of_sq_le (by linarith))
  have a6 : 1 ≤ R.fl (Real.sqrt (piF R.fl)) := R.le_fl .one (Real.le_sqrt_of_sq_le (by linarith))
  have a7 : 2 ≤ R.fl (2 * R.fl (Real.sqrt (piF R.fl))) := R.le_fl g2 (by linarith)
  have a8 : 1 / 2 ≤ R.fl (R.fl (2 * R.fl (Real.sqrt (piF R.fl))) *
      R.fl (Real.sqrt (R.fl (R.fl (r * r) + R.fl (1 / R.fl (4 * piF R.fl)))))) := R.le_fl f2 (by nlinarith)
  have b1 : ¬ R.fl (4 * piF R.fl) = 0 := by linarith
  have b2 : ¬ R.fl (R.fl (r * r) + R.fl (1 / R.fl (4 * piF R.fl))) < 0 := by linarith
  have b3 : ¬ piF R.fl < 0 := by linarith
  have b4 : ¬ R.fl (R.fl (2 * R.fl (Real.sqrt (piF R.fl))) *
      R.fl (Real.sqrt (R.fl (R.fl (r * r) + R.fl (1 / R.fl (4 * piF R.fl)))))) = 0 := by linarith
  refine ⟨_, by simp only [cvTermF, hr, ok_bind, divF, sqrtF, if_neg b1, if_neg b2, if_neg b3, if_neg b4,
    if_neg (natF_ne_zero (R := R) hk)]; rfl, ?_⟩
  exact R.fl_nonneg (mul_nonneg (R.fl_nonneg (mul_self_nonneg _))
    (R.fl_nonneg (div_nonneg zero_le_one (by linarith))))

/-- Every scale of the tree is sound. -/
def SoundScales (sc : Scales B) : Prop := ∀ b c, sc.get? b = some c → c.Sound

theorem scales_sound {sc : Scales B} (hok : ∀ i ∈ hist, FloatInst i)
    (h : ∀ b, sc.get? b = if scaleNums cfg.inner hist b = [] then none
      else some (CV.updateBatchF R.fl CV.fresh (scaleNums cfg.inner hist b))) : SoundScales sc := by
  intro b c hc
  rw [h] at hc
  split at hc
  · cases hc
  · cases hc
    refine (batchF_sound ?_).1
    intro x hx
    simp only [scaleNums, List.mem_flatMap, List.mem_filterMap, List.mem_filter] at hx
    obtain ⟨i, hi, ⟨a, v⟩, ⟨hp, -⟩, hv⟩ := hx
    cases v with
    | nom v => simp [Val.num?] at hv
    | num y =>
      simp only [Val.num?, Option.some.injEq] at hv
      subst hv
      exact (hok i hi).nums a y (Dict.get?_of_mem (hok i hi).nodup hp)

theorem ecgScaleF_ok {sc : Scales B} (hsc : SoundScales sc) (a : A) : ∃ x, ecgScaleF R.fl cfg sc a = .ok x := by
  unfold ecgScaleF
  split
  · exact ⟨_, rfl⟩
  · rename_i h0
    split
    · exact ⟨_, rfl⟩
    · rename_i c hc
      obtain ⟨⟨s, hs, -, -⟩, -⟩ := (hsc _ _ hc).std (R := R)
      exact ⟨_, by simp only [divF, if_neg h0, ok_bind, hs]; rfl⟩

theorem cellLoopF_ok {sc : Scales B} (hsc : SoundScales sc) {k : ℕ} (hk : k ≠ 0) (a : A) (l : List Cell)
    (hl : ∀ c, Sum.inr c ∈ l → c.Sound) (acc : ℝ) : ∃ x, cellLoopF R.fl cfg sc k a l acc = .ok x := by
  induction l generalizing acc with
  | nil => exact ⟨_, rfl⟩
  | cons c l ih =>
    have ih := ih fun c hc => hl c (List.mem_cons_of_mem _ hc)
    cases c with
    | inl c =>
      simp only [cellLoopF, divF, if_neg (natF_ne_zero (R := R) hk), ok_bind]
      exact ih _
    | inr c =>
      obtain ⟨s, hs⟩ := ecgScaleF_ok (R := R) (cfg := cfg) hsc a
      obtain ⟨x, hx, -⟩ := cvTermF_ok (R := R) (hl c (by simp)) hk s
      simp only [cellLoopF, hs, hx, ok_bind]
      exact ih _

theorem ecgF_scores {sc : Scales B} (hsc : SoundScales sc) (pos : Tab V → ℕ) :
    Scores Counts3 (Stats3.ecgF R.fl pos hid cfg sc) (HasVisible (V := Val V) hid) := by
  rintro s m h ⟨i, hi, hv⟩
  have h0 : s.count ≠ 0 := by
    rw [h.count]; intro h0; rw [Multiset.card_eq_zero.1 h0] at hi; simp at hi
  have h1 : ∀ (ts : Dict A (Tab V)) (acc : ℝ), (∀ p ∈ ts, p ∈ s.av) →
      ∃ r, ecgLoop3F R.fl pos cfg sc s.count ts acc = .ok r := by
    intro ts
    induction ts with
    | nil => intro acc _; exact ⟨_, rfl⟩
    | cons p ts ih =>
      intro acc hp
      obtain ⟨a, t⟩ := p
      obtain ⟨x, hx⟩ := cellLoopF_ok (R := R) (cfg := cfg) hsc h0 a (t.cells (pos t)) (by
        intro c hc
        have hcv : t.cv = some c := by
          rw [cells_eq] at hc
          cases ht : t.cv with
          | none => rw [ht] at hc; simp at hc
          | some d =>
            rw [ht] at hc
            simp only [List.mem_append, List.mem_cons, List.mem_map, reduceCtorEq, and_false, exists_false, false_or,
              or_false, Sum.inr.injEq] at hc
            rw [hc]
        exact (h.cv_of_mem (hp _ List.mem_cons_self) hcv).2.2) acc
      obtain ⟨r, hr⟩ := ih x fun q hq => hp q (List.mem_cons_of_mem _ hq)
      exact ⟨r, by simp only [ecgLoop3F, hx, ok_bind, hr]⟩
  have h2 : (s.visible hid).length ≠ 0 := by
    obtain ⟨a, ha, hh⟩ := hv
    have : a ∈ s.av.keys := (h.attrs a).2 ⟨i, hi, ha⟩
    obtain ⟨p, hp, rfl⟩ := List.mem_map.1 this
    exact (List.length_pos_of_mem (List.mem_filter.2 ⟨hp, by simpa using hh⟩)).ne'
  obtain ⟨g, hg⟩ := h1 (s.visible hid) 0 fun p hp => (List.mem_filter.1 hp).1
  exact ⟨_, by simp only [Stats3.ecgF, hg, ok_bind, divF, if_neg (natF_ne_zero (R := R) h2)]; rfl⟩

/-- **C95**: if every instance has a visible attribute and the random numbers differ, then neither `ifit` nor
`categorize` raises, however the operations are rounded (overflow apart): no division by zero, no root of a
negative number.  `categorize` returns a leaf of the tree. -/
theorem C95_never_raises (h : Reach3F R hid cfg st hist n) (hv : ∀ j ∈ hist, HasVisible hid j)
    (pos : Tab V → ℕ) {i : Inst3 A V} (hi : FloatInst i) {w : World} (hw : Function.Injective w.rnd) :
    (HasVisible hid i → ∃ o, ifit3F R.fl pos hid cfg st i w = .ok o) ∧
    ∃ leaf w', categorize3F R.fl pos hid cfg st i w = .ok (leaf, w') ∧ leaf ∈ st.root.leaves := by
  have L := cobweb3LawsF (V := V) R hid
  have hok := reach3F_insts h
  have hs1 : SoundScales st.scales := scales_sound hok (C95_scales h)
  have hs2 : SoundScales (updateScalesF R.fl cfg.inner st.scales i) := by
    refine scales_sound (hist := hist ++ [i]) ?_ (scalesF_step (C95_scales h))
    intro j hj
    rcases List.mem_append.1 hj with hj | hj
    · exact hok j hj
    · rwa [List.mem_singleton.1 hj]
  rcases reach3F_holds h with ⟨-, id, he⟩ | hh
  · refine ⟨fun _ => ⟨⟨⟨.node id (Stats3.incrF R.fl Stats3.fresh i) [],
        updateScalesF R.fl cfg.inner st.scales i⟩, id, w⟩, ?_⟩, .node id Stats3.fresh [], w, ?_, ?_⟩
    · simp [ifit3F, he, cobwebBy, cobwebLoopBy, Tree.numConcepts_node, cobweb3ClassF, Stats3.fresh]
    · simp [categorize3F, he, categorizeA, categorizeLoopA, Tree.numConcepts_node, cobweb3ClassF]
    · rw [he, Tree.leaves_nil]; simp [cobweb3ClassF]
  · have hG : ∀ j ∈ (hist : Multiset (Inst3 A V)), HasVisible hid j := fun j hj => hv j (by simpa using hj)
    refine ⟨fun hiv => ?_, ?_⟩
    · obtain ⟨o, ho⟩ := cobwebLoopBy_total L (floatArith_sorts R.fl) floatArith_total
        (ecgF_scores (R := R) (cfg := cfg) hs2 pos) hi hiv
        _ st.root w _ le_rfl hh hG hw
      exact ⟨_, by simp only [ifit3F, cobwebBy, ho, ok_bind]; rfl⟩
    · obtain ⟨⟨leaf, w'⟩, ho⟩ := categorizeLoopA_total L (floatArith_sorts R.fl) floatArith_total
        (ecgF_scores (R := R) (cfg := cfg) hs1 pos) hi _ st.root w _ le_rfl hh hG hw
      exact ⟨leaf, w', ho, (categorizeLoopA_leaf _ _ _ _ ho).1⟩

/-! ### A score above one -/

/-- The quotient `1 / (4 * pi)`, and what the contribution of a constant number is computed from. -/
theorem ieee_noise : piF ieee.fl = 7074237752028440 / 2 ^ 51 ∧
    ieee.fl (4 * piF ieee.fl) = 7074237752028440 / 2 ^ 49 ∧
    ieee.fl (1 / ieee.fl (4 * piF ieee.fl)) = 5734161139222659 / 2 ^ 56 ∧
    ieee.fl (Real.sqrt (5734161139222659 / 2 ^ 56)) = 5081767996463981 / 2 ^ 54 ∧
    ieee.fl (Real.sqrt (piF ieee.fl)) = 7982422502469482 / 2 ^ 52 ∧
    ieee.fl (7982422502469482 / 2 ^ 51 * (5081767996463981 / 2 ^ 54)) = 9007199254740991 / 2 ^ 53 ∧
    ieee.fl (1 / (9007199254740991 / 2 ^ 53)) = 1 + 1 / 2 ^ 52 := by
  have h1 : piF ieee.fl = 7074237752028440 / 2 ^ 51 := by
    have a := Real.pi_gt_d20
    have b := Real.pi_lt_d20
    have c := Real.pi_pos
    unfold piF
    rw [ieee_eq 7074237752028440 (-51) c.ne' (by norm_num)]
    · norm_num
    · rw [abs_of_pos c]; norm_num at b ⊢; linarith
    · right; rw [abs_of_pos c]; norm_num at a ⊢; linarith
    · norm_num at a b ⊢; linarith
    · norm_num at a b ⊢; linarith
  have h2 : ieee.fl (4 * piF ieee.fl) = 7074237752028440 / 2 ^ 49 := by
    rw [h1, show (4 * (7074237752028440 / 2 ^ 51) : ℝ) = 7074237752028440 / 2 ^ 49 by norm_num]
    exact ieee.fix (.mk 7074237752028440 (-49) (by norm_num) (by norm_num) (by norm_num))
  have hs : ∀ (v lo hi : ℝ), 0 ≤ lo → lo ^ 2 < v → 0 < hi → v < hi ^ 2 → lo < Real.sqrt v ∧ Real.sqrt v < hi :=
    fun v lo hi h1 h2 h3 h4 => ⟨Real.lt_sqrt_of_sq_lt h2, (Real.sqrt_lt' h3).2 h4⟩
  refine ⟨h1, h2, ?_, ?_, ?_, ?_, ?_⟩
  · rw [h2, ieee_eq 5734161139222659 (-56)]
    · norm_num
    · norm_num
    · norm_num
    · rw [abs_of_pos (by norm_num)]; norm_num
    · right; rw [abs_of_pos (by norm_num)]; norm_num
    · norm_num
    · norm_num
  · obtain ⟨a, b⟩ := hs (5734161139222659 / 2 ^ 56) ((5081767996463981 - 1 / 2) / 2 ^ 54)
      ((5081767996463981 + 1 / 2) / 2 ^ 54) (by norm_num) (by norm_num) (by norm_num) (by norm_num)
    have c : 0 < Real.sqrt (5734161139222659 / 2 ^ 56) := Real.sqrt_pos.2 (by norm_num)
    rw [ieee_eq 5081767996463981 (-54) c.ne' (by norm_num)]
    · norm_num
    · rw [abs_of_pos c]; refine b.trans ?_; norm_num
    · right; rw [abs_of_pos c]; refine le_trans ?_ a.le; norm_num
    · refine lt_of_le_of_lt ?_ a; norm_num
    · refine lt_of_lt_of_le b ?_; norm_num
  · rw [h1]
    obtain ⟨a, b⟩ := hs (7074237752028440 / 2 ^ 51) ((7982422502469482 - 1 / 2) / 2 ^ 52)
      ((7982422502469482 + 1 / 2) / 2 ^ 52) (by norm_num) (by norm_num) (by norm_num) (by norm_num)
    have c : 0 < Real.sqrt (7074237752028440 / 2 ^ 51) := Real.sqrt_pos.2 (by norm_num)
    rw [ieee_eq 7982422502469482 (-52) c.ne' (by norm_num)]
    · norm_num
    · rw [abs_of_pos c]; refine b.trans ?_; norm_num
    · right; rw [abs_of_pos c]; refine le_trans ?_ a.le; norm_num
    · refine lt_of_le_of_lt ?_ a; norm_num
    · refine lt_of_lt_of_le b ?_; norm_num
  · rw [ieee_eq 9007199254740991 (-53)]
    · norm_num
    · norm_num
    · norm_num
    · rw [abs_of_pos (by norm_num)]; norm_num
    · right; rw [abs_of_pos (by norm_num)]; norm_num
    · norm_num
    · norm_num
  · rw [ieee_eq 4503599627370497 (-52)]
    · norm_num
    · norm_num
    · norm_num
    · rw [abs_of_pos (by norm_num)]; norm_num
    · right; rw [abs_of_pos (by norm_num)]; norm_num
    · norm_num
    · norm_num

/-- **C95**: under the rounding of Python the contribution of an attribute's numbers is at most
1 + 2^-52. -/
theorem C95_term_le {c : CV ℝ} (hc : c.Sound) {k : ℕ} (hk : k ≠ 0) (hle : c.num ≤ k) {scale x : ℝ}
    (h : cvTermF ieee.fl k scale c = .ok x) : 0 ≤ x ∧ x ≤ 1 + 1 / 2 ^ 52 := by
  refine ⟨by obtain ⟨y, hy, h0⟩ := cvTermF_ok (R := ieee) hc hk scale; rw [h] at hy; cases hy; exact h0, ?_⟩
  obtain ⟨e1, e2, e3, e4, e5, e6, e7⟩ := ieee_noise
  simp only [cvTermF, bind_ok, pure_ok] at h
  obtain ⟨s, -, noise, hn, std, hstd, p, hp, root, hroot, q, hq, rfl⟩ := h
  have p0 : ¬ piF ieee.fl < 0 := by rw [e1]; norm_num
  simp only [divF, sqrtF, if_neg p0] at hn hroot
  rw [if_neg (by rw [e2]; norm_num), e3] at hn
  cases hn
  rw [e5] at hroot
  cases hroot
  have f2 : ieee.fl (2 * (7982422502469482 / 2 ^ 52)) = 7982422502469482 / 2 ^ 51 := by
    rw [show (2 * (7982422502469482 / 2 ^ 52) : ℝ) = 7982422502469482 / 2 ^ 51 by norm_num]
    exact ieee.fix (.mk 7982422502469482 (-51) (by norm_num) (by norm_num) (by norm_num))
  have fn : IsFloat (5734161139222659 / 2 ^ 56) :=
    .mk 5734161139222659 (-56) (by norm_num) (by norm_num) (by norm_num)
  -- the deviation is at least that of the noise
  have a1 : 5734161139222659 / 2 ^ 56 ≤ ieee.fl (ieee.fl (s * s) + 5734161139222659 / 2 ^ 56) :=
    ieee.le_fl fn (by linarith [ieee.fl_nonneg (mul_self_nonneg s)])
  have a2 : 5081767996463981 / 2 ^ 54 ≤ std := by
    unfold sqrtF at hstd
    split at hstd
    · cases hstd
    · cases hstd
      rw [← e4]
      exact ieee.mono (Real.sqrt_le_sqrt a1)
  have a3 : 9007199254740991 / 2 ^ 53 ≤ ieee.fl (7982422502469482 / 2 ^ 51 * std) := by
    rw [← e6]
    exact ieee.mono (mul_le_mul_of_nonneg_left a2 (by norm_num))
  have a4 : 0 ≤ q ∧ q ≤ 1 + 1 / 2 ^ 52 := by
    rw [f2] at hq
    unfold divF at hq
    split at hq
    · cases hq
    · cases hq
      refine ⟨ieee.fl_nonneg (div_nonneg zero_le_one (le_trans (by norm_num) a3)), ?_⟩
      rw [← e7]
      exact ieee.mono (one_div_le_one_div_of_le (by norm_num) a3)
  -- the fraction is at most one
  have a5 : 0 ≤ p ∧ p ≤ 1 := by
    unfold divF at hp
    split at hp
    · cases hp
    · cases hp
      refine ⟨ieee.fl_nonneg (div_nonneg (ieee.natF_nonneg _) (ieee.natF_nonneg _)), ieee.fl_le .one ?_⟩
      have h1 := ieee.one_le_natF (n := k) (by omega)
      rw [div_le_one (by linarith)]
      exact ieee.mono (by exact_mod_cast hle)
  have a6 : 0 ≤ ieee.fl (p * p) := ieee.fl_nonneg (mul_self_nonneg p)
  have a7 : ieee.fl (p * p) ≤ 1 := ieee.fl_le .one (by nlinarith)
  have fq : IsFloat (1 + 1 / 2 ^ 52) := .mk 4503599627370497 (-52) (by norm_num) (by norm_num) (by norm_num)
  exact ieee.fl_le fq (by nlinarith)

theorem cvTermF_constant {k : ℕ} (hk : k ≠ 0) (x scale : ℝ) :
    cvTermF ieee.fl k scale ⟨k, x, 0⟩ = .ok (1 + 1 / 2 ^ 52) := by
  obtain ⟨e1, e2, e3, e4, e5, e6, e7⟩ := ieee_noise
  have p0 : ¬ piF ieee.fl < 0 := by rw [e1]; norm_num
  have hs : CV.scaledUnbiasedStdF ieee.fl ⟨k, x, 0⟩ scale = .ok 0 := by
    have : ¬ ((if scale ≤ 0 then 1 else scale) = 0) := by
      split
      · exact one_ne_zero
      · rename_i h; exact (lt_of_not_ge h).ne'
    simp only [CV.scaledUnbiasedStdF, unbiasedStdF_zero, ok_bind, divF, if_neg this, zero_div, ieee.fl_zero]
  have f2 : ieee.fl (2 * (7982422502469482 / 2 ^ 52)) = 7982422502469482 / 2 ^ 51 := by
    rw [show (2 * (7982422502469482 / 2 ^ 52) : ℝ) = 7982422502469482 / 2 ^ 51 by norm_num]
    exact ieee.fix (.mk 7982422502469482 (-51) (by norm_num) (by norm_num) (by norm_num))
  have fn : ieee.fl (5734161139222659 / 2 ^ 56) = 5734161139222659 / 2 ^ 56 :=
    ieee.fix (.mk 5734161139222659 (-56) (by norm_num) (by norm_num) (by norm_num))
  have fq : ieee.fl (1 + 1 / 2 ^ 52) = 1 + 1 / 2 ^ 52 :=
    ieee.fix (.mk 4503599627370497 (-52) (by norm_num) (by norm_num) (by norm_num))
  have hn := natF_ne_zero (R := ieee) hk
  have b1 : ¬ ieee.fl (4 * piF ieee.fl) = 0 := by rw [e2]; norm_num
  have b2 : ¬ ((5734161139222659 / 2 ^ 56 : ℝ) < 0) := by norm_num
  have b3 : ¬ ((9007199254740991 / 2 ^ 53 : ℝ) = 0) := by norm_num
  simp only [cvTermF, hs, ok_bind, divF, if_neg b1, e3, sqrtF, mul_zero, ieee.fl_zero, zero_add, fn, if_neg b2, e4,
    if_neg hn, div_self hn, ieee.fl_one, if_neg p0, e5, f2, e6, if_neg b3, e7, mul_one, one_mul, fq]
  rfl

/-- **C95**: the docstring of `expected_correct_guesses` says that the noise "ensures the expected correct
guesses never exceeds 1".  Under the rounding of Python they exceed it after a single number: they are
1.0000000000000002, whatever the number and the scaling. -/
theorem C95_exceeds_one (pos pos' : Tab V → ℕ) {a : A} (ha : hid a = false) {x : ℝ} (hx : IsFloat x)
    (w : World) :
    ∃ o, ifit3F ieee.fl pos hid cfg ⟨emptyTree (cobweb3ClassF ieee.fl hid) w, []⟩ [(a, .num x)] (w.bump 1) = .ok o ∧
      Stats3.ecgF ieee.fl pos' hid cfg o.state.scales o.state.root.stats = .ok (1 + 1 / 2 ^ 52) := by
  have hi : FloatInst ([(a, .num x)] : Inst3 A V) := ⟨by simp [Dict.Nodup, Dict.keys], by
    intro b y hy
    simp only [Dict.get?] at hy
    split at hy
    · cases hy; exact hx
    · cases hy⟩
  refine ⟨⟨⟨.node (w.ctr + 1) (Stats3.incrF ieee.fl Stats3.fresh [(a, .num x)]) [],
      updateScalesF ieee.fl cfg.inner [] ([(a, .num x)] : Inst3 A V)⟩, w.ctr + 1, w.bump 1⟩, ?_, ?_⟩
  · simp [ifit3F, emptyTree, cobwebBy, cobwebLoopBy, Tree.numConcepts_node, cobweb3ClassF, Stats3.fresh]
  · have hsc : SoundScales (updateScalesF ieee.fl cfg.inner [] ([(a, .num x)] : Inst3 A V)) := by
      refine scales_sound (R := ieee) (cfg := cfg) (hist := [] ++ [([(a, .num x)] : Inst3 A V)]) (by simpa using hi) ?_
      exact scalesF_step (by simp [scaleNums])
    obtain ⟨sc, hs⟩ := ecgScaleF_ok (R := ieee) (cfg := cfg) hsc a
    have fq : ieee.fl (1 + 1 / 2 ^ 52) = 1 + 1 / 2 ^ 52 :=
      ieee.fix (.mk 4503599627370497 (-52) (by norm_num) (by norm_num) (by norm_num))
    have hst : (Stats3.incrF ieee.fl Stats3.fresh [(a, .num x)] : Stats3 A V) =
        ⟨1, [(a, ⟨[], some ⟨1, x, 0⟩⟩)]⟩ := by
      obtain ⟨h1, h2⟩ := updateF_first (R := ieee) (c := CV.fresh) rfl rfl hx
      have : CV.updateF ieee.fl CV.fresh x = ⟨1, x, 0⟩ := by
        rw [show CV.updateF ieee.fl CV.fresh x = ⟨1, (CV.updateF ieee.fl CV.fresh x).mean,
          (CV.updateF ieee.fl CV.fresh x).meanSq⟩ from rfl, h1, h2]
        simp [CV.fresh, ieee.fl_zero]
      simp [Stats3.incrF, Stats3.fresh, Dict.updAll, Tab.addF, Dict.set, Dict.get?, Tab.empty, this]
    have n1 : natF ieee.fl 1 = 1 := by simpa using ieee.natF_eq (n := 1) (by norm_num)
    simp only [Tree.stats_node]
    rw [hst]
    simp only [Stats3.ecgF, Stats3.visible, List.filter_cons, ha, Bool.not_false, if_true, List.filter_nil,
      ecgLoop3F, Tab.cells, List.map_nil, List.take_nil, List.drop_nil, List.nil_append, cellLoopF, hs,
      cvTermF_constant one_ne_zero, ok_bind, zero_add, fq, List.length_singleton, n1, divF, one_ne_zero, if_false,
      div_one]

/-! ### An example -/

theorem reach3F_exists (R : Rounding) (cfg : Cfg3 A B) (hist : List (Inst3 A V))
    (h : ∀ i ∈ hist, FloatInst i ∧ HasVisible hid i) : ∃ st n, Reach3F R hid cfg st hist n := by
  induction hist using List.reverseRecOn with
  | nil => exact ⟨_, _, .init Demo.w0⟩
  | append_singleton l i ih =>
    obtain ⟨st, n, hr⟩ := ih fun j hj => h j (by simp [hj])
    obtain ⟨hi, hv⟩ := h i (by simp)
    obtain ⟨o, ho⟩ := (C95_never_raises hr (fun j hj => (h j (by simp [hj])).2) (fun _ => 0) hi
      (w := ⟨fun k => (k : ℚ), 0, n⟩) (fun a b hab => by simpa using hab)).1 hv
    exact ⟨_, _, .step hr hi (le_refl n) ho⟩

theorem Demo.mixed_float : ∀ i ∈ Demo.mixed, FloatInst i := by
  have hf : ∀ k : ℤ, |k| < 2 ^ 53 → IsFloat (k : ℝ) := fun k hk => .mk k 0 hk (by norm_num) (by simp)
  have h1 := hf 1 (by norm_num)
  have h3 := hf 3 (by norm_num)
  have h5 := hf 5 (by norm_num)
  have h2 := hf (-2) (by norm_num)
  push_cast at h1 h2 h3 h5
  intro i hi
  refine ⟨(Demo.mixed_ok i hi).1, fun a x hx => ?_⟩
  have hm := Dict.mem_of_get? hx
  simp only [Demo.mixed, List.mem_cons, List.not_mem_nil, or_false] at hi
  rcases hi with rfl | rfl | rfl | rfl <;>
  · simp only [List.mem_cons, Prod.mk.injEq, Val.num.injEq, reduceCtorEq, and_false, or_false, false_or,
      List.not_mem_nil] at hm
    first
    | rcases hm with ⟨-, rfl⟩ | ⟨-, rfl⟩ <;> assumption
    | obtain ⟨-, rfl⟩ := hm; assumption

/-- The mixed history under the rounding of Python, with scaling: two of the four instances share a leaf. -/
example : ∃ st n, Reach3F ieee Demo.hid (⟨1 / 2, id⟩ : Cfg3 ℕ ℕ) st Demo.mixed n ∧ Demo.mixed ≠ [] ∧
    (∀ j ∈ Demo.mixed, HasVisible Demo.hid j) ∧ st.root.stats.count = 4 ∧ st.root.stats.numCount 1 = 4 ∧
    st.root.stats.numCount 3 = 1 := by
  obtain ⟨st, n, h⟩ := reach3F_exists ieee ⟨1 / 2, id⟩ Demo.mixed
    fun i hi => ⟨Demo.mixed_float i hi, (Demo.mixed_ok i hi).2⟩
  have h1 := (C95_every_node h).1
  refine ⟨st, n, h, by simp [Demo.mixed], fun j hj => (Demo.mixed_ok j hj).2, h1.count.trans rfl, ?_, ?_⟩
  · rw [h1.numCount, ← numList_coe]; rfl
  · rw [h1.numCount, ← numList_coe]; rfl

/-- An accumulator and a count for `C95_term_le`. -/
example : (⟨2, 1, 1⟩ : CV ℝ).Sound ∧ ∃ x, cvTermF ieee.fl 3 1 ⟨2, 1, 1⟩ = .ok x := by
  have hs : (⟨2, 1, 1⟩ : CV ℝ).Sound := ⟨.one, .one, zero_le_one⟩
  obtain ⟨x, hx, -⟩ := cvTermF_ok (R := ieee) hs (k := 3) (by norm_num) 1
  exact ⟨hs, x, hx⟩

end CF
