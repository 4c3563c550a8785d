/-
C101: TrestleTree with all Python floats.
-/
import Verif.Proofs.TrestleX
import Verif.Props.TrestleFlat

namespace CF

variable {R : Rounding} {X : XF → Prop} {c : TrestleCfg} {sp : ℕ → Option Bool} {st : TStateX}
  {hist : List PyInst}

/-- Properties of floats that hold of infinities. -/
structure FloatClass (X : XF → Prop) : Prop where
  valid : ∀ x, X x → x.Valid
  special : ∀ b, X (.inf b)

theorem floatClass_valid : FloatClass XF.Valid := ⟨fun _ h => h, fun _ => trivial⟩

theorem floatClass_moderate : FloatClass XF.Moderate :=
  ⟨fun _ h => h.valid, fun _ => trivial⟩

/-! ### The tree -/

theorem prepX_inst (hc : c.Ok) (hX : FloatClass X) {S : Search} (hS : SearchLaws S) {i temp : PyInst}
    (hw : Py.wf (.dict i)) (hi : NumLeaves X i) (hp : (trestlePrepX c S st i).1 = .ok temp) :
    XInstOk X (instX sp temp) :=
  instX_ok hX.special (prepX_vars hc hS hw hp).1 fun k q hq =>
    numLeaves_iff.1 hi q (prepX_nums hc hS hw hp k q hq)

theorem trestleIfitX_ok {S : Search} {e : XEnv Py} {i temp : PyInst} {a : ℕ} {st' : TStateX}
    (hp : (trestlePrepX c S st i).1 = .ok temp) (h : trestleIfitX R.fl c sp S e i st = (.ok a, st')) :
    ∃ o, ifitX R.fl e hid3 c.cobweb3 st.tree (instX sp temp) st.w = .ok o ∧ a = o.leaf ∧
      st' = ⟨o.state, (trestlePrepX c S st i).2.1, o.w⟩ ∧ trestleCheck temp = .ok () := by
  unfold trestleIfitX at h
  generalize trestlePrepX c S st i = p at hp h
  obtain ⟨q, s⟩ := p
  dsimp only at hp
  subst hp
  dsimp only at h
  split at h
  · simp at h
  · rename_i u hu
    split at h
    · simp at h
    · rename_i o ho
      cases h
      exact ⟨o, ho, rfl, rfl, hu⟩

theorem trestleIfitX_rejected {S : Search} {e : XEnv Py} {i : PyInst}
    (h : ∀ temp, (trestlePrepX c S st i).1 = .ok temp → trestleCheck temp ≠ .ok ()) :
    (∃ x, (trestleIfitX R.fl c sp S e i st).1 = .error x) ∧
      (trestleIfitX R.fl c sp S e i st).2 = { st with ctr := (trestlePrepX c S st i).2.1 } := by
  unfold trestleIfitX
  generalize trestlePrepX c S st i = p at h
  obtain ⟨q, s⟩ := p
  cases q with
  | error x => exact ⟨⟨x, rfl⟩, rfl⟩
  | ok temp =>
    have := h temp rfl
    dsimp only
    cases hc : trestleCheck temp with
    | error x => exact ⟨⟨x, rfl⟩, rfl⟩
    | ok u => exact absurd hc this

/-- **C101**: which values Cobweb/3 takes for numbers: the rational ones, and the two infinities with their signs; `nan`
and all other objects are nominal values. -/
theorem C101_which_numbers {sp : ℕ → Option Bool} {v : Py} {x : XF} :
    valX sp v = .num x ↔ (∃ q : ℚ, v = .num q ∧ x = .fin q) ∨
      ∃ n s, v = .other n true false ∧ sp n = some s ∧ x = .inf s := by
  constructor
  · intro h
    unfold valX at h
    split at h
    · injection h with h; exact .inl ⟨_, rfl, h.symm⟩
    · rename_i n
      split at h
      · rename_i s hs
        injection h with h; exact .inr ⟨n, s, rfl, hs, h.symm⟩
      · cases h
    · cases h
  · rintro (⟨q, rfl, rfl⟩ | ⟨n, s, rfl, hs, rfl⟩)
    · rfl
    · simp only [valX, hs]

/-- **C101**: the preprocessing invents no numbers: those of the result are values of the instance at some depth. -/
theorem C101_numbers (hc : c.Ok) {S : Search} (hS : SearchLaws S) {i temp : PyInst} (hw : Py.wf (.dict i))
    (hp : (trestlePrepX c S st i).1 = .ok temp) {k : Py} {q : ℚ} (hq : (k, .num q) ∈ temp) :
    ∃ p, (p, Py.num q) ∈ leavesD i :=
  prepX_nums hc hS hw hp k q hq

/-- **C101**: the tree is one that Cobweb/3 reaches by fitting the preprocessed instances, whose finite numbers are
those of the instances. -/
theorem C101_reach (hc : c.Ok) (hX : FloatClass X) (h : TrestleRunsX R X c sp st hist) :
    ∃ n ≤ st.w.ctr, ReachX R X hid3 c.cobweb3 st.tree (hist.map (instX sp)) n := by
  induction h with
  | clear w => exact ⟨w.ctr + 1, le_refl _, .init w⟩
  | other _ _ hw ih => exact let ⟨n, h1, h2⟩ := ih; ⟨n, h1.trans hw, h2⟩
  | ifit _ hS he hw hi hp ho ih =>
    obtain ⟨n, h1, h2⟩ := ih
    obtain ⟨o, ho', -, rfl, -⟩ := trestleIfitX_ok hp ho
    rw [List.map_append, List.map_singleton]
    exact ⟨_, le_refl _, .step h2 he (prepX_inst hc hX hS hw hi hp) h1 ho'⟩
  | rejected _ hr ih =>
    rw [(trestleIfitX_rejected hr).2]
    exact ih

theorem reachX_valid (hc : c.Ok) (hX : FloatClass X) (h : TrestleRunsX R X c sp st hist) :
    ∃ n ≤ st.w.ctr, ReachX R XF.Valid hid3 c.cobweb3 st.tree (hist.map (instX sp)) n :=
  let ⟨n, h1, h2⟩ := C101_reach hc hX h
  ⟨n, h1, reachX_mono hX.valid h2⟩

/-- **C101**: every concept counts a part of the fitted instances, the root all of them; no id occurs twice. -/
theorem C101_every_node (hc : c.Ok) (hX : FloatClass X) (h : TrestleRunsX R X c sp st hist) :
    CountsX AnyCV st.tree.root.stats (hist.map (instX sp) : Multiset (XInst Py Py)) ∧ st.tree.root.ids.Nodup ∧
    ∀ x ∈ st.tree.root.nodes, ∃ m ≤ (hist.map (instX sp) : Multiset (XInst Py Py)), CountsX AnyCV x.stats m := by
  obtain ⟨n, -, hr⟩ := reachX_valid hc hX h
  exact C99_every_node hr

/-- **C101**: an internal concept has at least two children, and its counts are the sums of theirs. -/
theorem C101_conserved (hc : c.Ok) (hX : FloatClass X) (h : TrestleRunsX R X c sp st hist) :
    ∀ x ∈ st.tree.root.nodes, x.children ≠ [] → 2 ≤ x.children.length ∧
      x.stats.count = (x.children.map fun c => c.stats.count).sum ∧
      (∀ a v, (x.stats.nomLookup a v).getD 0 = (x.children.map fun c => (c.stats.nomLookup a v).getD 0).sum) ∧
      ∀ a, x.stats.numCount a = (x.children.map fun c => c.stats.numCount a).sum := by
  obtain ⟨n, -, hr⟩ := reachX_valid hc hX h
  exact C99_conserved hr

/-- **C101**: the leaves partition the fitted instances into groups that agree on all visible attributes; an instance
matches a leaf if and only if it agrees with the leaf's group and has no visible infinity that the leaf has seen
twice. -/
theorem C101_leaves (hc : c.Ok) (hX : FloatClass X) (h : TrestleRunsX R X c sp st hist) (hne : hist ≠ []) :
    ∃ groups : List (List (XInst Py Py)),
      (groups.map fun g => (g : Multiset (XInst Py Py))).sum = (hist.map (instX sp) : Multiset _) ∧
      List.Forall₂ (fun leaf g => g ≠ [] ∧ CountsX AnyCV leaf.stats (g : Multiset (XInst Py Py)) ∧
        (∀ i ∈ g, ∀ j ∈ g, ∀ a, hid3 a = false → Dict.get? i a = Dict.get? j a) ∧
        ∀ i, XInstOk XF.Valid i → (leaf.stats.isExact R.fl hid3 i = true ↔
          (∀ j ∈ g, ∀ a, hid3 a = false → Dict.get? i a = Dict.get? j a) ∧ Repeats hid3 g.length i))
        st.tree.root.leaves groups := by
  obtain ⟨n, -, hr⟩ := reachX_valid hc hX h
  obtain ⟨groups, h1, h2⟩ := C99_leaves hr (by simpa using hne)
  exact ⟨groups, h1, h2.imp fun _ _ ⟨a, b, c, _, _, d⟩ => ⟨a, b, c, d⟩⟩

/-- **C101**: `attr_scales` holds the accumulators of the numbers of the preprocessed instances, by the first element
of the attribute when `inner_attr_scaling` is on. -/
theorem C101_scales (hc : c.Ok) (hX : FloatClass X) (h : TrestleRunsX R X c sp st hist) (b : Py) :
    st.tree.scales.get? b = if scaleNumsX (innerAttr c.inner) (hist.map (instX sp)) b = [] then none
      else some (CV.updateBatchX R.fl CV.freshX (scaleNumsX (innerAttr c.inner) (hist.map (instX sp)) b)) := by
  obtain ⟨n, -, hr⟩ := C101_reach hc hX h
  exact C99_scales hr b

/-! ### Names -/

theorem runsX_names (hc : c.Ok) (hX : FloatClass X) (h : TrestleRunsX R X c sp st hist) :
    ∀ t ∈ hist, KeyVars (Generated st.ctr) t ∧ ∀ k ∈ Dict.keys t, ∃ x, components k = .ok x := by
  induction h with
  | clear w => simp
  | other _ hn _ ih => exact fun t ht => ⟨(ih t ht).1.mono fun x hx => hx.mono hn, (ih t ht).2⟩
  | @ifit st st' hist S e i temp a hr hS he hw hi hp ho ih =>
    obtain ⟨o, -, -, rfl, -⟩ := trestleIfitX_ok hp ho
    intro t ht
    rcases List.mem_append.1 ht with ht | ht
    · exact ⟨(ih t ht).1.mono fun x hx => hx.mono prepX_counts, (ih t ht).2⟩
    · rw [List.mem_singleton.1 ht]
      refine ⟨(prepX_vars hc hS hw hp).2 ?_, prepX_components hc hS hw hp⟩
      intro x hx
      obtain ⟨k, hk, hx⟩ := mem_varsOf.1 hx
      obtain ⟨j, hj, hk⟩ := ((C101_every_node hc hX hr).1.attrs k).1 hk
      obtain ⟨t', ht', rfl⟩ := List.mem_map.1 (Multiset.mem_coe.1 hj)
      rw [instX_keys] at hk
      exact (ih t' ht').1 k hk x hx
  | rejected _ hr ih =>
    rw [(trestleIfitX_rejected hr).2]
    exact fun t ht => ⟨(ih t ht).1.mono fun x hx => hx.mono prepX_counts, (ih t ht).2⟩

theorem rootX_attr (hc : c.Ok) (hX : FloatClass X) (h : TrestleRunsX R X c sp st hist) {x : Tree (XStats Py Py)}
    (hx : x ∈ st.tree.root.nodes) {k : Py} (hk : k ∈ x.stats.av.keys) : ∃ t ∈ hist, k ∈ Dict.keys t := by
  obtain ⟨m, hm, hs⟩ := (C101_every_node hc hX h).2.2 x hx
  obtain ⟨j, hj, hk⟩ := (hs.attrs k).1 hk
  obtain ⟨t, ht, rfl⟩ := List.mem_map.1 (Multiset.mem_coe.1 (Multiset.mem_of_le hm hj))
  exact ⟨t, ht, by rwa [instX_keys] at hk⟩

/-- **C101**: all variables in the tables of the tree are names that its `gensym` has returned. -/
theorem C101_names_known (hc : c.Ok) (hX : FloatClass X) (h : TrestleRunsX R X c sp st hist) :
    ∀ x ∈ st.tree.root.nodes, ∀ k ∈ x.stats.av.keys, ∀ y ∈ varsEl k, Generated st.ctr y := by
  intro x hx k hk y hy
  obtain ⟨t, ht, hk⟩ := rootX_attr hc hX h hx hk
  exact (runsX_names hc hX h t ht).1 k hk y hy

theorem rootX_mem (t : Tree (XStats Py Py)) : t ∈ t.nodes := by
  cases t; simp [Tree.nodes]

/-- **C101**: an instance that is renamed, flattened and split has no variable in common with the root, so that
`flat_match` never raises its exception. -/
theorem C101_disjoint (hc : c.Ok) (hX : FloatClass X) (h : TrestleRunsX R X c sp st hist) {i t : PyInst}
    (hw : Py.wf (.dict i)) {s : ℕ × (ℕ → Option (Dict Py Py))} (hb : beforeMapping c st.ctr i = (.ok t, s)) :
    ∀ x ∈ varsOf t.keys, x ∉ varsOf st.rootAttrs := by
  intro x hx hx'
  obtain ⟨k, hk, hxk⟩ := mem_varsOf.1 hx'
  obtain ⟨n, hn, e⟩ := C101_names_known hc hX h _ (rootX_mem _) k hk x hxk
  obtain ⟨y, hy, hxy⟩ := mem_varsOf.1 hx
  obtain ⟨n', hn1, -, e'⟩ := (before_vars hc hw hb).2.2 y hy x hxy
  rw [e] at e'
  have := (names_std hc).inj (Py.str.inj e')
  omega

/-! ### `ifit` and `categorize` -/

/-- **C101**: `ifit` returns a leaf of the new tree that holds the preprocessed instance: its nominal values are those
of all instances of the leaf, its numbers too, and if it has a visible infinity the leaf counts at most two instances.
The other leaves stay as they are. -/
theorem C101_ifit (hc : c.Ok) (hX : FloatClass X) (h : TrestleRunsX R X c sp st hist) {S : Search} (hS : SearchLaws S)
    {e : XEnv Py} (he : (e.ar R.fl).Sorts) {i temp : PyInst} (hw : Py.wf (.dict i)) (hi : NumLeaves X i)
    (hp : (trestlePrepX c S st i).1 = .ok temp) {a : ℕ} {st' : TStateX}
    (ho : trestleIfitX R.fl c sp S e i st = (.ok a, st')) :
    TrestleRunsX R X c sp st' (hist ++ [temp]) ∧
    (∃ leaf ∈ st'.tree.root.leaves, leaf.id = a ∧ leaf.children = [] ∧
      (∀ x ∈ st'.tree.root.nodes, x.id = a → x = leaf) ∧
      (∀ k x, hid3 k = false → Dict.get? (instX sp temp) k = some (.num x) →
        leaf.stats.cvOf k = some (constX leaf.stats.count x)) ∧
      (∀ k v, hid3 k = false → Dict.get? (instX sp temp) k = some (.nom v) →
        leaf.stats.nomLookup k v = some leaf.stats.count) ∧
      ∀ k b, hid3 k = false → Dict.get? (instX sp temp) k = some (.num (.inf b)) → leaf.stats.count ≤ 2) ∧
    ∀ id s, .node id s [] ∈ st.tree.root.leaves → id ≠ a → .node id s [] ∈ st'.tree.root.leaves := by
  refine ⟨.ifit h hS he hw hi hp ho, ?_⟩
  obtain ⟨n, hn, hr⟩ := reachX_valid hc hX h
  have hi' := prepX_inst (sp := sp) hc hX hS hw hi hp
  obtain ⟨o, ho', rfl, rfl, -⟩ := trestleIfitX_ok hp ho
  exact (C99_ifit hr he ⟨hi'.nodup, fun a x hx => hX.valid x (hi'.nums a x hx), hi'.number⟩ hn ho').2

theorem categorizeLoopA_ctr {I T K : Type} {ar : Arith K} {C : NodeClass I T} {ecg : T → Res K} {inst : I} :
    ∀ {fuel : ℕ} {t : Tree T} {w w' : World} {x : Tree T},
    categorizeLoopA ar C ecg inst fuel t w = .ok (x, w') → w.ctr ≤ w'.ctr
  | 0, _, _, _, _, h => by simp [categorizeLoopA] at h
  | fuel + 1, .node id s [], w, w', x, h => by
    simp only [categorizeLoopA, Except.ok.injEq, Prod.mk.injEq] at h
    rw [← h.2]
  | fuel + 1, .node id s (c :: cs), w, w', x, h => by
    simp only [categorizeLoopA] at h
    obtain ⟨b, -, h⟩ := bind_ok.1 h
    split at h
    · simp at h
    · have := categorizeLoopA_ctr h
      simp only [World.bump, World.skip] at this
      omega

/-- **C101**: `categorize` changes neither the tree nor the scales, and moves the counters only forwards, so that the
state is one of a run again. -/
theorem C101_categorize (h : TrestleRunsX R X c sp st hist) (S : Search) (e : XEnv Py) (i : PyInst) :
    (trestleCategorizeX R.fl c sp S e i st).2.tree = st.tree ∧
    TrestleRunsX R X c sp (trestleCategorizeX R.fl c sp S e i st).2 hist := by
  unfold trestleCategorizeX
  have hn := prepX_counts (c := c) (S := S) (st := st) (i := i)
  generalize trestlePrepX c S st i = p at hn
  obtain ⟨q, s⟩ := p
  dsimp only at hn
  cases q with
  | error x => exact ⟨rfl, .other h hn (le_refl _)⟩
  | ok temp =>
    dsimp only
    split
    · exact ⟨rfl, .other h hn (le_refl _)⟩
    · split
      · exact ⟨rfl, .other h hn (le_refl _)⟩
      · rename_i t w ho
        exact ⟨rfl, .other h hn (categorizeLoopA_ctr ho)⟩

/-! ### Exceptions -/

/-- **C101**: the preprocessing of an instance whose attributes are non-empty strings and tuples of such, at any
depth, and whose values are hashable, returns if the external search does; what it returns passes the check. -/
theorem C101_prep (hc : c.Ok) (hX : FloatClass X) (h : TrestleRunsX R X c sp st hist) {S : Search} (hS : SearchLaws S)
    (hT : SearchTotal S) {i : PyInst} (hw : Py.wf (.dict i)) (hi : FitInst i) :
    ∃ temp, (trestlePrepX c S st i).1 = .ok temp ∧ trestleCheck temp = .ok () ∧
      (VisInst i → HasVisible hid3 (instX sp temp)) := by
  obtain ⟨t, s, h1, h2, h3⟩ := before_fit hc hw hi st.ctr
  have hd := C101_disjoint hc hX h hw h1
  obtain ⟨m, hm⟩ := (C54_collision (user := none) (target := t) (base := st.rootAttrs) hS
    (componentNames_iff.2 fun a ha => by
      obtain ⟨p, hp, rfl⟩ := List.mem_map.1 ha
      exact components_fit (h2 p hp).1)
    (componentNames_iff.2 fun a ha => by
      obtain ⟨temp, ht, hk⟩ := rootX_attr hc hX h (rootX_mem _) ha
      exact (runsX_names hc hX h temp ht).2 a hk)).2 hd (fun m => hT.climb m t) (fun is cs => hT.assign is cs t)
  have hp : (trestlePrepX c S st i).1 = .ok (renameFlat t m) := by
    have e : trestlePrepX c S st i = ((pipeTransform
        [⟨0, nameStandardizer c.std⟩, ⟨1, flattener⟩, ⟨2, subComponent c.fuel⟩] i >>=
        pipeTransform [⟨3, structureMapper S st.rootAttrs none⟩]) (st.ctr, fun _ => none)) := by
      rw [← pipeTransform_append]
      rfl
    have h1' : pipeTransform [⟨0, nameStandardizer c.std⟩, ⟨1, flattener⟩, ⟨2, subComponent c.fuel⟩] i
        (st.ctr, fun _ => none) = (.ok t, s) := h1
    rw [e, SM.bind_eq h1']
    simp only [pipeTransform, SM.bind_def, callAt, structureMapper, hm]
    rfl
  obtain ⟨v1, v2, v3⟩ := before_vars hc hw h1
  obtain ⟨f, e, n1, n2, -⟩ := C54_renames (γ := ℕ) (s := (0, none)) hS v2 (user := none) (base := st.rootAttrs)
    (by trivial) (by simp only [structureMapper, hm]; rfl)
  have hf : ∀ p ∈ t, ∀ x ∈ varsEl p.1, Variable (f x) := fun p hp x hx =>
    (n2 x (mem_varsOf.2 ⟨p.1, List.mem_map_of_mem hp, hx⟩)).1
  have hfit : FlatFit (renameFlat t m) := by
    rw [e]
    intro q hq
    obtain ⟨p, hp, rfl⟩ := List.mem_map.1 hq
    exact ⟨(h2 p hp).1.ren (hf p hp), (h2 p hp).2⟩
  refine ⟨_, hp, hfit.check, fun hv => ?_⟩
  obtain ⟨k, hk, hh⟩ := h3 hv
  obtain ⟨p, hp, rfl⟩ := List.mem_map.1 hk
  refine ⟨renEl f p.1, ?_, by rw [hid3_ren (hf p hp) (h2 p hp).1]; exact hh⟩
  rw [instX_keys, e]
  simp only [Dict.keys, List.map_map, List.mem_map, Function.comp_apply]
  exact ⟨p, hp, rfl⟩

/-- **C101**: if the finite numbers are below 2^1023 in magnitude and no two random numbers coincide, `ifit` of such
an instance returns and adds it to the fitted ones, provided it has a visible attribute with a value at some depth and
all instances before had one; `categorize` returns a leaf of the tree, whether or not it has one.  Rounding, overflow,
infinities and the outcomes of the search are arbitrary.

Partial: the external search is assumed to return; from 2^1023 on the claim is false (`C99_overflow_raises`). -/
theorem C101_never_raises_partial (hc : c.Ok) (h : TrestleRunsX R XF.Moderate c sp st hist)
    (hv : ∀ j ∈ hist, HasVisible hid3 (instX sp j)) {S : Search} (hS : SearchLaws S) (hT : SearchTotal S)
    {e : XEnv Py} (he : (e.ar R.fl).Sorts)
    (hs : ∀ l : List (Cand XF), (l.map Cand.rnd).Nodup → ∃ l', e.srt l = .ok l')
    {i : PyInst} (hw : Py.wf (.dict i)) (hi : FitInst i) (hn : NumLeaves XF.Moderate i)
    (hrnd : Function.Injective st.w.rnd) :
    (VisInst i → ∃ a st' temp, trestleIfitX R.fl c sp S e i st = (.ok a, st') ∧
      TrestleRunsX R XF.Moderate c sp st' (hist ++ [temp]) ∧ HasVisible hid3 (instX sp temp)) ∧
    ∃ leaf st', trestleCategorizeX R.fl c sp S e i st = (.ok leaf, st') ∧ leaf ∈ st.tree.root.leaves := by
  have hX := floatClass_moderate
  obtain ⟨temp, h1, h2, h3⟩ := C101_prep (sp := sp) hc hX h hS hT hw hi
  obtain ⟨n, -, hr⟩ := C101_reach hc hX h
  obtain ⟨g1, leaf, w', g2, g3⟩ := C99_never_raises_partial hr (by
    intro j hj
    obtain ⟨k, hk, rfl⟩ := List.mem_map.1 hj
    exact hv k hk) he hs (prepX_inst (sp := sp) hc hX hS hw hn h1) hrnd
  refine ⟨fun hvi => ?_, leaf, ?_⟩
  · obtain ⟨o, ho⟩ := g1 (h3 hvi)
    have e' : trestleIfitX R.fl c sp S e i st = (.ok o.leaf, ⟨o.state, (trestlePrepX c S st i).2.1, o.w⟩) := by
      unfold trestleIfitX
      generalize trestlePrepX c S st i = p at h1
      obtain ⟨q, s⟩ := p
      dsimp only at h1
      subst h1
      simp only [h2, ho]
    exact ⟨_, _, temp, e', .ifit h hS he hw hn h1 e', h3 hvi⟩
  · refine ⟨⟨st.tree, (trestlePrepX c S st i).2.1, w'⟩, ?_, g3⟩
    unfold trestleCategorizeX
    generalize trestlePrepX c S st i = p at h1
    obtain ⟨q, s⟩ := p
    dsimp only at h1
    subst h1
    simp only [h2, g2]

/-- **C101**: so any list of such instances can be fitted. -/
theorem C101_histories_partial (hc : c.Ok) {S : Search} (hS : SearchLaws S) (hT : SearchTotal S) {e : XEnv Py}
    (he : (e.ar R.fl).Sorts) (hs : ∀ l : List (Cand XF), (l.map Cand.rnd).Nodup → ∃ l', e.srt l = .ok l')
    (is : List PyInst) (hw : ∀ i ∈ is, Py.wf (.dict i) ∧ FitInst i ∧ VisInst i ∧ NumLeaves XF.Moderate i) :
    ∃ st hist, TrestleRunsX R XF.Moderate c sp st hist ∧ hist.length = is.length ∧
      ∀ j ∈ hist, HasVisible hid3 (instX sp j) := by
  induction is using List.reverseRecOn with
  | nil => exact ⟨_, [], .clear Demo.w0, rfl, by simp⟩
  | append_singleton l i ih =>
    obtain ⟨st, hist, h1, h2, h3⟩ := ih fun j hj => hw j (by simp [hj])
    obtain ⟨w1, w2, w3, w4⟩ := hw i (by simp)
    have h1' : TrestleRunsX R XF.Moderate c sp ⟨st.tree, st.ctr, ⟨fun k => (k : ℚ), 0, st.w.ctr⟩⟩ hist :=
      .other h1 (le_refl _) (le_refl _)
    obtain ⟨g, -⟩ := C101_never_raises_partial hc h1' h3 hS hT he hs w1 w2 w4
      (fun a b hab => by simpa using hab)
    obtain ⟨a, st', temp, -, h5, h6⟩ := g w3
    refine ⟨st', _, h5, by simp [h2], ?_⟩
    intro j hj
    rcases List.mem_append.1 hj with hj | hj
    · exact h3 j hj
    · rw [List.mem_singleton] at hj
      exact hj ▸ h6

theorem prepX_single {S : Search} (hb : ∀ a ∈ st.rootAttrs, PlainAttr a) {a v : Py} (ha : PlainAttr a)
    (hv : v.hashable = true) : (trestlePrepX c S st [(a, v)]).1 = .ok [(a, v)] := by
  rw [prepX_eq]
  obtain ⟨s, h, -⟩ := prep_flat (c := c) (S := S) (st := baseState st.rootAttrs st.ctr)
    (by rwa [baseState_attrs]) (i := [(a, v)]) ⟨by simpa using ha, by simpa using hv⟩ (by simp [Dict.Nodup, Dict.keys])
  rw [h]
  simp [sortEntries]

theorem check_single {a : Py} (ha : PlainAttr a) (q : ℚ) : trestleCheck [(a, .num q)] = .ok () := by
  refine FlatFit.check ?_
  intro p hp
  rw [List.mem_singleton.1 hp]
  obtain ⟨ch, s, rfl, -⟩ := ha
  exact ⟨by simp [FitAttr], rfl⟩

/-- **C101**, the bound is the best possible: after `{a: x}` and `{a: -x}`, with a number `x` of magnitude 2^1023 or
more, `categorize` raises for every instance. -/
theorem C101_overflow_raises (hc : c.Ok) (hsc : c.scaling ≠ 0) {S : Search} (hS : SearchLaws S) {e : XEnv Py}
    (he : (e.ar R.fl).Sorts) {a : Py} (ha : PlainAttr a) (hh : hid3 a = false) {q : ℚ} (hq : IsFloat (q : ℝ))
    (h1 : XF.big / 2 ≤ q) (h2 : (q : ℝ) < XF.big) (w : World) :
    ∃ st, TrestleRunsX R XF.Valid c sp st [[(a, .num q)], [(a, .num (-q))]] ∧
      ∀ (S : Search) (e : XEnv Py) (i : PyInst), ∃ x, (trestleCategorizeX R.fl c sp S e i st).1 = .error x := by
  obtain ⟨o1, o2, g1, g2, g3⟩ := C99_overflow_raises (R := R) (V := Py) (cfg := c.cobweb3) hh hsc hq h1 h2 e e w
  have hX := floatClass_valid
  have hv : |(q : ℝ)| < XF.big := by rw [abs_of_nonneg (by have := big_gt; linarith)]; exact h2
  have n1 : NumLeaves XF.Valid [(a, .num q)] := by
    intro p r hp
    simp only [leavesD, leavesV, List.map_cons, List.map_nil, List.append_nil, List.mem_singleton, Prod.mk.injEq,
      Py.num.injEq] at hp
    rw [hp.2]
    exact ⟨hq, hv⟩
  have n2 : NumLeaves XF.Valid [(a, .num (-q))] := by
    intro p r hp
    simp only [leavesD, leavesV, List.map_cons, List.map_nil, List.append_nil, List.mem_singleton, Prod.mk.injEq,
      Py.num.injEq] at hp
    rw [hp.2]
    exact ⟨by push_cast; exact hq.neg, by push_cast; rwa [abs_neg]⟩
  have wf : ∀ r : ℚ, Py.wf (.dict [(a, .num r)]) := fun r => by simp [Py.wf, Py.wfD, Dict.Nodup, Dict.keys]
  have r0 : TrestleRunsX R XF.Valid c sp (trestleClearX R.fl w) [] := .clear w
  have p1 : (trestlePrepX c S (trestleClearX R.fl w) [(a, .num q)]).1 = .ok [(a, .num q)] :=
    prepX_single (fun b hb => by
      obtain ⟨t, ht, -⟩ := rootX_attr hc hX r0 (rootX_mem _) hb
      simp at ht) ha rfl
  have i1 : trestleIfitX R.fl c sp S e [(a, .num q)] (trestleClearX R.fl w) =
      (.ok o1.leaf, ⟨o1.state, (trestlePrepX c S (trestleClearX R.fl w) [(a, .num q)]).2.1, o1.w⟩) := by
    unfold trestleIfitX
    generalize trestlePrepX c S _ _ = p at p1
    obtain ⟨r, s⟩ := p
    dsimp only at p1
    subst p1
    simp only [check_single ha]
    have : ifitX R.fl e hid3 c.cobweb3 (trestleClearX R.fl w).tree (instX sp [(a, .num q)]) (trestleClearX R.fl w).w =
        .ok o1 := g1
    rw [this]
  have r1 := TrestleRunsX.ifit r0 hS he (wf q) n1 p1 i1
  have p2 := prepX_single (c := c) (S := S) (st := ⟨o1.state, (trestlePrepX c S (trestleClearX R.fl w) [(a, .num q)]).2.1, o1.w⟩)
    (fun b hb => by
      obtain ⟨t, ht, hk⟩ := rootX_attr hc hX r1 (rootX_mem _) hb
      simp only [List.nil_append, List.mem_singleton] at ht
      subst ht
      simp only [Dict.keys, List.map_cons, List.map_nil, List.mem_singleton] at hk
      exact hk ▸ ha) (v := .num (-q)) ha rfl
  generalize hst : (⟨o1.state, _, o1.w⟩ : TStateX) = st1 at r1 p2
  have i2 : trestleIfitX R.fl c sp S e [(a, .num (-q))] st1 =
      (.ok o2.leaf, ⟨o2.state, (trestlePrepX c S st1 [(a, .num (-q))]).2.1, o2.w⟩) := by
    unfold trestleIfitX
    generalize trestlePrepX c S _ _ = p at p2
    obtain ⟨r, s⟩ := p
    dsimp only at p2
    subst p2
    simp only [check_single ha]
    have : ifitX R.fl e hid3 c.cobweb3 st1.tree (instX sp [(a, .num (-q))]) st1.w = .ok o2 := by
      rw [← g2, ← hst]
      simp [instX, valX]
    rw [this]
  refine ⟨_, .ifit r1 hS he (wf (-q)) n2 p2 i2, fun S e i => ?_⟩
  unfold trestleCategorizeX
  generalize trestlePrepX c S _ _ = p
  obtain ⟨r, s⟩ := p
  cases r with
  | error x => exact ⟨x, rfl⟩
  | ok temp =>
    dsimp only
    split
    · rename_i x _; exact ⟨x, rfl⟩
    · rw [(g3 e (instX sp temp) o2.w).1]
      exact ⟨_, rfl⟩

/-! ### Examples -/

/-- `Demo.env` for Python values. -/
def Demo.pyEnv : XEnv Py := ⟨fun _ => 0, .ok, id⟩

theorem Demo.pyEnv_sorts (fl : ℝ → ℝ) : (Demo.pyEnv.ar fl).Sorts :=
  ⟨fun h => by cases h; exact .refl _, fun _ => .refl _⟩

/-- `float('inf')` is the object 0; the object 1 may be a `nan`. -/
def Demo.specials : ℕ → Option Bool
  | 0 => some false
  | _ => none

/-- `{'?b': {'size': 3, 'weight': inf}, ('left', '?b'): nan, 'k': 1}`. -/
def Demo.wildScene : PyInst :=
  [(.str c!"?b", .dict [(.str c!"size", .num 3), (.str c!"weight", .other 0 true false)]),
   (.tup [.str c!"left", .str c!"?b"], .other 1 true false), (.str c!"k", .num 1)]

theorem Demo.wildScene_ok : Py.wf (.dict Demo.wildScene) ∧ FitInst Demo.wildScene ∧ VisInst Demo.wildScene ∧
    NumLeaves XF.Moderate Demo.wildScene := by
  refine ⟨?_, ?_, ?_, ?_⟩
  · simp [Demo.wildScene, Py.wf, Py.wfD, Dict.Nodup, Dict.keys]
  · simp [Demo.wildScene, FitInst, FitVal, FitAttr, FitAttrs, Py.hashable]
  · simp [Demo.wildScene, VisInst, VisLeaf, hid3, Py.index0]
  · have hb := big_gt'
    have m : ∀ n : ℕ, n ≤ 3 → (XF.fin (n : ℝ)).Moderate := by
      intro n hn
      have : ((n : ℕ) : ℝ) ≤ 3 := by exact_mod_cast hn
      refine ⟨.nat (by omega), ?_⟩
      rw [abs_of_nonneg (by positivity)]
      linarith
    intro p q hp
    simp only [Demo.wildScene, leavesD, leavesV, List.map_cons, List.map_nil, List.append_nil, List.cons_append,
      List.nil_append, List.mem_cons, Prod.mk.injEq, Py.num.injEq, reduceCtorEq, and_false, List.not_mem_nil,
      or_false, false_or] at hp
    rcases hp with ⟨-, rfl⟩ | ⟨-, rfl⟩
    · simpa using m 3 (by omega)
    · simpa using m 1 (by omega)

/-- The hypotheses of the theorems of this file are met by any number of copies of the scene. -/
example (n : ℕ) : ∃ st hist, TrestleRunsX ieee XF.Moderate demoTrestle Demo.specials st hist ∧ hist.length = n ∧
    ∀ j ∈ hist, HasVisible hid3 (instX Demo.specials j) := by
  have := C101_histories_partial (R := ieee) (sp := Demo.specials) demoTrestle_ok demoSearch_ok demoSearch_total
    (Demo.pyEnv_sorts _) (fun l _ => ⟨l, rfl⟩) (List.replicate n Demo.wildScene)
    (fun i hi => (List.eq_of_mem_replicate hi) ▸ Demo.wildScene_ok)
  simpa using this

/-- The infinity arrives in the tree as a number, the `nan` as a nominal value. -/
example : (instX Demo.specials [(.str c!"a", .other 0 true false), (.str c!"b", .other 1 true false)]) =
    [(.str c!"a", .num (.inf false)), (.str c!"b", .nom (.other 1 true false))] := by
  simp [instX, valX, Demo.specials]

end CF
