/-
Trestle: C56, C57 and C71.
-/
import Verif.Proofs.TrestleFits

namespace CF

variable {c : TrestleCfg}

/-! ### C56 -/

/-- After any calls with any outcome, all variables in the tables of the tree are names that its `gensym`
has returned. -/
theorem C56_names_known (hc : c.Ok) {st : TState} (h : TrestleAny c st) : NamesKnown st := by
  induction h with
  | clear st => exact known_clear st
  | other _ hu ih => exact let ⟨D, hD⟩ := ih; ⟨D, hD.undisturbed hu⟩
  | ifit _ hS hw ih => exact known_ifit hc hS ih hw
  | categorize _ hS hw ih => exact known_categorize hc hS ih hw
  | infer _ hS hw _ ih => exact known_infer hc hS ih hw

/-- **C56**: after any calls of `ifit`, `categorize` and `infer_missing`, on any instances, with any outcome
of the searches and whether the calls returned or raised: if an instance, with any variables, is renamed,
flattened and split, then none of its variables occurs in the table of the root. -/
theorem C56_disjoint (hc : c.Ok) {st : TState} (h : TrestleAny c st) {i t : PyInst} (hw : Py.wf (.dict i))
    {s : ℕ × (ℕ → Option (Dict Py Py))} (hb : beforeMapping c st.ctr i = (.ok t, s)) :
    ∀ x ∈ varsOf t.keys, x ∉ varsOf st.rootAttrs := by
  intro x hx hx'
  obtain ⟨k, hk, e⟩ := (C56_names_known hc h).root x hx'
  obtain ⟨y, hy, hxy⟩ := mem_varsOf.1 hx
  obtain ⟨k', hk1, -, e'⟩ := (before_vars hc hw hb).2.2 y hy x hxy
  rw [e] at e'
  have := (names_std hc).inj (Py.str.inj e')
  omega

mutual
theorem componentsE_error : ∀ (a : Py) {e : PyErr}, componentsE a = .error e → e = .typeErr
  | .tup l, _, h => componentsL_error l (by rwa [componentsE] at h)
  | .str _, _, h => by simp [componentsE] at h
  | .none, _, h | .bool _, _, h | .num _, _, h | .list _, _, h | .dict _, _, h | .other _ _ _, _, h => by
    simp only [componentsE, Except.error.injEq] at h
    exact h.symm
theorem componentsL_error : ∀ (l : List Py) {e : PyErr}, componentsL l = .error e → e = .typeErr
  | [], _, h => by simp [componentsL] at h
  | x :: xs, e, h => by
    rw [componentsL] at h
    cases h1 : componentsE x with
    | error e' =>
      rw [h1, error_bind] at h
      cases h
      exact componentsE_error x h1
    | ok a =>
      rw [h1, ok_bind] at h
      cases h2 : componentsL xs with
      | error e' =>
        rw [h2, error_bind] at h
        cases h
        exact componentsL_error xs h2
      | ok b => rw [h2, ok_bind] at h; cases h
end

theorem index0_not_exc (a : Py) : a.index0 ≠ .error .exc := by
  unfold Py.index0
  intro h
  split at h <;> try simp at h
  split at h <;> simp at h

theorem components_not_exc (a : Py) : components a ≠ .error .exc := by
  intro h
  cases a with
  | tup l => exact absurd (componentsL_error l h) (by simp)
  | list _ => simp [components] at h
  | dict _ => simp [components] at h
  | none | bool | num | str | other =>
    simp only [components] at h
    revert h
    first
      | (cases h1 : Py.index0 _ with
         | error e => intro h; rw [error_bind] at h; cases h; exact index0_not_exc _ h1
         | ok b => intro h; rw [ok_bind] at h; cases h)

theorem componentNames_not_exc (l : List Py) : componentNames l ≠ .error .exc := by
  induction l with
  | nil => simp [componentNames]
  | cons a l ih =>
    intro h
    rw [componentNames] at h
    cases h1 : components a with
    | error e =>
      rw [h1, error_bind] at h
      cases h
      exact components_not_exc a h1
    | ok x =>
      rw [h1, ok_bind] at h
      cases h2 : componentNames l with
      | error e => rw [h2, error_bind] at h; cases h; exact ih h2
      | ok y => rw [h2, ok_bind] at h; cases h

theorem assignLoop_not_exc (is cs : List Py) (idx : List (ℕ × ℕ)) (m : Dict Py Py) :
    assignLoop is cs idx m ≠ .error .exc := by
  induction idx generalizing m with
  | nil => simp [assignLoop]
  | cons p idx ih =>
    obtain ⟨row, col⟩ := p
    rw [assignLoop]
    split
    · simp
    · split
      · exact ih _
      · split
        · simp
        · exact ih _

/-- **C56**: hence `flat_match` never raises its exception about objects that occur in both: if a generic
`Exception` comes out of it, the external search has raised it. -/
theorem C56_no_collision (hc : c.Ok) {st : TState} (h : TrestleAny c st) {S : Search} {i t : PyInst}
    (hw : Py.wf (.dict i)) {s : ℕ × (ℕ → Option (Dict Py Py))}
    (hb : beforeMapping c st.ctr i = (.ok t, s)) (he : flatMatch S st.rootAttrs none t = .error .exc) :
    (∃ is cs, S.assign is cs t = .error .exc) ∨ ∃ m, S.climb m t = .error .exc := by
  unfold flatMatch at he
  cases h1 : componentNames t.keys with
  | error e => rw [h1, error_bind] at he; cases he; exact absurd h1 (componentNames_not_exc _)
  | ok is =>
  cases h2 : componentNames st.rootAttrs with
  | error e => rw [h1, ok_bind, h2, error_bind] at he; cases he; exact absurd h2 (componentNames_not_exc _)
  | ok cs =>
  rw [h1, ok_bind, h2, ok_bind] at he
  split at he
  · cases he
  · split at he
    · rename_i hx
      obtain ⟨x, hx, hx'⟩ := hx
      rw [componentNames_ok h1] at hx
      rw [componentNames_ok h2] at hx'
      exact absurd hx' (C56_disjoint hc h hw hb x hx)
    · cases h3 : initialMapping S none is cs t with
      | error e =>
        rw [h3, error_bind] at he
        cases he
        simp only [initialMapping, hungarianMapping] at h3
        cases h4 : S.assign (S.listOf is) (S.listOf cs) t with
        | error e => rw [h4, error_bind] at h3; cases h3; exact .inl ⟨_, _, h4⟩
        | ok idx => rw [h4, ok_bind] at h3; exact absurd h3 (assignLoop_not_exc _ _ _ _)
      | ok m =>
        rw [h3, ok_bind] at he
        cases h4 : S.climb (m, unusedNames (S.listOf cs) m) t with
        | error e => rw [h4, error_bind] at he; cases he; exact .inr ⟨_, h4⟩
        | ok s => rw [h4, ok_bind] at he; cases he

/-! ### C57 -/

section
variable {st : TState} {hist : List PyInst}

/-- **C57**: the objects below the root form a tree which Cobweb/3 reaches by fitting the preprocessed
instances, and the scales are those of that run. -/
theorem C57_tree (hc : c.Ok) (h : TrestleRuns c st hist) :
    ∃ t n, Reach3 hid3 c.cobweb3 ⟨t, st.sc⟩ (hist.map inst3) n ∧ n ≤ st.h.w.ctr ∧
      IsTree st.h st.h.root t :=
  C66_store_is_tree_cobweb3 (trestle_heap hc h)

theorem trestle_reach (hc : c.Ok) (h : TrestleRuns c st hist) {t : Tree (Stats3 Py Py)}
    (ht : IsTree st.h st.h.root t) :
    ∃ n, Reach3 hid3 c.cobweb3 ⟨t, st.sc⟩ (hist.map inst3) n ∧ n ≤ st.h.w.ctr := by
  obtain ⟨t', n, h1, h2, h3⟩ := C57_tree hc h
  rw [ht.unique h3]
  exact ⟨n, h1, h2⟩

/-- **C57** (C02): the root summarises exactly the fitted instances, every node a part of them. -/
theorem C57_every_node (hc : c.Ok) (h : TrestleRuns c st hist) {t : Tree (Stats3 Py Py)}
    (ht : IsTree st.h st.h.root t) :
    Summarizes3 t.stats (hist.map inst3 : Multiset (Inst3 Py Py)) ∧
    ∀ x ∈ t.nodes, ∃ m ≤ (hist.map inst3 : Multiset (Inst3 Py Py)), Summarizes3 x.stats m := by
  obtain ⟨n, hr, -⟩ := trestle_reach hc h ht
  exact C29_every_node hr

/-- **C57** (C01): the counts of a node are the sums of those of its children. -/
theorem C57_counts_conserved (hc : c.Ok) (h : TrestleRuns c st hist) {t : Tree (Stats3 Py Py)}
    (ht : IsTree st.h st.h.root t) :
    ∀ x ∈ t.nodes, x.children ≠ [] →
      x.stats.count = (x.children.map fun c => c.stats.count).sum ∧
      (∀ a v, (x.stats.nomLookup a v).getD 0 =
        (x.children.map fun c => (c.stats.nomLookup a v).getD 0).sum) ∧
      ∀ a, x.stats.numCount a = (x.children.map fun c => c.stats.numCount a).sum ∧
        x.stats.numSum a = (x.children.map fun c => c.stats.numSum a).sum ∧
        x.stats.numSqSum a = (x.children.map fun c => c.stats.numSqSum a).sum := by
  obtain ⟨n, hr, -⟩ := trestle_reach hc h ht
  exact C29_counts_conserved hr

/-- **C57** (C03): the leaves partition the fitted instances into groups that agree on all visible
attributes. -/
theorem C57_leaves_partition (hc : c.Ok) (h : TrestleRuns c st hist) (hne : hist ≠ [])
    {t : Tree (Stats3 Py Py)} (ht : IsTree st.h st.h.root t) :
    ∃ groups : List (Multiset (Inst3 Py Py)), groups.sum = (hist.map inst3 : Multiset (Inst3 Py Py)) ∧
      List.Forall₂ (fun leaf g => Summarizes3 leaf.stats g ∧ g ≠ 0 ∧
        ∀ i ∈ g, ∀ j ∈ g, ∀ a, hid3 a = false → Dict.get? i a = Dict.get? j a) t.leaves groups := by
  obtain ⟨n, hr, -⟩ := trestle_reach hc h ht
  exact C29_leaves_partition hr (by simpa using hne)

/-- **C57** (C05): a node has no children or at least two, and no id occurs twice. -/
theorem C57_shape (hc : c.Ok) (h : TrestleRuns c st hist) {t : Tree (Stats3 Py Py)}
    (ht : IsTree st.h st.h.root t) :
    (∀ x ∈ t.nodes, x.children = [] ∨ 2 ≤ x.children.length) ∧ t.ids.Nodup := by
  obtain ⟨n, hr, -⟩ := trestle_reach hc h ht
  exact ⟨C29_at_least_two_children hr, (C29_ids_unique hr).1⟩

/-- **C57** (C04): `ifit` returns a leaf of the new tree whose instances, the preprocessed one among them,
agree with it on all visible attributes. -/
theorem C57_ifit_returns_leaf (hc : c.Ok) (h : TrestleRuns c st hist) {S : Search} (hS : SearchLaws S)
    {i temp : PyInst} (hw : Py.wf (.dict i)) (hp : (trestlePrep c S st i).1 = .ok temp) {a : ℕ} {st' : TState}
    (he : trestleIfit c S i st = (.ok a, st')) :
    ∃ r, st'.h.objs a = some r ∧ (∃ d, Below st'.h st'.h.root d a) ∧ r.children = [] ∧
      r.stats.isExact hid3 (inst3 temp) = true ∧
      ∃ m, Summarizes3 r.stats (inst3 temp ::ₘ m) ∧
        ∀ j ∈ m, ∀ a, hid3 a = false → Dict.get? (inst3 temp) a = Dict.get? j a := by
  obtain ⟨t, n, hr, hn, ht⟩ := C57_tree hc h
  have hnd : Dict.Nodup (inst3 temp) := by
    unfold Dict.Nodup inst3 Dict.keys
    rw [List.map_map]
    exact (prep_vars hc hS hw hp).1
  have hA := C66_ifit_agrees_cobweb3 (trestle_heap hc h) ht (inst3 temp)
  unfold trestleIfit at he
  generalize trestlePrep c S st i = p at hp he
  obtain ⟨q, s⟩ := p
  dsimp only at hp
  subst hp
  dsimp only at he
  split at he
  · simp at he
  · cases ho : ifit3 hid3 c.cobweb3 ⟨t, st.sc⟩ (inst3 temp) st.h.w with
    | error e =>
      rw [ho] at hA
      rw [hA] at he
      simp at he
    | ok o =>
      rw [ho] at hA
      obtain ⟨a', h', r, hrun, -, -, h3, h4, h5, h6, x, hx, hx1, hx2⟩ := hA
      rw [hrun] at he
      cases he
      obtain ⟨leaf, hl, g1, g2, g3, g4, g5⟩ := C29_ifit_returns_matching_leaf hr hnd hn ho
      have : x = leaf := g3 x hx hx1
      subst this
      rw [hx2] at g4 g5
      exact ⟨r, h4, h3, h6, g4, g5⟩

end

/-! ### C71 -/

section
variable {st : TState} {hist : List PyInst}

theorem rootAttrs_hist (hc : c.Ok) (h : TrestleRuns c st hist) {k : Py} (hk : k ∈ st.rootAttrs) :
    ∃ temp ∈ hist, k ∈ Dict.keys temp := by
  obtain ⟨t, n, hr, -, ht⟩ := C57_tree hc h
  have hs := (C29_every_node hr).1
  cases ht with
  | mk hobj _ =>
    rw [TState.rootAttrs, hobj] at hk
    obtain ⟨j, hj, hk⟩ := (hs.attrs k).1 hk
    obtain ⟨temp, hm, rfl⟩ := List.mem_map.1 (Multiset.mem_coe.1 hj)
    exact ⟨temp, hm, by simpa [inst3, Dict.keys, Function.comp_def] using hk⟩

/-- **C71**: the preprocessing of an instance whose attributes are non-empty strings and tuples of such, at
any depth, and whose values are hashable, returns if the external search does; what it returns passes the
check. -/
theorem C71_prep (hc : c.Ok) (h : TrestleRuns c st hist) {S : Search} (hS : SearchLaws S) (hT : SearchTotal S)
    {i : PyInst} (hw : Py.wf (.dict i)) (hi : FitInst i) :
    ∃ temp, (trestlePrep c S st i).1 = .ok temp ∧ trestleCheck temp = .ok () ∧ Dict.Nodup temp ∧
      (VisInst i → HasVisible hid3 (inst3 temp)) := by
  obtain ⟨t, s, h1, h2, h3⟩ := before_fit hc hw hi st.ctr
  have hd := C56_disjoint hc h.any hw h1
  obtain ⟨m, hm⟩ := (C54_collision (user := none) (target := t) (base := st.rootAttrs) hS
    (componentNames_iff.2 fun a ha => by
      obtain ⟨p, hp, rfl⟩ := List.mem_map.1 ha
      exact components_fit (h2 p hp).1)
    (componentNames_iff.2 fun a ha => by
      obtain ⟨temp, ht, hk⟩ := rootAttrs_hist hc h ha
      exact runs_components hc h temp ht a hk)).2 hd (fun m => hT.climb m t) (fun is cs => hT.assign is cs t)
  have hp : (trestlePrep c S st i).1 = .ok (renameFlat t m) := by
    have e : trestlePrep c S st i = ((pipeTransform
        [⟨0, nameStandardizer c.std⟩, ⟨1, flattener⟩, ⟨2, subComponent c.fuel⟩] i >>=
        pipeTransform [⟨3, structureMapper S st.rootAttrs none⟩]) (st.ctr, fun _ => none)) := by
      rw [← pipeTransform_append]
      rfl
    have h1' : pipeTransform [⟨0, nameStandardizer c.std⟩, ⟨1, flattener⟩, ⟨2, subComponent c.fuel⟩] i
        (st.ctr, fun _ => none) = (.ok t, s) := h1
    rw [e, SM.bind_eq h1']
    simp only [pipeTransform, SM.bind_def, callAt, structureMapper, hm]
    rfl
  obtain ⟨v1, v2, v3⟩ := before_vars hc hw h1
  obtain ⟨f, e, n1, n2, -⟩ := C54_renames (γ := ℕ) (s := (0, none)) hS v2 (user := none) (base := st.rootAttrs) (by trivial)
    (by simp only [structureMapper, hm]; rfl)
  have hf : ∀ p ∈ t, ∀ x ∈ varsEl p.1, Variable (f x) := fun p hp x hx =>
    (n2 x (mem_varsOf.2 ⟨p.1, List.mem_map_of_mem hp, hx⟩)).1
  have hfit : FlatFit (renameFlat t m) := by
    rw [e]
    intro q hq
    obtain ⟨p, hp, rfl⟩ := List.mem_map.1 hq
    exact ⟨(h2 p hp).1.ren (hf p hp), (h2 p hp).2⟩
  refine ⟨_, hp, hfit.check, n1, fun hv => ?_⟩
  obtain ⟨k, hk, hh⟩ := h3 hv
  obtain ⟨p, hp, rfl⟩ := List.mem_map.1 hk
  refine ⟨renEl f p.1, ?_, by rw [hid3_ren (hf p hp) (h2 p hp).1]; exact hh⟩
  rw [e]
  simp only [inst3, Dict.keys, List.map_map, List.mem_map, Function.comp_apply]
  exact ⟨p, hp, rfl⟩

theorem inst3_nodup {temp : PyInst} (h : Dict.Nodup temp) : Dict.Nodup (inst3 temp) := by
  unfold Dict.Nodup inst3 Dict.keys
  rw [List.map_map]
  exact h

/-- **C71**: `ifit` of such an instance returns and adds it to the fitted instances, if it has a visible
attribute with a value at some depth, all instances before had one, and no two random numbers coincide. -/
theorem C71_ifit_never_raises (hc : c.Ok) (h : TrestleRuns c st hist)
    (hv : ∀ j ∈ hist, HasVisible hid3 (inst3 j)) {S : Search} (hS : SearchLaws S) (hT : SearchTotal S)
    {i : PyInst} (hw : Py.wf (.dict i)) (hi : FitInst i) (hvi : VisInst i)
    (hrnd : Function.Injective st.h.w.rnd) :
    ∃ a st' temp, trestleIfit c S i st = (.ok a, st') ∧ TrestleRuns c st' (hist ++ [temp]) ∧
      HasVisible hid3 (inst3 temp) := by
  obtain ⟨temp, h1, h2, h3, h4⟩ := C71_prep hc h hS hT hw hi
  obtain ⟨t, n, hr, hn, ht⟩ := C57_tree hc h
  obtain ⟨o, ho⟩ := C63_ifit_never_raises hr (by
    intro j hj
    obtain ⟨k, hk, rfl⟩ := List.mem_map.1 hj
    exact hv k hk) (inst3_nodup h3) (h4 hvi) hrnd
  have hA := C66_ifit_agrees_cobweb3 (trestle_heap hc h) ht (inst3 temp)
  rw [ho] at hA
  obtain ⟨a, h', r, hrun, -⟩ := hA
  have he : trestleIfit c S i st = (.ok a, ⟨h', o.state.scales, (trestlePrep c S st i).2.1⟩) := by
    unfold trestleIfit
    generalize trestlePrep c S st i = p at h1
    obtain ⟨q, s⟩ := p
    dsimp only at h1
    subst h1
    simp only [h2, hrun]
  exact ⟨a, _, temp, he, .ifit h hS hw h1 he, h4 hvi⟩

/-- **C71** for `categorize`: the instance need not have visible attributes. -/
theorem C71_categorize_never_raises (hc : c.Ok) (h : TrestleRuns c st hist)
    (hv : ∀ j ∈ hist, HasVisible hid3 (inst3 j)) {S : Search} (hS : SearchLaws S) (hT : SearchTotal S)
    {i : PyInst} (hw : Py.wf (.dict i)) (hi : FitInst i) (hrnd : Function.Injective st.h.w.rnd) :
    ∃ a st', trestleCategorize c S i st = (.ok a, st') := by
  obtain ⟨temp, h1, h2, h3, h4⟩ := C71_prep hc h hS hT hw hi
  obtain ⟨dt, n, hr, hn, hp, hroot⟩ := heap_rep3 (trestle_heap hc h)
  obtain ⟨o, ho⟩ := C63_categorize_never_raises hr (by
    intro j hj
    obtain ⟨k, hk, rfl⟩ := List.mem_map.1 hj
    exact hv k hk) (inst3_nodup h3) hrnd
  obtain ⟨-, -, hA⟩ := categorizeH_agrees (C := cobweb3Class hid3) (ecg := ecg3H hid3 c.cobweb3 st.sc)
    (fun s => fueled_ecg3 _ s) hp hroot (inst3 temp)
  have ho' : categorize (cobweb3Class hid3) (ecg3H hid3 c.cobweb3 st.sc true) dt.erase (inst3 temp) st.h.w =
      .ok o := ho
  rw [ho'] at hA
  unfold trestleCategorize
  generalize trestlePrep c S st i = p at h1
  obtain ⟨q, s⟩ := p
  dsimp only at h1
  subst h1
  obtain ⟨-, y, -, -, -, hA⟩ := hA
  refine ⟨y.addr, ?_⟩
  simp only [h2]
  exact ⟨_, Prod.ext hA rfl⟩

/-- **C71**: so any list of such instances can be fitted. -/
theorem C71_histories (hc : c.Ok) {S : Search} (hS : SearchLaws S) (hT : SearchTotal S) (is : List PyInst)
    (hw : ∀ i ∈ is, Py.wf (.dict i) ∧ FitInst i ∧ VisInst i) :
    ∃ st hist, TrestleRuns c st hist ∧ hist.length = is.length ∧ ∀ j ∈ hist, HasVisible hid3 (inst3 j) := by
  induction is using List.reverseRecOn with
  | nil => exact ⟨_, [], .clear ⟨⟨fun _ => none, 0, 0, Demo.w0⟩, [], 0⟩, rfl, by simp⟩
  | append_singleton l i ih =>
    obtain ⟨st, hist, h1, h2, h3⟩ := ih fun j hj => hw j (by simp [hj])
    obtain ⟨w1, w2, w3⟩ := hw i (by simp)
    have h1' : TrestleRuns c { st with h := { st.h with w := ⟨fun k => (k : ℚ), 0, st.h.w.ctr⟩ } } hist :=
      .other h1 ⟨fun _ _ => rfl, le_refl _, rfl, le_refl _⟩
    obtain ⟨a, st', temp, -, h5, h6⟩ := C71_ifit_never_raises hc h1' h3 hS hT w1 w2 w3
      (fun a b hab => by simpa using hab)
    refine ⟨st', _, h5, by simp [h2], ?_⟩
    intro j hj
    rcases List.mem_append.1 hj with hj | hj
    · exact h3 j hj
    · rw [List.mem_singleton] at hj
      exact hj ▸ h6

end

/-! ### Examples -/

noncomputable def demoTrestle : TrestleCfg := ⟨1 / 2, true, fun _ => [], id, 1000⟩

theorem demoTrestle_ok : demoTrestle.Ok := fun _ _ => Iff.rfl

theorem demoSearch_total : SearchTotal demoSearch := ⟨fun _ _ _ => ⟨_, rfl⟩, fun _ _ => ⟨_, rfl⟩⟩

/-- `{'?b': {'size': 3, '?c': {'_id': 'x', 'hue': 'red'}}, ('on', '?b', ('top', '?d')): True, 'k': 1}`. -/
def demoScene : PyInst :=
  [(.str c!"?b", .dict [(.str c!"size", .num 3),
      (.str c!"?c", .dict [(.str c!"_id", .str c!"x"), (.str c!"hue", .str c!"red")])]),
   (.tup [.str c!"on", .str c!"?b", .tup [.str c!"top", .str c!"?d"]], .bool true), (.str c!"k", .num 1)]

/-- `{'?c': {'?b': {'_id': 7}}}`: a hidden attribute only. -/
def demoHidden : PyInst := [(.str c!"?c", .dict [(.str c!"?b", .dict [(.str c!"_id", .num 7)])])]

theorem demoScene_fit : Py.wf (.dict demoScene) ∧ FitInst demoScene ∧ VisInst demoScene := by
  refine ⟨?_, ?_, ?_⟩
  · simp [demoScene, Py.wf, Py.wfD, Dict.Nodup, Dict.keys]
  · simp [demoScene, FitInst, FitVal, FitAttr, FitAttrs, Py.hashable]
  · simp [demoScene, VisInst, VisLeaf, hid3, Py.index0]

/-- Runs exist: the hypotheses of the theorems of this file are met by any number of copies of the scene;
its variables are renamed for each copy and then mapped to those of the tree. -/
example (n : ℕ) : ∃ st hist, TrestleRuns demoTrestle st hist ∧ hist.length = n ∧
    ∀ j ∈ hist, HasVisible hid3 (inst3 j) := by
  have := C71_histories demoTrestle_ok demoSearch_ok demoSearch_total (List.replicate n demoScene)
    (fun i hi => (List.eq_of_mem_replicate hi) ▸ demoScene_fit)
  simpa using this

/-- An instance without visible attributes can be preprocessed and categorized. -/
example : Py.wf (.dict demoHidden) ∧ FitInst demoHidden ∧ ¬ VisInst demoHidden := by
  refine ⟨?_, ?_, ?_⟩
  · simp [demoHidden, Py.wf, Py.wfD, Dict.Nodup, Dict.keys]
  · simp [demoHidden, FitInst, FitVal, FitAttr, Py.hashable]
  · simp [demoHidden, VisInst, VisLeaf, hid3, Py.index0]

/-- What the structure mapper is given for the scene, when 4 names have been generated before: only new
names occur in it. -/
example : (beforeMapping ⟨0, true, fun _ => [], id, 1000⟩ 4 demoScene).1.toOption =
    some [(.tup [.str c!"size", .str c!"?o5"], .num 3),
      (.tup [.str c!"has-component", .str c!"?o5", .str c!"?o6"], .bool true),
      (.tup [.str c!"_", .tup [.str c!"_id", .str c!"?o6"]], .str c!"x"),
      (.tup [.str c!"hue", .str c!"?o6"], .str c!"red"), (.str c!"k", .num 1),
      (.tup [.str c!"on", .str c!"?o5", .tup [.str c!"top", .str c!"?o7"]], .bool true)] := by
  decide +kernel

end CF
