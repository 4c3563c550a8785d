/-
Flat clusterings, properties C35 to C41, C69 and C70.

The state of a `CobwebTree` is its store of node objects, that of a `Cobweb3Tree` the store and its scales.
-/
import Verif.Proofs.ClusterValue
import Verif.Proofs.FitAll

set_option linter.unusedSectionVars false

namespace CF
variable {I S H σ : Type} [LinearOrder H]
variable {A B V : Type} [DecidableEq A] [DecidableEq B] [DecidableEq V] {hid : A → Bool} {cfg : Cfg3 A B}
variable {ord : List ℕ → List ℕ} {store : σ → Heap S} {fit : I → σ → Res ℕ × σ}

/-! ### C35: arguments, and one label per instance -/

/-- **C35**: bad bounds and an empty list of instances raise `ValueError`, before anything is yielded and
whatever the heuristic is. -/
theorem C35_bad_arguments (heur : Res (σ → Heuristic S H)) (labels : Bool) {minsplit maxsplit : ℤ}
    {insts : List I} (s : σ) (h : minsplit < 1 ∨ maxsplit < minsplit ∨ insts = []) :
    clusterIter ord store fit heur labels minsplit maxsplit insts s = ([], some .valueErr) := by
  unfold clusterIter
  split_ifs with h1 h2 h3
  · rfl
  · rfl
  · rfl
  · rcases h with h | h | h
    · exact absurd h h1
    · exact absurd h h2
    · simp [h] at h3

/-- **C35**: so does a string that is not the name of a heuristic (in capitals, `up`). -/
theorem C35_unknown_heuristic (up : String → String) (isKey : V → Bool) (labels : Bool) (minsplit maxsplit : ℤ)
    (fit : Inst A V → Heap (Stats A V) → Res ℕ × Heap (Stats A V)) (insts : List (Inst A V))
    (h : Heap (Stats A V)) {name : String} (hn : up name ∉ ["CU", "AIC", "BIC", "AICC"]) :
    clusterIter ord id fit (heurC up hid isKey ord (.str name)) labels minsplit maxsplit insts h =
      ([], some .valueErr) := by
  have e : heurC (σ := Heap (Stats A V)) up hid isKey ord (.str name) = .error .valueErr := by
    simp only [List.mem_cons, List.not_mem_nil, or_false, not_or] at hn
    unfold heurC resolveHeur
    simp [hn]
  unfold clusterIter
  rw [e]
  split_ifs <;> rfl

/-- The heuristic given as an argument does not change existing objects.  (The built-in ones do not.) -/
def QuietArg : HeurArg σ S H → Prop
  | .fn f => ∀ s, Quiet (f s)
  | .str _ => True

theorem heurC_quiet {up : String → String} {isKey : V → Bool} {arg : HeurArg σ (Stats A V) (WithTop ℝ)}
    (hq : QuietArg arg) {heur : σ → Heuristic (Stats A V) (WithTop ℝ)}
    (e : heurC up hid isKey ord arg = .ok heur) (s : σ) : Quiet (heur s) := by
  cases arg with
  | fn f =>
    obtain rfl : f = heur := by simpa [heurC, resolveHeur] using e
    exact hq s
  | str name =>
    unfold heurC resolveHeur at e
    dsimp only at e
    split_ifs at e <;> cases e
    · exact toTop_quiet cuHeur_quiet
    · exact toTop_quiet aicHeur_quiet
    · exact toTop_quiet bicHeur_quiet
    · exact aiccHeur_quiet

theorem heurC3_quiet {up : String → String}
    {arg : HeurArg (Heap (Stats3 A V) × Scales B) (Stats3 A V) (WithTop ℝ)}
    (hq : QuietArg arg) {heur : Heap (Stats3 A V) × Scales B → Heuristic (Stats3 A V) (WithTop ℝ)}
    (e : heurC3 up hid cfg ord arg = .ok heur) (s : Heap (Stats3 A V) × Scales B) : Quiet (heur s) := by
  cases arg with
  | fn f =>
    obtain rfl : f = heur := by simpa [heurC3, resolveHeur] using e
    exact hq s
  | str name =>
    unfold heurC3 resolveHeur at e
    dsimp only at e
    split_ifs at e <;> cases e
    · exact toTop_quiet cuHeur_quiet
    · exact toTop_quiet aicHeur_quiet
    · exact toTop_quiet bicHeur_quiet
    · exact aiccHeur_quiet

section
variable {up : String → String} {isKey : V → Bool} {minsplit maxsplit : ℤ} {h : Heap (Stats A V)}
variable {hist insts : List (Inst A V)} {arg : HeurArg (Heap (Stats A V)) (Stats A V) (WithTop ℝ)}
variable {heur : Heap (Stats A V) → Heuristic (Stats A V) (WithTop ℝ)}

/-- **C35** and **C36** for every `CobwebTree`: what `cluster_iter` yields (see `IterOk`): at most
`maxsplit - minsplit + 1` clusterings; each has one label per instance, which names the child of the root
of the split tree (or the root, if it is a leaf) that contains the leaf of the instance; each comes from
the one before by replacing one cluster by its children. -/
theorem C35_yields (hr : CobwebHeap hid h hist) (ho : SetOrder ord) (hq : QuietArg arg)
    (e : heurC up hid isKey ord arg = .ok heur) (mod labels : Bool) (h1 : 1 ≤ minsplit)
    (h2 : minsplit ≤ maxsplit) (h3 : insts ≠ []) (hi : ∀ i ∈ insts, Dict.Nodup i) :
    IterOk id (fitC hid mod) heur labels minsplit maxsplit insts h
      (clusterIter ord id (fitC hid mod) (heurC up hid isKey ord arg) labels minsplit maxsplit insts h) := by
  obtain ⟨dt, hR⟩ := rc_of_heap (P := fun _ => True) (b := false) hr (fun _ _ => trivial) (by simp)
  rw [e]
  exact clusterIter_ok (rc_fits _ false mod) (fun s dt hR => hR.1) ho (heurC_quiet hq e) labels h1 h2 h3
    (fun i hm => ⟨hi i hm, trivial⟩) hR

/-- **C35**: with the built-in heuristics nothing is raised, if every instance has a visible attribute
(see C07) and the tree is fitted or has been fitted before. -/
theorem C35_never_raises {name : String} (hr : CobwebHeap hid h hist) (ho : SetOrder ord)
    (e : heurC up hid isKey ord (.str name) = .ok heur) {mod : Bool} (labels : Bool) (h1 : 1 ≤ minsplit)
    (h2 : minsplit ≤ maxsplit) (h3 : insts ≠ []) (hv : ∀ i ∈ hist, HasVisible hid i)
    (hi : ∀ i ∈ insts, Dict.Nodup i ∧ HasVisible hid i) (hm : mod = true ∨ hist ≠ [])
    (hw : Function.Injective h.w.rnd) :
    (clusterIter ord id (fitC hid mod) (heurC up hid isKey ord (.str name)) labels minsplit maxsplit insts
      h).2 = none := by
  rw [e]
  obtain ⟨l, h', hf⟩ := fitAll_total (fitC_total (hid := hid) mod) hi
    (s := h) ⟨rc_of_heap hr hv (by simp), hw⟩
  have key : ∃ dt', RC hid (HasVisible hid) true h' dt' ∧ l.length = insts.length ∧
      ∃ xs : List (Tree (ℕ × Stats A V)), l = xs.map Tree.addr ∧ ∀ x ∈ xs, x ∈ dt'.nodes ∧ x.children = [] := by
    cases mod with
    | true =>
      obtain ⟨dt, hR⟩ := rc_of_heap (b := false) hr hv (by simp)
      obtain ⟨dt', hR', -, hx⟩ := fitAll_spec' (R0 := RC hid (HasVisible hid) false)
        (fun i s dt a s' hi hR e => hR.fit hi.1 hi.2 e) (rc_fits (HasVisible hid) true true) h3 hi hR hf
      exact ⟨dt', hR', hx⟩
    | false =>
      obtain ⟨dt, hR⟩ := rc_of_heap (b := true) hr hv (fun _ => hm.resolve_left (by simp))
      obtain ⟨dt', hR', -, hx⟩ := fitAll_spec (rc_fits (HasVisible hid) true false) hi hR hf
      exact ⟨dt', hR', hx⟩
  obtain ⟨dt', hR', hlen, xs, rfl, hxs⟩ := key
  obtain ⟨q1, q2⟩ := heurC_named ho e h'
  exact clusterIter_noRaise ho labels h1 h2 h3 (by rintro rfl; exact h3 (List.length_eq_zero_iff.1 hlen.symm))
    hf hR'.1 hR'.q q1 q2 hxs

end

section
variable {up : String → String} {minsplit maxsplit : ℤ} {h : Heap (Stats3 A V)} {sc : Scales B}
variable {hist insts : List (Inst3 A V)}
variable {arg : HeurArg (Heap (Stats3 A V) × Scales B) (Stats3 A V) (WithTop ℝ)}
variable {heur : Heap (Stats3 A V) × Scales B → Heuristic (Stats3 A V) (WithTop ℝ)}

/-- **C35** and **C36** for every `Cobweb3Tree`. -/
theorem C35_yields_cobweb3 (hr : HReach3 hid cfg h sc hist) (ho : SetOrder ord) (hq : QuietArg arg)
    (e : heurC3 up hid cfg ord arg = .ok heur) (mod labels : Bool) (h1 : 1 ≤ minsplit)
    (h2 : minsplit ≤ maxsplit) (h3 : insts ≠ []) (hi : ∀ i ∈ insts, Dict.Nodup i) :
    IterOk Prod.fst (fitC3 hid cfg mod) heur labels minsplit maxsplit insts (h, sc)
      (clusterIter ord Prod.fst (fitC3 hid cfg mod) (heurC3 up hid cfg ord arg) labels minsplit maxsplit insts
        (h, sc)) := by
  obtain ⟨dt, hR⟩ := rc3_of_heap (P := fun _ => True) (b := false) hr (fun _ _ => trivial) (by simp)
  rw [e]
  exact clusterIter_ok (rc3_fits _ false mod) (fun s dt hR => hR.1) ho (heurC3_quiet hq e) labels h1 h2 h3
    (fun i hm => ⟨hi i hm, trivial⟩) hR

/-- **C35** for Cobweb/3: with the built-in heuristics nothing is raised. -/
theorem C35_never_raises_cobweb3 {name : String} (hr : HReach3 hid cfg h sc hist) (ho : SetOrder ord)
    (e : heurC3 up hid cfg ord (.str name) = .ok heur) {mod : Bool} (labels : Bool) (h1 : 1 ≤ minsplit)
    (h2 : minsplit ≤ maxsplit) (h3 : insts ≠ []) (hv : ∀ i ∈ hist, HasVisible hid i)
    (hi : ∀ i ∈ insts, Dict.Nodup i ∧ HasVisible hid i) (hm : mod = true ∨ hist ≠ [])
    (hw : Function.Injective h.w.rnd) :
    (clusterIter ord Prod.fst (fitC3 hid cfg mod) (heurC3 up hid cfg ord (.str name)) labels minsplit maxsplit
      insts (h, sc)).2 = none := by
  rw [e]
  obtain ⟨l, s', hf⟩ := fitAll_total (fitC3_total (hid := hid) (cfg := cfg) mod) hi
    (s := (h, sc)) ⟨rc3_of_heap hr hv (by simp), hw⟩
  have key : ∃ dt', RC3 hid cfg (HasVisible hid) true s' dt' ∧ l.length = insts.length ∧
      ∃ xs : List (Tree (ℕ × Stats3 A V)), l = xs.map Tree.addr ∧ ∀ x ∈ xs, x ∈ dt'.nodes ∧ x.children = [] := by
    cases mod with
    | true =>
      obtain ⟨dt, hR⟩ := rc3_of_heap (b := false) hr hv (by simp)
      obtain ⟨dt', hR', -, hx⟩ := fitAll_spec' (R0 := RC3 hid cfg (HasVisible hid) false)
        (fun i s dt a s' hi hR e => hR.fit hi.1 hi.2 e) (rc3_fits (HasVisible hid) true true) h3 hi hR hf
      exact ⟨dt', hR', hx⟩
    | false =>
      obtain ⟨dt, hR⟩ := rc3_of_heap (b := true) hr hv (fun _ => hm.resolve_left (by simp))
      obtain ⟨dt', hR', -, hx⟩ := fitAll_spec (rc3_fits (HasVisible hid) true false) hi hR hf
      exact ⟨dt', hR', hx⟩
  obtain ⟨dt', hR', hlen, xs, rfl, hxs⟩ := key
  obtain ⟨q1, q2⟩ := heurC3_named ho e s'
  obtain ⟨-, hist', n, hr', -⟩ := id hR'
  exact clusterIter_noRaise ho labels h1 h2 h3 (by rintro rfl; exact h3 (List.length_eq_zero_iff.1 hlen.symm))
    hf hR'.1 hR'.q q1 (q2 _ (reach3_scales hr')) hxs

end

/-! ### C36 and C69: each clustering refines the one before -/

theorem equal_labels_stay {heur : Heuristic S H} {labels : Bool} {leaves : List ℕ} {y y' : Yield S H}
    (hy : YieldOk heur labels leaves y) (hy' : YieldOk heur labels leaves y') (hs : Refined heur leaves y y')
    {i j : ℕ} {l : Label} (hi : y'.labels[i]? = some l) (hj : y'.labels[j]? = some l) :
    ∃ k, y.labels[i]? = some k ∧ y.labels[j]? = some k := by
  obtain ⟨t, ⟨rt, r, r', ht, ert, hrt, hF, hroot, er, htr, er', hr'⟩, -⟩ := hs
  rw [hy'.labels, List.getElem?_map, Option.map_eq_some_iff] at hi hj
  obtain ⟨ci, hci, rfl⟩ := hi
  obtain ⟨cj, hcj, hl⟩ := hj
  obtain ⟨d0, hd0⟩ : ∃ d, Below y.store y.store.root d t := ⟨1, .step (.refl _) er htr⟩
  -- the clusters are below the root
  have below : ∀ {y : Yield S H}, YieldOk heur labels leaves y → ∀ {n c : ℕ}, y.clusters[n]? = some c →
      (∃ d, Below y.store y.store.root d c) ∧ ∃ r, y.store.objs y.store.root = some r ∧
        (c ∈ r.children ∨ c = y.store.root) := by
    intro y hy n c hc
    obtain ⟨hn, rfl⟩ := List.getElem?_eq_some_iff.1 hc
    have := hy.clusters.get (i := n) (by rw [hy.clusters.length_eq]; exact hn) hn
    simp only [List.get_eq_getElem] at this
    obtain ⟨-, r, er, h | ⟨h, -⟩⟩ := this
    · exact ⟨⟨1, .step (.refl _) er h⟩, r, er, .inl h⟩
    · exact ⟨⟨0, h ▸ .refl _⟩, r, er, .inr h⟩
  have hcc : cj = ci := by
    obtain ⟨⟨d, hd⟩, -⟩ := below hy' hci
    obtain ⟨⟨d', hd'⟩, -⟩ := below hy' hcj
    cases labels with
    | true => exact hy'.names hd' hd hl
    | false => simpa using hl
  subst hcc
  have hlen := hF.length_eq
  have old : ∀ {n : ℕ} {c : ℕ}, y'.clusters[n]? = some c → ∃ b, y.clusters[n]? = some b ∧
      (b = t → c ∈ rt.children) ∧ (b ≠ t → c = b) := by
    intro n c hc
    obtain ⟨hn, rfl⟩ := List.getElem?_eq_some_iff.1 hc
    have := hF.get (i := n) (by omega) hn
    simp only [List.get_eq_getElem] at this
    exact ⟨_, List.getElem?_eq_getElem (by omega), this⟩
  obtain ⟨bi, hbi, i1, i2⟩ := old hci
  obtain ⟨bj, hbj, j1, j2⟩ := old hcj
  -- a child of `t` is not a cluster
  have no : ∀ {n b : ℕ}, y.clusters[n]? = some b → b ∉ rt.children := by
    intro n b hb hmem
    obtain ⟨-, r2, er2, h⟩ := below hy hb
    rw [er] at er2
    cases er2
    rcases h with h | rfl
    · have hb1 : Below y.store y.store.root 1 b := .step (.refl _) er h
      obtain ⟨a, ra, -, -, -, hu⟩ := hy.links.one_list hb1 (fun h0 =>
        hy.links.root_no_list (.refl _) er (h0 ▸ h))
      have e1 := hu y.store.root r ⟨0, .refl _⟩ er h
      have e2 := hu t rt ⟨_, hd0⟩ ert hmem
      exact hy.links.root_no_list (.refl _) er ((e1.trans e2.symm) ▸ htr)
    · exact hy.links.root_no_list hd0 ert hmem
  have hb : bi = bj := by
    by_cases h1 : bi = t <;> by_cases h2 : bj = t
    · rw [h1, h2]
    · exact absurd (j2 h2 ▸ i1 h1) (no hbj)
    · exact absurd (i2 h1 ▸ j1 h2) (no hbi)
    · rw [← i2 h1, j2 h2]
  refine ⟨if labels then nameOf y.store bi else .obj bi, ?_, ?_⟩
  · rw [hy.labels, List.getElem?_map, hbi]; rfl
  · rw [hy.labels, List.getElem?_map, hbj, hb]; rfl

section
variable {heur : σ → Heuristic S H} {labels : Bool} {minsplit maxsplit : ℤ} {insts : List I} {s : σ}
variable {r : List (Yield S H) × Option PyErr} {n : ℕ} {y y' : Yield S H}

theorem IterOk.step (hr : IterOk store fit heur labels minsplit maxsplit insts s r)
    (hy : r.1[n]? = some y) (hy' : r.1[n + 1]? = some y') :
    ∃ leaves s', fitAll fit insts s = (.ok leaves, s') ∧ leaves.length = insts.length ∧
      YieldOk (heur s') labels leaves y ∧ YieldOk (heur s') labels leaves y' ∧
      Refined (heur s') leaves y y' := by
  obtain ⟨leaves, s', e, hlen, h1, -, h2⟩ := hr.run (by rintro h0; simp [h0] at hy)
  refine ⟨leaves, s', e, hlen, (h1 y (List.mem_of_getElem? hy)).1, (h1 y' (List.mem_of_getElem? hy')).1, ?_⟩
  obtain ⟨hn, rfl⟩ := List.getElem?_eq_some_iff.1 hy
  obtain ⟨hn', rfl⟩ := List.getElem?_eq_some_iff.1 hy'
  exact List.isChain_iff_getElem.1 h2 n hn'

/-- **C36**: of two successive clusterings that `cluster_iter` yields (see `C35_yields` and
`C35_yields_cobweb3` for `IterOk`) the second refines the first: two instances that have equal labels
afterwards had equal labels before. -/
theorem C36_equal_labels_stay (hr : IterOk store fit heur labels minsplit maxsplit insts s r)
    (hy : r.1[n]? = some y) (hy' : r.1[n + 1]? = some y') {i j : ℕ} {l : Label}
    (hi : y'.labels[i]? = some l) (hj : y'.labels[j]? = some l) :
    ∃ k, y.labels[i]? = some k ∧ y.labels[j]? = some k := by
  obtain ⟨leaves, s', -, -, h1, h2, h3⟩ := hr.step hy hy'
  exact equal_labels_stay h1 h2 h3 hi hj

/-- **C36**: exactly one cluster is replaced, a child of the root with children of its own, and by its
children; the clusters of the other instances are what they were. -/
theorem C36_one_cluster_split (hr : IterOk store fit heur labels minsplit maxsplit insts s r)
    (hy : r.1[n]? = some y) (hy' : r.1[n + 1]? = some y') :
    ∃ t ∈ y.clusters, ∃ rt r r', y.store.objs t = some rt ∧ rt.children ≠ [] ∧
      y.store.objs y.store.root = some r ∧ t ∈ r.children ∧ y'.store.objs y'.store.root = some r' ∧
      r'.children = r.children.erase t ++ rt.children ∧
      ∀ (k : ℕ) (c c' : ℕ), y.clusters[k]? = some c → y'.clusters[k]? = some c' →
        if c = t then c' ∈ rt.children else c' = c := by
  obtain ⟨leaves, s', -, -, -, -, h3⟩ := hr.step hy hy'
  obtain ⟨t, ⟨rt, r, r', ht, ert, hrt, hF, hroot, er, htr, er', hr'⟩, -⟩ := h3
  refine ⟨t, ht, rt, r, r', ert, hrt, er, htr, er', hr', fun n c c' hc hc' => ?_⟩
  obtain ⟨hn, rfl⟩ := List.getElem?_eq_some_iff.1 hc
  obtain ⟨hn', rfl⟩ := List.getElem?_eq_some_iff.1 hc'
  have := hF.get hn hn'
  simp only [List.get_eq_getElem] at this
  split_ifs with h0
  · exact this.1 h0
  · exact this.2 h0

/-- **C69**: the cluster that is split is one for which the clustering after the split has the smallest
value of the heuristic. -/
theorem C69_best_is_split (hr : IterOk store fit heur labels minsplit maxsplit insts s r)
    (hy : r.1[n]? = some y) (hy' : r.1[n + 1]? = some y') :
    ∃ leaves s' t v, fitAll fit insts s = (.ok leaves, s') ∧ SplitOf t y y' ∧ Tried (heur s') leaves y t v ∧
      ∀ u ∈ y.clusters, ∀ ru, y.store.objs u = some ru → ru.children ≠ [] →
        ∃ v', Tried (heur s') leaves y u v' ∧ v ≤ v' := by
  obtain ⟨leaves, s', e, -, -, -, t, h3, v, h4, h5⟩ := hr.step hy hy'
  exact ⟨leaves, s', t, v, e, h3, h4, h5⟩

end

/-! ### C37: `minsplit` -/

/-- The claim of the docstring fails for every tree: with `minsplit` greater than 1 nothing at all is
yielded.  (Line 448 walks over the assignment that is only made from round `minsplit` on.) -/
theorem C37_nothing_is_yielded (ho : SetOrder ord) (heur : σ → Heuristic S H) (labels : Bool)
    {minsplit maxsplit : ℤ} (h1 : 1 < minsplit) (insts : List I) (s : σ) :
    (clusterIter ord store fit (.ok heur) labels minsplit maxsplit insts s).1 = [] := by
  by_cases h2 : maxsplit < minsplit
  · rw [C35_bad_arguments _ _ _ (.inr (.inl h2))]
  by_cases h3 : insts = []
  · rw [C35_bad_arguments _ _ _ (.inr (.inr h3))]
  rw [clusterIter_eq (by omega) (by omega) h3]
  cases e : fitAll fit insts s with
  | mk r s' =>
    cases r with
    | error x => rfl
    | ok temp =>
      dsimp only
      rw [clusterLoop_early ho (by simpa using h1)]

theorem clusterLoop_take {heur : Heuristic S H} {labels : Bool} {temp : List ℕ} :
    ∀ (k k' nth : ℕ) (h : Heap S), k ≤ k' → 1 ≤ nth →
      (clusterLoopH ord heur labels 1 temp k nth h).1 = (clusterLoopH ord heur labels 1 temp k' nth h).1.take k := by
  intro k
  induction k with
  | zero => intro k' nth h _ _; simp [clusterLoopH]
  | succ k ih =>
    intro k' nth h hk hnth
    obtain ⟨k', rfl⟩ : ∃ j, k' = j + 1 := ⟨k' - 1, by omega⟩
    unfold clusterLoopH
    split_ifs
    · cases e1 : yieldStageH heur labels temp h with
      | mk r h1 =>
        cases r with
        | error x => simp
        | ok p =>
          obtain ⟨as, y⟩ := p
          dsimp only
          cases e2 : splitStageH ord heur as temp h1 with
          | mk r h2 =>
            cases r with
            | error x => simp
            | ok b =>
              cases b with
              | false => simp
              | true => simp [ih k' (nth + 1) h2 (by omega) (by omega)]
    · omega

/-- **C37**, what is true of it: with `minsplit=1`, a smaller `maxsplit` cuts the sequence off.  What is
missing is the claim itself, which is false (`C37_nothing_is_yielded`, `C37_docstring_false`). -/
theorem C37_maxsplit_cuts_partial (heur : σ → Heuristic S H) (labels : Bool) {maxsplit maxsplit' : ℤ}
    (h1 : 1 ≤ maxsplit) (h2 : maxsplit ≤ maxsplit') (insts : List I) (s : σ) :
    (clusterIter ord store fit (.ok heur) labels 1 maxsplit insts s).1 =
      (clusterIter ord store fit (.ok heur) labels 1 maxsplit' insts s).1.take maxsplit.toNat := by
  by_cases h3 : insts = []
  · rw [C35_bad_arguments _ _ _ (.inr (.inr h3)), C35_bad_arguments _ _ _ (.inr (.inr h3))]; simp
  rw [clusterIter_eq (by omega) (by omega) h3, clusterIter_eq (by omega) (by omega) h3]
  cases e : fitAll fit insts s with
  | mk r s' =>
    cases r with
    | error x => simp
    | ok temp => exact clusterLoop_take _ _ _ _ (by omega) (le_refl _)

/-! ### C38: `k_cluster` -/

/-- **C38**, what is true of it: a bad `k` raises `ValueError`.  What is missing is the claim that
otherwise a clustering is returned, which is false (`C38_k_cluster_raises`). -/
theorem C38_bad_k_partial (cu : σ → Heuristic S H) {k : ℤ} (hk : k < 2) (insts : List I) (s : σ) :
    kCluster ord store fit cu k insts s = .error .valueErr := by
  unfold kCluster; rw [if_pos hk]

/-- The claim fails for every tree, list of instances and `k`: `k_cluster` never returns, because it builds
the set of what `cluster_iter` yields, a tuple that contains a list. -/
theorem C38_k_cluster_raises (cu : σ → Heuristic S H) (k : ℤ) (insts : List I) (s : σ) :
    ∃ e, kCluster ord store fit cu k insts s = .error e := by
  by_cases hk : k < 2
  · exact ⟨_, C38_bad_k_partial cu hk insts s⟩
  unfold kCluster
  rw [if_neg hk]
  by_cases h3 : insts = []
  · rw [C35_bad_arguments _ _ _ (.inr (.inr h3))]; exact ⟨_, rfl⟩
  rw [clusterIter_eq (by omega) (by omega) h3]
  cases e : fitAll fit insts s with
  | mk r s' =>
    cases r with
    | error x => exact ⟨_, rfl⟩
    | ok temp =>
      show ∃ e, kClusterLoop k (clusterLoopH ord (cu s') true 1 temp (99999 + 1) 1 (store s')).1
        (clusterLoopH ord (cu s') true 1 temp (99999 + 1) 1 (store s')).2 _ = .error e
      unfold clusterLoopH
      rw [if_pos (by norm_num)]
      generalize yieldStageH (cu s') true temp (store s') = u
      obtain ⟨u, h1⟩ := u
      cases u with
      | error x => exact ⟨_, rfl⟩
      | ok p =>
        obtain ⟨as, y⟩ := p
        dsimp only
        generalize splitStageH ord (cu s') as temp h1 = u
        obtain ⟨u, h2⟩ := u
        cases u with
        | error x => exact ⟨_, rfl⟩
        | ok b => cases b <;> exact ⟨_, rfl⟩

/-- On a `CobwebTree`, where `cluster_iter` raises nothing, the exception is a `TypeError`. -/
theorem C38_k_cluster_type_error {h : Heap (Stats A V)} {hist insts : List (Inst A V)}
    (hr : CobwebHeap hid h hist) (ho : SetOrder ord) {mod : Bool} {k : ℤ} (hk : 2 ≤ k) (h3 : insts ≠ [])
    (hv : ∀ i ∈ hist, HasVisible hid i) (hi : ∀ i ∈ insts, Dict.Nodup i ∧ HasVisible hid i)
    (hm : mod = true ∨ hist ≠ []) (hw : Function.Injective h.w.rnd) :
    kCluster ord id (fitC hid mod) (fun _ => toTop (cuC hid ord)) k insts h = .error .typeErr := by
  have e : heurC (σ := Heap (Stats A V)) id hid (fun _ : V => false) ord (.str "CU") =
      .ok fun _ => toTop (cuC hid ord) := by simp [heurC, resolveHeur]
  have h0 := C35_never_raises hr ho e true (le_refl 1) (show (1 : ℤ) ≤ 100000 by norm_num) h3 hv hi hm hw
  rw [e] at h0
  unfold kCluster
  rw [if_neg (by omega)]
  have hy := (C35_yields hr ho (arg := .str "CU") trivial e mod true (le_refl 1)
    (show (1 : ℤ) ≤ 100000 by norm_num) h3 (fun i hm => (hi i hm).1)).stop rfl
  rw [e] at hy
  generalize clusterIter ord id (fitC hid mod) (Except.ok fun _ => toTop (cuC hid ord)) true 1 100000 insts h = r
    at h0 hy
  obtain ⟨l, x⟩ := r
  dsimp only at h0 hy ⊢
  subst h0
  cases l with
  | nil => have := hy rfl; simp at this
  | cons y l => rfl

/-! ### C39: `cluster_split_search` -/

theorem searchStep_spec [OrderTop H] (labels : Bool) (l0 : List Label) : ∀ (ys : List (Yield S H)) ,
    let out := fun y : Yield S H => if labels then y.clusters.map (nameOf y.store) else y.labels
    (∃ n y, ys[n]? = some y ∧ y.value < ⊤ ∧ (∀ y' ∈ ys, y.value ≤ y'.value) ∧
      (∀ (k : ℕ) y', k < n → ys[k]? = some y' → y.value < y'.value) ∧
      ys.foldl (searchStep labels) (⊤, l0) = (y.value, out y)) ∨
    ((∀ y ∈ ys, y.value = ⊤) ∧ ys.foldl (searchStep labels) (⊤, l0) = (⊤, l0)) := by
  intro ys out
  induction ys using List.reverseRecOn with
  | nil => right; simp
  | append_singleton ys z ih =>
    rw [List.foldl_append, List.foldl_cons, List.foldl_nil]
    rcases ih with ⟨n, y, hn, h1, h2, h3, h4⟩ | ⟨h1, h2⟩
    · rw [h4]
      have hlt : n < ys.length := (List.getElem?_eq_some_iff.1 hn).1
      by_cases hz : z.value < y.value
      · left
        refine ⟨ys.length, z, by simp, hz.trans h1, ?_, ?_, ?_⟩
        · intro y' hy'
          rcases List.mem_append.1 hy' with hy' | hy'
          · exact hz.le.trans (h2 y' hy')
          · rw [List.mem_singleton.1 hy']
        · intro k y' hk hy'
          rw [List.getElem?_append_left hk] at hy'
          exact hz.trans_le (h2 y' (List.mem_of_getElem? hy'))
        · unfold searchStep; rw [if_pos hz]
      · left
        refine ⟨n, y, by rw [List.getElem?_append_left hlt]; exact hn, h1, ?_, ?_, ?_⟩
        · intro y' hy'
          rcases List.mem_append.1 hy' with hy' | hy'
          · exact h2 y' hy'
          · rw [List.mem_singleton.1 hy']; exact not_lt.1 hz
        · intro k y' hk hy'
          rw [List.getElem?_append_left (hk.trans hlt)] at hy'
          exact h3 k y' hk hy'
        · unfold searchStep; rw [if_neg hz]
    · rw [h2]
      by_cases hz : z.value < ⊤
      · left
        refine ⟨ys.length, z, by simp, hz, ?_, ?_, ?_⟩
        · intro y' hy'
          rcases List.mem_append.1 hy' with hy' | hy'
          · rw [h1 y' hy']; exact le_top
          · rw [List.mem_singleton.1 hy']
        · intro k y' hk hy'
          rw [List.getElem?_append_left hk] at hy'
          rw [h1 y' (List.mem_of_getElem? hy')]; exact hz
        · unfold searchStep; rw [if_pos hz]
      · right
        refine ⟨?_, by unfold searchStep; rw [if_neg hz]⟩
        intro y hy
        rcases List.mem_append.1 hy with hy | hy
        · exact h1 y hy
        · rw [List.mem_singleton.1 hy]; exact not_lt_top_iff.1 hz

/-- **C39**: for every tree and heuristic, if `cluster_iter` raises then so does `cluster_split_search`;
otherwise it returns the first of the clusterings whose value is minimal, or the name of the root for every
instance if none has a finite value. -/
theorem C39_first_minimal [OrderTop H] (heur : Res (σ → Heuristic S H)) (minsplit maxsplit : ℤ) (labels : Bool)
    (insts : List I) (s : σ) :
    match clusterIter ord store fit heur false minsplit maxsplit insts s with
    | (_, some e) => clusterSplitSearch ord store fit heur minsplit maxsplit labels insts s = .error e
    | (ys, none) =>
      (∃ n y, ys[n]? = some y ∧ y.value < ⊤ ∧ (∀ y' ∈ ys, y.value ≤ y'.value) ∧
        (∀ (k : ℕ) y', k < n → ys[k]? = some y' → y.value < y'.value) ∧
        clusterSplitSearch ord store fit heur minsplit maxsplit labels insts s =
          .ok (if labels then y.clusters.map (nameOf y.store) else y.labels)) ∨
      ((∀ y ∈ ys, y.value = ⊤) ∧
        clusterSplitSearch ord store fit heur minsplit maxsplit labels insts s =
          .ok (insts.map fun _ => nameOf (store s) (store s).root)) := by
  unfold clusterSplitSearch
  generalize clusterIter ord store fit heur false minsplit maxsplit insts s = r
  obtain ⟨ys, e⟩ := r
  cases e with
  | some e => rfl
  | none =>
    dsimp only
    rcases searchStep_spec labels (insts.map fun _ => nameOf (store s) (store s).root) ys with
      ⟨n, y, h1, h2, h3, h4, h5⟩ | ⟨h1, h2⟩
    · exact .inl ⟨n, y, h1, h2, h3, h4, by rw [h5]⟩
    · exact .inr ⟨h1, by rw [h2]⟩

end CF
