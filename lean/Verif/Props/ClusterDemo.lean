/-
The criteria of C41 on what `cluster_iter` yields, the counterexample to C37, and examples for the
clustering properties.
-/
import Verif.Props.Cluster
import Verif.Props.DepthLabels
import Verif.Props.Criteria

set_option linter.unusedSectionVars false

namespace CF

section
variable {A B V : Type} [DecidableEq A] [DecidableEq B] [DecidableEq V] {hid : A → Bool} {cfg : Cfg3 A B}
variable {ord : List ℕ → List ℕ}

theorem fitAll_heap {h h' : Heap (Stats A V)} {hist insts : List (Inst A V)} (hr : CobwebHeap hid h hist)
    {mod : Bool} (hi : ∀ i ∈ insts, Dict.Nodup i) {l : List ℕ}
    (e : fitAll (fitC hid mod) insts h = (.ok l, h')) :
    CobwebHeap hid h' (hist ++ if mod then insts else []) := by
  induction insts generalizing h hist l with
  | nil => cases e; simpa using hr
  | cons i insts ih =>
    unfold fitAll at e
    cases e1 : fitC hid mod i h with
    | mk r h1 =>
      rw [e1] at e
      cases r with
      | error x => cases e
      | ok a =>
        simp only at e
        cases e2 : fitAll (fitC hid mod) insts h1 with
        | mk r2 h2 =>
          rw [e2] at e
          cases r2 with
          | error x => cases e
          | ok as =>
            cases e
            have hr1 : CobwebHeap hid h1 (hist ++ if mod then [i] else []) := by
              cases mod with
              | true => exact .step hr rfl (hi i (by simp)) e1
              | false =>
                obtain ⟨r, h', e3, hu, -⟩ := C10_categorize_unchanged hr i
                have e4 : fitC hid false i h = (r, h') := e3
                rw [e1] at e4
                cases e4
                simpa using HReach.other hr hu
            have := ih hr1 (fun j hj => hi j (by simp [hj])) e2
            cases mod <;> simpa using this

theorem fitAll_heap3 {s s' : Heap (Stats3 A V) × Scales B} {hist insts : List (Inst3 A V)}
    (hr : HReach3 hid cfg s.1 s.2 hist) {mod : Bool} (hi : ∀ i ∈ insts, Dict.Nodup i) {l : List ℕ}
    (e : fitAll (fitC3 hid cfg mod) insts s = (.ok l, s')) :
    HReach3 hid cfg s'.1 s'.2 (hist ++ if mod then insts else []) := by
  induction insts generalizing s hist l with
  | nil => cases e; simpa using hr
  | cons i insts ih =>
    unfold fitAll at e
    cases e1 : fitC3 hid cfg mod i s with
    | mk r s1 =>
      rw [e1] at e
      cases r with
      | error x => cases e
      | ok a =>
        simp only at e
        cases e2 : fitAll (fitC3 hid cfg mod) insts s1 with
        | mk r2 s2 =>
          rw [e2] at e
          cases r2 with
          | error x => cases e
          | ok as =>
            cases e
            have hr1 : HReach3 hid cfg s1.1 s1.2 (hist ++ if mod then [i] else []) := by
              cases mod with
              | true => exact .step hr (hi i (by simp)) e1
              | false =>
                obtain ⟨r, h', e3, hu, -⟩ := C10_categorize_unchanged_cobweb3 hr i
                have e4 : fitC3 hid cfg false i s = (r, h', s.2) := by
                  simp only [fitC3, Bool.false_eq_true, if_false]; rw [e3]
                rw [e1] at e4
                cases e4
                simpa using HReach3.other hr hu
            have := ih hr1 (fun j hj => hi j (by simp [hj])) e2
            cases mod <;> simpa using this

/-- **C41** is about what `cluster_iter` yields: the hypotheses of the theorems about the criteria hold of
every yielded clustering, and the value is the one of the criterion. -/
theorem C41_yielded {h : Heap (Stats A V)} {hist insts : List (Inst A V)} (hr : CobwebHeap hid h hist)
    {heur : Heap (Stats A V) → Heuristic (Stats A V) (WithTop ℝ)} {mod labels : Bool} {minsplit maxsplit : ℤ}
    (h3 : insts ≠ []) (hi : ∀ i ∈ insts, Dict.Nodup i) {r : List (Yield (Stats A V) (WithTop ℝ)) × Option PyErr}
    (hI : IterOk id (fitC hid mod) heur labels minsplit maxsplit insts h r)
    {y : Yield (Stats A V) (WithTop ℝ)} (hy : y ∈ r.1) :
    ∃ h0 leaves, CobwebHeap hid h0 (hist ++ if mod then insts else []) ∧ SplitFrom h0 y.store ∧ leaves ≠ [] ∧
      ClusteringOf y.store leaves y.clusters ∧ (heur h0 y.clusters leaves y.store).1 = .ok y.value := by
  obtain ⟨leaves, s', hf, hlen, hall, -, -⟩ := hI.run (List.ne_nil_of_mem hy)
  obtain ⟨h1, h2⟩ := hall y hy
  refine ⟨s', leaves, fitAll_heap hr hi hf, h2, ?_, ⟨?_, ?_⟩, h1.value⟩
  · rintro rfl; exact h3 (List.length_eq_zero_iff.1 hlen.symm)
  · intro c hc
    obtain ⟨n, hn, rfl⟩ := List.getElem_of_mem hc
    have := h1.clusters.get (i := n) (by rw [h1.clusters.length_eq]; exact hn) hn
    simp only [List.get_eq_getElem] at this
    obtain ⟨-, r, er, h | ⟨h, -⟩⟩ := this
    · exact ⟨1, .step (.refl _) er h⟩
    · exact ⟨0, h ▸ .refl _⟩
  · exact h1.clusters.imp fun _ _ h => h.1

theorem C41_yielded_cobweb3 {h : Heap (Stats3 A V)} {sc : Scales B} {hist insts : List (Inst3 A V)}
    (hr : HReach3 hid cfg h sc hist)
    {heur : Heap (Stats3 A V) × Scales B → Heuristic (Stats3 A V) (WithTop ℝ)} {mod labels : Bool}
    {minsplit maxsplit : ℤ} (h3 : insts ≠ []) (hi : ∀ i ∈ insts, Dict.Nodup i)
    {r : List (Yield (Stats3 A V) (WithTop ℝ)) × Option PyErr}
    (hI : IterOk Prod.fst (fitC3 hid cfg mod) heur labels minsplit maxsplit insts (h, sc) r)
    {y : Yield (Stats3 A V) (WithTop ℝ)} (hy : y ∈ r.1) :
    ∃ h0 sc0 leaves, HReach3 hid cfg h0 sc0 (hist ++ if mod then insts else []) ∧ SplitFrom h0 y.store ∧
      leaves ≠ [] ∧ ClusteringOf y.store leaves y.clusters ∧
      (heur (h0, sc0) y.clusters leaves y.store).1 = .ok y.value := by
  obtain ⟨leaves, s', hf, hlen, hall, -, -⟩ := hI.run (List.ne_nil_of_mem hy)
  obtain ⟨h1, h2⟩ := hall y hy
  refine ⟨s'.1, s'.2, leaves, fitAll_heap3 (s := (h, sc)) hr hi hf, h2, ?_, ⟨?_, ?_⟩, h1.value⟩
  · rintro rfl; exact h3 (List.length_eq_zero_iff.1 hlen.symm)
  · intro c hc
    obtain ⟨n, hn, rfl⟩ := List.getElem_of_mem hc
    have := h1.clusters.get (i := n) (by rw [h1.clusters.length_eq]; exact hn) hn
    simp only [List.get_eq_getElem] at this
    obtain ⟨-, r, er, h | ⟨h, -⟩⟩ := this
    · exact ⟨1, .step (.refl _) er h⟩
    · exact ⟨0, h ▸ .refl _⟩
  · exact h1.clusters.imp fun _ _ h => h.1

end

/-- The store of an empty tree. -/
def Demo.h0 : Heap (Stats ℕ ℕ) :=
  (clearH (cobwebClass Demo.hid) ⟨fun _ => none, 0, 0, ⟨fun k => (k : ℚ), 0, 0⟩⟩).2

theorem Demo.h0_heap : CobwebHeap Demo.hid Demo.h0 [] :=
  .init (h := ⟨fun _ => none, 0, 0, ⟨fun k => (k : ℚ), 0, 0⟩⟩) rfl

theorem Demo.h0_rnd : Function.Injective Demo.h0.w.rnd := by
  intro a b h
  have : (a : ℚ) = (b : ℚ) := h
  exact_mod_cast this

/-- The leaves of the demonstration instances, and the children of the root after fitting them. -/
def Demo.fitted : Option (List ℕ) × ℕ × Option (List ℕ) :=
  let r := fitAll (fitC Demo.hid true) Demo.insts Demo.h0
  (match r.1 with | .ok l => some l | .error _ => none, r.2.root, (r.2.objs 1).map Rec.children)

theorem Demo.fitted_eq : Demo.fitted = (some [0, 2, 10, 0, 39], 1, some [23, 38]) := by decide +kernel

theorem Demo.fit_run : ∃ h, fitAll (fitC Demo.hid true) Demo.insts Demo.h0 = (.ok [0, 2, 10, 0, 39], h) ∧
    h.root = 1 ∧ ∃ r, h.objs 1 = some r ∧ r.children = [23, 38] := by
  have h := Demo.fitted_eq
  unfold Demo.fitted at h
  generalize fitAll (fitC Demo.hid true) Demo.insts Demo.h0 = r at h
  obtain ⟨r, h'⟩ := r
  cases r with
  | error x => simp at h
  | ok l =>
    simp only [Prod.mk.injEq, Option.some.injEq, Option.map_eq_some_iff] at h
    obtain ⟨rfl, h2, r, h3, h4⟩ := h
    exact ⟨h', rfl, h2, r, h3, h4⟩

theorem setOrder_dedup : SetOrder (List.dedup : List ℕ → List ℕ) :=
  ⟨List.nodup_dedup, fun _ _ => List.mem_dedup⟩

theorem Below.childless {S : Type} {h : Heap S} {c d a : ℕ} {r : Rec S} (hb : Below h c d a)
    (e : h.objs c = some r) (hr : r.children = []) : a = c := by
  induction hb with
  | refl => rfl
  | step _ er hm ih =>
    subst ih
    rw [e] at er
    cases er
    rw [hr] at hm
    cases hm

theorem Demo.cu_resolved (ord : List ℕ → List ℕ) (isKey : ℕ → Bool) : ∃ heur,
    heurC (σ := Heap (Stats ℕ ℕ)) id Demo.hid isKey ord (.str "CU") = .ok heur :=
  ⟨fun _ => toTop (cuC Demo.hid ord), by simp [heurC, resolveHeur]⟩

/-- With `minsplit=1` and any heuristic that does not raise, two clusterings of the demonstration instances
are yielded. -/
theorem Demo.two_yields {ord : List ℕ → List ℕ} (ho : SetOrder ord) {isKey : ℕ → Bool} {name : String}
    {heur : Heap (Stats ℕ ℕ) → Heuristic (Stats ℕ ℕ) (WithTop ℝ)} {up : String → String}
    (e : heurC up Demo.hid isKey ord (.str name) = .ok heur) (labels : Bool) :
    (clusterIter ord id (fitC Demo.hid true) (heurC up Demo.hid isKey ord (.str name)) labels 1 2 Demo.insts
      Demo.h0).1.length = 2 := by
  have h1 := C35_yields Demo.h0_heap ho (arg := .str name) trivial e true labels (le_refl 1)
    (show (1 : ℤ) ≤ 2 by norm_num) (show Demo.insts ≠ [] by decide) fun i hi => (Demo.insts_ok i hi).1
  have h2 := C35_never_raises Demo.h0_heap ho e (mod := true) labels (le_refl 1)
    (show (1 : ℤ) ≤ 2 by norm_num) (show Demo.insts ≠ [] by decide) (by simp) Demo.insts_ok (.inl rfl)
    Demo.h0_rnd
  rcases h1.stop rfl h2 with h3 | ⟨y, hy, hfin⟩
  · exact_mod_cast h3
  · generalize clusterIter ord id (fitC Demo.hid true) (heurC up Demo.hid isKey ord (.str name)) labels 1 2
      Demo.insts Demo.h0 = r at h1 hy
    obtain ⟨leaves, s', hf, hlen, hall, hhead, -⟩ := h1.run (by rintro h0; rw [h0] at hy; simp at hy)
    have hle := h1.length
    obtain ⟨ys, x⟩ := r
    dsimp only at hy hall hhead hle ⊢
    match ys with
    | [] => simp at hy
    | y0 :: y1 :: ys => simp at hle ⊢; omega
    | [y0] =>
      exfalso
      simp only [List.getLast?_singleton, Option.some.injEq] at hy
      subst hy
      obtain ⟨h', hrun, hroot, r, hr, hrc⟩ := Demo.fit_run
      rw [hf] at hrun
      cases hrun
      have hst : y0.store = s' := hhead y0 rfl
      have hcl := (hall y0 (by simp)).1.clusters
      rw [hst] at hcl
      generalize hcs : y0.clusters = cs at hcl
      cases hcl with
      | @cons _ c _ cs h0 _ =>
        obtain ⟨⟨d, hd⟩, r', hr', hc⟩ := h0
        rw [hroot, hr] at hr'
        cases hr'
        obtain ⟨rc, hrc1, hrc2⟩ := hfin c (by rw [hcs]; simp)
        rw [hst] at hrc1
        have hc0 : 0 = c := hd.childless hrc1 hrc2
        subst hc0
        rw [hrc] at hc
        simp [hroot] at hc

/-- **C37** is false for every built-in heuristic: with `minsplit=1` two clusterings are yielded, with
`minsplit=2` none, and not the second. -/
theorem C37_docstring_false {ord : List ℕ → List ℕ} (ho : SetOrder ord) {isKey : ℕ → Bool} {name : String}
    {heur : Heap (Stats ℕ ℕ) → Heuristic (Stats ℕ ℕ) (WithTop ℝ)} {up : String → String}
    (e : heurC up Demo.hid isKey ord (.str name) = .ok heur) (labels : Bool) :
    ∃ h insts, CobwebHeap Demo.hid h [] ∧
      (clusterIter ord id (fitC Demo.hid true) (heurC up Demo.hid isKey ord (.str name)) labels 2 2 insts h).1 ≠
        (clusterIter ord id (fitC Demo.hid true) (heurC up Demo.hid isKey ord (.str name)) labels 1 2 insts
          h).1.drop 1 := by
  refine ⟨Demo.h0, Demo.insts, Demo.h0_heap, fun h => ?_⟩
  have h1 := Demo.two_yields ho e labels
  have h2 := congrArg List.length h
  rw [List.length_drop, h1, e] at h2
  rw [C37_nothing_is_yielded ho _ labels (show (1 : ℤ) < 2 by norm_num)] at h2
  simp at h2

/-! ### Examples -/

/-- C36 and C69 apply: two successive clusterings are yielded. -/
example : ∃ (heur : Heap (Stats ℕ ℕ) → Heuristic (Stats ℕ ℕ) (WithTop ℝ)) (r : _) (y y' : Yield _ _), IterOk id (fitC Demo.hid true) heur true 1 2 Demo.insts Demo.h0 r ∧
    r.1[0]? = some y ∧ r.1[1]? = some y' := by
  obtain ⟨heur, e⟩ := Demo.cu_resolved List.dedup fun _ => false
  have h1 := C35_yields Demo.h0_heap setOrder_dedup (arg := .str "CU") trivial e true true (le_refl 1)
    (show (1 : ℤ) ≤ 2 by norm_num) (show Demo.insts ≠ [] by decide) fun i hi => (Demo.insts_ok i hi).1
  have h2 := Demo.two_yields setOrder_dedup e true
  exact ⟨heur, _, _, _, h1, List.getElem?_eq_getElem (by omega), List.getElem?_eq_getElem (by omega)⟩

/-- C38: `k_cluster` raises `TypeError` on the demonstration instances. -/
example : kCluster List.dedup id (fitC Demo.hid true) (fun _ => toTop (cuC Demo.hid List.dedup)) 2 Demo.insts
    Demo.h0 = .error .typeErr :=
  C38_k_cluster_type_error Demo.h0_heap setOrder_dedup (le_refl 2) (by decide) (by simp) Demo.insts_ok
    (.inl rfl) Demo.h0_rnd

/-- C40 applies to the demonstration instances. -/
example : ∃ leaves rows h', fitAll (fitC Demo.hid true) Demo.insts Demo.h0 = (.ok leaves, h') ∧
    depthLabels id (fitC Demo.hid true) Demo.insts Demo.h0 = (.ok rows, h') ∧ TableOk h' 5 leaves rows :=
  C40_never_raises Demo.h0_heap true (by decide) (by simp) Demo.insts_ok Demo.h0_rnd

/-- The hypotheses of the theorems of C41 are met by the second clustering of the demonstration
instances. -/
example : ∃ h0 h leaves cl, CobwebHeap Demo.hid h0 Demo.insts ∧ SplitFrom h0 h ∧ leaves ≠ [] ∧
    ClusteringOf h leaves cl ∧ ∃ M, Known Summarizes h M (leaves ++ cl) := by
  obtain ⟨heur, e⟩ := Demo.cu_resolved List.dedup fun _ => false
  have h1 := C35_yields Demo.h0_heap setOrder_dedup (arg := .str "CU") trivial e true true (le_refl 1)
    (show (1 : ℤ) ≤ 2 by norm_num) (show Demo.insts ≠ [] by decide) fun i hi => (Demo.insts_ok i hi).1
  have h2 := Demo.two_yields setOrder_dedup e true
  obtain ⟨h0, leaves, h3, h4, h5, h6, -⟩ := C41_yielded Demo.h0_heap (by decide)
    (fun i hi => (Demo.insts_ok i hi).1) h1 (List.getElem_mem (n := 1) (by omega))
  exact ⟨h0, _, leaves, _, h3, h4, h5, h6, C41_tables h3 (by decide) h4 h6⟩

end CF
