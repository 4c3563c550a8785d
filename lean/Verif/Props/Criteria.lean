/-
The clustering criteria, property C41, and C70.

The criteria are evaluated on the stores that `cluster_iter` produces: a reachable tree in which children of
the root may have been split (`SplitFrom`).
-/
import Verif.Proofs.ClusterValue
import Verif.Proofs.DepthLabels

set_option linter.unusedSectionVars false

namespace CF
variable {A B V : Type} [DecidableEq A] [DecidableEq B] [DecidableEq V] {hid : A → Bool} {cfg : Cfg3 A B}
variable {ord : List ℕ → List ℕ} {leaves cl : List ℕ}

section
variable {h0 h : Heap (Stats A V)} {hist : List (Inst A V)} {M : ℕ → Multiset (Inst A V)}

theorem cluster_good (hr : CobwebHeap hid h0 hist) (hne : hist ≠ []) (hs : SplitFrom h0 h)
    {P : Inst A V → Prop} (hP : ∀ i ∈ hist, P i) :
    ∃ dt, Good h dt ∧ ∀ x ∈ dt.nodes, ∀ y ∈ x.nodes, QC P x.stats.2 y.stats.2 := by
  obtain ⟨dt, hR⟩ := rc_of_heap (b := true) hr hP (fun _ => hne)
  exact hs.good hR.1 hR.q

/-- The tables of every concept summarise some group of instances. -/
theorem C41_tables (hr : CobwebHeap hid h0 hist) (hne : hist ≠ []) (hs : SplitFrom h0 h)
    (hc : ClusteringOf h leaves cl) : ∃ M, Known Summarizes h M (leaves ++ cl) := by
  obtain ⟨dt, g, hQ⟩ := cluster_good hr hne hs (P := fun _ => True) fun _ _ => trivial
  obtain ⟨M, hM⟩ := g.choose (Sum := Summarizes) fun x hx => by
    obtain ⟨m, -, h1, -⟩ := hQ x hx x x.self_mem_nodes
    exact ⟨m, h1⟩
  refine ⟨M, fun a ha => ?_⟩
  have : ∃ x ∈ dt.nodes, x.addr = a := by
    obtain ⟨xs, cs, rfl, rfl, h1, h2, -⟩ := g.nodesOf hc.concept hc.above
    rw [← List.map_append] at ha
    obtain ⟨x, hx, rfl⟩ := List.mem_map.1 ha
    rcases List.mem_append.1 hx with hx | hx
    · exact ⟨x, h1 x hx, rfl⟩
    · exact ⟨x, h2 x hx, rfl⟩
  obtain ⟨x, hx, rfl⟩ := this
  obtain ⟨q, hq⟩ := g.obj hx
  exact ⟨_, hq, hM x hx⟩

/-- **C41**: `CU` is minus the category utility of the partition of the instances of the leaves into the
groups of the distinct clusters. -/
theorem C41_cu (hr : CobwebHeap hid h0 hist) (hne : hist ≠ []) (hv : ∀ i ∈ hist, HasVisible hid i)
    (hs : SplitFrom h0 h) (ho : SetOrder ord) (hl : leaves ≠ []) (hc : ClusteringOf h leaves cl)
    (hM : Known Summarizes h M leaves) :
    (cuC hid ord cl leaves h).1 = .ok (-utility (ecgSpec ℝ hid) (cl.dedup.map (group h M leaves))) := by
  obtain ⟨dt, g, hQ⟩ := cluster_good hr hne hs hv
  exact cuC_value ho g hQ hl hc.concept hc.above hM

/-- An empty clustering raises `IndexError`. -/
theorem C41_cu_empty : (cuC hid ord [] leaves h).1 = .error .indexErr := rfl

variable (M) in
/-- The sum of the log-likelihoods of the leaves under their clusters. -/
noncomputable def totalLL (hid : A → Bool) (leaves cl : List ℕ) : ℝ :=
  ((cl.zip leaves).map fun p => llSpec hid (M p.1) (M p.2)).sum

variable (M) in
/-- The parameters of the distinct clusters. -/
def totalParams (hid : A → Bool) (isKey : V → Bool) (cl : List ℕ) : ℕ :=
  ∑ c ∈ cl.toFinset, nParams hid isKey (M c)

/-- **C41**: `AIC` is `2k - 2 ln L`. -/
theorem C41_aic (hr : CobwebHeap hid h0 hist) (hne : hist ≠ []) (hs : SplitFrom h0 h) (ho : SetOrder ord)
    (isKey : V → Bool) (hc : ClusteringOf h leaves cl) (hM : Known Summarizes h M (leaves ++ cl)) :
    aicC hid isKey ord cl leaves h =
      (.ok (2 * (totalParams M hid isKey cl : ℝ) - 2 * totalLL M hid leaves cl), h) := by
  obtain ⟨dt, g, hQ⟩ := cluster_good hr hne hs (P := fun _ => True) fun _ _ => trivial
  obtain ⟨h1, h2, h3⟩ := llC_all (hid := hid) g hQ hc.concept hc.above hM
  exact aicHeur_value (L := fun c l => llSpec hid (M c) (M l)) ho h1 h2 (h3 isKey)

/-- **C41**: `BIC` is `k ln n - 2 ln L`. -/
theorem C41_bic (hr : CobwebHeap hid h0 hist) (hne : hist ≠ []) (hs : SplitFrom h0 h) (ho : SetOrder ord)
    (isKey : V → Bool) (hl : leaves ≠ []) (hc : ClusteringOf h leaves cl)
    (hM : Known Summarizes h M (leaves ++ cl)) :
    bicC hid isKey ord cl leaves h =
      (.ok ((totalParams M hid isKey cl : ℝ) * Real.log leaves.length - 2 * totalLL M hid leaves cl), h) := by
  obtain ⟨dt, g, hQ⟩ := cluster_good hr hne hs (P := fun _ => True) fun _ _ => trivial
  obtain ⟨h1, h2, h3⟩ := llC_all (hid := hid) g hQ hc.concept hc.above hM
  exact bicHeur_value (L := fun c l => llSpec hid (M c) (M l)) ho h1 h2 (h3 isKey) hl

/-- Without leaves `BIC` raises `ValueError` (`math.log(0)`). -/
theorem C41_bic_empty (isKey : V → Bool) (ho : SetOrder ord) :
    bicC hid isKey ord [] [] h = (.error .valueErr, h) := by
  unfold bicC bicHeur
  rw [HM.bind_ok' (show llSumH _ [] [] 0 h = (.ok 0, h) from rfl), ho.empty]
  rfl

/-- **C41**: `AICc` is `AIC + 2k(k+1)/(n-k-1)`, and infinite when `n - k ≤ 1`. -/
theorem C41_aicc (hr : CobwebHeap hid h0 hist) (hne : hist ≠ []) (hs : SplitFrom h0 h) (ho : SetOrder ord)
    (isKey : V → Bool) (hc : ClusteringOf h leaves cl) (hM : Known Summarizes h M (leaves ++ cl)) :
    aiccC hid isKey ord cl leaves h =
      (.ok (if leaves.length ≤ totalParams M hid isKey cl + 1 then ⊤ else
        ((2 * (totalParams M hid isKey cl : ℝ) - 2 * totalLL M hid leaves cl +
          2 * (totalParams M hid isKey cl : ℝ) * (totalParams M hid isKey cl + 1) /
            ((leaves.length : ℝ) - totalParams M hid isKey cl - 1) : ℝ) : WithTop ℝ)), h) := by
  obtain ⟨dt, g, hQ⟩ := cluster_good hr hne hs (P := fun _ => True) fun _ _ => trivial
  obtain ⟨h1, h2, h3⟩ := llC_all (hid := hid) g hQ hc.concept hc.above hM
  exact aiccHeur_value (L := fun c l => llSpec hid (M c) (M l)) ho h1 h2 (h3 isKey)

end

section
variable {h0 h : Heap (Stats3 A V)} {sc : Scales B} {hist : List (Inst3 A V)} {M : ℕ → Multiset (Inst3 A V)}

theorem cluster_good3 (hr : HReach3 hid cfg h0 sc hist) (hne : hist ≠ []) (hs : SplitFrom h0 h)
    {P : Inst3 A V → Prop} (hP : ∀ i ∈ hist, P i) :
    ∃ dt, Good h dt ∧ ∀ x ∈ dt.nodes, ∀ y ∈ x.nodes, QC3 P x.stats.2 y.stats.2 := by
  obtain ⟨dt, hR⟩ := rc3_of_heap (b := true) hr hP (fun _ => hne)
  exact hs.good hR.1 hR.q

theorem C41_tables_cobweb3 (hr : HReach3 hid cfg h0 sc hist) (hne : hist ≠ []) (hs : SplitFrom h0 h)
    (hc : ClusteringOf h leaves cl) : ∃ M, Known Summarizes3 h M (leaves ++ cl) := by
  obtain ⟨dt, g, hQ⟩ := cluster_good3 hr hne hs (P := fun _ => True) fun _ _ => trivial
  obtain ⟨M, hM⟩ := g.choose (Sum := Summarizes3) fun x hx => by
    obtain ⟨m, -, h1, -⟩ := hQ x hx x x.self_mem_nodes
    exact ⟨m, h1⟩
  refine ⟨M, fun a ha => ?_⟩
  have : ∃ x ∈ dt.nodes, x.addr = a := by
    obtain ⟨xs, cs, rfl, rfl, h1, h2, -⟩ := g.nodesOf hc.concept hc.above
    rw [← List.map_append] at ha
    obtain ⟨x, hx, rfl⟩ := List.mem_map.1 ha
    rcases List.mem_append.1 hx with hx | hx
    · exact ⟨x, h1 x hx, rfl⟩
    · exact ⟨x, h2 x hx, rfl⟩
  obtain ⟨x, hx, rfl⟩ := this
  obtain ⟨q, hq⟩ := g.obj hx
  exact ⟨_, hq, hM x hx⟩

/-- **C41** for Cobweb/3; the numbers are scaled by what the tree has seen of each attribute. -/
theorem C41_cu_cobweb3 (hr : HReach3 hid cfg h0 sc hist) (hne : hist ≠ []) (hv : ∀ i ∈ hist, HasVisible hid i)
    (hs : SplitFrom h0 h) (ho : SetOrder ord) (hl : leaves ≠ []) (hc : ClusteringOf h leaves cl)
    (hM : Known Summarizes3 h M leaves) :
    (cuC3 hid cfg ord sc cl leaves h).1 = .ok (-utility (ecgSpec3 hid cfg fun b => (scaleNums cfg.inner hist b : Multiset ℝ))
      (cl.dedup.map (group h M leaves))) := by
  obtain ⟨dt, g, hQ⟩ := cluster_good3 hr hne hs hv
  obtain ⟨dt0, n, hr', -⟩ := heap_rep3 hr
  exact cuC3_value ho g (reach3_scales hr') hQ hl hc.concept hc.above hM

variable (M) in
noncomputable def totalLL3 (hid : A → Bool) (leaves cl : List ℕ) : ℝ :=
  ((cl.zip leaves).map fun p => llSpec3 hid (M p.1) (M p.2)).sum

variable (M) in
noncomputable def totalParams3 (hid : A → Bool) (cl : List ℕ) : ℕ :=
  ∑ c ∈ cl.toFinset, nParams3 hid (M c)

theorem C41_aic_cobweb3 (hr : HReach3 hid cfg h0 sc hist) (hne : hist ≠ []) (hs : SplitFrom h0 h)
    (ho : SetOrder ord) (hc : ClusteringOf h leaves cl) (hM : Known Summarizes3 h M (leaves ++ cl)) :
    aicC3 hid cfg ord sc cl leaves h =
      (.ok (2 * (totalParams3 M hid cl : ℝ) - 2 * totalLL3 M hid leaves cl), h) := by
  obtain ⟨dt, g, hQ⟩ := cluster_good3 hr hne hs (P := fun _ => True) fun _ _ => trivial
  obtain ⟨h1, h2, h3⟩ := llC3_all (hid := hid) (cfg := cfg) (sc := sc) g hQ hc.concept hc.above hM
  exact aicHeur_value (L := fun c l => llSpec3 hid (M c) (M l)) ho h1 h2 h3

theorem C41_bic_cobweb3 (hr : HReach3 hid cfg h0 sc hist) (hne : hist ≠ []) (hs : SplitFrom h0 h)
    (ho : SetOrder ord) (hl : leaves ≠ []) (hc : ClusteringOf h leaves cl)
    (hM : Known Summarizes3 h M (leaves ++ cl)) :
    bicC3 hid cfg ord sc cl leaves h =
      (.ok ((totalParams3 M hid cl : ℝ) * Real.log leaves.length - 2 * totalLL3 M hid leaves cl), h) := by
  obtain ⟨dt, g, hQ⟩ := cluster_good3 hr hne hs (P := fun _ => True) fun _ _ => trivial
  obtain ⟨h1, h2, h3⟩ := llC3_all (hid := hid) (cfg := cfg) (sc := sc) g hQ hc.concept hc.above hM
  exact bicHeur_value (L := fun c l => llSpec3 hid (M c) (M l)) ho h1 h2 h3 hl

theorem C41_aicc_cobweb3 (hr : HReach3 hid cfg h0 sc hist) (hne : hist ≠ []) (hs : SplitFrom h0 h)
    (ho : SetOrder ord) (hc : ClusteringOf h leaves cl) (hM : Known Summarizes3 h M (leaves ++ cl)) :
    aiccC3 hid cfg ord sc cl leaves h =
      (.ok (if leaves.length ≤ totalParams3 M hid cl + 1 then ⊤ else
        ((2 * (totalParams3 M hid cl : ℝ) - 2 * totalLL3 M hid leaves cl +
          2 * (totalParams3 M hid cl : ℝ) * (totalParams3 M hid cl + 1) /
            ((leaves.length : ℝ) - totalParams3 M hid cl - 1) : ℝ) : WithTop ℝ)), h) := by
  obtain ⟨dt, g, hQ⟩ := cluster_good3 hr hne hs (P := fun _ => True) fun _ _ => trivial
  obtain ⟨h1, h2, h3⟩ := llC3_all (hid := hid) (cfg := cfg) (sc := sc) g hQ hc.concept hc.above hM
  exact aiccHeur_value (L := fun c l => llSpec3 hid (M c) (M l)) ho h1 h2 h3

end

/-! ### C70: a concept that `ifit` returned stays a leaf -/

theorem leaf_stays {S : Type} {h h' : Heap S} {dt dt' : Tree (ℕ × S)} (g : Good h dt) (g' : Good h' dt')
    (hst : dt.LeavesStay dt') {a : ℕ} (ha : LeafOf h a) : LeafOf h' a ∧ nameOf h' a = nameOf h a := by
  obtain ⟨⟨d, hd⟩, r, er, hr⟩ := ha
  obtain ⟨x, hx, rfl⟩ := g.node hd
  obtain ⟨q, hq⟩ := g.obj hx
  rw [hq] at er
  cases er
  obtain ⟨y, hy, e1, e2, e3⟩ := hst x hx (by simpa using hr)
  obtain ⟨q', hq'⟩ := g'.obj hy
  rw [e1, e2, e3] at hq'
  refine ⟨⟨e1 ▸ g'.below hy, _, hq', rfl⟩, ?_⟩
  rw [nameOf_obj hq', nameOf_obj hq]

/-- **C70**: fitting another instance leaves every leaf of the tree a leaf, with its name; the concept that
`ifit` returns is one. -/
theorem C70_leaf_stays {h h' : Heap (Stats A V)} {hist : List (Inst A V)} {i : Inst A V} {b : ℕ}
    (hr : CobwebHeap hid h hist) (hi : Dict.Nodup i)
    (e : cobwebH (cobwebClass hid) (fun _ => Stats.ecg (K := ℚ) hid) i h = (.ok b, h')) :
    LeafOf h' b ∧ ∀ a, LeafOf h a → LeafOf h' a ∧ nameOf h' a = nameOf h a := by
  obtain ⟨dt, hR⟩ := rc_of_heap (P := fun _ => True) (b := false) hr (fun _ _ => trivial) (by simp)
  obtain ⟨dt', hR', hst, x, hx, rfl, hxc⟩ := hR.fit hi trivial e
  obtain ⟨q, hq⟩ := hR'.1.obj hx
  exact ⟨⟨hR'.1.below hx, _, hq, by simp [hxc]⟩, fun a ha => leaf_stays hR.1 hR'.1 hst ha⟩

/-- **C70** for Cobweb/3. -/
theorem C70_leaf_stays_cobweb3 {h h' : Heap (Stats3 A V)} {sc sc' : Scales B} {hist : List (Inst3 A V)}
    {i : Inst3 A V} {b : ℕ} (hr : HReach3 hid cfg h sc hist) (hi : Dict.Nodup i)
    (e : cobweb3H hid cfg i (h, sc) = (.ok b, h', sc')) :
    LeafOf h' b ∧ ∀ a, LeafOf h a → LeafOf h' a ∧ nameOf h' a = nameOf h a := by
  obtain ⟨dt, hR⟩ := rc3_of_heap (P := fun _ => True) (b := false) hr (fun _ _ => trivial) (by simp)
  obtain ⟨dt', hR', hst, x, hx, rfl, hxc⟩ := hR.fit hi trivial e
  obtain ⟨q, hq⟩ := hR'.1.obj hx
  exact ⟨⟨hR'.1.below hx, _, hq, by simp [hxc]⟩, fun a ha => leaf_stays hR.1 hR'.1 hst ha⟩

end CF
