/-
Properties C01-C06, C08, C09 of `CobwebTree`.
-/
import Verif.Proofs.Reach
import Verif.Proofs.Nominal
import Verif.Props.Demo
import Mathlib.Data.Rat.Defs

set_option linter.unusedSectionVars false

namespace CF
variable {A V : Type} [DecidableEq A] [DecidableEq V] {hid : A → Bool}
variable {t : Tree (Stats A V)} {hist : List (Inst A V)} {n : ℕ}

/-! ### The demonstration history is reachable -/

theorem demo_reach : ∃ n, CobwebReach Demo.hid Demo.demoTree Demo.insts n := by
  have hrun : ∃ p, Demo.run Demo.insts = .ok p := by
    have : (Demo.run Demo.insts).isOk = true := by decide +kernel
    cases h : Demo.run Demo.insts with
    | ok p => exact ⟨p, rfl⟩
    | error e => rw [h] at this; cases this
  obtain ⟨⟨t, w⟩, h⟩ := hrun
  obtain ⟨n, -, hr⟩ := reach_fitList (Ok := Dict.Nodup) (E := (· = Stats.ecg (K := ℚ) Demo.hid)) rfl (by decide)
    (Reach.init Demo.w0) (le_refl _) h
  refine ⟨n, ?_⟩
  have : Demo.demoTree = t := by simp [Demo.demoTree, Demo.treeOf, h]
  rw [this]; simpa using hr

/-- The demonstration tree is a non-trivial one: seven nodes, two of them internal below the root. -/
example : Demo.demoTree.numConcepts = 7 ∧ Demo.demoTree.leaves.length = 4 := by
  decide +kernel

/-! ### C01 -/

theorem map_eq_of_forall₂ {α β γ : Type} {R : α → β → Prop} {f : α → γ} {g : β → γ}
    (h : ∀ a b, R a b → f a = g b) {l : List α} {l' : List β} (hl : List.Forall₂ R l l') :
    l.map f = l'.map g := by
  induction hl with
  | nil => rfl
  | cons hab _ ih => simp [ih, h _ _ hab]

theorem sum_occ (ms : List (Multiset (Inst A V))) (a : A) (v : V) :
    occ ms.sum a v = (ms.map fun m => occ m a v).sum := by
  induction ms with
  | nil => simp [occ]
  | cons m ms ih =>
    rw [List.sum_cons, List.map_cons, List.sum_cons, ← ih]
    simp [occ]

theorem Summarizes.getD {s : Stats A V} {m : Multiset (Inst A V)} (h : Summarizes s m) (a : A)
    (v : V) : (s.lookup a v).getD 0 = occ m a v := by
  rw [h.lookup]; split <;> simp_all

/-- **C01**: the count and every attribute-value count of an internal concept are the sums of its
children's. -/
theorem C01_counts_conserved (h : CobwebReach hid t hist n) :
    ∀ x ∈ t.nodes, x.children ≠ [] →
      x.stats.count = (x.children.map fun c => c.stats.count).sum ∧
      ∀ a v, (x.stats.lookup a v).getD 0 =
        (x.children.map fun c => (c.stats.lookup a v).getD 0).sum := by
  intro x hx hne
  obtain ⟨m, hm, -⟩ := (reach_holds (cobwebLaws hid) h).of_mem_nodes hx
  have hs := hm.sum (cobwebLaws hid)
  obtain ⟨ms, hf, rfl⟩ := hm.children hne
  have e1 : x.children.map (fun c => c.stats.count) = ms.map Multiset.card := by
    exact map_eq_of_forall₂ (fun c m hc => hc.sum.count) hf
  refine ⟨?_, fun a v => ?_⟩
  · rw [e1, hs.count]
    clear e1 hf hs hm
    induction ms with
    | nil => rfl
    | cons m ms ih => simp [ih]
  · rw [hs.getD, sum_occ]
    congr 1
    exact (map_eq_of_forall₂ (fun c m hc => hc.sum.getD a v) hf).symm

/-- The hypothesis is satisfiable with an internal node whose children are themselves internal. -/
example : ∃ x ∈ Demo.demoTree.nodes, x.children ≠ [] ∧ ∀ c ∈ x.children, c.children ≠ [] :=
  ⟨Demo.demoTree, Tree.self_mem_nodes _, by
    have h : (Demo.demoTree.children.isEmpty = false) ∧
        (Demo.demoTree.children.all fun c => !c.children.isEmpty) = true := by decide +kernel
    refine ⟨fun h0 => by rw [h0] at h; simp at h, fun c hc h0 => ?_⟩
    have := List.all_eq_true.1 h.2 c hc
    rw [h0] at this; simp at this⟩

/-! ### C02 -/

/-- **C02**: the root's table is exactly the summary of the fitted instances, whatever the order of
the calls (the right-hand side is a multiset) and the random choices (the world is quantified in
`CobwebReach`). -/
theorem C02_root_summarises_history (h : CobwebReach hid t hist n) :
    Summarizes t.stats (hist : Multiset (Inst A V)) :=
  (reach_holds (cobwebLaws hid) h).sum (cobwebLaws hid)

/-- C02 for two histories that are permutations of each other: equal root tables. -/
theorem C02_order_independent {t' : Tree (Stats A V)} {hist' : List (Inst A V)} {n' : ℕ}
    (h : CobwebReach hid t hist n) (h' : CobwebReach hid t' hist' n') (hp : hist.Perm hist') :
    t.stats.count = t'.stats.count ∧ ∀ a v, t.stats.lookup a v = t'.stats.lookup a v := by
  have h1 := C02_root_summarises_history h
  have h2 := C02_root_summarises_history h'
  rw [← Multiset.coe_eq_coe.2 hp] at h2
  exact ⟨h1.count.trans h2.count.symm, fun a v => (h1.lookup a v).trans (h2.lookup a v).symm⟩

/-- Concretely: the root of the demonstration tree recorded `2 = 3` twice and never `2 = 9`. -/
example : Demo.demoTree.stats.count = 5 ∧ Demo.demoTree.stats.lookup 2 3 = some 2 ∧
    Demo.demoTree.stats.lookup 2 9 = none := by decide +kernel

/-! ### C03 -/

/-- **C03**: the fitted instances are distributed over the leaves: group `g` of a leaf is what its
table summarises, groups are non-empty, members of a group agree on all visible attributes, and the
groups together are exactly the history.  (On the empty tree there is nothing to distribute.) -/
theorem C03_leaves_partition (h : CobwebReach hid t hist n) (hne : hist ≠ []) :
    ∃ groups : List (Multiset (Inst A V)), groups.sum = (hist : Multiset (Inst A V)) ∧
      List.Forall₂ (fun leaf g => Summarizes leaf.stats g ∧ g ≠ 0 ∧
        ∀ i ∈ g, ∀ j ∈ g, ∀ a, hid a = false → Dict.get? i a = Dict.get? j a) t.leaves groups := by
  rcases reach_holds (cobwebLaws hid) h with ⟨h0, -⟩ | h
  · simp at h0; exact absurd h0 hne
  · exact h.leaves

example : ∃ n, CobwebReach Demo.hid Demo.demoTree Demo.insts n ∧ Demo.insts ≠ [] := by
  obtain ⟨n, h⟩ := demo_reach
  exact ⟨n, h, by decide⟩

/-! ### C04 -/

theorem exact_of_summarizes_cons {s : Stats A V} {m : Multiset (Inst A V)} {i : Inst A V}
    (h : Summarizes s (i ::ₘ m)) (hi : Dict.Nodup i) (hs : ∀ j ∈ m, SameVisible hid i j) :
    s.isExact hid i = true := by
  refine (summarizes_exact h (by simp) hi).2 ?_
  intro j hj
  rcases Multiset.mem_cons.1 hj with rfl | hj
  · exact (cobwebLaws (V := V) hid).refl _
  · exact hs j hj

/-- **C04**: the concept returned by `ifit` is a leaf of the resulting tree (the only node with its
id), exactly matches the instance and gives probability 1 to each of its visible values. -/
theorem C04_ifit_returns_matching_leaf (h : CobwebReach hid t hist n) {i : Inst A V}
    (hi : Dict.Nodup i) {w : World} (hw : n ≤ w.ctr) {o : Out (Stats A V)}
    (ho : ifit hid t i w = .ok o) :
    ∃ leaf ∈ o.tree.leaves, leaf.id = o.leaf ∧ leaf.children = [] ∧
      (∀ x ∈ o.tree.nodes, x.id = o.leaf → x = leaf) ∧
      leaf.stats.isExact hid i = true ∧
      ∀ a v, hid a = false → Dict.get? i a = some v →
        leaf.stats.probability (K := ℚ) a (some v) = .ok 1 := by
  have hh := reach_holds (cobwebLaws hid) h
  have hreach : CobwebReach hid o.tree (hist ++ [i]) o.w.ctr := .step h rfl hi hw ho
  have hids := (reach_ids hreach).1
  obtain ⟨s, hs, hcase⟩ := (loopRel_of_cobweb ho).leaf
  have key : ∃ m, Summarizes s (i ::ₘ m) ∧ ∀ j ∈ m, SameVisible hid i j := by
    rcases hcase with rfl | ⟨s0, h0, rfl, hx⟩
    · exact ⟨0, summarizes_incr summarizes_fresh hi, by simp⟩
    · obtain ⟨m, hm, -⟩ := hh.of_mem_nodes (Tree.leaves_subset_nodes _ _ h0)
      have hsum := hm.sum (cobwebLaws hid)
      refine ⟨m, summarizes_incr hsum hi, ?_⟩
      by_cases hm0 : m = 0
      · subst hm0; simp
      · rcases hx with hx | hx
        · exact (summarizes_exact hsum hm0 hi).1 hx
        · exact absurd (Multiset.card_eq_zero.1 (hsum.count.symm.trans hx)) hm0
  obtain ⟨m, hsum, hsame⟩ := key
  have hex := exact_of_summarizes_cons hsum hi hsame
  refine ⟨_, hs, rfl, rfl, ?_, hex, ?_⟩
  · intro x hx hxid
    have h2 := Tree.leaves_subset_nodes _ _ hs
    exact List.inj_on_of_nodup_map hids hx h2 hxid
  · intro a v ha hv
    have hocc : occ (i ::ₘ m) a v = Multiset.card (i ::ₘ m) := by
      apply Multiset.countP_eq_card.2
      intro j hj
      rcases Multiset.mem_cons.1 hj with rfl | hj
      · exact hv
      · rw [← hsame j hj a ha]; exact hv
    have hl : s.lookup a v = some s.count := by
      rw [hsum.lookup, hocc, hsum.count]; simp
    have hc : (s.count : ℚ) ≠ 0 := by
      rw [hsum.count]; simp only [Multiset.card_cons]; exact_mod_cast Nat.succ_ne_zero m.card
    simp [Stats.probability, hl, pyDiv, hc]

/-- A further `ifit` on the demonstration tree succeeds. -/
example : (ifit Demo.hid Demo.demoTree [(1, 3), (2, 1)] ⟨Demo.w0.rnd, 100, 100⟩).isOk = true := by
  decide +kernel

/-! ### C05 -/

/-- **C05**: every concept has no children or at least two. -/
theorem C05_at_least_two_children (h : CobwebReach hid t hist n) :
    ∀ x ∈ t.nodes, x.children = [] ∨ 2 ≤ x.children.length := by
  intro x hx
  obtain ⟨m, hm, -⟩ := (reach_holds (cobwebLaws hid) h).of_mem_nodes hx
  exact hm.two_children

/-! ### C06 -/

theorem fueled_sqLoop (n : ℕ) (cs : List ℕ) (acc : ℚ) : Fueled (sqLoop n cs acc) := by
  induction cs generalizing acc with
  | nil => exact fueled_ok _
  | cons c cs ih => exact (fueled_pyDiv _ _).bind fun _ _ => ih _

theorem fueled_ecg (s : Stats A V) : Fueled (Stats.ecg (K := ℚ) hid s) := by
  have : ∀ (ts : List (Dict V ℕ)) (acc : ℚ), Fueled (ecgLoop s.count ts acc) := by
    intro ts
    induction ts with
    | nil => intro acc; exact fueled_ok _
    | cons t ts ih => intro acc; exact (fueled_sqLoop _ _ _).bind fun _ _ => ih _
  exact (this _ _).bind fun _ _ => fueled_pyDiv _ _

/-- **C06** for `ifit`: on *any* tree the loop ends within `num_concepts` iterations, and allowing
more iterations does not change the result. -/
theorem C06_ifit_terminates (t : Tree (Stats A V)) (i : Inst A V) (w : World) (k : ℕ) :
    cobwebLoop (cobwebClass hid) (Stats.ecg (K := ℚ) hid) i (t.numConcepts + k) t w =
      cobweb (cobwebClass hid) (Stats.ecg (K := ℚ) hid) t i w ∧
    cobweb (cobwebClass hid) (Stats.ecg (K := ℚ) hid) t i w ≠ .error .outOfFuel := by
  have h := fueled_cobwebLoop (C := cobwebClass hid) (inst := i)
    (fueled_ecg (hid := hid)) t.numConcepts t w le_rfl
  exact ⟨cobwebLoop_mono _ _ _ h k, h⟩

/-- **C06** for `categorize`. -/
theorem C06_categorize_terminates (t : Tree (Stats A V)) (i : Inst A V) (w : World) :
    categorize (cobwebClass hid) (Stats.ecg (K := ℚ) hid) t i w ≠ .error .outOfFuel :=
  fueled_categorizeLoop (fueled_ecg (hid := hid)) _ _ _ le_rfl

/-! ### C08 -/

/-- **C08**: no two nodes of a reachable tree share a concept id, and an `ifit` call only introduces
ids that were never issued before. -/
theorem C08_ids_unique (h : CobwebReach hid t hist n) :
    t.ids.Nodup ∧ (∀ x ∈ t.ids, x ≤ n) ∧
    ∀ {i : Inst A V} {w : World} {o : Out (Stats A V)}, n ≤ w.ctr → ifit hid t i w = .ok o →
      n ≤ o.w.ctr ∧ ∀ x ∈ o.tree.ids, x ∈ t.ids ∨ (n < x ∧ x ≤ o.w.ctr) := by
  have h1 := reach_ids h
  refine ⟨h1.1, h1.2, ?_⟩
  intro i w o hw ho
  obtain ⟨a, -, c⟩ := (loopRel_of_cobweb ho).ids h1.1 (fun x hx => (h1.2 x hx).trans hw)
  refine ⟨hw.trans a, fun x hx => ?_⟩
  rcases c x hx with hx | hx
  · exact Or.inl hx
  · exact Or.inr ⟨by omega, hx.2⟩

/-! ### C09 -/

/-- **C09**: `fit` adds every given instance exactly `iterations` times, whatever the shuffles do,
and the caller's list is what it was. -/
theorem C09_fit_exactly (h : CobwebReach hid t hist n) {sh : Shuffle (Inst A V)}
    (hsh : ∀ l w, (sh l w).1.Perm l) (hsc : ∀ l w, (sh l w).2.ctr = w.ctr)
    {instances : List (Inst A V)} (hok : ∀ i ∈ instances, Dict.Nodup i) {iterations : ℕ}
    {randomizeFirst : Bool} {w : World} (hw : n ≤ w.ctr)
    {t' : Tree (Stats A V)} {l' : List (Inst A V)} {w' : World}
    (hf : fit (cobwebClass hid) (Stats.ecg (K := ℚ) hid) sh instances iterations randomizeFirst t w
      = .ok (t', l', w')) :
    l' = instances ∧
    Summarizes t'.stats ((hist : Multiset (Inst A V)) + iterations • (instances : Multiset _)) ∧
    ∃ hist' n', CobwebReach hid t' (hist ++ hist') n' ∧ n' ≤ w'.ctr ∧
      (hist' : Multiset (Inst A V)) = iterations • (instances : Multiset _) := by
  simp only [fit, bind_ok, pure_ok] at hf
  obtain ⟨⟨t1, w1⟩, hf, he⟩ := hf
  simp only [Prod.mk.injEq] at he
  obtain ⟨rfl, rfl, rfl⟩ := he
  obtain ⟨n', hn', h', hr, hm⟩ := reach_fitIter (E := (· = Stats.ecg (K := ℚ) hid)) rfl hsh hsc hok
    h hw hf
  refine ⟨rfl, ?_, h', n', hr, hn', hm⟩
  have := C02_root_summarises_history hr
  rwa [← Multiset.coe_add, hm] at this

/-- `fit` with two iterations, reversing the list as the shuffle, succeeds on the demonstration
data. -/
example : (fit (cobwebClass Demo.hid) (Stats.ecg (K := ℚ) Demo.hid) (fun l w => (l.reverse, w))
    Demo.insts 2 true (emptyTree (cobwebClass Demo.hid) Demo.w0) (Demo.w0.bump 1)).isOk = true := by
  decide +kernel

end CF
