/-
C115: when a tree is a single concept, and the first instance that makes it grow.
-/
import Verif.Props.CobwebTree
import Verif.Props.Cobweb3
import Verif.Props.Trestle
import Verif.Props.Size

namespace CF

section
variable {I S K : Type} [Field K] [LinearOrder K] {C : NodeClass I S} {Ok : I → Prop} {Sum : S → Multiset I → Prop}
  {Same : I → I → Prop} {E : (S → Res K) → Prop}

theorem numConcepts_one {t : Tree S} : t.numConcepts = 1 ↔ t.children = [] := by
  obtain ⟨id, s, cs⟩ := t
  cases cs with
  | nil => simp [Tree.numConcepts, Tree.numConceptsL]
  | cons c cs =>
    obtain ⟨id', s', cs'⟩ := c
    simp only [Tree.numConcepts, Tree.numConceptsL, Tree.children_node, reduceCtorEq, iff_false]
    omega

theorem TreeHolds.leaf_same {t : Tree S} {m : Multiset I} (h : TreeHolds C Sum Same t m) (ht : t.children = []) :
    ∀ i ∈ m, ∀ j ∈ m, Same i j := by
  rcases h with ⟨rfl, -⟩ | h
  · simp
  · cases h with
    | leaf _ _ h3 => exact h3
    | node h1 _ _ =>
      rw [Tree.children_node] at ht
      subst ht
      simp at h1

/-- An instance that looks like all the ones stored in a single concept is added to it. -/
theorem cobweb_same (L : Laws C Ok Sum Same) {id : ℕ} {s : S} {m : Multiset I}
    (h : TreeHolds C Sum Same (.node id s []) m) {i : I} (hi : Ok i) (hs : ∀ j ∈ m, Same i j) (ecg : S → Res K) (w : World) :
    cobweb C ecg (.node id s []) i w = .ok ⟨.node id (C.incr s i) [], id, false, w⟩ := by
  have hsum : Sum s m := h.sum L
  have hc : (C.isExact s i || C.count s == 0) = true := by
    by_cases hm : m = 0
    · rw [L.count hsum, hm]
      simp
    · rw [(L.exact hsum hm hi).2 hs]
      simp
  show cobwebLoop C ecg i 1 _ w = _
  rw [cobwebLoop, if_pos hc]

/-- One that looks different makes two of it. -/
theorem cobweb_different (L : Laws C Ok Sum Same) {id : ℕ} {s : S} {m : Multiset I}
    (h : TreeHolds C Sum Same (.node id s []) m) {i j : I} (hi : Ok i) (hj : j ∈ m) (hs : ¬ Same i j) (ecg : S → Res K)
    (w : World) :
    cobweb C ecg (.node id s []) i w = .ok ⟨.node (w.ctr + 1) (C.incr s i)
      [.node id s [], .node (w.ctr + 2) (C.incr C.fresh i) []], w.ctr + 2, true, w.bump 2⟩ := by
  have hsum : Sum s m := h.sum L
  have hm : m ≠ 0 := by rintro rfl; simp at hj
  have h1 : C.isExact s i = false := by
    cases e : C.isExact s i with
    | false => rfl
    | true => exact absurd ((L.exact hsum hm hi).1 e j hj) hs
  have h2 : (C.count s == 0) = false := by
    rw [L.count hsum]
    simpa using hm
  show cobwebLoop C ecg i 1 _ w = _
  rw [cobwebLoop, if_neg (by simp [h1, h2]), shallowCopy, L.copy hsum]

theorem reach_one (L : Laws C Ok Sum Same) {t : Tree S} {hist : List I} {n : ℕ} (h : Reach C Ok E t hist n) :
    t.children = [] ↔ ∀ i ∈ hist, ∀ j ∈ hist, Same i j := by
  constructor
  · intro ht i hi j hj
    exact (reach_holds L h).leaf_same ht i (by simpa using hi) j (by simpa using hj)
  · induction h with
    | init w => intro _; rfl
    | @step t hist n ecg i w o hr _ hi _ ho ih =>
      intro hall
      have ht := ih fun a ha b hb => hall a (by simp [ha]) b (by simp [hb])
      obtain ⟨id, s, cs⟩ := t
      rw [Tree.children_node] at ht
      subst ht
      rw [cobweb_same L (reach_holds L hr) hi (fun j hj => hall i (by simp) j (by simp at hj; simp [hj])) ecg w] at ho
      cases ho
      rfl

end

variable {A B V : Type} [DecidableEq A] [DecidableEq B] [DecidableEq V] {hid : A → Bool}

/-- **C115**: a `CobwebTree` is a single concept exactly when all instances fitted agree on the attributes that are not
hidden, however often and in whatever order they were fitted. -/
theorem C115_one_concept {t : Tree (Stats A V)} {hist : List (Inst A V)} {n : ℕ} (h : CobwebReach hid t hist n) :
    t.numConcepts = 1 ↔ ∀ i ∈ hist, ∀ j ∈ hist, ∀ a, hid a = false → Dict.get? i a = Dict.get? j a := by
  rw [numConcepts_one]
  exact reach_one (cobwebLaws hid) h

/-- **C115** for `Cobweb3Tree`. -/
theorem C115_one_concept_cobweb3 {cfg : Cfg3 A B} {st : State3 A B V} {hist : List (Inst3 A V)} {n : ℕ}
    (h : Reach3 hid cfg st hist n) :
    st.root.numConcepts = 1 ↔ ∀ i ∈ hist, ∀ j ∈ hist, ∀ a, hid a = false → Dict.get? i a = Dict.get? j a := by
  rw [numConcepts_one]
  exact reach_one (cobweb3Laws hid) (reach3_reach h)

/-- **C115** for `TrestleTree`, with respect to the preprocessed instances. -/
theorem C115_one_concept_trestle {c : TrestleCfg} {st : TState} {hist : List PyInst} (hc : c.Ok)
    (h : TrestleRuns c st hist) {t : Tree (Stats3 Py Py)} (ht : IsTree st.h st.h.root t) :
    t.numConcepts = 1 ↔ ∀ i ∈ hist.map inst3, ∀ j ∈ hist.map inst3, ∀ a, hid3 a = false →
      Dict.get? i a = Dict.get? j a := by
  obtain ⟨n, hr, -⟩ := trestle_reach hc h ht
  exact C115_one_concept_cobweb3 hr

/-- **C115**: instances with hidden attributes only never make a tree grow. -/
theorem C115_hidden_only {t : Tree (Stats A V)} {hist : List (Inst A V)} {n : ℕ} (h : CobwebReach hid t hist n)
    (hh : ∀ i ∈ hist, ∀ a ∈ Dict.keys i, hid a = true) : t.numConcepts = 1 := by
  refine (C115_one_concept h).2 fun i hi j hj a ha => ?_
  have : ∀ i ∈ hist, Dict.get? i a = none := fun i hi => by
    refine Dict.get?_eq_none.2 fun hk => ?_
    rw [hh i hi a hk] at ha
    cases ha
  rw [this i hi, this j hj]

/-- **C115**: `ifit` with an instance that looks like all the ones before returns the root, whose table it is added to; it
does not draw random numbers, makes no concepts and computes no score: this holds with any scoring function. -/
theorem C115_same_again {t : Tree (Stats A V)} {hist : List (Inst A V)} {n : ℕ} (h : CobwebReach hid t hist n)
    {i : Inst A V} (hi : Dict.Nodup i) (hs : ∀ j ∈ hist ++ [i], ∀ k ∈ hist ++ [i], SameVisible hid j k)
    (ecg : Stats A V → Res ℚ) (w : World) :
    ∃ t', cobweb (cobwebClass hid) ecg t i w = .ok ⟨t', t.id, false, w⟩ ∧ t'.id = t.id ∧ t'.children = [] ∧
      Summarizes t'.stats ((hist ++ [i] : List (Inst A V)) : Multiset (Inst A V)) := by
  have ht := (reach_one (cobwebLaws hid) h).2 fun a ha b hb => hs a (by simp [ha]) b (by simp [hb])
  obtain ⟨id, s, cs⟩ := t
  rw [Tree.children_node] at ht
  subst ht
  have hr := reach_holds (cobwebLaws hid) h
  refine ⟨_, cobweb_same (cobwebLaws hid) hr hi (fun j hj => hs i (by simp) j (by simp at hj; simp [hj])) ecg w,
    rfl, rfl, ?_⟩
  have := (cobwebLaws hid).incr (hr.sum (cobwebLaws hid)) hi
  rw [← Multiset.coe_add, add_comm, Multiset.coe_singleton, Multiset.singleton_add]
  exact this

/-- **C115**: the first instance that looks different from the ones before makes a root of everything with two leaves, the
old concept, unchanged, and one for the instance, which is returned; again with any scoring function. -/
theorem C115_first_difference {t : Tree (Stats A V)} {hist : List (Inst A V)} {n : ℕ} (h : CobwebReach hid t hist n)
    {i : Inst A V} (hi : Dict.Nodup i) (hs : ∀ j ∈ hist, ∀ k ∈ hist, SameVisible hid j k)
    (hd : ∃ j ∈ hist, ¬ SameVisible hid i j) (ecg : Stats A V → Res ℚ) (w : World) :
    ∃ s leaf, cobweb (cobwebClass hid) ecg t i w =
        .ok ⟨.node (w.ctr + 1) s [t, .node (w.ctr + 2) leaf []], w.ctr + 2, true, w.bump 2⟩ ∧ t.children = [] ∧
      Summarizes s ((hist ++ [i] : List (Inst A V)) : Multiset (Inst A V)) ∧ Summarizes leaf {i} := by
  have ht := (reach_one (cobwebLaws hid) h).2 hs
  obtain ⟨id, s, cs⟩ := t
  rw [Tree.children_node] at ht
  subst ht
  have hr := reach_holds (cobwebLaws hid) h
  obtain ⟨j, hj, hne⟩ := hd
  refine ⟨_, _, cobweb_different (cobwebLaws hid) hr hi (by simpa using hj) hne ecg w, rfl, ?_, ?_⟩
  · have := (cobwebLaws hid).incr (hr.sum (cobwebLaws hid)) hi
    rw [← Multiset.coe_add, add_comm, Multiset.coe_singleton, Multiset.singleton_add]
    exact this
  · exact (cobwebLaws hid).incr (cobwebLaws hid).fresh hi

/-- **C115** for Cobweb/3: the same of `Cobweb3Tree.ifit`; only `attr_scales` changes besides. -/
theorem C115_same_again_cobweb3 {cfg : Cfg3 A B} {st : State3 A B V} {hist : List (Inst3 A V)} {n : ℕ}
    (h : Reach3 hid cfg st hist n) {i : Inst3 A V} (hi : Dict.Nodup i)
    (hs : ∀ j ∈ hist ++ [i], ∀ k ∈ hist ++ [i], SameVisible hid j k) (w : World) :
    ∃ o : Out3 A B V, ifit3 hid cfg st i w = .ok o ∧ o.leaf = st.root.id ∧ o.w = w ∧ o.state.root.id = st.root.id ∧
      o.state.root.children = [] ∧
      Summarizes3 o.state.root.stats ((hist ++ [i] : List (Inst3 A V)) : Multiset (Inst3 A V)) := by
  have hR := reach3_reach h
  have ht := (reach_one (cobweb3Laws hid) hR).2 fun a ha b hb => hs a (by simp [ha]) b (by simp [hb])
  obtain ⟨⟨id, s, cs⟩, sc⟩ := st
  rw [Tree.children_node] at ht
  subst ht
  have hr := reach_holds (cobweb3Laws hid) hR
  refine ⟨_, by rw [ifit3, cobweb_same (cobweb3Laws hid) hr hi (fun j hj => hs i (by simp) j (by simp at hj; simp [hj]))]; rfl,
    rfl, rfl, rfl, rfl, ?_⟩
  have := (cobweb3Laws hid).incr (hr.sum (cobweb3Laws hid)) hi
  rw [← Multiset.coe_add, add_comm, Multiset.coe_singleton, Multiset.singleton_add]
  exact this

/-- **C115** for Cobweb/3: the first instance that looks different. -/
theorem C115_first_difference_cobweb3 {cfg : Cfg3 A B} {st : State3 A B V} {hist : List (Inst3 A V)} {n : ℕ}
    (h : Reach3 hid cfg st hist n) {i : Inst3 A V} (hi : Dict.Nodup i)
    (hs : ∀ j ∈ hist, ∀ k ∈ hist, SameVisible hid j k) (hd : ∃ j ∈ hist, ¬ SameVisible hid i j) (w : World) :
    ∃ (o : Out3 A B V) (s leaf : Stats3 A V), ifit3 hid cfg st i w = .ok o ∧ o.leaf = w.ctr + 2 ∧ o.w = w.bump 2 ∧
      o.state.root = .node (w.ctr + 1) s [st.root, .node (w.ctr + 2) leaf []] ∧ st.root.children = [] ∧
      Summarizes3 s ((hist ++ [i] : List (Inst3 A V)) : Multiset (Inst3 A V)) ∧ Summarizes3 leaf {i} := by
  have hR := reach3_reach h
  have ht := (reach_one (cobweb3Laws hid) hR).2 hs
  obtain ⟨⟨id, s, cs⟩, sc⟩ := st
  rw [Tree.children_node] at ht
  subst ht
  have hr := reach_holds (cobweb3Laws hid) hR
  obtain ⟨j, hj, hne⟩ := hd
  refine ⟨_, _, _, by rw [ifit3, cobweb_different (cobweb3Laws hid) hr hi (by simpa using hj) hne]; rfl,
    rfl, rfl, rfl, rfl, ?_, ?_⟩
  · have := (cobweb3Laws hid).incr (hr.sum (cobweb3Laws hid)) hi
    rw [← Multiset.coe_add, add_comm, Multiset.coe_singleton, Multiset.singleton_add]
    exact this
  · exact (cobweb3Laws hid).incr (cobweb3Laws hid).fresh hi

/-! ### Examples -/

/-- The running example is not a single concept: its instances differ. -/
example : ¬ ∀ i ∈ Demo.insts, ∀ j ∈ Demo.insts, ∀ a, Demo.hid a = false → Dict.get? i a = Dict.get? j a := by
  obtain ⟨n, h⟩ := demo_reach
  rw [← C115_one_concept h]
  decide +kernel

/-- Three instances that differ in the hidden attribute 100 only. -/
example : ∃ t n, CobwebReach Demo.hid t [[(1, 1), (100, 5)], [(1, 1)], [(100, 7), (1, 1)]] n ∧ t.numConcepts = 1 := by
  obtain ⟨⟨t, w⟩, h⟩ : ∃ p, Demo.run [[(1, 1), (100, 5)], [(1, 1)], [(100, 7), (1, 1)]] = .ok p := by
    have : (Demo.run [[(1, 1), (100, 5)], [(1, 1)], [(100, 7), (1, 1)]]).isOk = true := by decide +kernel
    cases h : Demo.run [[(1, 1), (100, 5)], [(1, 1)], [(100, 7), (1, 1)]] with
    | ok p => exact ⟨p, rfl⟩
    | error e => rw [h] at this; cases this
  obtain ⟨n, -, hr⟩ := reach_fitList (Ok := Dict.Nodup) (E := (· = Stats.ecg (K := ℚ) Demo.hid)) rfl (by decide)
    (Reach.init Demo.w0) (le_refl _) h
  exact ⟨t, n, hr, (C115_one_concept hr).2 (by
    intro i hi j hj a ha
    have h0 : a ≠ 100 := by rintro rfl; exact absurd ha (by decide)
    simp only [List.nil_append, List.mem_cons, List.not_mem_nil, or_false] at hi hj
    rcases hi with rfl | rfl | rfl <;> rcases hj with rfl | rfl | rfl <;> simp [Dict.get?, h0.symm])⟩

end CF
