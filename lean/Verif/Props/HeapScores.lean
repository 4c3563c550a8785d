/-
C96: the scoring methods, run on the node objects, return the category utility that the operation would
produce, and change nothing.
-/
import Verif.Proofs.HeapScores
import Verif.Spec.HeapScores
import Verif.Props.Heap
import Verif.Props.Score
import Verif.Props.Cobweb3Score

set_option linter.unusedSectionVars false

namespace CF

/-- What a node below the root looks like. -/
theorem Pre.around {S : Type} {h : Heap S} {dt : Tree (ℕ × S)} (hp : Pre h none dt) {d a : ℕ} (ha : Below h dt.addr d a)
    {t : Tree S} (ht : IsTree h a t) : t ∈ dt.erase.nodes ∧
    ∃ r, h.objs a = some r ∧ Around h.next h a t.stats r.children t.children := by
  obtain ⟨x, hx, q, hq, rfl, -⟩ := rep_below hp.rep ha
  have e : t = x.erase := ht.unique hq.isTree
  subst e
  have hlt : ∀ y ∈ x.addrs, y < h.next := by
    intro y hy
    obtain ⟨z, hz, rfl⟩ := List.mem_map.1 hy
    exact hp.lt _ (List.mem_map_of_mem (Tree.nodes_trans hx hz))
  refine ⟨mem_nodes_erase hx, _, hq.obj, ?_⟩
  have hnd := nodup_sub dt hp.nodup x hx
  obtain ⟨id, ⟨a, s⟩, cs⟩ := x
  have := hq.around hnd hlt (le_refl _)
  rw [Tree.erase_node]
  exact this


section
variable {I S K : Type} [Field K] [LinearOrder K] {C : NodeClass I S} {ecg : Bool → S → Res K}

/-- The scores of Model/Cobweb.lean, computed on the store. -/
theorem Around.scores {h : Heap S} {a : ℕ} {s : S} {as : List ℕ} {cs : List (Tree S)}
    (H : Around h.next h a s as cs) (i : I) :
    Evaluates h (categoryUtilityH C ecg a) (categoryUtility C (ecg true) s (cs.map Tree.stats)) ∧
    (∀ k b, as[k]? = some b →
      Evaluates h (cuForInsertH C ecg a b i) (cuForInsert C (ecg true) s (cs.map Tree.stats) k i)) ∧
    Evaluates h (cuForNewChildH C ecg a i) (cuForNewChild C (ecg true) s (cs.map Tree.stats) i) ∧
    (∀ k l b1 b2 t1 t2, as[k]? = some b1 → as[l]? = some b2 → l ≠ k → cs[k]? = some t1 → cs[l]? = some t2 →
      Evaluates h (cuForMergeH C ecg a b1 b2 i)
        (cuForMerge C (ecg true) s (cs.map Tree.stats) k l t1.stats t2.stats i)) ∧
    (∀ k b t1, as[k]? = some b → cs[k]? = some t1 →
      Evaluates h (cuForSplitH C ecg a b)
        (cuForSplit C (ecg true) s (cs.map Tree.stats) k (t1.children.map Tree.stats))) ∧
    Evaluates h (cuForFringeSplitH C ecg a i) (cuForFringeSplit C (ecg true) s i) := by
  refine ⟨(categoryUtilityH_does H.node).undisturbed, fun k b hk => (cuForInsertH_does H.node hk H.nodup i).undisturbed,
    (cuForNewChildH_does H.node i).undisturbed, ?_, ?_, ?_⟩
  · intro k l b1 b2 t1 t2 h1 h2 hkl e1 e2
    obtain ⟨b1', _, g1, n1, -⟩ := H.kid k t1 e1
    obtain ⟨b2', _, g2, n2, -⟩ := H.kid l t2 e2
    obtain rfl : b1 = b1' := Option.some.inj (h1.symm.trans g1)
    obtain rfl : b2 = b2' := Option.some.inj (h2.symm.trans g2)
    exact (cuForMergeH_does H.node n1.at n2.at h1 h2 hkl H.nodup i).undisturbed
  · intro k b t1 h1 e1
    obtain ⟨b', _, g1, n1, hb⟩ := H.kid k t1 e1
    obtain rfl : b = b' := Option.some.inj (h1.symm.trans g1)
    exact (cuForSplitH_does H.node n1 h1 H.nodup hb).undisturbed
  · obtain ⟨k, hk⟩ := cuForFringeSplitH_does (C := C) (ecg := ecg) H.node i
    exact hk.undisturbed
end

variable {A B V : Type} [DecidableEq A] [DecidableEq B] [DecidableEq V] {hid : A → Bool}

/-- **C96**: at every node object `a` of a reachable store, where the objects at and below `a` form the tree `x`,
`category_utility` and every `cu_for_*` method return the category utility of the tree after the operation
(`n'`, `n''` are the ids that the operation would give), although they run on temporary objects that refer to
those of the tree; and all objects stay as they were.  For `merge` see `C13_scores_are_real`. -/
theorem C96_scores {h : Heap (Stats A V)} {hist : List (Inst A V)} (hr : CobwebHeap hid h hist) {d a : ℕ}
    (ha : Below h h.root d a) {x : Tree (Stats A V)} (hx : IsTree h a x) {r : Rec (Stats A V)}
    (he : h.objs a = some r) (i : Inst A V) (n' n'' : ℕ) :
    let C := cobwebClass (V := V) hid
    let E := Stats.ecg (K := ℚ) (V := V) hid
    let e := fun _ : Bool => E
    Evaluates h (categoryUtilityH C e a) (x.cu C E) ∧
    (∀ k c, r.children[k]? = some c →
      Evaluates h (cuForInsertH C e a c i) (((x.incr C i).incrChild C k i).cu C E)) ∧
    Evaluates h (cuForNewChildH C e a i) (((x.incr C i).createNewChild C n' i).cu C E) ∧
    (∀ k l b1 b2, r.children[k]? = some b1 → r.children[l]? = some b2 → l ≠ k →
      ∃ v, Evaluates h (cuForMergeH C e a b1 b2 i) v ∧ ∀ u, v = .ok u ↔
        (((x.incr C i).merge C n' k l).incrChild C (x.children.length - 2) i).cu C E = .ok u) ∧
    (∀ k b, r.children[k]? = some b → Evaluates h (cuForSplitH C e a b) ((x.split k).cu C E)) ∧
    (r.children = [] → Evaluates h (cuForFringeSplitH C e a i)
      ((((x.createChildWithCurrentCounts C n').incr C i).createNewChild C n'' i).cu C E)) := by
  intro C E e
  obtain ⟨dt, n, hreach, -, hp, hroot⟩ := heap_rep hr
  obtain ⟨hmem, r', he', H⟩ := hp.around (hroot ▸ ha) hx
  rw [he] at he'; cases he'
  have hlen : r.children.length = x.children.length := by simpa using H.node.kids.length_eq
  obtain ⟨s1, s2, s3, s4, s5⟩ := C13_scores_are_real hreach hmem i n' n''
  obtain ⟨e0, e1, e2, e3, e4, e5⟩ := H.scores (C := C) (ecg := e) i
  have kid : ∀ {k c : ℕ}, r.children[k]? = some c → ∃ t, x.children[k]? = some t := by
    intro k c hk
    have := (List.getElem?_eq_some_iff.1 hk).1
    exact ⟨_, List.getElem?_eq_getElem (by omega)⟩
  refine ⟨e0, fun k c hk => ?_, s2 ▸ e2, fun k l b1 b2 h1 h2 hkl => ?_, fun k b hk => ?_, fun h0 => ?_⟩
  · rw [← s1 k (by have := (List.getElem?_eq_some_iff.1 hk).1; omega)]
    exact e1 k c hk
  · obtain ⟨t1, ht1⟩ := kid h1
    obtain ⟨t2, ht2⟩ := kid h2
    exact ⟨_, e3 k l b1 b2 t1 t2 h1 h2 hkl ht1 ht2, fun u => s3 k l t1 t2 u ht1 ht2 hkl⟩
  · obtain ⟨t1, ht1⟩ := kid hk
    rw [← s4 k t1 ht1]
    exact e4 k b t1 hk ht1
  · rw [← s5 (List.eq_nil_of_length_eq_zero (by rw [← hlen, h0]; rfl))]
    exact e5

/-- **C96** for Cobweb/3: the same, whatever the scales `sc'` are at the time of the call. -/
theorem C96_scores_cobweb3 {cfg : Cfg3 A B} {h : Heap (Stats3 A V)} {sc : Scales B} {hist : List (Inst3 A V)}
    (hr : HReach3 hid cfg h sc hist) (sc' : Scales B) {d a : ℕ}
    (ha : Below h h.root d a) {x : Tree (Stats3 A V)} (hx : IsTree h a x) {r : Rec (Stats3 A V)}
    (he : h.objs a = some r) (i : Inst3 A V) (n' n'' : ℕ) :
    let C := cobweb3Class (V := V) hid
    let E := Stats3.ecg (V := V) hid cfg sc'
    let e := ecg3H hid cfg sc'
    Evaluates h (categoryUtilityH C e a) (x.cu C E) ∧
    (∀ k c, r.children[k]? = some c →
      Evaluates h (cuForInsertH C e a c i) (((x.incr C i).incrChild C k i).cu C E)) ∧
    Evaluates h (cuForNewChildH C e a i) (((x.incr C i).createNewChild C n' i).cu C E) ∧
    (∀ k l b1 b2, r.children[k]? = some b1 → r.children[l]? = some b2 → l ≠ k →
      ∃ v, Evaluates h (cuForMergeH C e a b1 b2 i) v ∧ ∀ u, v = .ok u ↔
        (((x.incr C i).merge C n' k l).incrChild C (x.children.length - 2) i).cu C E = .ok u) ∧
    (∀ k b, r.children[k]? = some b → Evaluates h (cuForSplitH C e a b) ((x.split k).cu C E)) ∧
    (r.children = [] → Evaluates h (cuForFringeSplitH C e a i)
      ((((x.createChildWithCurrentCounts C n').incr C i).createNewChild C n'' i).cu C E)) := by
  intro C E e
  obtain ⟨dt, n, hreach, -, hp, hroot⟩ := heap_rep3 hr
  obtain ⟨hmem, r', he', H⟩ := hp.around (hroot ▸ ha) hx
  rw [he] at he'; cases he'
  have hlen : r.children.length = x.children.length := by simpa using H.node.kids.length_eq
  obtain ⟨s1, s2, s3, s4, s5⟩ := C84_scores_are_real hreach sc' hmem i n' n''
  obtain ⟨e0, e1, e2, e3, e4, e5⟩ := H.scores (C := C) (ecg := e) i
  have kid : ∀ {k c : ℕ}, r.children[k]? = some c → ∃ t, x.children[k]? = some t := by
    intro k c hk
    have := (List.getElem?_eq_some_iff.1 hk).1
    exact ⟨_, List.getElem?_eq_getElem (by omega)⟩
  refine ⟨e0, fun k c hk => ?_, s2 ▸ e2, fun k l b1 b2 h1 h2 hkl => ?_, fun k b hk => ?_, fun h0 => ?_⟩
  · rw [← s1 k (by have := (List.getElem?_eq_some_iff.1 hk).1; omega)]
    exact e1 k c hk
  · obtain ⟨t1, ht1⟩ := kid h1
    obtain ⟨t2, ht2⟩ := kid h2
    exact ⟨_, e3 k l b1 b2 t1 t2 h1 h2 hkl ht1 ht2, fun u => s3 k l t1 t2 u ht1 ht2 hkl⟩
  · obtain ⟨t1, ht1⟩ := kid hk
    rw [← s4 k t1 ht1]
    exact e4 k b t1 hk ht1
  · rw [← s5 (List.eq_nil_of_length_eq_zero (by rw [← hlen, h0]; rfl))]
    exact e5

/-- A store to which the theorem applies: the one after fitting the demonstration instances, at the root. -/
example : ∃ h, CobwebHeap Demo.hid h Demo.insts ∧ ∃ x r, Below h h.root 0 h.root ∧ IsTree h h.root x ∧
    h.objs h.root = some r := by
  obtain ⟨h, hr⟩ := heap_exists _ Demo.insts_ok
  obtain ⟨t, n, -, -, ht⟩ := C66_store_is_tree hr
  exact ⟨h, hr, t, by cases ht with | mk e _ => exact ⟨_, .refl _, .mk e ‹_›, e⟩⟩

end CF
