/-
C58: the `DummyTree`.
-/
import Verif.Spec.Dummy
import Verif.Props.Trestle
import Verif.Props.Cobweb3Predict

namespace CF
variable {c : TrestleCfg}

/-- Without unhashable values the loop is that of the model of Cobweb/3. -/
theorem incrLoop_ok {l : PyInst} (h : ∀ p ∈ l, p.2.hashable = true) (av : Dict Py (Tab Py)) :
    incrLoop av l = (.ok (), av.updAll (fun t v => (t.getD Tab.empty).add v) (inst3 l)) := by
  induction l generalizing av with
  | nil => rfl
  | cons p l ih =>
    obtain ⟨a, v⟩ := p
    have hv : v.hashable = true := h (a, v) (by simp)
    rw [incrLoop]
    rw [if_pos hv, ih (fun p hp => h p (by simp [hp])), Dict.set_set]
    rfl

theorem incrLoop_hashable {l : PyInst} {av av' : Dict Py (Tab Py)} (h : incrLoop av l = (.ok (), av')) :
    ∀ p ∈ l, p.2.hashable = true := by
  induction l generalizing av with
  | nil => simp
  | cons p l ih =>
    obtain ⟨a, v⟩ := p
    rw [incrLoop] at h
    split at h
    · rename_i hv
      intro p hp
      rcases List.mem_cons.1 hp with rfl | hp
      · exact hv
      · exact ih h p hp
    · simp at h

/-- What a call of `ifit` does to the store: at most the table of the root changes. -/
theorem dummyIfit_store {S : Search} {mapping : Bool} {i : PyInst} {st : TState} {r : Rec (Stats3 Py Py)}
    (hr : st.h.objs st.h.root = some r) :
    ∃ s : Stats3 Py Py, (dummyIfit c S mapping i st).2.h =
      { st.h with objs := Function.update st.h.objs st.h.root (some { r with stats := s }) } ∧
      ((dummyPrep c S mapping st i).1.toOption = none → s = r.stats) ∧
      ∀ temp, (dummyPrep c S mapping st i).1 = .ok temp →
        s = ⟨r.stats.count + 1, (incrLoop r.stats.av temp).2⟩ ∧
        ((dummyIfit c S mapping i st).1 = .ok st.h.root ↔ (incrLoop r.stats.av temp).1 = .ok ()) := by
  unfold dummyIfit
  generalize dummyPrep c S mapping st i = p
  obtain ⟨q, s⟩ := p
  cases q with
  | error e =>
    refine ⟨r.stats, ?_, fun _ => rfl, by simp⟩
    dsimp only
    rw [← hr, Function.update_eq_self]
  | ok temp =>
    refine ⟨⟨r.stats.count + 1, (incrLoop r.stats.av temp).2⟩, ?_, by simp [Except.toOption], ?_⟩
    · dsimp only
      simp only [incrRoot, hr]
      rcases incrLoop r.stats.av temp with ⟨_ | _, av⟩ <;> rfl
    · rintro temp' h
      cases h
      refine ⟨rfl, ?_⟩
      dsimp only
      simp only [incrRoot, hr]
      rcases incrLoop r.stats.av temp with ⟨_ | _, av⟩ <;> simp

theorem dummy_clear (st : TState) : ∃ r, (trestleClear st).h.objs (trestleClear st).h.root = some r ∧
    (trestleClear st).h.root < (trestleClear st).h.next ∧ r.children = [] ∧ r.stats = Stats3.fresh := by
  refine ⟨⟨st.h.w.ctr + 1, Stats3.fresh, [], none, true⟩, ?_, ?_, rfl, rfl⟩ <;>
    simp [trestleClear, clearH, HM.setRoot, HM.setTree, HM.mod, newNode, Bind.bind, HM.andThen, World.bump,
      cobweb3Class]

theorem dummy_any {st : TState} (h : DummyAny c st) :
    ∃ r, st.h.objs st.h.root = some r ∧ st.h.root < st.h.next ∧ r.children = [] := by
  induction h with
  | clear st =>
    obtain ⟨r, h1, h2, h3, -⟩ := dummy_clear st
    exact ⟨r, h1, h2, h3⟩
  | other _ hu ih =>
    obtain ⟨r, h1, h2, h3⟩ := ih
    dsimp only
    rw [hu.root]
    exact ⟨r, by rw [hu.objs _ h2, h1], lt_of_lt_of_le h2 hu.next, h3⟩
  | @ifit st S mapping i _ ih =>
    obtain ⟨r, h1, h2, h3⟩ := ih
    obtain ⟨s, e, -, -⟩ := dummyIfit_store (c := c) (S := S) (mapping := mapping) (i := i) h1
    rw [e]
    exact ⟨{ r with stats := s }, by simp, h2, h3⟩
  | categorize _ ih => exact ih

/-- **C58**, one node: after any calls, whether they return or raise, the tree consists of its root. -/
theorem C58_one_node {st : TState} (h : DummyAny c st) :
    ∃ id s, IsTree st.h st.h.root (.node id s []) := by
  obtain ⟨r, h1, -, h3⟩ := dummy_any h
  exact ⟨r.cid, r.stats, .mk h1 (h3 ▸ .nil)⟩

/-- **C58**: `categorize` returns the root, whatever the instance, and changes nothing. -/
theorem C58_categorize (i : PyInst) (st : TState) :
    dummyCategorize i st = (.ok st.h.root, st) := rfl

/-- **C58**: a call of `ifit` that returns returns the root, which is the node it was before; no other node
changes, and none is made. -/
theorem C58_ifit {st st' : TState} (h : DummyAny c st) {S : Search} {mapping : Bool} {i : PyInst} {a : ℕ}
    (he : dummyIfit c S mapping i st = (.ok a, st')) :
    a = st.h.root ∧ st'.h.root = st.h.root ∧ st'.h.next = st.h.next ∧
      ∀ b ≠ st.h.root, st'.h.objs b = st.h.objs b := by
  obtain ⟨r, h1, h2, h3⟩ := dummy_any h
  obtain ⟨s, e, -, h5⟩ := dummyIfit_store (c := c) (S := S) (mapping := mapping) (i := i) h1
  have ha : a = (dummyIfit c S mapping i st).2.h.root := by
    have := he
    unfold dummyIfit at this ⊢
    generalize dummyPrep c S mapping st i = p at this ⊢
    obtain ⟨q, s⟩ := p
    cases q with
    | error e => simp at this
    | ok temp =>
      dsimp only at this ⊢
      generalize incrRoot temp st.h = p at this ⊢
      rcases p with ⟨_ | _, h⟩
      · simp at this
      · simp only [Prod.mk.injEq, Except.ok.injEq] at this
        exact this.1.symm
  rw [he] at e ha
  dsimp only at e ha
  rw [e] at ha ⊢
  exact ⟨ha, rfl, rfl, fun b hb => Function.update_of_ne hb _ _⟩

theorem dummyPrep_nodup (hc : c.Ok) {S : Search} (hS : SearchLaws S) {mapping : Bool} {st : TState}
    {i temp : PyInst} (hw : Py.wf (.dict i)) (h : (dummyPrep c S mapping st i).1 = .ok temp) :
    Dict.Nodup temp := by
  cases mapping with
  | true => exact (prep_vars hc hS hw h).1
  | false =>
    unfold dummyPrep at h
    simp only [Bool.false_eq_true, if_false, pipeline] at h
    cases hp : pipeTransform [⟨0, subComponent c.fuel⟩, ⟨1, flattener⟩] i
        (st.ctr, fun _ => (none : Option (Dict Py Py))) with
    | mk q s =>
      rw [hp] at h
      dsimp only at h
      subst h
      obtain ⟨t, s1, -, h2⟩ := SM.bind_ok hp
      obtain ⟨u, s2, h3, h4⟩ := SM.bind_ok h2
      cases h4
      have : flatten t = .ok temp := congrArg Prod.fst h3
      exact flattenD_nodup this (by simp [Dict.Nodup, Dict.keys])

/-- **C58**, partial.  Full statement: the root summarises exactly the instances of all calls of `ifit` that
returned, after any calls.  This holds unless a call of `ifit` raised while the counts were updated: the
instance is counted then although it was not fitted (`C58_failed_call_counts`).  With any calls that return,
calls that raise while the instance is preprocessed, and calls of `categorize`, the root is the only node
and summarises exactly the preprocessed instances. -/
theorem C58_summarizes_partial (hc : c.Ok) {st : TState} {hist : List PyInst} (h : DummyRuns c st hist) :
    ∃ r, st.h.objs st.h.root = some r ∧ st.h.root < st.h.next ∧ r.children = [] ∧
      Summarizes3 r.stats (hist.map inst3 : Multiset (Inst3 Py Py)) := by
  induction h with
  | clear st =>
    obtain ⟨r, h1, h2, h3, h4⟩ := dummy_clear st
    exact ⟨r, h1, h2, h3, h4 ▸ (cobweb3Laws hid3).fresh⟩
  | other _ hu ih =>
    obtain ⟨r, h1, h2, h3, h4⟩ := ih
    dsimp only
    rw [hu.root]
    exact ⟨r, by rw [hu.objs _ h2, h1], lt_of_lt_of_le h2 hu.next, h3, h4⟩
  | @ifit st st' hist S mapping i temp a _ hS hw hp he ih =>
    obtain ⟨r, h1, h2, h3, h4⟩ := ih
    obtain ⟨s, e, -, h5⟩ := dummyIfit_store (c := c) (S := S) (mapping := mapping) (i := i) h1
    obtain ⟨e1, e2⟩ := h5 temp hp
    have hok : (incrLoop r.stats.av temp).1 = .ok () := by
      refine e2.1 ?_
      have := congrArg (fun p => p.2.h.root) he
      dsimp only at this
      rw [e] at this
      unfold dummyIfit at he ⊢
      generalize dummyPrep c S mapping st i = p at he hp ⊢
      obtain ⟨q, s⟩ := p
      dsimp only at hp
      subst hp
      dsimp only at he ⊢
      simp only [incrRoot, h1] at he ⊢
      generalize incrLoop r.stats.av temp = p at he ⊢
      rcases p with ⟨_ | _, av⟩
      · simp at he
      · rfl
    have hh := incrLoop_hashable (show incrLoop r.stats.av temp = (.ok (), _) from Prod.ext hok rfl)
    rw [incrLoop_ok hh] at e1
    have e' : s = r.stats.incr (inst3 temp) := e1
    rw [he] at e
    dsimp only at e
    rw [e]
    refine ⟨{ r with stats := s }, by simp, h2, h3, ?_⟩
    dsimp only
    rw [e']
    have := summarizes3_incr h4 (inst3_nodup (dummyPrep_nodup hc hS hw hp))
    rw [List.map_append, ← Multiset.coe_add, add_comm]
    exact this
  | @rejected st hist S mapping i _ hp ih =>
    obtain ⟨r, h1, h2, h3, h4⟩ := ih
    obtain ⟨s, e, h5, -⟩ := dummyIfit_store (c := c) (S := S) (mapping := mapping) (i := i) h1
    have : s = r.stats := h5 (by
      cases hq : (dummyPrep c S mapping st i).1 with
      | error e => rfl
      | ok t => exact absurd hq (hp t))
    rw [e]
    refine ⟨{ r with stats := s }, by simp, h2, h3, ?_⟩
    dsimp only
    rw [this]
    exact h4
  | categorize _ ih => exact ih

/-- **C58**: what is predicted from the root is the distribution over all fitted instances: the shares of
those without the attribute, and of those with a nominal value. -/
theorem C58_overall_distribution {B : Type} [DecidableEq B] (hc : c.Ok) {st : TState} {hist : List PyInst}
    (h : DummyRuns c st hist) (hne : hist ≠ []) (a : Py) (cfg : Cfg3 Py B) (sc : Scales B) :
    ∃ r, st.h.objs st.h.root = some r ∧
      r.stats.probability cfg sc a none = .ok (share (hist.map inst3 : Multiset (Inst3 Py Py)) a none) ∧
      ∀ v, r.stats.probability cfg sc a (some (.nom v)) =
        .ok (share (hist.map inst3 : Multiset (Inst3 Py Py)) a (some (some v))) := by
  obtain ⟨r, h1, -, -, h4⟩ := C58_summarizes_partial hc h
  have hm : (hist.map inst3 : Multiset (Inst3 Py Py)) ≠ 0 := by simpa using hne
  exact ⟨r, h1, probNone_eq h4 hm a, fun v => probNom_eq h4 hm a v⟩

/-- **C58**: `ifit` returns exactly when the preprocessing does and all values are hashable then. -/
theorem C58_ifit_returns {st : TState} (h : DummyAny c st) (S : Search) (mapping : Bool) (i : PyInst) :
    (∃ a st', dummyIfit c S mapping i st = (.ok a, st')) ↔
      ∃ temp, (dummyPrep c S mapping st i).1 = .ok temp ∧ ∀ p ∈ temp, p.2.hashable = true := by
  obtain ⟨r, h1, -, -⟩ := dummy_any h
  obtain ⟨s, -, -, h5⟩ := dummyIfit_store (c := c) (S := S) (mapping := mapping) (i := i) h1
  constructor
  · rintro ⟨a, st', he⟩
    have ha := (C58_ifit h he).1
    cases hq : (dummyPrep c S mapping st i).1 with
    | error e =>
      unfold dummyIfit at he
      generalize dummyPrep c S mapping st i = p at he hq
      obtain ⟨q, s⟩ := p
      dsimp only at hq
      subst hq
      simp at he
    | ok temp =>
      refine ⟨temp, rfl, incrLoop_hashable (av := r.stats.av) (av' := (incrLoop r.stats.av temp).2) ?_⟩
      exact Prod.ext ((h5 temp hq).2.1 (by rw [he, ha])) rfl
  · rintro ⟨temp, hq, hv⟩
    exact ⟨_, _, Prod.ext ((h5 temp hq).2.2 (by rw [incrLoop_ok hv])) rfl⟩

theorem DummyRuns.any {st : TState} {hist : List PyInst} (h : DummyRuns c st hist) : DummyAny c st := by
  induction h with
  | clear st => exact .clear st
  | other _ hu ih => exact .other ih hu
  | @ifit st st' hist S mapping i temp a _ _ _ _ he ih =>
    have := DummyAny.ifit (S := S) (mapping := mapping) (i := i) ih
    rwa [he] at this
  | rejected _ _ ih => exact .ifit ih
  | categorize _ ih => exact .categorize ih

/-! ### Counterexamples and examples -/

/-- Runs exist: a tree can be fitted with any number of copies of a nested instance, and refuses others. -/
example (S : Search) (hS : SearchLaws S) (st : TState) (n : ℕ) :
    ∃ st hist, DummyRuns demoTrestle st hist ∧ hist.length = n := by
  induction n with
  | zero => exact ⟨_, [], .clear st, rfl⟩
  | succ n ih =>
    obtain ⟨st, hist, h, hn⟩ := ih
    have hp : ∃ temp, (dummyPrep demoTrestle S false st demoScene).1 = .ok temp ∧
        ∀ p ∈ temp, p.2.hashable = true := by
      have : ((dummyPrep demoTrestle S false st demoScene).1.toOption.map
          fun t => t.all fun p => p.2.hashable) = some true := rfl
      cases hq : (dummyPrep demoTrestle S false st demoScene).1 with
      | error e => rw [hq] at this; simp [Except.toOption] at this
      | ok t =>
        rw [hq] at this
        exact ⟨t, rfl, by simpa [Except.toOption] using this⟩
    obtain ⟨a, st', he⟩ := (C58_ifit_returns h.any S false demoScene).2 hp
    obtain ⟨temp, hp, -⟩ := hp
    exact ⟨st', hist ++ [temp], .ifit h hS demoScene_fit.1 hp he, by simp [hn]⟩

/-- `{'a': 'x', 'b': ['y']}`: a list is not hashable. -/
def demoUnhashable : PyInst := [(.str c!"a", .str c!"x"), (.str c!"b", .list [.str c!"y"])]

/-- **C58** fails after a call of `ifit` that raises: a new tree rejects `{'a': 'x', 'b': ['y']}` with a
`TypeError`, but has counted it, and its value of `a`. -/
theorem C58_failed_call_counts (S : Search) (st : TState) :
    ∃ r, (dummyIfit demoTrestle S false demoUnhashable (trestleClear st)).1 = .error .typeErr ∧
      (dummyIfit demoTrestle S false demoUnhashable (trestleClear st)).2.h.objs
        (trestleClear st).h.root = some r ∧
      r.stats.count = 1 ∧ r.stats.av.keys = [.str c!"a", .str c!"b"] := by
  obtain ⟨r, h1, -, -, h4⟩ := dummy_clear st
  have hp : (dummyPrep demoTrestle S false (trestleClear st) demoUnhashable).1 = .ok demoUnhashable := by
    rfl
  obtain ⟨s, e, -, h5⟩ := dummyIfit_store (c := demoTrestle) (S := S) (mapping := false)
    (i := demoUnhashable) h1
  obtain ⟨e1, -⟩ := h5 _ hp
  refine ⟨{ r with stats := s }, ?_, ?_, ?_, ?_⟩
  · unfold dummyIfit
    generalize dummyPrep demoTrestle S false (trestleClear st) demoUnhashable = p at hp
    obtain ⟨q, s⟩ := p
    dsimp only at hp
    subst hp
    dsimp only
    simp only [incrRoot, h1]
    rw [h4]
    simp [demoUnhashable, incrLoop, Py.hashable]
  · rw [e]; simp
  · dsimp only
    rw [e1, h4]
    rfl
  · dsimp only
    rw [e1, h4]
    rfl

/-- **C58**, a finding: fitting an instance without structure mapping puts the names of its objects into the
root; a name that `gensym` generates later can be among them, and then an instance fitted with structure
mapping is refused (structure_mapper.py raises because names are shared). -/
theorem C58_mapping_collision (S : Search) :
    ((trestlePipe ⟨0, true, fun _ => [], id, 1000⟩ S [.tup [.str c!"size", .str c!"?o1"]]).transform
      [(.tup [.str c!"size", .str c!"?x"], .num 1)] (0, fun _ => none)).1 = .error .exc := by
  rfl

end CF
