/-
C106: what calls on a `TrestleTree` that raise leave behind, and what a `fit` that raises leaves behind.
-/
import Verif.Spec.TrestleFail
import Verif.Props.HeapFail
import Verif.Props.Fit

set_option linter.unusedSectionVars false

namespace CF

/-! ### Cobweb/3: queries on a tree on which calls raised -/

section
variable {A B V : Type} [DecidableEq A] [DecidableEq B] [DecidableEq V] {hid : A → Bool} {cfg : Cfg3 A B}

theorem categorize_undisturbedE {h : Heap (Stats3 A V)} {sc : Scales B} {hist bad : List (Inst3 A V)}
    (hr : HReach3E hid cfg h sc hist bad) (sc' : Scales B) (i : Inst3 A V) :
    Undisturbed h (categorizeH (cobweb3Class hid) (ecg3H hid cfg sc') i h).2 := by
  obtain ⟨dt, x, -, hs, -⟩ := hreach3E_sound hr
  obtain ⟨k, kc, -⟩ := categorizeH_agrees (C := cobweb3Class hid) (ecg := ecg3H hid cfg sc')
    (fun s => fueled_ecg3 _ s) hs.pre hs.root i
  exact ⟨k.objs, k.next, k.root, kc⟩

end

section
variable {c : TrestleCfg} {st : TState} {hist bad : List PyInst}

/-- The three ways in which `ifit` can end. -/
theorem trestleIfit_cases (c : TrestleCfg) (S : Search) (i : PyInst) (st : TState) :
    (∃ e s, trestlePrep c S st i = (.error e, s) ∧ trestleIfit c S i st = (.error e, { st with ctr := s.1 })) ∨
    (∃ temp e s, trestlePrep c S st i = (.ok temp, s) ∧ trestleCheck temp = .error e ∧
      trestleIfit c S i st = (.error e, { st with ctr := s.1 })) ∨
    ∃ temp s, trestlePrep c S st i = (.ok temp, s) ∧ trestleCheck temp = .ok () ∧
      trestleIfit c S i st = ((cobweb3H hid3 c.cobweb3 (inst3 temp) (st.h, st.sc)).1,
        ⟨(cobweb3H hid3 c.cobweb3 (inst3 temp) (st.h, st.sc)).2.1,
          (cobweb3H hid3 c.cobweb3 (inst3 temp) (st.h, st.sc)).2.2, s.1⟩) := by
  unfold trestleIfit
  generalize trestlePrep c S st i = p
  obtain ⟨r, s⟩ := p
  cases r with
  | error e => exact .inl ⟨e, s, rfl, rfl⟩
  | ok temp =>
    dsimp only
    cases hk : trestleCheck temp with
    | error e => exact .inr (.inl ⟨temp, e, s, rfl, hk, rfl⟩)
    | ok u => exact .inr (.inr ⟨temp, s, rfl, hk, rfl⟩)

/-- A tree on which calls raised, as a tree of Cobweb/3. -/
theorem trestle_heapE (hc : c.Ok) (h : TrestleRunsE c st hist bad) :
    HReach3E hid3 c.cobweb3 st.h st.sc (hist.map inst3) (bad.map inst3) := by
  induction h with
  | clear st => exact .init (h := st.h) (Prod.ext (by simp [clearH, HM.setRoot, HM.setTree, HM.mod, newNode, Bind.bind, HM.andThen]) rfl)
  | other _ hu ih => exact .other ih hu
  | @ifit st st' hist bad S i temp a _ hS hw hp e ih =>
    have hn := inst3_nodup (prep_vars hc hS hw hp).1
    rcases trestleIfit_cases c S i st with ⟨e', s, h1, h2⟩ | ⟨temp', e', s, h1, h2, h3⟩ | ⟨temp', s, h1, h2, h3⟩
    · rw [e] at h2; cases h2
    · rw [e] at h3; cases h3
    · rw [h1] at hp; cases hp
      rw [e] at h3
      obtain ⟨h4, h5⟩ := Prod.mk.inj h3
      rw [List.map_append, h5]
      exact .step ih hn (a := a) (Prod.ext h4.symm rfl)
  | @rejected st hist bad S i _ _ _ hr ih =>
    rcases trestleIfit_cases c S i st with ⟨e', s, h1, h2⟩ | ⟨temp', e', s, h1, h2, h3⟩ | ⟨temp', s, h1, h2, h3⟩
    · rw [h2]; exact ih
    · rw [h3]; exact ih
    · exact absurd h2 (hr temp' (by rw [h1]))
  | @fail st st' hist bad S i temp err _ hS hw hp hk e ih =>
    have hn := inst3_nodup (prep_vars hc hS hw hp).1
    rcases trestleIfit_cases c S i st with ⟨e', s, h1, h2⟩ | ⟨temp', e', s, h1, h2, h3⟩ | ⟨temp', s, h1, h2, h3⟩
    · rw [h1] at hp; cases hp
    · rw [h1] at hp; cases hp
      rw [hk] at h2; cases h2
    · rw [h1] at hp; cases hp
      rw [e] at h3
      obtain ⟨h4, h5⟩ := Prod.mk.inj h3
      rw [List.map_append, h5]
      exact .fail ih hn (e := err) (Prod.ext h4.symm rfl)
  | @categorize st hist bad S i _ _ _ ih =>
    unfold trestleCategorize
    generalize trestlePrep c S st i = p
    obtain ⟨r, s⟩ := p
    dsimp only
    split
    · exact ih
    · split
      · exact ih
      · exact .other ih (categorize_undisturbedE ih _ _)
  | @infer st hist bad S N fn allowNone i _ _ _ hN ih =>
    unfold trestleInfer
    generalize trestlePrep c S st i = p
    obtain ⟨r, s⟩ := p
    dsimp only
    split
    · exact ih
    · rename_i temp
      split
      · have hu := categorize_undisturbedE ih st.sc (inst3 temp)
        generalize categorizeH (cobweb3Class hid3) (ecg3H hid3 c.cobweb3 st.sc) (inst3 temp) st.h = run at hu
        obtain ⟨r, h'⟩ := run
        cases r with
        | error x => exact .other ih hu
        | ok a =>
          dsimp only
          split
          · exact .other ih hu
          · split
            · exact .other ih hu
            · rename_i temp' w hl
              refine .other ih ⟨hu.objs, hu.next, hu.root, ?_⟩
              rw [show ({ h' with w := w } : Heap (Stats3 Py Py)).w.ctr = w.ctr from rfl, trestleInferLoop_ctr hN hl]
              exact hu.ctr
      · exact ih

/-- **C106**: the runs of the theorems below are all runs there are: any calls, in any order, on any instances, returning
or raising. -/
theorem C106_covers (h : TrestleAny c st) : ∃ hist bad, TrestleRunsE c st hist bad := by
  induction h with
  | clear st => exact ⟨[], [], .clear st⟩
  | other _ hu ih => exact let ⟨a, b, h⟩ := ih; ⟨a, b, .other h hu⟩
  | @ifit st S i _ hS hw ih =>
    obtain ⟨hist, bad, h⟩ := ih
    rcases trestleIfit_cases c S i st with ⟨e', s, h1, h2⟩ | ⟨temp, e', s, h1, h2, h3⟩ | ⟨temp, s, h1, h2, h3⟩
    · exact ⟨hist, bad, .rejected h hS hw fun temp ht => by rw [h1] at ht; cases ht⟩
    · refine ⟨hist, bad, .rejected h hS hw fun temp' ht => ?_⟩
      rw [h1] at ht; cases ht
      rw [h2]; simp
    · cases hr : (trestleIfit c S i st).1 with
      | ok a => exact ⟨_, bad, .ifit h hS hw (temp := temp) (by rw [h1]) (Prod.ext hr rfl)⟩
      | error e => exact ⟨hist, _, .fail h hS hw (temp := temp) (by rw [h1]) h2 (Prod.ext hr rfl)⟩
  | categorize _ hS hw ih => exact let ⟨a, b, h⟩ := ih; ⟨a, b, .categorize h hS hw⟩
  | infer _ hS hw hN ih => exact let ⟨a, b, h⟩ := ih; ⟨a, b, .infer h hS hw hN⟩

/-- **C106**: whatever calls were made and whichever of them raised: the objects form a tree with the links of a tree
and different concept ids.  Its leaves hold exactly the preprocessed instances of the calls of `ifit` that returned; the
tables of the other concepts have in addition some of the instances of the calls that raised while sorting, and
`attr_scales` has the numbers of all of these. -/
theorem C106_tree (hc : c.Ok) (h : TrestleRunsE c st hist bad) :
    ∃ t x, IsTree st.h st.h.root t ∧ LinksOk st.h ∧ t.ids.Nodup ∧ (∀ k ∈ t.ids, k ≤ st.h.w.ctr) ∧
      x ≤ (bad.map inst3 : Multiset (Inst3 Py Py)) ∧
      TreeRetains Summarizes3 (SameVisible hid3) (cobweb3Class hid3) t (hist.map inst3 : Multiset (Inst3 Py Py)) x ∧
      ScalesObs st.sc fun b => (scaleNums (innerAttr c.inner) (hist.map inst3) b : Multiset ℝ) +
        (scaleNums (innerAttr c.inner) (bad.map inst3) b : Multiset ℝ) :=
  C103_tree_cobweb3 (trestle_heapE hc h)

/-- **C106**, in numbers: the counts of the leaves add up to the number of calls that returned; a concept counts at least
what its children count, and at most as many instances more than its leaves as calls raised. -/
theorem C106_counts (hc : c.Ok) (h : TrestleRunsE c st hist bad) {t : Tree (Stats3 Py Py)}
    (ht : IsTree st.h st.h.root t) :
    (t.leaves.map fun l => l.stats.count).sum = hist.length ∧
    ∀ n ∈ t.nodes, n.children ≠ [] → 2 ≤ n.children.length ∧
      (n.children.map fun c => c.stats.count).sum ≤ n.stats.count ∧
      n.stats.count ≤ (n.leaves.map fun l => l.stats.count).sum + bad.length := by
  obtain ⟨t', x, ht', -, -, -, hx, hk, -⟩ := C106_tree hc h
  obtain rfl := ht.unique ht'
  obtain ⟨h1, h2⟩ := hk.counts (cobweb3Laws hid3)
  refine ⟨h1.trans (by simp), fun n hn hne => ?_⟩
  obtain ⟨a, b, d⟩ := h2 n hn hne
  refine ⟨a, b, d.trans (Nat.add_le_add_left ?_ _)⟩
  simpa using Multiset.card_le_card hx

/-- **C106**: a call that raises in the preprocessing or in the check of the preprocessed instance changes neither the
store nor `attr_scales`; it may have used up names. -/
theorem C106_rejected {S : Search} {i : PyInst}
    (hr : ∀ temp, (trestlePrep c S st i).1 = .ok temp → trestleCheck temp ≠ .ok ()) :
    ∃ e n, trestleIfit c S i st = (.error e, ⟨st.h, st.sc, n⟩) ∧ st.ctr ≤ n := by
  have hle := prep_counts (c := c) (S := S) (st := st) (i := i)
  rcases trestleIfit_cases c S i st with ⟨e, s, h1, h2⟩ | ⟨temp, e, s, h1, h2, h3⟩ | ⟨temp, s, h1, h2, h3⟩
  · exact ⟨e, s.1, h2, by rw [h1] at hle; exact hle⟩
  · exact ⟨e, s.1, h3, by rw [h1] at hle; exact hle⟩
  · exact absurd h2 (hr temp (by rw [h1]))

/-- **C106**: when no two random numbers coincide, the first call that raises while sorting raises
`ZeroDivisionError` and changes no concept; it has entered its numbers into `attr_scales`. -/
theorem C106_undisturbed (hc : c.Ok) (h : TrestleRuns c st hist) (hw : Function.Injective st.h.w.rnd) {S : Search}
    (hS : SearchLaws S) {i temp : PyInst} (hi : Py.wf (.dict i)) (hp : (trestlePrep c S st i).1 = .ok temp)
    (hk : trestleCheck temp = .ok ()) {e : PyErr} {st' : TState} (he : trestleIfit c S i st = (.error e, st')) :
    e = .zeroDiv ∧ Undisturbed st.h st'.h ∧ st.ctr ≤ st'.ctr ∧
    ScalesObs st'.sc fun b => (scaleNums (innerAttr c.inner) ((hist ++ [temp]).map inst3) b : Multiset ℝ) := by
  have hle := prep_counts (c := c) (S := S) (st := st) (i := i)
  rcases trestleIfit_cases c S i st with ⟨e', s, h1, h2⟩ | ⟨temp', e', s, h1, h2, h3⟩ | ⟨temp', s, h1, h2, h3⟩
  · rw [h1] at hp; cases hp
  · rw [h1] at hp; cases hp
    rw [hk] at h2; cases h2
  · have hn := inst3_nodup (prep_vars hc hS hi hp).1
    rw [h1] at hp; cases hp
    rw [he] at h3
    obtain ⟨h4, rfl⟩ := Prod.mk.inj h3
    obtain ⟨k1, k2, k3⟩ := C103_undisturbed_cobweb3 (trestle_heap hc h) hw hn
      (show cobweb3H hid3 c.cobweb3 (inst3 temp) (st.h, st.sc) = (.error e, _, _) from Prod.ext h4.symm rfl)
    refine ⟨k1, k2, by rw [h1] at hle; exact hle, ?_⟩
    rw [List.map_append]
    exact k3

/-- **C106**: `categorize` and `infer_missing`, on any such tree and whether they return or raise, change no concept and
not `attr_scales`. -/
theorem C106_queries (hc : c.Ok) (h : TrestleRunsE c st hist bad) {S : Search} {N : Numbers} (hN : N.Ok) (fn : ChoiceFn)
    (allowNone : Bool) (i : PyInst) :
    (Undisturbed st.h (trestleCategorize c S i st).2.h ∧ (trestleCategorize c S i st).2.sc = st.sc) ∧
    (Undisturbed st.h (trestleInfer c S N fn allowNone i st).2.h ∧
      (trestleInfer c S N fn allowNone i st).2.sc = st.sc) := by
  have hE := trestle_heapE hc h
  have hrefl : Undisturbed st.h st.h := ⟨fun _ _ => rfl, le_refl _, rfl, le_refl _⟩
  constructor
  · unfold trestleCategorize
    generalize trestlePrep c S st i = p
    obtain ⟨r, s⟩ := p
    dsimp only
    split
    · exact ⟨hrefl, rfl⟩
    · split
      · exact ⟨hrefl, rfl⟩
      · exact ⟨categorize_undisturbedE hE _ _, rfl⟩
  · unfold trestleInfer
    generalize trestlePrep c S st i = p
    obtain ⟨r, s⟩ := p
    dsimp only
    split
    · exact ⟨hrefl, rfl⟩
    · rename_i temp
      split
      · have hu := categorize_undisturbedE hE st.sc (inst3 temp)
        generalize categorizeH (cobweb3Class hid3) (ecg3H hid3 c.cobweb3 st.sc) (inst3 temp) st.h = run at hu
        obtain ⟨r, h'⟩ := run
        cases r with
        | error x => exact ⟨hu, rfl⟩
        | ok a =>
          dsimp only
          split
          · exact ⟨hu, rfl⟩
          · split
            · exact ⟨hu, rfl⟩
            · rename_i temp' w hl
              refine ⟨⟨hu.objs, hu.next, hu.root, ?_⟩, rfl⟩
              rw [show ({ h' with w := w } : Heap (Stats3 Py Py)).w.ctr = w.ctr from rfl, trestleInferLoop_ctr hN hl]
              exact hu.ctr
      · exact ⟨hrefl, rfl⟩

end

/-! ### `fit` -/

section
variable {A B V : Type} [DecidableEq A] [DecidableEq B] [DecidableEq V] {hid : A → Bool} {cfg : Cfg3 A B}

/-- **C106** for `fit` of a `CobwebTree`, also on a tree on which calls raised: the caller's list stays as it is.  If
`fit` returns, it has fitted all passes; if it raises, it has fitted some passes and the beginning of one more, and the
next instance is one of those whose call raised. -/
theorem C106_fit_cobweb {h : Heap (Stats A V)} {hist bad : List (Inst A V)} (hr : CobwebHeapE hid h hist bad)
    {sh : Shuffle (Inst A V)} (hsh : FitShuffle sh) {instances : List (Inst A V)}
    (hok : ∀ i ∈ instances, Dict.Nodup i) (iterations : ℕ) (rf : Bool) :
    ∃ r h', fitH hid sh instances iterations rf h = (r, instances, h') ∧
      match r with
      | .ok _ => ∃ ps, Passes instances rf ps ∧ ps.length = iterations ∧ CobwebHeapE hid h' (hist ++ ps.flatten) bad
      | .error _ => ∃ ps before i after, Passes instances rf (ps ++ [before ++ i :: after]) ∧ ps.length < iterations ∧
          CobwebHeapE hid h' (hist ++ ps.flatten ++ before) (bad ++ [i]) := by
  obtain ⟨r, s', e, hm⟩ := C76_fit (ifit := cobwebH (cobwebClass hid) (fun _ => Stats.ecg (K := ℚ) hid))
    (P := Dict.Nodup) (sh := fun l h => ((sh l h.w).1, { h with w := (sh l h.w).2 }))
    (Inv := fun s done => CobwebHeapE hid s done bad)
    (fun s done i a s' hI hi hs => .step hI rfl hi hs)
    (fun l s done _ hI => ⟨hsh.perm _ _, .other hI (undisturbed_world (hsh.ctr _ _))⟩)
    hok iterations rf hr
  refine ⟨r, s', e, ?_⟩
  cases r with
  | ok u => exact hm
  | error x =>
    obtain ⟨ps, p, h1, h2, before, i, after, s, rfl, h3, h4⟩ := hm
    exact ⟨ps, before, i, after, h1, h2, .fail h3 rfl (hok i ((h1.perm (before ++ i :: after) (by simp)).subset (by simp))) h4⟩

/-- **C106** for `fit` of a `Cobweb3Tree`. -/
theorem C106_fit_cobweb3 {h : Heap (Stats3 A V)} {sc : Scales B} {hist bad : List (Inst3 A V)}
    (hr : HReach3E hid cfg h sc hist bad) {sh : Shuffle (Inst3 A V)} (hsh : FitShuffle sh)
    {instances : List (Inst3 A V)} (hok : ∀ i ∈ instances, Dict.Nodup i) (iterations : ℕ) (rf : Bool) :
    ∃ r h' sc', fit3 hid cfg sh instances iterations rf (h, sc) = (r, instances, h', sc') ∧
      match r with
      | .ok _ => ∃ ps, Passes instances rf ps ∧ ps.length = iterations ∧
          HReach3E hid cfg h' sc' (hist ++ ps.flatten) bad
      | .error _ => ∃ ps before i after, Passes instances rf (ps ++ [before ++ i :: after]) ∧ ps.length < iterations ∧
          HReach3E hid cfg h' sc' (hist ++ ps.flatten ++ before) (bad ++ [i]) := by
  obtain ⟨r, s', e, hm⟩ := C76_fit (ifit := cobweb3H hid cfg) (P := Dict.Nodup)
    (sh := fun l s => ((sh l s.1.w).1, { s.1 with w := (sh l s.1.w).2 }, s.2))
    (Inv := fun s done => HReach3E hid cfg s.1 s.2 done bad)
    (fun s done i a s' hI hi hs => .step hI hi hs)
    (fun l s done _ hI => ⟨hsh.perm _ _, .other hI (undisturbed_world (hsh.ctr _ _))⟩)
    hok iterations rf (s := (h, sc)) hr
  refine ⟨r, s'.1, s'.2, e, ?_⟩
  cases r with
  | ok u => exact hm
  | error x =>
    obtain ⟨ps, p, h1, h2, before, i, after, s, rfl, h3, h4⟩ := hm
    exact ⟨ps, before, i, after, h1, h2, .fail h3 (hok i ((h1.perm (before ++ i :: after) (by simp)).subset (by simp))) h4⟩

end

section
variable {c : TrestleCfg} {st : TState} {hist bad : List PyInst}

/-- **C106** for `fit` of a `TrestleTree`: the call that raises has either left everything as it was but for names used
up, or its preprocessed instance is one of those whose call raised while sorting. -/
theorem C106_fit_trestle (h : TrestleRunsE c st hist bad) {sh : Shuffle PyInst} (hsh : FitShuffle sh)
    {Ss : ℕ → Search} (hS : ∀ k, SearchLaws (Ss k)) {instances : List PyInst}
    (hok : ∀ i ∈ instances, Py.wf (.dict i)) (iterations : ℕ) (rf : Bool) :
    ∃ r Ss' st', trestleFit c sh instances iterations rf (Ss, st) = (r, instances, Ss', st') ∧
      match r with
      | .ok _ => ∃ ps temps, Passes instances rf ps ∧ ps.length = iterations ∧
          List.Forall₂ (Prepared c) ps.flatten temps ∧ TrestleRunsE c st' (hist ++ temps) bad
      | .error _ => ∃ ps before i after temps, Passes instances rf (ps ++ [before ++ i :: after]) ∧
          ps.length < iterations ∧ List.Forall₂ (Prepared c) (ps.flatten ++ before) temps ∧
          (TrestleRunsE c st' (hist ++ temps) bad ∨
            ∃ temp, Prepared c i temp ∧ TrestleRunsE c st' (hist ++ temps) (bad ++ [temp])) := by
  obtain ⟨r, s', e, hm⟩ := C76_fit
    (ifit := fun i (s : (ℕ → Search) × TState) =>
      ((trestleIfit c (s.1 0) i s.2).1, (fun k => s.1 (k + 1)), (trestleIfit c (s.1 0) i s.2).2))
    (P := fun i => Py.wf (.dict i))
    (sh := fun l s => ((sh l s.2.h.w).1, s.1, { s.2 with h := { s.2.h with w := (sh l s.2.h.w).2 } }))
    (Inv := fun s done => (∀ k, SearchLaws (s.1 k)) ∧ ∃ temps, List.Forall₂ (Prepared c) done temps ∧
      TrestleRunsE c s.2 (hist ++ temps) bad)
    (fun s done i a s' hI hi hs => by
      obtain ⟨h1, temps, h2, h3⟩ := hI
      simp only [Prod.mk.injEq] at hs
      obtain ⟨e1, rfl⟩ := hs
      have e2 : trestleIfit c (s.1 0) i s.2 = (.ok a, (trestleIfit c (s.1 0) i s.2).2) := Prod.ext e1 rfl
      obtain ⟨temp, e3, -, -⟩ := trestleIfit_prep e2
      refine ⟨fun k => h1 _, temps ++ [temp], List.rel_append h2 (.cons ⟨_, _, h1 0, e3⟩ .nil), ?_⟩
      rw [← List.append_assoc]
      exact .ifit h3 (h1 0) hi e3 e2)
    (fun l s done _ hI => ⟨hsh.perm _ _, hI.1, by
      obtain ⟨temps, h2, h3⟩ := hI.2
      exact ⟨temps, h2, .other h3 (undisturbed_world (hsh.ctr _ _))⟩⟩)
    hok iterations rf (s := (Ss, st)) (done := []) ⟨hS, [], .nil, by simpa using h⟩
  refine ⟨r, s'.1, s'.2, e, ?_⟩
  cases r with
  | ok u =>
    obtain ⟨ps, h1, h2, -, temps, h3, h4⟩ := hm
    exact ⟨ps, temps, h1, h2, by simpa using h3, h4⟩
  | error x =>
    obtain ⟨ps, p, h1, h2, before, i, after, s, rfl, ⟨hSs, temps, h3, h4⟩, h5⟩ := hm
    have hi := hok i ((h1.perm (before ++ i :: after) (by simp)).subset (by simp))
    refine ⟨ps, before, i, after, temps, h1, h2, by simpa using h3, ?_⟩
    obtain ⟨h6, rfl⟩ := Prod.mk.inj h5
    rcases trestleIfit_cases c (s.1 0) i s.2 with ⟨e', s1, k1, k2⟩ | ⟨temp, e', s1, k1, k2, k3⟩ | ⟨temp, s1, k1, k2, k3⟩
    · exact .inl (.rejected h4 (hSs 0) hi fun temp ht => by rw [k1] at ht; cases ht)
    · refine .inl (.rejected h4 (hSs 0) hi fun temp' ht => ?_)
      rw [k1] at ht; cases ht
      rw [k2]; simp
    · exact .inr ⟨temp, ⟨_, _, hSs 0, by rw [k1]⟩, .fail h4 (hSs 0) hi (by rw [k1]) k2 (Prod.ext h6 rfl)⟩

end

/-! ### Examples -/

/-- A step of Trestle that does not raise, followed by new random numbers. -/
theorem trestle_step {c : TrestleCfg} {st : TState} {hist : List PyInst} (hc : c.Ok) (h : TrestleRuns c st hist)
    {S : Search} (hS : SearchLaws S) {i temp : PyInst} (hw : Py.wf (.dict i)) (hp : (trestlePrep c S st i).1 = .ok temp)
    (hk : trestleCheck temp = .ok ())
    (hn : ¬ (Differ hid3 (hist.map inst3) ∧ ∃ j ∈ inst3 temp :: hist.map inst3, ¬ HasVisible hid3 j)) :
    ∃ st', TrestleRuns c st' (hist ++ [temp]) ∧ Function.Injective st'.h.w.rnd := by
  set st1 : TState := { st with h := { st.h with w := ⟨fun k => (k : ℚ), 0, st.h.w.ctr⟩ } } with hst1
  have h1 : TrestleRuns c st1 hist := .other h ⟨fun _ _ => rfl, le_refl _, rfl, le_refl _⟩
  have hp1 : (trestlePrep c S st1 i).1 = .ok temp := hp
  have hnd := inst3_nodup (prep_vars hc hS hw hp1).1
  obtain ⟨t, n, ht, -, hT⟩ := C57_tree hc h1
  obtain ⟨o, ho⟩ := (C63_ifit_raises_iff ht hnd (w := st1.h.w) (fun a b hab => by simpa [hst1] using hab)).2.2 hn
  have := C66_ifit_agrees_cobweb3 (trestle_heap hc h1) hT (inst3 temp)
  rw [ho] at this
  obtain ⟨a, h', r, hrun, -⟩ := this
  rcases trestleIfit_cases c S i st1 with ⟨e', s, k1, k2⟩ | ⟨temp', e', s, k1, k2, k3⟩ | ⟨temp', s, k1, k2, k3⟩
  · rw [k1] at hp1; cases hp1
  · rw [k1] at hp1; cases hp1
    rw [hk] at k2; cases k2
  · have e : temp' = temp := by rw [k1] at hp1; cases hp1; rfl
    subst e
    rw [hrun] at k3
    exact ⟨{ (⟨h', o.state.scales, s.1⟩ : TState) with h := { h' with w := ⟨fun k => (k : ℚ), 0, h'.w.ctr⟩ } },
      .other (.ifit h1 hS hw hp1 k3) ⟨fun _ _ => rfl, le_refl _, rfl, le_refl _⟩, fun a b hab => by simpa using hab⟩

/-- A new tree. -/
noncomputable def demoFresh : TState := trestleClear ⟨⟨fun _ => none, 0, 0, Demo.w0⟩, [], 0⟩

theorem demoFresh_nil : (trestlePrep demoTrestle demoSearch demoFresh []).1 = .ok [] := by
  have h : demoFresh.rootAttrs = [] := rfl
  unfold trestlePrep
  rw [h]
  rfl

/-- **C106**, negation of "a rejected instance has no effect": after the empty instance and the scene, all random numbers
being different, the call with the scene raises `ZeroDivisionError`.  No concept has changed, but `attr_scales` has the
scene's numbers a second time. -/
theorem C106_scales_witness : ∃ (st st' : TState) (temp temp' : PyInst), TrestleRuns demoTrestle st [[], temp] ∧
    Function.Injective st.h.w.rnd ∧ (trestlePrep demoTrestle demoSearch st demoScene).1 = .ok temp' ∧
    trestleCheck temp' = .ok () ∧ trestleIfit demoTrestle demoSearch demoScene st = (.error .zeroDiv, st') ∧
    Undisturbed st.h st'.h ∧
    ScalesObs st'.sc fun b => (scaleNums (innerAttr true) ([[], temp, temp'].map inst3) b : Multiset ℝ) := by
  have hw0 : Py.wf (.dict []) := by simp [Py.wf, Py.wfD, Dict.Nodup, Dict.keys]
  obtain ⟨hw, hf, hv⟩ := demoScene_fit
  obtain ⟨st1, r1, -⟩ := trestle_step demoTrestle_ok (.clear _) demoSearch_ok hw0 demoFresh_nil rfl fun h => differ_nil h.1
  obtain ⟨temp, p1, p2, -, p4⟩ := C71_prep demoTrestle_ok r1 demoSearch_ok demoSearch_total hw hf
  obtain ⟨st2, r2, w2⟩ := trestle_step demoTrestle_ok r1 demoSearch_ok hw p1 p2 fun h => differ_single _ h.1
  obtain ⟨temp', q1, q2, -, -⟩ := C71_prep demoTrestle_ok r2 demoSearch_ok demoSearch_total hw hf
  have hnd := inst3_nodup (prep_vars demoTrestle_ok demoSearch_ok hw q1).1
  obtain ⟨t, n, ht, -, hT⟩ := C57_tree demoTrestle_ok r2
  have hnv : ¬ HasVisible hid3 (inst3 []) := fun ⟨a, ha, _⟩ => by simp [inst3, Dict.keys] at ha
  have herr := (C63_ifit_raises_iff ht hnd w2).1.2 ⟨⟨inst3 [], by simp, inst3 temp, by simp, fun h => by
    exact hnv ((show SameVisible hid3 (inst3 temp) (inst3 []) from fun a ha => (h a ha).symm).hasVisible (p4 hv))⟩,
    inst3 [], by simp, hnv⟩
  have := C66_ifit_agrees_cobweb3 (trestle_heap demoTrestle_ok r2) hT (inst3 temp')
  rw [herr] at this
  simp only at this
  have he : (trestleIfit demoTrestle demoSearch demoScene st2).1 = .error .zeroDiv := by
    rcases trestleIfit_cases demoTrestle demoSearch demoScene st2 with
      ⟨e', s, k1, k2⟩ | ⟨temp1, e', s, k1, k2, k3⟩ | ⟨temp1, s, k1, k2, k3⟩
    · rw [k1] at q1; cases q1
    · rw [k1] at q1; cases q1
      rw [q2] at k2; cases k2
    · rw [k1] at q1; cases q1
      rw [k3]; exact this
  obtain ⟨-, hu, -, ho⟩ := C106_undisturbed demoTrestle_ok r2 w2 demoSearch_ok hw q1 q2
    (show trestleIfit demoTrestle demoSearch demoScene st2 = (.error .zeroDiv, _) from Prod.ext he rfl)
  exact ⟨st2, _, temp, temp', r2, w2, q1, q2, Prod.ext he rfl, hu, ho⟩

theorem TrestleRuns.toE {c : TrestleCfg} {st : TState} {hist : List PyInst} (h : TrestleRuns c st hist) :
    TrestleRunsE c st hist [] := by
  induction h with
  | clear st => exact .clear st
  | other _ hu ih => exact .other ih hu
  | ifit _ hS hw hp he ih => exact .ifit ih hS hw hp he
  | rejected _ hS hw hr ih => exact .rejected ih hS hw hr
  | categorize _ hS hw ih => exact .categorize ih hS hw
  | infer _ hS hw hN ih => exact .infer ih hS hw hN

/-- A run with a call that raised, for `C106_tree`, `C106_counts`, `C106_queries` and `C106_fit_trestle`. -/
example : ∃ st temp temp', TrestleRunsE demoTrestle st [[], temp] [temp'] := by
  obtain ⟨st, st', temp, temp', h, -, hp, hk, he, -⟩ := C106_scales_witness
  exact ⟨st', temp, temp', .fail h.toE demoSearch_ok demoScene_fit.1 hp hk he⟩

theorem demoFresh_list : (trestlePrep demoTrestle demoSearch demoFresh [(.str c!"k", .list [])]).1 =
    .ok [(.str c!"k", .list [])] := by
  have h : demoFresh.rootAttrs = [] := rfl
  unfold trestlePrep
  rw [h, show demoFresh.ctr = 0 from rfl]
  have : (match ((trestlePipe ⟨0, true, fun _ => [], id, 1000⟩ demoSearch []).transform
      [(.str c!"k", .list [])] (0, fun _ => none)).1 with
    | .ok [(.str k, .list [])] => decide (k = c!"k")
    | _ => false) = true := by decide +kernel
  have e : trestlePipe demoTrestle demoSearch [] = trestlePipe ⟨0, true, fun _ => [], id, 1000⟩ demoSearch [] := rfl
  rw [e]
  revert this
  generalize (trestlePipe ⟨0, true, fun _ => [], id, 1000⟩ demoSearch []).transform
      [(.str c!"k", .list [])] (0, fun _ => none) = r
  obtain ⟨r, s⟩ := r
  intro this
  dsimp only at this ⊢
  split at this
  · rw [of_decide_eq_true this]
  · cases this

/-- An instance that is rejected, for `C106_rejected`: `{'k': []}`, with a value that cannot be hashed. -/
example : ∀ temp, (trestlePrep demoTrestle demoSearch demoFresh [(.str c!"k", .list [])]).1 = .ok temp →
    trestleCheck temp ≠ .ok () := by
  intro temp h
  rw [demoFresh_list] at h
  cases h
  decide

end CF
