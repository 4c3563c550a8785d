/-
C76: `fit` of the three classes of trees.
-/
import Verif.Model.Fit
import Verif.Props.Trestle
import Verif.Proofs.FitAll

namespace CF

/-! ### The order in which instances are fitted -/

section
variable {I : Type}

/-- The passes of `fit`: each is a rearrangement of the instances; unless `randomize_first` is set, the first
one is the list as it was given. -/
structure Passes (instances : List I) (randomizeFirst : Bool) (ps : List (List I)) : Prop where
  perm : ∀ p ∈ ps, p.Perm instances
  first : randomizeFirst = false → ∀ p, ps.head? = some p → p = instances

/-- All passes together contain every instance once for every pass. -/
theorem Passes.total {instances : List I} {rf : Bool} {ps : List (List I)} (h : Passes instances rf ps) :
    ((ps.flatten : List I) : Multiset I) = ps.length • (instances : Multiset I) := by
  have : ∀ ps : List (List I), (∀ p ∈ ps, p.Perm instances) →
      ((ps.flatten : List I) : Multiset I) = ps.length • (instances : Multiset I) := by
    intro ps
    induction ps with
    | nil => intro _; simp
    | cons p ps ih =>
      intro hp
      rw [List.flatten_cons, ← Multiset.coe_add, ih fun q hq => hp q (by simp [hq]),
        Multiset.coe_eq_coe.2 (hp p (by simp)), List.length_cons, succ_nsmul, add_comm]
  exact this ps h.perm

variable {σ α : Type} {ifit : I → σ → Res α × σ} {sh : List I → σ → List I × σ} {Inv : σ → List I → Prop}

/-- The first call that fails among the calls for the list `l`, when `done` was fitted before. -/
def FailsAt (ifit : I → σ → Res α × σ) (Inv : σ → List I → Prop) (done l : List I) (e : PyErr) (s' : σ) : Prop :=
  ∃ before i after s, l = before ++ i :: after ∧ Inv s (done ++ before) ∧ ifit i s = (.error e, s')

theorem fitEach_spec {P : I → Prop}
    (hstep : ∀ s done i a s', Inv s done → P i → ifit i s = (.ok a, s') → Inv s' (done ++ [i])) :
    ∀ (l : List I) (s : σ) (done : List I), (∀ i ∈ l, P i) → Inv s done →
      match fitEach ifit l s with
      | (.ok _, s') => Inv s' (done ++ l)
      | (.error e, s') => FailsAt ifit Inv done l e s' := by
  intro l
  induction l with
  | nil => intro s done _ h; simpa [fitEach] using h
  | cons i l ih =>
    intro s done hp h
    rw [fitEach]
    rcases hi : ifit i s with ⟨r, s1⟩
    cases r with
    | error e => exact ⟨[], i, l, s, rfl, by simpa using h, hi⟩
    | ok a =>
      dsimp only
      have := ih s1 (done ++ [i]) (fun j hj => hp j (by simp [hj])) (hstep s done i a s1 h (hp i (by simp)) hi)
      generalize fitEach ifit l s1 = q at this
      obtain ⟨r, s2⟩ := q
      cases r with
      | ok u => simpa using this
      | error e =>
        obtain ⟨b, j, af, s3, rfl, h3, h4⟩ := this
        exact ⟨i :: b, j, af, s3, rfl, by simpa using h3, h4⟩

/-- What `fit` does, for any `ifit` that keeps an invariant when it returns: either it returns after all
passes, or one call of `ifit` raised; then the instances before it in the passes are fitted. -/
theorem fitPasses_spec {P : I → Prop}
    (hstep : ∀ s done i a s', Inv s done → P i → ifit i s = (.ok a, s') → Inv s' (done ++ [i]))
    (hsh : ∀ l s done, (∀ i ∈ l, P i) → Inv s done → (sh l s).1.Perm l ∧ Inv (sh l s).2 done)
    {instances : List I} {rf : Bool} (hP : ∀ i ∈ instances, P i) :
    ∀ (todo x : ℕ) (l : List I) (s : σ) (done : List I), l.Perm instances →
      (x = 0 → l = instances) → Inv s done →
      match fitPasses ifit sh rf x todo l s with
      | (.ok _, s') => ∃ ps : List (List I), ps.length = todo ∧ (∀ p ∈ ps, p.Perm instances) ∧
          (x = 0 → rf = false → ∀ p, ps.head? = some p → p = instances) ∧ Inv s' (done ++ ps.flatten)
      | (.error e, s') => ∃ (ps : List (List I)) (p : List I), ps.length < todo ∧ (∀ q ∈ ps ++ [p], q.Perm instances) ∧
          (x = 0 → rf = false → ∀ q, (ps ++ [p]).head? = some q → q = instances) ∧
          FailsAt ifit Inv (done ++ ps.flatten) p e s' := by
  intro todo
  induction todo with
  | zero =>
    intro x l s done _ _ h
    rw [fitPasses]
    exact ⟨[], rfl, by simp, by simp, by simpa using h⟩
  | succ todo ih =>
    intro x l s done hl hx h
    rw [fitPasses]
    have hPl : ∀ i ∈ l, P i := fun i hi => hP i (hl.mem_iff.1 hi)
    -- the list and the state at the beginning of the pass
    have key : ∃ l1 s1, (if x = 0 ∧ rf = true then sh l s else (l, s)) = (l1, s1) ∧ l1.Perm instances ∧
        (x = 0 → rf = false → l1 = instances) ∧ Inv s1 done := by
      by_cases hc : x = 0 ∧ rf = true
      · rw [if_pos hc]
        obtain ⟨h1, h2⟩ := hsh l s done hPl h
        exact ⟨_, _, rfl, h1.trans hl, fun _ hf => (by rw [hf] at hc; simp at hc), h2⟩
      · rw [if_neg hc]
        exact ⟨_, _, rfl, hl, fun h0 _ => hx h0, h⟩
    obtain ⟨l1, s1, e1, hl1, hx1, h1⟩ := key
    rw [e1]
    dsimp only
    have hPl1 : ∀ i ∈ l1, P i := fun i hi => hP i (hl1.mem_iff.1 hi)
    have hE := fitEach_spec hstep l1 s1 done hPl1 h1
    generalize fitEach ifit l1 s1 = q at hE
    obtain ⟨r, s2⟩ := q
    cases r with
    | error e =>
      refine ⟨[], l1, by simp, by simpa using hl1, ?_, by simpa using hE⟩
      intro h0 hf q hq
      simp only [List.nil_append, List.head?_cons, Option.some.injEq] at hq
      rw [← hq, hx1 h0 hf]
    | ok u =>
      dsimp only at hE ⊢
      obtain ⟨h3, h4⟩ := hsh l1 s2 (done ++ l1) hPl1 hE
      have := ih (x + 1) (sh l1 s2).1 (sh l1 s2).2 (done ++ l1) (h3.trans hl1) (by simp) h4
      generalize fitPasses ifit sh rf (x + 1) todo (sh l1 s2).1 (sh l1 s2).2 = q at this
      obtain ⟨r, s5⟩ := q
      have hhead : ∀ (ps : List (List I)), x = 0 → rf = false → ∀ p, (l1 :: ps).head? = some p → p = instances := by
        intro ps h0 hf p hp
        simp only [List.head?_cons, Option.some.injEq] at hp
        rw [← hp, hx1 h0 hf]
      cases r with
      | ok u =>
        obtain ⟨ps, hlen, hperm, -, hI⟩ := this
        exact ⟨l1 :: ps, by simp [hlen], by simpa using ⟨hl1, hperm⟩, hhead ps, by simpa using hI⟩
      | error e =>
        obtain ⟨ps, p, hlen, hperm, -, hF⟩ := this
        refine ⟨l1 :: ps, p, by simpa using hlen, ?_, hhead (ps ++ [p]), by simpa using hF⟩
        intro q hq
        rcases List.mem_cons.1 hq with rfl | hq
        · exact hl1
        · exact hperm q hq

/-- **C76**, for the `ifit` of any class of trees (`Inv s l` says that the state is `s` after fitting `l`):
if `fit` returns, it has fitted all instances once in each of `iterations` passes, in rearranged order.  If it
raises, it was a call of `ifit` that raised; what comes before it in the passes was fitted, nothing after it.
The caller's list is as before. -/
theorem C76_fit {P : I → Prop}
    (hstep : ∀ s done i a s', Inv s done → P i → ifit i s = (.ok a, s') → Inv s' (done ++ [i]))
    (hsh : ∀ l s done, (∀ i ∈ l, P i) → Inv s done → (sh l s).1.Perm l ∧ Inv (sh l s).2 done)
    {instances : List I} (hP : ∀ i ∈ instances, P i) (iterations : ℕ) (rf : Bool) {s : σ} {done : List I}
    (h : Inv s done) :
    ∃ r s', fitWith ifit sh instances iterations rf s = (r, instances, s') ∧
      match r with
      | .ok _ => ∃ ps, Passes instances rf ps ∧ ps.length = iterations ∧ Inv s' (done ++ ps.flatten)
      | .error e => ∃ ps p, Passes instances rf (ps ++ [p]) ∧ ps.length < iterations ∧
          FailsAt ifit Inv (done ++ ps.flatten) p e s' := by
  have := fitPasses_spec hstep hsh (rf := rf) hP iterations 0 instances s done (List.Perm.refl _) (fun _ => rfl) h
  refine ⟨_, _, rfl, ?_⟩
  generalize fitPasses ifit sh rf 0 iterations instances s = q at this
  obtain ⟨r, s'⟩ := q
  cases r with
  | ok u =>
    obtain ⟨ps, h1, h2, h3, h4⟩ := this
    exact ⟨ps, ⟨h2, h3 rfl⟩, h1, h4⟩
  | error e =>
    obtain ⟨ps, p, h1, h2, h3, h4⟩ := this
    exact ⟨ps, p, ⟨h2, h3 rfl⟩, h1, h4⟩

end

/-- Shuffling makes no nodes. -/
structure FitShuffle {I : Type} (sh : Shuffle I) : Prop where
  perm : ∀ l w, (sh l w).1.Perm l
  ctr : ∀ l w, (sh l w).2.ctr = w.ctr

theorem undisturbed_world {S : Type} {h : Heap S} {w : World} (hw : w.ctr = h.w.ctr) : Undisturbed h { h with w := w } :=
  ⟨fun _ _ => rfl, le_refl _, rfl, le_of_eq hw.symm⟩

/-! ### CobwebTree -/

section
variable {A V : Type} [DecidableEq A] [DecidableEq V] {hid : A → Bool}
variable {h : Heap (Stats A V)} {hist : List (Inst A V)}

/-- **C76** for `CobwebTree`: a `fit` that returns has fitted every instance `iterations` times. -/
theorem C76_fit_cobweb (hr : CobwebHeap hid h hist) {sh : Shuffle (Inst A V)} (hsh : FitShuffle sh)
    {instances : List (Inst A V)} (hok : ∀ i ∈ instances, Dict.Nodup i) {iterations : ℕ} {rf : Bool}
    {l' : List (Inst A V)} {h' : Heap (Stats A V)}
    (hf : fitH hid sh instances iterations rf h = (.ok (), l', h')) :
    l' = instances ∧ ∃ ps, Passes instances rf ps ∧ ps.length = iterations ∧
      CobwebHeap hid h' (hist ++ ps.flatten) := by
  obtain ⟨r, s', e, hm⟩ := C76_fit (ifit := cobwebH (cobwebClass hid) (fun _ => Stats.ecg (K := ℚ) hid))
    (P := Dict.Nodup) (sh := fun l h => ((sh l h.w).1, { h with w := (sh l h.w).2 }))
    (Inv := fun s done => CobwebHeap hid s done)
    (fun s done i a s' hI hi hs => .step hI rfl hi hs)
    (fun l s done _ hI => ⟨hsh.perm _ _, .other hI (undisturbed_world (hsh.ctr _ _))⟩)
    hok iterations rf (s := h) hr
  have : fitH hid sh instances iterations rf h = _ := e
  rw [hf] at this
  cases this
  exact ⟨rfl, hm⟩

/-- **C76**: `fit` of instances with visible attributes never raises. -/
theorem C76_fit_cobweb_never_raises (hr : CobwebHeap hid h hist) (hv : ∀ j ∈ hist, HasVisible hid j)
    {sh : Shuffle (Inst A V)} (hsh : FitShuffle sh) (hshr : ∀ l w, (sh l w).2.rnd = w.rnd)
    {instances : List (Inst A V)} (hok : ∀ i ∈ instances, Dict.Nodup i ∧ HasVisible hid i)
    (hw : Function.Injective h.w.rnd) (iterations : ℕ) (rf : Bool) :
    ∃ h', fitH hid sh instances iterations rf h = (.ok (), instances, h') := by
  have step : ∀ {s : Heap (Stats A V)} {done : List (Inst A V)} {i : Inst A V}, CobwebHeap hid s done →
      (∀ j ∈ done, HasVisible hid j) → Function.Injective s.w.rnd → Dict.Nodup i ∧ HasVisible hid i →
      ∃ a s', cobwebH (cobwebClass hid) (fun _ => Stats.ecg (K := ℚ) hid) i s = (.ok a, s') ∧ s'.w.rnd = s.w.rnd := by
    intro s done i h1 h2 h3 hi
    obtain ⟨t, n, h4, -, h5⟩ := C66_store_is_tree h1
    obtain ⟨o, ho⟩ := C07_ifit_never_raises_partial h4 h2 hi.1 hi.2 h3
    have hA := C66_ifit_agrees h1 h5 i
    rw [ho] at hA
    obtain ⟨a, h', r, e, -, hw', -⟩ := hA
    exact ⟨a, h', e, by rw [hw', cobwebLoop_rnd _ _ _ _ ho]⟩
  obtain ⟨r, h', e, hm⟩ := C76_fit (ifit := cobwebH (cobwebClass hid) (fun _ => Stats.ecg (K := ℚ) hid))
    (P := fun i => Dict.Nodup i ∧ HasVisible hid i) (sh := fun l h => ((sh l h.w).1, { h with w := (sh l h.w).2 }))
    (Inv := fun s done => CobwebHeap hid s done ∧ (∀ j ∈ done, HasVisible hid j) ∧ Function.Injective s.w.rnd)
    (fun s done i a s' hI hi hs => ⟨.step hI.1 rfl hi.1 hs, by
      intro j hj
      rcases List.mem_append.1 hj with hj | hj
      · exact hI.2.1 j hj
      · rw [List.mem_singleton] at hj; exact hj ▸ hi.2, by
      obtain ⟨a', s2, e, hr⟩ := step hI.1 hI.2.1 hI.2.2 hi
      rw [e] at hs
      cases hs
      rw [hr]; exact hI.2.2⟩)
    (fun l s done _ hI => ⟨hsh.perm _ _, .other hI.1 (undisturbed_world (hsh.ctr _ _)), hI.2.1, by
      show Function.Injective (sh l s.w).2.rnd
      rw [hshr]; exact hI.2.2⟩)
    hok iterations rf (s := h) ⟨hr, hv, hw⟩
  refine ⟨h', ?_⟩
  have e' : fitH hid sh instances iterations rf h = _ := e
  rw [e']
  cases r with
  | ok u => rfl
  | error x =>
    exfalso
    obtain ⟨ps, p, hp, -, b, i, af, h1, rfl, ⟨hI1, hI2, hI3⟩, hx⟩ := hm
    have hi := hok i ((hp.perm (b ++ i :: af) (by simp)).mem_iff.1 (by simp))
    obtain ⟨a, s2, e2, -⟩ := step hI1 hI2 hI3 hi
    rw [e2] at hx
    cases hx

end

/-! ### Cobweb3Tree -/

section
variable {A B V : Type} [DecidableEq A] [DecidableEq B] [DecidableEq V] {hid : A → Bool} {cfg : Cfg3 A B}
variable {h : Heap (Stats3 A V)} {sc : Scales B} {hist : List (Inst3 A V)}

/-- **C76** for `Cobweb3Tree` (C09 is the same for `CobwebTree`): a `fit` that returns has fitted every instance
`iterations` times. -/
theorem C76_fit_cobweb3 (hr : HReach3 hid cfg h sc hist) {sh : Shuffle (Inst3 A V)} (hsh : FitShuffle sh)
    {instances : List (Inst3 A V)} (hok : ∀ i ∈ instances, Dict.Nodup i) {iterations : ℕ} {rf : Bool}
    {l' : List (Inst3 A V)} {h' : Heap (Stats3 A V)} {sc' : Scales B}
    (hf : fit3 hid cfg sh instances iterations rf (h, sc) = (.ok (), l', h', sc')) :
    l' = instances ∧ ∃ ps, Passes instances rf ps ∧ ps.length = iterations ∧
      HReach3 hid cfg h' sc' (hist ++ ps.flatten) := by
  obtain ⟨r, s', e, hm⟩ := C76_fit (ifit := cobweb3H hid cfg) (P := Dict.Nodup)
    (sh := fun l s => ((sh l s.1.w).1, { s.1 with w := (sh l s.1.w).2 }, s.2))
    (Inv := fun s done => HReach3 hid cfg s.1 s.2 done)
    (fun s done i a s' hI hi hs => .step hI hi hs)
    (fun l s done _ hI => ⟨hsh.perm _ _, .other hI (undisturbed_world (hsh.ctr _ _))⟩)
    hok iterations rf (s := (h, sc)) hr
  have : fit3 hid cfg sh instances iterations rf (h, sc) = _ := e
  rw [hf] at this
  cases this
  exact ⟨rfl, hm⟩

/-- **C76**: so the root of the tree counts `iterations` times the instances more. -/
theorem C76_fit_cobweb3_root (hr : HReach3 hid cfg h sc hist) {sh : Shuffle (Inst3 A V)} (hsh : FitShuffle sh)
    {instances : List (Inst3 A V)} (hok : ∀ i ∈ instances, Dict.Nodup i) {iterations : ℕ} {rf : Bool}
    {l' : List (Inst3 A V)} {h' : Heap (Stats3 A V)} {sc' : Scales B}
    (hf : fit3 hid cfg sh instances iterations rf (h, sc) = (.ok (), l', h', sc')) {t : Tree (Stats3 A V)}
    (ht : IsTree h' h'.root t) :
    Summarizes3 t.stats ((hist : Multiset (Inst3 A V)) + iterations • (instances : Multiset _)) := by
  obtain ⟨-, ps, hp, rfl, hr'⟩ := C76_fit_cobweb3 hr hsh hok hf
  obtain ⟨t', n, h1, -, h3⟩ := C66_store_is_tree_cobweb3 hr'
  rw [ht.unique h3]
  have := (C29_every_node h1).1
  rwa [← Multiset.coe_add, hp.total] at this

theorem ifit3_rnd {st : State3 A B V} {i : Inst3 A V} {w : World} {o : Out3 A B V}
    (h : ifit3 hid cfg st i w = .ok o) : o.w.rnd = w.rnd := by
  simp only [ifit3, bind_ok, pure_ok] at h
  obtain ⟨o1, h1, rfl⟩ := h
  exact cobwebLoop_rnd _ _ _ _ h1

theorem cobweb3H_rnd (hr : HReach3 hid cfg h sc hist) {i : Inst3 A V} {a : ℕ} {h' : Heap (Stats3 A V)}
    {sc' : Scales B} (hs : cobweb3H hid cfg i (h, sc) = (.ok a, h', sc')) : h'.w.rnd = h.w.rnd := by
  obtain ⟨t, n, -, -, ht⟩ := C66_store_is_tree_cobweb3 hr
  have hA := C66_ifit_agrees_cobweb3 hr ht i
  cases ho : ifit3 hid cfg ⟨t, sc⟩ i h.w with
  | error e => rw [ho] at hA; rw [hs] at hA; cases hA
  | ok o =>
    rw [ho] at hA
    obtain ⟨a', h2, r, e, -, hw, -⟩ := hA
    rw [hs] at e
    cases e
    rw [hw, ifit3_rnd ho]

/-- **C76**: `fit` of instances with visible attributes never raises, if no two random numbers coincide and
those of the tree have visible attributes. -/
theorem C76_fit_cobweb3_never_raises (hr : HReach3 hid cfg h sc hist) (hv : ∀ j ∈ hist, HasVisible hid j)
    {sh : Shuffle (Inst3 A V)} (hsh : FitShuffle sh) (hshr : ∀ l w, (sh l w).2.rnd = w.rnd)
    {instances : List (Inst3 A V)} (hok : ∀ i ∈ instances, Dict.Nodup i ∧ HasVisible hid i)
    (hw : Function.Injective h.w.rnd) (iterations : ℕ) (rf : Bool) :
    ∃ h' sc', fit3 hid cfg sh instances iterations rf (h, sc) = (.ok (), instances, h', sc') := by
  obtain ⟨r, ⟨h', sc'⟩, e, hm⟩ := C76_fit (ifit := cobweb3H hid cfg) (P := fun i => Dict.Nodup i ∧ HasVisible hid i)
    (sh := fun l s => ((sh l s.1.w).1, { s.1 with w := (sh l s.1.w).2 }, s.2))
    (Inv := fun s done => HReach3 hid cfg s.1 s.2 done ∧ (∀ j ∈ done, HasVisible hid j) ∧
      Function.Injective s.1.w.rnd)
    (fun s done i a s' hI hi hs => ⟨.step hI.1 hi.1 hs, by
      intro j hj
      rcases List.mem_append.1 hj with hj | hj
      · exact hI.2.1 j hj
      · rw [List.mem_singleton] at hj; exact hj ▸ hi.2, by
      rw [cobweb3H_rnd hI.1 hs]; exact hI.2.2⟩)
    (fun l s done _ hI => ⟨hsh.perm _ _, .other hI.1 (undisturbed_world (hsh.ctr _ _)), hI.2.1, by
      show Function.Injective (sh l s.1.w).2.rnd
      rw [hshr]; exact hI.2.2⟩)
    hok iterations rf (s := (h, sc)) ⟨hr, hv, hw⟩
  refine ⟨h', sc', ?_⟩
  have e' : fit3 hid cfg sh instances iterations rf (h, sc) = _ := e
  rw [e']
  cases r with
  | ok u => rfl
  | error x =>
    exfalso
    obtain ⟨ps, p, hp, -, b, i, af, ⟨h1, sc1⟩, rfl, ⟨hI1, hI2, hI3⟩, hx⟩ := hm
    have hi := hok i ((hp.perm (b ++ i :: af) (by simp)).mem_iff.1 (by simp))
    obtain ⟨t, n, h3, -, h5⟩ := C66_store_is_tree_cobweb3 hI1
    obtain ⟨o, ho⟩ := C63_ifit_never_raises h3 hI2 hi.1 hi.2 hI3
    have hA := C66_ifit_agrees_cobweb3 hI1 h5 i
    rw [ho] at hA
    obtain ⟨a', h2, r, e2, -⟩ := hA
    rw [e2] at hx
    cases hx

end

/-! ### TrestleTree -/

section
variable {c : TrestleCfg} {st : TState} {hist : List PyInst}

/-- `temp` is what the preprocessing makes of `i` in some state of the tree. -/
def Prepared (c : TrestleCfg) (i temp : PyInst) : Prop :=
  ∃ (S : Search) (st : TState), SearchLaws S ∧ (trestlePrep c S st i).1 = .ok temp

/-- A call of `ifit` that returns has preprocessed the instance. -/
theorem trestleIfit_prep {S : Search} {i : PyInst} {a : ℕ} {st' : TState} (h : trestleIfit c S i st = (.ok a, st')) :
    ∃ temp, (trestlePrep c S st i).1 = .ok temp ∧ trestleCheck temp = .ok () ∧
      cobweb3H hid3 c.cobweb3 (inst3 temp) (st.h, st.sc) = (.ok a, st'.h, st'.sc) := by
  unfold trestleIfit at h
  generalize trestlePrep c S st i = p at h ⊢
  obtain ⟨r, s⟩ := p
  cases r with
  | error e => cases h
  | ok temp =>
    refine ⟨temp, rfl, ?_⟩
    dsimp only at h
    cases hk : trestleCheck temp with
    | error e => rw [hk] at h; cases h
    | ok u =>
      rw [hk] at h
      dsimp only at h
      generalize cobweb3H hid3 c.cobweb3 (inst3 temp) (st.h, st.sc) = q at h ⊢
      obtain ⟨r, h', sc⟩ := q
      cases h
      exact ⟨rfl, rfl⟩

/-- The instances that were fitted are `done`, preprocessed. -/
def FittedTrestle (c : TrestleCfg) (hist : List PyInst) (s : (ℕ → Search) × TState) (done : List PyInst) : Prop :=
  (∀ k, SearchLaws (s.1 k)) ∧ ∃ temps, List.Forall₂ (Prepared c) done temps ∧ TrestleRuns c s.2 (hist ++ temps)

/-- **C76** for `TrestleTree`: a `fit` that returns has fitted every instance `iterations` times, as the
preprocessing made it. -/
theorem C76_fit_trestle (h : TrestleRuns c st hist) {sh : Shuffle PyInst} (hsh : FitShuffle sh)
    {Ss Ss' : ℕ → Search} (hS : ∀ k, SearchLaws (Ss k)) {instances : List PyInst}
    (hok : ∀ i ∈ instances, Py.wf (.dict i)) {iterations : ℕ} {rf : Bool} {l' : List PyInst} {st' : TState}
    (hf : trestleFit c sh instances iterations rf (Ss, st) = (.ok (), l', Ss', st')) :
    l' = instances ∧ ∃ ps temps, Passes instances rf ps ∧ ps.length = iterations ∧
      List.Forall₂ (Prepared c) ps.flatten temps ∧ TrestleRuns c st' (hist ++ temps) := by
  obtain ⟨r, s', e, hm⟩ := C76_fit
    (ifit := fun i (s : (ℕ → Search) × TState) =>
      ((trestleIfit c (s.1 0) i s.2).1, (fun k => s.1 (k + 1)), (trestleIfit c (s.1 0) i s.2).2))
    (P := fun i => Py.wf (.dict i))
    (sh := fun l s => ((sh l s.2.h.w).1, s.1, { s.2 with h := { s.2.h with w := (sh l s.2.h.w).2 } }))
    (Inv := FittedTrestle c hist)
    (fun s done i a s' hI hi hs => by
      obtain ⟨h1, temps, h2, h3⟩ := hI
      simp only [Prod.mk.injEq] at hs
      obtain ⟨e1, rfl⟩ := hs
      have e2 : trestleIfit c (s.1 0) i s.2 = (.ok a, (trestleIfit c (s.1 0) i s.2).2) := Prod.ext e1 rfl
      obtain ⟨temp, e3, -, -⟩ := trestleIfit_prep e2
      refine ⟨fun k => h1 _, temps ++ [temp], List.rel_append h2 (.cons ⟨_, _, h1 0, e3⟩ .nil), ?_⟩
      rw [← List.append_assoc]
      exact .ifit h3 (h1 0) hi e3 e2)
    (fun l s done _ hI => ⟨hsh.perm _ _, hI.1, by
      obtain ⟨temps, h2, h3⟩ := hI.2
      exact ⟨temps, h2, .other h3 (undisturbed_world (hsh.ctr _ _))⟩⟩)
    hok iterations rf (s := (Ss, st)) (done := []) ⟨hS, [], .nil, by simpa using h⟩
  have : trestleFit c sh instances iterations rf (Ss, st) = _ := e
  rw [hf] at this
  cases this
  obtain ⟨ps, h1, h2, -, temps, h3, h4⟩ := hm
  exact ⟨rfl, ps, temps, h1, h2, by simpa using h3, h4⟩

/-- **C76**: and the root counts them. -/
theorem C76_fit_trestle_count (hc : c.Ok) (h : TrestleRuns c st hist) {sh : Shuffle PyInst} (hsh : FitShuffle sh)
    {Ss Ss' : ℕ → Search} (hS : ∀ k, SearchLaws (Ss k)) {instances : List PyInst}
    (hok : ∀ i ∈ instances, Py.wf (.dict i)) {iterations : ℕ} {rf : Bool} {l' : List PyInst} {st' : TState}
    (hf : trestleFit c sh instances iterations rf (Ss, st) = (.ok (), l', Ss', st')) {t : Tree (Stats3 Py Py)}
    (ht : IsTree st'.h st'.h.root t) : t.stats.count = hist.length + iterations * instances.length := by
  obtain ⟨-, ps, temps, h1, h2, h3, h4⟩ := C76_fit_trestle h hsh hS hok hf
  have := (C57_every_node hc h4 ht).1.count
  have hl : ps.flatten.length = iterations * instances.length := by
    have := congrArg Multiset.card h1.total
    simpa [h2] using this
  rw [this]
  simp [← h3.length_eq, hl]

/-- **C76**: `fit` of well-formed structured instances never raises, if the external searches return, no two
random numbers coincide, and the fitted instances have visible attributes. -/
theorem C76_fit_trestle_never_raises (hc : c.Ok) (h : TrestleRuns c st hist)
    (hv : ∀ j ∈ hist, HasVisible hid3 (inst3 j)) {sh : Shuffle PyInst} (hsh : FitShuffle sh)
    (hshr : ∀ l w, (sh l w).2.rnd = w.rnd) {Ss : ℕ → Search} (hS : ∀ k, SearchLaws (Ss k))
    (hT : ∀ k, SearchTotal (Ss k)) {instances : List PyInst}
    (hok : ∀ i ∈ instances, Py.wf (.dict i) ∧ FitInst i ∧ VisInst i) (hw : Function.Injective st.h.w.rnd)
    (iterations : ℕ) (rf : Bool) :
    ∃ s', trestleFit c sh instances iterations rf (Ss, st) = (.ok (), instances, s') := by
  obtain ⟨r, s', e, hm⟩ := C76_fit
    (ifit := fun i (s : (ℕ → Search) × TState) =>
      ((trestleIfit c (s.1 0) i s.2).1, (fun k => s.1 (k + 1)), (trestleIfit c (s.1 0) i s.2).2))
    (P := fun i => Py.wf (.dict i) ∧ FitInst i ∧ VisInst i)
    (sh := fun l s => ((sh l s.2.h.w).1, s.1, { s.2 with h := { s.2.h with w := (sh l s.2.h.w).2 } }))
    (Inv := fun s _ => (∀ k, SearchLaws (s.1 k)) ∧ (∀ k, SearchTotal (s.1 k)) ∧ Function.Injective s.2.h.w.rnd ∧
      ∃ hist, TrestleRuns c s.2 hist ∧ ∀ j ∈ hist, HasVisible hid3 (inst3 j))
    (fun s done i a s' hI hi hs => by
      obtain ⟨h1, h2, h3, hist, h4, h5⟩ := hI
      simp only [Prod.mk.injEq] at hs
      obtain ⟨e1, rfl⟩ := hs
      have e2 : trestleIfit c (s.1 0) i s.2 = (.ok a, (trestleIfit c (s.1 0) i s.2).2) := Prod.ext e1 rfl
      obtain ⟨temp, e3, -, e4⟩ := trestleIfit_prep e2
      obtain ⟨temp', e5, -, -, h6⟩ := C71_prep hc h4 (h1 0) (h2 0) hi.1 hi.2.1
      rw [e3] at e5
      cases e5
      refine ⟨fun k => h1 _, fun k => h2 _, ?_, _, .ifit h4 (h1 0) hi.1 e3 e2, ?_⟩
      · show Function.Injective (trestleIfit c (s.1 0) i s.2).2.h.w.rnd
        rw [cobweb3H_rnd (trestle_heap hc h4) e4]
        exact h3
      · intro j hj
        rcases List.mem_append.1 hj with hj | hj
        · exact h5 j hj
        · rw [List.mem_singleton] at hj
          exact hj ▸ h6 hi.2.2)
    (fun l s done _ hI => ⟨hsh.perm _ _, hI.1, hI.2.1, by
      show Function.Injective (sh l s.2.h.w).2.rnd
      rw [hshr]; exact hI.2.2.1, by
      obtain ⟨hist, h2, h3⟩ := hI.2.2.2
      exact ⟨hist, .other h2 (undisturbed_world (hsh.ctr _ _)), h3⟩⟩)
    hok iterations rf (s := (Ss, st)) (done := []) ⟨hS, hT, hw, hist, h, hv⟩
  refine ⟨s', ?_⟩
  have e' : trestleFit c sh instances iterations rf (Ss, st) = _ := e
  rw [e']
  cases r with
  | ok u => rfl
  | error x =>
    exfalso
    obtain ⟨ps, p, hp, -, b, i, af, s1, rfl, ⟨hI1, hI2, hI3, hist', hI4, hI5⟩, hx⟩ := hm
    have hi := hok i ((hp.perm (b ++ i :: af) (by simp)).mem_iff.1 (by simp))
    obtain ⟨a, st', temp, ha, -⟩ := C71_ifit_never_raises hc hI4 hI5 (hI1 0) (hI2 0) hi.1 hi.2.1 hi.2.2 hI3
    simp only [ha, Prod.mk.injEq] at hx
    exact nomatch hx.1

end

/-! ### Examples -/

/-- Reversing a list is a shuffle. -/
theorem reverse_shuffle {I : Type} : FitShuffle (fun (l : List I) w => (l.reverse, w)) :=
  ⟨fun l _ => l.reverse_perm, fun _ _ => rfl⟩

/-- A new tree fitted three times with two scenes, one of them with hidden attributes too. -/
example : ∃ s' : (ℕ → Search) × TState, ∃ t : Tree (Stats3 Py Py),
    trestleFit demoTrestle (fun l w => (l.reverse, w)) [demoScene, [(.str c!"k", .num 2)]] 3 true
      (fun _ => demoSearch, trestleClear ⟨⟨fun _ => none, 0, 0, ⟨fun k => (k : ℚ), 0, 0⟩⟩, [], 0⟩) =
        (.ok (), [demoScene, [(.str c!"k", .num 2)]], s') ∧ IsTree s'.2.h s'.2.h.root t ∧ t.stats.count = 6 := by
  have hok : ∀ i ∈ [demoScene, [(.str c!"k", .num 2)]], Py.wf (.dict i) ∧ FitInst i ∧ VisInst i := by
    intro i hi
    rcases List.mem_cons.1 hi with rfl | hi
    · exact demoScene_fit
    · rw [List.mem_singleton] at hi
      subst hi
      refine ⟨?_, ?_, ?_⟩
      · simp [Py.wf, Py.wfD, Dict.Nodup, Dict.keys]
      · simp [FitInst, FitVal, FitAttr, Py.hashable]
      · simp [VisInst, VisLeaf, hid3, Py.index0]
  obtain ⟨s', hs⟩ := C76_fit_trestle_never_raises demoTrestle_ok
    (.clear ⟨⟨fun _ => none, 0, 0, ⟨fun k => (k : ℚ), 0, 0⟩⟩, [], 0⟩) (by simp) reverse_shuffle (fun _ _ => rfl)
    (fun _ => demoSearch_ok) (fun _ => demoSearch_total) hok (fun a b hab => Nat.cast_injective (R := ℚ) hab) 3 true
  have hw : ∀ i ∈ [demoScene, [(.str c!"k", .num 2)]], Py.wf (.dict i) := fun i hi => (hok i hi).1
  obtain ⟨-, ps, temps, -, -, -, hr⟩ := C76_fit_trestle (Ss' := s'.1) (st' := s'.2)
    (.clear ⟨⟨fun _ => none, 0, 0, ⟨fun k => (k : ℚ), 0, 0⟩⟩, [], 0⟩) reverse_shuffle (fun _ => demoSearch_ok) hw hs
  obtain ⟨t, -, -, -, ht⟩ := C57_tree demoTrestle_ok hr
  refine ⟨s', t, hs, ht, ?_⟩
  simpa using C76_fit_trestle_count (Ss' := s'.1) (st' := s'.2) demoTrestle_ok
    (.clear ⟨⟨fun _ => none, 0, 0, ⟨fun k => (k : ℚ), 0, 0⟩⟩, [], 0⟩) reverse_shuffle (fun _ => demoSearch_ok) hw hs ht

end CF
