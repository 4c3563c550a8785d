/-
`cluster_iter` on the stores of Cobweb and Cobweb/3 trees.
-/
import Verif.Proofs.Cluster
import Verif.Props.Heap

set_option linter.unusedSectionVars false

namespace CF
variable {I S K H σ : Type} [Field K] [LinearOrder K] [LinearOrder H]

/-! ### Fitting the instances -/

/-- `fit` keeps the invariant `R` between the state and its tree, keeps leaves, and returns a leaf. -/
def Fits (Ok : I → Prop) (R : σ → Tree (ℕ × S) → Prop) (fit : I → σ → Res ℕ × σ) : Prop :=
  ∀ i s dt a s', Ok i → R s dt → fit i s = (.ok a, s') →
    ∃ dt', R s' dt' ∧ dt.LeavesStay dt' ∧ ∃ x ∈ dt'.nodes, x.addr = a ∧ x.children = []

theorem Tree.LeavesStay.trans {a b c : Tree (ℕ × S)} (h : a.LeavesStay b) (h' : b.LeavesStay c) :
    a.LeavesStay c := by
  intro x hx hxc
  obtain ⟨y, hy, h1, h2, hyc⟩ := h x hx hxc
  obtain ⟨z, hz, h3, h4, hzc⟩ := h' y hy hyc
  exact ⟨z, hz, h3.trans h1, h4.trans h2, hzc⟩

theorem Tree.LeavesStay.refl (a : Tree (ℕ × S)) : a.LeavesStay a :=
  fun x hx hxc => ⟨x, hx, rfl, rfl, hxc⟩

theorem fitAll_spec {Ok : I → Prop} {R : σ → Tree (ℕ × S) → Prop} {fit : I → σ → Res ℕ × σ}
    (hF : Fits Ok R fit) : ∀ {insts : List I} {s s' : σ} {dt : Tree (ℕ × S)} {as : List ℕ},
    (∀ i ∈ insts, Ok i) → R s dt → fitAll fit insts s = (.ok as, s') →
    ∃ dt', R s' dt' ∧ dt.LeavesStay dt' ∧ as.length = insts.length ∧
      ∃ xs : List (Tree (ℕ × S)), as = xs.map Tree.addr ∧ ∀ x ∈ xs, x ∈ dt'.nodes ∧ x.children = [] := by
  intro insts
  induction insts with
  | nil =>
    intro s s' dt as _ hR e
    cases e
    exact ⟨dt, hR, .refl _, rfl, [], rfl, by simp⟩
  | cons i insts ih =>
    intro s s' dt as hok hR e
    unfold fitAll at e
    cases e1 : fit i s with
    | mk r s1 =>
      rw [e1] at e
      cases r with
      | error x => cases e
      | ok a =>
        simp only at e
        obtain ⟨dt1, hR1, hst1, x, hx, rfl, hxc⟩ := hF i s dt a s1 (hok i (by simp)) hR e1
        cases e2 : fitAll fit insts s1 with
        | mk r2 s2 =>
          rw [e2] at e
          cases r2 with
          | error x => cases e
          | ok as2 =>
            cases e
            obtain ⟨dt2, hR2, hst2, hlen, xs, rfl, hxs⟩ := ih (fun j hj => hok j (by simp [hj])) hR1 e2
            obtain ⟨y, hy, hya, -, hyc⟩ := hst2 x hx hxc
            refine ⟨dt2, hR2, hst1.trans hst2, by simpa using hlen, y :: xs, by simp [hya], ?_⟩
            intro z hz
            rcases List.mem_cons.1 hz with rfl | hz
            · exact ⟨hy, hyc⟩
            · exact hxs z hz

/-! ### Cobweb and Cobweb/3 -/

theorem ids_erase (dt : Tree (ℕ × S)) : dt.erase.ids = dt.ids := by
  revert dt
  apply Tree.ind
  rintro id ⟨a, s⟩ cs ih
  rw [Tree.erase_node, Tree.ids_node, Tree.ids_node, List.flatMap_map]
  congr 1
  exact List.flatMap_congr ih

theorem CatAgrees.leaf {h h' : Heap S} {dt : Tree (ℕ × S)} {x : Res (Tree S × World)} {a : ℕ}
    (hA : CatAgrees h.next h dt x (.ok a, h')) :
    Undisturbed h h' ∧ ∃ y ∈ dt.nodes, y.addr = a ∧ y.children = [] := by
  obtain ⟨k, c, hx⟩ := hA
  refine ⟨⟨k.objs, k.next, k.root, c⟩, ?_⟩
  cases x with
  | error e => cases hx
  | ok p =>
    obtain ⟨t, w⟩ := p
    obtain ⟨-, y, hy, -, hyc, e⟩ := hx
    cases e
    exact ⟨y, hy, rfl, hyc⟩

section
variable {A B V : Type} [DecidableEq A] [DecidableEq B] [DecidableEq V] {hid : A → Bool} {cfg : Cfg3 A B}

/-- The store of a Cobweb tree whose instances satisfy `P`; with `b` there is at least one. -/
def RC (hid : A → Bool) (P : Inst A V → Prop) (b : Bool) (h : Heap (Stats A V))
    (dt : Tree (ℕ × Stats A V)) : Prop :=
  Good h dt ∧ ∃ hist n, CobwebReach hid dt.erase hist n ∧ n ≤ h.w.ctr ∧ (∀ i ∈ hist, P i) ∧
    (b = true → hist ≠ [])

theorem rc_of_heap {P : Inst A V → Prop} {h : Heap (Stats A V)} {hist : List (Inst A V)}
    (hr : CobwebHeap hid h hist) (hP : ∀ i ∈ hist, P i) {b : Bool} (hb : b = true → hist ≠ []) :
    ∃ dt, RC hid P b h dt := by
  obtain ⟨dt, n, h1, h2, h3, h4⟩ := heap_rep hr
  exact ⟨dt, ⟨h3, h4, by rw [← ids_erase]; exact (reach_ids h1).1⟩, hist, n, h1, h2, hP, hb⟩

theorem RC.undisturbed {P : Inst A V → Prop} {b : Bool} {h h' : Heap (Stats A V)}
    {dt : Tree (ℕ × Stats A V)} (hR : RC hid P b h dt) (hu : Undisturbed h h') : RC hid P b h' dt := by
  obtain ⟨g, hist, n, h1, h2, h3⟩ := hR
  exact ⟨g.undisturbed hu, hist, n, h1, h2.trans hu.ctr, h3⟩

theorem RC.fit {P : Inst A V → Prop} {b : Bool} {i : Inst A V} {h h' : Heap (Stats A V)}
    {dt : Tree (ℕ × Stats A V)} {a : ℕ} (hi : Dict.Nodup i) (hP : P i) (hR : RC hid P b h dt)
    (e : cobwebH (cobwebClass hid) (fun _ => Stats.ecg (K := ℚ) hid) i h = (.ok a, h')) :
    ∃ dt', RC hid P true h' dt' ∧ dt.LeavesStay dt' ∧ ∃ x ∈ dt'.nodes, x.addr = a ∧ x.children = [] := by
  obtain ⟨g, hist, n, h1, h2, h3, -⟩ := hR
  obtain ⟨o, dt', ho, he, hp', hroot', hw, hst, x, hx, -, hxa, hxc⟩ := Pre.step (C := cobwebClass hid)
    (e := fun _ => Stats.ecg (K := ℚ) hid) (fun s => fueled_ecg s) g.pre g.root e
  have hr' : CobwebReach hid dt'.erase (hist ++ [i]) o.w.ctr := by
    rw [he]; exact .step h1 rfl hi h2 ho
  refine ⟨dt', ⟨⟨hp', hroot', by rw [← ids_erase]; exact (reach_ids hr').1⟩, _, _, hr', by rw [hw], ?_,
    by simp⟩, hst, x, hx, hxa, hxc⟩
  intro j hj
  rcases List.mem_append.1 hj with hj | hj
  · exact h3 j hj
  · rw [List.mem_singleton.1 hj]; exact hP

theorem rc_fits (P : Inst A V → Prop) (b mod : Bool) :
    Fits (fun i => Dict.Nodup i ∧ P i) (RC hid P b) (fitC hid mod) := by
  rintro i h dt a h' ⟨hi, hP⟩ hR e
  cases mod with
  | true =>
    obtain ⟨dt', hR', h1⟩ := hR.fit hi hP e
    obtain ⟨g, hist, n, h2, h3, h4, h5⟩ := hR'
    exact ⟨dt', ⟨g, hist, n, h2, h3, h4, fun _ => h5 rfl⟩, h1⟩
  | false =>
    have hA := categorizeH_agrees (C := cobwebClass hid) (ecg := fun _ => Stats.ecg (K := ℚ) hid)
      (fun s => fueled_ecg s) hR.1.pre hR.1.root i
    have e' : categorizeH (cobwebClass hid) (fun _ => Stats.ecg (K := ℚ) hid) i h = (.ok a, h') := e
    rw [e'] at hA
    obtain ⟨hu, hy⟩ := hA.leaf
    exact ⟨dt, hR.undisturbed hu, .refl _, hy⟩

/-- The store and scales of a Cobweb/3 tree. -/
def RC3 (hid : A → Bool) (cfg : Cfg3 A B) (P : Inst3 A V → Prop) (b : Bool)
    (s : Heap (Stats3 A V) × Scales B) (dt : Tree (ℕ × Stats3 A V)) : Prop :=
  Good s.1 dt ∧ ∃ hist n, Reach3 hid cfg ⟨dt.erase, s.2⟩ hist n ∧ n ≤ s.1.w.ctr ∧ (∀ i ∈ hist, P i) ∧
    (b = true → hist ≠ [])

theorem rc3_of_heap {P : Inst3 A V → Prop} {h : Heap (Stats3 A V)} {sc : Scales B}
    {hist : List (Inst3 A V)} (hr : HReach3 hid cfg h sc hist) (hP : ∀ i ∈ hist, P i) {b : Bool}
    (hb : b = true → hist ≠ []) : ∃ dt, RC3 hid cfg P b (h, sc) dt := by
  obtain ⟨dt, n, h1, h2, h3, h4⟩ := heap_rep3 hr
  exact ⟨dt, ⟨h3, h4, by rw [← ids_erase]; exact (C29_ids_unique h1).1⟩, hist, n, h1, h2, hP, hb⟩

theorem RC3.fit {P : Inst3 A V → Prop} {b : Bool} {i : Inst3 A V} {s s' : Heap (Stats3 A V) × Scales B}
    {dt : Tree (ℕ × Stats3 A V)} {a : ℕ} (hi : Dict.Nodup i) (hP : P i) (hR : RC3 hid cfg P b s dt)
    (e : cobweb3H hid cfg i s = (.ok a, s')) :
    ∃ dt', RC3 hid cfg P true s' dt' ∧ dt.LeavesStay dt' ∧ ∃ x ∈ dt'.nodes, x.addr = a ∧ x.children = [] := by
  obtain ⟨h, sc⟩ := s
  obtain ⟨h', sc'⟩ := s'
  obtain ⟨g, hist, n, hr, hn, h3, -⟩ := hR
  simp only [cobweb3H, Prod.mk.injEq] at e
  obtain ⟨h1, h2, rfl⟩ := e
  obtain ⟨o, dt', ho, he, hp', hroot', hw, hst, x, hx, -, hxa, hxc⟩ := Pre.step (C := cobweb3Class hid)
    (e := ecg3H hid cfg (updateScales cfg.inner sc i)) (fun s => fueled_ecg3 _ s) g.pre g.root
    (show _ = (Except.ok a, h') from Prod.ext h1 h2)
  have h4 : ifit3 hid cfg ⟨dt.erase, sc⟩ i h.w =
      .ok ⟨⟨o.tree, updateScales cfg.inner sc i⟩, o.leaf, o.w⟩ := by
    unfold ifit3
    have ho' : cobweb (cobweb3Class hid) (Stats3.ecg hid cfg (updateScales cfg.inner sc i)) dt.erase i
        h.w = .ok o := ho
    simp only [ho']
    rfl
  have hr' : Reach3 hid cfg ⟨dt'.erase, updateScales cfg.inner sc i⟩ (hist ++ [i]) o.w.ctr := by
    rw [he]
    exact .step hr hi hn h4
  refine ⟨dt', ⟨⟨hp', hroot', by rw [← ids_erase]; exact (C29_ids_unique hr').1⟩, _, _, hr', by rw [hw], ?_,
    by simp⟩, hst, x, hx, hxa, hxc⟩
  intro j hj
  rcases List.mem_append.1 hj with hj | hj
  · exact h3 j hj
  · rw [List.mem_singleton.1 hj]; exact hP

theorem rc3_fits (P : Inst3 A V → Prop) (b mod : Bool) :
    Fits (fun i => Dict.Nodup i ∧ P i) (RC3 hid cfg P b) (fitC3 hid cfg mod) := by
  rintro i s dt a s' ⟨hi, hP⟩ hR e
  cases mod with
  | true =>
    obtain ⟨dt', hR', h1⟩ := hR.fit hi hP e
    obtain ⟨g, hist, n, h2, h3, h4, h5⟩ := hR'
    exact ⟨dt', ⟨g, hist, n, h2, h3, h4, fun _ => h5 rfl⟩, h1⟩
  | false =>
    obtain ⟨h, sc⟩ := s
    obtain ⟨h', sc'⟩ := s'
    obtain ⟨g, hist, n, h2, h3, h4⟩ := hR
    have e' : (((categorizeH (cobweb3Class hid) (ecg3H hid cfg sc) i h).1,
        (categorizeH (cobweb3Class hid) (ecg3H hid cfg sc) i h).2, sc) :
          Res ℕ × Heap (Stats3 A V) × Scales B) = (.ok a, h', sc') := e
    simp only [Prod.mk.injEq] at e'
    obtain ⟨e1, e2, rfl⟩ := e'
    have hA := categorizeH_agrees (C := cobweb3Class hid) (ecg := ecg3H hid cfg sc)
      (fun s => fueled_ecg3 _ s) g.pre g.root i
    rw [show categorizeH (cobweb3Class hid) (ecg3H hid cfg sc) i h = (.ok a, h') from Prod.ext e1 e2] at hA
    obtain ⟨hu, hy⟩ := hA.leaf
    exact ⟨dt, ⟨g.undisturbed hu, hist, n, h2, h3.trans hu.ctr, h4⟩, .refl _, hy⟩

end

/-! ### `cluster_iter` -/

theorem clusterIter_eq {ord : List ℕ → List ℕ} {store : σ → Heap S} {fit : I → σ → Res ℕ × σ}
    {heur : σ → Heuristic S H} {labels : Bool} {minsplit maxsplit : ℤ} {insts : List I} {s : σ}
    (h1 : 1 ≤ minsplit) (h2 : minsplit ≤ maxsplit) (h3 : insts ≠ []) :
    clusterIter ord store fit (.ok heur) labels minsplit maxsplit insts s =
      match fitAll fit insts s with
      | (.error e, _) => ([], some e)
      | (.ok temp, s') =>
        clusterLoopH ord (heur s') labels minsplit temp maxsplit.toNat 1 (store s') := by
  unfold clusterIter
  rw [if_neg (by omega), if_neg (by omega), if_neg (by simpa using h3)]
  rfl

theorem clusterIter_ok {Ok : I → Prop} {R : σ → Tree (ℕ × S) → Prop} {store : σ → Heap S}
    {fit : I → σ → Res ℕ × σ} (hF : Fits Ok R fit) (hS : ∀ s dt, R s dt → Good (store s) dt)
    {ord : List ℕ → List ℕ} (ho : SetOrder ord) {heur : σ → Heuristic S H} (hq : ∀ s, Quiet (heur s))
    (labels : Bool) {minsplit maxsplit : ℤ} (h1 : 1 ≤ minsplit) (h2 : minsplit ≤ maxsplit)
    {insts : List I} (h3 : insts ≠ []) (hok : ∀ i ∈ insts, Ok i) {s : σ} {dt : Tree (ℕ × S)} (hR : R s dt) :
    IterOk store fit heur labels minsplit maxsplit insts s
      (clusterIter ord store fit (.ok heur) labels minsplit maxsplit insts s) := by
  rw [clusterIter_eq h1 h2 h3]
  cases e : fitAll fit insts s with
  | mk r s' =>
    cases r with
    | error x => exact ⟨by simp; omega, fun h => absurd rfl h, fun _ h => by cases h⟩
    | ok temp =>
      obtain ⟨dt', hR', -, hlen, xs, rfl, hxs⟩ := fitAll_spec hF hok hR e
      simp only
      by_cases hm : 1 < minsplit
      · rw [clusterLoop_early ho (by exact_mod_cast hm)]
        exact ⟨by simp; omega, fun h => absurd rfl h, fun h _ => by omega⟩
      · have hm1 : minsplit = 1 := by omega
        subst hm1
        obtain ⟨L, hh⟩ := clusterLoop_ok ho (hq s') labels (minsplit := 1) maxsplit.toNat 1 (store s') dt'
          (hS _ _ hR') hxs (by simp)
        refine ⟨?_, fun _ => ⟨_, s', e, hlen, fun y hy => ⟨L.yields y hy, L.stores y hy⟩,
          fun y hy => (hh y hy).1, L.steps⟩, fun _ h0 => ?_⟩
        · have := L.length
          omega
        · rcases L.stop h0 with h | h
          · exact .inl (by omega)
          · exact .inr h

theorem clusterIter_noRaise {store : σ → Heap S} {fit : I → σ → Res ℕ × σ} {Q : S → S → Prop}
    {ord : List ℕ → List ℕ} (ho : SetOrder ord) {heur : σ → Heuristic S H} (labels : Bool)
    {minsplit maxsplit : ℤ} (h1 : 1 ≤ minsplit) (h2 : minsplit ≤ maxsplit) {insts : List I} (h3 : insts ≠ [])
    {s s' : σ} {dt : Tree (ℕ × S)} {xs : List (Tree (ℕ × S))} (hne : xs ≠ [])
    (hfit : fitAll fit insts s = (.ok (xs.map Tree.addr), s')) (g : Good (store s') dt)
    (hQ : ∀ x ∈ dt.nodes, ∀ y ∈ x.nodes, Q x.stats.2 y.stats.2) (hq : Quiet (heur s'))
    (hret : Returns Q (heur s')) (hxs : ∀ x ∈ xs, x ∈ dt.nodes ∧ x.children = []) :
    (clusterIter ord store fit (.ok heur) labels minsplit maxsplit insts s).2 = none := by
  rw [clusterIter_eq h1 h2 h3, hfit]
  exact clusterLoop_noRaise ho hq hret labels hne _ _ _ dt g hQ hxs

/-- As `fitAll_spec`, when the first call establishes the invariant. -/
theorem fitAll_spec' {Ok : I → Prop} {R0 R : σ → Tree (ℕ × S) → Prop} {fit : I → σ → Res ℕ × σ}
    (hF0 : ∀ i s dt a s', Ok i → R0 s dt → fit i s = (.ok a, s') →
      ∃ dt', R s' dt' ∧ dt.LeavesStay dt' ∧ ∃ x ∈ dt'.nodes, x.addr = a ∧ x.children = [])
    (hF : Fits Ok R fit) {insts : List I} {s s' : σ} {dt : Tree (ℕ × S)} {as : List ℕ} (hne : insts ≠ [])
    (hok : ∀ i ∈ insts, Ok i) (hR : R0 s dt) (e : fitAll fit insts s = (.ok as, s')) :
    ∃ dt', R s' dt' ∧ dt.LeavesStay dt' ∧ as.length = insts.length ∧
      ∃ xs : List (Tree (ℕ × S)), as = xs.map Tree.addr ∧ ∀ x ∈ xs, x ∈ dt'.nodes ∧ x.children = [] := by
  cases insts with
  | nil => exact absurd rfl hne
  | cons i insts =>
    unfold fitAll at e
    cases e1 : fit i s with
    | mk r s1 =>
      rw [e1] at e
      cases r with
      | error x => cases e
      | ok a =>
        simp only at e
        obtain ⟨dt1, hR1, hst1, x, hx, rfl, hxc⟩ := hF0 i s dt a s1 (hok i (by simp)) hR e1
        cases e2 : fitAll fit insts s1 with
        | mk r2 s2 =>
          rw [e2] at e
          cases r2 with
          | error x => cases e
          | ok as2 =>
            cases e
            obtain ⟨dt2, hR2, hst2, hlen, xs, rfl, hxs⟩ :=
              fitAll_spec hF (fun j hj => hok j (by simp [hj])) hR1 e2
            obtain ⟨z, hz, h3, h4, hzc⟩ := hst2 x hx hxc
            refine ⟨dt2, hR2, hst1.trans hst2, by simp [hlen], z :: xs, by simp [h3], ?_⟩
            intro w hw
            rcases List.mem_cons.1 hw with rfl | hw
            · exact ⟨hz, hzc⟩
            · exact hxs w hw

end CF
