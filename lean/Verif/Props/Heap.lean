/-
Properties of the store of node objects: C10 (nothing is changed), C22, C23, C66 and C67.
-/
import Verif.Proofs.HeapCopy
import Verif.Model.Sanity
import Verif.Props.Predict
import Verif.Props.Cobweb3

set_option linter.unusedSectionVars false

namespace CF
variable {A B V : Type} [DecidableEq A] [DecidableEq B] [DecidableEq V] {hid : A → Bool}

/-! ### C66: the node objects form the tree of the tree model -/

theorem heap_rep {h : Heap (Stats A V)} {hist : List (Inst A V)} (hr : CobwebHeap hid h hist) :
    ∃ dt n, CobwebReach hid dt.erase hist n ∧ n ≤ h.w.ctr ∧ Pre h none dt ∧ h.root = dt.addr := by
  obtain ⟨dt, n, h1, h2⟩ := hreach_rep (fun e he s => by subst he; exact fueled_ecg s) hr
  refine ⟨dt, n, ?_, h2⟩
  have : (fun f => ∃ e : Bool → Stats A V → Res ℚ, (e = fun _ => Stats.ecg hid) ∧ f = e true) =
      (· = Stats.ecg hid) := by
    funext f
    simp
  rw [this] at h1
  exact h1

theorem heap_rep3 {cfg : Cfg3 A B} {h : Heap (Stats3 A V)} {sc : Scales B} {hist : List (Inst3 A V)}
    (hr : HReach3 hid cfg h sc hist) :
    ∃ dt n, Reach3 hid cfg ⟨dt.erase, sc⟩ hist n ∧ n ≤ h.w.ctr ∧ Pre h none dt ∧ h.root = dt.addr := by
  induction hr with
  | @init h h' he =>
    obtain ⟨h1, h2, h3⟩ := clearH_pre he
    refine ⟨_, h.w.ctr + 1, ?_, h3.ge, h1, h2⟩
    rw [Tree.erase_node]
    exact .init h.w
  | other _ hu ih =>
    obtain ⟨dt, n, hr, hn, hp, hroot⟩ := ih
    exact ⟨dt, n, hr, hn.trans hu.ctr, hp.undisturbed hu, hu.root.trans hroot⟩
  | @step h h' sc sc' hist i a _ hi hc ih =>
    obtain ⟨dt, n, hr, hn, hp, hroot⟩ := ih
    simp only [cobweb3H, Prod.mk.injEq] at hc
    obtain ⟨h1, h2, rfl⟩ := hc
    obtain ⟨o, dt', ho, he, hp', hroot', hw, -⟩ := Pre.step (C := cobweb3Class hid)
      (e := ecg3H hid cfg (updateScales cfg.inner sc i)) (fun s => fueled_ecg3 _ s) hp hroot
      (show _ = (Except.ok a, h') from Prod.ext h1 h2)
    refine ⟨dt', o.w.ctr, ?_, by rw [hw], hp', hroot'⟩
    have : ifit3 hid cfg ⟨dt.erase, sc⟩ i h.w =
        .ok ⟨⟨o.tree, updateScales cfg.inner sc i⟩, o.leaf, o.w⟩ := by
      unfold ifit3
      have ho' : cobweb (cobweb3Class hid) (Stats3.ecg hid cfg (updateScales cfg.inner sc i)) dt.erase i
          h.w = .ok o := ho
      simp only [ho']
      rfl
    rw [he]
    exact .step hr hi hn this

/-- **C66**: the objects below the root of a reachable store form a tree that the tree model reaches with
the same history. -/
theorem C66_store_is_tree {h : Heap (Stats A V)} {hist : List (Inst A V)} (hr : CobwebHeap hid h hist) :
    ∃ t n, CobwebReach hid t hist n ∧ n ≤ h.w.ctr ∧ IsTree h h.root t := by
  obtain ⟨dt, n, h1, h2, h3, h4⟩ := heap_rep hr
  exact ⟨_, n, h1, h2, h4 ▸ h3.rep.isTree⟩

/-- **C66** for Cobweb/3. -/
theorem C66_store_is_tree_cobweb3 {cfg : Cfg3 A B} {h : Heap (Stats3 A V)} {sc : Scales B}
    {hist : List (Inst3 A V)} (hr : HReach3 hid cfg h sc hist) :
    ∃ t n, Reach3 hid cfg ⟨t, sc⟩ hist n ∧ n ≤ h.w.ctr ∧ IsTree h h.root t := by
  obtain ⟨dt, n, h1, h2, h3, h4⟩ := heap_rep3 hr
  exact ⟨_, n, h1, h2, h4 ▸ h3.rep.isTree⟩

theorem IsTree.unique {S : Type} {h : Heap S} {t : Tree S} : ∀ {a : ℕ} {t' : Tree S}, IsTree h a t →
    IsTree h a t' → t = t' := by
  induction t using Tree.ind with
  | h id s cs ih =>
    intro a t' h1 h2
    cases h1 with
    | mk e1 f1 =>
      cases h2 with
      | @mk _ r2 cs' e2 f2 =>
        rw [e1] at e2; cases e2
        congr 1
        generalize Rec.children _ = l at f1 f2
        clear e1
        induction f1 generalizing cs' with
        | nil => cases f2; rfl
        | cons hx _ ih2 =>
          cases f2 with
          | cons hy hl =>
            rw [ih _ (by simp) hx hy, ih2 (fun c hc => ih c (by simp [hc])) hl]

theorem mem_nodes_erase {S : Type} : ∀ {dt x : Tree (ℕ × S)}, x ∈ dt.nodes → x.erase ∈ dt.erase.nodes := by
  intro dt
  induction dt using Tree.ind with
  | h id s cs ih =>
    intro x hx
    obtain ⟨a, s⟩ := s
    rw [Tree.erase_node]
    rcases Tree.mem_nodes_node.1 hx with rfl | ⟨c, hc, hx⟩
    · rw [Tree.erase_node]; exact Tree.self_mem_nodes _
    · exact Tree.mem_nodes_node.2 (Or.inr ⟨c.erase, List.mem_map_of_mem hc, ih c hc hx⟩)

theorem Pre.step_isTree {I S K : Type} [Field K] [LinearOrder K] {C : NodeClass I S} {e : Bool → S → Res K}
    (hf : ∀ s, Fueled (e true s)) {h : Heap S} {dt : Tree (ℕ × S)} (hp : Pre h none dt)
    (hroot : h.root = dt.addr) (i : I) :
    match cobweb C (e true) dt.erase i h.w with
    | .error x => (cobwebH C e i h).1 = .error x
    | .ok o => ∃ a h' r, cobwebH C e i h = (.ok a, h') ∧
        IsTree h' h'.root o.tree ∧ h'.w = o.w ∧ (∃ d, Below h' h'.root d a) ∧
        h'.objs a = some r ∧ r.cid = o.leaf ∧ r.children = [] ∧
        ∃ x ∈ o.tree.nodes, x.id = o.leaf ∧ x.stats = r.stats := by
  have hA := cobwebH_agrees (C := C) (ecg := e) hf hp hroot i
  cases ho : cobweb C (e true) dt.erase i h.w with
  | error x =>
    rw [ho] at hA
    obtain ⟨h', hA, -⟩ := hA
    simp [hA]
  | ok o =>
    rw [ho] at hA
    obtain ⟨h', dt', a, hrun, P⟩ := hA
    obtain ⟨o', dt'', ho', he, hp', hroot', hw, -, x, hx, hid', hxa, hxc⟩ := Pre.step (C := C)
      (e := e) hf hp hroot hrun
    rw [ho] at ho'; cases ho'
    obtain ⟨d, hd⟩ := below_of_rep dt'' hp'.rep x hx
    rw [hroot'.symm] at hd
    have hrepx : ∃ q, Rep h' q x := by
      have : ∀ (t : Tree (ℕ × S)) {p : Option ℕ}, Rep h' p t → ∀ x ∈ t.nodes, ∃ q, Rep h' q x := by
        apply Tree.ind
        rintro id ⟨a, s⟩ cs ih p hr x hx
        rcases Tree.mem_nodes_node.1 hx with rfl | ⟨c, hc, hx⟩
        · exact ⟨p, hr⟩
        · exact ih c hc ((rep_node.1 hr).2 c hc) x hx
      exact this dt'' hp'.rep x hx
    obtain ⟨q', hq'⟩ := hrepx
    refine ⟨a, h', _, hrun, ?_, hw, ⟨d, hxa ▸ hd⟩, hxa ▸ hq'.obj, hid', by simp [hxc], x.erase, ?_, ?_, ?_⟩
    · rw [← he, hroot']
      exact hp'.rep.isTree
    · rw [← he]
      exact mem_nodes_erase hx
    · rw [← hid']; obtain ⟨k, ⟨b, s⟩, cs⟩ := x; rw [Tree.erase_node]; rfl
    · obtain ⟨k, ⟨b, s⟩, cs⟩ := x; rw [Tree.erase_node]; rfl

/-- **C66**: an `ifit` call on the objects does what the tree model says.  It raises exactly when the
model raises, with the same exception; otherwise it returns the object of the leaf that the model names,
and the objects below the new root form the tree of the model. -/
theorem C66_ifit_agrees {h : Heap (Stats A V)} {hist : List (Inst A V)} (hr : CobwebHeap hid h hist)
    {t : Tree (Stats A V)} (ht : IsTree h h.root t) (i : Inst A V) :
    match ifit hid t i h.w with
    | .error e => (cobwebH (cobwebClass hid) (fun _ => Stats.ecg (K := ℚ) hid) i h).1 = .error e
    | .ok o => ∃ a h' r, cobwebH (cobwebClass hid) (fun _ => Stats.ecg (K := ℚ) hid) i h = (.ok a, h') ∧
        IsTree h' h'.root o.tree ∧ h'.w = o.w ∧ (∃ d, Below h' h'.root d a) ∧
        h'.objs a = some r ∧ r.cid = o.leaf ∧ r.children = [] ∧
        ∃ x ∈ o.tree.nodes, x.id = o.leaf ∧ x.stats = r.stats := by
  obtain ⟨dt, n, h1, h2, hp, hroot⟩ := heap_rep hr
  have : t = dt.erase := ht.unique (hroot ▸ hp.rep.isTree)
  subst this
  have hA := Pre.step_isTree (C := cobwebClass hid) (e := fun _ => Stats.ecg (K := ℚ) hid)
    (fun s => fueled_ecg s) hp hroot i
  unfold ifit
  cases ho : cobweb (cobwebClass hid) (Stats.ecg (K := ℚ) hid) dt.erase i h.w with
  | error x => rw [ho] at hA; exact hA
  | ok o => rw [ho] at hA; exact hA

/-- **C66** for Cobweb/3: an `ifit` call on the objects does what the tree model says. -/
theorem C66_ifit_agrees_cobweb3 {cfg : Cfg3 A B} {h : Heap (Stats3 A V)} {sc : Scales B}
    {hist : List (Inst3 A V)} (hr : HReach3 hid cfg h sc hist)
    {t : Tree (Stats3 A V)} (ht : IsTree h h.root t) (i : Inst3 A V) :
    match ifit3 hid cfg ⟨t, sc⟩ i h.w with
    | .error e => (cobweb3H hid cfg i (h, sc)).1 = .error e
    | .ok o => ∃ a h' r, cobweb3H hid cfg i (h, sc) = (.ok a, h', o.state.scales) ∧
        IsTree h' h'.root o.state.root ∧ h'.w = o.w ∧ (∃ d, Below h' h'.root d a) ∧
        h'.objs a = some r ∧ r.cid = o.leaf ∧ r.children = [] ∧
        ∃ x ∈ o.state.root.nodes, x.id = o.leaf ∧ x.stats = r.stats := by
  obtain ⟨dt, n, h1, h2, hp, hroot⟩ := heap_rep3 hr
  have : t = dt.erase := ht.unique (hroot ▸ hp.rep.isTree)
  subst this
  have hA := Pre.step_isTree (C := cobweb3Class hid) (e := ecg3H hid cfg (updateScales cfg.inner sc i))
    (fun s => fueled_ecg3 _ s) hp hroot i
  have he : ecg3H (V := V) hid cfg (updateScales cfg.inner sc i) true =
      Stats3.ecg hid cfg (updateScales cfg.inner sc i) := rfl
  rw [he] at hA
  cases ho : cobweb (cobweb3Class hid) (Stats3.ecg hid cfg (updateScales cfg.inner sc i)) dt.erase i
      h.w with
  | error x =>
    rw [ho] at hA
    have : ifit3 hid cfg ⟨dt.erase, sc⟩ i h.w = .error x := by
      unfold ifit3
      simp only [ho]
      rfl
    rw [this]
    exact hA
  | ok o =>
    rw [ho] at hA
    have : ifit3 hid cfg ⟨dt.erase, sc⟩ i h.w = .ok ⟨⟨o.tree, updateScales cfg.inner sc i⟩, o.leaf, o.w⟩ := by
      unfold ifit3
      simp only [ho]
      rfl
    rw [this]
    obtain ⟨a, h', r, hrun, hA⟩ := hA
    exact ⟨a, h', r, by simp only [cobweb3H]; rw [hrun], hA⟩

/-- Stores of any history with visible attributes exist. -/
theorem heap_exists (hist : List (Inst A V)) (hh : ∀ i ∈ hist, Dict.Nodup i ∧ HasVisible hid i) :
    ∃ h, CobwebHeap hid h hist := by
  induction hist using List.reverseRecOn with
  | nil => exact ⟨_, .init (h := ⟨fun _ => none, 0, 0, Demo.w0⟩) rfl⟩
  | append_singleton l i ih =>
    obtain ⟨h, hr⟩ := ih fun j hj => hh j (by simp [hj])
    set h1 : Heap (Stats A V) := { h with w := ⟨fun k => (k : ℚ), 0, h.w.ctr⟩ } with hh1
    have hr1 : CobwebHeap hid h1 l := .other hr ⟨fun _ _ => rfl, le_refl _, rfl, le_refl _⟩
    obtain ⟨t, n, ht, hn, hT⟩ := C66_store_is_tree hr1
    obtain ⟨hi, hv⟩ := hh i (by simp)
    obtain ⟨o, ho⟩ := C07_ifit_never_raises_partial ht (fun j hj => (hh j (by simp [hj])).2) hi hv
      (w := h1.w) (fun a b hab => by simpa [hh1] using hab)
    have := C66_ifit_agrees hr1 hT i
    rw [ho] at this
    obtain ⟨a, h', r, hrun, -⟩ := this
    exact ⟨h', .step hr1 rfl hi hrun⟩

theorem Demo.insts_ok : ∀ i ∈ Demo.insts, Dict.Nodup i ∧ HasVisible Demo.hid i := by
  intro i hi
  simp only [Demo.insts, List.mem_cons, List.not_mem_nil, or_false] at hi
  rcases hi with rfl | rfl | rfl | rfl | rfl <;>
    exact ⟨by decide, 1, by simp [Dict.keys], by decide⟩

/-- The hypothesis of the theorems of this file is met by the demonstration history. -/
example : ∃ h, CobwebHeap Demo.hid h Demo.insts := heap_exists _ Demo.insts_ok

theorem heap3_exists (cfg : Cfg3 A B) (hist : List (Inst3 A V))
    (hh : ∀ i ∈ hist, Dict.Nodup i ∧ HasVisible hid i) : ∃ h sc, HReach3 hid cfg h sc hist := by
  induction hist using List.reverseRecOn with
  | nil => exact ⟨_, _, .init (h := ⟨fun _ => none, 0, 0, Demo.w0⟩) rfl⟩
  | append_singleton l i ih =>
    obtain ⟨h, sc, hr⟩ := ih fun j hj => hh j (by simp [hj])
    set h1 : Heap (Stats3 A V) := { h with w := ⟨fun k => (k : ℚ), 0, h.w.ctr⟩ } with hh1
    have hr1 : HReach3 hid cfg h1 sc l := .other hr ⟨fun _ _ => rfl, le_refl _, rfl, le_refl _⟩
    obtain ⟨dt, n, ht, hn, hp, hroot⟩ := heap_rep3 hr1
    obtain ⟨hi, hv⟩ := hh i (by simp)
    obtain ⟨o, ho⟩ := C63_ifit_never_raises ht (fun j hj => (hh j (by simp [hj])).2) hi hv
      (w := h1.w) (fun a b hab => by simpa [hh1] using hab)
    have hA := cobwebH_agrees (C := cobweb3Class hid)
      (ecg := ecg3H hid cfg (updateScales cfg.inner sc i)) (fun s => fueled_ecg3 _ s) hp hroot i
    simp only [ifit3, bind_ok] at ho
    obtain ⟨o1, ho1, -⟩ := ho
    have ho1' : cobweb (cobweb3Class hid) (ecg3H hid cfg (updateScales cfg.inner sc i) true) dt.erase i
        h1.w = .ok o1 := ho1
    rw [ho1'] at hA
    obtain ⟨h', dt', a, hrun, -⟩ := hA
    exact ⟨h', _, .step hr1 hi (a := a) (by simp only [cobweb3H]; rw [hrun])⟩

example : ∃ h sc, HReach3 Demo.hid (⟨1 / 2, id⟩ : Cfg3 ℕ ℕ) h sc Demo.mixed :=
  heap3_exists _ _ Demo.mixed_ok

/-! ### C22: links -/

/-- **C22**: in every reachable `CobwebTree` the links agree with the hierarchy. -/
theorem C22_links {h : Heap (Stats A V)} {hist : List (Inst A V)} (hr : CobwebHeap hid h hist) :
    LinksOk h := by
  obtain ⟨dt, n, -, -, hp, hroot⟩ := heap_rep hr
  exact (hp.linked hroot).linksOk

/-- **C22** for `Cobweb3Tree`. -/
theorem C22_links_cobweb3 {cfg : Cfg3 A B} {h : Heap (Stats3 A V)} {sc : Scales B}
    {hist : List (Inst3 A V)} (hr : HReach3 hid cfg h sc hist) : LinksOk h := by
  obtain ⟨dt, n, -, -, hp, hroot⟩ := heap_rep3 hr
  exact (hp.linked hroot).linksOk

/-! ### C10: nothing is changed -/

/-- **C10**: `categorize` changes no object of the store, whether it returns or raises.  When it returns,
the object is a leaf of the tree, and it is the one that the tree model reaches. -/
theorem C10_categorize_unchanged {h : Heap (Stats A V)} {hist : List (Inst A V)}
    (hr : CobwebHeap hid h hist) (i : Inst A V) :
    ∃ r h', categorizeH (cobwebClass hid) (fun _ => Stats.ecg (K := ℚ) hid) i h = (r, h') ∧
      Undisturbed h h' ∧
      ∀ a, r = .ok a → (∃ d, Below h h.root d a) ∧ ∃ t n c w, CobwebReach hid t hist n ∧
        IsTree h h.root t ∧ categorize (cobwebClass hid) (Stats.ecg (K := ℚ) hid) t i h.w = .ok (c, w) ∧
        c ∈ t.leaves ∧ IsTree h a c := by
  obtain ⟨dt, n, hreach, -, hp, hroot⟩ := heap_rep hr
  obtain ⟨k, kc, hA⟩ := categorizeH_agrees (C := cobwebClass hid) (ecg := fun _ => Stats.ecg (K := ℚ) hid)
    (fun s => fueled_ecg s) hp hroot i
  generalize hrun : categorizeH (cobwebClass hid) (fun _ => Stats.ecg (K := ℚ) hid) i h = run at k kc hA
  refine ⟨run.1, run.2, rfl, ⟨k.objs, k.next, k.root, kc⟩, ?_⟩
  intro a ha
  cases hc : categorize (cobwebClass hid) (Stats.ecg (K := ℚ) hid) dt.erase i h.w with
  | error e =>
    rw [hc] at hA
    rw [hA] at ha; cases ha
  | ok r =>
    obtain ⟨c, w⟩ := r
    rw [hc] at hA
    obtain ⟨-, y, hy, hye, -, hya⟩ := hA
    rw [hya] at ha; cases ha
    obtain ⟨d, hd⟩ := below_of_rep dt hp.rep y hy
    refine ⟨⟨d, hroot ▸ hd⟩, dt.erase, n, c, w, hreach, hroot ▸ hp.rep.isTree, hc,
      (C10_categorize_descends hreach hc).1, ?_⟩
    have : ∀ (t : Tree (ℕ × Stats A V)) {p : Option ℕ}, Rep h p t → ∀ x ∈ t.nodes, IsTree h x.addr x.erase := by
      apply Tree.ind
      rintro id ⟨a, s⟩ cs ih p hr x hx
      rcases Tree.mem_nodes_node.1 hx with rfl | ⟨c, hc, hx⟩
      · exact hr.isTree
      · exact ih c hc ((rep_node.1 hr).2 c hc) x hx
    rw [← hye]
    exact this dt hp.rep y hy

theorem predict_ctr {tie : TieBreak (Option V) ℚ} {s : Stats A V} {a : A} {fn : ChoiceFn}
    {an : Bool} {w w' : World} {v : Option V} (h : s.predict tie a fn an w = .ok (v, w')) :
    w'.ctr = w.ctr := by
  unfold Stats.predict at h
  split at h
  · cases h
  · split at h
    · cases h; rfl
    · simp only [bind_ok] at h
      obtain ⟨ch, -, h⟩ := h
      unfold choose at h
      split at h
      · generalize weightedChoice ch _ = x at h
        cases x with
        | error e => cases h
        | ok v => cases h; rfl
      · generalize mostLikelyChoice tie ch _ = x at h
        cases x with
        | error e => cases h
        | ok v => cases h; rfl

theorem inferLoop_ctr {tie : TieBreak (Option V) ℚ} {s : Stats A V} {fn : ChoiceFn} {an : Bool} :
    ∀ (as : List A) {i out : Inst A V} {w w' : World}, inferLoop tie s fn an as i w = .ok (out, w') →
      w'.ctr = w.ctr
  | [], i, out, w, w', h => by cases h; rfl
  | a :: as, i, out, w, w', h => by
    unfold inferLoop at h
    split at h
    · exact inferLoop_ctr as h
    · simp only [bind_ok] at h
      obtain ⟨⟨v, w1⟩, hv, h⟩ := h
      have h1 := predict_ctr hv
      cases v with
      | none => exact (inferLoop_ctr as h).trans h1
      | some v => exact (inferLoop_ctr as h).trans h1

/-- **C10**: neither does `infer_missing`, and it gives the result of the tree model (or its exception);
in particular the caller's instance is what it was. -/
theorem C10_infer_unchanged {h : Heap (Stats A V)} {hist : List (Inst A V)}
    (hr : CobwebHeap hid h hist) {t : Tree (Stats A V)} (ht : IsTree h h.root t)
    (tie : TieBreak (Option V) ℚ) (i : Inst A V) (fn : ChoiceFn) (allowNone : Bool) :
    ∃ r h', inferMissingH hid tie i fn allowNone h = (r, h') ∧ Undisturbed h h' ∧
      match inferMissing (K := ℚ) hid tie t i fn allowNone h.w with
      | .error e => r = .error e
      | .ok (out, i', w) => r = .ok (out, i') ∧ h'.w = w := by
  obtain ⟨dt, n, hreach, -, hp, hroot⟩ := heap_rep hr
  have : t = dt.erase := ht.unique (hroot ▸ hp.rep.isTree)
  subst this
  obtain ⟨k, kc, hA⟩ := categorizeH_agrees (C := cobwebClass hid) (ecg := fun _ => Stats.ecg (K := ℚ) hid)
    (fun s => fueled_ecg s) hp hroot i
  generalize hrun : categorizeH (cobwebClass hid) (fun _ => Stats.ecg (K := ℚ) hid) i h = run at k kc hA
  obtain ⟨res, h1⟩ := run
  cases hc : categorize (cobwebClass hid) (Stats.ecg (K := ℚ) hid) dt.erase i h.w with
  | error e =>
    rw [hc] at hA
    dsimp only at hA
    subst hA
    have hm : inferMissing (K := ℚ) hid tie dt.erase i fn allowNone h.w = .error e := by
      unfold inferMissing
      dsimp only
      rw [hc]
      rfl
    refine ⟨.error e, h1, ?_, ⟨k.objs, k.next, k.root, kc⟩, by rw [hm]⟩
    unfold inferMissingH
    rw [HM.bind_err hrun]
  | ok r =>
    obtain ⟨c, w⟩ := r
    rw [hc] at hA
    obtain ⟨hw, y, hy, hye, -, hya⟩ := hA
    dsimp only at hya hw
    subst hya
    subst hw
    have hyr : h.objs y.addr = some ⟨y.id, y.stats.2, y.children.map Tree.addr, (h.objs y.addr).bind Rec.parent, true⟩ := by
      have : ∀ (t : Tree (ℕ × Stats A V)) {p : Option ℕ}, Rep h p t → ∀ x ∈ t.nodes, ∃ q, Rep h q x := by
        apply Tree.ind
        rintro id ⟨a, s⟩ cs ih p hr x hx
        rcases Tree.mem_nodes_node.1 hx with rfl | ⟨c, hc, hx⟩
        · exact ⟨p, hr⟩
        · exact ih c hc ((rep_node.1 hr).2 c hc) x hx
      obtain ⟨q, hq⟩ := this dt hp.rep y hy
      rw [hq.obj]; rfl
    have hylt : y.addr < h.next := hp.lt _ (List.mem_map_of_mem hy)
    have hyr1 : h1.objs y.addr = _ := (k.objs _ hylt).trans hyr
    have hcs : c.stats = y.stats.2 := by rw [← hye, Tree.stats_erase]
    have hmodel : inferMissing (K := ℚ) hid tie dt.erase i fn allowNone h.w =
        (inferLoop tie y.stats.2 fn allowNone y.stats.2.av.keys i h1.w >>= fun r => pure (r.1, i, r.2)) := by
      unfold inferMissing
      dsimp only
      rw [hc, ok_bind]
      dsimp only
      rw [hcs]
    cases hl : inferLoop tie y.stats.2 fn allowNone y.stats.2.av.keys i h1.w with
    | error e =>
      refine ⟨.error e, h1, ?_, ⟨k.objs, k.next, k.root, kc⟩, by rw [hmodel, hl]; rfl⟩
      unfold inferMissingH
      rw [HM.bind_ok' hrun, HM.bind_ok' (HM.get_ok hyr1)]
      simp only [inferLoopH, hl]
    | ok r =>
      obtain ⟨out, w2⟩ := r
      have hct := inferLoop_ctr _ hl
      refine ⟨.ok (out, i), { h1 with w := w2 }, ?_, ⟨k.objs, k.next, k.root, by rw [hct]; exact kc⟩,
        by rw [hmodel, hl]; exact ⟨rfl, rfl⟩⟩
      unfold inferMissingH
      rw [HM.bind_ok' hrun, HM.bind_ok' (HM.get_ok hyr1)]
      simp only [inferLoopH, hl]

/-- **C10** for `Cobweb3Tree.categorize`. -/
theorem C10_categorize_unchanged_cobweb3 {cfg : Cfg3 A B} {h : Heap (Stats3 A V)} {sc : Scales B}
    {hist : List (Inst3 A V)} (hr : HReach3 hid cfg h sc hist) (i : Inst3 A V) :
    ∃ r h', categorizeH (cobweb3Class hid) (ecg3H hid cfg sc) i h = (r, h') ∧ Undisturbed h h' ∧
      ∀ a, r = .ok a → (∃ d, Below h h.root d a) ∧ ∃ t c w, IsTree h h.root t ∧
        categorize3 hid cfg ⟨t, sc⟩ i h.w = .ok (c, w) ∧ IsTree h a c := by
  obtain ⟨dt, n, hreach, -, hp, hroot⟩ := heap_rep3 hr
  obtain ⟨k, kc, hA⟩ := categorizeH_agrees (C := cobweb3Class hid) (ecg := ecg3H hid cfg sc)
    (fun s => fueled_ecg3 _ s) hp hroot i
  generalize hrun : categorizeH (cobweb3Class hid) (ecg3H hid cfg sc) i h = run at k kc hA
  refine ⟨run.1, run.2, rfl, ⟨k.objs, k.next, k.root, kc⟩, ?_⟩
  intro a ha
  cases hc : categorize (cobweb3Class hid) (ecg3H hid cfg sc true) dt.erase i h.w with
  | error e =>
    rw [hc] at hA
    rw [hA] at ha; cases ha
  | ok r =>
    obtain ⟨c, w⟩ := r
    rw [hc] at hA
    obtain ⟨-, y, hy, hye, -, hya⟩ := hA
    rw [hya] at ha; cases ha
    obtain ⟨d, hd⟩ := below_of_rep dt hp.rep y hy
    refine ⟨⟨d, hroot ▸ hd⟩, dt.erase, c, w, hroot ▸ hp.rep.isTree, hc, ?_⟩
    have : ∀ (t : Tree (ℕ × Stats3 A V)) {p : Option ℕ}, Rep h p t → ∀ x ∈ t.nodes, IsTree h x.addr x.erase := by
      apply Tree.ind
      rintro id ⟨a, s⟩ cs ih p hr x hx
      rcases Tree.mem_nodes_node.1 hx with rfl | ⟨c, hc, hx⟩
      · exact hr.isTree
      · exact ih c hc ((rep_node.1 hr).2 c hc) x hx
    rw [← hye]
    exact this dt hp.rep y hy

/-! ### C23: the check of raw instances -/

/-- Python can hash the object: everything but lists and dicts, and tuples of hashable objects. -/
inductive Hashable : Py → Prop
  | none : Hashable .none
  | bool (b : Bool) : Hashable (.bool b)
  | num (q : ℚ) : Hashable (.num q)
  | str (s : PStr) : Hashable (.str s)
  | tup {l : List Py} : (∀ x ∈ l, Hashable x) → Hashable (.tup l)
  | other (n : ℕ) (i : Bool) : Hashable (.other n true i)

/-- The object has an element 0: a non-empty string, tuple or list, a dict with the key 0, or an object
of another class that says so. -/
inductive HasFirst : Py → Prop
  | str (c : Char) (s : PStr) : HasFirst (.str (c :: s))
  | tup (x : Py) (l : List Py) : HasFirst (.tup (x :: l))
  | list (x : Py) (l : List Py) : HasFirst (.list (x :: l))
  | dict {l : List (Py × Py)} {v : Py} : (.num 0, v) ∈ l → HasFirst (.dict l)
  | other (n : ℕ) (h : Bool) : HasFirst (.other n h true)

mutual
theorem hashable_iff : ∀ x : Py, x.hashable = true ↔ Hashable x
  | .none => by simp [Py.hashable, Hashable.none]
  | .bool b => by simp [Py.hashable, Hashable.bool]
  | .num q => by simp [Py.hashable, Hashable.num]
  | .str s => by simp [Py.hashable, Hashable.str]
  | .tup l => by
    rw [Py.hashable, hashableL_iff l]
    exact ⟨.tup, fun h => by cases h with | tup h => exact h⟩
  | .list l => by
    simp only [Py.hashable, Bool.false_eq_true, false_iff]
    intro h; cases h
  | .dict l => by
    simp only [Py.hashable, Bool.false_eq_true, false_iff]
    intro h; cases h
  | .other n h i => by
    rw [Py.hashable]
    constructor
    · rintro rfl; exact .other n i
    · intro h; cases h; rfl
theorem hashableL_iff : ∀ l : List Py, Py.hashableL l = true ↔ ∀ x ∈ l, Hashable x
  | [] => by simp [Py.hashableL]
  | x :: l => by simp [Py.hashableL, hashable_iff x, hashableL_iff l]
end

theorem dict_has_zero {l : List (Py × Py)} : (Dict.get? l (Py.num 0)).isSome ↔ ∃ v, (Py.num 0, v) ∈ l := by
  induction l with
  | nil => simp [Dict.get?]
  | cons p l ih =>
    obtain ⟨k, v⟩ := p
    simp only [Dict.get?]
    split
    · rename_i h
      subst h
      simp
    · rename_i h
      rw [ih]
      constructor
      · rintro ⟨w, hw⟩; exact ⟨w, List.mem_cons_of_mem _ hw⟩
      · rintro ⟨w, hw⟩
        rcases List.mem_cons.1 hw with hw | hw
        · cases hw; exact absurd rfl h
        · exact ⟨w, hw⟩

theorem index0_iff (x : Py) : x.index0.isOk = true ↔ HasFirst x := by
  cases x with
  | none => simp [Py.index0, Except.isOk, Except.toBool]; intro h; cases h
  | bool b => simp [Py.index0, Except.isOk, Except.toBool]; intro h; cases h
  | num q => simp [Py.index0, Except.isOk, Except.toBool]; intro h; cases h
  | str s =>
    cases s with
    | nil => simp [Py.index0, Except.isOk, Except.toBool]; intro h; cases h
    | cons c s => simp [Py.index0, Except.isOk, Except.toBool, HasFirst.str]
  | tup l =>
    cases l with
    | nil => simp [Py.index0, Except.isOk, Except.toBool]; intro h; cases h
    | cons c s => simp [Py.index0, Except.isOk, Except.toBool, HasFirst.tup]
  | list l =>
    cases l with
    | nil => simp [Py.index0, Except.isOk, Except.toBool]; intro h; cases h
    | cons c s => simp [Py.index0, Except.isOk, Except.toBool, HasFirst.list]
  | dict l =>
    simp only [Py.index0]
    cases hg : Dict.get? l (Py.num 0) with
    | none =>
      simp only [Except.isOk, Except.toBool, Bool.false_eq_true, false_iff]
      intro h
      cases h with
      | dict hm =>
        have := dict_has_zero.2 ⟨_, hm⟩
        rw [hg] at this; cases this
    | some v =>
      simp only [Except.isOk, Except.toBool, true_iff]
      obtain ⟨v, hv⟩ := dict_has_zero.1 (by rw [hg]; rfl : (Dict.get? l (Py.num 0)).isSome)
      exact .dict hv
  | other n h i =>
    cases i with
    | true => simp [Py.index0, Except.isOk, Except.toBool, HasFirst.other]
    | false => simp [Py.index0, Except.isOk, Except.toBool]; intro h; cases h

/-- An entry that the check must reject. -/
def BadEntry (p : Py × Py) : Prop :=
  ¬ Hashable p.1 ∨ ¬ HasFirst p.1 ∨ ¬ Hashable p.2 ∨ p.2 = .none

/-- **C23**: the check raises `ValueError` for an instance with an attribute that is unhashable or cannot
be indexed, or a value that is unhashable or `None`, and accepts every other instance. -/
theorem C23_check (raw : Dict Py Py) :
    ((∃ p ∈ raw, BadEntry p) → sanityCheck raw = .error .valueErr) ∧
    ((∀ p ∈ raw, ¬ BadEntry p) → sanityCheck raw = .ok ()) := by
  induction raw with
  | nil => simp [sanityCheck]
  | cons p raw ih =>
    obtain ⟨a, v⟩ := p
    have h1 := hashable_iff a
    have h2 := index0_iff a
    have h3 := hashable_iff v
    rw [sanityCheck]
    cases ha : a.hashable with
    | false =>
      have : ¬ Hashable a := fun h => by rw [h1.2 h] at ha; cases ha
      exact ⟨fun _ => rfl, fun h => absurd (Or.inl this) (h (a, v) (by simp))⟩
    | true =>
      cases hi : a.index0 with
      | error e =>
        have : ¬ HasFirst a := fun h => by
          have := h2.2 h; rw [hi] at this; cases this
        exact ⟨fun _ => rfl, fun h => absurd (Or.inr (Or.inl this)) (h (a, v) (by simp))⟩
      | ok x =>
        have hA : Hashable a := h1.1 ha
        have hF : HasFirst a := h2.1 (by rw [hi]; rfl)
        dsimp only
        by_cases hv : v.hashable = true
        · rw [if_neg (by simp [hv])]
          by_cases hn : v = .none
          · rw [if_pos hn]
            exact ⟨fun _ => rfl, fun h => absurd (Or.inr (Or.inr (Or.inr hn))) (h (a, v) (by simp))⟩
          · rw [if_neg hn]
            have hgood : ¬ BadEntry (a, v) := by
              rintro (h | h | h | h)
              · exact h hA
              · exact h hF
              · exact h (h3.1 hv)
              · exact hn h
            refine ⟨fun ⟨p, hp, hb⟩ => ?_, fun h => ih.2 fun p hp => h p (by simp [hp])⟩
            rcases List.mem_cons.1 hp with rfl | hp
            · exact absurd hb hgood
            · exact ih.1 ⟨p, hp, hb⟩
        · rw [if_pos (by simpa using hv)]
          exact ⟨fun _ => rfl,
            fun h => absurd (Or.inr (Or.inr (Or.inl (fun h' => hv (h3.2 h'))))) (h (a, v) (by simp))⟩

/-- **C23**: a rejected instance has no effect at all: `ifit`, `categorize` and `infer_missing` raise
`ValueError` and the store (objects, root, counter, random numbers) is what it was. -/
theorem C23_rejected_no_effect {raw : Dict Py Py} (hb : ∃ p ∈ raw, BadEntry p)
    (h : Heap (Stats PyAttr PyVal)) (tie : TieBreak (Option PyVal) ℚ) (fn : ChoiceFn) (an : Bool) :
    ifitPy raw h = (.error .valueErr, h) ∧ categorizePy raw h = (.error .valueErr, h) ∧
    inferPy tie raw fn an h = (.error .valueErr, h) := by
  have e : (HM.lift (sanityCheck raw) : HM (Stats PyAttr PyVal) Unit) h = (.error .valueErr, h) := by
    rw [(C23_check raw).1 hb]; rfl
  exact ⟨HM.bind_err e, HM.bind_err e, HM.bind_err e⟩

/-- **C23**: an accepted instance reaches the algorithm as it is: no entry is lost or changed, and the
test for hidden attributes does not raise on any of its attributes. -/
theorem C23_accepted {raw : Dict Py Py} (hg : ∀ p ∈ raw, ¬ BadEntry p)
    (h : Heap (Stats PyAttr PyVal)) (tie : TieBreak (Option PyVal) ℚ) (fn : ChoiceFn) (an : Bool) :
    (checked raw).map (fun p => (p.1.1, p.2.1)) = raw ∧
    (∀ p ∈ checked raw, ∃ x, p.1.1.index0 = .ok x ∧ (hidPy p.1 = true ↔ x = .str c!"_")) ∧
    ifitPy raw h = cobwebH (cobwebClass hidPy) (fun _ => Stats.ecg (K := ℚ) hidPy) (checked raw) h ∧
    categorizePy raw h =
      categorizeH (cobwebClass hidPy) (fun _ => Stats.ecg (K := ℚ) hidPy) (checked raw) h ∧
    inferPy tie raw fn an h = inferMissingH hidPy tie (checked raw) fn an h := by
  have e : (HM.lift (sanityCheck raw) : HM (Stats PyAttr PyVal) Unit) h = (.ok (), h) := by
    rw [(C23_check raw).2 hg]; rfl
  refine ⟨?_, ?_, HM.bind_ok' e, HM.bind_ok' e, HM.bind_ok' e⟩
  · clear e
    induction raw with
    | nil => rfl
    | cons p raw ih =>
      obtain ⟨a, v⟩ := p
      have hp := hg (a, v) (by simp)
      simp only [BadEntry, not_or, not_not] at hp
      have h1 : okAttr a = true ∧ okVal v = true := by
        simp only [okAttr, okVal, Bool.and_eq_true, hashable_iff, index0_iff, decide_eq_true_eq]
        exact ⟨⟨hp.1, hp.2.1⟩, hp.2.2.1, hp.2.2.2⟩
      rw [checked, dif_pos h1, List.map_cons, ih fun p hp => hg p (by simp [hp])]
  · intro p _
    obtain ⟨⟨a, ha⟩, v⟩ := p
    have := ha
    simp only [okAttr, Bool.and_eq_true] at this
    cases hx : a.index0 with
    | error e => rw [hx] at this; exact absurd this.2 (by simp [Except.isOk, Except.toBool])
    | ok x => exact ⟨x, rfl, by simp [hidPy, hx]⟩

/-- A hidden attribute, a relation, and the entries that are rejected. -/
example :
    (hidPy ⟨.str c!"_x", by decide +kernel⟩ = true) ∧
    (hidPy ⟨.tup [.str c!"on", .str c!"_a"], by decide +kernel⟩ = false) ∧
    sanityCheck [(.str c!"a", .num 1), (.tup [.str c!"on", .num 3], .tup [.num 1])] = .ok () ∧
    sanityCheck [(.str c!"a", .num 1), (.str c!"", .num 1)] = .error .valueErr ∧
    sanityCheck [(.tup [], .num 1)] = .error .valueErr ∧
    sanityCheck [(.num 5, .num 1)] = .error .valueErr ∧
    sanityCheck [(.str c!"a", .none)] = .error .valueErr ∧
    sanityCheck [(.str c!"a", .tup [.list []])] = .error .valueErr := by decide +kernel

/-! ### C67: the copy constructor -/

/-- **C67**: in a reachable store, `CobwebNode(node)` of a node of the tree returns, touches no existing
object, and makes new objects with the same tables and the same shape.  But the copies of the children
keep the `parent` of the originals: it is the original node and not the copy. -/
theorem C67_copy_partial {h : Heap (Stats A V)} {hist : List (Inst A V)} (hr : CobwebHeap hid h hist) {d a : ℕ}
    (ha : Below h h.root d a) : ∃ b h', copyNodeH (cobwebClass hid) h.next a h = (.ok b, h') ∧
      Undisturbed h h' ∧ CopyOf (cobwebClass hid) h h' h.next h'.next a b ∧
      ∃ r', h'.objs b = some r' ∧ ∀ c' ∈ r'.children, ∃ rc', h'.objs c' = some rc' ∧
        rc'.parent = some a ∧ a ≠ b := by
  obtain ⟨dt, n, -, -, hp, hroot⟩ := heap_rep hr
  rw [hroot] at ha
  obtain ⟨x, hx, q, hq, rfl, hsz, -⟩ := rep_below hp.rep ha
  have h1 := hp.size
  rw [numConcepts_erase] at h1
  have hlt : ∀ y ∈ x.addrs, y < h.next := by
    intro y hy
    obtain ⟨z, hz, rfl⟩ := List.mem_map.1 hy
    exact hp.lt _ (List.mem_map_of_mem (Tree.nodes_trans hx hz))
  obtain ⟨b, h', e, k, kc, hc⟩ := copyNodeH_spec (C := cobwebClass hid) (h := h) (n := h.next) x hq hlt h.next (by omega) h
    (fun _ _ => rfl) (le_refl _)
  refine ⟨b, h', e, ⟨k.objs, k.next, k.root, kc⟩, hc, ?_⟩
  have hxa : x.addr < h.next := hlt _ x.addr_mem
  cases hc with
  | @mk _ _ r r' e1 e2 hlb hub hs hpp ht hk =>
    refine ⟨r', e2, fun c' hc' => ?_⟩
    have he := hq.obj
    rw [e1] at he; cases he
    obtain ⟨c, hc, hcc⟩ : ∃ c ∈ x.children.map Tree.addr, CopyOf (cobwebClass hid) h h' h.next h'.next c c' := by
      obtain ⟨k, hkl, rfl⟩ := List.mem_iff_getElem.1 hc'
      have hl : (x.children.map Tree.addr).length = r'.children.length := hk.length_eq
      exact ⟨_, List.getElem_mem (by omega), hk.get (hl ▸ hkl) hkl⟩
    obtain ⟨y, hy, rfl⟩ := List.mem_map.1 hc
    have hyo := (hq.kid hy).obj
    cases hcc with
    | @mk _ _ rc rc' e3 e4 _ _ _ hp3 _ _ =>
      rw [e3] at hyo; cases hyo
      exact ⟨rc', e4, hp3, by omega⟩

/-- So a copy of a node with children does not have the links of a tree: `copy.is_parent(child)` is
`False` for its own children. -/
theorem C67_copy_links_broken {h : Heap (Stats A V)} {hist : List (Inst A V)} (hr : CobwebHeap hid h hist)
    {d a : ℕ} (ha : Below h h.root d a) {b : ℕ} {h' : Heap (Stats A V)} {r' : Rec (Stats A V)}
    (he : copyNodeH (cobwebClass hid) h.next a h = (.ok b, h')) (hb : h'.objs b = some r') {c : ℕ}
    (hc : c ∈ r'.children) :
    ∃ N, ∀ fuel ≥ N, isParentH b fuel (some c) h' = (.ok false, h') := by
  obtain ⟨b', h'', he', hu, hcp, r'', hb', hk⟩ := C67_copy_partial hr ha
  rw [he] at he'; cases he'
  rw [hb] at hb'; cases hb'
  obtain ⟨rc, ec, hpc, hab⟩ := hk c hc
  obtain ⟨dt, n, -, -, hp, hroot⟩ := heap_rep hr
  have hp' := hp.undisturbed hu
  have hroot' : h'.root = dt.addr := hu.root.trans hroot
  have L := hp.linked hroot
  have L' := hp'.linked hroot'
  have hlow : ∀ {k x}, Below h' h'.root k x → x < h.next := by
    intro k x hx
    rw [hroot'] at hx
    obtain ⟨y, hy, -, -, rfl, -⟩ := rep_below hp'.rep hx
    exact hp.lt _ (List.mem_map_of_mem hy)
  -- the node is still in the tree
  obtain ⟨d', ha'⟩ : ∃ d', Below h' h'.root d' a := by
    rw [hroot] at ha
    obtain ⟨y, hy, -, -, rfl, -⟩ := rep_below hp.rep ha
    rw [hroot']
    exact below_of_rep dt hp'.rep y hy
  have hbn : h.next ≤ b := by cases hcp with | mk _ _ h1 => exact h1
  have hcb : c ≠ b := by
    rintro rfl
    cases hcp with
    | @mk _ _ r r2 e1 e2 _ _ _ hpp =>
      rw [hb] at e2; cases e2
      rw [hb] at ec; cases ec
      rw [hpp] at hpc
      have h1 := L.depth ha (d + 1) (by omega)
      have h2 := L.depth ha (d + 2) (by omega)
      unfold depthH at h2
      rw [HM.bind_ok' (HM.get_ok e1)] at h2
      simp only [hpc] at h2
      rw [HM.bind_ok' h1] at h2
      have : 1 + d = d := by
        have := congrArg Prod.fst h2
        exact Except.ok.inj this
      omega
  have hpar : ∀ {k x}, Below h' h'.root k x → ∀ fuel, k < fuel →
      isParentH b fuel (some x) h' = (.ok false, h') := by
    intro k x hx
    induction hx with
    | refl =>
      intro fuel hf
      obtain ⟨fuel, rfl⟩ := Nat.exists_eq_succ_of_ne_zero (by omega : fuel ≠ 0)
      obtain ⟨r0, e0, h0⟩ := L'.root
      have := hlow (.refl _)
      show isParentH b (fuel + 1) _ h' = _
      unfold isParentH
      rw [if_neg (by omega), HM.bind_ok' (HM.get_ok e0), h0]
      unfold isParentH
      rfl
    | @step k y z ry hy ey hz ih =>
      intro fuel hf
      obtain ⟨fuel, rfl⟩ := Nat.exists_eq_succ_of_ne_zero (by omega : fuel ≠ 0)
      obtain ⟨-, r1, e1, -, -, h1⟩ := L'.node hy
      rw [ey] at e1; cases e1
      obtain ⟨rz, ez, hpz⟩ := h1 z hz
      have := hlow (.step hy ey hz)
      show isParentH b (fuel + 1) _ h' = _
      unfold isParentH
      rw [if_neg (by omega), HM.bind_ok' (HM.get_ok ez), hpz]
      exact ih fuel (by omega)
  refine ⟨h'.next + 1, fun fuel hf => ?_⟩
  obtain ⟨fuel, rfl⟩ := Nat.exists_eq_succ_of_ne_zero (by omega : fuel ≠ 0)
  show isParentH b (fuel + 1) _ h' = _
  unfold isParentH
  rw [if_neg hcb, HM.bind_ok' (HM.get_ok ec), hpc]
  exact hpar ha' fuel ((L'.node ha').1.trans_le (by omega))

/-- A store with a root and two leaves, and a copy of the root in it: the copied children name the
original root as their parent. -/
example :
    let C := cobwebClass (V := ℕ) Demo.hid
    let fitH := cobwebH C (fun _ => Stats.ecg (K := ℚ) Demo.hid)
    let h := ((do clearH C; let _ ← fitH [(1, 1)]; let _ ← fitH [(1, 2)]) ⟨fun _ => none, 0, 0, Demo.w0⟩).2
    let c := copyNodeH C h.next h.root h
    (c.1.toOption.bind c.2.objs).map (fun r => r.children.map fun x => (c.2.objs x).bind Rec.parent) =
      some [some h.root, some h.root] := by decide +kernel

end CF
