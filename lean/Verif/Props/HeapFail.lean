/-
C103: what a call of `ifit` that raises leaves behind.
-/
import Verif.Proofs.HeapFail
import Verif.Props.Heap
import Verif.Props.Raises

set_option linter.unusedSectionVars false

namespace CF
variable {A B V : Type} [DecidableEq A] [DecidableEq B] [DecidableEq V] {hid : A → Bool}

section
variable {h h' : Heap (Stats A V)} {hist bad : List (Inst A V)}

/-- **C103**: whatever the scoring function returns or raises, and however many calls raised: the objects form a tree
with the links of a tree and different concept ids.  Its leaves hold exactly the instances of the calls that returned;
the tables of the other concepts have in addition some of the instances of the calls that raised. -/
theorem C103_tree {E : (Bool → Stats A V → Res ℚ) → Prop} (hf : ∀ e, E e → ∀ s, e true s ≠ .error .outOfFuel)
    (hr : HReachE (cobwebClass hid) Dict.Nodup E h hist bad) :
    ∃ t x, IsTree h h.root t ∧ LinksOk h ∧ t.ids.Nodup ∧ (∀ k ∈ t.ids, k ≤ h.w.ctr) ∧ x ≤ (bad : Multiset _) ∧
      TreeRetains Summarizes (SameVisible hid) (cobwebClass hid) t (hist : Multiset _) x := by
  obtain ⟨dt, x, hx, hs⟩ := hreachE_sound (cobwebLaws hid) hf hr
  exact ⟨dt.erase, x, hs.root ▸ hs.pre.rep.isTree, (hs.pre.linked hs.root).linksOk, hs.nodup, hs.ids, hx, hs.retains⟩

theorem cobwebE_fueled : ∀ e : Bool → Stats A V → Res ℚ, (e = fun _ => Stats.ecg hid) → ∀ s, e true s ≠ .error .outOfFuel := by
  rintro _ rfl s
  exact fueled_ecg s

/-- **C103**, in numbers: the counts of the leaves add up to the number of calls that returned; a concept counts at least
what its children count, and at most as many instances more than its leaves as calls raised. -/
theorem C103_counts (hr : CobwebHeapE hid h hist bad) {t : Tree (Stats A V)} (ht : IsTree h h.root t) :
    (t.leaves.map fun l => l.stats.count).sum = hist.length ∧
    ∀ n ∈ t.nodes, n.children ≠ [] → 2 ≤ n.children.length ∧
      (n.children.map fun c => c.stats.count).sum ≤ n.stats.count ∧
      n.stats.count ≤ (n.leaves.map fun l => l.stats.count).sum + bad.length := by
  obtain ⟨t', x, ht', -, -, -, hx, hk⟩ := C103_tree cobwebE_fueled hr
  obtain rfl := ht.unique ht'
  obtain ⟨h1, h2⟩ := hk.counts (cobwebLaws hid)
  refine ⟨h1.trans (by simp), fun n hn hne => ?_⟩
  obtain ⟨a, b, c⟩ := h2 n hn hne
  refine ⟨a, b, c.trans (Nat.add_le_add_left ?_ _)⟩
  simpa using Multiset.card_le_card hx

/-- **C103**: a call that raises keeps the root object, the leaves and their tables. -/
theorem C103_leaves (hr : CobwebHeapE hid h hist bad) {t : Tree (Stats A V)} (ht : IsTree h h.root t) {i : Inst A V}
    {e : PyErr} (hc : cobwebH (cobwebClass hid) (fun _ => Stats.ecg (K := ℚ) hid) i h = (.error e, h')) :
    ifit hid t i h.w = .error e ∧ h'.root = h.root ∧
    ∃ t', IsTree h' h'.root t' ∧ t'.id = t.id ∧ t'.leaves.Perm t.leaves := by
  obtain ⟨dt, x, hx, hs⟩ := hreachE_sound (cobwebLaws hid) cobwebE_fueled hr
  obtain rfl := ht.unique (hs.root ▸ hs.pre.rep.isTree)
  obtain ⟨h1, dt', hp, hroot, hroot', hl, -⟩ := hs.pre.fail (e := fun _ => Stats.ecg (K := ℚ) hid) (fun s => fueled_ecg s) hs.root hc
  refine ⟨h1, hroot, dt'.erase, hroot' ▸ hp.rep.isTree, hl.id, hl.leaves⟩

/-- **C103**: when no two random numbers coincide, a call that raises on a tree on which none raised before changes no
object of the tree: the store is still one of a tree fitted with the same instances. -/
theorem C103_undisturbed (hr : CobwebHeap hid h hist) (hw : Function.Injective h.w.rnd) {i : Inst A V}
    (hi : Dict.Nodup i) {e : PyErr}
    (hc : cobwebH (cobwebClass hid) (fun _ => Stats.ecg (K := ℚ) hid) i h = (.error e, h')) :
    e = .zeroDiv ∧ Undisturbed h h' ∧ CobwebHeap hid h' hist := by
  obtain ⟨dt, n, hreach, hn, hp, hroot⟩ := heap_rep hr
  obtain ⟨h1, -⟩ := hp.fail (e := fun _ => Stats.ecg (K := ℚ) hid) (fun s => fueled_ecg s) hroot hc
  obtain ⟨k1, k2⟩ := C07_ifit_raises_iff hreach hi hw
  have hcond : Differ hid hist ∧ ∃ j ∈ i :: hist, ¬ HasVisible hid j := by
    by_contra hcon
    obtain ⟨o, ho⟩ := k2.2 hcon
    have : (Except.ok o : Res (Out (Stats A V))) = .error e := ho.symm.trans h1
    cases this
  have hE : ∀ f, f = Stats.ecg (K := ℚ) hid → ScoresIff Summarizes f (HasVisible (V := V) hid) := fun _ e => e ▸ cobweb_scoresIff
  have hS : ∀ i j : Inst A V, SameVisible hid i j → HasVisible hid i → HasVisible hid j := fun _ _ h1 h2 => h1.hasVisible h2
  have hne : dt.erase.children ≠ [] := (reach_children (cobwebLaws hid) hE hS hreach).2 hcond.1
  have hpo := reach_poison (cobwebLaws hid) hE hS hreach
  have hh : Holds Summarizes (SameVisible hid) dt.erase (hist : Multiset _) := by
    rcases reach_holds (cobwebLaws hid) hreach with ⟨-, id', h0⟩ | hh
    · rw [h0] at hne; simp at hne
    · exact hh
  have hb := (chooseOp_bad (cobwebLaws hid) (hE _ rfl) hi hh hne hpo (w := h.w) (by simpa using hcond.2)).2 hw
  obtain ⟨h2, hrun, hu⟩ := hp.fail_root (C := cobwebClass hid) (e := fun _ => Stats.ecg (K := ℚ) hid) hroot (by
    intro h0
    apply hne
    rw [Tree.children_erase, h0]; rfl) hb
  rw [hrun] at hc
  cases hc
  exact ⟨rfl, hu, .other hr hu⟩

end

/-! ### Examples and the witness -/

/-- **C66**, the other direction: every tree that the tree model reaches is the tree of a store that a program can
produce. -/
theorem C66_tree_has_store {t : Tree (Stats A V)} {hist : List (Inst A V)} {n : ℕ} (hr : CobwebReach hid t hist n) :
    ∃ h, CobwebHeap hid h hist ∧ IsTree h h.root t ∧ h.w.ctr = n := by
  induction hr with
  | init w =>
    refine ⟨_, .init (h := ⟨fun _ => none, 0, 0, w⟩) rfl, ?_, rfl⟩
    obtain ⟨h1, h2, -⟩ := clearH_pre (C := (cobwebClass hid : NodeClass (Inst A V) (Stats A V)))
      (h := ⟨fun _ => none, 0, 0, w⟩) rfl
    have := h1.rep.isTree
    rw [Tree.erase_node] at this
    rw [h2]
    exact this
  | @step t hist n f i w o _ he hi hn ho ih =>
    subst he
    obtain ⟨h, hh, ht, hc⟩ := ih
    have hh1 : CobwebHeap hid { h with w := w } hist :=
      .other hh ⟨fun _ _ => rfl, le_refl _, rfl, by rw [hc]; exact hn⟩
    have ht1 : IsTree { h with w := w } h.root t := by
      have : ∀ {a : ℕ} {t : Tree (Stats A V)}, IsTree h a t → IsTree { h with w := w } a t := by
        intro a t
        induction t using Tree.ind generalizing a with
        | h id s cs ih =>
          rintro ⟨e, hf⟩
          refine .mk e ?_
          clear e
          generalize Rec.children _ = l at hf
          induction hf with
          | nil => exact .nil
          | cons hx _ ih2 => exact .cons (ih _ (by simp) hx) (ih2 fun c hc => ih c (by simp [hc]))
      exact this ht
    have := C66_ifit_agrees hh1 ht1 i
    have ho' : ifit hid t i w = .ok o := ho
    rw [show ({ h with w := w } : Heap (Stats A V)).w = w from rfl, ho'] at this
    obtain ⟨a, h', r, hrun, hT, hw, -⟩ := this
    exact ⟨h', .step hh1 rfl hi hrun, hT, by rw [hw]⟩

namespace Demo

/-- Four instances and the one with which the call will raise. -/
def four : List (Inst ℕ ℕ) :=
  [[(1, 0), (2, 0), (3, 1)], [(1, 1), (2, 1), (3, 0)], [(1, 1), (2, 1), (3, 2)], [(1, 0), (2, 1), (3, 0)]]
/-- See `four`. -/
def fifth : Inst ℕ ℕ := [(1, 1), (2, 1), (3, 0)]

/-- The tree of `four`. -/
def fourTree : Tree (Stats ℕ ℕ) := treeOf (run four)

/-- From now on all random numbers are the same. -/
def tied : World := ⟨fun _ => 0, 0, 100⟩

/-- At the root the loop decides to go down to a child, there the choice raises `TypeError`. -/
def raisesBelow : Bool :=
  match chooseOp (cobwebClass Demo.hid) (Stats.ecg (K := ℚ) Demo.hid) fourTree.stats fourTree.children fifth tied with
  | .ok (b, .best, w') =>
    match fourTree.children[b.b1]? with
    | some c =>
      match chooseOp (cobwebClass Demo.hid) (Stats.ecg (K := ℚ) Demo.hid) c.stats c.children fifth w' with
      | .error .typeErr => !c.children.isEmpty
      | _ => false
    | none => false
  | _ => false

end Demo

section
variable {I S K : Type} [Field K] [LinearOrder K] {C : NodeClass I S} {ecg : S → Res K} {i : I} {x : PyErr}

theorem Left.eq_of_error {t t' : Tree S} {w : World} {n : ℕ} (h : Left C ecg i x t w t' n) {y : PyErr}
    (hc : chooseOp C ecg t.stats t.children i w = .error y) : t' = t := by
  cases h with
  | stop => rfl
  | best h => simp only [Tree.stats, Tree.children] at hc; rw [h] at hc; cases hc
  | merge h => simp only [Tree.stats, Tree.children] at hc; rw [h] at hc; cases hc
  | split h => simp only [Tree.stats, Tree.children] at hc; rw [h] at hc; cases hc

/-- The loop goes down from the root and raises at the child: only the root has counted the instance. -/
theorem Left.root_only {t t' c : Tree S} {w w' : World} {n : ℕ} (h : Left C ecg i x t w t' n) (hx : x ≠ .outOfFuel)
    {b : Best K} (hb : chooseOp C ecg t.stats t.children i w = .ok (b, .best, w')) (hk : t.children[b.b1]? = some c)
    {y : PyErr} (hc : chooseOp C ecg c.stats c.children i w' = .error y) :
    t' = .node t.id (C.incr t.stats i) t.children := by
  cases h with
  | stop _ h =>
    rcases h with h | h
    · rw [hb] at h; cases h
    · exact absurd h hx
  | best h _ hk' hl =>
    simp only [Tree.stats, Tree.children] at hb hk
    rw [h] at hb
    cases hb
    rw [hk'] at hk
    cases hk
    rw [hl.eq_of_error hc]
    simp only [Tree.id, Tree.stats, Tree.children, Tree.node.injEq, true_and]
    obtain ⟨hlt, e⟩ := List.getElem?_eq_some_iff.1 hk'
    rw [← e]
    exact List.set_getElem_self hlt
  | merge h => simp only [Tree.stats, Tree.children] at hb; rw [h] at hb; cases hb
  | split h => simp only [Tree.stats, Tree.children] at hb; rw [h] at hb; cases hb

end

theorem Demo.raises_below : Demo.raisesBelow = true := by decide +kernel

theorem Demo.four_ok : (Demo.run Demo.four).isOk = true ∧
    (match Demo.run Demo.four with | .ok (_, w) => decide (w.ctr ≤ 100) | .error _ => false) = true ∧
    (match ifit Demo.hid Demo.fourTree Demo.fifth Demo.tied with | .error .typeErr => true | _ => false) = true ∧
    Demo.fourTree.stats.count = 4 ∧ (Demo.fourTree.children.map fun c => c.stats.count).sum = 4 := by
  decide +kernel

/-- **C103**, why distinct random numbers are needed: when two draws coincide, the call can raise below the root.  The
root has then counted the instance and its children have not; no calls that return lead to such a tree. -/
theorem C103_tied_witness : ∃ (h h' : Heap (Stats ℕ ℕ)) (t' : Tree (Stats ℕ ℕ)), CobwebHeap Demo.hid h Demo.four ∧
    Dict.Nodup Demo.fifth ∧ (∀ j ∈ Demo.fifth :: Demo.four, HasVisible Demo.hid j) ∧
    cobwebH (cobwebClass Demo.hid) (fun _ => Stats.ecg (K := ℚ) Demo.hid) Demo.fifth h = (.error .typeErr, h') ∧
    IsTree h' h'.root t' ∧ t'.stats.count = 5 ∧ (t'.children.map fun c => c.stats.count).sum = 4 ∧
    ¬ ∃ hist, CobwebHeap Demo.hid h' hist := by
  obtain ⟨k1, k2, k3, k4, k5⟩ := Demo.four_ok
  have hreach : ∃ n ≤ 100, CobwebReach Demo.hid Demo.fourTree Demo.four n := by
    cases hrun : Demo.run Demo.four with
    | error e => rw [hrun] at k1; cases k1
    | ok p =>
      obtain ⟨t, w⟩ := p
      rw [hrun] at k2
      obtain ⟨n, hn, hr⟩ := reach_fitList (Ok := Dict.Nodup) (E := (· = Stats.ecg (K := ℚ) Demo.hid)) rfl (by decide)
        (Reach.init Demo.w0) (le_refl _) hrun
      refine ⟨n, hn.trans (by simpa using k2), ?_⟩
      have : Demo.fourTree = t := by simp [Demo.fourTree, Demo.treeOf, hrun]
      rw [this]; simpa using hr
  obtain ⟨n, hn, hreach⟩ := hreach
  obtain ⟨h0, hh0, hT0, hc0⟩ := C66_tree_has_store hreach
  have hh : CobwebHeap Demo.hid { h0 with w := Demo.tied } Demo.four :=
    .other hh0 ⟨fun _ _ => rfl, le_refl _, rfl, by rw [hc0]; exact hn⟩
  obtain ⟨dt, n', -, -, hp, hroot⟩ := heap_rep hh0
  have hde : dt.erase = Demo.fourTree := (hroot ▸ hp.rep.isTree).unique hT0
  have hp1 : Pre { h0 with w := Demo.tied } none dt :=
    hp.undisturbed ⟨fun _ _ => rfl, le_refl _, rfl, by rw [hc0]; exact hn⟩
  have hA := Pre.step_isTree (C := cobwebClass Demo.hid) (e := fun _ => Stats.ecg (K := ℚ) Demo.hid)
    (fun s => fueled_ecg s) hp1 hroot Demo.fifth
  rw [hde] at hA
  have herr : ifit Demo.hid Demo.fourTree Demo.fifth Demo.tied = .error .typeErr := by
    revert k3
    generalize ifit Demo.hid Demo.fourTree Demo.fifth Demo.tied = r
    rcases r with e | o
    · cases e <;> simp
    · simp
  simp only [show cobweb (cobwebClass Demo.hid) (Stats.ecg (K := ℚ) Demo.hid) Demo.fourTree Demo.fifth Demo.tied =
    .error .typeErr from herr] at hA
  have hrun : cobwebH (cobwebClass Demo.hid) (fun _ => Stats.ecg (K := ℚ) Demo.hid) Demo.fifth
      { h0 with w := Demo.tied } = (.error .typeErr, (cobwebH (cobwebClass Demo.hid)
        (fun _ => Stats.ecg (K := ℚ) Demo.hid) Demo.fifth { h0 with w := Demo.tied }).2) := Prod.ext hA rfl
  generalize (cobwebH (cobwebClass Demo.hid) (fun _ => Stats.ecg (K := ℚ) Demo.hid) Demo.fifth
    { h0 with w := Demo.tied }).2 = h' at hrun
  obtain ⟨-, dt', hp', hroot', hroot'', hl, -⟩ := hp1.fail (e := fun _ => Stats.ecg (K := ℚ) Demo.hid)
    (fun s => fueled_ecg s) hroot hrun
  rw [hde] at hl
  have ht' : dt'.erase = .node Demo.fourTree.id (Demo.fourTree.stats.incr Demo.fifth) Demo.fourTree.children := by
    have hB := Demo.raises_below
    unfold Demo.raisesBelow at hB
    split at hB
    · rename_i b w' hb
      split at hB
      · rename_i c hk
        split at hB
        · rename_i hc
          exact hl.root_only (by simp) hb hk hc
        · cases hB
      · cases hB
    · cases hB
  have hT' : IsTree h' h'.root dt'.erase := hroot'' ▸ hp'.rep.isTree
  have hcnt : dt'.erase.stats.count = 5 := by
    rw [ht']
    show Demo.fourTree.stats.count + 1 = 5
    rw [k4]
  have hsum : (dt'.erase.children.map fun c => c.stats.count).sum = 4 := by rw [ht']; exact k5
  refine ⟨_, h', dt'.erase, hh, by decide, ?_, hrun, hT', hcnt, hsum, ?_⟩
  · intro j hj
    simp only [Demo.fifth, Demo.four, List.mem_cons, List.not_mem_nil, or_false] at hj
    rcases hj with rfl | rfl | rfl | rfl | rfl <;> exact ⟨1, by simp [Dict.keys], by decide⟩
  · rintro ⟨hist, hh'⟩
    obtain ⟨t, n2, hr2, -, hT2⟩ := C66_store_is_tree hh'
    obtain rfl := hT'.unique hT2
    have hne : dt'.erase.children ≠ [] := by
      intro h0
      rw [h0] at hsum; simp at hsum
    have := (C01_counts_conserved hr2 _ (Tree.self_mem_nodes _) hne).1
    rw [hcnt, hsum] at this
    omega

/-- The hypotheses of `C103_tree`, `C103_counts` and `C103_leaves`: a tree on which a call raised, with one instance left
over in the root. -/
example : ∃ (h : Heap (Stats ℕ ℕ)) (t : Tree (Stats ℕ ℕ)), CobwebHeapE Demo.hid h Demo.four [Demo.fifth] ∧
    IsTree h h.root t ∧ t.stats.count = 5 ∧ (t.leaves.map fun l => l.stats.count).sum = 4 := by
  obtain ⟨h, h', t', hr, hn, -, hrun, hT, h5, -⟩ := C103_tied_witness
  have hE : CobwebHeapE Demo.hid h' Demo.four [Demo.fifth] := .fail hr.toE rfl hn hrun
  exact ⟨h', t', hE, hT, h5, (C103_counts hE hT).1⟩

/-! ### The hypotheses of `C103_undisturbed` -/

/-- A step that does not raise. -/
theorem heap_step {h : Heap (Stats A V)} {hist : List (Inst A V)} (hr : CobwebHeap hid h hist) {i : Inst A V}
    (hi : Dict.Nodup i) (hc : ¬ (Differ hid hist ∧ ∃ j ∈ i :: hist, ¬ HasVisible hid j)) :
    ∃ h', CobwebHeap hid h' (hist ++ [i]) ∧ Function.Injective h'.w.rnd := by
  set h1 : Heap (Stats A V) := { h with w := ⟨fun k => (k : ℚ), 0, h.w.ctr⟩ } with hh1
  have hr1 : CobwebHeap hid h1 hist := .other hr ⟨fun _ _ => rfl, le_refl _, rfl, le_refl _⟩
  obtain ⟨t, n, ht, hn, hT⟩ := C66_store_is_tree hr1
  obtain ⟨o, ho⟩ := (C07_ifit_raises_iff ht hi (w := h1.w) (fun a b hab => by simpa [hh1] using hab)).2.2 hc
  have := C66_ifit_agrees hr1 hT i
  rw [ho] at this
  obtain ⟨a, h', r, hrun, -⟩ := this
  refine ⟨{ h' with w := ⟨fun k => (k : ℚ), 0, h'.w.ctr⟩ }, .other (.step hr1 rfl hi hrun)
    ⟨fun _ _ => rfl, le_refl _, rfl, le_refl _⟩, fun a b hab => by simpa using hab⟩

theorem heap_new : CobwebHeap hid (clearH (cobwebClass hid : NodeClass (Inst A V) (Stats A V)) ⟨fun _ => none, 0, 0, Demo.w0⟩).2 [] :=
  .init (h := ⟨fun _ => none, 0, 0, Demo.w0⟩) rfl

theorem differ_nil : ¬ Differ hid ([] : List (Inst A V)) := by
  rintro ⟨j, hj, -⟩; simp at hj

theorem differ_single (i : Inst A V) : ¬ Differ hid [i] := by
  rintro ⟨j, hj, k, hk, hn⟩
  simp only [List.mem_singleton] at hj hk
  subst hj; subst hk
  exact hn fun _ _ => rfl

/-- A call that raises although all random numbers differ: an instance without attributes was fitted before. -/
example : ∃ h h', CobwebHeap Demo.hid h [[], [(1, 1)]] ∧ Function.Injective h.w.rnd ∧
    cobwebH (cobwebClass Demo.hid) (fun _ => Stats.ecg (K := ℚ) Demo.hid) [(1, 2)] h = (.error .zeroDiv, h') := by
  obtain ⟨h1, r1, -⟩ := heap_step (hid := Demo.hid) (V := ℕ) heap_new (i := []) (by decide) fun h => differ_nil h.1
  obtain ⟨h2, r2, w2⟩ := heap_step r1 (i := [(1, 1)]) (by decide) fun h => differ_single _ h.1
  obtain ⟨t, n, ht, hn, hT⟩ := C66_store_is_tree r2
  have herr := (C07_ifit_raises_iff ht (i := [(1, 2)]) (by decide) w2).1.2 ⟨⟨[], by simp, [(1, 1)], by simp, fun h => by
    have := h 1 (by decide)
    revert this
    decide⟩, [], by simp, fun ⟨a, ha, _⟩ => by simp [Dict.keys] at ha⟩
  have := C66_ifit_agrees r2 hT [(1, 2)]
  rw [herr] at this
  exact ⟨h2, _, r2, w2, Prod.ext this rfl⟩

/-! ### Cobweb/3 -/

section
variable {cfg : Cfg3 A B} {h h' : Heap (Stats3 A V)} {sc sc' : Scales B} {hist bad : List (Inst3 A V)}

theorem scalesObs_snoc (inner : A → B) {sc : Scales B} {l : List (Inst3 A V)} {m : B → Multiset ℝ}
    (h : ScalesObs sc fun b => (scaleNums inner l b : Multiset ℝ) + m b) (i : Inst3 A V) :
    ScalesObs (updateScales inner sc i) fun b => (scaleNums inner (l ++ [i]) b : Multiset ℝ) + m b := by
  convert scalesObs_update inner h i using 2 with b
  rw [scaleNums_append, ← Multiset.coe_add, add_right_comm]

theorem hreach3E_sound (hr : HReach3E hid cfg h sc hist bad) :
    ∃ dt x, x ≤ (bad : Multiset _) ∧
      Sound (cobweb3Class hid) Summarizes3 (SameVisible hid) h dt (hist : Multiset _) x ∧
      ScalesObs sc fun b => (scaleNums cfg.inner hist b : Multiset ℝ) + (scaleNums cfg.inner bad b : Multiset ℝ) := by
  have snoc : ∀ (l : List (Inst3 A V)) (i : Inst3 A V), ((l ++ [i] : List _) : Multiset _) = i ::ₘ (l : Multiset _) := by
    intro l i
    rw [← Multiset.coe_add, add_comm, Multiset.coe_singleton, Multiset.singleton_add]
  induction hr with
  | init he => exact ⟨_, 0, by simp, Sound.init he, fun b => .inl ⟨by simp [scaleNums], rfl⟩⟩
  | other _ hu ih =>
    obtain ⟨dt, x, hx, hs, ho⟩ := ih
    exact ⟨dt, x, hx, hs.other hu, ho⟩
  | @step h h' sc sc' hist bad i a _ hi hc ih =>
    obtain ⟨dt, x, hx, hs, ho⟩ := ih
    simp only [cobweb3H, Prod.mk.injEq] at hc
    obtain ⟨h1, h2, rfl⟩ := hc
    obtain ⟨dt', hs'⟩ := hs.step (cobweb3Laws hid) (e := ecg3H hid cfg (updateScales cfg.inner sc i))
      (fun s => fueled_ecg3 _ s) hi (show _ = (Except.ok a, h') from Prod.ext h1 h2)
    exact ⟨dt', x, hx, by rw [snoc]; exact hs', scalesObs_snoc cfg.inner ho i⟩
  | @fail h h' sc sc' hist bad i err _ hi hc ih =>
    obtain ⟨dt, x, hx, hs, ho⟩ := ih
    simp only [cobweb3H, Prod.mk.injEq] at hc
    obtain ⟨h1, h2, rfl⟩ := hc
    obtain ⟨dt', x', hx', hs'⟩ := hs.fail (cobweb3Laws hid) (e := ecg3H hid cfg (updateScales cfg.inner sc i))
      (fun s => fueled_ecg3 _ s) hi (show _ = (Except.error err, h') from Prod.ext h1 h2)
    refine ⟨dt', x', ?_, hs', ?_⟩
    · rw [snoc]
      rcases hx' with rfl | rfl
      · exact hx.trans (Multiset.le_cons_self _ _)
      · exact (Multiset.cons_le_cons_iff _).2 hx
    · have := scalesObs_snoc (l := bad) cfg.inner (m := fun b => (scaleNums cfg.inner hist b : Multiset ℝ))
        (by simpa only [add_comm] using ho) i
      simpa only [add_comm] using this

/-- **C103** for Cobweb/3.  `attr_scales` has the numbers of all calls, those that raised included. -/
theorem C103_tree_cobweb3 (hr : HReach3E hid cfg h sc hist bad) :
    ∃ t x, IsTree h h.root t ∧ LinksOk h ∧ t.ids.Nodup ∧ (∀ k ∈ t.ids, k ≤ h.w.ctr) ∧ x ≤ (bad : Multiset _) ∧
      TreeRetains Summarizes3 (SameVisible hid) (cobweb3Class hid) t (hist : Multiset _) x ∧
      ScalesObs sc fun b => (scaleNums cfg.inner hist b : Multiset ℝ) + (scaleNums cfg.inner bad b : Multiset ℝ) := by
  obtain ⟨dt, x, hx, hs, ho⟩ := hreach3E_sound hr
  exact ⟨dt.erase, x, hs.root ▸ hs.pre.rep.isTree, (hs.pre.linked hs.root).linksOk, hs.nodup, hs.ids, hx, hs.retains, ho⟩

/-- **C103** for Cobweb/3: when no two random numbers coincide, a call that raises changes no concept, but it has
entered its numbers into `attr_scales`. -/
theorem C103_undisturbed_cobweb3 (hr : HReach3 hid cfg h sc hist) (hw : Function.Injective h.w.rnd) {i : Inst3 A V}
    (hi : Dict.Nodup i) {e : PyErr} (hc : cobweb3H hid cfg i (h, sc) = (.error e, h', sc')) :
    e = .zeroDiv ∧ Undisturbed h h' ∧
    ScalesObs sc' fun b => (scaleNums cfg.inner (hist ++ [i]) b : Multiset ℝ) := by
  obtain ⟨dt, n, hreach3, hn, hp, hroot⟩ := heap_rep3 hr
  have hreach := reach3_reach hreach3
  have hsc := scalesObs_update cfg.inner (reach3_scales hreach3) i
  simp only [cobweb3H, Prod.mk.injEq] at hc
  obtain ⟨c1, c2, rfl⟩ := hc
  have hc : cobwebH (cobweb3Class hid) (ecg3H hid cfg (updateScales cfg.inner sc i)) i h = (.error e, h') := Prod.ext c1 c2
  clear c1 c2
  obtain ⟨h1, -⟩ := hp.fail (e := ecg3H hid cfg (updateScales cfg.inner sc i)) (fun s => fueled_ecg3 _ s) hroot hc
  obtain ⟨k1, k2⟩ := C63_ifit_raises_iff hreach3 hi hw
  have he : ecg3H (V := V) hid cfg (updateScales cfg.inner sc i) true =
      Stats3.ecg hid cfg (updateScales cfg.inner sc i) := rfl
  rw [he] at h1
  have hcond : Differ hid hist ∧ ∃ j ∈ i :: hist, ¬ HasVisible hid j := by
    by_contra hcon
    obtain ⟨o, ho⟩ := k2.2 hcon
    simp only [ifit3, h1] at ho
    cases ho
  have hE : ∀ f, Scoring3 hid cfg f → ScoresIff Summarizes3 f (HasVisible (V := Val V) hid) := by
    rintro _ ⟨sc, f, hsc, rfl⟩; exact cobweb3_scoresIff hsc
  have hS : ∀ i j : Inst3 A V, SameVisible hid i j → HasVisible hid i → HasVisible hid j := fun _ _ h1 h2 => h1.hasVisible h2
  have hne : dt.erase.children ≠ [] := (reach_children (cobweb3Laws hid) hE hS hreach).2 hcond.1
  have hpo := reach_poison (cobweb3Laws hid) hE hS hreach
  have hh : Holds Summarizes3 (SameVisible hid) dt.erase (hist : Multiset _) := by
    rcases reach_holds (cobweb3Laws hid) hreach with ⟨-, id', h0⟩ | hh
    · simp only at h0; rw [h0] at hne; simp at hne
    · exact hh
  have hb := (chooseOp_bad (cobweb3Laws hid) (hE _ ⟨_, _, hsc, rfl⟩) hi hh hne hpo (w := h.w) (by simpa using hcond.2)).2 hw
  obtain ⟨h2, hrun, hu⟩ := hp.fail_root (C := cobweb3Class hid) (e := ecg3H hid cfg (updateScales cfg.inner sc i)) hroot (by
    intro h0
    apply hne
    rw [Tree.children_erase, h0]; rfl) hb
  rw [hrun] at hc
  cases hc
  refine ⟨rfl, hu, ?_⟩
  convert hsc using 2 with b
  rw [scaleNums_append, Multiset.coe_add]

/-- A step of Cobweb/3 that does not raise. -/
theorem heap3_step (hr : HReach3 hid cfg h sc hist) {i : Inst3 A V}
    (hi : Dict.Nodup i) (hc : ¬ (Differ hid hist ∧ ∃ j ∈ i :: hist, ¬ HasVisible hid j)) :
    ∃ h' sc', HReach3 hid cfg h' sc' (hist ++ [i]) ∧ Function.Injective h'.w.rnd := by
  set h1 : Heap (Stats3 A V) := { h with w := ⟨fun k => (k : ℚ), 0, h.w.ctr⟩ } with hh1
  have hr1 : HReach3 hid cfg h1 sc hist := .other hr ⟨fun _ _ => rfl, le_refl _, rfl, le_refl _⟩
  obtain ⟨t, n, ht, hn, hT⟩ := C66_store_is_tree_cobweb3 hr1
  obtain ⟨o, ho⟩ := (C63_ifit_raises_iff ht hi (w := h1.w) (fun a b hab => by simpa [hh1] using hab)).2.2 hc
  have := C66_ifit_agrees_cobweb3 hr1 hT i
  rw [ho] at this
  obtain ⟨a, h', r, hrun, -⟩ := this
  exact ⟨{ h' with w := ⟨fun k => (k : ℚ), 0, h'.w.ctr⟩ }, _, .other (.step hr1 hi hrun)
    ⟨fun _ _ => rfl, le_refl _, rfl, le_refl _⟩, fun a b hab => by simpa using hab⟩

end

/-- **C103**, negation of "a rejected instance has no effect" for Cobweb/3: an empty instance and the number 1 were
fitted, a call with the number 5 raises.  No concept has seen the 5; `attr_scales` has. -/
theorem C103_scales_witness : ∃ (h h' : Heap (Stats3 ℕ ℕ)) (sc sc' : Scales ℕ) (c : CV ℝ),
    HReach3 Demo.hid (⟨1 / 2, id⟩ : Cfg3 ℕ ℕ) h sc [[], [(1, .num 1)]] ∧
    cobweb3H Demo.hid (⟨1 / 2, id⟩ : Cfg3 ℕ ℕ) [(1, .num 5)] (h, sc) = (.error .zeroDiv, h', sc') ∧
    Undisturbed h h' ∧ sc'.get? 1 = some c ∧ c.num = 2 ∧ c.mean = 3 ∧
    ¬ HReach3 Demo.hid (⟨1 / 2, id⟩ : Cfg3 ℕ ℕ) h' sc' [[], [(1, .num 1)]] := by
  have h0 : HReach3 Demo.hid (⟨1 / 2, id⟩ : Cfg3 ℕ ℕ) (clearH (cobweb3Class Demo.hid : NodeClass (Inst3 ℕ ℕ) (Stats3 ℕ ℕ))
      ⟨fun _ => none, 0, 0, Demo.w0⟩).2 [] [] := .init (h := ⟨fun _ => none, 0, 0, Demo.w0⟩) rfl
  have nd : ∀ r : ℝ, Dict.Nodup ([(1, .num r)] : Inst3 ℕ ℕ) := fun r => by simp [Dict.Nodup, Dict.keys]
  obtain ⟨h1, sc1, r1, -⟩ := heap3_step h0 (i := []) (by simp [Dict.Nodup, Dict.keys]) fun h => differ_nil h.1
  obtain ⟨h2, sc2, r2, w2⟩ := heap3_step r1 (i := [(1, .num 1)]) (nd 1) fun h => differ_single _ h.1
  obtain ⟨t, n, ht, hn, hT⟩ := C66_store_is_tree_cobweb3 r2
  have herr := (C63_ifit_raises_iff ht (i := [(1, .num 5)]) (nd 5) w2).1.2 ⟨⟨[], by simp, [(1, .num 1)], by simp, fun h => by
    have := h 1 (by decide)
    simp [Dict.get?] at this⟩, [], by simp, fun ⟨a, ha, _⟩ => by simp [Dict.keys] at ha⟩
  have := C66_ifit_agrees_cobweb3 r2 hT [(1, .num 5)]
  rw [herr] at this
  generalize hrun : cobweb3H Demo.hid (⟨1 / 2, id⟩ : Cfg3 ℕ ℕ) [(1, .num 5)] (h2, sc2) = run at this
  obtain ⟨res, h', sc'⟩ := run
  simp only at this
  subst this
  obtain ⟨-, hu, ho⟩ := C103_undisturbed_cobweb3 r2 w2 (nd 5) hrun
  have hl : scaleNums id ([] ++ [[]] ++ [[(1, .num 1)]] ++ [[(1, .num 5)]] : List (Inst3 ℕ ℕ)) 1 = [1, 5] := by
    simp [scaleNums, Val.num?]
  rcases ho 1 with ⟨h0, -⟩ | ⟨-, c, hc, hco⟩
  · simp only at h0
    rw [hl] at h0; simp at h0
  · simp only at hco
    rw [hl] at hco
    refine ⟨h2, h', sc2, sc', c, r2, hrun, hu, hc, by rw [hco.num]; simp, by rw [hco.mean]; norm_num [sampleMean], fun hr => ?_⟩
    obtain ⟨dt, n, hreach3, -⟩ := heap_rep3 hr
    rcases reach3_scales hreach3 1 with ⟨-, h0⟩ | ⟨-, c', hc', hco'⟩
    · simp only at h0
      rw [hc] at h0; cases h0
    · simp only at hc' hco'
      rw [hc] at hc'; cases hc'
      have h1 := hco.num
      rw [hco'.num] at h1
      simp [scaleNums, Val.num?] at h1

end CF
