/-
Property C94: what holds of `CobwebTree` whatever the arithmetic of the scores does.
-/
import Verif.Proofs.ArithTotal
import Verif.Props.Score

set_option linter.unusedSectionVars false

namespace CF
variable {A V K : Type} [DecidableEq A] [DecidableEq V] {hid : A → Bool}
variable {t : Tree (Stats A V)} {hist : List (Inst A V)} {n : ℕ}

/-- A `CobwebTree` fitted with any arithmetic. -/
abbrev CobwebAny (hid : A → Bool) : Tree (Stats A V) → List (Inst A V) → ℕ → Prop :=
  ReachAny (cobwebClass hid) Dict.Nodup

/-! ### The exact model is the special case -/

theorem ecgA_exact [Field K] [LinearOrder K] (s : Stats A V) :
    Stats.ecgA (exactArith K) hid s = Stats.ecg hid s := by
  have h1 : ∀ (n : ℕ) (cs : List ℕ) (acc : K), sqLoopA (exactArith K) n cs acc = sqLoop n cs acc := by
    intro n cs
    induction cs with
    | nil => intro acc; rfl
    | cons c cs ih => intro acc; simp only [sqLoopA, sqLoop, ih]; rfl
  have h2 : ∀ (n : ℕ) (ts : List (Dict V ℕ)) (acc : K),
      ecgLoopA (exactArith K) n ts acc = ecgLoop n ts acc := by
    intro n ts
    induction ts with
    | nil => intro acc; rfl
    | cons c cs ih => intro acc; simp only [ecgLoopA, ecgLoop, ih, h1]
  unfold Stats.ecgA Stats.ecg
  simp only [h2]
  have : (exactArith K).ofNat 0 = 0 := by simp [exactArith]
  rw [this]
  rfl

/-- **C94**: with the arithmetic of an ordered field, `ifit`, `categorize` and the score are those of the
exact model. -/
theorem C94_exact [Field K] [LinearOrder K] [IsStrictOrderedRing K] (t : Tree (Stats A V)) (i : Inst A V)
    (w : World) :
    cobwebBy (cobwebClass hid) (chooseOpA (exactArith K) (cobwebClass hid) (Stats.ecgA (exactArith K) hid)) t i w
      = cobweb (cobwebClass hid) (Stats.ecg (K := K) hid) t i w ∧
    categorizeA (exactArith K) (cobwebClass hid) (Stats.ecgA (exactArith K) hid) t i w
      = categorize (cobwebClass hid) (Stats.ecg (K := K) hid) t i w := by
  have : Stats.ecgA (A := A) (V := V) (exactArith K) hid = Stats.ecg hid := funext ecgA_exact
  rw [this]
  exact ⟨cobwebBy_exact _ _ _ _ _, categorizeA_exact _ _ _ _ _⟩

/-- So every tree of the exact model is one of these. -/
theorem C94_of_exact (h : CobwebReach hid t hist n) : CobwebAny hid t hist n := by
  induction h with
  | init w => exact .init w
  | step h hE hi hw ho ih =>
    subst hE
    exact .step ih exactArith_sorts hi hw ((cobwebBy_exact _ _ _ _ _).trans ho)

/-! ### The tree -/

/-- **C94**: whatever the arithmetic, the root summarises the history, the counts of an internal concept
are the sums of its children's, it has at least two, and the concept ids are distinct. -/
theorem C94_tree (h : CobwebAny hid t hist n) :
    Summarizes t.stats (hist : Multiset (Inst A V)) ∧ t.ids.Nodup ∧
    ∀ x ∈ t.nodes, x.children ≠ [] → 2 ≤ x.children.length ∧
      x.stats.count = (x.children.map fun c => c.stats.count).sum ∧
      ∀ a v, (x.stats.lookup a v).getD 0 = (x.children.map fun c => (c.stats.lookup a v).getD 0).sum := by
  have hh := (reachAny_holds (cobwebLaws hid).table h).holds (cobwebLaws hid).table
  refine ⟨hh.sum (cobwebLaws hid), (reachAny_ids h).1, fun x hx hne => ?_⟩
  obtain ⟨m, hm, -⟩ := hh.of_mem_nodes hx
  have hs := hm.sum (cobwebLaws hid)
  refine ⟨hm.two_children.resolve_left hne, ?_⟩
  obtain ⟨ms, hf, rfl⟩ := hm.children hne
  have e1 : x.children.map (fun c => c.stats.count) = ms.map Multiset.card := by
    exact map_eq_of_forall₂ (fun c m hc => hc.sum.count) hf
  refine ⟨?_, fun a v => ?_⟩
  · rw [e1, hs.count]
    clear e1 hf hs hm
    induction ms with
    | nil => rfl
    | cons m ms ih => simp [ih]
  · rw [hs.getD, sum_occ]
    congr 1
    exact (map_eq_of_forall₂ (fun c m hc => hc.sum.getD a v) hf).symm

/-- **C94**: the history is distributed over the leaves in groups of equal instances. -/
theorem C94_leaves (h : CobwebAny hid t hist n) (hne : hist ≠ []) :
    ∃ groups : List (Multiset (Inst A V)), groups.sum = (hist : Multiset (Inst A V)) ∧
      List.Forall₂ (fun leaf g => Summarizes leaf.stats g ∧ g ≠ 0 ∧
        ∀ i ∈ g, ∀ j ∈ g, ∀ a, hid a = false → Dict.get? i a = Dict.get? j a) t.leaves groups := by
  rcases (reachAny_holds (cobwebLaws hid).table h).holds (cobwebLaws hid).table with ⟨h0, -⟩ | h
  · simp at h0; exact absurd h0 hne
  · exact h.leaves

/-- **C94**: `ifit` returns a leaf that matches the instance exactly; the other leaves are untouched. -/
theorem C94_ifit (h : CobwebAny hid t hist n) {ar : Arith K} (hs : ar.Sorts) {ecg : Stats A V → Res K}
    {i : Inst A V} (hi : Dict.Nodup i) {w : World} (hw : n ≤ w.ctr) {o : Out (Stats A V)}
    (ho : cobwebBy (cobwebClass hid) (chooseOpA ar (cobwebClass hid) ecg) t i w = .ok o) :
    CobwebAny hid o.tree (hist ++ [i]) o.w.ctr ∧
    (∃ leaf ∈ o.tree.leaves, leaf.id = o.leaf ∧ leaf.children = [] ∧
      (∀ x ∈ o.tree.nodes, x.id = o.leaf → x = leaf) ∧ leaf.stats.isExact hid i = true ∧
      ∀ a v, hid a = false → Dict.get? i a = some v → leaf.stats.lookup a v = some leaf.stats.count) ∧
    ∀ id s, .node id s [] ∈ t.leaves → id ≠ o.leaf → .node id s [] ∈ o.tree.leaves := by
  have L := (cobwebLaws (V := V) hid).table
  refine ⟨.step h hs hi hw ho, ?_, fun id s hx hid' => ?_⟩
  · obtain ⟨l, h1, h2, h3, h4⟩ := reachAny_leaf L hs h hi hw ho
    have hok : ∀ j ∈ l ++ [i], Dict.Nodup j := by
      intro j hj
      rcases List.mem_append.1 hj with hj | hj
      · exact h2 j hj
      · rwa [List.mem_singleton.1 hj]
    have hsum := L.built hok
    have hex : (cobwebClass hid).isExact ((cobwebClass hid).built (l ++ [i])) i = true :=
      ((cobwebLaws hid).exact hsum (by simp) hi).2
        (fun j hj => h3 i (by simp) j (by simpa using hj))
    refine ⟨_, h1, rfl, rfl, h4, hex, ?_⟩
    intro a v ha hv
    have hocc : occ ((l ++ [i] : List (Inst A V)) : Multiset (Inst A V)) a v
        = Multiset.card ((l ++ [i] : List (Inst A V)) : Multiset (Inst A V)) := by
      apply Multiset.countP_eq_card.2
      intro j hj
      rw [← h3 i (by simp) j (by simpa using hj) a ha]; exact hv
    simp only [Tree.stats_node]
    rw [hsum.lookup, hocc, hsum.count]; simp
  · rcases (reachAny_loop hs ho).leaves_persist id s hx with h | h
    · exact h
    · exact absurd h.2 hid'

/-! ### Ending and raising -/

theorem fueled_err {α : Type} {e : PyErr} (h : e ≠ .outOfFuel) : Fueled (.error e : Res α) := by
  intro h'; cases h'; exact h rfl

theorem fueled_chooseOpA_of {ar : Arith K} (hr : ∀ a b, Fueled (ar.ratio a b)) (hd : ∀ a b, Fueled (ar.div a b))
    (hl : ∀ l, Fueled (ar.sortCands l)) {I S : Type} {C : NodeClass I S} {ecg : S → Res K}
    (he : ∀ s, Fueled (ecg s)) (s : S) (cs : List (Tree S)) (i : I) (w : World) :
    Fueled (chooseOpA ar C ecg s cs i w) := by
  have hcu : ∀ (s : S) (cs : List S), Fueled (categoryUtilityA ar C ecg s cs) := by
    intro s cs
    have : ∀ (n : ℕ) (cs : List S) (acc : K), Fueled (cuSumA ar C ecg n cs acc) := by
      intro n cs
      induction cs with
      | nil => intro acc; exact fueled_ok _
      | cons c cs ih => intro acc; exact (hr _ _).bind fun _ _ => (he _).bind fun _ _ => ih _
    cases cs with
    | nil => exact fueled_ok _
    | cons c cs => exact (this _ _ _).bind fun _ _ => (he _).bind fun _ _ => hd _ _
  have hmk : ∀ (cs : List S) (k : ℕ), Fueled (mkCandsA ar C ecg i w cs k) := by
    intro cs
    induction cs with
    | nil => intro k; exact fueled_ok _
    | cons c cs ih =>
      intro k
      exact ((he _).bind fun _ _ => (he _).bind fun _ _ => fueled_ok _).bind fun _ _ =>
        (ih _).bind fun _ _ => fueled_ok _
  have hcs : ∀ (n : ℕ) (cs : List S) (acc : K), Fueled (constSumA ar C ecg n cs acc) := by
    intro n cs
    induction cs with
    | nil => intro acc; exact fueled_ok _
    | cons c cs ih => intro acc; exact (hr _ _).bind fun _ _ => (he _).bind fun _ _ => ih _
  have hadd : ∀ (off : ℕ) (l : List (OpCand K)) (op : Op) (c : Res K), Fueled c → Fueled (addOp w off l op c) :=
    fun off l op c h => h.bind fun _ _ => fueled_ok _
  have htwo : Fueled (twoBestA ar C ecg s (cs.map Tree.stats) i w) := by
    unfold twoBestA
    split
    · exact fueled_err (by simp)
    · refine (hmk _ _).bind fun _ _ => (hl _).bind fun sorted _ => ?_
      refine ((he _).bind fun _ _ => (hcs _ _ _).bind fun _ _ => hd _ _).bind fun _ _ => ?_
      cases sorted with
      | nil => exact fueled_err (by simp)
      | cons c1 rest => exact (hd _ _).bind fun _ _ => (hd _ _).bind fun _ _ => fueled_ok _
  refine htwo.bind fun b _ => Fueled.bind ?_ fun _ _ => fueled_ok _
  unfold bestOpA
  simp only
  split
  · exact fueled_err (by simp)
  · refine Fueled.bind ?_ fun _ _ => Fueled.bind ?_ fun _ _ => Fueled.bind ?_ fun l3 _ => ?_
    · unfold opsNewA; split
      · exact hadd _ _ _ _ (hcu _ _)
      · exact fueled_ok _
    · unfold opsMergeA; split
      · split
        · exact hadd _ _ _ _ (hcu _ _)
        · exact fueled_ok _
      · exact fueled_ok _
    · unfold opsSplitA; split
      · exact hadd _ _ _ _ (hcu _ _)
      · exact fueled_ok _
    · cases ar.sortOps l3 with
      | nil => exact fueled_err (by simp)
      | cons c l => exact fueled_ok _

/-- **C94**: on any tree and with any arithmetic and any scores, `ifit` ends within `num_concepts`
iterations (`outOfFuel` stands for a loop that does not end; no Python operation returns it). -/
theorem C94_terminates {ar : Arith K} (hs : ar.Sorts) (hr : ∀ a b, ar.ratio a b ≠ .error .outOfFuel)
    (hd : ∀ a b, ar.div a b ≠ .error .outOfFuel) (hl : ∀ l, ar.sortCands l ≠ .error .outOfFuel)
    {ecg : Stats A V → Res K} (he : ∀ s, ecg s ≠ .error .outOfFuel) (t : Tree (Stats A V)) (i : Inst A V)
    (w : World) :
    cobwebBy (cobwebClass hid) (chooseOpA ar (cobwebClass hid) ecg) t i w ≠ .error .outOfFuel :=
  fueled_cobwebLoopBy (ch := chooseOpA ar (cobwebClass hid) ecg) (chooseOpA_eligible hs)
    (fun s cs w => fueled_chooseOpA_of hr hd hl he s cs i w) _ _ _ le_rfl

theorem ecgA_scores {ar : Arith K} (hT : ar.Total) :
    Scores Summarizes (Stats.ecgA ar hid) (HasVisible (V := V) hid) := by
  rintro s m h ⟨i, hi, hv⟩
  have h0 : s.count ≠ 0 := by
    rw [h.count]; intro h0; rw [Multiset.card_eq_zero.1 h0] at hi; simp at hi
  have h1 : ∀ (cs : List ℕ) (acc : K), ∃ r, sqLoopA ar s.count cs acc = .ok r := by
    intro cs
    induction cs with
    | nil => intro acc; exact ⟨_, rfl⟩
    | cons c cs ih =>
      intro acc
      obtain ⟨p, hp⟩ := hT.ratio c s.count h0
      obtain ⟨r, hr⟩ := ih (ar.add acc (ar.mul p p))
      exact ⟨r, by simp only [sqLoopA, hp, ok_bind, hr]⟩
  have h2 : ∀ (ts : List (Dict V ℕ)) (acc : K), ∃ r, ecgLoopA ar s.count ts acc = .ok r := by
    intro ts
    induction ts with
    | nil => intro acc; exact ⟨_, rfl⟩
    | cons c cs ih =>
      intro acc
      obtain ⟨p, hp⟩ := h1 (c.map Prod.snd) acc
      obtain ⟨r, hr⟩ := ih p
      exact ⟨r, by simp only [ecgLoopA, hp, ok_bind, hr]⟩
  have h3 : ((s.visible hid).map Prod.snd).length ≠ 0 := by
    rw [List.length_map, h.visible_length]
    exact Finset.card_ne_zero.2 (visAttrs_nonempty hi hv)
  obtain ⟨g, hg⟩ := h2 ((s.visible hid).map Prod.snd) (ar.ofNat 0)
  obtain ⟨r, hr⟩ := hT.div g _ h3
  exact ⟨r, by simp only [Stats.ecgA, hg, ok_bind, hr]⟩

/-- **C94**: if the arithmetic raises only on division by zero and on tied children, and every instance
has a visible attribute and the random numbers differ, then neither `ifit` nor `categorize` raises, and
`categorize` returns a leaf of the tree. -/
theorem C94_never_raises (h : CobwebAny hid t hist n) (hv : ∀ j ∈ hist, HasVisible hid j) {ar : Arith K}
    (hs : ar.Sorts) (hT : ar.Total) {i : Inst A V} (hi : Dict.Nodup i) {w : World}
    (hw : Function.Injective w.rnd) :
    (HasVisible hid i → ∃ o,
      cobwebBy (cobwebClass hid) (chooseOpA ar (cobwebClass hid) (Stats.ecgA ar hid)) t i w = .ok o) ∧
    ∃ leaf w', categorizeA ar (cobwebClass hid) (Stats.ecgA ar hid) t i w = .ok (leaf, w') ∧
      leaf ∈ t.leaves := by
  have L := (cobwebLaws (V := V) hid).table
  rcases (reachAny_holds L h).holds L with ⟨-, id, rfl⟩ | hh
  · refine ⟨fun _ => ⟨⟨.node id (Stats.fresh.incr i) [], id, false, w⟩, ?_⟩,
      .node id Stats.fresh [], w, ?_, ?_⟩
    · simp [cobwebBy, cobwebLoopBy, Tree.numConcepts_node, cobwebClass, Stats.fresh]
    · simp [categorizeA, categorizeLoopA, Tree.numConcepts_node, cobwebClass]
    · rw [Tree.leaves_nil]; simp [cobwebClass]
  · have hG : ∀ j ∈ (hist : Multiset (Inst A V)), HasVisible hid j := fun j hj => hv j (by simpa using hj)
    refine ⟨fun hiv => cobwebLoopBy_total L hs hT (ecgA_scores hT) hi hiv _ t w _ le_rfl hh hG hw, ?_⟩
    obtain ⟨⟨leaf, w'⟩, ho⟩ := categorizeLoopA_total L hs hT (ecgA_scores hT) hi _ t w _ le_rfl hh hG hw
    exact ⟨leaf, w', ho, (categorizeLoopA_leaf _ _ _ _ ho).1⟩

/-! ### An arithmetic unlike the exact one -/

namespace Demo

/-- Whole numbers, every quotient truncated: most scores vanish, and ties are broken by the other
components. -/
def coarse : Arith ℤ where
  ofNat n := n
  add a b := a + b
  sub a b := a - b
  mul a b := a * b
  div a b := if b = 0 then .error .zeroDiv else .ok (a / b)
  ratio a b := if b = 0 then .error .zeroDiv else .ok ((a : ℤ) / b)
  sortCands l := .ok (l.insertionSort fun a b => b.rel ≤ a.rel)
  sortOps l := l.insertionSort fun a b => b.cu ≤ a.cu

theorem coarse_sorts : coarse.Sorts where
  cands h := by simp only [coarse, Except.ok.injEq] at h; subst h; exact List.perm_insertionSort _ _
  ops l := List.perm_insertionSort _ _

theorem coarse_total : coarse.Total where
  ratio a b h := ⟨_, if_neg h⟩
  div x n h := ⟨_, if_neg (by simpa [coarse] using h)⟩
  sort l _ := ⟨_, rfl⟩

/-- Fitting a list with this arithmetic. -/
def coarseRun : List (Inst ℕ ℕ) → Tree (Stats ℕ ℕ) → World → Res (Tree (Stats ℕ ℕ) × World)
  | [], t, w => .ok (t, w)
  | i :: l, t, w => do
    let o ← cobwebBy (cobwebClass Demo.hid) (chooseOpA coarse (cobwebClass Demo.hid) (Stats.ecgA coarse Demo.hid)) t i w
    coarseRun l o.tree o.w

theorem coarse_reach {l h : List (Inst ℕ ℕ)} (hl : ∀ i ∈ l, Dict.Nodup i) {t t' : Tree (Stats ℕ ℕ)} {n : ℕ}
    {w w' : World} (hr : CobwebAny Demo.hid t h n) (hw : n ≤ w.ctr) (ho : coarseRun l t w = .ok (t', w')) :
    ∃ n', CobwebAny Demo.hid t' (h ++ l) n' := by
  induction l generalizing t h n w with
  | nil =>
    simp only [coarseRun, Except.ok.injEq, Prod.mk.injEq] at ho
    obtain ⟨rfl, rfl⟩ := ho
    exact ⟨n, by simpa using hr⟩
  | cons i l ih =>
    simp only [coarseRun, bind_ok] at ho
    obtain ⟨o, ho, ho'⟩ := ho
    have := ih (fun j hj => hl j (by simp [hj])) (.step hr coarse_sorts (hl i (by simp)) hw ho) le_rfl ho'
    simpa using this

/-- A flat tree, not the tree of the exact model. -/
theorem coarse_example : ∃ t n, CobwebAny Demo.hid t insts n ∧ t.numConcepts ≠ demoTree.numConcepts ∧
    2 < t.children.length := by
  have key : (match coarseRun insts (emptyTree (cobwebClass Demo.hid) w0) (w0.bump 1) with
      | .ok (t, _) => decide (t.numConcepts ≠ demoTree.numConcepts ∧ 2 < t.children.length)
      | .error _ => false) = true := by decide +kernel
  split at key
  · rename_i t w h
    obtain ⟨n, hn⟩ := coarse_reach (by decide) (ReachAny.init w0) le_rfl h
    exact ⟨t, n, by simpa using hn, by simpa using key⟩
  · cases key

end Demo

/-- The hypotheses of the theorems above hold of it. -/
example : ∃ t n, CobwebAny Demo.hid t Demo.insts n ∧ Demo.insts ≠ [] ∧ Demo.coarse.Sorts ∧
    Demo.coarse.Total ∧ (∀ j ∈ Demo.insts, HasVisible Demo.hid j) := by
  obtain ⟨t, n, h, -⟩ := Demo.coarse_example
  exact ⟨t, n, h, by decide, Demo.coarse_sorts, Demo.coarse_total, by unfold HasVisible; decide⟩

end CF
