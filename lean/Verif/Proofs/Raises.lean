/-
When `ifit` and `categorize` raise ZeroDivisionError: exactly when the tree has inner nodes and some instance
cannot be scored.
-/
import Verif.Proofs.NoRaise
import Verif.Proofs.Reach

set_option linter.unusedSectionVars false

namespace CF
section
variable {I S K : Type} [Field K] [LinearOrder K] [IsStrictOrderedRing K]
variable {C : NodeClass I S} {Ok : I → Prop} {Sum : S → Multiset I → Prop} {Same : I → I → Prop}
variable {ecg : S → Res K} {G : I → Prop}

/-- A table can be scored exactly if it summarises a good instance; otherwise scoring divides by zero. -/
structure ScoresIff (Sum : S → Multiset I → Prop) (ecg : S → Res K) (G : I → Prop) : Prop where
  ok : Scores Sum ecg G
  err : ∀ s m, Sum s m → (∀ i ∈ m, ¬ G i) → ecg s = .error .zeroDiv

/-- A table of bad instances. -/
def BadTable (Sum : S → Multiset I → Prop) (G : I → Prop) (s : S) : Prop := ∃ m, Sum s m ∧ ∀ i ∈ m, ¬ G i

theorem ScoresIff.either (hE : ScoresIff Sum ecg G) {s : S} {m : Multiset I} (h : Sum s m) :
    (∃ e, ecg s = .ok e) ∨ ecg s = .error .zeroDiv := by
  by_cases hg : ∃ i ∈ m, G i
  · exact .inl (hE.ok s m h hg)
  · push Not at hg
    exact .inr (hE.err s m h hg)

theorem relative_either (L : Laws C Ok Sum Same) (hE : ScoresIff Sum ecg G) {inst : I} (hi : Ok inst) {s : S}
    {m : Multiset I} (h : Sum s m) :
    (∃ r, relativeCuForInsert C ecg s inst = .ok r) ∨ relativeCuForInsert C ecg s inst = .error .zeroDiv := by
  unfold relativeCuForInsert
  rw [shallowCopy, L.copy h]
  rcases hE.either (L.incr h hi) with ⟨e, he⟩ | he <;> rw [he]
  · rcases hE.either h with ⟨e', he'⟩ | he' <;> rw [he']
    · exact .inl ⟨_, rfl⟩
    · exact .inr rfl
  · exact .inr rfl

theorem relative_bad (L : Laws C Ok Sum Same) (hE : ScoresIff Sum ecg G) {inst : I} (hi : Ok inst) {s : S}
    (h : BadTable Sum G s) : relativeCuForInsert C ecg s inst = .error .zeroDiv := by
  obtain ⟨m, h, hb⟩ := h
  unfold relativeCuForInsert
  rw [shallowCopy, L.copy h]
  rcases hE.either (L.incr h hi) with ⟨e, he⟩ | he <;> rw [he]
  · rw [ok_bind, hE.err s m h hb]; rfl
  · rfl

theorem mkCands_bad (L : Laws C Ok Sum Same) (hE : ScoresIff Sum ecg G) {inst : I} (hi : Ok inst) {w : World}
    {cs : List S} (h : ∀ c ∈ cs, ∃ m, Sum c m) (hb : ∃ c ∈ cs, BadTable Sum G c) (k : ℕ) :
    mkCands C ecg inst w cs k = .error .zeroDiv := by
  induction cs generalizing k with
  | nil => simp at hb
  | cons c cs ih =>
    rw [mkCands]
    obtain ⟨m, hm⟩ := h c (by simp)
    rcases relative_either L hE hi hm with ⟨r, hr⟩ | hr
    · rw [hr, ok_bind]
      obtain ⟨d, hd, hbad⟩ := hb
      rcases List.mem_cons.1 hd with rfl | hd
      · rw [relative_bad L hE hi hbad] at hr; cases hr
      · rw [ih (fun c hc => h c (by simp [hc])) ⟨d, hd, hbad⟩, error_bind]
    · rw [hr]; rfl

theorem twoBest_bad (L : Laws C Ok Sum Same) (hE : ScoresIff Sum ecg G) {inst : I} (hi : Ok inst) {w : World}
    {s : S} {cs : List S} (h : ∀ c ∈ cs, ∃ m, Sum c m) (hb : ∃ c ∈ cs, BadTable Sum G c) :
    twoBest C ecg s cs inst w = .error .zeroDiv := by
  unfold twoBest
  obtain ⟨c, hc, -⟩ := id hb
  rw [if_neg (by have := List.length_pos_of_mem hc; omega), mkCands_bad L hE hi h hb]
  rfl

theorem cuSum_append_error {n : ℕ} (hn : n ≠ 0) {cs : List S} {x : S} {e : PyErr}
    (hcs : ∀ c ∈ cs, ∃ e, ecg c = .ok e) (hx : ecg x = .error e) (acc : K) :
    cuSum C ecg n (cs ++ [x]) acc = .error e := by
  have hn' : (n : K) ≠ 0 := by exact_mod_cast hn
  induction cs generalizing acc with
  | nil => simp [cuSum, pyDiv, hn', hx, bind, Except.bind]
  | cons c cs ih =>
    obtain ⟨y, hy⟩ := hcs c (by simp)
    have := ih (fun c hc => hcs c (by simp [hc]))
    simp [cuSum, pyDiv, hn', hy, bind, Except.bind, this]

/-- A bad instance on a node with children that are all good. -/
theorem bestOp_bad_inst (L : Laws C Ok Sum Same) (hE : ScoresIff Sum ecg G) {inst : I} (hi : Ok inst)
    (hg : ¬ G inst) {s : S} {cs : List (Tree S)} {w : World}
    (hgood : GoodTable Sum G s) (hgc : ∀ c ∈ cs, GoodTable Sum G c.stats) {b : Best K}
    (hb : twoBest C ecg s (cs.map Tree.stats) inst w = .ok b) :
    bestOp C ecg allOps s cs inst b.cu (some b.b1) b.b2 w cs.length = .error .zeroDiv := by
  have hgc' : ∀ c ∈ cs.map Tree.stats, GoodTable Sum G c := by
    intro x hx
    obtain ⟨c, hc, rfl⟩ := List.mem_map.1 hx
    exact hgc c hc
  obtain ⟨hb1, -⟩ := twoBest_idx _ _ hb
  rw [List.length_map] at hb1
  have ht1 : cs[b.b1]? = some cs[b.b1] := List.getElem?_eq_getElem hb1
  have hbad : ecg (C.incr C.fresh inst) = .error .zeroDiv :=
    hE.err _ _ (L.incr L.fresh hi) (by simpa using hg)
  have hnew : cuForNewChild C ecg s (cs.map Tree.stats) inst = .error .zeroDiv := by
    unfold cuForNewChild
    have e : (cs.map Tree.stats).map (shallowCopy C) = cs.map Tree.stats := by
      conv_rhs => rw [← List.map_id (cs.map Tree.stats)]
      exact List.map_congr_left fun c hc => (hgc' c hc).copy L
    rw [e, hgood.copy L]
    have hne' : cs.map Tree.stats ++ [C.incr C.fresh inst] ≠ [] := by simp
    have key := cuSum_append_error (C := C) (hgood.incr_score L hE.ok hi).2
      (fun x hx => (hgc' x hx).score hE.ok) hbad (0 : K)
    generalize cs.map Tree.stats ++ [C.incr C.fresh inst] = l at hne' key
    match l with
    | [] => exact absurd rfl hne'
    | x :: l => rw [categoryUtility, key]; rfl
  unfold bestOp
  simp only [ht1, opsNew, hnew, addOp, Except.map, allOps, List.mem_cons, List.not_mem_nil,
    reduceCtorEq, or_true, false_or, true_or, if_true, error_bind]

/-- What is known of a tree after a sequence of successful calls. -/
def Poison (Sum : S → Multiset I → Prop) (Same : I → I → Prop) (G : I → Prop) (t : Tree S) (m : Multiset I) : Prop :=
  t.children ≠ [] → (∃ j ∈ m, ∃ k ∈ m, ¬ Same j k) ∧
    ((∃ j ∈ m, ¬ G j) → ∃ c ∈ t.children, BadTable Sum G c.stats)

/-- The choice at the root, when there is a bad instance. -/
theorem chooseOp_bad (L : Laws C Ok Sum Same) (hE : ScoresIff Sum ecg G) {inst : I} (hi : Ok inst) {t : Tree S}
    {m : Multiset I} (ht : Holds Sum Same t m) (hne : t.children ≠ []) (hp : Poison Sum Same G t m)
    {w : World} (hb : ∃ j ∈ inst ::ₘ m, ¬ G j) :
    (∃ e, chooseOp C ecg t.stats t.children inst w = .error e) ∧
    (Function.Injective w.rnd → chooseOp C ecg t.stats t.children inst w = .error .zeroDiv) := by
  by_cases hm : ∃ j ∈ m, ¬ G j
  · have : chooseOp C ecg t.stats t.children inst w = .error .zeroDiv := by
      obtain ⟨c, hc, hbad⟩ := (hp hne).2 hm
      unfold chooseOp
      rw [twoBest_bad L hE hi _ ⟨c.stats, List.mem_map_of_mem hc, hbad⟩, error_bind]
      intro x hx
      obtain ⟨c, hc, rfl⟩ := List.mem_map.1 hx
      cases ht with
      | leaf => simp at hne
      | node _ h _ =>
        obtain ⟨m', h', -⟩ := h.mem hc
        exact ⟨m', h'.sum⟩
    exact ⟨⟨_, this⟩, fun _ => this⟩
  · push Not at hm
    obtain ⟨j, hj, hbj⟩ := hb
    rcases Multiset.mem_cons.1 hj with rfl | hj
    · have hgood := ht.good hm
      have hgc := ht.children_good hm
      unfold chooseOp
      refine ⟨?_, fun hw => ?_⟩
      · cases hb : twoBest C ecg t.stats (t.children.map Tree.stats) j w with
        | error e => exact ⟨e, rfl⟩
        | ok b => exact ⟨_, by rw [ok_bind, bestOp_bad_inst L hE hi hbj hgood hgc hb]; rfl⟩
      · obtain ⟨b, hb⟩ := twoBest_total L hE.ok hi (cs := t.children.map Tree.stats) hw hgood (by
          intro x hx
          obtain ⟨c, hc, rfl⟩ := List.mem_map.1 hx
          exact hgc c hc) (by simpa using hne)
        rw [hb, ok_bind, bestOp_bad_inst L hE hi hbj hgood hgc hb]; rfl
    · exact absurd (hm j hj) hbj

/-- `cobweb` on a tree with children, when there is a bad instance. -/
theorem cobweb_inner (L : Laws C Ok Sum Same) (hE : ScoresIff Sum ecg G) {inst : I} (hi : Ok inst) {t : Tree S}
    {m : Multiset I} (ht : Holds Sum Same t m) (hne : t.children ≠ []) (hp : Poison Sum Same G t m)
    {w : World} (hb : ∃ j ∈ inst ::ₘ m, ¬ G j) :
    (∃ e, cobweb C ecg t inst w = .error e) ∧
    (Function.Injective w.rnd → cobweb C ecg t inst w = .error .zeroDiv) := by
  obtain ⟨⟨e, h1⟩, h2⟩ := chooseOp_bad L hE hi ht hne hp (w := w) hb
  match t, hne with
  | .node id s (c :: cs'), _ =>
    unfold cobweb
    rw [Tree.numConcepts_node, add_comm]
    simp only [Tree.stats_node, Tree.children_node] at h1 h2
    refine ⟨⟨e, ?_⟩, fun hw => ?_⟩
    · simp only [cobwebLoop, h1, error_bind]
    · simp only [cobwebLoop, h2 hw, error_bind]

theorem categorize_inner (L : Laws C Ok Sum Same) (hE : ScoresIff Sum ecg G) {inst : I} (hi : Ok inst) {t : Tree S}
    {m : Multiset I} (ht : Holds Sum Same t m) (hne : t.children ≠ []) (hp : Poison Sum Same G t m)
    {w : World} (hb : ∃ j ∈ m, ¬ G j) : categorize C ecg t inst w = .error .zeroDiv := by
  have hch : twoBest C ecg t.stats (t.children.map Tree.stats) inst w = .error .zeroDiv := by
    obtain ⟨c, hc, hbad⟩ := (hp hne).2 hb
    refine twoBest_bad L hE hi ?_ ⟨c.stats, List.mem_map_of_mem hc, hbad⟩
    intro x hx
    obtain ⟨c, hc, rfl⟩ := List.mem_map.1 hx
    cases ht with
    | leaf => simp at hne
    | node _ h _ =>
      obtain ⟨m', h', -⟩ := h.mem hc
      exact ⟨m', h'.sum⟩
  match t, hne with
  | .node id s (c :: cs'), _ =>
    unfold categorize
    rw [Tree.numConcepts_node, add_comm]
    simp only [Tree.stats_node, Tree.children_node] at hch
    simp only [categorizeLoop, hch, error_bind]

variable {E : (S → Res K) → Prop}

theorem reach_poison (L : Laws C Ok Sum Same) (hE : ∀ ecg, E ecg → ScoresIff Sum ecg G)
    (hS : ∀ i j, Same i j → G i → G j) {t : Tree S} {hist : List I} {n : ℕ} (h : Reach C Ok E t hist n) :
    Poison Sum Same G t (hist : Multiset I) := by
  induction h with
  | init w => intro hne; simp [emptyTree] at hne
  | @step t hist n ecg i w o hr he hi _ ho ih =>
    intro hne
    have hcoe : ((hist ++ [i] : List I) : Multiset I) = i ::ₘ (hist : Multiset I) := by
      rw [← Multiset.coe_add, add_comm]; rfl
    rw [hcoe]
    by_cases hc : t.children = []
    · match t, hc with
      | .node id s [], _ =>
      rw [cobweb, Tree.numConcepts_node, add_comm] at ho
      simp only [cobwebLoop] at ho
      split at ho
      · cases ho; simp at hne
      · next hx =>
        cases ho
        simp only [Bool.or_eq_true, beq_iff_eq, not_or] at hx
        rcases reach_holds L hr with ⟨-, id', e⟩ | hh
        · cases e; exact absurd (L.count L.fresh) (by simpa using hx.2)
        · cases hh with
          | node h1 => simp at h1
          | leaf hsum h0 hsame =>
          have hex := mt (L.exact hsum h0 hi).2 hx.1
          push Not at hex
          obtain ⟨j, hj, hn⟩ := hex
          refine ⟨⟨i, by simp, j, Multiset.mem_cons_of_mem hj, hn⟩, ?_⟩
          rintro ⟨k, hk, hbad⟩
          rcases Multiset.mem_cons.1 hk with rfl | hk
          · refine ⟨.node (w.ctr + 2) (C.incr C.fresh k) [], by simp, {k}, ?_, by simpa using hbad⟩
            have := L.incr L.fresh hi
            rwa [Multiset.cons_zero] at this
          · exact ⟨.node id s [], by simp, _, hsum, fun l hl hg => hbad (hS l k (hsame l hl k hk) hg)⟩
    · rcases reach_holds L hr with ⟨-, id', rfl⟩ | hh
      · simp at hc
      obtain ⟨⟨j, hj, k, hk, hn⟩, -⟩ := ih hc
      refine ⟨⟨j, Multiset.mem_cons_of_mem hj, k, Multiset.mem_cons_of_mem hk, hn⟩, fun hb => ?_⟩
      obtain ⟨⟨e, h1⟩, -⟩ := cobweb_inner L (hE ecg he) hi hh hc ih (w := w) hb
      rw [h1] at ho; cases ho

/-- The tree has inner nodes exactly if not all instances look the same. -/
theorem reach_children (L : Laws C Ok Sum Same) (hE : ∀ ecg, E ecg → ScoresIff Sum ecg G)
    (hS : ∀ i j, Same i j → G i → G j) {t : Tree S} {hist : List I} {n : ℕ} (h : Reach C Ok E t hist n) :
    t.children ≠ [] ↔ ∃ j ∈ hist, ∃ k ∈ hist, ¬ Same j k := by
  constructor
  · intro hne
    simpa using (reach_poison L hE hS h hne).1
  · rintro ⟨j, hj, k, hk, hn⟩ he
    rcases reach_holds L h with ⟨h0, -⟩ | hh
    · simp only [Multiset.coe_eq_zero] at h0
      simp [h0] at hj
    · match t, he with
      | .node id s [], _ =>
      cases hh with
      | node h1 => simp at h1
      | leaf _ _ hs => exact hn (hs j (by simpa using hj) k (by simpa using hk))

/-- When `ifit` raises, on a tree reached by successful calls. -/
theorem cobweb_raises_iff (L : Laws C Ok Sum Same) (hE : ∀ ecg, E ecg → ScoresIff Sum ecg G)
    (hS : ∀ i j, Same i j → G i → G j) {t : Tree S} {hist : List I} {n : ℕ} (h : Reach C Ok E t hist n)
    (hf : ∀ inst w, cobweb C ecg t inst w ≠ .error .outOfFuel)
    (he : E ecg) {inst : I} (hi : Ok inst) {w : World} (hw : Function.Injective w.rnd) :
    (((∃ j ∈ hist, ∃ k ∈ hist, ¬ Same j k) ∧ ∃ j ∈ inst :: hist, ¬ G j) → cobweb C ecg t inst w = .error .zeroDiv) ∧
    (¬ ((∃ j ∈ hist, ∃ k ∈ hist, ¬ Same j k) ∧ ∃ j ∈ inst :: hist, ¬ G j) → ∃ o, cobweb C ecg t inst w = .ok o) := by
  have hp := reach_poison L hE hS h
  rw [← reach_children L hE hS h]
  constructor
  · rintro ⟨hne, hb⟩
    rcases reach_holds L h with ⟨-, id', rfl⟩ | hh
    · simp at hne
    · exact (cobweb_inner L (hE ecg he) hi hh hne hp (by simpa using hb)).2 hw
  · intro hc
    by_cases hne : t.children = []
    · match t, hne with
      | .node id s [], _ =>
      rw [cobweb, Tree.numConcepts_node, add_comm]
      simp only [cobwebLoop]
      split <;> exact ⟨_, rfl⟩
    · have hg : ∀ j ∈ inst :: hist, G j := by
        by_contra hb
        push Not at hb
        exact hc ⟨hne, hb⟩
      rcases reach_holds L h with ⟨-, id', rfl⟩ | hh
      · simp at hne
      · rcases cobwebLoop_total L (hE ecg he).ok hi (hg inst (by simp)) t.numConcepts t w _ hh
          (fun j hj => hg j (by simp at hj; simp [hj])) hw with ho | ho
        · exact ho
        · exact absurd ho (hf inst w)

/-- When `categorize` raises. -/
theorem categorize_raises_iff (L : Laws C Ok Sum Same) (hE : ∀ ecg, E ecg → ScoresIff Sum ecg G)
    (hS : ∀ i j, Same i j → G i → G j) {t : Tree S} {hist : List I} {n : ℕ} (h : Reach C Ok E t hist n)
    (hf : ∀ inst w, categorize C ecg t inst w ≠ .error .outOfFuel)
    (he : E ecg) {inst : I} (hi : Ok inst) {w : World} (hw : Function.Injective w.rnd) :
    (((∃ j ∈ hist, ∃ k ∈ hist, ¬ Same j k) ∧ ∃ j ∈ hist, ¬ G j) → categorize C ecg t inst w = .error .zeroDiv) ∧
    (¬ ((∃ j ∈ hist, ∃ k ∈ hist, ¬ Same j k) ∧ ∃ j ∈ hist, ¬ G j) → ∃ o, categorize C ecg t inst w = .ok o) := by
  have hp := reach_poison L hE hS h
  rw [← reach_children L hE hS h]
  constructor
  · rintro ⟨hne, hb⟩
    rcases reach_holds L h with ⟨-, id', rfl⟩ | hh
    · simp at hne
    · exact categorize_inner L (hE ecg he) hi hh hne hp (by simpa using hb)
  · intro hc
    by_cases hne : t.children = []
    · match t, hne with
      | .node id s [], _ =>
      rw [categorize, Tree.numConcepts_node, add_comm]
      exact ⟨_, rfl⟩
    · have hg : ∀ j ∈ hist, G j := by
        by_contra hb
        push Not at hb
        exact hc ⟨hne, hb⟩
      rcases reach_holds L h with ⟨-, id', rfl⟩ | hh
      · simp at hne
      · rcases categorizeLoop_total L (hE ecg he).ok hi t.numConcepts t w _ hh
          (fun j hj => hg j (by simpa using hj)) hw with ho | ho
        · exact ho
        · exact absurd ho (hf inst w)

end
end CF
