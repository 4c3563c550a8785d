/-
Property C108: `categorize` finds the leaves that the textbook algorithm finds, whatever the ties; the random numbers only
decide ties.
-/
import Verif.Props.Textbook
import Verif.Proofs.HeapReach

set_option linter.unusedSectionVars false

namespace CF

/-- `Places E i T Y`: from the hierarchy `T`, following best hosts for `i` as long as there are concepts below, one can end at
`Y`. Nothing is learnt on the way. -/
inductive Places {I K : Type} [Field K] [LinearOrder K] (E : Multiset I → K) (i : I) : Hier I → Hier I → Prop
  | stay {m} : Places E i (.node m []) (.node m [])
  | down {m hs x others Y} : hs.Perm (x :: others) →
      (∀ y ys, hs.Perm (y :: ys) →
        NotAhead (hosting E m i y ys) (Multiset.card y.group) (hosting E m i x others) (Multiset.card x.group)) →
      Places E i x Y → Places E i (.node m hs) Y

section generic
variable {I S K : Type} [Field K] [LinearOrder K] [IsStrictOrderedRing K]
variable {C : NodeClass I S} {Ok : I → Prop} {Sum : S → Multiset I → Prop} {Same : I → I → Prop}
variable {ecg : S → Res K} {E : Multiset I → K} {G : I → Prop}

theorem notAhead_of_notBetter {u u' : K} {n n' : ℕ} {r r' : ℚ} (h : NotBetter u n r u' n' r') : NotAhead u n u' n' := by
  rcases h with h | ⟨h1, h2⟩
  · exact .inl h
  · refine .inr ⟨h1, ?_⟩
    rcases h2 with h2 | ⟨h2, -⟩
    · exact h2.le
    · exact h2.le

theorem categorizeLoop_places (L : Laws C Ok Sum Same) (hV : Values Sum ecg E) {inst : I} (hi : Ok inst)
    (hinc : ∀ s, C.count (C.incr s inst) = C.count s + 1) : ∀ (fuel : ℕ) (t : Tree S) (T : Hier I) (w : World)
    (r : Tree S × World), Depicts Sum t T → categorizeLoop C ecg inst fuel t w = .ok r →
      ∃ Y, Places E inst T Y ∧ Depicts Sum r.1 Y := by
  intro fuel
  induction fuel with
  | zero => intro t T w r _ h; simp [categorizeLoop] at h
  | succ fuel ih =>
    intro t T w r ht h
    obtain ⟨id, s, cs⟩ := t
    obtain ⟨m, hs⟩ := T
    obtain ⟨h1, hs', h2, h3⟩ := shows_inv ht
    cases cs with
    | nil =>
      cases h2
      cases h3.nil_eq
      simp only [categorizeLoop, Except.ok.injEq] at h
      subst h
      exact ⟨_, .stay, shows_node h1 .nil (.refl _)⟩
    | cons c cs =>
      simp only [categorizeLoop, bind_ok] at h
      obtain ⟨b, hb, h⟩ := h
      have hsg := shows_groups h2
      obtain ⟨c1, hc1, hu1, hall, -, -⟩ := twoBest_optimal (copies_of_sum L hV hsg)
        (show shallowCopy C s = s from L.copy h1) hinc hb
      obtain ⟨g1, hg1, hsc1⟩ := shown_getElem? hsg hc1
      simp only [groups, List.getElem?_map, Option.map_eq_some_iff] at hg1
      obtain ⟨x, hx, rfl⟩ := hg1
      obtain ⟨t1, ht1, hst1⟩ := shown_getElem?' h2 hx
      rw [ht1] at h
      obtain ⟨Y, hY, hd⟩ := ih t1 x _ r hst1 h
      refine ⟨Y, .down (h3.symm.trans (perm_eraseIdx hx)) ?_ hY, hd⟩
      intro y ys hy
      obtain ⟨k, hk, hr⟩ := perm_cons_pos (h3.trans hy)
      obtain ⟨t2, ht2, hst2⟩ := shown_getElem?' h2 hk
      obtain ⟨u, hu, hnb⟩ := hall k t2.stats (by rw [List.getElem?_map, ht2]; rfl)
      have := notAhead_of_notBetter hnb
      rwa [insert_hosting L hV hi h1 h2 hk hu, insert_hosting L hV hi h1 h2 hx hu1, hosting_perm hr,
        L.count hst2.stats, L.count hsc1] at this

/-- What has been placed is a concept without concepts below it. -/
theorem Places.leaf {i : I} {T Y : Hier I} (h : Places E i T Y) : Y.subs = [] := by
  induction h with
  | stay => rfl
  | down _ _ _ ih => exact ih

theorem twoBest_first (L : Laws C Ok Sum Same) (hV : Values Sum ecg E) (hE : Scores Sum ecg G) {inst : I} (hi : Ok inst)
    (hinc : ∀ s, C.count (C.incr s inst) = C.count s + 1) {s : S} {m : Multiset I} (hs : Sum s m) (hm : m ≠ 0)
    (hG : ∀ j ∈ m, G j) {cs : List (Tree S)} {hs' : List (Hier I)} (h : List.Forall₂ (Depicts Sum) cs hs')
    (hP : ∀ x ∈ hs', x.Proper) (hsum : (groups hs').sum = m) {k : ℕ} {x : Hier I} (hx : hs'[k]? = some x)
    (hfirst : ∀ y ys, hs'.Perm (y :: ys) → NotAhead (hosting E m inst y ys) (Multiset.card y.group)
      (hosting E m inst x (hs'.eraseIdx k)) (Multiset.card x.group)) {w : World}
    (hd : ∀ q, q < cs.length → w.draw q = hostDraw cs.length k (k + 1) q) :
    ∃ b, twoBest C ecg s (cs.map Tree.stats) inst w = .ok b ∧ b.b1 = k := by
  have hsg := shows_groups h
  have hmem : ∀ g ∈ groups hs', ∀ i ∈ g, i ∈ m := by
    intro g hgm i hig
    rw [← hsum]
    exact Multiset.mem_of_le (List.le_sum_of_mem hgm) hig
  have hgood : ∀ c ∈ cs, GoodTable Sum G c.stats := by
    intro c hc
    obtain ⟨q, hq⟩ := List.getElem?_of_mem hc
    obtain ⟨z, hz, hcz⟩ := shown_getElem? h hq
    have hz' := List.mem_of_getElem? hz
    exact ⟨z.group, hcz.stats, (hP z hz').ne_zero, fun i hi => hG i (hmem _ (List.mem_map_of_mem hz') i hi)⟩
  obtain ⟨t1, ht1, hst1⟩ := shown_getElem?' h hx
  obtain ⟨hklt, -⟩ := List.getElem?_eq_some_iff.1 ht1
  obtain ⟨b, hb⟩ := twoBest_total' L hE hi (cs := cs.map Tree.stats) (w := w) (by
      intro a b ha hb hab
      rw [List.length_map] at ha hb
      rw [hd a ha, hd b hb] at hab
      exact hostDraw_inj ha hb (by omega) hab) ⟨m, hs, hm, hG⟩ (by
    intro c hc
    obtain ⟨c, hc', rfl⟩ := List.mem_map.1 hc
    exact hgood c hc') (by
      intro h0
      have := congrArg List.length h0
      simp at this; subst this; simp at hklt)
  refine ⟨b, hb, ?_⟩
  obtain ⟨c1, hc1, hu1, hall, -, -⟩ := twoBest_optimal (copies_of_sum L hV hsg)
    (show shallowCopy C s = s from L.copy hs) hinc hb
  by_contra hbk
  obtain ⟨g1, hg1, hsc1⟩ := shown_getElem? hsg hc1
  simp only [groups, List.getElem?_map, Option.map_eq_some_iff] at hg1
  obtain ⟨z, hz, rfl⟩ := hg1
  obtain ⟨hblt, -⟩ := List.getElem?_eq_some_iff.1 hc1
  rw [List.length_map] at hblt
  obtain ⟨u, hu, hnb⟩ := hall k t1.stats (by simp [ht1])
  have hna := hfirst z (hs'.eraseIdx b.b1) (perm_eraseIdx hz)
  rw [← insert_hosting L hV hi hs h hz hu1, ← insert_hosting L hV hi hs h hx hu,
    ← L.count hsc1, ← L.count hst1.stats] at hna
  obtain ⟨-, -, hr⟩ := notBetter_draw hnb hna
  rw [hd k hklt, hd b.b1 hblt] at hr
  exact absurd hr (not_le.2 (hostDraw_lt_first hblt hbk))

theorem Places.run (L : Laws C Ok Sum Same) (hV : Values Sum ecg E) (hE : Scores Sum ecg G) {inst : I} (hi : Ok inst)
    (hinc : ∀ s, C.count (C.incr s inst) = C.count s + 1) {T Y : Hier I} (h : Places E inst T Y) :
    (T.subs ≠ [] → T.Proper) → (∀ j ∈ T.group, G j) → ∀ t : Tree S, Depicts Sum t T →
    ∃ F pre, (∀ q ∈ pre, 0 ≤ q ∧ q < (1 : ℚ)) ∧ ∃ x d, Depicts Sum x Y ∧
      ∀ w, Draws w pre → categorizeLoop C ecg inst F t w = .ok (x, (w.skip pre.length).bump d) := by
  induction h with
  | @stay m =>
    intro _ _ t ht
    obtain ⟨id, s, cs⟩ := t
    obtain ⟨h1, hs', h2, h3⟩ := shows_inv ht
    cases h3.eq_nil
    cases h2
    refine ⟨1, [], by simp, .node id s [], 0, ht, ?_⟩
    intro w _
    simp [categorizeLoop, World.skip, World.bump]
  | @down m hs x others Y hp hfirst _ ih =>
    intro hT hG t ht
    obtain ⟨id, s, cs⟩ := t
    obtain ⟨h1, hs', h2, h3⟩ := shows_inv ht
    have hne : hs ≠ [] := by rintro rfl; exact absurd hp.symm.eq_nil (by simp)
    have hT := hT hne
    obtain ⟨p1, p2, p3⟩ := hT.internal hne
    have hl := h2.length_eq.trans h3.length_eq
    have hcne : cs ≠ [] := by rintro rfl; simp at hl; omega
    obtain ⟨k, hx, hrest⟩ := perm_cons_pos (h3.trans hp)
    obtain ⟨t1, ht1, hst1⟩ := shown_getElem?' h2 hx
    have hxs := h3.mem_iff.1 (List.mem_of_getElem? hx)
    obtain ⟨F, pre', hun', z, d, hz, hrun'⟩ := ih (fun _ => p2 x hxs) (fun i hi => hG i (by
      rw [Hier.group_node, ← p3]
      exact Multiset.mem_of_le (List.le_sum_of_mem (List.mem_map_of_mem hxs)) hi)) t1 hst1
    refine ⟨F + 1, (List.range cs.length).map (hostDraw cs.length k (k + 1)) ++ pre', ?_, z, (cs.length + 1) + d, hz, ?_⟩
    · intro q hq
      rcases List.mem_append.1 hq with hq | hq
      · obtain ⟨a, ha, rfl⟩ := List.mem_map.1 hq
        exact hostDraw_unit (List.mem_range.1 ha)
      · exact hun' q hq
    · intro w hw
      obtain ⟨hw1, hw2⟩ := draws_append hw
      obtain ⟨b, hb, hb1⟩ := twoBest_first L hV hE hi hinc h1 hT.ne_zero hG h2
        (fun z hz => p2 z (h3.mem_iff.1 hz)) ((groups_sum_perm h3).trans p3) hx (by
          intro y ys hy
          rw [hosting_perm hrest]
          exact hfirst y ys (h3.symm.trans hy)) (w := w) (fun q hq => draws_range hw1 hq)
      cases cs with
      | nil => exact absurd rfl hcne
      | cons c cs =>
        rw [List.length_map, List.length_range] at hw2
        simp only [categorizeLoop, hb, ok_bind, hb1, ht1]
        rw [hrun' _ (draws_bump _ hw2)]
        simp [World.skip, World.bump, Nat.add_assoc]

theorem Places.run_categorize (L : Laws C Ok Sum Same) (hV : Values Sum ecg E) (hE : Scores Sum ecg G) {inst : I}
    (hi : Ok inst) (hinc : ∀ s, C.count (C.incr s inst) = C.count s + 1) (hf : ∀ s, Fueled (ecg s)) {T Y : Hier I}
    (h : Places E inst T Y) (hT : T.Start) (hG : ∀ j ∈ T.group, G j) {t : Tree S} (ht : Depicts Sum t T) :
    ∃ pre : List ℚ, (∀ q ∈ pre, 0 ≤ q ∧ q < 1) ∧ ∃ x d, Depicts Sum x Y ∧
      ∀ w, Draws w pre → categorize C ecg t inst w = .ok (x, (w.skip pre.length).bump d) := by
  obtain ⟨F, pre, hun, x, d, hx, hrun⟩ := h.run L hV hE hi hinc (by
    intro hne
    rcases hT with hT | rfl
    · exact hT
    · exact absurd rfl hne) hG t ht
  refine ⟨pre, hun, x, d, hx, fun w hw => ?_⟩
  have ho := hrun w hw
  have hF := fueled_categorizeLoop (C := C) (inst := inst) hf _ t w le_rfl
  have e1 := categorizeLoop_mono _ _ _ hF F
  have e2 := categorizeLoop_mono (C := C) (ecg := ecg) (inst := inst) F t w (by rw [ho]; exact fueled_ok _) t.numConcepts
  unfold categorize
  rw [← e1, Nat.add_comm, e2, ho]

end generic

/-! ### Cobweb -/

section
variable {A V : Type} [DecidableEq A] [DecidableEq V] {hid : A → Bool}
variable {t : Tree (Stats A V)} {hist : List (Inst A V)} {n : ℕ}

/-- **C108**, soundness: whatever random numbers are drawn, `categorize` returns a leaf that the textbook algorithm can
choose, in the hierarchy shown by the tree. -/
theorem C108_categorize_places {T : Hier (Inst A V)} (ht : Depicts Summarizes t T) {i : Inst A V} (hi : Dict.Nodup i)
    {w : World} {r : Tree (Stats A V) × World} (hr : categorize (cobwebClass hid) (Stats.ecg (K := ℚ) hid) t i w = .ok r) :
    ∃ Y, Places (ecgSpec ℚ hid) i T Y ∧ Depicts Summarizes r.1 Y :=
  categorizeLoop_places (cobwebLaws hid) cobweb_values hi (fun _ => rfl) _ _ _ _ _ ht hr

/-- **C108**, completeness: every leaf that the textbook algorithm can choose is returned by `categorize` for some outcomes
of the random numbers; only the first few matter. The instance need not have visible attributes. -/
theorem C108_places_categorize {T Y : Hier (Inst A V)} (hT : LearnsC hid hist T) (ht : Depicts Summarizes t T)
    (hok : ∀ j ∈ hist, HasVisible hid j) {i : Inst A V} (hi : Dict.Nodup i) (hY : Places (ecgSpec ℚ hid) i T Y) :
    ∃ pre : List ℚ, (∀ q ∈ pre, 0 ≤ q ∧ q < 1) ∧ ∃ x d, Depicts Summarizes x Y ∧ ∀ w, Draws w pre →
      categorize (cobwebClass hid) (Stats.ecg (K := ℚ) hid) t i w = .ok (x, (w.skip pre.length).bump d) :=
  hY.run_categorize (cobwebLaws hid) cobweb_values (cobweb_scores ℚ) hi (fun _ => rfl) fueled_ecg hT.start.1 (by
    rw [hT.start.2]; intro j hj; exact hok j (Multiset.mem_coe.1 hj)) ht

end

/-! ### Cobweb/3 -/

section
variable {A B V : Type} [DecidableEq A] [DecidableEq B] [DecidableEq V] {hid : A → Bool} {cfg : Cfg3 A B}
variable {st : State3 A B V} {hist : List (Inst3 A V)} {n : ℕ}

/-- **C108**, soundness for Cobweb/3: the values are scaled by the numbers seen so far, without those of the instance. -/
theorem C108_categorize_places3 (h : Reach3 hid cfg st hist n) {T : Hier (Inst3 A V)} (ht : Depicts Summarizes3 st.root T)
    {i : Inst3 A V} (hi : Dict.Nodup i) {w : World} {r : Tree (Stats3 A V) × World}
    (hr : categorize3 hid cfg st i w = .ok r) :
    ∃ Y, Places (value3 hid cfg hist) i T Y ∧ Depicts Summarizes3 r.1 Y :=
  categorizeLoop_places (cobweb3Laws hid) (cobweb3_values (reach3_scales h)) hi (fun _ => rfl) _ _ _ _ _ ht hr

/-- **C108**, completeness for Cobweb/3. -/
theorem C108_places_categorize3 (h : Reach3 hid cfg st hist n) {T Y : Hier (Inst3 A V)} (hT : Learns3 hid cfg hist T)
    (ht : Depicts Summarizes3 st.root T) (hok : ∀ j ∈ hist, HasVisible hid j) {i : Inst3 A V} (hi : Dict.Nodup i)
    (hY : Places (value3 hid cfg hist) i T Y) :
    ∃ pre : List ℚ, (∀ q ∈ pre, 0 ≤ q ∧ q < 1) ∧ ∃ x d, Depicts Summarizes3 x Y ∧ ∀ w, Draws w pre →
      categorize3 hid cfg st i w = .ok (x, (w.skip pre.length).bump d) :=
  hY.run_categorize (cobweb3Laws hid) (cobweb3_values (reach3_scales h)) (cobweb3_scores (reach3_scales h)) hi
    (fun _ => rfl) (fueled_ecg3 _) hT.start.1 (by
    rw [hT.start.2]; intro j hj; exact hok j (Multiset.mem_coe.1 hj)) ht

end

/-! ### Examples -/

/-- Two instances. -/
def Demo.pair : List (Inst ℕ ℕ) := [[(1, 1)], [(1, 2)]]

/-- The tree of the pair. -/
def Demo.pairTree : Tree (Stats ℕ ℕ) :=
  .node 2 ⟨2, [(1, [(1, 1), (2, 1)])]⟩ [.node 1 ⟨1, [(1, [(1, 1)])]⟩ [], .node 3 ⟨1, [(1, [(2, 1)])]⟩ []]

theorem Demo.pair_reach : ∃ n, CobwebReach Demo.hid Demo.pairTree Demo.pair n := by
  have hf : fitList (cobwebClass Demo.hid) (Stats.ecg (K := ℚ) Demo.hid) Demo.pair
    (emptyTree (cobwebClass Demo.hid) ⟨fun _ => 0, 0, 0⟩) ⟨fun _ => 0, 0, 1⟩ = .ok (Demo.pairTree, ⟨fun _ => 0, 0, 3⟩) := rfl
  obtain ⟨n, -, hr⟩ := reach_fitList (Ok := Dict.Nodup) (E := (· = Stats.ecg (K := ℚ) Demo.hid)) rfl (by decide)
    (Reach.init ⟨fun _ => 0, 0, 0⟩) (le_refl _) hf
  exact ⟨n, hr⟩

/-- The leaf found for `[(1, 3)]`. -/
def Demo.pairLeaf (rnd : ℕ → ℚ) : Option (Stats ℕ ℕ) :=
  match categorize (cobwebClass Demo.hid) (Stats.ecg (K := ℚ) Demo.hid) Demo.pairTree [(1, 3)] ⟨rnd, 0, 3⟩ with
  | .ok r => some r.1.stats
  | .error _ => none

theorem Demo.pair_up : Demo.pairLeaf (fun n => mkRat n 1000) = some ⟨1, [(1, [(2, 1)])]⟩ := by decide +kernel
theorem Demo.pair_down : Demo.pairLeaf (fun n => mkRat (999 - n : ℤ) 1000) = some ⟨1, [(1, [(1, 1)])]⟩ := by
  decide +kernel

theorem Demo.pair_places {T : Hier (Inst ℕ ℕ)} (hT : Depicts Summarizes Demo.pairTree T) {rnd : ℕ → ℚ} {s : Stats ℕ ℕ}
    (h : Demo.pairLeaf rnd = some s) : ∃ Y, Places (ecgSpec ℚ Demo.hid) [(1, 3)] T Y ∧ Summarizes s Y.group := by
  unfold Demo.pairLeaf at h
  split at h
  · rename_i r hr
    obtain ⟨Y, h1, h2⟩ := C108_categorize_places hT (by decide) hr
    have := h2.stats
    rw [Option.some.inj h] at this
    exact ⟨Y, h1, this⟩
  · cases h

/-- **C108**: ties do occur, and matter: in one tree, two leaves with different instances are textbook results for the same
instance. -/
theorem C108_ties_matter : ∃ T Y Y' : Hier (Inst ℕ ℕ), LearnsC Demo.hid Demo.pair T ∧
    Places (ecgSpec ℚ Demo.hid) [(1, 3)] T Y ∧ Places (ecgSpec ℚ Demo.hid) [(1, 3)] T Y' ∧ Y.group ≠ Y'.group := by
  obtain ⟨n, hr⟩ := Demo.pair_reach
  obtain ⟨T, hT, hd⟩ := C107_every_tree_is_textbook hr
  obtain ⟨Y, h1, h2⟩ := Demo.pair_places hd Demo.pair_up
  obtain ⟨Y', h3, h4⟩ := Demo.pair_places hd Demo.pair_down
  refine ⟨T, Y, Y', hT, h1, h3, fun he => ?_⟩
  rw [he] at h2
  have h5 := (h2.lookup 1 2).trans (h4.lookup 1 2).symm
  exact absurd h5 (by decide)

/-- The hypotheses of completeness are met by the pair. -/
example : ∃ T Y : Hier (Inst ℕ ℕ), Places (ecgSpec ℚ Demo.hid) [(1, 3)] T Y ∧ ∃ pre : List ℚ, ∃ x d, Depicts Summarizes x Y ∧
    ∀ w, Draws w pre → categorize (cobwebClass Demo.hid) (Stats.ecg (K := ℚ) Demo.hid) Demo.pairTree [(1, 3)] w =
      .ok (x, (w.skip pre.length).bump d) := by
  obtain ⟨n, hr⟩ := Demo.pair_reach
  obtain ⟨T, hT, hd⟩ := C107_every_tree_is_textbook hr
  obtain ⟨Y, h1, -⟩ := Demo.pair_places hd Demo.pair_up
  obtain ⟨pre, -, x, d, h2, h3⟩ := C108_places_categorize hT hd (by
    intro j hj
    simp only [Demo.pair, List.mem_cons, List.not_mem_nil, or_false] at hj
    rcases hj with rfl | rfl <;> exact ⟨1, by simp [Dict.keys], by decide⟩) (by decide) h1
  exact ⟨T, Y, h1, pre, x, d, h2, h3⟩

/-- The hypotheses of soundness for Cobweb/3 are met by a mixed history. -/
example (i : Inst3 ℕ ℕ) (hi : Dict.Nodup i) : ∃ (st : State3 ℕ ℕ ℕ) (n : ℕ) (T : Hier (Inst3 ℕ ℕ)),
    Reach3 Demo.hid (⟨1 / 2, id⟩ : Cfg3 ℕ ℕ) st Demo.mixed n ∧ ∀ w r, categorize3 Demo.hid ⟨1 / 2, id⟩ st i w = .ok r →
      ∃ Y, Places (value3 Demo.hid (⟨1 / 2, id⟩ : Cfg3 ℕ ℕ) Demo.mixed) i T Y ∧ Depicts Summarizes3 r.1 Y := by
  obtain ⟨st, n, hr⟩ := reach3_exists (⟨1 / 2, id⟩ : Cfg3 ℕ ℕ) Demo.mixed Demo.mixed_ok
  obtain ⟨T, -, hd⟩ := C107_every_tree_is_textbook3 hr
  exact ⟨st, n, T, hr, fun w r h => C108_categorize_places3 hr hd hi h⟩

end CF
