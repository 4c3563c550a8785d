/-
Property C110: an instance that was just learnt is recognised; instances learnt earlier need not be.
-/
import Verif.Proofs.Recognise
import Verif.Proofs.Outcomes
import Verif.Props.Raises
import Verif.Props.Predict

namespace CF
variable {A V : Type} [DecidableEq A] [DecidableEq V] {hid : A → Bool}
variable {t : Tree (Stats A V)} {hist : List (Inst A V)} {n : ℕ}

/-- Every value of an instance. -/
def instVals (i : Inst A V) : Finset V := (i.map Prod.snd).toFinset

theorem valuesIn_self (i : Inst A V) : ValuesIn (instVals i) i := by
  intro a v h
  have := Dict.mem_of_get? h
  simp only [instVals, List.mem_toFinset, List.mem_map]
  exact ⟨_, this, rfl⟩

theorem recognised_group (h : CobwebReach hid t hist n) {i : Inst A V} (hi : Dict.Nodup i) (hv : HasVisible hid i)
    (hs : ∀ j ∈ hist, SameAttrs hid i j) {w : World} {o : Out (Stats A V)} (ho : ifit hid t i w = .ok o)
    {w' : World} {r : Tree (Stats A V) × World}
    (hr : categorize (cobwebClass hid) (Stats.ecg (K := ℚ) hid) o.tree i w' = .ok r) :
    ∃ Y : Hier (Inst A V), Depicts Summarizes r.1 Y ∧ ∀ j ∈ Y.group, SameVisible hid i j := by
  obtain ⟨T, hT, hd⟩ := C107_every_tree_is_textbook h
  obtain ⟨T', hsort, hd'⟩ := C107_ifit_sorts hT hd hi ho
  obtain ⟨Y, hY, hdY⟩ := C108_categorize_places hd' hi hr
  refine ⟨Y, hdY, ?_⟩
  obtain ⟨hst, hg⟩ := hT.start
  rcases hst with hst | rfl
  · let U : Finset V := (i :: hist).toFinset.biUnion instVals
    have hU : ∀ j ∈ i :: hist, ValuesIn U j := fun j hj a v hav =>
      Finset.mem_biUnion.2 ⟨j, List.mem_toFinset.2 hj, valuesIn_self j a v hav⟩
    obtain ⟨a, ha, hh⟩ := hv
    have hA := apart_apart (K := ℚ) (hid := hid) (hU i (by simp)) ⟨a, mem_ownAttrs.2 ⟨ha, hh⟩⟩
    refine hA.recognised (fun _ _ => rfl) ⟨fun _ _ => Iff.rfl, hU i (by simp)⟩ hsort hst (fun j hj => ?_) Y hY
    rw [hg, Multiset.mem_coe] at hj
    exact ⟨hs j hj, hU j (by simp [hj])⟩
  · have hT' : T' = .node {i} [] := by
      cases hsort with
      | join _ => rfl
      | divide h => exact absurd (fun j hj => by simp at hj) h
      | best hH _ _ => exact absurd hH.all.symm.eq_nil (by simp)
      | new hH _ => exact absurd hH.all.symm.eq_nil (by simp)
      | merge hH _ _ => exact absurd hH.all.symm.eq_nil (by simp)
      | split hH _ _ => exact absurd hH.all.symm.eq_nil (by simp)
    subst hT'
    cases hY with
    | stay => intro j hj; rw [Hier.group_node, Multiset.mem_singleton] at hj; rw [hj]; exact fun _ _ => rfl
    | down hp _ _ => exact absurd hp.symm.eq_nil (by simp)

/-- **C110**: the instance was just learnt; then, whatever the random numbers, `categorize` returns a leaf of the tree at
which every visible attribute has the value of the instance, in all instances of the leaf, and no other attribute occurs.
All instances have the same visible attributes, at least one. -/
theorem C110_recognised (h : CobwebReach hid t hist n) {i : Inst A V} (hi : Dict.Nodup i) (hv : HasVisible hid i)
    (hs : ∀ j ∈ hist, SameAttrs hid i j) {w : World} (hw : n ≤ w.ctr) {o : Out (Stats A V)}
    (ho : ifit hid t i w = .ok o) {w' : World} {r : Tree (Stats A V) × World}
    (hr : categorize (cobwebClass hid) (Stats.ecg (K := ℚ) hid) o.tree i w' = .ok r) :
    r.1 ∈ o.tree.leaves ∧ 0 < r.1.stats.count ∧ ∀ a, hid a = false → ∀ v,
      r.1.stats.lookup a v = if Dict.get? i a = some v then some r.1.stats.count else none := by
  obtain ⟨Y, hd, hY⟩ := recognised_group h hi hv hs ho hr
  have hreach : CobwebReach hid o.tree (hist ++ [i]) o.w.ctr := .step h rfl hi hw ho
  have hleaf := (C10_categorize_descends hreach (c := r.1) (w' := r.2) hr).1
  obtain ⟨m, hm, -, hne, -⟩ := node_sum hreach ((Tree.mem_leaves_iff _ _).1 hleaf).1
  have hcard := hm.count.symm.trans hd.stats.count
  have hm0 := hne (by simp)
  have hpos : 0 < r.1.stats.count := by rw [hm.count]; exact Multiset.card_pos.2 hm0
  refine ⟨hleaf, hpos, fun a ha v => ?_⟩
  rw [hd.stats.lookup a v]
  split
  · rename_i h0
    rw [if_neg]
    intro hav
    obtain ⟨j, hj⟩ := Multiset.exists_mem_of_ne_zero (s := Y.group) (by
      intro h0'; rw [h0', Multiset.card_zero, Multiset.card_eq_zero] at hcard; exact hm0 hcard)
    have : 0 < occ Y.group a v := occ_pos.2 ⟨j, hj, by rw [← hY j hj a ha, hav]⟩
    omega
  · rename_i h0
    obtain ⟨j, hj, hjv⟩ := occ_pos.1 (Nat.pos_of_ne_zero h0)
    have hiv : Dict.get? i a = some v := by rw [hY j hj a ha, hjv]
    rw [if_pos hiv, hd.stats.count]
    congr 1
    exact Multiset.countP_eq_card.2 fun k hk => by rw [← hY k hk a ha, hiv]

/-- **C110**: both calls do return, when no two random numbers are equal. -/
theorem C110_both_return (h : CobwebReach hid t hist n) {i : Inst A V} (hi : Dict.Nodup i) (hv : HasVisible hid i)
    (hs : ∀ j ∈ hist, SameAttrs hid i j) {w w' : World} (hw : n ≤ w.ctr) (h1 : Function.Injective w.rnd)
    (h2 : Function.Injective w'.rnd) : ∃ o r, ifit hid t i w = .ok o ∧
      categorize (cobwebClass hid) (Stats.ecg (K := ℚ) hid) o.tree i w' = .ok r := by
  have hvis : ∀ j ∈ i :: hist, HasVisible hid j := by
    intro j hj
    rcases List.mem_cons.1 hj with rfl | hj
    · exact hv
    · obtain ⟨a, ha, hh⟩ := hv
      exact ⟨a, (hs j hj a hh).1 ha, hh⟩
  obtain ⟨o, ho⟩ := (C07_ifit_raises_iff h hi h1).2.2 (by rintro ⟨-, j, hj, hn⟩; exact hn (hvis j hj))
  have hreach : CobwebReach hid o.tree (hist ++ [i]) o.w.ctr := .step h rfl hi hw ho
  obtain ⟨r, hr⟩ := (C07_categorize_raises_iff hreach hi h2).2.2 (by
    rintro ⟨-, j, hj, hn⟩
    exact hn (hvis j (by simpa [or_comm] using hj)))
  exact ⟨o, r, ho, hr⟩

/-- **C110**: so its values are predicted: what was just learnt is returned for each of its visible attributes. -/
theorem C110_predicted (h : CobwebReach hid t hist n) {i : Inst A V} (hi : Dict.Nodup i) (hv : HasVisible hid i)
    (hs : ∀ j ∈ hist, SameAttrs hid i j) {w : World} (hw : n ≤ w.ctr) {o : Out (Stats A V)}
    (ho : ifit hid t i w = .ok o) {w' : World} {r : Tree (Stats A V) × World}
    (hr : categorize (cobwebClass hid) (Stats.ecg (K := ℚ) hid) o.tree i w' = .ok r) {a : A} (ha : a ∈ Dict.keys i)
    (hh : hid a = false) {tie : TieBreak (Option V) ℚ} (htie : tie.Sound) {an : Bool} {w1 w2 : World} {v : Option V}
    (hp : r.1.stats.predict tie a .mostLikely an w1 = .ok (v, w2)) : v = Dict.get? i a := by
  obtain ⟨hleaf, hpos, hl⟩ := C110_recognised h hi hv hs hw ho hr
  have hreach : CobwebReach hid o.tree (hist ++ [i]) o.w.ctr := .step h rfl hi hw ho
  have hx := ((Tree.mem_leaves_iff _ _).1 hleaf).1
  obtain ⟨m, hm, -, hne, -⟩ := node_sum hreach hx
  rw [← Dict.get?_isSome, Option.isSome_iff_exists] at ha
  obtain ⟨x, hx'⟩ := ha
  have hlx : r.1.stats.lookup a x = some r.1.stats.count := by rw [hl a hh, if_pos hx']
  have hkey : a ∈ r.1.stats.av.keys := by
    rw [hm.attrs]
    have := hm.lookup a x
    rw [hlx] at this
    split at this
    · cases this
    · rename_i h0
      obtain ⟨j, hj, hjx⟩ := occ_pos.1 (Nat.pos_of_ne_zero h0)
      refine ⟨j, hj, ?_⟩
      rw [← Dict.get?_isSome, hjx]; rfl
  obtain ⟨h1, h2⟩ := C17_most_likely hreach hx hkey htie hp
  have hall : ∀ j ∈ m, Dict.get? j a = some x := by
    have := hm.lookup a x
    rw [hlx] at this
    split at this
    · cases this
    · rw [hm.count] at this
      exact Multiset.countP_eq_card.1 (Option.some.inj this).symm
  have hm0 : m ≠ 0 := hne (by simp)
  have hc : ((Multiset.card m : ℕ) : ℚ) ≠ 0 := by simpa using hm0
  rw [hx']
  by_contra hvx
  have := h2 (some x) (List.mem_append_left _ (List.mem_map_of_mem (hm.mem_recorded.2 (by simp [hlx])))) _ _
    (probability_eq hm hm0 a (some x)) (probability_eq hm hm0 a v)
  rw [freq, freq, Multiset.countP_eq_card.2 hall, div_self hc,
    Multiset.countP_eq_zero.2 fun j hj e => hvx (e.symm.trans (hall j hj))] at this
  norm_num at this

/-! ### Whatever the random numbers -/

/-- The tree is one of those listed. -/
theorem reach_listed (h : CobwebReach hid t hist n) :
    t.bare ∈ learnAll (cobwebClass hid) (Stats.ecg (K := ℚ) hid) hist (.node (cobwebClass hid).fresh []) := by
  induction h with
  | init w => simp [emptyTree, Tree.bare_node, learnAll]
  | @step _ _ _ _ _ _ o hr hE hi _ ho ih =>
    subst hE
    rw [learnAll_snoc]
    refine List.mem_flatMap.2 ⟨_, ih, List.mem_map.2 ⟨(o.tree.bare, o.moved), ?_, rfl⟩⟩
    rw [bare_size]
    refine sortAll_complete (cobwebLaws hid) (fun _ => rfl) _ _ _ _ (fun x hx => ?_) ho
    obtain ⟨m, hm, -⟩ := node_sum hr hx
    exact ⟨m, hm⟩

/-- So is the leaf found by `categorize`. -/
theorem categorize_listed (h : CobwebReach hid t hist n) {i : Inst A V} {w : World} {r : Tree (Stats A V) × World}
    (hr : categorize (cobwebClass hid) (Stats.ecg (K := ℚ) hid) t i w = .ok r) :
    r.1.stats ∈ placeAll (cobwebClass hid) (Stats.ecg (K := ℚ) hid) i t.bare.size t.bare := by
  rw [bare_size]
  refine placeAll_complete (cobwebLaws hid) (fun _ => rfl) _ _ _ _ (fun x hx => ?_) hr
  obtain ⟨m, hm, -⟩ := node_sum h hx
  exact ⟨m, hm⟩

/-- Six instances with three attributes. -/
def Demo.six : List (Inst ℕ ℕ) :=
  [[(1, 1), (2, 0), (3, 0)], [(1, 1), (2, 0), (3, 2)], [(1, 2), (2, 0), (3, 2)], [(1, 1), (2, 0), (3, 0)],
    [(1, 0), (2, 2), (3, 2)], [(1, 0), (2, 2), (3, 1)]]

/-- The leaves found for an instance in the listed trees. -/
def Demo.found (l : List (Inst ℕ ℕ)) (i : Inst ℕ ℕ) : List (Stats ℕ ℕ) :=
  (learnAll (cobwebClass Demo.hid) (Stats.ecg (K := ℚ) Demo.hid) l (.node (cobwebClass Demo.hid).fresh [])).flatMap
    fun t => placeAll (cobwebClass Demo.hid) (Stats.ecg (K := ℚ) Demo.hid) i t.size t

theorem Demo.six_found : ∀ s ∈ Demo.found Demo.six [(1, 0), (2, 2), (3, 2)],
    s.lookup 3 2 = none ∧ s.lookup 3 1 = some s.count := by
  decide +kernel

/-- **C110**: one instance later it may be too late. After these six instances `categorize` of the fifth one returns, whatever
the random numbers, a leaf that does not have it: its third attribute has another value there. -/
theorem C110_forgotten {t : Tree (Stats ℕ ℕ)} (h : CobwebReach Demo.hid t Demo.six n) {w : World} {r : Tree (Stats ℕ ℕ) × World}
    (hr : categorize (cobwebClass Demo.hid) (Stats.ecg (K := ℚ) Demo.hid) t [(1, 0), (2, 2), (3, 2)] w = .ok r) :
    [(1, 0), (2, 2), (3, 2)] ∈ Demo.six ∧ r.1.stats.lookup 3 2 = none ∧ r.1.stats.lookup 3 1 = some r.1.stats.count :=
  ⟨by decide, Demo.six_found _ (List.mem_flatMap.2 ⟨_, reach_listed h, categorize_listed h hr⟩)⟩

/-- Four instances in two orders. -/
def Demo.order1 : List (Inst ℕ ℕ) := [[(1, 0), (2, 1)], [(1, 0), (2, 0)], [(1, 1), (2, 0)], [(1, 0), (2, 1)]]
def Demo.order2 : List (Inst ℕ ℕ) := [[(1, 0), (2, 1)], [(1, 0), (2, 1)], [(1, 1), (2, 0)], [(1, 0), (2, 0)]]

theorem Demo.order1_trees : ∀ t ∈ learnAll (cobwebClass Demo.hid) (Stats.ecg (K := ℚ) Demo.hid) Demo.order1
    (.node (cobwebClass Demo.hid).fresh []), t.children.map (fun c => c.stats.count) = [2, 1, 1] := by
  decide +kernel

theorem Demo.order2_trees : ∀ t ∈ learnAll (cobwebClass Demo.hid) (Stats.ecg (K := ℚ) Demo.hid) Demo.order2
    (.node (cobwebClass Demo.hid).fresh []), t.children.map (fun c => c.stats.count) = [2, 2] := by
  decide +kernel

theorem bare_counts {t : Tree (Stats ℕ ℕ)} : t.bare.children.map (fun c => c.stats.count) =
    t.children.map fun c => c.stats.count := by
  rw [Tree.bare_children, List.map_map]
  exact List.map_congr_left fun c _ => by simp

/-- **C110**: the order matters. The same four instances in two orders give, whatever the random numbers, three concepts below
the root or two. -/
theorem C110_order_matters : Demo.order1.Perm Demo.order2 ∧
    (∀ t n, CobwebReach Demo.hid t Demo.order1 n → t.children.map (fun c => c.stats.count) = [2, 1, 1]) ∧
    ∀ t n, CobwebReach Demo.hid t Demo.order2 n → t.children.map (fun c => c.stats.count) = [2, 2] :=
  ⟨by decide, fun _ _ h => bare_counts.symm.trans (Demo.order1_trees _ (reach_listed h)),
    fun _ _ h => bare_counts.symm.trans (Demo.order2_trees _ (reach_listed h))⟩

/-- Eight instances with four attributes; the second and the last are the same. -/
def Demo.eight : List (Inst ℕ ℕ) :=
  [[(1, 1), (2, 1), (3, 1), (4, 1)], [(1, 0), (2, 0), (3, 1), (4, 1)], [(1, 0), (2, 1), (3, 1), (4, 1)],
    [(1, 0), (2, 0), (3, 0), (4, 1)], [(1, 1), (2, 0), (3, 1), (4, 0)], [(1, 0), (2, 0), (3, 0), (4, 0)],
    [(1, 0), (2, 0), (3, 0), (4, 0)], [(1, 0), (2, 0), (3, 1), (4, 1)]]

theorem Demo.eight_trees : ∀ t ∈ learnAll (cobwebClass Demo.hid) (Stats.ecg (K := ℚ) Demo.hid) Demo.eight
    (.node (cobwebClass Demo.hid).fresh []),
    (t.leaves.filter fun s => s.isExact Demo.hid [(1, 0), (2, 0), (3, 1), (4, 1)]).length = 2 := by
  decide +kernel

/-- **C110**: an instance that is repeated may end in two places. After these eight instances two leaves have, whatever the
random numbers, exactly the instance that was fitted twice. -/
theorem C110_two_leaves {t : Tree (Stats ℕ ℕ)} (h : CobwebReach Demo.hid t Demo.eight n) :
    (t.leaves.filter fun x => x.stats.isExact Demo.hid [(1, 0), (2, 0), (3, 1), (4, 1)]).length = 2 := by
  have := Demo.eight_trees _ (reach_listed h)
  rw [bare_leaves, List.filter_map, List.length_map] at this
  exact this

/-! ### Examples -/

/-- The hypotheses are met: after the first five of the six instances, the fifth one is recognised. -/
example : ∃ (t : Tree (Stats ℕ ℕ)) (n : ℕ) (w : World) (o : Out (Stats ℕ ℕ)) (r : Tree (Stats ℕ ℕ) × World),
    CobwebReach Demo.hid t (Demo.six.take 4) n ∧ ifit Demo.hid t [(1, 0), (2, 2), (3, 2)] w = .ok o ∧
    categorize (cobwebClass Demo.hid) (Stats.ecg (K := ℚ) Demo.hid) o.tree [(1, 0), (2, 2), (3, 2)] w = .ok r ∧
    r.1.stats.lookup 3 2 = some r.1.stats.count := by
  obtain ⟨t, w, hf⟩ : ∃ t w, Demo.run (Demo.six.take 4) = .ok (t, w) := by
    have : (Demo.run (Demo.six.take 4)).isOk = true := by decide +kernel
    cases h : Demo.run (Demo.six.take 4) with
    | ok r => exact ⟨r.1, r.2, rfl⟩
    | error e => rw [h] at this; cases this
  obtain ⟨n, hn, hr⟩ := reach_fitList (Ok := Dict.Nodup) (E := (· = Stats.ecg (K := ℚ) Demo.hid)) rfl (by decide)
    (Reach.init Demo.w0) (le_refl _) hf
  rw [List.nil_append] at hr
  have hv : HasVisible Demo.hid ([(1, 0), (2, 2), (3, 2)] : Inst ℕ ℕ) := ⟨1, by decide, by decide⟩
  have hs : ∀ j ∈ Demo.six.take 4, SameAttrs Demo.hid [(1, 0), (2, 2), (3, 2)] j := by
    intro j hj a _
    simp only [Demo.six, List.take_succ_cons, List.take_zero, List.mem_cons, List.not_mem_nil, or_false] at hj
    rcases hj with rfl | rfl | rfl | rfl <;> simp [Dict.keys]
  have hinj : Function.Injective (fun k : ℕ => (k : ℚ)) := Nat.cast_injective
  obtain ⟨o, r, h1, h2⟩ := C110_both_return hr (by decide) hv hs (w := ⟨fun k => (k : ℚ), 0, n⟩)
    (w' := ⟨fun k => (k : ℚ), 0, n⟩) le_rfl hinj hinj
  refine ⟨t, n, _, o, r, hr, h1, h2, ?_⟩
  have := (C110_recognised hr (by decide) hv hs le_rfl h1 h2).2.2 3 (by decide) 2
  rwa [if_pos (by decide)] at this

theorem Demo.reach_of_run {l : List (Inst ℕ ℕ)} (hl : ∀ i ∈ l, Dict.Nodup i) (hok : (Demo.run l).isOk = true) :
    ∃ t n, CobwebReach Demo.hid t l n := by
  cases h : Demo.run l with
  | ok r =>
    obtain ⟨n, hn, hr⟩ := reach_fitList (Ok := Dict.Nodup) (E := (· = Stats.ecg (K := ℚ) Demo.hid)) rfl hl
      (Reach.init Demo.w0) (le_refl _) h
    rw [List.nil_append] at hr
    exact ⟨_, n, hr⟩
  | error e => rw [h] at hok; cases hok

/-- There are such trees, for each of the four lists. -/
example : (∃ t n, CobwebReach Demo.hid t Demo.six n) ∧ (∃ t n, CobwebReach Demo.hid t Demo.order1 n) ∧
    (∃ t n, CobwebReach Demo.hid t Demo.order2 n) ∧ ∃ t n, CobwebReach Demo.hid t Demo.eight n :=
  ⟨Demo.reach_of_run (by decide) (by decide +kernel), Demo.reach_of_run (by decide) (by decide +kernel),
    Demo.reach_of_run (by decide) (by decide +kernel), Demo.reach_of_run (by decide) (by decide +kernel)⟩

end CF
