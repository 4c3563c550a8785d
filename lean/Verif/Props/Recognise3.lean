/-
Property C110 for Cobweb/3: instances whose visible values are nominal.
-/
import Verif.Props.Recognise
import Verif.Props.Cobweb3Predict
import Verif.Props.Cobweb3Score

namespace CF
variable {A B V : Type} [DecidableEq A] [DecidableEq B] [DecidableEq V] {hid : A → Bool} {cfg : Cfg3 A B}
variable {st : State3 A B V} {hist : List (Inst3 A V)} {n : ℕ}

/-- The visible values of `j` are nominal. -/
def Nominal (hid : A → Bool) (j : Inst3 A V) : Prop := ∀ a, hid a = false → ∀ x, Dict.get? j a ≠ some (.num x)

omit [DecidableEq B] in
theorem ecgSpec3_visible (f : B → Multiset ℝ) {m : Multiset (Inst3 A V)} (h : ∀ j ∈ m, Nominal hid j) :
    ecgSpec3 hid cfg f m = ecgSpec ℝ hid m := by
  unfold ecgSpec3 ecgSpec
  congr 1
  refine Finset.sum_congr rfl fun a ha => ?_
  have hh : hid a = false := (Finset.mem_filter.1 ha).2
  have h0 : nums m a = 0 := by
    rw [Multiset.eq_zero_iff_forall_notMem]
    intro x hx
    obtain ⟨j, hj, he⟩ := (Multiset.mem_filterMap _ _).1 hx
    cases hg : Dict.get? j a with
    | none => rw [hg] at he; simp at he
    | some v =>
      cases v with
      | nom v => rw [hg] at he; simp [Val.num?] at he
      | num y => exact h j hj a hh y hg
  have e : valsOf m a = (nomVals m a).image Val.nom := by
    ext v
    rw [mem_valsOf, Finset.mem_image]
    constructor
    · rintro ⟨j, hj, hjv⟩
      cases v with
      | nom v => exact ⟨v, mem_nomVals.2 ⟨j, hj, hjv⟩, rfl⟩
      | num y => exact absurd hjv (h j hj a hh y)
    · rintro ⟨v, hv, rfl⟩
      exact mem_nomVals.1 hv
  rw [numTerm, h0, e, Finset.sum_image fun _ _ _ _ he => by injection he]
  simp

omit [DecidableEq B] in
theorem apart_nominal (f : B → Multiset ℝ) {i : Inst3 A V} {U : Finset (Val V)} (hi : ValuesIn U i)
    (hv : (ownAttrs hid i).Nonempty) (hn : Nominal hid i) :
    Apart (ecgSpec3 hid cfg f) (SameVisible hid) i
      (fun j => (SameAttrs hid i j ∧ ValuesIn U j) ∧ Nominal hid j) (apart ℝ hid U i) :=
  have hA := apart_apart (K := ℝ) hi hv
  { nonneg := hA.nonneg
    empty := hA.empty
    cons := hA.cons
    union := hA.union
    zero := fun g hg => hA.zero g fun j hj => (hg j hj).1
    rate := fun g h0 hg => by
      rw [ecgSpec3_visible f fun j hj => (hg j hj).2, ecgSpec3_visible f (m := i ::ₘ g)]
      · exact hA.rate g h0 fun j hj => (hg j hj).1
      · intro j hj
        rcases Multiset.mem_cons.1 hj with rfl | hj
        · exact hn
        · exact (hg j hj).2 }

/-- On hierarchies: what was just sorted is found again, when the visible values are nominal. -/
theorem recognised_places3 {T T' Y : Hier (Inst3 A V)} (hT : Learns3 hid cfg hist T) {i : Inst3 A V} (hv : HasVisible hid i)
    (hs : ∀ j ∈ hist, SameAttrs hid i j) (hn : ∀ j ∈ i :: hist, Nominal hid j)
    (hsort : Sorts (value3 hid cfg (hist ++ [i])) (SameVisible hid) i T T')
    (hY : Places (value3 hid cfg (hist ++ [i])) i T' Y) : ∀ j ∈ Y.group, SameVisible hid i j := by
  obtain ⟨hst, hg⟩ := hT.start
  rcases hst with hst | rfl
  · let U : Finset (Val V) := (i :: hist).toFinset.biUnion instVals
    have hU : ∀ j ∈ i :: hist, ValuesIn U j := fun j hj a v hav =>
      Finset.mem_biUnion.2 ⟨j, List.mem_toFinset.2 hj, valuesIn_self j a v hav⟩
    obtain ⟨a, ha, hh⟩ := hv
    have hA := apart_nominal (cfg := cfg) (fun b => (scaleNums cfg.inner (hist ++ [i]) b : Multiset ℝ))
      (hU i (by simp)) ⟨a, mem_ownAttrs.2 ⟨ha, hh⟩⟩ (hn i (by simp))
    refine hA.recognised (fun _ _ => rfl) ⟨⟨fun _ _ => Iff.rfl, hU i (by simp)⟩, hn i (by simp)⟩ hsort hst
      (fun j hj => ?_) Y hY
    rw [hg, Multiset.mem_coe] at hj
    exact ⟨⟨hs j hj, hU j (by simp [hj])⟩, hn j (by simp [hj])⟩
  · have hT' : T' = .node {i} [] := by
      cases hsort with
      | join _ => rfl
      | divide h => exact absurd (fun j hj => by simp at hj) h
      | best hH _ _ => exact absurd hH.all.symm.eq_nil (by simp)
      | new hH _ => exact absurd hH.all.symm.eq_nil (by simp)
      | merge hH _ _ => exact absurd hH.all.symm.eq_nil (by simp)
      | split hH _ _ => exact absurd hH.all.symm.eq_nil (by simp)
    subst hT'
    cases hY with
    | stay => intro j hj; rw [Hier.group_node, Multiset.mem_singleton] at hj; rw [hj]; exact fun _ _ => rfl
    | down hp _ _ => exact absurd hp.symm.eq_nil (by simp)

/-- A table of instances that look like `i`. -/
theorem table_like {s : Stats3 A V} {m : Multiset (Inst3 A V)} (hs : Summarizes3 s m) (h0 : m ≠ 0) {i : Inst3 A V}
    (hn : Nominal hid i) (hY : ∀ j ∈ m, SameVisible hid i j) {a : A} (ha : hid a = false) :
    (∀ v, s.nomLookup a v = if Dict.get? i a = some (.nom v) then some s.count else none) ∧ s.cvOf a = none := by
  constructor
  · intro v
    rw [hs.noms a v]
    split
    · rename_i hz
      rw [if_neg]
      intro hav
      obtain ⟨j, hj⟩ := Multiset.exists_mem_of_ne_zero h0
      have : 0 < occ m a (.nom v) := occ_pos.2 ⟨j, hj, by rw [← hY j hj a ha, hav]⟩
      omega
    · rename_i hz
      obtain ⟨j, hj, hjv⟩ := occ_pos.1 (Nat.pos_of_ne_zero hz)
      have hiv : Dict.get? i a = some (.nom v) := by rw [hY j hj a ha, hjv]
      rw [if_pos hiv, hs.count]
      congr 1
      exact Multiset.countP_eq_card.2 fun k hk => by rw [← hY k hk a ha, hiv]
  · rcases hs.cv a with h | ⟨h, -⟩
    · exact h.2
    · obtain ⟨x, hx⟩ := Multiset.exists_mem_of_ne_zero h
      obtain ⟨j, hj, he⟩ := (Multiset.mem_filterMap _ _).1 hx
      rw [← hY j hj a ha] at he
      cases hg : Dict.get? i a with
      | none => rw [hg] at he; simp at he
      | some v =>
        cases v with
        | nom v => rw [hg] at he; simp [Val.num?] at he
        | num y => exact absurd hg (hn a ha y)

/-- **C110** for Cobweb/3, with any settings: the instances have the same visible attributes, at least one, and the visible
values are nominal. After `ifit` the instance is categorized to a leaf at which every visible attribute has its value in all
instances of the leaf, and no number is recorded. -/
theorem C110_recognised3 (h : Reach3 hid cfg st hist n) {i : Inst3 A V} (hi : Dict.Nodup i) (hv : HasVisible hid i)
    (hs : ∀ j ∈ hist, SameAttrs hid i j) (hn : ∀ j ∈ i :: hist, Nominal hid j) {w : World} (hw : n ≤ w.ctr)
    {o : Out3 A B V} (ho : ifit3 hid cfg st i w = .ok o) {w' : World} {r : Tree (Stats3 A V) × World}
    (hr : categorize3 hid cfg o.state i w' = .ok r) :
    r.1 ∈ o.state.root.leaves ∧ 0 < r.1.stats.count ∧ ∀ a, hid a = false →
      (∀ v, r.1.stats.nomLookup a v = if Dict.get? i a = some (.nom v) then some r.1.stats.count else none) ∧
      r.1.stats.cvOf a = none := by
  have hreach : Reach3 hid cfg o.state (hist ++ [i]) o.w.ctr := .step h hi hw ho
  obtain ⟨T, hT, hd⟩ := C107_every_tree_is_textbook3 h
  obtain ⟨T', hsort, hd'⟩ := C107_ifit_sorts3 h hT hd hi ho
  obtain ⟨Y, hY, hdY⟩ := C108_categorize_places3 hreach hd' hi hr
  have hsame := recognised_places3 hT hv hs hn hsort hY
  have hleaf : r.1 ∈ o.state.root.leaves :=
    (C84_categorize_descends hreach (c := r.1) (w' := r.2) hr).1
  obtain ⟨m, hm, -, hne, -⟩ := node_sum3 hreach ((Tree.mem_leaves_iff _ _).1 hleaf).1
  have hcard := hm.count.symm.trans hdY.stats.count
  have hm0 := hne (by simp)
  refine ⟨hleaf, by rw [hm.count]; exact Multiset.card_pos.2 hm0, fun a ha =>
    table_like hdY.stats (fun h0 => hm0 ?_) (hn i (by simp)) hsame ha⟩
  rwa [h0, Multiset.card_zero, Multiset.card_eq_zero] at hcard

/-- **C110** for Cobweb/3: both calls do return, when no two random numbers are equal; the values may be numbers. -/
theorem C110_both_return3 (h : Reach3 hid cfg st hist n) {i : Inst3 A V} (hi : Dict.Nodup i) (hv : HasVisible hid i)
    (hs : ∀ j ∈ hist, SameAttrs hid i j) {w w' : World} (hw : n ≤ w.ctr) (h1 : Function.Injective w.rnd)
    (h2 : Function.Injective w'.rnd) :
    ∃ o r, ifit3 hid cfg st i w = .ok o ∧ categorize3 hid cfg o.state i w' = .ok r := by
  have hvis : ∀ j ∈ hist, HasVisible hid j := by
    intro j hj
    obtain ⟨a, ha, hh⟩ := hv
    exact ⟨a, (hs j hj a hh).1 ha, hh⟩
  obtain ⟨o, ho⟩ := C63_ifit_never_raises h hvis hi hv h1
  obtain ⟨r, hr⟩ := C63_categorize_never_raises (Reach3.step h hi hw ho) (fun j hj => by
    rcases List.mem_append.1 hj with hj | hj
    · exact hvis j hj
    · exact List.mem_singleton.1 hj ▸ hv) hi h2
  exact ⟨o, r, ho, hr⟩

/-! ### Examples -/

/-- The hypotheses are met: after three instances a fourth one is recognised, although the hidden attribute 0 has numbers. -/
example : ∃ (st : State3 ℕ ℕ ℕ) (n : ℕ) (o : Out3 ℕ ℕ ℕ) (w : World) (r : Tree (Stats3 ℕ ℕ) × World),
    Reach3 (· == 0) ⟨1 / 2, id⟩ st [[(0, .num 3), (1, .nom 1), (2, .nom 0)], [(1, .nom 0), (2, .nom 0)],
      [(2, .nom 1), (0, .num 4), (1, .nom 1)]] n ∧
    ifit3 (· == 0) ⟨1 / 2, id⟩ st [(1, .nom 0), (2, .nom 1)] w = .ok o ∧
    categorize3 (· == 0) ⟨1 / 2, id⟩ o.state [(1, .nom 0), (2, .nom 1)] w = .ok r ∧
    r.1.stats.nomLookup 2 1 = some r.1.stats.count := by
  have hl : ∀ i ∈ ([[(0, .num 3), (1, .nom 1), (2, .nom 0)], [(1, .nom 0), (2, .nom 0)],
      [(2, .nom 1), (0, .num 4), (1, .nom 1)]] : List (Inst3 ℕ ℕ)), Dict.Nodup i ∧ HasVisible (· == 0) i ∧
      SameAttrs (· == 0) ([(1, .nom 0), (2, .nom 1)] : Inst3 ℕ ℕ) i ∧ Nominal (· == 0) i := by
    intro i hi
    simp only [List.mem_cons, List.not_mem_nil, or_false] at hi
    rcases hi with rfl | rfl | rfl
    all_goals
      refine ⟨by simp [Dict.Nodup, Dict.keys], ⟨1, by simp [Dict.keys], rfl⟩, fun a ha => ?_, fun a ha x => ?_⟩
      · have ha : a ≠ 0 := by simpa using ha
        simp [Dict.keys, ha, or_comm]
      · have ha : a ≠ 0 := by simpa using ha
        simp only [Dict.get?_cons]
        repeat' split
        all_goals simp_all [Dict.get?]
  obtain ⟨st, n, h⟩ := reach3_exists (hid := (· == 0)) (⟨1 / 2, id⟩ : Cfg3 ℕ ℕ) _ fun i hi => ⟨(hl i hi).1, (hl i hi).2.1⟩
  have hi : Dict.Nodup ([(1, .nom 0), (2, .nom 1)] : Inst3 ℕ ℕ) := by simp [Dict.Nodup, Dict.keys]
  have hv : HasVisible (· == 0) ([(1, .nom 0), (2, .nom 1)] : Inst3 ℕ ℕ) := ⟨1, by simp [Dict.keys], rfl⟩
  have hn : Nominal (· == 0) ([(1, .nom 0), (2, .nom 1)] : Inst3 ℕ ℕ) := by
    intro a ha x
    simp only [Dict.get?_cons]
    repeat' split
    all_goals simp_all [Dict.get?]
  obtain ⟨o, r, h1, h2⟩ := C110_both_return3 h hi hv (fun j hj => (hl j hj).2.2.1) (w := ⟨fun k => (k : ℚ), 0, n⟩)
    (w' := ⟨fun k => (k : ℚ), 0, n⟩) le_rfl Nat.cast_injective Nat.cast_injective
  refine ⟨st, n, o, _, r, h, h1, h2, ?_⟩
  have := ((C110_recognised3 h hi hv (fun j hj => (hl j hj).2.2.1) (fun j hj => by
    rcases List.mem_cons.1 hj with rfl | hj
    · exact hn
    · exact (hl j hj).2.2.2) le_rfl h1 h2).2.2 2 rfl).1 1
  rwa [if_pos (by simp [Dict.get?_cons])] at this

end CF
