/-
C112: the mappings that the search of the structure mapper can reach.
-/
import Verif.Props.Munkres
import Verif.Props.RecogniseTrestle
import Verif.Proofs.AddOne

namespace CF

/-- One step of the search: a state that `successors` yields (structure_mapper.py:418-437), whatever the order of the sets.
Since `goal_test` is always False (340-344) and `node_value` is `mapping_cost` (346-353), the search is one for the state with
the least cost. -/
def SuccStep (s t : MapState) : Prop := ∃ m u, m.Perm s.1 ∧ u.Perm s.2 ∧ t ∈ successors (m, u)

/-- A given number of steps. -/
inductive SuccSteps : ℕ → MapState → MapState → Prop
  | refl (s : MapState) : SuccSteps 0 s s
  | step {n : ℕ} {s t r : MapState} : SuccStep s t → SuccSteps n t r → SuccSteps (n + 1) s r

/-- States are the same as sets. -/
def SameState (s t : MapState) : Prop := (∀ x, s.1.get? x = t.1.get? x) ∧ ∀ c, c ∈ s.2 ↔ c ∈ t.2

/-- How many of the variables are mapped to variables of the base. -/
def mappedIn (K : List Py) (s : MapState) : Finset Py := K.toFinset.filter fun x => image s.1 x ≠ x

/-- The variables that two states map differently. -/
def differIn (K : List Py) (s t : MapState) : Finset Py := K.toFinset.filter fun x => image s.1 x ≠ image t.1 x

variable {K cn : List Py} {s t : MapState}

theorem MappingOk.get?_image (h : MappingOk K cn s) {x : Py} (hx : x ∈ K) : s.1.get? x = some (image s.1 x) := by
  obtain ⟨v, hv⟩ := Option.isSome_iff_exists.1 (Dict.get?_isSome.2 ((h.dom x).2 hx))
  rw [image, hv]; rfl

theorem MappingOk.get?_none (h : MappingOk K cn s) {x : Py} (hx : x ∉ K) : s.1.get? x = none := by
  by_contra hn
  exact hx ((h.dom x).1 (Dict.get?_isSome.1 (Option.isSome_iff_ne_none.2 hn)))

theorem MappingOk.entry (h : MappingOk K cn s) {x : Py} (hx : x ∈ K) : (x, image s.1 x) ∈ s.1 :=
  (Dict.mem_iff_get? h.nodup).2 (h.get?_image hx)

theorem MappingOk.image_inj (h : MappingOk K cn s) {x y : Py} (hx : x ∈ K) (hy : y ∈ K)
    (e : image s.1 x = image s.1 y) : x = y :=
  h.inj x y _ (h.get?_image hx) (e ▸ h.get?_image hy)

theorem MappingOk.image_into (h : MappingOk K cn s) {x : Py} (hx : x ∈ K) : image s.1 x = x ∨ image s.1 x ∈ cn :=
  h.into x _ (h.get?_image hx)

theorem MappingOk.unused_iff (h : MappingOk K cn s) (c : Py) : c ∈ s.2 ↔ c ∈ cn ∧ ∀ x ∈ K, image s.1 x ≠ c := by
  rw [h.unused]
  refine and_congr_right fun _ => ⟨fun H x hx e => H x (e ▸ h.get?_image hx), fun H x e => ?_⟩
  by_cases hx : x ∈ K
  · rw [h.get?_image hx] at e
    exact H x hx (Option.some.inj e)
  · rw [h.get?_none hx] at e
    cases e

/-- The number of variables mapped to variables of the base, counted in two ways. -/
theorem MappingOk.mapped_length (h : MappingOk K cn s) : (mapped s.1).length = (mappedIn K s).card := by
  have hn : ((mapped s.1).map Prod.fst).Nodup := List.Sublist.nodup (List.Sublist.map _ List.filter_sublist) h.nodup
  rw [← List.length_map (f := Prod.fst), ← List.toFinset_card_of_nodup hn]
  congr 1
  ext x
  simp only [List.mem_toFinset, mappedIn, Finset.mem_filter, List.mem_map, mapped, List.mem_filter, decide_eq_true_eq]
  constructor
  · rintro ⟨⟨y, v⟩, ⟨he, hv⟩, rfl⟩
    have hg := Dict.get?_of_mem h.nodup he
    have hx : y ∈ K := (h.dom y).1 (Dict.get?_isSome.1 (by rw [hg]; rfl))
    refine ⟨hx, ?_⟩
    rw [image, hg]
    exact hv
  · rintro ⟨hx, hv⟩
    exact ⟨(x, image s.1 x), ⟨h.entry hx, hv⟩, rfl⟩

theorem MappingOk.same (h : MappingOk K cn s) (h' : MappingOk K cn t) (e : ∀ x ∈ K, image s.1 x = image t.1 x) :
    SameState s t := by
  refine ⟨fun x => ?_, fun c => ?_⟩
  · by_cases hx : x ∈ K
    · rw [h.get?_image hx, h'.get?_image hx, e x hx]
    · rw [h.get?_none hx, h'.get?_none hx]
  · rw [h.unused_iff, h'.unused_iff]
    refine and_congr_right fun _ => ⟨fun H x hx => e x hx ▸ H x hx, fun H x hx => (e x hx).symm ▸ H x hx⟩

/-- Two variables, not both unmapped, can be swapped. -/
theorem MappingOk.swap_step (h : MappingOk K cn s) (hd : ∀ x ∈ K, x ∉ cn) {x y : Py} (hx : x ∈ K) (hy : y ∈ K)
    (hne : x ≠ y) (hm : image s.1 y ≠ y) :
    ∃ r, SuccStep s r ∧ MappingOk K cn r ∧ ∀ z, image r.1 z =
      if y = z then (if image s.1 x = x then y else image s.1 x) else if x = z then image s.1 y else image s.1 z := by
  have e1 := h.entry hx
  have e2 := h.entry hy
  have hp1 := List.perm_cons_erase e1
  have e2' : (y, image s.1 y) ∈ s.1.erase (x, image s.1 x) :=
    (List.mem_erase_of_ne (by rintro q; exact hne (congrArg Prod.fst q).symm)).2 e2
  have hp2 := List.perm_cons_erase e2'
  let m : Dict Py Py := (x, image s.1 x) :: (y, image s.1 y) :: (s.1.erase (x, image s.1 x)).erase (y, image s.1 y)
  have hp : m.Perm s.1 := (hp1.trans (hp2.cons _)).symm
  have hok := h.perm hp (List.Perm.refl s.2)
  have hg : ∀ z, image m z = image s.1 z := fun z => by rw [image, image, get?_permSM h.nodup hp]
  refine ⟨swapTwo (m, s.2) (x, image s.1 x) (y, image s.1 y), ⟨m, s.2, hp, List.Perm.refl _, ?_⟩,
    swapTwo_ok hok hd (by simp [m]) (by simp [m]) hne, ?_⟩
  · refine List.mem_append_left _ (List.mem_filterMap.2 ⟨((x, image s.1 x), (y, image s.1 y)), by simp [m, combos], ?_⟩)
    rw [if_neg]
    rintro (q | q)
    · exact hne q
    · exact hm q.2
  · intro z
    simp only [swapTwo, image, Dict.get?_set]
    split
    · rfl
    · split
      · simp only [Option.getD_some]
        exact if_neg hm
      · exact hg z

/-- A variable can be mapped to an unused variable of the base. -/
theorem MappingOk.fill_step (h : MappingOk K cn s) (hd : ∀ x ∈ K, x ∉ cn) {x c : Py} (hx : x ∈ K) (hc : c ∈ s.2) :
    ∃ r, SuccStep s r ∧ MappingOk K cn r ∧ ∀ z, image r.1 z = if x = z then c else image s.1 z := by
  refine ⟨swapUnnamed s (x, image s.1 x) c, ⟨s.1, s.2, List.Perm.refl _, List.Perm.refl _, ?_⟩,
    swapUnnamed_ok h hd (h.entry hx) hc, ?_⟩
  · exact List.mem_append_right _ (List.mem_flatMap.2 ⟨_, h.entry hx, List.mem_map.2 ⟨c, hc, rfl⟩⟩)
  · intro z
    simp only [swapUnnamed, image, Dict.get?_set]
    split <;> rfl

theorem mem_mappedIn {x : Py} : x ∈ mappedIn K s ↔ x ∈ K ∧ image s.1 x ≠ x := by simp [mappedIn]

theorem mem_differIn {x : Py} : x ∈ differIn K s t ↔ x ∈ K ∧ image s.1 x ≠ image t.1 x := by simp [differIn]

/-- A step towards a mapping with at least as many mapped variables. -/
theorem MappingOk.towards (h : MappingOk K cn s) (h' : MappingOk K cn t) (hd : ∀ x ∈ K, x ∉ cn)
    (hle : (mappedIn K s).card ≤ (mappedIn K t).card) (hne : differIn K s t ≠ ∅) :
    ∃ r, SuccStep s r ∧ MappingOk K cn r ∧ (mappedIn K r).card ≤ (mappedIn K t).card ∧
      differIn K r t ⊂ differIn K s t := by
  -- some variable is mapped differently and is mapped to the base by `t`
  have hx : ∃ x ∈ K, image s.1 x ≠ image t.1 x ∧ image t.1 x ≠ x := by
    by_contra hcon
    push Not at hcon
    have hsub : mappedIn K t ⊆ mappedIn K s := by
      intro x hx
      obtain ⟨hx, hm⟩ := mem_mappedIn.1 hx
      refine mem_mappedIn.2 ⟨hx, fun e => ?_⟩
      by_cases hq : image s.1 x = image t.1 x
      · exact hm (hq ▸ e)
      · exact hm (hcon x hx hq)
    have heq := Finset.eq_of_subset_of_card_le hsub hle
    obtain ⟨x, hx⟩ := Finset.nonempty_iff_ne_empty.2 hne
    obtain ⟨hx, hq⟩ := mem_differIn.1 hx
    have ht := hcon x hx hq
    have : x ∉ mappedIn K s := heq ▸ fun hm => (mem_mappedIn.1 hm).2 ht
    refine hq ?_
    rw [ht]
    by_contra hm
    exact this (mem_mappedIn.2 ⟨hx, hm⟩)
  obtain ⟨x, hx, hq, htx⟩ := hx
  have hcx : image t.1 x ∈ cn := (h'.image_into hx).resolve_left htx
  by_cases hused : image t.1 x ∈ s.2
  · have hfree := ((h.unused_iff _).1 hused).2
    by_cases hgrow : image s.1 x = x ∧ (mappedIn K s).card = (mappedIn K t).card
    · -- some variable is mapped by `s` and not by `t`
      obtain ⟨hsx, hcard⟩ := hgrow
      have hy : ∃ y ∈ mappedIn K s, y ∉ mappedIn K t := by
        by_contra hcon
        push Not at hcon
        have heq := Finset.eq_of_subset_of_card_le (s := mappedIn K s) (t := mappedIn K t) hcon hcard.ge
        exact (mem_mappedIn.1 (heq ▸ mem_mappedIn.2 ⟨hx, htx⟩ : x ∈ mappedIn K s)).2 hsx
      obtain ⟨y, hys, hyt⟩ := hy
      obtain ⟨hy, hsy⟩ := mem_mappedIn.1 hys
      have hty : image t.1 y = y := by
        by_contra hm
        exact hyt (mem_mappedIn.2 ⟨hy, hm⟩)
      have hxy : x ≠ y := fun e => hsy (e ▸ hsx)
      obtain ⟨r, hr, hok, hg⟩ := h.swap_step hd hx hy hxy hsy
      simp only [hsx, if_true] at hg
      refine ⟨r, hr, hok, ?_, ?_⟩
      · have : mappedIn K r ⊆ insert x ((mappedIn K s).erase y) := by
          intro z hz
          obtain ⟨hz, hm⟩ := mem_mappedIn.1 hz
          rw [hg] at hm
          split at hm
          · next e => exact absurd e hm
          · next e =>
            split at hm
            · next e' => exact e' ▸ Finset.mem_insert_self ..
            · exact Finset.mem_insert_of_mem (Finset.mem_erase.2 ⟨fun q => e q.symm, mem_mappedIn.2 ⟨hz, hm⟩⟩)
        have h1 := Finset.card_le_card this
        have h2 := Finset.card_insert_le x ((mappedIn K s).erase y)
        have h3 := Finset.card_erase_of_mem hys
        have h4 := Finset.card_pos.2 ⟨y, hys⟩
        omega
      · refine Finset.ssubset_iff_subset_ne.2 ⟨fun z hz => ?_, fun e => ?_⟩
        · obtain ⟨hz, hm⟩ := mem_differIn.1 hz
          rw [hg] at hm
          refine mem_differIn.2 ⟨hz, ?_⟩
          split at hm
          · next e => exact absurd (by rw [← e, hty]) hm
          · split at hm
            · next e' => exact e' ▸ hq
            · exact hm
        · have : y ∈ differIn K r t := e ▸ mem_differIn.2 ⟨hy, by rw [hty]; exact hsy⟩
          obtain ⟨-, hm⟩ := mem_differIn.1 this
          rw [hg, if_pos rfl, hty] at hm
          exact hm rfl
    · obtain ⟨r, hr, hok, hg⟩ := h.fill_step hd hx hused
      refine ⟨r, hr, hok, ?_, ?_⟩
      · have : mappedIn K r ⊆ insert x (mappedIn K s) := by
          intro z hz
          obtain ⟨hz, hm⟩ := mem_mappedIn.1 hz
          rw [hg] at hm
          split at hm
          · next e => exact e ▸ Finset.mem_insert_self ..
          · exact Finset.mem_insert_of_mem (mem_mappedIn.2 ⟨hz, hm⟩)
        have h1 := Finset.card_le_card this
        by_cases hsx : image s.1 x = x
        · have h2 := Finset.card_insert_le x (mappedIn K s)
          have h3 : (mappedIn K s).card ≠ (mappedIn K t).card := fun e => hgrow ⟨hsx, e⟩
          omega
        · rw [Finset.insert_eq_of_mem (mem_mappedIn.2 ⟨hx, hsx⟩)] at h1
          omega
      · refine Finset.ssubset_iff_subset_ne.2 ⟨fun z hz => ?_, fun e => ?_⟩
        · obtain ⟨hz, hm⟩ := mem_differIn.1 hz
          rw [hg] at hm
          refine mem_differIn.2 ⟨hz, ?_⟩
          split at hm
          · next e => exact absurd (by rw [← e]) hm
          · exact hm
        · have : x ∈ differIn K r t := e ▸ mem_differIn.2 ⟨hx, hq⟩
          obtain ⟨-, hm⟩ := mem_differIn.1 this
          rw [hg, if_pos rfl] at hm
          exact hm rfl
  · -- another variable is mapped to it
    have : ∃ y ∈ K, image s.1 y = image t.1 x := by
      by_contra hcon
      push Not at hcon
      exact hused ((h.unused_iff _).2 ⟨hcx, hcon⟩)
    obtain ⟨y, hy, hsy⟩ := this
    have hxy : x ≠ y := fun e => hq (by rw [← hsy, e])
    have hmy : image s.1 y ≠ y := fun e => hd y hy (by rw [← e, hsy]; exact hcx)
    obtain ⟨r, hr, hok, hg⟩ := h.swap_step hd hx hy hxy hmy
    have hdy : image s.1 y ≠ image t.1 y := fun e => hxy (h'.image_inj hx hy (by rw [← hsy, e]))
    refine ⟨r, hr, hok, ?_, ?_⟩
    · by_cases hsx : image s.1 x = x
      · simp only [hsx, if_true] at hg
        have : mappedIn K r ⊆ insert x ((mappedIn K s).erase y) := by
          intro z hz
          obtain ⟨hz, hm⟩ := mem_mappedIn.1 hz
          rw [hg] at hm
          split at hm
          · next e => exact absurd e hm
          · next e =>
            split at hm
            · next e' => exact e' ▸ Finset.mem_insert_self ..
            · exact Finset.mem_insert_of_mem (Finset.mem_erase.2 ⟨fun q => e q.symm, mem_mappedIn.2 ⟨hz, hm⟩⟩)
        have hys := mem_mappedIn.2 ⟨hy, hmy⟩
        have h1 := Finset.card_le_card this
        have h2 := Finset.card_insert_le x ((mappedIn K s).erase y)
        have h3 := Finset.card_erase_of_mem hys
        have h4 := Finset.card_pos.2 ⟨y, hys⟩
        omega
      · have : mappedIn K r ⊆ mappedIn K s := by
          intro z hz
          obtain ⟨hz, hm⟩ := mem_mappedIn.1 hz
          rw [hg] at hm
          refine mem_mappedIn.2 ⟨hz, ?_⟩
          split at hm
          · next e => exact e ▸ hmy
          · split at hm
            · next e' => exact e' ▸ hsx
            · exact hm
        exact (Finset.card_le_card this).trans hle
    · refine Finset.ssubset_iff_subset_ne.2 ⟨fun z hz => ?_, fun e => ?_⟩
      · obtain ⟨hz, hm⟩ := mem_differIn.1 hz
        rw [hg] at hm
        refine mem_differIn.2 ⟨hz, ?_⟩
        split at hm
        · next e => exact e ▸ hdy
        · split at hm
          · next e' => exact e' ▸ hq
          · exact hm
      · have : x ∈ differIn K r t := e ▸ mem_differIn.2 ⟨hx, hq⟩
        obtain ⟨-, hm⟩ := mem_differIn.1 this
        rw [hg, if_neg fun q => hxy q.symm, if_pos rfl] at hm
        exact hm hsy

theorem SuccStep.mapStep (h : SuccStep s t) : MapStep s t := by
  obtain ⟨m, u, hm, hu, ht⟩ := h
  exact ⟨m, u, hm, hu, Or.inl ht⟩

theorem SuccSteps.mapSteps {n : ℕ} (h : SuccSteps n s t) : Relation.ReflTransGen MapStep s t := by
  induction h with
  | refl => exact .refl
  | step h _ ih => exact .head h.mapStep ih

/-- Every mapping with at least as many mapped variables is reached, in no more steps than there are variables that the
two map differently. -/
theorem C112_reaches (hd : ∀ x ∈ K, x ∉ cn) (h : MappingOk K cn s) (h' : MappingOk K cn t)
    (hle : (mapped s.1).length ≤ (mapped t.1).length) :
    ∃ n r, n ≤ (differIn K s t).card ∧ SuccSteps n s r ∧ SameState r t := by
  rw [h.mapped_length, h'.mapped_length] at hle
  generalize hn : (differIn K s t).card = n
  induction n using Nat.strong_induction_on generalizing s with
  | _ n ih =>
    by_cases he : differIn K s t = ∅
    · refine ⟨0, s, Nat.zero_le _, .refl s, h.same h' fun x hx => ?_⟩
      by_contra hq
      have : x ∈ differIn K s t := mem_differIn.2 ⟨hx, hq⟩
      rw [he] at this
      simp at this
    · obtain ⟨r, hr, hok, hc, hss⟩ := h.towards h' hd hle he
      have hlt := Finset.card_lt_card hss
      obtain ⟨k, q, hk, hq, hsame⟩ := ih _ (hn ▸ hlt) hok hc rfl
      exact ⟨k + 1, q, by omega, .step hr hq, hsame⟩

/-- **C112**: from a mapping of the search the states that can be reached are, as sets, exactly the one-to-one mappings of
the variables of the instance to themselves or variables of the base that map at least as many of them to variables of
the base. -/
theorem C112_reachable (hcn : cn.Nodup) (hd : ∀ x ∈ K, x ∉ cn) (h : MappingOk K cn s) (h' : MappingOk K cn t) :
    (∃ r, Relation.ReflTransGen MapStep s r ∧ SameState r t) ↔ (mapped s.1).length ≤ (mapped t.1).length := by
  constructor
  · rintro ⟨r, hr, hs⟩
    have h1 := C75_never_unmaps hcn hd h hr
    have hok := h.steps hd hr
    rw [hok.mapped_length] at h1
    rw [h'.mapped_length]
    have : mappedIn K r = mappedIn K t := by
      ext x
      rw [mem_mappedIn, mem_mappedIn, image, image, hs.1]
    rw [← this]
    exact h1
  · intro hle
    obtain ⟨n, r, -, hr, hs⟩ := C112_reaches hd h h' hle
    exact ⟨r, hr.mapSteps, hs⟩

/-- In no more steps than the instance has variables, and `random_successor` is not needed. -/
theorem C112_steps (hd : ∀ x ∈ K, x ∉ cn) (h : MappingOk K cn s) (h' : MappingOk K cn t)
    (hle : (mapped s.1).length ≤ (mapped t.1).length) :
    ∃ n r, n ≤ K.length ∧ SuccSteps n s r ∧ SameState r t := by
  obtain ⟨n, r, hn, hr, hs⟩ := C112_reaches hd h h' hle
  refine ⟨n, r, hn.trans ?_, hr, hs⟩
  exact (Finset.card_le_card (Finset.filter_subset _ _)).trans (List.toFinset_card_le K)

/-- The empty mapping of a search whose start maps a variable is never reached, however good it is. -/
theorem C112_not_reached (hcn : cn.Nodup) (hd : ∀ x ∈ K, x ∉ cn) (h : MappingOk K cn s)
    (h' : MappingOk K cn t) (hs : mapped s.1 ≠ []) (ht : mapped t.1 = []) :
    ¬ ∃ r, Relation.ReflTransGen MapStep s r ∧ SameState r t := by
  rw [C112_reachable hcn hd h h', ht, List.length_nil, Nat.le_zero, List.length_eq_zero_iff]
  exact hs

/-- With one variable a state that none of its successors beats is the best of all that can be reached, whatever the cost
of mappings. -/
theorem C112_single {β : Type} [LinearOrder β] (cost : MapState → β) (hsame : ∀ a b, SameState a b → cost a = cost b)
    {x : Py} (hcn : cn.Nodup) (hx : x ∉ cn) (h : MappingOk [x] cn s) (hbest : ∀ r, SuccStep s r → cost s ≤ cost r)
    {r : MapState} (hr : Relation.ReflTransGen MapStep s r) : cost s ≤ cost r := by
  have hd : ∀ y ∈ [x], y ∉ cn := by simpa using hx
  have hok := h.steps hd hr
  obtain ⟨n, q, hn, hq, hs⟩ := C112_steps hd h hok (C75_never_unmaps hcn hd h hr)
  rw [← hsame q r hs]
  simp only [List.length_singleton] at hn
  cases hq with
  | refl => exact le_refl _
  | step h1 h2 =>
    cases h2 with
    | refl => exact hbest _ h1
    | step _ _ => omega

/-! ### Nominal values: nothing is lost by never unmapping -/

mutual
theorem renEl_agree {f g : Py → Py} : ∀ (a : Py), (∀ x ∈ varsEl a, f x = g x) → renEl f a = renEl g a
  | .tup l, h => by rw [renEl, renEl, renEls_agree l h]
  | .str s, h => by
    rw [renEl_str, renEl_str]
    split
    · next hv => exact h _ (by simp [varsEl, hv])
    · rfl
  | .none, _ | .bool _, _ | .num _, _ | .list _, _ | .dict _, _ | .other _ _ _, _ => by simp [renEl, Variable]
theorem renEls_agree {f g : Py → Py} : ∀ (l : List Py), (∀ x ∈ varsEls l, f x = g x) → renEls f l = renEls g l
  | [], _ => rfl
  | a :: l, h => by
    rw [renEls, renEls, renEl_agree a fun x hx => h x (by simp [varsEls, hx]),
      renEls_agree l fun x hx => h x (by simp [varsEls, hx])]
end

theorem inst3_renamed (m : Dict Py Py) (target : PyInst) :
    inst3 (renamedInst m target) = renameAttrs (renEl (image m)) (inst3 target) := by
  simp [inst3, renamedInst, renameAttrs, Function.comp_def]

theorem nominal_renamed {φ : Py → Py} {i : Inst3 Py Py} (hh : ∀ a ∈ Dict.keys i, hid3 (φ a) = hid3 a)
    (hφ : ∀ a ∈ Dict.keys i, ∀ b ∈ Dict.keys i, φ a = φ b → a = b) (h : Nominal hid3 i) :
    Nominal hid3 (renameAttrs φ i) := by
  intro b hb x e
  have hk : b ∈ Dict.keys (renameAttrs φ i) := Dict.get?_isSome.1 (by rw [e]; rfl)
  rw [keys_renameAttrs] at hk
  obtain ⟨a, ha, rfl⟩ := List.mem_map.1 hk
  rw [get?_renameAttrs hφ ha] at e
  exact h a (by rw [← hh a ha]; exact hb) x e

section
variable {cfg : Cfg3 Py Py} {sc : Scales Py} {f : Py → Multiset ℝ} {base : Stats3 Py Py}
  {m₀ : Multiset (Inst3 Py Py)} {target : PyInst}

/-- A flat instance to be mapped to a concept, both with nominal visible values: `K` are its variables, `cn` those of the
concept, which has a visible attribute; the two have no variable in common. -/
structure NominalTask (base : Stats3 Py Py) (m₀ : Multiset (Inst3 Py Py)) (target : PyInst) (K cn : List Py) : Prop where
  sums : Summarizes3 base m₀
  nodup : Dict.Nodup target
  ne : target ≠ []
  attrs : ∀ a ∈ target.keys, FitAttr a
  vars : ∀ x, x ∈ K ↔ x ∈ varsOf target.keys
  baseVars : ∀ x, x ∈ cn ↔ x ∈ varsOf base.av.keys
  apart : ∀ x ∈ K, x ∉ cn
  distinct : cn.Nodup
  visible : ∃ a ∈ base.av.keys, hid3 a = false
  nominal : Nominal hid3 (inst3 target)
  baseNominal : ∀ j ∈ m₀, Nominal hid3 j

theorem NominalTask.keepsApart (h : NominalTask base m₀ target K cn) (hs : MappingOk K cn s) :
    KeepsApart s.1 target.keys :=
  hs.keepsApart (fun x hx => (h.vars x).1 hx) fun c hc =>
    ⟨varsOf_variable ((h.baseVars c).1 hc), fun hx => h.apart c ((h.vars c).2 hx) hc⟩

theorem NominalTask.hidden (h : NominalTask base m₀ target K cn) {m : Dict Py Py} (hm : KeepsApart m target.keys) :
    ∀ a ∈ Dict.keys (inst3 target), hid3 (renEl (image m) a) = hid3 a := by
  intro a ha
  rw [keys_inst3] at ha
  exact hid3_ren (fun x hx => hm.vars x (mem_varsOf.2 ⟨a, ha, hx⟩)) (h.attrs a ha)

theorem inj_renamed {m : Dict Py Py} (hm : KeepsApart m target.keys) :
    ∀ a ∈ Dict.keys (inst3 target), ∀ b ∈ Dict.keys (inst3 target),
      renEl (image m) a = renEl (image m) b → a = b := by
  rw [keys_inst3]
  exact hm.inj_attrs

theorem NominalTask.vis (h : NominalTask base m₀ target K cn) : (visAttrs hid3 m₀).Nonempty := by
  obtain ⟨a, ha, hh⟩ := h.visible
  exact ⟨a, Finset.mem_filter.2 ⟨mem_attrsOf.2 ((h.sums.attrs a).1 ha), hh⟩⟩

theorem NominalTask.cost_eq (h : NominalTask base m₀ target K cn) (hsc : ScalesObs sc f) {m : Dict Py Py}
    (hm : KeepsApart m target.keys) :
    mappingCost cfg sc base m target =
      .ok (-(ecgSpec ℝ hid3 (renameAttrs (renEl (image m)) (inst3 target) ::ₘ m₀))) := by
  obtain ⟨a, ha, hh⟩ := h.visible
  rw [C74_cost h.sums hsc h.nodup h.ne hm ⟨a, hh, .inl ha⟩, inst3_renamed, ecgSpec3_visible]
  intro j hj
  rcases Multiset.mem_cons.1 hj with rfl | hj
  · exact nominal_renamed (h.hidden hm) (inj_renamed hm) h.nominal
  · exact h.baseNominal j hj

theorem NominalTask.cost_apart (h : NominalTask base m₀ target K cn) (hsc : ScalesObs sc f) {m : Dict Py Py}
    (hm : KeepsApart m target.keys) :
    mappingCost cfg sc base m target =
      .ok (-(((squares hid3 m₀ : ℝ) + (ownAttrs hid3 (inst3 target)).card +
          2 * agreements hid3 (inst3 (renamedInst m target)) m₀) /
        (((Multiset.card m₀ : ℝ) + 1) ^ 2 *
          ((visAttrs hid3 m₀).card + newAttrs hid3 (inst3 (renamedInst m target)) m₀)))) := by
  rw [h.cost_eq hsc hm, ecg_addOne, inst3_renamed, ownAttrs_rename (h.hidden hm), Finset.card_image_of_injOn]
  exact fun a ha b hb => inj_renamed hm a (mem_ownAttrs.1 ha).1 b (mem_ownAttrs.1 hb).1

/-- What the cost depends on: with `n` instances in the concept, `A` visible attributes there and `q` visible attributes of
the instance, it is `-(S + q + 2 * agreements) / ((n + 1)² * (A + new))`, where only the number of equal values and the
number of attributes that the concept does not have depend on the mapping. -/
theorem C112_cost (h : NominalTask base m₀ target K cn) (hsc : ScalesObs sc f) (hs : MappingOk K cn s) :
    mappingCost cfg sc base s.1 target =
      .ok (-(((squares hid3 m₀ : ℝ) + (ownAttrs hid3 (inst3 target)).card +
          2 * agreements hid3 (inst3 (renamedInst s.1 target)) m₀) /
        (((Multiset.card m₀ : ℝ) + 1) ^ 2 *
          ((visAttrs hid3 m₀).card + newAttrs hid3 (inst3 (renamedInst s.1 target)) m₀)))) :=
  h.cost_apart hsc (h.keepsApart hs)

/-- Mapping more variables, and those that are mapped as before, never costs more. -/
theorem C112_extend (h : NominalTask base m₀ target K cn) (hsc : ScalesObs sc f) (hs : MappingOk K cn s)
    (ht : MappingOk K cn t) (hext : ∀ x ∈ K, image s.1 x = image t.1 x ∨ image s.1 x = x) :
    ∃ x y, mappingCost cfg sc base s.1 target = .ok x ∧ mappingCost cfg sc base t.1 target = .ok y ∧ y ≤ x := by
  refine ⟨_, _, h.cost_eq hsc (h.keepsApart hs), h.cost_eq hsc (h.keepsApart ht), neg_le_neg ?_⟩
  refine ecg_rename_le h.vis (inj_renamed (h.keepsApart ht)) (inj_renamed (h.keepsApart hs))
    (h.hidden (h.keepsApart ht)) (h.hidden (h.keepsApart hs)) fun a ha => ?_
  rw [keys_inst3] at ha
  by_cases he : ∀ x ∈ varsEl a, image t.1 x = image s.1 x
  · exact .inl (renEl_agree a he)
  · right
    push Not at he
    obtain ⟨x, hx, hne⟩ := he
    have hxK : x ∈ K := (h.vars x).2 (mem_varsOf.2 ⟨a, ha, hx⟩)
    have hsx : image s.1 x = x := (hext x hxK).resolve_left fun e => hne e.symm
    intro hmem
    have hin := (h.sums.attrs _).2 (mem_attrsOf.1 hmem)
    have hv : x ∈ varsEl (renEl (image s.1) a) :=
      (varsEl_renEl a x fun y hy => (h.keepsApart hs).vars y (mem_varsOf.2 ⟨a, ha, hy⟩)).2 ⟨x, hx, hsx.symm⟩
    exact h.apart x hxK ((h.baseVars x).2 (mem_varsOf.2 ⟨_, hin, hv⟩))

/-- A mapping can be extended to one with as many mapped variables as another one has. -/
theorem MappingOk.extend (hcn : cn.Nodup) (hd : ∀ x ∈ K, x ∉ cn) (hs : MappingOk K cn s) (ht : MappingOk K cn t) :
    ∃ r, MappingOk K cn r ∧ (mapped s.1).length ≤ (mapped r.1).length ∧
      ∀ x ∈ K, image t.1 x = image r.1 x ∨ image t.1 x = x := by
  generalize hk : (mapped s.1).length - (mapped t.1).length = k
  induction k generalizing t with
  | zero => exact ⟨t, ht, by omega, fun x _ => .inl rfl⟩
  | succ k ih =>
    have hlt : (mapped t.1).length < (mapped s.1).length := by omega
    have hcs := C75_count hcn hd hs
    have hct := C75_count hcn hd ht
    obtain ⟨c, hc⟩ := List.exists_mem_of_length_pos (l := t.2) (by omega)
    rw [hs.mapped_length, ht.mapped_length] at hlt
    obtain ⟨x, hxs, hxt⟩ := Finset.exists_mem_notMem_of_card_lt_card hlt
    have hx := (mem_mappedIn.1 hxs).1
    have htx : image t.1 x = x := by
      by_contra hm
      exact hxt (mem_mappedIn.2 ⟨hx, hm⟩)
    obtain ⟨r, -, hr, hg⟩ := ht.fill_step hd hx hc
    have hcc : c ∈ cn := ((ht.unused_iff c).1 hc).1
    have hcard : (mappedIn K r).card = (mappedIn K t).card + 1 := by
      rw [← Finset.card_insert_of_notMem hxt]
      congr 1
      ext z
      rw [Finset.mem_insert, mem_mappedIn, mem_mappedIn, hg]
      by_cases e : x = z
      · subst e
        simp only [if_true, true_or, iff_true]
        exact ⟨hx, fun q => hd x hx (q ▸ hcc)⟩
      · rw [if_neg e]
        constructor
        · exact fun q => .inr q
        · rintro (q | q)
          · exact absurd q.symm e
          · exact q
    rw [← hr.mapped_length, ← ht.mapped_length] at hcard
    obtain ⟨q, hq, hle, hext⟩ := ih hr (by omega)
    refine ⟨q, hq, hle, fun z hz => ?_⟩
    by_cases e : x = z
    · exact .inr (e ▸ htx)
    · rcases hext z hz with e' | e'
      · rw [hg, if_neg e] at e'
        exact .inl e'
      · rw [hg, if_neg e] at e'
        exact .inr e'

theorem mappingCost_same {r : MapState} (h : NominalTask base m₀ target K cn) (hsc : ScalesObs sc f)
    (hr : MappingOk K cn r) (ht : MappingOk K cn t) (e : SameState r t) :
    mappingCost cfg sc base r.1 target = mappingCost cfg sc base t.1 target := by
  have : image r.1 = image t.1 := by
    funext x
    rw [image, image, e.1]
  rw [h.cost_eq hsc (h.keepsApart hr), h.cost_eq hsc (h.keepsApart ht), this]

/-- **C112**: with nominal values the search could from any start, with at most as many steps as the instance has
variables, reach a mapping that costs no more than a given one, of whatever kind: nothing is lost by never unmapping. -/
theorem C112_enough (h : NominalTask base m₀ target K cn) (hsc : ScalesObs sc f) (hs : MappingOk K cn s)
    (ht : MappingOk K cn t) :
    ∃ n r x y, n ≤ K.length ∧ SuccSteps n s r ∧ mappingCost cfg sc base t.1 target = .ok x ∧
      mappingCost cfg sc base r.1 target = .ok y ∧ y ≤ x := by
  obtain ⟨q, hq, hle, hext⟩ := hs.extend h.distinct h.apart ht
  obtain ⟨n, r, hn, hr, hsame⟩ := C112_steps h.apart hs hq hle
  obtain ⟨x, y, hx, hy, hxy⟩ := C112_extend (cfg := cfg) h hsc ht hq hext
  refine ⟨n, r, x, y, hn, hr, hx, ?_, hxy⟩
  rw [mappingCost_same h hsc (hs.steps h.apart hr.mapSteps) hq hsame]
  exact hy

/-- **C112** in Trestle: the root of a tree that has fitted nominal instances, and a nominal instance to be mapped to it. -/
theorem C112_trestle {c : TrestleCfg} {st : TState} {hist : List PyInst} (hc : c.Ok) (h : TrestleRuns c st hist)
    {t : Tree (Stats3 Py Py)} (ht : IsTree st.h st.h.root t) (hv : ∃ a ∈ t.stats.av.keys, hid3 a = false)
    (hn : Dict.Nodup target) (h0 : target ≠ []) (hfit : ∀ a ∈ target.keys, FitAttr a)
    (hd : ∀ x ∈ varsOf target.keys, x ∉ varsOf t.stats.av.keys) (hcn : cn.Nodup)
    (hK : ∀ x, x ∈ K ↔ x ∈ varsOf target.keys) (hC : ∀ x, x ∈ cn ↔ x ∈ varsOf t.stats.av.keys)
    (hnom : ∀ i ∈ target :: hist, Nominal hid3 (inst3 i)) {s r : MapState} (hs : MappingOk K cn s)
    (hr : MappingOk K cn r) :
    ∃ n q x y, n ≤ K.length ∧ SuccSteps n s q ∧ mappingCost c.cobweb3 st.sc t.stats r.1 target = .ok x ∧
      mappingCost c.cobweb3 st.sc t.stats q.1 target = .ok y ∧ y ≤ x := by
  obtain ⟨n, hreach, -⟩ := trestle_reach hc h ht
  have task : NominalTask t.stats (hist.map inst3 : Multiset (Inst3 Py Py)) target K cn :=
    { sums := (C29_every_node hreach).1
      nodup := hn
      ne := h0
      attrs := hfit
      vars := hK
      baseVars := hC
      apart := fun x hx hx' => hd x ((hK x).1 hx) ((hC x).1 hx')
      distinct := hcn
      visible := hv
      nominal := hnom target (by simp)
      baseNominal := fun j hj => by
        obtain ⟨i, hi, rfl⟩ := List.mem_map.1 (Multiset.mem_coe.1 hj)
        exact hnom i (by simp [hi]) }
  exact C112_enough task (reach3_scales hreach) hs hr

end

end CF
