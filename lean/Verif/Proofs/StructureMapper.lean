/-
The search for a mapping, and renaming by the mapping it finds.
-/
import Verif.Spec.StructureMapper
import Verif.Proofs.Standardize
import Verif.Proofs.SubComponent
import Verif.Proofs.NoRaise

namespace CF

/-! ### Mappings -/

section
variable {K cn : List Py} {s : MapState}

theorem get?_permSM {d e : Dict Py Py} (hd : Dict.Nodup d) (hp : e.Perm d) (x : Py) : e.get? x = d.get? x := by
  have he : Dict.Nodup e := (nodup_perm hp).2 hd
  ext v
  rw [← Dict.mem_iff_get? hd, ← Dict.mem_iff_get? he, hp.mem_iff]

theorem MappingOk.perm (h : MappingOk K cn s) {m : Dict Py Py} {u : List Py} (hm : m.Perm s.1)
    (hu : u.Perm s.2) : MappingOk K cn (m, u) := by
  have hg := get?_permSM h.nodup hm
  refine ⟨(nodup_perm hm).2 h.nodup, ?_, ?_, ?_, ?_, hu.nodup_iff.2 h.set⟩
  · intro x
    rw [← h.dom, ← Dict.get?_isSome, ← Dict.get?_isSome]
    simp only [hg]
  · simpa only [hg] using h.inj
  · simpa only [hg] using h.into
  · intro c
    rw [hu.mem_iff, h.unused]
    simp only [hg]

theorem swapTwo_ok (h : MappingOk K cn s) (hd : ∀ x ∈ K, x ∉ cn) {e1 e2 : Py × Py} (h1 : e1 ∈ s.1)
    (h2 : e2 ∈ s.1) (hne : e1.1 ≠ e2.1) : MappingOk K cn (swapTwo s e1 e2) := by
  obtain ⟨o1, v1⟩ := e1
  obtain ⟨o2, v2⟩ := e2
  have g1 := Dict.get?_of_mem h.nodup h1
  have g2 := Dict.get?_of_mem h.nodup h2
  have k1 : o1 ∈ K := (h.dom _).1 (Dict.get?_isSome.1 (by rw [g1]; rfl))
  have k2 : o2 ∈ K := (h.dom _).1 (Dict.get?_isSome.1 (by rw [g2]; rfl))
  have hK : ∀ x v, s.1.get? x = some v → x ∈ K := fun x v e =>
    (h.dom _).1 (Dict.get?_isSome.1 (by rw [e]; rfl))
  have hg : ∀ x, (swapTwo s (o1, v1) (o2, v2)).1.get? x =
      if o2 = x then some (if v1 = o1 then o2 else v1)
      else if o1 = x then some (if v2 = o2 then o1 else v2) else s.1.get? x := by
    intro x
    simp only [swapTwo, Dict.get?_set]
  have i1 := h.into _ _ g1
  have i2 := h.into _ _ g2
  have hn12 := hd _ k1
  have hn21 := hd _ k2
  simp only at hne
  refine ⟨Dict.nodup_set (Dict.nodup_set h.nodup _ _) _ _, ?_, ?_, ?_, ?_, h.set⟩
  · intro x
    rw [← h.dom, ← Dict.get?_isSome, ← Dict.get?_isSome, hg]
    grind
  · intro x y v
    rw [hg, hg]
    have := h.inj
    have := h.into
    grind
  · intro x v
    rw [hg]
    have := h.into
    grind
  · intro c
    have hu := h.unused c
    show c ∈ s.2 ↔ _
    rw [hu]
    refine and_congr_right fun hc => ?_
    constructor
    · intro H x
      rw [hg]
      have := H o1
      have := H o2
      have := H x
      grind
    · intro H x hx
      have a1 := H o1
      have a2 := H o2
      have a3 := H x
      rw [hg] at a1 a2 a3
      have := hK x c hx
      grind

theorem swapUnnamed_ok (h : MappingOk K cn s) (hd : ∀ x ∈ K, x ∉ cn) {e : Py × Py} {c : Py} (h1 : e ∈ s.1)
    (h2 : c ∈ s.2) : MappingOk K cn (swapUnnamed s e c) := by
  obtain ⟨o1, v1⟩ := e
  have g1 := Dict.get?_of_mem h.nodup h1
  have k1 : o1 ∈ K := (h.dom _).1 (Dict.get?_isSome.1 (by rw [g1]; rfl))
  have hK : ∀ x v, s.1.get? x = some v → x ∈ K := fun x v e =>
    (h.dom _).1 (Dict.get?_isSome.1 (by rw [e]; rfl))
  have hg : ∀ x, (swapUnnamed s (o1, v1) c).1.get? x = if o1 = x then some c else s.1.get? x := by
    intro x
    simp only [swapUnnamed, Dict.get?_set]
  have i1 := h.into _ _ g1
  have hn1 := hd _ k1
  have hc := (h.unused c).1 h2
  refine ⟨Dict.nodup_set h.nodup _ _, ?_, ?_, ?_, ?_, ?_⟩
  · intro x
    rw [← h.dom, ← Dict.get?_isSome, ← Dict.get?_isSome, hg]
    grind
  · intro x y v
    rw [hg, hg]
    have := h.inj x y v
    have := hc.2 x
    have := hc.2 y
    grind
  · intro x v
    rw [hg]
    have := h.into x v
    grind
  · intro d
    have hu := h.unused d
    have hv := h.unused v1
    have : d ∈ (swapUnnamed s (o1, v1) c).2 ↔ (d ∈ s.2 ∧ d ≠ c) ∨ (v1 ≠ o1 ∧ d = v1) := by
      simp only [swapUnnamed]
      split
      · next e => rw [h.set.mem_erase_iff]; simp [e, and_comm]
      · next e => rw [List.mem_append, h.set.mem_erase_iff]; simp [e, and_comm]
    rw [this, hu]
    constructor
    · rintro (⟨⟨a, b⟩, b'⟩ | ⟨a, rfl⟩)
      · refine ⟨a, fun x => ?_⟩
        rw [hg]
        have := b x
        grind
      · refine ⟨by grind, fun x => ?_⟩
        rw [hg]
        have := h.inj o1 x d g1
        have := hc.2 o1
        grind
    · rintro ⟨a, b⟩
      have b1 := b o1
      rw [hg, if_pos rfl] at b1
      by_cases e : d = v1
      · right
        grind
      · left
        refine ⟨⟨a, fun x hx => ?_⟩, by grind⟩
        have := b x
        rw [hg] at this
        grind
  · simp only [swapUnnamed]
    split
    · exact h.set.erase _
    · refine List.nodup_append.2 ⟨h.set.erase _, by simp, ?_⟩
      intro a ha b hb
      have := (h.unused a).1 (List.mem_of_mem_erase ha)
      have := this.2 o1
      grind

theorem mem_combos {α : Type} {l : List α} {p : α × α} (h : p ∈ combos l) : p.1 ∈ l ∧ p.2 ∈ l := by
  induction l with
  | nil => simp [combos] at h
  | cons x xs ih =>
    rw [combos, List.mem_append, List.mem_map] at h
    rcases h with ⟨y, hy, rfl⟩ | h
    · simp [hy]
    · have := ih h
      simp [this]

theorem MappingOk.step (h : MappingOk K cn s) (hd : ∀ x ∈ K, x ∉ cn) {t : MapState} (hs : MapStep s t) :
    MappingOk K cn t := by
  obtain ⟨m, u, hm, hu, ht⟩ := hs
  have h := h.perm hm hu
  rcases ht with ht | ht
  · rw [successors, List.mem_append, List.mem_filterMap, List.mem_flatMap] at ht
    rcases ht with ⟨p, hp, hq⟩ | ⟨e, he, hq⟩
    · split at hq
      · simp at hq
      · next hc =>
        cases hq
        have := mem_combos hp
        exact swapTwo_ok h hd this.1 this.2 fun e => hc (.inl e)
    · obtain ⟨c, hc, rfl⟩ := List.mem_map.1 hq
      exact swapUnnamed_ok h hd he hc
  · rw [randomSuccessors, List.mem_flatMap] at ht
    obtain ⟨e, he, hq⟩ := ht
    have he := (List.mem_filter.1 he).1
    rw [List.mem_append, List.mem_map, List.mem_map] at hq
    rcases hq with ⟨f, hf, rfl⟩ | ⟨c, hc, rfl⟩
    · obtain ⟨hf, hq⟩ := List.mem_filter.1 hf
      exact swapTwo_ok h hd he hf fun e => (of_decide_eq_true hq).1 e.symm
    · exact swapUnnamed_ok h hd he hc

theorem MappingOk.steps (h : MappingOk K cn s) (hd : ∀ x ∈ K, x ∉ cn) {t : MapState}
    (hs : Relation.ReflTransGen MapStep s t) : MappingOk K cn t := by
  induction hs with
  | refl => exact h
  | tail _ hs ih => exact ih.step hd hs

end

/-! ### The initial mapping -/

/-- What an entry of an assignment stands for. -/
def entryOf (is cs : List Py) (p : ℕ × ℕ) : Option (Py × Py) :=
  match is[p.1]? with
  | none => none
  | some o => if p.2 ≥ cs.length then some (o, o) else cs[p.2]?.map fun c => (o, c)

theorem assignLoop_eq {is cs : List Py} {idx : List (ℕ × ℕ)} {m : Dict Py Py}
    (hb : ∀ p ∈ idx, p.1 < is.length) :
    ∃ es, assignLoop is cs idx m = .ok (setAll m es) ∧ idx.map (entryOf is cs) = es.map some := by
  induction idx generalizing m with
  | nil => exact ⟨[], rfl, rfl⟩
  | cons p idx ih =>
    obtain ⟨row, col⟩ := p
    have hr : row < is.length := hb (row, col) (by simp)
    have hb' : ∀ p ∈ idx, p.1 < is.length := fun p hp => hb p (by simp [hp])
    rw [assignLoop, List.getElem?_eq_getElem hr]
    by_cases hc : col ≥ cs.length
    · obtain ⟨es, h1, h2⟩ := ih (m := m.set is[row] is[row]) hb'
      refine ⟨(is[row], is[row]) :: es, ?_, ?_⟩
      · simp only [hc, if_true, h1, setAll, List.foldl_cons]
      · simp [entryOf, hr, hc, h2]
    · have hc' : col < cs.length := by omega
      obtain ⟨es, h1, h2⟩ := ih (m := m.set is[row] cs[col]) hb'
      refine ⟨(is[row], cs[col]) :: es, ?_, ?_⟩
      · simp only [hc, if_false, List.getElem?_eq_getElem hc', h1, setAll, List.foldl_cons]
      · simp [entryOf, hr, hc, hc', h2]

theorem mem_entry {is cs : List Py} {p : ℕ × ℕ} {e : Py × Py} (h : entryOf is cs p = some e) :
    is[p.1]? = some e.1 ∧ ((cs.length ≤ p.2 ∧ e.2 = e.1) ∨ cs[p.2]? = some e.2) := by
  unfold entryOf at h
  split at h
  · simp at h
  · next o ho =>
    split at h
    · next hc => cases h; exact ⟨ho, .inl ⟨hc, rfl⟩⟩
    · obtain ⟨c, hc, rfl⟩ := Option.map_eq_some_iff.1 h
      exact ⟨ho, .inr hc⟩

/-- The entries that the loop makes, in the order of the assignment. -/
theorem assign_entries {is cs : List Py} (hi : is.Nodup) {idx : List (ℕ × ℕ)}
    (ha : Assignment is.length cs.length idx) :
    ∃ es, assignLoop is cs idx [] = .ok es ∧ idx.map (entryOf is cs) = es.map some ∧ (es.map Prod.fst).Perm is := by
  have hb : ∀ p ∈ idx, p.1 < is.length := fun p hp => by
    have := ha.rows.mem_iff.1 (List.mem_map.2 ⟨p, hp, rfl⟩)
    simpa using this
  obtain ⟨es, h1, h2⟩ := assignLoop_eq (cs := cs) (m := []) hb
  -- the keys are the rows
  have hk : es.map (fun e => some e.1) = (idx.map Prod.fst).map fun r => is[r]? := by
    have h3 : (idx.map (entryOf is cs)).map (Option.map Prod.fst) = (es.map some).map (Option.map Prod.fst) := by
      rw [h2]
    simp only [List.map_map] at h3
    rw [show es.map (fun e => some e.1) = es.map (Option.map Prod.fst ∘ some) from rfl, ← h3, List.map_map]
    apply List.map_congr_left
    intro p hp
    have hr := hb p hp
    simp only [Function.comp, entryOf, List.getElem?_eq_getElem hr]
    split
    · rfl
    · next hcc =>
      have : p.2 < cs.length := by omega
      simp [this]
  have hperm : (es.map Prod.fst).Perm is := by
    have h4 : ((idx.map Prod.fst).map fun r => is[r]?).Perm ((List.range is.length).map fun r => is[r]?) :=
      ha.rows.map _
    rw [← hk] at h4
    have h5 : (List.range is.length).map (fun r => is[r]?) = is.map some := by
      apply List.ext_getElem
      · simp
      · intro n h1 h2; simp
    rw [h5, show es.map (fun e => some e.1) = (es.map Prod.fst).map some by simp] at h4
    exact (List.map_perm_map_iff (Option.some_injective _)).1 h4
  have hnd : Dict.Nodup es := hperm.nodup_iff.2 hi
  have hm : setAll [] es = es := by
    rw [setAll_nodup (by simpa using hnd)]
    rfl
  rw [hm] at h1
  exact ⟨es, h1, h2, hperm⟩

theorem assign_ok {is cs cn : List Py} (hi : is.Nodup) (hc : cs.Nodup) (hcn : ∀ x, x ∈ cs ↔ x ∈ cn)
    (hd : ∀ x ∈ is, x ∉ cn) {idx : List (ℕ × ℕ)} (ha : Assignment is.length cs.length idx) :
    ∃ m, assignLoop is cs idx [] = .ok m ∧ MappingOk is cn (m, unusedNames cs m) := by
  obtain ⟨es, h1, h2, hperm⟩ := assign_entries hi ha
  have hes : ∀ e, e ∈ es ↔ ∃ p ∈ idx, entryOf is cs p = some e := by
    intro e
    have : some e ∈ idx.map (entryOf is cs) ↔ some e ∈ es.map some := by rw [h2]
    simpa using this.symm
  have hnd : Dict.Nodup es := hperm.nodup_iff.2 hi
  refine ⟨es, h1, hnd, ?_, ?_, ?_, ?_, ?_⟩
  · intro x
    exact hperm.mem_iff
  · intro x y v hx hy
    obtain ⟨p, hp, ep⟩ := (hes _).1 (Dict.mem_of_get? hx)
    obtain ⟨q, hq, eq⟩ := (hes _).1 (Dict.mem_of_get? hy)
    obtain ⟨p1, p2⟩ := mem_entry ep
    obtain ⟨q1, q2⟩ := mem_entry eq
    simp only at p1 p2 q1 q2
    have hxi := List.mem_of_getElem? p1
    have hyi := List.mem_of_getElem? q1
    rcases p2 with ⟨_, rfl⟩ | p2
    · rcases q2 with ⟨_, e⟩ | q2
      · exact e
      · exact absurd ((hcn _).1 (List.mem_of_getElem? q2)) (hd _ hxi)
    · rcases q2 with ⟨_, rfl⟩ | q2
      · exact absurd ((hcn _).1 (List.mem_of_getElem? p2)) (hd _ hyi)
      · have h6 : p.2 = q.2 := by
          obtain ⟨lt, _⟩ := List.getElem?_eq_some_iff.1 p2
          exact (List.getElem?_inj lt hc).1 (p2.trans q2.symm)
        have h7 : p = q := by
          have := List.inj_on_of_nodup_map ha.cols hp hq h6
          exact this
        subst h7
        rw [p1] at q1
        exact Option.some.inj q1
  · intro x v hx
    obtain ⟨p, hp, ep⟩ := (hes _).1 (Dict.mem_of_get? hx)
    obtain ⟨p1, p2⟩ := mem_entry ep
    rcases p2 with ⟨_, e⟩ | p2
    · exact .inl e
    · exact .inr ((hcn _).1 (List.mem_of_getElem? p2))
  · intro c
    simp only [unusedNames, List.mem_filter, hcn, decide_eq_true_eq, List.mem_map, not_exists, not_and]
    refine and_congr_right fun _ => ⟨fun H x hx => H (x, c) (Dict.mem_of_get? hx) rfl, ?_⟩
    rintro H ⟨x, c'⟩ hp rfl
    exact H x (Dict.get?_of_mem hnd hp)
  · exact hc.filter _

theorem user_ok {is cs cn : List Py} (hc : cs.Nodup) (hcn : ∀ x, x ∈ cs ↔ x ∈ cn) {m : Dict Py Py}
    (hk : Dict.Nodup m) (hv : (m.map Prod.snd).Nodup) (hm : ∀ p ∈ m, p.1 ∈ is ∧ p.2 ∈ cn) :
    MappingOk m.keys cn (m, unusedNames cs m) := by
  refine ⟨hk, fun _ => Iff.rfl, ?_, ?_, ?_, hc.filter _⟩
  · intro x y v hx hy
    have := List.inj_on_of_nodup_map hv (Dict.mem_of_get? hx) (Dict.mem_of_get? hy) rfl
    exact congrArg Prod.fst this
  · intro x v hx
    exact .inr (hm _ (Dict.mem_of_get? hx)).2
  · intro c
    simp only [unusedNames, List.mem_filter, hcn, decide_eq_true_eq, List.mem_map, not_exists, not_and]
    refine and_congr_right fun _ => ⟨fun H x hx => H (x, c) (Dict.mem_of_get? hx) rfl, ?_⟩
    rintro H ⟨x, c'⟩ hp rfl
    exact H x (Dict.get?_of_mem hk hp)

/-! ### The names of an instance -/

mutual
theorem componentsE_ok : ∀ (a : Py) {xs : List Py}, componentsE a = .ok xs → xs = varsEl a
  | .tup l, _, h => componentsL_ok l h
  | .str s, xs, h => by
    simp only [componentsE, Except.ok.injEq] at h
    rw [← h, varsEl.eq_def]
    simp [← isVarPy_iff, isVarPy]
  | .none, _, h | .bool _, _, h | .num _, _, h | .list _, _, h | .dict _, _, h | .other _ _ _, _, h => by
    simp [componentsE] at h
theorem componentsL_ok : ∀ (l : List Py) {xs : List Py}, componentsL l = .ok xs → xs = varsEls l
  | [], _, h => by
    simp only [componentsL, Except.ok.injEq] at h
    rw [← h]; rfl
  | a :: l, xs, h => by
    simp only [componentsL, bind_ok, pure_ok] at h
    obtain ⟨x, hx, y, hy, rfl⟩ := h
    rw [componentsE_ok a hx, componentsL_ok l hy, varsEls]
end

theorem components_ok {a : Py} {xs : List Py} (h : components a = .ok xs) :
    xs = varsEl a := by
  cases a with
  | tup l => exact componentsL_ok l h
  | list l => simp [components] at h
  | dict l => simp [components] at h
  | str s =>
    simp only [components, bind_ok, pure_ok] at h
    obtain ⟨x, hx, rfl⟩ := h
    cases s with
    | nil => simp [Py.index0] at hx
    | cons c s =>
      simp only [Py.index0, Except.ok.injEq] at hx
      rw [← hx, varsEl.eq_def]
      simp [Variable]
  | other n h' i =>
    simp only [components, bind_ok, pure_ok] at h
    obtain ⟨x, hx, rfl⟩ := h
    cases i <;> simp only [Py.index0] at hx
    · simp at hx
    · simp only [Except.ok.injEq] at hx
      rw [← hx, varsEl.eq_def]
      simp [Variable]
  | none | bool _ | num _ =>
    simp only [components, bind_ok, pure_ok] at h
    obtain ⟨x, hx, rfl⟩ := h
    simp [Py.index0] at hx

theorem componentNames_ok {l : List Py} {xs : List Py} (h : componentNames l = .ok xs) : xs = l.flatMap varsEl := by
  induction l generalizing xs with
  | nil =>
    simp only [componentNames, Except.ok.injEq] at h
    rw [← h]; rfl
  | cons a l ih =>
    simp only [componentNames, bind_ok, pure_ok] at h
    obtain ⟨x, hx, y, hy, rfl⟩ := h
    rw [components_ok hx, ih hy, List.flatMap_cons]

/-! ### Renaming by a mapping -/

/-- A mapping as a function. -/
def applyMap (m : Dict Py Py) (x : Py) : Py := (m.get? x).getD x

mutual
theorem renameEl_apply {m : Dict Py Py} (hm : ∀ x w, m.get? x = some w → Variable x) : ∀ (a : Py),
    renameEl m a = renEl (applyMap m) a
  | .tup l => by
    have : m.get? (.tup l) = none := by
      cases e : m.get? (.tup l) with
      | none => rfl
      | some w => obtain ⟨s, hs⟩ := hm _ _ e; simp at hs
    rw [renameEl, this, renEl, ← renameRel_apply hm l]
  | .str s => renameEl_apply_atom hm rfl
  | .none => renameEl_apply_atom hm rfl
  | .bool _ => renameEl_apply_atom hm rfl
  | .num _ => renameEl_apply_atom hm rfl
  | .list _ => renameEl_apply_atom hm rfl
  | .dict _ => renameEl_apply_atom hm rfl
  | .other _ _ _ => renameEl_apply_atom hm rfl
theorem renameEl_apply_atom {m : Dict Py Py} (hm : ∀ x w, m.get? x = some w → Variable x) {a : Py}
    (ht : a.isTup = false) : renameEl m a = renEl (applyMap m) a := by
  rw [renameEl_atom ht]
  by_cases hv : Variable a
  · rw [renEl_var hv, applyMap]
  · have : m.get? a = none := by
      cases e : m.get? a with
      | none => rfl
      | some w => exact absurd (hm _ _ e) hv
    rw [this, renEl_const hv ht, Option.getD_none]
theorem renameRel_apply {m : Dict Py Py} (hm : ∀ x w, m.get? x = some w → Variable x) : ∀ (l : List Py),
    renameRel m l = renEls (applyMap m) l
  | [] => rfl
  | x :: xs => by rw [renameRel, renEls, renameEl_apply hm x, renameRel_apply hm xs]
end

mutual
theorem renEl_renEl {f g : Py → Py} : ∀ (a : Py), (∀ x ∈ varsEl a, Variable (f x) ∧ g (f x) = x) →
    renEl g (renEl f a) = a
  | .tup l, h => by rw [renEl, renEl, renEls_renEls l h]
  | .str s, h => by
    by_cases hv : Variable (.str s)
    · have := h (.str s) (by simp [varsEl_var hv])
      rw [renEl_var hv, renEl_var this.1, this.2]
    · rw [renEl_const hv rfl, renEl_const hv rfl]
  | .none, _ | .bool _, _ | .num _, _ | .list _, _ | .dict _, _ | .other _ _ _, _ => by simp [renEl, Variable]
theorem renEls_renEls {f g : Py → Py} : ∀ (l : List Py), (∀ x ∈ varsEls l, Variable (f x) ∧ g (f x) = x) →
    renEls g (renEls f l) = l
  | [], _ => rfl
  | x :: xs, h => by
    rw [renEls, renEls, renEl_renEl x fun y hy => h y (by simp [varsEls, hy]),
      renEls_renEls xs fun y hy => h y (by simp [varsEls, hy])]
end

mutual
theorem varsEl_renEl {f : Py → Py} : ∀ (a : Py) (x : Py), (∀ x ∈ varsEl a, Variable (f x)) →
    (x ∈ varsEl (renEl f a) ↔ ∃ y ∈ varsEl a, x = f y)
  | .tup l, x, h => varsEls_renEls l x h
  | .str s, x, h => by
    by_cases hv : Variable (.str s)
    · have := h (.str s) (by simp [varsEl_var hv])
      rw [renEl_var hv, varsEl_var this, varsEl_var hv]
      simp
    · rw [renEl_const hv rfl]
      simp [varsEl, hv]
  | .none, _, _ | .bool _, _, _ | .num _, _, _ | .list _, _, _ | .dict _, _, _ | .other _ _ _, _, _ => by
    simp [renEl, Variable, varsEl]
theorem varsEls_renEls {f : Py → Py} : ∀ (l : List Py) (x : Py), (∀ x ∈ varsEls l, Variable (f x)) →
    (x ∈ varsEls (renEls f l) ↔ ∃ y ∈ varsEls l, x = f y)
  | [], _, _ => by simp [renEls, varsEls]
  | a :: l, x, h => by
    rw [renEls, varsEls, List.mem_append, varsEl_renEl a x fun y hy => h y (by simp [varsEls, hy]),
      varsEls_renEls l x fun y hy => h y (by simp [varsEls, hy]), varsEls]
    simp only [List.mem_append, or_and_right, exists_or]
end

theorem renameFlatInto_eq (m : Dict Py Py) (l temp : PyInst) :
    renameFlatInto m l temp = setAll temp (l.map fun p => (renameEl m p.1, p.2)) := by
  induction l generalizing temp with
  | nil => rfl
  | cons p l ih => simp [renameFlatInto, ih, setAll]

/-- Renaming with a function that can be undone. -/
theorem renameFlat_eq {m : Dict Py Py} (hm : ∀ x w, m.get? x = some w → Variable x) {l : PyInst}
    (hn : Dict.Nodup l) {g : Py → Py}
    (hg : ∀ p ∈ l, ∀ x ∈ varsEl p.1, Variable (applyMap m x) ∧ g (applyMap m x) = x) :
    renameFlat l m = l.map (fun p => (renEl (applyMap m) p.1, p.2)) ∧ Dict.Nodup (renameFlat l m) := by
  have hnd : Dict.Nodup (l.map fun p => (renEl (applyMap m) p.1, p.2)) := by
    unfold Dict.Nodup Dict.keys
    rw [List.map_map, show (Prod.fst ∘ fun p : Py × Py => (renEl (applyMap m) p.1, p.2)) =
      renEl (applyMap m) ∘ Prod.fst from rfl, ← List.map_map]
    refine List.Nodup.map_on ?_ hn
    intro x hx y hy e
    obtain ⟨p, hp, rfl⟩ := List.mem_map.1 hx
    obtain ⟨q, hq, rfl⟩ := List.mem_map.1 hy
    rw [← renEl_renEl p.1 (hg p hp), e, renEl_renEl q.1 (hg q hq)]
  have : renameFlat l m = l.map (fun p => (renEl (applyMap m) p.1, p.2)) := by
    rw [renameFlat, renameFlatInto_eq, setAll_nodup]
    · simp only [renameEl_apply hm, List.nil_append]
    · simpa only [renameEl_apply hm, List.nil_append] using hnd
  exact ⟨this, this ▸ hnd⟩

/-! ### `flat_match` -/

theorem mem_varsOf {as : List Py} {x : Py} : x ∈ varsOf as ↔ ∃ a ∈ as, x ∈ varsEl a := List.mem_flatMap

theorem varsOf_variable {as : List Py} {x : Py} (h : x ∈ varsOf as) : Variable x :=
  let ⟨_, _, hx⟩ := mem_varsOf.1 h
  varsEl_variable x hx

section
variable {S : Search} {base : List Py} {user : Option (List (Py × Py))} {target : PyInst}

theorem initialMapping_ok (hS : SearchLaws S) {is cs : List Py} (hu : UserOk user)
    (hd : ∀ x ∈ is, x ∉ cs) {m : Dict Py Py} (h : initialMapping S user is cs target = .ok m) :
    ∃ K, MappingOk K cs (m, unusedNames (S.listOf cs) m) ∧ (∀ x ∈ K, x ∈ is) ∧ (user = none → ∀ x ∈ is, x ∈ K) := by
  obtain ⟨l1, l2⟩ := hS.listOf is
  obtain ⟨l3, l4⟩ := hS.listOf cs
  cases user with
  | none =>
    simp only [initialMapping, hungarianMapping, bind_ok] at h
    obtain ⟨idx, h1, h2⟩ := h
    obtain ⟨m', e, hm⟩ := assign_ok (cn := cs) l1 l3 l4 (fun x hx => hd x ((l2 x).1 hx)) (hS.assign _ _ _ _ h1)
    rw [h2] at e
    cases e
    exact ⟨_, hm, fun x hx => (l2 x).1 hx, fun _ x hx => (l2 x).2 hx⟩
  | some ps =>
    simp only [initialMapping, Except.ok.injEq] at h
    subst h
    have hsub : (ps.filter fun p => decide (p.1 ∈ is) && decide (p.2 ∈ cs)).Sublist ps := List.filter_sublist
    have hm : ∀ p ∈ ps.filter (fun p => decide (p.1 ∈ is) && decide (p.2 ∈ cs)), p.1 ∈ is ∧ p.2 ∈ cs := by
      intro p hp
      simpa using (List.mem_filter.1 hp).2
    refine ⟨_, user_ok (is := is) l3 l4 (hu.1.sublist (hsub.map _)) (hu.2.sublist (hsub.map _)) hm, ?_, by simp⟩
    intro x hx
    obtain ⟨p, hp, rfl⟩ := List.mem_map.1 hx
    exact (hm p hp).1

theorem flatMatch_spec (hS : SearchLaws S) (hu : UserOk user)
    {m : Dict Py Py} (h : flatMatch S base user target = .ok m) :
    (m = [] ∧ (varsOf target.keys = [] ∨ varsOf base = [])) ∨
    ∃ K u, MappingOk K (varsOf base) (m, u) ∧ (∀ x ∈ K, x ∈ varsOf target.keys) ∧
      (∀ x ∈ varsOf target.keys, x ∉ varsOf base) ∧ (user = none → ∀ x ∈ varsOf target.keys, x ∈ K) := by
  simp only [flatMatch, bind_ok] at h
  obtain ⟨is, h1, cs, h2, h⟩ := h
  rw [componentNames_ok h1, componentNames_ok h2] at h
  change (if (varsOf target.keys).length = 0 ∨ (varsOf base).length = 0 then _ else _) = _ at h
  split at h
  · next he =>
    left
    simp only [pure_ok] at h
    simpa [h] using he
  · split at h
    · simp at h
    · next hd =>
      right
      have hd' : ∀ x ∈ varsOf target.keys, x ∉ varsOf base := fun x hx hc => hd ⟨x, hx, hc⟩
      simp only [bind_ok, pure_ok] at h
      obtain ⟨m0, h3, s, h4, rfl⟩ := h
      obtain ⟨K, h5, h6, h7⟩ := initialMapping_ok hS hu hd' h3
      exact ⟨K, s.2, h5.steps (fun x hx => hd' x (h6 x hx)) (hS.climb _ _ _ h4), h6, hd', h7⟩

theorem reverseMap_eq {m : Dict Py Py} (hn : Dict.Nodup m)
    (hi : ∀ x y v, m.get? x = some v → m.get? y = some v → x = y) :
    reverseMap m = m.map (fun p => (p.2, p.1)) ∧ Dict.Nodup (reverseMap m) ∧
    ∀ x v, (reverseMap m).get? v = some x ↔ m.get? x = some v := by
  have hn' : Dict.Nodup (m.map fun p => (p.2, p.1)) := by
    unfold Dict.Nodup Dict.keys
    rw [List.map_map]
    refine List.Nodup.map_on ?_ (List.Nodup.of_map _ hn)
    intro p hp q hq e
    simp only [Function.comp] at e
    have h1 := Dict.get?_of_mem hn (k := p.1) (v := p.2) hp
    have h2 := Dict.get?_of_mem hn (k := q.1) (v := q.2) hq
    rw [e] at h1
    exact Prod.ext (hi _ _ _ h1 h2) e
  have e0 : reverseMap m = m.map fun p => (p.2, p.1) := by rw [reverseMap, Dict.ofPairs_of_nodup _ hn']
  refine ⟨e0, e0 ▸ hn', fun x v => ?_⟩
  rw [e0, ← Dict.mem_iff_get? hn', ← Dict.mem_iff_get? hn, List.mem_map]
  constructor
  · rintro ⟨p, hp, e⟩
    cases e
    exact hp
  · intro hp
    exact ⟨_, hp, rfl⟩

/-- The mapping that `flat_match` finds can be undone on the variables of the target. -/
theorem flatMatch_back (hS : SearchLaws S) (hu : UserOk user)
    {m : Dict Py Py} (h : flatMatch S base user target = .ok m) :
    Dict.Nodup m ∧ (∀ x y v, m.get? x = some v → m.get? y = some v → x = y) ∧
    (∀ x w, m.get? x = some w → Variable x ∧ Variable w) ∧
    ∀ x ∈ varsOf target.keys, Variable (applyMap m x) ∧ applyMap (reverseMap m) (applyMap m x) = x ∧
      (applyMap m x = x ∨ applyMap m x ∈ varsOf base) := by
  rcases flatMatch_spec hS hu h with ⟨rfl, _⟩ | ⟨K, u, hm, hK, hd, _⟩
  · refine ⟨by simp, by simp, by simp, fun x hx => ⟨?_, ?_, ?_⟩⟩
    · simpa [applyMap] using varsOf_variable hx
    · simp [applyMap, reverseMap, Dict.ofPairs]
    · simp [applyMap]
  · obtain ⟨_, _, hr⟩ := reverseMap_eq hm.nodup hm.inj
    have hv : ∀ x w, m.get? x = some w → x ∈ varsOf target.keys := fun x w e =>
      hK x ((hm.dom x).1 (Dict.get?_isSome.1 (by simp [e])))
    refine ⟨hm.nodup, hm.inj, ?_, ?_⟩
    · intro x w e
      have h1 := varsOf_variable (hv x w e)
      refine ⟨h1, ?_⟩
      rcases hm.into x w e with rfl | hw
      · exact h1
      · exact varsOf_variable hw
    · intro x hx
      cases e : m.get? x with
      | none =>
        have e1 : applyMap m x = x := by simp [applyMap, e]
        rw [e1]
        refine ⟨varsOf_variable hx, ?_, .inl rfl⟩
        have : (reverseMap m).get? x = none := by
          cases e2 : (reverseMap m).get? x with
          | none => rfl
          | some y =>
            have h3 := (hr _ _).1 e2
            rcases hm.into _ _ h3 with rfl | hw
            · rw [e] at h3; simp at h3
            · exact absurd hw (hd x hx)
        simp [applyMap, this]
      | some w =>
        have e1 : applyMap m x = w := by simp [applyMap, e]
        rw [e1]
        have h3 := hm.into x w e
        refine ⟨?_, by simp [applyMap, (hr x w).2 e], h3⟩
        rcases h3 with rfl | hw
        · exact varsOf_variable hx
        · exact varsOf_variable hw

/-- What `transform` returns. -/
theorem renameFlat_match (hS : SearchLaws S) (hn : Dict.Nodup target) (hu : UserOk user) {m : Dict Py Py} (h : flatMatch S base user target = .ok m) :
    renameFlat target m = target.map (fun p => (renEl (applyMap m) p.1, p.2)) ∧
      Dict.Nodup (renameFlat target m) := by
  obtain ⟨_, _, h3, h4⟩ := flatMatch_back hS hu h
  refine renameFlat_eq (g := applyMap (reverseMap m)) (fun x w e => (h3 x w e).1) hn fun p hp x hx => ?_
  have := h4 x (mem_varsOf.2 ⟨p.1, List.mem_map_of_mem hp, hx⟩)
  exact ⟨this.1, this.2.1⟩

theorem renameFlat_undo (hS : SearchLaws S) (hn : Dict.Nodup target) (hu : UserOk user) {m : Dict Py Py} (h : flatMatch S base user target = .ok m)
    {o : PyInst} (ho : SameInst (renameFlat target m) o) :
    renameFlat o (reverseMap m) = o.map (fun p => (renEl (applyMap (reverseMap m)) p.1, p.2)) ∧
      Dict.Nodup (renameFlat o (reverseMap m)) := by
  obtain ⟨g1, g2, h3, h4⟩ := flatMatch_back hS hu h
  obtain ⟨e1, hn1⟩ := renameFlat_match hS hn hu h
  obtain ⟨_, _, hr⟩ := reverseMap_eq g1 g2
  obtain ⟨l', e, hlen, hsd⟩ := ho.1
  cases e
  refine renameFlat_eq (g := applyMap m) (fun x w e => (h3 w x ((hr w x).1 e)).2) (by exact ho.2.1) fun p hp x hx => ?_
  have hk : p.1 ∈ Dict.keys (renameFlat target m) :=
    (Py.same_keys hn1 (by exact ho.2.1) hlen hsd).mem_iff.2 (List.mem_map_of_mem hp)
  rw [e1] at hk
  obtain ⟨q, hq, e2⟩ := List.mem_map.1 hk
  obtain ⟨q, hq', rfl⟩ := List.mem_map.1 hq
  simp only at e2
  rw [← e2] at hx
  have hq2 : ∀ y ∈ varsEl q.1, y ∈ varsOf target.keys := fun y hy =>
    mem_varsOf.2 ⟨q.1, List.mem_map_of_mem hq', hy⟩
  obtain ⟨y, hy, rfl⟩ := (varsEl_renEl _ _ fun y hy => (h4 y (hq2 y hy)).1).1 hx
  have h5 := h4 y (hq2 y hy)
  rw [h5.2.1]
  exact ⟨varsOf_variable (hq2 y hy), rfl⟩

end

end CF
