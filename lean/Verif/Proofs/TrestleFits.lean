/-
Trestle: instances that pass the preprocessing and the check.
-/
import Verif.Proofs.Trestle
import Verif.Proofs.Sanitize

namespace CF

theorem fitInst_iff {l : List (Py × Py)} : FitInst l ↔ ∀ p ∈ l, FitAttr p.1 ∧ FitVal p.2 := by
  induction l with
  | nil => simp [FitInst]
  | cons p l ih => simp [FitInst, ih]

theorem visInst_iff {l : List (Py × Py)} : VisInst l ↔ ∃ p ∈ l, VisLeaf p.2 p.1 := by
  induction l with
  | nil => simp [VisInst]
  | cons p l ih => simp [VisInst, ih]

theorem fitAttrs_iff {l : List Py} : FitAttrs l ↔ ∀ x ∈ l, FitAttr x := by
  induction l with
  | nil => simp [FitAttrs]
  | cons p l ih => simp [FitAttrs, ih]

theorem FitAttr.index0 {a : Py} (h : FitAttr a) : ∃ x, a.index0 = .ok x := by
  cases a with
  | str s =>
    cases s with
    | nil => simp [FitAttr] at h
    | cons c s => exact ⟨_, rfl⟩
  | tup l =>
    cases l with
    | nil => simp [FitAttr] at h
    | cons c s => exact ⟨_, rfl⟩
  | _ => simp [FitAttr] at h

mutual
theorem FitAttr.hashable : ∀ {a : Py}, FitAttr a → a.hashable = true
  | .str _, _ => rfl
  | .tup _, h => FitAttrs.hashable h.2
  | .none, h | .bool _, h | .num _, h | .list _, h | .dict _, h | .other _ _ _, h => by simp [FitAttr] at h
theorem FitAttrs.hashable : ∀ {l : List Py}, FitAttrs l → Py.hashableL l = true
  | [], _ => rfl
  | x :: xs, h => by
    rw [Py.hashableL, FitAttr.hashable h.1, FitAttrs.hashable h.2]
    rfl
end

mutual
theorem FitAttr.checkRelEl : ∀ {a : Py}, FitAttr a → checkRelEl a = .ok ()
  | .str s, h => by
    obtain ⟨x, hx⟩ := h.index0
    simp [CF.checkRelEl, hx]
  | .tup [], h => by simp [FitAttr] at h
  | .tup (x :: xs), h => by
    rw [CF.checkRelEl, FitAttr.checkRelEl h.2.1, ok_bind, FitAttrs.checkRel h.2.2]
  | .none, h | .bool _, h | .num _, h | .list _, h | .dict _, h | .other _ _ _, h => by simp [FitAttr] at h
theorem FitAttrs.checkRel : ∀ {l : List Py}, FitAttrs l → checkRel l = .ok ()
  | [], _ => rfl
  | x :: xs, h => by
    rw [CF.checkRel, FitAttr.checkRelEl h.1, ok_bind, FitAttrs.checkRel h.2]
end

theorem FitAttr.check {a : Py} (h : FitAttr a) : trestleAttr a = .ok () := by
  obtain ⟨x, hx⟩ := h.index0
  unfold trestleAttr
  rw [h.hashable, hx]
  cases a with
  | tup l => exact FitAttrs.checkRel h.2
  | _ => rfl

mutual
theorem FitAttr.relEl : ∀ {a : Py}, FitAttr a → relElOk a
  | .str _, _ => trivial
  | .tup _, h => FitAttrs.relEls h.2
  | .none, h | .bool _, h | .num _, h | .list _, h | .dict _, h | .other _ _ _, h => by simp [FitAttr] at h
theorem FitAttrs.relEls : ∀ {l : List Py}, FitAttrs l → relElsOk l
  | [], _ => trivial
  | _ :: _, h => ⟨FitAttr.relEl h.1, FitAttrs.relEls h.2⟩
end

mutual
theorem FitVal.rels : ∀ {v : Py}, FitVal v → relsOkV v
  | .dict l, h => FitInst.rels (l := l) h
  | .list l, h => by simp [FitVal, Py.hashable] at h
  | .tup _, _ | .str _, _ | .none, _ | .bool _, _ | .num _, _ | .other _ _ _, _ => trivial
theorem FitInst.rels : ∀ {l : List (Py × Py)}, FitInst l → relsOkD l
  | [], _ => trivial
  | (a, v) :: l, h => by
    refine ⟨⟨?_, FitVal.rels h.1.2⟩, FitInst.rels h.2⟩
    have := h.1.1.relEl
    cases a <;> first | trivial | exact this
end

/-! ### Renaming -/

theorem FitAttr.variable {a : Py} (h : Variable a) : FitAttr a ∧ hid3 a = false := by
  obtain ⟨s, rfl⟩ := h
  simp [FitAttr, hid3, Py.index0]

theorem renEl_str (f : Py → Py) (s : PStr) :
    renEl f (.str s) = if Variable (.str s) then f (.str s) else .str s := by
  rw [renEl]
  simp

mutual
theorem FitAttr.ren {f : Py → Py} : ∀ {a : Py}, (∀ x ∈ varsEl a, Variable (f x)) → FitAttr a → FitAttr (renEl f a)
  | .str s, hf, h => by
    rw [renEl_str]
    split
    · rename_i hv
      exact (FitAttr.variable (hf _ (by simp [varsEl, hv]))).1
    · exact h
  | .tup l, hf, h => by
    refine ⟨?_, FitAttrs.ren hf h.2⟩
    cases l with
    | nil => exact absurd rfl h.1
    | cons x xs => simp [renEls]
  | .none, _, h | .bool _, _, h | .num _, _, h | .list _, _, h | .dict _, _, h | .other _ _ _, _, h => by
    simp [FitAttr] at h
theorem FitAttrs.ren {f : Py → Py} : ∀ {l : List Py}, (∀ x ∈ varsEls l, Variable (f x)) → FitAttrs l →
    FitAttrs (renEls f l)
  | [], _, _ => trivial
  | x :: xs, hf, h => by
    simp only [varsEls, List.mem_append] at hf
    exact ⟨FitAttr.ren (fun y hy => hf y (.inl hy)) h.1, FitAttrs.ren (fun y hy => hf y (.inr hy)) h.2⟩
end

theorem renEl_us {f : Py → Py} {a : Py} (hf : ∀ x ∈ varsEl a, Variable (f x)) :
    renEl f a = .str c!"_" ↔ a = .str c!"_" := by
  cases a with
  | str s =>
    rw [renEl_str]
    split
    · rename_i hv
      obtain ⟨s', e⟩ := hf (.str s) (by simp [varsEl, hv])
      obtain ⟨s'', e'⟩ := hv
      rw [e, e']
      simp
    · rfl
  | _ => simp [renEl, Variable]

theorem hid3_ren {f : Py → Py} {a : Py} (hf : ∀ x ∈ varsEl a, Variable (f x)) (h : FitAttr a) :
    hid3 (renEl f a) = hid3 a := by
  cases a with
  | str s =>
    rw [renEl_str]
    split
    · rename_i hv
      rw [(FitAttr.variable (hf _ (by simp [varsEl, hv]))).2, (FitAttr.variable hv).2]
    · rfl
  | tup l =>
    cases l with
    | nil => simp [FitAttr] at h
    | cons x xs =>
      simp only [varsEl, varsEls, List.mem_append] at hf
      have := renEl_us (a := x) fun y hy => hf y (.inl hy)
      simp only [renEl, renEls, hid3, Py.index0, this]
  | _ => simp [FitAttr] at h

mutual
theorem FitVal.ren {f : Py → Py} : ∀ {v : Py}, (∀ x ∈ varsV v, Variable (f x)) → FitVal v → FitVal (renV f v)
  | .dict l, hf, h => FitInst.ren (l := l) hf h
  | .list l, _, h => by simp [FitVal, Py.hashable] at h
  | .tup _, _, h | .str _, _, h | .none, _, h | .bool _, _, h | .num _, _, h | .other _ _ _, _, h => h
theorem FitInst.ren {f : Py → Py} : ∀ {l : List (Py × Py)}, (∀ x ∈ varsD l, Variable (f x)) → FitInst l →
    FitInst (renD f l)
  | [], _, _ => trivial
  | (a, v) :: l, hf, h => by
    simp only [varsD, List.mem_append] at hf
    exact ⟨⟨h.1.1.ren fun x hx => hf x (.inl (.inl hx)), FitVal.ren (fun x hx => hf x (.inl (.inr hx))) h.1.2⟩,
      FitInst.ren (fun x hx => hf x (.inr hx)) h.2⟩
end

mutual
theorem VisLeaf.ren {f : Py → Py} : ∀ {v a : Py}, (∀ x ∈ varsEl a, Variable (f x)) →
    (∀ x ∈ varsV v, Variable (f x)) → FitAttr a → FitVal v → VisLeaf v a → VisLeaf (renV f v) (renEl f a)
  | .dict l, _, _, hf, _, hv, h => VisInst.ren (l := l) hf hv h
  | .list l, _, _, _, _, hv, h => by simp [FitVal, Py.hashable] at hv
  | .tup _, _, ha, _, h1, _, h | .str _, _, ha, _, h1, _, h | .none, _, ha, _, h1, _, h
  | .bool _, _, ha, _, h1, _, h | .num _, _, ha, _, h1, _, h | .other _ _ _, _, ha, _, h1, _, h => by
    simpa only [renV, VisLeaf, hid3_ren ha h1] using h
theorem VisInst.ren {f : Py → Py} : ∀ {l : List (Py × Py)}, (∀ x ∈ varsD l, Variable (f x)) → FitInst l →
    VisInst l → VisInst (renD f l)
  | (a, v) :: l, hf, hv, h => by
    simp only [varsD, List.mem_append] at hf
    rcases h with h | h
    · exact .inl (VisLeaf.ren (fun x hx => hf x (.inl (.inl hx))) (fun x hx => hf x (.inl (.inr hx))) hv.1.1 hv.1.2 h)
    · exact .inr (VisInst.ren (fun x hx => hf x (.inr hx)) hv.2 h)
end

/-! ### Equal instances -/

mutual
theorem hashable_same : ∀ {v w : Py}, Py.same v w → v.hashable = true → w.hashable = true
  | .dict _, _, _, h => by simp [Py.hashable] at h
  | .list _, _, _, h => by simp [Py.hashable] at h
  | .tup l, _, hs, h => by
    obtain ⟨l', rfl, h1⟩ := hs
    exact hashableL_same (l := l) h1 h
  | .none, _, hs, h | .bool _, _, hs, h | .num _, _, hs, h | .str _, _, hs, h | .other _ _ _, _, hs, h => by
    rw [Py.same] at hs
    subst hs
    exact h
theorem hashableL_same : ∀ {l l' : List Py}, Py.sameL l l' → Py.hashableL l = true → Py.hashableL l' = true
  | [], _, hs, h => by rw [Py.sameL] at hs; subst hs; exact h
  | x :: xs, _, hs, h => by
    obtain ⟨y, ys, rfl, h1, h2⟩ := hs
    simp only [Py.hashableL, Bool.and_eq_true] at h ⊢
    exact ⟨hashable_same h1 h.1, hashableL_same h2 h.2⟩
end

mutual
theorem FitVal.same : ∀ {v w : Py}, v.wf → w.wf → Py.same v w → FitVal v → FitVal w
  | .dict l, w, h, h', hs, hv => by
    obtain ⟨l', rfl, h1, h2⟩ := hs
    refine fitInst_iff.2 fun p hp => ?_
    obtain ⟨v, hm, hsv⟩ := Py.same_mem h.1 h'.1 h1 h2 (show (p.1, p.2) ∈ l' from hp)
    exact ⟨(fitInst_iff.1 hv _ hm).1, FitInst.same h.2 hv hm (Py.wfD_iff.1 h'.2 p hp) hsv⟩
  | .list l, _, _, _, _, h => by simp [FitVal, Py.hashable] at h
  | .tup l, w, _, _, hs, h => by
    have := hashable_same hs h
    obtain ⟨l', rfl, _⟩ := hs
    exact this
  | .none, _, _, _, hs, h | .bool _, _, _, _, hs, h | .num _, _, _, _, hs, h | .str _, _, _, _, hs, h
  | .other _ _ _, _, _, _, hs, h => by
    rw [Py.same] at hs
    subst hs
    exact h
theorem FitInst.same : ∀ {l : List (Py × Py)}, Py.wfD l → FitInst l → ∀ {k v : Py}, (k, v) ∈ l → ∀ {w : Py}, w.wf →
    Py.same v w → FitVal w
  | (k', v') :: l, h, hv, k, v, hm, w, hw, hs => by
    rcases List.mem_cons.1 hm with e | hm
    · obtain ⟨rfl, rfl⟩ := Prod.mk.inj e
      exact FitVal.same h.1 hw hs hv.1.2
    · exact FitInst.same h.2 hv.2 hm hw hs
end

mutual
theorem VisLeaf.same : ∀ {v w a : Py}, Py.same v w → VisLeaf v a → VisLeaf w a
  | .dict l, w, a, hs, hv => by
    obtain ⟨l', rfl, h1, h2⟩ := hs
    exact VisInst.same h2 hv
  | .list l, _, _, hs, h => by obtain ⟨l', rfl, _⟩ := hs; exact h
  | .tup l, w, _, hs, h => by obtain ⟨l', rfl, _⟩ := hs; exact h
  | .none, _, _, hs, h | .bool _, _, _, hs, h | .num _, _, _, hs, h | .str _, _, _, hs, h
  | .other _ _ _, _, _, hs, h => by
    rw [Py.same] at hs
    subst hs
    exact h
theorem VisInst.same : ∀ {l l' : List (Py × Py)}, Py.sameD l l' → VisInst l → VisInst l'
  | (k, v) :: l, l', h, hv => by
    rcases hv with hv | hv
    · obtain ⟨v', h1, h2⟩ := h.1
      exact visInst_iff.2 ⟨_, Dict.mem_of_get? h1, VisLeaf.same h2 hv⟩
    · exact VisInst.same h.2 hv
end

/-! ### Flat instances -/

/-- The attributes can be fitted and the values are hashable. -/
def FlatFit (d : PyInst) : Prop := ∀ p ∈ d, FitAttr p.1 ∧ p.2.hashable = true

/-- Some attribute is visible. -/
def FlatVis (d : PyInst) : Prop := ∃ k ∈ d.keys, hid3 k = false

theorem FlatFit.check {d : PyInst} (h : FlatFit d) : trestleCheck d = .ok () := by
  rw [trestleCheck_iff]
  intro p hp
  obtain ⟨h1, h2⟩ := h p hp
  refine ⟨h1.check, ?_⟩
  cases e : p.2 with
  | dict l => rw [e] at h2; simp [Py.hashable] at h2
  | _ => rw [e] at h2; simp [trestleVal, h2]

theorem mem_of_mem_set : ∀ {d : PyInst} {k v : Py} {p : Py × Py}, p ∈ Dict.set d k v → p ∈ d ∨ p = (k, v)
  | [], k, v, p, h => by simpa [Dict.set] using h
  | (k', v') :: d, k, v, p, h => by
    rw [Dict.set] at h
    split at h
    · rename_i e
      subst e
      rcases List.mem_cons.1 h with h | h
      · exact .inr h
      · exact .inl (by simp [h])
    · rcases List.mem_cons.1 h with h | h
      · exact .inl (by simp [h])
      · exact (mem_of_mem_set h).imp_left fun h => by simp [h]

theorem FlatFit.set {d : PyInst} (h : FlatFit d) {k v : Py} (hk : FitAttr k) (hv : v.hashable = true) :
    FlatFit (d.set k v) := by
  intro p hp
  rcases mem_of_mem_set hp with h' | rfl
  · exact h p h'
  · exact ⟨hk, hv⟩

theorem FlatFit.setAll {d e : PyInst} (h : FlatFit d) (he : FlatFit e) : FlatFit (setAll d e) := by
  unfold CF.setAll
  induction e generalizing d with
  | nil => exact h
  | cons p e ih =>
    exact ih (h.set (he p (by simp)).1 (he p (by simp)).2) fun q hq => he q (by simp [hq])

theorem FlatVis.set {d : PyInst} (h : FlatVis d) (k v : Py) : FlatVis (d.set k v) :=
  let ⟨a, h1, h2⟩ := h
  ⟨a, by rw [Dict.mem_keys_set]; first | exact .inr h1 | exact .inl h1, h2⟩

theorem FlatVis.set_self {d : PyInst} {k : Py} (v : Py) (h : hid3 k = false) : FlatVis (d.set k v) :=
  ⟨k, by rw [Dict.mem_keys_set]; first | exact .inr rfl | exact .inl rfl, h⟩

theorem FlatVis.setAll_left {d : PyInst} (h : FlatVis d) (e : PyInst) : FlatVis (setAll d e) :=
  let ⟨a, h1, h2⟩ := h
  ⟨a, keys_setAll.2 (.inl h1), h2⟩

theorem FlatVis.setAll_right {e : PyInst} (d : PyInst) (h : FlatVis e) : FlatVis (setAll d e) :=
  let ⟨a, h1, h2⟩ := h
  ⟨a, keys_setAll.2 (.inr h1), h2⟩

/-! ### The flattener -/

theorem flatName_fit {o : Option Py} {a : Py} (ho : ∀ x, o = some x → FitAttr x) (ha : FitAttr a) :
    ∃ b, flatName o a = .ok b ∧ FitAttr b ∧ (hid3 a = false → hid3 b = false) := by
  cases o with
  | none => exact ⟨a, rfl, ha, id⟩
  | some x =>
    obtain ⟨y, hy⟩ := ha.index0
    have hx := ho x rfl
    simp only [flatName, hy, ok_bind]
    split
    · rename_i e
      refine ⟨_, rfl, ⟨by simp, by simp [FitAttr], ⟨by simp, ha, hx, trivial⟩, trivial⟩, ?_⟩
      intro h
      rw [hid3, hy, e] at h
      simp at h
    · rename_i e
      refine ⟨_, rfl, ⟨by simp, ha, hx, trivial⟩, fun h => ?_⟩
      simp only [hid3, Py.index0, decide_eq_false_iff_not]
      rintro rfl
      simp [Py.index0] at hy
      exact e hy.symm

mutual
theorem flattenV_fit {a : Py} : ∀ (v : Py) {temp : PyInst}, FitAttr a → FitVal v → FlatFit temp →
    ∃ t, flattenV a v temp = .ok t ∧ FlatFit t ∧ (FlatVis temp ∨ VisLeaf v a → FlatVis t)
  | .dict l, temp, ha, hv, ht => by
    obtain ⟨t, h1, h2, h3⟩ := flattenD_fit (o := some a) l (temp := []) (by rintro x ⟨⟩; exact ha) hv (by simp [FlatFit])
    refine ⟨setAll temp t, by rw [flattenV, h1, ok_bind]; rfl, ht.setAll h2, ?_⟩
    rintro (h | h)
    · exact h.setAll_left t
    · exact FlatVis.setAll_right temp (h3 (.inr h))
  | .list l, _, _, hv, _ => by simp [FitVal, Py.hashable] at hv
  | .tup _, temp, ha, hv, ht | .none, temp, ha, hv, ht | .bool _, temp, ha, hv, ht | .num _, temp, ha, hv, ht
  | .str _, temp, ha, hv, ht | .other _ _ _, temp, ha, hv, ht =>
    ⟨_, rfl, ht.set ha hv, fun h => h.elim (fun h => h.set _ _) fun h => FlatVis.set_self _ h⟩
theorem flattenD_fit {o : Option Py} : ∀ (l : List (Py × Py)) {temp : PyInst}, (∀ x, o = some x → FitAttr x) →
    FitInst l → FlatFit temp →
    ∃ t, flattenD o l temp = .ok t ∧ FlatFit t ∧ (FlatVis temp ∨ VisInst l → FlatVis t)
  | [], temp, _, _, ht => ⟨temp, rfl, ht, fun h => h.elim id fun h => h.elim⟩
  | (a, v) :: l, temp, ho, hl, ht => by
    obtain ⟨b, h1, h2, h3⟩ := flatName_fit ho hl.1.1
    obtain ⟨t, h4, h5, h6⟩ := flattenV_fit v h2 hl.1.2 ht
    obtain ⟨t', h7, h8, h9⟩ := flattenD_fit l ho hl.2 h5
    refine ⟨t', by rw [flattenD, h1, ok_bind, h4, ok_bind, h7], h8, ?_⟩
    rintro (h | h | h)
    · exact h9 (.inl (h6 (.inl h)))
    · refine h9 (.inl (h6 (.inr ?_)))
      clear h4 h6
      cases v with
      | dict l => exact h
      | _ => exact h3 h
    · exact h9 (.inr h)
end

theorem flatten_fit {i : PyInst} (h : FitInst i) :
    ∃ t, flatten i = .ok t ∧ FlatFit t ∧ (VisInst i → FlatVis t) :=
  let ⟨t, h1, h2, h3⟩ := flattenD_fit (o := none) i (temp := []) (by simp) h (by simp [FlatFit])
  ⟨t, h1, h2, fun h => h3 (.inr h)⟩

/-! ### Sub-components -/

mutual
theorem extractAttr_fit : ∀ {a : Py}, FitAttr a → FitAttr (extractAttr a)
  | .tup [u, w], h => by
    rw [extractAttr]
    split
    · exact h.2.1
    · exact ⟨by simp, h.2.1, extractAttr_fit h.2.2.1, trivial⟩
  | .tup [], h => by simp [FitAttr] at h
  | .tup [u], h => ⟨by simp [extractAttrL], extractAttrL_fit (l := [u]) h.2⟩
  | .tup (u :: v :: w :: l), h => ⟨by simp [extractAttrL], extractAttrL_fit (l := u :: v :: w :: l) h.2⟩
  | .str _, h => h
  | .none, h | .bool _, h | .num _, h | .list _, h | .dict _, h | .other _ _ _, h => by simp [FitAttr] at h
theorem extractAttrL_fit : ∀ {l : List Py}, FitAttrs l → FitAttrs (extractAttrL l)
  | [], _ => trivial
  | _ :: _, h => ⟨extractAttr_fit h.1, extractAttrL_fit h.2⟩
end

theorem extractAttr_us {a : Py} : extractAttr a = .str c!"_" → a = .str c!"_" := by
  intro h
  match a, h with
  | .tup [u, w], h =>
    rw [extractAttr] at h
    split at h
    · rename_i hu
      obtain ⟨s, rfl⟩ := isVarPy_iff.1 hu
      simp at h
    · simp at h
  | .tup [], h => simp [extractAttr] at h
  | .tup [u], h => simp [extractAttr] at h
  | .tup (u :: v :: w :: l), h => simp [extractAttr] at h
  | .str s, h => simpa [extractAttr] using h
  | .none, h | .bool _, h | .num _, h | .list _, h | .dict _, h | .other _ _ _, h => simp [extractAttr] at h

theorem hid3_extract {a : Py} (hv : hid3 a = false) : hid3 (extractAttr a) = false := by
  match a, hv with
  | .tup [u, w], hv =>
    rw [extractAttr]
    split
    · rename_i hu
      exact (FitAttr.variable (isVarPy_iff.1 hu)).2
    · exact hv
  | .tup [], hv => exact hv
  | .tup [u], hv =>
    simp only [hid3, Py.index0, decide_eq_false_iff_not] at hv
    simp only [extractAttr, extractAttrL, hid3, Py.index0, decide_eq_false_iff_not]
    exact fun e => hv (extractAttr_us e)
  | .tup (u :: v :: w :: l), hv =>
    simp only [hid3, Py.index0, decide_eq_false_iff_not] at hv
    simp only [extractAttr, extractAttrL, hid3, Py.index0, decide_eq_false_iff_not]
    exact fun e => hv (extractAttr_us e)
  | .str s, hv => exact hv
  | .none, h | .bool _, h | .num _, h | .list _, h | .dict _, h | .other _ _ _, h => exact h

theorem pushComp_fit {last : Option Py} {inner : Py} {rels : List Py}
    (hl : ∀ y, last = some y → FitAttr y) (hi : last ≠ none → FitAttr inner)
    (hr : ∀ r ∈ rels, FitAttr r) : ∀ r ∈ pushComp last inner rels, FitAttr r := by
  cases last with
  | none => exact hr
  | some y =>
    intro r hm
    simp only [pushComp, List.mem_append, List.mem_singleton] at hm
    rcases hm with hm | rfl
    · exact hr r hm
    · exact ⟨by simp, by simp [FitAttr], hi (by simp), hl y rfl, trivial⟩

theorem compLoop_fit {a : Py} {last : Option Py} {inner : Py} {rels : List Py} (ha : FitAttr a)
    (hl : ∀ y, last = some y → FitAttr y) (hi : last ≠ none → FitAttr inner)
    (hr : ∀ r ∈ rels, FitAttr r) : ∃ out, compLoop a last inner rels = .ok out ∧ ∀ r ∈ out, FitAttr r := by
  fun_induction compLoop a last inner rels with
  | case1 u w last inner rels hu ih =>
    exact ih ha.2.2.1 (by rintro y ⟨⟩; exact ha.2.1) (fun _ => extractAttr_fit ha.2.2.1) (pushComp_fit hl hi hr)
  | case2 u w last inner rels hu ih => exact ih ha.2.2.1 hl hi hr
  | case3 c c' last inner rels s' hc =>
    refine ⟨_, rfl, ?_⟩
    split
    · exact pushComp_fit (by rintro y ⟨⟩; simp [FitAttr]) (by simp [s', FitAttr]) (pushComp_fit hl hi hr)
    · exact pushComp_fit hl hi hr
  | case4 c c' last inner rels hc =>
    refine ⟨_, rfl, ?_⟩
    split
    · exact pushComp_fit hl hi hr
    · exact hr
  | case5 =>
    refine ⟨_, rfl, ?_⟩
    split
    · exact pushComp_fit hl hi hr
    · exact hr
  | case6 => exact ⟨_, rfl, hr⟩
  | case7 a last inner rels h1 h2 h3 h4 =>
    cases a with
    | str s => exact absurd rfl (h3 s)
    | tup l => exact absurd rfl (h4 l)
    | _ => simp [FitAttr] at ha

mutual
theorem hasComponents_fit : ∀ {a : Py}, FitAttr a → ∃ out, hasComponents a = .ok out ∧ ∀ r ∈ out, FitAttr r
  | .tup [u, w], h => by
    rw [hasComponents]
    exact compLoop_fit h (by simp) (by simp) (by simp)
  | .tup [], h => by simp [FitAttr] at h
  | .tup [u], h => by
    rw [hasComponents]
    · exact hasComponentsL_fit (l := [u]) h.2
    · simp
  | .tup (u :: v :: w :: l), h => by
    rw [hasComponents]
    · exact hasComponentsL_fit (l := u :: v :: w :: l) h.2
    · simp
  | .str _, _ => ⟨[], rfl, by simp⟩
  | .none, h | .bool _, h | .num _, h | .list _, h | .dict _, h | .other _ _ _, h => by simp [FitAttr] at h
theorem hasComponentsL_fit : ∀ {l : List Py}, FitAttrs l → ∃ out, hasComponentsL l = .ok out ∧ ∀ r ∈ out, FitAttr r
  | [], _ => ⟨[], rfl, by simp⟩
  | x :: xs, h => by
    obtain ⟨a, h1, h2⟩ := hasComponents_fit h.1
    obtain ⟨b, h3, h4⟩ := hasComponentsL_fit h.2
    refine ⟨a ++ b, by rw [hasComponentsL, h1, ok_bind, h3, ok_bind]; rfl, ?_⟩
    intro r hr
    exact (List.mem_append.1 hr).elim (h2 r) (h4 r)
end

theorem extractD_fit : ∀ (l : List (Py × Py)) {new : PyInst}, FlatFit l → FlatFit new →
    ∃ t, extractD l new = .ok t ∧ FlatFit t ∧ (FlatVis new ∨ FlatVis l → FlatVis t)
  | [], new, _, hn => ⟨new, rfl, hn, fun h => h.elim id fun h => by simp [FlatVis, Dict.keys] at h⟩
  | (a, v) :: l, new, hl, hn => by
    obtain ⟨ha, hv⟩ := hl (a, v) (by simp)
    obtain ⟨rels, h1, h2⟩ := hasComponents_fit ha
    have h3 : FlatFit (setAll new (rels.map fun r => (r, .bool true))) := by
      refine hn.setAll fun p hp => ?_
      obtain ⟨r, hr, rfl⟩ := List.mem_map.1 hp
      exact ⟨h2 r hr, rfl⟩
    obtain ⟨t, h4, h5, h6⟩ := extractD_fit l (fun p hp => hl p (by simp [hp])) (h3.set (extractAttr_fit ha) hv)
    refine ⟨t, by rw [extractD, h1, ok_bind, h4], h5, ?_⟩
    rintro (h | ⟨k, hk, h⟩)
    · exact h6 (.inl ((h.setAll_left _).set _ _))
    · simp only [Dict.keys_cons, List.mem_cons] at hk
      rcases hk with rfl | hk
      · exact h6 (.inl (FlatVis.set_self _ (hid3_extract h)))
      · exact h6 (.inr ⟨k, hk, h⟩)

/-! ### The name standardizer -/

theorem standardize_fit {cfg : StdCfg} (hc : NamesOk cfg) {i : PyInst} (hw : Py.wf (.dict i)) (hi : FitInst i)
    (s : ℕ × Option (Dict Py Py)) :
    ∃ o s', (nameStandardizer cfg).transform i s = (.ok o, s') ∧ FitInst o ∧ (VisInst i → VisInst o) := by
  obtain ⟨o, g', rm, f, h1, h2, h3, h4, h5, _⟩ := transform_spec hc hw hi.rels s.1 s.2
  have hf : InjOn f (· ∈ varsD i) := by
    refine ⟨fun x y hx hy => h4 x hx y hy, fun x hx => ?_⟩
    obtain ⟨n, _, _, e⟩ := h3 x hx
    rw [e, ← isVarPy_iff]
    exact hc.var n
  have hwr : Py.wf (.dict (renD f i)) := wf_renV hf (.dict i) hw fun _ h => h
  have hv : ∀ x ∈ varsD i, Variable (f x) := hf.var
  refine ⟨o, _, h1, ?_, fun h => ?_⟩
  · exact FitVal.same hwr h5.2 h5.1 (hi.ren hv)
  · exact VisLeaf.same (a := .none) h5.1 (h.ren hv hi)

theorem before_fit {c : TrestleCfg} (hc : c.Ok) {i : PyInst} (hw : Py.wf (.dict i)) (hi : FitInst i) (n : ℕ) :
    ∃ t s, beforeMapping c n i = (.ok t, s) ∧ FlatFit t ∧ (VisInst i → FlatVis t) := by
  obtain ⟨o1, s1, h1, h2, h3⟩ := standardize_fit (names_std hc) hw hi (n, none)
  obtain ⟨o2, h4, h5, h6⟩ := flatten_fit h2
  obtain ⟨o3, h7, h8, h9⟩ := extractD_fit o2 (new := []) h5 (by simp [FlatFit])
  refine ⟨o3, (beforeMapping c n i).2, Prod.ext ?_ rfl, h8, fun h => h9 (.inr (h6 (h3 h)))⟩
  · show (pipeTransform _ i _).1 = _
    rw [pipeTransform, SM.bind_def]
    simp only [callAt, h1, pipeTransform, SM.bind_def, flattener, stateless, SM.lift, h4, subComponent,
      extractSub, h7]
    rfl

/-! ### The structure mapper -/

mutual
theorem componentsE_of_rel : ∀ {a : Py}, relElOk a → ∃ x, componentsE a = .ok x
  | .tup l, h => componentsL_of_rel (l := l) h
  | .str _, _ => ⟨_, rfl⟩
  | .none, h | .bool _, h | .num _, h | .list _, h | .dict _, h | .other _ _ _, h => by simp [relElOk] at h
theorem componentsL_of_rel : ∀ {l : List Py}, relElsOk l → ∃ x, componentsL l = .ok x
  | [], _ => ⟨_, rfl⟩
  | x :: xs, h => by
    obtain ⟨a, h1⟩ := componentsE_of_rel h.1
    obtain ⟨b, h2⟩ := componentsL_of_rel h.2
    exact ⟨a ++ b, by rw [componentsL, h1, ok_bind, h2, ok_bind]; rfl⟩
end

mutual
theorem relElOk_ren {f : Py → Py} : ∀ {a : Py}, (∀ x ∈ varsEl a, Variable (f x)) → relElOk a → relElOk (renEl f a)
  | .str s, hf, h => by
    rw [renEl_str]
    split
    · rename_i hv
      exact (FitAttr.variable (hf _ (by simp [varsEl, hv]))).1.relEl
    · exact h
  | .tup l, hf, h => relElsOk_ren (l := l) hf h
  | .none, _, h | .bool _, _, h | .num _, _, h | .list _, _, h | .dict _, _, h | .other _ _ _, _, h => by
    simp [relElOk] at h
theorem relElsOk_ren {f : Py → Py} : ∀ {l : List Py}, (∀ x ∈ varsEls l, Variable (f x)) → relElsOk l →
    relElsOk (renEls f l)
  | [], _, _ => trivial
  | x :: xs, hf, h => by
    simp only [varsEls, List.mem_append] at hf
    exact ⟨relElOk_ren (fun y hy => hf y (.inl hy)) h.1, relElsOk_ren (fun y hy => hf y (.inr hy)) h.2⟩
end

theorem components_variable {a : Py} (h : Variable a) : ∃ x, components a = .ok x := by
  obtain ⟨s, rfl⟩ := h
  exact ⟨_, rfl⟩

theorem components_ren {f : Py → Py} {a : Py} (hf : ∀ x ∈ varsEl a, Variable (f x))
    (h : ∃ x, components a = .ok x) : ∃ x, components (renEl f a) = .ok x := by
  obtain ⟨x, h⟩ := h
  cases a with
  | tup l => exact componentsL_of_rel (relElsOk_ren (l := l) hf (componentsL_relEls h))
  | str s =>
    rw [renEl_str]
    split
    · rename_i hv
      exact components_variable (hf _ (by simp [varsEl, hv]))
    · exact ⟨x, h⟩
  | _ => exact ⟨x, by simpa [renEl, Variable] using h⟩

theorem components_fit {a : Py} (h : FitAttr a) : ∃ x, components a = .ok x := by
  cases a with
  | tup l => exact componentsL_of_rel h.2.relEls
  | str s =>
    obtain ⟨x, hx⟩ := h.index0
    exact ⟨_, by simp only [components, hx, ok_bind]; rfl⟩
  | _ => simp [FitAttr] at h

theorem componentNames_iff {l : List Py} :
    (∃ xs, componentNames l = .ok xs) ↔ ∀ a ∈ l, ∃ x, components a = .ok x := by
  induction l with
  | nil => simp [componentNames]
  | cons a l ih =>
    simp only [List.mem_cons, forall_eq_or_imp, ← ih]
    constructor
    · rintro ⟨xs, h⟩
      rw [componentNames] at h
      obtain ⟨x, h1, h⟩ := bind_ok.1 h
      obtain ⟨y, h2, h⟩ := bind_ok.1 h
      exact ⟨⟨x, h1⟩, ⟨y, h2⟩⟩
    · rintro ⟨⟨x, h1⟩, ⟨y, h2⟩⟩
      exact ⟨x ++ y, by rw [componentNames, h1, ok_bind, h2, ok_bind]; rfl⟩

/-- The variables of the attributes of what the preprocessing returns can be collected. -/
theorem prep_components {c : TrestleCfg} (hc : c.Ok) {S : Search} (hS : SearchLaws S) {st : TState}
    {i temp : PyInst} (hw : Py.wf (.dict i)) (h : (trestlePrep c S st i).1 = .ok temp) :
    ∀ k ∈ Dict.keys temp, ∃ x, components k = .ok x := by
  obtain ⟨t, s, h1, h2, h3⟩ := prep_split h
  obtain ⟨v1, v2, v3⟩ := before_vars hc hw h1
  obtain ⟨f, e, n1, n2, -⟩ := C54_renames hS v2 (by trivial)
    (show (structureMapper (γ := ℕ) S st.rootAttrs none).transform t (s.1, s.2 3) = (.ok temp, _) from
      Prod.ext h2 rfl)
  have hcn : ∃ xs, componentNames t.keys = .ok xs := by
    simp only [structureMapper] at h2
    split at h2
    · rename_i hm
      unfold flatMatch at hm
      obtain ⟨is, hi, -⟩ := bind_ok.1 hm
      exact ⟨is, hi⟩
    · simp at h2
  rw [componentNames_iff] at hcn
  intro k hk
  rw [e] at hk
  simp only [Dict.keys, List.map_map, List.mem_map, Function.comp_apply] at hk
  obtain ⟨p, hp, rfl⟩ := hk
  have hpk : p.1 ∈ Dict.keys t := List.mem_map.2 ⟨p, hp, rfl⟩
  exact components_ren (fun y hy => (n2 y (mem_varsOf.2 ⟨_, hpk, hy⟩)).1) (hcn _ hpk)

theorem runs_components {c : TrestleCfg} (hc : c.Ok) {st : TState} {hist : List PyInst} (h : TrestleRuns c st hist) :
    ∀ temp ∈ hist, ∀ k ∈ Dict.keys temp, ∃ x, components k = .ok x := by
  induction h with
  | clear st => simp
  | other _ _ ih => exact ih
  | ifit _ hS hw hp _ ih =>
    intro t ht
    rcases List.mem_append.1 ht with ht | ht
    · exact ih t ht
    · rw [List.mem_singleton] at ht
      subst ht
      exact prep_components hc hS hw hp
  | rejected _ _ _ _ ih => exact ih
  | categorize _ _ _ ih => exact ih
  | infer _ _ _ _ ih => exact ih

theorem TrestleRuns.any {c : TrestleCfg} {st : TState} {hist : List PyInst} (h : TrestleRuns c st hist) :
    TrestleAny c st := by
  induction h with
  | clear st => exact .clear st
  | other _ hu ih => exact .other ih hu
  | @ifit st st' hist S i temp a _ hS hw _ he ih =>
    have : TrestleAny c (trestleIfit c S i st).2 := .ifit ih hS hw
    rw [he] at this
    exact this
  | rejected _ hS hw _ ih => exact .ifit ih hS hw
  | categorize _ hS hw ih => exact .categorize ih hS hw
  | infer _ hS hw hN ih => exact .infer ih hS hw hN

end CF
