/-
C73: names in attributes, and attributes that match.
-/
import Verif.Model.Match
import Verif.Spec.Match
import Verif.Proofs.NoRaise

namespace CF

/-! ### `contains_component` -/

mutual
theorem containsComponent_iff (c : Py) : ∀ a, containsComponent c a = true ↔ PartIn c a
  | .tup l => by
    rw [containsComponent, Bool.or_eq_true, containsAny_iff c l, decide_eq_true_iff]
    constructor
    · rintro (⟨x, hx, h⟩ | rfl)
      · exact .el hx h
      · exact .self
    · intro h
      cases h with
      | self => exact .inr rfl
      | el hx h => exact .inl ⟨_, hx, h⟩
  | .none | .bool _ | .num _ | .str _ | .list _ | .dict _ | .other _ _ _ => by
    rw [containsComponent, decide_eq_true_iff]
    · constructor
      · rintro rfl; exact .self
      · intro h; cases h; rfl
    · simp
theorem containsAny_iff (c : Py) : ∀ l, containsAny c l = true ↔ ∃ x ∈ l, PartIn c x
  | [] => by simp [containsAny]
  | x :: xs => by
    have h1 := containsComponent_iff c x
    have h2 := containsAny_iff c xs
    rw [containsAny]
    by_cases h : containsComponent c x = true
    · simp [h, h1.1 h]
    · rw [if_neg h, h2]
      simp [mt h1.2 h]
end

/-- **C73**: `contains_component` tells whether the component is the attribute or a part of it at any depth. -/
theorem C73_contains (c a : Py) : containsComponent c a = true ↔ PartIn c a := containsComponent_iff c a

example : PartIn (.str c!"?c1") (.tup [.str c!"relation", .str c!"?c2", .tup [.str c!"a", .str c!"?c1"]]) :=
  .el (y := .tup [.str c!"a", .str c!"?c1"]) (by simp) (.el (y := .str c!"?c1") (by simp) .self)

/-! ### Component names -/

theorem GoodAttr.mem {l : List Py} (h : GoodAttr (.tup l)) : ∀ y ∈ l, GoodAttr y := by
  cases h; assumption

theorem notHidden_tup {x : Py} {l : List Py} : notHidden (.tup (x :: l)) = .ok (decide (x ≠ .str c!"_")) := rfl

mutual
theorem allPartsE : ∀ a, GoodAttr a →
    ∃ r, allComponentsE a = .ok r ∧ ∀ x, x ∈ r ↔ PartIn x a ∧ ¬ Underscored x
  | .tup [], h => nomatch h
  | .tup (y :: l), h => by
    obtain ⟨r, hr, hx⟩ := allPartsL (y :: l) h.mem
    refine ⟨_, by rw [allComponentsE, notHidden_tup]; simp only [ok_bind, hr]; rfl, fun x => ?_⟩
    have hu : Underscored (.tup (y :: l)) ↔ y = .str c!"_" := by
      simp [Underscored]
    have hp : PartIn x (.tup (y :: l)) ↔ x = .tup (y :: l) ∨ ∃ z ∈ y :: l, PartIn x z := by
      constructor
      · intro h
        cases h with
        | self => exact .inl rfl
        | el h1 h2 => exact .inr ⟨_, h1, h2⟩
      · rintro (rfl | ⟨z, h1, h2⟩)
        · exact .self
        · exact .el h1 h2
    rw [hp]
    by_cases hy : y = .str c!"_"
    · simp only [hy, ne_eq, not_true, decide_false, Bool.false_eq_true, if_false]
      rw [← hy, hx]
      constructor
      · rintro ⟨h1, h2⟩; exact ⟨.inr h1, h2⟩
      · rintro ⟨rfl | h1, h2⟩
        · exact absurd (hu.2 hy) h2
        · exact ⟨h1, h2⟩
    · simp only [ne_eq, hy, not_false_eq_true, decide_true, if_true, List.mem_cons]
      rw [hx]
      constructor
      · rintro (rfl | ⟨h1, h2⟩)
        · exact ⟨.inl rfl, mt hu.1 hy⟩
        · exact ⟨.inr (by simpa using h1), h2⟩
      · rintro ⟨rfl | h1, h2⟩
        · exact .inl rfl
        · exact .inr ⟨by simpa using h1, h2⟩
  | .str [], h => nomatch h
  | .str (c :: cs), _ => by
    refine ⟨_, rfl, fun x => ?_⟩
    have hp : PartIn x (.str (c :: cs)) ↔ x = .str (c :: cs) :=
      ⟨fun h => by cases h; rfl, fun h => h ▸ .self⟩
    rw [hp]
    by_cases hc : c = '_'
    · simp only [hc, if_true, List.not_mem_nil, false_iff, not_and, not_not]
      rintro rfl
      exact .inl ⟨_, rfl⟩
    · simp only [hc, if_false, List.mem_singleton]
      refine ⟨fun h => ⟨h, ?_⟩, And.left⟩
      rw [h]
      simp [Underscored, hc]
  | .none, h | .bool _, h | .num _, h | .list _, h | .dict _, h | .other _ _ _, h => nomatch h
theorem allPartsL : ∀ l, (∀ y ∈ l, GoodAttr y) →
    ∃ r, allComponentsL l = .ok r ∧ ∀ x, x ∈ r ↔ (∃ y ∈ l, PartIn x y) ∧ ¬ Underscored x
  | [], _ => ⟨[], rfl, by simp⟩
  | y :: l, h => by
    obtain ⟨r1, h1, e1⟩ := allPartsE y (h y (by simp))
    obtain ⟨r2, h2, e2⟩ := allPartsL l fun z hz => h z (by simp [hz])
    refine ⟨r1 ++ r2, by rw [allComponentsL, h1, ok_bind, h2, ok_bind]; rfl, fun x => ?_⟩
    rw [List.mem_append, e1, e2]
    simp only [List.mem_cons, exists_eq_or_imp]
    tauto
end

theorem allComponents_eq {a : Py} (h : GoodAttr a) : allComponents a = allComponentsE a := by
  cases h with
  | tup => rfl
  | @str c cs =>
    by_cases hc : c = '_'
    · subst hc; rfl
    · simp [allComponents, allComponentsE, notHidden, Py.index0, hc, Bind.bind, Except.bind, pure, Except.pure]

/-- **C73**: `get_component_names(instance, False)` is the set of the parts, at any depth, of the attributes that
do not start with an underscore. -/
theorem C73_all_names {as : List Py} (h : ∀ a ∈ as, GoodAttr a) :
    ∃ r, allComponentNames as = .ok r ∧ ∀ x, x ∈ r ↔ (∃ a ∈ as, PartIn x a) ∧ ¬ Underscored x := by
  induction as with
  | nil => exact ⟨[], rfl, by simp⟩
  | cons a as ih =>
    obtain ⟨r2, h2, e2⟩ := ih fun b hb => h b (by simp [hb])
    obtain ⟨r1, h1, e1⟩ := allPartsE a (h a (by simp))
    refine ⟨r1 ++ r2, ?_, fun x => ?_⟩
    · rw [allComponentNames, allComponents_eq (h a (by simp)), h1, ok_bind, h2, ok_bind]; rfl
    · rw [List.mem_append, e1, e2]
      simp only [List.mem_cons, exists_eq_or_imp]
      tauto

mutual
theorem varComponentsE : ∀ a, GoodAttr a →
    ∃ r, componentsE a = .ok r ∧ ∀ x, x ∈ r ↔ PartIn x a ∧ Variable x
  | .tup l, h => by
    obtain ⟨r, hr, hx⟩ := varComponentsL l h.mem
    refine ⟨r, by rw [componentsE, hr], fun x => ?_⟩
    rw [hx]
    constructor
    · rintro ⟨⟨y, h1, h2⟩, h3⟩; exact ⟨.el h1 h2, h3⟩
    · rintro ⟨h1, h3⟩
      refine ⟨?_, h3⟩
      cases h1 with
      | self => obtain ⟨s, hs⟩ := h3; cases hs
      | el h1 h2 => exact ⟨_, h1, h2⟩
  | .str [], h => nomatch h
  | .str (c :: cs), _ => by
    refine ⟨_, rfl, fun x => ?_⟩
    have hp : PartIn x (.str (c :: cs)) ↔ x = .str (c :: cs) :=
      ⟨fun h => by cases h; rfl, fun h => h ▸ .self⟩
    rw [hp]
    by_cases hc : c = '?'
    · simp only [isVar, hc, List.head?_cons, beq_self_eq_true, if_true, List.mem_singleton]
      refine ⟨fun h => ⟨h, _, h⟩, And.left⟩
    · have : isVar (c :: cs) = false := by simp [isVar, hc]
      simp only [this, Bool.false_eq_true, if_false, List.not_mem_nil, false_iff, not_and]
      rintro rfl ⟨s, hs⟩
      simp at hs
      exact hc hs.1
  | .none, h | .bool _, h | .num _, h | .list _, h | .dict _, h | .other _ _ _, h => nomatch h
theorem varComponentsL : ∀ l, (∀ y ∈ l, GoodAttr y) →
    ∃ r, componentsL l = .ok r ∧ ∀ x, x ∈ r ↔ (∃ y ∈ l, PartIn x y) ∧ Variable x
  | [], _ => ⟨[], rfl, by simp⟩
  | y :: l, h => by
    obtain ⟨r1, h1, e1⟩ := varComponentsE y (h y (by simp))
    obtain ⟨r2, h2, e2⟩ := varComponentsL l fun z hz => h z (by simp [hz])
    refine ⟨r1 ++ r2, by rw [componentsL, h1, ok_bind, h2, ok_bind]; rfl, fun x => ?_⟩
    rw [List.mem_append, e1, e2]
    simp only [List.mem_cons, exists_eq_or_imp]
    tauto
end

theorem components_good {a : Py} (h : GoodAttr a) : components a = componentsE a := by
  cases h with
  | tup => rfl
  | @str c cs =>
    by_cases hc : c = '?' <;>
    simp [components, componentsE, isVar, Py.index0, hc, Bind.bind, Except.bind, pure, Except.pure]

/-- **C73**: `get_component_names(instance)` is the set of the variables in the attributes, at any depth. -/
theorem C73_variables {as : List Py} (h : ∀ a ∈ as, GoodAttr a) :
    ∃ r, componentNames as = .ok r ∧ ∀ x, x ∈ r ↔ (∃ a ∈ as, PartIn x a) ∧ Variable x := by
  induction as with
  | nil => exact ⟨[], rfl, by simp⟩
  | cons a as ih =>
    obtain ⟨r2, h2, e2⟩ := ih fun b hb => h b (by simp [hb])
    obtain ⟨r1, h1, e1⟩ := varComponentsE a (h a (by simp))
    refine ⟨r1 ++ r2, ?_, fun x => ?_⟩
    · rw [componentNames, components_good (h a (by simp)), h1, ok_bind, h2, ok_bind]; rfl
    · rw [List.mem_append, e1, e2]
      simp only [List.mem_cons, exists_eq_or_imp]
      tauto

/-- The instance of the documentation (structure_mapper.py:47-55). -/
example : (∀ a ∈ [Py.tup [.str c!"a", .tup [.str c!"sub1", .str c!"c1"]], .tup [.str c!"_", .str c!"_a", .str c!"c3"]],
      GoodAttr a) ∧
    (allComponentNames [.tup [.str c!"a", .tup [.str c!"sub1", .str c!"c1"]],
      .tup [.str c!"_", .str c!"_a", .str c!"c3"]]).toOption =
    some [.tup [.str c!"a", .tup [.str c!"sub1", .str c!"c1"]], .str c!"a", .tup [.str c!"sub1", .str c!"c1"],
      .str c!"sub1", .str c!"c1", .str c!"c3"] := by
  refine ⟨?_, by decide⟩
  intro a ha
  simp only [List.mem_cons, List.not_mem_nil, or_false] at ha
  rcases ha with rfl | rfl
  · refine .tup fun y hy => ?_
    simp only [List.mem_cons, List.not_mem_nil, or_false] at hy
    rcases hy with rfl | rfl
    · exact .str
    · refine .tup fun y hy => ?_
      simp only [List.mem_cons, List.not_mem_nil, or_false] at hy
      rcases hy with rfl | rfl <;> exact .str
  · refine .tup fun y hy => ?_
    simp only [List.mem_cons, List.not_mem_nil, or_false] at hy
    rcases hy with rfl | rfl | rfl <;> exact .str

/-! ### `bind_flat_attr` -/

mutual
theorem bindEl_eq {m : Dict Py Py} (hm : ∀ l, m.get? (.tup l) = none) : ∀ a, bindEl m a = renameEl m a
  | .tup l => by rw [bindEl, renameEl, hm, bindEls_eq hm l]
  | .none | .bool _ | .num _ | .str _ | .list _ | .dict _ | .other _ _ _ => by
    rw [bindEl, renameEl] <;> first | (cases m.get? _ <;> rfl) | simp
theorem bindEls_eq {m : Dict Py Py} (hm : ∀ l, m.get? (.tup l) = none) : ∀ l, bindEls m l = renameRel m l
  | [] => rfl
  | x :: xs => by rw [bindEls, renameRel, bindEl_eq hm x, bindEls_eq hm xs]
end

mutual
theorem bindEl_renamed {m : Dict Py Py} {f : PStr → PStr} (hm : ∀ s v, m.get? (.str s) = some v → v = .str (f s))
    (hf : ∀ s, m.get? (.str s) = none → f s = s) : ∀ a, GoodAttr a → Renamed f a (bindEl m a)
  | .tup l, h => .rel (bindEls_renamed hm hf l h.mem)
  | .str s, _ => by
    rw [bindEl]
    · cases e : m.get? (.str s) with
      | none => simpa [hf s e] using Renamed.name (f := f) (s := s)
      | some v => simpa [hm s v e] using Renamed.name (f := f) (s := s)
    · simp
  | .none, h | .bool _, h | .num _, h | .list _, h | .dict _, h | .other _ _ _, h => nomatch h
theorem bindEls_renamed {m : Dict Py Py} {f : PStr → PStr} (hm : ∀ s v, m.get? (.str s) = some v → v = .str (f s))
    (hf : ∀ s, m.get? (.str s) = none → f s = s) : ∀ l, (∀ a ∈ l, GoodAttr a) →
    List.Forall₂ (Renamed f) l (bindEls m l)
  | [], _ => .nil
  | x :: xs, h => .cons (bindEl_renamed hm hf x (h x (by simp)))
      (bindEls_renamed hm hf xs fun a ha => h a (by simp [ha]))
end

/-- **C73**: `bind_flat_attr` replaces every mapped name in a relation, at any depth, and leaves the other names
as they are; the mapping is one from names to names. -/
theorem C73_bind {m : Dict Py Py} {f : PStr → PStr} (hm : ∀ s v, m.get? (.str s) = some v → v = .str (f s))
    (hf : ∀ s, m.get? (.str s) = none → f s = s) {l : List Py} (h : GoodAttr (.tup l)) :
    ∃ b, bindFlat m (.tup l) = .ok b ∧ Renamed f (.tup l) b :=
  ⟨_, rfl, .rel (bindEls_renamed hm hf l h.mem)⟩

/-- **C73**: it is `rename_relation` if no relation is a key of the mapping. -/
theorem C73_bind_rename {m : Dict Py Py} (hm : ∀ l, m.get? (.tup l) = none) (l : List Py) :
    bindFlat m (.tup l) = .ok (renameRelation m (.tup l)) := by
  rw [bindFlat, renameRelation, bindEls_eq hm]

example : (bindFlat [(.str c!"?o1", .str c!"?c1")] (.tup [.str c!"<", .tup [.str c!"a", .str c!"?o2"],
      .tup [.str c!"a", .str c!"?o1"]])).toOption =
    some (.tup [.str c!"<", .tup [.str c!"a", .str c!"?o2"], .tup [.str c!"a", .str c!"?c1"]]) := by decide

/-- **C73**: the documented type of the attribute includes strings, but a string comes back as the tuple of its
characters, whether it is mapped or not. -/
theorem C73_bind_string :
    ∃ m a, bindFlat m (.str a) = .ok (.tup [.str c!"?", .str c!"o"]) ∧ m.get? (.str a) = some (.str c!"?c") :=
  ⟨[(.str c!"?o", .str c!"?c")], c!"?o", by decide, by decide⟩

/-! ### `is_partial_match` -/

theorem variable_cons {c : Char} {cs : PStr} : Variable (.str (c :: cs)) ↔ c = '?' := by
  simp [Variable]

theorem atomMatch_str {m : Dict Py Py} {c d : Char} {cs ds : PStr} :
    atomMatch m (.str (c :: cs)) (.str (d :: ds)) = .ok (
      if Variable (.str (c :: cs)) then
        match m.get? (.str (c :: cs)) with
        | some w => decide (w = .str (d :: ds))
        | none => decide (Variable (.str (d :: ds)))
      else decide (c :: cs = d :: ds)) := by
  simp only [variable_cons]
  simp only [atomMatch, Py.index0, ok_bind, Py.str.injEq, List.cons.injEq, and_true]
  by_cases hc : c = '?'
  · rw [if_pos hc, if_pos hc]
    cases m.get? (.str (c :: cs)) with
    | some w => rfl
    | none =>
      by_cases hd : d = '?'
      · simp [hd, pure_ok]
      · simp [hd, pure_ok, hc, Ne.symm hd]
  · simp [hc, pure_ok]

mutual
theorem partialMatch_ok {m : Dict Py Py} : ∀ i c, GoodAttr i → GoodAttr c → ∃ b, partialMatch m i c = .ok b
  | .tup l, .tup l', h, h' => by
    rw [partialMatch]
    split
    · exact ⟨_, rfl⟩
    · exact partialMatchL_ok l l' h.mem h'.mem
  | .tup l, .str _, _, _ => ⟨false, by rw [partialMatch]; simp⟩
  | .str (_ :: _), .str (_ :: _), _, _ => ⟨_, by
      rw [partialMatch]
      · simp only [sameType, Bool.true_eq_false, if_false]; exact atomMatch_str
      all_goals simp⟩
  | .str (_ :: _), .tup _, _, _ => ⟨false, by rw [partialMatch] <;> simp [sameType]⟩
  | .str [], _, h, _ => nomatch h
  | _, .str [], _, h => nomatch h
  | .none, _, h, _ | .bool _, _, h, _ | .num _, _, h, _ | .list _, _, h, _ | .dict _, _, h, _
  | .other _ _ _, _, h, _ => nomatch h
  | _, .none, _, h | _, .bool _, _, h | _, .num _, _, h | _, .list _, _, h | _, .dict _, _, h
  | _, .other _ _ _, _, h => nomatch h
theorem partialMatchL_ok {m : Dict Py Py} : ∀ l l', (∀ a ∈ l, GoodAttr a) → (∀ a ∈ l', GoodAttr a) →
    ∃ b, partialMatchL m l l' = .ok b
  | [], l', _, _ => ⟨true, by rw [partialMatchL]; simp⟩
  | _ :: _, [], _, _ => ⟨true, by rw [partialMatchL]; simp⟩
  | x :: xs, y :: ys, h, h' => by
    obtain ⟨b, hb⟩ := partialMatch_ok x y (h x (by simp)) (h' y (by simp))
    obtain ⟨b', hb'⟩ := partialMatchL_ok xs ys (fun a ha => h a (by simp [ha])) (fun a ha => h' a (by simp [ha]))
    rw [partialMatchL, hb, ok_bind]
    cases b
    · exact ⟨false, rfl⟩
    · exact ⟨b', hb'⟩
end

/-- **C73**: `is_partial_match` returns on all attributes made of non-empty strings. -/
theorem C73_match_returns (m : Dict Py Py) {i c : Py} (hi : GoodAttr i) (hc : GoodAttr c) :
    ∃ b, partialMatch m i c = .ok b := partialMatch_ok i c hi hc

theorem partialMatch_str {m : Dict Py Py} {s t : PStr} :
    partialMatch m (.str s) (.str t) = atomMatch m (.str s) (.str t) := by
  rw [partialMatch] <;> simp [sameType]

mutual
theorem partialMatch_complete {m : Dict Py Py} {f : PStr → PStr} (hf : Extends m f) : ∀ i c, GoodAttr i → GoodAttr c →
    Renamed f i c → partialMatch m i c = .ok true
  | .tup l, .tup l', h, h', hr => by
    cases hr with
    | rel hr =>
      rw [partialMatch, if_neg (by simp [hr.length_eq])]
      exact partialMatchL_complete hf l l' h.mem h'.mem hr
  | .str (c :: cs), .str (d :: ds), _, _, hr => by
    have e : f (c :: cs) = d :: ds := by
      generalize e : Py.str (d :: ds) = z at hr
      cases hr
      exact (Py.str.inj e).symm
    rw [partialMatch_str, atomMatch_str, Except.ok.injEq]
    by_cases hv : Variable (.str (c :: cs))
    · rw [if_pos hv]
      cases hg : m.get? (.str (c :: cs)) with
      | some w => simpa [← e] using hf.mapped _ _ hg
      | none => simpa [← e] using hf.free _ hv hg
    · rw [if_neg hv, decide_eq_true_iff, ← e, hf.const _ hv]
  | .tup _, .str _, _, _, hr => nomatch hr
  | .str _, .tup _, _, _, hr => nomatch hr
  | .str [], _, h, _, _ => nomatch h
  | _, .str [], _, h, _ => nomatch h
  | .none, _, h, _, _ | .bool _, _, h, _, _ | .num _, _, h, _, _ | .list _, _, h, _, _ | .dict _, _, h, _, _
  | .other _ _ _, _, h, _, _ => nomatch h
  | _, .none, _, h, _ | _, .bool _, _, h, _ | _, .num _, _, h, _ | _, .list _, _, h, _ | _, .dict _, _, h, _
  | _, .other _ _ _, _, h, _ => nomatch h
theorem partialMatchL_complete {m : Dict Py Py} {f : PStr → PStr} (hf : Extends m f) : ∀ l l',
    (∀ a ∈ l, GoodAttr a) → (∀ a ∈ l', GoodAttr a) → List.Forall₂ (Renamed f) l l' → partialMatchL m l l' = .ok true
  | [], l', _, _, _ => by rw [partialMatchL]; simp
  | _ :: _, [], _, _, _ => by rw [partialMatchL]; simp
  | x :: xs, y :: ys, h, h', hr => by
    rw [partialMatchL, partialMatch_complete hf x y (h x (by simp)) (h' y (by simp)) (by cases hr; assumption), ok_bind,
      if_pos rfl]
    exact partialMatchL_complete hf xs ys (fun a ha => h a (by simp [ha])) (fun a ha => h' a (by simp [ha]))
      (by cases hr; assumption)
end

/-- **C73**: if the mapping can be extended so that the first attribute becomes the second one, then
`is_partial_match` says so. -/
theorem C73_match_complete {m : Dict Py Py} {f : PStr → PStr} (hf : Extends m f) {i c : Py} (hi : GoodAttr i)
    (hc : GoodAttr c) (hr : Renamed f i c) : partialMatch m i c = .ok true :=
  partialMatch_complete hf i c hi hc hr

mutual
theorem Renamed.congr {f g : PStr → PStr} : ∀ a b, (∀ s ∈ namesOf a, f s = g s) → Renamed f a b → Renamed g a b
  | .str s, _, h, hr => by
    cases hr
    rw [h s (by simp [namesOf])]
    exact .name
  | .tup l, .tup l', h, hr => .rel (Renamed.congrL l l' (by simpa only [namesOf] using h) (by cases hr; assumption))
  | .tup _, .str _, _, hr | .tup _, .none, _, hr | .tup _, .bool _, _, hr | .tup _, .num _, _, hr
  | .tup _, .list _, _, hr | .tup _, .dict _, _, hr | .tup _, .other _ _ _, _, hr => nomatch hr
  | .none, _, _, hr | .bool _, _, _, hr | .num _, _, _, hr | .list _, _, _, hr | .dict _, _, _, hr
  | .other _ _ _, _, _, hr => nomatch hr
theorem Renamed.congrL {f g : PStr → PStr} : ∀ l l', (∀ s ∈ namesOfL l, f s = g s) → List.Forall₂ (Renamed f) l l' →
    List.Forall₂ (Renamed g) l l'
  | [], l', _, hr => by cases hr; exact .nil
  | x :: xs, [], _, hr => nomatch hr
  | x :: xs, y :: ys, h, hr => .cons
      (Renamed.congr x y (fun s hs => h s (by simp [namesOfL, hs])) (by cases hr; assumption))
      (Renamed.congrL xs ys (fun s hs => h s (by simp [namesOfL, hs])) (by cases hr; assumption))
end

/-- The unmapped variables of a list of names. -/
def freeNames (m : Dict Py Py) (l : List PStr) : List PStr :=
  l.filter fun s => decide (Variable (.str s)) && (m.get? (.str s)).isNone

open Classical in
theorem extends_default {m : Dict Py Py} (hm : VarMap m) : ∃ f, Extends m f := by
  refine ⟨fun s => if h : ∃ t, m.get? (.str s) = some (.str t) then h.choose else s, ?_, ?_, ?_⟩
  · intro s v hv
    obtain ⟨-, t, rfl⟩ := hm _ _ hv
    have h : ∃ t, m.get? (.str s) = some (.str t) := ⟨t, hv⟩
    simp only [h, dif_pos]
    exact Option.some.inj (hv.symm.trans h.choose_spec)
  · intro s hs hn
    simpa [hn] using hs
  · intro s hs
    rw [dif_neg]
    rintro ⟨t, ht⟩
    exact hs (hm _ _ ht).1

mutual
theorem partialMatch_sound {m : Dict Py Py} (hm : VarMap m) : ∀ i c, GoodAttr i → GoodAttr c →
    (freeNames m (namesOf i)).Nodup → partialMatch m i c = .ok true → ∃ f, Extends m f ∧ Renamed f i c
  | .tup l, .tup l', h, h', hn, hp => by
    rw [partialMatch] at hp
    split at hp
    · cases hp
    · rename_i hl
      obtain ⟨f, h1, h2⟩ := partialMatchL_sound hm l l' (by simpa using hl) h.mem h'.mem
        (by simpa only [namesOf] using hn) hp
      exact ⟨f, h1, .rel h2⟩
  | .str (c :: cs), .str (d :: ds), _, _, _, hp => by
    rw [partialMatch_str, atomMatch_str, Except.ok.injEq] at hp
    obtain ⟨f, hf⟩ := extends_default hm
    by_cases hv : Variable (.str (c :: cs))
    · rw [if_pos hv] at hp
      cases hg : m.get? (.str (c :: cs)) with
      | some w =>
        rw [hg] at hp
        have e := hf.mapped _ _ hg
        rw [of_decide_eq_true hp, Py.str.injEq] at e
        refine ⟨f, hf, ?_⟩
        rw [e]
        exact .name
      | none =>
        rw [hg] at hp
        refine ⟨fun s => if s = c :: cs then d :: ds else f s, ⟨?_, ?_, ?_⟩, ?_⟩
        · intro s v h
          by_cases hs : s = c :: cs
          · rw [hs, hg] at h; cases h
          · simp only [hs, if_false]; exact hf.mapped _ _ h
        · intro s h1 h2
          by_cases hs : s = c :: cs
          · simp only [hs, if_true]; exact of_decide_eq_true hp
          · simp only [hs, if_false]; exact hf.free _ h1 h2
        · intro s h1
          by_cases hs : s = c :: cs
          · rw [hs] at h1; exact absurd hv h1
          · simp only [hs, if_false]; exact hf.const _ h1
        · have := Renamed.name (f := fun s => if s = c :: cs then d :: ds else f s) (s := c :: cs)
          simpa using this
    · rw [if_neg hv, decide_eq_true_iff] at hp
      refine ⟨f, hf, ?_⟩
      rw [← hp]
      have := Renamed.name (f := f) (s := c :: cs)
      rwa [hf.const _ hv] at this
  | .tup l, .str s, _, _, _, hp => by
    have : partialMatch m (.tup l) (.str s) = .ok false := by rw [partialMatch]; simp
    rw [this] at hp; cases hp
  | .str s, .tup l, _, _, _, hp => by
    have : partialMatch m (.str s) (.tup l) = .ok false := by rw [partialMatch] <;> simp [sameType]
    rw [this] at hp; cases hp
  | .str [], _, h, _, _, _ => nomatch h
  | _, .str [], _, h, _, _ => nomatch h
  | .none, _, h, _, _, _ | .bool _, _, h, _, _, _ | .num _, _, h, _, _, _ | .list _, _, h, _, _, _
  | .dict _, _, h, _, _, _ | .other _ _ _, _, h, _, _, _ => nomatch h
  | _, .none, _, h, _, _ | _, .bool _, _, h, _, _ | _, .num _, _, h, _, _ | _, .list _, _, h, _, _
  | _, .dict _, _, h, _, _ | _, .other _ _ _, _, h, _, _ => nomatch h
theorem partialMatchL_sound {m : Dict Py Py} (hm : VarMap m) : ∀ l l', l.length = l'.length → (∀ a ∈ l, GoodAttr a) →
    (∀ a ∈ l', GoodAttr a) → (freeNames m (namesOfL l)).Nodup → partialMatchL m l l' = .ok true →
    ∃ f, Extends m f ∧ List.Forall₂ (Renamed f) l l'
  | [], [], _, _, _, _, _ => by
    obtain ⟨f, hf⟩ := extends_default hm
    exact ⟨f, hf, .nil⟩
  | [], _ :: _, hl, _, _, _, _ => nomatch hl
  | _ :: _, [], hl, _, _, _, _ => nomatch hl
  | x :: xs, y :: ys, hl, h, h', hn, hp => by
    rw [partialMatchL] at hp
    obtain ⟨b, hb⟩ := partialMatch_ok (m := m) x y (h x (by simp)) (h' y (by simp))
    rw [hb, ok_bind] at hp
    cases b with
    | false => cases hp
    | true =>
      rw [if_pos rfl] at hp
      rw [namesOfL, freeNames, List.filter_append, List.nodup_append] at hn
      obtain ⟨f, hf, hr⟩ := partialMatch_sound hm x y (h x (by simp)) (h' y (by simp)) hn.1 hb
      obtain ⟨g, hg, hs⟩ := partialMatchL_sound hm xs ys (by simpa using hl) (fun a ha => h a (by simp [ha]))
        (fun a ha => h' a (by simp [ha])) hn.2.1 hp
      refine ⟨fun s => if s ∈ namesOf x then f s else g s, ⟨?_, ?_, ?_⟩, .cons ?_ ?_⟩
      · intro s v hv
        show v = .str (if s ∈ namesOf x then f s else g s)
        split
        · exact hf.mapped _ _ hv
        · exact hg.mapped _ _ hv
      · intro s h1 h2
        show Variable (.str (if s ∈ namesOf x then f s else g s))
        split
        · exact hf.free _ h1 h2
        · exact hg.free _ h1 h2
      · intro s h1
        show (if s ∈ namesOf x then f s else g s) = s
        split
        · exact hf.const _ h1
        · exact hg.const _ h1
      · refine Renamed.congr x y (fun s hs => ?_) hr
        simp [hs]
      · refine Renamed.congrL xs ys (fun s hs' => ?_) hs
        show g s = if s ∈ namesOf x then f s else g s
        split
        · rename_i hsx
          by_cases hv : Variable (.str s)
          · cases hgt : m.get? (.str s) with
            | some w =>
              have e1 := hf.mapped _ _ hgt
              have e2 := hg.mapped _ _ hgt
              rw [e1, Py.str.injEq] at e2
              exact e2.symm
            | none =>
              exact absurd rfl (hn.2.2 s (List.mem_filter.2 ⟨hsx, by simp [hv, hgt]⟩) s
                (List.mem_filter.2 ⟨hs', by simp [hv, hgt]⟩))
          · rw [hf.const _ hv, hg.const _ hv]
        · rfl
end

/-- **C73** (partial): if `is_partial_match` says yes and no unmapped variable occurs twice in the instance
attribute, then the mapping can be extended so that the first attribute becomes the second one.

Full statement: the same without the condition on the variables.  The code violates it
(`C73_match_inconsistent`). -/
theorem C73_match_sound_partial {m : Dict Py Py} (hm : VarMap m) {i c : Py} (hi : GoodAttr i) (hc : GoodAttr c)
    (hn : ((namesOf i).filter fun s => decide (Variable (.str s)) && (m.get? (.str s)).isNone).Nodup)
    (h : partialMatch m i c = .ok true) : ∃ f, Extends m f ∧ Renamed f i c :=
  partialMatch_sound hm i c hi hc hn h

/-- **C73**: the unmapped occurrences of one variable may be matched with different variables: `('<', '?a', '?a')`
matches `('<', '?x', '?y')`, though no mapping makes them equal. -/
theorem C73_match_inconsistent :
    ∃ i c, partialMatch [] i c = .ok true ∧ ∀ f, ¬ Renamed f i c := by
  refine ⟨.tup [.str c!"<", .str c!"?a", .str c!"?a"], .tup [.str c!"<", .str c!"?x", .str c!"?y"], by decide, ?_⟩
  intro f hr
  cases hr with
  | rel hr =>
    cases hr with
    | cons _ hr =>
      cases hr with
      | cons h1 hr =>
        cases hr with
        | cons h2 _ =>
          generalize e1 : Py.str c!"?x" = x at h1
          generalize e2 : Py.str c!"?y" = y at h2
          cases h1
          cases h2
          rw [← e1] at e2
          cases e2

/-- The names of the Python classes. -/
def className : Py → String
  | .none => "NoneType"
  | .bool _ => "bool"
  | .num _ => "number"
  | .str _ => "str"
  | .tup _ => "tuple"
  | .list _ => "list"
  | .dict _ => "dict"
  | .other _ _ _ => "object"

/-- **C73**: attributes of different classes do not match.  `None`, booleans and numbers raise `TypeError`
when they meet another object of their class, even themselves; the empty string raises `IndexError`; a
list whose first item is not "?" matches itself only. -/
theorem C73_match_classes (m : Dict Py Py) :
    (∀ i c, className i ≠ className c → partialMatch m i c = .ok false) ∧
    partialMatch m .none .none = .error .typeErr ∧
    (∀ b b', partialMatch m (.bool b) (.bool b') = .error .typeErr) ∧
    (∀ q q', partialMatch m (.num q) (.num q') = .error .typeErr) ∧
    (∀ s, partialMatch m (.str []) (.str s) = .error .indexErr) ∧
    ∀ x l l', x ≠ .str c!"?" →
      (partialMatch m (.list (x :: l)) (.list l') = .ok true ↔ l' = x :: l) := by
  refine ⟨?_, ?_, ?_, ?_, ?_, ?_⟩
  · intro i c h
    cases i <;> cases c <;> first
      | exact absurd rfl h
      | (rw [partialMatch] <;> simp [sameType])
  · rw [partialMatch] <;> simp [sameType, atomMatch, Py.index0] <;> rfl
  · intro b b'; rw [partialMatch] <;> simp [sameType, atomMatch, Py.index0] <;> rfl
  · intro b b'; rw [partialMatch] <;> simp [sameType, atomMatch, Py.index0] <;> rfl
  · intro b; rw [partialMatch] <;> simp [sameType, atomMatch, Py.index0] <;> rfl
  · intro x l l' hx
    rw [partialMatch]
    · simp [sameType, atomMatch, Py.index0, ok_bind, hx, pure, Except.pure]
      exact eq_comm
    all_goals simp

/-- The pairs of the documentation (structure_mapper.py:456-467). -/
example : partialMatch [(.str c!"?o1", .str c!"?c1")]
      (.tup [.str c!"<", .tup [.str c!"a", .str c!"?o2"], .tup [.str c!"a", .str c!"?o1"]])
      (.tup [.str c!"<", .tup [.str c!"a", .str c!"?c2"], .tup [.str c!"b", .str c!"?c1"]]) = .ok false ∧
    partialMatch [(.str c!"?o1", .str c!"?c1")]
      (.tup [.str c!"<", .tup [.str c!"a", .str c!"?o2"], .tup [.str c!"a", .str c!"?o1"]])
      (.tup [.str c!"<", .tup [.str c!"a", .str c!"?c2"], .tup [.str c!"a", .str c!"?c1"]]) = .ok true ∧
    VarMap [(.str c!"?o1", .str c!"?c1")] := by
  refine ⟨by decide, by decide, ?_⟩
  intro k v h
  by_cases hk : Py.str c!"?o1" = k
  · subst hk
    rw [Dict.get?, if_pos rfl, Option.some.injEq] at h
    subst h
    exact ⟨⟨_, rfl⟩, _, rfl⟩
  · rw [Dict.get?, if_neg hk] at h
    cases h

end CF
