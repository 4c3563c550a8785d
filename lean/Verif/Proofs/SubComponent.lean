/-
Extraction of sub-components, and its inverse.
-/
import Verif.Proofs.Flatten

set_option linter.unusedSectionVars false

namespace CF

theorem isVar_iff {s : PStr} : isVar s = true ↔ ∃ t, s = '?' :: t := by
  cases s with
  | nil => simp [isVar]
  | cons c t => simp [isVar]

theorem isVarPy_iff {a : Py} : isVarPy a = true ↔ Variable a := by
  cases a <;> simp [isVarPy, Variable, isVar_iff]

theorem partOf_pair {y p a b : Py} : PartOf y p (.tup [a, b]) ↔ (y = a ∧ p = b) ∨ PartOf y p b := by
  constructor
  · intro h
    cases h with
    | here => exact .inl ⟨rfl, rfl⟩
    | outer h => exact .inr h
    | elem h _ _ => simp at h
  · rintro (⟨rfl, rfl⟩ | h)
    · exact .here
    · exact .outer h

theorem partOf_tup {y p : Py} {l : List Py} (hl : l.length ≠ 2) :
    PartOf y p (.tup l) ↔ ∃ x ∈ l, PartOf y p x := by
  constructor
  · intro h
    cases h with
    | here => simp at hl
    | outer h => simp at hl
    | elem _ hx h => exact ⟨_, hx, h⟩
  · rintro ⟨x, hx, h⟩
    exact .elem hl hx h

theorem not_partOf_str {y p : Py} {s : PStr} : ¬ PartOf y p (.str s) := by
  intro h; cases h

theorem stands_pair {y a b : Py} (hy : ∀ l, y ≠ .tup l) : Stands y (.tup [a, b]) ↔ Stands y b := by
  constructor
  · intro h
    cases h with
    | here => exact absurd rfl (hy _)
    | outer h => exact h
    | elem h _ _ => simp at h
  · exact .outer

/-! ### The relations recorded for a name -/

theorem mem_pushComp {last : Option Py} {inner r : Py} {rels : List Py} :
    r ∈ pushComp last inner rels ↔ r ∈ rels ∨ ∃ c, last = some c ∧ r = hasComp inner c := by
  cases last with
  | none => simp [pushComp]
  | some c => simp [pushComp]

theorem compLoop_spec : ∀ (t : Py) (last : Option Py) (inner : Py) (rels : List Py) (s : PStr),
    outermost t = .str s → s ≠ c!"??" →
    ∃ R, compLoop t last inner rels = .ok R ∧
      (∀ r ∈ R, r ∈ rels ∨ (∃ c, last = some c ∧ r = hasComp inner c) ∨
        ∃ y p, PartOf y p t ∧ isVarPy y = true ∧ r = hasComp (extractAttr p) y) ∧
      (∀ r ∈ rels, r ∈ R) ∧
      (isVar s = true → (∀ c, last = some c → hasComp inner c ∈ R) ∧
        ∀ y p, PartOf y p t → isVarPy y = true → hasComp (extractAttr p) y ∈ R)
  | .tup [a, attr], last, inner, rels, s, hs, hq => by
    have hs' : outermost attr = .str s := by simpa [outermost] using hs
    by_cases ha : isVarPy a = true
    · obtain ⟨R, e, h1, h2, h3⟩ := compLoop_spec attr (some a) (extractAttr attr)
        (pushComp last inner rels) s hs' hq
      refine ⟨R, by simp [compLoop, ha, e], ?_, ?_, ?_⟩
      · intro r hr
        rcases h1 r hr with h | ⟨c, hc, rfl⟩ | ⟨y, p, hyp, hy, rfl⟩
        · rcases mem_pushComp.1 h with h | h
          · exact .inl h
          · exact .inr (.inl h)
        · cases hc
          exact .inr (.inr ⟨a, attr, .here, ha, rfl⟩)
        · exact .inr (.inr ⟨y, p, .outer hyp, hy, rfl⟩)
      · exact fun r hr => h2 r (mem_pushComp.2 (.inl hr))
      · intro hv
        obtain ⟨g1, g2⟩ := h3 hv
        refine ⟨fun c hc => h2 _ (mem_pushComp.2 (.inr ⟨c, hc, rfl⟩)), fun y p hyp hy => ?_⟩
        rcases partOf_pair.1 hyp with ⟨rfl, rfl⟩ | h
        · exact g1 _ rfl
        · exact g2 y p h hy
    · obtain ⟨R, e, h1, h2, h3⟩ := compLoop_spec attr last inner rels s hs' hq
      refine ⟨R, by simp [compLoop, ha, e], ?_, h2, ?_⟩
      · intro r hr
        rcases h1 r hr with h | h | ⟨y, p, hyp, hy, rfl⟩
        · exact .inl h
        · exact .inr (.inl h)
        · exact .inr (.inr ⟨y, p, .outer hyp, hy, rfl⟩)
      · intro hv
        obtain ⟨g1, g2⟩ := h3 hv
        refine ⟨g1, fun y p hyp hy => ?_⟩
        rcases partOf_pair.1 hyp with ⟨rfl, rfl⟩ | h
        · exact absurd hy ha
        · exact g2 y p h hy
  | .str [], last, inner, rels, s, hs, hq => by
    simp only [outermost, Py.str.injEq] at hs; subst hs
    refine ⟨rels, by simp [compLoop, isVar], fun r hr => .inl hr, fun r hr => hr, ?_⟩
    intro hv; simp [isVar] at hv
  | .str [c], last, inner, rels, s, hs, hq => by
    simp only [outermost, Py.str.injEq] at hs; subst hs
    refine ⟨if isVar [c] then pushComp last inner rels else rels, by simp [compLoop], ?_, ?_, ?_⟩
    · intro r hr
      split at hr
      · rcases mem_pushComp.1 hr with h | h
        · exact .inl h
        · exact .inr (.inl h)
      · exact .inl hr
    · intro r hr
      split
      · exact mem_pushComp.2 (.inl hr)
      · exact hr
    · intro hv
      refine ⟨fun c hc => ?_, fun y p h => absurd h not_partOf_str⟩
      rw [if_pos hv]
      exact mem_pushComp.2 (.inr ⟨c, hc, rfl⟩)
  | .str [c, c'], last, inner, rels, s, hs, hq => by
    simp only [outermost, Py.str.injEq] at hs; subst hs
    have e2 : ¬ (isVar [c] = true ∧ isVar [c'] = true) := by
      rintro ⟨h1, h2⟩
      simp [isVar] at h1 h2
      subst h1 h2; exact hq rfl
    by_cases h1 : isVar [c] = true
    · have h2 : ¬ isVar [c'] = true := fun h => e2 ⟨h1, h⟩
      refine ⟨pushComp last inner rels, by simp [compLoop, h1, h2], ?_, ?_, ?_⟩
      · intro r hr
        rcases mem_pushComp.1 hr with h | h
        · exact .inl h
        · exact .inr (.inl h)
      · exact fun r hr => mem_pushComp.2 (.inl hr)
      · intro _
        exact ⟨fun c hc => mem_pushComp.2 (.inr ⟨c, hc, rfl⟩), fun y p h => absurd h not_partOf_str⟩
    · refine ⟨if isVar [c'] then pushComp last inner rels else rels, by simp [compLoop, h1], ?_, ?_, ?_⟩
      · intro r hr
        split at hr
        · rcases mem_pushComp.1 hr with h | h
          · exact .inl h
          · exact .inr (.inl h)
        · exact .inl hr
      · intro r hr
        split
        · exact mem_pushComp.2 (.inl hr)
        · exact hr
      · intro hv
        exact absurd (by simpa [isVar] using hv) h1
  | .str (c :: c' :: c'' :: cs), last, inner, rels, s, hs, hq => by
    simp only [outermost, Py.str.injEq] at hs; subst hs
    refine ⟨if isVar (c :: c' :: c'' :: cs) then pushComp last inner rels else rels,
      by simp [compLoop], ?_, ?_, ?_⟩
    · intro r hr
      split at hr
      · rcases mem_pushComp.1 hr with h | h
        · exact .inl h
        · exact .inr (.inl h)
      · exact .inl hr
    · intro r hr
      split
      · exact mem_pushComp.2 (.inl hr)
      · exact hr
    · intro hv
      refine ⟨fun c hc => ?_, fun y p h => absurd h not_partOf_str⟩
      rw [if_pos hv]
      exact mem_pushComp.2 (.inr ⟨c, hc, rfl⟩)
  | .tup [], _, _, _, s, hs, _ => by simp [outermost] at hs
  | .tup [_], _, _, _, s, hs, _ => by simp [outermost] at hs
  | .tup (_ :: _ :: _ :: _), _, _, _, s, hs, _ => by simp [outermost] at hs
  | .none, _, _, _, s, hs, _ => by simp [outermost] at hs
  | .bool _, _, _, _, s, hs, _ => by simp [outermost] at hs
  | .num _, _, _, _, s, hs, _ => by simp [outermost] at hs
  | .list _, _, _, _, s, hs, _ => by simp [outermost] at hs
  | .dict _, _, _, _, s, hs, _ => by simp [outermost] at hs
  | .other _ _ _, _, _, _, s, hs, _ => by simp [outermost] at hs

theorem tup_cases (l : List Py) : (∃ a b, l = [a, b]) ∨ l.length ≠ 2 := by
  match l with
  | [] => simp
  | [_] => simp
  | [a, b] => exact .inl ⟨a, b, rfl⟩
  | _ :: _ :: _ :: _ => right; simp

theorem hasComponents_tup {l : List Py} (h : l.length ≠ 2) :
    hasComponents (.tup l) = hasComponentsL l := by
  match l, h with
  | [], _ => simp [hasComponents]
  | [_], _ => simp [hasComponents]
  | _ :: _ :: _ :: _, _ => simp [hasComponents]

theorem nameOk_tup {l : List Py} (h : l.length ≠ 2) : nameOk (.tup l) ↔ namesOk l := by
  match l, h with
  | [], _ => simp [nameOk]
  | [_], _ => simp [nameOk]
  | _ :: _ :: _ :: _, _ => simp [nameOk]

theorem extractAttr_tup {l : List Py} (h : l.length ≠ 2) :
    extractAttr (.tup l) = .tup (extractAttrL l) := by
  match l, h with
  | [], _ => simp [extractAttr]
  | [_], _ => simp [extractAttr]
  | _ :: _ :: _ :: _, _ => simp [extractAttr]

mutual
/-- `_get_has_components` records exactly the places of the variables in a name. -/
theorem hasComponents_spec : ∀ (a : Py), nameOk a → ∃ R, hasComponents a = .ok R ∧
    ∀ r, r ∈ R ↔ ∃ y p, PartOf y p a ∧ isVarPy y = true ∧ r = hasComp (extractAttr p) y
  | .tup l, h => by
    rcases tup_cases l with ⟨a, b, rfl⟩ | hl
    · obtain ⟨s, hs, hq, hv⟩ := h
      have ho : outermost (.tup [a, b]) = .str s := by simpa [outermost] using hs
      obtain ⟨R, e, h1, _, h3⟩ := compLoop_spec (.tup [a, b]) none .none [] s ho hq
      refine ⟨R, by simp [hasComponents, e], fun r => ⟨fun hr => ?_, ?_⟩⟩
      · rcases h1 r hr with h | ⟨c, hc, _⟩ | h
        · simp at h
        · simp at hc
        · exact h
      · rintro ⟨y, p, hyp, hy, rfl⟩
        have := hv ⟨y, p, isVarPy_iff.1 hy, hyp⟩
        exact (h3 (by simpa [isVarPy] using isVarPy_iff.2 this)).2 y p hyp hy
    · obtain ⟨R, e, h1⟩ := hasComponentsL_spec l ((nameOk_tup hl).1 h)
      refine ⟨R, by rw [hasComponents_tup hl, e], fun r => ?_⟩
      rw [h1]
      constructor
      · rintro ⟨x, hx, y, p, h, hy, rfl⟩
        exact ⟨y, p, .elem hl hx h, hy, rfl⟩
      · rintro ⟨y, p, h, hy, rfl⟩
        obtain ⟨x, hx, h⟩ := (partOf_tup hl).1 h
        exact ⟨x, hx, y, p, h, hy, rfl⟩
  | .none, _ | .bool _, _ | .num _, _ | .str _, _ | .list _, _ | .dict _, _ | .other _ _ _, _ => by
    refine ⟨[], by simp [hasComponents], fun r => ⟨by simp, ?_⟩⟩
    rintro ⟨y, p, h, _⟩
    cases h
theorem hasComponentsL_spec : ∀ (l : List Py), namesOk l → ∃ R, hasComponentsL l = .ok R ∧
    ∀ r, r ∈ R ↔ ∃ x ∈ l, ∃ y p, PartOf y p x ∧ isVarPy y = true ∧ r = hasComp (extractAttr p) y
  | [], _ => ⟨[], rfl, by simp⟩
  | x :: xs, h => by
    obtain ⟨R, e, h1⟩ := hasComponents_spec x h.1
    obtain ⟨R', e', h2⟩ := hasComponentsL_spec xs h.2
    refine ⟨R ++ R', by simp [hasComponentsL, e, e', ok_bind, pure, Except.pure], fun r => ?_⟩
    simp [h1, h2]
end

/-! ### Undoing the extraction of a name -/

theorem mapRes_ok {α β : Type} {f : α → Res β} {g : α → β} {l : List α} (h : ∀ x ∈ l, f x = .ok (g x)) :
    mapRes f l = .ok (l.map g) := by
  induction l with
  | nil => rfl
  | cons x l ih =>
    simp [mapRes, h x List.mem_cons_self, ih fun y hy => h y (List.mem_cons_of_mem _ hy), ok_bind, pure,
      Except.pure]

theorem extractAttrL_eq (l : List Py) : extractAttrL l = l.map extractAttr := by
  induction l with
  | nil => rfl
  | cons x l ih => simp [extractAttrL, ih]

theorem mapRes_map {α β γ : Type} (f : β → Res γ) (g : α → β) (l : List α) :
    mapRes f (l.map g) = mapRes (f ∘ g) l := by
  induction l with
  | nil => rfl
  | cons x l ih => simp [mapRes, ih]

mutual
theorem renameEmb_extract {m : Dict Py Py} (hm : ∀ x w, m.get? x = some w → isVarPy x = true) :
    ∀ (a : Py) (n : ℕ), nameDepth a < n →
    (∀ y p, PartOf y p a → isVarPy y = true → m.get? y = some (.tup [y, extractAttr p])) →
    (∀ y, Stands y a → m.get? y = none) →
    renameEmb m n (extractAttr a) = .ok a
  | .tup l, n + 1, hn, hp, hs => by
    have hnone : ∀ l, m.get? (.tup l) = none := fun l => by
      cases e : m.get? (.tup l) with
      | none => rfl
      | some w => simpa [isVarPy] using hm _ _ e
    rcases tup_cases l with ⟨a, b, rfl⟩ | hl
    · have hb : renameEmb m n (extractAttr b) = .ok b :=
        renameEmb_extract hm b n (by simp [nameDepth, nameDepthL] at hn; omega)
          (fun y p h hy => hp y p (.outer h) hy) fun y h => hs y (.outer h)
      by_cases ha : isVarPy a = true
      · have := hp a b .here ha
        simp only [extractAttr, ha, if_true]
        rw [renameEmb.eq_def]
        simp [this, hb, ok_bind, pure, Except.pure]
      · simp only [extractAttr, ha]
        rw [if_neg (by simp), renameEmb.eq_def]
        simp [hnone, hb, ok_bind, pure, Except.pure]
    · have hL := renameEmbL_extract hm l n (by simp [nameDepth] at hn; omega)
        (fun x hx y p h hy => hp y p (.elem hl hx h) hy) fun x hx y h => hs y (.elem hl hx h)
      rw [extractAttr_tup hl, renameEmb.eq_def]
      rw [extractAttrL_eq] at hL ⊢
      simp only [hnone]
      match l, hl, hL with
      | [], _, _ => simp [mapRes, ok_bind, pure, Except.pure]
      | [x], _, hL => simp only [List.map_cons, List.map_nil] at hL ⊢; simp [hL, ok_bind, pure, Except.pure]
      | x :: y :: z :: l, _, hL => simp only [List.map_cons] at hL ⊢; simp [hL, ok_bind, pure, Except.pure]
  | .none, n + 1, _, _, hs => by simp [extractAttr, renameEmb, hs _ .here]
  | .bool _, n + 1, _, _, hs => by simp [extractAttr, renameEmb, hs _ .here]
  | .num _, n + 1, _, _, hs => by simp [extractAttr, renameEmb, hs _ .here]
  | .str _, n + 1, _, _, hs => by simp [extractAttr, renameEmb, hs _ .here]
  | .list _, n + 1, _, _, hs => by simp [extractAttr, renameEmb, hs _ .here]
  | .dict _, n + 1, _, _, hs => by simp [extractAttr, renameEmb, hs _ .here]
  | .other _ _ _, n + 1, _, _, hs => by simp [extractAttr, renameEmb, hs _ .here]
theorem renameEmbL_extract {m : Dict Py Py} (hm : ∀ x w, m.get? x = some w → isVarPy x = true) :
    ∀ (l : List Py) (n : ℕ), nameDepthL l < n →
    (∀ x ∈ l, ∀ y p, PartOf y p x → isVarPy y = true → m.get? y = some (.tup [y, extractAttr p])) →
    (∀ x ∈ l, ∀ y, Stands y x → m.get? y = none) →
    mapRes (renameEmb m n) (extractAttrL l) = .ok l
  | [], _, _, _, _ => rfl
  | x :: xs, n, hn, hp, hs => by
    have h1 := renameEmb_extract hm x n (by simp [nameDepthL] at hn; exact hn.1)
      (hp x List.mem_cons_self) (hs x List.mem_cons_self)
    have h2 := renameEmbL_extract hm xs n (by simp [nameDepthL] at hn; exact hn.2)
      (fun x hx => hp x (List.mem_cons_of_mem _ hx)) fun x hx => hs x (List.mem_cons_of_mem _ hx)
    simp [extractAttrL, mapRes, h1, h2, ok_bind, pure, Except.pure]
end

/-! ### The instance -/

theorem compEntry_hasComp (x y : Py) : compEntry (hasComp x y) = some (y, .tup [y, x]) := by
  simp [compEntry, hasComp]

theorem compEntry_some {a : Py} {e : Py × Py} (h : compEntry a = some e) :
    ∃ x y, a = hasComp x y ∧ e = (y, .tup [y, x]) := by
  unfold compEntry at h
  split at h
  · rename_i r x y
    split at h
    · rename_i hr
      cases h
      exact ⟨x, y, by rw [hr]; rfl, rfl⟩
    · simp at h
  · simp at h

/-- The entries that are not the code's relations. -/
def plain (i : PyInst) : PyInst := i.filter fun p => (compEntry p.1).isNone

theorem plain_set_comp {d : PyInst} {k v : Py} (h : compEntry k ≠ none) : plain (d.set k v) = plain d := by
  have hk : ¬ (compEntry k).isNone = true := by simpa using h
  induction d with
  | nil => simp [plain, Dict.set, hk]
  | cons p d ih =>
    obtain ⟨a, b⟩ := p
    unfold plain at ih ⊢
    by_cases e : a = k
    · subst e; simp [Dict.set, hk]
    · simp only [Dict.set, e, if_false, List.filter_cons, ih]

theorem plain_setAll_comp {d : PyInst} {rs : List Py} (h : ∀ r ∈ rs, compEntry r ≠ none) :
    plain (setAll d (rs.map fun r => (r, .bool true))) = plain d := by
  induction rs generalizing d with
  | nil => rfl
  | cons r rs ih =>
    simp only [List.map_cons, setAll, List.foldl_cons] at ih ⊢
    rw [ih fun r hr => h r (List.mem_cons_of_mem _ hr), plain_set_comp (h r List.mem_cons_self)]

theorem keys_setAll {d e : PyInst} {k : Py} :
    k ∈ Dict.keys (setAll d e) ↔ k ∈ Dict.keys d ∨ k ∈ Dict.keys e := by
  induction e generalizing d with
  | nil => simp [setAll]
  | cons p e ih =>
    have : setAll d (p :: e) = setAll (d.set p.1 p.2) e := rfl
    rw [this, ih, Dict.mem_keys_set]
    simp only [Dict.keys_cons, List.mem_cons]
    tauto

theorem mem_plain_keys {d : PyInst} {k : Py} (h : compEntry k = none) :
    k ∈ Dict.keys d ↔ k ∈ Dict.keys (plain d) := by
  unfold Dict.keys plain
  simp only [List.mem_map, List.mem_filter]
  constructor
  · rintro ⟨p, hp, rfl⟩; exact ⟨p, ⟨hp, by simp [h]⟩, rfl⟩
  · rintro ⟨p, ⟨hp, _⟩, rfl⟩; exact ⟨p, hp, rfl⟩

theorem compEntry_extract {a : Py} (h : ∀ x y, a ≠ hasComp x y) : compEntry (extractAttr a) = none := by
  cases e : compEntry (extractAttr a) with
  | none => rfl
  | some w =>
    obtain ⟨x, y, e1, _⟩ := compEntry_some e
    exfalso
    cases a with
    | tup l =>
      rcases tup_cases l with ⟨a, b, rfl⟩ | hl
      · by_cases ha : isVarPy a = true
        · simp only [extractAttr, ha, if_true] at e1
          subst e1; simp [isVarPy, hasComp] at ha
        · simp [extractAttr, ha, hasComp] at e1
      · rw [extractAttr_tup hl, extractAttrL_eq] at e1
        simp only [hasComp, Py.tup.injEq] at e1
        match l, e1, h with
        | [], e1, _ => simp at e1
        | [_], e1, _ => simp at e1
        | [_, _], e1, _ => simp at e1
        | _ :: _ :: _ :: _ :: _, e1, _ => simp at e1
        | [u, v, w], e1, h =>
          simp only [List.map_cons, List.map_nil, List.cons.injEq, and_true] at e1
          have : u = .str c!"has-component" := by
            cases u with
            | tup l =>
              rcases tup_cases l with ⟨a, b, rfl⟩ | hl
              · by_cases ha : isVarPy a = true
                · have e3 := e1.1
                  simp only [extractAttr, ha, if_true] at e3
                  subst e3; simp [isVarPy, isVar] at ha
                · simp [extractAttr, ha] at e1
              · rw [extractAttr_tup hl] at e1; simp at e1
            | _ => simpa [extractAttr] using e1.1
          subst this
          exact h v w rfl
    | _ => simp [extractAttr, hasComp] at e1

theorem nodup_setAll {d e : PyInst} (h : Dict.Nodup d) : Dict.Nodup (setAll d e) := by
  induction e generalizing d with
  | nil => exact h
  | cons p e ih => exact ih (Dict.nodup_set h _ _)

theorem get?_setAll_true {d : PyInst} {R : List Py}
    (h : ∀ x y v, Dict.get? d (hasComp x y) = some v → v = .bool true) {x y v : Py}
    (e : Dict.get? (setAll d (R.map fun r => (r, .bool true))) (hasComp x y) = some v) :
    v = .bool true := by
  induction R generalizing d with
  | nil => exact h x y v e
  | cons r R ih =>
    refine ih (d := d.set r (.bool true)) (fun x y v e => ?_) e
    rw [Dict.get?_set] at e
    split at e
    · exact (Option.some.inj e).symm
    · exact h x y v e

/-- The result of the extraction: the renamed entries in order, and the relations of all names. -/
theorem extractD_spec {l : PyInst} {new : PyInst} (hok : ∀ e ∈ l, nameOk e.1)
    (hfree : ∀ e ∈ l, ∀ x y, e.1 ≠ hasComp x y)
    (hn : Dict.Nodup (plain new ++ l.map fun e => (extractAttr e.1, e.2))) :
    ∃ G, extractD l new = .ok G ∧ plain G = plain new ++ l.map (fun e => (extractAttr e.1, e.2)) ∧
      (∀ x y, hasComp x y ∈ Dict.keys G ↔ hasComp x y ∈ Dict.keys new ∨
        ∃ e ∈ l, ∃ p, PartOf y p e.1 ∧ isVarPy y = true ∧ x = extractAttr p) ∧
      ((∀ x y v, Dict.get? new (hasComp x y) = some v → v = .bool true) →
        ∀ x y v, Dict.get? G (hasComp x y) = some v → v = .bool true) ∧
      (Dict.Nodup new → Dict.Nodup G) := by
  induction l generalizing new with
  | nil => exact ⟨new, rfl, by simp, by simp, id, id⟩
  | cons e l ih =>
    obtain ⟨a, v⟩ := e
    obtain ⟨R, eR, hR⟩ := hasComponents_spec a (hok _ List.mem_cons_self)
    have hR' : ∀ r ∈ R, compEntry r ≠ none := by
      intro r hr
      obtain ⟨y, p, _, _, rfl⟩ := (hR r).1 hr
      simp [compEntry_hasComp]
    have hca : compEntry (extractAttr a) = none := compEntry_extract (hfree _ List.mem_cons_self)
    have hpl := plain_setAll_comp (d := new) hR'
    have hna : extractAttr a ∉ Dict.keys (setAll new (R.map fun r => (r, .bool true))) := by
      rw [mem_plain_keys hca, hpl]
      unfold Dict.Nodup at hn
      rw [Dict.keys_append, List.nodup_append] at hn
      exact fun hc => hn.2.2 _ hc (extractAttr a) (by simp) rfl
    have hset : plain ((setAll new (R.map fun r => (r, .bool true))).set (extractAttr a) v) =
        plain new ++ [(extractAttr a, v)] := by
      rw [Dict.set_of_not_mem hna]
      have : ∀ d e : PyInst, plain (d ++ e) = plain d ++ plain e := fun d e => List.filter_append ..
      rw [this, hpl]
      simp [plain, hca]
    obtain ⟨G, eG, h1, h2, h3, h4⟩ := ih (new := (setAll new (R.map fun r => (r, .bool true))).set (extractAttr a) v)
      (fun e he => hok e (List.mem_cons_of_mem _ he)) (fun e he => hfree e (List.mem_cons_of_mem _ he))
      (by rw [hset]; simpa using hn)
    refine ⟨G, by simp only [extractD, eR, ok_bind, eG], by rw [h1, hset]; simp, fun x y => ?_,
      fun hv => h3 fun x y v e => ?_, fun hnd => h4 (Dict.nodup_set (nodup_setAll hnd) _ _)⟩
    rotate_left
    · rw [Dict.get?_set, if_neg (by
        intro hc; rw [hc, compEntry_hasComp] at hca; simp at hca)] at e
      exact get?_setAll_true hv e
    rw [h2, Dict.mem_keys_set, keys_setAll]
    have e1 : hasComp x y ≠ extractAttr a := by
      intro hc; rw [← hc, compEntry_hasComp] at hca; simp at hca
    have e2 : hasComp x y ∈ Dict.keys (R.map fun r => (r, (.bool true : Py))) ↔
        ∃ p, PartOf y p a ∧ isVarPy y = true ∧ x = extractAttr p := by
      simp only [Dict.keys, List.map_map, Function.comp_def, List.map_id', hR]
      constructor
      · rintro ⟨y', p, h, hy, e⟩
        simp only [hasComp, Py.tup.injEq, List.cons.injEq, and_true, true_and] at e
        obtain ⟨rfl, rfl⟩ := e
        exact ⟨p, h, hy, rfl⟩
      · rintro ⟨p, h, hy, rfl⟩
        exact ⟨y, p, h, hy, rfl⟩
    rw [e2]
    simp only [e1, false_or, List.mem_cons, exists_eq_or_imp, or_assoc]

theorem get?_ofPairs {ps : List (Py × Py)} {k w : Py} (hmem : (k, w) ∈ ps)
    (huniq : ∀ w', (k, w') ∈ ps → w' = w) : Dict.get? (Dict.ofPairs ps) k = some w := by
  unfold Dict.ofPairs
  have key : ∀ (ps : List (Py × Py)) (d : PyInst), (∀ w', (k, w') ∈ ps → w' = w) →
      ((k, w) ∈ ps ∨ Dict.get? d k = some w) →
      Dict.get? (ps.foldl (fun d p => Dict.set d p.1 p.2) d) k = some w := by
    intro ps
    induction ps with
    | nil => intro d _ h; simpa using h
    | cons p ps ih =>
      obtain ⟨a, b⟩ := p
      intro d hu h
      refine ih _ (fun w' h' => hu w' (List.mem_cons_of_mem _ h')) ?_
      by_cases hin : (k, w) ∈ ps
      · exact .inl hin
      · right
        rw [Dict.get?_set]
        split
        · rename_i e
          simp only at e
          subst e
          rw [hu b List.mem_cons_self]
        · rename_i hne
          rcases h with h | h
          · rcases List.mem_cons.1 h with h | h
            · cases h; exact absurd rfl hne
            · exact absurd h hin
          · exact h
  exact key ps [] huniq (.inl hmem)

theorem mem_ofPairs_keys {ps : List (Py × Py)} {k : Py} :
    k ∈ Dict.keys (Dict.ofPairs ps) ↔ ∃ w, (k, w) ∈ ps := by
  have : Dict.ofPairs ps = setAll [] ps := rfl
  rw [this, keys_setAll]
  simp [Dict.keys]

theorem embedD_plain {m : Dict Py Py} {fuel : ℕ} {l : PyInst} {new : PyInst} {g : Py → Py}
    (h : ∀ e ∈ plain l, renameEmb m fuel e.1 = .ok (g e.1))
    (hn : Dict.Nodup (new ++ (plain l).map fun e => (g e.1, e.2))) :
    embedD m fuel l new = .ok (new ++ (plain l).map fun e => (g e.1, e.2)) := by
  induction l generalizing new with
  | nil => simp [embedD, plain]
  | cons e l ih =>
    obtain ⟨a, v⟩ := e
    cases hc : compEntry a with
    | some w =>
      have e1 : plain ((a, v) :: l) = plain l := by simp [plain, hc]
      simp only [embedD, hc]
      rw [e1] at h hn ⊢
      exact ih h hn
    | none =>
      have e1 : plain ((a, v) :: l) = (a, v) :: plain l := by simp [plain, hc]
      rw [e1] at h hn ⊢
      simp only [embedD, hc, h _ List.mem_cons_self, ok_bind]
      have hk : g a ∉ Dict.keys new := by
        unfold Dict.Nodup at hn
        rw [Dict.keys_append, List.nodup_append] at hn
        exact fun hk => hn.2.2 _ hk (g a) (by simp) rfl
      rw [Dict.set_of_not_mem hk, ih (fun e he => h e (List.mem_cons_of_mem _ he)) (by simpa using hn)]
      simp

/-- Embedding undoes extracting. -/
theorem embed_extract {F : PyInst} (hF : Dict.Nodup F) (hd : DistinctObjects (Dict.keys F)) {fuel : ℕ}
    (hf : ∀ a ∈ Dict.keys F, nameDepth a < fuel) :
    ∃ G, extractSub F = .ok G ∧ embedSub fuel G = .ok F ∧ Dict.Nodup G ∧
      (∀ a v, (a, v) ∈ G ↔ (∃ b, (b, v) ∈ F ∧ a = extractAttr b) ∨
        (v = .bool true ∧ ∃ b ∈ Dict.keys F, ∃ y p, PartOf y p b ∧ Variable y ∧
          a = .tup [.str c!"has-component", extractAttr p, y])) := by
  have hmem : ∀ e ∈ F, e.1 ∈ Dict.keys F := fun e he => List.mem_map.2 ⟨e, he, rfl⟩
  -- any mapping that has the places of all variables
  have hren : ∀ m : Dict Py Py, (∀ x w, m.get? x = some w → isVarPy x = true) →
      (∀ a ∈ Dict.keys F, ∀ y p, PartOf y p a → isVarPy y = true →
        m.get? y = some (.tup [y, extractAttr p])) →
      (∀ a ∈ Dict.keys F, ∀ y, Stands y a → m.get? y = none) →
      ∀ a ∈ Dict.keys F, renameEmb m fuel (extractAttr a) = .ok a :=
    fun m h1 h2 h3 a ha => renameEmb_extract h1 a fuel (hf a ha) (h2 a ha) (h3 a ha)
  -- the mapping that the extracted instance determines
  have hmap : ∀ G : PyInst, (∀ x y, hasComp x y ∈ Dict.keys G ↔
        ∃ e ∈ F, ∃ p, PartOf y p e.1 ∧ isVarPy y = true ∧ x = extractAttr p) →
      ∀ a ∈ Dict.keys F, renameEmb (soMapping G) fuel (extractAttr a) = .ok a := by
    intro G hG
    have hpair : ∀ y w, (y, w) ∈ G.filterMap (fun p => compEntry p.1) ↔
        ∃ x, hasComp x y ∈ Dict.keys G ∧ w = .tup [y, x] := by
      intro y w
      rw [List.mem_filterMap]
      constructor
      · rintro ⟨p, hp, e⟩
        obtain ⟨x, y', e1, e2⟩ := compEntry_some e
        cases e2
        exact ⟨x, List.mem_map.2 ⟨p, hp, e1⟩, rfl⟩
      · rintro ⟨x, hx, rfl⟩
        obtain ⟨p, hp, e⟩ := List.mem_map.1 hx
        exact ⟨p, hp, by rw [e, compEntry_hasComp]⟩
    have hkey : ∀ y, y ∈ Dict.keys (soMapping G) →
        ∃ e ∈ F, ∃ p, PartOf y p e.1 ∧ isVarPy y = true := by
      intro y hy
      obtain ⟨w, hw⟩ := mem_ofPairs_keys.1 hy
      obtain ⟨x, hx, _⟩ := (hpair y w).1 hw
      obtain ⟨e, he, p, h1, h2, _⟩ := (hG x y).1 hx
      exact ⟨e, he, p, h1, h2⟩
    refine hren _ ?_ ?_ ?_
    · intro x w hx
      obtain ⟨_, _, _, _, h⟩ := hkey x (Dict.get?_isSome.1 (by rw [hx]; rfl))
      exact h
    · intro a ha y p hyp hy
      obtain ⟨e, he, rfl⟩ := List.mem_map.1 ha
      refine get?_ofPairs ((hpair _ _).2 ⟨_, (hG _ _).2 ⟨e, he, p, hyp, hy, rfl⟩, rfl⟩) ?_
      intro w' hw'
      obtain ⟨x, hx, rfl⟩ := (hpair _ _).1 hw'
      obtain ⟨e', he', p', hyp', _, rfl⟩ := (hG _ _).1 hx
      rw [hd.one _ (hmem e he) _ (hmem e' he') y p p' (isVarPy_iff.1 hy) hyp hyp']
    · intro a ha y hs
      rw [Dict.get?_eq_none]
      intro hc
      obtain ⟨e, he, p, hyp, hy⟩ := hkey y hc
      exact hd.top _ (hmem e he) a ha y p (isVarPy_iff.1 hy) hyp hs
  -- a mapping exists, so the extracted names are different
  have hinj : ∀ a ∈ Dict.keys F, ∀ b ∈ Dict.keys F, extractAttr a = extractAttr b → a = b := by
    let G0 : PyInst := F.flatMap fun e =>
      match hasComponents e.1 with
      | .ok R => R.map fun r => (r, .bool true)
      | .error _ => []
    have hG0 : ∀ x y, hasComp x y ∈ Dict.keys G0 ↔
        ∃ e ∈ F, ∃ p, PartOf y p e.1 ∧ isVarPy y = true ∧ x = extractAttr p := by
      intro x y
      simp only [G0, Dict.keys, List.mem_map, List.mem_flatMap]
      constructor
      · rintro ⟨q, ⟨e, he, hq⟩, hx⟩
        obtain ⟨R, eR, hR⟩ := hasComponents_spec e.1 (hd.ok _ (hmem e he))
        rw [eR] at hq
        obtain ⟨r, hr, rfl⟩ := List.mem_map.1 hq
        obtain ⟨y', p, h1, h2, e1⟩ := (hR r).1 hr
        simp only at hx
        rw [e1] at hx
        simp only [hasComp, Py.tup.injEq, List.cons.injEq, and_true, true_and] at hx
        obtain ⟨rfl, rfl⟩ := hx
        exact ⟨e, he, p, h1, h2, rfl⟩
      · rintro ⟨e, he, p, h1, h2, rfl⟩
        obtain ⟨R, eR, hR⟩ := hasComponents_spec e.1 (hd.ok _ (hmem e he))
        refine ⟨(hasComp (extractAttr p) y, .bool true), ⟨e, he, ?_⟩, rfl⟩
        rw [eR]
        exact List.mem_map.2 ⟨_, (hR _).2 ⟨y, p, h1, h2, rfl⟩, rfl⟩
    intro a ha b hb e
    have h1 := hmap G0 hG0 a ha
    rw [e, hmap G0 hG0 b hb] at h1
    exact (Except.ok.inj h1).symm
  have hn : Dict.Nodup (F.map fun e => (extractAttr e.1, e.2)) := by
    unfold Dict.Nodup Dict.keys
    rw [List.map_map, show (Prod.fst ∘ fun e : Py × Py => (extractAttr e.1, e.2)) =
      extractAttr ∘ Prod.fst from rfl, ← List.map_map]
    exact List.Nodup.map_on (fun x hx y hy e => hinj x hx y hy e) hF
  obtain ⟨G, eG, h1, h2, h3, h4⟩ := extractD_spec (l := F) (new := []) (fun e he => hd.ok _ (hmem e he))
    (fun e he x y hc => hd.free x y (by have := hmem e he; rw [hc] at this; exact this)) (by simpa [plain] using hn)
  have hb := hmap G (fun x y => by rw [h2]; simp [Dict.keys])
  have hpl : plain G = F.map fun e => (extractAttr e.1, e.2) := by simpa [plain] using h1
  -- the inverse of `extractAttr` on the names
  let g : Py → Py := fun x => match renameEmb (soMapping G) fuel x with
    | .ok a => a
    | .error _ => x
  have hg : ∀ a ∈ Dict.keys F, g (extractAttr a) = a := by
    intro a ha; simp only [g, hb a ha]
  have hmapg : (plain G).map (fun e => (g e.1, e.2)) = F := by
    rw [hpl, List.map_map]
    conv_rhs => rw [← List.map_id F]
    apply List.map_congr_left
    intro e he
    simp [hg _ (hmem e he)]
  have := embedD_plain (m := soMapping G) (fuel := fuel) (l := G) (new := []) (g := g) (by
    intro e he
    rw [hpl] at he
    obtain ⟨f, hf, rfl⟩ := List.mem_map.1 he
    simp only [hb _ (hmem f hf), hg _ (hmem f hf)]) (by rw [hmapg]; simpa using hF)
  have hnd : Dict.Nodup G := h4 Dict.nodup_nil
  refine ⟨G, eG, by rw [embedSub, this, hmapg]; simp, hnd, fun a v => ?_⟩
  have hpm : compEntry a = none → ((a, v) ∈ G ↔ (a, v) ∈ plain G) := by
    intro hc; simp [plain, hc]
  have hfr : ∀ b w, (b, w) ∈ F → compEntry (extractAttr b) = none := fun b w hb =>
    compEntry_extract fun x y hc => hd.free x y (by have := hmem _ hb; rw [hc] at this; exact this)
  constructor
  · intro hav
    cases hc : compEntry a with
    | none =>
      have := (hpm hc).1 hav
      rw [hpl] at this
      obtain ⟨e, he, e1⟩ := List.mem_map.1 this
      cases e1
      exact .inl ⟨e.1, he, rfl⟩
    | some w =>
      obtain ⟨x, y, rfl, _⟩ := compEntry_some hc
      rcases (h2 x y).1 (List.mem_map.2 ⟨_, hav, rfl⟩) with h5 | ⟨e, he, p, h5, h6, rfl⟩
      · simp [Dict.keys] at h5
      exact .inr ⟨h3 (by simp) _ _ _ (Dict.get?_of_mem hnd hav), e.1, hmem _ he, y, p, h5,
        isVarPy_iff.1 h6, rfl⟩
  · rintro (⟨b, hb', rfl⟩ | ⟨rfl, b, hb', y, p, h5, h6, rfl⟩)
    · rw [hpm (hfr b v hb'), hpl]
      exact List.mem_map.2 ⟨(b, v), hb', rfl⟩
    · obtain ⟨e, he, rfl⟩ := List.mem_map.1 hb'
      have : hasComp (extractAttr p) y ∈ Dict.keys G :=
        (h2 _ _).2 (.inr ⟨e, he, p, h5, isVarPy_iff.2 h6, rfl⟩)
      obtain ⟨q, hq, e1⟩ := List.mem_map.1 this
      obtain ⟨q1, q2⟩ := q
      simp only at e1
      subst e1
      have := h3 (by simp) _ _ _ (Dict.get?_of_mem hnd hq)
      subst this
      exact hq

end CF
