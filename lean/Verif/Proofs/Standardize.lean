/-
The name standardizer renames variables apart, and back.
-/
import Verif.Spec.Rename
import Verif.Proofs.Pipeline
import Verif.Proofs.Flatten

set_option linter.unusedSectionVars false

namespace CF

/-! ### Elements of lists -/

theorem renL_cons (f : Py → Py) (x : Py) (xs : List Py) :
    renL f (x :: xs) = (if x.isDict then renV f x else x) :: renL f xs := by
  cases x <;> simp [renL, renV, Py.isDict]

theorem varsL_cons (x : Py) (xs : List Py) :
    varsL (x :: xs) = (if x.isDict then varsV x else []) ++ varsL xs := by
  cases x <;> simp [varsL, varsV, Py.isDict]

theorem relsOkL_cons (x : Py) (xs : List Py) :
    relsOkL (x :: xs) ↔ (x.isDict = true → relsOkV x) ∧ relsOkL xs := by
  cases x <;> simp [relsOkL, relsOkV, Py.isDict]

theorem objectsOkL_cons (x : Py) (xs : List Py) :
    objectsOkL (x :: xs) ↔ (x.isDict = true → objectsOkV x) ∧ objectsOkL xs := by
  cases x <;> simp [objectsOkL, objectsOkV, Py.isDict]

theorem sortL_cons (cfg : StdCfg) (x : Py) (xs : List Py) :
    sortL cfg (x :: xs) = (if x.isDict then sortVal cfg x else x) :: sortL cfg xs := by
  cases x <;> simp [sortL, sortVal, Py.isDict]

theorem undoStdL_cons (rm : Dict Py Py) (x : Py) (xs : List Py) :
    undoStdL rm (x :: xs) = (if x.isDict then undoStdV rm x else x) :: undoStdL rm xs := by
  cases x <;> simp [undoStdL, undoStdV, Py.isDict]

theorem renD_eq (f : Py → Py) (l : List (Py × Py)) :
    renD f l = l.map fun p => (renEl f p.1, renV f p.2) := by
  induction l with
  | nil => rfl
  | cons p l ih => simp [renD, ih]

theorem mem_varsD {x : Py} {l : List (Py × Py)} :
    x ∈ varsD l ↔ ∃ p ∈ l, x ∈ varsEl p.1 ∨ x ∈ varsV p.2 := by
  induction l with
  | nil => simp [varsD]
  | cons p l ih => simp [varsD, ih, or_assoc]

theorem relsOkD_iff {l : List (Py × Py)} : relsOkD l ↔ ∀ p ∈ l, attrOk p.1 ∧ relsOkV p.2 := by
  induction l with
  | nil => simp [relsOkD]
  | cons p l ih => simp [relsOkD, ih]

theorem objectsOkD_iff {l : List (Py × Py)} :
    objectsOkD l ↔ ∀ p ∈ l, (Variable p.1 → (p.2.isDict || p.2.isList) = true) ∧
      (p.1.isTup = true → varsEl p.1 ≠ [] → (p.2.isDict || p.2.isList) = false) ∧ objectsOkV p.2 := by
  induction l with
  | nil => simp [objectsOkD]
  | cons p l ih => simp only [objectsOkD, ih, List.mem_cons, forall_eq_or_imp]

mutual
theorem varsEl_variable {a : Py} : ∀ x ∈ varsEl a, Variable x := by
  match a with
  | .tup l => exact varsEls_variable
  | .str s =>
    intro x hx
    simp only [varsEl] at hx
    split at hx
    · rename_i h; simp only [List.mem_singleton] at hx; exact hx ▸ h
    · simp at hx
  | .none | .bool _ | .num _ | .list _ | .dict _ | .other _ _ _ => simp [varsEl, Variable]
theorem varsEls_variable {l : List Py} : ∀ x ∈ varsEls l, Variable x := by
  match l with
  | [] => simp [varsEls]
  | a :: l =>
    intro x hx
    simp only [varsEls, List.mem_append] at hx
    rcases hx with h | h
    · exact varsEl_variable x h
    · exact varsEls_variable x h
end

/-! ### Renaming attributes -/

theorem isTup_of_variable {x : Py} (h : Variable x) : x.isTup = false := by
  obtain ⟨s, rfl⟩ := h; rfl

theorem renEl_var {f : Py → Py} {x : Py} (h : Variable x) : renEl f x = f x := by
  obtain ⟨s, rfl⟩ := h
  simp [renEl, Variable]

theorem varsEl_var {x : Py} (h : Variable x) : varsEl x = [x] := by
  obtain ⟨s, rfl⟩ := h
  simp [varsEl, Variable]

theorem renEl_const {f : Py → Py} {x : Py} (h : ¬ Variable x) (ht : x.isTup = false) : renEl f x = x := by
  cases x <;> simp_all [renEl, Py.isTup]

/-- A renaming that is injective on the names `S`, into variables. -/
structure InjOn (f : Py → Py) (S : Py → Prop) : Prop where
  inj : ∀ x y, S x → S y → f x = f y → x = y
  var : ∀ x, S x → Variable (f x)

theorem renEl_isTup {f : Py → Py} {S : Py → Prop} (hf : InjOn f S) {a : Py} (ha : ∀ x ∈ varsEl a, S x) :
    (renEl f a).isTup = a.isTup := by
  by_cases hv : Variable a
  · rw [renEl_var hv, isTup_of_variable hv, isTup_of_variable (hf.var _ (ha _ (by simp [varsEl_var hv])))]
  · cases h : a.isTup with
    | true => cases a <;> simp_all [Py.isTup, renEl]
    | false => rw [renEl_const hv h, h]

mutual
theorem renEl_inj {f : Py → Py} {S : Py → Prop} (hf : InjOn f S) : ∀ (a b : Py),
    (∀ x ∈ varsEl a, S x) → (∀ x ∈ varsEl b, S x) → renEl f a = renEl f b → a = b
  | .tup l, b, ha, hb, e => by
    have h1 : (renEl f b).isTup = true := by rw [← e]; rfl
    rw [renEl_isTup hf hb] at h1
    cases b with
    | tup l' =>
      simp only [renEl, Py.tup.injEq] at e
      rw [renEls_inj hf l l' ha hb e]
    | _ => simp [Py.isTup] at h1
  | .str s, b, ha, hb, e => renEl_inj_atom hf rfl ha hb e
  | .none, b, ha, hb, e => renEl_inj_atom hf rfl ha hb e
  | .bool _, b, ha, hb, e => renEl_inj_atom hf rfl ha hb e
  | .num _, b, ha, hb, e => renEl_inj_atom hf rfl ha hb e
  | .list _, b, ha, hb, e => renEl_inj_atom hf rfl ha hb e
  | .dict _, b, ha, hb, e => renEl_inj_atom hf rfl ha hb e
  | .other _ _ _, b, ha, hb, e => renEl_inj_atom hf rfl ha hb e
theorem renEl_inj_atom {f : Py → Py} {S : Py → Prop} (hf : InjOn f S) {a b : Py} (ht : a.isTup = false)
    (ha : ∀ x ∈ varsEl a, S x) (hb : ∀ x ∈ varsEl b, S x) (e : renEl f a = renEl f b) : a = b := by
  have ht' : b.isTup = false := by rw [← renEl_isTup hf hb, ← e, renEl_isTup hf ha, ht]
  by_cases h1 : Variable a
  · have ha' := ha a (by simp [varsEl_var h1])
    by_cases h2 : Variable b
    · rw [renEl_var h1, renEl_var h2] at e
      exact hf.inj a b ha' (hb b (by simp [varsEl_var h2])) e
    · rw [renEl_var h1, renEl_const h2 ht'] at e
      exact absurd (e ▸ hf.var a ha') h2
  · by_cases h2 : Variable b
    · rw [renEl_const h1 ht, renEl_var h2] at e
      exact absurd (e ▸ hf.var b (hb b (by simp [varsEl_var h2]))) h1
    · rwa [renEl_const h1 ht, renEl_const h2 ht'] at e
theorem renEls_inj {f : Py → Py} {S : Py → Prop} (hf : InjOn f S) : ∀ (l l' : List Py),
    (∀ x ∈ varsEls l, S x) → (∀ x ∈ varsEls l', S x) → renEls f l = renEls f l' → l = l'
  | [], [], _, _, _ => rfl
  | [], _ :: _, _, _, e => by simp [renEls] at e
  | _ :: _, [], _, _, e => by simp [renEls] at e
  | a :: l, b :: l', ha, hb, e => by
    simp only [renEls, List.cons.injEq] at e
    rw [renEl_inj hf a b (fun x hx => ha x (by simp [varsEls, hx])) (fun x hx => hb x (by simp [varsEls, hx])) e.1,
      renEls_inj hf l l' (fun x hx => ha x (by simp [varsEls, hx])) (fun x hx => hb x (by simp [varsEls, hx])) e.2]
end

theorem renD_nodup {f : Py → Py} {S : Py → Prop} (hf : InjOn f S) {l : List (Py × Py)} (hn : Dict.Nodup l)
    (hv : ∀ x ∈ varsD l, S x) {g : Py × Py → Py} :
    Dict.Nodup (l.map fun p => (renEl f p.1, g p)) := by
  unfold Dict.Nodup Dict.keys
  rw [List.map_map, show (Prod.fst ∘ fun p : Py × Py => (renEl f p.1, g p)) = renEl f ∘ Prod.fst from rfl,
    ← List.map_map]
  refine List.Nodup.map_on ?_ hn
  intro x hx y hy e
  obtain ⟨p, hp, rfl⟩ := List.mem_map.1 hx
  obtain ⟨q, hq, rfl⟩ := List.mem_map.1 hy
  exact renEl_inj hf _ _ (fun z hz => hv z (mem_varsD.2 ⟨p, hp, .inl hz⟩))
    (fun z hz => hv z (mem_varsD.2 ⟨q, hq, .inl hz⟩)) e

/-! ### Equal values stay equal -/

theorem same_isDict {a b : Py} (h : Py.same a b) : b.isDict = a.isDict := by
  cases a with
  | dict l => obtain ⟨l', rfl, _⟩ := h; rfl
  | list l => obtain ⟨l', rfl, _⟩ := h; rfl
  | tup l => obtain ⟨l', rfl, _⟩ := h; rfl
  | _ => have h : _ = _ := h; subst h; rfl

theorem same_isList {a b : Py} (h : Py.same a b) : b.isList = a.isList := by
  cases a with
  | dict l => obtain ⟨l', rfl, _⟩ := h; rfl
  | list l => obtain ⟨l', rfl, _⟩ := h; rfl
  | tup l => obtain ⟨l', rfl, _⟩ := h; rfl
  | _ => have h : _ = _ := h; subst h; rfl

theorem renV_atom {f : Py → Py} {v : Py} (h1 : v.isDict = false) (h2 : v.isList = false) : renV f v = v := by
  cases v <;> simp_all [renV, Py.isDict, Py.isList]

theorem renV_isDict (f : Py → Py) (v : Py) : (renV f v).isDict = v.isDict := by
  cases v <;> simp [renV, Py.isDict]

theorem renV_isList (f : Py → Py) (v : Py) : (renV f v).isList = v.isList := by
  cases v <;> simp [renV, Py.isList]

mutual
theorem same_renV {f : Py → Py} {S : Py → Prop} (hf : InjOn f S) : ∀ (v v' : Py), v'.wf →
    (∀ x ∈ varsV v', S x) → Py.same v v' → Py.same (renV f v) (renV f v')
  | .dict l, v', hw, hv, h => by
    obtain ⟨l', rfl, h1, h2⟩ := h
    exact ⟨_, rfl, by simp [renD_eq, h1], same_renD hf l l' hw.1 hw.2 hv h2⟩
  | .list l, v', hw, hv, h => by
    obtain ⟨l', rfl, h1⟩ := h
    exact ⟨_, rfl, same_renL hf l l' hw hv h1⟩
  | .tup l, v', _, _, h => by
    rwa [renV_atom rfl rfl, renV_atom (same_isDict h) (same_isList h)]
  | .none, v', _, _, h => by rwa [renV_atom rfl rfl, renV_atom (same_isDict h) (same_isList h)]
  | .bool _, v', _, _, h => by rwa [renV_atom rfl rfl, renV_atom (same_isDict h) (same_isList h)]
  | .num _, v', _, _, h => by rwa [renV_atom rfl rfl, renV_atom (same_isDict h) (same_isList h)]
  | .str _, v', _, _, h => by rwa [renV_atom rfl rfl, renV_atom (same_isDict h) (same_isList h)]
  | .other _ _ _, v', _, _, h => by rwa [renV_atom rfl rfl, renV_atom (same_isDict h) (same_isList h)]
theorem same_renL {f : Py → Py} {S : Py → Prop} (hf : InjOn f S) : ∀ (l l' : List Py), Py.wfL l' →
    (∀ x ∈ varsL l', S x) → Py.sameL l l' → Py.sameL (renL f l) (renL f l')
  | [], l', _, _, h => by
    have h : l' = [] := h
    subst h; exact rfl
  | x :: xs, l', hw, hv, h => by
    obtain ⟨y, ys, rfl, h1, h2⟩ := h
    rw [varsL_cons] at hv
    rw [renL_cons, renL_cons]
    refine ⟨_, _, rfl, ?_, same_renL hf xs ys hw.2 (fun z hz => hv z (by simp [hz])) h2⟩
    have e := same_isDict h1
    by_cases hx : x.isDict = true
    · rw [if_pos hx, if_pos (e.trans hx)]
      rw [if_pos (e.trans hx)] at hv
      exact same_renV hf x y hw.1 (fun z hz => hv z (by simp [hz])) h1
    · rw [if_neg hx, if_neg (by rw [e]; exact hx)]
      exact h1
theorem same_renD {f : Py → Py} {S : Py → Prop} (hf : InjOn f S) : ∀ (l l' : List (Py × Py)),
    Dict.Nodup l' → Py.wfD l' → (∀ x ∈ varsD l', S x) → Py.sameD l l' → Py.sameD (renD f l) (renD f l')
  | [], l', _, _, _, _ => trivial
  | (k, v) :: l, l', hn, hw, hv, ⟨⟨v', h1, h2⟩, h3⟩ => by
    have hm := Dict.mem_of_get? h1
    refine ⟨⟨renV f v', ?_, ?_⟩, same_renD hf l l' hn hw hv h3⟩
    · rw [renD_eq]
      exact Dict.get?_of_mem (renD_nodup hf hn hv) (List.mem_map.2 ⟨_, hm, rfl⟩)
    · exact same_renV hf v v' (Py.wfD_iff.1 hw _ hm) (fun x hx => hv x (mem_varsD.2 ⟨_, hm, .inr hx⟩)) h2
end

/-! ### Sorting -/

theorem sortD_eq (cfg : StdCfg) (l : List (Py × Py)) :
    sortD cfg l = l.map fun p => (p.1, sortVal cfg p.2) := by
  induction l with
  | nil => rfl
  | cons p l ih => simp [sortD, ih]

theorem sortEntries_perm (cfg : StdCfg) (l : PyInst) : (sortEntries cfg l).Perm l :=
  List.perm_insertionSort ..

theorem nodup_perm {d e : PyInst} (h : d.Perm e) : Dict.Nodup d ↔ Dict.Nodup e :=
  (h.map Prod.fst).nodup_iff

theorem sameD_of_perm {l d e : List (Py × Py)} (hn : Dict.Nodup d) (h : d.Perm e) (hs : Py.sameD l d) :
    Py.sameD l e := by
  rw [Py.sameD_iff] at hs ⊢
  intro k v hm
  obtain ⟨v', h1, h2⟩ := hs k v hm
  exact ⟨v', Dict.get?_of_mem ((nodup_perm h).1 hn) (h.mem_iff.1 (Dict.mem_of_get? h1)), h2⟩

mutual
theorem sortVal_spec (cfg : StdCfg) : ∀ (v : Py), v.wf → Py.same v (sortVal cfg v) ∧ (sortVal cfg v).wf ∧
    (relsOkV v → relsOkV (sortVal cfg v)) ∧ ∀ x, x ∈ varsV (sortVal cfg v) ↔ x ∈ varsV v
  | .dict l, h => by
    obtain ⟨h1, h2, h3, h4⟩ := sortD_spec cfg l h.2
    have hn : Dict.Nodup (sortD cfg l) := by
      have : Dict.keys (sortD cfg l) = Dict.keys l := by simp [sortD_eq, Dict.keys, Function.comp_def]
      unfold Dict.Nodup; rw [this]; exact h.1
    have hp := (sortEntries_perm cfg (sortD cfg l)).symm
    refine ⟨⟨_, rfl, ?_, sameD_of_perm hn hp ?_⟩, ⟨(nodup_perm hp).1 hn, ?_⟩, fun hr => ?_, fun x => ?_⟩
    · rw [← hp.length_eq, sortD_eq]; simp
    · rw [Py.sameD_iff]
      intro k v hm
      refine ⟨sortVal cfg v, Dict.get?_of_mem hn ?_, h1 k v hm⟩
      rw [sortD_eq]
      exact List.mem_map.2 ⟨_, hm, rfl⟩
    · rw [Py.wfD_iff] at h2 ⊢
      exact fun p hm => h2 p (hp.mem_iff.2 hm)
    · have := h3 hr
      show relsOkD _
      rw [relsOkD_iff] at this ⊢
      exact fun p hm => this p (hp.mem_iff.2 hm)
    · show x ∈ varsD _ ↔ x ∈ varsD _
      rw [← h4, mem_varsD, mem_varsD]
      constructor
      · rintro ⟨p, hm, hx⟩; exact ⟨p, hp.mem_iff.2 hm, hx⟩
      · rintro ⟨p, hm, hx⟩; exact ⟨p, hp.mem_iff.1 hm, hx⟩
  | .list l, h => by
    obtain ⟨h1, h2, h3, h4⟩ := sortL_spec cfg l h
    exact ⟨⟨_, rfl, h1⟩, h2, h3, h4⟩
  | .tup l, h => ⟨Py.same_refl h, h, id, fun _ => Iff.rfl⟩
  | .none, h => ⟨Py.same_refl h, h, id, fun _ => Iff.rfl⟩
  | .bool _, h => ⟨Py.same_refl h, h, id, fun _ => Iff.rfl⟩
  | .num _, h => ⟨Py.same_refl h, h, id, fun _ => Iff.rfl⟩
  | .str _, h => ⟨Py.same_refl h, h, id, fun _ => Iff.rfl⟩
  | .other _ _ _, h => ⟨Py.same_refl h, h, id, fun _ => Iff.rfl⟩
theorem sortL_spec (cfg : StdCfg) : ∀ (l : List Py), Py.wfL l → Py.sameL l (sortL cfg l) ∧
    Py.wfL (sortL cfg l) ∧ (relsOkL l → relsOkL (sortL cfg l)) ∧ ∀ x, x ∈ varsL (sortL cfg l) ↔ x ∈ varsL l
  | [], _ => ⟨rfl, trivial, id, fun _ => Iff.rfl⟩
  | x :: xs, h => by
    obtain ⟨h1, h2, h3, h4⟩ := sortVal_spec cfg x h.1
    obtain ⟨g1, g2, g3, g4⟩ := sortL_spec cfg xs h.2
    rw [sortL_cons]
    have e := same_isDict h1
    by_cases hx : x.isDict = true
    · rw [if_pos hx]
      refine ⟨⟨_, _, rfl, h1, g1⟩, ⟨h2, g2⟩, fun hr => ?_, fun z => ?_⟩
      · rw [relsOkL_cons] at hr ⊢
        exact ⟨fun _ => h3 (hr.1 hx), g3 hr.2⟩
      · rw [varsL_cons, varsL_cons, if_pos hx, if_pos (e.trans hx), List.mem_append, List.mem_append, h4, g4]
    · rw [if_neg hx]
      refine ⟨⟨_, _, rfl, Py.same_refl h.1, g1⟩, ⟨h.1, g2⟩, fun hr => ?_, fun z => ?_⟩
      · rw [relsOkL_cons] at hr ⊢
        exact ⟨hr.1, g3 hr.2⟩
      · rw [varsL_cons, varsL_cons, List.mem_append, List.mem_append, g4]
theorem sortD_spec (cfg : StdCfg) : ∀ (l : List (Py × Py)), Py.wfD l →
    (∀ k v, (k, v) ∈ l → Py.same v (sortVal cfg v)) ∧
    Py.wfD (sortD cfg l) ∧ (relsOkD l → relsOkD (sortD cfg l)) ∧ ∀ x, x ∈ varsD (sortD cfg l) ↔ x ∈ varsD l
  | [], _ => ⟨by simp, trivial, id, fun _ => Iff.rfl⟩
  | (k, v) :: l, h => by
    obtain ⟨h1, h2, h3, h4⟩ := sortVal_spec cfg v h.1
    obtain ⟨g1, g2, g3, g4⟩ := sortD_spec cfg l h.2
    refine ⟨?_, ⟨h2, g2⟩, fun hr => ⟨⟨hr.1.1, h3 hr.1.2⟩, g3 hr.2⟩, fun z => ?_⟩
    · intro k' v' hm
      rcases List.mem_cons.1 hm with hm | hm
      · cases hm; exact h1
      · exact g1 k' v' hm
    · simp only [sortD, varsD, List.mem_append, h4, g4]
end

/-! ### The standardized value as a function of the renaming -/

/-- Relations last. -/
def tupLast (d : List (Py × Py)) : List (Py × Py) :=
  d.filter (fun p => !p.1.isTup) ++ d.filter fun p => p.1.isTup

mutual
def stdPV (f : Py → Py) : Py → Py
  | .dict l => .dict (setAll [] (tupLast (stdPD f l)))
  | .list l => .list (stdPL f l)
  | v => v
def stdPL (f : Py → Py) : List Py → List Py
  | [] => []
  | .dict l :: xs => .dict (setAll [] (tupLast (stdPD f l))) :: stdPL f xs
  | x :: xs => x :: stdPL f xs
def stdPD (f : Py → Py) : List (Py × Py) → List (Py × Py)
  | [] => []
  | (k, v) :: l => (renEl f k, stdPV f v) :: stdPD f l
end

theorem stdPL_cons (f : Py → Py) (x : Py) (xs : List Py) :
    stdPL f (x :: xs) = (if x.isDict then stdPV f x else x) :: stdPL f xs := by
  cases x <;> simp [stdPL, stdPV, Py.isDict]

theorem stdPD_eq (f : Py → Py) (l : List (Py × Py)) :
    stdPD f l = l.map fun p => (renEl f p.1, stdPV f p.2) := by
  induction l with
  | nil => rfl
  | cons p l ih => simp [stdPD, ih]

theorem tupLast_perm (d : List (Py × Py)) : (tupLast d).Perm d := by
  unfold tupLast
  refine List.Perm.trans List.perm_append_comm ?_
  have := List.filter_append_perm (fun p : Py × Py => p.1.isTup) d
  simpa using this

mutual
theorem stdPV_spec {f : Py → Py} {S : Py → Prop} (hf : InjOn f S) : ∀ (v : Py), v.wf →
    (∀ x ∈ varsV v, S x) → Py.same (renV f v) (stdPV f v) ∧ (stdPV f v).wf
  | .dict l, h, hv => by
    obtain ⟨h1, h2⟩ := stdPD_spec hf l h.2 hv
    have hn : Dict.Nodup (stdPD f l) := by rw [stdPD_eq]; exact renD_nodup hf h.1 hv
    have hp := (tupLast_perm (stdPD f l)).symm
    have hn' := (nodup_perm hp).1 hn
    have e : setAll [] (tupLast (stdPD f l)) = tupLast (stdPD f l) := by
      rw [setAll_nodup (by simpa using hn')]; rfl
    simp only [stdPV, e]
    refine ⟨⟨_, rfl, ?_, sameD_of_perm hn hp ?_⟩, hn', ?_⟩
    · rw [← hp.length_eq, renD_eq, stdPD_eq]; simp
    · rw [Py.sameD_iff]
      intro k v hm
      rw [renD_eq] at hm
      obtain ⟨p, hp', e'⟩ := List.mem_map.1 hm
      cases e'
      exact ⟨stdPV f p.2, Dict.get?_of_mem hn (by rw [stdPD_eq]; exact List.mem_map.2 ⟨p, hp', rfl⟩),
        h1 p.1 p.2 hp'⟩
    · rw [Py.wfD_iff] at h2 ⊢
      exact fun p hm => h2 p (hp.mem_iff.2 hm)
  | .list l, h, hv => by
    obtain ⟨h1, h2⟩ := stdPL_spec hf l h hv
    exact ⟨⟨_, rfl, h1⟩, h2⟩
  | .tup l, h, _ => ⟨Py.same_refl h, h⟩
  | .none, h, _ => ⟨Py.same_refl h, h⟩
  | .bool _, h, _ => ⟨Py.same_refl h, h⟩
  | .num _, h, _ => ⟨Py.same_refl h, h⟩
  | .str _, h, _ => ⟨Py.same_refl h, h⟩
  | .other _ _ _, h, _ => ⟨Py.same_refl h, h⟩
theorem stdPL_spec {f : Py → Py} {S : Py → Prop} (hf : InjOn f S) : ∀ (l : List Py), Py.wfL l →
    (∀ x ∈ varsL l, S x) → Py.sameL (renL f l) (stdPL f l) ∧ Py.wfL (stdPL f l)
  | [], _, _ => ⟨rfl, trivial⟩
  | x :: xs, h, hv => by
    rw [varsL_cons] at hv
    obtain ⟨g1, g2⟩ := stdPL_spec hf xs h.2 fun z hz => hv z (by simp [hz])
    rw [stdPL_cons, renL_cons]
    by_cases hx : x.isDict = true
    · obtain ⟨h1, h2⟩ := stdPV_spec hf x h.1 fun z hz => hv z (by simp [hx, hz])
      rw [if_pos hx, if_pos hx]
      exact ⟨⟨_, _, rfl, h1, g1⟩, h2, g2⟩
    · rw [if_neg hx, if_neg hx]
      exact ⟨⟨_, _, rfl, Py.same_refl h.1, g1⟩, h.1, g2⟩
theorem stdPD_spec {f : Py → Py} {S : Py → Prop} (hf : InjOn f S) : ∀ (l : List (Py × Py)), Py.wfD l →
    (∀ x ∈ varsD l, S x) → (∀ k v, (k, v) ∈ l → Py.same (renV f v) (stdPV f v)) ∧ Py.wfD (stdPD f l)
  | [], _, _ => ⟨by simp, trivial⟩
  | (k, v) :: l, h, hv => by
    obtain ⟨h1, h2⟩ := stdPV_spec hf v h.1 fun z hz => hv z (by simp [varsD, hz])
    obtain ⟨g1, g2⟩ := stdPD_spec hf l h.2 fun z hz => hv z (by simp [varsD, hz])
    refine ⟨?_, h2, g2⟩
    intro k' v' hm
    rcases List.mem_cons.1 hm with hm | hm
    · cases hm; exact h1
    · exact g1 k' v' hm
end

/-! ### `_standardize` -/

/-- `mapping` as `_standardize` keeps it: it maps variables one-to-one to the names generated since `g`. -/
structure MapInv (cfg : StdCfg) (g : ℕ) (st : StdSt) : Prop where
  vals : ∀ x w, st.mapping.get? x = some w → Variable x ∧ ∃ n, g ≤ n ∧ n < st.ctr ∧ w = .str (cfg.gensym n)
  inj : ∀ x y w, st.mapping.get? x = some w → st.mapping.get? y = some w → x = y
  le : g ≤ st.ctr
  nodup : Dict.Nodup st.mapping

/-- Bindings are never changed. -/
def Ext (st st' : StdSt) : Prop := ∀ x w, st.mapping.get? x = some w → st'.mapping.get? x = some w

theorem Ext.refl (st : StdSt) : Ext st st := fun _ _ h => h
theorem Ext.trans {a b c : StdSt} (h : Ext a b) (h' : Ext b c) : Ext a c := fun x w e => h' x w (h x w e)

/-- All these variables are bound. -/
def Bound (st : StdSt) (xs : List Py) : Prop := ∀ x ∈ xs, ∃ w, st.mapping.get? x = some w

theorem Bound.mono {st st' : StdSt} {xs : List Py} (h : Bound st xs) (he : Ext st st') : Bound st' xs :=
  fun x hx => let ⟨w, hw⟩ := h x hx; ⟨w, he x w hw⟩

def StdAgrees (f : Py → Py) (st : StdSt) : Prop := ∀ x w, st.mapping.get? x = some w → f x = w

theorem StdAgrees.mono {f : Py → Py} {st st' : StdSt} (h : StdAgrees f st') (he : Ext st st') : StdAgrees f st :=
  fun x w hx => h x w (he x w hx)

/-- What is assumed about the generated names. -/
structure NamesOk (cfg : StdCfg) : Prop where
  inj : Function.Injective cfg.gensym
  var : ∀ n, isVar (cfg.gensym n) = true
  order : ∀ l x, x ∈ cfg.setOrder l ↔ x ∈ l

section
variable {cfg : StdCfg} {g : ℕ}

theorem bindVar_spec (hc : NamesOk cfg) {v : Py} (hv : Variable v) {st : StdSt} (hi : MapInv cfg g st) :
    ∃ st', bindVar cfg v st = (.ok (), st') ∧ MapInv cfg g st' ∧ Ext st st' ∧ Bound st' [v] := by
  by_cases h : st.mapping.has v = true
  · refine ⟨st, by simp [bindVar, h], hi, Ext.refl st, ?_⟩
    intro x hx
    simp only [List.mem_singleton] at hx
    subst hx
    exact Option.isSome_iff_exists.1 h
  · have hnone : st.mapping.get? v = none := by
      unfold Dict.has at h
      simpa using h
    have hget : ∀ x, (st.mapping.set v (.str (cfg.gensym st.ctr))).get? x =
        if x = v then some (.str (cfg.gensym st.ctr)) else st.mapping.get? x := by
      intro x
      rw [Dict.get?_set]
      by_cases e : x = v
      · simp [e]
      · rw [if_neg e, if_neg (fun h => e h.symm)]
    refine ⟨⟨st.ctr + 1, st.mapping.set v (.str (cfg.gensym st.ctr))⟩, by simp [bindVar, h], ?_, ?_, ?_⟩
    · refine ⟨?_, ?_, ?_, Dict.nodup_set hi.nodup _ _⟩
      · intro x w hx
        simp only [hget] at hx
        split at hx
        · rename_i e
          cases hx
          exact ⟨e ▸ hv, st.ctr, hi.le, Nat.lt_succ_self _, rfl⟩
        · obtain ⟨h1, n, h2, h3, h4⟩ := hi.vals x w hx
          exact ⟨h1, n, h2, Nat.lt_succ_of_lt h3, h4⟩
      · intro x y w hx hy
        simp only [hget] at hx hy
        split at hx <;> split at hy
        · rename_i e1 e2; rw [e1, e2]
        · exfalso
          obtain ⟨_, n, _, h3, h4⟩ := hi.vals y w hy
          cases hx
          have := hc.inj (Py.str.inj h4)
          omega
        · exfalso
          obtain ⟨_, n, _, h3, h4⟩ := hi.vals x w hx
          cases hy
          have := hc.inj (Py.str.inj h4)
          omega
        · exact hi.inj x y w hx hy
      · have := hi.le
        show g ≤ st.ctr + 1
        omega
    · intro x w hx
      simp only [hget]
      rw [if_neg (fun e => by rw [e, hnone] at hx; simp at hx)]
      exact hx
    · intro x hx
      simp only [List.mem_singleton] at hx
      subst hx
      exact ⟨.str (cfg.gensym st.ctr), by simp only [hget, if_true]⟩

theorem bindVars_spec (hc : NamesOk cfg) {vs : List Py} (hv : ∀ v ∈ vs, Variable v) {st : StdSt}
    (hi : MapInv cfg g st) :
    ∃ st', bindVars cfg vs st = (.ok (), st') ∧ MapInv cfg g st' ∧ Ext st st' ∧ Bound st' vs := by
  induction vs generalizing st with
  | nil => exact ⟨st, rfl, hi, Ext.refl st, by simp [Bound]⟩
  | cons v vs ih =>
    obtain ⟨s1, e1, h1, h2, h3⟩ := bindVar_spec hc (hv v List.mem_cons_self) hi
    obtain ⟨s2, e2, h4, h5, h6⟩ := ih (fun x hx => hv x (List.mem_cons_of_mem _ hx)) h1
    refine ⟨s2, by rw [bindVars, SM.bind_eq e1]; exact e2, h4, h2.trans h5, ?_⟩
    intro x hx
    rcases List.mem_cons.1 hx with rfl | hx
    · exact h3.mono h5 x (by simp)
    · exact h6 x hx

theorem stdName_spec (hc : NamesOk cfg) (k : Py) {st : StdSt} (hi : MapInv cfg g st) :
    ∃ n st', stdName cfg k st = (.ok n, st') ∧ MapInv cfg g st' ∧ Ext st st' ∧ n.isTup = k.isTup ∧
      (k.isTup = true → n = k) ∧ (k.isTup = false → Bound st' (varsEl k) ∧ ∀ f, StdAgrees f st' → n = renEl f k) := by
  by_cases hv : isVarPy k = true
  · have hV : Variable k := by
      cases k <;> simp_all [isVarPy]
      rename_i s
      cases s <;> simp_all [isVar, Variable]
    obtain ⟨s1, e1, h1, h2, h3⟩ := bindVar_spec hc hV hi
    obtain ⟨w, hw⟩ := h3 k (by simp)
    have ht := isTup_of_variable hV
    obtain ⟨_, n, _, _, hn⟩ := h1.vals k w hw
    refine ⟨w, s1, ?_, h1, h2, by rw [ht, hn]; rfl, by simp [ht], fun _ => ⟨?_, fun f hf => ?_⟩⟩
    · rw [stdName, if_pos hv, SM.bind_eq e1]
      have : (SM.get : SM StdSt StdSt) s1 = (.ok s1, s1) := rfl
      rw [SM.bind_eq this, hw]
      rfl
    · rw [varsEl_var hV]; exact h3
    · rw [renEl_var hV, hf k w hw]
  · have hV : ¬ Variable k := by
      rintro ⟨s, rfl⟩
      simp [isVarPy, isVar] at hv
    refine ⟨k, st, by rw [stdName, if_neg hv]; rfl, hi, Ext.refl st, rfl, fun _ => rfl, fun ht => ⟨?_, ?_⟩⟩
    · have : varsEl k = [] := by
        cases k <;> simp_all [varsEl, Py.isTup]
      rw [this]; simp [Bound]
    · intro f _
      rw [renEl_const hV ht]

mutual
theorem componentsE_spec : ∀ (a : Py), relElOk a → componentsE a = .ok (varsEl a)
  | .tup l, h => by
    rw [componentsE, componentsL_spec l h, varsEl]
  | .str s, _ => by
    cases s with
    | nil => simp [componentsE, varsEl, isVar, Variable]
    | cons c s =>
      by_cases hc : c = '?'
      · simp [componentsE, varsEl, isVar, Variable, hc]
      · simp [componentsE, varsEl, isVar, Variable, hc]
theorem componentsL_spec : ∀ (l : List Py), relElsOk l → componentsL l = .ok (varsEls l)
  | [], _ => rfl
  | x :: xs, h => by
    rw [componentsL, componentsE_spec x h.1, componentsL_spec xs h.2, varsEls]
    rfl
end

theorem renameEl_atom {m : Dict Py Py} {a : Py} (ht : a.isTup = false) :
    renameEl m a = (m.get? a).getD a := by
  cases a <;> first
    | (simp [Py.isTup] at ht; done)
    | (rw [renameEl.eq_def]; dsimp only; cases Dict.get? m _ <;> rfl)

mutual
theorem renameEl_eq {f : Py → Py} {st : StdSt} (hi : MapInv cfg g st) (hf : StdAgrees f st) : ∀ (a : Py),
    Bound st (varsEl a) → renameEl st.mapping a = renEl f a
  | .tup l, hb => by
    have : st.mapping.get? (.tup l) = none := by
      cases e : st.mapping.get? (.tup l) with
      | none => rfl
      | some w => obtain ⟨⟨s, hs⟩, _⟩ := hi.vals _ _ e; simp at hs
    rw [renameEl, this, renEl, ← renameRel_eq hi hf l hb]
  | .str s, hb => renameEl_eq_atom hi hf rfl hb
  | .none, hb => renameEl_eq_atom hi hf rfl hb
  | .bool _, hb => renameEl_eq_atom hi hf rfl hb
  | .num _, hb => renameEl_eq_atom hi hf rfl hb
  | .list _, hb => renameEl_eq_atom hi hf rfl hb
  | .dict _, hb => renameEl_eq_atom hi hf rfl hb
  | .other _ _ _, hb => renameEl_eq_atom hi hf rfl hb
theorem renameEl_eq_atom {f : Py → Py} {st : StdSt} (hi : MapInv cfg g st) (hf : StdAgrees f st) {a : Py}
    (ht : a.isTup = false) (hb : Bound st (varsEl a)) : renameEl st.mapping a = renEl f a := by
  rw [renameEl_atom ht]
  by_cases hv : Variable a
  · obtain ⟨w, hw⟩ := hb a (by simp [varsEl_var hv])
    rw [hw, renEl_var hv, hf a w hw, Option.getD_some]
  · have : st.mapping.get? a = none := by
      cases e : st.mapping.get? a with
      | none => rfl
      | some w => exact absurd (hi.vals _ _ e).1 hv
    rw [this, renEl_const hv ht, Option.getD_none]
theorem renameRel_eq {f : Py → Py} {st : StdSt} (hi : MapInv cfg g st) (hf : StdAgrees f st) : ∀ (l : List Py),
    Bound st (varsEls l) → renameRel st.mapping l = renEls f l
  | [], _ => rfl
  | x :: xs, hb => by
    rw [renameRel, renEls, renameEl_eq hi hf x (fun y hy => hb y (by simp [varsEls, hy])),
      renameRel_eq hi hf xs (fun y hy => hb y (by simp [varsEls, hy]))]
end

theorem renameRelation_eq {f : Py → Py} {st : StdSt} (hi : MapInv cfg g st) (hf : StdAgrees f st) {a : Py}
    (ht : a.isTup = true) (hb : Bound st (varsEl a)) : renameRelation st.mapping a = renEl f a := by
  cases a <;> simp_all [Py.isTup, renameRelation, renEl, varsEl, renameRel_eq hi hf]

theorem addRelations_eq (m : Dict Py Py) (new : PyInst) (rels : List (Py × Py)) :
    addRelations m new rels = setAll new (rels.map fun p => (renameRelation m p.1, p.2)) := by
  induction rels generalizing new with
  | nil => rfl
  | cons p rels ih => simp only [addRelations, ih, setAll, List.map_cons, List.foldl_cons]

theorem setAll_append (d a b : PyInst) : setAll d (a ++ b) = setAll (setAll d a) b := by
  simp [setAll]

theorem stdL_atom {x : Py} (h : x.isDict = false) {xs : List Py} :
    stdL cfg (x :: xs) = (do
      let xs ← stdL cfg xs
      SM.ret (x :: xs)) := by
  cases x <;> first
    | rfl
    | simp [Py.isDict] at h

mutual
theorem stdVal_spec (hc : NamesOk cfg) : ∀ (v : Py), relsOkV v → ∀ {st : StdSt}, MapInv cfg g st →
    ∃ o st', stdVal cfg v st = (.ok o, st') ∧ MapInv cfg g st' ∧ Ext st st' ∧ Bound st' (varsV v) ∧
      ∀ f, StdAgrees f st' → o = stdPV f v
  | .dict l, h, st, hi => by
    obtain ⟨o, st', e, h1, h2, h3, h4⟩ := stdD_spec hc l h hi (new := []) (rels := []) (by simp)
    refine ⟨.dict o, st', by rw [stdVal, SM.bind_eq e]; rfl, h1, h2, h3, fun f hf => ?_⟩
    rw [h4 f hf, stdPV, tupLast, List.map_nil, List.nil_append, setAll_append]
  | .list l, h, st, hi => by
    obtain ⟨o, st', e, h1, h2, h3, h4⟩ := stdL_spec hc l h hi
    exact ⟨.list o, st', by rw [stdVal, SM.bind_eq e]; rfl, h1, h2, h3, fun f hf => by rw [h4 f hf]; rfl⟩
  | .tup _, _, st, hi => ⟨_, st, rfl, hi, Ext.refl st, by simp [varsV, Bound], fun _ _ => rfl⟩
  | .none, _, st, hi => ⟨_, st, rfl, hi, Ext.refl st, by simp [varsV, Bound], fun _ _ => rfl⟩
  | .bool _, _, st, hi => ⟨_, st, rfl, hi, Ext.refl st, by simp [varsV, Bound], fun _ _ => rfl⟩
  | .num _, _, st, hi => ⟨_, st, rfl, hi, Ext.refl st, by simp [varsV, Bound], fun _ _ => rfl⟩
  | .str _, _, st, hi => ⟨_, st, rfl, hi, Ext.refl st, by simp [varsV, Bound], fun _ _ => rfl⟩
  | .other _ _ _, _, st, hi => ⟨_, st, rfl, hi, Ext.refl st, by simp [varsV, Bound], fun _ _ => rfl⟩
theorem stdL_spec (hc : NamesOk cfg) : ∀ (l : List Py), relsOkL l → ∀ {st : StdSt}, MapInv cfg g st →
    ∃ o st', stdL cfg l st = (.ok o, st') ∧ MapInv cfg g st' ∧ Ext st st' ∧ Bound st' (varsL l) ∧
      ∀ f, StdAgrees f st' → o = stdPL f l
  | [], _, st, hi => ⟨[], st, rfl, hi, Ext.refl st, by simp [varsL, Bound], fun _ _ => rfl⟩
  | .dict l :: xs, h, st, hi => by
    obtain ⟨o, s1, e, h1, h2, h3, h4⟩ := stdD_spec hc l h.1 hi (new := []) (rels := []) (by simp)
    obtain ⟨os, s2, e', g1, g2, g3, g4⟩ := stdL_spec hc xs h.2 h1
    refine ⟨.dict o :: os, s2, by rw [stdL, SM.bind_eq e, SM.bind_eq e']; rfl, g1, h2.trans g2, ?_, ?_⟩
    · intro x hx
      simp only [varsL, List.mem_append] at hx
      rcases hx with hx | hx
      · exact h3.mono g2 x hx
      · exact g3 x hx
    · intro f hf
      rw [g4 f hf, h4 f (hf.mono g2), stdPL, tupLast, List.map_nil, List.nil_append, setAll_append]
  | .tup _ :: xs, h, st, hi | .none :: xs, h, st, hi | .bool _ :: xs, h, st, hi | .num _ :: xs, h, st, hi
  | .str _ :: xs, h, st, hi | .other _ _ _ :: xs, h, st, hi | .list _ :: xs, h, st, hi => by
    obtain ⟨os, s2, e', g1, g2, g3, g4⟩ := stdL_spec hc xs h hi
    exact ⟨_ :: os, s2, by rw [stdL_atom rfl, SM.bind_eq e']; rfl, g1, g2, g3, fun f hf => by rw [g4 f hf]; rfl⟩
theorem stdD_spec (hc : NamesOk cfg) : ∀ (l : List (Py × Py)), relsOkD l → ∀ {st : StdSt}, MapInv cfg g st →
    ∀ {new : PyInst} {rels : List (Py × Py)}, (∀ p ∈ rels, p.1.isTup = true ∧ Bound st (varsEl p.1)) →
    ∃ o st', stdD cfg l new rels st = (.ok o, st') ∧ MapInv cfg g st' ∧ Ext st st' ∧ Bound st' (varsD l) ∧
      ∀ f, StdAgrees f st' → o = setAll (setAll new ((stdPD f l).filter fun p => !p.1.isTup))
        (rels.map (fun p => (renEl f p.1, p.2)) ++ (stdPD f l).filter fun p => p.1.isTup)
  | [], _, st, hi, new, rels, hr => by
    refine ⟨addRelations st.mapping new rels, st, rfl, hi, Ext.refl st, by simp [varsD, Bound], ?_⟩
    intro f hf
    rw [addRelations_eq]
    simp only [stdPD, List.filter_nil, List.append_nil]
    have : rels.map (fun p => (renameRelation st.mapping p.1, p.2)) =
        rels.map fun p => (renEl f p.1, p.2) := by
      apply List.map_congr_left
      intro p hp
      rw [renameRelation_eq hi hf (hr p hp).1 (hr p hp).2]
    rw [this]
    rfl
  | (k, v) :: l, h, st, hi, new, rels, hr => by
    obtain ⟨n, s1, e1, i1, x1, t1, k1, b1⟩ := stdName_spec hc k hi
    obtain ⟨o, s2, e2, i2, x2, b2, f2⟩ := stdVal_spec hc v h.1.2 i1
    have step := SM.bind_eq (f := fun name => (do
      let v ← stdVal cfg v
      if name.isTup then do
        let os ← SM.lift (components name)
        bindVars cfg (cfg.setOrder os)
        stdD cfg l new (rels ++ [(name, v)])
      else stdD cfg l (new.set name v) rels : SM StdSt PyInst)) e1
    have step2 := SM.bind_eq (f := fun v => (
      if n.isTup then do
        let os ← SM.lift (components n)
        bindVars cfg (cfg.setOrder os)
        stdD cfg l new (rels ++ [(n, v)])
      else stdD cfg l (new.set n v) rels : SM StdSt PyInst)) e2
    by_cases ht : k.isTup = true
    · have hnk := k1 ht
      subst hnk
      have hcomp : components n = .ok (varsEl n) := by
        have h0 := h.1.1
        cases n <;> simp_all [Py.isTup, components, attrOk, varsEl, componentsL_spec]
      obtain ⟨s3, e3, i3, x3, b3⟩ := bindVars_spec hc (vs := cfg.setOrder (varsEl n))
        (fun x hx => varsEl_variable x ((hc.order _ _).1 hx)) i2
      have hrel : ∀ p ∈ rels ++ [(n, o)], p.1.isTup = true ∧ Bound s3 (varsEl p.1) := by
        intro p hp
        rcases List.mem_append.1 hp with hp | hp
        · exact ⟨(hr p hp).1, (hr p hp).2.mono (x1.trans (x2.trans x3))⟩
        · simp only [List.mem_singleton] at hp
          subst hp
          exact ⟨ht, fun x hx => b3 x ((hc.order _ _).2 hx)⟩
      obtain ⟨q, s4, e4, i4, x4, b4, f4⟩ := stdD_spec hc l h.2 i3 (new := new) hrel
      refine ⟨q, s4, ?_, i4, x1.trans (x2.trans (x3.trans x4)), ?_, fun f hf => ?_⟩
      · rw [stdD, step, step2, if_pos ht, hcomp]
        have : (SM.lift (.ok (varsEl n)) : SM StdSt (List Py)) s2 = (.ok (varsEl n), s2) := rfl
        rw [SM.bind_eq this, SM.bind_eq e3, e4]
      · intro x hx
        simp only [varsD, List.mem_append] at hx
        rcases hx with (hx | hx) | hx
        · exact ((hrel (n, o) (by simp)).2).mono x4 x hx
        · exact b2.mono (x3.trans x4) x hx
        · exact b4 x hx
      · have ht' : (renEl f n).isTup = true := by
          cases n <;> simp_all [Py.isTup, renEl]
        rw [f4 f hf, f2 f (hf.mono (x3.trans x4))]
        simp [stdPD, List.filter_cons, ht']
    · have ht0 : k.isTup = false := by simpa using ht
      obtain ⟨bk, fk⟩ := b1 ht0
      obtain ⟨q, s4, e4, i4, x4, b4, f4⟩ := stdD_spec hc l h.2 i2 (new := new.set n o) (rels := rels)
        fun p hp => ⟨(hr p hp).1, (hr p hp).2.mono (x1.trans x2)⟩
      refine ⟨q, s4, ?_, i4, x1.trans (x2.trans x4), ?_, fun f hf => ?_⟩
      · rw [stdD, step, step2, if_neg (by rw [t1]; exact ht), e4]
      · intro x hx
        simp only [varsD, List.mem_append] at hx
        rcases hx with (hx | hx) | hx
        · exact bk.mono (x2.trans x4) x hx
        · exact b2.mono x4 x hx
        · exact b4 x hx
      · have hk := fk f (hf.mono (x2.trans x4))
        have ht' : (renEl f k).isTup = false := by rw [← hk, t1, ht0]
        rw [f4 f hf, f2 f (hf.mono x4), hk]
        simp [stdPD, List.filter_cons, ht', setAll]
end

end

/-! ### Undoing -/

theorem undoStdD_eq (rm : Dict Py Py) (l : List (Py × Py)) (new : PyInst) :
    undoStdD rm l new = setAll new (l.map fun p => (undoKey rm p.1 p.2, undoStdV rm p.2)) := by
  induction l generalizing new with
  | nil => rfl
  | cons p l ih => simp [undoStdD, ih, setAll]

/-- `rm` takes the names back. -/
structure Reverses (rm : Dict Py Py) (f : Py → Py) (S : Py → Prop) : Prop where
  back : ∀ x, S x → rm.get? (f x) = some x
  var : ∀ y w, rm.get? y = some w → Variable y

mutual
theorem renameEl_back {rm : Dict Py Py} {f : Py → Py} {S : Py → Prop} (hr : Reverses rm f S)
    (hf : InjOn f S) : ∀ (a : Py), (∀ x ∈ varsEl a, S x) → renameEl rm (renEl f a) = a
  | .tup l, hv => by
    have : rm.get? (.tup (renEls f l)) = none := by
      cases e : rm.get? (.tup (renEls f l)) with
      | none => rfl
      | some w => obtain ⟨s, hs⟩ := hr.var _ _ e; simp at hs
    rw [renEl, renameEl, this]
    show Py.tup _ = _
    rw [renameRel_back hr hf l hv]
  | .str s, hv => renameEl_back_atom hr hf rfl hv
  | .none, hv => renameEl_back_atom hr hf rfl hv
  | .bool _, hv => renameEl_back_atom hr hf rfl hv
  | .num _, hv => renameEl_back_atom hr hf rfl hv
  | .list _, hv => renameEl_back_atom hr hf rfl hv
  | .dict _, hv => renameEl_back_atom hr hf rfl hv
  | .other _ _ _, hv => renameEl_back_atom hr hf rfl hv
theorem renameEl_back_atom {rm : Dict Py Py} {f : Py → Py} {S : Py → Prop} (hr : Reverses rm f S)
    (hf : InjOn f S) {a : Py} (ht : a.isTup = false) (hv : ∀ x ∈ varsEl a, S x) :
    renameEl rm (renEl f a) = a := by
  by_cases h : Variable a
  · have hS := hv a (by simp [varsEl_var h])
    rw [renEl_var h, renameEl_atom (isTup_of_variable (hf.var a hS)), hr.back a hS, Option.getD_some]
  · have : rm.get? a = none := by
      cases e : rm.get? a with
      | none => rfl
      | some w => exact absurd (hr.var _ _ e) h
    rw [renEl_const h ht, renameEl_atom ht, this, Option.getD_none]
theorem renameRel_back {rm : Dict Py Py} {f : Py → Py} {S : Py → Prop} (hr : Reverses rm f S)
    (hf : InjOn f S) : ∀ (l : List Py), (∀ x ∈ varsEls l, S x) → renameRel rm (renEls f l) = l
  | [], _ => rfl
  | x :: xs, hv => by
    rw [renEls, renameRel, renameEl_back hr hf x (fun y hy => hv y (by simp [varsEls, hy])),
      renameRel_back hr hf xs (fun y hy => hv y (by simp [varsEls, hy]))]
end

mutual
theorem renEl_novars {f : Py → Py} : ∀ (a : Py), varsEl a = [] → renEl f a = a
  | .tup l, h => by rw [renEl, renEls_novars l h]
  | .str s, h => by
    simp only [varsEl] at h
    by_cases hv : Variable (.str s)
    · simp [hv] at h
    · simp [renEl, hv]
  | .none, _ | .bool _, _ | .num _, _ | .list _, _ | .dict _, _ | .other _ _ _, _ => by simp [renEl, Variable]
theorem renEls_novars {f : Py → Py} : ∀ (l : List Py), varsEls l = [] → renEls f l = l
  | [], _ => rfl
  | x :: xs, h => by
    simp only [varsEls, List.append_eq_nil_iff] at h
    rw [renEls, renEl_novars x h.1, renEls_novars xs h.2]
end

theorem undoKey_back {rm : Dict Py Py} {f : Py → Py} {S : Py → Prop} (hr : Reverses rm f S)
    (hf : InjOn f S) {k v w : Py} (hv : ∀ x ∈ varsEl k, S x) (hw : Py.same (renV f v) w)
    (h1 : Variable k → (v.isDict || v.isList) = true)
    (h2 : k.isTup = true → varsEl k ≠ [] → (v.isDict || v.isList) = false) :
    undoKey rm (renEl f k) w = k := by
  have e1 : (w.isDict || w.isList) = (v.isDict || v.isList) := by
    rw [same_isDict hw, same_isList hw, renV_isDict, renV_isList]
  unfold undoKey
  rw [e1]
  by_cases hk : Variable k
  · have hS := hv k (by simp [varsEl_var hk])
    rw [if_pos (h1 hk), renEl_var hk, hr.back k hS]
    rfl
  · have hget : rm.get? k = none := by
      cases e : rm.get? k with
      | none => rfl
      | some w => exact absurd (hr.var _ _ e) hk
    cases ht : k.isTup with
    | false =>
      rw [renEl_const hk ht, hget]
      have : renameRelation rm k = k := by cases k <;> simp_all [renameRelation, Py.isTup]
      rw [this]
      simp
    | true =>
      by_cases hn : varsEl k = []
      · rw [renEl_novars k hn, hget]
        split
        · rfl
        · have := renameEl_back hr hf k hv
          rw [renEl_novars k hn] at this
          cases k with
          | tup l => rw [renameEl, hget] at this; exact this
          | _ => simp [Py.isTup] at ht
      · rw [if_neg (by rw [h2 ht hn]; simp)]
        cases k with
        | tup l =>
          show Py.tup _ = _
          rw [renameRel_back hr hf l hv]
        | _ => simp [Py.isTup] at ht

mutual
theorem undoStdV_back {rm : Dict Py Py} {f : Py → Py} {S : Py → Prop} (hr : Reverses rm f S)
    (hf : InjOn f S) : ∀ (v w : Py), v.wf → w.wf → (∀ x ∈ varsV v, S x) → objectsOkV v →
    Py.same (renV f v) w → Py.same v (undoStdV rm w) ∧ (undoStdV rm w).wf
  | .dict l, w, hv, hw, hS, ho, hs => by
    obtain ⟨l', rfl, h1, h2⟩ := hs
    have ho' := objectsOkD_iff.1 ho
    have hnr : Dict.Nodup (renD f l) := by rw [renD_eq]; exact renD_nodup hf hv.1 hS
    have hback : ∀ a w, (a, w) ∈ l' → ∃ k v, (k, v) ∈ l ∧ a = renEl f k ∧ Py.same (renV f v) w ∧
        undoKey rm a w = k := by
      intro a w hm
      obtain ⟨v0, h3, h4⟩ := Py.same_mem hnr hw.1 h1 h2 hm
      rw [renD_eq] at h3
      obtain ⟨p, hp, e⟩ := List.mem_map.1 h3
      cases e
      exact ⟨p.1, p.2, hp, rfl, h4, undoKey_back hr hf (fun x hx => hS x (mem_varsD.2 ⟨p, hp, .inl hx⟩)) h4
        (ho' p hp).1 (ho' p hp).2.1⟩
    have hnl' : l'.Nodup := List.Nodup.of_map _ hw.1
    have hn : Dict.Nodup (l'.map fun p => (undoKey rm p.1 p.2, undoStdV rm p.2)) := by
      unfold Dict.Nodup Dict.keys
      rw [List.map_map]
      refine List.Nodup.map_on ?_ hnl'
      intro p hp q hq e
      obtain ⟨k, v, _, e1, _, e2⟩ := hback p.1 p.2 hp
      obtain ⟨k', v', _, e3, _, e4⟩ := hback q.1 q.2 hq
      simp only [Function.comp] at e
      have : p.1 = q.1 := by rw [e1, e3, ← e2, ← e4, e]
      have g1 := Dict.get?_of_mem hw.1 (k := p.1) (v := p.2) hp
      have g2 := Dict.get?_of_mem hw.1 (k := q.1) (v := q.2) hq
      rw [this, g2] at g1
      exact Prod.ext this (Option.some.inj g1).symm
    have e0 : undoStdD rm l' [] = l'.map fun p => (undoKey rm p.1 p.2, undoStdV rm p.2) := by
      rw [undoStdD_eq, setAll_nodup (by simpa using hn)]; rfl
    have hsub := undoStdD_back hr hf l hv.2 hS ho
    simp only [undoStdV, e0]
    refine ⟨⟨_, rfl, by simpa [renD_eq] using h1, ?_⟩, hn, ?_⟩
    · rw [Py.sameD_iff]
      intro k v hm
      have hm' : (renEl f k, renV f v) ∈ renD f l := by rw [renD_eq]; exact List.mem_map.2 ⟨_, hm, rfl⟩
      obtain ⟨w, h3, h4⟩ := Py.sameD_iff.1 h2 _ _ hm'
      have hmw := Dict.mem_of_get? h3
      refine ⟨undoStdV rm w, Dict.get?_of_mem hn (List.mem_map.2 ⟨_, hmw, ?_⟩),
        (hsub k v hm w (Py.wfD_iff.1 hw.2 _ hmw) h4).1⟩
      simp only [Prod.mk.injEq, and_true]
      exact undoKey_back hr hf (fun x hx => hS x (mem_varsD.2 ⟨_, hm, .inl hx⟩)) h4
        (ho' _ hm).1 (ho' _ hm).2.1
    · rw [Py.wfD_iff]
      intro p hp
      obtain ⟨q, hq, rfl⟩ := List.mem_map.1 hp
      obtain ⟨k, v, hm, _, h4, _⟩ := hback q.1 q.2 hq
      exact (hsub k v hm q.2 (Py.wfD_iff.1 hw.2 _ hq) h4).2
  | .list l, w, hv, hw, hS, ho, hs => by
    obtain ⟨l', rfl, h1⟩ := hs
    obtain ⟨h2, h3⟩ := undoStdL_back hr hf l l' hv hw hS ho h1
    exact ⟨⟨_, rfl, h2⟩, h3⟩
  | .tup l, w, hv, hw, _, _, hs => undoStdV_atom rfl rfl hw hs
  | .none, w, _, hw, _, _, hs => undoStdV_atom rfl rfl hw hs
  | .bool _, w, _, hw, _, _, hs => undoStdV_atom rfl rfl hw hs
  | .num _, w, _, hw, _, _, hs => undoStdV_atom rfl rfl hw hs
  | .str _, w, _, hw, _, _, hs => undoStdV_atom rfl rfl hw hs
  | .other _ _ _, w, _, hw, _, _, hs => undoStdV_atom rfl rfl hw hs
theorem undoStdV_atom {rm : Dict Py Py} {f : Py → Py} {v w : Py} (h1 : v.isDict = false)
    (h2 : v.isList = false) (hw : w.wf) (hs : Py.same (renV f v) w) :
    Py.same v (undoStdV rm w) ∧ (undoStdV rm w).wf := by
  rw [renV_atom h1 h2] at hs
  have e1 := (same_isDict hs).trans h1
  have e2 := (same_isList hs).trans h2
  have : undoStdV rm w = w := by cases w <;> simp_all [undoStdV, Py.isDict, Py.isList]
  rw [this]
  exact ⟨hs, hw⟩
theorem undoStdL_back {rm : Dict Py Py} {f : Py → Py} {S : Py → Prop} (hr : Reverses rm f S)
    (hf : InjOn f S) : ∀ (l l' : List Py), Py.wfL l → Py.wfL l' → (∀ x ∈ varsL l, S x) → objectsOkL l →
    Py.sameL (renL f l) l' → Py.sameL l (undoStdL rm l') ∧ Py.wfL (undoStdL rm l')
  | [], l', _, _, _, _, hs => by
    have hs : l' = [] := hs
    subst hs
    exact ⟨rfl, trivial⟩
  | x :: xs, l', hv, hw, hS, ho, hs => by
    rw [renL_cons] at hs
    obtain ⟨y, ys, rfl, h1, h2⟩ := hs
    rw [varsL_cons] at hS
    rw [objectsOkL_cons] at ho
    obtain ⟨h3, h4⟩ := undoStdL_back hr hf xs ys hv.2 hw.2 (fun z hz => hS z (by simp [hz])) ho.2 h2
    rw [undoStdL_cons]
    by_cases hx : x.isDict = true
    · rw [if_pos hx] at h1
      have hy : y.isDict = true := by rw [same_isDict h1, renV_isDict, hx]
      obtain ⟨h5, h6⟩ := undoStdV_back hr hf x y hv.1 hw.1 (fun z hz => hS z (by simp [hx, hz])) (ho.1 hx) h1
      rw [if_pos hy]
      exact ⟨⟨_, _, rfl, h5, h3⟩, h6, h4⟩
    · rw [if_neg hx] at h1
      have hy : ¬ y.isDict = true := by rw [same_isDict h1]; exact hx
      rw [if_neg hy]
      exact ⟨⟨_, _, rfl, h1, h3⟩, hw.1, h4⟩
theorem undoStdD_back {rm : Dict Py Py} {f : Py → Py} {S : Py → Prop} (hr : Reverses rm f S)
    (hf : InjOn f S) : ∀ (l : List (Py × Py)), Py.wfD l → (∀ x ∈ varsD l, S x) → objectsOkD l →
    ∀ k v, (k, v) ∈ l → ∀ w, w.wf → Py.same (renV f v) w → Py.same v (undoStdV rm w) ∧ (undoStdV rm w).wf
  | [], _, _, _, _, _, hm, _, _, _ => by simp at hm
  | (k, v) :: l, hv, hS, ho, k', v', hm, w, hw, hs => by
    by_cases e : v' = v
    · subst e
      exact undoStdV_back hr hf v' w hv.1 hw (fun x hx => hS x (by simp [varsD, hx])) ho.1.2.2 hs
    · refine undoStdD_back hr hf l hv.2 (fun x hx => hS x (by simp [varsD, hx])) ho.2 k' v' ?_ w hw hs
      rcases List.mem_cons.1 hm with hm | hm
      · cases hm; exact absurd rfl e
      · exact hm
end

/-! ### `transform` and `undo_transform` -/

section
variable {cfg : StdCfg}

theorem reverseMap_reverses (hc : NamesOk cfg) {g : ℕ} {st : StdSt} (hi : MapInv cfg g st) {f : Py → Py}
    (hf : StdAgrees f st) : Reverses (reverseMap st.mapping) f (fun x => ∃ w, st.mapping.get? x = some w) := by
  have hn : Dict.Nodup (st.mapping.map fun p => (p.2, p.1)) := by
    unfold Dict.Nodup Dict.keys
    rw [List.map_map]
    refine List.Nodup.map_on ?_ (List.Nodup.of_map _ hi.nodup)
    intro p hp q hq e
    simp only [Function.comp] at e
    have h1 := Dict.get?_of_mem hi.nodup (k := p.1) (v := p.2) hp
    have h2 := Dict.get?_of_mem hi.nodup (k := q.1) (v := q.2) hq
    rw [e] at h1
    exact Prod.ext (hi.inj _ _ _ h1 h2) e
  have e0 : reverseMap st.mapping = st.mapping.map fun p => (p.2, p.1) := by
    rw [reverseMap, Dict.ofPairs_of_nodup _ hn]
  rw [e0]
  constructor
  · rintro x ⟨w, hw⟩
    rw [hf x w hw]
    exact Dict.get?_of_mem hn (List.mem_map.2 ⟨(x, w), Dict.mem_of_get? hw, rfl⟩)
  · intro y w hw
    obtain ⟨p, hp, e⟩ := List.mem_map.1 (Dict.mem_of_get? hw)
    cases e
    obtain ⟨_, n, _, _, h4⟩ := hi.vals _ _ (Dict.get?_of_mem hi.nodup (k := p.1) (v := p.2) hp)
    rw [h4]
    have := hc.var n
    cases hg : cfg.gensym n with
    | nil => rw [hg] at this; simp [isVar] at this
    | cons c s =>
      rw [hg] at this
      simp only [isVar, List.head?_cons, beq_iff_eq, Option.some.injEq] at this
      exact ⟨s, by rw [this]⟩

theorem transform_spec (hc : NamesOk cfg) {i : PyInst} (hw : Py.wf (.dict i)) (hr : relsOkD i) (g : ℕ)
    (t : Option (Dict Py Py)) :
    ∃ o g' rm f, (nameStandardizer cfg).transform i (g, t) = (.ok o, (g', some rm)) ∧ g ≤ g' ∧
      (∀ x ∈ varsD i, ∃ n, g ≤ n ∧ n < g' ∧ f x = .str (cfg.gensym n)) ∧
      (∀ x ∈ varsD i, ∀ y ∈ varsD i, f x = f y → x = y) ∧
      SameInst (renD f i) o ∧
      (objectsOkD i → ∀ o', SameInst o o' → SameInst i (undoStdD rm o' [])) := by
  obtain ⟨h1, h2, h3, h4⟩ := sortVal_spec cfg (.dict i) hw
  have hinit : MapInv cfg g ⟨g, []⟩ := ⟨by simp, by simp, Nat.le_refl g, by simp⟩
  obtain ⟨o, st, e, h5, _, h7, h8⟩ := stdVal_spec hc (sortVal cfg (.dict i)) (h3 hr) hinit
  obtain ⟨o', st', e', _⟩ := stdD_spec hc (sortEntries cfg (sortD cfg i)) (h3 hr) hinit (new := []) (rels := [])
    (by simp)
  have eo : o = .dict o' ∧ st' = st := by
    rw [sortVal, stdVal, SM.bind_eq e'] at e
    cases e
    exact ⟨rfl, rfl⟩
  obtain ⟨rfl, rfl⟩ := eo
  let f : Py → Py := fun x => (st'.mapping.get? x).getD x
  have hf : StdAgrees f st' := by
    intro x w hx
    simp only [f, hx, Option.getD_some]
  let S : Py → Prop := fun x => ∃ w, st'.mapping.get? x = some w
  have hinj : InjOn f S := by
    constructor
    · rintro x y ⟨w, hx⟩ ⟨w', hy⟩ e
      rw [hf x w hx, hf y w' hy] at e
      subst e
      exact h5.inj x y w hx hy
    · rintro x ⟨w, hx⟩
      rw [hf x w hx]
      obtain ⟨_, n, _, _, h9⟩ := h5.vals x w hx
      have := hc.var n
      rw [h9]
      cases hg : cfg.gensym n with
      | nil => rw [hg] at this; simp [isVar] at this
      | cons c s =>
        rw [hg] at this
        simp only [isVar, List.head?_cons, beq_iff_eq, Option.some.injEq] at this
        exact ⟨s, by rw [this]⟩
  have hS : ∀ x ∈ varsD i, S x := fun x hx => h7 x ((h4 x).2 hx)
  have hsame : SameInst (renD f i) o' := by
    have a1 := same_renV hinj _ _ h2 h7 h1
    obtain ⟨a2, a3⟩ := stdPV_spec hinj _ h2 h7
    rw [← h8 f hf] at a2 a3
    exact ⟨Py.same_trans a1 a2, a3⟩
  refine ⟨o', st'.ctr, reverseMap st'.mapping, f, ?_, h5.le, ?_, ?_, hsame, ?_⟩
  · simp only [nameStandardizer, e']
  · intro x hx
    obtain ⟨w, hxw⟩ := hS x hx
    rw [hf x w hxw]
    exact (h5.vals x w hxw).2
  · exact fun x hx y hy => hinj.inj x y (hS x hx) (hS y hy)
  · intro ho o'' hs
    obtain ⟨h9, h10⟩ := undoStdV_back (reverseMap_reverses hc h5 hf) hinj (.dict i) (.dict o'') hw hs.2 hS ho
      (Py.same_trans hsame.1 hs.1)
    exact ⟨h9, h10⟩

end

end CF
