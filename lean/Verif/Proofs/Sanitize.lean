/-
What the sanitizer returns.
-/
import Verif.Spec.Convert
import Verif.Model.Sanity
import Verif.Proofs.Tuplize

namespace CF
variable {strOf : Py → PStr} {b : Bool}

theorem mem_set {K V : Type} [DecidableEq K] {d : Dict K V} {k : K} {v : V} {p : K × V}
    (h : p ∈ Dict.set d k v) : p ∈ d ∨ p = (k, v) := by
  induction d with
  | nil => simpa [Dict.set] using h
  | cons q d ih =>
    obtain ⟨k', v'⟩ := q
    simp only [Dict.set] at h
    split at h
    · rcases List.mem_cons.1 h with h | h
      · rename_i e _; rw [e] at h; exact .inr h
      · exact .inl (List.mem_cons_of_mem _ h)
    · rcases List.mem_cons.1 h with h | h
      · exact .inl (h ▸ List.mem_cons_self)
      · rcases ih h with h | h
        · exact .inl (List.mem_cons_of_mem _ h)
        · exact .inr h

theorem mem_sanitizeD : ∀ {l : List (Py × Py)} {ret : PyInst} {p : Py × Py},
    p ∈ sanitizeD strOf b l ret → p ∈ ret ∨ ∃ q ∈ l, p = (sanAttr strOf b q.1, sanVal strOf b q.2)
  | [], ret, p, h => .inl (by simpa [sanitizeD] using h)
  | (a, v) :: l, ret, p, h => by
    rw [sanitizeD] at h
    rcases mem_sanitizeD h with h | ⟨q, hq, e⟩
    · rcases mem_set h with h | h
      · exact .inl h
      · exact .inr ⟨(a, v), List.mem_cons_self, h⟩
    · exact .inr ⟨q, List.mem_cons_of_mem _ hq, e⟩

theorem nodup_sanitizeD : ∀ {l : List (Py × Py)} {ret : PyInst}, Dict.Nodup ret →
    Dict.Nodup (sanitizeD strOf b l ret)
  | [], ret, h => by simpa [sanitizeD] using h
  | (a, v) :: l, ret, h => by rw [sanitizeD]; exact nodup_sanitizeD (Dict.nodup_set h _ _)

theorem sanitizeD_fix : ∀ {l : List (Py × Py)} {ret : PyInst}, (Dict.keys ret ++ Dict.keys l).Nodup →
    (∀ p ∈ l, sanAttr strOf b p.1 = p.1 ∧ sanVal strOf b p.2 = p.2) → sanitizeD strOf b l ret = ret ++ l
  | [], ret, _, _ => by simp [sanitizeD]
  | (a, v) :: l, ret, h, hf => by
    have hnot : a ∉ Dict.keys ret := fun hc => (List.nodup_append.1 h).2.2 _ hc _ (by simp) rfl
    obtain ⟨h1, h2⟩ := hf (a, v) List.mem_cons_self
    simp only at h1 h2
    rw [sanitizeD, h1, h2, Dict.set_of_not_mem hnot, sanitizeD_fix]
    · simp
    · simpa [Dict.keys] using h
    · exact fun p hp => hf p (List.mem_cons_of_mem _ hp)

mutual
theorem sanEl_str : ∀ (x : Py), StrName x → sanEl strOf x = x
  | .str s, _ => rfl
  | .tup l, h => by rw [sanEl, sanTup_str l h]
  | .none, h | .bool _, h | .num _, h | .list _, h | .dict _, h | .other _ _ _, h => by simp [StrName] at h
theorem sanTup_str : ∀ (l : List Py), StrNames l → sanTup strOf l = l
  | [], _ => rfl
  | x :: xs, h => by rw [sanTup, sanEl_str x h.1, sanTup_str xs h.2]
end

mutual
theorem strName_sanEl : ∀ (x : Py), StrName (sanEl strOf x)
  | .tup l => by rw [sanEl]; exact strNames_sanTup l
  | .str _ | .none | .bool _ | .num _ | .list _ | .dict _ | .other _ _ _ => by simp [sanEl, StrName]
theorem strNames_sanTup : ∀ (l : List Py), StrNames (sanTup strOf l)
  | [] => trivial
  | x :: xs => ⟨strName_sanEl x, strNames_sanTup xs⟩
end

theorem sanAttr_str {a : Py} (h : StrName a) : sanAttr strOf b a = a := by
  cases a with
  | str s => rfl
  | tup l =>
    simp only [sanAttr]
    split
    · rw [sanTup_str l h]
    · rfl
  | _ => simp [StrName] at h

theorem sanAttr_idem (a : Py) : sanAttr strOf b (sanAttr strOf b a) = sanAttr strOf b a := by
  cases a with
  | tup l =>
    cases b
    · rfl
    · simp only [sanAttr, if_true]
      rw [sanTup_str _ (strNames_sanTup l)]
  | _ => rfl

theorem sanVal_of_not_dict {v : Py} (h : v.isDict = false) :
    sanVal strOf b v = if hasHash v then v else .str (cobStr strOf v) := by
  rw [sanVal]
  intro l e; subst e; simp [Py.isDict] at h

theorem sanVal_idem_of_not_dict {v : Py} (h : v.isDict = false) :
    sanVal strOf b (sanVal strOf b v) = sanVal strOf b v := by
  by_cases hc : hasHash v = true
  · have e : sanVal strOf b v = v := by rw [sanVal_of_not_dict h, if_pos hc]
    rw [e, e]
  · have e : sanVal strOf b v = .str (cobStr strOf v) := by rw [sanVal_of_not_dict h, if_neg hc]
    rw [e, sanVal_of_not_dict rfl]; rfl

mutual
theorem sanVal_idem : ∀ (v : Py), sanVal strOf b (sanVal strOf b v) = sanVal strOf b v
  | .dict l => by
    by_cases hb : b = true
    · simp only [sanVal, if_pos hb]
      rw [sanitizeD_fix (ret := []) (by exact nodup_sanitizeD Dict.nodup_nil), List.nil_append]
      intro p hp
      rcases mem_sanitizeD hp with hp | ⟨q, hq, rfl⟩
      · cases hp
      · exact ⟨sanAttr_idem _, sanValD_idem l q hq⟩
    · simp [sanVal, hasHash, if_neg hb]
  | .none | .bool _ | .num _ | .str _ | .tup _ | .list _ | .other _ _ _ => sanVal_idem_of_not_dict rfl
theorem sanValD_idem : ∀ (l : List (Py × Py)), ∀ q ∈ l,
    sanVal strOf b (sanVal strOf b q.2) = sanVal strOf b q.2
  | [], q, h => by cases h
  | (a, v) :: l, q, h => by
    by_cases e : q.2 = v
    · rw [e]; exact sanVal_idem v
    · rcases List.mem_cons.1 h with h | h
      · exact absurd (by rw [h]) e
      · exact sanValD_idem l q h
end

mutual
theorem sanVal_sane : ∀ (v : Py), SaneV v → b = true → sanVal strOf b v = v
  | .dict l, h, hb => by
    rw [sanVal, if_pos hb, sanitizeD_fix (ret := []) (by exact h.1), List.nil_append]
    exact sanD_sane l h.2 hb
  | .none, h, _ | .bool _, h, _ | .num _, h, _ | .str _, h, _ | .tup _, h, _ | .list _, h, _
  | .other _ _ _, h, _ => by
    rw [sanVal_of_not_dict rfl, if_pos (by simpa [SaneV] using h)]
theorem sanD_sane : ∀ (l : List (Py × Py)), SaneD l → b = true →
    ∀ p ∈ l, sanAttr strOf b p.1 = p.1 ∧ sanVal strOf b p.2 = p.2
  | [], _, _, p, hp => by cases hp
  | (a, v) :: l, h, hb, p, hp => by
    by_cases e : p = (a, v)
    · subst e; exact ⟨sanAttr_str h.1.1, sanVal_sane v h.1.2 hb⟩
    · rcases List.mem_cons.1 hp with hp | hp
      · exact absurd hp e
      · exact sanD_sane l h.2 hb p hp
end

/-! ### Passing the checks -/

mutual
theorem hashable_str : ∀ (x : Py), StrName x → x.hashable = true
  | .str _, _ => rfl
  | .tup l, h => by rw [Py.hashable]; exact hashableL_str l h
  | .none, h | .bool _, h | .num _, h | .list _, h | .dict _, h | .other _ _ _, h => by simp [StrName] at h
theorem hashableL_str : ∀ (l : List Py), StrNames l → Py.hashableL l = true
  | [], _ => rfl
  | x :: xs, h => by rw [Py.hashableL, hashable_str x h.1, hashableL_str xs h.2]; rfl
end

theorem sanTup_ne {l : List Py} (h : l ≠ []) : ∃ x xs, sanTup strOf l = x :: xs := by
  cases l with
  | nil => exact absurd rfl h
  | cons x xs => exact ⟨_, _, rfl⟩

theorem checkRel_cons (x : Py) (xs : List Py) :
    checkRel (x :: xs) = (checkRelEl x).bind fun _ => checkRel xs := rfl

mutual
theorem checkRelEl_san : ∀ (x : Py), SanName strOf x → checkRelEl (sanEl strOf x) = .ok ()
  | .tup l, h => by
    obtain ⟨h1, h2⟩ := h
    have := checkRel_san l h2
    obtain ⟨y, ys, e⟩ := sanTup_ne (strOf := strOf) h1
    rw [sanEl, e, checkRelEl]
    rw [e] at this
    exact this
  | .str s, h => by
    have h : s ≠ [] := by simpa [SanName] using h
    cases s with
    | nil => exact absurd rfl h
    | cons c s => rfl
  | .none, h | .bool _, h | .num _, h | .list _, h | .dict _, h | .other _ _ _, h => by
    simp only [SanName] at h
    rw [sanEl]
    · obtain ⟨c, s, e⟩ := List.exists_cons_of_ne_nil h
      rw [e]; rfl
    all_goals simp
theorem checkRel_san : ∀ (l : List Py), SanNames strOf l → checkRel (sanTup strOf l) = .ok ()
  | [], _ => rfl
  | x :: xs, h => by
    rw [sanTup, checkRel_cons, checkRelEl_san x h.1]
    exact checkRel_san xs h.2
end

theorem trestleAttr_san {a : Py} (h : SanName strOf a) : trestleAttr (sanAttr strOf true a) = .ok () := by
  cases a with
  | str s =>
    have h : s ≠ [] := by simpa [SanName] using h
    obtain ⟨c, s, rfl⟩ := List.exists_cons_of_ne_nil h
    rfl
  | tup l =>
    obtain ⟨h1, h2⟩ := h
    obtain ⟨x, xs, e⟩ := sanTup_ne (strOf := strOf) h1
    have h3 := checkRel_san l h2
    have h4 := hashableL_str _ (strNames_sanTup (strOf := strOf) l)
    simp only [sanAttr, if_true]
    rw [e] at h3 h4 ⊢
    simp [trestleAttr, Py.hashable, h4, Py.index0, h3]
  | _ =>
    simp only [SanName] at h
    obtain ⟨c, s, e⟩ := List.exists_cons_of_ne_nil h
    simp [sanAttr, e, trestleAttr, Py.hashable, Py.index0]

theorem trestleCheck_iff {l : List (Py × Py)} :
    trestleCheck l = .ok () ↔ ∀ p ∈ l, trestleAttr p.1 = .ok () ∧ trestleVal p.2 = .ok () := by
  induction l with
  | nil => simp [trestleCheck]
  | cons p l ih =>
    obtain ⟨a, v⟩ := p
    simp only [trestleCheck, List.mem_cons, forall_eq_or_imp]
    cases h1 : trestleAttr a <;> cases h2 : trestleVal v <;> simp [error_bind, ok_bind, ih]

theorem trestleVal_of_not_dict {v : Py} (h : v.isDict = false) :
    trestleVal v = if v.hashable then .ok () else .error .valueErr := by
  rw [trestleVal]
  intro l e; subst e; simp [Py.isDict] at h

theorem trestleVal_san_of_not_dict {v : Py} (h : v.isDict = false)
    (hv : hasHash v = true → v.hashable = true) : trestleVal (sanVal strOf true v) = .ok () := by
  rw [sanVal_of_not_dict h]
  split
  · rename_i hc; rw [trestleVal_of_not_dict h, if_pos (hv hc)]
  · rfl

mutual
theorem trestleVal_san : ∀ (v : Py), SanOkV strOf v → trestleVal (sanVal strOf true v) = .ok ()
  | .dict l, h => by
    rw [sanVal, if_pos rfl, trestleVal, trestleCheck_iff]
    intro p hp
    rcases mem_sanitizeD hp with hp | ⟨q, hq, rfl⟩
    · cases hp
    · exact trestleD_san l h q hq
  | .none, h | .bool _, h | .num _, h | .str _, h | .tup _, h | .list _, h | .other _ _ _, h =>
    trestleVal_san_of_not_dict rfl (by simpa only [SanOkV] using h)
theorem trestleD_san : ∀ (l : List (Py × Py)), SanOkD strOf l → ∀ q ∈ l,
    trestleAttr (sanAttr strOf true q.1) = .ok () ∧ trestleVal (sanVal strOf true q.2) = .ok ()
  | [], _, q, hq => by cases hq
  | (a, v) :: l, h, q, hq => by
    by_cases e : q = (a, v)
    · subst e; exact ⟨trestleAttr_san h.1.1, trestleVal_san v h.1.2⟩
    · rcases List.mem_cons.1 hq with hq | hq
      · exact absurd hq e
      · exact trestleD_san l h.2 q hq
end

theorem isOk_ok {ε α : Type} (a : α) : (Except.ok a : Except ε α).isOk = true := rfl
theorem isOk_error {ε α : Type} (e : ε) : (Except.error e : Except ε α).isOk = false := rfl

theorem sanityCheck_iff {l : List (Py × Py)} :
    sanityCheck l = .ok () ↔ ∀ p ∈ l, okAttr p.1 = true ∧ okVal p.2 = true := by
  induction l with
  | nil => simp [sanityCheck]
  | cons p l ih =>
    obtain ⟨a, v⟩ := p
    simp only [sanityCheck, List.mem_cons, forall_eq_or_imp]
    cases h1 : a.hashable <;> cases h2 : a.index0 <;> simp only [okAttr, h1, h2, isOk_ok, isOk_error]
    · simp
    · simp
    · simp
    · cases h3 : v.hashable
      · simp [okVal, h3]
      · by_cases h4 : v = .none
        · simp [okVal, h4]
        · simpa [okAttr, okVal, h3, h4] using ih

end CF
