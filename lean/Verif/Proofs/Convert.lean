/-
Converting between numbers and strings.
-/
import Verif.Spec.Convert
import Verif.Proofs.Tuplize

namespace CF
variable {strOf : Py → PStr} {ts : Option (List Py)}

theorem targeted_iff {k : Py} : targeted ts k = true ↔ Targets ts k := by
  cases ts <;> simp [targeted, Targets]

theorem isNumber_iff {v : Py} : isNumber v = true ↔ IsNum v := by
  cases v <;> simp [isNumber, IsNum]

theorem nominalD_eq : ∀ {l : List (Py × Py)} {new : PyInst}, (Dict.keys new ++ Dict.keys l).Nodup →
    nominalD strOf ts l new = new ++ l.map fun p => (p.1, nominalV strOf ts p.1 p.2)
  | [], new, _ => by simp [nominalD]
  | (a, v) :: l, new, h => by
    have hnot : a ∉ Dict.keys new := fun hc => (List.nodup_append.1 h).2.2 _ hc _ (by simp) rfl
    rw [nominalD, Dict.set_of_not_mem hnot, nominalD_eq]
    · simp
    · simpa [Dict.keys] using h

theorem get?_map_val {f : Py → Py → Py} {l : List (Py × Py)} {k : Py} :
    Dict.get? (l.map fun p => (p.1, f p.1 p.2)) k = (Dict.get? l k).map (f k) := by
  induction l with
  | nil => rfl
  | cons p l ih =>
    obtain ⟨a, v⟩ := p
    simp only [List.map_cons, Dict.get?_cons, ih]
    split
    · rename_i h; subst h; rfl
    · rfl

theorem wf_get {l : List (Py × Py)} (h : (Py.dict l).wf) {k v : Py} (hk : Dict.get? l k = some v) : v.wf :=
  Py.wfD_iff.1 h.2 _ (Dict.mem_of_get? hk)

theorem wf_at : ∀ (ks : List Py) {v w : Py}, v.wf → atPath v ks = some w → w.wf
  | [], v, w, hv, he => by simp only [atPath, Option.some.injEq] at he; exact he ▸ hv
  | k :: ks, .dict m, w, hv, he => by
    simp only [atPath, Option.bind_eq_some_iff] at he
    obtain ⟨u, hu, he⟩ := he
    exact wf_at ks (wf_get hv hu) he
  | k :: ks, .none, w, _, he | k :: ks, .bool _, w, _, he | k :: ks, .num _, w, _, he
  | k :: ks, .str _, w, _, he | k :: ks, .tup _, w, _, he | k :: ks, .list _, w, _, he
  | k :: ks, .other _ _ _, w, _, he => by simp [atPath] at he

theorem nominal_at : ∀ (ks : List Py) (a v : Py), v.wf →
    atPath (nominalV strOf ts a v) ks = (atPath v ks).map (nominalV strOf ts (ks.getLastD a))
  | [], a, v, _ => by simp [atPath]
  | k :: ks, a, .dict l, h => by
    rw [nominalV, nominalD_eq (by exact h.1)]
    simp only [List.nil_append, atPath, get?_map_val, List.getLastD_cons]
    cases hk : Dict.get? l k with
    | none => rfl
    | some w => simpa using nominal_at ks k w (wf_get h hk)
  | k :: ks, a, .none, _ | k :: ks, a, .bool _, _ | k :: ks, a, .num _, _ | k :: ks, a, .str _, _
  | k :: ks, a, .tup _, _ | k :: ks, a, .list _, _ | k :: ks, a, .other _ _ _, _ => by
    rw [nominalV]
    · split <;> simp [atPath]
    · intro l h; cases h

theorem nominalV_of_not_dict {a v : Py} (h : v.isDict = false) :
    nominalV strOf ts a v = if targeted ts a && isNumber v then .str (strOf v) else v := by
  rw [nominalV]
  intro l e; subst e; simp [Py.isDict] at h

theorem nominalV_idem_of_not_dict {a v : Py} (h : v.isDict = false) :
    nominalV strOf ts a (nominalV strOf ts a v) = nominalV strOf ts a v := by
  by_cases hc : (targeted ts a && isNumber v) = true
  · have e : nominalV strOf ts a v = .str (strOf v) := by rw [nominalV_of_not_dict h, if_pos hc]
    rw [e, nominalV_of_not_dict rfl]
    simp [isNumber]
  · have e : nominalV strOf ts a v = v := by rw [nominalV_of_not_dict h, if_neg hc]
    rw [e, e]

mutual
theorem nominalV_idem : ∀ (v : Py) (a : Py), v.wf →
    nominalV strOf ts a (nominalV strOf ts a v) = nominalV strOf ts a v
  | .dict l, a, h => by
    have hl := nominalD_eq (strOf := strOf) (ts := ts) (l := l) (new := []) h.1
    rw [nominalV, hl, List.nil_append, nominalV, nominalD_eq]
    · have := nominalD_idem l h.2
      rw [List.nil_append, this]
    · have := h.1
      simpa [Dict.keys, Dict.Nodup, Function.comp_def] using this
  | .none, a, _ | .bool _, a, _ | .num _, a, _ | .str _, a, _
  | .tup _, a, _ | .list _, a, _ | .other _ _ _, a, _ => by
    exact nominalV_idem_of_not_dict rfl
theorem nominalD_idem : ∀ (l : List (Py × Py)), Py.wfD l →
    (l.map fun p => (p.1, nominalV strOf ts p.1 p.2)).map (fun p => (p.1, nominalV strOf ts p.1 p.2)) =
      l.map fun p => (p.1, nominalV strOf ts p.1 p.2)
  | [], _ => rfl
  | (a, v) :: l, h => by
    simp only [List.map_cons, nominalV_idem v a h.1, nominalD_idem l h.2]
end

/-! ### `NominalToNumeric` -/

variable {parse : PStr → Option ℚ} {onFail : OnFail}

theorem numericD_get : ∀ {l : List (Py × Py)} {new o : PyInst}, (Dict.keys new ++ Dict.keys l).Nodup →
    numericD parse onFail ts l new = .ok o →
    (∀ k, k ∉ Dict.keys l → Dict.get? o k = Dict.get? new k) ∧
    (∀ k v, (k, v) ∈ l →
      (targeted ts k = true → ∃ x, tryFloat parse onFail v = .ok x ∧ Dict.get? o k = x) ∧
      (targeted ts k = false → ∃ v', numericV parse onFail ts v = .ok v' ∧ Dict.get? o k = some v'))
  | [], new, o, _, e => by
    simp only [numericD] at e; cases e
    exact ⟨fun _ _ => rfl, by simp⟩
  | (a, v) :: l, new, o, hn, e => by
    have hnot : a ∉ Dict.keys new := fun hc => (List.nodup_append.1 hn).2.2 _ hc _ (by simp) rfl
    have hnl : a ∉ Dict.keys l := by
      have := (List.nodup_append.1 hn).2.1
      rw [Dict.keys_cons, List.nodup_cons] at this
      exact this.1
    have hset : ∀ x, (Dict.keys (Dict.set new a x) ++ Dict.keys l).Nodup := by
      intro x
      rw [Dict.set_of_not_mem hnot]
      simpa [Dict.keys] using hn
    have hdrop : (Dict.keys new ++ Dict.keys l).Nodup := by
      refine hn.sublist ?_
      simp
    -- the three ways to go on
    have step : ∀ {new' : PyInst} (x : Option Py), Dict.get? new' a = x →
        (∀ k, k ≠ a → Dict.get? new' k = Dict.get? new k) → (Dict.keys new' ++ Dict.keys l).Nodup →
        numericD parse onFail ts l new' = .ok o →
        (targeted ts a = true → tryFloat parse onFail v = .ok x) →
        (targeted ts a = false → ∃ v', numericV parse onFail ts v = .ok v' ∧ x = some v') →
        (∀ k, k ∉ Dict.keys ((a, v) :: l) → Dict.get? o k = Dict.get? new k) ∧
        (∀ k w, (k, w) ∈ (a, v) :: l →
          (targeted ts k = true → ∃ x, tryFloat parse onFail w = .ok x ∧ Dict.get? o k = x) ∧
          (targeted ts k = false → ∃ v', numericV parse onFail ts w = .ok v' ∧ Dict.get? o k = some v')) := by
      intro new' x hx hne hnd e' ht hf
      obtain ⟨h1, h2⟩ := numericD_get hnd e'
      have hoa : Dict.get? o a = x := by rw [h1 a hnl, hx]
      refine ⟨fun k hk => ?_, fun k w hm => ?_⟩
      · simp only [Dict.keys_cons, List.mem_cons, not_or] at hk
        rw [h1 k hk.2, hne k hk.1]
      · rcases List.mem_cons.1 hm with hm | hm
        · cases hm
          refine ⟨fun h => ⟨x, ht h, hoa⟩, fun h => ?_⟩
          obtain ⟨v', hv, hx'⟩ := hf h
          exact ⟨v', hv, by rw [hoa, hx']⟩
        · exact h2 k w hm
    rw [numericD] at e
    by_cases h : targeted ts a = true
    · rw [if_pos h] at e
      obtain ⟨x, e1, e⟩ := bind_ok.1 e
      cases x with
      | none =>
        exact step (new' := new) none (Dict.get?_eq_none.2 hnot) (fun _ _ => rfl) hdrop e (fun _ => e1)
          (fun h' => by rw [h] at h'; cases h')
      | some x =>
        exact step (some x) (Dict.get?_set_self _ _ _) (fun k hk => Dict.get?_set_ne _ (Ne.symm hk) _) (hset x) e
          (fun _ => e1) (fun h' => by rw [h] at h'; cases h')
    · rw [if_neg h] at e
      obtain ⟨v', e1, e⟩ := bind_ok.1 e
      exact step (some v') (Dict.get?_set_self _ _ _) (fun k hk => Dict.get?_set_ne _ (Ne.symm hk) _) (hset v') e
        (fun h' => absurd h' h) (fun _ => ⟨v', e1, rfl⟩)

theorem tryFloat_some {v x : Py} (h : tryFloat parse onFail v = .ok (some x)) :
    (∃ q, x = .num q ∧ ReadsAs parse v q) ∨ (x = .num 0 ∧ onFail = .zero ∧ ∃ s, v = .str s ∧ parse s = none) := by
  cases v with
  | num q => simp only [tryFloat, floatOf] at h; cases h; exact .inl ⟨q, rfl, .num q⟩
  | bool b =>
    simp only [tryFloat, floatOf] at h; cases h
    cases b
    · exact .inl ⟨0, rfl, .false⟩
    · exact .inl ⟨1, rfl, .true⟩
  | str s =>
    cases hp : parse s with
    | some q => simp only [tryFloat, floatOf, hp] at h; cases h; exact .inl ⟨q, rfl, .str hp⟩
    | none =>
      simp only [tryFloat, floatOf, hp] at h
      cases onFail <;> simp at h
      exact .inr ⟨h.symm, rfl, s, rfl, hp⟩
  | _ => simp [tryFloat, floatOf] at h

theorem tryFloat_none {v : Py} (h : tryFloat parse onFail v = .ok none) :
    onFail = .drop ∧ ∃ s, v = .str s ∧ parse s = none := by
  cases v with
  | str s =>
    cases hp : parse s with
    | some q => simp [tryFloat, floatOf, hp] at h
    | none =>
      simp only [tryFloat, floatOf, hp] at h
      cases onFail <;> simp at h
      exact ⟨rfl, s, rfl, hp⟩
  | _ => simp [tryFloat, floatOf] at h

theorem tryFloat_error {v : Py} {e : PyErr} (h : tryFloat parse onFail v = .error e) :
    (e = .typeErr ∧ (∀ s, v ≠ .str s) ∧ ¬ IsNum v) ∨
    (e = .valueErr ∧ onFail = .brk ∧ ∃ s, v = .str s ∧ parse s = none) := by
  cases v with
  | num q => simp [tryFloat, floatOf] at h
  | bool b => simp [tryFloat, floatOf] at h
  | str s =>
    cases hp : parse s with
    | some q => simp [tryFloat, floatOf, hp] at h
    | none =>
      simp only [tryFloat, floatOf, hp] at h
      cases onFail <;> simp at h
      exact .inr ⟨h.symm, rfl, s, rfl, hp⟩
  | _ =>
    simp only [tryFloat, floatOf] at h; cases h
    exact .inl ⟨rfl, by simp, by simp [IsNum]⟩

theorem readsAs_unique {v : Py} {q q' : ℚ} (h : ReadsAs parse v q) (h' : ReadsAs parse v q') : q = q' := by
  cases h with
  | num | true | false => cases h'; rfl
  | str hp => cases h' with
    | str hp' => exact Option.some.inj (hp.symm.trans hp')

/-- What is at a place of the result. -/
theorem numeric_at : ∀ (ks : List Py) (k : Py) {v v' : Py}, v.wf → numericV parse onFail ts v = .ok v' →
    (∀ w, atPath v (ks ++ [k]) = some w →
      (Targets ts k → ∃ x, tryFloat parse onFail w = .ok x ∧ atPath v' (ks ++ [k]) = x) ∧
      (¬ Targets ts k → ∃ w', numericV parse onFail ts w = .ok w' ∧ atPath v' (ks ++ [k]) = some w')) ∧
    (atPath v (ks ++ [k]) = none → atPath v' (ks ++ [k]) = none)
  | ks, k, .dict l, v', h, e => by
    rw [numericV] at e
    obtain ⟨o, e1, e'⟩ := bind_ok.1 e
    cases e'
    have hn : (Dict.keys ([] : PyInst) ++ Dict.keys l).Nodup := h.1
    obtain ⟨h1, h2⟩ := numericD_get hn e1
    cases ks with
    | nil =>
      simp only [List.nil_append, atPath, Option.bind_fun_some]
      refine ⟨fun w hw => ?_, fun hw => by rw [h1 k (Dict.get?_eq_none.1 hw)]; rfl⟩
      obtain ⟨h3, h4⟩ := h2 k w (Dict.mem_of_get? hw)
      exact ⟨fun ht => h3 (targeted_iff.2 ht), fun ht => h4 (by
        cases hc : targeted ts k with
        | true => exact absurd (targeted_iff.1 hc) ht
        | false => rfl)⟩
    | cons k' ks =>
      simp only [List.cons_append, atPath]
      cases hk : Dict.get? l k' with
      | none =>
        rw [h1 k' (Dict.get?_eq_none.1 hk)]
        simp
      | some u =>
        obtain ⟨h3, h4⟩ := h2 k' u (Dict.mem_of_get? hk)
        simp only [Option.bind_some]
        cases hc : targeted ts k' with
        | false =>
          obtain ⟨u', hu, ho⟩ := h4 hc
          rw [ho]
          exact numeric_at ks k (wf_get h hk) hu
        | true =>
          obtain ⟨x, hx, ho⟩ := h3 hc
          -- a targeted value is not a component
          have hnd : u.isDict = false := by
            cases u <;> first | rfl | simp [tryFloat, floatOf] at hx
          have h5 : ∀ (w : Py) (m : List Py), w.isDict = false → atPath w (m ++ [k]) = none := by
            intro w m hw
            cases m <;> cases w <;> first | rfl | simp [Py.isDict] at hw
          rw [h5 u ks hnd, ho]
          refine ⟨by simp, fun _ => ?_⟩
          cases x with
          | none => rfl
          | some x =>
            have : x.isDict = false := by
              rcases tryFloat_some hx with ⟨q, rfl, _⟩ | ⟨rfl, _⟩ <;> rfl
            simpa using h5 x ks this
  | ks, k, .none, v', _, e | ks, k, .bool _, v', _, e | ks, k, .num _, v', _, e | ks, k, .str _, v', _, e
  | ks, k, .tup _, v', _, e | ks, k, .list _, v', _, e | ks, k, .other _ _ _, v', _, e => by
    rw [numericV] at e
    · cases e
      cases ks <;> simp [atPath]
    · intro l h; cases h

mutual
theorem numericV_error : ∀ {v : Py} {e : PyErr}, v.wf → numericV parse onFail ts v = .error e →
    ∃ ks k w, Targets ts k ∧ atPath v (ks ++ [k]) = some w ∧ tryFloat parse onFail w = .error e
  | .dict l, e, h, he => by
    rw [numericV] at he
    have : numericD parse onFail ts l [] = .error e := by
      cases hd : numericD parse onFail ts l [] with
      | ok o => rw [hd] at he; cases he
      | error e' => rw [hd] at he; cases he; rfl
    obtain ⟨p, hp, hh⟩ := numericD_error h.2 this
    rcases hh with ⟨h1, h2⟩ | ⟨ks, k, w, h1, h2, h3⟩
    · exact ⟨[], p.1, p.2, h1, by simp [atPath, Dict.get?_of_mem h.1 hp], h2⟩
    · exact ⟨p.1 :: ks, k, w, h1, by simp [atPath, Dict.get?_of_mem h.1 hp, h2], h3⟩
  | .none, e, _, he | .bool _, e, _, he | .num _, e, _, he | .str _, e, _, he
  | .tup _, e, _, he | .list _, e, _, he | .other _ _ _, e, _, he => by simp [numericV] at he
theorem numericD_error : ∀ {l : List (Py × Py)} {new : PyInst} {e : PyErr}, Py.wfD l →
    numericD parse onFail ts l new = .error e →
    ∃ p ∈ l, (Targets ts p.1 ∧ tryFloat parse onFail p.2 = .error e) ∨
      ∃ ks k w, Targets ts k ∧ atPath p.2 (ks ++ [k]) = some w ∧ tryFloat parse onFail w = .error e
  | [], new, e, _, he => by simp [numericD] at he
  | (a, v) :: l, new, e, h, he => by
    have rec' : ∀ new', numericD parse onFail ts l new' = .error e →
        ∃ p ∈ (a, v) :: l, (Targets ts p.1 ∧ tryFloat parse onFail p.2 = .error e) ∨
          ∃ ks k w, Targets ts k ∧ atPath p.2 (ks ++ [k]) = some w ∧ tryFloat parse onFail w = .error e := by
      intro new' hn
      obtain ⟨p, hp, hh⟩ := numericD_error h.2 hn
      exact ⟨p, List.mem_cons_of_mem _ hp, hh⟩
    rw [numericD] at he
    by_cases ht : targeted ts a = true
    · rw [if_pos ht] at he
      cases hx : tryFloat parse onFail v with
      | error e' =>
        rw [hx] at he; cases he
        exact ⟨(a, v), List.mem_cons_self, .inl ⟨targeted_iff.1 ht, hx⟩⟩
      | ok x =>
        rw [hx, ok_bind] at he
        cases x with
        | none => exact rec' _ he
        | some x => exact rec' _ he
    · rw [if_neg ht] at he
      cases hx : numericV parse onFail ts v with
      | error e' =>
        rw [hx] at he; cases he
        exact ⟨(a, v), List.mem_cons_self, .inr (numericV_error h.1 hx)⟩
      | ok x =>
        rw [hx, ok_bind] at he
        exact rec' _ he
end

end CF
