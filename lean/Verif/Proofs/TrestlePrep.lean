/-
The variables of an instance on its way through Trestle's preprocessing.
-/
import Verif.Props.Standardize
import Verif.Props.StructureMapper

namespace CF

/-! ### When the name standardizer returns, the relations consist of strings -/

mutual
theorem componentsE_relEl : ∀ {a : Py} {l : List Py}, componentsE a = .ok l → relElOk a
  | .tup l, _, h => componentsL_relEls (l := l) h
  | .str _, _, _ => trivial
  | .none, _, h | .bool _, _, h | .num _, _, h | .list _, _, h | .dict _, _, h | .other _ _ _, _, h => by
    simp [componentsE] at h
theorem componentsL_relEls : ∀ {l r : List Py}, componentsL l = .ok r → relElsOk l
  | [], _, _ => trivial
  | x :: xs, _, h => by
    rw [componentsL] at h
    obtain ⟨a, h1, h⟩ := bind_ok.1 h
    obtain ⟨b, h2, _⟩ := bind_ok.1 h
    exact ⟨componentsE_relEl h1, componentsL_relEls h2⟩
end

section
variable {cfg : StdCfg}

/-- The counter never decreases. -/
def Counts {α : Type} (m : SM StdSt α) : Prop := ∀ s, s.ctr ≤ (m s).2.ctr

theorem Counts.bind {α β : Type} {m : SM StdSt α} {f : α → SM StdSt β} (h : Counts m)
    (h' : ∀ a, Counts (f a)) : Counts (m >>= f) := by
  intro s
  rw [SM.bind_def]
  have := h s
  cases e : m s with
  | mk r s' =>
    rw [e] at this
    cases r with
    | error x => exact this
    | ok a => exact Nat.le_trans this (h' a s')

theorem Counts.ret {α : Type} {a : α} : Counts (SM.ret a) := fun _ => Nat.le_refl _
theorem Counts.raise {α : Type} {e : PyErr} : Counts (SM.raise e : SM StdSt α) := fun _ => Nat.le_refl _
theorem Counts.lift {α : Type} {r : Res α} : Counts (SM.lift r : SM StdSt α) := fun _ => Nat.le_refl _
theorem Counts.get : Counts SM.get := fun _ => Nat.le_refl _

theorem bindVar_counts (v : Py) : Counts (bindVar cfg v) := by
  intro s
  unfold bindVar
  split
  · exact Nat.le_refl _
  · exact Nat.le_succ _

theorem bindVars_counts : ∀ (vs : List Py), Counts (bindVars cfg vs)
  | [] => Counts.ret
  | v :: vs => (bindVar_counts v).bind fun _ => bindVars_counts vs

theorem stdName_counts (a : Py) : Counts (stdName cfg a) := by
  unfold stdName
  split
  · refine (bindVar_counts a).bind fun _ => Counts.get.bind fun s => ?_
    split
    · exact Counts.ret
    · exact Counts.raise
  · exact Counts.ret

mutual
theorem stdVal_counts : ∀ (v : Py), Counts (stdVal cfg v)
  | .dict l => (stdD_counts l [] []).bind fun _ => Counts.ret
  | .list l => (stdL_counts l).bind fun _ => Counts.ret
  | .tup _ | .none | .bool _ | .num _ | .str _ | .other _ _ _ => Counts.ret
theorem stdL_counts : ∀ (l : List Py), Counts (stdL cfg l)
  | [] => Counts.ret
  | x :: xs => by
    cases hx : x.isDict with
    | true =>
      cases x <;> simp [Py.isDict] at hx
      exact (stdD_counts _ [] []).bind fun _ => (stdL_counts xs).bind fun _ => Counts.ret
    | false =>
      rw [stdL_atom hx]
      exact (stdL_counts xs).bind fun _ => Counts.ret
theorem stdD_counts : ∀ (l : List (Py × Py)) (new : PyInst) (rels : List (Py × Py)),
    Counts (stdD cfg l new rels)
  | [], _, _ => Counts.get.bind fun _ => Counts.ret
  | (k, v) :: rest, new, rels => by
    rw [stdD]
    refine (stdName_counts k).bind fun n => (stdVal_counts v).bind fun w => ?_
    split
    · exact Counts.lift.bind fun _ => (bindVars_counts _).bind fun _ => stdD_counts rest _ _
    · exact stdD_counts rest _ _
end

mutual
theorem stdVal_relsOk : ∀ (v : Py) {s s' : StdSt} {w : Py}, stdVal cfg v s = (.ok w, s') → relsOkV v
  | .dict l, _, _, _, h => by
    rw [stdVal] at h
    obtain ⟨_, _, h1, _⟩ := SM.bind_ok h
    exact stdD_relsOk l h1
  | .list l, _, _, _, h => by
    rw [stdVal] at h
    obtain ⟨_, _, h1, _⟩ := SM.bind_ok h
    exact stdL_relsOk l h1
  | .tup _, _, _, _, _ | .none, _, _, _, _ | .bool _, _, _, _, _ | .num _, _, _, _, _ | .str _, _, _, _, _
  | .other _ _ _, _, _, _, _ => trivial
theorem stdL_relsOk : ∀ (l : List Py) {s s' : StdSt} {o : List Py}, stdL cfg l s = (.ok o, s') → relsOkL l
  | [], _, _, _, _ => trivial
  | x :: xs, _, _, _, h => by
    rw [relsOkL_cons]
    cases hx : x.isDict with
    | true =>
      cases x <;> simp [Py.isDict] at hx
      rw [stdL] at h
      obtain ⟨_, _, h1, h⟩ := SM.bind_ok h
      obtain ⟨_, _, h2, _⟩ := SM.bind_ok h
      exact ⟨fun _ => stdD_relsOk _ h1, stdL_relsOk xs h2⟩
    | false =>
      rw [stdL_atom hx] at h
      obtain ⟨_, _, h2, _⟩ := SM.bind_ok h
      exact ⟨by simp, stdL_relsOk xs h2⟩
theorem stdD_relsOk : ∀ (l : List (Py × Py)) {new : PyInst} {rels : List (Py × Py)} {s s' : StdSt}
    {o : PyInst}, stdD cfg l new rels s = (.ok o, s') → relsOkD l
  | [], _, _, _, _, _, _ => trivial
  | (k, v) :: rest, new, rels, s, s', o, h => by
    rw [stdD] at h
    obtain ⟨n, s1, h1, h⟩ := SM.bind_ok h
    obtain ⟨w, s2, h2, h⟩ := SM.bind_ok h
    have hk : k.isTup = true → n = k := by
      intro ht
      have hv : isVarPy k = false := by cases k <;> simp_all [Py.isTup, isVarPy]
      rw [stdName, hv] at h1
      cases h1
      rfl
    have hr : relsOkD rest ∧ attrOk k := by
      split at h
      · obtain ⟨os, s3, h3, h⟩ := SM.bind_ok h
        obtain ⟨_, s4, h4, h⟩ := SM.bind_ok h
        refine ⟨stdD_relsOk rest h, ?_⟩
        cases k with
        | tup l =>
          rw [hk rfl] at h3
          have : components (.tup l) = .ok os := by
            unfold SM.lift at h3
            exact (Prod.mk.inj h3).1
          exact componentsL_relEls this
        | _ => trivial
      · rename_i hn
        refine ⟨stdD_relsOk rest h, ?_⟩
        cases k with
        | tup l => rw [hk rfl] at hn; simp [Py.isTup] at hn
        | _ => trivial
    exact ⟨⟨hr.2, stdVal_relsOk v h2⟩, hr.1⟩
end

mutual
theorem relsOk_of_sortVal : ∀ (v : Py), relsOkV (sortVal cfg v) → relsOkV v
  | .dict l, h => by
    refine relsOk_of_sortD l ?_
    have h : relsOkD (sortEntries cfg (sortD cfg l)) := h
    rw [relsOkD_iff] at h ⊢
    exact fun p hp => h p ((sortEntries_perm cfg (sortD cfg l)).mem_iff.2 hp)
  | .list l, h => relsOk_of_sortL l h
  | .tup _, _ | .none, _ | .bool _, _ | .num _, _ | .str _, _ | .other _ _ _, _ => trivial
theorem relsOk_of_sortL : ∀ (l : List Py), relsOkL (sortL cfg l) → relsOkL l
  | [], _ => trivial
  | x :: xs, h => by
    rw [sortL_cons, relsOkL_cons] at h
    rw [relsOkL_cons]
    refine ⟨fun hx => ?_, relsOk_of_sortL xs h.2⟩
    rw [if_pos hx] at h
    exact relsOk_of_sortVal x (h.1 (by cases x <;> simp_all [sortVal, Py.isDict]))
theorem relsOk_of_sortD : ∀ (l : List (Py × Py)), relsOkD (sortD cfg l) → relsOkD l
  | [], _ => trivial
  | (k, v) :: l, h => ⟨⟨h.1.1, relsOk_of_sortVal v h.1.2⟩, relsOk_of_sortD l h.2⟩
end

/-! ### The variables of the renamed instance -/

mutual
theorem wf_renV {f : Py → Py} {S : Py → Prop} (hf : InjOn f S) : ∀ (v : Py), v.wf → (∀ x ∈ varsV v, S x) →
    (renV f v).wf
  | .dict l, h, hv => by
    refine ⟨?_, wf_renD hf l h.2 hv⟩
    rw [renD_eq]
    exact renD_nodup hf h.1 hv
  | .list l, h, hv => wf_renL hf l h hv
  | .tup _, h, _ | .none, h, _ | .bool _, h, _ | .num _, h, _ | .str _, h, _ | .other _ _ _, h, _ => h
theorem wf_renL {f : Py → Py} {S : Py → Prop} (hf : InjOn f S) : ∀ (l : List Py), Py.wfL l →
    (∀ x ∈ varsL l, S x) → Py.wfL (renL f l)
  | [], _, _ => trivial
  | x :: xs, h, hv => by
    rw [varsL_cons] at hv
    rw [renL_cons]
    refine ⟨?_, wf_renL hf xs h.2 fun y hy => hv y (List.mem_append_right _ hy)⟩
    split
    · rename_i hx
      exact wf_renV hf x h.1 fun y hy => hv y (List.mem_append_left _ (by rw [if_pos hx]; exact hy))
    · exact h.1
theorem wf_renD {f : Py → Py} {S : Py → Prop} (hf : InjOn f S) : ∀ (l : List (Py × Py)), Py.wfD l →
    (∀ x ∈ varsD l, S x) → Py.wfD (renD f l)
  | [], _, _ => trivial
  | (k, v) :: l, h, hv => by
    simp only [varsD, List.mem_append] at hv
    exact ⟨wf_renV hf v h.1 fun y hy => hv y (.inl (.inr hy)), wf_renD hf l h.2 fun y hy => hv y (.inr hy)⟩
end

mutual
theorem varsV_renV {f : Py → Py} : ∀ (v : Py) (x : Py), (∀ y ∈ varsV v, Variable (f y)) →
    x ∈ varsV (renV f v) → ∃ y ∈ varsV v, x = f y
  | .dict l, x, h, hx => varsD_renD l x h hx
  | .list l, x, h, hx => varsL_renL l x h hx
  | .tup _, _, _, h | .none, _, _, h | .bool _, _, _, h | .num _, _, _, h | .str _, _, _, h
  | .other _ _ _, _, _, h => by simp [renV, varsV] at h
theorem varsL_renL {f : Py → Py} : ∀ (l : List Py) (x : Py), (∀ y ∈ varsL l, Variable (f y)) →
    x ∈ varsL (renL f l) → ∃ y ∈ varsL l, x = f y
  | [], _, _, hx => by simp [renL, varsL] at hx
  | v :: l, x, h, hx => by
    rw [varsL_cons] at h ⊢
    rw [renL_cons, varsL_cons] at hx
    rcases List.mem_append.1 hx with hx | hx
    · by_cases hd : v.isDict = true
      · rw [if_pos hd, renV_isDict, if_pos hd] at hx
        rw [if_pos hd] at h ⊢
        obtain ⟨y, hy, e⟩ := varsV_renV v x (fun y hy => h y (List.mem_append_left _ hy)) hx
        exact ⟨y, List.mem_append_left _ hy, e⟩
      · rw [if_neg hd, if_neg hd] at hx
        simp at hx
    · obtain ⟨y, hy, e⟩ := varsL_renL l x (fun y hy => h y (List.mem_append_right _ hy)) hx
      exact ⟨y, List.mem_append_right _ hy, e⟩
theorem varsD_renD {f : Py → Py} : ∀ (l : List (Py × Py)) (x : Py), (∀ y ∈ varsD l, Variable (f y)) →
    x ∈ varsD (renD f l) → ∃ y ∈ varsD l, x = f y
  | [], _, _, hx => by simp [renD, varsD] at hx
  | (k, v) :: l, x, h, hx => by
    simp only [varsD, List.mem_append] at h
    simp only [renD, varsD, List.mem_append] at hx ⊢
    rcases hx with (hx | hx) | hx
    · obtain ⟨y, hy, e⟩ := (varsEl_renEl k x fun y hy => h y (.inl (.inl hy))).1 hx
      exact ⟨y, .inl (.inl hy), e⟩
    · obtain ⟨y, hy, e⟩ := varsV_renV v x (fun y hy => h y (.inl (.inr hy))) hx
      exact ⟨y, .inl (.inr hy), e⟩
    · obtain ⟨y, hy, e⟩ := varsD_renD l x (fun y hy => h y (.inr hy)) hx
      exact ⟨y, .inr hy, e⟩
end

mutual
theorem same_vars : ∀ (v w : Py), v.wf → w.wf → Py.same v w → ∀ x ∈ varsV w, x ∈ varsV v
  | .dict l, w, h, h', hs, x, hx => by
    obtain ⟨l', rfl, h1, h2⟩ := hs
    obtain ⟨p, hp, hx⟩ := mem_varsD.1 hx
    obtain ⟨v, hm, hsv⟩ := Py.same_mem h.1 h'.1 h1 h2 (show (p.1, p.2) ∈ l' from hp)
    refine mem_varsD.2 ⟨_, hm, ?_⟩
    rcases hx with hx | hx
    · exact .inl hx
    · exact .inr (same_varsD l h.2 p.1 v hm p.2 (Py.wfD_iff.1 h'.2 p hp) hsv x hx)
  | .list l, w, h, h', hs, x, hx => by
    obtain ⟨l', rfl, h1⟩ := hs
    exact same_varsL l l' h h' h1 x hx
  | .tup l, w, _, _, hs, x, hx => by
    obtain ⟨l', rfl, _⟩ := hs
    exact hx
  | .none, w, _, _, hs, x, hx | .bool _, w, _, _, hs, x, hx | .num _, w, _, _, hs, x, hx
  | .str _, w, _, _, hs, x, hx | .other _ _ _, w, _, _, hs, x, hx => by
    rw [Py.same] at hs
    subst hs
    exact hx
theorem same_varsL : ∀ (l l' : List Py), Py.wfL l → Py.wfL l' → Py.sameL l l' → ∀ x ∈ varsL l', x ∈ varsL l
  | [], l', _, _, hs, x, hx => by
    rw [Py.sameL] at hs
    subst hs
    exact hx
  | v :: l, l', h, h', hs, x, hx => by
    obtain ⟨w, ws, rfl, h1, h2⟩ := hs
    rw [varsL_cons, same_isDict h1] at hx
    rw [varsL_cons]
    rcases List.mem_append.1 hx with hx | hx
    · refine List.mem_append_left _ ?_
      split at hx
      · rw [if_pos ‹_›]
        exact same_vars v w h.1 h'.1 h1 x hx
      · simp at hx
    · exact List.mem_append_right _ (same_varsL l ws h.2 h'.2 h2 x hx)
theorem same_varsD : ∀ (l : List (Py × Py)), Py.wfD l → ∀ k v, (k, v) ∈ l → ∀ w : Py, w.wf → Py.same v w →
    ∀ x ∈ varsV w, x ∈ varsV v
  | (k', v') :: l, h, k, v, hm, w, hw, hs, x, hx => by
    rcases List.mem_cons.1 hm with e | hm
    · obtain ⟨rfl, rfl⟩ := Prod.mk.inj e
      exact same_vars v w h.1 hw hs x hx
    · exact same_varsD l h.2 k v hm w hw hs x hx
end

/-- The counter after a call of the name standardizer. -/
theorem transform_counts (i : PyInst) (s : ℕ × Option (Dict Py Py)) :
    s.1 ≤ ((nameStandardizer cfg).transform i s).2.1 := by
  simp only [nameStandardizer]
  have := stdD_counts (cfg := cfg) (sortEntries cfg (sortD cfg i)) [] [] ⟨s.1, []⟩
  split <;> (rename_i e; rw [e] at this; exact this)

/-- When the name standardizer returns, the variables of the result are names that were generated. -/
theorem transform_vars (hc : NamesOk cfg) {i o : PyInst} (hw : Py.wf (.dict i)) {s s' : ℕ × Option (Dict Py Py)}
    (h : (nameStandardizer cfg).transform i s = (.ok o, s')) :
    Py.wf (.dict o) ∧ s.1 ≤ s'.1 ∧
      ∀ x ∈ varsD o, ∃ n, s.1 ≤ n ∧ n < s'.1 ∧ x = .str (cfg.gensym n) := by
  have hr : relsOkD i := by
    simp only [nameStandardizer] at h
    split at h
    · rename_i e
      exact relsOk_of_sortVal (cfg := cfg) (.dict i) (stdD_relsOk _ e)
    · simp at h
  obtain ⟨o', g', rm, f, h1, h2, h3, h4, h5, _⟩ := transform_spec hc hw hr s.1 s.2
  rw [show (s.1, s.2) = s from rfl, h] at h1
  cases h1
  have hf : InjOn f (· ∈ varsD i) := by
    refine ⟨fun x y hx hy => h4 x hx y hy, fun x hx => ?_⟩
    obtain ⟨n, _, _, e⟩ := h3 x hx
    have := hc.var n
    rw [e]
    cases hg : cfg.gensym n with
    | nil => rw [hg] at this; simp [isVar] at this
    | cons c s =>
      rw [hg] at this
      simp only [isVar, List.head?_cons, beq_iff_eq, Option.some.injEq] at this
      exact ⟨s, by rw [this]⟩
  refine ⟨h5.2, h2, fun x hx => ?_⟩
  have hx : x ∈ varsV (renV f (.dict i)) :=
    same_vars _ _ (wf_renV hf (.dict i) hw fun _ h => h) h5.2 h5.1 x hx
  obtain ⟨y, hy, rfl⟩ := varsV_renV (.dict i) x (fun y hy => hf.var y hy) hx
  obtain ⟨n, h6, h7, e⟩ := h3 y hy
  exact ⟨n, h6, h7, e⟩

end

/-! ### Flat instances with variables in `P` -/

/-- The variables of all attributes satisfy `P`. -/
def KeyVars (P : Py → Prop) (d : PyInst) : Prop := ∀ k ∈ d.keys, ∀ x ∈ varsEl k, P x

theorem KeyVars.set {P : Py → Prop} {d : PyInst} (h : KeyVars P d) {k v : Py} (hk : ∀ x ∈ varsEl k, P x) :
    KeyVars P (d.set k v) := by
  intro a ha
  rcases Dict.mem_keys_set.1 ha with h' | h'
  · first | exact h a h' | (subst h'; exact hk)
  · first | exact h a h' | (subst h'; exact hk)

theorem KeyVars.setAll {P : Py → Prop} {d e : PyInst} (h : KeyVars P d) (he : KeyVars P e) :
    KeyVars P (setAll d e) := by
  unfold CF.setAll
  induction e generalizing d with
  | nil => exact h
  | cons p e ih =>
    exact ih (h.set (he p.1 (by simp))) fun k hk => he k (by simp only [Dict.keys_cons, List.mem_cons]; exact .inr hk)

theorem flatName_vars {P : Py → Prop} {o : Option Py} {a b : Py} (h : flatName o a = .ok b)
    (ho : ∀ y, o = some y → ∀ x ∈ varsEl y, P x) (ha : ∀ x ∈ varsEl a, P x) : ∀ x ∈ varsEl b, P x := by
  cases o with
  | none => cases h; exact ha
  | some y =>
    simp only [flatName] at h
    obtain ⟨z, _, h⟩ := bind_ok.1 h
    have hy := ho y rfl
    have e : ¬ Variable (.str c!"_") := by simp [Variable]
    split at h <;> cases h <;> intro x hx
    · simp only [varsEl, varsEls, if_neg e, List.append_nil, List.nil_append, List.mem_append] at hx
      exact hx.elim (ha x) (hy x)
    · simp only [varsEl, varsEls, List.append_nil, List.mem_append] at hx
      exact hx.elim (ha x) (hy x)

mutual
theorem flattenV_vars {P : Py → Prop} : ∀ (v : Py) {a : Py} {temp r : PyInst}, flattenV a v temp = .ok r →
    KeyVars P temp → (∀ x ∈ varsEl a, P x) → (∀ x ∈ varsV v, P x) → KeyVars P r
  | .dict l, a, temp, r, h, ht, ha, hv => by
    rw [flattenV] at h
    obtain ⟨so, h1, h⟩ := bind_ok.1 h
    cases h
    exact ht.setAll (flattenD_vars l h1 (by simp [KeyVars]) (by rintro y ⟨⟩; exact ha) hv)
  | .list _, a, temp, r, h, ht, ha, _ | .tup _, a, temp, r, h, ht, ha, _ | .none, a, temp, r, h, ht, ha, _
  | .bool _, a, temp, r, h, ht, ha, _ | .num _, a, temp, r, h, ht, ha, _ | .str _, a, temp, r, h, ht, ha, _
  | .other _ _ _, a, temp, r, h, ht, ha, _ => by
    cases h
    exact ht.set ha
theorem flattenD_vars {P : Py → Prop} : ∀ (l : List (Py × Py)) {o : Option Py} {temp r : PyInst},
    flattenD o l temp = .ok r → KeyVars P temp → (∀ y, o = some y → ∀ x ∈ varsEl y, P x) →
    (∀ x ∈ varsD l, P x) → KeyVars P r
  | [], o, temp, r, h, ht, _, _ => by cases h; exact ht
  | (k, v) :: l, o, temp, r, h, ht, ho, hv => by
    rw [flattenD] at h
    obtain ⟨a, h1, h⟩ := bind_ok.1 h
    obtain ⟨t, h2, h⟩ := bind_ok.1 h
    simp only [varsD, List.mem_append] at hv
    exact flattenD_vars l h
      (flattenV_vars v h2 ht (flatName_vars h1 ho fun x hx => hv x (.inl (.inl hx))) fun x hx => hv x (.inl (.inr hx)))
      ho fun x hx => hv x (.inr hx)
end

theorem setAll_nodup' {d : PyInst} (h : Dict.Nodup d) (e : PyInst) : Dict.Nodup (setAll d e) :=
  Dict.nodup_foldl_set e h

theorem flattenV_nodup {a v : Py} {temp r : PyInst} (h : flattenV a v temp = .ok r) (ht : Dict.Nodup temp) :
    Dict.Nodup r := by
  cases v with
  | dict l =>
    rw [flattenV] at h
    obtain ⟨so, _, h⟩ := bind_ok.1 h
    cases h
    exact setAll_nodup' ht so
  | _ => cases h; exact Dict.nodup_set ht _ _

theorem flattenD_nodup {o : Option Py} {l : List (Py × Py)} {temp r : PyInst} (h : flattenD o l temp = .ok r)
    (ht : Dict.Nodup temp) : Dict.Nodup r := by
  induction l generalizing temp with
  | nil => cases h; exact ht
  | cons p l ih =>
    rw [flattenD] at h
    obtain ⟨a, _, h⟩ := bind_ok.1 h
    obtain ⟨t, h2, h⟩ := bind_ok.1 h
    exact ih h (flattenV_nodup h2 ht)

theorem flatten_vars {P : Py → Prop} {i o : PyInst} (h : flatten i = .ok o) (hi : ∀ x ∈ varsD i, P x) :
    KeyVars P o ∧ Dict.Nodup o :=
  ⟨flattenD_vars i h (by simp [KeyVars]) (by simp) hi, flattenD_nodup h Dict.nodup_nil⟩

/-! ### Sub-components -/

mutual
theorem extractAttr_vars : ∀ (a : Py), ∀ x ∈ varsEl (extractAttr a), x ∈ varsEl a
  | .tup [u, w], x, hx => by
    simp only [extractAttr] at hx
    simp only [varsEl, varsEls, List.append_nil, List.mem_append]
    split at hx
    · exact .inl hx
    · simp only [varsEl, varsEls, List.append_nil, List.mem_append] at hx
      exact hx.imp_right (extractAttr_vars w x)
  | .tup [], x, hx => hx
  | .tup [u], x, hx => extractAttrL_vars [u] x hx
  | .tup (u :: v :: w :: l), x, hx => extractAttrL_vars (u :: v :: w :: l) x hx
  | .list _, x, hx | .dict _, x, hx | .none, x, hx | .bool _, x, hx | .num _, x, hx | .str _, x, hx
  | .other _ _ _, x, hx => hx
theorem extractAttrL_vars : ∀ (l : List Py), ∀ x ∈ varsEls (extractAttrL l), x ∈ varsEls l
  | [], _, hx => hx
  | a :: l, x, hx => by
    simp only [extractAttrL, varsEls, List.mem_append] at hx ⊢
    exact hx.imp (extractAttr_vars a x) (extractAttrL_vars l x)
end

theorem pushComp_vars {P : Py → Prop} {last : Option Py} {inner : Py} {rels : List Py}
    (hl : ∀ y, last = some y → ∀ x ∈ varsEl y, P x) (hi : last ≠ none → ∀ x ∈ varsEl inner, P x)
    (hr : ∀ r ∈ rels, ∀ x ∈ varsEl r, P x) : ∀ r ∈ pushComp last inner rels, ∀ x ∈ varsEl r, P x := by
  cases last with
  | none => exact hr
  | some y =>
    intro r hm x hx
    simp only [pushComp, List.mem_append, List.mem_singleton] at hm
    rcases hm with hm | rfl
    · exact hr r hm x hx
    · have e : ¬ Variable (.str c!"has-component") := by simp [Variable]
      simp only [hasComp, varsEl, varsEls, if_neg e, List.append_nil, List.nil_append, List.mem_append] at hx
      exact hx.elim (hi (by simp) x) (hl y rfl x)

theorem compLoop_vars {P : Py → Prop} (hP : ∀ x, P x → x ≠ .str c!"??") {a : Py} {last : Option Py}
    {inner : Py} {rels out : List Py} (h : compLoop a last inner rels = .ok out)
    (ha : ∀ x ∈ varsEl a, P x)
    (hl : ∀ y, last = some y → ∀ x ∈ varsEl y, P x) (hi : last ≠ none → ∀ x ∈ varsEl inner, P x)
    (hr : ∀ r ∈ rels, ∀ x ∈ varsEl r, P x) : ∀ r ∈ out, ∀ x ∈ varsEl r, P x := by
  fun_induction compLoop a last inner rels with
  | case1 u w last inner rels hu ih =>
    simp only [varsEl, varsEls, List.append_nil, List.mem_append] at ha
    refine ih h (fun x hx => ha x (.inr hx)) (by rintro y ⟨⟩ x hx; exact ha x (.inl hx))
      (fun _ x hx => ha x (.inr (extractAttr_vars w x hx))) (pushComp_vars hl hi hr)
  | case2 u w last inner rels hu ih =>
    simp only [varsEl, varsEls, List.append_nil, List.mem_append] at ha
    exact ih h (fun x hx => ha x (.inr hx)) hl hi hr
  | case3 c c' last inner rels s' hc =>
    cases h
    have hc : c = '?' := by simpa [isVar] using hc
    subst hc
    have hne : c' ≠ '?' := by
      rintro rfl
      exact hP _ (ha (.str c!"??") (by simp [varsEl, Variable])) rfl
    rw [if_neg (by simp [isVar, hne])]
    exact pushComp_vars hl hi hr
  | case4 c c' last inner rels hc =>
    cases h
    split
    · exact pushComp_vars hl hi hr
    · exact hr
  | case5 =>
    cases h
    split
    · exact pushComp_vars hl hi hr
    · exact hr
  | case6 => cases h; exact hr
  | case7 => simp at h

mutual
theorem hasComponents_vars {P : Py → Prop} (hP : ∀ x, P x → x ≠ .str c!"??") : ∀ (a : Py) {out : List Py},
    hasComponents a = .ok out → (∀ x ∈ varsEl a, P x) → ∀ r ∈ out, ∀ x ∈ varsEl r, P x
  | .tup [u, w], out, h, ha => by
    rw [hasComponents] at h
    exact compLoop_vars hP h ha (by simp) (by simp) (by simp)
  | .tup [], out, h, ha => hasComponentsL_vars hP [] (by rw [hasComponents] at h; exact h; simp) ha
  | .tup [u], out, h, ha => hasComponentsL_vars hP [u] (by rw [hasComponents] at h; exact h; simp) ha
  | .tup (u :: v :: w :: l), out, h, ha =>
    hasComponentsL_vars hP (u :: v :: w :: l) (by rw [hasComponents] at h; exact h; simp) ha
  | .list _, _, h, _ | .dict _, _, h, _ | .none, _, h, _ | .bool _, _, h, _ | .num _, _, h, _ | .str _, _, h, _
  | .other _ _ _, _, h, _ => by cases h; simp
theorem hasComponentsL_vars {P : Py → Prop} (hP : ∀ x, P x → x ≠ .str c!"??") : ∀ (l : List Py) {out : List Py},
    hasComponentsL l = .ok out → (∀ x ∈ varsEls l, P x) → ∀ r ∈ out, ∀ x ∈ varsEl r, P x
  | [], _, h, _ => by cases h; simp
  | a :: l, out, h, ha => by
    rw [hasComponentsL] at h
    obtain ⟨u, h1, h⟩ := bind_ok.1 h
    obtain ⟨w, h2, h⟩ := bind_ok.1 h
    cases h
    simp only [varsEls, List.mem_append] at ha
    intro r hm
    rcases List.mem_append.1 hm with hm | hm
    · exact hasComponents_vars hP a h1 (fun x hx => ha x (.inl hx)) r hm
    · exact hasComponentsL_vars hP l h2 (fun x hx => ha x (.inr hx)) r hm
end

theorem extractD_vars {P : Py → Prop} (hP : ∀ x, P x → x ≠ .str c!"??") {l : List (Py × Py)} {new o : PyInst}
    (h : extractD l new = .ok o) (hl : KeyVars P l) (hn : KeyVars P new) (hd : Dict.Nodup new) :
    KeyVars P o ∧ Dict.Nodup o := by
  induction l generalizing new with
  | nil => cases h; exact ⟨hn, hd⟩
  | cons p l ih =>
    rw [extractD] at h
    obtain ⟨rels, h1, h⟩ := bind_ok.1 h
    have hp := hl p.1 (by simp)
    refine ih h (fun k hk => hl k (by simp only [Dict.keys_cons, List.mem_cons]; exact .inr hk)) ?_
      (Dict.nodup_set (setAll_nodup' hd _) _ _)
    refine KeyVars.set (hn.setAll ?_) fun x hx => hp x (extractAttr_vars _ x hx)
    intro k hk
    simp only [Dict.keys, List.map_map, List.mem_map, Function.comp_apply] at hk
    obtain ⟨r, hr, rfl⟩ := hk
    exact hasComponents_vars hP p.1 h1 hp r hr

end CF
