/-
Lemmas for `Verif.Props.TrestleX`.
-/
import Verif.Spec.TrestleX
import Verif.Props.Trestle
import Verif.Props.Ext3

namespace CF

/-! ### Numbers are kept by the preprocessing -/

/-- The number `q` is a value at some depth. -/
def NumIn (q : ℚ) (v : Py) : Prop := ∃ p, (p, Py.num q) ∈ leavesV v

theorem mem_leavesD {l : List (Py × Py)} {p : List Py} {v : Py} :
    (p, v) ∈ leavesD l ↔ ∃ e ∈ l, ∃ p', p = e.1 :: p' ∧ (p', v) ∈ leavesV e.2 := by
  induction l with
  | nil => simp [leavesD]
  | cons e l ih =>
    obtain ⟨k, w⟩ := e
    simp only [leavesD, List.mem_append, List.mem_map, Prod.mk.injEq, ih, List.mem_cons, exists_eq_or_imp]
    constructor
    · rintro (⟨⟨p', v'⟩, h, rfl, rfl⟩ | h)
      · exact .inl ⟨p', rfl, h⟩
      · exact .inr h
    · rintro (⟨p', rfl, h⟩ | h)
      · exact .inl ⟨(p', v), h, rfl, rfl⟩
      · exact .inr h

theorem numIn_dict {q : ℚ} {l : List (Py × Py)} : NumIn q (.dict l) ↔ ∃ e ∈ l, NumIn q e.2 := by
  unfold NumIn
  simp only [leavesV, mem_leavesD]
  constructor
  · rintro ⟨p, e, h1, p', rfl, h2⟩; exact ⟨e, h1, p', h2⟩
  · rintro ⟨e, h1, p', h2⟩; exact ⟨_, e, h1, p', rfl, h2⟩

theorem numLeaves_iff {X : XF → Prop} {i : PyInst} : NumLeaves X i ↔ ∀ q, NumIn q (.dict i) → X (.fin q) :=
  ⟨fun h q ⟨p, hp⟩ => h p q hp, fun h p q hp => h q ⟨p, hp⟩⟩

mutual
theorem numIn_ren {f : Py → Py} {q : ℚ} : ∀ {v : Py}, NumIn q (renV f v) → NumIn q v
  | .dict l, h => by
    rw [renV, numIn_dict] at h
    exact numIn_dict.2 (numIn_renD h)
  | .list l, ⟨p, h⟩ => by simp [renV, leavesV] at h
  | .none, h | .bool _, h | .num _, h | .str _, h | .tup _, h | .other _ _ _, h => by simpa only [renV] using h
theorem numIn_renD {f : Py → Py} {q : ℚ} : ∀ {l : List (Py × Py)}, (∃ e ∈ renD f l, NumIn q e.2) →
    ∃ e ∈ l, NumIn q e.2
  | [], h => by simp [renD] at h
  | (k, v) :: l, h => by
    simp only [renD, List.mem_cons, exists_eq_or_imp] at h
    rcases h with h | h
    · exact ⟨(k, v), by simp, numIn_ren h⟩
    · obtain ⟨e, h1, h2⟩ := numIn_renD h
      exact ⟨e, by simp [h1], h2⟩
end

mutual
theorem numIn_same {q : ℚ} : ∀ {v w : Py}, v.wf → w.wf → Py.same v w → NumIn q w → NumIn q v
  | .dict l, w, h, h', hs, hq => by
    obtain ⟨l', rfl, h1, h2⟩ := hs
    obtain ⟨p, hp, hq⟩ := numIn_dict.1 hq
    obtain ⟨v, hm, hsv⟩ := Py.same_mem h.1 h'.1 h1 h2 (show (p.1, p.2) ∈ l' from hp)
    exact numIn_dict.2 ⟨_, hm, numIn_sameD h.2 hm (Py.wfD_iff.1 h'.2 p hp) hsv hq⟩
  | .list l, w, _, _, hs, ⟨p, hp⟩ => by
    obtain ⟨l', rfl, _⟩ := hs
    simp [leavesV] at hp
  | .tup l, w, _, _, hs, ⟨p, hp⟩ => by
    obtain ⟨l', rfl, _⟩ := hs
    simp [leavesV] at hp
  | .none, _, _, _, hs, h | .bool _, _, _, _, hs, h | .num _, _, _, _, hs, h | .str _, _, _, _, hs, h
  | .other _ _ _, _, _, _, hs, h => by
    rw [Py.same] at hs
    subst hs
    exact h
theorem numIn_sameD {q : ℚ} : ∀ {l : List (Py × Py)}, Py.wfD l → ∀ {k v : Py}, (k, v) ∈ l → ∀ {w : Py}, w.wf →
    Py.same v w → NumIn q w → NumIn q v
  | (k', v') :: l, h, k, v, hm, w, hw, hs, hq => by
    rcases List.mem_cons.1 hm with e | hm
    · obtain ⟨rfl, rfl⟩ := Prod.mk.inj e
      exact numIn_same h.1 hw hs hq
    · exact numIn_sameD h.2 hm hw hs hq
end

theorem standardize_nums {cfg : StdCfg} (hc : NamesOk cfg) {i o : PyInst} (hw : Py.wf (.dict i))
    {s s' : ℕ × Option (Dict Py Py)} (h : (nameStandardizer cfg).transform i s = (.ok o, s')) {q : ℚ}
    (hq : NumIn q (.dict o)) : NumIn q (.dict i) := by
  have hr : relsOkD i := by
    simp only [nameStandardizer] at h
    split at h
    · rename_i e
      exact relsOk_of_sortVal (cfg := cfg) (.dict i) (stdD_relsOk _ e)
    · simp at h
  obtain ⟨o', g', rm, f, h1, h2, h3, h4, h5, _⟩ := transform_spec hc hw hr s.1 s.2
  rw [show (s.1, s.2) = s from rfl, h] at h1
  cases h1
  have hf : InjOn f (· ∈ varsD i) := by
    refine ⟨fun x y hx hy => h4 x hx y hy, fun x hx => ?_⟩
    obtain ⟨n, _, _, e⟩ := h3 x hx
    rw [e, ← isVarPy_iff]
    exact hc.var n
  exact numIn_ren (f := f) (numIn_same (wf_renV hf (.dict i) hw fun _ h => h) h5.2 h5.1 hq)

/-- The numbers of a flat instance satisfy `P`. -/
def FlatNums (P : ℚ → Prop) (d : PyInst) : Prop := ∀ k q, (k, Py.num q) ∈ d → P q

theorem FlatNums.set {P : ℚ → Prop} {d : PyInst} (h : FlatNums P d) {k v : Py} (hv : ∀ q, v = .num q → P q) :
    FlatNums P (d.set k v) := by
  intro k' q hp
  rcases mem_of_mem_set hp with h' | e
  · exact h k' q h'
  · exact hv q (Prod.mk.inj e).2.symm

theorem FlatNums.setAll {P : ℚ → Prop} {d e : PyInst} (h : FlatNums P d) (he : FlatNums P e) :
    FlatNums P (setAll d e) := by
  unfold CF.setAll
  induction e generalizing d with
  | nil => exact h
  | cons p e ih =>
    exact ih (h.set fun q hq => he p.1 q (by rw [← hq]; simp)) fun k q hq => he k q (by simp [hq])

mutual
theorem flattenV_nums {P : ℚ → Prop} {a : Py} : ∀ (v : Py) {temp t : PyInst}, FlatNums P temp →
    (∀ q, NumIn q v → P q) → flattenV a v temp = .ok t → FlatNums P t
  | .dict l, temp, t, ht, hv, h => by
    rw [flattenV] at h
    obtain ⟨so, h1, h⟩ := bind_ok.1 h
    cases h
    exact ht.setAll (flattenD_nums l (by simp [FlatNums]) (fun e he q hq => hv q (numIn_dict.2 ⟨e, he, hq⟩)) h1)
  | .num q, temp, t, ht, hv, h => by
    cases h
    exact ht.set fun q' hq => hv q' (by cases hq; exact ⟨[], by simp [leavesV]⟩)
  | .tup _, temp, t, ht, hv, h | .none, temp, t, ht, hv, h | .bool _, temp, t, ht, hv, h
  | .list _, temp, t, ht, hv, h | .str _, temp, t, ht, hv, h | .other _ _ _, temp, t, ht, hv, h => by
    cases h
    exact ht.set fun q' hq => by cases hq
theorem flattenD_nums {P : ℚ → Prop} {o : Option Py} : ∀ (l : List (Py × Py)) {temp t : PyInst}, FlatNums P temp →
    (∀ e ∈ l, ∀ q, NumIn q e.2 → P q) → flattenD o l temp = .ok t → FlatNums P t
  | [], temp, t, ht, _, h => by cases h; exact ht
  | (a, v) :: l, temp, t, ht, hl, h => by
    rw [flattenD] at h
    obtain ⟨b, h1, h⟩ := bind_ok.1 h
    obtain ⟨t', h2, h⟩ := bind_ok.1 h
    exact flattenD_nums l (flattenV_nums v ht (hl (a, v) (by simp)) h2) (fun e he => hl e (by simp [he])) h
end

theorem extractD_nums {P : ℚ → Prop} : ∀ (l : List (Py × Py)) {new t : PyInst}, FlatNums P l → FlatNums P new →
    extractD l new = .ok t → FlatNums P t
  | [], new, t, _, hn, h => by cases h; exact hn
  | (a, v) :: l, new, t, hl, hn, h => by
    rw [extractD] at h
    obtain ⟨rels, h1, h⟩ := bind_ok.1 h
    refine extractD_nums l (fun k q hq => hl k q (by simp [hq])) ?_ h
    refine FlatNums.set (hn.setAll ?_) fun q hq => hl a q (by simp [hq])
    intro k q hq
    simp at hq

theorem before_nums {c : TrestleCfg} (hc : c.Ok) {n : ℕ} {i t : PyInst} (hw : Py.wf (.dict i))
    {s : ℕ × (ℕ → Option (Dict Py Py))} (h : beforeMapping c n i = (.ok t, s)) :
    FlatNums (fun q => NumIn q (.dict i)) t := by
  obtain ⟨o1, s1, h1, h⟩ := SM.bind_ok h
  obtain ⟨o2, s2, h2, h⟩ := SM.bind_ok h
  obtain ⟨o3, s3, h3, h⟩ := SM.bind_ok h
  cases h
  have e1 : (nameStandardizer c.std).transform i (n, none) =
      (.ok o1, ((nameStandardizer c.std).transform i (n, none)).2) := Prod.ext (by
      have := congrArg Prod.fst h1
      exact this) rfl
  have e2 : flatten o1 = .ok o2 := congrArg Prod.fst h2
  have e3 : extractSub o2 = .ok t := congrArg Prod.fst h3
  exact extractD_nums o2 (flattenD_nums o1 (by simp [FlatNums])
    (fun e he q hq => standardize_nums (names_std hc) hw e1 (numIn_dict.2 ⟨e, he, hq⟩)) e2) (by simp [FlatNums]) e3

/-! ### The preprocessing with a given base -/

/-- A tree whose root has the attributes `base`. -/
def baseState (base : List Py) (n : ℕ) : TState :=
  ⟨⟨fun _ => some ⟨0, ⟨0, base.map fun a => (a, Tab.empty)⟩, [], none, true⟩, 1, 0, ⟨fun _ => 0, 0, 0⟩⟩, [], n⟩

theorem baseState_attrs (base : List Py) (n : ℕ) : (baseState base n).rootAttrs = base := by
  simp [baseState, TState.rootAttrs, Dict.keys, Function.comp_def]

theorem prepX_eq (c : TrestleCfg) (S : Search) (st : TStateX) (i : PyInst) :
    trestlePrepX c S st i = trestlePrep c S (baseState st.rootAttrs st.ctr) i := by
  unfold trestlePrepX trestlePrep
  rw [baseState_attrs]
  rfl

section
variable {c : TrestleCfg} {S : Search} {st : TStateX} {i temp : PyInst}

theorem prepX_counts : st.ctr ≤ (trestlePrepX c S st i).2.1 := by
  rw [prepX_eq]
  exact prep_counts (st := baseState st.rootAttrs st.ctr)

theorem prepX_vars (hc : c.Ok) (hS : SearchLaws S) (hw : Py.wf (.dict i)) (h : (trestlePrepX c S st i).1 = .ok temp) :
    Dict.Nodup temp ∧ ((∀ x ∈ varsOf st.rootAttrs, Generated st.ctr x) →
      KeyVars (Generated (trestlePrepX c S st i).2.1) temp) := by
  rw [prepX_eq] at h ⊢
  have := prep_vars hc hS hw h
  rwa [baseState_attrs] at this

theorem prepX_components (hc : c.Ok) (hS : SearchLaws S) (hw : Py.wf (.dict i))
    (h : (trestlePrepX c S st i).1 = .ok temp) : ∀ k ∈ Dict.keys temp, ∃ x, components k = .ok x := by
  rw [prepX_eq] at h
  exact prep_components hc hS hw h

theorem prepX_nums (hc : c.Ok) (hS : SearchLaws S) (hw : Py.wf (.dict i))
    (h : (trestlePrepX c S st i).1 = .ok temp) : FlatNums (fun q => NumIn q (.dict i)) temp := by
  rw [prepX_eq] at h
  obtain ⟨t, s, h1, h2, h3⟩ := prep_split h
  obtain ⟨v1, v2, v3⟩ := before_vars hc hw h1
  obtain ⟨f, e, -⟩ := C54_renames hS v2 (by trivial)
    (show (structureMapper (γ := ℕ) S _ none).transform t (s.1, s.2 3) = (.ok temp, _) from
      Prod.ext h2 rfl)
  intro k q hq
  rw [e] at hq
  obtain ⟨p, hp, he⟩ := List.mem_map.1 hq
  refine before_nums hc hw h1 p.1 q ?_
  rw [← (Prod.mk.inj he).2]
  exact hp

end

theorem valX_num {sp : ℕ → Option Bool} {v : Py} {x : XF} (h : valX sp v = .num x) :
    (∃ q : ℚ, v = .num q ∧ x = .fin q) ∨ ∃ b, x = .inf b := by
  unfold valX at h
  split at h
  · cases h; exact .inl ⟨_, rfl, rfl⟩
  · split at h
    · cases h; exact .inr ⟨_, rfl⟩
    · simp at h
  · simp at h

theorem instX_nodup {sp : ℕ → Option Bool} {temp : PyInst} (h : Dict.Nodup temp) :
    Dict.Nodup (instX sp temp) := by
  unfold Dict.Nodup instX Dict.keys
  rw [List.map_map]
  exact h

theorem instX_keys {sp : ℕ → Option Bool} {temp : PyInst} :
    Dict.keys (instX sp temp) = Dict.keys temp := by
  unfold instX Dict.keys
  rw [List.map_map]
  rfl

theorem instX_ok {X : XF → Prop} (hX : ∀ b, X (.inf b)) {sp : ℕ → Option Bool} {temp : PyInst}
    (hn : Dict.Nodup temp) (h : FlatNums (fun q => X (.fin q)) temp) : XInstOk X (instX sp temp) := by
  refine ⟨instX_nodup hn, fun a x hx => ?_, fun a hx => ?_⟩
  · obtain ⟨p, hp, he⟩ := List.mem_map.1 (Dict.mem_of_get? hx)
    obtain ⟨-, he'⟩ := Prod.mk.inj he
    rcases valX_num he' with ⟨q, e, rfl⟩ | ⟨b, rfl⟩
    · exact h p.1 q (by rw [← e]; exact hp)
    · exact hX b
  · obtain ⟨p, hp, he⟩ := List.mem_map.1 (Dict.mem_of_get? hx)
    rcases valX_num (Prod.mk.inj he).2 with ⟨q, -, e⟩ | ⟨b, e⟩ <;> cases e

end CF
