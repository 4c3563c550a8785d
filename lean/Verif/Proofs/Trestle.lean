/-
Trestle: the names in the tree and in the instance, and the runs of the underlying Cobweb/3 tree.
-/
import Verif.Spec.Trestle
import Verif.Proofs.TrestlePrep
import Verif.Proofs.HeapKeeps
import Verif.Props.Heap

namespace CF

/-! ### The preprocessing -/

theorem pipeTransform_append {γ τ : Type} (ps qs : List (Stage γ τ)) (i : PyInst) :
    pipeTransform (ps ++ qs) i = pipeTransform ps i >>= pipeTransform qs := by
  induction ps generalizing i with
  | nil => rfl
  | cons p ps ih =>
    funext s
    rw [List.cons_append, pipeTransform, pipeTransform, SM.bind_def, SM.bind_def, SM.bind_def]
    cases e : callAt p.addr (p.cls.transform i) s with
    | mk r s' =>
      cases r with
      | error x => rfl
      | ok a =>
        dsimp only
        rw [ih, SM.bind_def]

theorem callAt_fst {γ τ : Type} {a : ℕ} {m : SM (γ × τ) PyInst} {s : γ × (ℕ → τ)} :
    (callAt a m s).1 = (m (s.1, s.2 a)).1 ∧ (callAt a m s).2.1 = (m (s.1, s.2 a)).2.1 := ⟨rfl, rfl⟩

/-- The names `gensym k` for `lo ≤ k < hi`. -/
def NewName (lo hi : ℕ) (x : Py) : Prop := ∃ k, lo ≤ k ∧ k < hi ∧ x = .str (defaultGensym k)

theorem NewName.generated {lo hi : ℕ} {x : Py} (h : NewName lo hi x) : Generated hi x :=
  let ⟨k, _, h2, h3⟩ := h
  ⟨k, h2, h3⟩

theorem Generated.mono {m n : ℕ} (h : m ≤ n) {x : Py} (hx : Generated m x) : Generated n x :=
  let ⟨k, h1, h2⟩ := hx
  ⟨k, Nat.lt_of_lt_of_le h1 h, h2⟩

theorem KeyVars.mono {P Q : Py → Prop} {d : PyInst} (h : KeyVars P d) (hq : ∀ x, P x → Q x) : KeyVars Q d :=
  fun k hk x hx => hq x (h k hk x hx)

theorem names_std {c : TrestleCfg} (hc : c.Ok) : NamesOk c.std := C48_names _ hc

theorem before_vars {c : TrestleCfg} (hc : c.Ok) {n : ℕ} {i t : PyInst} (hw : Py.wf (.dict i))
    {s : ℕ × (ℕ → Option (Dict Py Py))} (h : beforeMapping c n i = (.ok t, s)) :
    n ≤ s.1 ∧ Dict.Nodup t ∧ KeyVars (NewName n s.1) t := by
  obtain ⟨o1, s1, h1, h⟩ := SM.bind_ok h
  obtain ⟨o2, s2, h2, h⟩ := SM.bind_ok h
  obtain ⟨o3, s3, h3, h⟩ := SM.bind_ok h
  cases h
  have e1 : (nameStandardizer c.std).transform i (n, none) = (.ok o1, (s1.1, (callAt 0 ((nameStandardizer c.std).transform i) (n, fun _ => none)).2.2 0)) := by
    have a1 : (callAt 0 ((nameStandardizer c.std).transform i) (n, fun _ => none)).1 = .ok o1 := by rw [h1]
    have a2 : (callAt 0 ((nameStandardizer c.std).transform i) (n, fun _ => none)).2.1 = s1.1 := by rw [h1]
    refine Prod.ext a1 (Prod.ext a2 ?_)
    simp [callAt]
  obtain ⟨v1, v2, v3⟩ := transform_vars (names_std hc) hw e1
  have e2 : flatten o1 = .ok o2 ∧ s2.1 = s1.1 := by
    have := congrArg Prod.fst h2
    have h' := congrArg (fun x => x.2.1) h2
    exact ⟨this, h'.symm⟩
  have e3 : extractSub o2 = .ok t ∧ s.1 = s2.1 := by
    have := congrArg Prod.fst h3
    have h' := congrArg (fun x => x.2.1) h3
    exact ⟨this, h'.symm⟩
  rw [e3.2, e2.2]
  obtain ⟨k1, -⟩ := flatten_vars (P := NewName n s1.1) e2.1 v3
  obtain ⟨k2, k3⟩ := extractD_vars (P := NewName n s1.1) (by
    rintro x ⟨k, -, -, rfl⟩ e
    simp [defaultGensym] at e) e3.1 k1 (by simp [KeyVars]) Dict.nodup_nil
  exact ⟨v2, k3, k2⟩

theorem callAt_std_counts {c : StdCfg} {a : ℕ} {i : PyInst} {s : ℕ × (ℕ → Option (Dict Py Py))} :
    s.1 ≤ (callAt a ((nameStandardizer c).transform i) s).2.1 :=
  transform_counts (cfg := c) i (s.1, s.2 a)

/-- A stage of a pipeline that generates no names. -/
def Silent (p : Preproc ℕ (Option (Dict Py Py))) : Prop := ∀ i s, (p.transform i s).2.1 = s.1

theorem pipeTransform_silent {ps : List (Stage ℕ (Option (Dict Py Py)))} (h : ∀ p ∈ ps, Silent p.cls)
    (i : PyInst) (s : ℕ × (ℕ → Option (Dict Py Py))) : (pipeTransform ps i s).2.1 = s.1 := by
  induction ps generalizing i s with
  | nil => rfl
  | cons p ps ih =>
    rw [pipeTransform, SM.bind_def]
    have h1 : (callAt p.addr (p.cls.transform i) s).2.1 = s.1 := h p (by simp) i _
    cases e : callAt p.addr (p.cls.transform i) s with
    | mk r s' =>
      rw [e] at h1
      cases r with
      | error x => exact h1
      | ok a => exact (ih (fun q hq => h q (by simp [hq])) a s').trans h1

theorem silent_stateless {f g : PyInst → Res PyInst} : Silent (stateless f g) := fun _ _ => rfl

theorem silent_mapper {S : Search} {base : List Py} {user : Option (List (Py × Py))} :
    Silent (structureMapper S base user) := by
  intro i s
  simp only [structureMapper]
  split <;> rfl

theorem pipeUndo_silent {ps : List (Stage ℕ (Option (Dict Py Py)))}
    (h : ∀ p ∈ ps, ∀ i s, (p.cls.undo i s).2.1 = s.1)
    (i : PyInst) (s : ℕ × (ℕ → Option (Dict Py Py))) : (pipeUndoLoop ps i s).2.1 = s.1 := by
  induction ps generalizing i s with
  | nil => rfl
  | cons p ps ih =>
    rw [pipeUndoLoop, SM.bind_def]
    have h1 : (callAt p.addr (p.cls.undo i) s).2.1 = s.1 := h p (by simp) i _
    cases e : callAt p.addr (p.cls.undo i) s with
    | mk r s' =>
      rw [e] at h1
      cases r with
      | error x => exact h1
      | ok a => exact (ih (fun q hq => h q (by simp [hq])) a s').trans h1

theorem undo_silent {c : TrestleCfg} {S : Search} {base : List Py} {i : PyInst}
    {s : ℕ × (ℕ → Option (Dict Py Py))} : ((trestlePipe c S base).undo i s).2.1 = s.1 := by
  refine pipeUndo_silent ?_ i s
  intro p hp i s
  simp only [List.reverse_cons, List.reverse_nil, List.nil_append, List.cons_append, List.mem_cons,
    List.not_mem_nil, or_false] at hp
  rcases hp with rfl | rfl | rfl | rfl
  · simp only [structureMapper]
    split <;> rfl
  · rfl
  · rfl
  · simp only [nameStandardizer]
    split <;> rfl

theorem prep_counts {c : TrestleCfg} {S : Search} {st : TState} {i : PyInst} :
    st.ctr ≤ (trestlePrep c S st i).2.1 := by
  show st.ctr ≤ (pipeTransform _ i _).2.1
  rw [pipeTransform, SM.bind_def]
  have h1 : st.ctr ≤ _ := callAt_std_counts (c := c.std) (a := 0) (i := i) (s := (st.ctr, fun _ => none))
  cases e : callAt 0 ((nameStandardizer c.std).transform i) (st.ctr, fun _ => none) with
  | mk r s' =>
    rw [e] at h1
    cases r with
    | error x => exact h1
    | ok a =>
      refine h1.trans (Nat.le_of_eq (pipeTransform_silent ?_ a s').symm)
      intro p hp
      simp only [List.mem_cons, List.not_mem_nil, or_false] at hp
      rcases hp with rfl | rfl | rfl
      · exact silent_stateless
      · exact silent_stateless
      · exact silent_mapper

theorem prep_split {c : TrestleCfg} {S : Search} {st : TState} {i temp : PyInst}
    (h : (trestlePrep c S st i).1 = .ok temp) :
    ∃ t s, beforeMapping c st.ctr i = (.ok t, s) ∧
      ((structureMapper (γ := ℕ) S st.rootAttrs none).transform t (s.1, s.2 3)).1 = .ok temp ∧
      (trestlePrep c S st i).2.1 = s.1 := by
  have e : trestlePrep c S st i = ((pipeTransform
      [⟨0, nameStandardizer c.std⟩, ⟨1, flattener⟩, ⟨2, subComponent c.fuel⟩] i >>=
      pipeTransform [⟨3, structureMapper S st.rootAttrs none⟩]) (st.ctr, fun _ => none)) := by
    rw [← pipeTransform_append]
    rfl
  cases hp : trestlePrep c S st i with
  | mk r s' =>
    rw [hp] at h
    dsimp only at h
    subst h
    rw [hp] at e
    obtain ⟨t, s, h1, h2⟩ := SM.bind_ok e.symm
    refine ⟨t, s, h1, ?_, ?_⟩
    · obtain ⟨t', s'', h3, h4⟩ := SM.bind_ok h2
      cases h4
      have := congrArg Prod.fst h3
      exact this
    · have := pipeTransform_silent (ps := [⟨3, structureMapper S st.rootAttrs none⟩])
        (by simp [silent_mapper]) t s
      rw [h2] at this
      exact this

/-- What the preprocessing returns: no key twice, and only names generated so far when those of the base
are. -/
theorem prep_vars {c : TrestleCfg} (hc : c.Ok) {S : Search} (hS : SearchLaws S) {st : TState} {i temp : PyInst}
    (hw : Py.wf (.dict i)) (h : (trestlePrep c S st i).1 = .ok temp) :
    Dict.Nodup temp ∧ ((∀ x ∈ varsOf st.rootAttrs, Generated st.ctr x) →
      KeyVars (Generated (trestlePrep c S st i).2.1) temp) := by
  obtain ⟨t, s, h1, h2, h3⟩ := prep_split h
  obtain ⟨v1, v2, v3⟩ := before_vars hc hw h1
  obtain ⟨f, e, n1, n2, -⟩ := C54_renames hS v2 (by trivial)
    (show (structureMapper (γ := ℕ) S st.rootAttrs none).transform t (s.1, s.2 3) = (.ok temp, _) from
      Prod.ext h2 rfl)
  refine ⟨n1, fun hb => ?_⟩
  rw [h3, e]
  intro k hk x hx
  simp only [Dict.keys, List.map_map, List.mem_map, Function.comp_apply] at hk
  obtain ⟨p, hp, rfl⟩ := hk
  have hpk : p.1 ∈ Dict.keys t := List.mem_map.2 ⟨p, hp, rfl⟩
  obtain ⟨y, hy, rfl⟩ := (varsEl_renEl p.1 x fun y hy => (n2 y (mem_varsOf.2 ⟨_, hpk, hy⟩)).1).1 hx
  rcases (n2 y (mem_varsOf.2 ⟨_, hpk, hy⟩)).2 with e | e
  · rw [e]; exact (v3 _ hpk y hy).generated
  · exact (hb _ e).mono v1

/-! ### The tables -/

/-- The variables in a table satisfy `P`. -/
def TableVars (P : Py → Prop) (s : Stats3 Py Py) : Prop := ∀ k ∈ s.av.keys, ∀ x ∈ varsEl k, P x

theorem keys_updAll {V W : Type} {f : Option V → W → V} {d : Dict Py V} {ps : Dict Py W} {k : Py}
    (h : k ∈ (d.updAll f ps).keys) : k ∈ d.keys ∨ k ∈ ps.keys := by
  induction ps generalizing d with
  | nil => exact .inl h
  | cons p ps ih =>
    rw [Dict.updAll_cons] at h
    simp only [Dict.keys_cons, List.mem_cons]
    rcases ih h with h | h
    · rcases Dict.mem_keys_set.1 h with h | h
      · first | exact .inl h | exact .inr (.inl h)
      · first | exact .inl h | exact .inr (.inl h)
    · exact .inr (.inr h)

theorem tableLaw {P : Py → Prop} {i : PyInst} (hi : KeyVars P i) :
    TableLaw (cobweb3Class hid3) (TableVars P) (inst3 i) where
  fresh := by intro k hk; simp [cobweb3Class, Stats3.fresh] at hk
  incr := by
    intro s hs k hk
    simp only [cobweb3Class, Stats3.incr] at hk
    rcases keys_updAll hk with h | h
    · exact hs k h
    · refine hi k ?_
      simpa [inst3, Dict.keys, Function.comp_def] using h
  add := by
    intro s n hs hn k hk
    simp only [cobweb3Class, Stats3.addFrom] at hk
    rcases keys_updAll hk with h | h
    · exact hs k h
    · exact hn k h

theorem Dom.mono {S : Type} {P Q : S → Prop} {D : Set ℕ} {h : Heap S} (hD : Dom P D h) (hq : ∀ s, P s → Q s) :
    Dom Q D h :=
  ⟨hD.root, hD.lt, fun a ha => let ⟨r, h1, h2, h3⟩ := hD.recs a ha; ⟨r, h1, hq _ h2, h3⟩⟩

theorem Dom.undisturbed {S : Type} {P : S → Prop} {D : Set ℕ} {h h' : Heap S} (hD : Dom P D h)
    (hu : Undisturbed h h') : Dom P D h' :=
  ⟨hu.root ▸ hD.root, fun a ha => Nat.lt_of_lt_of_le (hD.lt a ha) hu.next,
    fun a ha => by rw [hu.objs a (hD.lt a ha)]; exact hD.recs a ha⟩

/-- All names below the root were generated by the tree. -/
def NamesKnown (st : TState) : Prop := ∃ D, Dom (TableVars (Generated st.ctr)) D st.h

theorem NamesKnown.root {st : TState} (h : NamesKnown st) : ∀ x ∈ varsOf st.rootAttrs, Generated st.ctr x := by
  obtain ⟨D, hD⟩ := h
  obtain ⟨r, h1, h2, -⟩ := hD.recs _ hD.root
  intro x hx
  obtain ⟨k, hk, hx⟩ := mem_varsOf.1 hx
  rw [TState.rootAttrs, h1] at hk
  exact h2 k hk x hx

theorem NamesKnown.mono {st : TState} (h : NamesKnown st) {n : ℕ} (hn : st.ctr ≤ n) :
    NamesKnown { st with ctr := n } :=
  let ⟨D, hD⟩ := h
  ⟨D, hD.mono fun _ hs k hk x hx => (hs k hk x hx).mono hn⟩

theorem known_clear (st : TState) : NamesKnown (trestleClear st) := by
  refine ⟨{st.h.next}, ?_, ?_, ?_⟩
  · simp [trestleClear, clearH, HM.setRoot, HM.setTree, HM.mod, newNode, Bind.bind, HM.andThen]
  · simp [trestleClear, clearH, HM.setRoot, HM.setTree, HM.mod, newNode, Bind.bind, HM.andThen]
  · intro a ha
    rw [Set.mem_singleton_iff] at ha
    subst ha
    refine ⟨_, by simp [trestleClear, clearH, HM.setRoot, HM.setTree, HM.mod, newNode, Bind.bind, HM.andThen]; rfl, ?_, by simp⟩
    intro k hk
    simp [cobweb3Class, Stats3.fresh] at hk

theorem known_run {st : TState} (h : NamesKnown st) {n : ℕ} (hn : st.ctr ≤ n) {α : Type} {m : HM (Stats3 Py Py) α}
    {Q : Set ℕ → α → Prop}
    (hm : ∀ D, Keeps (TableVars (Generated n)) D m Q) {sc : Scales Py} : NamesKnown ⟨(m st.h).2, sc, n⟩ := by
  obtain ⟨D, hD⟩ := h.mono hn
  obtain ⟨D', -, h1, -⟩ := hm D st.h hD
  exact ⟨D', h1⟩

section
variable {c : TrestleCfg} (hc : c.Ok) {S : Search} (hS : SearchLaws S)
include hc hS

theorem known_ifit {st : TState} (h : NamesKnown st) {i : PyInst} (hw : Py.wf (.dict i)) :
    NamesKnown (trestleIfit c S i st).2 := by
  unfold trestleIfit
  have hle := prep_counts (c := c) (S := S) (st := st) (i := i)
  have hv := fun temp => prep_vars (temp := temp) hc hS (st := st) hw
  generalize trestlePrep c S st i = p at hle hv
  obtain ⟨r, s⟩ := p
  dsimp only
  split
  · exact h.mono hle
  · rename_i temp
    have ht := (hv temp rfl).2 h.root
    split
    · exact h.mono hle
    · exact known_run h hle fun D => keeps_cobweb (ecg3H hid3 c.cobweb3 _) (tableLaw ht)

theorem known_categorize {st : TState} (h : NamesKnown st) {i : PyInst} (hw : Py.wf (.dict i)) :
    NamesKnown (trestleCategorize c S i st).2 := by
  unfold trestleCategorize
  have hle := prep_counts (c := c) (S := S) (st := st) (i := i)
  have hv := fun temp => prep_vars (temp := temp) hc hS (st := st) hw
  generalize trestlePrep c S st i = p at hle hv
  obtain ⟨r, s⟩ := p
  dsimp only
  split
  · exact h.mono hle
  · rename_i temp
    have ht := (hv temp rfl).2 h.root
    split
    · exact h.mono hle
    · exact known_run h hle fun D => keeps_categorize (ecg3H hid3 c.cobweb3 _) (tableLaw ht)

theorem known_infer {N : Numbers} {fn : ChoiceFn} {allowNone : Bool} {st : TState} (h : NamesKnown st)
    {i : PyInst} (hw : Py.wf (.dict i)) : NamesKnown (trestleInfer c S N fn allowNone i st).2 := by
  unfold trestleInfer
  have hle := prep_counts (c := c) (S := S) (st := st) (i := i)
  have hv := fun temp => prep_vars (temp := temp) hc hS (st := st) hw
  generalize trestlePrep c S st i = p at hle hv
  obtain ⟨r, s⟩ := p
  dsimp only
  split
  · exact h.mono hle
  · rename_i temp
    have ht := (hv temp rfl).2 h.root
    have hk : NamesKnown ⟨_, st.sc, s.1⟩ :=
      known_run h hle fun D => keeps_categorize (ecg3H hid3 c.cobweb3 st.sc) (tableLaw ht) (D := D)
    split
    · split
      · rename_i e
        rw [e] at hk
        exact hk
      · rename_i e
        rw [e] at hk
        split
        · exact hk
        · split
          · exact hk
          · rename_i w _
            obtain ⟨D, hD⟩ := hk
            refine ⟨D, ?_⟩
            rw [undo_silent]
            exact ⟨hD.root, hD.lt, hD.recs⟩
    · exact h.mono hle

end

/-! ### The underlying Cobweb/3 tree -/

theorem predict3_ctr {N : Numbers} (hN : N.Ok) {s : Stats3 Py Py} {a : Py} {fn : ChoiceFn} {allowNone : Bool}
    {w w' : World} {v : Option (Val Py)} (h : s.predict N.tie N.gauss a fn allowNone w = .ok (v, w')) :
    w'.ctr = w.ctr := by
  unfold Stats3.predict at h
  split at h
  · simp at h
  · split at h
    · cases h; rfl
    · obtain ⟨ch, -, h⟩ := bind_ok.1 h
      obtain ⟨r, h1, h⟩ := bind_ok.1 h
      have hr : r.2.ctr = w.ctr := by
        unfold choose at h1
        split at h1
        · cases e : weightedChoice ch ((w.draw 0 : ℚ) : ℝ) <;> rw [e] at h1 <;> cases h1
          rfl
        · cases e : mostLikelyChoice N.tie ch w.draw <;> rw [e] at h1 <;> cases h1
          rfl
      rw [← hr]
      obtain ⟨r1, r2⟩ := r
      rcases r1 with _ | _ | v
      · cases h; rfl
      · simp only [finishPredict] at h
        split at h
        · simp at h
        · split at h
          · cases h; rfl
          · obtain ⟨sd, -, h⟩ := bind_ok.1 h
            cases h
            exact hN _ _ _
      · cases h; rfl

theorem trestleInferLoop_ctr {N : Numbers} (hN : N.Ok) {s : Stats3 Py Py} {fn : ChoiceFn} {allowNone : Bool}
    {as : List Py} {temp temp' : PyInst} {w w' : World}
    (h : trestleInferLoop N s fn allowNone as temp w = .ok (temp', w')) : w'.ctr = w.ctr := by
  induction as generalizing temp w with
  | nil => cases h; rfl
  | cons a as ih =>
    rw [trestleInferLoop] at h
    split at h
    · exact ih h
    · obtain ⟨⟨v, w1⟩, h1, h⟩ := bind_ok.1 h
      rw [← predict3_ctr hN h1]
      dsimp only at h
      split at h <;> exact ih h

theorem trestle_heap {c : TrestleCfg} (hc : c.Ok) {st : TState} {hist : List PyInst} (h : TrestleRuns c st hist) :
    HReach3 hid3 c.cobweb3 st.h st.sc (hist.map inst3) := by
  induction h with
  | clear st => exact .init (h := st.h) (Prod.ext (by simp [clearH, HM.setRoot, HM.setTree, HM.mod, newNode, Bind.bind, HM.andThen]) rfl)
  | other _ hu ih => exact .other ih hu
  | @ifit st st' hist S i temp a _ hS hw hp e ih =>
    have hn := (prep_vars hc hS hw hp).1
    unfold trestleIfit at e
    generalize trestlePrep c S st i = p at hp e
    obtain ⟨r, s⟩ := p
    dsimp only at hp
    subst hp
    dsimp only at e
    split at e
    · simp at e
    · rw [List.map_append]
      have hn' : Dict.Nodup (inst3 temp) := by
        unfold Dict.Nodup inst3 Dict.keys
        rw [List.map_map]
        exact hn
      obtain ⟨e1, e2⟩ := Prod.mk.inj e
      subst e2
      refine .step ih hn' (a := a) (Prod.ext e1 rfl)
  | @rejected st hist S i _ _ _ hr ih =>
    unfold trestleIfit
    generalize trestlePrep c S st i = p at hr
    obtain ⟨r, s⟩ := p
    dsimp only
    split
    · exact ih
    · rename_i temp
      split
      · exact ih
      · rename_i e
        exact absurd e (hr temp rfl)
  | @categorize st hist S i _ _ _ ih =>
    unfold trestleCategorize
    generalize trestlePrep c S st i = p
    obtain ⟨r, s⟩ := p
    dsimp only
    split
    · exact ih
    · rename_i temp
      split
      · exact ih
      · obtain ⟨r, h', e, hu, -⟩ := C10_categorize_unchanged_cobweb3 ih (inst3 temp)
        rw [e]
        exact .other ih hu
  | @infer st hist S N fn allowNone i _ _ _ hN ih =>
    unfold trestleInfer
    generalize trestlePrep c S st i = p
    obtain ⟨r, s⟩ := p
    dsimp only
    split
    · exact ih
    · rename_i temp
      split
      · obtain ⟨r, h', e, hu, -⟩ := C10_categorize_unchanged_cobweb3 ih (inst3 temp)
        rw [e]
        cases r with
        | error x => exact .other ih hu
        | ok a =>
          dsimp only
          split
          · exact .other ih hu
          · split
            · exact .other ih hu
            · rename_i temp' w hl
              refine .other ih ⟨hu.objs, hu.next, hu.root, ?_⟩
              rw [show ({ h' with w := w } : Heap (Stats3 Py Py)).w.ctr = w.ctr from rfl, trestleInferLoop_ctr hN hl]
              exact hu.ctr
      · exact ih

end CF
