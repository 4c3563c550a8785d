/-
`TrestleTree` on instances without components, relations and variables (C82).
-/
import Verif.Props.Fit
import Verif.Props.Cobweb3Invariance
import Verif.Props.Cobweb3Predict
import Verif.Model.Evaluation
import Verif.Proofs.Cluster

namespace CF

/-- A non-empty string that is not a variable. -/
def PlainAttr (a : Py) : Prop := ∃ ch s, a = .str (ch :: s) ∧ ch ≠ '?'

/-- An instance as `CobwebTree` takes it: attributes are strings that are no variables, values are hashable
and not `None`; neither components nor lists. -/
structure FlatInst (i : PyInst) : Prop where
  nodup : Dict.Nodup i
  attr : ∀ p ∈ i, PlainAttr p.1
  val : ∀ p ∈ i, p.2.hashable = true ∧ p.2 ≠ .none

theorem PlainAttr.not_var {a : Py} (h : PlainAttr a) : isVarPy a = false := by
  obtain ⟨ch, s, rfl, hc⟩ := h
  simp [isVarPy, isVar, hc]

theorem PlainAttr.components {a : Py} (h : PlainAttr a) : components a = .ok [] := by
  obtain ⟨ch, s, rfl, hc⟩ := h
  simp [CF.components, Py.index0, Bind.bind, Except.bind, pure, Except.pure, hc]

theorem componentNames_plain {l : List Py} (h : ∀ a ∈ l, PlainAttr a) : componentNames l = .ok [] := by
  induction l with
  | nil => rfl
  | cons a l ih =>
    rw [componentNames, (h a (by simp)).components, ok_bind, ih fun b hb => h b (by simp [hb]), ok_bind]
    rfl

/-- The entries of a flat instance, in any order. -/
structure FlatList (l : List (Py × Py)) : Prop where
  attr : ∀ p ∈ l, PlainAttr p.1
  val : ∀ p ∈ l, p.2.hashable = true

theorem FlatList.tail {p : Py × Py} {l : List (Py × Py)} (h : FlatList (p :: l)) : FlatList l :=
  ⟨fun q hq => h.attr q (by simp [hq]), fun q hq => h.val q (by simp [hq])⟩

theorem FlatList.perm {l l' : List (Py × Py)} (h : FlatList l) (hp : l'.Perm l) : FlatList l' :=
  ⟨fun q hq => h.attr q (hp.mem_iff.1 hq), fun q hq => h.val q (hp.mem_iff.1 hq)⟩

theorem set_snoc {d : PyInst} {p : Py × Py} {l : List (Py × Py)} (h : (Dict.keys (d ++ p :: l)).Nodup) :
    Dict.set d p.1 p.2 = d ++ [p] := by
  refine Dict.set_of_not_mem ?_ p.2
  rw [Dict.keys_append, List.nodup_append] at h
  exact fun hk => h.2.2 _ hk _ (by simp) rfl

section
variable {c : TrestleCfg}

theorem sortD_flat {l : List (Py × Py)} (h : FlatList l) (cfg : StdCfg) : sortD cfg l = l := by
  induction l with
  | nil => rfl
  | cons p l ih =>
    obtain ⟨k, v⟩ := p
    have hv := h.val (k, v) (by simp)
    rw [sortD, ih h.tail]
    cases v <;> first | rfl | simp [Py.hashable] at hv

theorem stdD_flat (cfg : StdCfg) : ∀ (l : List (Py × Py)) (new : PyInst) (s : StdSt), FlatList l →
    (Dict.keys (new ++ l)).Nodup → stdD cfg l new [] s = (.ok (new ++ l), s) := by
  intro l
  induction l with
  | nil => intro new s _ _; simp [stdD, SM.get, Bind.bind, SM.andThen, SM.ret, addRelations]
  | cons p l ih =>
    intro new s h hn
    obtain ⟨k, v⟩ := p
    have hv := h.val (k, v) (by simp)
    have ha := h.attr (k, v) (by simp)
    have h1 : stdName cfg k s = (.ok k, s) := by
      simp [stdName, ha.not_var, SM.ret]
    have h2 : stdVal cfg v s = (.ok v, s) := by
      cases v <;> first | rfl | simp [Py.hashable] at hv
    have h3 : k.isTup = false := by
      obtain ⟨ch, t, rfl, -⟩ := ha
      rfl
    have h4 := set_snoc (p := (k, v)) hn
    simp only [stdD, Bind.bind, SM.andThen, h1, h2, h3]
    have := ih (new ++ [(k, v)]) s h.tail (by simpa using hn)
    simp only [Bool.false_eq_true, if_false, h4, this]
    simp

theorem flattenD_flat : ∀ (l : List (Py × Py)) (new : PyInst), FlatList l →
    (Dict.keys (new ++ l)).Nodup → flattenD none l new = .ok (new ++ l) := by
  intro l
  induction l with
  | nil => intro new _ _; simp [flattenD]
  | cons p l ih =>
    intro new h hn
    obtain ⟨k, v⟩ := p
    have hv := h.val (k, v) (by simp)
    have h4 := set_snoc (p := (k, v)) hn
    have h2 : flattenV k v new = .ok (new ++ [(k, v)]) := by
      rw [← h4]
      cases v <;> first | rfl | simp [Py.hashable] at hv
    rw [flattenD, flatName, ok_bind, h2, ok_bind, ih _ h.tail (by simpa using hn)]
    simp

theorem extractD_flat : ∀ (l : List (Py × Py)) (new : PyInst), FlatList l →
    (Dict.keys (new ++ l)).Nodup → extractD l new = .ok (new ++ l) := by
  intro l
  induction l with
  | nil => intro new _ _; simp [extractD]
  | cons p l ih =>
    intro new h hn
    obtain ⟨k, v⟩ := p
    have h4 := set_snoc (p := (k, v)) hn
    obtain ⟨ch, t, rfl, -⟩ := h.attr _ (List.mem_cons_self ..)
    simp only [extractD, hasComponents, ok_bind, List.map_nil, setAll, List.foldl_nil, extractAttr]
    rw [h4, ih _ h.tail (by simpa using hn)]
    simp

theorem renameFlat_flat : ∀ (l : List (Py × Py)) (new : PyInst), FlatList l →
    (Dict.keys (new ++ l)).Nodup → renameFlatInto [] l new = new ++ l := by
  intro l
  induction l with
  | nil => intro new _ _; simp [renameFlatInto]
  | cons p l ih =>
    intro new h hn
    obtain ⟨k, v⟩ := p
    have h4 := set_snoc (p := (k, v)) hn
    obtain ⟨ch, t, rfl, -⟩ := h.attr _ (List.mem_cons_self ..)
    simp only [renameFlatInto, renameEl, Dict.get?_nil]
    rw [h4, ih _ h.tail (by simpa using hn)]
    simp

theorem embedD_flat {fuel : ℕ} : ∀ (l : List (Py × Py)) (new : PyInst), FlatList l →
    (Dict.keys (new ++ l)).Nodup → embedD [] (fuel + 1) l new = .ok (new ++ l) := by
  intro l
  induction l with
  | nil => intro new _ _; simp [embedD]
  | cons p l ih =>
    intro new h hn
    obtain ⟨k, v⟩ := p
    have h4 := set_snoc (p := (k, v)) hn
    obtain ⟨ch, t, rfl, -⟩ := h.attr _ (List.mem_cons_self ..)
    simp only [embedD, compEntry, renameEmb, Dict.get?_nil, ok_bind]
    rw [h4, ih _ h.tail (by simpa using hn)]
    simp

theorem soMapping_flat {l : List (Py × Py)} (h : FlatList l) : soMapping l = [] := by
  have : (l.filterMap fun p => compEntry p.1) = [] := by
    rw [List.filterMap_eq_nil_iff]
    intro p hp
    obtain ⟨ch, t, e, -⟩ := h.attr p hp
    rw [e]
    rfl
  rw [soMapping, this]
  rfl

theorem structurize_flat : ∀ (l : List (Py × Py)) (new : PyInst), FlatList l →
    (Dict.keys (new ++ l)).Nodup → structurize l new = .ok (new ++ l) := by
  intro l
  induction l with
  | nil => intro new _ _; simp [structurize]
  | cons p l ih =>
    intro new h hn
    obtain ⟨k, v⟩ := p
    have h4 := set_snoc (p := (k, v)) hn
    obtain ⟨ch, t, rfl, -⟩ := h.attr _ (List.mem_cons_self ..)
    simp only [structurize]
    rw [h4, ih _ h.tail (by simpa using hn)]
    simp

theorem undoStdD_flat : ∀ (l : List (Py × Py)) (new : PyInst), FlatList l →
    (Dict.keys (new ++ l)).Nodup → undoStdD [] l new = new ++ l := by
  intro l
  induction l with
  | nil => intro new _ _; simp [undoStdD]
  | cons p l ih =>
    intro new h hn
    obtain ⟨k, v⟩ := p
    have h4 := set_snoc (p := (k, v)) hn
    have hv := h.val (k, v) (by simp)
    obtain ⟨ch, t, rfl, -⟩ := h.attr _ (List.mem_cons_self ..)
    have h2 : undoStdV [] v = v := by
      cases v <;> first | rfl | simp [Py.hashable] at hv
    have h3 : undoKey [] (.str (ch :: t)) v = .str (ch :: t) := by
      simp [undoKey, renameRelation]
    rw [undoStdD, h2, h3, h4, ih _ h.tail (by simpa using hn)]
    simp

/-- The state of the preprocessors after a flat instance: nothing was renamed. -/
def NoNames (s : ℕ → Option (Dict Py Py)) : Prop := s 0 = some [] ∧ s 3 = some []

theorem prep_flat {S : Search} {st : TState} (hb : ∀ a ∈ st.rootAttrs, PlainAttr a) {i : PyInst}
    (h : FlatList i) (hn : Dict.Nodup i) :
    ∃ s, trestlePrep c S st i = (.ok (sortEntries c.std i), st.ctr, s) ∧ NoNames s := by
  have hp : (sortEntries c.std i).Perm i := List.perm_insertionSort _ _
  have h' := h.perm hp
  have hn' : (Dict.keys ([] ++ sortEntries c.std i)).Nodup := by
    rw [List.nil_append]
    exact (hp.map Prod.fst).nodup_iff.2 hn
  have e1 := stdD_flat c.std (sortEntries c.std i) [] ⟨st.ctr, []⟩ h' hn'
  have e2 := flattenD_flat (sortEntries c.std i) [] h' hn'
  have e3 := extractD_flat (sortEntries c.std i) [] h' hn'
  have e4 := renameFlat_flat (sortEntries c.std i) [] h' hn'
  have e5 : flatMatch S st.rootAttrs none (sortEntries c.std i) = .ok [] := by
    unfold flatMatch
    rw [componentNames_plain fun a ha => by
        obtain ⟨p, hp, rfl⟩ := List.mem_map.1 ha
        exact h'.attr p hp, ok_bind, componentNames_plain hb, ok_bind]
    rfl
  rw [List.nil_append] at e1 e2 e3 e4
  refine ⟨(trestlePrep c S st i).2.2, ?_, ?_, ?_⟩ <;>
  · simp only [trestlePrep, trestlePipe, pipeline, pipeTransform, Bind.bind, SM.andThen, callAt, nameStandardizer,
      sortD_flat h, e1, flattener, subComponent, stateless, SM.lift, flatten, extractSub, e2, e3, structureMapper,
      e5, renameFlat, e4, SM.ret]
    try rfl

theorem undo_flat {S : Search} {base : List Py} (hf : c.fuel ≠ 0) {t : PyInst} (h : FlatList t) (hn : Dict.Nodup t)
    {n : ℕ} {s : ℕ → Option (Dict Py Py)} (hs : NoNames s) :
    ∃ s', (trestlePipe c S base).undo t (n, s) = (.ok t, n, s') := by
  have hn' : (Dict.keys ([] ++ t)).Nodup := hn
  obtain ⟨f, hf⟩ := Nat.exists_eq_succ_of_ne_zero hf
  have e1 := renameFlat_flat t [] h hn'
  have e2 := embedD_flat (fuel := f) t [] h hn'
  have e3 := structurize_flat t [] h hn'
  have e4 := undoStdD_flat t [] h hn'
  rw [List.nil_append] at e1 e2 e3 e4
  refine ⟨((trestlePipe c S base).undo t (n, s)).2.2, ?_⟩
  simp only [trestlePipe, pipeline, List.reverse_cons, List.reverse_nil, List.nil_append, List.cons_append,
    pipeUndoLoop, Bind.bind, SM.andThen, callAt, structureMapper, hs.2, renameFlat, e1, subComponent, stateless,
    SM.lift, embedSub, soMapping_flat h, hf, e2, flattener, unflatten, e3, nameStandardizer]
  simp only [Function.update, hs.1, SM.ret]
  simp [e4]


theorem FlatInst.list {i : PyInst} (h : FlatInst i) : FlatList i := ⟨h.attr, fun p hp => (h.val p hp).1⟩

theorem FlatInst.perm {i j : PyInst} (h : FlatInst i) (hp : j.Perm i) : FlatInst j :=
  ⟨(hp.map Prod.fst).nodup_iff.2 h.nodup, fun p hp' => h.attr p (hp.mem_iff.1 hp'),
    fun p hp' => h.val p (hp.mem_iff.1 hp')⟩

theorem FlatInst.trestleCheck {i : PyInst} (h : FlatInst i) : trestleCheck i = .ok () := by
  have : ∀ l : List (Py × Py), FlatList l → CF.trestleCheck l = .ok () := by
    intro l
    induction l with
    | nil => intro _; rfl
    | cons p l ih =>
      intro h
      obtain ⟨k, v⟩ := p
      have hv := h.val (k, v) (by simp)
      obtain ⟨ch, t, rfl, -⟩ := h.attr _ (List.mem_cons_self ..)
      have h2 : trestleVal v = .ok () := by
        cases v <;> first | rfl | (simp [Py.hashable] at hv; done) | exact if_pos hv
      rw [CF.trestleCheck, h2, ih h.tail]
      rfl
  exact this i h.list

theorem FlatInst.sanityCheck {i : PyInst} (h : FlatInst i) : sanityCheck i = .ok () := by
  have : ∀ l : List (Py × Py), FlatList l → (∀ p ∈ l, p.2 ≠ .none) → CF.sanityCheck l = .ok () := by
    intro l
    induction l with
    | nil => intro _ _; rfl
    | cons p l ih =>
      intro h hn
      obtain ⟨k, v⟩ := p
      have hv := h.val (k, v) (by simp)
      have hv' : v ≠ .none := hn (k, v) (by simp)
      obtain ⟨ch, t, rfl, -⟩ := h.attr _ (List.mem_cons_self ..)
      have := ih h.tail fun p hp => hn p (by simp [hp])
      simp only [] at hv
      simp [CF.sanityCheck, Py.hashable, Py.index0, hv, hv', this]
  exact this i h.list fun p hp => (h.val p hp).2

/-! ### One call -/

/-- **C82**: in a tree whose table mentions only plain attributes, `ifit` of a flat instance does what
`Cobweb3Tree.ifit` does with the instance, its entries in some order; it generates no names and does not
search. -/
theorem C82_ifit {st : TState} (hb : ∀ a ∈ st.rootAttrs, PlainAttr a) {i : PyInst} (hi : FlatInst i) :
    ∃ i' : PyInst, i'.Perm i ∧ ∀ (S : Search) (N : Numbers), trestleIfit c S i st =
      match (cobweb3Tree c.cobweb3 N).ifit i' (st.h, st.sc) with
      | (r, h, sc) => (r, ⟨h, sc, st.ctr⟩) := by
  refine ⟨sortEntries c.std i, List.perm_insertionSort _ _, fun S N => ?_⟩
  obtain ⟨s, h1, -⟩ := prep_flat (c := c) (S := S) hb hi.list hi.nodup
  have hi' : FlatInst (sortEntries c.std i) := hi.perm (List.perm_insertionSort _ _)
  simp only [trestleIfit, h1, hi'.trestleCheck, cobweb3Tree, Bind.bind, SM.andThen, SM.lift, hi'.sanityCheck]

/-- **C82** for `categorize`. -/
theorem C82_categorize {st : TState} (hb : ∀ a ∈ st.rootAttrs, PlainAttr a) {i : PyInst} (hi : FlatInst i) :
    ∃ i' : PyInst, i'.Perm i ∧ ∀ (S : Search) (N : Numbers), trestleCategorize c S i st =
      match (cobweb3Tree c.cobweb3 N).categorize i' (st.h, st.sc) with
      | (r, h, sc) => (r, ⟨h, sc, st.ctr⟩) := by
  refine ⟨sortEntries c.std i, List.perm_insertionSort _ _, fun S N => ?_⟩
  obtain ⟨s, h1, -⟩ := prep_flat (c := c) (S := S) hb hi.list hi.nodup
  have hi' : FlatInst (sortEntries c.std i) := hi.perm (List.perm_insertionSort _ _)
  simp only [trestleCategorize, h1, hi'.trestleCheck, cobweb3Tree, Bind.bind, SM.andThen, SM.lift, hi'.sanityCheck]


/-! ### A whole tree -/

/-- The tables have the same entries, in any order. -/
structure EqualTable3 {A V : Type} [DecidableEq A] [DecidableEq V] (s s' : Stats3 A V) : Prop where
  count : s'.count = s.count
  nomLookup : ∀ a v, s'.nomLookup a v = s.nomLookup a v
  cv : ∀ a, s'.cvOf a = s.cvOf a
  attrs : ∀ a, a ∈ s'.av.keys ↔ a ∈ s.av.keys

/-- Nothing is renamed. -/
def sameRen (cfg : Cfg3 Py Py) : Ren3 cfg cfg Py Py :=
  totalRen3 (f := id) Function.injective_id (g := fun _ => id) (fun _ => Function.injective_id) (h := id)
    Function.injective_id (fun _ => rfl) (mul := fun _ => 1) (fun _ => 0) fun _ => one_pos

theorem sameRen_units (cfg : Cfg3 Py Py) : (sameRen cfg).Units :=
  ⟨rfl, .inr fun _ => rfl, .inr ⟨fun _ _ _ _ => trivial, fun _ _ _ _ => trivial⟩⟩

theorem sameRen_keeps (cfg : Cfg3 Py Py) : (sameRen cfg).toRenaming.Keeps hid3 hid3 :=
  ⟨fun _ => rfl, fun _ _ => trivial, fun _ _ => trivial⟩

theorem sameRen_inst {cfg : Cfg3 Py Py} {i i' : PyInst} (hn : Dict.Nodup i) (hp : i'.Perm i) :
    RInst (sameRen cfg).toRenaming (inst3 i) (inst3 i') := by
  refine totalRen3_inst _ _ _ _ _ _ (inst3_nodup hn) ?_
  have : ((inst3 i).map fun e => (id e.1, mapVal cfg.inner (fun _ => id) (fun _ => 1) (fun _ => 0) e.1 e.2)) = inst3 i := by
    refine (List.map_congr_left fun e _ => ?_).trans (List.map_id _)
    obtain ⟨a, v⟩ := e
    cases v <;> simp [mapVal]
  rw [this]
  exact hp.map _

theorem sameRen_table {cfg : Cfg3 Py Py} {H : List (Inst3 Py Py × Inst3 Py Py)} {s s' : Stats3 Py Py}
    (h : Paired (RHist (sameRen cfg) H) Summarizes3 Summarizes3 s s') : EqualTable3 s s' := by
  obtain ⟨h1, h2, -, h4, h5⟩ := totalRen3_table _ _ _ _ _ _ h
  refine ⟨h1, h2, fun a => ?_, fun a => ?_⟩
  · have := h4 a
    simp only [id] at this
    rw [this]
    cases s.cvOf a with
    | none => rfl
    | some k => simp [CV.affine]
  · simpa using h5 a

/-- A `TrestleTree` and a `Cobweb3Tree` that were fitted with the same flat instances: the trees have the
same shape, the same ids and equal tables; what they do next depends on the same random numbers. -/
def Twins (c : TrestleCfg) (st : TState) (s : Heap (Stats3 Py Py) × Scales Py) : Prop :=
  ∃ (hist hist' : List PyInst) (H : List (Inst3 Py Py × Inst3 Py Py)) (t t' : Tree (Stats3 Py Py)),
    HReach3 hid3 c.cobweb3 st.h st.sc (hist.map inst3) ∧ HReach3 hid3 c.cobweb3 s.1 s.2 (hist'.map inst3) ∧
    (∀ j ∈ hist, FlatInst j) ∧ IsTree st.h st.h.root t ∧ IsTree s.1 s.1.root t' ∧
    RState (sameRen c.cobweb3) H ⟨t, st.sc⟩ ⟨t', s.2⟩ ∧ st.h.w = s.1.w

theorem rootAttrs_plain {st : TState} {hist : List PyInst}
    (h : HReach3 hid3 c.cobweb3 st.h st.sc (hist.map inst3)) (hf : ∀ j ∈ hist, FlatInst j) :
    ∀ a ∈ st.rootAttrs, PlainAttr a := by
  intro a ha
  obtain ⟨t, n, hr, -, ht⟩ := C66_store_is_tree_cobweb3 h
  have hs := (C29_every_node hr).1
  cases ht with
  | mk hobj _ =>
    rw [TState.rootAttrs, hobj] at ha
    obtain ⟨j, hj, hk⟩ := (hs.attrs a).1 ha
    obtain ⟨temp, hm, rfl⟩ := List.mem_map.1 (Multiset.mem_coe.1 hj)
    have : a ∈ Dict.keys temp := by simpa [inst3, Dict.keys, Function.comp_def] using hk
    obtain ⟨p, hp, rfl⟩ := List.mem_map.1 this
    exact (hf _ hm).attr p hp

theorem Twins.clear (c : TrestleCfg) (st : TState) (sc : Scales Py) (N : Numbers) :
    Twins c (trestleClear st) ((cobweb3Tree c.cobweb3 N).clear (st.h, sc)) := by
  have e : clearH (cobweb3Class hid3) st.h = (.ok (), (clearH (cobweb3Class hid3) st.h).2) :=
    Prod.ext (by simp [clearH, HM.setRoot, HM.setTree, HM.mod, newNode, Bind.bind, HM.andThen]) rfl
  have h : HReach3 hid3 c.cobweb3 (clearH (cobweb3Class hid3) st.h).2 [] ([] : List (Inst3 Py Py)) := .init e
  obtain ⟨hp, hroot, -⟩ := clearH_pre e
  have ht : IsTree (clearH (cobweb3Class hid3) st.h).2 (clearH (cobweb3Class hid3) st.h).2.root
      (emptyState3 (B := Py) hid3 st.h.w).root := hroot ▸ hp.rep.isTree
  exact ⟨[], [], [], _, _, h, h, by simp, ht, ht, RState.init _ (sameRen_keeps _) st.h.w, rfl⟩

/-- Two calls with the same outcome: both return, and the states are related by `R` and the results by `P`;
or both raise the same exception. -/
def SameCall {α β σ σ' : Type} (P : α × σ → β × σ' → Prop) (x : Res α × σ) (y : Res β × σ') : Prop :=
  (∃ a b, x.1 = .ok a ∧ y.1 = .ok b ∧ P (a, x.2) (b, y.2)) ∨ ∃ e, x.1 = .error e ∧ y.1 = .error e

/-- The addresses are those of concepts with the same id and equal tables. -/
def SameConcept (h h' : Heap (Stats3 Py Py)) (a a' : ℕ) : Prop :=
  ∃ r r', h.objs a = some r ∧ h'.objs a' = some r' ∧ r.cid = r'.cid ∧ EqualTable3 r.stats r'.stats

theorem mem_forall₂ {α β : Type} {P : α → β → Prop} {l : List α} {l' : List β} (h : List.Forall₂ P l l') {x : α}
    (hx : x ∈ l) : ∃ y ∈ l', P x y := by
  induction h with
  | nil => simp at hx
  | @cons a b l l' h _ ih =>
    rcases List.mem_cons.1 hx with rfl | hx
    · exact ⟨b, by simp, h⟩
    · obtain ⟨y, hy, hP⟩ := ih hx
      exact ⟨y, by simp [hy], hP⟩

/-- Nodes with the same id in two related trees are related. -/
theorem twin_node {S S' : Type} {R : S → S' → Prop} {t : Tree S} {t' : Tree S'} (h : TRel R t t') (hn : t'.ids.Nodup)
    {x : Tree S} {x' : Tree S'} (hx : x ∈ t.nodes) (hx' : x' ∈ t'.nodes) (he : x.id = x'.id) : TRel R x x' := by
  obtain ⟨y, hy, hR⟩ := mem_forall₂ h.nodes hx
  have : y = x' := List.inj_on_of_nodup_map hn hy hx' (by rw [← hR.id, he])
  exact this ▸ hR

theorem twins_ifit {st : TState} {s : Heap (Stats3 Py Py) × Scales Py} (h : Twins c st s) (S : Search) (N : Numbers)
    {i : PyInst} (hi : FlatInst i) :
    SameCall (fun x y => Twins c x.2 y.2 ∧ SameConcept x.2.h y.2.1 x.1 y.1 ∧ x.2.ctr = st.ctr)
      (trestleIfit c S i st) ((cobweb3Tree c.cobweb3 N).ifit i s) := by
  obtain ⟨hist, hist', H, t, t', h1, h2, h3, h4, h5, h6, h7⟩ := h
  obtain ⟨i', hp, e⟩ := C82_ifit (c := c) (rootAttrs_plain h1 h3) hi
  rw [e S N]
  have hi' := hi.perm hp
  obtain ⟨h', sc'⟩ := s
  simp only [cobweb3Tree, Bind.bind, SM.andThen, SM.lift, hi.sanityCheck, hi'.sanityCheck]
  have A1 := C66_ifit_agrees_cobweb3 h1 h4 (inst3 i')
  have A2 := C66_ifit_agrees_cobweb3 h2 h5 (inst3 i)
  have R := ifit3_sim (sameRen c.cobweb3) (sameRen_units _) (sameRen_keeps _) h6
    (sameRen_inst hi'.nodup hp.symm) st.h.w
  simp only at h7 A2
  rw [← h7] at A2
  cases o1 : ifit3 hid3 c.cobweb3 ⟨t, st.sc⟩ (inst3 i') st.h.w with
  | error x =>
    rw [o1] at A1 R
    have o2 : ifit3 hid3 c.cobweb3 ⟨t', sc'⟩ (inst3 i) st.h.w = .error x := by
      generalize ifit3 hid3 c.cobweb3 ⟨t', sc'⟩ (inst3 i) st.h.w = q at R
      cases R
      rfl
    rw [o2] at A2
    exact .inr ⟨x, A1, A2⟩
  | ok o =>
    rw [o1] at A1 R
    obtain ⟨o', o2, R1, R2, R3⟩ := R.ok_left
    rw [o2] at A2
    obtain ⟨a, g, r, run, k1, k2, -, k4, k5, -, x, hx, k7, k8⟩ := A1
    obtain ⟨a', g', r', run', k1', k2', -, k4', k5', -, x', hx', k7', k8'⟩ := A2
    rw [run, run']
    have hr1 := HReach3.step h1 (inst3_nodup hi'.nodup) run
    have hr2 := HReach3.step h2 (inst3_nodup hi.nodup) run'
    refine .inl ⟨a, a', rfl, rfl, ⟨hist ++ [i'], hist' ++ [i], _, _, _, by simpa using hr1, by simpa using hr2, ?_, k1, k1',
      R1, by rw [k2, k2', R3]⟩, ⟨r, r', k4, k4', by rw [k5, k5', R2], ?_⟩, rfl⟩
    · intro j hj
      rcases List.mem_append.1 hj with hj | hj
      · exact h3 j hj
      · rw [List.mem_singleton] at hj
        exact hj ▸ hi'
    · obtain ⟨_, n', hreach', -, ht'⟩ := C66_store_is_tree_cobweb3 hr2
      rw [ht'.unique k1'] at hreach'
      rw [← k8, ← k8']
      exact sameRen_table (twin_node R1.root (C29_ids_unique hreach').1 hx hx' (by rw [k7, k7', R2])).stats

theorem twins_categorize {st : TState} {s : Heap (Stats3 Py Py) × Scales Py} (h : Twins c st s) (S : Search)
    (N : Numbers) {i : PyInst} (hi : FlatInst i) :
    SameCall (fun x y => Twins c x.2 y.2 ∧ SameConcept x.2.h y.2.1 x.1 y.1 ∧ x.2.ctr = st.ctr)
      (trestleCategorize c S i st) ((cobweb3Tree c.cobweb3 N).categorize i s) := by
  obtain ⟨hist, hist', H, t, t', h1, h2, h3, h4, h5, h6, h7⟩ := h
  obtain ⟨i', hp, e⟩ := C82_categorize (c := c) (rootAttrs_plain h1 h3) hi
  rw [e S N]
  have hi' := hi.perm hp
  obtain ⟨h', sc'⟩ := s
  simp only [cobweb3Tree, Bind.bind, SM.andThen, SM.lift, hi.sanityCheck, hi'.sanityCheck]
  obtain ⟨dt, n, -, -, hpre, hroot⟩ := heap_rep3 h1
  obtain ⟨dt', n', -, -, hpre', hroot'⟩ := heap_rep3 h2
  obtain rfl : t = dt.erase := h4.unique (hroot ▸ hpre.rep.isTree)
  obtain rfl : t' = dt'.erase := h5.unique (hroot' ▸ hpre'.rep.isTree)
  obtain ⟨K1, C1, A1⟩ := categorizeH_agrees (C := cobweb3Class hid3) (ecg := ecg3H hid3 c.cobweb3 st.sc)
    (fun s => fueled_ecg3 _ s) hpre hroot (inst3 i')
  obtain ⟨K2, C2, A2⟩ := categorizeH_agrees (C := cobweb3Class hid3) (ecg := ecg3H hid3 c.cobweb3 sc')
    (fun s => fueled_ecg3 _ s) hpre' hroot' (inst3 i)
  have R := categorize3_sim (sameRen c.cobweb3) (sameRen_units _) (fun _ => rfl) (sameRen_keeps _) h6
    (sameRen_inst hi'.nodup hp.symm) st.h.w
  simp only at h7 A2 R hroot' K2 C2
  rw [← h7] at A2
  change RRel _ (categorize (cobweb3Class hid3) (ecg3H hid3 c.cobweb3 st.sc true) dt.erase (inst3 i') st.h.w)
    (categorize (cobweb3Class hid3) (ecg3H hid3 c.cobweb3 sc' true) dt'.erase (inst3 i) st.h.w) at R
  generalize categorize (cobweb3Class hid3) (ecg3H hid3 c.cobweb3 st.sc true) dt.erase (inst3 i') st.h.w = q at A1 R
  generalize categorize (cobweb3Class hid3) (ecg3H hid3 c.cobweb3 sc' true) dt'.erase (inst3 i) st.h.w = q' at A2 R
  generalize categorizeH (cobweb3Class hid3) (ecg3H hid3 c.cobweb3 st.sc) (inst3 i') st.h = z at K1 C1 A1
  generalize categorizeH (cobweb3Class hid3) (ecg3H hid3 c.cobweb3 sc') (inst3 i) h' = z' at K2 C2 A2
  cases R with
  | error x => exact .inr ⟨x, A1, A2⟩
  | @ok a b R =>
    obtain ⟨g1, y, hy, g2, -, g3⟩ := A1
    obtain ⟨g1', y', hy', g2', -, g3'⟩ := A2
    have ha : y.addr < st.h.next := hpre.lt _ (List.mem_map.2 ⟨y, hy, rfl⟩)
    have ha' : y'.addr < h'.next := hpre'.lt _ (List.mem_map.2 ⟨y', hy', rfl⟩)
    obtain ⟨p, hr⟩ := rep_nodes dt hpre.rep y hy
    obtain ⟨p', hr'⟩ := rep_nodes dt' hpre'.rep y' hy'
    refine .inl ⟨y.addr, y'.addr, g3, g3', ⟨hist, hist', H, _, _, .other h1 ⟨K1.objs, K1.next, K1.root, C1⟩,
      .other h2 ⟨K2.objs, K2.next, K2.root, C2⟩, h3, ?_, ?_, h6, ?_⟩, ⟨_, _, (K1.objs _ ha).trans hr.obj,
      (K2.objs _ ha').trans hr'.obj, ?_, ?_⟩, rfl⟩
    · show IsTree z.2 z.2.root _
      rw [K1.root, hroot]
      exact (hpre.rep.keep K1 hpre.lt).isTree
    · show IsTree z'.2 z'.2.root _
      rw [K2.root, hroot']
      exact (hpre'.rep.keep K2 hpre'.lt).isTree
    · show z.2.w = z'.2.w
      rw [g1, g1', R.2]
    · have := R.1.id
      rwa [← g2, ← g2', Tree.id_erase, Tree.id_erase] at this
    · have := sameRen_table R.1.stats
      rwa [← g2, ← g2', Tree.stats_erase, Tree.stats_erase] at this

theorem isTree_world {h : Heap (Stats3 Py Py)} {sc : Scales Py} {cfg : Cfg3 Py Py} {hist : List (Inst3 Py Py)}
    (hr : HReach3 hid3 cfg h sc hist) {t : Tree (Stats3 Py Py)} (ht : IsTree h h.root t) (w : World) :
    IsTree { h with w := w } h.root t := by
  obtain ⟨dt, n, -, -, hpre, hroot⟩ := heap_rep3 hr
  obtain rfl : t = dt.erase := ht.unique (hroot ▸ hpre.rep.isTree)
  exact hroot ▸ (hpre.rep.congr dt (h' := { h with w := w }) fun _ _ => rfl).isTree

theorem Twins.world {st : TState} {s : Heap (Stats3 Py Py) × Scales Py} (h : Twins c st s) {w : World}
    (hw : w.ctr = st.h.w.ctr) : Twins c { st with h := { st.h with w := w } } ({ s.1 with w := w }, s.2) := by
  obtain ⟨hist, hist', H, t, t', h1, h2, h3, h4, h5, h6, h7⟩ := h
  exact ⟨hist, hist', H, t, t', .other h1 (undisturbed_world hw), .other h2 (undisturbed_world (hw.trans (by rw [h7]))),
    h3, isTree_world h1 h4 w, isTree_world h2 h5 w, h6, rfl⟩

section
variable {I α β σ σ' : Type} {f : I → σ → Res α × σ} {g : I → σ' → Res β × σ'} {R : σ → σ' → Prop} {P : I → Prop}

theorem fitEach_same (hstep : ∀ i s s', P i → R s s' → SameCall (fun x y => R x.2 y.2) (f i s) (g i s')) :
    ∀ (l : List I) (s : σ) (s' : σ'), (∀ i ∈ l, P i) → R s s' →
      SameCall (fun x y => R x.2 y.2) (fitEach f l s) (fitEach g l s') := by
  intro l
  induction l with
  | nil => intro s s' _ h; exact .inl ⟨(), (), rfl, rfl, h⟩
  | cons i l ih =>
    intro s s' hP h
    have := hstep i s s' (hP i (by simp)) h
    rw [fitEach, fitEach]
    generalize f i s = x at this
    generalize g i s' = y at this
    obtain ⟨x1, x2⟩ := x
    obtain ⟨y1, y2⟩ := y
    rcases this with ⟨a, b, h1, h2, h3⟩ | ⟨e, h1, h2⟩ <;> simp only at h1 h2 <;> subst h1 h2
    · exact ih x2 y2 (fun j hj => hP j (by simp [hj])) h3
    · exact .inr ⟨e, rfl, rfl⟩

theorem fitWith_same (hstep : ∀ i s s', P i → R s s' → SameCall (fun x y => R x.2 y.2) (f i s) (g i s'))
    {sh : List I → σ → List I × σ} {sh' : List I → σ' → List I × σ'}
    (hsh : ∀ l s s', R s s' → (sh l s).1 = (sh' l s').1 ∧ (sh l s).1.Perm l ∧ R (sh l s).2 (sh' l s').2)
    {l : List I} (hl : ∀ i ∈ l, P i) (iterations : ℕ) (rf : Bool) {s : σ} {s' : σ'} (h : R s s') :
    SameCall (fun x y => R x.2 y.2) ((fitWith f sh l iterations rf s).1, (fitWith f sh l iterations rf s).2.2)
      ((fitWith g sh' l iterations rf s').1, (fitWith g sh' l iterations rf s').2.2) := by
  have key : ∀ (todo x : ℕ) (l : List I) (s : σ) (s' : σ'), (∀ i ∈ l, P i) → R s s' →
      SameCall (fun x y => R x.2 y.2) (fitPasses f sh rf x todo l s) (fitPasses g sh' rf x todo l s') := by
    intro todo
    induction todo with
    | zero => intro x l s s' _ h; exact .inl ⟨(), (), rfl, rfl, h⟩
    | succ todo ih =>
      intro x l s s' hP h
      have h0 : ∃ l1 s1 s1', (if x = 0 ∧ rf = true then sh l s else (l, s)) = (l1, s1) ∧
          (if x = 0 ∧ rf = true then sh' l s' else (l, s')) = (l1, s1') ∧ (∀ i ∈ l1, P i) ∧ R s1 s1' := by
        split
        · obtain ⟨k1, k2, k3⟩ := hsh l s s' h
          exact ⟨(sh l s).1, (sh l s).2, (sh' l s').2, rfl, Prod.ext k1.symm rfl,
            fun i hi => hP i (k2.mem_iff.1 hi), k3⟩
        · exact ⟨l, s, s', rfl, rfl, hP, h⟩
      obtain ⟨l1, s1, s1', e1, e2, hP1, h1⟩ := h0
      rw [fitPasses, fitPasses, e1, e2]
      dsimp only
      have := fitEach_same hstep l1 s1 s1' hP1 h1
      generalize fitEach f l1 s1 = x at this
      generalize fitEach g l1 s1' = y at this
      obtain ⟨x1, x2⟩ := x
      obtain ⟨y1, y2⟩ := y
      rcases this with ⟨a, b, h1, h2, h3⟩ | ⟨e, h1, h2⟩ <;> simp only at h1 h2 <;> subst h1 h2
      · obtain ⟨k1, k2, k3⟩ := hsh l1 x2 y2 h3
        dsimp only
        rw [← k1]
        exact ih _ _ _ _ (fun i hi => hP1 i (k2.mem_iff.1 hi)) k3
      · exact .inr ⟨e, rfl, rfl⟩
  exact key iterations 0 l s s' hl h

end

/-- The objects of the two stores form trees of the same shape with the same ids and equal tables; the
scales are equal, and so are the random numbers to come. -/
def SameTrees (st : TState) (s : Heap (Stats3 Py Py) × Scales Py) : Prop :=
  (∃ t t', IsTree st.h st.h.root t ∧ IsTree s.1 s.1.root t' ∧ TRel EqualTable3 t t') ∧
  (∀ b, s.2.get? b = st.sc.get? b) ∧ st.h.w = s.1.w

theorem Twins.same {st : TState} {s : Heap (Stats3 Py Py) × Scales Py} (h : Twins c st s) : SameTrees st s := by
  obtain ⟨hist, hist', H, t, t', h1, h2, h3, h4, h5, h6, h7⟩ := h
  refine ⟨⟨t, t', h4, h5, h6.root.mono fun _ _ h => sameRen_table h⟩, fun b => ?_, h7⟩
  obtain ⟨a, rfl⟩ : ∃ a, c.cobweb3.inner a = b := by
    cases hin : c.inner with
    | true => exact ⟨.tup [b], by simp [TrestleCfg.cobweb3, innerAttr, hin]⟩
    | false => exact ⟨b, by cases b with
      | tup l => cases l <;> simp [TrestleCfg.cobweb3, innerAttr, hin]
      | _ => rfl⟩
  have := h6.scale_eq ⟨fun _ _ _ _ => trivial, fun _ _ _ _ => trivial⟩ (a := a) trivial
  have e : (st.sc.get? (c.cobweb3.inner a)).map (CV.affine 1 0) = st.sc.get? (c.cobweb3.inner a) := by
    cases st.sc.get? (c.cobweb3.inner a) with
    | none => rfl
    | some k => simp [CV.affine]
  exact this.trans e

theorem twins_fit (N : Numbers) {sh : Shuffle PyInst} (hsh : FitShuffle sh) {l : List PyInst}
    (hl : ∀ i ∈ l, FlatInst i) (iterations : ℕ) (rf : Bool) (Ss : ℕ → Search) (st : TState) (sc : Scales Py) :
    SameCall (fun x y => Twins c x.2.2 y.2 ∧ x.2.2.ctr = 0)
      ((trestleFit c sh l iterations rf (Ss, trestleClear st)).1, (trestleFit c sh l iterations rf (Ss, trestleClear st)).2.2)
      ((cobweb3Fit c.cobweb3 N sh l iterations rf ((cobweb3Tree c.cobweb3 N).clear (st.h, sc))).1,
        (cobweb3Fit c.cobweb3 N sh l iterations rf ((cobweb3Tree c.cobweb3 N).clear (st.h, sc))).2.2) := by
  refine fitWith_same (R := fun (s : (ℕ → Search) × TState) s' => Twins c s.2 s' ∧ s.2.ctr = 0) (P := FlatInst) ?_ ?_ hl iterations rf
    ⟨Twins.clear c st sc N, rfl⟩
  · intro i s s' hi h
    rcases twins_ifit h.1 (s.1 0) N hi with ⟨a, b, h1, h2, h3, -, h5⟩ | h
    · exact .inl ⟨a, b, h1, h2, h3, h5.trans h.2⟩
    · exact .inr h
  · intro l s s' h
    have hw : s.2.h.w = s'.1.w := h.1.same.2.2
    refine ⟨by rw [hw], hsh.perm _ _, ?_, h.2⟩
    dsimp only
    rw [← hw]
    exact h.1.world (hsh.ctr _ _)

/-- **C82**: a `TrestleTree` is a `Cobweb3Tree` on flat instances.  Fit both, empty, with the same list of
flat instances, the same numbers of iterations and the same random numbers: either both calls return, and the
trees have the same shape, the same ids and the same tables, or both raise the same exception.  The
`TrestleTree` has generated no name. -/
theorem C82_fit (N : Numbers) {sh : Shuffle PyInst} (hsh : FitShuffle sh) {l : List PyInst}
    (hl : ∀ i ∈ l, FlatInst i) (iterations : ℕ) (rf : Bool) (Ss : ℕ → Search) (st : TState) (sc : Scales Py)
    {r : Res Unit} {l1 : List PyInst} {Ss' : ℕ → Search} {st' : TState}
    (hx : trestleFit c sh l iterations rf (Ss, trestleClear st) = (r, l1, Ss', st')) :
    ∃ s', cobweb3Fit c.cobweb3 N sh l iterations rf ((cobweb3Tree c.cobweb3 N).clear (st.h, sc)) = (r, l, s') ∧
      (r = .ok () → SameTrees st' s' ∧ st'.ctr = 0) := by
  have := twins_fit (c := c) N hsh hl iterations rf Ss st sc
  rw [hx] at this
  have e : (cobweb3Fit c.cobweb3 N sh l iterations rf ((cobweb3Tree c.cobweb3 N).clear (st.h, sc))).2.1 = l := rfl
  generalize cobweb3Fit c.cobweb3 N sh l iterations rf ((cobweb3Tree c.cobweb3 N).clear (st.h, sc)) = y at this e
  obtain ⟨r', l', s'⟩ := y
  simp only at e
  subst e
  rcases this with ⟨a, b, h1, h2, h3, h4⟩ | ⟨x, h1, h2⟩ <;> simp only at h1 h2 <;> subst h1 h2
  · exact ⟨s', rfl, fun _ => ⟨h3.same, h4⟩⟩
  · exact ⟨s', rfl, fun h => by cases h⟩

/-- **C82**: after that, `ifit` and `categorize` of a flat instance return concepts with the same id and the
same table, or raise the same exception. -/
theorem C82_same_concept (N : Numbers) {sh : Shuffle PyInst} (hsh : FitShuffle sh) {l : List PyInst}
    (hl : ∀ i ∈ l, FlatInst i) {iterations : ℕ} {rf : Bool} {Ss : ℕ → Search} {st : TState} {sc : Scales Py}
    {l1 l2 : List PyInst} {Ss' : ℕ → Search} {st' : TState} {s' : Heap (Stats3 Py Py) × Scales Py}
    (hx : trestleFit c sh l iterations rf (Ss, trestleClear st) = (.ok (), l1, Ss', st'))
    (hy : cobweb3Fit c.cobweb3 N sh l iterations rf ((cobweb3Tree c.cobweb3 N).clear (st.h, sc)) = (.ok (), l2, s'))
    (S : Search) {i : PyInst} (hi : FlatInst i) :
    SameCall (fun x y => SameConcept x.2.h y.2.1 x.1 y.1)
      (trestleIfit c S i st') ((cobweb3Tree c.cobweb3 N).ifit i s') ∧
    SameCall (fun x y => SameConcept x.2.h y.2.1 x.1 y.1)
      (trestleCategorize c S i st') ((cobweb3Tree c.cobweb3 N).categorize i s') := by
  have := twins_fit (c := c) N hsh hl iterations rf Ss st sc
  rw [hx, hy] at this
  rcases this with ⟨a, b, -, -, h3, -⟩ | ⟨x, h1, -⟩
  · constructor
    · rcases twins_ifit h3 S N hi with ⟨a, b, k1, k2, -, k3, -⟩ | h
      · exact .inl ⟨a, b, k1, k2, k3⟩
      · exact .inr h
    · rcases twins_categorize h3 S N hi with ⟨a, b, k1, k2, -, k3, -⟩ | h
      · exact .inl ⟨a, b, k1, k2, k3⟩
      · exact .inr h
  · cases h1

end

/-! ### Example -/

/-- Three flat instances; the first two are given with the attributes in different orders. -/
def demoFlat : List PyInst :=
  [[(.str c!"shape", .str c!"box"), (.str c!"k", .num 2)], [(.str c!"k", .num 5), (.str c!"shape", .str c!"ball")],
    [(.str c!"k", .num 2)]]

theorem demoFlat_flat : ∀ i ∈ demoFlat, FlatInst i := by
  intro i hi
  simp only [demoFlat, List.mem_cons, List.not_mem_nil, or_false] at hi
  have h1 : PlainAttr (.str c!"shape") := ⟨'s', _, rfl, by decide⟩
  have h2 : PlainAttr (.str c!"k") := ⟨'k', _, rfl, by decide⟩
  rcases hi with rfl | rfl | rfl
  · exact ⟨by simp [Dict.Nodup, Dict.keys], by simp [h1, h2], by simp [Py.hashable]⟩
  · exact ⟨by simp [Dict.Nodup, Dict.keys], by simp [h1, h2], by simp [Py.hashable]⟩
  · exact ⟨by simp [Dict.Nodup, Dict.keys], by simp [h2], by simp [Py.hashable]⟩

theorem demoFlat_fit : ∀ i ∈ demoFlat, Py.wf (.dict i) ∧ FitInst i ∧ VisInst i := by
  intro i hi
  simp only [demoFlat, List.mem_cons, List.not_mem_nil, or_false] at hi
  rcases hi with rfl | rfl | rfl <;> refine ⟨?_, ?_, ?_⟩
  all_goals first
    | simp [Py.wf, Py.wfD, Dict.Nodup, Dict.keys]; done
    | simp [FitInst, FitVal, FitAttr, Py.hashable]; done
    | simp [VisInst, VisLeaf, hid3, Py.index0]; done

/-- Both trees, fitted twice with the three instances, are the same. -/
example (N : Numbers) : let st : TState := ⟨⟨fun _ => Option.none, 0, 0, ⟨fun k => (k : ℚ), 0, 0⟩⟩, [], 0⟩
    ∃ Ss st' s',
    trestleFit demoTrestle (fun l w => (l.reverse, w)) demoFlat 2 true (fun _ => demoSearch, trestleClear st) =
      (.ok (), demoFlat, Ss, st') ∧
    cobweb3Fit demoTrestle.cobweb3 N (fun l w => (l.reverse, w)) demoFlat 2 true
      ((cobweb3Tree demoTrestle.cobweb3 N).clear (st.h, st.sc)) = (.ok (), demoFlat, s') ∧ SameTrees st' s' := by
  intro st
  obtain ⟨⟨Ss, st'⟩, hs⟩ := C76_fit_trestle_never_raises demoTrestle_ok (.clear st) (by simp) reverse_shuffle
    (fun _ _ => rfl) (fun _ => demoSearch_ok) (fun _ => demoSearch_total) demoFlat_fit
    (fun a b hab => Nat.cast_injective (R := ℚ) hab) 2 true
  obtain ⟨s', h1, h2⟩ := C82_fit N reverse_shuffle demoFlat_flat 2 true _ st st.sc hs
  exact ⟨Ss, st', s', hs, h1, (h2 rfl).1⟩

end CF
