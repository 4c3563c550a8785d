/-
What `ExtractListElements` makes of an instance.
-/
import Verif.Proofs.ListUndo
import Verif.Proofs.Pipeline

namespace CF
open Py

theorem KeysD_iff {P : Py → Prop} {l : List (Py × Py)} : KeysD P l ↔ ∀ p ∈ l, P p.1 ∧ KeysV P p.2 := by
  induction l with
  | nil => simp [KeysD]
  | cons p l ih => simp [KeysD, ih]

theorem FlatD_iff {l : List (Py × Py)} : FlatD l ↔ ∀ p ∈ l, FlatV p.2 := by
  induction l with
  | nil => simp [FlatD]
  | cons p l ih => simp [FlatD, ih]

theorem KeysD_append {P : Py → Prop} {l m : List (Py × Py)} : KeysD P (l ++ m) ↔ KeysD P l ∧ KeysD P m := by
  simp only [KeysD_iff, List.mem_append]
  exact ⟨fun h => ⟨fun p hp => h p (.inl hp), fun p hp => h p (.inr hp)⟩,
    fun h p hp => hp.elim (h.1 p) (h.2 p)⟩

theorem FlatD_append {l m : List (Py × Py)} : FlatD (l ++ m) ↔ FlatD l ∧ FlatD m := by
  simp only [FlatD_iff, List.mem_append]
  exact ⟨fun h => ⟨fun p hp => h p (.inl hp), fun p hp => h p (.inr hp)⟩,
    fun h p hp => hp.elim (h.1 p) (h.2 p)⟩

theorem wfD_append {l m : List (Py × Py)} : wfD (l ++ m) ↔ wfD l ∧ wfD m := by
  simp only [wfD_iff, List.mem_append]
  exact ⟨fun h => ⟨fun p hp => h p (.inl hp), fun p hp => h p (.inr hp)⟩,
    fun h p hp => hp.elim (h.1 p) (h.2 p)⟩

theorem nodup_append_dict {V : Type} {d e : Dict Py V} (h1 : Dict.Nodup d) (h2 : Dict.Nodup e)
    (h : ∀ k ∈ Dict.keys e, k ∉ Dict.keys d) : Dict.Nodup (d ++ e) := by
  rw [Dict.Nodup, Dict.keys_append]
  exact List.Nodup.append h1 h2 fun k hk hk' => h k hk' hk

theorem NamesFor.left {X Y : PyInst} {els names : List Py} (h : NamesFor X els names) :
    NamesFor (X ++ Y) els names := by
  refine List.Forall₂.imp ?_ h
  rintro el n ⟨hs, o, ho, hb⟩
  exact ⟨hs, o, by rw [Dict.get?_append, ho]; rfl, hb⟩

theorem NamesFor.keys {X : PyInst} {els names : List Py} (h : NamesFor X els names) :
    ∀ n ∈ names, n ∈ Dict.keys X := by
  unfold NamesFor at h
  induction h with
  | nil => simp
  | cons hh _ ih =>
    intro n hn
    rcases List.mem_cons.1 hn with hn | hn
    · obtain ⟨_, o, ho, _⟩ := hh
      exact Dict.get?_isSome.1 (by rw [hn, ho]; rfl)
    · exact ih n hn

theorem NamesFor.right {X Y : PyInst} {els names : List Py} (h : NamesFor Y els names)
    (hd : ∀ n ∈ names, n ∉ Dict.keys X) : NamesFor (X ++ Y) els names := by
  unfold NamesFor at h ⊢
  induction h with
  | nil => exact .nil
  | cons hh _ ih =>
    obtain ⟨hs, o, ho, hb⟩ := hh
    refine .cons ⟨hs, o, ?_, hb⟩ (ih fun n hn => hd n (List.mem_cons_of_mem _ hn))
    rw [Dict.get?_append, Dict.get?_eq_none.2 (hd _ List.mem_cons_self), ho]
    rfl

theorem Level.nil : Level [] [] := ⟨by simp, by simp, by simp, by simp⟩

theorem Level.append {l m X Y : List (Py × Py)} (h1 : Level l X) (h2 : Level m Y)
    (hX : ∀ k ∈ Dict.keys X, k ∉ Dict.keys Y)
    (hm : ∀ k ∈ Dict.keys X, k ∉ Dict.keys m) (hl : ∀ k ∈ Dict.keys Y, k ∉ Dict.keys l) :
    Level (l ++ m) (X ++ Y) := by
  have gX : ∀ {k w}, Dict.get? X k = some w → Dict.get? (X ++ Y) k = some w := by
    intro k w h; rw [Dict.get?_append, h]; rfl
  have gY : ∀ {k w}, Dict.get? Y k = some w → Dict.get? (X ++ Y) k = some w := by
    intro k w h
    have hk : k ∈ Dict.keys Y := Dict.get?_isSome.1 (by rw [h]; rfl)
    rw [Dict.get?_append, Dict.get?_eq_none.2 fun h' => hX k h' hk, h]; rfl
  have nk : ∀ n, n ∉ Dict.keys l → n ∉ Dict.keys m → n ∉ Dict.keys (l ++ m) := by
    intro n h h'; rw [Dict.keys_append, List.mem_append]; exact fun h'' => h''.elim h h'
  constructor
  · intro a els ha
    rcases List.mem_append.1 ha with ha | ha
    · obtain ⟨names, e1, e2, e3⟩ := h1.lists a els ha
      exact ⟨names, gX e1, e2.left, fun n hn => nk n (e3 n hn) (hm n (e2.keys n hn))⟩
    · obtain ⟨names, e1, e2, e3⟩ := h2.lists a els ha
      exact ⟨names, gY e1, e2.right fun n hn hx => hX n hx (e2.keys n hn),
        fun n hn => nk n (hl n (e2.keys n hn)) (e3 n hn)⟩
  · intro a d ha
    rcases List.mem_append.1 ha with ha | ha
    · obtain ⟨o, e1, e2⟩ := h1.dicts a d ha
      exact ⟨o, gX e1, e2⟩
    · obtain ⟨o, e1, e2⟩ := h2.dicts a d ha
      exact ⟨o, gY e1, e2⟩
  · intro a v ha hv hv'
    rcases List.mem_append.1 ha with ha | ha
    · exact gX (h1.atoms a v ha hv hv')
    · exact gY (h2.atoms a v ha hv hv')
  · intro k hk
    rw [Dict.keys_append, List.mem_append] at hk
    rw [Dict.keys_append, List.mem_append]
    rcases hk with hk | hk
    · rcases h1.keys k hk with hk | ⟨a, els, names, e1, e2, e3⟩
      · exact .inl (.inl hk)
      · exact .inr ⟨a, els, names, List.mem_append_left _ e1, gX e2, e3⟩
    · rcases h2.keys k hk with hk | ⟨a, els, names, e1, e2, e3⟩
      · exact .inl (.inr hk)
      · exact .inr ⟨a, els, names, List.mem_append_right _ e1, gY e2, e3⟩

/-- An element that was wrapped. -/
theorem backEl_val {v w : Py} (h : Back (.dict [(valKey, v)]) w) : BackEl v w := by
  intro w' hs hw
  obtain ⟨u, hu, ⟨m, rfl, hlen, hsd⟩, hwu⟩ := h w' hs hw
  obtain ⟨u', h1, h2⟩ := sameD_iff.1 hsd valKey v List.mem_cons_self
  refine ⟨_, hu, ?_, ?_⟩
  · simp only [elementOf, h1]; exact h2
  · simp only [elementOf, h1]; exact wfD_iff.1 hwu.2 _ (Dict.mem_of_get? h1)

/-- An element that is a component. -/
theorem backEl_dict {l : List (Py × Py)} {w : Py} (hl : Dict.Nodup l) (hv : valKey ∉ Dict.keys l)
    (h : Back (.dict l) w) : BackEl (.dict l) w := by
  intro w' hs hw
  obtain ⟨u, hu, ⟨m, rfl, hlen, hsd⟩, hwu⟩ := h w' hs hw
  have : Dict.get? m valKey = Option.none :=
    Dict.get?_eq_none.2 fun h' => hv ((same_keys hl hwu.1 hlen hsd).mem_iff.2 h')
  refine ⟨_, hu, ?_, ?_⟩
  · simp only [elementOf, this]; exact ⟨m, rfl, hlen, hsd⟩
  · simp only [elementOf, this]; exact hwu

variable {cfg : ListCfg} {P : Py → Prop}

/-- The extraction `X` of some entries, with the names from `s` to `s'`. -/
structure ExtD (cfg : ListCfg) (P : Py → Prop) (l X : List (Py × Py)) (s s' : ℕ) : Prop where
  le : s ≤ s'
  level : Level l X
  nodup : Dict.Nodup X
  wf : wfD X
  keys : ∀ k ∈ Dict.keys X, k ∈ Dict.keys l ∨ ∃ n, s ≤ n ∧ n < s' ∧ k = .str (cfg.gensym n)
  attrs : KeysD P l → KeysD P X
  flat : NoEmptyD l → FlatD X

/-- The extraction of a list. -/
structure ExtL (cfg : ListCfg) (P : Py → Prop) (els : List Py) (X : List (Py × Py)) (s s' : ℕ) : Prop where
  le : s ≤ s'
  names : NamesFor X els (Dict.keys X)
  nodup : Dict.Nodup X
  wf : wfD X
  keys : ∀ k ∈ Dict.keys X, ∃ n, s ≤ n ∧ n < s' ∧ k = .str (cfg.gensym n)
  attrs : KeysL P els → KeysD P X
  flat : NoEmptyL els → FlatD X

/-- A dict that new entries can be added to. -/
def Room (cfg : ListCfg) (l : List (Py × Py)) (s : ℕ) (new : PyInst) : Prop :=
  ∀ k ∈ Dict.keys new, k ∉ Dict.keys l ∧ FreshName cfg s k

theorem FreshName.mono {s t : ℕ} {k : Py} (h : FreshName cfg s k) (hst : s ≤ t) : FreshName cfg t k :=
  fun n hn => h n (le_trans hst hn)

theorem valKey_fresh (hc : ListNames cfg) (s : ℕ) : FreshName cfg s valKey := by
  intro n _ h
  obtain ⟨t, ht⟩ := hc.var n
  rw [ht] at h
  have := congrArg (fun v => match v with | Py.str s => s.head? | _ => Option.none) h
  simp [valKey] at this

/-- One entry whose list has been extracted. -/
theorem ExtL.toD (hc : ListNames cfg) {els X a s s'} (h : ExtL cfg P els X s s') (ha : FreshName cfg s a) :
    ExtD cfg P [(a, .list els)] (X ++ [(a, .list (Dict.keys X))]) s s' := by
  have hax : a ∉ Dict.keys X := by
    intro hk
    obtain ⟨n, h1, _, h3⟩ := h.keys a hk
    exact ha n h1 h3
  have hnames : ∀ n ∈ Dict.keys X, n ≠ a := fun n hn e => hax (e ▸ hn)
  have hstr : ∀ n ∈ Dict.keys X, ∃ t, n = Py.str t := fun n hn => by
    obtain ⟨m, _, _, e⟩ := h.keys n hn; exact ⟨_, e⟩
  have hget : Dict.get? (X ++ [(a, Py.list (Dict.keys X))]) a = some (.list (Dict.keys X)) := by
    rw [Dict.get?_append, Dict.get?_eq_none.2 hax]
    simp [Dict.get?_cons]
  refine ⟨h.le, ⟨?_, ?_, ?_, ?_⟩, ?_, ?_, ?_, ?_, ?_⟩
  · intro b els' hb
    rw [List.mem_singleton] at hb
    cases hb
    refine ⟨_, hget, h.names.left, fun n hn => ?_⟩
    simpa using hnames n hn
  · intro b m hb
    rw [List.mem_singleton] at hb
    cases hb
  · intro b v hb hv
    rw [List.mem_singleton] at hb
    cases hb
    cases hv
  · intro k hk
    rw [Dict.keys_append, List.mem_append] at hk
    rcases hk with hk | hk
    · exact .inr ⟨a, els, _, List.mem_singleton.2 rfl, hget, hk⟩
    · exact .inl hk
  · refine nodup_append_dict h.nodup (Dict.nodup_cons.2 ⟨by simp, Dict.nodup_nil⟩) fun k hk => ?_
    rw [Dict.keys_cons, Dict.keys_nil, List.mem_singleton] at hk
    rw [hk]; exact hax
  · refine wfD_append.2 ⟨h.wf, ?_, trivial⟩
    refine wfL_iff.2 fun n hn => ?_
    obtain ⟨t, rfl⟩ := hstr n hn
    trivial
  · intro k hk
    rw [Dict.keys_append, List.mem_append] at hk
    rcases hk with hk | hk
    · exact .inr (h.keys k hk)
    · exact .inl hk
  · rintro ⟨⟨h1, h2⟩, _⟩
    refine KeysD_append.2 ⟨h.attrs h2, ⟨h1, ?_⟩, trivial⟩
    have : ∀ l : List Py, (∀ n ∈ l, ∃ t, n = Py.str t) → KeysL P l := by
      intro l
      induction l with
      | nil => intro _; trivial
      | cons x l ih =>
        intro hl
        obtain ⟨t, rfl⟩ := hl x List.mem_cons_self
        exact ⟨trivial, ih fun n hn => hl n (List.mem_cons_of_mem _ hn)⟩
    exact this _ hstr
  · rintro ⟨⟨h1, h2⟩, _⟩
    refine FlatD_append.2 ⟨h.flat h2, ⟨?_, h.nodup, hstr⟩, trivial⟩
    intro e
    have hl := h.names.length_eq
    rw [e] at hl
    exact h1 (List.eq_nil_of_length_eq_zero hl)

/-- One entry that is a component. -/
theorem ExtD.toD {m X a s s'} (h : ExtD cfg P m X s s') (hm : Dict.Nodup m) :
    ExtD cfg P [(a, .dict m)] [(a, .dict X)] s s' := by
  have hget : Dict.get? [(a, Py.dict X)] a = some (.dict X) := by simp [Dict.get?_cons]
  refine ⟨h.le, ⟨?_, ?_, ?_, ?_⟩, Dict.nodup_cons.2 ⟨by simp, Dict.nodup_nil⟩, ⟨⟨h.nodup, h.wf⟩, trivial⟩,
    fun k hk => .inl hk, fun h' => ⟨⟨h'.1.1, h.attrs h'.1.2⟩, trivial⟩, fun h' => ⟨h.flat h'.1, trivial⟩⟩
  · intro b m hb
    rw [List.mem_singleton] at hb
    cases hb
  · intro b m hb
    rw [List.mem_singleton] at hb
    cases hb
    exact ⟨X, hget, h.level.back hm h.nodup⟩
  · intro b v hb _ hv
    rw [List.mem_singleton] at hb
    cases hb
    cases hv
  · exact fun k hk => .inl hk

/-- One entry that is neither. -/
theorem extD_atom {a v : Py} (h1 : v.isList = false) (h2 : v.isDict = false) (hw : v.wf) (s : ℕ) :
    ExtD cfg P [(a, v)] [(a, v)] s s := by
  refine ⟨le_rfl, ⟨?_, ?_, ?_, fun k hk => .inl hk⟩, Dict.nodup_cons.2 ⟨by simp, Dict.nodup_nil⟩, ⟨hw, trivial⟩,
    fun k hk => .inl hk, id, fun _ => ⟨?_, trivial⟩⟩
  · intro b m hb
    rw [List.mem_singleton] at hb
    cases hb
    cases h1
  · intro b m hb
    rw [List.mem_singleton] at hb
    cases hb
    cases h2
  · intro b w hb _ _
    rw [List.mem_singleton] at hb
    cases hb
    simp [Dict.get?_cons]
  · cases v <;> first | trivial | cases h1 | cases h2

theorem extD_nil (s : ℕ) : ExtD cfg P [] [] s s :=
  ⟨le_rfl, Level.nil, Dict.nodup_nil, trivial, by simp, id, id⟩

theorem ExtD.append (hc : ListNames cfg) {l m X Y s s₁ s'} (h1 : ExtD cfg P l X s s₁)
    (h2 : ExtD cfg P m Y s₁ s') (hlm : Dict.Nodup (l ++ m)) (hf : ∀ k ∈ Dict.keys (l ++ m), FreshName cfg s k) :
    ExtD cfg P (l ++ m) (X ++ Y) s s' := by
  have hl := h1.le
  have hl' := h2.le
  rw [Dict.Nodup, Dict.keys_append] at hlm
  rw [Dict.keys_append] at hf
  have hdis := List.disjoint_of_nodup_append hlm
  have hXm : ∀ k ∈ Dict.keys X, k ∉ Dict.keys m := by
    intro k hk hkm
    rcases h1.keys k hk with hk | ⟨n, e1, e2, e3⟩
    · exact hdis hk hkm
    · exact hf k (List.mem_append_right _ hkm) n e1 e3
  have hYl : ∀ k ∈ Dict.keys Y, k ∉ Dict.keys l := by
    intro k hk hkl
    rcases h2.keys k hk with hk | ⟨n, e1, e2, e3⟩
    · exact hdis hkl hk
    · exact hf k (List.mem_append_left _ hkl) n (by omega) e3
  have hXY : ∀ k ∈ Dict.keys X, k ∉ Dict.keys Y := by
    intro k hk hky
    rcases h2.keys k hky with hkm | ⟨n, e1, e2, e3⟩
    · exact hXm k hk hkm
    · rcases h1.keys k hk with hkl | ⟨n', e1', e2', e3'⟩
      · exact hYl k hky hkl
      · rw [e3] at e3'
        have := hc.inj (Py.str.inj e3')
        omega
  refine ⟨le_trans hl hl', h1.level.append h2.level hXY hXm hYl,
    nodup_append_dict h1.nodup h2.nodup fun k hk hk' => hXY k hk' hk, wfD_append.2 ⟨h1.wf, h2.wf⟩, ?_, ?_, ?_⟩
  · intro k hk
    rw [Dict.keys_append, List.mem_append] at hk
    rw [Dict.keys_append, List.mem_append]
    rcases hk with hk | hk
    · rcases h1.keys k hk with hk | ⟨n, e1, e2, e3⟩
      · exact .inl (.inl hk)
      · exact .inr ⟨n, e1, by omega, e3⟩
    · rcases h2.keys k hk with hk | ⟨n, e1, e2, e3⟩
      · exact .inl (.inr hk)
      · exact .inr ⟨n, by omega, e2, e3⟩
  · intro h
    have := KeysD_append.1 h
    exact KeysD_append.2 ⟨h1.attrs this.1, h2.attrs this.2⟩
  · intro h
    have : NoEmptyD l ∧ NoEmptyD m := by
      clear * - h
      induction l with
      | nil => exact ⟨trivial, h⟩
      | cons p l ih => exact ⟨⟨h.1, (ih h.2).1⟩, (ih h.2).2⟩
    exact FlatD_append.2 ⟨h1.flat this.1, h2.flat this.2⟩

theorem extL_nil (s : ℕ) : ExtL cfg P [] [] s s :=
  ⟨le_rfl, .nil, Dict.nodup_nil, trivial, by simp, fun _ => trivial, fun _ => trivial⟩

theorem ExtL.cons (hc : ListNames cfg) (hP : ∀ t, P (.str t)) {el els o X s s₁ s'} (hs : s + 1 ≤ s₁)
    (hb : BackEl el (.dict o)) (hw : (Py.dict o).wf) (ha : KeysV P el → KeysD P o)
    (hfl : NoEmptyV el → FlatD o) (h : ExtL cfg P els X s₁ s') :
    ExtL cfg P (el :: els) ((.str (cfg.gensym s), .dict o) :: X) s s' := by
  have hle := h.le
  have hnot : Py.str (cfg.gensym s) ∉ Dict.keys X := by
    intro hk
    obtain ⟨n, e1, _, e3⟩ := h.keys _ hk
    have := hc.inj (Py.str.inj e3)
    omega
  refine ⟨by omega, ?_, Dict.nodup_cons.2 ⟨hnot, h.nodup⟩, ⟨hw, h.wf⟩, ?_,
    fun h' => ⟨⟨hP _, ha h'.1⟩, h.attrs h'.2⟩, fun h' => ⟨hfl h'.1, h.flat h'.2⟩⟩
  · refine .cons ⟨⟨_, rfl⟩, o, by simp [Dict.get?_cons], hb⟩ ?_
    refine NamesFor.right (X := [(Py.str (cfg.gensym s), Py.dict o)]) h.names fun n hn => ?_
    rw [Dict.keys_cons, Dict.keys_nil, List.mem_singleton]
    intro e
    have e : n = Py.str (cfg.gensym s) := e
    exact hnot (e ▸ hn)
  · intro k hk
    rcases List.mem_cons.1 hk with hk | hk
    · exact ⟨s, le_rfl, by omega, hk⟩
    · obtain ⟨n, e1, e2, e3⟩ := h.keys k hk
      exact ⟨n, by omega, e2, e3⟩

mutual
theorem extractV_spec (hc : ListNames cfg) (hP : ∀ t, P (.str t)) (a : Py) : ∀ (v : Py) (s s0 : ℕ), s0 ≤ s → v.wf →
    FreshName cfg s0 a → KeysV (FreshName cfg s0) v → ListsOkV a v →
    ∃ X s', ExtD cfg P [(a, v)] X s s' ∧ ∀ new, Room cfg [(a, v)] s new →
      extractV cfg a v new s = (.ok (new ++ X), s')
  | .list els, s, s0, hs, hw, ha, hf, ⟨⟨x, hx, hx'⟩, hok⟩ => by
    obtain ⟨X, s', hX, hrun⟩ := extractL_spec hc hP els s s0 hs hw hf hok
    have hD := hX.toD hc (ha.mono hs)
    refine ⟨_, s', hD, fun new hn => ?_⟩
    have hhid : hiddenList a = .ok false := by
      simp only [hiddenList, hx, ok_bind, hx', decide_false]
      rfl
    have hnot : a ∉ Dict.keys (new ++ X) := by
      rw [Dict.keys_append, List.mem_append]
      rintro (hk | hk)
      · exact (hn a hk).1 (by simp)
      · obtain ⟨n, h1, _, h3⟩ := hX.keys a hk
        exact ha n (by omega) h3
    rw [extractV]
    rw [SM.bind_eq (a := false) (s₁ := s) (by rw [hhid]; rfl), if_neg (by simp)]
    rw [SM.bind_eq (hrun new [] fun k hk => (hn k hk).2)]
    show (Except.ok (Dict.set (new ++ X) a _), s') = _
    rw [Dict.set_of_not_mem hnot]
    simp
  | .dict m, s, s0, hs, hw, ha, hf, hok => by
    obtain ⟨X, s', hX, hrun⟩ := extractE_spec hc hP m s s0 hs hw.2 hw.1 hf hok
    refine ⟨_, s', hX.toD hw.1, fun new hn => ?_⟩
    rw [extractV, SM.bind_eq (hrun [] (fun k hk => absurd hk (by simp)))]
    show (Except.ok (Dict.set new a _), s') = _
    rw [Dict.set_of_not_mem fun hk => (hn a hk).1 (by simp)]
    simp
  | .none, s, s0, hs, hw, ha, hf, hok | .bool _, s, s0, hs, hw, ha, hf, hok | .num _, s, s0, hs, hw, ha, hf, hok
  | .str _, s, s0, hs, hw, ha, hf, hok | .tup _, s, s0, hs, hw, ha, hf, hok | .other _ _ _, s, s0, hs, hw, ha, hf, hok => by
    refine ⟨_, s, extD_atom rfl rfl hw s, fun new hn => ?_⟩
    rw [extractV]
    · show (Except.ok (Dict.set new a _), s) = _
      rw [Dict.set_of_not_mem fun hk => (hn a hk).1 (by simp)]
    all_goals intros; contradiction
theorem extractEl_spec (hc : ListNames cfg) (hP : ∀ t, P (.str t)) : ∀ (v : Py) (s s0 : ℕ), s0 ≤ s → v.wf →
    KeysV (FreshName cfg s0) v → ListsOkE v →
    ∃ o s', s ≤ s' ∧ BackEl v (.dict o) ∧ (Py.dict o).wf ∧ (KeysV P v → KeysD P o) ∧ (NoEmptyV v → FlatD o) ∧
      extractEl cfg v s = (.ok o, s')
  | .list els, s, s0, hs, hw, hf, hok => by
    obtain ⟨X, s', hX, hrun⟩ := extractL_spec hc hP els s s0 hs hw hf hok
    have hD := hX.toD hc (valKey_fresh hc s)
    have hnot : valKey ∉ Dict.keys ([] ++ X) := by
      intro hk
      obtain ⟨n, h1, _, h3⟩ := hX.keys _ hk
      exact valKey_fresh hc s n h1 h3
    refine ⟨_, s', hD.le, backEl_val (hD.level.back (Dict.nodup_cons.2 ⟨by simp, Dict.nodup_nil⟩) hD.nodup),
      ⟨hD.nodup, hD.wf⟩, fun h => hD.attrs ⟨⟨hP _, h⟩, trivial⟩, fun h => hD.flat ⟨h, trivial⟩, ?_⟩
    rw [extractEl, SM.bind_eq (hrun [] [] fun k hk => absurd hk (by simp))]
    show (Except.ok (Dict.set ([] ++ X) valKey _), s') = _
    rw [Dict.set_of_not_mem hnot]
    simp
  | .dict m, s, s0, hs, hw, hf, hok => by
    obtain ⟨X, s', hX, hrun⟩ := extractE_spec hc hP m s s0 hs hw.2 hw.1 hf hok.2
    refine ⟨X, s', hX.le, backEl_dict hw.1 hok.1 (hX.level.back hw.1 hX.nodup), ⟨hX.nodup, hX.wf⟩, hX.attrs, hX.flat, ?_⟩
    rw [extractEl, hrun [] (fun k hk => absurd hk (by simp))]
    simp
  | .none, s, s0, hs, hw, hf, hok | .bool _, s, s0, hs, hw, hf, hok | .num _, s, s0, hs, hw, hf, hok
  | .str _, s, s0, hs, hw, hf, hok | .tup _, s, s0, hs, hw, hf, hok | .other _ _ _, s, s0, hs, hw, hf, hok => by
    have hD := extD_atom (cfg := cfg) (P := P) (a := valKey) rfl rfl hw s
    refine ⟨_, s, le_rfl, backEl_val (hD.level.back (Dict.nodup_cons.2 ⟨by simp, Dict.nodup_nil⟩) hD.nodup),
      ⟨hD.nodup, hD.wf⟩, fun h => hD.attrs ⟨⟨hP _, h⟩, trivial⟩, fun h => hD.flat ⟨h, trivial⟩, ?_⟩
    rw [extractEl]
    · rfl
    all_goals intros; contradiction
theorem extractL_spec (hc : ListNames cfg) (hP : ∀ t, P (.str t)) : ∀ (els : List Py) (s s0 : ℕ), s0 ≤ s → wfL els →
    KeysL (FreshName cfg s0) els → ListsOkL els →
    ∃ X s', ExtL cfg P els X s s' ∧ ∀ new names, (∀ k ∈ Dict.keys new, FreshName cfg s k) →
      extractL cfg els new names s = (.ok (new ++ X, names ++ Dict.keys X), s')
  | [], s, s0, hs, hw, hf, hok => ⟨[], s, extL_nil s, fun new names _ => by simp [extractL, SM.ret]⟩
  | el :: els, s, s0, hs, hw, hf, hok => by
    obtain ⟨o, s₁, hle, hb, hwo, hat, hfl, hrun₁⟩ := extractEl_spec hc hP el (s + 1) s0 (by omega) hw.1 hf.1 hok.1
    obtain ⟨X, s', hX, hrun⟩ := extractL_spec hc hP els s₁ s0 (by omega) hw.2 hf.2 hok.2
    refine ⟨_, s', ExtL.cons hc hP hle hb hwo hat hfl hX, fun new names hn => ?_⟩
    rw [extractL, SM.bind_eq (m := nextName cfg) (s := s) (a := Py.str (cfg.gensym s)) (s₁ := s + 1) rfl, SM.bind_eq hrun₁]
    rw [Dict.set_of_not_mem fun hk => hn _ hk s le_rfl rfl, hrun]
    · simp
    · intro k hk
      rw [Dict.keys_append, List.mem_append] at hk
      rcases hk with hk | hk
      · exact (hn k hk).mono (by omega)
      · rw [Dict.keys_cons, Dict.keys_nil, List.mem_singleton] at hk
        intro n hn e
        rw [hk] at e
        have := hc.inj (Py.str.inj e)
        omega
theorem extractE_spec (hc : ListNames cfg) (hP : ∀ t, P (.str t)) : ∀ (l : List (Py × Py)) (s s0 : ℕ), s0 ≤ s → wfD l → Dict.Nodup l →
    KeysD (FreshName cfg s0) l → ListsOkD l →
    ∃ X s', ExtD cfg P l X s s' ∧ ∀ new, Room cfg l s new → extractE cfg l new s = (.ok (new ++ X), s')
  | [], s, s0, hs, hw, hnd, hf, hok => ⟨[], s, extD_nil s, fun new _ => by simp [extractE, SM.ret]⟩
  | (a, v) :: l, s, s0, hs, hw, hnd, hf, hok => by
    obtain ⟨X, s₁, hX, hrun₁⟩ := extractV_spec hc hP a v s s0 hs hw.1 hf.1.1 hf.1.2 hok.1
    have hle := hX.le
    obtain ⟨Y, s', hY, hrun⟩ := extractE_spec hc hP l s₁ s0 (by omega) hw.2 (Dict.nodup_cons.1 hnd).2 hf.2 hok.2
    have hD := ExtD.append hc hX hY hnd (by
      intro k hk
      obtain ⟨p, hp, rfl⟩ := List.mem_map.1 hk
      exact ((KeysD_iff (l := (a, v) :: l)).1 hf p hp).1.mono hs)
    have ha := (Dict.nodup_cons.1 hnd).1
    refine ⟨X ++ Y, s', hD, fun new hn => ?_⟩
    rw [extractE, SM.bind_eq (hrun₁ new ?_), hrun]
    · simp
    · intro k hk
      rw [Dict.keys_append, List.mem_append] at hk
      rcases hk with hk | hk
      · exact ⟨fun h => (hn k hk).1 (List.mem_cons_of_mem _ h), (hn k hk).2.mono hle⟩
      · rcases hX.keys k hk with hk | ⟨n, e1, e2, e3⟩
        · rw [Dict.keys_cons, Dict.keys_nil, List.mem_singleton] at hk
          exact ⟨hk ▸ ha, hk ▸ hf.1.1.mono (by omega)⟩
        · refine ⟨fun hkl => ?_, fun m hm e => ?_⟩
          · obtain ⟨p, hp, rfl⟩ := List.mem_map.1 hkl
            exact (KeysD_iff.1 hf.2 p hp).1 n (by omega) e3
          · rw [e3] at e
            have := hc.inj (Py.str.inj e)
            omega
    · intro k hk
      refine ⟨fun h => (hn k hk).1 ?_, (hn k hk).2⟩
      rw [Dict.keys_cons, Dict.keys_nil, List.mem_singleton] at h
      rw [h]
      exact List.mem_cons_self
end

end CF
