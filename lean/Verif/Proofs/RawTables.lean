/-
The dicts of the code and the tables of the model.
-/
import Verif.Spec.RawTables
import Verif.Proofs.Sim
import Verif.Proofs.Ecg3
import Verif.Proofs.Cobweb3

set_option linter.unusedSectionVars false

namespace CF
variable {A B V : Type} [DecidableEq A] [DecidableEq B] [DecidableEq V] {key : V}

/-! ### Dicts under a filter on the keys -/

theorem Dict.filter_set {W : Type} (P : V → Bool) (d : Dict V W) (k : V) (x : W) :
    (d.set k x).filter (fun p => P p.1) =
      if P k then Dict.set (d.filter fun p => P p.1) k x else d.filter fun p => P p.1 := by
  induction d with
  | nil => by_cases h : P k <;> simp [Dict.set, h]
  | cons p d ih =>
    obtain ⟨a, b⟩ := p
    by_cases h : a = k
    · subst h
      by_cases h2 : P a <;> simp [Dict.set, h2]
    · by_cases h2 : P a
      · by_cases h3 : P k
        · simp [Dict.set, h, h2, h3, ih]
        · simp [Dict.set, h, h2, h3, ih]
      · by_cases h3 : P k
        · simp [Dict.set, h, h2, h3, ih]
        · simp [Dict.set, h, h2, h3, ih]

theorem Dict.get?_filter {W : Type} (P : V → Bool) (d : Dict V W) {k : V} (hk : P k = true) :
    Dict.get? (d.filter fun p => P p.1) k = Dict.get? d k := by
  induction d with
  | nil => rfl
  | cons p d ih =>
    obtain ⟨a, b⟩ := p
    by_cases h : a = k
    · subst h; simp [Dict.get?, hk]
    · by_cases h2 : P a
      · simp [Dict.get?, h, h2, ih]
      · simp [Dict.get?, h, h2, ih]

theorem Dict.set_mapVal {W W' : Type} (f : W → W') (d : Dict V W) (k : V) (x : W) :
    Dict.set (d.map fun p => (p.1, f p.2)) k (f x) = (d.set k x).map fun p => (p.1, f p.2) := by
  induction d with
  | nil => rfl
  | cons p d ih =>
    obtain ⟨a, b⟩ := p
    by_cases h : a = k
    · simp [Dict.set, h]
    · simp [Dict.set, h, ih]

theorem Encodes.get?_nom {r : RawTab V} {t : Tab V} (h : Encodes key r t) {v : V} (hv : v ≠ key) :
    Dict.get? r v = (t.noms.get? v).map Sum.inl := by
  rw [← Dict.get?_filter (fun k => decide (k ≠ key)) r (k := v) (by simpa using hv), h.noms]
  exact Dict.get?_mapVal _ _ _

theorem Encodes.get?_key {r : RawTab V} {t : Tab V} (h : Encodes key r t) :
    Dict.get? r key = t.cv.map Sum.inr := by
  rw [← Dict.get?_filter (fun k => decide (k = key)) r (k := key) (by simp), h.cv]
  cases t.cv <;> simp [Dict.get?]

theorem Encodes.nom_ne {r : RawTab V} {t : Tab V} (h : Encodes key r t) {v : V} {n : ℕ}
    (hv : (v, n) ∈ t.noms) : v ≠ key := by
  have : (v, (Sum.inl n : Cell)) ∈ t.noms.map fun p => (p.1, (Sum.inl p.2 : Cell)) :=
    List.mem_map.2 ⟨_, hv, rfl⟩
  rw [← h.noms] at this
  simpa using (List.mem_filter.1 this).2

theorem Encodes.nom_key {r : RawTab V} {t : Tab V} (h : Encodes key r t) : t.noms.get? key = none := by
  rw [Dict.get?_eq_none]
  intro hk
  obtain ⟨p, hp, rfl⟩ := List.mem_map.1 hk
  exact h.nom_ne (v := p.1) (n := p.2) hp rfl

theorem Encodes.length {r : RawTab V} {t : Tab V} (h : Encodes key r t) : r.length = t.size := by
  have e : r.length = (r.filter fun p => decide (p.1 ≠ key)).length +
      (r.filter fun p => decide (p.1 = key)).length := by
    rw [List.length_eq_length_filter_add (l := r) (fun p => decide (p.1 ≠ key))]
    congr 2
    exact List.filter_congr fun p _ => by simp
  rw [e, h.noms, h.cv, Tab.size, List.length_map, List.length_map]
  cases t.cv <;> rfl

theorem encodes_empty : Encodes key [] (Tab.empty : Tab V) := ⟨rfl, rfl⟩

theorem Encodes.set_nom {r : RawTab V} {t : Tab V} (h : Encodes key r t) {v : V} (hv : v ≠ key) (n : ℕ) :
    Encodes key (Dict.set r v (.inl n)) { t with noms := t.noms.set v n } where
  noms := by
    rw [Dict.filter_set (fun k => decide (k ≠ key)), if_pos (by simpa using hv), h.noms]
    exact Dict.set_mapVal _ _ _ _
  cv := by
    rw [Dict.filter_set (fun k => decide (k = key)), if_neg (by simpa using hv), h.cv]

theorem Encodes.set_key {r : RawTab V} {t : Tab V} (h : Encodes key r t) (c : CV ℝ) :
    Encodes key (Dict.set r key (.inr c)) { t with cv := some c } where
  noms := by
    rw [Dict.filter_set (fun k => decide (k ≠ key)), if_neg (by simp), h.noms]
  cv := by
    rw [Dict.filter_set (fun k => decide (k = key)), if_pos (by simp), h.cv]
    cases t.cv <;> simp [Dict.set]

/-! ### Attributes -/

/-- The relation between dicts of tables. -/
abbrev EncodesAv (key : V) : Dict A (RawTab V) → Dict A (Tab V) → Prop :=
  List.Forall₂ fun p q => p.1 = q.1 ∧ Encodes key p.2 q.2

theorem EncodesAv.getD {r : Dict A (RawTab V)} {s : Dict A (Tab V)} (h : EncodesAv key r s) (a : A) :
    Encodes key ((r.get? a).getD []) ((s.get? a).getD Tab.empty) := by
  induction h with
  | nil => exact encodes_empty
  | @cons p q r s h _ ih =>
    obtain ⟨b, t⟩ := p
    obtain ⟨b', t'⟩ := q
    obtain ⟨rfl, h⟩ := h
    by_cases hb : b = a
    · simpa [Dict.get?, hb] using h
    · simpa [Dict.get?, hb] using ih

theorem EncodesAv.get? {r : Dict A (RawTab V)} {s : Dict A (Tab V)} (h : EncodesAv key r s) (a : A) :
    (r.get? a = none ∧ s.get? a = none) ∨
      ∃ t t', r.get? a = some t ∧ s.get? a = some t' ∧ Encodes key t t' := by
  induction h with
  | nil => exact .inl ⟨rfl, rfl⟩
  | @cons p q r s h _ ih =>
    obtain ⟨b, t⟩ := p
    obtain ⟨b', t'⟩ := q
    obtain ⟨rfl, h⟩ := h
    by_cases hb : b = a
    · exact .inr ⟨t, t', by simp [Dict.get?, hb], by simp [Dict.get?, hb], h⟩
    · simpa [Dict.get?, hb] using ih

theorem EncodesAv.set {r : Dict A (RawTab V)} {s : Dict A (Tab V)} (h : EncodesAv key r s) (a : A)
    {t : RawTab V} {t' : Tab V} (ht : Encodes key t t') : EncodesAv key (r.set a t) (s.set a t') := by
  induction h with
  | nil => exact .cons ⟨rfl, ht⟩ .nil
  | @cons p q r s h h2 ih =>
    obtain ⟨b, u⟩ := p
    obtain ⟨b', u'⟩ := q
    obtain ⟨rfl, h⟩ := h
    by_cases hb : b = a
    · simp only [Dict.set, hb, if_true]
      exact .cons ⟨rfl, ht⟩ h2
    · simp only [Dict.set, hb, if_false]
      exact .cons ⟨rfl, h⟩ ih

/-! ### The operations -/

theorem rawAdd_ok {r : RawTab V} {t : Tab V} (h : Encodes key r t) {v : Val V} (hv : v ≠ .nom key) :
    ∃ r', RawTab.add key r v = .ok r' ∧ Encodes key r' (t.add v) := by
  cases v with
  | num x =>
    unfold RawTab.add Tab.add
    dsimp only
    rw [h.get?_key]
    cases hc : t.cv with
    | none => exact ⟨_, rfl, h.set_key _⟩
    | some c => exact ⟨_, rfl, h.set_key _⟩
  | nom v =>
    have hv : v ≠ key := fun e => hv (by rw [e])
    unfold RawTab.add Tab.add
    dsimp only
    rw [h.get?_nom hv]
    cases hc : t.noms.get? v with
    | none => exact ⟨_, rfl, h.set_nom hv _⟩
    | some c => exact ⟨_, rfl, h.set_nom hv _⟩

theorem rawIncrLoop_ok {r : Dict A (RawTab V)} {s : Dict A (Tab V)} (h : EncodesAv key r s) {i : Inst3 A V}
    (hi : Avoids key i) : ∃ r', rawIncrLoop key r i = .ok r' ∧
      EncodesAv key r' (s.updAll (fun t v => (t.getD Tab.empty).add v) i) := by
  induction i generalizing r s with
  | nil => exact ⟨r, rfl, h⟩
  | cons p i ih =>
    obtain ⟨a, v⟩ := p
    obtain ⟨t, h1, h2⟩ := rawAdd_ok (h.getD a) (hi (a, v) (by simp))
    obtain ⟨r', h3, h4⟩ := ih (h.set a h2) fun q hq => hi q (by simp [hq])
    refine ⟨r', ?_, h4⟩
    rw [rawIncrLoop, h1]
    exact h3

theorem rawIncr_ok {r : RawStats A V} {s : Stats3 A V} (h : EncodesAll key r s) {i : Inst3 A V}
    (hi : Avoids key i) : ∃ r', r.incr key i = .ok r' ∧ EncodesAll key r' (s.incr i) := by
  obtain ⟨av, h1, h2⟩ := rawIncrLoop_ok h.av hi
  refine ⟨⟨r.count + 1, av⟩, ?_, by rw [h.count]; rfl, h2⟩
  rw [RawStats.incr, h1]
  rfl

/-- The dict with one entry less. -/
theorem Encodes.cases {v : V} {x : Cell} {r : RawTab V} {t : Tab V} (h : Encodes key ((v, x) :: r) t) :
    (v = key ∧ ∃ c, x = .inr c ∧ t.cv = some c ∧ Encodes key r ⟨t.noms, none⟩) ∨
      (v ≠ key ∧ ∃ n l, x = .inl n ∧ t.noms = (v, n) :: l ∧ Encodes key r ⟨l, t.cv⟩) := by
  obtain ⟨h1, h2⟩ := h
  by_cases hv : v = key
  · left
    refine ⟨hv, ?_⟩
    rw [List.filter_cons_of_neg (by simpa using hv)] at h1
    rw [List.filter_cons_of_pos (by simpa using hv)] at h2
    cases hc : t.cv with
    | none => rw [hc] at h2; cases h2
    | some c =>
      rw [hc] at h2
      simp only [Option.toList_some, List.map_cons, List.map_nil, List.cons.injEq, Prod.mk.injEq] at h2
      exact ⟨c, h2.1.2, rfl, h1, h2.2⟩
  · right
    refine ⟨hv, ?_⟩
    rw [List.filter_cons_of_pos (by simpa using hv)] at h1
    rw [List.filter_cons_of_neg (by simpa using hv)] at h2
    obtain ⟨noms, cv⟩ := t
    cases noms with
    | nil => cases h1
    | cons p l =>
      obtain ⟨w, n⟩ := p
      simp only [List.map_cons, List.cons.injEq, Prod.mk.injEq] at h1
      obtain ⟨⟨rfl, rfl⟩, h1⟩ := h1
      exact ⟨n, l, rfl, rfl, h1, h2⟩

theorem rawMerge_ok {rn : RawTab V} {tn : Tab V} (hn : Encodes key rn tn)
    (hpos : ∀ d, tn.cv = some d → d.num ≠ 0) {r : RawTab V} {t : Tab V} (h : Encodes key r t) :
    ∃ r', RawTab.merge key r rn = .ok r' ∧ Encodes key r' (t.merge tn) := by
  induction rn generalizing tn r t with
  | nil =>
    obtain ⟨noms, cv⟩ := tn
    have e1 : noms = [] := by
      have := hn.noms
      simpa using this.symm
    have e2 : cv = none := by
      have := hn.cv
      cases cv with
      | none => rfl
      | some c => cases this
    subst e1 e2
    exact ⟨r, rfl, h⟩
  | cons p rn ih =>
    obtain ⟨v, x⟩ := p
    rcases hn.cases with ⟨rfl, d, rfl, h1, h2⟩ | ⟨hv, n, l, rfl, h1, h2⟩
    · have hd := hpos d h1
      have hone : RawTab.mergeOne v r v (.inr d) =
          .ok (Dict.set r v (.inr ((t.cv.getD CV.fresh).join d))) := by
        unfold RawTab.mergeOne
        rw [if_pos rfl, h.get?_key]
        have hc : ∀ c : CV ℝ, c.combine d = .ok (c.join d) := fun c => combine_eq (by
          exact_mod_cast (by omega : c.num + d.num ≠ 0))
        cases t.cv with
        | none =>
          show (CV.combine CV.fresh d >>= _) = _
          rw [hc]; rfl
        | some c =>
          show (CV.combine c d >>= _) = _
          rw [hc]; rfl
      obtain ⟨r', h3, h4⟩ := ih h2 (fun _ hd => by cases hd) (h.set_key ((t.cv.getD CV.fresh).join d))
      refine ⟨r', ?_, ?_⟩
      · rw [RawTab.merge, hone]
        exact h3
      · unfold Tab.merge at h4 ⊢
        rw [h1]
        exact h4
    · have hone : RawTab.mergeOne key r v (.inl n) =
          .ok (Dict.set r v (.inl ((t.noms.get? v).getD 0 + n))) := by
        unfold RawTab.mergeOne
        rw [if_neg hv, h.get?_nom hv]
        cases t.noms.get? v <;> rfl
      obtain ⟨r', h3, h4⟩ := ih h2 hpos (h.set_nom hv ((t.noms.get? v).getD 0 + n))
      refine ⟨r', ?_, ?_⟩
      · rw [RawTab.merge, hone]
        exact h3
      · unfold Tab.merge at h4 ⊢
        rw [h1, Dict.updAll_cons]
        exact h4

theorem rawMergeLoop_ok {rn : Dict A (RawTab V)} {sn : Dict A (Tab V)} (hn : EncodesAv key rn sn)
    (hpos : ∀ p ∈ sn, ∀ d, p.2.cv = some d → d.num ≠ 0) {r : Dict A (RawTab V)} {s : Dict A (Tab V)}
    (h : EncodesAv key r s) : ∃ r', rawMergeLoop key r rn = .ok r' ∧
      EncodesAv key r' (s.updAll (fun t tn => (t.getD Tab.empty).merge tn) sn) := by
  induction hn generalizing r s with
  | nil => exact ⟨r, rfl, h⟩
  | @cons p q rn sn hp _ ih =>
    obtain ⟨a, t⟩ := p
    obtain ⟨a', t'⟩ := q
    obtain ⟨rfl, hp⟩ := hp
    obtain ⟨u, h1, h2⟩ := rawMerge_ok hp (hpos (_, t') (by simp)) (h.getD _)
    obtain ⟨r', h3, h4⟩ := ih (fun q hq => hpos q (by simp [hq])) (h.set _ h2)
    refine ⟨r', ?_, h4⟩
    rw [rawMergeLoop, h1]
    exact h3

theorem Summarizes3.get_mem {s : Stats3 A V} {m : Multiset (Inst3 A V)} (h : Summarizes3 s m)
    {p : A × Tab V} (hp : p ∈ s.av) : s.av.get? p.1 = some p.2 := Dict.get?_of_mem h.nodup.1 hp

theorem Summarizes3.cv_pos {s : Stats3 A V} {m : Multiset (Inst3 A V)} (h : Summarizes3 s m)
    {p : A × Tab V} (hp : p ∈ s.av) {d : CV ℝ} (hd : p.2.cv = some d) : ∃ l, l ≠ 0 ∧ d.Obs l := by
  have e : s.cvOf p.1 = some d := by rw [Stats3.cvOf, h.get_mem hp]; exact hd
  rcases h.cv p.1 with ⟨-, h1⟩ | ⟨h0, c, h1, h2⟩
  · rw [e] at h1; cases h1
  · rw [e] at h1; cases h1; exact ⟨_, h0, h2⟩

theorem rawAddFrom_ok {r n : RawStats A V} {s u : Stats3 A V} {m : Multiset (Inst3 A V)}
    (hm : Summarizes3 u m) (h : EncodesAll key r s) (hn : EncodesAll key n u) :
    ∃ r', r.addFrom key n = .ok r' ∧ EncodesAll key r' (s.addFrom u) := by
  obtain ⟨av, h1, h2⟩ := rawMergeLoop_ok hn.av (fun p hp d hd => by
    obtain ⟨l, h0, h1⟩ := hm.cv_pos hp hd
    rw [h1.num]
    simpa using h0) h.av
  refine ⟨⟨r.count + n.count, av⟩, ?_, by rw [h.count, hn.count]; rfl, h2⟩
  rw [RawStats.addFrom, h1]
  rfl

/-! ### The test for an exact match -/

theorem rawMatches_ok {r : RawTab V} {t : Tab V} (h : Encodes key r t)
    (hstd : ∀ c, t.cv = some c → ∃ x, c.unbiasedStd = .ok x) (n : ℕ) {v : Val V} (hv : v ≠ .nom key) :
    RawTab.matches key n r v = .ok (t.matches n v) := by
  cases v with
  | num x =>
    unfold RawTab.matches Tab.matches
    dsimp only
    rw [h.get?_key, h.length]
    cases hc : t.cv with
    | none => rfl
    | some c =>
      obtain ⟨y, hy⟩ := hstd c hc
      simp only [Option.map_some]
      split
      · rfl
      · rw [hy]
        show (if ¬ y = 0 then _ else _) = _
        by_cases h0 : y = 0
        · subst h0
          by_cases h1 : c.unbiasedMean = x
          · simp [h1]; rfl
          · simp [h1]; rfl
        · simp [h0]; rfl
  | nom v =>
    have hv : v ≠ key := fun e => hv (by rw [e])
    unfold RawTab.matches Tab.matches
    dsimp only
    rw [h.get?_nom hv]
    cases t.noms.get? v <;> rfl

/-- What the test on one attribute answers. -/
noncomputable def rawAttrOk (hid : A → Bool) (s : Stats3 A V) (i : Inst3 A V) (a : A) : Bool :=
  hid a || match Dict.get? i a, s.av.get? a with
    | some v, some t => t.matches s.count v
    | none, none => true
    | _, _ => false

theorem rawMatchesAttr_ok {hid : A → Bool} {r : RawStats A V} {s : Stats3 A V} {m : Multiset (Inst3 A V)}
    (hm : Summarizes3 s m) (h : EncodesAll key r s) {i : Inst3 A V} (hi : Avoids key i) (a : A) :
    r.matchesAttr key hid i a = .ok (rawAttrOk hid s i a) := by
  unfold RawStats.matchesAttr rawAttrOk
  by_cases hh : hid a = true
  · rw [if_pos hh, hh]; rfl
  · rw [if_neg hh]
    have hh : hid a = false := by simpa using hh
    rw [hh, Bool.false_or]
    rcases EncodesAv.get? h.av a with ⟨h1, h2⟩ | ⟨t, t', h1, h2, h3⟩
    · rw [h1, h2]
      cases Dict.get? i a <;> rfl
    · rw [h1, h2, h.count]
      cases hg : Dict.get? i a with
      | none => rfl
      | some v =>
        refine rawMatches_ok h3 (fun c hc => ?_) _ (hi _ (Dict.mem_of_get? hg))
        obtain ⟨l, -, h4⟩ := hm.cv_pos (Dict.mem_of_get? h2) hc
        exact ⟨_, unbiasedStd_eq h4⟩

theorem rawIsExact_loop {hid : A → Bool} {r : RawStats A V} {s : Stats3 A V} {m : Multiset (Inst3 A V)}
    (hm : Summarizes3 s m) (h : EncodesAll key r s) {i : Inst3 A V} (hi : Avoids key i) (as : List A) :
    r.isExact key hid i as = .ok (as.all (rawAttrOk hid s i)) := by
  induction as with
  | nil => rfl
  | cons a as ih =>
    rw [RawStats.isExact, rawMatchesAttr_ok hm h hi]
    show (if rawAttrOk hid s i a = true then _ else _) = _
    cases hb : rawAttrOk hid s i a with
    | true => simp [hb, ih]
    | false => simp [hb]; rfl

theorem isExact_iff_rawAttrOk {hid : A → Bool} {s : Stats3 A V} (hs : s.av.Nodup) {i : Inst3 A V}
    (hi : Dict.Nodup i) {as : List A}
    (has : ∀ a, a ∈ as ↔ a ∈ Dict.keys i ∨ (a ∈ s.av.keys ∧ hid a = false)) :
    as.all (rawAttrOk hid s i) = s.isExact hid i := by
  rw [Bool.eq_iff_iff, Stats3.isExact]
  simp only [List.all_eq_true, Bool.and_eq_true, Bool.or_eq_true]
  constructor
  · intro h
    refine ⟨fun p hp => ?_, fun p hp => ?_⟩
    · have h1 := h p.1 ((has p.1).2 (.inl (List.mem_map.2 ⟨p, hp, rfl⟩)))
      rw [rawAttrOk, Dict.get?_of_mem hi (k := p.1) (v := p.2) hp] at h1
      by_cases hh : hid p.1 = true
      · exact .inl hh
      · right
        rw [show hid p.1 = false by simpa using hh, Bool.false_or] at h1
        cases hg : s.av.get? p.1 with
        | none => rw [hg] at h1; cases h1
        | some t => rw [hg] at h1; exact h1
    · by_cases hh : hid p.1 = true
      · exact .inl hh
      · right
        have hh : hid p.1 = false := by simpa using hh
        have h1 := h p.1 ((has p.1).2 (.inr ⟨List.mem_map.2 ⟨p, hp, rfl⟩, hh⟩))
        rw [rawAttrOk, hh, Bool.false_or, Dict.get?_of_mem hs (k := p.1) (v := p.2) hp] at h1
        unfold Dict.has
        cases hg : Dict.get? i p.1 with
        | none => rw [hg] at h1; cases h1
        | some v => rfl
  · rintro ⟨h1, h2⟩ a ha
    rw [rawAttrOk]
    by_cases hh : hid a = true
    · rw [hh]; rfl
    · have hh : hid a = false := by simpa using hh
      rw [hh, Bool.false_or]
      cases hg : Dict.get? i a with
      | some v =>
        have := h1 (a, v) (Dict.mem_of_get? hg)
        simp only [hh, Bool.false_eq_true, false_or] at this
        cases hs' : s.av.get? a with
        | none => rw [hs'] at this; cases this
        | some t => rw [hs'] at this; exact this
      | none =>
        have hk : a ∉ Dict.keys i := Dict.get?_eq_none.1 hg
        rcases (has a).1 ha with h | ⟨h, -⟩
        · exact absurd h hk
        · obtain ⟨p, hp, rfl⟩ := List.mem_map.1 h
          have := h2 p hp
          rw [hh] at this
          simp only [Bool.false_eq_true, false_or] at this
          exact absurd (Dict.has_iff.1 this) hk

/-! ### Expected correct guesses -/

theorem rawCellLoop_eq {cfg : Cfg3 A B} {sc : Scales B} {n : ℕ} (hn : (n : ℝ) ≠ 0) (a : A) {r : RawTab V}
    {t : Tab V} (h : Encodes key r t) (acc : ℝ) : rawCellLoop key cfg sc n a r acc =
      (sqLoop n (t.noms.map Prod.snd) acc >>= cvPart cfg sc n a t.cv) := by
  induction r generalizing t acc with
  | nil =>
    obtain ⟨noms, cv⟩ := t
    have e1 : noms = [] := by simpa using h.noms.symm
    have e2 : cv = none := by
      have := h.cv
      cases cv with
      | none => rfl
      | some c => cases this
    subst e1 e2
    rfl
  | cons p r ih =>
    obtain ⟨v, x⟩ := p
    rcases h.cases with ⟨rfl, c, rfl, h1, h2⟩ | ⟨hv, k, l, rfl, h1, h2⟩
    · rw [rawCellLoop, rawCell, if_pos rfl, h1, sqLoop_eq hn]
      show _ = (ecgScale cfg sc a >>= fun scale => cvTerm n scale c >>= fun x => pure _)
      rw [bind_assoc]
      cases ecgScale cfg sc a with
      | error e => rfl
      | ok scale =>
        show (cvTerm n scale c >>= _) = (cvTerm n scale c >>= _)
        cases cvTerm n scale c with
        | error e => rfl
        | ok x =>
          show rawCellLoop v cfg sc n a r (acc + x) = _
          rw [ih h2, sqLoop_eq hn]
          show (Except.ok _ : Res ℝ) = .ok _
          congr 1
          ring
    · rw [rawCellLoop, rawCell, if_neg hv, h1, List.map_cons, sqLoop]
      dsimp only
      unfold pyDiv
      rw [if_neg hn]
      show rawCellLoop key cfg sc n a r _ = _
      rw [ih h2]
      rfl

theorem rawEcgLoop_eq {cfg : Cfg3 A B} {sc : Scales B} {n : ℕ} (hn : (n : ℝ) ≠ 0) {r : Dict A (RawTab V)}
    {s : Dict A (Tab V)} (h : EncodesAv key r s) (acc : ℝ) :
    rawEcgLoop key cfg sc n r acc = ecgLoop3 cfg sc n s acc := by
  induction h generalizing acc with
  | nil => rfl
  | @cons p q r s hp _ ih =>
    obtain ⟨a, t⟩ := p
    obtain ⟨a', t'⟩ := q
    obtain ⟨rfl, hp⟩ := hp
    rw [rawEcgLoop, ecgLoop3, rawCellLoop_eq hn _ hp, bind_assoc]
    refine bind_congr fun x => bind_congr fun y => ih _

theorem EncodesAv.filter {r : Dict A (RawTab V)} {s : Dict A (Tab V)} (h : EncodesAv key r s) (P : A → Bool) :
    EncodesAv key (r.filter fun p => P p.1) (s.filter fun p => P p.1) := by
  induction h with
  | nil => exact .nil
  | @cons p q r s hp _ ih =>
    obtain ⟨a, t⟩ := p
    obtain ⟨a', t'⟩ := q
    obtain ⟨rfl, hp⟩ := hp
    by_cases hP : P a
    · simp only [List.filter_cons, hP, if_true]
      exact .cons ⟨rfl, hp⟩ ih
    · simp only [List.filter_cons, hP]
      exact ih

theorem rawEcg_eq {hid : A → Bool} {cfg : Cfg3 A B} {sc : Scales B} {r : RawStats A V} {s : Stats3 A V}
    {m : Multiset (Inst3 A V)} (hm : Summarizes3 s m) (h : EncodesAll key r s) :
    r.ecg key hid cfg sc = s.ecg hid cfg sc := by
  have hf : EncodesAv key (r.av.filter fun p => !hid p.1) (s.visible hid) := EncodesAv.filter h.av fun a => !hid a
  rw [RawStats.ecg, Stats3.ecg, hf.length_eq, h.count]
  by_cases h0 : (s.count : ℝ) = 0
  · have : m = 0 := by
      rw [← Multiset.card_eq_zero, ← hm.count]
      exact_mod_cast h0
    have h1 : s.av = [] := by
      rw [List.eq_nil_iff_forall_not_mem]
      intro p hp
      obtain ⟨i, hi, -⟩ := (hm.attrs p.1).1 (List.mem_map.2 ⟨p, hp, rfl⟩)
      rw [this] at hi
      exact absurd hi (Multiset.notMem_zero _)
    have h2 : s.visible hid = [] := by rw [Stats3.visible, h1]; rfl
    have h3 : r.av.filter (fun p => !hid p.1) = [] := by
      have := hf.length_eq
      rw [h2] at this
      exact List.length_eq_zero_iff.1 this
    rw [h2, h3]
    rfl
  · rw [rawEcgLoop_eq h0 hf]

/-! ### Reading a table -/

theorem rawTotal_eq {r : RawTab V} {t : Tab V} (h : Encodes key r t) : rawTotal key r = .ok t.total := by
  induction r generalizing t with
  | nil =>
    obtain ⟨noms, cv⟩ := t
    have e1 : noms = [] := by simpa using h.noms.symm
    have e2 : cv = none := by
      have := h.cv
      cases cv with
      | none => rfl
      | some c => cases this
    subst e1 e2
    rfl
  | cons p r ih =>
    obtain ⟨v, x⟩ := p
    rcases h.cases with ⟨rfl, c, rfl, h1, h2⟩ | ⟨hv, k, l, rfl, h1, h2⟩
    · rw [rawTotal, rawCount, if_pos rfl, ih h2]
      show (Except.ok _ : Res ℕ) = .ok _
      congr 1
      simp [Tab.total, Tab.entries, h1]
      omega
    · rw [rawTotal, rawCount, if_neg hv, ih h2]
      show (Except.ok _ : Res ℕ) = .ok _
      congr 1
      simp [Tab.total, Tab.entries, h1]

theorem rawWeightLoop_eq {n : ℕ} (hn : (n : ℝ) ≠ 0) {r : RawTab V} {t : Tab V} (h : Encodes key r t) :
    ∃ ws, rawWeightLoop key n r = .ok (ws, t.total) ∧
      ws.Perm (t.entries.map fun p => (p.1.getD key, (p.2 : ℝ) / (n : ℝ))) := by
  induction r generalizing t with
  | nil =>
    obtain ⟨noms, cv⟩ := t
    have e1 : noms = [] := by simpa using h.noms.symm
    have e2 : cv = none := by
      have := h.cv
      cases cv with
      | none => rfl
      | some c => cases this
    subst e1 e2
    exact ⟨[], rfl, .nil⟩
  | cons p r ih =>
    obtain ⟨v, x⟩ := p
    rcases h.cases with ⟨rfl, c, rfl, h1, h2⟩ | ⟨hv, k, l, rfl, h1, h2⟩
    · obtain ⟨ws, h3, h4⟩ := ih h2
      refine ⟨(v, (c.num : ℝ) / n) :: ws, ?_, ?_⟩
      · rw [rawWeightLoop, rawCount, if_pos rfl, h3]
        simp only [ok_bind, pyDiv, if_neg hn]
        show (Except.ok _ : Res _) = .ok _
        congr 2
        simp [Tab.total, Tab.entries, h1]
        omega
      · refine (List.Perm.cons _ h4).trans ?_
        simp only [Tab.entries, h1, List.append_nil, List.map_append, List.map_cons, List.map_nil,
          Option.getD_none]
        exact (List.perm_append_singleton _ _).symm
    · obtain ⟨ws, h3, h4⟩ := ih h2
      refine ⟨(v, (k : ℝ) / n) :: ws, ?_, ?_⟩
      · rw [rawWeightLoop, rawCount, if_neg hv, h3]
        simp only [ok_bind, pyDiv, if_neg hn]
        show (Except.ok _ : Res _) = .ok _
        congr 2
        simp [Tab.total, Tab.entries, h1]
      · refine (List.Perm.cons _ h4).trans ?_
        simp [Tab.entries, h1]

/-! ### Trees -/

mutual
theorem settle_unsettle {S : Type} : ∀ t : Tree S, settle (unsettle t) = .ok t
  | .node id s cs => by
    rw [unsettle, settle, settleL_unsettleL cs]
    rfl
theorem settleL_unsettleL {S : Type} : ∀ cs : List (Tree S), settleL (unsettleL cs) = .ok cs
  | [] => rfl
  | c :: cs => by
    rw [unsettleL, settleL, settle_unsettle c, settleL_unsettleL cs]
    rfl
end

/-- The table is the right one and not an exception. -/
def GoodTab (key : V) (s : Stats3 A V) (q : Res (RawStats A V)) : Prop :=
  (∃ m, Summarizes3 s m) ∧ ∃ r, q = .ok r ∧ EncodesAll key r s

mutual
theorem settle_good {key : V} : ∀ {t : Tree (Stats3 A V)} {q : Tree (Res (RawStats A V))},
    TRel (GoodTab key) t q → ∃ u, settle q = .ok u ∧ TRel (fun s r => EncodesAll key r s) t u ∧
      q = unsettle u
  | .node id s cs, _, .node (s' := s') (cs' := cs') hs hcs => by
    obtain ⟨-, r, rfl, h2⟩ := hs
    obtain ⟨us, h3, h4, h5⟩ := settleL_good hcs
    refine ⟨.node id r us, ?_, .node h2 h4, by rw [h5]; rfl⟩
    rw [settle, h3]
    rfl
theorem settleL_good {key : V} : ∀ {ts : List (Tree (Stats3 A V))} {qs : List (Tree (Res (RawStats A V)))},
    TRelL (GoodTab key) ts qs → ∃ us, settleL qs = .ok us ∧ TRelL (fun s r => EncodesAll key r s) ts us ∧
      qs = unsettleL us
  | [], _, .nil => ⟨[], rfl, .nil, rfl⟩
  | t :: ts, _, .cons h hs => by
    obtain ⟨u, h1, h2, h3⟩ := settle_good h
    obtain ⟨us, h4, h5, h6⟩ := settleL_good hs
    refine ⟨u :: us, ?_, .cons h2 h5, by rw [h3, h6]; rfl⟩
    rw [settleL, h1, h4]
    rfl
end

theorem EncodesAv.keys {r : Dict A (RawTab V)} {s : Dict A (Tab V)} (h : EncodesAv key r s) :
    r.keys = s.keys := by
  induction h with
  | nil => rfl
  | cons h _ ih => rw [Dict.keys_cons, Dict.keys_cons, h.1, ih]

theorem sim_raw {hid : A → Bool} {ord : RawStats A V → Inst3 A V → List A} (hord : UnionOrder hid ord) :
    Sim (cobweb3Class hid) (rawClass key hid ord) (fun i j => i = j ∧ Dict.Nodup i ∧ Avoids key i)
      (GoodTab (A := A) key) where
  fresh := ⟨⟨0, summarizes3_fresh⟩, _, rfl, rfl, .nil⟩
  incr := by
    rintro s _ i _ ⟨⟨m, hm⟩, r, rfl, h⟩ ⟨rfl, hi, ha⟩
    obtain ⟨r', h1, h2⟩ := rawIncr_ok h ha
    exact ⟨⟨_, summarizes3_incr hm hi⟩, r', h1, h2⟩
  add := by
    rintro s _ u _ ⟨⟨m, hm⟩, r, rfl, h⟩ ⟨⟨k, hk⟩, n, rfl, hn⟩
    obtain ⟨r', h1, h2⟩ := rawAddFrom_ok hk h hn
    exact ⟨⟨_, summarizes3_add hm hk⟩, r', h1, h2⟩
  count := by
    rintro s _ ⟨-, r, rfl, h⟩
    exact h.count.symm
  exact := by
    rintro s _ i _ ⟨⟨m, hm⟩, r, rfl, h⟩ ⟨rfl, hi, ha⟩ -
    show s.isExact hid i = match r.isExact key hid i (ord r i) with | .ok b => b | .error _ => false
    rw [rawIsExact_loop hm h ha, isExact_iff_rawAttrOk hm.nodup.1 hi]
    intro a
    rw [hord, EncodesAv.keys h.av]

theorem scores_raw {hid : A → Bool} {cfg : Cfg3 A B} {sc : Scales B} :
    SameScores (RingHom.id ℝ) (GoodTab (A := A) key) (Stats3.ecg hid cfg sc)
      (fun q => q >>= fun s => s.ecg key hid cfg sc) := by
  rintro s _ ⟨⟨m, hm⟩, r, rfl, h⟩
  show r.ecg key hid cfg sc = _
  rw [rawEcg_eq hm h]
  cases Stats3.ecg hid cfg sc s <;> rfl

end CF
