/-
Reading the dicts of `Verif.Model.RawTables`: for the proofs of C105.
-/
import Verif.Spec.RawRead
import Verif.Proofs.RawTables
import Verif.Props.RawTables
import Verif.Props.Cobweb3Predict
import Verif.Props.Cobweb3Likelihood

set_option linter.unusedSectionVars false

namespace CF
variable {A B V : Type} [DecidableEq A] [DecidableEq B] [DecidableEq V] {key : V} {hid : A → Bool}
  {ord : RawStats A V → Inst3 A V → List A} {cfg : Cfg3 A B}

theorem kind_inj (key : V) : Function.Injective (kind key) := by
  intro u v h
  unfold kind at h
  split_ifs at h with h1 h2 h2
  · rw [h1, h2]
  · exact Option.some.inj h

theorem kind_self (key : V) : kind key key = none := if_pos rfl
theorem kind_ne {v : V} (h : v ≠ key) : kind key v = some v := if_neg h

/-- The number of occurrences recorded in a cell. -/
def Cell.num : Cell → ℕ
  | .inl n => n
  | .inr c => CV.num c

theorem Encodes.entries_perm {r : RawTab V} {t : Tab V} (h : Encodes key r t) :
    (r.map fun p => (kind key p.1, Cell.num p.2)).Perm t.entries := by
  induction r generalizing t with
  | nil =>
    obtain ⟨noms, cv⟩ := t
    have e1 : noms = [] := by simpa using h.noms.symm
    have e2 : cv = none := by
      have := h.cv
      cases cv with
      | none => rfl
      | some c => cases this
    subst e1 e2
    exact .nil
  | cons p r ih =>
    obtain ⟨v, x⟩ := p
    rcases h.cases with ⟨rfl, c, rfl, h1, h2⟩ | ⟨hv, k, l, rfl, h1, h2⟩
    · refine ((ih h2).cons _).trans ?_
      simp only [Tab.entries, h1, List.append_nil, kind_self]
      exact (List.perm_append_singleton _ _).symm
    · refine ((ih h2).cons _).trans ?_
      simp only [Tab.entries, h1, kind_ne hv, List.map_cons, List.cons_append]
      exact .refl _

theorem Encodes.rawWeightLoop {n : ℕ} (hn : (n : ℝ) ≠ 0) {r : RawTab V} {t : Tab V} (h : Encodes key r t) :
    rawWeightLoop key n r = .ok (r.map fun p => (p.1, (Cell.num p.2 : ℝ) / n), t.total) := by
  induction r generalizing t with
  | nil =>
    obtain ⟨noms, cv⟩ := t
    have e1 : noms = [] := by simpa using h.noms.symm
    have e2 : cv = none := by
      have := h.cv
      cases cv with
      | none => rfl
      | some c => cases this
    subst e1 e2
    rfl
  | cons p r ih =>
    obtain ⟨v, x⟩ := p
    rcases h.cases with ⟨rfl, c, rfl, h1, h2⟩ | ⟨hv, k, l, rfl, h1, h2⟩
    · rw [CF.rawWeightLoop, rawCount, if_pos rfl, ih h2]
      simp only [ok_bind, pyDiv, if_neg hn]
      show (Except.ok _ : Res _) = .ok _
      congr 2
      simp [Tab.total, Tab.entries, h1]
      omega
    · rw [CF.rawWeightLoop, rawCount, if_neg hv, ih h2]
      simp only [ok_bind, pyDiv, if_neg hn]
      show (Except.ok _ : Res _) = .ok _
      congr 2
      simp [Tab.total, Tab.entries, h1]

theorem EncodesAll.keysOf_perm {r : RawStats A V} {s : Stats3 A V} (h : EncodesAll key r s) (a : A) :
    ((r.keysOf a).map (kind key)).Perm (s.keysOf a) := by
  unfold RawStats.keysOf Stats3.keysOf
  rcases EncodesAv.get? h.av a with ⟨h1, h2⟩ | ⟨t, t', h1, h2, h3⟩
  · simp [h1, h2]
  · simp only [h1, h2]
    have := h3.entries_perm.map Prod.fst
    rw [List.map_map] at this
    simpa [Dict.keys, Function.comp_def] using this

theorem EncodesAll.cell_key {r : RawStats A V} {s : Stats3 A V} (h : EncodesAll key r s) (a : A) :
    r.cell a key = (s.cvOf a).map .inr := by
  unfold RawStats.cell Stats3.cvOf
  rcases EncodesAv.get? h.av a with ⟨h1, h2⟩ | ⟨t, t', h1, h2, h3⟩
  · simp [h1, h2]
  · simp [h1, h2, h3.get?_key]

theorem EncodesAll.cell_nom {r : RawStats A V} {s : Stats3 A V} (h : EncodesAll key r s) (a : A) {v : V}
    (hv : v ≠ key) : r.cell a v = (s.nomLookup a v).map .inl := by
  unfold RawStats.cell Stats3.nomLookup
  rcases EncodesAv.get? h.av a with ⟨h1, h2⟩ | ⟨t, t', h1, h2, h3⟩
  · simp [h1, h2]
  · simp [h1, h2, h3.get?_nom hv]

theorem EncodesAv.mem {r : Dict A (RawTab V)} {s : Dict A (Tab V)} (h : EncodesAv key r s) {p : A × RawTab V}
    (hp : p ∈ r) : ∃ t, (p.1, t) ∈ s ∧ Encodes key p.2 t := by
  induction h with
  | nil => cases hp
  | @cons q q' r s h _ ih =>
    rcases List.mem_cons.1 hp with rfl | hp
    · exact ⟨q'.2, by rw [h.1]; simp, h.2⟩
    · obtain ⟨t, h1, h2⟩ := ih hp
      exact ⟨t, by simp [h1], h2⟩

theorem Encodes.nodup {r : RawTab V} {t : Tab V} (h : Encodes key r t) (ht : Dict.Nodup t.noms) : Dict.Nodup r := by
  have h1 := h.entries_perm.map Prod.fst
  rw [List.map_map] at h1
  have h2 : (t.entries.map Prod.fst).Nodup := by
    have e : t.entries.map Prod.fst = (Dict.keys t.noms).map some ++ (t.cv.toList.map fun _ => none) := by
      cases hc : t.cv <;> simp [Tab.entries, Dict.keys, hc, Function.comp_def]
    rw [e, List.nodup_append]
    refine ⟨List.Nodup.map (Option.some_injective _) ht, by cases t.cv <;> simp, ?_⟩
    rintro x hx y hy rfl
    obtain ⟨z, -, rfl⟩ := List.mem_map.1 hx
    obtain ⟨c, -, e⟩ := List.mem_map.1 hy
    cases e
  have h3 := h1.nodup_iff.2 h2
  have e : (Prod.fst ∘ fun p : V × Cell => (kind key p.1, Cell.num p.2)) = kind key ∘ Prod.fst := rfl
  rw [e, ← List.map_map] at h3
  exact List.Nodup.of_map _ h3

/-- A table that summarizes, as a dict. -/
theorem rawSums_of {r : RawStats A V} {s : Stats3 A V} {m : Multiset (Inst3 A V)} (he : EncodesAll key r s)
    (hs : Summarizes3 s m) : RawSums key r m where
  count := he.count.trans hs.count
  noms a v hv := by rw [he.cell_nom a hv, hs.noms]; split_ifs <;> rfl
  cv a := by
    rw [he.cell_key]
    rcases hs.cv a with ⟨h1, h2⟩ | ⟨h1, c, h2, h3⟩
    · exact .inl ⟨h1, by rw [h2]; rfl⟩
    · exact .inr ⟨h1, c, by rw [h2]; rfl, h3⟩
  attrs a := by rw [EncodesAv.keys he.av]; exact hs.attrs a
  nodup := by
    refine ⟨by unfold Dict.Nodup; rw [EncodesAv.keys he.av]; exact hs.nodup.1, fun p hp => ?_⟩
    obtain ⟨t, h1, h2⟩ := EncodesAv.mem he.av hp
    exact h2.nodup (hs.nodup.2 _ h1)

theorem reachRaw_reach3 (hord : UnionOrder hid ord) {u : RawState A B V} {hist : List (Inst3 A V)} {n : ℕ}
    (h : ReachRaw key hid ord cfg u hist n) : ∃ st, Reach3 hid cfg st hist n ∧ st.scales = u.scales ∧
      TRel (GoodTab key) st.root (unsettle u.root) ∧ TRel (fun s r => EncodesAll key r s) st.root u.root := by
  induction h with
  | init w => exact ⟨_, .init w, rfl, .node ⟨⟨0, summarizes3_fresh⟩, _, rfl, rfl, .nil⟩ .nil, .node ⟨rfl, .nil⟩ .nil⟩
  | @step u hist n i w u' leaf w' _ hi ha hn hr ih =>
    obtain ⟨st, h1, h2, h3, -⟩ := ih
    have h4 := rawIfit_sim (cfg := cfg) hord h3 st.scales hi ha w
    have e : (⟨u.root, st.scales⟩ : RawState A B V) = u := by rw [h2]
    rw [e, hr] at h4
    have e' : (⟨st.root, st.scales⟩ : State3 A B V) = st := rfl
    rw [e'] at h4
    generalize hq : ifit3 hid cfg st i w = q at h4
    cases h4 with
    | ok h5 =>
      obtain ⟨k1, k2, k3, -, k5⟩ := h5
      dsimp only at k5
      refine ⟨_, k5 ▸ Reach3.step h1 hi hn hq, k3, k1, k2⟩

theorem forall₂_mem_right {α β : Type} {R : α → β → Prop} {l : List α} {k : List β} (h : List.Forall₂ R l k) {b : β}
    (hb : b ∈ k) : ∃ a ∈ l, R a b := by
  induction h with
  | nil => cases hb
  | cons h1 _ ih =>
    rcases List.mem_cons.1 hb with rfl | hb
    · exact ⟨_, by simp, h1⟩
    · obtain ⟨a, ha, h2⟩ := ih hb
      exact ⟨a, by simp [ha], h2⟩

section
variable {r : RawStats A V} {s : Stats3 A V} {m : Multiset (Inst3 A V)}

theorem mem_cell_share (he : EncodesAll key r s) (hs : Summarizes3 s m) {a : A} {t : RawTab V} {t' : Tab V}
    (hg : s.av.get? a = some t') (h3 : Encodes key t t') {p : V × Cell} (hp : p ∈ t) :
    (Cell.num p.2 : ℝ) / (s.count : ℝ) = share m a (some (kind key p.1)) := by
  have h1 := h3.entries_perm.mem_iff.1 (List.mem_map_of_mem (f := fun p => (kind key p.1, Cell.num p.2)) hp)
  have h2 := hs.entries (Dict.mem_of_get? hg)
  have h4 := List.mem_map_of_mem (f := fun p : Option V × ℕ => (some p.1, (p.2 : ℝ) / (s.count : ℝ))) h1
  rw [h2] at h4
  obtain ⟨o, -, e⟩ := List.mem_map.1 h4
  have e1 := congrArg Prod.fst e
  have e2 := congrArg Prod.snd e
  dsimp only at e1 e2
  rw [← e2, e1]

theorem rawWeighted_eq (he : EncodesAll key r s) (hs : Summarizes3 s m) (hm : m ≠ 0) {a : A} (ha : a ∈ r.av.keys)
    (an : Bool) :
    r.weightedValues key a an = .ok ((r.candidates a an).map fun o => (o, keyShare key m a o)) := by
  have hc := hs.count_ne hm
  rcases EncodesAv.get? he.av a with ⟨h1, h2⟩ | ⟨t, t', h1, h2, h3⟩
  · exact absurd ha (Dict.get?_eq_none.1 h1)
  have hnone := probNone_eq hs hm a
  unfold Stats3.probNone at hnone
  simp only [h2] at hnone
  have e : (r.keysOf a).map some = t.map fun p => some p.1 := by
    simp [RawStats.keysOf, h1, Dict.keys]
  have e2 : (t.map fun p => (some p.1, (Cell.num p.2 : ℝ) / (s.count : ℝ))) =
      ((r.keysOf a).map some).map fun o => (o, keyShare key m a o) := by
    rw [e, List.map_map]
    refine List.map_congr_left fun p hp => ?_
    rw [mem_cell_share he hs h2 h3 hp]
    rfl
  unfold RawStats.weightedValues
  simp only [h1, he.count, h3.rawWeightLoop hc, ok_bind, List.map_map]
  have e3 : ((fun p : V × ℝ => (some p.1, p.2)) ∘ fun p : V × Cell => (p.1, (Cell.num p.2 : ℝ) / (s.count : ℝ))) =
    fun p => (some p.1, (Cell.num p.2 : ℝ) / (s.count : ℝ)) := rfl
  rw [e3, e2]
  cases an with
  | true => simp only [if_true, hnone, ok_bind, RawStats.candidates]; simp [keyShare, pure, Except.pure]
  | false => simp [RawStats.candidates, pure, Except.pure]

theorem rawPredict_known (he : EncodesAll key r s) (hs : Summarizes3 s m) (hm : m ≠ 0) {tie : TieBreak (Option V) ℝ}
    {gauss : Gauss} {a : A} {t : RawTab V} (hg : r.av.get? a = some t) {fn : ChoiceFn} (hfn : fn ≠ .other) (an : Bool)
    (w : World) : r.predict key tie gauss a fn an w = (choose tie (fn = .sampled)
      ((r.candidates a an).map fun o => (o, keyShare key m a o)) w >>= rawFinish key gauss t fn) := by
  unfold RawStats.predict
  rw [if_neg hfn]
  simp only [hg]
  rw [rawWeighted_eq he hs hm (Dict.get?_isSome.1 (by simp [hg])) an, ok_bind]

theorem mem_map_candR {a : A} {an : Bool} {o : Option V} {p : ℝ}
    (h : (o, p) ∈ (r.candidates a an).map fun o => (o, keyShare key m a o)) :
    o ∈ r.candidates a an ∧ p = keyShare key m a o := by
  obtain ⟨o', h1, h2⟩ := List.mem_map.1 h
  cases h2; exact ⟨h1, rfl⟩

theorem mem_rawKeys (he : EncodesAll key r s) (hs : Summarizes3 s m) {a : A} {v : V} :
    v ∈ r.keysOf a ↔ 0 < keyShare key m a (some v) := by
  show _ ↔ 0 < share m a (some (kind key v))
  rw [← hs.mem_keysOf, ← (he.keysOf_perm a).mem_iff, List.mem_map_of_injective (kind_inj key)]

theorem rawKeys_ne_nil (he : EncodesAll key r s) (hs : Summarizes3 s m) {a : A} (ha : a ∈ r.av.keys) :
    r.keysOf a ≠ [] := by
  rw [EncodesAv.keys he.av] at ha
  have h1 := candidates3_ne_nil hs ha false
  simp only [Stats3.candidates, Bool.false_eq_true, if_false, List.append_nil, ne_eq, List.map_eq_nil_iff] at h1
  intro h0
  have := he.keysOf_perm a
  rw [h0] at this
  exact h1 (List.nil_perm.1 this)

theorem mem_candidates_some {a : A} {an : Bool} {v : V} (h : some v ∈ r.candidates a an) : v ∈ r.keysOf a := by
  rcases List.mem_append.1 h with h | h
  · simpa using h
  · cases an <;> simp at h

theorem mem_candidates_none {a : A} {an : Bool} (h : none ∈ r.candidates a an) : an = true := by
  rcases List.mem_append.1 h with h | h
  · simp at h
  · cases an
    · simp at h
    · rfl

/-- The accumulator of an attribute with numbers. -/
theorem rawCell_key (he : EncodesAll key r s) (hs : Summarizes3 s m) {a : A} {t : RawTab V}
    (hg : r.av.get? a = some t) (hk : 0 < keyShare key m a (some key)) :
    nums m a ≠ 0 ∧ ∃ c : CV ℝ, Dict.get? t key = some (.inr c) ∧ c.Obs (nums m a) := by
  have hcell : r.cell a key = Dict.get? t key := by simp [RawStats.cell, hg]
  rcases (rawSums_of he hs).cv a with ⟨h1, -⟩ | ⟨h1, c, h2, h3⟩
  · simp [keyShare, kind_self, share, h1] at hk
  · exact ⟨h1, c, by rw [← hcell, h2], h3⟩

end
end CF
