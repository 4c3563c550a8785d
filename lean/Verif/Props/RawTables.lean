/-
Property C98: the accumulator of an attribute is kept in the same dict as its nominal values, under the
string `"#ContinuousValue#"`.
-/
import Verif.Proofs.RawTables
import Verif.Props.Cobweb3
import Verif.Proofs.Predict3
import Verif.Props.Demo

set_option linter.unusedSectionVars false

namespace CF
variable {A B V : Type} [DecidableEq A] [DecidableEq B] [DecidableEq V] {key : V} {hid : A → Bool}
  {ord : RawStats A V → Inst3 A V → List A} {cfg : Cfg3 A B}

/-- One call of `ifit` on corresponding trees. -/
theorem rawIfit_sim (hord : UnionOrder hid ord) {t : Tree (Stats3 A V)} {u : Tree (RawStats A V)}
    (ht : TRel (GoodTab key) t (unsettle u)) (sc : Scales B) {i : Inst3 A V} (hi : Dict.Nodup i)
    (ha : Avoids key i) (w : World) :
    RRel (fun o o' => TRel (GoodTab key) o.state.root (unsettle o'.1.root) ∧
        TRel (fun s r => EncodesAll key r s) o.state.root o'.1.root ∧ o.state.scales = o'.1.scales ∧
        o.leaf = o'.2.1 ∧ o.w = o'.2.2)
      (ifit3 hid cfg ⟨t, sc⟩ i w) (rawIfit key hid ord cfg ⟨u, sc⟩ i w) := by
  unfold ifit3 rawIfit
  refine RRel.bind (cobweb_sim (φ := RingHom.id ℝ) (fun _ _ h => h) (sim_raw hord) scores_raw
    ⟨rfl, hi, ha⟩ ht w) fun o o' ho => ?_
  obtain ⟨v, h1, h2, h3⟩ := settle_good ho.tree
  rw [h1]
  refine .ok ⟨?_, h2, rfl, ho.leaf, ho.w⟩
  show TRel _ o.tree (unsettle v)
  rw [← h3]
  exact ho.tree

theorem rawRuns_sim (hord : UnionOrder hid ord) {l : List (Inst3 A V × World)}
    (hl : ∀ p ∈ l, Dict.Nodup p.1 ∧ Avoids key p.1) {t : Tree (Stats3 A V)} {u : Tree (RawStats A V)}
    (ht : TRel (GoodTab key) t (unsettle u)) (ht2 : TRel (fun s r => EncodesAll key r s) t u)
    (sc : Scales B) :
    RRel (fun r r' => TRel (fun s q => EncodesAll key q s) r.1.root r'.1.root ∧
        r.1.scales = r'.1.scales ∧ r.2 = r'.2)
      (runs3 hid cfg ⟨t, sc⟩ l) (rawRuns key hid ord cfg ⟨u, sc⟩ l) := by
  induction l generalizing t u sc with
  | nil => exact .ok ⟨ht2, rfl, rfl⟩
  | cons p l ih =>
    obtain ⟨i, w⟩ := p
    obtain ⟨hi, ha⟩ := hl (i, w) (by simp)
    unfold runs3 rawRuns
    refine RRel.bind (rawIfit_sim hord ht sc hi ha w) fun o o' ho => ?_
    obtain ⟨h1, h2, h3, h4, h5⟩ := ho
    have e : o.state = ⟨o.state.root, o'.1.scales⟩ := by rw [← h3]
    rw [e]
    refine RRel.bind (ih (fun q hq => hl q (by simp [hq])) h1 h2 _) fun r r' hr => ?_
    exact .ok ⟨hr.1, hr.2.1, by rw [hr.2.2, h4, h5]⟩

/-- **C98**, for values other than the key: a `Cobweb3Tree` whose concepts keep everything in one dict does,
call by call, what the tree of `Verif.Model.Cobweb3` does: the same call raises the same exception, or the
same concepts with the same ids result, every dict being the table with the accumulator under the key; in
whatever order the sets are run through.  So no operation meets a count where it expects an accumulator or
the other way round, and `combine` and `unbiased_std` never raise. -/
theorem C98_refines_partial (hord : UnionOrder hid ord) {l : List (Inst3 A V × World)}
    (hl : ∀ p ∈ l, Dict.Nodup p.1 ∧ Avoids key p.1) (w0 : World) :
    RRel (fun r r' => TRel (fun s q => EncodesAll key q s) r.1.root r'.1.root ∧
        r.1.scales = r'.1.scales ∧ r.2 = r'.2)
      (runs3 hid cfg (emptyState3 hid w0) l) (rawRuns key hid ord cfg (emptyRaw w0) l) :=
  rawRuns_sim hord hl (.node ⟨⟨0, summarizes3_fresh⟩, _, rfl, rfl, .nil⟩ .nil) (.node ⟨rfl, .nil⟩ .nil) []

/-- The order "instance first, then the node". -/
def demoOrd (hid : A → Bool) (s : RawStats A V) (i : Inst3 A V) : List A :=
  Dict.keys i ++ s.av.keys.filter fun a => !hid a

theorem demoOrd_ok (hid : A → Bool) : UnionOrder hid (demoOrd (V := V) hid) := by
  intro s i a
  simp [demoOrd]

/-- The hypotheses hold for an attribute with numbers and a nominal value. -/
example : UnionOrder (fun _ : ℕ => false) (demoOrd (V := String) fun _ => false) ∧
    ∀ p ∈ [([(0, Val.num 1), (1, .nom "x")], Demo.w0), ([(0, .nom "y")], Demo.w0)],
      Dict.Nodup p.1 ∧ Avoids "#ContinuousValue#" p.1 := by
  refine ⟨demoOrd_ok _, ?_⟩
  intro p hp
  rcases List.mem_cons.1 hp with rfl | hp
  · refine ⟨by simp [Dict.Nodup, Dict.keys], ?_⟩
    intro q hq
    simp only [List.mem_cons, List.not_mem_nil, or_false] at hq
    rcases hq with rfl | rfl
    · exact fun e => by cases e
    · exact fun e => absurd (Val.nom.inj e) (by decide)
  · obtain rfl := List.mem_singleton.1 hp
    refine ⟨by simp [Dict.Nodup, Dict.keys], ?_⟩
    intro q hq
    obtain rfl := List.mem_singleton.1 hq
    exact fun e => absurd (Val.nom.inj e) (by decide)

/-- A dict with the accumulator between two nominal values, and its table. -/
example : EncodesAll "#ContinuousValue#"
    ⟨4, [(0, [("x", .inl 1), ("#ContinuousValue#", .inr ⟨2, 1, 0⟩), ("y", .inl 1)])]⟩
    (⟨4, [(0, ⟨[("x", 1), ("y", 1)], some ⟨2, 1, 0⟩⟩)]⟩ : Stats3 ℕ String) :=
  ⟨rfl, .cons ⟨rfl, by simp, by simp⟩ .nil⟩

/-- The same dict with a count under the key. -/
example : Poisoned "#ContinuousValue#"
    (⟨4, [(0, [("x", .inl 1), ("#ContinuousValue#", .inl 3)])]⟩ : RawStats ℕ String) :=
  ⟨0, [("x", .inl 1), ("#ContinuousValue#", .inl 3)], 3, by simp, by simp⟩

section
variable {st : State3 A B V} {hist : List (Inst3 A V)} {n : ℕ}

/-- `probability` gives the same on the dict as on the table, for everything but the key itself. -/
theorem C98_probability_partial (h : Reach3 hid cfg st hist n) {x : Tree (Stats3 A V)}
    (hx : x ∈ st.root.nodes) {r : RawStats A V} (he : EncodesAll key r x.stats) (sc : Scales B) (a : A)
    {v : Option (Val V)} (hv : v ≠ some (.nom key)) :
    r.probability key cfg sc a v = x.stats.probability cfg sc a v := by
  obtain ⟨m, -, hm⟩ := (C29_every_node h).2 x hx
  unfold RawStats.probability Stats3.probability
  rcases EncodesAv.get? he.av a with ⟨h1, h2⟩ | ⟨t, t', h1, h2, h3⟩
  · match v, hv with
    | none, _ => simp [h1, Stats3.probNone, h2, he.count]
    | some (.num x), _ => simp [h1, Stats3.probNum, h2]
    | some (.nom v), _ => simp [h1, Stats3.probNom, h2]
  · match v, hv with
    | none, _ =>
      simp only [h1, Stats3.probNone, h2, he.count, rawTotal_eq h3, ok_bind]
    | some (.num y), _ =>
      simp only [h1, Stats3.probNum, h2, he.count, Option.bind_some, h3.get?_key]
      cases t'.cv <;> rfl
    | some (.nom v), hv =>
      have hv : v ≠ key := fun e => hv (by rw [e])
      simp only [h1, Stats3.probNom, h2, he.count, Option.bind_some, h3.get?_nom hv]
      cases t'.noms.get? v <;> rfl

/-- `get_weighted_values` offers the same values with the same weights; only the place of the accumulator
in the list differs. -/
theorem C98_weighted_values (h : Reach3 hid cfg st hist n) {x : Tree (Stats3 A V)}
    (hx : x ∈ st.root.nodes) {r : RawStats A V} (he : EncodesAll key r x.stats) (a : A) (allowNone : Bool) :
    ∃ l l', r.weightedValues key a allowNone = .ok l ∧ x.stats.weightedValues a allowNone = .ok l' ∧
      l.Perm (l'.map fun p => (p.1.map fun k => k.getD key, p.2)) := by
  obtain ⟨m, -, hm⟩ := (C29_every_node h).2 x hx
  rcases EncodesAv.get? he.av a with ⟨h1, h2⟩ | ⟨t, t', h1, h2, h3⟩
  · exact ⟨[(none, 1)], [(none, 1)], by simp [RawStats.weightedValues, h1],
      by simp [Stats3.weightedValues, h2], by simp⟩
  · have hc : (x.stats.count : ℝ) ≠ 0 := by
      rw [hm.count]
      obtain ⟨i, hi, -⟩ := (hm.attrs a).1 (Dict.get?_isSome.1 (by rw [h2]; rfl))
      have : Multiset.card m ≠ 0 := fun e => by
        rw [Multiset.card_eq_zero.1 e] at hi
        exact absurd hi (Multiset.notMem_zero _)
      exact_mod_cast this
    obtain ⟨ws, h4, h5⟩ := rawWeightLoop_eq hc h3
    have e : x.stats.weightedValues a allowNone = .ok ((t'.entries.map fun p =>
        (some p.1, (p.2 : ℝ) / (x.stats.count : ℝ))) ++ if allowNone then
          [(none, ((x.stats.count : ℝ) - (t'.total : ℝ)) / (x.stats.count : ℝ))] else []) := by
      rw [Stats3.weightedValues]
      simp only [h2, weightLoop_eq hc, ok_bind]
      cases allowNone
      · simp [pure, Except.pure]
      · simp [pyDiv, hc, pure, Except.pure, ok_bind]
    refine ⟨(ws.map fun p => (some p.1, p.2)) ++ if allowNone then
          [(none, ((x.stats.count : ℝ) - (t'.total : ℝ)) / (x.stats.count : ℝ))] else [], _, ?_, e, ?_⟩
    · rw [RawStats.weightedValues]
      simp only [h1, he.count, h4, ok_bind]
      cases allowNone
      · simp [pure, Except.pure]
      · simp [pyDiv, hc, pure, Except.pure, ok_bind]
    · rw [List.map_append]
      refine List.Perm.append ?_ ?_
      · refine (h5.map _).trans ?_
        rw [List.map_map, List.map_map]
        exact List.Perm.refl _
      · cases allowNone <;> simp

end

/-! ### The key as a nominal value -/

theorem merge_count_error {l : RawTab V} {k : ℕ} (h : (key, Sum.inl k) ∈ l) (t : RawTab V) :
    ∃ e, RawTab.merge key t l = .error e := by
  induction l generalizing t with
  | nil => cases h
  | cons p l ih =>
    obtain ⟨v, x⟩ := p
    rw [RawTab.merge]
    cases hm : RawTab.mergeOne key t v x with
    | error e => exact ⟨e, rfl⟩
    | ok t' =>
      rcases List.mem_cons.1 h with h | h
      · obtain ⟨rfl, rfl⟩ := Prod.mk.inj h
        unfold RawTab.mergeOne at hm
        rw [if_pos rfl] at hm
        cases hg : (Dict.get? t key).getD (.inr CV.fresh) <;> rw [hg] at hm <;> cases hm
      · exact ih h t'

/-- **C98**, the key as a nominal value: a concept that has counted the string can never be copied, and no
other concept can absorb it: `update_counts_from_node` raises. -/
theorem C98_copy_raises {r : RawStats A V} (h : Poisoned key r) (s : RawStats A V) :
    ∃ e, s.addFrom key r = .error e := by
  obtain ⟨a, t, k, h1, h2⟩ := h
  suffices ∀ (l : Dict A (RawTab V)) (av : Dict A (RawTab V)), (a, t) ∈ l →
      ∃ e, rawMergeLoop key av l = .error e by
    obtain ⟨e, he⟩ := this r.av s.av h1
    exact ⟨e, by rw [RawStats.addFrom, he]; rfl⟩
  intro l
  induction l with
  | nil => intro av h; cases h
  | cons p l ih =>
    obtain ⟨b, u⟩ := p
    intro av h
    rw [rawMergeLoop]
    rcases List.mem_cons.1 h with h | h
    · obtain ⟨rfl, rfl⟩ := Prod.mk.inj h
      obtain ⟨e, he⟩ := merge_count_error h2 ((av.get? a).getD [])
      exact ⟨e, by rw [he]; rfl⟩
    · cases RawTab.merge key ((av.get? b).getD []) u with
      | error e => exact ⟨e, rfl⟩
      | ok v => exact ih _ h

/-- Its score cannot be computed either, if the attribute is visible. -/
theorem C98_score_raises {r : RawStats A V} {a : A} {t : RawTab V} {k : ℕ} (ha : (a, t) ∈ r.av)
    (hh : hid a = false) (ht : (key, Sum.inl k) ∈ t) (sc : Scales B) :
    ∃ e, r.ecg key hid cfg sc = .error e := by
  have h1 : ∀ (l : RawTab V) (acc : ℝ), (key, Sum.inl k) ∈ l →
      ∃ e, rawCellLoop key cfg sc r.count a l acc = .error e := by
    intro l
    induction l with
    | nil => intro acc h; cases h
    | cons p l ih =>
      obtain ⟨v, x⟩ := p
      intro acc h
      rw [rawCellLoop]
      cases hc : rawCell key cfg sc r.count a v x with
      | error e => exact ⟨e, rfl⟩
      | ok q =>
        rcases List.mem_cons.1 h with h | h
        · obtain ⟨rfl, rfl⟩ := Prod.mk.inj h
          unfold rawCell at hc
          rw [if_pos rfl] at hc
          cases hs : ecgScale cfg sc a <;> rw [hs] at hc <;> cases hc
        · exact ih _ h
  have h2 : ∀ (l : Dict A (RawTab V)) (acc : ℝ), (a, t) ∈ l →
      ∃ e, rawEcgLoop key cfg sc r.count l acc = .error e := by
    intro l
    induction l with
    | nil => intro acc h; cases h
    | cons p l ih =>
      obtain ⟨b, u⟩ := p
      intro acc h
      rw [rawEcgLoop]
      rcases List.mem_cons.1 h with h | h
      · obtain ⟨rfl, rfl⟩ := Prod.mk.inj h
        obtain ⟨e, he⟩ := h1 t acc ht
        exact ⟨e, by rw [he]; rfl⟩
      · cases rawCellLoop key cfg sc r.count b u acc with
        | error e => exact ⟨e, rfl⟩
        | ok v => exact ih _ h
  obtain ⟨e, he⟩ := h2 (r.av.filter fun p => !hid p.1) 0 (List.mem_filter.2 ⟨ha, by simp [hh]⟩)
  exact ⟨e, by rw [RawStats.ecg, he]; rfl⟩

theorem mem_set_self {K W : Type} [DecidableEq K] (d : Dict K W) (k : K) (x : W) : (k, x) ∈ d.set k x :=
  Dict.mem_of_get? (Dict.get?_set_self d k x)

theorem mem_set_of_ne {K W : Type} [DecidableEq K] {d : Dict K W} {k k' : K} (h : k' ≠ k) {x y : W}
    (hm : (k', y) ∈ d) : (k', y) ∈ d.set k x := by
  induction d with
  | nil => cases hm
  | cons p d ih =>
    obtain ⟨a, b⟩ := p
    by_cases ha : a = k
    · subst ha
      rcases List.mem_cons.1 hm with e | hm
      · exact absurd (Prod.mk.inj e).1 h
      · simp [Dict.set, hm]
    · rcases List.mem_cons.1 hm with e | hm
      · obtain ⟨rfl, rfl⟩ := Prod.mk.inj e
        simp [Dict.set, ha]
      · simp [Dict.set, ha, ih hm]

/-- A table that has counted the key keeps it. -/
def HasCount (key : V) (av : Dict A (RawTab V)) (a : A) : Prop :=
  ∃ t k, av.get? a = some t ∧ Dict.get? t key = some (.inl k)

theorem rawAdd_keeps {t t' : RawTab V} {k : ℕ} (ht : Dict.get? t key = some (.inl k)) {v : Val V}
    (h : RawTab.add key t v = .ok t') : ∃ k', Dict.get? t' key = some (.inl k') := by
  cases v with
  | num x => unfold RawTab.add at h; dsimp only at h; rw [ht] at h; cases h
  | nom v =>
    unfold RawTab.add at h
    dsimp only at h
    by_cases hv : v = key
    · subst hv
      rw [ht] at h
      cases h
      exact ⟨_, Dict.get?_set_self _ _ _⟩
    · cases hg : Dict.get? t v with
      | none => rw [hg] at h; cases h; exact ⟨k, by rw [Dict.get?_set_ne _ hv, ht]⟩
      | some x =>
        cases x with
        | inl c => rw [hg] at h; cases h; exact ⟨k, by rw [Dict.get?_set_ne _ hv, ht]⟩
        | inr c => rw [hg] at h; cases h

theorem rawIncrLoop_keeps {av av' : Dict A (RawTab V)} {a : A} {i : Inst3 A V} (h : HasCount key av a)
    (hi : rawIncrLoop key av i = .ok av') : HasCount key av' a := by
  induction i generalizing av with
  | nil => cases hi; exact h
  | cons p i ih =>
    obtain ⟨b, v⟩ := p
    rw [rawIncrLoop] at hi
    obtain ⟨t, h1, h2⟩ := bind_ok.1 hi
    refine ih ?_ h2
    obtain ⟨u, k, h3, h4⟩ := h
    by_cases hb : b = a
    · subst hb
      rw [h3] at h1
      obtain ⟨k', hk⟩ := rawAdd_keeps h4 h1
      exact ⟨t, k', Dict.get?_set_self _ _ _, hk⟩
    · exact ⟨u, k, by rw [Dict.get?_set_ne _ hb, h3], h4⟩

theorem rawIncrLoop_poisons {av av' : Dict A (RawTab V)} {a : A} {i : Inst3 A V}
    (ha : (a, Val.nom key) ∈ i) (hi : rawIncrLoop key av i = .ok av') : HasCount key av' a := by
  induction i generalizing av with
  | nil => cases ha
  | cons p i ih =>
    obtain ⟨b, v⟩ := p
    rw [rawIncrLoop] at hi
    obtain ⟨t, h1, h2⟩ := bind_ok.1 hi
    rcases List.mem_cons.1 ha with e | ha
    · obtain ⟨rfl, rfl⟩ := Prod.mk.inj e
      refine rawIncrLoop_keeps ?_ h2
      refine ⟨t, ?_⟩
      unfold RawTab.add at h1
      dsimp only at h1
      cases hg : Dict.get? ((av.get? a).getD []) key with
      | none => rw [hg] at h1; cases h1; exact ⟨_, Dict.get?_set_self _ _ _, Dict.get?_set_self _ _ _⟩
      | some x =>
        cases x with
        | inl c => rw [hg] at h1; cases h1; exact ⟨_, Dict.get?_set_self _ _ _, Dict.get?_set_self _ _ _⟩
        | inr c => rw [hg] at h1; cases h1
    · exact ih ha h2

/-- A tree of one concept that has counted the key: every call raises, unless its instance matches the
concept exactly. -/
theorem rawIfit_leaf {s : RawStats A V} (hp : Poisoned key s) (hc : s.count ≠ 0) {id : ℕ} {sc : Scales B}
    {j : Inst3 A V} {w : World} {o : RawState A B V × ℕ × World}
    (h : rawIfit key hid ord cfg ⟨.node id s [], sc⟩ j w = .ok o) :
    s.isExact key hid j (ord s j) = .ok true := by
  unfold rawIfit at h
  obtain ⟨y, g1, g2⟩ := bind_ok.1 h
  obtain ⟨t, g3, -⟩ := bind_ok.1 g2
  by_cases hb : (rawClass key hid ord).isExact (.ok s) j = true
  · change (match s.isExact key hid j (ord s j) with | .ok b => b | .error _ => false) = true at hb
    cases hx : s.isExact key hid j (ord s j) with
    | ok b => rw [hx] at hb; rw [show b = true from hb]
    | error e => rw [hx] at hb; cases hb
  · exfalso
    change (if (rawClass key hid ord).isExact (.ok s) j || s.count == 0 then _ else _) = _ at g1
    have e1 : ((rawClass key hid ord).isExact (.ok s) j || s.count == 0) = false := by
      simp [hb, hc]
    rw [e1, if_neg (by simp)] at g1
    obtain ⟨e, he⟩ := C98_copy_raises hp (RawStats.fresh : RawStats A V)
    have e2 : (rawClass key hid ord).incr (shallowCopy (rawClass key hid ord) (.ok s)) j = .error e := by
      show (RawStats.addFrom key RawStats.fresh s >>= _) = _
      rw [he]
      rfl
    rw [e2] at g1
    cases g1
    rw [settle] at g3
    cases g3

/-- **C98**, the key as a nominal value: when the first instance given to a new tree has the string as a
value of any attribute, every second call raises, unless its instance matches the root exactly. -/
theorem C98_key_value_breaks {i : Inst3 A V} {a : A} (ha : (a, Val.nom key) ∈ i) {w0 w w' : World}
    {o o' : RawState A B V × ℕ × World} (h : rawIfit key hid ord cfg (emptyRaw w0) i w = .ok o)
    {j : Inst3 A V} (hj : rawIfit key hid ord cfg o.1 j w' = .ok o') :
    o.1.root.stats.isExact key hid j (ord o.1.root.stats j) = .ok true := by
  unfold rawIfit at h
  obtain ⟨x, h1, h2⟩ := bind_ok.1 h
  obtain ⟨t, h3, h4⟩ := bind_ok.1 h2
  change (if _ || true then _ else _) = _ at h1
  rw [Bool.or_true, if_pos rfl] at h1
  cases h1
  rw [settle] at h3
  obtain ⟨s, h5, h6⟩ := bind_ok.1 h3
  rw [settleL] at h6
  cases h6
  cases h4
  change RawStats.incr key RawStats.fresh i = .ok s at h5
  rw [RawStats.incr] at h5
  obtain ⟨av, h7, h8⟩ := bind_ok.1 h5
  cases h8
  obtain ⟨u, k, h9, h10⟩ := rawIncrLoop_poisons ha h7
  exact rawIfit_leaf ⟨a, u, k, Dict.mem_of_get? h9, Dict.mem_of_get? h10⟩ (by simp [RawStats.fresh]) hj

/-- The string, then a number: the second `ifit` raises. -/
theorem C98_then_number {a : A} (hh : hid a = false) (hord : UnionOrder hid ord) (x : ℝ) (w0 w w' : World) :
    ∃ o, rawIfit key hid ord cfg (emptyRaw w0) [(a, .nom key)] w = .ok o ∧
      ∃ e, rawIfit key hid ord cfg o.1 [(a, .num x)] w' = .error e := by
  have hfit : rawIfit key hid ord cfg (emptyRaw w0) [(a, .nom key)] w =
      .ok (⟨.node (w0.ctr + 1) ⟨0 + 1, [(a, [(key, .inl (0 + 1))])]⟩ [], []⟩, w0.ctr + 1, w) := by
    unfold rawIfit
    have : cobweb (rawClass key hid ord) (fun r => r >>= fun s => s.ecg key hid cfg
        (updateScales cfg.inner (emptyRaw w0 : RawState A B V).scales [(a, .nom key)]))
        (unsettle (emptyRaw w0 : RawState A B V).root) [(a, .nom key)] w = .ok
          ⟨.node (w0.ctr + 1) (RawStats.incr key RawStats.fresh [(a, .nom key)]) [], w0.ctr + 1, false, w⟩ := by
      show (if _ || true then _ else _) = _
      rw [Bool.or_true, if_pos rfl]
      rfl
    dsimp only
    rw [this]
    rfl
  refine ⟨_, hfit, ?_⟩
  cases hr : rawIfit key hid ord cfg
      (⟨.node (w0.ctr + 1) ⟨0 + 1, [(a, [(key, .inl (0 + 1))])]⟩ [], []⟩ : RawState A B V)
      [(a, .num x)] w' with
  | error e => exact ⟨e, rfl⟩
  | ok o' =>
    exfalso
    have h1 := C98_key_value_breaks (a := a) (by simp) hfit hr
    have hm : a ∈ ord ⟨0 + 1, [(a, [(key, .inl (0 + 1))])]⟩ [(a, .num x)] := by
      rw [hord]
      simp
    have hone : ∀ as : List A, a ∈ as →
        RawStats.isExact key hid (⟨0 + 1, [(a, [(key, .inl (0 + 1))])]⟩ : RawStats A V) [(a, .num x)] as ≠
          .ok true := by
      intro as
      induction as with
      | nil => intro h; cases h
      | cons b as ih =>
        intro h he
        rw [RawStats.isExact] at he
        obtain ⟨q, h2, h3⟩ := bind_ok.1 he
        cases q with
        | false => cases h3
        | true =>
          rw [if_pos rfl] at h3
          rcases List.mem_cons.1 h with rfl | h
          · simp [RawStats.matchesAttr, hh, Dict.get?, RawTab.matches] at h2
          · exact ih h h3
    exact hone _ hm h1

/-- A number, then the string: the second `ifit` raises. -/
theorem C98_number_then (a : A) (x : ℝ) (w0 w w' : World) :
    ∃ o, rawIfit key hid ord cfg (emptyRaw w0) [(a, .num x)] w = .ok o ∧
      ∃ e, rawIfit key hid ord cfg o.1 [(a, .nom key)] w' = .error e := by
  have hfit : rawIfit key hid ord cfg (emptyRaw w0) [(a, .num x)] w =
      .ok (⟨.node (w0.ctr + 1) ⟨0 + 1, [(a, [(key, .inr (CV.fresh.update x))])]⟩ [],
        updateScales cfg.inner [] [(a, (.num x : Val V))]⟩, w0.ctr + 1, w) := by
    unfold rawIfit
    have : cobweb (rawClass key hid ord) (fun r => r >>= fun s => s.ecg key hid cfg
        (updateScales cfg.inner (emptyRaw w0 : RawState A B V).scales [(a, (.num x : Val V))]))
        (unsettle (emptyRaw w0 : RawState A B V).root) [(a, .num x)] w = .ok
          ⟨.node (w0.ctr + 1) (RawStats.incr key RawStats.fresh [(a, .num x)]) [], w0.ctr + 1, false, w⟩ := by
      show (if _ || true then _ else _) = _
      rw [Bool.or_true, if_pos rfl]
      rfl
    dsimp only
    rw [this]
    rfl
  refine ⟨_, hfit, ?_⟩
  cases hr : rawIfit key hid ord cfg
      (⟨.node (w0.ctr + 1) ⟨0 + 1, [(a, [(key, .inr (CV.fresh.update x))])]⟩ [],
        updateScales cfg.inner [] [(a, (.num x : Val V))]⟩ : RawState A B V) [(a, .nom key)] w' with
  | error e => exact ⟨e, rfl⟩
  | ok o' =>
    exfalso
    unfold rawIfit at hr
    obtain ⟨y, g1, g2⟩ := bind_ok.1 hr
    obtain ⟨t, g3, -⟩ := bind_ok.1 g2
    change (if (rawClass key hid ord).isExact
      (.ok ⟨0 + 1, [(a, [(key, .inr (CV.fresh.update x))])]⟩) [(a, .nom key)] || false then _ else _) = _ at g1
    have herr : ∀ (s : RawStats A V) c, s.av.get? a = some [(key, .inr c)] →
        RawStats.incr key s [(a, .nom key)] = .error .typeErr := by
      intro s c hs
      rw [RawStats.incr, rawIncrLoop, hs]
      simp [RawTab.add, Dict.get?]
      rfl
    by_cases hb : (rawClass key hid ord).isExact
        (.ok (⟨0 + 1, [(a, [(key, .inr (CV.fresh.update x))])]⟩ : RawStats A V)) [(a, .nom key)] = true
    · rw [hb, Bool.true_or, if_pos rfl] at g1
      cases g1
      rw [settle] at g3
      change (RawStats.incr key _ _ >>= _) = _ at g3
      rw [herr ⟨0 + 1, [(a, [(key, .inr (CV.fresh.update x))])]⟩ (CV.fresh.update x)
        (by simp [Dict.get?])] at g3
      cases g3
    · rw [Bool.or_false, if_neg hb] at g1
      cases g1
      rw [settle] at g3
      change ((RawStats.addFrom key RawStats.fresh _ >>= fun s => RawStats.incr key s _) >>= _) = _ at g3
      have hcopy : RawStats.addFrom key (RawStats.fresh : RawStats A V)
          ⟨0 + 1, [(a, [(key, .inr (CV.fresh.update x))])]⟩ =
          .ok ⟨0 + (0 + 1), [(a, [(key, .inr (CV.fresh.join (CV.fresh.update x)))])]⟩ := by
        have hc : CV.combine (CV.fresh : CV ℝ) (CV.fresh.update x) = .ok (CV.fresh.join (CV.fresh.update x)) :=
          combine_eq (by simp [CV.fresh, CV.update])
        simp only [RawStats.addFrom, RawStats.fresh, rawMergeLoop, RawTab.merge, RawTab.mergeOne, Dict.get?,
          Option.getD_none, if_true, hc, ok_bind]
        rfl
      rw [hcopy] at g3
      change (RawStats.incr key _ _ >>= _) = _ at g3
      rw [herr ⟨0 + (0 + 1), [(a, [(key, .inr (CV.fresh.join (CV.fresh.update x)))])]⟩
        (CV.fresh.join (CV.fresh.update x)) (by simp [Dict.get?])] at g3
      cases g3

end CF
