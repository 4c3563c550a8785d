/-
C117: predictions with all Python floats choose a most frequent option, at every concept.
-/
import Verif.Props.PredictXOk

namespace CF
variable {A B V : Type} [DecidableEq A] [DecidableEq B] [DecidableEq V] {R : Rounding} {hid : A → Bool}
variable {cfg : Cfg3 A B} {st : XState A B V} {hist : List (XInst A V)} {n : ℕ}

/-- How many of the instances lack the attribute (`none`), have a number (`some none`), or the nominal value `v`. -/
noncomputable def tallyX (m : Multiset (XInst A V)) (a : A) : Option (Option V) → ℕ
  | none => m.countP fun i => Dict.get? i a = none
  | some none => Multiset.card (numsX m a)
  | some (some v) => occ m a (.nom v)

/-- `r` is predicted for `a` by a table `s` of the instances `m`: a most frequent option, where "missing" is an option only if
it is allowed, and the option "a number" stands for the mean of the accumulator. -/
def MostFrequent (s : XStats A V) (m : Multiset (XInst A V)) (a : A) (an : Bool) (r : Option (XVal V)) : Prop :=
  ∃ k : Option (Option V), (∀ k', (k' = none → an = true) → tallyX m a k' ≤ tallyX m a k) ∧
    ((k = none ∧ r = none ∧ an = true) ∨ (∃ v, k = some (some v) ∧ r = some (.nom v) ∧ 0 < occ m a (.nom v)) ∨
      (k = some none ∧ numsX m a ≠ 0 ∧ ∃ c, s.cvOf a = some c ∧ r = some (.num c.mean)))

theorem values_ge (L : List V) (m : Multiset (XInst A V)) (a : A)
    (hL : ∀ i ∈ m, ∀ u, Dict.get? i a = some (.nom u) → u ∈ L) :
    Multiset.card m ≤ (L.map fun v => occ m a (.nom v)).sum + Multiset.card (numsX m a) + tallyX m a none := by
  induction m using Multiset.induction_on with
  | empty => simp
  | cons i m ih =>
    have ih := ih fun j hj => hL j (by simp [hj])
    have e1 : (L.map fun v => occ (i ::ₘ m) a (.nom v)).sum = (L.map fun v => occ m a (.nom v)).sum +
        (L.map fun v => if Dict.get? i a = some (.nom v) then 1 else 0).sum := by
      rw [← List.sum_map_add]
      congr 1
      refine List.map_congr_left fun v _ => ?_
      unfold occ
      rw [Multiset.countP_cons]
    have e3 : tallyX (i ::ₘ m) a none = tallyX m a none + (if Dict.get? i a = none then 1 else 0) := by
      unfold tallyX
      rw [Multiset.countP_cons]
    rw [e1, e3, Multiset.card_cons]
    cases hx : Dict.get? i a with
    | none =>
      have : numsX (i ::ₘ m) a = numsX m a := by
        unfold numsX
        rw [Multiset.filterMap_cons_none (f := fun i => (Dict.get? i a).bind XVal.num?) _ _ (by rw [hx]; rfl)]
      rw [this]
      simp
      omega
    | some v =>
      cases v with
      | num x =>
        have : Multiset.card (numsX (i ::ₘ m) a) = Multiset.card (numsX m a) + 1 := by
          unfold numsX
          rw [Multiset.filterMap_cons_some (fun i => (Dict.get? i a).bind XVal.num?) _ _ (by rw [hx]; rfl)]
          simp
        rw [this]
        simp
        omega
      | nom u =>
        have : numsX (i ::ₘ m) a = numsX m a := by
          unfold numsX
          rw [Multiset.filterMap_cons_none (f := fun i => (Dict.get? i a).bind XVal.num?) _ _ (by rw [hx]; rfl)]
        rw [this]
        have hu : 1 ≤ (L.map fun v => if some (XVal.nom u) = some (XVal.nom v) then 1 else 0).sum :=
          List.single_le_sum (fun _ _ => Nat.zero_le _) _
            (List.mem_map.2 ⟨u, hL i (by simp) u hx, by simp⟩)
        simp only [reduceCtorEq, if_false]
        omega

section
variable {P : CV XF → Prop} {s : XStats A V} {m : Multiset (XInst A V)} {a : A} {t : XTab V}

theorem CountsX.noms_at (hs : CountsX P s m) (ht : s.av.get? a = some t) (v : V) :
    t.noms.get? v = if occ m a (.nom v) = 0 then none else some (occ m a (.nom v)) := by
  have := hs.noms a v
  rwa [XStats.nomLookup, ht] at this

theorem CountsX.cv_at (hs : CountsX P s m) (ht : s.av.get? a = some t) :
    (numsX m a = 0 ∧ t.cv = none) ∨ (numsX m a ≠ 0 ∧ ∃ c, t.cv = some c ∧ c.num = Multiset.card (numsX m a)) := by
  have e : s.cvOf a = t.cv := by simp [XStats.cvOf, ht]
  rcases hs.cv a with ⟨h1, h2⟩ | ⟨h1, c, h2, h3, -⟩
  · exact .inl ⟨h1, e ▸ h2⟩
  · exact .inr ⟨h1, c, e ▸ h2, h3⟩

theorem CountsX.mem_entries (hs : CountsX P s m) (ht : s.av.get? a = some t) (q : ℕ) (k : Option V) (c : ℕ) :
    (k, c) ∈ t.entriesAt q ↔ c = tallyX m a (some k) ∧ c ≠ 0 := by
  have hn := hs.nodup.2 _ (Dict.mem_of_get? ht)
  have hnom : ∀ v, (some v, c) ∈ t.noms.map (fun p => (some p.1, p.2)) ↔ c = occ m a (.nom v) ∧ c ≠ 0 := fun v => by
    have hg := hs.noms_at ht v
    constructor
    · intro h
      obtain ⟨p, hp, e⟩ := List.mem_map.1 h
      simp only [Prod.mk.injEq, Option.some.injEq] at e
      obtain ⟨rfl, rfl⟩ := e
      rw [Dict.get?_of_mem hn hp] at hg
      split at hg
      · cases hg
      · next h0 => rw [Option.some.inj hg]; exact ⟨rfl, h0⟩
    · rintro ⟨rfl, h0⟩
      rw [if_neg h0] at hg
      exact List.mem_map.2 ⟨_, Dict.mem_of_get? hg, rfl⟩
  have hnone : (none, c) ∉ t.noms.map (fun p => ((some p.1 : Option V), p.2)) := by
    intro h
    obtain ⟨p, -, e⟩ := List.mem_map.1 h
    simp at e
  unfold XTab.entriesAt
  rcases hs.cv_at ht with ⟨h1, h2⟩ | ⟨h1, d, h2, h3⟩
  · simp only [h2]
    cases k with
    | some v => exact hnom v
    | none =>
      refine ⟨fun h => absurd h hnone, fun ⟨h, h0⟩ => absurd ?_ h0⟩
      rw [h, tallyX, h1]; rfl
  · simp only [h2]
    have split : ∀ (l : List (Option V × ℕ)) x, x ∈ l.take q ++ (none, d.num) :: l.drop q ↔ x = (none, d.num) ∨ x ∈ l := by
      intro l x
      conv_rhs => rw [← List.take_append_drop q l]
      simp only [List.mem_append, List.mem_cons]
      tauto
    rw [split]
    cases k with
    | some v => simpa [tallyX] using hnom v
    | none =>
      constructor
      · rintro (h | h)
        · simp only [Prod.mk.injEq, true_and] at h
          rw [h, h3]
          exact ⟨rfl, by simpa using h1⟩
        · exact absurd h hnone
      · rintro ⟨h, -⟩
        left
        rw [h, tallyX, h3]

theorem CountsX.total_add (hs : CountsX P s m) (ht : s.av.get? a = some t) : t.total + tallyX m a none = s.count := by
  have hn : (t.noms.map Prod.fst).Nodup := hs.nodup.2 _ (Dict.mem_of_get? ht)
  have h1 := values_ge (t.noms.map Prod.fst) m a fun i hi u hu => by
    have hg := hs.noms_at ht u
    rw [if_neg (by
      unfold occ
      rw [Multiset.countP_eq_zero]
      exact fun h => h i hi hu)] at hg
    exact List.mem_map.2 ⟨_, Dict.mem_of_get? hg, rfl⟩
  have h2 : ∀ L : List V, L.Nodup → (L.map fun v => occ m a (.nom v)).sum + Multiset.card (numsX m a) + tallyX m a none ≤
      Multiset.card m := by
    intro L hL
    obtain ⟨m', hm'⟩ : ∃ m', m' = m.filter fun i => ¬ Dict.get? i a = none := ⟨_, rfl⟩
    have h3 := values_le L hL m' a
    have h4 : Multiset.card m' + tallyX m a none = Multiset.card m := by
      unfold tallyX
      rw [hm', Multiset.countP_eq_card_filter, add_comm, ← Multiset.card_add, Multiset.filter_add_not]
    have h5 : ∀ v, occ m' a (.nom v) = occ m a (.nom v) := fun v => by
      unfold occ
      rw [hm', Multiset.countP_filter]
      refine Multiset.countP_congr rfl fun i _ => ?_
      simp only [eq_iff_iff]
      exact ⟨And.left, fun h => ⟨h, by rw [h]; simp⟩⟩
    have h6 : numsX m' a = numsX m a := by
      rw [hm']
      clear h1 h3 h4 h5 hs hm'
      induction m using Multiset.induction_on with
      | empty => rfl
      | cons i m ih =>
        unfold numsX at ih ⊢
        cases hx : Dict.get? i a with
        | none =>
          rw [Multiset.filter_cons_of_neg _ (by simpa using hx), ih,
            Multiset.filterMap_cons_none (f := fun i => (Dict.get? i a).bind XVal.num?) _ _ (by rw [hx]; rfl)]
        | some v =>
          rw [Multiset.filter_cons_of_pos _ (by simp [hx]), Multiset.filterMap_cons, Multiset.filterMap_cons, ih]
    simp only [h5, h6] at h3
    omega
  have h2 := h2 _ hn
  have e1 : ((t.noms.map Prod.fst).map fun v => occ m a (.nom v)).sum = (t.noms.map Prod.snd).sum := by
    rw [List.map_map]
    congr 1
    refine List.map_congr_left fun p hp => ?_
    have h2 := hs.noms_at ht p.1
    rw [Dict.get?_of_mem hn hp] at h2
    split at h2
    · cases h2
    · exact (Option.some.inj h2).symm
  have e2 : t.total = (t.noms.map Prod.snd).sum + ((t.cv.map CV.num).getD 0) := by
    unfold XTab.total XTab.entriesAt
    cases t.cv with
    | none => simp [Function.comp_def]
    | some c => simp [Function.comp_def, add_comm]
  have e3 : (t.cv.map CV.num).getD 0 = Multiset.card (numsX m a) := by
    rcases hs.cv_at ht with ⟨h0, h4⟩ | ⟨-, c, h4, h5⟩
    · simp [h4, h0]
    · simp [h4, h5]
  rw [hs.count]
  omega

theorem predictX_most (hs : CountsX P s m) (hbig : Multiset.card m ≤ 2 ^ 52) (ha : a ∈ s.av.keys) {pos : XTab V → ℕ}
    {add : List ℝ → ℝ} {tie : TieBreak (Option (Option V)) ℝ} (htie : tie.Sound) {gauss : GaussX} {an : Bool}
    {w w' : World} {r : Option (XVal V)}
    (hp : XStats.predictX R.fl pos add tie gauss s a .mostLikely an w = .ok (r, w')) : MostFrequent s m a an r := by
  obtain ⟨t, ht⟩ := Option.isSome_iff_exists.1 (Dict.get?_isSome.2 ha)
  have hc : s.count ≠ 0 := by
    obtain ⟨i, hi, -⟩ := (hs.attrs a).1 ha
    rw [hs.count]
    exact fun h => by rw [Multiset.card_eq_zero] at h; rw [h] at hi; simp at hi
  have hn : natF R.fl s.count ≠ 0 := natF_ne_zero hc
  have htot := hs.total_add ht
  have hcb : s.count ≤ 2 ^ 52 := hs.count ▸ hbig
  let wt : Option (Option V) → ℝ := fun k => R.fl (natF R.fl (tallyX m a k) / natF R.fl s.count)
  have hnone : R.fl (natF R.fl s.count - natF R.fl t.total) = natF R.fl (tallyX m a none) := by
    rw [R.natF_eq (n := s.count) (by omega), R.natF_eq (n := t.total) (by omega), ← htot]
    push_cast
    rw [add_sub_cancel_left]
    rfl
  obtain ⟨cs, hcs, hmem⟩ : ∃ cs, XStats.weightedValuesX R.fl pos s a an = .ok cs ∧
      ∀ k x, (k, x) ∈ cs ↔ x = wt k ∧ ((k = none ∧ an = true) ∨ ∃ v, k = some v ∧ tallyX m a k ≠ 0) := by
    set l := (t.entriesAt (pos t)).map fun p => ((some p.1 : Option (Option V)), R.fl (natF R.fl p.2 / natF R.fl s.count))
      with hl
    have hl1 : ∀ k x, (k, x) ∈ l ↔ x = wt k ∧ ∃ v, k = some v ∧ tallyX m a k ≠ 0 := by
      intro k x
      rw [hl, List.mem_map]
      constructor
      · rintro ⟨⟨v, c⟩, h1, h2⟩
        obtain ⟨rfl, h3⟩ := (hs.mem_entries ht _ _ _).1 h1
        simp only [Prod.mk.injEq] at h2
        obtain ⟨rfl, rfl⟩ := h2
        exact ⟨rfl, v, rfl, h3⟩
      · rintro ⟨rfl, v, rfl, h0⟩
        exact ⟨(v, tallyX m a (some v)), (hs.mem_entries ht _ _ _).2 ⟨rfl, h0⟩, rfl⟩
    cases an with
    | false =>
      refine ⟨l, by simp only [XStats.weightedValuesX, ht, weightLoopF_eq hc, ok_bind]; rfl, fun k x => ?_⟩
      rw [hl1]
      simp
    | true =>
      refine ⟨l ++ [(none, wt none)], ?_, fun k x => ?_⟩
      · simp only [XStats.weightedValuesX, ht, weightLoopF_eq hc, ok_bind, if_true, divF, if_neg hn, hnone]; rfl
      · rw [List.mem_append, hl1, List.mem_singleton, Prod.mk.injEq]
        constructor
        · rintro (⟨h1, h2⟩ | ⟨rfl, rfl⟩)
          · exact ⟨h1, .inr h2⟩
          · exact ⟨rfl, .inl ⟨rfl, rfl⟩⟩
        · rintro ⟨rfl, ⟨rfl, -⟩ | h⟩
          · exact .inr ⟨rfl, rfl⟩
          · exact .inl ⟨rfl, h⟩
  have hle : ∀ k, tallyX m a k ≤ s.count := fun k => by
    rw [hs.count]
    rcases k with _ | _ | v
    · exact Multiset.countP_le_card _ _
    · induction m using Quotient.inductionOn
      simpa [numsX, tallyX] using List.length_filterMap_le _ _
    · exact Multiset.countP_le_card _ _
  simp only [XStats.predictX, ht, hcs, ok_bind, reduceCtorEq, if_false, chooseF, decide_false, Bool.false_eq_true] at hp
  cases hml : mostLikelyChoice tie cs w.draw with
  | error e => rw [hml] at hp; cases hp
  | ok k =>
    rw [hml] at hp
    obtain ⟨x, h1, h2⟩ := C43_maximal htie hml
    obtain ⟨rfl, hk⟩ := (hmem k x).1 h1
    refine ⟨k, fun k' hk' => ?_, ?_⟩
    · by_cases h0 : tallyX m a k' = 0
      · omega
      · by_contra hlt
        have hm' : (k', wt k') ∈ cs := (hmem k' _).2 ⟨rfl, by
          cases k' with
          | none => exact .inl ⟨rfl, hk' rfl⟩
          | some v => exact .inr ⟨v, rfl, h0⟩⟩
        exact absurd (h2 _ hm') (not_le.2 (weightF_lt (R := R) (not_le.1 hlt) (hle k') hcb))
    · simp only [Except.map, ok_bind] at hp
      rcases hk with ⟨rfl, rfl⟩ | ⟨v, rfl, h0⟩
      · simp only [finishPredictX, Except.ok.injEq, Prod.mk.injEq] at hp
        exact .inl ⟨rfl, hp.1.symm, rfl⟩
      · cases v with
        | some v =>
          simp only [finishPredictX, Except.ok.injEq, Prod.mk.injEq] at hp
          exact .inr (.inl ⟨v, rfl, hp.1.symm, Nat.pos_of_ne_zero h0⟩)
        | none =>
          rcases hs.cv_at ht with ⟨h3, -⟩ | ⟨h3, c, h4, -⟩
          · exact absurd (by rw [tallyX, h3]; rfl) h0
          · simp only [finishPredictX, h4, if_true, Except.ok.injEq, Prod.mk.injEq] at hp
            exact .inr (.inr ⟨rfl, h3, c, by simp [XStats.cvOf, ht, h4], hp.1.symm⟩)

omit [DecidableEq V] in
theorem inferLoopX_each {pos : XTab V → ℕ} {add : List ℝ → ℝ} {tie : TieBreak (Option (Option V)) ℝ} {gauss : GaussX}
    {an : Bool} {fn : ChoiceFn} : ∀ (keys : List A) (temp : XInst A V) (w : World) (out : XInst A V) (w' : World),
      keys.Nodup → inferLoopX R.fl pos add tie gauss s fn an keys temp w = .ok (out, w') →
      (∀ a, a ∉ keys ∨ Dict.get? temp a ≠ none → Dict.get? out a = Dict.get? temp a) ∧
      ∀ a ∈ keys, Dict.get? temp a = none →
        ∃ w1 w2, XStats.predictX R.fl pos add tie gauss s a fn an w1 = .ok (Dict.get? out a, w2) := by
  intro keys
  induction keys with
  | nil =>
    intro temp w out w' _ h
    simp only [inferLoopX, Except.ok.injEq, Prod.mk.injEq] at h
    obtain ⟨rfl, -⟩ := h
    exact ⟨fun _ _ => rfl, fun a ha => by simp at ha⟩
  | cons b keys ih =>
    intro temp w out w' hnd h
    obtain ⟨hb1, hnd⟩ := List.nodup_cons.1 hnd
    rw [inferLoopX] at h
    split at h
    · next hb =>
      have hb' : Dict.get? temp b ≠ none := by
        intro h0; simp [Dict.has, h0] at hb
      obtain ⟨h1, h2⟩ := ih temp w out w' hnd h
      refine ⟨fun a ha => h1 a ?_, fun a ha hn => ?_⟩
      · rcases ha with ha | ha
        · exact .inl fun h => ha (by simp [h])
        · exact .inr ha
      · rcases List.mem_cons.1 ha with rfl | ha
        · exact absurd hn hb'
        · exact h2 a ha hn
    · next hb =>
      have hbn : Dict.get? temp b = none := by
        cases hx : Dict.get? temp b with
        | none => rfl
        | some v => simp [Dict.has, hx] at hb
      rw [bind_ok] at h
      obtain ⟨⟨v, w1⟩, hv, h⟩ := h
      cases v with
      | none =>
        obtain ⟨h1, h2⟩ := ih temp w1 out w' hnd h
        refine ⟨fun a ha => h1 a ?_, fun a ha hn => ?_⟩
        · rcases ha with ha | ha
          · exact .inl fun h => ha (by simp [h])
          · exact .inr ha
        · rcases List.mem_cons.1 ha with rfl | ha
          · exact ⟨w, w1, by rw [h1 a (.inl hb1), hbn]; exact hv⟩
          · exact h2 a ha hn
      | some v =>
        obtain ⟨h1, h2⟩ := ih (temp.set b v) w1 out w' hnd h
        refine ⟨fun a ha => ?_, fun a ha hn => ?_⟩
        · have hab : b ≠ a := by
            rintro rfl
            rcases ha with ha | ha
            · exact ha (by simp)
            · exact ha hbn
          have e := Dict.get?_set_ne temp hab v
          rw [← e]
          refine h1 a ?_
          rcases ha with ha | ha
          · exact .inl fun h => ha (by simp [h])
          · exact .inr (by rw [e]; exact ha)
        · rcases List.mem_cons.1 ha with rfl | ha
          · exact ⟨w, w1, by rw [h1 a (.inl hb1), Dict.get?_set_self]; exact hv⟩
          · have hab : b ≠ a := by rintro rfl; exact hb1 ha
            exact h2 a ha (by rw [Dict.get?_set_ne temp hab v]; exact hn)

end

/-- **C117**: at every concept, a 'most likely' prediction for a recorded attribute is a most frequent option among the
instances below it, in spite of the rounded frequencies (up to 2^52 instances); "missing" only if it is allowed. -/
theorem C117_predict_most_likely (h : ReachX R XF.Valid hid cfg st hist n) (hlen : hist.length ≤ 2 ^ 52)
    {x : Tree (XStats A V)} (hx : x ∈ st.root.nodes) {a : A} (ha : a ∈ x.stats.av.keys) {pos : XTab V → ℕ}
    {add : List ℝ → ℝ} {tie : TieBreak (Option (Option V)) ℝ} (htie : tie.Sound) {gauss : GaussX} {an : Bool}
    {w w' : World} {r : Option (XVal V)}
    (hp : XStats.predictX R.fl pos add tie gauss x.stats a .mostLikely an w = .ok (r, w')) :
    ∃ m ≤ (hist : Multiset (XInst A V)), CountsX AnyCV x.stats m ∧ MostFrequent x.stats m a an r := by
  obtain ⟨m, hle, hm⟩ := (C99_every_node h).2.2 x hx
  have hcard : Multiset.card m ≤ hist.length := by simpa using Multiset.card_le_card hle
  exact ⟨m, hle, hm, predictX_most hm (by omega) ha htie hp⟩

/-- **C117**: `infer_missing`, for all attributes: what is given is kept, what the concept found does not record stays
missing, and every other attribute, hidden or not, gets a most frequent option among the concept's instances. -/
theorem C117_infer_all (h : ReachX R XF.Valid hid cfg st hist n) (hlen : hist.length ≤ 2 ^ 52) {e : XEnv V}
    {add : List ℝ → ℝ} {tie : TieBreak (Option (Option V)) ℝ} (htie : tie.Sound) {gauss : GaussX} {i out : XInst A V}
    {an : Bool} {w w' : World}
    (ho : inferMissingX R.fl e add hid cfg tie gauss st i .mostLikely an w = .ok (out, w')) :
    ∃ leaf ∈ st.root.leaves, ∃ w1, categorizeX R.fl e hid cfg st i w = .ok (leaf, w1) ∧
      ∃ m ≤ (hist : Multiset (XInst A V)), CountsX AnyCV leaf.stats m ∧
        (∀ a v, Dict.get? i a = some v → Dict.get? out a = some v) ∧
        (∀ a, a ∉ leaf.stats.av.keys → Dict.get? out a = Dict.get? i a) ∧
        ∀ a ∈ leaf.stats.av.keys, Dict.get? i a = none → MostFrequent leaf.stats m a an (Dict.get? out a) := by
  rw [inferMissingX, bind_ok] at ho
  obtain ⟨⟨leaf, w1⟩, hc, ho⟩ := ho
  have hl : leaf ∈ st.root.leaves := (categorizeLoopA_leaf _ _ _ _ hc).1
  obtain ⟨m, hle, hm⟩ := (C99_every_node h).2.2 leaf (Tree.leaves_subset_nodes _ _ hl)
  have hcard : Multiset.card m ≤ hist.length := by simpa using Multiset.card_le_card hle
  obtain ⟨h1, h2⟩ := inferLoopX_each _ _ _ _ _ hm.nodup.1 ho
  refine ⟨leaf, hl, w1, hc, m, hle, hm, fun a v hv => ?_, fun a ha => h1 a (.inl ha), fun a ha hn => ?_⟩
  · rw [h1 a (.inr (by rw [hv]; simp)), hv]
  · obtain ⟨w2, w3, hp⟩ := h2 a ha hn
    exact predictX_most hm (by omega) ha htie hp

/-- The wild history again: there is a prediction at the root, and it is a most frequent option. -/
example : ∃ st n, ReachX ieee XF.Valid Demo.hid (⟨1 / 2, id⟩ : Cfg3 ℕ ℕ) st Demo.wild n ∧ Demo.wild.length ≤ 2 ^ 52 ∧
    ∃ r w', XStats.predictX ieee.fl (fun _ => 0) List.sum (fun _ => .error .typeErr) (fun x _ w => (x, w)) st.root.stats 1
      .mostLikely true Demo.w0 = .ok (r, w') := by
  obtain ⟨st, n, h⟩ := reachX_exists (R := ieee) ⟨1 / 2, id⟩ Demo.wild Demo.wild_ok
  have h' := reachX_mono (fun x hx => XF.Moderate.valid hx) h
  obtain ⟨⟨r, w'⟩, e⟩ := C117_predict_defined h' (x := st.root) (Tree.self_mem_nodes _) 1 (fun _ => 0) List.sum
    (tie := fun _ => .error .typeErr) (fun l a h => by cases h) (fun x _ w => (x, w)) true (w := Demo.w0)
    (fun a b hab => by simpa [Demo.w0] using hab)
  exact ⟨st, n, h', by simp [Demo.wild], r, w', e⟩

end CF
