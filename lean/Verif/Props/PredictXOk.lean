/-
C117: predictions with all Python floats do not raise.
-/
import Verif.Props.PredictX
import Verif.Props.FloatInfer

namespace CF
variable {A B V : Type} [DecidableEq A] [DecidableEq B] [DecidableEq V] {R : Rounding} {hid : A → Bool}
variable {cfg : Cfg3 A B} {st : XState A B V} {hist : List (XInst A V)} {n : ℕ}

theorem one_value (L : List V) (hL : L.Nodup) (o : Option (XVal V)) :
    (L.map fun v => if o = some (.nom v) then 1 else 0).sum + (if (o.bind XVal.num?).isSome then 1 else 0) ≤ 1 := by
  rcases o with _ | u | x
  · simp
  · have : ∀ L : List V, L.Nodup → (L.map fun v => if (some (XVal.nom u)) = some (.nom v) then 1 else 0).sum ≤ 1 ∧
        (u ∉ L → (L.map fun v => if (some (XVal.nom u)) = some (.nom v) then 1 else 0).sum = 0) := by
      intro L
      induction L with
      | nil => simp
      | cons v L ih =>
        intro h
        obtain ⟨h1, h2⟩ := List.nodup_cons.1 h
        obtain ⟨ih1, ih2⟩ := ih h2
        constructor
        · rw [List.map_cons, List.sum_cons]
          by_cases e : u = v
          · subst e
            rw [ih2 h1]; simp
          · have : ¬ (some (XVal.nom u) = some (XVal.nom v)) := by simpa using e
            rw [if_neg this]; omega
        · intro hu
          simp only [List.mem_cons, not_or] at hu
          have : ¬ (some (XVal.nom u) = some (XVal.nom v)) := by simpa using hu.1
          rw [List.map_cons, List.sum_cons, if_neg this, ih2 hu.2]
    have := (this L hL).1
    simpa [XVal.num?] using this
  · simp [XVal.num?]

theorem values_le (L : List V) (hL : L.Nodup) (m : Multiset (XInst A V)) (a : A) :
    (L.map fun v => occ m a (.nom v)).sum + Multiset.card (numsX m a) ≤ Multiset.card m := by
  induction m using Multiset.induction_on with
  | empty => simp [occ, numsX]
  | cons i m ih =>
    have h1 := one_value L hL (Dict.get? i a)
    have e1 : (L.map fun v => occ (i ::ₘ m) a (.nom v)).sum = (L.map fun v => occ m a (.nom v)).sum +
        (L.map fun v => if Dict.get? i a = some (.nom v) then 1 else 0).sum := by
      rw [← List.sum_map_add]
      congr 1
      refine List.map_congr_left fun v _ => ?_
      unfold occ
      rw [Multiset.countP_cons]
    have e2 : Multiset.card (numsX (i ::ₘ m) a) = Multiset.card (numsX m a) +
        (if ((Dict.get? i a).bind XVal.num?).isSome then 1 else 0) := by
      unfold numsX
      cases hx : (Dict.get? i a).bind XVal.num? with
      | none => rw [Multiset.filterMap_cons_none (f := fun i => (Dict.get? i a).bind XVal.num?) _ _ hx]; simp
      | some x => rw [Multiset.filterMap_cons_some (fun i => (Dict.get? i a).bind XVal.num?) _ _ hx]; simp
    rw [e1, e2, Multiset.card_cons]
    omega

section
variable {P : CV XF → Prop} {s : XStats A V} {m : Multiset (XInst A V)} {a : A} {t : XTab V}

theorem CountsX.total_le (hs : CountsX P s m) (ht : s.av.get? a = some t) : t.total ≤ s.count := by
  rw [hs.count]
  have hn := hs.nodup.2 _ (Dict.mem_of_get? ht)
  have h1 := values_le (t.noms.map Prod.fst) hn m a
  have e1 : ((t.noms.map Prod.fst).map fun v => occ m a (.nom v)).sum = (t.noms.map Prod.snd).sum := by
    rw [List.map_map]
    congr 1
    refine List.map_congr_left fun p hp => ?_
    have h2 := hs.noms a p.1
    rw [XStats.nomLookup, ht] at h2
    have h3 : t.noms.get? p.1 = some p.2 := Dict.get?_of_mem hn hp
    simp only [Option.bind_some, h3] at h2
    split at h2
    · cases h2
    · exact (Option.some.inj h2).symm
  have e2 : t.total = (t.noms.map Prod.snd).sum + ((t.cv.map CV.num).getD 0) := by
    unfold XTab.total XTab.entriesAt
    cases t.cv with
    | none => simp [Function.comp_def]
    | some c => simp [Function.comp_def, add_comm]
  have e3 : (t.cv.map CV.num).getD 0 = Multiset.card (numsX m a) := by
    have hcv : s.cvOf a = t.cv := by simp [XStats.cvOf, ht]
    rcases hs.cv a with ⟨h0, h4⟩ | ⟨-, c, h4, h5, -⟩
    · rw [hcv] at h4; simp [h4, h0]
    · rw [hcv] at h4; simp [h4, h5]
  omega

theorem CountsX.entries_ne (hs : CountsX P s m) (ht : s.av.get? a = some t) (p : ℕ) : t.entriesAt p ≠ [] := by
  unfold XTab.entriesAt
  cases hc : t.cv with
  | some c => simp
  | none =>
    obtain ⟨i, hi, hk⟩ := (hs.attrs a).1 (Dict.get?_isSome.1 (by rw [ht]; rfl))
    obtain ⟨v, hv⟩ := Option.isSome_iff_exists.1 (Dict.get?_isSome.2 hk)
    cases v with
    | nom v =>
      intro h0
      have h1 := hs.noms a v
      have h2 : occ m a (.nom v) ≠ 0 := by
        unfold occ
        rw [Ne, Multiset.countP_eq_zero]
        exact fun h => h i hi hv
      have h3 : t.noms = [] := by simpa using h0
      rw [if_neg h2, XStats.nomLookup, ht, Option.bind_some, h3] at h1
      simp [Dict.get?] at h1
    | num x =>
      have hcv : s.cvOf a = none := by simp [XStats.cvOf, ht, hc]
      rcases hs.cv a with ⟨h0, -⟩ | ⟨-, c, h4, -⟩
      · refine absurd h0 ?_
        have : x ∈ numsX m a := (Multiset.mem_filterMap _ _).2 ⟨i, hi, by rw [hv]; rfl⟩
        exact fun h => by rw [h] at this; simp at this
      · rw [hcv] at h4; cases h4

theorem predictX_ok (hs : CountsX P s m) (a : A) (pos : XTab V → ℕ) (add : List ℝ → ℝ)
    {tie : TieBreak (Option (Option V)) ℝ} (htie : tie.Sound) (gauss : GaussX) (an : Bool) {w : World}
    (hw : Function.Injective w.rnd) :
    ∃ r w', XStats.predictX R.fl pos add tie gauss s a .mostLikely an w = .ok (r, w') ∧ w'.rnd = w.rnd := by
  cases ht : s.av.get? a with
  | none => exact ⟨none, w, by simp [XStats.predictX, ht], rfl⟩
  | some t =>
    have hc : s.count ≠ 0 := by
      obtain ⟨i, hi, -⟩ := (hs.attrs a).1 (Dict.get?_isSome.1 (by rw [ht]; rfl))
      rw [hs.count]
      exact fun h => by rw [Multiset.card_eq_zero] at h; rw [h] at hi; simp at hi
    have hn : natF R.fl s.count ≠ 0 := natF_ne_zero hc
    obtain ⟨cs, hcs, hne, hpos, hkey⟩ : ∃ cs, XStats.weightedValuesX R.fl pos s a an = .ok cs ∧ cs ≠ [] ∧
        (∀ p ∈ cs, 0 ≤ p.2) ∧ ∀ p ∈ cs, p.1 = some none → t.cv ≠ none := by
      set l := (t.entriesAt (pos t)).map fun p => ((some p.1 : Option (Option V)), R.fl (natF R.fl p.2 / natF R.fl s.count))
        with hl
      have hl1 : l ≠ [] := by simpa [hl] using hs.entries_ne ht (pos t)
      have hl2 : ∀ p ∈ l, 0 ≤ p.2 := by
        intro p hp
        obtain ⟨q, -, rfl⟩ := List.mem_map.1 hp
        exact R.fl_nonneg (div_nonneg (R.natF_nonneg _) (R.natF_nonneg _))
      have hl3 : ∀ p ∈ l, p.1 = some none → t.cv ≠ none := by
        intro p hp hk h0
        obtain ⟨q, hq, rfl⟩ := List.mem_map.1 hp
        simp only [XTab.entriesAt, h0, List.mem_map] at hq
        obtain ⟨u, -, rfl⟩ := hq
        simp at hk
      cases an with
      | false =>
        exact ⟨l, by simp only [XStats.weightedValuesX, ht, weightLoopF_eq hc, ok_bind]; rfl, hl1, hl2, hl3⟩
      | true =>
        refine ⟨l ++ [(none, R.fl (R.fl (natF R.fl s.count - natF R.fl t.total) / natF R.fl s.count))], ?_, by simp, ?_, ?_⟩
        · simp only [XStats.weightedValuesX, ht, weightLoopF_eq hc, ok_bind, if_true, divF, if_neg hn]; rfl
        · intro p hp
          rcases List.mem_append.1 hp with hp | hp
          · exact hl2 p hp
          · rw [List.mem_singleton.1 hp]
            have : natF R.fl t.total ≤ natF R.fl s.count := R.mono (by exact_mod_cast hs.total_le ht)
            exact R.fl_nonneg (div_nonneg (R.fl_nonneg (by linarith)) (R.natF_nonneg _))
        · intro p hp hk
          rcases List.mem_append.1 hp with hp | hp
          · exact hl3 p hp hk
          · rw [List.mem_singleton.1 hp] at hk; cases hk
    obtain ⟨k, hk⟩ := C43_ok (tie := tie) (rnd := w.draw) hne hpos (by
      refine List.nodup_range.map fun j k hjk => ?_
      have := hw hjk; omega)
    obtain ⟨x, hx, -⟩ := C43_maximal htie hk
    have hpre : XStats.predictX R.fl pos add tie gauss s a .mostLikely an w =
        finishPredictX R.fl gauss t .mostLikely (k, w.skip cs.length) := by
      simp [XStats.predictX, ht, hcs, ok_bind, chooseF, hk, Except.map]
    rw [hpre]
    rcases k with _ | _ | v
    · exact ⟨_, _, rfl, rfl⟩
    · obtain ⟨c, hcv⟩ := Option.ne_none_iff_exists'.1 (hkey _ hx rfl)
      exact ⟨some (.num c.mean), w.skip cs.length, by simp [finishPredictX, hcv], rfl⟩
    · exact ⟨_, _, rfl, rfl⟩

theorem inferLoopX_ok (hs : CountsX P s m) (pos : XTab V → ℕ) (add : List ℝ → ℝ)
    {tie : TieBreak (Option (Option V)) ℝ} (htie : tie.Sound) (gauss : GaussX) (an : Bool) :
    ∀ (keys : List A) (temp : XInst A V) (w : World), Function.Injective w.rnd →
      ∃ r, inferLoopX R.fl pos add tie gauss s .mostLikely an keys temp w = .ok r := by
  intro keys
  induction keys with
  | nil => intro temp w _; exact ⟨_, rfl⟩
  | cons b keys ih =>
    intro temp w hw
    rw [inferLoopX]
    split
    · exact ih temp w hw
    · obtain ⟨r, w', e, hr⟩ := predictX_ok (R := R) hs b pos add htie gauss an hw
      rw [e, ok_bind]
      cases r with
      | none => exact ih temp w' (hr ▸ hw)
      | some v => exact ih _ w' (hr ▸ hw)

end

/-- **C117**: a 'most likely' prediction raises at no concept of any reachable tree, if the random numbers differ. -/
theorem C117_predict_defined (h : ReachX R XF.Valid hid cfg st hist n) {x : Tree (XStats A V)} (hx : x ∈ st.root.nodes)
    (a : A) (pos : XTab V → ℕ) (add : List ℝ → ℝ) {tie : TieBreak (Option (Option V)) ℝ} (htie : tie.Sound)
    (gauss : GaussX) (an : Bool) {w : World} (hw : Function.Injective w.rnd) :
    ∃ r, XStats.predictX R.fl pos add tie gauss x.stats a .mostLikely an w = .ok r := by
  obtain ⟨m, -, hm⟩ := (C99_every_node h).2.2 x hx
  obtain ⟨r, w', e, -⟩ := predictX_ok (R := R) hm a pos add htie gauss an hw
  exact ⟨_, e⟩

/-- **C117**: `infer_missing` with the default choice function does not raise, if the numbers are below 2^1023 in magnitude
or infinite and the random numbers differ; so `C117_infer` tells what it returns. -/
theorem C117_infer_defined (h : ReachX R XF.Moderate hid cfg st hist n) (hv : ∀ j ∈ hist, HasVisible hid j)
    {e : XEnv V} (he : (e.ar R.fl).Sorts) (hs : ∀ l : List (Cand XF), (l.map Cand.rnd).Nodup → ∃ l', e.srt l = .ok l')
    (add : List ℝ → ℝ) {tie : TieBreak (Option (Option V)) ℝ} (htie : tie.Sound) (gauss : GaussX) {i : XInst A V}
    (hi : XInstOk XF.Moderate i) (an : Bool) {w : World} (hw : Function.Injective w.rnd) :
    ∃ out w', inferMissingX R.fl e add hid cfg tie gauss st i .mostLikely an w = .ok (out, w') := by
  obtain ⟨-, leaf, w1, hc, hl⟩ := C99_never_raises_partial h hv he hs hi hw
  have h' := reachX_mono (fun x hx => XF.Moderate.valid hx) h
  obtain ⟨m, -, hm⟩ := (C99_every_node h').2.2 leaf (Tree.leaves_subset_nodes _ _ hl)
  have hr : w1.rnd = w.rnd := categorizeLoopA_rnd _ _ _ _ hc
  obtain ⟨⟨out, w'⟩, ho⟩ := inferLoopX_ok (R := R) hm e.pos add htie gauss an leaf.stats.av.keys i w1 (hr ▸ hw)
  exact ⟨out, w', by rw [inferMissingX, hc, ok_bind]; exact ho⟩

/-- The wild history: `infer_missing` of an empty instance returns something. -/
example : ∃ st n, ReachX ieee XF.Moderate Demo.hid (⟨1 / 2, id⟩ : Cfg3 ℕ ℕ) st Demo.wild n ∧
    ∃ out w', inferMissingX ieee.fl Demo.env List.sum Demo.hid ⟨1 / 2, id⟩ (fun _ => .error .typeErr)
      (fun x _ w => (x, w)) st [] .mostLikely true Demo.w0 = .ok (out, w') := by
  obtain ⟨st, n, h⟩ := reachX_exists (R := ieee) ⟨1 / 2, id⟩ Demo.wild Demo.wild_ok
  refine ⟨st, n, h, C117_infer_defined h (fun j hj => (Demo.wild_ok j hj).2) (Demo.env_sorts _) (fun l _ => ⟨l, rfl⟩)
    List.sum (fun l a h => by cases h) _ ⟨by simp [Dict.Nodup, Dict.keys], by simp [Dict.get?], by simp [Dict.get?]⟩ true ?_⟩
  intro a b hab
  simpa [Demo.w0] using hab

end CF
