/-
Property C105: what is read from the dicts of a `Cobweb3Tree`, in the order of the dicts.
-/
import Verif.Proofs.RawRead
import Verif.Props.Sampled3
import Verif.Props.Infer3

set_option linter.unusedSectionVars false

namespace CF
variable {A B V : Type} [DecidableEq A] [DecidableEq B] [DecidableEq V] {key : V} {hid : A → Bool}
  {ord : RawStats A V → Inst3 A V → List A} {cfg : Cfg3 A B} {u : RawState A B V} {hist : List (Inst3 A V)} {n : ℕ}

/-- The concepts of a reachable tree. -/
theorem rawNode (hord : UnionOrder hid ord) (h : ReachRaw key hid ord cfg u hist n) {x : Tree (RawStats A V)}
    (hx : x ∈ u.root.nodes) : ∃ (st : State3 A B V) (y : Tree (Stats3 A V)) (m : Multiset (Inst3 A V)),
      Reach3 hid cfg st hist n ∧ y ∈ st.root.nodes ∧ EncodesAll key x.stats y.stats ∧ Summarizes3 y.stats m ∧
      m ≤ (hist : Multiset (Inst3 A V)) := by
  obtain ⟨st, h1, -, -, h3⟩ := reachRaw_reach3 hord h
  obtain ⟨y, hy, h4⟩ := forall₂_mem_right h3.nodes hx
  obtain ⟨m, hle, hs⟩ := (C29_every_node h1).2 y hy
  exact ⟨st, y, m, h1, hy, h4.stats, hs, hle⟩

/-- **C105**, the tables: after every history the dicts of every concept record exactly some of the fitted
instances, those of the root all of them. -/
theorem C105_tables (hord : UnionOrder hid ord) (h : ReachRaw key hid ord cfg u hist n) :
    RawSums key u.root.stats (hist : Multiset (Inst3 A V)) ∧
    ∀ x ∈ u.root.nodes, ∃ m ≤ (hist : Multiset (Inst3 A V)), RawSums key x.stats m := by
  refine ⟨?_, fun x hx => ?_⟩
  · obtain ⟨st, h1, -, -, h3⟩ := reachRaw_reach3 hord h
    exact rawSums_of h3.stats (C29_every_node h1).1
  · obtain ⟨_, _, m, -, -, he, hs, hle⟩ := rawNode hord h hx
    exact ⟨m, hle, rawSums_of he hs⟩

/-! ### Predictions -/

/-- **C105**, `get_weighted_values`: the keys in the order of the dict, each with the share of the stored instances
that it stands for, and the share of those without the attribute last. -/
theorem C105_weighted_values (hord : UnionOrder hid ord) (h : ReachRaw key hid ord cfg u hist n)
    {x : Tree (RawStats A V)} (hx : x ∈ u.root.nodes) {a : A} (ha : a ∈ x.stats.av.keys) :
    ∃ m ≤ (hist : Multiset (Inst3 A V)), RawSums key x.stats m ∧ ∀ an,
      x.stats.weightedValues key a an = .ok ((x.stats.candidates a an).map fun o => (o, keyShare key m a o)) := by
  obtain ⟨-, y, m, -, -, he, hs, hle⟩ := rawNode hord h hx
  have hm : m ≠ 0 := by
    rintro rfl; obtain ⟨i, hi, -⟩ := ((rawSums_of he hs).attrs a).1 ha; simp at hi
  exact ⟨m, hle, rawSums_of he hs, fun an => rawWeighted_eq he hs hm ha an⟩

/-- **C105**, 'most likely': the prediction for a known attribute is `None` (only if allowed), a nominal value recorded
in the concept, or the mean of the numbers stored; whichever it is, no candidate has a larger share. -/
theorem C105_predict_most_likely (hord : UnionOrder hid ord) (h : ReachRaw key hid ord cfg u hist n)
    {x : Tree (RawStats A V)} (hx : x ∈ u.root.nodes) {a : A} (ha : a ∈ x.stats.av.keys)
    {tie : TieBreak (Option V) ℝ} (htie : tie.Sound) {gauss : Gauss} {an : Bool} {w w' : World} {p : Option (Val V)}
    (hp : x.stats.predict key tie gauss a .mostLikely an w = .ok (p, w')) :
    ∃ m ≤ (hist : Multiset (Inst3 A V)), RawSums key x.stats m ∧ ∃ k ∈ x.stats.candidates a an,
      (∀ k' ∈ x.stats.candidates a an, keyShare key m a k' ≤ keyShare key m a k) ∧
      ((k = none ∧ p = none ∧ an = true) ∨
       (∃ v, v ≠ key ∧ k = some v ∧ p = some (.nom v) ∧ occ m a (.nom v) ≠ 0) ∨
       (k = some key ∧ p = some (.num ((nums m a).sum / Multiset.card (nums m a))) ∧ nums m a ≠ 0)) := by
  obtain ⟨-, y, m, -, -, he, hs, hle⟩ := rawNode hord h hx
  have hsum := rawSums_of he hs
  have hm : m ≠ 0 := by
    rintro rfl; obtain ⟨i, hi, -⟩ := (hsum.attrs a).1 ha; simp at hi
  obtain ⟨t, hg⟩ : ∃ t, x.stats.av.get? a = some t := Option.isSome_iff_exists.1 (Dict.get?_isSome.2 ha)
  rw [rawPredict_known he hs hm hg (by decide), bind_ok] at hp
  obtain ⟨⟨k, w1⟩, hc, hf⟩ := hp
  simp only [choose, reduceCtorEq, decide_false, Bool.false_eq_true, if_false] at hc
  cases hml : mostLikelyChoice tie ((x.stats.candidates a an).map fun o => (o, keyShare key m a o)) w.draw with
  | error e => rw [hml] at hc; simp [Except.map] at hc
  | ok k' =>
    rw [hml] at hc
    simp only [Except.map, Except.ok.injEq, Prod.mk.injEq] at hc
    obtain ⟨rfl, -⟩ := hc
    obtain ⟨q, h1, h2⟩ := C43_maximal htie hml
    obtain ⟨h3, rfl⟩ := mem_map_candR h1
    refine ⟨m, hle, hsum, k', h3, fun o ho => h2 _ (List.mem_map.2 ⟨o, ho, rfl⟩), ?_⟩
    rcases k' with _ | v
    · left
      simp only [rawFinish, Except.ok.injEq, Prod.mk.injEq] at hf
      exact ⟨rfl, hf.1.symm, mem_candidates_none h3⟩
    · right
      have hk := (mem_rawKeys he hs).1 (mem_candidates_some h3)
      by_cases hv : v = key
      · right
        subst hv
        obtain ⟨h4, c, h5, h6⟩ := rawCell_key he hs hg hk
        simp only [rawFinish, if_true, h5, Except.ok.injEq, Prod.mk.injEq] at hf
        refine ⟨rfl, ?_, h4⟩
        rw [← hf.1, h6.mean]; rfl
      · left
        simp only [rawFinish, if_neg hv, Except.ok.injEq, Prod.mk.injEq] at hf
        refine ⟨v, hv, rfl, hf.1.symm, fun h0 => ?_⟩
        simp [keyShare, kind_ne hv, share, freq_nom, prob, h0] at hk

/-- **C105**: 'most likely' predictions succeed when the random numbers are distinct. -/
theorem C105_predict_total (hord : UnionOrder hid ord) (h : ReachRaw key hid ord cfg u hist n)
    {x : Tree (RawStats A V)} (hx : x ∈ u.root.nodes) (a : A) {tie : TieBreak (Option V) ℝ} (htie : tie.Sound)
    (gauss : Gauss) (an : Bool) {w : World} (hw : Function.Injective w.rnd) :
    ∃ p w', x.stats.predict key tie gauss a .mostLikely an w = .ok (p, w') ∧ w'.rnd = w.rnd := by
  cases hg : x.stats.av.get? a with
  | none => exact ⟨none, w, by simp [RawStats.predict, hg], rfl⟩
  | some t =>
    have ha : a ∈ x.stats.av.keys := Dict.get?_isSome.1 (by simp [hg])
    obtain ⟨-, y, m, -, -, he, hs, hle⟩ := rawNode hord h hx
    have hm : m ≠ 0 := by
      rintro rfl; obtain ⟨i, hi, -⟩ := ((rawSums_of he hs).attrs a).1 ha; simp at hi
    have hne : x.stats.candidates a an ≠ [] := by
      have := rawKeys_ne_nil he hs ha
      simp [RawStats.candidates, this]
    obtain ⟨k, hk⟩ := C43_ok (tie := tie) (rnd := w.draw)
      (choices := (x.stats.candidates a an).map fun o => (o, keyShare key m a o))
      (by simpa using hne)
      (by rintro ⟨o, p⟩ hp; obtain ⟨-, rfl⟩ := mem_map_candR hp; exact share_nonneg m a _)
      (by
        refine List.nodup_range.map fun j k hjk => ?_
        have := hw hjk; omega)
    have hkm : k ∈ x.stats.candidates a an := by
      obtain ⟨p, h1, -⟩ := C43_maximal htie hk
      exact (mem_map_candR h1).1
    have hch : choose tie (decide (ChoiceFn.mostLikely = .sampled))
        ((x.stats.candidates a an).map fun o => (o, keyShare key m a o)) w =
        .ok (k, w.skip ((x.stats.candidates a an).map fun o => (o, keyShare key m a o)).length) := by
      simp [choose, hk, Except.map]
    rw [rawPredict_known he hs hm hg (by decide), hch, ok_bind]
    rcases k with _ | v
    · exact ⟨_, _, rfl, rfl⟩
    · by_cases hv : v = key
      · subst hv
        obtain ⟨-, c, h5, -⟩ := rawCell_key he hs hg ((mem_rawKeys he hs).1 (mem_candidates_some hkm))
        exact ⟨some (.num c.mean), w.skip _, by simp only [rawFinish, if_true, h5]; rfl, rfl⟩
      · exact ⟨some (.nom v), w.skip _, by simp only [rawFinish, if_neg hv]; rfl, rfl⟩

/-- **C105**, 'sampled': the unit interval, scaled to the total share, is divided among the candidates in the order of
the dict, each getting its share; the random number picks the one in whose interval it falls, and a drawn number
comes from the normal distribution with the mean and the corrected deviation of the numbers stored. -/
theorem C105_predict_sampled (hord : UnionOrder hid ord) (h : ReachRaw key hid ord cfg u hist n)
    {x : Tree (RawStats A V)} (hx : x ∈ u.root.nodes) {a : A} (ha : a ∈ x.stats.av.keys) (tie : TieBreak (Option V) ℝ)
    (gauss : Gauss) (an : Bool) {w : World} (h0 : 0 ≤ w.draw 0) (h1 : w.draw 0 < 1) :
    ∃ m ≤ (hist : Multiset (Inst3 A V)), RawSums key x.stats m ∧
      0 < ((x.stats.candidates a an).map (keyShare key m a)).sum ∧
      (∀ pre k post, x.stats.candidates a an = pre ++ k :: post →
        (pre.map (keyShare key m a)).sum ≤ ((x.stats.candidates a an).map (keyShare key m a)).sum * (w.draw 0 : ℝ) →
        ((x.stats.candidates a an).map (keyShare key m a)).sum * (w.draw 0 : ℝ) <
          (pre.map (keyShare key m a)).sum + keyShare key m a k →
        x.stats.predict key tie gauss a .sampled an w =
          .ok (sampleOutcome gauss (nums m a) (w.skip 1) (k.map (kind key)))) ∧
      ∃ pre k post, x.stats.candidates a an = pre ++ k :: post ∧
        (pre.map (keyShare key m a)).sum ≤ ((x.stats.candidates a an).map (keyShare key m a)).sum * (w.draw 0 : ℝ) ∧
        ((x.stats.candidates a an).map (keyShare key m a)).sum * (w.draw 0 : ℝ) <
          (pre.map (keyShare key m a)).sum + keyShare key m a k := by
  obtain ⟨-, y, m, -, -, he, hs, hle⟩ := rawNode hord h hx
  have hsum := rawSums_of he hs
  have hm : m ≠ 0 := by
    rintro rfl; obtain ⟨i, hi, -⟩ := (hsum.attrs a).1 ha; simp at hi
  obtain ⟨t, hg⟩ : ∃ t, x.stats.av.get? a = some t := Option.isSome_iff_exists.1 (Dict.get?_isSome.2 ha)
  have hws : ∀ l : List (Option V), weightSum (l.map fun o => (o, keyShare key m a o)) =
      (l.map (keyShare key m a)).sum := by
    intro l; simp [weightSum, Function.comp_def]
  have hnn : ∀ l : List (Option V), ∀ p ∈ l.map (fun o => (o, keyShare key m a o)), 0 ≤ p.2 := by
    intro l p hp
    obtain ⟨o, -, rfl⟩ := List.mem_map.1 hp
    exact share_nonneg m a _
  have hpos : 0 < ((x.stats.candidates a an).map (keyShare key m a)).sum := by
    obtain ⟨k, hk⟩ := List.exists_mem_of_ne_nil _ (rawKeys_ne_nil he hs ha)
    have h2 := (mem_rawKeys he hs).1 hk
    refine lt_of_lt_of_le h2 (List.single_le_sum ?_ _ ?_)
    · intro y hy
      obtain ⟨o, -, rfl⟩ := List.mem_map.1 hy
      exact share_nonneg m a _
    · exact List.mem_map_of_mem (by simp [RawStats.candidates, hk])
  have h0' : (0 : ℝ) ≤ ((w.draw 0 : ℚ) : ℝ) := by exact_mod_cast h0
  have h1' : ((w.draw 0 : ℚ) : ℝ) < 1 := by exact_mod_cast h1
  obtain ⟨hd1, hd2, hd3⟩ := C42_draw ((x.stats.candidates a an).map fun o => (o, keyShare key m a o))
    ((w.draw 0 : ℚ) : ℝ) h0' h1' (by rw [hws]; exact hpos)
  refine ⟨m, hle, hsum, hpos, ?_, ?_⟩
  · intro pre k post e hlo hhi
    have e' : (x.stats.candidates a an).map (fun o => (o, keyShare key m a o)) =
        (pre.map fun o => (o, keyShare key m a o)) ++
          (k, keyShare key m a k) :: post.map fun o => (o, keyShare key m a o) := by
      rw [e]; simp
    have hpick := C42_interval (pre.map fun o => (o, keyShare key m a o)) (post.map fun o => (o, keyShare key m a o)) k
      (keyShare key m a k) (((x.stats.candidates a an).map (keyShare key m a)).sum * ((w.draw 0 : ℚ) : ℝ)) (hnn pre)
      (by rw [hws]; exact hlo) (by rw [hws]; exact hhi)
    rw [← e', ← hws, ← hd1] at hpick
    rw [rawPredict_known he hs hm hg (by decide)]
    simp only [choose, decide_true, if_true, hpick, Except.map, ok_bind]
    rcases k with _ | v
    · rfl
    · have hk : 0 < keyShare key m a (some v) := by linarith
      by_cases hv : v = key
      · subst hv
        obtain ⟨-, c, h5, h6⟩ := rawCell_key he hs hg hk
        simp only [rawFinish, if_true, h5, reduceCtorEq, if_false, unbiasedStd_eq h6, ok_bind, Option.map_some,
          kind_self, sampleOutcome, CV.unbiasedMean, h6.mean]
        rfl
      · simp only [rawFinish, if_neg hv, Option.map_some, kind_ne hv, sampleOutcome]
  · obtain ⟨pre, c, q, post, e, hlo, hhi, -, -⟩ := C42_selects _ _ (hnn _) hd2 hd3
    obtain ⟨p1, p2, hp, e1, e2⟩ := List.map_eq_append_iff.1 e
    obtain ⟨y, p3, rfl, e3, e4⟩ := List.map_eq_cons_iff.1 e2
    simp only [Prod.mk.injEq] at e3
    obtain ⟨rfl, rfl⟩ := e3
    rw [← e1, hws, hws] at hlo hhi
    exact ⟨p1, y, p3, hp, hlo, hhi⟩

/-! ### `infer_missing` -/

/-- Categorizing ends at a leaf. -/
theorem categorizeLoop_leaf {I S K : Type} [Field K] [LinearOrder K] {C : NodeClass I S} {e : S → Res K} {i : I} :
    ∀ (fuel : ℕ) (t : Tree S) (w : World) (c : Tree S × World), categorizeLoop C e i fuel t w = .ok c →
      c.1 ∈ t.leaves := by
  intro fuel
  induction fuel with
  | zero => intro t w c h; simp [categorizeLoop] at h
  | succ fuel ih =>
    intro t w c h
    match t with
    | .node id s [] =>
      simp only [categorizeLoop] at h
      cases h
      rw [Tree.leaves_nil]; simp
    | .node id s (d :: ds) =>
      simp only [categorizeLoop, bind_ok] at h
      obtain ⟨b, -, h⟩ := h
      split at h
      · cases h
      · rename_i t1 ht1
        rw [Tree.leaves_node _ _ (by simp)]
        exact List.mem_flatMap.2 ⟨t1, List.mem_of_getElem? ht1, ih _ _ _ h⟩

theorem unsettle_leaves {S : Type} (t : Tree S) : (unsettle t).leaves = t.leaves.map unsettle := by
  have e : ∀ cs : List (Tree S), unsettleL cs = cs.map unsettle := by
    intro cs
    induction cs with
    | nil => rfl
    | cons c cs ih => rw [unsettleL, ih]; rfl
  induction t using Tree.ind with
  | h id s cs ih =>
    rw [unsettle, e]
    by_cases h0 : cs = []
    · subst h0
      simp [Tree.leaves_nil, unsettle, unsettleL]
    · rw [Tree.leaves_node _ _ h0, Tree.leaves_node _ _ (by simpa using h0), List.flatMap_map, List.map_flatMap]
      simp only [List.flatMap_def]
      exact congrArg _ (List.map_congr_left fun c hc => ih c hc)

/-- `categorize` returns a leaf of the tree. -/
theorem rawCategorize_leaf {i : Inst3 A V} {w w' : World} {c : Tree (RawStats A V)}
    (h : rawCategorize key hid ord cfg u i w = .ok (c, w')) : c ∈ u.root.leaves := by
  unfold rawCategorize at h
  simp only [bind_ok, pure_ok, Prod.mk.injEq] at h
  obtain ⟨⟨q, w1⟩, h1, c', h2, rfl, -⟩ := h
  have h3 := categorizeLoop_leaf _ _ _ _ h1
  rw [unsettle_leaves] at h3
  obtain ⟨d, hd, h4⟩ := List.mem_map.1 h3
  dsimp only at h4 h2
  rw [← h4, settle_unsettle] at h2
  exact Except.ok.inj h2 ▸ hd

/-- What `predict` can return. -/
theorem rawPredict_range (hord : UnionOrder hid ord) (h : ReachRaw key hid ord cfg u hist n)
    {x : Tree (RawStats A V)} (hx : x ∈ u.root.nodes) {a : A} (ha : a ∈ x.stats.av.keys)
    {tie : TieBreak (Option V) ℝ} (htie : tie.Sound) {gauss : Gauss} {fn : ChoiceFn} {an : Bool} {w w' : World}
    {p : Option (Val V)} (hp : x.stats.predict key tie gauss a fn an w = .ok (p, w')) :
    (p = none ∧ an = true) ∨ ∃ v, p = some v ∧ match v with
      | .nom v => v ≠ key ∧ ∃ k, x.stats.cell a v = some (.inl k)
      | .num y => ∃ c : CV ℝ, x.stats.cell a key = some (.inr c) ∧ (fn = .mostLikely → y = c.mean) := by
  obtain ⟨_, y, m, -, -, he, hs, hle⟩ := rawNode hord h hx
  have hsum := rawSums_of he hs
  have hm : m ≠ 0 := by
    rintro rfl; obtain ⟨i, hi, -⟩ := (hsum.attrs a).1 ha; simp at hi
  obtain ⟨t, hg⟩ : ∃ t, x.stats.av.get? a = some t := Option.isSome_iff_exists.1 (Dict.get?_isSome.2 ha)
  have hfn : fn ≠ .other := by rintro rfl; simp [RawStats.predict] at hp
  rw [rawPredict_known he hs hm hg hfn, bind_ok] at hp
  obtain ⟨⟨k, w1⟩, hc, hf⟩ := hp
  obtain ⟨q, hk⟩ := choose_mem htie hc
  obtain ⟨hk, -⟩ := mem_map_candR hk
  rcases k with _ | v
  · left
    simp only [rawFinish, Except.ok.injEq, Prod.mk.injEq] at hf
    exact ⟨hf.1.symm, mem_candidates_none hk⟩
  · right
    have hpos := (mem_rawKeys he hs).1 (mem_candidates_some hk)
    by_cases hv : v = key
    · subst hv
      obtain ⟨-, c, h5, h6⟩ := rawCell_key he hs hg hpos
      have hcell : x.stats.cell a v = some (.inr c) := by simp [RawStats.cell, hg, h5]
      simp only [rawFinish, if_true, h5] at hf
      split at hf
      · simp only [Except.ok.injEq, Prod.mk.injEq] at hf
        exact ⟨_, hf.1.symm, c, hcell, fun _ => rfl⟩
      · rename_i hml
        obtain ⟨sd, -, hf⟩ := bind_ok.1 hf
        simp only [pure_ok, Prod.mk.injEq] at hf
        exact ⟨_, hf.1.symm, c, hcell, fun hh => absurd hh hml⟩
    · simp only [rawFinish, if_neg hv, Except.ok.injEq, Prod.mk.injEq] at hf
      refine ⟨_, hf.1.symm, hv, ?_⟩
      have h0 : occ m a (.nom v) ≠ 0 := fun h0 => by
        simp [keyShare, kind_ne hv, share, freq_nom, prob, h0] at hpos
      exact ⟨_, by rw [hsum.noms a v hv, if_neg h0]⟩

theorem rawInferLoop_spec {s : RawStats A V} {tie : TieBreak (Option V) ℝ} {gauss : Gauss} {fn : ChoiceFn}
    {an : Bool} {P : A → Val V → Prop}
    (hpred : ∀ a ∈ s.av.keys, ∀ w r w', s.predict key tie gauss a fn an w = .ok (r, w') →
      (r = none ∧ an = true) ∨ ∃ v, r = some v ∧ P a v) :
    ∀ (as : List A), (∀ a ∈ as, a ∈ s.av.keys) → ∀ (temp out : Inst3 A V) (w w' : World),
      rawInferLoop key tie gauss s fn an as temp w = .ok (out, w') →
      (∀ a ∈ Dict.keys temp, Dict.get? out a = Dict.get? temp a) ∧
      (∀ a v, a ∉ Dict.keys temp → Dict.get? out a = some v → a ∈ as ∧ P a v) ∧
      (an = false → ∀ a ∈ as, a ∈ Dict.keys out) ∧ (Dict.Nodup temp → Dict.Nodup out) := by
  intro as
  induction as with
  | nil =>
    intro _ temp out w w' h
    simp [rawInferLoop] at h
    obtain ⟨rfl, -⟩ := h
    refine ⟨fun _ _ => rfl, fun a v ha hv => absurd (Dict.get?_isSome.1 (by simp [hv])) ha, by simp, id⟩
  | cons a as ih =>
    intro has temp out w w' h
    have has' : ∀ b ∈ as, b ∈ s.av.keys := fun b hb => has b (by simp [hb])
    unfold rawInferLoop at h
    split at h
    · rename_i hin
      obtain ⟨h1, h2, h3, h4⟩ := ih has' temp out w w' h
      refine ⟨h1, fun b v hb hv => ?_, fun han b hb => ?_, h4⟩
      · obtain ⟨h5, h6⟩ := h2 b v hb hv; exact ⟨by simp [h5], h6⟩
      · rcases List.mem_cons.1 hb with rfl | hb
        · have := Dict.has_iff.1 hin
          rw [← Dict.get?_isSome, h1 b this]; exact hin
        · exact h3 han b hb
    · rename_i hin
      have hnk : a ∉ Dict.keys temp := fun hk => hin (Dict.has_iff.2 hk)
      rw [bind_ok] at h
      obtain ⟨⟨v, w1⟩, hp, h⟩ := h
      have hc := hpred a (has a (by simp)) w v w1 hp
      cases v with
      | none =>
        simp only at h
        obtain ⟨h1, h2, h3, h4⟩ := ih has' temp out w1 w' h
        refine ⟨h1, fun b v hb hv => ?_, fun han b hb => ?_, h4⟩
        · obtain ⟨h5, h6⟩ := h2 b v hb hv; exact ⟨by simp [h5], h6⟩
        · subst han; simp at hc
      | some v =>
        simp only at h
        obtain ⟨h1, h2, h3, h4⟩ := ih has' _ out w1 w' h
        have hv : P a v := by simpa using hc
        refine ⟨fun b hb => ?_, fun b u hb hu => ?_, fun han b hb => ?_, fun hnd => h4 (Dict.nodup_set hnd _ _)⟩
        · rw [h1 b (Dict.mem_keys_set.2 (Or.inr hb)), Dict.get?_set_ne _ (by rintro rfl; exact hnk hb)]
        · by_cases hba : b = a
          · subst hba
            rw [h1 b (Dict.mem_keys_set.2 (Or.inl rfl)), Dict.get?_set_self] at hu
            cases hu; exact ⟨by simp, hv⟩
          · obtain ⟨h5, h6⟩ := h2 b u (by rw [Dict.mem_keys_set]; simp [hba, hb]) hu
            exact ⟨by simp [h5], h6⟩
        · rcases List.mem_cons.1 hb with rfl | hb
          · rw [← Dict.get?_isSome, h1 b (Dict.mem_keys_set.2 (Or.inl rfl)), Dict.get?_set_self]; rfl
          · exact h3 han b hb

/-- **C105**: `infer_missing` returns an instance that keeps every given value and adds only values recorded in the
leaf that `categorize` finds: nominal values counted there, numbers only for attributes with an accumulator, with
'most likely' its mean.  With `allow_none=False` every attribute recorded there is filled. -/
theorem C105_infer_missing (hord : UnionOrder hid ord) (h : ReachRaw key hid ord cfg u hist n)
    {tie : TieBreak (Option V) ℝ} (htie : tie.Sound) {gauss : Gauss} {i out i' : Inst3 A V} (hi : Dict.Nodup i)
    {fn : ChoiceFn} {an : Bool} {w w' : World}
    (hr : rawInferMissing key hid ord cfg tie gauss u i fn an w = .ok (out, i', w')) :
    i' = i ∧ Dict.Nodup out ∧
    ∃ c w1, rawCategorize key hid ord cfg u i w = .ok (c, w1) ∧ c ∈ u.root.leaves ∧
      (∀ a v, Dict.get? i a = some v → Dict.get? out a = some v) ∧
      (∀ a v, Dict.get? i a = none → Dict.get? out a = some v → match v with
        | .nom x => x ≠ key ∧ ∃ k, c.stats.cell a x = some (.inl k)
        | .num x => ∃ k : CV ℝ, c.stats.cell a key = some (.inr k) ∧ (fn = .mostLikely → x = k.mean)) ∧
      (an = false → ∀ a ∈ c.stats.av.keys, a ∈ Dict.keys out) := by
  unfold rawInferMissing at hr
  simp only [bind_ok, pure_ok, Prod.mk.injEq] at hr
  obtain ⟨⟨c, w1⟩, hc, ⟨out', w2⟩, hl, rfl, rfl, rfl⟩ := hr
  have hleaf := rawCategorize_leaf hc
  have hcn : c ∈ u.root.nodes := ((Tree.mem_leaves_iff _ _).1 hleaf).1
  obtain ⟨h1, h2, h3, h4⟩ := rawInferLoop_spec (fun a ha w r w' => rawPredict_range hord h hcn ha htie) _
    (fun a ha => ha) _ _ _ _ hl
  refine ⟨rfl, h4 hi, c, w1, hc, hleaf, fun a v hv => ?_, fun a v hv hv' => ?_, h3⟩
  · rw [h1 a (Dict.get?_isSome.1 (by simp [hv]))]; exact hv
  · have := (h2 a v (Dict.get?_eq_none.1 hv) hv').2
    cases v <;> exact this

theorem rawInferLoop_total (hord : UnionOrder hid ord) (h : ReachRaw key hid ord cfg u hist n)
    {x : Tree (RawStats A V)} (hx : x ∈ u.root.nodes) {tie : TieBreak (Option V) ℝ} (htie : tie.Sound) (gauss : Gauss)
    (an : Bool) : ∀ (as : List A) (temp : Inst3 A V) (w : World), Function.Injective w.rnd →
      ∃ r, rawInferLoop key tie gauss x.stats .mostLikely an as temp w = .ok r := by
  intro as
  induction as with
  | nil => intro temp w _; exact ⟨_, rfl⟩
  | cons a as ih =>
    intro temp w hw
    unfold rawInferLoop
    split
    · exact ih temp w hw
    · obtain ⟨v, w', hp, hr⟩ := C105_predict_total hord h hx a htie gauss an hw
      have hw' : Function.Injective w'.rnd := by rw [hr]; exact hw
      rw [hp, ok_bind]
      cases v with
      | none => exact ih temp w' hw'
      | some v => exact ih _ w' hw'

/-- **C105**: with the default choice function `infer_missing` succeeds. -/
theorem C105_infer_missing_total (hord : UnionOrder hid ord) (h : ReachRaw key hid ord cfg u hist n)
    (hv : ∀ j ∈ hist, HasVisible hid j) {tie : TieBreak (Option V) ℝ} (htie : tie.Sound) (gauss : Gauss)
    {i : Inst3 A V} (hi : Dict.Nodup i) (hk : Avoids key i) (an : Bool) {w : World} (hw : Function.Injective w.rnd) :
    ∃ r, rawInferMissing key hid ord cfg tie gauss u i .mostLikely an w = .ok r := by
  obtain ⟨st, h1, h2, h3, -⟩ := reachRaw_reach3 hord h
  obtain ⟨⟨c, w1⟩, hc⟩ := C63_categorize_never_raises h1 hv hi hw
  have hw1 : Function.Injective w1.rnd := by rw [categorizeLoop_rnd _ _ _ _ hc]; exact hw
  have h4 := categorize_sim (φ := RingHom.id ℝ) (fun _ _ h => h) (sim_raw hord)
    (scores_raw (hid := hid) (cfg := cfg) (sc := st.scales)) (i := i) ⟨rfl, hi, hk⟩ h3 w
  have e : categorize (cobweb3Class hid) (Stats3.ecg hid cfg st.scales) st.root i w = .ok (c, w1) := hc
  rw [e] at h4
  generalize hq : categorize (rawClass key hid ord) (fun r => r >>= fun s => s.ecg key hid cfg st.scales)
    (unsettle u.root) i w = q at h4
  cases h4 with
  | @ok _ r h5 =>
    obtain ⟨d, h6, -, -⟩ := settle_good h5.1
    have hcat : rawCategorize key hid ord cfg u i w = .ok (d, r.2) := by
      unfold rawCategorize
      rw [← h2, hq]
      simp only [ok_bind, h6]
      rfl
    have hdn : d ∈ u.root.nodes := ((Tree.mem_leaves_iff _ _).1 (rawCategorize_leaf hcat)).1
    have hw2 : Function.Injective r.2.rnd := by rw [← h5.2]; exact hw1
    obtain ⟨⟨out, w2⟩, hl⟩ := rawInferLoop_total hord h hdn htie gauss an d.stats.av.keys i r.2 hw2
    unfold rawInferMissing
    simp only [hcat, ok_bind, hl]
    exact ⟨_, rfl⟩

/-! ### `log_likelihood` -/

theorem rawProbability_eq {r : RawStats A V} {s : Stats3 A V} (he : EncodesAll key r s) (sc : Scales B) (a : A)
    {v : Option (Val V)} (hv : v ≠ some (.nom key)) :
    r.probability key cfg sc a v = s.probability cfg sc a v := by
  unfold RawStats.probability Stats3.probability
  rcases EncodesAv.get? he.av a with ⟨h1, h2⟩ | ⟨t, t', h1, h2, h3⟩
  · match v, hv with
    | none, _ => simp [h1, Stats3.probNone, h2, he.count]
    | some (.num x), _ => simp [h1, Stats3.probNum, h2]
    | some (.nom v), _ => simp [h1, Stats3.probNom, h2]
  · match v, hv with
    | none, _ =>
      simp only [h1, Stats3.probNone, h2, he.count, rawTotal_eq h3, ok_bind]
    | some (.num y), _ =>
      simp only [h1, Stats3.probNum, h2, he.count, Option.bind_some, h3.get?_key]
      cases t'.cv <;> rfl
    | some (.nom v), hv =>
      have hv : v ≠ key := fun e => hv (by rw [e])
      simp only [h1, Stats3.probNom, h2, he.count, Option.bind_some, h3.get?_nom hv]
      cases t'.noms.get? v <;> rfl

theorem rawLlKey_eq {r rl : RawStats A V} {s leaf : Stats3 A V} (he : EncodesAll key r s)
    (hel : EncodesAll key rl leaf) (sc : Scales B) (a : A) (o : Option V) :
    rawLlKey key cfg sc r rl a o = llKey cfg sc s leaf a (o.map (kind key)) := by
  cases o with
  | none =>
    simp only [rawLlKey, rawLlNom, Option.map_none, llKey, llNom]
    rw [rawProbability_eq hel sc a (by simp), rawProbability_eq he sc a (by simp)]
  | some v =>
    by_cases hv : v = key
    · subst hv
      simp only [rawLlKey, if_true, Option.map_some, kind_self, llKey]
      have e1 := he.cell_key a
      have e2 := hel.cell_key a
      unfold RawStats.cell at e1 e2
      unfold rawLlNum llNum
      have e3 : (s.av.get? a).bind Tab.cv = s.cvOf a := rfl
      have e4 : (leaf.av.get? a).bind Tab.cv = leaf.cvOf a := rfl
      rw [e1, e2, e3, e4, he.count, hel.count]
      cases s.cvOf a <;> cases leaf.cvOf a <;> rfl
    · simp only [rawLlKey, if_neg hv, Option.map_some, kind_ne hv, llKey, rawLlNom, llNom]
      have hne : (some (.nom v) : Option (Val V)) ≠ some (.nom key) := by simpa using hv
      rw [rawProbability_eq hel sc a hne, rawProbability_eq he sc a hne]

theorem rawLlInner_eq {r rl : RawStats A V} {sc : Scales B} {a : A} {f : Option V → ℝ}
    (h : ∀ o, rawLlKey key cfg sc r rl a o = .ok (f o)) (ks : List (Option V)) (acc : ℝ) :
    rawLlInner key cfg sc r rl a ks acc = .ok (acc + (ks.map f).sum) := by
  induction ks generalizing acc with
  | nil => simp [rawLlInner]
  | cons k ks ih =>
    unfold rawLlInner
    rw [h, ok_bind, ih]
    simp [add_assoc]

theorem rawLlOuter_eq {ordV : List (Option V) → List (Option V)} {r rl : RawStats A V} {sc : Scales B}
    {f : A → Option V → ℝ} (h : ∀ a o, rawLlKey key cfg sc r rl a o = .ok (f a o)) (as : List A) (acc : ℝ) :
    rawLlOuter key ordV cfg sc r rl as acc =
      .ok (acc + (as.map fun a => ((ordV (rawVals r rl a)).map (f a)).sum).sum) := by
  induction as generalizing acc with
  | nil => simp [rawLlOuter]
  | cons a as ih =>
    unfold rawLlOuter
    rw [rawLlInner_eq (h a), ok_bind, ih]
    simp [add_assoc]

theorem rawVals_perm {r rl : RawStats A V} {s leaf : Stats3 A V} (he : EncodesAll key r s)
    (hel : EncodesAll key rl leaf) (a : A) : ((rawVals r rl a).map (Option.map (kind key))).Perm (llVals3 s leaf a) := by
  unfold rawVals llVals3
  rw [List.map_cons, Option.map_none, List.map_map]
  refine List.Perm.cons _ ?_
  have e : (Option.map (kind key) ∘ some : V → Option (Option V)) = some ∘ kind key := rfl
  rw [e, ← List.map_map]
  refine List.Perm.map _ ?_
  rw [List.map_append]
  refine (he.keysOf_perm a).append ?_
  have h1 : ((rl.keysOf a).filter fun v => v ∉ r.keysOf a).map (kind key) =
      ((rl.keysOf a).map (kind key)).filter fun v => v ∉ s.keysOf a := by
    rw [List.filter_map]
    congr 1
    refine List.filter_congr fun v _ => ?_
    simp only [Function.comp, decide_eq_decide, not_iff_not]
    rw [← (he.keysOf_perm a).mem_iff, List.mem_map_of_injective (kind_inj key)]
  rw [h1]
  exact (hel.keysOf_perm a).filter _

theorem rawLogLikelihood_eq {ordA : List A → List A} {ordV : List (Option V) → List (Option V)}
    (hA : ∀ l, (ordA l).Perm l) (hV : ∀ l, (ordV l).Perm l) {r rl : RawStats A V} {s leaf : Stats3 A V}
    (he : EncodesAll key r s) (hel : EncodesAll key rl leaf) {mx my : Multiset (Inst3 A V)} (hs : Summarizes3 s mx)
    (hl : Summarizes3 leaf my) (hmx : mx ≠ 0) (hm : my ≠ 0) (hpos : ∀ a o, 0 < share my a o → 0 < share mx a o)
    (sc : Scales B) : r.logLikelihood key ordA ordV hid cfg sc rl = .ok (llSpec3 hid mx my) := by
  rw [← logLikelihood3_eq (cfg := cfg) hs hl hmx hm hpos sc]
  have hattrs : rawAttrs hid r rl = llAttrs3 hid s leaf := by
    have e : ∀ s : Stats3 A V, (s.visible hid).keys = s.av.keys.filter fun a => !hid a := by
      intro s
      simp only [Stats3.visible, Dict.keys, List.filter_map]
      rfl
    unfold rawAttrs llAttrs3
    rw [e, e, EncodesAv.keys he.av, EncodesAv.keys hel.av]
  unfold RawStats.logLikelihood Stats3.logLikelihood
  rw [rawLlOuter_eq (f := fun a o => llTerm3 mx my a (o.map (kind key)))
      (fun a o => (rawLlKey_eq he hel sc a o).trans (llKey_eq hs hl hmx hm hpos sc a _)),
    llOuter3_eq (fun a o => llKey_eq hs hl hmx hm hpos sc a o), hattrs]
  congr 2
  rw [((hA (llAttrs3 hid s leaf)).map _).sum_eq]
  congr 1
  refine List.map_congr_left fun a _ => ?_
  have h1 := ((hV (rawVals r rl a)).map fun o => llTerm3 mx my a (o.map (kind key))).sum_eq
  have h2 := ((rawVals_perm he hel a).map (llTerm3 mx my a)).sum_eq
  rw [h1, ← h2, List.map_map]
  rfl

/-- **C105**: for a concept and a concept below it `log_likelihood` raises nothing and gives the value of C68, in
whatever order the sets of attributes and of keys are run through. -/
theorem C105_log_likelihood (hord : UnionOrder hid ord) (h : ReachRaw key hid ord cfg u hist n) (hne : hist ≠ [])
    {x y : Tree (RawStats A V)} (hx : x ∈ u.root.nodes) (hy : y ∈ x.nodes) :
    ∃ mx my : Multiset (Inst3 A V), RawSums key x.stats mx ∧ RawSums key y.stats my ∧ my ≤ mx ∧ my ≠ 0 ∧
      ∀ ordA ordV, (∀ l, (ordA l).Perm l) → (∀ l, (ordV l).Perm l) →
        x.stats.logLikelihood key ordA ordV hid cfg u.scales y.stats = .ok (llSpec3 hid mx my) := by
  obtain ⟨st, h1, h2, -, h3⟩ := reachRaw_reach3 hord h
  obtain ⟨x', hx', h4⟩ := forall₂_mem_right h3.nodes hx
  obtain ⟨y', hy', h5⟩ := forall₂_mem_right h4.nodes hy
  obtain ⟨mx, my, hs, hl, hle, -, hm, -⟩ := node_sum_below3 h1 hne hx' hy'
  exact ⟨mx, my, rawSums_of h4.stats hs, rawSums_of h5.stats hl, hle, hm, fun ordA ordV hA hV =>
    rawLogLikelihood_eq hA hV h4.stats h5.stats hs hl (by rintro rfl; exact hm (Multiset.le_zero.1 hle)) hm
      (share_mono_pos hle) _⟩

/-! ### Examples -/

/-- Every list of instances with visible attributes and without the key can be fitted. -/
theorem reachRaw_exists (hord : UnionOrder hid ord) (cfg : Cfg3 A B) (hist : List (Inst3 A V))
    (h : ∀ i ∈ hist, (Dict.Nodup i ∧ HasVisible hid i) ∧ Avoids key i) :
    ∃ u n, ReachRaw key hid ord cfg u hist n := by
  induction hist using List.reverseRecOn with
  | nil => exact ⟨_, _, .init Demo.w0⟩
  | append_singleton l i ih =>
    obtain ⟨u, n, hr⟩ := ih fun j hj => h j (by simp [hj])
    obtain ⟨⟨hi, hv⟩, hk⟩ := h i (by simp)
    obtain ⟨st, h1, h2, h3, -⟩ := reachRaw_reach3 hord hr
    obtain ⟨o, ho⟩ := C63_ifit_never_raises h1 (fun j hj => (h j (by simp [hj])).1.2) hi hv
      (w := ⟨fun k => (k : ℚ), 0, n⟩) (fun a b hab => by simpa using hab)
    have h4 := rawIfit_sim (cfg := cfg) hord h3 st.scales hi hk ⟨fun k => (k : ℚ), 0, n⟩
    have e : (⟨u.root, st.scales⟩ : RawState A B V) = u := by rw [h2]
    have e' : (⟨st.root, st.scales⟩ : State3 A B V) = st := rfl
    rw [e, e', ho] at h4
    generalize hq : rawIfit key hid ord cfg u i _ = q at h4
    cases h4 with
    | @ok _ r _ => exact ⟨_, _, .step hr hi hk (le_refl n) hq⟩

theorem Demo.mixed_raw : ∀ i ∈ Demo.mixed, (Dict.Nodup i ∧ HasVisible Demo.hid i) ∧ Avoids 99 i := by
  intro i hi
  refine ⟨Demo.mixed_ok i hi, ?_⟩
  simp only [Demo.mixed, List.mem_cons, List.not_mem_nil, or_false] at hi
  rcases hi with rfl | rfl | rfl | rfl <;> · intro p hp; simp at hp; aesop

/-- The mixed history with 99 as the key: its root has the accumulator of 1, 3, -2, 1 under the attribute 1 and the
count 3 of the value 7 under the attribute 2; the completion of an instance keeps the number it has. -/
example : ∃ u n out w', ReachRaw 99 Demo.hid (demoOrd Demo.hid) (⟨1 / 2, id⟩ : Cfg3 ℕ ℕ) u Demo.mixed n ∧
    u.root.stats.cell 2 7 = some (.inl 3) ∧ u.root.stats.cell 1 5 = none ∧
    rawInferMissing 99 Demo.hid (demoOrd Demo.hid) ⟨1 / 2, id⟩ (fun _ => .error .typeErr) (fun _ _ w => (0, w)) u
      [(1, .num 2)] .mostLikely false Demo.w0 = .ok (out, [(1, .num 2)], w') ∧ Dict.get? out 1 = some (.num 2) := by
  obtain ⟨u, n, h⟩ := reachRaw_exists (demoOrd_ok Demo.hid) (⟨1 / 2, id⟩ : Cfg3 ℕ ℕ) Demo.mixed Demo.mixed_raw
  have h1 := (C105_tables (demoOrd_ok _) h).1
  have htie : TieBreak.Sound (fun _ => .error .typeErr : TieBreak (Option ℕ) ℝ) := fun l v hl => by cases hl
  have hi : Dict.Nodup ([(1, .num 2)] : Inst3 ℕ ℕ) := by simp [Dict.Nodup, Dict.keys]
  obtain ⟨⟨out, i', w'⟩, hr⟩ := C105_infer_missing_total (demoOrd_ok _) h (fun j hj => (Demo.mixed_ok j hj).2) htie
    (fun _ _ w => (0, w)) hi (by intro p hp; simp at hp; subst hp; simp) false (w := Demo.w0)
    (fun a b hab => by simpa [Demo.w0] using hab)
  obtain ⟨rfl, -, c, w1, -, -, h2, -⟩ := C105_infer_missing (demoOrd_ok _) h htie hi hr
  refine ⟨u, n, out, w', h, ?_, ?_, hr, h2 1 _ rfl⟩
  · rw [h1.noms 2 7 (by decide)]
    simp [occ, Demo.mixed, Dict.get?]
  · rw [h1.noms 1 5 (by decide)]
    simp [occ, Demo.mixed, Dict.get?]

/-- Predictions and likelihoods at the root of the mixed history. -/
example : ∃ u n, ReachRaw 99 Demo.hid (demoOrd Demo.hid) (⟨1 / 2, id⟩ : Cfg3 ℕ ℕ) u Demo.mixed n ∧
    (∃ p w', u.root.stats.predict 99 (fun _ => .error .typeErr) (fun _ _ w => (0, w)) 1 .mostLikely true Demo.w0 =
      .ok (p, w')) ∧ (1 : ℕ) ∈ u.root.stats.av.keys ∧
    ∃ ll, u.root.stats.logLikelihood 99 List.reverse List.reverse Demo.hid ⟨1 / 2, id⟩ u.scales u.root.stats =
      .ok ll := by
  obtain ⟨u, n, h⟩ := reachRaw_exists (demoOrd_ok Demo.hid) (⟨1 / 2, id⟩ : Cfg3 ℕ ℕ) Demo.mixed Demo.mixed_raw
  obtain ⟨p, w', h1, -⟩ := C105_predict_total (demoOrd_ok _) h (Tree.self_mem_nodes _) 1
    (tie := fun _ => .error .typeErr) (fun l v hl => by cases hl) (fun _ _ w => (0, w)) true (w := Demo.w0)
    (fun a b hab => by simpa [Demo.w0] using hab)
  obtain ⟨mx, my, -, -, -, -, h2⟩ := C105_log_likelihood (demoOrd_ok _) h (by simp [Demo.mixed])
    (Tree.self_mem_nodes u.root) (Tree.self_mem_nodes u.root)
  refine ⟨u, n, h, ⟨p, w', h1⟩, ?_, _, h2 _ _ (fun l => l.reverse_perm) fun l => l.reverse_perm⟩
  exact ((C105_tables (demoOrd_ok _) h).1.attrs 1).2 ⟨Demo.mixed.head (by simp [Demo.mixed]), by simp [Demo.mixed],
    by simp [Demo.mixed, Dict.keys]⟩

/-- A dict with the accumulator between two nominal values: its candidates stand in that order. -/
example : (⟨4, [(0, [("x", .inl 1), ("#ContinuousValue#", .inr ⟨2, 1, 0⟩), ("y", .inl 1)])]⟩ :
    RawStats ℕ String).candidates 0 true = [some "x", some "#ContinuousValue#", some "y", none] := by
  rfl

end CF
