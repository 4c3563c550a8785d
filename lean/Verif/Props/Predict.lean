/-
Properties C10 (what `categorize` returns), C16-C18, C20 and C21.
-/
import Verif.Proofs.Predict
import Verif.Props.Score
import Mathlib.Analysis.SpecialFunctions.Log.Basic
import Std.Data.String.ToNat

set_option linter.unusedSectionVars false

namespace CF
variable {A V : Type} [DecidableEq A] [DecidableEq V] {hid : A → Bool}
variable {t : Tree (Stats A V)} {hist : List (Inst A V)} {n : ℕ}

/-! ### C10 -/

theorem categorizeLoop_descent (h : CobwebReach hid t hist n) {i : Inst A V} :
    ∀ (fuel : ℕ) (x : Tree (Stats A V)) (w : World) (c : Tree (Stats A V)) (w' : World),
      x ∈ t.nodes →
      categorizeLoop (cobwebClass hid) (Stats.ecg (K := ℚ) hid) i fuel x w = .ok (c, w') →
      ∃ path, Descent (BestChild (cobwebClass hid) (Stats.ecg (K := ℚ) hid) i) x path ∧
        path.getLast? = some c := by
  intro fuel
  induction fuel with
  | zero => intro x w c w' _ h; simp [categorizeLoop] at h
  | succ fuel ih =>
    intro x w c w' hx hc
    match x, hx, hc with
    | .node id s [], hx, hc =>
      simp [categorizeLoop] at hc
      obtain ⟨rfl, -⟩ := hc
      exact ⟨_, .leaf id s, rfl⟩
    | .node id s (d :: ds), hx, hc =>
      simp only [categorizeLoop, bind_ok] at hc
      obtain ⟨b, hb, hc⟩ := hc
      obtain ⟨c1, h1, h2, h3, -, -⟩ := C11_two_best h hx hb
      simp only [Tree.children_node] at h1
      rw [h1] at hc
      simp only at hc
      have hc1 : c1 ∈ t.nodes :=
        Tree.nodes_trans hx (Tree.mem_nodes_child (t := .node id s (d :: ds))
          (List.mem_of_getElem? h1) (Tree.self_mem_nodes c1))
      obtain ⟨path, hp, hl⟩ := ih c1 _ c w' hc1 hc
      refine ⟨.node id s (d :: ds) :: path, .step (k := b.b1) h1 ?_ hp, ?_⟩
      · refine ⟨_, h2, fun j hj => ?_⟩
        obtain ⟨u, hu, hnb⟩ := h3 j _ (List.getElem?_eq_getElem hj)
        refine ⟨u, hu, ?_⟩
        rcases hnb with hlt | ⟨rfl, -⟩
        · exact hlt.le
        · exact le_refl _
      · cases path with
        | nil => cases hp
        | cons y ys => simpa using hl

/-- **C10**, the part about the result: `categorize` returns a leaf of the tree, reached from the root
by always moving to a child of maximal category utility.

The other half of C10 (the tree is unchanged) is about the mutable heap. -/
theorem C10_categorize_descends (h : CobwebReach hid t hist n) {i : Inst A V} {w w' : World}
    {c : Tree (Stats A V)}
    (hc : categorize (cobwebClass hid) (Stats.ecg (K := ℚ) hid) t i w = .ok (c, w')) :
    c ∈ t.leaves ∧
    ∃ path, Descent (BestChild (cobwebClass hid) (Stats.ecg (K := ℚ) hid) i) t path ∧
      path.getLast? = some c := by
  obtain ⟨path, hp, hl⟩ := categorizeLoop_descent h _ t w c w' (Tree.self_mem_nodes t) hc
  refine ⟨?_, path, hp, hl⟩
  rw [Tree.mem_leaves_iff]
  clear hc
  have key : ∀ (x : Tree (Stats A V)) (path : List (Tree (Stats A V))),
      Descent (BestChild (cobwebClass hid) (Stats.ecg (K := ℚ) hid) i) x path →
      path.getLast? = some c → c ∈ x.nodes ∧ c.children = [] := by
    intro x path hp
    induction hp with
    | leaf id s => intro hl; simp at hl; subst hl; exact ⟨Tree.self_mem_nodes _, rfl⟩
    | @step x d k path hk _ hd ih =>
      intro hl
      have : path.getLast? = some c := by
        cases hd <;> simpa using hl
      exact ⟨Tree.mem_nodes_child (List.mem_of_getElem? hk) (ih this).1, (ih this).2⟩
  exact key t path hp hl

/-- `categorize` succeeds on the demonstration tree, and the path has more than one step. -/
example : (match categorize (cobwebClass Demo.hid) (Stats.ecg (K := ℚ) Demo.hid) Demo.demoTree
    [(1, 3), (2, 1)] Demo.w0 with
    | .ok (c, _) => decide (c.id ≠ Demo.demoTree.id) && c.children.isEmpty
    | .error _ => false) = true := by decide +kernel

/-! ### C16 -/

/-- **C16**: on every tree that was fitted at least once, at every concept and for every attribute,
`probability` is defined for every value and `None`; it is the share of the instances stored in the
concept; it is in `[0, 1]`; the probabilities of the recorded values and `None` sum to 1; and
`get_weighted_values` lists exactly the recorded values (each once) and `None` with those
probabilities, so with weights that are non-negative and sum to 1.

Missing: the empty tree, where the claim is false (`C16_empty_tree_raises`). -/
theorem C16_distribution_partial (h : CobwebReach hid t hist n) (hne : hist ≠ [])
    {x : Tree (Stats A V)} (hx : x ∈ t.nodes) (a : A) :
    ∃ m : Multiset (Inst A V), m ≤ hist ∧ m ≠ 0 ∧ Summarizes x.stats m ∧
      (∀ o, x.stats.probability a o = .ok (freq ℚ m a o)) ∧
      (∀ o, 0 ≤ freq ℚ m a o ∧ freq ℚ m a o ≤ 1) ∧
      ((x.stats.recorded a).map fun v => freq ℚ m a (some v)).sum + freq ℚ m a none = 1 ∧
      (x.stats.recorded a).Nodup ∧
      (a ∈ x.stats.av.keys →
        x.stats.weightedValues a true = .ok (((x.stats.recorded a).map fun v =>
          (some v, freq ℚ m a (some v))) ++ [(none, freq ℚ m a none)]) ∧
        x.stats.weightedValues a false = .ok ((x.stats.recorded a).map fun v =>
          (some v, freq ℚ m a (some v)))) ∧
      (a ∉ x.stats.av.keys → ∀ b, x.stats.weightedValues a b = .ok [(none, (1 : ℚ))]) := by
  obtain ⟨m, hs, hle, hm, -⟩ := node_sum h hx
  specialize hm hne
  refine ⟨m, hle, hm, hs, fun o => probability_eq hs hm a o,
    fun o => ⟨freq_nonneg m a o, freq_le_one m a o⟩, ?_, (hs.recorded a).1, ?_, ?_⟩
  · rw [hs.sum_recorded a (fun v => freq ℚ m a (some v)), add_comm]
    exact freq_sum m hm a
  · intro ha
    have h1 := weightedValues_eq (K := ℚ) hs hm ha true
    have h2 := weightedValues_eq (K := ℚ) hs hm ha false
    simp only [Stats.candidates, if_true, List.map_append, List.map_map] at h1 h2
    exact ⟨h1, by simpa [Function.comp_def] using h2⟩
  · intro ha b
    simp [Stats.weightedValues, Dict.get?_eq_none.2 ha]

/-- **The code violates C16** on a tree that was never fitted: asking the root for the probability
that an attribute is missing raises `ZeroDivisionError`. -/
theorem C16_empty_tree_raises (w : World) (a : A) :
    (emptyTree (cobwebClass (V := V) hid) w).stats.probability (K := ℚ) a none = .error .zeroDiv := by
  simp [emptyTree, cobwebClass, Stats.fresh, Stats.probability, pyDiv]

/-- A concept at which a value and "missing" both have a probability strictly between 0 and 1. -/
example : (match Demo.demoTree.stats.probability (K := ℚ) 100 (some 7),
      Demo.demoTree.stats.probability (K := ℚ) 100 none with
    | .ok p, .ok q => decide (p = 1 / 5 ∧ q = 4 / 5) | _, _ => false) = true := by decide +kernel

/-! ### C17 -/

/-- Unfolding of `predict` for a known attribute. -/
theorem predict_known {s : Stats A V} {m : Multiset (Inst A V)} (hs : Summarizes s m) (hm : m ≠ 0)
    {tie : TieBreak (Option V) ℚ} {a : A} (ha : a ∈ s.av.keys) {fn : ChoiceFn} (hfn : fn ≠ .other)
    (an : Bool) (w : World) :
    s.predict tie a fn an w = choose tie (fn = .sampled)
      ((s.candidates a an).map fun o => (o, freq ℚ m a o)) w := by
  obtain ⟨tb, hg⟩ : ∃ tb, s.av.get? a = some tb := Option.isSome_iff_exists.1 (Dict.get?_isSome.2 ha)
  unfold Stats.predict
  rw [if_neg hfn]
  simp only [hg]
  rw [weightedValues_eq hs hm ha an, ok_bind]

theorem mem_map_cand {s : Stats A V} {m : Multiset (Inst A V)} {a : A} {an : Bool} {o : Option V}
    {p : ℚ} (h : (o, p) ∈ (s.candidates a an).map fun o => (o, freq ℚ m a o)) :
    o ∈ s.candidates a an ∧ p = freq ℚ m a o := by
  obtain ⟨o', h1, h2⟩ := List.mem_map.1 h
  cases h2; exact ⟨h1, rfl⟩

/-- **C17**, 'most likely': whatever the random numbers, the prediction for a known attribute is one of
the candidates, and no candidate is more probable in the concept. -/
theorem C17_most_likely (h : CobwebReach hid t hist n) {x : Tree (Stats A V)} (hx : x ∈ t.nodes)
    {a : A} (ha : a ∈ x.stats.av.keys) {tie : TieBreak (Option V) ℚ} (htie : tie.Sound) {an : Bool}
    {w w' : World} {v : Option V}
    (hp : x.stats.predict tie a .mostLikely an w = .ok (v, w')) :
    v ∈ x.stats.candidates a an ∧
    ∀ o ∈ x.stats.candidates a an, ∀ p q : ℚ, x.stats.probability a o = .ok p →
      x.stats.probability a v = .ok q → p ≤ q := by
  obtain ⟨m, hs, hle, hm, -⟩ := node_sum h hx
  have hm : m ≠ 0 := by
    rintro rfl; obtain ⟨i, hi, -⟩ := (hs.attrs a).1 ha; simp at hi
  rw [predict_known hs hm ha (by decide)] at hp
  simp only [choose, reduceCtorEq, decide_false, Bool.false_eq_true, if_false] at hp
  cases hml : mostLikelyChoice tie ((x.stats.candidates a an).map fun o => (o, freq ℚ m a o)) w.draw with
  | error e => rw [hml] at hp; simp [Except.map] at hp
  | ok v' =>
    rw [hml] at hp
    simp only [Except.map, Except.ok.injEq, Prod.mk.injEq] at hp
    obtain ⟨rfl, -⟩ := hp
    obtain ⟨p, h1, h2⟩ := C43_maximal htie hml
    obtain ⟨h3, rfl⟩ := mem_map_cand h1
    refine ⟨h3, fun o ho p q h4 h5 => ?_⟩
    rw [probability_eq hs hm] at h4 h5
    cases h4; cases h5
    exact h2 _ (List.mem_map.2 ⟨o, ho, rfl⟩)

theorem candidates_ne_nil {s : Stats A V} {m : Multiset (Inst A V)} (hs : Summarizes s m) {a : A}
    (ha : a ∈ s.av.keys) (an : Bool) : s.candidates a an ≠ [] := by
  have := hs.recorded_ne_nil ha
  unfold Stats.candidates
  simp [this]

/-- C17: 'most likely' always succeeds when the random numbers drawn are distinct. -/
theorem C17_most_likely_total (h : CobwebReach hid t hist n) {x : Tree (Stats A V)} (hx : x ∈ t.nodes)
    (a : A) (tie : TieBreak (Option V) ℚ) (an : Bool) {w : World} (hw : Function.Injective w.rnd) :
    ∃ v w', x.stats.predict tie a .mostLikely an w = .ok (v, w') ∧ w'.rnd = w.rnd := by
  by_cases ha : a ∈ x.stats.av.keys
  · obtain ⟨m, hs, hle, hm, -⟩ := node_sum h hx
    have hm : m ≠ 0 := by
      rintro rfl; obtain ⟨i, hi, -⟩ := (hs.attrs a).1 ha; simp at hi
    rw [predict_known hs hm ha (by decide)]
    obtain ⟨v, hv⟩ := C43_ok (tie := tie) (rnd := w.draw)
      (choices := (x.stats.candidates a an).map fun o => (o, freq ℚ m a o))
      (by simpa using candidates_ne_nil hs ha an)
      (by rintro ⟨o, p⟩ hp; obtain ⟨-, rfl⟩ := mem_map_cand hp; exact freq_nonneg m a o)
      (by
        refine List.nodup_range.map fun j k hjk => ?_
        have := hw hjk; omega)
    exact ⟨v, w.skip (x.stats.candidates a an).length, by simp [choose, hv, Except.map], rfl⟩
  · exact ⟨none, w, by simp [Stats.predict, Dict.get?_eq_none.2 ha], rfl⟩

/-- **C17**, 'sampled': for a known attribute and a random number `u` in `[0, 1)`, the prediction
succeeds with a candidate of positive probability; and a candidate is predicted exactly when `u`, scaled
to the total weight, falls in an interval whose length is the probability of the candidate. -/
theorem C17_sampled (h : CobwebReach hid t hist n) {x : Tree (Stats A V)} (hx : x ∈ t.nodes)
    {a : A} (ha : a ∈ x.stats.av.keys) (tie : TieBreak (Option V) ℚ) (an : Bool)
    {w : World} (h0 : 0 ≤ w.draw 0) (h1 : w.draw 0 < 1) :
    ∃ p : Option V → ℚ, (∀ o, x.stats.probability a o = .ok (p o)) ∧
      0 < ((x.stats.candidates a an).map p).sum ∧
      (an = true → ((x.stats.candidates a an).map p).sum = 1) ∧
      (∃ v, v ∈ x.stats.candidates a an ∧ 0 < p v ∧
        x.stats.predict tie a .sampled an w = .ok (v, w.skip 1)) ∧
      ∀ pre v post, x.stats.candidates a an = pre ++ v :: post →
        (x.stats.predict tie a .sampled an w = .ok (v, w.skip 1) ↔
          (pre.map p).sum ≤ ((x.stats.candidates a an).map p).sum * w.draw 0 ∧
          ((x.stats.candidates a an).map p).sum * w.draw 0 < (pre.map p).sum + p v) := by
  obtain ⟨m, hs, hle, hm, -⟩ := node_sum h hx
  have hm : m ≠ 0 := by
    rintro rfl; obtain ⟨i, hi, -⟩ := (hs.attrs a).1 ha; simp at hi
  have hws : ∀ l : List (Option V), weightSum (l.map fun o => (o, freq ℚ m a o)) =
      (l.map (freq ℚ m a)).sum := by
    intro l; simp [weightSum, Function.comp_def]
  obtain ⟨hpos, hone⟩ := weightSum_candidates (K := ℚ) hs hm ha an
  have hnn : ∀ l : List (Option V), ∀ p ∈ l.map (fun o => (o, freq ℚ m a o)), 0 ≤ p.2 := by
    intro l p hp
    obtain ⟨o, -, rfl⟩ := List.mem_map.1 hp
    exact freq_nonneg m a o
  obtain ⟨hd1, hd2, hd3⟩ := C42_draw _ (w.draw 0) h0 h1 hpos
  have hpr : x.stats.predict tie a .sampled an w =
      (weightedPick ((x.stats.candidates a an).map fun o => (o, freq ℚ m a o))
        (weightSum ((x.stats.candidates a an).map fun o => (o, freq ℚ m a o)) * w.draw 0)).map
        fun v => (v, w.skip 1) := by
    rw [predict_known hs hm ha (by decide)]
    simp only [choose, decide_true, if_true, Rat.cast_id]
    rw [hd1]
  have hmap : ∀ (r : Res (Option V)) v, r.map (fun v => (v, w.skip 1)) = .ok (v, w.skip 1) ↔ r = .ok v := by
    intro r v; cases r <;> simp [Except.map]
  rw [hws] at hpos hone
  refine ⟨freq ℚ m a, fun o => probability_eq hs hm a o, hpos, hone, ?_, ?_⟩
  · obtain ⟨pre, v, p, post, e, -, -, hp, hok⟩ := C42_selects _ _ (hnn _) hd2 hd3
    have hmem : (v, p) ∈ (x.stats.candidates a an).map fun o => (o, freq ℚ m a o) := by
      rw [e]; simp
    obtain ⟨h3, rfl⟩ := mem_map_cand hmem
    exact ⟨v, h3, hp, by rw [hpr, hok]; rfl⟩
  · intro pre v post e
    rw [hpr, hmap, ← hws, ← hws]
    constructor
    · intro hok
      obtain ⟨pre', v', p', post', e', h3, h4, -, hok'⟩ := C42_selects _ _ (hnn _) hd2 hd3
      rw [hok] at hok'
      cases hok'
      -- the position of `v` among the candidates is unique
      have hnd := candidates_nodup hs a an
      obtain ⟨q, q', hq, e1, e2⟩ := List.map_eq_append_iff.1 e'
      obtain ⟨y, q'', rfl, e3, e4⟩ := List.map_eq_cons_iff.1 e2
      simp only [Prod.mk.injEq] at e3
      obtain ⟨rfl, rfl⟩ := e3
      rw [hq] at e hnd
      have hqp : q = pre := by
        have hx1 : y ∉ q := by
          rw [List.nodup_append] at hnd
          intro hy; exact hnd.2.2 y hy y (by simp) rfl
        have hx2 : y ∉ pre := by
          rw [e, List.nodup_append] at hnd
          intro hy; exact hnd.2.2 y hy y (by simp) rfl
        rcases List.append_eq_append_iff.1 e with ⟨r, hr1, hr2⟩ | ⟨r, hr1, hr2⟩
        · cases r with
          | nil => simpa using hr1.symm
          | cons z r => simp at hr2; exact absurd (by rw [hr1, hr2.1]; simp) hx2
        · cases r with
          | nil => simpa using hr1
          | cons z r => simp at hr2; exact absurd (by rw [hr1, hr2.1]; simp) hx1
      subst hqp
      rw [← e1] at h3 h4
      exact ⟨h3, h4⟩
    · rintro ⟨h3, h4⟩
      have e' : (x.stats.candidates a an).map (fun o => (o, freq ℚ m a o)) =
          (pre.map fun o => (o, freq ℚ m a o)) ++ (v, freq ℚ m a v) ::
            post.map fun o => (o, freq ℚ m a o) := by rw [e]; simp
      have := C42_interval (pre.map fun o => (o, freq ℚ m a o)) (post.map fun o => (o, freq ℚ m a o)) v
        (freq ℚ m a v) _ (hnn pre) h3 h4
      rw [← e'] at this
      exact this

/-- **C17**, the remaining clauses: with `allow_none=False` a known attribute is never predicted as
`None`; an unknown choice function raises; an unknown attribute is predicted as `None`. -/
theorem C17_edge_cases (h : CobwebReach hid t hist n) {x : Tree (Stats A V)} (hx : x ∈ t.nodes)
    (a : A) (tie : TieBreak (Option V) ℚ) (htie : tie.Sound) (w : World) :
    (a ∈ x.stats.av.keys → ∀ fn v w', 0 ≤ w.draw 0 → w.draw 0 < 1 →
      x.stats.predict tie a fn false w = .ok (v, w') → ∃ y ∈ x.stats.recorded a, v = some y) ∧
    (∀ an, x.stats.predict tie a .other an w = .error .exc) ∧
    (a ∉ x.stats.av.keys → ∀ fn an, fn ≠ .other → x.stats.predict tie a fn an w = .ok (none, w)) := by
  refine ⟨fun ha fn v w' h0 h1 hp => ?_, fun an => by simp [Stats.predict], fun ha fn an hfn => ?_⟩
  · have hv : v ∈ x.stats.candidates a false := by
      cases fn with
      | other => simp [Stats.predict] at hp
      | mostLikely => exact (C17_most_likely h hx ha htie hp).1
      | sampled =>
        obtain ⟨p, -, -, -, ⟨v', hv', -, hp'⟩, -⟩ := C17_sampled h hx ha tie false h0 h1
        rw [hp] at hp'; cases hp'; exact hv'
    simp [Stats.candidates] at hv
    obtain ⟨y, hy, rfl⟩ := hv
    exact ⟨y, hy, rfl⟩
  · simp [Stats.predict, Dict.get?_eq_none.2 ha, hfn]

/-- A prediction from the root of the demonstration tree: value 1 has three fifths for attribute 1. -/
example : (match Demo.demoTree.stats.predict (K := ℚ) (fun _ => .error .typeErr) 1 .mostLikely true
      Demo.w0, Demo.demoTree.stats.predict (K := ℚ) (fun _ => .error .typeErr) 1 .sampled false
      ⟨fun _ => 7 / 10, 0, 0⟩ with
    | .ok (v, _), .ok (v', _) => decide (v = some 1 ∧ v' = some 2) | _, _ => false) = true := by
  decide +kernel

/-! ### C18 -/

theorem inferLoop_spec {s : Stats A V} {tie : TieBreak (Option V) ℚ} {fn : ChoiceFn} {an : Bool}
    (hpred : ∀ a ∈ s.av.keys, ∀ w v w', s.predict tie a fn an w = .ok (v, w') →
      v ∈ s.candidates a an) :
    ∀ (as : List A), (∀ a ∈ as, a ∈ s.av.keys) → ∀ (temp out : Inst A V) (w w' : World),
      inferLoop tie s fn an as temp w = .ok (out, w') →
      (∀ a ∈ Dict.keys temp, Dict.get? out a = Dict.get? temp a) ∧
      (∀ a v, a ∉ Dict.keys temp → Dict.get? out a = some v → a ∈ as ∧ v ∈ s.recorded a) ∧
      (an = false → ∀ a ∈ as, a ∈ Dict.keys out) ∧
      (Dict.Nodup temp → Dict.Nodup out) := by
  intro as
  induction as with
  | nil =>
    intro _ temp out w w' h
    simp [inferLoop] at h
    obtain ⟨rfl, -⟩ := h
    refine ⟨fun _ _ => rfl, fun a v ha hv => absurd (Dict.get?_isSome.1 (by simp [hv])) ha, by simp, id⟩
  | cons a as ih =>
    intro has temp out w w' h
    have has' : ∀ b ∈ as, b ∈ s.av.keys := fun b hb => has b (by simp [hb])
    unfold inferLoop at h
    split at h
    · rename_i hin
      obtain ⟨h1, h2, h3, h4⟩ := ih has' temp out w w' h
      refine ⟨h1, fun b v hb hv => ?_, fun han b hb => ?_, h4⟩
      · obtain ⟨h5, h6⟩ := h2 b v hb hv; exact ⟨by simp [h5], h6⟩
      · rcases List.mem_cons.1 hb with rfl | hb
        · have := Dict.has_iff.1 hin
          rw [← Dict.get?_isSome, h1 b this]; exact hin
        · exact h3 han b hb
    · rename_i hin
      have hnk : a ∉ Dict.keys temp := fun hk => hin (Dict.has_iff.2 hk)
      rw [bind_ok] at h
      obtain ⟨⟨v, w1⟩, hp, h⟩ := h
      have hc := hpred a (has a (by simp)) w v w1 hp
      cases v with
      | none =>
        simp only at h
        obtain ⟨h1, h2, h3, h4⟩ := ih has' temp out w1 w' h
        refine ⟨h1, fun b v hb hv => ?_, fun han b hb => ?_, h4⟩
        · obtain ⟨h5, h6⟩ := h2 b v hb hv; exact ⟨by simp [h5], h6⟩
        · subst han; simp [Stats.candidates] at hc
      | some v =>
        simp only at h
        obtain ⟨h1, h2, h3, h4⟩ := ih has' _ out w1 w' h
        have hv : v ∈ s.recorded a := by
          unfold Stats.candidates at hc
          rcases List.mem_append.1 hc with hc | hc
          · simpa using hc
          · cases an <;> simp at hc
        refine ⟨fun b hb => ?_, fun b u hb hu => ?_, fun han b hb => ?_, fun hnd => h4 (Dict.nodup_set hnd _ _)⟩
        · rw [h1 b (Dict.mem_keys_set.2 (Or.inr hb)), Dict.get?_set_ne _ (by rintro rfl; exact hnk hb)]
        · by_cases hba : b = a
          · subst hba
            rw [h1 b (Dict.mem_keys_set.2 (Or.inl rfl)), Dict.get?_set_self] at hu
            cases hu; exact ⟨by simp, hv⟩
          · obtain ⟨h5, h6⟩ := h2 b u (by rw [Dict.mem_keys_set]; simp [hba, hb]) hu
            exact ⟨by simp [h5], h6⟩
        · rcases List.mem_cons.1 hb with rfl | hb
          · rw [← Dict.get?_isSome, h1 b (Dict.mem_keys_set.2 (Or.inl rfl)), Dict.get?_set_self]; rfl
          · exact h3 han b hb

/-- Every candidate returned by `predict` for a known attribute is a candidate, for both choice
functions. -/
theorem predict_candidate (h : CobwebReach hid t hist n) {x : Tree (Stats A V)} (hx : x ∈ t.nodes)
    {tie : TieBreak (Option V) ℚ} (htie : tie.Sound) {fn : ChoiceFn} {an : Bool} :
    ∀ a ∈ x.stats.av.keys, ∀ w v w', x.stats.predict tie a fn an w = .ok (v, w') →
      v ∈ x.stats.candidates a an := by
  intro a ha w v w' hp
  cases fn with
  | other => simp [Stats.predict] at hp
  | mostLikely => exact (C17_most_likely h hx ha htie hp).1
  | sampled =>
    obtain ⟨m, hs, hle, hm, -⟩ := node_sum h hx
    have hm : m ≠ 0 := by
      rintro rfl; obtain ⟨i, hi, -⟩ := (hs.attrs a).1 ha; simp at hi
    rw [predict_known hs hm ha (by decide)] at hp
    simp only [choose, decide_true, if_true] at hp
    have key : ∀ (l : List (Option V × ℚ)) (r u : ℚ) v, weightedLoop r l u = .ok v →
        ∃ p, (v, p) ∈ l := by
      intro l
      induction l with
      | nil => intro r u v h; simp [weightedLoop] at h
      | cons c l ih =>
        intro r u v h
        obtain ⟨y, q⟩ := c
        unfold weightedLoop at h
        split at h
        · cases h
        split at h
        · cases h; exact ⟨q, by simp⟩
        · obtain ⟨p, hp⟩ := ih r _ v h; exact ⟨p, by simp [hp]⟩
    cases hwc : weightedChoice ((x.stats.candidates a an).map fun o => (o, freq ℚ m a o))
        ((w.draw 0 : ℚ)) with
    | error e => simp only [Rat.cast_id, hwc, Except.map] at hp; cases hp
    | ok v' =>
      simp only [Rat.cast_id, hwc, Except.map, Except.ok.injEq, Prod.mk.injEq] at hp
      obtain ⟨rfl, -⟩ := hp
      obtain ⟨p, hp⟩ := key _ _ _ _ hwc
      exact (mem_map_cand hp).1

/-- **C18**: `infer_missing` returns an instance that keeps every given attribute value and adds only
attributes recorded in the concept that `categorize` finds, with a value recorded there; with
`allow_none=False` every attribute recorded there is filled; the argument is not modified. -/
theorem C18_infer_missing (h : CobwebReach hid t hist n) {tie : TieBreak (Option V) ℚ}
    (htie : tie.Sound) {i out i' : Inst A V} (hi : Dict.Nodup i) {fn : ChoiceFn} {an : Bool}
    {w w' : World} (hr : inferMissing (K := ℚ) hid tie t i fn an w = .ok (out, i', w')) :
    i' = i ∧ Dict.Nodup out ∧
    ∃ c w1, categorize (cobwebClass hid) (Stats.ecg (K := ℚ) hid) t i w = .ok (c, w1) ∧ c ∈ t.leaves ∧
      (∀ a v, Dict.get? i a = some v → Dict.get? out a = some v) ∧
      (∀ a v, Dict.get? i a = none → Dict.get? out a = some v → c.stats.lookup a v ≠ none) ∧
      (an = false → ∀ a ∈ c.stats.av.keys, a ∈ Dict.keys out) := by
  unfold inferMissing at hr
  simp only [bind_ok, pure_ok, Prod.mk.injEq] at hr
  obtain ⟨⟨c, w1⟩, hc, ⟨out', w2⟩, hl, rfl, rfl, rfl⟩ := hr
  obtain ⟨hleaf, -⟩ := C10_categorize_descends h hc
  have hcn : c ∈ t.nodes := ((Tree.mem_leaves_iff _ _).1 hleaf).1
  obtain ⟨h1, h2, h3, h4⟩ := inferLoop_spec (predict_candidate h hcn htie) _ (fun a ha => ha) _ _ _ _ hl
  obtain ⟨m, hs, -⟩ := node_sum h hcn
  refine ⟨rfl, h4 hi, c, w1, hc, hleaf, fun a v hv => ?_, fun a v hv hv' => ?_, h3⟩
  · rw [h1 a (Dict.get?_isSome.1 (by simp [hv]))]; exact hv
  · exact hs.mem_recorded.1 (h2 a v (Dict.get?_eq_none.1 hv) hv').2

theorem inferLoop_total (h : CobwebReach hid t hist n) {x : Tree (Stats A V)} (hx : x ∈ t.nodes)
    (tie : TieBreak (Option V) ℚ) (an : Bool) : ∀ (as : List A) (temp : Inst A V) (w : World),
      Function.Injective w.rnd → ∃ r, inferLoop tie x.stats .mostLikely an as temp w = .ok r := by
  intro as
  induction as with
  | nil => intro temp w _; exact ⟨_, rfl⟩
  | cons a as ih =>
    intro temp w hw
    unfold inferLoop
    split
    · exact ih temp w hw
    · obtain ⟨v, w', hp, hr⟩ := C17_most_likely_total h hx a tie an hw
      have hw' : Function.Injective w'.rnd := by rw [hr]; exact hw
      rw [hp, ok_bind]
      cases v with
      | none => exact ih temp w' hw'
      | some v => exact ih _ w' hw'

theorem categorizeLoop_rnd {I S K : Type} [Field K] [LinearOrder K] {C : NodeClass I S}
    {ecg : S → Res K} {inst : I} : ∀ (fuel : ℕ) (x : Tree S) (w : World) (r : Tree S × World),
      categorizeLoop C ecg inst fuel x w = .ok r → r.2.rnd = w.rnd := by
  intro fuel
  induction fuel with
  | zero => intro x w r h; simp [categorizeLoop] at h
  | succ fuel ih =>
    intro x w r h
    match x, h with
    | .node id s [], h => simp [categorizeLoop] at h; subst h; rfl
    | .node id s (d :: ds), h =>
      simp only [categorizeLoop, bind_ok] at h
      obtain ⟨b, -, h⟩ := h
      split at h
      · cases h
      · rw [ih _ _ _ h]; rfl

/-- C18: with the default choice function, `infer_missing` succeeds (under the conditions of C07). -/
theorem C18_infer_missing_total (h : CobwebReach hid t hist n) (hv : ∀ j ∈ hist, HasVisible hid j)
    (tie : TieBreak (Option V) ℚ) {i : Inst A V} (hi : Dict.Nodup i) (an : Bool) {w : World}
    (hw : Function.Injective w.rnd) :
    ∃ r, inferMissing (K := ℚ) hid tie t i .mostLikely an w = .ok r := by
  obtain ⟨⟨c, w1⟩, hc⟩ := C07_categorize_never_raises_partial h hv hi hw
  have hcn : c ∈ t.nodes := ((Tree.mem_leaves_iff _ _).1 (C10_categorize_descends h hc).1).1
  have hw1 : Function.Injective w1.rnd := by rw [categorizeLoop_rnd _ _ _ _ hc]; exact hw
  obtain ⟨⟨out, w2⟩, hl⟩ := inferLoop_total h hcn tie an c.stats.av.keys i w1 hw1
  exact ⟨(out, i, w2), by
    unfold inferMissing; dsimp only; rw [hc, ok_bind]; dsimp only; rw [hl, ok_bind]; rfl⟩

/-- A partial instance of the demonstration history is completed. -/
example : (match inferMissing (K := ℚ) Demo.hid (fun _ => .error .typeErr) Demo.demoTree [(1, 2)]
      .mostLikely true Demo.w0 with
    | .ok (out, i, _) => decide (out = [(1, 2), (2, 3), (100, 7)] ∧ i = [(1, 2)])
    | .error _ => false) = true := by decide +kernel

/-! ### C20 -/

theorem list_sum_nonpos {l : List ℝ} (h : ∀ r ∈ l, r ≤ 0) : l.sum ≤ 0 := by
  induction l with
  | nil => simp
  | cons r l ih =>
    have h1 := h r (by simp)
    have h2 := ih fun r hr => h r (by simp [hr])
    rw [List.sum_cons]; linarith

theorem filter_eq_single {α : Type} [DecidableEq α] {l : List α} (hnd : l.Nodup) {a : α} (ha : a ∈ l) :
    l.filter (fun b => decide (b = a)) = [a] := by
  induction l with
  | nil => simp at ha
  | cons b l ih =>
    rw [List.nodup_cons] at hnd
    by_cases hb : b = a
    · subst hb
      rw [List.filter_cons_of_pos (by simp), List.filter_eq_nil_iff.2]
      intro c hc; simp; rintro rfl; exact hnd.1 hc
    · rw [List.filter_cons_of_neg (by simpa using hb)]
      exact ih hnd.2 (by rcases List.mem_cons.1 ha with h | h; exacts [absurd h.symm hb, h])

theorem llInner_eq {lg : ℝ → ℝ} {s leaf : Stats A V} {mx my : Multiset (Inst A V)}
    (hs : Summarizes s mx) (hl : Summarizes leaf my) (hmx : mx ≠ 0) (hmy : my ≠ 0) {a : A}
    (hpos : ∀ o, 0 < freq ℝ my a o → 0 < freq ℝ mx a o) (vs : List (Option V)) (acc : ℝ) :
    llInner lg s leaf a vs acc = .ok (acc + ((vs.filter fun o => 0 < freq ℝ my a o).map fun o =>
      lg (freq ℝ mx a o * freq ℝ my a o)).sum) := by
  induction vs generalizing acc with
  | nil => simp [llInner]
  | cons o vs ih =>
    unfold llInner
    rw [probability_eq hl hmy, ok_bind]
    by_cases h : 0 < freq ℝ my a o
    · have hp : 0 < freq ℝ mx a o * freq ℝ my a o := mul_pos (hpos o h) h
      rw [if_pos h, probability_eq hs hmx, ok_bind]
      simp only
      rw [if_pos hp.le, if_neg hp.ne', ih, List.filter_cons_of_pos (by simpa using h)]
      simp [add_assoc]
    · rw [if_neg h, ih, List.filter_cons_of_neg (by simpa using h)]

theorem llOuter_eq {lg : ℝ → ℝ} {s leaf : Stats A V} {f : A → ℝ} {as : List A}
    (h : ∀ a ∈ as, ∀ acc, llInner lg s leaf a (llVals s leaf a) acc = .ok (acc + f a)) (acc : ℝ) :
    llOuter lg s leaf as acc = .ok (acc + (as.map f).sum) := by
  induction as generalizing acc with
  | nil => simp [llOuter]
  | cons a as ih =>
    unfold llOuter
    rw [h a (by simp), ok_bind, ih (fun b hb => h b (by simp [hb]))]
    simp [add_assoc]

theorem llVals_eq (s leaf : Stats A V) (a : A) :
    llVals s leaf a = none :: (s.recorded a ++ (leaf.recorded a).filter fun v => v ∉ s.recorded a).map some := by
  unfold llVals Stats.recorded
  cases s.av.get? a <;> cases leaf.av.get? a <;> rfl

theorem freq_mono_pos {mx my : Multiset (Inst A V)} (hle : my ≤ mx) (a : A) (o : Option V)
    (h : 0 < freq ℝ my a o) : 0 < freq ℝ mx a o := by
  have h1 : 0 < my.countP fun i => Dict.get? i a = o := by
    rcases Nat.eq_zero_or_pos (my.countP fun i => Dict.get? i a = o) with h0 | h0
    · unfold freq at h; rw [h0] at h; simp at h
    · exact h0
  have h2 : (my.countP fun i => Dict.get? i a = o) ≤ mx.countP fun i => Dict.get? i a = o :=
    Multiset.countP_le_of_le _ hle
  have h3 := Multiset.countP_le_card (fun i : Inst A V => Dict.get? i a = o) mx
  have h4 : 0 < mx.countP fun i => Dict.get? i a = o := lt_of_lt_of_le h1 h2
  have h5 : 0 < Multiset.card mx := lt_of_lt_of_le h4 h3
  unfold freq
  exact div_pos (by exact_mod_cast h4) (by exact_mod_cast h5)

/-- On a group of instances that agree on the visible attribute `a`, the value they share has
probability 1 and all others 0. -/
theorem freq_pure {my : Multiset (Inst A V)} (hsame : ∀ i ∈ my, ∀ j ∈ my, SameVisible hid i j)
    {i : Inst A V} (hi : i ∈ my) {a : A} (ha : hid a = false) (o : Option V) :
    freq ℝ my a o = if o = Dict.get? i a then 1 else 0 := by
  have hc : (Multiset.card my : ℝ) ≠ 0 := by
    have : my ≠ 0 := by rintro rfl; simp at hi
    simpa using this
  unfold freq
  split
  · rename_i h
    rw [Multiset.countP_eq_card.2 fun j hj => by rw [h]; exact (hsame i hi j hj a ha).symm, div_self hc]
  · rename_i h
    rw [Multiset.countP_eq_zero.2 fun j hj hj' => h (by rw [← hj', hsame i hi j hj a ha])]; simp

/-- The instances stored in a concept and in a concept below it. -/
theorem node_sum_below (h : CobwebReach hid t hist n) (hne : hist ≠ []) {x y : Tree (Stats A V)}
    (hx : x ∈ t.nodes) (hy : y ∈ x.nodes) :
    ∃ mx my : Multiset (Inst A V), Summarizes x.stats mx ∧ Summarizes y.stats my ∧ my ≤ mx ∧ my ≠ 0 ∧
      (y.children = [] → ∀ i ∈ my, ∀ j ∈ my, SameVisible hid i j) := by
  rcases reach_holds (cobwebLaws hid) h with ⟨he, -⟩ | hh
  · exact absurd (by simpa using he) hne
  · obtain ⟨mx, hmx, -⟩ := hh.of_mem_nodes hx
    obtain ⟨my, hmy, hle⟩ := hmx.of_mem_nodes hy
    refine ⟨mx, my, hmx.sum, hmy.sum, hle, hmy.ne_zero, fun h0 => ?_⟩
    cases hmy with
    | leaf _ _ h => exact h
    | node h _ _ => simp only [Tree.children_node] at h0; subst h0; simp at h

theorem Summarizes.attrs_eq {s : Stats A V} {m : Multiset (Inst A V)} (h : Summarizes s m) :
    ((s.visible hid).keys).Nodup ∧ ((s.visible hid).keys).toFinset = visAttrs hid m :=
  ⟨h.visible_nodup, h.visible_keys⟩

theorem llAttrs_eq {s leaf : Stats A V} {mx my : Multiset (Inst A V)}
    (hs : Summarizes s mx) (hl : Summarizes leaf my) (hle : my ≤ mx) :
    llAttrs hid s leaf = (s.visible hid).keys := by
  unfold llAttrs
  simp only
  rw [List.filter_eq_nil_iff.2, List.append_nil]
  intro a ha
  simp only [decide_eq_true_eq, not_not]
  have h1 : a ∈ visAttrs hid my := by rw [← hl.attrs_eq.2]; simpa using ha
  have h2 : a ∈ visAttrs hid mx := by
    simp only [visAttrs, Finset.mem_filter, mem_attrsOf] at h1 ⊢
    obtain ⟨⟨i, hi, hia⟩, hv⟩ := h1
    exact ⟨⟨i, Multiset.mem_of_le hle hi, hia⟩, hv⟩
  rw [← hs.attrs_eq.2] at h2; simpa using h2

/-- **C20**: for every concept of a reachable tree and every concept below it (in particular every leaf)
`log_likelihood` raises nothing and is at most 0. -/
theorem C20_log_likelihood_nonpos (h : CobwebReach hid t hist n) {x y : Tree (Stats A V)}
    (hx : x ∈ t.nodes) (hy : y ∈ x.nodes) :
    ∃ ll, x.stats.logLikelihood Real.log hid y.stats = .ok ll ∧ ll ≤ 0 := by
  by_cases hne : hist = []
  · subst hne
    rcases reach_holds (cobwebLaws hid) h with ⟨-, id, rfl⟩ | hh
    · simp only [Tree.nodes_node, List.flatMap_nil, List.mem_singleton] at hx
      subst hx
      simp only [Tree.nodes_node, List.flatMap_nil, List.mem_singleton] at hy
      subst hy
      exact ⟨0, rfl, le_refl _⟩
    · exact absurd rfl hh.ne_zero
  · obtain ⟨mx, my, hs, hl, hle, hm, -⟩ := node_sum_below h hne hx hy
    have hmx : mx ≠ 0 := by rintro rfl; exact hm (Multiset.le_zero.1 hle)
    refine ⟨_, llOuter_eq (fun a _ acc =>
      llInner_eq hs hl hmx hm (freq_mono_pos hle a) (llVals x.stats y.stats a) acc) 0, ?_⟩
    rw [zero_add]
    apply list_sum_nonpos
    intro r hr
    obtain ⟨a, -, rfl⟩ := List.mem_map.1 hr
    apply list_sum_nonpos
    intro r hr
    obtain ⟨o, -, rfl⟩ := List.mem_map.1 hr
    apply Real.log_nonpos
    · exact mul_nonneg (freq_nonneg _ _ _) (freq_nonneg _ _ _)
    · exact mul_le_one₀ (freq_le_one _ _ _) (freq_nonneg _ _ _) (freq_le_one _ _ _)

/-- C20, the value: for a leaf it is the log-probability, under the concept, of the visible attribute
values (and missing attributes) shared by the instances of the leaf. -/
theorem C20_log_likelihood_value (h : CobwebReach hid t hist n) (hne : hist ≠ [])
    {x y : Tree (Stats A V)} (hx : x ∈ t.nodes) (hy : y ∈ x.leaves) :
    ∃ mx my : Multiset (Inst A V), Summarizes x.stats mx ∧ Summarizes y.stats my ∧ my ≤ mx ∧ my ≠ 0 ∧
      ∀ i ∈ my, x.stats.logLikelihood Real.log hid y.stats =
        .ok (∑ a ∈ visAttrs hid mx, Real.log (freq ℝ mx a (Dict.get? i a))) := by
  obtain ⟨hy1, hy2⟩ := (Tree.mem_leaves_iff _ _).1 hy
  obtain ⟨mx, my, hs, hl, hle, hm, hsame⟩ := node_sum_below h hne hx hy1
  specialize hsame hy2
  have hmx : mx ≠ 0 := by rintro rfl; exact hm (Multiset.le_zero.1 hle)
  refine ⟨mx, my, hs, hl, hle, hm, fun i hi => ?_⟩
  unfold Stats.logLikelihood
  rw [llAttrs_eq hs hl hle, llOuter_eq (f := fun a => Real.log (freq ℝ mx a (Dict.get? i a))), zero_add,
    ← hs.attrs_eq.2, List.sum_toFinset _ hs.attrs_eq.1]
  intro a ha acc
  have hav : hid a = false := by
    have : a ∈ visAttrs hid mx := by rw [← hs.attrs_eq.2]; simpa using ha
    exact (Finset.mem_filter.1 this).2
  rw [llInner_eq hs hl hmx hm (freq_mono_pos hle a)]
  congr 2
  have hnd : (llVals x.stats y.stats a).Nodup := by
    rw [llVals_eq, List.nodup_cons]
    refine ⟨by simp, List.Nodup.map (Option.some_injective _) ?_⟩
    rw [List.nodup_append]
    refine ⟨(hs.recorded a).1, (hl.recorded a).1.filter _, ?_⟩
    intro u hu v hv huv
    subst huv
    simp [hu] at hv
  have hmem : Dict.get? i a ∈ llVals x.stats y.stats a := by
    rw [llVals_eq]
    cases hg : Dict.get? i a with
    | none => simp
    | some v =>
      have : v ∈ x.stats.recorded a := by
        rw [← List.mem_toFinset, (hs.recorded a).2]
        exact mem_valsOf.2 ⟨i, Multiset.mem_of_le hle hi, hg⟩
      simp [this]
  have hf : (llVals x.stats y.stats a).filter (fun o => 0 < freq ℝ my a o) = [Dict.get? i a] := by
    have e : ∀ o, decide (0 < freq ℝ my a o) = decide (o = Dict.get? i a) := by
      intro o
      rw [freq_pure hsame hi hav]
      by_cases ho : o = Dict.get? i a <;> simp [ho]
    simp only [e]
    exact filter_eq_single hnd hmem
  rw [hf]
  simp [freq_pure hsame hi hav]

/-- The leaf may be a proper descendant; a leaf that is *not* below the concept makes the code take the
logarithm of 0, which raises `ValueError`. (Evaluated with a rational stand-in for the logarithm.) -/
example :
    let ll := fun x y : Tree (Stats ℕ ℕ) => x.stats.logLikelihood (K := ℚ) (fun p => p - 1) Demo.hid y.stats
    (match Demo.demoTree.leaves with
      | l1 :: l2 :: _ =>
        (match ll Demo.demoTree l1 with | .ok r => decide (r < 0) | .error _ => false) &&
        (match ll l1 l2 with | .ok _ => false | .error e => decide (e = .valueErr))
      | _ => false) = true := by decide +kernel

/-! ### C21 -/

theorem Dict.set_set {K V : Type} [DecidableEq K] (d : Dict K V) (k : K) (v v' : V) :
    Dict.set (Dict.set d k v) k v' = Dict.set d k v' := by
  induction d with
  | nil => simp [Dict.set]
  | cons p d ih =>
    obtain ⟨a, b⟩ := p
    by_cases h : a = k
    · simp [Dict.set, h]
    · simp [Dict.set, h, ih]

theorem foldl_set_const {K V α : Type} [DecidableEq K] (k : K) (v : V) (l : List α) (d : Dict K V) :
    l.foldl (fun d _ => Dict.set d k v) d = if l = [] then d else Dict.set d k v := by
  induction l generalizing d with
  | nil => rfl
  | cons a l ih =>
    rw [List.foldl_cons, ih]
    by_cases h : l = []
    · simp [h]
    · simp [h, Dict.set_set]

theorem nodup_map_keys {K K' V V' : Type} [DecidableEq K] [DecidableEq K'] {f : K → K'} {g : V → V'}
    {d : Dict K V} (hd : Dict.Nodup d) (hf : ∀ a ∈ Dict.keys d, ∀ b ∈ Dict.keys d, f a = f b → a = b) :
    Dict.Nodup (K := K') (d.map fun p => (f p.1, g p.2)) := by
  unfold Dict.Nodup
  have : Dict.keys (d.map fun p => (f p.1, g p.2)) = (Dict.keys d).map f := by
    simp [Dict.keys, Function.comp_def]
  rw [this]
  exact hd.map_on hf

theorem get?_map_keys {K K' V V' : Type} [DecidableEq K] [DecidableEq K'] {f : K → K'} {g : V → V'}
    {d : Dict K V} {a : K} (ha : a ∈ Dict.keys d)
    (hf : ∀ a ∈ Dict.keys d, ∀ b ∈ Dict.keys d, f a = f b → a = b) :
    Dict.get? (d.map fun p => (f p.1, g p.2)) (f a) = (Dict.get? d a).map g := by
  induction d with
  | nil => simp at ha
  | cons p d ih =>
    obtain ⟨b, v⟩ := p
    by_cases hb : b = a
    · subst hb; simp [Dict.get?]
    · have hne : f b ≠ f a := fun h => hb (hf b (by simp) a ha h)
      have ha' : a ∈ Dict.keys d := by
        rcases List.mem_cons.1 ha with h | h
        · exact absurd h.symm hb
        · exact h
      simp only [List.map_cons, Dict.get?, hne, hb, if_false]
      exact ih ha' fun x hx y hy => hf x (by simp [hx]) y (by simp [hy])

/-- The string forms used in a concept table are distinct. -/
structure StrOk (strA : A → String) (strV : V → String) (s : Stats A V) : Prop where
  attr : ∀ a ∈ s.av.keys, ∀ b ∈ s.av.keys, strA a = strA b → a = b
  val : ∀ a, ∀ u ∈ s.recorded a, ∀ v ∈ s.recorded a, strV u = strV v → u = v

theorem jsonCounts_eq {strA : A → String} {strV : V → String} {s : Stats A V}
    {m : Multiset (Inst A V)} (hs : Summarizes s m) (hstr : StrOk strA strV s) :
    jsonCounts strA strV s = s.av.map fun p => (strA p.1, p.2.map fun q => (strV q.1, q.2)) := by
  have hrec : ∀ p ∈ s.av, s.recorded p.1 = Dict.keys p.2 := by
    intro p hp
    simp [Stats.recorded, Dict.get?_of_mem hs.nodup.1 (k := p.1) (v := p.2) hp]
  have e : jsonCounts strA strV s = s.av.foldl (fun temp p =>
      Dict.set temp (strA p.1) (p.2.map fun q => (strV q.1, q.2))) [] := by
    unfold jsonCounts
    have key : ∀ (l : Dict A (Dict V ℕ)), (∀ p ∈ l, p ∈ s.av) → ∀ d : Dict String (Dict String ℕ),
        l.foldl (fun temp p => p.2.foldl (fun temp _ =>
          temp.set (strA p.1) (Dict.ofPairs (p.2.map fun q => (strV q.1, q.2)))) temp) d =
        l.foldl (fun temp p => Dict.set temp (strA p.1) (p.2.map fun q => (strV q.1, q.2))) d := by
      intro l
      induction l with
      | nil => intro _ d; rfl
      | cons p l ih =>
        intro hl d
        have hp := hl p (by simp)
        rw [List.foldl_cons, List.foldl_cons, ih fun q hq => hl q (by simp [hq])]
        congr 1
        have hne : p.2 ≠ [] := by
          have h1 := hs.recorded_ne_nil (a := p.1) (List.mem_map.2 ⟨p, hp, rfl⟩)
          rw [hrec p hp] at h1
          intro h0; rw [h0] at h1; exact h1 rfl
        rw [foldl_set_const, if_neg hne, Dict.ofPairs_of_nodup]
        exact nodup_map_keys (g := fun c => c) (hs.nodup.2 p hp) fun u hu v hv =>
          hstr.val p.1 u (by rw [hrec p hp]; exact hu) v (by rw [hrec p hp]; exact hv)
    exact key s.av (fun p hp => hp) []
  rw [e]
  have h2 := Dict.ofPairs_of_nodup (s.av.map fun p => (strA p.1, p.2.map fun q => (strV q.1, q.2)))
    (nodup_map_keys (g := fun t : Dict V ℕ => t.map fun q => (strV q.1, q.2)) hs.nodup.1 hstr.attr)
  rw [Dict.ofPairs, List.foldl_map] at h2
  exact h2

theorem describes_json {strA : A → String} {strV : V → String} (x : Tree (Stats A V))
    (hx : ∀ y ∈ x.nodes, StrOk strA strV y.stats ∧ ∃ m, Summarizes y.stats m) :
    Describes strA strV x (outputJson strA strV x) := by
  induction x using Tree.ind with
  | h id s cs ih =>
    obtain ⟨hstr, m, hs⟩ := hx _ (Tree.self_mem_nodes _)
    simp only [Tree.stats_node] at hstr hs
    have hL : ∀ l : List (Tree (Stats A V)), outputJsonL strA strV l = l.map (outputJson strA strV) := by
      intro l; induction l with
      | nil => rfl
      | cons c l ih => simp [outputJsonL, ih]
    unfold outputJson
    rw [hL]
    have hc := jsonCounts_eq hs hstr
    have hget : ∀ a ∈ s.av.keys, (jsonCounts strA strV s).get? (strA a) =
        (s.av.get? a).map fun t => t.map fun q => (strV q.1, q.2) := by
      intro a ha
      rw [hc]; exact get?_map_keys ha hstr.attr
    refine .mk ?_ ?_ ?_ ?_
    · intro a v hv
      by_cases ha : a ∈ s.av.keys
      · obtain ⟨tb, hg⟩ : ∃ tb, s.av.get? a = some tb :=
          Option.isSome_iff_exists.1 (Dict.get?_isSome.2 ha)
        have hr : s.recorded a = tb.keys := by simp [Stats.recorded, hg]
        rw [hget a ha, hg]
        simp only [Option.map_some, Option.bind_some, Stats.lookup, hg]
        have := get?_map_keys (g := fun c : ℕ => c) (f := strV) (d := tb) (a := v)
          (by rw [← hr]; exact hv) (by rw [← hr]; exact hstr.val a)
        rw [this]; simp
      · simp [Stats.recorded, Dict.get?_eq_none.2 ha] at hv
    · intro k
      rw [hc]
      simp only [Dict.keys, List.map_map, List.mem_map, Function.comp]
      constructor
      · rintro ⟨p, hp, rfl⟩; exact ⟨p.1, ⟨p, hp, rfl⟩, rfl⟩
      · rintro ⟨a, ⟨p, hp, rfl⟩, rfl⟩; exact ⟨p, hp, rfl⟩
    · intro a tb hg ha k
      rw [hget a ha] at hg
      obtain ⟨tb', hg', rfl⟩ := Option.map_eq_some_iff.1 hg
      simp only [Stats.recorded, hg', Option.getD_some, Dict.keys, List.map_map, List.mem_map,
        Function.comp]
      constructor
      · rintro ⟨p, hp, rfl⟩; exact ⟨p.1, ⟨p, hp, rfl⟩, rfl⟩
      · rintro ⟨a, ⟨p, hp, rfl⟩, rfl⟩; exact ⟨p, hp, rfl⟩
    · rw [List.forall₂_map_right_iff]
      exact List.forall₂_same.2 fun c hc => ih c hc fun y hy =>
        hx y (Tree.mem_nodes_child (t := .node id s cs) hc hy)

theorem all_names {strA : A → String} {strV : V → String} (x : Tree (Stats A V)) :
    (outputJson strA strV x).all.map NodeJson.name = x.nodes.map fun y => s!"Concept{y.id}" := by
  induction x using Tree.ind with
  | h id s cs ih =>
    have key : ∀ l : List (Tree (Stats A V)), (∀ c ∈ l, (outputJson strA strV c).all.map NodeJson.name =
        c.nodes.map fun y => s!"Concept{y.id}") →
        (NodeJson.allL (outputJsonL strA strV l)).map NodeJson.name =
          (Tree.nodesL l).map fun y => s!"Concept{y.id}" := by
      intro l
      induction l with
      | nil => intro _; rfl
      | cons c l ihl =>
        intro h
        simp only [outputJsonL, NodeJson.allL, Tree.nodesL, List.map_append,
          h c (by simp), ihl fun d hd => h d (by simp [hd])]
    unfold outputJson NodeJson.all Tree.nodes
    rw [List.map_cons, List.map_cons, key cs ih]
    rfl

/-- **C21**: on every reachable tree, when the string forms of the attributes and values of each concept
are distinct, `output_json` describes the whole tree (name, size, table, children in order), has one
object per node, in order, and `num_concepts` is the number of nodes. -/
theorem C21_output_json (h : CobwebReach hid t hist n) {strA : A → String} {strV : V → String}
    (hstr : ∀ x ∈ t.nodes, StrOk strA strV x.stats) :
    Describes strA strV t (outputJson strA strV t) ∧
      (outputJson strA strV t).all.map NodeJson.name = t.nodes.map (fun x => s!"Concept{x.id}") ∧
      t.numConcepts = t.nodes.length :=
  ⟨describes_json t fun y hy => ⟨hstr y hy, (node_sum h hy).imp fun _ h => h.1⟩, all_names t,
    (Tree.length_nodes t).symm⟩

/-- C21: the names of the objects are pairwise distinct, so a label identifies a node. -/
theorem C21_names_distinct (h : CobwebReach hid t hist n) (strA : A → String) (strV : V → String) :
    ((outputJson strA strV t).all.map NodeJson.name).Nodup := by
  rw [all_names]
  have hnd : t.ids.Nodup := (reach_ids h).1
  have e : t.nodes.map (fun x => s!"Concept{x.id}") = t.ids.map fun i => s!"Concept{i}" := by
    simp [Tree.ids, Function.comp_def]
  rw [e]
  refine hnd.map fun i j hij => ?_
  have h1 : ("Concept" ++ toString i : String) = "Concept" ++ toString j := hij
  have h2 : toString i = toString j := by
    have := congrArg String.toList h1
    simp only [String.toList_append, List.append_cancel_left_eq] at this
    exact String.toList_injective this
  exact Nat.repr_injective h2

/-- `repr` and `toString` on the demonstration tree: the hypotheses hold, with hidden attributes too. -/
example : ∀ x ∈ Demo.demoTree.nodes, StrOk (fun a : ℕ => toString a) (fun v : ℕ => toString v) x.stats :=
  fun _ _ => ⟨fun _ _ _ _ h => Nat.repr_injective h, fun _ _ _ _ _ h => Nat.repr_injective h⟩

end CF
