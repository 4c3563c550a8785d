/-
Property C83: what `infer_missing` of a `Cobweb3Tree` returns.
-/
import Verif.Props.Cobweb3Predict
import Verif.Props.Cobweb3Score

namespace CF
variable {A B V : Type} [DecidableEq A] [DecidableEq B] [DecidableEq V] {hid : A → Bool}
  {cfg : Cfg3 A B} {st : State3 A B V} {hist : List (Inst3 A V)} {n : ℕ}

/-- The value `v` is one that the concept can predict for the attribute `a`: a nominal value recorded there,
or a number if numbers are recorded there; with 'most likely' that number is their mean. -/
def Predictable (s : Stats3 A V) (fn : ChoiceFn) (a : A) : Val V → Prop
  | .nom v => s.nomLookup a v ≠ none
  | .num x => ∃ k, s.cvOf a = some k ∧ (fn = .mostLikely → x = k.mean)

theorem mem_keysOf_nom {s : Stats3 A V} {a : A} {v : V} (h : some v ∈ s.keysOf a) : s.nomLookup a v ≠ none := by
  unfold Stats3.keysOf at h
  unfold Stats3.nomLookup
  cases hg : s.av.get? a with
  | none => rw [hg] at h; simp at h
  | some t =>
    rw [hg] at h
    simp only [Tab.entries, List.map_append, List.mem_append, List.map_map] at h
    rcases h with h | h
    · obtain ⟨p, hp, he⟩ := List.mem_map.1 h
      simp only [Function.comp, Option.some.injEq] at he
      have : v ∈ Dict.keys t.noms := List.mem_map.2 ⟨p, hp, he⟩
      rw [← Dict.get?_isSome, Option.isSome_iff_ne_none] at this
      simpa using this
    · cases hcv : t.cv <;> rw [hcv] at h <;> simp at h

theorem choose_mem {α : Type} {tie : TieBreak α ℝ} (htie : tie.Sound) {b : Bool} {l : List (α × ℝ)} {w w' : World}
    {k : α} (h : choose tie b l w = .ok (k, w')) : ∃ p, (k, p) ∈ l := by
  have key : ∀ (l : List (α × ℝ)) (r u : ℝ) v, weightedLoop r l u = .ok v → ∃ p, (v, p) ∈ l := by
    intro l
    induction l with
    | nil => intro r u v h; simp [weightedLoop] at h
    | cons c l ih =>
      intro r u v h
      obtain ⟨y, q⟩ := c
      unfold weightedLoop at h
      split at h
      · cases h
      split at h
      · cases h; exact ⟨q, by simp⟩
      · obtain ⟨p, hp⟩ := ih r _ v h; exact ⟨p, by simp [hp]⟩
  unfold choose at h
  cases b
  · simp only [Bool.false_eq_true, if_false] at h
    cases hm : mostLikelyChoice tie l w.draw with
    | error e => rw [hm] at h; cases h
    | ok v =>
      rw [hm] at h
      simp only [Except.map, Except.ok.injEq, Prod.mk.injEq] at h
      obtain ⟨rfl, -⟩ := h
      obtain ⟨p, h1, -⟩ := C43_maximal htie hm
      exact ⟨p, h1⟩
  · simp only [if_true] at h
    cases hm : weightedChoice l ((w.draw 0 : ℚ) : ℝ) with
    | error e => rw [hm] at h; cases h
    | ok v =>
      rw [hm] at h
      simp only [Except.map, Except.ok.injEq, Prod.mk.injEq] at h
      obtain ⟨rfl, -⟩ := h
      exact key _ _ _ _ hm

/-- What `predict` can return at a concept of a reachable tree. -/
theorem predict3_range (h : Reach3 hid cfg st hist n) {x : Tree (Stats3 A V)} (hx : x ∈ st.root.nodes)
    {tie : TieBreak (Option (Option V)) ℝ} (htie : tie.Sound) {gauss : Gauss} {fn : ChoiceFn} {an : Bool} {a : A}
    (ha : a ∈ x.stats.av.keys) {w w' : World} {r : Option (Val V)}
    (hp : x.stats.predict tie gauss a fn an w = .ok (r, w')) :
    (r = none ∧ an = true) ∨ ∃ v, r = some v ∧ Predictable x.stats fn a v := by
  obtain ⟨m, hs, hle, -, -⟩ := node_sum3 h hx
  have hm : m ≠ 0 := by
    rintro rfl; obtain ⟨i, hi, -⟩ := (hs.attrs a).1 ha; simp at hi
  obtain ⟨t, hg⟩ : ∃ t, x.stats.av.get? a = some t := Option.isSome_iff_exists.1 (Dict.get?_isSome.2 ha)
  have hfn : fn ≠ .other := by rintro rfl; simp [Stats3.predict] at hp
  rw [predict3_known hs hm hg hfn, bind_ok] at hp
  obtain ⟨⟨k, w1⟩, hc, hf⟩ := hp
  obtain ⟨p, hk⟩ := choose_mem htie hc
  obtain ⟨hk, -⟩ := mem_map_cand3 hk
  rcases k with _ | _ | v
  · left
    simp only [finishPredict, Except.ok.injEq, Prod.mk.injEq] at hf
    refine ⟨hf.1.symm, ?_⟩
    cases an
    · simp [Stats3.candidates] at hk
    · rfl
  · right
    simp only [finishPredict] at hf
    cases hcv : t.cv with
    | none => rw [hcv] at hf; cases hf
    | some c =>
      rw [hcv] at hf
      have hcv' : x.stats.cvOf a = some c := by simp [Stats3.cvOf, hg, hcv]
      dsimp only at hf
      split at hf
      · simp only [Except.ok.injEq, Prod.mk.injEq] at hf
        exact ⟨_, hf.1.symm, c, hcv', fun _ => rfl⟩
      · rename_i hml
        obtain ⟨sd, -, hf⟩ := bind_ok.1 hf
        simp only [pure_ok, Prod.mk.injEq] at hf
        exact ⟨_, hf.1.symm, c, hcv', fun hh => absurd hh hml⟩
  · right
    simp only [finishPredict, Except.ok.injEq, Prod.mk.injEq] at hf
    refine ⟨_, hf.1.symm, mem_keysOf_nom ?_⟩
    unfold Stats3.candidates at hk
    rcases List.mem_append.1 hk with hk | hk
    · simpa using hk
    · cases an <;> simp at hk

theorem inferLoop3_spec {s : Stats3 A V} {tie : TieBreak (Option (Option V)) ℝ} {gauss : Gauss} {fn : ChoiceFn}
    {an : Bool} {P : A → Val V → Prop}
    (hpred : ∀ a ∈ s.av.keys, ∀ w r w', s.predict tie gauss a fn an w = .ok (r, w') →
      (r = none ∧ an = true) ∨ ∃ v, r = some v ∧ P a v) :
    ∀ (as : List A), (∀ a ∈ as, a ∈ s.av.keys) → ∀ (temp out : Inst3 A V) (w w' : World),
      inferLoop3 tie gauss s fn an as temp w = .ok (out, w') →
      (∀ a ∈ Dict.keys temp, Dict.get? out a = Dict.get? temp a) ∧
      (∀ a v, a ∉ Dict.keys temp → Dict.get? out a = some v → a ∈ as ∧ P a v) ∧
      (an = false → ∀ a ∈ as, a ∈ Dict.keys out) ∧ (Dict.Nodup temp → Dict.Nodup out) := by
  intro as
  induction as with
  | nil =>
    intro _ temp out w w' h
    simp [inferLoop3] at h
    obtain ⟨rfl, -⟩ := h
    refine ⟨fun _ _ => rfl, fun a v ha hv => absurd (Dict.get?_isSome.1 (by simp [hv])) ha, by simp, id⟩
  | cons a as ih =>
    intro has temp out w w' h
    have has' : ∀ b ∈ as, b ∈ s.av.keys := fun b hb => has b (by simp [hb])
    unfold inferLoop3 at h
    split at h
    · rename_i hin
      obtain ⟨h1, h2, h3, h4⟩ := ih has' temp out w w' h
      refine ⟨h1, fun b v hb hv => ?_, fun han b hb => ?_, h4⟩
      · obtain ⟨h5, h6⟩ := h2 b v hb hv; exact ⟨by simp [h5], h6⟩
      · rcases List.mem_cons.1 hb with rfl | hb
        · have := Dict.has_iff.1 hin
          rw [← Dict.get?_isSome, h1 b this]; exact hin
        · exact h3 han b hb
    · rename_i hin
      have hnk : a ∉ Dict.keys temp := fun hk => hin (Dict.has_iff.2 hk)
      rw [bind_ok] at h
      obtain ⟨⟨v, w1⟩, hp, h⟩ := h
      have hc := hpred a (has a (by simp)) w v w1 hp
      cases v with
      | none =>
        simp only at h
        obtain ⟨h1, h2, h3, h4⟩ := ih has' temp out w1 w' h
        refine ⟨h1, fun b v hb hv => ?_, fun han b hb => ?_, h4⟩
        · obtain ⟨h5, h6⟩ := h2 b v hb hv; exact ⟨by simp [h5], h6⟩
        · subst han; simp at hc
      | some v =>
        simp only at h
        obtain ⟨h1, h2, h3, h4⟩ := ih has' _ out w1 w' h
        have hv : P a v := by simpa using hc
        refine ⟨fun b hb => ?_, fun b u hb hu => ?_, fun han b hb => ?_, fun hnd => h4 (Dict.nodup_set hnd _ _)⟩
        · rw [h1 b (Dict.mem_keys_set.2 (Or.inr hb)), Dict.get?_set_ne _ (by rintro rfl; exact hnk hb)]
        · by_cases hba : b = a
          · subst hba
            rw [h1 b (Dict.mem_keys_set.2 (Or.inl rfl)), Dict.get?_set_self] at hu
            cases hu; exact ⟨by simp, hv⟩
          · obtain ⟨h5, h6⟩ := h2 b u (by rw [Dict.mem_keys_set]; simp [hba, hb]) hu
            exact ⟨by simp [h5], h6⟩
        · rcases List.mem_cons.1 hb with rfl | hb
          · rw [← Dict.get?_isSome, h1 b (Dict.mem_keys_set.2 (Or.inl rfl)), Dict.get?_set_self]; rfl
          · exact h3 han b hb

/-- **C83**: `infer_missing` of a `Cobweb3Tree` returns an instance that keeps every given attribute value and
adds only attributes recorded in the concept that `categorize` finds.  An added nominal value is recorded
there; numbers are added only to attributes with recorded numbers, and with 'most likely' the number is their
mean.  With `allow_none=False` every attribute recorded there is filled; the argument is not modified. -/
theorem C83_infer_missing (h : Reach3 hid cfg st hist n) {tie : TieBreak (Option (Option V)) ℝ}
    (htie : tie.Sound) {gauss : Gauss} {i out i' : Inst3 A V} (hi : Dict.Nodup i) {fn : ChoiceFn} {an : Bool}
    {w w' : World} (hr : inferMissing3 hid cfg tie gauss st i fn an w = .ok (out, i', w')) :
    i' = i ∧ Dict.Nodup out ∧
    ∃ c w1, categorize3 hid cfg st i w = .ok (c, w1) ∧ c ∈ st.root.leaves ∧
      (∀ a v, Dict.get? i a = some v → Dict.get? out a = some v) ∧
      (∀ a v, Dict.get? i a = none → Dict.get? out a = some v → match v with
        | .nom x => c.stats.nomLookup a x ≠ none
        | .num x => ∃ k, c.stats.cvOf a = some k ∧ (fn = .mostLikely → x = k.mean)) ∧
      (an = false → ∀ a ∈ c.stats.av.keys, a ∈ Dict.keys out) := by
  unfold inferMissing3 at hr
  simp only [bind_ok, pure_ok, Prod.mk.injEq] at hr
  obtain ⟨⟨c, w1⟩, hc, ⟨out', w2⟩, hl, rfl, rfl, rfl⟩ := hr
  have hleaf : c ∈ st.root.leaves := (C84_categorize_descends h hc).1
  have hcn : c ∈ st.root.nodes := ((Tree.mem_leaves_iff _ _).1 hleaf).1
  obtain ⟨h1, h2, h3, h4⟩ := inferLoop3_spec (fun a ha w r w' => predict3_range h hcn htie ha) _ (fun a ha => ha) _ _ _ _ hl
  refine ⟨rfl, h4 hi, c, w1, hc, hleaf, fun a v hv => ?_, fun a v hv hv' => ?_, h3⟩
  · rw [h1 a (Dict.get?_isSome.1 (by simp [hv]))]; exact hv
  · have := (h2 a v (Dict.get?_eq_none.1 hv) hv').2
    cases v <;> exact this

theorem inferLoop3_total (h : Reach3 hid cfg st hist n) {x : Tree (Stats3 A V)} (hx : x ∈ st.root.nodes)
    {tie : TieBreak (Option (Option V)) ℝ} (htie : tie.Sound) (gauss : Gauss) (an : Bool) :
    ∀ (as : List A) (temp : Inst3 A V) (w : World), Function.Injective w.rnd →
      ∃ r, inferLoop3 tie gauss x.stats .mostLikely an as temp w = .ok r := by
  intro as
  induction as with
  | nil => intro temp w _; exact ⟨_, rfl⟩
  | cons a as ih =>
    intro temp w hw
    unfold inferLoop3
    split
    · exact ih temp w hw
    · obtain ⟨v, w', hp, hr⟩ := C33_predict_total h hx a htie gauss an hw
      have hw' : Function.Injective w'.rnd := by rw [hr]; exact hw
      rw [hp, ok_bind]
      cases v with
      | none => exact ih temp w' hw'
      | some v => exact ih _ w' hw'

/-- **C83**: with the default choice function, `infer_missing` succeeds. -/
theorem C83_infer_missing_total (h : Reach3 hid cfg st hist n) (hv : ∀ j ∈ hist, HasVisible hid j)
    {tie : TieBreak (Option (Option V)) ℝ} (htie : tie.Sound) (gauss : Gauss) {i : Inst3 A V} (hi : Dict.Nodup i)
    (an : Bool) {w : World} (hw : Function.Injective w.rnd) :
    ∃ r, inferMissing3 hid cfg tie gauss st i .mostLikely an w = .ok r := by
  obtain ⟨⟨c, w1⟩, hc⟩ := C63_categorize_never_raises h hv hi hw
  have hleaf : c ∈ st.root.leaves := (C84_categorize_descends h hc).1
  have hcn : c ∈ st.root.nodes := ((Tree.mem_leaves_iff _ _).1 hleaf).1
  have hw1 : Function.Injective w1.rnd := by rw [categorizeLoop_rnd _ _ _ _ hc]; exact hw
  obtain ⟨⟨out, w2⟩, hl⟩ := inferLoop3_total h hcn htie gauss an c.stats.av.keys i w1 hw1
  unfold inferMissing3
  simp only [hc, ok_bind, hl]
  exact ⟨_, rfl⟩

/-- Completing an instance with the tree of a mixed history: the number it has is kept. -/
example : ∃ st n out w', Reach3 Demo.hid (⟨1 / 2, id⟩ : Cfg3 ℕ ℕ) st Demo.mixed n ∧
    inferMissing3 Demo.hid ⟨1 / 2, id⟩ (fun _ => .error .typeErr) (fun _ _ w => (0, w)) st [(1, .num 2)] .mostLikely
      false Demo.w0 = .ok (out, [(1, .num 2)], w') ∧ Dict.get? out 1 = some (.num 2) := by
  obtain ⟨st, n, h⟩ := reach3_exists ⟨1 / 2, id⟩ Demo.mixed Demo.mixed_ok
  have htie : TieBreak.Sound (fun _ => .error .typeErr : TieBreak (Option (Option ℕ)) ℝ) := fun l v hl => by cases hl
  have hi : Dict.Nodup ([(1, .num 2)] : Inst3 ℕ ℕ) := by simp [Dict.Nodup, Dict.keys]
  obtain ⟨⟨out, i', w'⟩, hr⟩ := C83_infer_missing_total h (fun j hj => (Demo.mixed_ok j hj).2) htie
    (fun _ _ w => (0, w)) hi false (w := Demo.w0) (fun a b hab => by simpa [Demo.w0] using hab)
  obtain ⟨rfl, -, c, w1, -, -, h1, -⟩ := C83_infer_missing h htie hi hr
  exact ⟨st, n, out, w', h, hr, h1 1 _ rfl⟩

end CF
