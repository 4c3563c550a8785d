/-
C99: one infinity, with scaling on, makes the scores of all concepts with the attribute `nan`.
-/
import Verif.Props.Ext3

set_option linter.unusedSectionVars false

namespace CF
variable {A B V : Type} [DecidableEq A] [DecidableEq B] [DecidableEq V] {R : Rounding} {hid : A → Bool}
variable {X : XF → Prop} {cfg : Cfg3 A B} {st : XState A B V} {hist : List (XInst A V)} {n : ℕ}

theorem batchX_infected {xs : List XF} : ∀ {c : CV XF}, ¬ c.mean.IsFin ∧ c.meanSq = .nan →
    ¬ (CV.updateBatchX R.fl c xs).mean.IsFin ∧ (CV.updateBatchX R.fl c xs).meanSq = .nan := by
  induction xs with
  | nil => exact fun h => h
  | cons x xs ih =>
    intro c h
    obtain ⟨h1, h2, -⟩ := updateX_nonfin (R := R) (c := c) (x := x) fun hh => h.1 hh.2
    exact ih ⟨h2, h1⟩

theorem batchX_nonfin {xs : List XF} (h : ∃ x ∈ xs, ¬ x.IsFin) : ∀ c : CV XF,
    (CV.updateBatchX R.fl c xs).meanSq = .nan := by
  induction xs with
  | nil => obtain ⟨x, hx, -⟩ := h; simp at hx
  | cons x xs ih =>
    intro c
    by_cases hx : x.IsFin
    · obtain ⟨y, hy, hn⟩ := h
      rcases List.mem_cons.1 hy with rfl | hy
      · exact absurd hx hn
      · exact ih ⟨y, hy, hn⟩ _
    · obtain ⟨h1, h2, -⟩ := updateX_nonfin (R := R) (c := c) (x := x) fun hh => hx hh.1
      exact (batchX_infected ⟨h2, h1⟩).2

theorem batchX_num' (xs : List XF) : ∀ c : CV XF, (CV.updateBatchX R.fl c xs).num = c.num + xs.length := by
  induction xs with
  | nil => intro c; rfl
  | cons x xs ih =>
    intro c
    show (CV.updateBatchX R.fl (CV.updateX R.fl c x) xs).num = _
    rw [ih, List.length_cons]
    show c.num + 1 + xs.length = _
    omega

theorem quot_nan' (x : XF) : XF.quot R.fl x .nan = .nan := by cases x <;> rfl

theorem stdX_nan {c : CV XF} (h2 : 2 ≤ c.num) (h : c.meanSq = .nan) : CV.unbiasedStdX R.fl c = .ok .nan := by
  unfold CV.unbiasedStdX
  rw [if_neg (by omega), h]
  have hd : (XF.sub R.fl (XF.ofNat R.fl c.num) (.fin 1)).AtLeast 1 := by
    rcases ofNat_cases (R := R) c.num with ⟨e, -⟩ | ⟨e, -⟩ <;> rw [e]
    · exact round_atLeast .one zero_le_one (by linarith [R.two_le_natF h2])
    · rfl
  obtain ⟨k, hk, hk2⟩ := c4_float (R := R) h2
  have hk3 : (XF.fin (R.fl (k : ℝ))) ≠ .fin 0 := by intro h; injection h with h; linarith
  rw [div_ok (hd.ne_zero one_pos), ok_bind, nan_quot]
  simp only [XF.sqrt, ok_bind, hk, div_ok hk3, nan_quot]

theorem scaleX_nan {sc : XScales B} {a : A} {c : CV XF} (hs : cfg.scaling ≠ 0) (hc : sc.get? (cfg.inner a) = some c)
    (hn : CV.unbiasedStdX R.fl c = .ok .nan) : ecgScaleX R.fl cfg sc a = .ok .nan := by
  have h0 : XF.fin cfg.scaling ≠ .fin 0 := by intro h; injection h with h; exact hs h
  unfold ecgScaleX
  rw [if_neg hs, hc]
  simp only [div_ok h0, ok_bind, hn, mul_nan]
  rfl

theorem termX_nan {k : ℕ} {c : CV XF} {y : XF} (h : cvTermX R.fl k .nan c = .ok y) : y = .nan := by
  simp only [cvTermX, CV.scaledUnbiasedStdX, bind_ok, pure_ok] at h
  obtain ⟨s, ⟨s0, -, hs⟩, noise, -, std, hstd, p, -, root, -, q, hq, rfl⟩ := h
  have hn : ¬ XF.nan.nonpos := id
  rw [if_neg hn, div_ok (by simp), quot_nan'] at hs
  cases hs
  rw [nan_mul, nan_add] at hstd
  cases hstd
  rw [mul_nan, div_ok (by simp), quot_nan'] at hq
  cases hq
  rw [mul_nan]

theorem cellX_nan (sc : XScales B) (k : ℕ) (a : A) (l : List (ℕ ⊕ CV XF)) : ∀ {acc y : XF},
    (acc = .nan ∨ (ecgScaleX R.fl cfg sc a = .ok .nan ∧ ∃ c, Sum.inr c ∈ l)) →
    cellLoopX R.fl cfg sc k a l acc = .ok y → y = .nan := by
  induction l with
  | nil =>
    intro acc y h hy
    rcases h with rfl | ⟨-, c, hc⟩
    · cases hy; rfl
    · simp at hc
  | cons x l ih =>
    intro acc y h hy
    cases x with
    | inl m =>
      simp only [cellLoopX, bind_ok] at hy
      obtain ⟨p, -, hy⟩ := hy
      refine ih ?_ hy
      rcases h with rfl | ⟨h1, c, hc⟩
      · exact .inl (nan_add _)
      · exact .inr ⟨h1, c, by simpa using hc⟩
    | inr d =>
      simp only [cellLoopX, bind_ok] at hy
      obtain ⟨s, hs, z, hz, hy⟩ := hy
      refine ih ?_ hy
      rcases h with rfl | ⟨h1, -⟩
      · exact .inl (nan_add _)
      · rw [h1] at hs
        cases hs
        rw [termX_nan hz]
        exact .inl (add_nan _)

theorem mem_cells {t : XTab V} {c : CV XF} (h : t.cv = some c) (pos : ℕ) : Sum.inr c ∈ t.cells pos := by
  simp [XTab.cells, h]

theorem ecgLoopX_nan (pos : XTab V → ℕ) (sc : XScales B) (k : ℕ) (l : Dict A (XTab V)) : ∀ {acc y : XF},
    (acc = .nan ∨ ∃ a t c, (a, t) ∈ l ∧ t.cv = some c ∧ ecgScaleX R.fl cfg sc a = .ok .nan) →
    ecgLoopX R.fl pos cfg sc k l acc = .ok y → y = .nan := by
  induction l with
  | nil =>
    intro acc y h hy
    rcases h with rfl | ⟨a, t, c, hc, -⟩
    · cases hy; rfl
    · simp at hc
  | cons p l ih =>
    obtain ⟨b, u⟩ := p
    intro acc y h hy
    simp only [ecgLoopX, bind_ok] at hy
    obtain ⟨z, hz, hy⟩ := hy
    refine ih ?_ hy
    rcases h with rfl | ⟨a, t, c, hm, hc, hs⟩
    · exact .inl (cellX_nan sc k b _ (.inl rfl) hz)
    · rcases List.mem_cons.1 hm with e | hm
      · cases e
        exact .inl (cellX_nan sc k _ _ (.inr ⟨hs, c, mem_cells hc _⟩) hz)
      · exact .inr ⟨a, t, c, hm, hc, hs⟩

/-- **C99**, a finding: with scaling, an infinity and one more number under an inner name, whatever its sign and
whenever it was fitted, make the scale of that name `nan`.  From then on every concept that has numbers of such an
attribute, in this tree or made while it is searched, scores `nan`: the attributes do not influence the comparison of
these concepts any more. -/
theorem C99_infinity_blinds (h : ReachX R X hid cfg st hist n) (hs : cfg.scaling ≠ 0) {a : A} (ha : hid a = false)
    (h2 : 2 ≤ (scaleNumsX cfg.inner hist (cfg.inner a)).length)
    (hi : ∃ s, XF.inf s ∈ scaleNumsX cfg.inner hist (cfg.inner a)) (pos : XTab V → ℕ) (s : XStats A V)
    (hc : s.cvOf a ≠ none) {y : XF} (hy : XStats.ecg R.fl pos hid cfg st.scales s = .ok y) : y = .nan := by
  obtain ⟨sg, hi⟩ := hi
  have hne : scaleNumsX cfg.inner hist (cfg.inner a) ≠ [] := by intro h0; rw [h0] at h2; simp at h2
  have hsc := C99_scales h (cfg.inner a)
  rw [if_neg hne] at hsc
  have hstd := stdX_nan (R := R) (c := CV.updateBatchX R.fl CV.freshX (scaleNumsX cfg.inner hist (cfg.inner a)))
    (by rw [batchX_num']; exact h2.trans (Nat.le_add_left _ _)) (batchX_nonfin ⟨_, hi, id⟩ _)
  have hscale := scaleX_nan hs hsc hstd
  obtain ⟨c, hc⟩ := Option.ne_none_iff_exists'.1 hc
  obtain ⟨t, ht, htc⟩ := Option.bind_eq_some_iff.1 hc
  simp only [XStats.ecg, bind_ok] at hy
  obtain ⟨g, hg, hy⟩ := hy
  have hgn := ecgLoopX_nan pos st.scales _ _ (.inr ⟨a, t, c, ?_, htc, hscale⟩) hg
  · subst hgn
    unfold XF.div at hy
    split_ifs at hy
    rw [nan_quot] at hy
    cases hy; rfl
  · simp only [XStats.visible, List.mem_filter, ha]
    exact ⟨Dict.mem_of_get? ht, rfl⟩

/-- The wild history: four numbers under the attribute 1, two of them infinite; the root has numbers of it, and its score
is `nan` when it does not raise. -/
example : ∃ st n, ReachX ieee XF.Moderate Demo.hid (⟨1 / 2, id⟩ : Cfg3 ℕ ℕ) st Demo.wild n ∧
    2 ≤ (scaleNumsX id Demo.wild 1).length ∧ (∃ s, XF.inf s ∈ scaleNumsX id Demo.wild 1) ∧
    st.root.stats.cvOf 1 ≠ none := by
  obtain ⟨st, n, h⟩ := reachX_exists (R := ieee) ⟨1 / 2, id⟩ Demo.wild Demo.wild_ok
  have h' := reachX_mono (fun x hx => XF.Moderate.valid hx) h
  refine ⟨st, n, h, by simp [scaleNumsX, Demo.wild, XVal.num?], ⟨true, by simp [scaleNumsX, Demo.wild, XVal.num?]⟩, ?_⟩
  rcases (C99_every_node h').1.cv 1 with ⟨h0, -⟩ | ⟨-, c, hc, -⟩
  · exfalso
    revert h0
    simp [numsX, Demo.wild, Dict.get?, XVal.num?]
  · rw [hc]; simp

end CF
