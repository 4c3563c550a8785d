/-
Property C99, the scores: where nothing overflows the scores are those computed without overflow.
-/
import Verif.Props.Ext3

namespace CF

/-- A table of numbers among those of floats. -/
def Tab.lift {V : Type} (t : Tab V) : XTab V := ⟨t.noms, t.cv.map CV.lift⟩

/-- The fields of a concept of numbers among those of floats. -/
def Stats3.lift {A V : Type} (s : Stats3 A V) : XStats A V := ⟨s.count, s.av.map fun p => (p.1, p.2.lift)⟩

/-- Scales of numbers among those of floats. -/
def liftScales {B : Type} (sc : Scales B) : XScales B := sc.map fun p => (p.1, p.2.lift)

section
variable {A B V : Type} [DecidableEq A] [DecidableEq B] [DecidableEq V] {R : Rounding} {cfg : Cfg3 A B} {hid : A → Bool}

theorem liftScales_get? (sc : Scales B) (b : B) : (liftScales sc).get? b = (sc.get? b).map CV.lift := by
  induction sc with
  | nil => rfl
  | cons p sc ih =>
    obtain ⟨b', c⟩ := p
    simp only [liftScales, List.map_cons] at ih ⊢
    by_cases h : b' = b
    · simp [Dict.get?, h]
    · simp only [Dict.get?, h, if_false]; exact ih

theorem lift_cells (t : Tab V) (pos : ℕ) : t.lift.cells pos = (t.cells pos).map (Sum.map id CV.lift) := by
  unfold XTab.cells Tab.cells Tab.lift
  cases t.cv with
  | none => simp
  | some c => simp [List.map_take, List.map_drop, Function.comp_def]

theorem lift_visible (s : Stats3 A V) : s.lift.visible hid = (s.visible hid).map fun p => (p.1, p.2.lift) := by
  unfold XStats.visible Stats3.visible Stats3.lift
  simp only [List.filter_map]
  rfl

/-- The scale is the same. -/
theorem ecgScaleX_agrees {sc : Scales B} (hsc : ∀ b c, sc.get? b = some c → c.num ≤ 2 ^ 53) {a : A} {z : ℝ}
    (h : ecgScaleX R.fl cfg (liftScales sc) a = .ok (.fin z)) : ecgScaleF R.fl cfg sc a = .ok z := by
  unfold ecgScaleX at h
  unfold ecgScaleF
  split at h
  · rename_i h0
    rw [if_pos h0]
    injection h with h; injection h with h; rw [h]
  · rename_i h0
    rw [if_neg h0]
    rw [liftScales_get?] at h
    cases hg : sc.get? (cfg.inner a) with
    | none =>
      rw [hg] at h
      injection h with h; injection h with h
      simp only [h]
    | some c =>
      rw [hg] at h
      simp only [Option.map_some, bind_ok, pure_ok] at h
      obtain ⟨q, hq, s, hs, h⟩ := h
      obtain ⟨q', s', rfl, rfl, rfl⟩ := mul_fin_iff h
      have h0' : XF.fin cfg.scaling ≠ .fin 0 := by intro h; injection h with h; exact h0 h
      rw [div_ok h0'] at hq
      injection hq with hq
      obtain ⟨_, e, rfl⟩ := quot_fin_iff hq
      cases e
      have := (C99_agrees (R := R)).2.2 c s' (hsc _ _ hg) hs
      simp only [divF, if_neg h0, ok_bind, this]
      rfl

/-- The scaled deviation is the same. -/
theorem scaledX_agrees {c : CV ℝ} (hc : c.num ≤ 2 ^ 53) {z r : ℝ}
    (h : CV.scaledUnbiasedStdX R.fl c.lift (.fin z) = .ok (.fin r)) : CV.scaledUnbiasedStdF R.fl c z = .ok r := by
  unfold CV.scaledUnbiasedStdX at h
  unfold CV.scaledUnbiasedStdF
  simp only [bind_ok] at h
  obtain ⟨s, hs, h⟩ := h
  have key : ∀ y : ℝ, XF.div R.fl s (.fin y) = .ok (.fin r) → (do let s ← CV.unbiasedStdF R.fl c; divF R.fl s y) = .ok r := by
    intro y hy
    have hy0 : y ≠ 0 := by
      rintro rfl
      simp [XF.div] at hy
    have hy0' : XF.fin y ≠ .fin 0 := by intro h; injection h with h; exact hy0 h
    rw [div_ok hy0'] at hy
    injection hy with hy
    obtain ⟨s', rfl, rfl⟩ := quot_fin_iff hy
    rw [(C99_agrees (R := R)).2.2 c s' hc hs, ok_bind, divF, if_neg hy0]
  by_cases hz : z ≤ 0
  · rw [if_pos (show (XF.fin z).nonpos from hz)] at h
    rw [if_pos hz]
    exact key 1 h
  · rw [if_neg (show ¬ (XF.fin z).nonpos from hz)] at h
    rw [if_neg hz]
    exact key z h

/-- No overflow in the contribution of the accumulator `c` under the attribute `a`. -/
def Tame (R : Rounding) (cfg : Cfg3 A B) (sc : Scales B) (a : A) (c : CV ℝ) : Prop :=
  ∃ z r : ℝ, ecgScaleX R.fl cfg (liftScales sc) a = .ok (.fin z) ∧
    CV.scaledUnbiasedStdX R.fl c.lift (.fin z) = .ok (.fin r) ∧ r * r ≤ XF.big / 4

/-- The loop over a table, on `m` entries after `j` others. -/
theorem cellLoopX_agrees {sc : Scales B} (hsc : ∀ b c, sc.get? b = some c → c.num ≤ 2 ^ 53) {n : ℕ} (hn : n ≠ 0)
    (hn' : n ≤ 2 ^ 53) {a : A} {l : List Cell} (hk : ∀ k, Sum.inl k ∈ l → k ≤ n)
    (hc : ∀ c, Sum.inr c ∈ l → c.num ≤ n ∧ Tame R cfg sc a c) {acc : ℝ} {j : ℕ} (hj : j + l.length ≤ 2 ^ 51)
    (h0 : 0 ≤ acc) (h1 : acc ≤ 2 * j) :
    ∃ e : ℝ, 0 ≤ e ∧ e ≤ 2 * (j + l.length : ℕ) ∧ cellLoopF R.fl cfg sc n a l acc = .ok e ∧
      cellLoopX R.fl cfg (liftScales sc) n a (l.map (Sum.map id CV.lift)) (.fin acc) = .ok (.fin e) := by
  have hb := big_gt'
  have hn1 : (1 : ℝ) ≤ natF R.fl n := R.one_le_natF (Nat.one_le_iff_ne_zero.2 hn)
  have hn0 : natF R.fl n ≠ 0 := by linarith
  have hn0' : XF.fin (natF R.fl n) ≠ .fin 0 := by intro h; injection h with h; exact hn0 h
  induction l generalizing acc j with
  | nil => exact ⟨acc, h0, by simpa using h1, rfl, rfl⟩
  | cons c l ih =>
    have hk' : ∀ k, Sum.inl k ∈ l → k ≤ n := fun k h => hk k (List.mem_cons_of_mem _ h)
    have hc' : ∀ c, Sum.inr c ∈ l → c.num ≤ n ∧ Tame R cfg sc a c := fun k h => hc k (List.mem_cons_of_mem _ h)
    simp only [List.length_cons] at hj
    -- one more entry
    have step : ∀ x : ℝ, 0 ≤ x → x ≤ 2 → XF.add R.fl (.fin acc) (.fin x) = .fin (R.fl (acc + x)) ∧
        0 ≤ R.fl (acc + x) ∧ R.fl (acc + x) ≤ 2 * ((j + 1 : ℕ) : ℝ) := by
      intro x hx0 hx2
      have hf : IsFloat (((2 * (j + 1) : ℕ)) : ℝ) := .nat (by omega)
      have hle : acc + x ≤ ((2 * (j + 1) : ℕ) : ℝ) := by push_cast; linarith
      have hlt : ((2 * (j + 1) : ℕ) : ℝ) < XF.big := by
        have h1 : ((2 * (j + 1) : ℕ) : ℝ) ≤ 2 ^ 53 := by exact_mod_cast (by omega : 2 * (j + 1) ≤ 2 ^ 53)
        have h2 : (2 : ℝ) ^ 53 < XF.big := by unfold XF.big; exact pow_lt_pow_right₀ (by norm_num) (by norm_num)
        linarith
      refine ⟨round_fin hf (by rw [abs_of_nonneg (by linarith)]; exact hle) hlt, R.fl_nonneg (by linarith), ?_⟩
      have := R.fl_le hf hle
      push_cast at this ⊢
      exact this
    cases c with
    | inl k =>
      have hkn := hk k (by simp)
      have c0 : 0 ≤ natF R.fl k := R.natF_nonneg _
      have hck : natF R.fl k ≤ natF R.fl n := R.mono (by exact_mod_cast hkn)
      have c1 : 0 ≤ natF R.fl k / natF R.fl n := div_nonneg c0 (by linarith)
      have c2 : natF R.fl k / natF R.fl n ≤ 1 := by rw [div_le_one (by linarith)]; exact hck
      have e3 : XF.quot R.fl (.fin (natF R.fl k)) (.fin (natF R.fl n)) = .fin (R.fl (natF R.fl k / natF R.fl n)) :=
        round_fin .one (by rw [abs_of_nonneg c1]; exact c2) (by linarith)
      have c3 : 0 ≤ R.fl (natF R.fl k / natF R.fl n) := R.fl_nonneg c1
      have c4 : R.fl (natF R.fl k / natF R.fl n) ≤ 1 := R.fl_le .one c2
      generalize hp : R.fl (natF R.fl k / natF R.fl n) = p at *
      have e4 : XF.mul R.fl (.fin p) (.fin p) = .fin (R.fl (p * p)) :=
        round_fin .one (by rw [abs_of_nonneg (mul_self_nonneg p)]; nlinarith) (by linarith)
      have c5 : 0 ≤ R.fl (p * p) := R.fl_nonneg (mul_self_nonneg p)
      have c6 : R.fl (p * p) ≤ 1 := R.fl_le .one (by nlinarith)
      obtain ⟨s1, s2, s3⟩ := step _ c5 (by linarith)
      obtain ⟨e, q1, q2, q3, q4⟩ := ih hk' hc' (j := j + 1) (by omega) s2 s3
      refine ⟨e, q1, ?_, ?_, ?_⟩
      · rw [List.length_cons, show j + (l.length + 1) = j + 1 + l.length by omega]; exact q2
      · simp only [cellLoopF, divF, if_neg hn0, ok_bind, hp, q3]
      · simp only [List.map_cons, Sum.map_inl, id_eq, cellLoopX, ofNat_small hn', ofNat_small (hkn.trans hn'), div_ok hn0',
          e3, ok_bind, e4, s1, q4]
    | inr c =>
      obtain ⟨hcn, z, r, hz, hr, hr2⟩ := hc c (by simp)
      obtain ⟨t, t0, t2, hF, hX⟩ := (C99_term hn hn' (c := c.lift) hcn hr).1 c z r rfl rfl hr2
        (scaledX_agrees (hcn.trans hn') hr)
      obtain ⟨s1, s2, s3⟩ := step t t0 t2
      obtain ⟨e, q1, q2, q3, q4⟩ := ih hk' hc' (j := j + 1) (by omega) s2 s3
      refine ⟨e, q1, ?_, ?_, ?_⟩
      · rw [List.length_cons, show j + (l.length + 1) = j + 1 + l.length by omega]; exact q2
      · simp only [cellLoopF, ecgScaleX_agrees hsc hz, hF, ok_bind, q3]
      · simp only [List.map_cons, Sum.map_inr, cellLoopX, hz, hX, ok_bind, s1, q4]

/-- **C99**, the scores: if no deviation overflows, the score of a concept is a number, and it is the score computed
without overflow (C95). -/
theorem C99_score {posX : XTab V → ℕ} {pos : Tab V → ℕ} (hpos : ∀ t, posX t.lift = pos t) {sc : Scales B}
    (hsc : ∀ b c, sc.get? b = some c → c.num ≤ 2 ^ 53) {s : Stats3 A V} (h0 : s.count ≠ 0) (hs : s.count ≤ 2 ^ 53)
    (hv : s.visible hid ≠ []) (hlen : ((s.visible hid).map fun p => p.2.size + 1).sum ≤ 2 ^ 51)
    (hk : ∀ p ∈ s.visible hid, ∀ q ∈ p.2.noms, q.2 ≤ s.count)
    (hc : ∀ p ∈ s.visible hid, ∀ c, p.2.cv = some c → c.num ≤ s.count ∧ Tame R cfg sc p.1 c) :
    ∃ e, Stats3.ecgF R.fl pos hid cfg sc s = .ok e ∧
      XStats.ecg R.fl posX hid cfg (liftScales sc) s.lift = .ok (.fin e) := by
  have key : ∀ (l : Dict A (Tab V)) (acc : ℝ) (j : ℕ), (∀ p ∈ l, p ∈ s.visible hid) →
      j + (l.map fun p => p.2.size + 1).sum ≤ 2 ^ 51 → 0 ≤ acc → acc ≤ 2 * j →
      ∃ e, 0 ≤ e ∧ e ≤ 2 ^ 52 ∧ ecgLoop3F R.fl pos cfg sc s.count l acc = .ok e ∧
        ecgLoopX R.fl posX cfg (liftScales sc) s.count (l.map fun p => (p.1, p.2.lift)) (.fin acc) = .ok (.fin e) := by
    intro l
    induction l with
    | nil =>
      intro acc j _ hj h0 h1
      refine ⟨acc, h0, h1.trans ?_, rfl, rfl⟩
      have : ((2 * j : ℕ) : ℝ) ≤ ((2 ^ 52 : ℕ) : ℝ) := by
        simp only [List.map_nil, List.sum_nil] at hj
        exact_mod_cast (by omega : 2 * j ≤ 2 ^ 52)
      push_cast at this
      linarith
    | cons p l ih =>
      intro acc j hl hj ha0 ha1
      obtain ⟨a, t⟩ := p
      have hm := hl (a, t) (by simp)
      simp only [List.map_cons, List.sum_cons] at hj
      have hmem : ∀ c ∈ t.cells (pos t), (∃ q ∈ t.noms, c = Sum.inl q.2) ∨ ∃ d, t.cv = some d ∧ c = Sum.inr d := by
        intro c hcm
        unfold Tab.cells at hcm
        cases hcv : t.cv with
        | none =>
          rw [hcv] at hcm
          obtain ⟨q, hq, rfl⟩ := List.mem_map.1 hcm
          exact .inl ⟨q, hq, rfl⟩
        | some d =>
          rw [hcv] at hcm
          simp only [List.mem_append, List.mem_cons] at hcm
          rcases hcm with hcm | rfl | hcm
          · obtain ⟨q, hq, rfl⟩ := List.mem_map.1 (List.mem_of_mem_take hcm)
            exact .inl ⟨q, hq, rfl⟩
          · exact .inr ⟨d, rfl, rfl⟩
          · obtain ⟨q, hq, rfl⟩ := List.mem_map.1 (List.mem_of_mem_drop hcm)
            exact .inl ⟨q, hq, rfl⟩
      have hsz : (t.cells (pos t)).length = t.size := by
        unfold Tab.cells Tab.size
        cases t.cv with
        | none => simp
        | some c => simp; omega
      obtain ⟨x, x0, x1, hF, hX⟩ := cellLoopX_agrees (cfg := cfg) (R := R) hsc h0 hs (a := a) (l := t.cells (pos t)) (by
        intro k hkm
        rcases hmem _ hkm with ⟨q, hq, e⟩ | ⟨d, -, e⟩
        · cases e; exact hk _ hm q hq
        · cases e) (by
        intro c hcm
        rcases hmem _ hcm with ⟨q, hq, e⟩ | ⟨d, hd, e⟩
        · cases e
        · cases e; exact hc _ hm _ hd) (j := j) (by rw [hsz]; omega) ha0 ha1
      obtain ⟨e, q1, q2, q3, q4⟩ := ih x (j + (t.cells (pos t)).length) (fun p hp => hl p (List.mem_cons_of_mem _ hp))
        (by rw [hsz]; omega) x0 x1
      refine ⟨e, q1, q2, ?_, ?_⟩
      · simp only [ecgLoop3F, hF, ok_bind, q3]
      · simp only [List.map_cons, ecgLoopX, lift_cells, hpos, hX, ok_bind, q4]
  have hlen' : (s.visible hid).length ≤ 2 ^ 51 := by
    refine le_trans ?_ hlen
    generalize s.visible hid = l
    induction l with
    | nil => simp
    | cons p l ih => simp only [List.length_cons, List.map_cons, List.sum_cons]; omega
  obtain ⟨g, g0, g1, hF, hX⟩ := key (s.visible hid) 0 0 (fun p hp => hp) (by simpa using hlen) le_rfl (by simp)
  have hn1 : (1 : ℝ) ≤ natF R.fl (s.visible hid).length :=
    R.one_le_natF (Nat.one_le_iff_ne_zero.2 (by simpa using hv))
  have hl0 : natF R.fl (s.visible hid).length ≠ 0 := by linarith
  have hl0' : XF.fin (natF R.fl (s.visible hid).length) ≠ .fin 0 := by intro h; injection h with h; exact hl0 h
  refine ⟨R.fl (g / natF R.fl (s.visible hid).length), ?_, ?_⟩
  · simp only [Stats3.ecgF, hF, ok_bind, divF, if_neg hl0]
  · unfold XStats.ecg
    rw [lift_visible, List.length_map]
    have hX' : ecgLoopX R.fl posX cfg (liftScales sc) s.lift.count ((s.visible hid).map fun p => (p.1, p.2.lift)) (.fin 0) =
      .ok (.fin g) := hX
    rw [hX', ok_bind, ofNat_small (by omega), div_ok hl0']
    have g52 : IsFloat ((2 : ℝ) ^ 52) := .two_pow _
    refine congrArg _ (round_fin g52 ?_ (by unfold XF.big; exact pow_lt_pow_right₀ (by norm_num) (by norm_num)))
    rw [abs_of_nonneg (div_nonneg g0 (by linarith))]
    exact (div_le_self g0 hn1).trans g1

end

/-- The hypotheses of `C99_score` are met by a concept with a nominal value and an accumulator of two equal numbers,
with scaling. -/
example : ∃ (s : Stats3 ℕ ℕ) (sc : Scales ℕ), s.count = 2 ∧ (s.visible Demo.hid).length = 2 ∧
    (∀ p ∈ s.visible Demo.hid, ∀ q ∈ p.2.noms, q.2 ≤ s.count) ∧
    (∀ p ∈ s.visible Demo.hid, ∀ c, p.2.cv = some c → c.num ≤ s.count ∧ Tame ieee (⟨1, id⟩ : Cfg3 ℕ ℕ) sc p.1 c) ∧
    ∃ p ∈ s.visible Demo.hid, p.2.cv.isSome := by
  refine ⟨⟨2, [(1, ⟨[(7, 2)], none⟩), (2, ⟨[], some ⟨2, 1, 0⟩⟩)]⟩, [(2, ⟨2, 1, 0⟩)], rfl, by decide, ?_, ?_, ?_⟩
  · intro p hp q hq
    simp [Stats3.visible, Demo.hid] at hp
    rcases hp with rfl | rfl <;> simp at hq
    subst hq; simp
  · intro p hp c hcv
    simp [Stats3.visible, Demo.hid] at hp
    rcases hp with rfl | rfl <;> simp at hcv
    subst hcv
    refine ⟨by simp, 0, 0, ?_, ?_, ?_⟩
    · have h1 := std_const (R := ieee) 2 (.fin 1)
      have h2 : XF.mul ieee.fl (.fin 1) (.fin 0) = .fin 0 := by simp only [XF.mul, mul_zero]; exact round_zero
      have h3 : XF.div ieee.fl (.fin 1) (.fin 1) = .ok (.fin 1) := by
        rw [div_ok (by simp)]
        simp only [XF.quot, div_one]
        rw [round_float .one (by have := big_gt'; rw [abs_one]; linarith)]
      simp only [constX, XF.IsFin, or_true, if_true] at h1
      have h4 : CV.lift ⟨2, 1, 0⟩ = ⟨2, .fin 1, .fin 0⟩ := rfl
      simp only [ecgScaleX, one_ne_zero, if_false, liftScales, List.map_cons, List.map_nil, id_eq, Dict.get?, if_true, h3, h4,
        h1, ok_bind, h2]
      rfl
    · have h1 := std_const (R := ieee) 2 (.fin 1)
      simp only [constX, XF.IsFin, or_true, if_true] at h1
      have h4 : CV.lift ⟨2, 1, 0⟩ = ⟨2, .fin 1, .fin 0⟩ := rfl
      have h5 : (XF.fin 0).nonpos := le_refl (0 : ℝ)
      simp only [CV.scaledUnbiasedStdX, h5, if_true, h4, h1, ok_bind]
      rw [div_ok (by simp)]
      simp only [XF.quot, div_one]
      rw [round_zero]
    · have := big_gt'
      linarith
  · exact ⟨(2, ⟨[], some ⟨2, 1, 0⟩⟩), by simp [Stats3.visible, Demo.hid], rfl⟩

end CF
