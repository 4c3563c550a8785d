/-
Property C97: `log_likelihood` of a `Cobweb3Tree` in floating point.
-/
import Verif.Proofs.FloatLikelihood
import Verif.Props.Cobweb3Likelihood

set_option linter.unusedSectionVars false

namespace CF
variable {R : Rounding}

/-! ### The overlap of two normal densities -/

theorem inv_two_pi : 0.159 ≤ 1 / (2 * Real.pi) ∧ 1 / (2 * Real.pi) ≤ 0.16 := by
  obtain ⟨p1, p2⟩ := pi_digits
  constructor
  · rw [le_div_iff₀ (by positivity)]; linarith
  · rw [div_le_iff₀ (by positivity)]; linarith

theorem exp_low : Real.exp (-746) < (2 : ℝ) ^ (-1075 : ℤ) := by
  rw [← Real.exp_log (show (0 : ℝ) < (2 : ℝ) ^ (-1075 : ℤ) by positivity), Real.log_zpow, Real.exp_lt_exp]
  have := Real.log_two_lt_d9
  push_cast; linarith

theorem exp_high : (2 : ℝ) ^ (-938 : ℤ) ≤ Real.exp (-650) := by
  rw [← Real.exp_log (show (0 : ℝ) < (2 : ℝ) ^ (-938 : ℤ) by positivity), Real.log_zpow, Real.exp_le_exp]
  have := Real.log_two_gt_d9
  push_cast; linarith

/-- **C97**: when the means are more than √1500 (38.8) noisy deviations apart, the integral of the product of the two
densities is zero under the rounding of Python, because the exponential underflows. -/
theorem C97_underflow {c d : CV ℝ} {s t : ℝ} (hs : CV.unbiasedStdF ieee.fl c = .ok s)
    (ht : CV.unbiasedStdF ieee.fl d = .ok t)
    (h : 1500 * (s * s + t * t + 1 / (2 * Real.pi)) ≤ (c.mean - d.mean) ^ 2) :
    CV.gaussOverlapF ieee.fl c d = .ok 0 := by
  rw [gaussOverlapF_eq hs ht]
  have f746 : IsFloat (-746) := .mk (-746) 0 (by norm_num) (by norm_num) (by norm_num)
  have he : exponentF ieee.fl (c.mean - d.mean) s t ≤ -746 := by
    rw [fl_exponent]
    refine ieee.fl_le f746 ?_
    obtain ⟨-, n2, n3⟩ := noisySumF_near (R := ieee) s t
    obtain ⟨q1, -⟩ := fl_sq_near (R := ieee) (c.mean - d.mean)
    obtain ⟨k1, -⟩ := inv_two_pi
    rw [div_le_iff₀ (by linarith)]
    have h1 := mul_self_nonneg s
    have h2 := mul_self_nonneg t
    norm_num at *
    linarith
  have h0 : expF ieee.fl (exponentF ieee.fl (c.mean - d.mean) s t) = 0 :=
    ieee_tiny (Real.exp_pos _).le (lt_of_le_of_lt (Real.exp_le_exp.2 he) exp_low)
  rw [h0, mul_zero, ieee.fl_zero]

/-- **C97**: when they are at most 36 noisy deviations apart and the deviations are at most 2^20, the integral is
positive, whatever the rounding. -/
theorem C97_overlap_positive {c d : CV ℝ} {s t : ℝ} (hs : CV.unbiasedStdF R.fl c = .ok s)
    (ht : CV.unbiasedStdF R.fl d = .ok t) (hs0 : 0 ≤ s) (ht0 : 0 ≤ t) (hs1 : s ≤ 2 ^ 20) (ht1 : t ≤ 2 ^ 20)
    (h : (c.mean - d.mean) ^ 2 ≤ 36 ^ 2 * (s * s + t * t + 1 / (2 * Real.pi))) :
    ∃ g, CV.gaussOverlapF R.fl c d = .ok g ∧ (2 : ℝ) ^ (-961 : ℤ) ≤ g := by
  refine ⟨_, gaussOverlapF_eq hs ht, ?_⟩
  have f650 : IsFloat (-650) := .mk (-650) 0 (by norm_num) (by norm_num) (by norm_num)
  have fp : ∀ e : ℤ, -1074 ≤ e → IsFloat ((2 : ℝ) ^ e) := fun e he => .mk 1 e (by norm_num) he (by simp)
  obtain ⟨n1, n2, n3⟩ := noisySumF_near (R := R) s t
  obtain ⟨k1, k2⟩ := inv_two_pi
  have h1 := mul_self_nonneg s
  have h2 := mul_self_nonneg t
  have he : -650 ≤ exponentF R.fl (c.mean - d.mean) s t := by
    rw [fl_exponent]
    refine R.le_fl f650 ?_
    obtain ⟨-, q2⟩ := fl_sq_near (R := R) (c.mean - d.mean)
    rw [le_div_iff₀ (by linarith)]
    norm_num at *
    linarith
  have hx : (2 : ℝ) ^ (-938 : ℤ) ≤ expF R.fl (exponentF R.fl (c.mean - d.mean) s t) :=
    R.le_fl (fp _ (by norm_num)) (exp_high.trans (Real.exp_le_exp.2 he))
  obtain ⟨r1, r2⟩ := root_near (R := R) s t
  obtain ⟨t1, t2⟩ := twoPi_near (R := R)
  have hsum : noisySumF R.fl s t ≤ 2 ^ 42 := by
    have a1 : s * s ≤ 2 ^ 20 * 2 ^ 20 := mul_le_mul hs1 hs1 hs0 (by norm_num)
    have a2 : t * t ≤ 2 ^ 20 * 2 ^ 20 := mul_le_mul ht1 ht1 ht0 (by norm_num)
    norm_num at *
    linarith
  have g1 : R.fl (R.fl (2 * piF R.fl) * noisySumF R.fl s t) ≤ (2 : ℝ) ^ (46 : ℤ) := by
    refine R.fl_le (fp _ (by norm_num)) ?_
    have := mul_le_mul t2 hsum (by linarith) (by norm_num)
    refine this.trans (by norm_num)
  have g2 : R.fl (Real.sqrt (R.fl (R.fl (2 * piF R.fl) * noisySumF R.fl s t))) ≤ (2 : ℝ) ^ (23 : ℤ) := by
    refine R.fl_le (fp _ (by norm_num)) ?_
    refine Real.sqrt_le_iff.2 ⟨by norm_num, g1.trans (by norm_num)⟩
  have g3 : (2 : ℝ) ^ (-23 : ℤ) ≤ factorF R.fl s t := by
    refine R.le_fl (fp _ (by norm_num)) ?_
    rw [zpow_neg, ← one_div]
    exact one_div_le_one_div_of_le (by linarith) g2
  refine R.le_fl (fp _ (by norm_num)) ?_
  rw [show (-961 : ℤ) = -23 + -938 by norm_num, zpow_add₀ (by norm_num)]
  exact mul_le_mul g3 hx (by positivity) (le_trans (by positivity) g3)

variable {A B V : Type} [DecidableEq A] [DecidableEq B] [DecidableEq V] {hid : A → Bool}
  {cfg : Cfg3 A B} {st : State3 A B V} {hist : List (Inst3 A V)} {n : ℕ}

/-! ### Nominal values and missing attributes -/

theorem two_zpow_float {e : ℤ} (he : -1074 ≤ e) : IsFloat ((2 : ℝ) ^ e) := .mk 1 e (by norm_num) he (by simp)

/-- A share of a nonempty set is not lost. -/
theorem fl_share {k n : ℕ} (hk : k ≠ 0) (h0 : n ≠ 0) (hn : n ≤ 2 ^ 53) :
    (2 : ℝ) ^ (-53 : ℤ) ≤ R.fl (natF R.fl k / natF R.fl n) := by
  refine R.le_fl (two_zpow_float (by norm_num)) ?_
  have h1 := R.one_le_natF (n := k) (by omega)
  have h2 : (0 : ℝ) < n := by exact_mod_cast Nat.pos_of_ne_zero h0
  have h3 : (n : ℝ) ≤ 2 ^ 53 := by exact_mod_cast hn
  rw [R.natF_eq hn, le_div_iff₀ h2]
  refine le_trans ?_ h1
  refine (mul_le_mul_of_nonneg_left h3 (by positivity)).trans ?_
  norm_num

theorem llNomF_ok {k n k' n' : ℕ} (h0 : n ≠ 0) (hn : n ≤ 2 ^ 53) (h0' : n' ≠ 0) (hn' : n' ≤ 2 ^ 53)
    (hk : k ≠ 0 → k' ≠ 0) :
    ∃ x, llNomF R.fl (.ok (R.fl (natF R.fl k / natF R.fl n))) (.ok (R.fl (natF R.fl k' / natF R.fl n'))) = .ok x := by
  unfold llNomF
  rw [ok_bind]
  split
  · rename_i hp
    rw [ok_bind]
    have hk0 : k ≠ 0 := by
      rintro rfl
      simp [natF, R.fl_zero] at hp
    have h1 := fl_share (R := R) hk0 h0 hn
    have h2 := fl_share (R := R) (hk hk0) h0' hn'
    have h3 : (2 : ℝ) ^ (-106 : ℤ) ≤
        R.fl (R.fl (natF R.fl k' / natF R.fl n') * R.fl (natF R.fl k / natF R.fl n)) := by
      refine R.le_fl (two_zpow_float (by norm_num)) ?_
      rw [show (-106 : ℤ) = -53 + -53 by norm_num, zpow_add₀ (by norm_num)]
      exact mul_le_mul h2 h1 (by positivity) (le_trans (by positivity) h2)
    have hpos : (0 : ℝ) < (2 : ℝ) ^ (-106 : ℤ) := by positivity
    dsimp only
    rw [if_pos (by linarith)]
    exact ⟨_, rfl⟩
  · exact ⟨_, rfl⟩

theorem Counts3.total {s : Stats3 A V} {m : Multiset (Inst3 A V)} (h : Counts3 s m) {a : A} {t : Tab V}
    (ht : (a, t) ∈ s.av) : t.total = ∑ v ∈ nomVals m a, occ m a (.nom v) + Multiset.card (nums m a) := by
  have hnd : (t.noms.map Prod.fst).Nodup := h.nodup.2 _ ht
  have hl := h.noms_of_mem ht
  have h1 : (t.noms.map Prod.fst).toFinset = nomVals m a := by
    ext v
    rw [List.mem_toFinset, mem_nomVals_iff_occ]
    change v ∈ Dict.keys t.noms ↔ _
    rw [← Dict.get?_isSome, hl]
    split <;> simp_all
  rw [t.total_eq]
  congr 1
  · rw [← h1, List.sum_toFinset _ hnd, List.map_map]
    congr 1
    apply List.map_congr_left
    rintro ⟨v, c⟩ hp
    have := Dict.get?_of_mem hnd hp
    rw [hl] at this
    split at this
    · cases this
    · simpa using this.symm
  · have e : s.cvOf a = t.cv := by rw [Stats3.cvOf, Dict.get?_of_mem h.nodup.1 ht]; rfl
    rw [← e]
    rcases h.cv a with ⟨h1, h2⟩ | ⟨-, c, h2, h3, -⟩
    · simp [h1, h2]
    · simp [h2, h3]

theorem probNoneF_eq {s : Stats3 A V} {m : Multiset (Inst3 A V)} (h : Counts3 s m) (hm : m ≠ 0)
    (hbig : Multiset.card m ≤ 2 ^ 53) (a : A) :
    Stats3.probNoneF R.fl s a =
      .ok (R.fl (natF R.fl (m.countP fun i => Dict.get? i a = none) / natF R.fl (Multiset.card m))) := by
  have h2 := countP_none_add3 m a (nomVals m a) (Finset.Subset.refl _)
  have hc : Multiset.card m ≠ 0 := by simpa using hm
  have key : ∀ c : ℕ, c = ∑ v ∈ nomVals m a, occ m a (.nom v) + Multiset.card (nums m a) →
      divF R.fl (R.fl (natF R.fl s.count - natF R.fl c)) (natF R.fl s.count) =
        .ok (R.fl (natF R.fl (m.countP fun i => Dict.get? i a = none) / natF R.fl (Multiset.card m))) := by
    intro c hcc
    rw [h.count, divF, if_neg (natF_ne_zero hc)]
    have e : (Multiset.card m : ℝ) = ((m.countP fun i => Dict.get? i a = none : ℕ) : ℝ) + (c : ℝ) := by
      rw [hcc]; exact_mod_cast h2.symm
    rw [R.natF_eq hbig, R.natF_eq (n := c) (by omega)]
    congr 4
    rw [e]; ring
  unfold Stats3.probNoneF
  cases hg : s.av.get? a with
  | none =>
    refine key 0 ?_
    have hn : ∀ i ∈ m, Dict.get? i a = none := by
      intro i hi
      rw [Dict.get?_eq_none]
      intro hk
      exact Dict.get?_eq_none.1 hg ((h.attrs a).2 ⟨i, hi, hk⟩)
    have : (m.countP fun i => Dict.get? i a = none) = Multiset.card m :=
      Multiset.countP_eq_card.2 hn
    omega
  | some t => exact key _ (h.total (Dict.mem_of_get? hg))

theorem probNomF_eq {s : Stats3 A V} {m : Multiset (Inst3 A V)} (h : Counts3 s m) (hm : m ≠ 0) (a : A) (v : V) :
    Stats3.probNomF R.fl s a v = .ok (R.fl (natF R.fl (occ m a (.nom v)) / natF R.fl (Multiset.card m))) := by
  have hc : Multiset.card m ≠ 0 := by simpa using hm
  unfold Stats3.probNomF
  have e : ((s.av.get? a).bind fun t => t.noms.get? v) = s.nomLookup a v := rfl
  rw [e, h.noms]
  split
  · rename_i h0
    split at h0
    · rename_i h1; rw [h1]; simp [natF, R.fl_zero]
    · cases h0
  · rename_i h0
    split at h0
    · cases h0
    · cases h0
      rw [divF, h.count, if_neg (natF_ne_zero hc)]

/-! ### The likelihood -/

/-- The accumulators of `a` in two concepts are close: at most 36 noisy deviations apart. -/
def CloseAt (R : Rounding) (x y : Stats3 A V) (a : A) : Prop :=
  ∀ c d s t, x.cvOf a = some c → y.cvOf a = some d → CV.unbiasedStdF R.fl c = .ok s → CV.unbiasedStdF R.fl d = .ok t →
    s ≤ 2 ^ 20 ∧ t ≤ 2 ^ 20 ∧ (c.mean - d.mean) ^ 2 ≤ 36 ^ 2 * (s * s + t * t + 1 / (2 * Real.pi))

theorem llNumF_ok {s leaf : Stats3 A V} {mx my : Multiset (Inst3 A V)} (hs : Counts3 s mx) (hl : Counts3 leaf my)
    (hmx : mx ≠ 0) (hmy : my ≠ 0) (hbx : Multiset.card mx ≤ 2 ^ 53) (hby : Multiset.card my ≤ 2 ^ 53) {a : A}
    (hclose : CloseAt R s leaf a) : ∃ x, llNumF R.fl s leaf a = .ok x := by
  unfold llNumF
  have e1 : (s.av.get? a).bind Tab.cv = s.cvOf a := rfl
  have e2 : (leaf.av.get? a).bind Tab.cv = leaf.cvOf a := rfl
  rw [e1, e2]
  rcases hs.cv a with ⟨-, h2⟩ | ⟨hn1, c, h2, hc1, hc2⟩
  · rw [h2]; exact ⟨0, rfl⟩
  · rcases hl.cv a with ⟨-, h3⟩ | ⟨hn2, d, h3, hd1, hd2⟩
    · rw [h2, h3]; exact ⟨0, rfl⟩
    · rw [h2, h3]
      obtain ⟨⟨u, hu, hu0, -⟩, -⟩ := hc2.std (R := R)
      obtain ⟨⟨v, hv, hv0, -⟩, -⟩ := hd2.std (R := R)
      obtain ⟨b1, b2, b3⟩ := hclose c d u v h2 h3 hu hv
      obtain ⟨g, hg, hg0⟩ := C97_overlap_positive hu hv hu0 hv0 b1 b2 b3
      have c1 : Multiset.card mx ≠ 0 := by simpa using hmx
      have c2 : Multiset.card my ≠ 0 := by simpa using hmy
      have c3 : c.num ≠ 0 := by rw [hc1]; simpa using hn1
      have c4 : d.num ≠ 0 := by rw [hd1]; simpa using hn2
      have f1 := fl_share (R := R) c3 c1 hbx
      have f2 := fl_share (R := R) c4 c2 hby
      dsimp only
      rw [hs.count, hl.count, divF, if_neg (natF_ne_zero c1), ok_bind, divF, if_neg (natF_ne_zero c2), ok_bind, hg,
        ok_bind]
      have f3 : (2 : ℝ) ^ (-106 : ℤ) ≤ R.fl (R.fl (natF R.fl c.num / natF R.fl (Multiset.card mx)) *
          R.fl (natF R.fl d.num / natF R.fl (Multiset.card my))) := by
        refine R.le_fl (two_zpow_float (by norm_num)) ?_
        rw [show (-106 : ℤ) = -53 + -53 by norm_num, zpow_add₀ (by norm_num)]
        exact mul_le_mul f1 f2 (by positivity) (le_trans (by positivity) f1)
      have f4 : (2 : ℝ) ^ (-1067 : ℤ) ≤ R.fl (R.fl (R.fl (natF R.fl c.num / natF R.fl (Multiset.card mx)) *
          R.fl (natF R.fl d.num / natF R.fl (Multiset.card my))) * g) := by
        refine R.le_fl (two_zpow_float (by norm_num)) ?_
        rw [show (-1067 : ℤ) = -106 + -961 by norm_num, zpow_add₀ (by norm_num)]
        exact mul_le_mul f3 hg0 (by positivity) (le_trans (by positivity) f3)
      have f5 : (0 : ℝ) < (2 : ℝ) ^ (-1067 : ℤ) := by positivity
      rw [if_pos (by linarith)]
      exact ⟨_, rfl⟩

theorem llKeyF_ok {s leaf : Stats3 A V} {mx my : Multiset (Inst3 A V)} (hs : Counts3 s mx) (hl : Counts3 leaf my)
    (hle : my ≤ mx) (hmy : my ≠ 0) (hbx : Multiset.card mx ≤ 2 ^ 53) {a : A}
    (hclose : CloseAt R s leaf a) (o : Option (Option V)) : ∃ x, llKeyF R.fl s leaf a o = .ok x := by
  have hmx : mx ≠ 0 := by rintro rfl; exact hmy (Multiset.le_zero.1 hle)
  have hby : Multiset.card my ≤ 2 ^ 53 := (Multiset.card_le_card hle).trans hbx
  have c1 : Multiset.card mx ≠ 0 := by simpa using hmx
  have c2 : Multiset.card my ≠ 0 := by simpa using hmy
  rcases o with _ | _ | v
  · simp only [llKeyF]
    rw [probNoneF_eq hl hmy hby, probNoneF_eq hs hmx hbx]
    refine llNomF_ok c2 hby c1 hbx fun h => ?_
    have := Multiset.countP_le_of_le (fun i => Dict.get? i a = none) hle
    omega
  · exact llNumF_ok hs hl hmx hmy hbx hby hclose
  · simp only [llKeyF]
    rw [probNomF_eq hl hmy, probNomF_eq hs hmx]
    refine llNomF_ok c2 hby c1 hbx fun h => ?_
    have : occ my a (.nom v) ≤ occ mx a (.nom v) := Multiset.countP_le_of_le _ hle
    omega

theorem logLikelihoodF_ok {s leaf : Stats3 A V} {as : List A} {vals : A → List (Option (Option V))}
    (h : ∀ a ∈ as, ∀ o, ∃ x, llKeyF R.fl s leaf a o = .ok x) (ll : ℝ) :
    ∃ x, logLikelihoodF R.fl s leaf vals as ll = .ok x := by
  have inner : ∀ a, (∀ o, ∃ x, llKeyF R.fl s leaf a o = .ok x) → ∀ (ks : List (Option (Option V))) (ll : ℝ),
      ∃ x, llInner3F R.fl s leaf a ks ll = .ok x := by
    intro a ha ks
    induction ks with
    | nil => exact fun ll => ⟨ll, rfl⟩
    | cons k ks ih =>
      intro ll
      obtain ⟨x, hx⟩ := ha k
      simp only [llInner3F, hx, ok_bind]
      exact ih _
  induction as generalizing ll with
  | nil => exact ⟨ll, rfl⟩
  | cons a as ih =>
    obtain ⟨x, hx⟩ := inner a (h a (by simp)) (vals a) ll
    simp only [logLikelihoodF, hx, ok_bind]
    exact ih (fun b hb => h b (by simp [hb])) _

/-- **C97**: in every reachable tree, for a concept `x` and a concept `y` below it whose visible numeric attributes
are close, `log_likelihood` does not raise, however the operations are rounded and in whatever order the sets are
traversed.  Missing without `hclose`: `C97_raises`. -/
theorem C97_defined_partial (h : Reach3F R hid cfg st hist n) (hlen : hist.length ≤ 2 ^ 53)
    {x y : Tree (Stats3 A V)} (hx : x ∈ st.root.nodes) (hy : y ∈ x.nodes)
    (hclose : ∀ a, hid a = false → CloseAt R x.stats y.stats a)
    {as : List A} (has : as.Perm (llAttrs3 hid x.stats y.stats)) (vals : A → List (Option (Option V))) :
    ∃ ll, logLikelihoodF R.fl x.stats y.stats vals as 0 = .ok ll := by
  rcases reach3F_holds h with ⟨-, id, e⟩ | hh
  · rw [e] at hx
    simp only [Tree.nodes_node, List.flatMap_nil, List.mem_singleton] at hx
    subst hx
    simp only [Tree.nodes_node, List.flatMap_nil, List.mem_singleton] at hy
    subst hy
    simp only [Tree.stats_node, llAttrs3, Stats3.visible, cobweb3ClassF, Stats3.fresh, List.filter_nil,
      Dict.keys, List.map_nil, List.append_nil] at has
    rw [List.perm_nil.1 has]
    exact ⟨0, rfl⟩
  · obtain ⟨mx, hmx, hle'⟩ := hh.of_mem_nodes hx
    obtain ⟨my, hmy, hle⟩ := hmx.of_mem_nodes hy
    have hbx : Multiset.card mx ≤ 2 ^ 53 := by
      have := Multiset.card_le_card hle'
      simp only [Multiset.coe_card] at this
      omega
    refine logLikelihoodF_ok (fun a ha o => ?_) 0
    refine llKeyF_ok hmx.sum hmy.sum hle hmy.ne_zero hbx (hclose a ?_) o
    rw [has.mem_iff] at ha
    simp only [llAttrs3, Stats3.visible, Dict.keys, List.mem_append, List.mem_filter, List.mem_map] at ha
    rcases ha with ⟨p, ⟨-, hp⟩, rfl⟩ | ⟨⟨p, ⟨-, hp⟩, rfl⟩, -⟩ <;> simpa using hp

/-! ### Without rounding -/

theorem gaussOverlapF_id (c d : CV ℝ) : CV.gaussOverlapF id c d = c.gaussOverlap d := by
  have h1 : ¬ (4 * Real.pi = 0) := by positivity
  have hu : ∀ c : CV ℝ, CV.unbiasedStdF id c = c.unbiasedStd := fun c => (C91_unrounded c c 0 1 []).2.2.2.2.1
  have e : pyDiv (1 : ℝ) (4 * Real.pi) = .ok (1 / (4 * Real.pi)) := if_neg h1
  simp only [CV.gaussOverlapF, CV.gaussOverlap, hu, divF_id, sqrtF_id, piF, expF, id, e, ok_bind]

/-- **C97**, without rounding: the definitions are those of `Verif.Model.Predict3`. -/
theorem C97_unrounded (sc : Scales B) (s leaf : Stats3 A V) :
    logLikelihoodF id s leaf (llVals3 s leaf) (llAttrs3 hid s leaf) 0 = s.logLikelihood hid cfg sc leaf := by
  have hnone : ∀ (s : Stats3 A V) a, Stats3.probNoneF id s a = s.probNone a := fun s a => by
    simp only [Stats3.probNoneF, Stats3.probNone, divF_id, natF, id]
    cases s.av.get? a <;> simp
  have hnom : ∀ (s : Stats3 A V) a v, Stats3.probNomF id s a v = s.probNom a v := fun s a v => by
    simp only [Stats3.probNomF, Stats3.probNom, divF_id, natF, id]
    cases (s.av.get? a).bind fun t => t.noms.get? v <;> rfl
  have hkey : ∀ a o, llKeyF id s leaf a o = llKey cfg sc s leaf a o := by
    intro a o
    rcases o with _ | _ | v
    · simp only [llKeyF, llKey, llNomF, llNom, hnone, Stats3.probability, id]
    · simp only [llKeyF, llKey, llNumF, llNum, gaussOverlapF_id, divF_id, natF, id]
      cases (s.av.get? a).bind Tab.cv <;> cases (leaf.av.get? a).bind Tab.cv <;> rfl
    · simp only [llKeyF, llKey, llNomF, llNom, hnom, Stats3.probability, id]
  have hin : ∀ a ks ll, llInner3F id s leaf a ks ll = llInner3 cfg sc s leaf a ks ll := by
    intro a ks
    induction ks with
    | nil => intro ll; rfl
    | cons k ks ih => intro ll; simp only [llInner3F, llInner3, hkey, ih, id]
  have hout : ∀ as ll, logLikelihoodF id s leaf (llVals3 s leaf) as ll = llOuter3 cfg sc s leaf as ll := by
    intro as
    induction as with
    | nil => intro ll; rfl
    | cons a as ih => intro ll; simp only [logLikelihoodF, llOuter3, hin, ih]
  exact hout _ _

/-! ### Many equal numbers and another one -/

theorem cobwebBy_leaf {I S K : Type} (C : NodeClass I S) (ch : Chooser I S K) (id : ℕ) (s : S) (i : I) (w : World) :
    cobwebBy C ch (.node id s []) i w = if (C.isExact s i || C.count s == 0) = true then
      .ok ⟨.node id (C.incr s i) [], id, false, w⟩
    else
      .ok ⟨.node (w.ctr + 1) (C.incr (shallowCopy C s) i)
            [.node id s [], .node (w.ctr + 2) (C.incr C.fresh i) []], w.ctr + 2, true, w.bump 2⟩ := by
  simp [cobwebBy, Tree.numConcepts_node, cobwebLoopBy]

/-- `n` zeros. -/
theorem zeros_root {a : A} (ha : hid a = false) (n : ℕ) {st : State3 A B V} {k : ℕ}
    (h : Reach3F R hid cfg st (List.replicate n [(a, .num 0)]) k) :
    ∃ id, st.root = .node id ⟨n, if n = 0 then [] else [(a, ⟨[], some ⟨n, 0, 0⟩⟩)]⟩ [] := by
  induction n generalizing st k with
  | zero =>
    generalize hl : List.replicate 0 ([(a, .num 0)] : Inst3 A V) = l at h
    cases h with
    | init w => exact ⟨_, rfl⟩
    | step => simp at hl
  | succ n ih =>
    generalize hl : List.replicate (n + 1) ([(a, .num 0)] : Inst3 A V) = l at h
    cases h with
    | init w => simp at hl
    | @step st' hist' n' i w o pos h hi hw ho =>
      rw [List.replicate_succ'] at hl
      obtain ⟨rfl, hi'⟩ := List.append_inj' hl rfl
      simp only [List.cons.injEq, and_true] at hi'
      subst hi'
      obtain ⟨id, hid'⟩ := ih h
      obtain ⟨o', ho', e1, -, -, -⟩ := ifit3F_by ho
      rw [hid', cobwebBy_leaf] at ho'
      have hu : CV.updateF R.fl ⟨n, 0, 0⟩ 0 = ⟨n + 1, 0, 0⟩ := by simp [CV.updateF, R.fl_zero]
      rcases Nat.eq_zero_or_pos n with rfl | hn
      · have hc : ((cobweb3ClassF R.fl hid).isExact (⟨0, if 0 = 0 then [] else [(a, ⟨[], some ⟨0, 0, 0⟩⟩)]⟩ : Stats3 A V)
            [(a, .num 0)] || (cobweb3ClassF R.fl hid).count
            (⟨0, if 0 = 0 then [] else [(a, ⟨[], some ⟨0, 0, 0⟩⟩)]⟩ : Stats3 A V) == 0) = true := by
          simp [cobweb3ClassF]
        rw [if_pos hc] at ho'
        cases ho'
        refine ⟨id, ?_⟩
        rw [e1]
        have : CV.updateF R.fl CV.fresh 0 = ⟨1, 0, 0⟩ := hu
        simp [cobweb3ClassF, Stats3.incrF, Dict.updAll, Dict.set, Dict.get?, Tab.addF, Tab.empty, this]
      · have hn0 : n ≠ 0 := by omega
        have hex : (cobweb3ClassF R.fl hid).isExact
            (⟨n, if n = 0 then [] else [(a, ⟨[], some ⟨n, 0, 0⟩⟩)]⟩ : Stats3 A V) [(a, .num 0)] = true := by
          simp [cobweb3ClassF, Stats3.isExactF, hn0, Dict.get?, Tab.matchesF, Tab.size, ha, Dict.has,
            unbiasedStdF_zero, CV.unbiasedMean]
        rw [hex, Bool.true_or, if_pos rfl] at ho'
        cases ho'
        refine ⟨id, ?_⟩
        rw [e1]
        simp [cobweb3ClassF, Stats3.incrF, Dict.updAll, Dict.set, Dict.get?, Tab.addF, hn0, hu]

/-- `n` zeros and one `b`: the root and the last leaf. -/
theorem outlier_root {a : A} (ha : hid a = false) {n : ℕ} (hn : n ≠ 0) {b : ℝ} (hb : IsFloat b) (hb0 : b ≠ 0)
    {st : State3 A B V} {k : ℕ}
    (h : Reach3F R hid cfg st (List.replicate n [(a, .num 0)] ++ [[(a, .num b)]]) k) :
    st.root.stats = ⟨n + 1, [(a, ⟨[], some (CV.updateF R.fl ⟨n, 0, 0⟩ b)⟩)]⟩ ∧
    ∃ id, .node id ⟨1, [(a, ⟨[], some ⟨1, b, 0⟩⟩)]⟩ [] ∈ st.root.leaves := by
  generalize hl : List.replicate n ([(a, .num 0)] : Inst3 A V) ++ [[(a, .num b)]] = l at h
  cases h with
  | init w => simp at hl
  | @step st' hist' n' i w o pos h hi hw ho =>
    obtain ⟨rfl, hi'⟩ := List.append_inj' hl rfl
    simp only [List.cons.injEq, and_true] at hi'
    subst hi'
    obtain ⟨id, hid'⟩ := zeros_root ha n h
    obtain ⟨o', ho', e1, -, -, -⟩ := ifit3F_by ho
    rw [hid', cobwebBy_leaf] at ho'
    have hex : (cobweb3ClassF R.fl hid).isExact
        (⟨n, if n = 0 then [] else [(a, ⟨[], some ⟨n, 0, 0⟩⟩)]⟩ : Stats3 A V) [(a, .num b)] = false := by
      simp [cobweb3ClassF, Stats3.isExactF, hn, Dict.get?, Tab.matchesF, Tab.size, ha, Dict.has,
        unbiasedStdF_zero, CV.unbiasedMean, hb0.symm]
    rw [hex, Bool.false_or, if_neg (by simp [cobweb3ClassF, hn])] at ho'
    cases ho'
    rw [e1]
    have hj : CV.joinF R.fl CV.fresh ⟨n, 0, 0⟩ = ⟨n, 0, 0⟩ := by
      simp [CV.joinF, CV.fresh, R.fl_zero]
    have hu : CV.updateF R.fl CV.fresh b = ⟨1, b, 0⟩ := by
      obtain ⟨h1, h2⟩ := updateF_first (R := R) (c := CV.fresh) rfl rfl hb
      rw [show CV.updateF R.fl CV.fresh b = ⟨1, (CV.updateF R.fl CV.fresh b).mean,
        (CV.updateF R.fl CV.fresh b).meanSq⟩ from rfl, h1, h2]
      simp [CV.fresh, R.fl_zero]
    constructor
    · simp [cobweb3ClassF, shallowCopy, Stats3.addFromF, Stats3.fresh, Stats3.incrF, Dict.updAll, Dict.set, Dict.get?,
        Tab.addF, Tab.mergeF, Tab.empty, hn, hj]
    · refine ⟨w.ctr + 2, ?_⟩
      simp [Tree.leaves, Tree.leavesL, Stats3.fresh, cobweb3ClassF, Stats3.incrF, Dict.updAll, Dict.set, Dict.get?, Tab.addF,
        Tab.empty, hu]

theorem c4_large {n : ℕ} (h : 30 ≤ n) : c4 (n : ℤ) = .ok 1 := by
  simp [c4, show ¬ (n : ℤ) < 30 by omega, show ¬ (n : ℤ) ≤ 1 by omega]

/-- The deviation of `n` zeros and one `b` is hardly more than `b / √n`, and the mean is near zero. -/
theorem outlier_std {n : ℕ} (h1 : 2000 ≤ n) (h2 : n + 1 ≤ 2 ^ 53) {b : ℝ} (hb : IsFloat b) (hb0 : 0 < b)
    (hbn : (n : ℝ) ≤ b ^ 2) :
    ∃ s, CV.unbiasedStdF R.fl (CV.updateF R.fl ⟨n, 0, 0⟩ b) = .ok s ∧ 0 ≤ s ∧ s * s ≤ 1.001 * (b ^ 2 / n) ∧
      0 ≤ (CV.updateF R.fl ⟨n, 0, 0⟩ b).mean ∧ (CV.updateF R.fl ⟨n, 0, 0⟩ b).mean ≤ b / 1000 := by
  have hn : (2000 : ℝ) ≤ n := by exact_mod_cast h1
  have hb40 : 40 ≤ b := by nlinarith
  have e1 : natF R.fl (n + 1) = (n : ℝ) + 1 := by rw [R.natF_eq h2]; push_cast; rfl
  -- the mean
  have hq0 : 0 ≤ R.fl (b / (n + 1)) := R.fl_nonneg (by positivity)
  have hq1 : R.fl (b / (n + 1)) ≤ b / 1000 := by
    have hle : b / (n + 1) ≤ b / 2000 := div_le_div_of_nonneg_left hb0.le (by norm_num) (by linarith)
    have := (R.near (y := b / 2000) (by norm_num; linarith)).2
    refine (R.mono hle).trans (this.trans ?_)
    norm_num; linarith
  have hu : CV.updateF R.fl ⟨n, 0, 0⟩ b =
      ⟨n + 1, R.fl (b / (n + 1)), R.fl (b * R.fl (b - R.fl (b / (n + 1))))⟩ := by
    simp only [CV.updateF, e1, sub_zero, R.fix hb, zero_add, R.fix (R.float _)]
  rw [hu]
  generalize R.fl (b / (n + 1)) = q at hq0 hq1
  -- the squared error
  have ht0 : 0 ≤ R.fl (b - q) := R.fl_nonneg (by linarith)
  have ht1 : R.fl (b - q) ≤ b := R.fl_le hb (by linarith)
  have hm0 : 0 ≤ R.fl (b * R.fl (b - q)) := R.fl_nonneg (by positivity)
  have hm1 : R.fl (b * R.fl (b - q)) ≤ (1 + 1 / 10 ^ 6) * b ^ 2 := by
    have := (R.near (y := b ^ 2) (by norm_num; nlinarith)).2
    refine (R.mono ?_).trans this
    rw [sq]; exact mul_le_mul_of_nonneg_left ht1 hb0.le
  generalize R.fl (b * R.fl (b - q)) = m at hm0 hm1
  have hn1 : R.fl (natF R.fl (n + 1) - 1) = n := by
    rw [e1, add_sub_cancel_right]; exact R.fix (.nat (by omega))
  have hx1 : 1 ≤ b ^ 2 / n := by rw [le_div_iff₀ (by linarith)]; linarith
  have hv0 : 0 ≤ R.fl (m / n) := R.fl_nonneg (by positivity)
  have hv1 : R.fl (m / n) ≤ (1 + 1 / 10 ^ 6) * ((1 + 1 / 10 ^ 6) * (b ^ 2 / n)) := by
    have := (R.near (y := (1 + 1 / 10 ^ 6) * (b ^ 2 / n)) (by norm_num; linarith)).2
    refine (R.mono ?_).trans this
    rw [← mul_div_assoc]
    exact div_le_div_of_nonneg_right hm1 (by linarith)
  generalize hv : R.fl (m / n) = v at hv0 hv1
  generalize hX : b ^ 2 / n = X at hx1 hv1
  -- the root
  have hs0 : 0 ≤ R.fl (Real.sqrt v) := R.fl_nonneg (Real.sqrt_nonneg _)
  have hs1 : R.fl (Real.sqrt v) ≤ (1 + 1 / 10 ^ 6) * Real.sqrt (1.0001 * X) := by
    have hle : Real.sqrt v ≤ Real.sqrt (1.0001 * X) := Real.sqrt_le_sqrt (by norm_num at *; linarith)
    have h1 : 1 ≤ Real.sqrt (1.0001 * X) := Real.le_sqrt_of_sq_le (by norm_num; linarith)
    exact (R.mono hle).trans (R.near (le_trans (by norm_num) h1)).2
  have hss : R.fl (Real.sqrt v) * R.fl (Real.sqrt v) ≤ 1.001 * X := by
    have hsq := Real.mul_self_sqrt (show 0 ≤ 1.0001 * X by linarith)
    have := mul_le_mul hs1 hs1 hs0 (by positivity)
    generalize Real.sqrt (1.0001 * X) = r at *
    norm_num at *
    nlinarith
  refine ⟨R.fl (Real.sqrt v), ?_, hs0, hss, hq0, hq1⟩
  have hn0 : ¬ (n : ℝ) = 0 := by linarith
  have hc : ((1 : ℚ) : ℝ) = 1 := by norm_num
  simp only [CV.unbiasedStdF, show ¬ n + 1 < 2 by omega, if_false, hn1, divF, if_neg hn0, ok_bind, hv, sqrtF,
    if_neg (not_lt.2 hv0), c4_large (show 30 ≤ n + 1 by omega), hc, R.fl_one, one_ne_zero, div_one,
    R.fix (R.float _)]

/-- **C97**, the negation of the full statement: fit 2000 or more zeros and then one number `b` with `b² ≥ n`, such
as 2500 zeros and a 50.  Then `log_likelihood` of the root and the leaf of `b` raises "p should be greater than 0",
in whatever order the sets are traversed. -/
theorem C97_raises {a : A} (ha : hid a = false) {k : ℕ} (h1 : 2000 ≤ k) (h2 : k + 1 ≤ 2 ^ 53) {b : ℝ} (hb : IsFloat b)
    (hb0 : 0 < b) (hbk : (k : ℝ) ≤ b ^ 2)
    (h : Reach3F ieee hid cfg st (List.replicate k [(a, .num 0)] ++ [[(a, .num b)]]) n) :
    ∃ leaf ∈ st.root.leaves, leaf.stats.cvOf a = some ⟨1, b, 0⟩ ∧
      ∀ as vals, as.Perm (llAttrs3 hid st.root.stats leaf.stats) →
        (∀ a, (vals a).Perm (llVals3 st.root.stats leaf.stats a)) →
        logLikelihoodF ieee.fl st.root.stats leaf.stats vals as 0 = .error .exc := by
  obtain ⟨hroot, id, hleaf⟩ := outlier_root ha (by omega) hb hb0.ne' h
  refine ⟨_, hleaf, by simp [Stats3.cvOf, Dict.get?], ?_⟩
  rw [hroot]
  intro as vals has hvals
  simp only [Tree.stats_node] at has hvals ⊢
  obtain ⟨s, hs, hs0, hss, hq0, hq1⟩ := outlier_std (R := ieee) h1 h2 hb hb0 hbk
  have hk : (2000 : ℝ) ≤ k := by exact_mod_cast h1
  have hover : CV.gaussOverlapF ieee.fl (CV.updateF ieee.fl ⟨k, 0, 0⟩ b) ⟨1, b, 0⟩ = .ok 0 := by
    refine C97_underflow hs (unbiasedStdF_zero rfl) ?_
    obtain ⟨-, k2⟩ := inv_two_pi
    generalize (CV.updateF ieee.fl ⟨k, 0, 0⟩ b).mean = q at hq0 hq1
    have hd : (0.999 * b) ^ 2 ≤ (q - b) ^ 2 := by
      rw [← neg_sq (q - b), neg_sub]
      exact pow_le_pow_left₀ (by positivity) (by linarith) 2
    have hbk' : b ^ 2 / k ≤ b ^ 2 / 2000 := div_le_div_of_nonneg_left (by positivity) (by norm_num) hk
    have hb2 : 2000 ≤ b ^ 2 := hk.trans hbk
    rw [mul_pow] at hd
    generalize 1 / (2 * Real.pi) = c at k2
    generalize b ^ 2 / k = X at hss hbk'
    simp only [mul_zero, add_zero]
    norm_num at hss hd k2 ⊢
    linarith
  have n1 : natF ieee.fl 1 = 1 := by simpa using ieee.natF_eq (n := 1) (by norm_num)
  have hnone : llKeyF ieee.fl (⟨k + 1, [(a, ⟨[], some (CV.updateF ieee.fl ⟨k, 0, 0⟩ b)⟩)]⟩ : Stats3 A V)
      ⟨1, [(a, ⟨[], some ⟨1, b, 0⟩⟩)]⟩ a none = .ok 0 := by
    simp [llKeyF, llNomF, Stats3.probNoneF, Dict.get?, Tab.total, Tab.entries, n1, divF, ieee.fl_zero, ok_bind]
    rfl
  have hnum : llKeyF ieee.fl (⟨k + 1, [(a, ⟨[], some (CV.updateF ieee.fl ⟨k, 0, 0⟩ b)⟩)]⟩ : Stats3 A V)
      ⟨1, [(a, ⟨[], some ⟨1, b, 0⟩⟩)]⟩ a (some none) = .error .exc := by
    simp only [llKeyF, llNumF, Dict.get?, if_true, Option.bind_some, divF, if_neg (natF_ne_zero (R := ieee)
      (show k + 1 ≠ 0 by omega)), if_neg (natF_ne_zero (R := ieee) one_ne_zero), ok_bind, hover, mul_zero,
      ieee.fl_zero, gt_iff_lt, lt_irrefl, if_false]
  have hattrs : as = [a] := by
    have : llAttrs3 hid (⟨k + 1, [(a, ⟨[], some (CV.updateF ieee.fl ⟨k, 0, 0⟩ b)⟩)]⟩ : Stats3 A V)
        ⟨1, [(a, ⟨[], some ⟨1, b, 0⟩⟩)]⟩ = [a] := by
      simp [llAttrs3, Stats3.visible, Dict.keys, ha]
    rw [this] at has
    exact List.perm_singleton.1 has
  have hv := hvals a
  have hv' : llVals3 (⟨k + 1, [(a, ⟨[], some (CV.updateF ieee.fl ⟨k, 0, 0⟩ b)⟩)]⟩ : Stats3 A V)
      ⟨1, [(a, ⟨[], some ⟨1, b, 0⟩⟩)]⟩ a = [none, some none] := by
    simp [llVals3, Stats3.keysOf, Dict.get?, Tab.entries]
  rw [hv'] at hv
  have hv2 : vals a = [none, some none] ∨ vals a = [some none, none] := by
    generalize vals a = l at hv
    have hl := hv.length_eq
    match l, hl with
    | [x, y], _ =>
      have hx : x = none ∨ x = some none := by simpa using hv.mem_iff.1 (show x ∈ [x, y] by simp)
      have hy : y = none ∨ y = some none := by simpa using hv.mem_iff.1 (show y ∈ [x, y] by simp)
      have hnd : [x, y].Nodup := hv.nodup_iff.2 (by simp)
      rcases hx with rfl | rfl <;> rcases hy with rfl | rfl <;> simp_all
  subst hattrs
  simp only [logLikelihoodF]
  rcases hv2 with e | e <;> rw [e] <;> simp only [llInner3F, hnone, hnum, ok_bind, error_bind]

/-! ### Examples -/

/-- 2500 zeros and a 50: the history is reachable, and all hypotheses hold. -/
example : ∃ (st : State3 ℕ ℕ ℕ) (n : ℕ), Reach3F ieee (fun _ => false) ⟨0, id⟩ st
    (List.replicate 2500 [(0, .num 0)] ++ [[(0, .num 50)]]) n ∧ IsFloat 50 ∧ ((2500 : ℕ) : ℝ) ≤ 50 ^ 2 := by
  have f50 : IsFloat 50 := .mk 50 0 (by norm_num) (by norm_num) (by norm_num)
  obtain ⟨st, n, h⟩ := reach3F_exists (V := ℕ) (hid := fun _ : ℕ => false) ieee (⟨0, id⟩ : Cfg3 ℕ ℕ)
    (List.replicate 2500 [(0, .num 0)] ++ [[(0, .num 50)]]) (by
      have hf : ∀ x : ℝ, IsFloat x → FloatInst ([(0, .num x)] : Inst3 ℕ ℕ) ∧
          HasVisible (fun _ : ℕ => false) ([(0, .num x)] : Inst3 ℕ ℕ) := by
        intro x hx
        refine ⟨⟨by simp [Dict.Nodup, Dict.keys], fun b y hy => ?_⟩, 0, by simp [Dict.keys], rfl⟩
        simp only [Dict.get?] at hy
        split at hy
        · cases hy; exact hx
        · cases hy
      intro i hi
      rcases List.mem_append.1 hi with hi | hi
      · rw [List.eq_of_mem_replicate hi]; exact hf 0 .zero
      · rw [List.mem_singleton.1 hi]; exact hf 50 f50)
  exact ⟨st, n, h, f50, by norm_num⟩

/-- Two accumulators for `C97_overlap_positive`, and two for `C97_underflow`. -/
example : (∃ g, CV.gaussOverlapF ieee.fl ⟨1, 3, 0⟩ ⟨1, 5, 0⟩ = .ok g ∧ (2 : ℝ) ^ (-961 : ℤ) ≤ g) ∧
    CV.gaussOverlapF ieee.fl ⟨1, 3, 0⟩ ⟨1, 23, 0⟩ = .ok 0 := by
  obtain ⟨k1, k2⟩ := inv_two_pi
  refine ⟨C97_overlap_positive (unbiasedStdF_zero rfl) (unbiasedStdF_zero rfl) le_rfl le_rfl (by norm_num)
    (by norm_num) ?_, C97_underflow (unbiasedStdF_zero rfl) (unbiasedStdF_zero rfl) ?_⟩
  · generalize 1 / (2 * Real.pi) = c at k1 k2
    norm_num at *; linarith
  · generalize 1 / (2 * Real.pi) = c at k1 k2
    norm_num at *; linarith

end CF
