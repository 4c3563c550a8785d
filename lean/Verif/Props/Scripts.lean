/-
Property C104: the example scripts.
-/
import Verif.Spec.Scripts
import Verif.Props.Raises
import Verif.Props.Fit
import Verif.Props.Evaluation

namespace CF

/-! ### cobweb3_cluster_simulated.py -/

section
variable {A B V : Type} [DecidableEq A] [DecidableEq B] [DecidableEq V] {hid : A → Bool}
  {cfg : Cfg3 A B} {st : State3 A B V} {hist : List (Inst3 A V)} {n : ℕ}

theorem cvAt_eq (s : Stats3 A V) (a : A) :
    cvAt s a = match s.cvOf a with
      | none => .error .keyErr
      | some c => .ok c := by
  unfold cvAt Stats3.cvOf
  cases s.av.get? a with
  | none => rfl
  | some t => cases h : t.cv <;> simp [h]

theorem nums_ne_zero {g : Multiset (Inst3 A V)} {a : A} : nums g a ≠ 0 ↔ ∃ i ∈ g, HasNumber a i := by
  unfold nums HasNumber
  constructor
  · intro h
    obtain ⟨r, hr⟩ := Multiset.exists_mem_of_ne_zero h
    obtain ⟨i, hi, e⟩ := (Multiset.mem_filterMap _ _).1 hr
    refine ⟨i, hi, r, ?_⟩
    cases hg : Dict.get? i a with
    | none => simp [hg] at e
    | some v =>
      cases v with
      | nom v => simp [hg, Val.num?] at e
      | num q => simp [hg, Val.num?] at e; rw [e]
  · rintro ⟨i, hi, r, hr⟩ h0
    have : r ∈ Multiset.filterMap (fun i => (Dict.get? i a).bind Val.num?) g :=
      (Multiset.mem_filterMap _ _).2 ⟨i, hi, by simp [hr, Val.num?]⟩
    rw [h0] at this; simp at this

theorem ellipse_around {s : Stats3 A V} {g : Multiset (Inst3 A V)} (h : Summarizes3 s g) (x y : A) :
    ((∃ i ∈ g, HasNumber x i) ∧ (∃ i ∈ g, HasNumber y i) ∧ ∃ e, ellipse x y s = .ok e ∧ EllipseOf x y g e) ∨
    (¬ ((∃ i ∈ g, HasNumber x i) ∧ ∃ i ∈ g, HasNumber y i) ∧ ellipse x y s = .error .keyErr) := by
  rw [← nums_ne_zero, ← nums_ne_zero]
  unfold ellipse
  rw [cvAt_eq, cvAt_eq]
  rcases h.cv x with ⟨h1, h2⟩ | ⟨h1, c, h2, h3⟩
  · right; rw [h2]; exact ⟨fun h => h.1 h1, rfl⟩
  · rcases h.cv y with ⟨k1, k2⟩ | ⟨k1, d, k2, k3⟩
    · right; rw [h2, k2]; exact ⟨fun h => h.2 k1, rfl⟩
    · left
      refine ⟨h1, k1, ⟨c.unbiasedMean, d.unbiasedMean, 4 * sampleStd (nums g x), 4 * sampleStd (nums g y)⟩, ?_, ?_⟩
      · rw [h2, k2]
        simp only [ok_bind, unbiasedStd_eq h3, unbiasedStd_eq k3]
        rfl
      · exact ⟨h3.mean, k3.mean, by ring, by ring⟩

theorem ellipses_around {cs : List (Tree (Stats3 A V))} {gs : List (Multiset (Inst3 A V))}
    (h : List.Forall₂ (fun c g => Summarizes3 c.stats g) cs gs) (x y : A) :
    ((∀ g ∈ gs, (∃ i ∈ g, HasNumber x i) ∧ ∃ i ∈ g, HasNumber y i) ∧
      ∃ es, ellipses x y cs = .ok es ∧ List.Forall₂ (EllipseOf x y) gs es) ∨
    ((∃ g ∈ gs, ¬ ((∃ i ∈ g, HasNumber x i) ∧ ∃ i ∈ g, HasNumber y i)) ∧ ellipses x y cs = .error .keyErr) := by
  induction h with
  | nil => left; exact ⟨by simp, [], rfl, .nil⟩
  | @cons c g cs gs hc _ ih =>
    rcases ellipse_around hc x y with ⟨h1, h2, e, h3, h4⟩ | ⟨h1, h2⟩
    · rcases ih with ⟨k1, es, k2, k3⟩ | ⟨⟨g', k1, k2⟩, k3⟩
      · left
        refine ⟨?_, e :: es, by simp only [ellipses, h3, k2, ok_bind]; rfl, .cons h4 k3⟩
        intro g' hg'
        rcases List.mem_cons.1 hg' with rfl | hg'
        · exact ⟨h1, h2⟩
        · exact k1 g' hg'
      · right
        exact ⟨⟨g', by simp [k1], k2⟩, by simp only [ellipses, h3, k3, ok_bind]; rfl⟩
    · right
      exact ⟨⟨g, by simp, h1⟩, by simp only [ellipses, h2]; rfl⟩

theorem reach3_children (h : Reach3 hid cfg st hist n) :
    st.root.children ≠ [] ↔ ∃ j ∈ hist, ∃ k ∈ hist, ¬ SameVisible hid j k :=
  reach_children (cobweb3Laws hid) (E := Scoring3 hid cfg) (G := HasVisible hid)
    (by rintro _ ⟨sc, f, hsc, rfl⟩; exact cobweb3_scoresIff hsc)
    (fun _ _ h1 h2 => h1.hasVisible h2) (reach3_reach h)

theorem mem_sum_of_mem {α : Type} {gs : List (Multiset α)} {g : Multiset α} (hg : g ∈ gs) {i : α} (hi : i ∈ g) :
    i ∈ gs.sum := by
  induction gs with
  | nil => simp at hg
  | cons g' gs ih =>
    rw [List.sum_cons, Multiset.mem_add]
    rcases List.mem_cons.1 hg with rfl | hg
    · exact .inl hi
    · exact .inr (ih hg)

/-- **C104**, one frame of `cobweb3_cluster_simulated.py`: the clusters divide the data; the ellipses are drawn unless
some cluster has no number under one of the two attributes, which is a KeyError. -/
theorem C104_frame (h : Reach3 hid cfg st hist n) (x y : A) :
    (∃ f, ellipses x y st.root.children = .ok f ∧ Drawn hid x y hist f) ∨
    (ellipses x y st.root.children = .error .keyErr ∧ ∃ i ∈ hist, ¬ (HasNumber x i ∧ HasNumber y i)) := by
  by_cases hc : st.root.children = []
  · left
    refine ⟨[], by rw [hc]; rfl, .inl ⟨?_, rfl⟩⟩
    intro i hi j hj
    by_contra hn
    exact (reach3_children h).2 ⟨i, hi, j, hj, hn⟩ hc
  · obtain ⟨ms, hf, hsum⟩ := (reach3_holds h).children hc
    have hlen : 2 ≤ ms.length := by
      rcases (reach3_holds h).two_children with h0 | h0
      · exact absurd h0 hc
      · rwa [hf.length_eq] at h0
    have hne : ∀ g ∈ ms, g ≠ 0 := by
      intro g hg
      obtain ⟨k, hk, rfl⟩ := List.getElem_of_mem hg
      exact (hf.get (by rw [hf.length_eq]; exact hk) hk).ne_zero
    rcases ellipses_around (hf.imp fun _ _ h => h.sum) x y with ⟨-, es, h1, h2⟩ | ⟨⟨g, hg, h1⟩, h2⟩
    · left
      exact ⟨es, h1, .inr ⟨(reach3_children h).1 hc, ms, hlen, hsum, hne, h2⟩⟩
    · right
      refine ⟨h2, ?_⟩
      obtain ⟨i, hi⟩ := Multiset.exists_mem_of_ne_zero (hne g hg)
      have hm : ∀ j ∈ g, j ∈ hist := by
        intro j hj
        have : j ∈ ms.sum := mem_sum_of_mem hg hj
        rw [hsum] at this; simpa using this
      refine ⟨i, hm i hi, fun hh => h1 ⟨⟨i, hi, hh.1⟩, ⟨i, hi, hh.2⟩⟩⟩

/-- **C104**: `cobweb3_cluster_simulated.py` draws after each datum.  When all data have a visible attribute and numbers
under the two attributes, nothing raises, and after every datum the ellipses are the means and two deviations of
clusters that divide the data seen so far. -/
theorem C104_simulate (h : Reach3 hid cfg st hist n) (x y : A) {data : List (Inst3 A V)}
    (hok : ∀ i ∈ data, Dict.Nodup i)
    (hnum : ∀ i ∈ hist ++ data, HasVisible hid i ∧ HasNumber x i ∧ HasNumber y i)
    {w : World} (hn : n ≤ w.ctr) (hw : Function.Injective w.rnd) :
    ∃ frames, simulate hid cfg x y st data w = .ok frames ∧ frames.length = data.length ∧
      ∀ k f, frames[k]? = some f → Drawn hid x y (hist ++ data.take (k + 1)) f := by
  induction data generalizing st hist n w with
  | nil => exact ⟨[], rfl, rfl, by simp⟩
  | cons i data ih =>
    obtain ⟨o, ho⟩ := C63_ifit_never_raises h (fun j hj => (hnum j (by simp [hj])).1) (hok i (by simp))
      (hnum i (by simp)).1 hw
    have h' := Reach3.step h (hok i (by simp)) hn ho
    obtain ⟨frames, h1, h2, h3⟩ := ih h' (fun j hj => hok j (by simp [hj]))
      (fun j hj => hnum j (by simpa using hj)) le_rfl (by rw [ifit3_rnd ho]; exact hw)
    rcases C104_frame h' x y with ⟨f, k1, k2⟩ | ⟨-, j, hj, k2⟩
    · refine ⟨f :: frames, ?_, by simp [h2], ?_⟩
      · simp only [simulate, ho, k1, h1, ok_bind]; rfl
      · intro k g hg
        cases k with
        | zero => simp only [List.getElem?_cons_zero, Option.some.injEq] at hg; subst hg; simpa using k2
        | succ k =>
          have := h3 k g (by simpa using hg)
          simpa using this
    · exact absurd (hnum j (by simp at hj; rcases hj with hj | rfl <;> simp [*])).2 k2

end

/-! ### acs_simulation.py -/

theorem roundEven_nearest (q : ℚ) : NearestHalf q (roundEven (q * 2)) := by
  unfold NearestHalf roundEven
  have h1 := Int.floor_le (q * 2)
  have h2 := Int.lt_floor_add_one (q * 2)
  split_ifs with h3 h4 h5
  · refine ⟨abs_le.2 ⟨by linarith, by linarith⟩, fun h => ?_⟩
    rw [abs_of_nonneg (by linarith)] at h; linarith
  · push_cast
    refine ⟨abs_le.2 ⟨by linarith, by linarith⟩, fun h => ?_⟩
    rw [abs_of_nonpos (by linarith)] at h; linarith
  · exact ⟨abs_le.2 ⟨by linarith, by linarith⟩, fun _ => Int.even_iff.2 h5⟩
  · push_cast
    refine ⟨abs_le.2 ⟨by linarith, by linarith⟩, fun _ => ?_⟩
    rw [Int.even_add_one, Int.not_even_iff_odd, Int.odd_iff]
    omega

/-- There is only one nearest half. -/
theorem NearestHalf.unique {q : ℚ} {k l : ℤ} (hk : NearestHalf q k) (hl : NearestHalf q l) : k = l := by
  obtain ⟨h1, h2⟩ := hk
  obtain ⟨h3, h4⟩ := hl
  have a := abs_le.1 h1
  have b := abs_le.1 h3
  have h5 : ((k - l : ℤ) : ℚ) ≤ 1 := by push_cast; linarith
  have h6 : (-1 : ℚ) ≤ ((k - l : ℤ) : ℚ) := by push_cast; linarith
  have h7 : k - l ≤ 1 := by exact_mod_cast h5
  have h8 : -1 ≤ k - l := by exact_mod_cast h6
  have key : k = l ∨ (Even k ∧ Even l) := by
    by_cases e : k = l
    · exact .inl e
    · right
      have : k = l + 1 ∨ l = k + 1 := by omega
      rcases this with rfl | rfl
      · push_cast at *
        refine ⟨h2 ?_, h4 ?_⟩
        · rw [abs_of_nonpos] <;> linarith
        · rw [abs_of_nonneg] <;> linarith
      · push_cast at *
        refine ⟨h2 ?_, h4 ?_⟩
        · rw [abs_of_nonneg] <;> linarith
        · rw [abs_of_nonpos] <;> linarith
  rcases key with h | ⟨⟨x, rfl⟩, ⟨y, rfl⟩⟩
  · exact h
  · omega

theorem forall₂_mem_left {α β : Type} {R : α → β → Prop} {l : List α} {l' : List β} (h : List.Forall₂ R l l') {a : α}
    (ha : a ∈ l) : ∃ b ∈ l', R a b := by
  induction h with
  | nil => simp at ha
  | cons hr _ ih =>
    rcases List.mem_cons.1 ha with rfl | ha
    · exact ⟨_, by simp, hr⟩
    · obtain ⟨b, hb, h⟩ := ih ha
      exact ⟨b, by simp [hb], h⟩

theorem forall₂_mem_right {α β : Type} {R : α → β → Prop} {l : List α} {l' : List β} (h : List.Forall₂ R l l') {b : β}
    (hb : b ∈ l') : ∃ a ∈ l, R a b := forall₂_mem_left h.flip hb

section
variable {fstr : ℚ → PStr}

theorem toHalf_cases (v : Py) : (∃ q, PyNum v q ∧ ∃ n, NearestHalf q n ∧ toHalf fstr v = .ok (.str (fstr (n / 2)))) ∨
    ((∀ q, ¬ PyNum v q) ∧ toHalf fstr v = .error .typeErr) := by
  cases v with
  | num q => exact .inl ⟨q, .num q, _, roundEven_nearest q, rfl⟩
  | bool b =>
    cases b with
    | true => exact .inl ⟨1, .true, _, roundEven_nearest 1, rfl⟩
    | false => exact .inl ⟨0, .false, _, roundEven_nearest 0, rfl⟩
  | _ => exact .inr ⟨fun q h => (by cases h), rfl⟩

theorem convertBlock_cases (b : PyInst) :
    (∃ b', convertBlock fstr b = .ok b' ∧ List.Forall₂ (BlockEntry fstr) b b') ∨
    (convertBlock fstr b = .error .typeErr ∧ ∃ p ∈ b, p.1 ≠ .str c!"type" ∧ ∀ q, ¬ PyNum p.2 q) := by
  induction b with
  | nil => exact .inl ⟨[], rfl, .nil⟩
  | cons p b ih =>
    obtain ⟨k, v⟩ := p
    by_cases hk : k = .str c!"type"
    · subst hk
      rcases ih with ⟨b', h1, h2⟩ | ⟨h1, p, hp, h2⟩
      · exact .inl ⟨_, by simp only [convertBlock, if_true, ok_bind, h1]; rfl, .cons (.type v) h2⟩
      · exact .inr ⟨by simp only [convertBlock, if_true, ok_bind, h1]; rfl, p, by simp [hp], h2⟩
    · rcases toHalf_cases (fstr := fstr) v with ⟨q, hq, m, hm, e⟩ | ⟨hv, e⟩
      · rcases ih with ⟨b', h1, h2⟩ | ⟨h1, p, hp, h2⟩
        · exact .inl ⟨_, by simp only [convertBlock, hk, if_false, e, ok_bind, h1]; rfl, .cons (.half hk hq hm) h2⟩
        · exact .inr ⟨by simp only [convertBlock, hk, if_false, e, ok_bind, h1]; rfl, p, by simp [hp], h2⟩
      · exact .inr ⟨by simp only [convertBlock, hk, if_false, e]; rfl, (k, v), by simp, hk, hv⟩

/-- **C104**: `convert_cat` keeps attributes, their order, and everything outside components; in a component it keeps the
type and replaces each other value by the text of the nearest multiple of one half.  It raises TypeError exactly if
some component has another value that is not a number. -/
theorem C104_convert (t : PyInst) :
    (∃ t', convertCat fstr t = .ok t' ∧ List.Forall₂ (TowerEntry fstr) t t') ∨
    (convertCat fstr t = .error .typeErr ∧
      ∃ a b, (a, Py.dict b) ∈ t ∧ ∃ p ∈ b, p.1 ≠ .str c!"type" ∧ ∀ q, ¬ PyNum p.2 q) := by
  induction t with
  | nil => exact .inl ⟨[], rfl, .nil⟩
  | cons p t ih =>
    obtain ⟨a, v⟩ := p
    by_cases hd : v.isDict = true
    · cases v <;> simp only [Py.isDict, Bool.false_eq_true] at hd
      rename_i b
      rcases convertBlock_cases (fstr := fstr) b with ⟨b', e, h⟩ | ⟨e, h⟩
      · rcases ih with ⟨t', h1, h2⟩ | ⟨h1, a', b1, h2, h3⟩
        · exact .inl ⟨_, by simp only [convertCat, e, h1, ok_bind]; rfl, .cons (.block h) h2⟩
        · exact .inr ⟨by simp only [convertCat, e, h1, ok_bind]; rfl, a', b1, by simp [h2], h3⟩
      · exact .inr ⟨by simp only [convertCat, e]; rfl, a, b, by simp, h⟩
    · rw [Bool.not_eq_true] at hd
      have e : convertCat fstr ((a, v) :: t) = (convertCat fstr t >>= fun r => pure ((a, v) :: r)) := by
        cases v <;> first | rfl | simp [Py.isDict] at hd
      rcases ih with ⟨t', h1, h2⟩ | ⟨h1, a', b1, h2, h3⟩
      · exact .inl ⟨_, by rw [e, h1]; rfl, .cons (.other hd) h2⟩
      · exact .inr ⟨by rw [e, h1]; rfl, a', b1, by simp [h2], h3⟩

/-- What was converted cannot be converted again. -/
theorem C104_convert_twice {t t' : PyInst} (h : convertCat fstr t = .ok t') {a k v : Py} {b : List (Py × Py)}
    (ha : (a, Py.dict b) ∈ t') (hk : (k, v) ∈ b) (hne : k ≠ .str c!"type") :
    convertCat fstr t' = .error .typeErr := by
  rcases C104_convert (fstr := fstr) t with ⟨t1, h1, h2⟩ | ⟨h1, -⟩
  · rw [h] at h1; cases h1
    rcases C104_convert (fstr := fstr) t' with ⟨t2, -, h4⟩ | ⟨h3, -⟩
    · exfalso
      have num : ∃ q, PyNum v q := by
        obtain ⟨e, -, he⟩ := forall₂_mem_left h4 ha
        cases he with
        | block hb =>
          obtain ⟨e, -, he⟩ := forall₂_mem_left hb hk
          cases he with
          | type => exact absurd rfl hne
          | half _ hq _ => exact ⟨_, hq⟩
        | other ho => simp [Py.isDict] at ho
      have str : ∃ s, v = .str s := by
        obtain ⟨e, -, he⟩ := forall₂_mem_right h2 ha
        cases he with
        | block hb =>
          obtain ⟨e, -, he⟩ := forall₂_mem_right hb hk
          cases he with
          | type => exact absurd rfl hne
          | half _ hq _ => exact ⟨_, rfl⟩
        | other ho => simp [Py.isDict] at ho
      obtain ⟨s, rfl⟩ := str
      obtain ⟨q, hq⟩ := num
      cases hq
    · exact h3
  · rw [h] at h1; cases h1

end

/-- **C104**, refuted: the lines of `acs_trestle_data.csv` are not the pairs of opportunity and accuracy that the heading
announces.  There is one line per run; it has the scores of the first two instances of the run, the first one given to
an empty tree. -/
theorem C104_csv {σ R : Type} {T : PyTree σ} {score : PyInst → Py → Py → SM σ R} (hk : KeepsFitted T score) {a : Py}
    {len runs : ℤ} {first : Bool} {shuffle : List PyInst → World → List PyInst × World} (hs : ShuffleLaws shuffle)
    {is is' : List PyInst} (hw : ∀ i ∈ is, Py.wf (.dict i)) {s s' : σ} {rows : List (List R)} (hl : 0 ≤ len)
    (h : incrementalEvaluation T score a len runs first shuffle is s = (.ok (rows, is'), s')) :
    (2 ≤ is.length → ∃ lines, csvRows rows = .ok lines ∧ lines.length = runs.toNat ∧
      ∀ p ∈ lines, ∃ i ∈ is, ∃ j ∈ is, (∃ s1 s2, Fitted T s1 [] ∧ score i a (targetOf i a) s1 = (.ok p.1, s2)) ∧
        ∃ s1 s2, Fitted T s1 [i] ∧ score j a (targetOf j a) s1 = (.ok p.2, s2)) ∧
    (is.length < 2 → 0 < runs → csvRows rows = .error .indexErr) := by
  obtain ⟨h1, -, orders, h2, h3, -, -, h4⟩ := C59_table_partial hk hs hw h
  have hlen : ∀ o ∈ orders, (prefixTo o (len + 2)).length = min (len + 2).toNat is.length := by
    intro o ho
    unfold prefixTo
    rw [if_pos (by omega), List.length_take, (h3 o ho).length_eq]
  constructor
  · intro h5
    rw [← h1]
    clear h1 h2 h
    induction h4 with
    | nil => exact ⟨[], rfl, rfl, by simp⟩
    | @cons o row orders rows hr _ ih =>
      obtain ⟨lines, k1, k2, k3⟩ := ih (fun o ho => h3 o (by simp [ho])) (fun o ho => hlen o (by simp [ho]))
      obtain ⟨r1, r2⟩ := hr
      have hl2 : 2 ≤ (prefixTo o (len + 2)).length := by rw [hlen o (by simp)]; omega
      match e : prefixTo o (len + 2), row, r1 with
      | i :: j :: l, u :: v :: row, r1 =>
        rw [e] at r2
        obtain ⟨s1, s2, r, q1, q2, q3⟩ := r2 0 i rfl
        obtain ⟨s3, s4, r', q4, q5, q6⟩ := r2 1 j rfl
        simp only [List.getElem?_cons_zero, Option.some.injEq] at q1
        simp only [List.getElem?_cons_succ, List.getElem?_cons_zero, Option.some.injEq] at q4
        subst q1 q4
        have hm : ∀ x ∈ i :: j :: l, x ∈ is := fun x hx =>
          (h3 o (by simp)).subset (prefixTo_sub _ _ x (e ▸ hx))
        refine ⟨(u, v) :: lines, by simp only [csvRows, k1, ok_bind]; rfl, by simp [k2], ?_⟩
        intro p hp
        rcases List.mem_cons.1 hp with rfl | hp
        · exact ⟨i, hm i (by simp), j, hm j (by simp), ⟨s1, s2, by simpa using q2, q3⟩, s3, s4, by simpa using q5, q6⟩
        · exact k3 p hp
      | [], _, _ => rw [e] at hl2; simp at hl2
      | [_], _, _ => rw [e] at hl2; simp at hl2
      | _ :: _ :: _, [], r1 => simp at r1
      | _ :: _ :: _, [_], r1 => simp at r1
  · intro h5 h6
    cases h4 with
    | nil => simp at h2; omega
    | @cons o row orders rows hr =>
      have h7 := hr.1
      rw [hlen o (by simp)] at h7
      match row, h7 with
      | [], _ => rfl
      | [_], _ => rfl
      | _ :: _ :: _, h7 => simp at h7; omega

/-- What is lost: as soon as a run has a third score, there are fewer lines than scores. -/
theorem C104_csv_incomplete {R : Type} {rows : List (List R)} {lines : List (R × R)} (h : csvRows rows = .ok lines)
    (h3 : ∃ row ∈ rows, 2 < row.length) : lines.length < (rows.map List.length).sum ∧
      2 * lines.length < (rows.map List.length).sum := by
  have key : ∀ {rows : List (List R)} {lines : List (R × R)}, csvRows rows = .ok lines →
      2 * lines.length + (rows.map fun r => r.length - 2).sum = (rows.map List.length).sum := by
    intro rows
    induction rows with
    | nil => intro lines h; cases h; rfl
    | cons row rows ih =>
      intro lines h
      match row, h with
      | u :: v :: row, h =>
        simp only [csvRows, bind_ok, pure_ok] at h
        obtain ⟨r, h1, rfl⟩ := h
        have := ih h1
        simp only [List.length_cons, List.map_cons, List.sum_cons]
        omega
  have h4 := key h
  obtain ⟨row, hr, h5⟩ := h3
  have h6 : row.length - 2 ≤ (rows.map fun r => r.length - 2).sum :=
    List.single_le_sum (by simp) _ (List.mem_map.2 ⟨row, hr, rfl⟩)
  omega

/-! ### trestle_predict_rumbleblocks.py -/

section
variable {R : Type}

theorem plotOpp_ok (opp : ℕ) {data : List (List R)} (h : ∀ row ∈ data, opp < row.length) :
    ∃ pts, plotOpp opp data = .ok pts ∧ pts.length = data.length ∧
      ∀ (run : ℕ) (row : List R) v, data[run]? = some row → row[opp]? = some v → pts[run]? = some (opp, v) := by
  induction data with
  | nil => exact ⟨[], rfl, rfl, by simp⟩
  | cons row data ih =>
    obtain ⟨pts, h1, h2, h3⟩ := ih fun r hr => h r (by simp [hr])
    have hr := List.getElem?_eq_getElem (h row (by simp))
    refine ⟨(opp, row[opp]'(h row (by simp))) :: pts, by simp only [plotOpp, hr, h1, ok_bind]; rfl, by simp [h2], ?_⟩
    intro run row' v e1 e2
    cases run with
    | zero =>
      simp only [List.getElem?_cons_zero, Option.some.injEq] at e1
      subst e1
      rw [hr] at e2; cases e2; rfl
    | succ run => simpa using h3 run row' v (by simpa using e1) e2

theorem plotOpp_error {opp : ℕ} {data : List (List R)} (h : ∃ row ∈ data, row.length ≤ opp) :
    plotOpp opp data = .error .indexErr := by
  induction data with
  | nil => simp at h
  | cons row data ih =>
    unfold plotOpp
    cases e : row[opp]? with
    | none => rfl
    | some v =>
      obtain ⟨r, hr, h⟩ := h
      rcases List.mem_cons.1 hr with rfl | hr
      · rw [List.getElem?_eq_none h] at e; cases e
      · simp only [ih ⟨r, hr, h⟩]; rfl

theorem plotOpps_ok {data : List (List R)} {m : ℕ} (h : ∀ row ∈ data, m ≤ row.length) (b : ℕ) :
    ∀ k, b + k ≤ m → ∃ pts, plotOpps data (List.range' b k) = .ok pts ∧ pts.length = k * data.length ∧
      ∀ (j run : ℕ) (row : List R) v, j < k → data[run]? = some row → row[b + j]? = some v →
        pts[j * data.length + run]? = some (b + j, v) := by
  intro k
  induction k generalizing b with
  | zero => intro _; exact ⟨[], rfl, by simp, by simp⟩
  | succ k ih =>
    intro hb
    obtain ⟨p1, a1, a2, a3⟩ := plotOpp_ok b (data := data) fun row hr => by have := h row hr; omega
    obtain ⟨p2, b1, b2, b3⟩ := ih (b + 1) (by omega)
    refine ⟨p1 ++ p2, by simp only [List.range'_succ, plotOpps, a1, b1, ok_bind]; rfl, by
      rw [List.length_append, a2, b2]; ring, ?_⟩
    intro j run row v hj e1 e2
    have hrun : run < data.length := (List.getElem?_eq_some_iff.1 e1).1
    cases j with
    | zero =>
      rw [Nat.zero_mul, Nat.zero_add, List.getElem?_append_left (by omega)]
      simpa using a3 run row v e1 (by simpa using e2)
    | succ j =>
      rw [List.getElem?_append_right (by rw [a2, Nat.succ_mul]; omega), a2,
        show (j + 1) * data.length + run - data.length = j * data.length + run by rw [Nat.succ_mul]; omega,
        b3 j run row v (by omega) e1 (by rwa [show b + 1 + j = b + (j + 1) by omega])]
      congr 2; omega

theorem plotOpps_error {data : List (List R)} {l : List ℕ} (h : ∃ opp ∈ l, ∃ row ∈ data, row.length ≤ opp) :
    plotOpps data l = .error .indexErr := by
  induction l with
  | nil => simp at h
  | cons o l ih =>
    unfold plotOpps
    by_cases ho : ∃ row ∈ data, row.length ≤ o
    · rw [plotOpp_error ho]; rfl
    · push Not at ho
      obtain ⟨p, h1, -, -⟩ := plotOpp_ok o ho
      obtain ⟨opp, hopp, h⟩ := h
      rcases List.mem_cons.1 hopp with rfl | hopp
      · obtain ⟨row, hr, h⟩ := h
        have := ho row hr; omega
      · rw [h1, ok_bind, ih ⟨opp, hopp, h⟩]; rfl

/-- **C104**: the loops of `trestle_predict_rumbleblocks.py` list the scores position by position, and within a position
run by run, each with its position.  They raise IndexError exactly without a run or when a run is shorter than the first. -/
theorem C104_plot (data : List (List R)) :
    (∀ first rest, data = first :: rest → (∀ row ∈ rest, first.length ≤ row.length) →
      ∃ pts, plotPoints data = .ok pts ∧ pts.length = first.length * data.length ∧
        ∀ (opp run : ℕ) (row : List R) v, opp < first.length → data[run]? = some row → row[opp]? = some v →
          pts[opp * data.length + run]? = some (opp, v)) ∧
    (plotPoints data = .error .indexErr ↔
      data = [] ∨ ∃ first rest, data = first :: rest ∧ ∃ row ∈ rest, row.length < first.length) := by
  have ok : ∀ first rest, data = first :: rest → (∀ row ∈ rest, first.length ≤ row.length) →
      ∃ pts, plotPoints data = .ok pts ∧ pts.length = first.length * data.length ∧
        ∀ (opp run : ℕ) (row : List R) v, opp < first.length → data[run]? = some row → row[opp]? = some v →
          pts[opp * data.length + run]? = some (opp, v) := by
    rintro first rest rfl h
    obtain ⟨pts, h1, h2, h3⟩ := plotOpps_ok (data := first :: rest) (m := first.length)
      (by simpa using h) 0 first.length (by omega)
    exact ⟨pts, by simpa [plotPoints, List.range_eq_range'] using h1, h2, by simpa using h3⟩
  refine ⟨ok, ?_, ?_⟩
  · intro he
    match hd : data with
    | [] => exact .inl rfl
    | first :: rest =>
      right
      refine ⟨first, rest, rfl, ?_⟩
      by_contra hn
      push Not at hn
      obtain ⟨pts, h1, -⟩ := ok first rest rfl hn
      rw [h1] at he; cases he
  · rintro (rfl | ⟨first, rest, rfl, row, hr, h⟩)
    · rfl
    · exact plotOpps_error ⟨row.length, by simpa using h, row, by simp [hr], le_rfl⟩

/-- The tables of `incremental_evaluation` can be plotted: with at least one run nothing raises and every score has a
point. -/
theorem C104_plot_evaluation {σ : Type} {T : PyTree σ} {score : PyInst → Py → Py → SM σ R} (hk : KeepsFitted T score)
    {a : Py} {len runs : ℤ} {first : Bool} {shuffle : List PyInst → World → List PyInst × World}
    (hs : ShuffleLaws shuffle) {is is' : List PyInst} (hw : ∀ i ∈ is, Py.wf (.dict i)) {s s' : σ}
    {rows : List (List R)} (hl : 0 ≤ len) (hr : 0 < runs)
    (h : incrementalEvaluation T score a len runs first shuffle is s = (.ok (rows, is'), s')) :
    ∃ pts, plotPoints rows = .ok pts ∧ pts.length = min (len + 2).toNat is.length * runs.toNat ∧
      ∀ (opp run : ℕ) row v, rows[run]? = some row → row[opp]? = some v →
        pts[opp * runs.toNat + run]? = some (opp, v) := by
  have hrows := (C59_table_partial hk hs hw h).1
  have hlen : ∀ row ∈ rows, row.length = min (len + 2).toNat is.length := by
    intro row hrow
    have := C59_row_length hk hs hw h hl hrow
    omega
  match rows, hrows, hlen with
  | [], hrows, _ => simp at hrows; omega
  | f :: rest, hrows, hlen =>
    obtain ⟨pts, h1, h2, h3⟩ := (C104_plot (f :: rest)).1 f rest rfl fun row hrow => by
      rw [hlen f (by simp), hlen row (by simp [hrow])]
    refine ⟨pts, h1, by rw [h2, hlen f (by simp), hrows], ?_⟩
    intro opp run row v e1 e2
    rw [← hrows]
    refine h3 opp run row v ?_ e1 e2
    rw [hlen f (by simp), ← hlen row (List.mem_of_getElem? e1)]
    exact (List.getElem?_eq_some_iff.1 e2).1

end

theorem splitComma_field {f : PStr} (h : ',' ∉ f) : splitComma f = [f] := by
  induction f with
  | nil => rfl
  | cons c f ih =>
    simp only [List.mem_cons, not_or] at h
    rw [splitComma, if_neg (Ne.symm h.1), ih h.2]

theorem splitComma_append {f : PStr} (h : ',' ∉ f) (l : PStr) : splitComma (f ++ ',' :: l) = f :: splitComma l := by
  induction f with
  | nil => simp [splitComma]
  | cons c f ih =>
    simp only [List.mem_cons, not_or] at h
    rw [List.cons_append, splitComma, if_neg (Ne.symm h.1), ih h.2]

theorem splitComma_join {fs : List PStr} (hne : fs ≠ []) (h : ∀ f ∈ fs, ',' ∉ f) : splitComma (commaJoin fs) = fs := by
  induction fs with
  | nil => exact absurd rfl hne
  | cons f fs ih =>
    cases fs with
    | nil => exact splitComma_field (h f (by simp))
    | cons g fs =>
      rw [commaJoin, splitComma_append (h f (by simp)), ih (by simp) fun x hx => h x (by simp [hx])]
      simp

theorem commaJoin_last {fs : List PStr} {f : PStr} {c : Char} (hf : f ∈ fs.getLast?) (hc : c ∈ f.getLast?) :
    (commaJoin fs).getLast? = some c := by
  induction fs with
  | nil => simp at hf
  | cons g fs ih =>
    cases fs with
    | nil => simp only [List.getLast?_singleton, Option.mem_def, Option.some.injEq] at hf; subst hf; exact hc
    | cons g' fs =>
      have := ih (by simpa using hf)
      rw [commaJoin, List.getLast?_append, List.getLast?_cons, this]
      · simp
      · simp

theorem rstrip_line {l sp : PStr} {c : Char} (hl : l.getLast? = some c) (hc : isSpaceChar c = false)
    (hs : ∀ c ∈ sp, isSpaceChar c = true) : rstrip (l ++ sp) = l := by
  unfold rstrip
  rw [List.reverse_append, List.dropWhile_append_of_pos (by simpa using hs)]
  obtain ⟨l', rfl⟩ := List.getLast?_eq_some_iff.1 hl
  rw [List.reverse_append]
  simp [hc]

theorem TableLine.fields {fs : List PStr} {line : PStr} (h : TableLine fs line) : splitComma (rstrip line) = fs := by
  obtain ⟨sp, rfl, hsp⟩ := h.text
  obtain ⟨f, hf, c, hc, hs⟩ := h.last
  rw [rstrip_line (commaJoin_last hf hc) hs hsp]
  refine splitComma_join ?_ h.commas
  rintro rfl; simp at hf

theorem columnKey_get {key : Dict PStr ℕ} {n : ℕ} {fs : List PStr} (hn : fs.Nodup) :
    (∀ (j : ℕ) name, fs[j]? = some name → (columnKey key n fs).get? name = some (n + j)) ∧
    ∀ name, name ∉ fs → (columnKey key n fs).get? name = key.get? name := by
  induction fs generalizing key n with
  | nil => exact ⟨by simp, fun _ _ => rfl⟩
  | cons f fs ih =>
    obtain ⟨h1, h2⟩ := ih (key := key.set f n) (n := n + 1) (List.nodup_cons.1 hn).2
    refine ⟨?_, ?_⟩
    · intro j name hj
      cases j with
      | zero =>
        simp only [List.getElem?_cons_zero, Option.some.injEq] at hj
        subst hj
        rw [columnKey, h2 _ (List.nodup_cons.1 hn).1]; simp
      | succ j =>
        rw [columnKey, h1 j name (by simpa using hj)]
        congr 1; omega
    · intro name hname
      simp only [List.mem_cons, not_or] at hname
      rw [columnKey, h2 name hname.2, Dict.get?_set_ne _ (Ne.symm hname.1)]

theorem intAt_column {int : PStr → Res ℤ} {head fs : List PStr} (hn : head.Nodup) {name : PStr} {k : ℤ}
    (h : Column int head fs name k) : intAt int (columnKey [] 0 head) fs name = .ok k := by
  obtain ⟨j, f, h1, h2, h3⟩ := h
  unfold intAt
  rw [(columnKey_get hn).1 j name h1]
  simp [h2, h3]

/-- **C104**: the human answers.  For a table with a heading without repeated names, `human_data` has for each row the
number of the answer, counted from zero, and whether the prediction was right, sorted by position. -/
theorem C104_human {int : PStr → Res ℤ} {head : List PStr} {hline : PStr} (hh : TableLine head hline)
    (hn : head.Nodup) {rows : List (List PStr)} {lines : List PStr} (hr : List.Forall₂ TableLine rows lines)
    {points : List (ℤ × ℤ)} (hp : List.Forall₂ (Answer int head) rows points) :
    ∃ r, humanData int (hline :: lines) = .ok r ∧ r.Perm points ∧
      r.Pairwise (fun a b => a.1 < b.1 ∨ (a.1 = b.1 ∧ a.2 ≤ b.2)) ∧ ∀ q ∈ r, q.2 = 0 ∨ q.2 = 1 := by
  have h1 : humanRows int (columnKey [] 0 head) lines = .ok points := by
    induction hr generalizing points with
    | nil => cases hp; rfl
    | cons hl _ ih =>
      cases hp with
      | cons ha hp =>
        obtain ⟨o, c, p, a1, a2, a3, a4, a5, rfl⟩ := ha
        simp only [humanRows, hl.fields, intAt_column hn a1, intAt_column hn a2, intAt_column hn a3, ok_bind, ih hp]
        refine congrArg (fun x => Except.ok ((o - 1, x) :: _)) ?_
        rcases a4 with rfl | rfl <;> rcases a5 with rfl | rfl <;> decide
  refine ⟨_, by simp only [humanData, hh.fields, h1, ok_bind]; rfl, List.perm_insertionSort _ _, ?_, ?_⟩
  · have := List.pairwise_insertionSort (fun a b : ℤ × ℤ => toLex a ≤ toLex b) points
    refine this.imp ?_
    intro a b hab
    exact Prod.Lex.toLex_le_toLex.1 hab
  · intro q hq
    rw [List.mem_insertionSort] at hq
    obtain ⟨_, -, o, c, p, -, -, -, -, -, rfl⟩ := forall₂_mem_right hp hq
    by_cases h : p = c <;> simp [h]

/-! ### cobweb3_cluster_iris.py -/

section
variable {L M : Type} [DecidableEq L] [DecidableEq M]

theorem classColors_ok {cs : List L} (cls : M) {data : List (L × M)}
    (h : ∀ p ∈ data, p.2 = cls → cs.idxOf p.1 < 7) :
    classColors cs cls data = .ok ((data.filter fun p => p.2 = cls).map fun p => cs.idxOf p.1) := by
  induction data with
  | nil => rfl
  | cons p data ih =>
    obtain ⟨l, m⟩ := p
    have := ih fun p hp => h p (by simp [hp])
    unfold classColors
    split_ifs with h1 h2
    · rw [this, List.filter_cons_of_pos (by simpa using h1)]; rfl
    · exact absurd (h (l, m) (by simp) h1) h2
    · rw [this, List.filter_cons_of_neg (by simpa using h1)]

theorem classColors_error {cs : List L} {cls : M} {data : List (L × M)}
    (h : ∃ p ∈ data, p.2 = cls ∧ 7 ≤ cs.idxOf p.1) : classColors cs cls data = .error .indexErr := by
  induction data with
  | nil => simp at h
  | cons p data ih =>
    obtain ⟨l, m⟩ := p
    obtain ⟨q, hq, h1, h2⟩ := h
    unfold classColors
    rcases List.mem_cons.1 hq with rfl | hq
    · rw [if_pos h1, if_neg (not_lt.2 h2)]
    · have := ih ⟨q, hq, h1, h2⟩
      split_ifs
      · rw [this]; rfl
      · rfl
      · exact this

theorem scatter_ok {cs : List L} {data : List (L × M)} (h : ∀ p ∈ data, cs.idxOf p.1 < 7) (n : ℕ) {ms : List M}
    (hm : n + ms.length ≤ 3) : scatter cs data n ms =
      .ok ((ms.zipIdx n).map fun c => (c.2, (data.filter fun p => p.2 = c.1).map fun p => cs.idxOf p.1)) := by
  induction ms generalizing n with
  | nil => rfl
  | cons c ms ih =>
    simp only [List.length_cons] at hm
    simp only [scatter, classColors_ok c fun p hp _ => h p hp, ok_bind, if_pos (show n < 3 by omega),
      ih (n + 1) (by omega), List.zipIdx_cons, List.map_cons]
    rfl

theorem scatter_error {cs : List L} {data : List (L × M)} (n : ℕ) {ms : List M} (hms : ms ≠ [])
    (h : (∃ p ∈ data, p.2 ∈ ms ∧ 7 ≤ cs.idxOf p.1) ∨ 3 < n + ms.length) :
    scatter cs data n ms = .error .indexErr := by
  induction ms generalizing n with
  | nil => exact absurd rfl hms
  | cons c ms ih =>
    by_cases hc : ∃ p ∈ data, p.2 = c ∧ 7 ≤ cs.idxOf p.1
    · simp only [scatter, classColors_error hc]; rfl
    · push Not at hc
      simp only [scatter, classColors_ok c hc, ok_bind]
      by_cases hn : n < 3
      · rw [if_pos hn, ih]
        · rfl
        · rintro rfl
          rcases h with ⟨p, hp, h1, h2⟩ | h
          · simp only [List.mem_singleton] at h1
            have := hc p hp h1; omega
          · simp at h; omega
        · rcases h with ⟨p, hp, h1, h2⟩ | h
          · rcases List.mem_cons.1 h1 with h1 | h1
            · have := hc p hp h1; omega
            · exact .inl ⟨p, hp, h1, h2⟩
          · right; simp only [List.length_cons] at h; omega
      · rw [if_neg hn]

/-- **C104**: the plot of `cobweb3_cluster_iris.py`.  `data` are the irises with their cluster and their class, `cs` and
`ms` the distinct clusters and classes in any order.  With at most seven clusters and three classes every class has its
own shape, irises of one class are listed together in order, and two irises have the same colour exactly if they are in
the same cluster.  With more it raises IndexError. -/
theorem C104_iris {data : List (L × M)} {cs : List L} {ms : List M} (hcs : cs.Nodup)
    (hc : ∀ l, l ∈ cs ↔ ∃ m, (l, m) ∈ data) (hm : ∀ m, m ∈ ms ↔ ∃ l, (l, m) ∈ data) :
    (cs.length ≤ 7 → ms.length ≤ 3 → ∃ color : L → ℕ, (∀ l ∈ cs, ∀ l' ∈ cs, color l = color l' → l = l') ∧
      scatter cs data 0 ms =
        .ok ((ms.zipIdx).map fun c => (c.2, (data.filter fun p => p.2 = c.1).map fun p => color p.1))) ∧
    (7 < cs.length ∨ 3 < ms.length → scatter cs data 0 ms = .error .indexErr) := by
  constructor
  · intro h1 h2
    refine ⟨cs.idxOf, ?_, scatter_ok (fun p hp => ?_) 0 (by omega)⟩
    · intro l hl l' _ e
      exact (List.idxOf_inj hl).1 e
    · have := List.idxOf_lt_length_of_mem ((hc p.1).2 ⟨p.2, hp⟩)
      omega
  · intro h
    refine scatter_error 0 ?_ ?_
    · rintro rfl
      rcases h with h | h
      · obtain ⟨l, hl⟩ := List.exists_mem_of_length_pos (show 0 < cs.length by omega)
        obtain ⟨m, hlm⟩ := (hc l).1 hl
        have := (hm m).2 ⟨l, hlm⟩
        simp at this
      · simp at h
    · rcases h with h | h
      · left
        obtain ⟨m, hlm⟩ := (hc cs[7]).1 (List.getElem_mem _)
        exact ⟨(cs[7], m), hlm, (hm m).2 ⟨_, hlm⟩, by rw [hcs.idxOf_getElem 7 h]⟩
      · right; omega

end

/-! ### Examples -/

/-- Three points with a label that is hidden; two of them differ. -/
def Demo.points : List (Inst3 ℕ ℕ) :=
  [[(1, .num 0), (2, .num 1), (0, .nom 7)], [(1, .num 4), (2, .num 5), (0, .nom 8)], [(1, .num 4), (2, .num 6), (0, .nom 8)]]

/-- `C104_simulate` on the three points: nothing is drawn for the first one, and for all three the ellipses of clusters. -/
example (w : World) (hw : Function.Injective w.rnd) : ∃ f1 f2 f3,
    simulate (fun a => a == 0) (⟨1 / 2, id⟩ : Cfg3 ℕ ℕ) 1 2 (emptyState3 (fun a => a == 0) w) Demo.points (w.bump 1) = .ok [f1, f2, f3] ∧
      f1 = [] ∧ 2 ≤ f3.length := by
  have ok : ∀ i ∈ Demo.points, HasVisible (fun a => a == 0) i ∧ HasNumber 1 i ∧ HasNumber 2 i := by
    intro i hi
    simp only [Demo.points, List.mem_cons, List.not_mem_nil, or_false] at hi
    rcases hi with rfl | rfl | rfl <;>
      exact ⟨⟨1, by simp [Dict.keys], rfl⟩, ⟨_, rfl⟩, ⟨_, rfl⟩⟩
  obtain ⟨frames, h1, h2, h3⟩ := C104_simulate (.init w) 1 2 (data := Demo.points) (cfg := (⟨1 / 2, id⟩ : Cfg3 ℕ ℕ))
    (hid := fun a => a == 0) (by
      intro i hi
      simp only [Demo.points, List.mem_cons, List.not_mem_nil, or_false] at hi
      rcases hi with rfl | rfl | rfl <;> simp [Dict.Nodup, Dict.keys]) (by simpa using ok)
    (w := w.bump 1) (by simp [World.bump]) hw
  match frames, h2 with
  | [f1, f2, f3], _ =>
    refine ⟨f1, f2, f3, h1, ?_, ?_⟩
    · rcases h3 0 f1 rfl with ⟨-, h⟩ | ⟨⟨i, hi, j, hj, h⟩, -⟩
      · exact h
      · simp only [Demo.points, List.nil_append, List.take_succ_cons, List.take_zero, List.mem_singleton] at hi hj
        subst hi hj
        exact absurd (fun a _ => rfl) h
    · rcases h3 2 f3 rfl with ⟨h, -⟩ | ⟨-, gs, h, -, -, h'⟩
      · have := h _ (by simp [Demo.points]; exact .inl rfl) [(1, .num 4), (2, .num 5), (0, .nom 8)]
          (by simp [Demo.points]) 1 rfl
        simp [Dict.get?] at this
      · rwa [← h'.length_eq]

/-- A tower with one block: 1.3 becomes 1.5, 0.25 becomes 0 (halves to even), the type and the label stay. -/
example : convertCat (fun q => if q = 0 then c!"0.0" else if q = 3 / 2 then c!"1.5" else c!"?")
    [(.str c!"success", .str c!"1"), (.str c!"?o1", .dict [(.str c!"type", .str c!"cube0"), (.str c!"b", .num (13 / 10)),
      (.str c!"l", .num (1 / 4))])] =
    .ok [(.str c!"success", .str c!"1"), (.str c!"?o1", .dict [(.str c!"type", .str c!"cube0"), (.str c!"b", .str c!"1.5"),
      (.str c!"l", .str c!"0.0")])] := by decide +kernel

/-- A block with a name that is no number. -/
example : convertCat (fun _ => []) [(.str c!"?o1", .dict [(.str c!"name", .str c!"x")])] = .error .typeErr := by
  decide +kernel

/-- Two runs with three scores each: four of the six scores are in the file, all of them in the plot.  (An evaluation
that returns is at the end of `Verif.Props.Evaluation`.) -/
example : csvRows [[1, 2, 3], [4, 5, 6]] = .ok [(1, 2), (4, 5)] ∧
    plotPoints [[1, 2, 3], [4, 5, 6]] = .ok [(0, 1), (0, 4), (1, 2), (1, 5), (2, 3), (2, 6)] := by decide +kernel

/-- A table with a heading and two rows, the second of them first in order. -/
example : humanData (fun f => if f = c!"1" then .ok 1 else if f = c!"2" then .ok 2 else if f = c!"0" then .ok 0 else
    .error .valueErr) [c!"user,order,prediction,correctness", c!"u,2,0,1", c!"u,1,1,1"] = .ok [(0, 1), (1, 0)] := by
  decide +kernel

/-- The rows of that table are answers, as `C104_human` asks. -/
example : TableLine [c!"u", c!"2", c!"0", c!"1"] c!"u,2,0,1 " ∧
    Answer (fun f => if f = c!"1" then .ok 1 else if f = c!"2" then .ok 2 else if f = c!"0" then .ok 0 else .error .valueErr)
      [c!"user", c!"order", c!"prediction", c!"correctness"] [c!"u", c!"2", c!"0", c!"1"] (1, 0) :=
  ⟨⟨by decide, ⟨c!" ", rfl, by decide⟩, ⟨c!"1", rfl, '1', rfl, by decide⟩⟩,
    2, 1, 0, ⟨1, c!"2", rfl, rfl, rfl⟩, ⟨3, c!"1", rfl, rfl, rfl⟩, ⟨2, c!"0", rfl, rfl, rfl⟩, .inr rfl, .inl rfl, rfl⟩

/-- Four irises in two clusters and two classes; eight clusters raise. -/
example : scatter [10, 20] [(10, 'a'), (20, 'b'), (20, 'a'), (20, 'b')] 0 ['b', 'a'] = .ok [(0, [1, 1]), (1, [0, 1])] ∧
    scatter (List.range 8) ((List.range 8).map fun l => (l, 'a')) 0 ['a'] = .error .indexErr := by decide +kernel

end CF
