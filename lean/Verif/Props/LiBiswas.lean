/-
C88: the misclassification count of the experiment of Li and Biswas (li_biswas_experiment.py:117-137).
-/
import Verif.Model.LiBiswas
import Verif.Props.VerifyCounts
import Mathlib.Algebra.BigOperators.Group.Finset.Basic

namespace CF

section
variable {C L : Type} [LinearOrder C] [DecidableEq L]

/-! ## What the count should be -/

/-- The labels of the instances in cluster `c`. -/
def members (cs : List C) (ls : List L) (c : C) : List L := ((cs.zip ls).filter fun p => p.1 = c).map Prod.snd

/-- The number of instances of the largest group in a list of labels. -/
def largest (m : List L) : ℕ := m.toFinset.sup fun g => m.count g

/-- `T` are the (at most) three largest clusters; of clusters of equal size, those with the later names. -/
def IsTop (cs : List C) (T : Finset C) : Prop :=
  T ⊆ cs.toFinset ∧ T.card = min 3 cs.toFinset.card ∧
  ∀ c ∈ T, ∀ d ∈ cs.toFinset, d ∉ T → cs.count d < cs.count c ∨ cs.count d = cs.count c ∧ d < c

/-- One for every instance of the main group of a cluster that is not one of the three largest, two for
every instance that is not of the main group of its cluster. -/
def missSpec (cs : List C) (ls : List L) (T : Finset C) : ℕ :=
  ∑ c ∈ cs.toFinset, ((if c ∈ T then 0 else largest (members cs ls c)) +
    2 * (cs.count c - largest (members cs ls c)))

/-! ## Proofs -/

theorem members_nil_left (ls : List L) (c : C) : members [] ls c = [] := by simp [members]

theorem members_cons (c' : C) (cs : List C) (l : L) (ls : List L) (c : C) :
    members (c' :: cs) (l :: ls) c = if c' = c then l :: members cs ls c else members cs ls c := by
  unfold members
  by_cases h : c' = c <;> simp [h]

theorem length_members {cs : List C} {ls : List L} (h : cs.length ≤ ls.length) (c : C) :
    (members cs ls c).length = cs.count c := by
  induction cs generalizing ls with
  | nil => simp [members_nil_left]
  | cons c' cs ih =>
    cases ls with
    | nil => simp at h
    | cons l ls =>
      rw [members_cons, List.count_cons]
      have := ih (ls := ls) (by simpa using h)
      by_cases hc : c' = c <;> simp [hc, this]

/-- The state of the loop: `m c` are the labels seen in cluster `c`. -/
structure ConfOk (conf : Dict C (Dict L ℕ)) (m : C → List L) : Prop where
  nodup : NodupAv conf
  key : ∀ c, conf.get? c = none ↔ m c = []
  val : ∀ c t, conf.get? c = some t → ∀ g, t.get? g = if g ∈ m c then some ((m c).count g) else none

theorem ConfOk.step {conf : Dict C (Dict L ℕ)} {m : C → List L} (h : ConfOk conf m) (c : C) (l : L) :
    ConfOk (conf.set c (bump ((conf.get? c).getD []) l 1)) (fun d => if c = d then l :: m d else m d) := by
  have hn : Dict.Nodup ((conf.get? c).getD []) := by
    cases hc : conf.get? c with
    | none => simp [Dict.Nodup, Dict.keys]
    | some t => exact h.nodup.2 _ (Dict.mem_of_get? hc)
  refine ⟨nodupAv_set h.nodup (Dict.nodup_set hn _ _), fun d => ?_, fun d t ht g => ?_⟩
  · rw [Dict.get?_set]
    by_cases hd : c = d
    · subst hd; simp
    · rw [if_neg hd, if_neg hd]; exact h.key d
  · rw [Dict.get?_set] at ht
    by_cases hd : c = d
    · subst hd
      rw [if_pos rfl, Option.some.injEq] at ht
      subst ht
      have hg : ∀ g, Dict.get? ((conf.get? c).getD []) g = if g ∈ m c then some ((m c).count g) else none := by
        intro g
        cases hc : conf.get? c with
        | none => simp [(h.key c).1 hc]
        | some t => exact h.val c t hc g
      rw [bump, Dict.get?_set, hg, hg, if_pos rfl]
      by_cases hgl : g = l
      · subst hgl
        by_cases hm : g ∈ m c
        · simp [hm]
        · simp [hm, List.count_eq_zero_of_not_mem]
      · simp [hgl, Ne.symm hgl]
    · rw [if_neg hd] at ht
      simp only [if_neg hd]
      exact h.val d t ht g

theorem confusionLoop_ok {cs : List C} {ls : List L} (hl : cs.length ≤ ls.length) {conf : Dict C (Dict L ℕ)}
    {m : C → List L} (h : ConfOk conf m) :
    ∃ conf' m', confusionLoop conf cs ls = .ok conf' ∧ ConfOk conf' m' ∧
      ∀ c, (m' c).Perm (m c ++ members cs ls c) := by
  induction cs generalizing ls conf m with
  | nil => exact ⟨conf, m, rfl, h, fun c => by simp [members_nil_left]⟩
  | cons c cs ih =>
    cases ls with
    | nil => simp at hl
    | cons l ls =>
      obtain ⟨conf', m', e, h', hp⟩ := ih (ls := ls) (by simpa using hl) (h.step c l)
      refine ⟨conf', m', e, h', fun d => (hp d).trans ?_⟩
      rw [members_cons]
      by_cases hd : c = d
      · simp only [if_pos hd, List.cons_append]
        exact List.perm_middle.symm
      · simp only [if_neg hd]; exact List.Perm.refl _

theorem ConfOk.congr {conf : Dict C (Dict L ℕ)} {m m' : C → List L} (h : ConfOk conf m)
    (hp : ∀ c, (m c).Perm (m' c)) : ConfOk conf m' := by
  refine ⟨h.nodup, fun c => ?_, fun c t ht g => ?_⟩
  · rw [h.key c]
    exact ⟨fun e => by have := hp c; rw [e] at this; exact this.nil_eq.symm,
      fun e => by have := hp c; rw [e] at this; exact this.eq_nil⟩
  · rw [h.val c t ht g]
    simp only [(hp c).mem_iff, (hp c).count_eq]

theorem confusion_ok {cs : List C} {ls : List L} (hl : cs.length ≤ ls.length) :
    ∃ conf : Dict C (Dict L ℕ), confusionLoop [] cs ls = .ok conf ∧ ConfOk conf (members cs ls) := by
  obtain ⟨conf, m, e, h, hp⟩ := confusionLoop_ok hl (conf := []) (m := fun _ => [])
    ⟨⟨by simp [Dict.Nodup, Dict.keys], by simp⟩, by simp, by simp⟩
  exact ⟨conf, e, h.congr (by simpa using hp)⟩

theorem ConfOk.values {conf : Dict C (Dict L ℕ)} {m : C → List L} (h : ConfOk conf m) {p : C × Dict L ℕ}
    (hp : p ∈ conf) : (p.2.map Prod.snd).Perm ((m p.1).dedup.map fun g => (m p.1).count g) := by
  have hv := h.val p.1 p.2 (Dict.get?_of_mem h.nodup.1 hp)
  have hn := h.nodup.2 p hp
  have e1 : p.2.map Prod.snd = (Dict.keys p.2).map fun g => (m p.1).count g := by
    rw [Dict.keys, List.map_map]
    refine List.map_congr_left fun q hq => ?_
    have := hv q.1
    rw [Dict.get?_of_mem hn (v := q.2) hq] at this
    split at this
    · simpa using this
    · cases this
  rw [e1]
  refine List.Perm.map _ ((List.perm_ext_iff_of_nodup hn (List.nodup_dedup _)).2 fun g => ?_)
  rw [List.mem_dedup, ← Dict.get?_isSome, hv]
  split <;> simp_all

theorem sum_two_mul (l : List ℕ) : (l.map fun x => 2 * x).sum = 2 * l.sum := by
  induction l with
  | nil => rfl
  | cons a l ih => simp only [List.map_cons, List.sum_cons, ih]; omega

theorem sorted_values {vs : List ℕ} {m : List L} (h : vs.Perm (m.dedup.map fun g => m.count g)) (hm : m ≠ []) :
    ∃ a as, vs.insertionSort (fun a b => b ≤ a) = a :: as ∧ a = largest m ∧ as.sum = m.length - largest m := by
  have hp := (List.perm_insertionSort (fun a b : ℕ => b ≤ a) vs).trans h
  have hs := List.pairwise_insertionSort (fun a b : ℕ => b ≤ a) vs
  have hsum : (vs.insertionSort fun a b => b ≤ a).sum = m.length := by
    rw [hp.sum_eq, List.sum_map_count_dedup_eq_length]
  cases e : vs.insertionSort (fun a b => b ≤ a) with
  | nil =>
    rw [e] at hp
    have := hp.nil_eq
    simp [hm] at this
  | cons a as =>
    rw [e] at hp hs hsum
    have ha : a = largest m := by
      apply le_antisymm
      · have : a ∈ m.dedup.map fun g => m.count g := hp.mem_iff.1 (List.mem_cons_self ..)
        obtain ⟨g, hg, rfl⟩ := List.mem_map.1 this
        exact Finset.le_sup (f := fun g => m.count g) (List.mem_toFinset.2 (List.mem_dedup.1 hg))
      · refine Finset.sup_le fun g hg => ?_
        have : m.count g ∈ a :: as :=
          hp.mem_iff.2 (List.mem_map.2 ⟨g, List.mem_dedup.2 (List.mem_toFinset.1 hg), rfl⟩)
        rcases List.mem_cons.1 this with h | h
        · exact h.le
        · exact (List.pairwise_cons.1 hs).1 _ h
    refine ⟨a, as, rfl, ha, ?_⟩
    rw [List.sum_cons] at hsum
    omega

theorem missLoop_ok {top : List C} {m : C → List L} {d : Dict C (Dict L ℕ)}
    (hd : ∀ p ∈ d, (p.2.map Prod.snd).Perm ((m p.1).dedup.map fun g => (m p.1).count g) ∧ m p.1 ≠ []) (k : ℕ) :
    missLoop top d k = .ok (k + (d.map fun p => (if p.1 ∈ top then 0 else largest (m p.1)) +
      2 * ((m p.1).length - largest (m p.1))).sum) := by
  induction d generalizing k with
  | nil => simp [missLoop]
  | cons p d ih =>
    obtain ⟨c, t⟩ := p
    obtain ⟨h1, h2⟩ := hd _ (List.mem_cons_self ..)
    obtain ⟨a, as, e, ha, has⟩ := sorted_values h1 h2
    have ih' := fun k => ih (fun p hp => hd p (List.mem_cons_of_mem _ hp)) k
    simp only [missLoop] at *
    rw [e]
    simp only [List.tail_cons, sum_two_mul, ih', List.map_cons, List.sum_cons, ha, has]
    by_cases hc : c ∈ top
    · simp only [hc, not_true_eq_false, if_true, if_false, Except.ok.injEq]; omega
    · simp only [hc, not_false_eq_true, if_true, if_false, Except.ok.injEq]; omega

theorem ConfOk.sums {conf : Dict C (Dict L ℕ)} {m : C → List L} (h : ConfOk conf m) {p : C × Dict L ℕ}
    (hp : p ∈ conf) : tabSum p.2 = (m p.1).length := by
  rw [tabSum, (h.values hp).sum_eq, List.sum_map_count_dedup_eq_length]

theorem topThree_isTop {cs : List C} {ls : List L} (hl : cs.length ≤ ls.length) {conf : Dict C (Dict L ℕ)}
    (h : ConfOk conf (members cs ls)) (hk : ∀ c, c ∈ conf.keys ↔ c ∈ cs) :
    IsTop cs (topThree conf).toFinset := by
  have hperm : (totals conf).Perm (conf.map fun p => toLex (tabSum p.2, p.1)) :=
    List.perm_insertionSort _ _
  have hsort : (totals conf).Pairwise fun a b => b ≤ a := List.pairwise_insertionSort _ _
  have hsnd : ((totals conf).map fun p => (ofLex p).2).Perm conf.keys := by
    have := hperm.map fun p => (ofLex p).2
    rwa [List.map_map] at this
  have hnd : ((totals conf).map fun p => (ofLex p).2).Nodup := hsnd.nodup_iff.2 h.nodup.1
  have hcount : ∀ q ∈ totals conf, (ofLex q).1 = cs.count (ofLex q).2 := by
    intro q hq
    obtain ⟨p, hp, rfl⟩ := List.mem_map.1 (hperm.mem_iff.1 hq)
    simp only [ofLex_toLex]
    rw [h.sums hp, length_members hl]
  have htop : topThree conf = ((totals conf).map fun p => (ofLex p).2).take 3 := List.map_take ..
  have hfin : cs.toFinset = ((totals conf).map fun p => (ofLex p).2).toFinset := by
    ext c
    rw [List.mem_toFinset, List.mem_toFinset, hsnd.mem_iff, hk]
  refine ⟨fun c hc => ?_, ?_, fun c hc d hd hdc => ?_⟩
  · rw [List.mem_toFinset, htop] at hc
    rw [hfin, List.mem_toFinset]
    exact List.mem_of_mem_take hc
  · rw [htop, hfin, List.toFinset_card_of_nodup (hnd.sublist (List.take_sublist _ _)),
      List.toFinset_card_of_nodup hnd, List.length_take]
  · rw [List.mem_toFinset] at hc hdc
    rw [hfin, List.mem_toFinset] at hd
    obtain ⟨q, hq, rfl⟩ := List.mem_map.1 hc
    obtain ⟨r, hr, rfl⟩ := List.mem_map.1 hd
    have hr' : r ∈ (totals conf).drop 3 := by
      rw [← List.take_append_drop 3 (totals conf), List.mem_append] at hr
      rcases hr with hr | hr
      · exact absurd (List.mem_map.2 ⟨r, hr, rfl⟩) hdc
      · exact hr
    rw [← List.take_append_drop 3 (totals conf), List.pairwise_append] at hsort
    have hle := hsort.2.2 q hq r hr'
    have hne : r ≠ q := fun e => hdc (e ▸ hc)
    have hlt := lt_of_le_of_ne hle hne
    rw [Prod.Lex.lt_iff] at hlt
    rw [← hcount q (List.mem_of_mem_take hq), ← hcount r hr]
    exact hlt

/-- **C88.** The misclassification count is computed for every clustering of the labelled instances, and
it is `missSpec` of the three largest clusters. -/
theorem C88_miss {cs : List C} {ls : List L} (hl : cs.length ≤ ls.length) :
    ∃ T, IsTop cs T ∧ missCount cs ls = .ok (missSpec cs ls T) := by
  obtain ⟨conf, e, h⟩ := confusion_ok hl
  have hk : ∀ c, c ∈ conf.keys ↔ c ∈ cs := by
    intro c
    rw [← not_iff_not, ← Dict.get?_eq_none, h.key, ← List.length_eq_zero_iff, length_members hl,
      List.count_eq_zero]
  refine ⟨(topThree conf).toFinset, topThree_isTop hl h hk, ?_⟩
  rw [missCount, e]
  show missLoop (topThree conf) conf 0 = _
  rw [missLoop_ok (m := members cs ls) fun p hp => ⟨h.values hp, fun e0 => ?_⟩]
  · rw [missSpec, zero_add, Except.ok.injEq]
    have hf : cs.toFinset = conf.keys.toFinset := by
      ext c; rw [List.mem_toFinset, List.mem_toFinset, hk]
    rw [hf, List.sum_toFinset _ h.nodup.1, Dict.keys, List.map_map]
    simp only [Function.comp_def, List.mem_toFinset, length_members hl]
  · have := (h.key p.1).2 e0
    rw [Dict.get?_eq_none] at this
    exact this (List.mem_map.2 ⟨p, hp, rfl⟩)

theorem isTop_unique {cs : List C} {T T' : Finset C} (h : IsTop cs T) (h' : IsTop cs T') : T = T' := by
  by_contra hne
  have hcard : T.card = T'.card := h.2.1.trans h'.2.1.symm
  have h1 : ¬ T ⊆ T' := fun hs => hne (Finset.eq_of_subset_of_card_le hs hcard.ge)
  have h2 : ¬ T' ⊆ T := fun hs => hne (Finset.eq_of_subset_of_card_le hs hcard.le).symm
  obtain ⟨c, hc, hc'⟩ := Finset.not_subset.1 h1
  obtain ⟨d, hd, hd'⟩ := Finset.not_subset.1 h2
  rcases h.2.2 c hc d (h'.1 hd) hd' with a | ⟨a, a'⟩ <;> rcases h'.2.2 d hd c (h.1 hc) hc' with b | ⟨b, b'⟩
  · omega
  · omega
  · omega
  · exact absurd a' (not_lt_of_gt b')

theorem largest_le (m : List L) : largest m ≤ m.length :=
  Finset.sup_le fun _ _ => List.count_le_length

theorem largest_pos {m : List L} (h : m ≠ []) : 0 < largest m := by
  obtain ⟨g, hg⟩ := List.exists_mem_of_ne_nil m h
  exact lt_of_lt_of_le (List.count_pos_iff.2 hg)
    (Finset.le_sup (f := fun g => m.count g) (List.mem_toFinset.2 hg))

theorem largest_eq_length {m : List L} : largest m = m.length ↔ ∀ g ∈ m, ∀ g' ∈ m, g = g' := by
  constructor
  · intro h
    rcases m.eq_nil_or_concat with rfl | hm
    · simp
    · have hne : m.toFinset.Nonempty := by
        obtain ⟨l, a, rfl⟩ := hm; exact ⟨a, by simp⟩
      obtain ⟨g, hg, e⟩ := Finset.exists_mem_eq_sup _ hne fun g => m.count g
      rw [largest, e, List.count_eq_length] at h
      exact fun a ha b hb => (h a ha).symm.trans (h b hb)
  · intro h
    apply le_antisymm (largest_le m)
    cases m with
    | nil => simp
    | cons a m =>
      have : (a :: m).count a = (a :: m).length := List.count_eq_length.2 fun b hb => h a (by simp) b hb
      rw [← this]
      exact Finset.le_sup (f := fun g => (a :: m).count g) (by simp)

/-- The count lies between 0 and twice the number of clustered instances. -/
theorem C88_range {cs : List C} {ls : List L} (hl : cs.length ≤ ls.length) {k : ℕ}
    (h : missCount cs ls = .ok k) : k ≤ 2 * cs.length := by
  obtain ⟨T, -, e⟩ := C88_miss hl
  rw [e, Except.ok.injEq] at h
  rw [← h, missSpec]
  calc _ ≤ ∑ c ∈ cs.toFinset, 2 * cs.count c := by
        refine Finset.sum_le_sum fun c _ => ?_
        have := largest_le (members cs ls c)
        rw [length_members hl] at this
        split <;> omega
    _ = 2 * cs.length := by
        rw [← Finset.mul_sum, ← List.sum_toFinset_count_eq_length]

/-- The count is 0 exactly when there are at most three clusters and no cluster mixes two groups. -/
theorem C88_zero_iff {cs : List C} {ls : List L} (hl : cs.length ≤ ls.length) :
    missCount cs ls = .ok 0 ↔ cs.toFinset.card ≤ 3 ∧
      ∀ p ∈ cs.zip ls, ∀ q ∈ cs.zip ls, p.1 = q.1 → p.2 = q.2 := by
  obtain ⟨T, hT, e⟩ := C88_miss hl
  rw [e, Except.ok.injEq, missSpec, Finset.sum_eq_zero_iff]
  have hpure : (∀ c ∈ cs.toFinset, cs.count c - largest (members cs ls c) = 0) ↔
      ∀ p ∈ cs.zip ls, ∀ q ∈ cs.zip ls, p.1 = q.1 → p.2 = q.2 := by
    constructor
    · intro h p hp q hq hpq
      have hc : p.1 ∈ cs := (List.of_mem_zip hp).1
      have h1 := h p.1 (List.mem_toFinset.2 hc)
      have h2 := largest_le (members cs ls p.1)
      rw [← length_members hl] at h1
      have := largest_eq_length.1 (le_antisymm h2 (by omega))
      exact this _ (List.mem_map.2 ⟨p, by simp [hp], rfl⟩) _ (List.mem_map.2 ⟨q, by simp [hq, hpq], rfl⟩)
    · intro h c _
      have : largest (members cs ls c) = (members cs ls c).length := by
        rw [largest_eq_length]
        intro g hg g' hg'
        obtain ⟨p, hp, rfl⟩ := List.mem_map.1 hg
        obtain ⟨q, hq, rfl⟩ := List.mem_map.1 hg'
        simp only [List.mem_filter, decide_eq_true_eq] at hp hq
        exact h p hp.1 q hq.1 (hp.2.trans hq.2.symm)
      rw [this, length_members hl]; omega
  rw [← hpure]
  have hlp : ∀ c ∈ cs.toFinset, 0 < largest (members cs ls c) := fun c hc =>
    largest_pos fun e0 => by
      have := length_members hl c
      rw [e0, List.length_nil, eq_comm, List.count_eq_zero] at this
      exact this (List.mem_toFinset.1 hc)
  constructor
  · intro h
    have hall : cs.toFinset ⊆ T := fun c hc => by
      by_contra hn
      have h1 := h c hc
      rw [if_neg hn] at h1
      have := hlp c hc
      omega
    refine ⟨?_, fun c hc => by have := h c hc; omega⟩
    have := Finset.card_le_card hall
    rw [hT.2.1] at this
    omega
  · rintro ⟨h1, h2⟩ c hc
    have : T = cs.toFinset := Finset.eq_of_subset_of_card_le hT.1 (by rw [hT.2.1]; omega)
    rw [this, if_pos hc, h2 c hc]; rfl

/-- The count does not depend on the order in which the instances are taken. -/
theorem C88_perm {cs cs' : List C} {ls ls' : List L} (hl : cs.length = ls.length) (hl' : cs'.length = ls'.length)
    (h : (cs.zip ls).Perm (cs'.zip ls')) : missCount cs ls = missCount cs' ls' := by
  obtain ⟨T, hT, e⟩ := C88_miss hl.le
  obtain ⟨T', hT', e'⟩ := C88_miss hl'.le
  have hcs : cs.Perm cs' := by
    have := h.map Prod.fst
    rwa [List.map_fst_zip hl.le, List.map_fst_zip hl'.le] at this
  have hfin : cs.toFinset = cs'.toFinset := List.toFinset_eq_of_perm _ _ hcs
  have hTT : T = T' := by
    refine isTop_unique hT ?_
    unfold IsTop at hT' ⊢
    simpa only [hfin, hcs.count_eq] using hT'
  have hm : ∀ c, largest (members cs ls c) = largest (members cs' ls' c) := fun c => by
    have hp : (members cs ls c).Perm (members cs' ls' c) := (h.filter _).map _
    simp only [largest, hp.count_eq, List.toFinset_eq_of_perm _ _ hp]
  rw [e, e', missSpec, missSpec, hTT, hfin]
  simp only [hm, hcs.count_eq]

/-- The count raises an `IndexError` exactly when there are more cluster labels than instances. -/
theorem C88_raises_iff {cs : List C} {ls : List L} :
    (missCount cs ls).isOk = false ↔ ls.length < cs.length := by
  constructor
  · intro h
    by_contra hn
    obtain ⟨T, -, e⟩ := C88_miss (not_lt.1 hn)
    rw [e] at h
    cases h
  · intro h
    have : ∀ conf : Dict C (Dict L ℕ), confusionLoop conf cs ls = .error .indexErr := by
      induction cs generalizing ls with
      | nil => simp at h
      | cons c cs ih =>
        cases ls with
        | nil => intro conf; rfl
        | cons l ls => intro conf; exact ih (by simpa using h) _
    rw [missCount, this]
    rfl

end

/-! ## Examples -/

/-- Ten instances in four clusters; the clusters 2 and 3 are both of size 2. -/
def tieClusters : List ℕ := [0, 0, 0, 1, 1, 1, 2, 2, 3, 3]
def tieLabels : List ℕ := [7, 7, 7, 8, 8, 8, 9, 9, 9, 8]

/-- The names of the clusters matter: exchanging the names of two clusters of equal size changes the count,
from 4 to 3, although the clustering is the same partition of the instances. -/
theorem C88_names_matter : ∃ ρ : ℕ → ℕ, Function.Bijective ρ ∧
    missCount tieClusters tieLabels = .ok 4 ∧ missCount (tieClusters.map ρ) tieLabels = .ok 3 :=
  ⟨Equiv.swap 2 3, (Equiv.swap 2 3).bijective, by decide +kernel, by decide +kernel⟩

example : IsTop tieClusters {0, 1, 3} := by
  refine ⟨by decide, by decide, by decide⟩

example : missSpec tieClusters tieLabels {0, 1, 3} = 4 := by decide

example : missCount [1, 1, 0, 2] [5, 5, 6, 6] = .ok 0 := by decide +kernel

end CF
