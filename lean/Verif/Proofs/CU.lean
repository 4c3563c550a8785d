/-
Category utility: closed forms, the relative-CU identity, and the bounds.
-/
import Verif.Proofs.Ecg
import Verif.Proofs.Reach
import Mathlib.Data.Nat.Cast.Order.Field

set_option linter.unusedSectionVars false

namespace CF

section generic
variable {I S K : Type} [Field K] [LinearOrder K] [IsStrictOrderedRing K]
variable {C : NodeClass I S} {ecg : S → Res K}

/-- The value of a result (0 if it raised). -/
def val (x : Res K) : K := match x with | .ok e => e | .error _ => 0

@[simp] theorem val_ok (e : K) : val (.ok e : Res K) = e := rfl

theorem pyDiv_ok_iff {a b r : K} : pyDiv a b = .ok r ↔ b ≠ 0 ∧ r = a / b := by
  unfold pyDiv; split
  · simp_all
  · simp_all [eq_comm]

theorem cuSum_ok_iff {n : ℕ} (hn : n ≠ 0) {cs : List S} {acc r : K} :
    cuSum C ecg n cs acc = .ok r ↔ (∀ c ∈ cs, ∃ e, ecg c = .ok e) ∧
      r = acc + (cs.map fun c => (C.count c : K) / n * val (ecg c)).sum := by
  have hn' : (n : K) ≠ 0 := by exact_mod_cast hn
  induction cs generalizing acc with
  | nil => simp [cuSum, eq_comm]
  | cons c cs ih =>
    simp only [cuSum, bind_ok, pyDiv_ok_iff, ih, List.map_cons, List.sum_cons, List.mem_cons,
      forall_eq_or_imp]
    constructor
    · rintro ⟨p, ⟨-, rfl⟩, e, he, h, rfl⟩
      exact ⟨⟨⟨e, he⟩, h⟩, by rw [he, val_ok, add_assoc]⟩
    · rintro ⟨⟨⟨e, he⟩, h⟩, rfl⟩
      exact ⟨_, ⟨hn', rfl⟩, e, he, h, by rw [he, val_ok, add_assoc]⟩

theorem categoryUtility_ok_iff {s : S} {cs : List S} (hn : C.count s ≠ 0) (hcs : cs ≠ []) {r : K} :
    categoryUtility C ecg s cs = .ok r ↔
      (∀ c ∈ cs, ∃ e, ecg c = .ok e) ∧ (∃ e, ecg s = .ok e) ∧
      r = ((cs.map fun c => (C.count c : K) / C.count s * val (ecg c)).sum - val (ecg s))
        / cs.length := by
  cases cs with
  | nil => exact absurd rfl hcs
  | cons c cs =>
    have hl : (((c :: cs).length : ℕ) : K) ≠ 0 := by simp; positivity
    simp only [categoryUtility, bind_ok, cuSum_ok_iff hn, pyDiv_ok_iff]
    constructor
    · rintro ⟨g, ⟨h, rfl⟩, e, he, -, rfl⟩
      exact ⟨h, ⟨e, he⟩, by rw [he, val_ok, zero_add]⟩
    · rintro ⟨h, ⟨e, he⟩, rfl⟩
      exact ⟨_, ⟨h, rfl⟩, e, he, hl, by rw [he, val_ok, zero_add]⟩

theorem constSum_ok_iff {n : ℕ} {cs : List S} {acc r : K} :
    constSum C ecg n cs acc = .ok r ↔ (∀ c ∈ cs, ∃ e, ecg c = .ok e) ∧
      r = acc + (cs.map fun c => (C.count c : K) / ((n : K) + 1) * val (ecg c)).sum := by
  induction cs generalizing acc with
  | nil => simp [constSum, eq_comm]
  | cons c cs ih =>
    simp only [constSum, bind_ok, ih, List.map_cons, List.sum_cons, List.mem_cons,
      forall_eq_or_imp]
    constructor
    · rintro ⟨e, he, h, rfl⟩
      exact ⟨⟨⟨e, he⟩, h⟩, by rw [he, val_ok, add_assoc]⟩
    · rintro ⟨⟨⟨e, he⟩, h⟩, rfl⟩
      exact ⟨e, he, h, by rw [he, val_ok, add_assoc]⟩

theorem relativeCuConst_ok_iff {s : S} {cs : List S} (hcs : cs ≠ []) {inst : I} {r : K} :
    relativeCuConst C ecg s cs inst = .ok r ↔ (∀ c ∈ cs, ∃ e, ecg c = .ok e) ∧
      (∃ e, ecg (C.incr (shallowCopy C s) inst) = .ok e) ∧
      r = ((cs.map fun c => (C.count c : K) / ((C.count s : K) + 1) * val (ecg c)).sum
        - val (ecg (C.incr (shallowCopy C s) inst))) / cs.length := by
  have hl : ((cs.length : ℕ) : K) ≠ 0 := by
    have : cs.length ≠ 0 := by simpa using hcs
    exact_mod_cast this
  simp only [relativeCuConst, bind_ok, constSum_ok_iff, pyDiv_ok_iff]
  constructor
  · rintro ⟨e, he, g, ⟨h, rfl⟩, -, rfl⟩
    exact ⟨h, ⟨e, he⟩, by rw [he, val_ok, zero_add]⟩
  · rintro ⟨h, ⟨e, he⟩, rfl⟩
    exact ⟨e, he, _, ⟨h, rfl⟩, hl, by rw [he, val_ok, zero_add]⟩

theorem relative_ok_iff {c : S} {inst : I} {r : K} :
    relativeCuForInsert C ecg c inst = .ok r ↔
      (∃ e, ecg (C.incr (shallowCopy C c) inst) = .ok e) ∧ (∃ e, ecg c = .ok e) ∧
      r = ((C.count c : K) + 1) * val (ecg (C.incr (shallowCopy C c) inst))
        - (C.count c : K) * val (ecg c) := by
  simp only [relativeCuForInsert, bind_ok, pure_ok]
  constructor
  · rintro ⟨e, he, e', he', rfl⟩
    exact ⟨⟨e, he⟩, ⟨e', he'⟩, by rw [he, he', val_ok, val_ok]⟩
  · rintro ⟨⟨e, he⟩, ⟨e', he'⟩, rfl⟩
    exact ⟨e, he, e', he', by rw [he, he', val_ok, val_ok]⟩

theorem insertChildren_eq {cs : List S} (hcopy : ∀ c ∈ cs, shallowCopy C c = c) (k : ℕ) (inst : I)
    {ck : S} (hk : cs[k]? = some ck) :
    (cs.mapIdx fun j c => if j = k then C.incr (shallowCopy C c) inst else shallowCopy C c)
      = cs.set k (C.incr ck inst) := by
  apply List.ext_getElem?
  intro j
  rw [List.getElem?_mapIdx, List.getElem?_set]
  obtain ⟨hlt, rfl⟩ := List.getElem?_eq_some_iff.1 hk
  by_cases hj : j = k
  · subst hj; simp [hlt, hcopy]
  · simp only [hj, Ne.symm hj, if_false]
    cases h : cs[j]? with
    | none => rfl
    | some c => simp [hcopy c (List.mem_of_getElem? h)]

/-- The relative CU identity of `relative_cu_for_insert`'s docstring. -/
theorem cuForInsert_eq_relative {s : S} {cs : List S} {inst : I} {k : ℕ} {ck : S} {r const : K}
    (hcopy : ∀ c ∈ cs, shallowCopy C c = c) (hcs : shallowCopy C s = s)
    (hincr : ∀ c, C.count (C.incr c inst) = C.count c + 1)
    (hk : cs[k]? = some ck) (hr : relativeCuForInsert C ecg ck inst = .ok r)
    (hc : relativeCuConst C ecg s cs inst = .ok const) :
    cuForInsert C ecg s cs k inst =
      .ok (r / ((C.count s : K) + 1) / (cs.length : K) + const) := by
  have hne : cs ≠ [] := by rintro rfl; simp at hk
  have hmem := List.mem_of_getElem? hk
  obtain ⟨⟨e1, he1⟩, ⟨e0, he0⟩, rfl⟩ := relative_ok_iff.1 hr
  obtain ⟨hall, ⟨u, hu⟩, rfl⟩ := (relativeCuConst_ok_iff hne).1 hc
  rw [hcopy ck hmem] at he1 ⊢
  rw [hcs] at hu ⊢
  unfold cuForInsert
  rw [insertChildren_eq hcopy k inst hk, hcs]
  have hset := perm_set hk (C.incr ck inst)
  have herase := perm_eraseIdx hk
  rw [categoryUtility_ok_iff (by rw [hincr]; omega)
    (by intro h0; rw [h0] at hset; exact absurd hset.symm.eq_nil (by simp))]
  refine ⟨?_, ⟨u, hu⟩, ?_⟩
  · intro c hc
    rcases List.mem_cons.1 (hset.mem_iff.1 hc) with rfl | hc
    · exact ⟨e1, he1⟩
    · exact hall c (List.mem_of_mem_eraseIdx hc)
  · rw [List.length_set]
    rw [(hset.map _).sum_eq]
    rw [(herase.map fun c => (C.count c : K) / ((C.count s : K) + 1) * val (ecg c)).sum_eq]
    simp only [List.map_cons, List.sum_cons, hincr, hu, he1, he0, val_ok, Nat.cast_add,
      Nat.cast_one]
    have hl : ((cs.length : ℕ) : K) ≠ 0 := by
      have : cs.length ≠ 0 := by simpa using hne
      exact_mod_cast this
    have hs1 : (C.count s : K) + 1 ≠ 0 := by positivity
    generalize (List.map (fun c => (C.count c : K) / ((C.count s : K) + 1) * val (ecg c))
      (cs.eraseIdx k)).sum = X
    field_simp
    ring

end generic

/-! ### Bounds on the formula -/
section bounds
open Finset
variable {A V : Type} [DecidableEq A] [DecidableEq V] {hid : A → Bool}
variable {K : Type} [Field K] [LinearOrder K] [IsStrictOrderedRing K]

theorem list_titu {ι : Type} (l : List ι) (f g : ι → K) (hg : ∀ i ∈ l, 0 < g i) :
    (l.map f).sum ^ 2 / (l.map g).sum ≤ (l.map fun i => f i ^ 2 / g i).sum := by
  induction l with
  | nil => simp
  | cons x l ih =>
    have hx := hg x (by simp)
    have ih := ih fun i hi => hg i (by simp [hi])
    simp only [List.map_cons, List.sum_cons]
    cases l with
    | nil => simp
    | cons y l =>
      have hG : 0 < ((y :: l).map g).sum := by
        apply List.sum_pos
        · intro z hz
          obtain ⟨i, hi, rfl⟩ := List.mem_map.1 hz
          exact hg i (by simp only [List.mem_cons] at hi ⊢; tauto)
        · simp
      generalize ((y :: l).map g).sum = G at *
      generalize ((y :: l).map f).sum = F at *
      refine le_trans ?_ (add_le_add_right ih _)
      rw [div_add_div _ _ hx.ne' hG.ne', div_le_div_iff₀ (by positivity) (by positivity)]
      nlinarith [sq_nonneg (f x * G - F * g x), mul_pos hx hG]

theorem list_sum_finset {ι β : Type} (l : List ι) (P : Finset β) (f : ι → β → K) :
    (l.map fun i => ∑ p ∈ P, f i p).sum = ∑ p ∈ P, (l.map fun i => f i p).sum := by
  induction l with
  | nil => simp
  | cons x l ih => simp [ih, Finset.sum_add_distrib]

theorem list_sum_div {ι : Type} (l : List ι) (f : ι → K) (k : K) :
    (l.map fun i => f i / k).sum = (l.map f).sum / k := by
  induction l with
  | nil => simp
  | cons x l ih => simp [ih, add_div]

theorem occ_sum (ms : List (Multiset (Inst A V))) (a : A) (v : V) :
    occ ms.sum a v = (ms.map fun m => occ m a v).sum := by
  induction ms with
  | nil => simp [occ]
  | cons m ms ih =>
    rw [List.sum_cons, List.map_cons, List.sum_cons, ← ih]
    simp [occ]

theorem card_list_sum (ms : List (Multiset (Inst A V))) :
    Multiset.card ms.sum = (ms.map Multiset.card).sum := by
  induction ms with
  | nil => simp
  | cons m ms ih => simp [ih]

theorem visAttrs_mono {m M : Multiset (Inst A V)} (h : m ≤ M) : visAttrs hid m ⊆ visAttrs hid M := by
  intro a ha
  simp only [visAttrs, Finset.mem_filter, mem_attrsOf] at ha ⊢
  obtain ⟨⟨i, hi, h1⟩, h2⟩ := ha
  exact ⟨⟨i, Multiset.mem_of_le h hi, h1⟩, h2⟩

theorem valsOf_mono {m M : Multiset (Inst A V)} (h : m ≤ M) (a : A) : valsOf m a ⊆ valsOf M a := by
  intro v hv
  rw [mem_valsOf] at hv ⊢
  obtain ⟨i, hi, h1⟩ := hv
  exact ⟨i, Multiset.mem_of_le h hi, h1⟩

/-- Summing over more attributes and values adds only zeros. -/
theorem sum_extend {m M : Multiset (Inst A V)} (h : m ≤ M) :
    ∑ a ∈ visAttrs hid m, ∑ v ∈ valsOf m a, prob K m a v ^ 2 =
      ∑ a ∈ visAttrs hid M, ∑ v ∈ valsOf M a, prob K m a v ^ 2 := by
  have h0 : ∀ a v, v ∉ valsOf m a → prob K m a v ^ 2 = 0 := by
    intro a v hv
    have : occ m a v = 0 := by
      by_contra hc; exact hv (mem_valsOf_iff_occ.2 hc)
    simp [prob, this]
  have h1 : ∀ a, ∑ v ∈ valsOf m a, prob K m a v ^ 2 = ∑ v ∈ valsOf M a, prob K m a v ^ 2 :=
    fun a => Finset.sum_subset (valsOf_mono h a) fun v _ hv => h0 a v hv
  rw [Finset.sum_congr rfl fun a _ => h1 a]
  apply Finset.sum_subset (visAttrs_mono h)
  intro a ha ha'
  rw [← h1 a]
  apply Finset.sum_eq_zero
  intro v hv
  obtain ⟨i, hi, hv⟩ := mem_valsOf.1 hv
  exfalso; apply ha'
  simp only [visAttrs, Finset.mem_filter, mem_attrsOf] at ha ⊢
  refine ⟨⟨i, hi, ?_⟩, ha.2⟩
  rw [← Dict.get?_isSome, hv]; rfl

theorem le_list_sum {ms : List (Multiset (Inst A V))} {m : Multiset (Inst A V)} (h : m ∈ ms) :
    m ≤ ms.sum := by
  induction ms with
  | nil => simp at h
  | cons x ms ih =>
    rcases List.mem_cons.1 h with rfl | h
    · simp
    · exact (ih h).trans (by simp)

/-- Splitting a concept never lowers the expected number of correct guesses. -/
theorem ecgSpec_le_weighted {ms : List (Multiset (Inst A V))} (hne : ms ≠ [])
    (hv : ∀ m ∈ ms, (visAttrs hid m).Nonempty) :
    ecgSpec K hid ms.sum ≤
      (ms.map fun m => ((Multiset.card m : K) / (Multiset.card ms.sum : K)) * ecgSpec K hid m).sum := by
  set M := ms.sum with hM
  have hpos : ∀ m ∈ ms, (0 : K) < Multiset.card m := by
    intro m hm
    obtain ⟨a, ha⟩ := hv m hm
    have : m ≠ 0 := by rintro rfl; simp [visAttrs, attrsOf] at ha
    have : 0 < Multiset.card m := Multiset.card_pos.2 this
    exact_mod_cast this
  have hMcard : (Multiset.card M : K) = (ms.map fun m => (Multiset.card m : K)).sum := by
    rw [hM, card_list_sum, Nat.cast_list_sum, List.map_map]; rfl
  obtain ⟨m0, hm0⟩ := List.exists_mem_of_ne_nil ms hne
  have hkM : 0 < ((visAttrs hid M).card : K) := by
    have := (hv m0 hm0).mono (visAttrs_mono (le_list_sum hm0))
    exact_mod_cast this.card_pos
  have hcM : (0 : K) < Multiset.card M := by
    refine lt_of_lt_of_le (hpos m0 hm0) ?_
    exact_mod_cast Multiset.card_le_card (le_list_sum hm0)
  -- replace each child's score by one with the parent's number of attributes
  have step1 : ∀ m ∈ ms, (∑ a ∈ visAttrs hid M, ∑ v ∈ valsOf M a, prob K m a v ^ 2)
      / ((visAttrs hid M).card : K) ≤ ecgSpec K hid m := by
    intro m hm
    unfold ecgSpec
    rw [sum_extend (le_list_sum hm)]
    apply div_le_div_of_nonneg_left
    · exact Finset.sum_nonneg fun a _ => Finset.sum_nonneg fun v _ => sq_nonneg _
    · exact_mod_cast (hv m hm).card_pos
    · exact_mod_cast Finset.card_le_card (visAttrs_mono (le_list_sum hm))
  have step2 : (ms.map fun m => ((Multiset.card m : K) / Multiset.card M) *
      ((∑ a ∈ visAttrs hid M, ∑ v ∈ valsOf M a, prob K m a v ^ 2)
        / ((visAttrs hid M).card : K))).sum ≤
      (ms.map fun m => ((Multiset.card m : K) / Multiset.card M) * ecgSpec K hid m).sum := by
    apply List.sum_le_sum
    intro m hm
    exact mul_le_mul_of_nonneg_left (step1 m hm) (by positivity)
  refine le_trans ?_ step2
  have e : (ms.map fun m => ((Multiset.card m : K) / Multiset.card M) *
      ((∑ a ∈ visAttrs hid M, ∑ v ∈ valsOf M a, prob K m a v ^ 2)
        / ((visAttrs hid M).card : K))).sum =
      (∑ a ∈ visAttrs hid M, ∑ v ∈ valsOf M a,
        (ms.map fun m => ((Multiset.card m : K) / Multiset.card M) * prob K m a v ^ 2).sum)
        / ((visAttrs hid M).card : K) := by
    rw [← Finset.sum_congr rfl fun a _ => list_sum_finset ms (valsOf M a) _, ← list_sum_finset,
      ← list_sum_div]
    congr 1
    apply List.map_congr_left
    intro m _
    rw [← mul_div_assoc, Finset.mul_sum]
    congr 1
    exact Finset.sum_congr rfl fun a _ => Finset.mul_sum _ _ _
  rw [e]
  unfold ecgSpec
  apply div_le_div_of_nonneg_right _ hkM.le
  refine Finset.sum_le_sum fun a _ => Finset.sum_le_sum fun v _ => ?_
  -- convexity for one attribute value
  have ht := list_titu ms (fun m => (occ m a v : K)) (fun m => (Multiset.card m : K)) hpos
  have e2 : (ms.map fun m => (occ m a v : K)).sum = (occ M a v : K) := by
    rw [hM, occ_sum, Nat.cast_list_sum, List.map_map]; rfl
  rw [e2, ← hMcard] at ht
  have e3 : (ms.map fun m => ((Multiset.card m : K) / Multiset.card M) * prob K m a v ^ 2).sum =
      (ms.map fun m => (occ m a v : K) ^ 2 / (Multiset.card m : K)).sum / Multiset.card M := by
    rw [← list_sum_div]
    congr 1
    apply List.map_congr_left
    intro m hm
    have := (hpos m hm).ne'
    unfold prob
    field_simp
  rw [e3]
  unfold prob
  rw [div_pow, pow_two (Multiset.card M : K), ← div_div]
  exact div_le_div_of_nonneg_right ht hcM.le

theorem cuSpec_nonneg {ms : List (Multiset (Inst A V))} (hne : ms ≠ [])
    (hv : ∀ m ∈ ms, (visAttrs hid m).Nonempty) : 0 ≤ cuSpec K hid ms := by
  unfold cuSpec
  apply div_nonneg _ (by positivity)
  have := ecgSpec_le_weighted (K := K) hne hv
  linarith

theorem cuSpec_le {ms : List (Multiset (Inst A V))} : cuSpec K hid ms ≤ 1 / (ms.length : K) := by
  unfold cuSpec
  apply div_le_div_of_nonneg_right _ (by positivity)
  have h1 : (ms.map fun m => ((Multiset.card m : K) / (Multiset.card ms.sum : K)) *
      ecgSpec K hid m).sum ≤ 1 := by
    calc _ ≤ (ms.map fun m => (Multiset.card m : K) / (Multiset.card ms.sum : K)).sum := by
          apply List.sum_le_sum
          intro m _
          exact mul_le_of_le_one_right (by positivity) (ecgSpec_le_one m)
      _ ≤ 1 := by
          rw [list_sum_div]
          have : (Multiset.card ms.sum : K) = (ms.map fun m => (Multiset.card m : K)).sum := by
            rw [card_list_sum, Nat.cast_list_sum, List.map_map]; rfl
          rw [this]
          exact div_self_le_one _
  have h2 := ecgSpec_nonneg (K := K) (hid := hid) ms.sum
  linarith

/-- `category_utility` computes the formula. -/
theorem categoryUtility_eq_spec {s : Stats A V} {cs : List (Stats A V)}
    {ms : List (Multiset (Inst A V))} (hne : ms ≠ []) (hs : Summarizes s ms.sum)
    (hcs : List.Forall₂ Summarizes cs ms) (hv : ∀ m ∈ ms, (visAttrs hid m).Nonempty) :
    categoryUtility (cobwebClass hid) (Stats.ecg (K := K) hid) s cs = .ok (cuSpec K hid ms) := by
  obtain ⟨m0, hm0⟩ := List.exists_mem_of_ne_nil ms hne
  have hvM := (hv m0 hm0).mono (visAttrs_mono (le_list_sum hm0))
  have hM : ms.sum ≠ 0 := by
    intro h0; obtain ⟨a, ha⟩ := hvM; rw [h0] at ha; simp [visAttrs, attrsOf] at ha
  have hlen := hcs.length_eq
  have hne' : cs ≠ [] := by
    rintro rfl; simp at hlen; exact hne (List.length_eq_zero_iff.1 hlen.symm)
  have hc0 : (cobwebClass (V := V) hid).count s ≠ 0 := by
    change s.count ≠ 0; rw [hs.count]; simpa using hM
  rw [categoryUtility_ok_iff hc0 hne']
  have hex : ∀ c m, Summarizes c m → m ∈ ms →
      Stats.ecg (K := K) hid c = .ok (ecgSpec K hid m) := fun c m h hm => ecg_eq h (hv m hm)
  refine ⟨?_, ⟨_, ecg_eq hs hvM⟩, ?_⟩
  · intro c hc
    obtain ⟨m, hm, h⟩ : ∃ m ∈ ms, Summarizes c m := by
      clear hex hv hs hM hvM hm0 hne hlen hne'
      induction hcs with
      | nil => simp at hc
      | cons hab _ ih =>
        rcases List.mem_cons.1 hc with rfl | hc
        · exact ⟨_, by simp, hab⟩
        · obtain ⟨m, hm, h⟩ := ih hc
          exact ⟨m, by simp [hm], h⟩
    exact ⟨_, hex c m h hm⟩
  · unfold cuSpec
    rw [ecg_eq hs hvM, val_ok, hlen]
    congr 3
    change _ = List.map (fun c : Stats A V => (c.count : K) / s.count * _) cs
    rw [hs.count]
    generalize Multiset.card ms.sum = N
    clear hv hs hM hvM hm0 hne hlen hne' hc0
    induction hcs with
    | nil => rfl
    | cons hab _ ih =>
      rw [List.map_cons, List.map_cons, ih fun c m h hm => hex c m h (by simp [hm]),
        hex _ _ hab (by simp), val_ok, hab.count]

end bounds
end CF
