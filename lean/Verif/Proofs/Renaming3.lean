/-
Cobweb/3 under renaming and change of units.
-/
import Verif.Proofs.Renaming
import Verif.Proofs.Ecg3
import Verif.Spec.Renaming3
import Verif.Props.Cobweb3

set_option linter.unusedSectionVars false

namespace CF
variable {A A' B B' V V' : Type} [DecidableEq A] [DecidableEq A'] [DecidableEq B] [DecidableEq B']
  [DecidableEq V] [DecidableEq V'] {hid : A → Bool} {hid' : A' → Bool}
  {cfg : Cfg3 A B} {cfg' : Cfg3 A' B'}

theorem mapVal_inj (inner : A → B) {g : A → V → V'} (hg : ∀ a, Function.Injective (g a))
    {mul add : B → ℝ} (hm : ∀ b, 0 < mul b) (a : A) :
    Function.Injective (mapVal inner g mul add a) := by
  intro x y h
  cases x with
  | nom u =>
    cases y with
    | nom v => simp only [mapVal, Val.nom.injEq] at h; rw [hg a h]
    | num y => simp [mapVal] at h
  | num x =>
    cases y with
    | nom v => simp [mapVal] at h
    | num y =>
      simp only [mapVal, Val.num.injEq, add_left_inj] at h
      rw [mul_left_cancel₀ (hm _).ne' h]

/-- A renaming of Cobweb/3 data as a renaming of attributes and (arbitrary) values. -/
noncomputable def Ren3.toRenaming (ρ : Ren3 cfg cfg' V V') : Renaming A A' (Val V) (Val V') where
  attr := ρ.attr
  val := mapVal cfg.inner ρ.val ρ.mul ρ.add
  attr_inj := ρ.attr_inj
  val_inj := mapVal_inj cfg.inner ρ.val_inj ρ.mul_pos
  dom := ρ.dom
  dom' := ρ.dom'
  dom_iff := ρ.dom_iff

/-- The change of units of the attribute `a`. -/
noncomputable def Ren3.unit (ρ : Ren3 cfg cfg' V V') (b : B) (x : ℝ) : ℝ := ρ.mul b * x + ρ.add b

section
variable {ρ : Ren3 cfg cfg' V V'} {l : Multiset (Inst3 A V × Inst3 A' V')}

theorem nums_renamed (h : ∀ p ∈ l, ρ.toRenaming.Inst p.1 p.2) {a : A} (ha : ρ.dom a) :
    nums (l.map Prod.snd) (ρ.attr a) = (nums (l.map Prod.fst) a).map (ρ.unit (cfg.inner a)) := by
  unfold nums
  rw [Multiset.filterMap_map, Multiset.filterMap_map, Multiset.map_filterMap]
  induction l using Quotient.inductionOn with | _ l => ?_
  refine congrArg _ (List.filterMap_congr ?_)
  intro p hp
  have := (h p hp).get a ha
  change Dict.get? p.2 (ρ.attr a) = _ at this
  simp only [Function.comp_apply]
  rw [this]
  cases Dict.get? p.1 a with
  | none => rfl
  | some v => cases v <;> rfl

theorem nomVals_renamed (h : ∀ p ∈ l, ρ.toRenaming.Inst p.1 p.2) {a : A} (ha : ρ.dom a) :
    nomVals (l.map Prod.snd) (ρ.attr a) = (nomVals (l.map Prod.fst) a).image (ρ.val a) := by
  ext v'
  simp only [mem_nomVals, Multiset.mem_map, Finset.mem_image]
  constructor
  · rintro ⟨_, ⟨p, hp, rfl⟩, hg⟩
    have := (h p hp).get a ha
    change Dict.get? p.2 (ρ.attr a) = _ at this
    rw [this] at hg
    obtain ⟨v, hv, hv'⟩ := Option.map_eq_some_iff.1 hg
    cases v with
    | num x => simp [Ren3.toRenaming, mapVal] at hv'
    | nom v =>
      refine ⟨v, ⟨_, ⟨p, hp, rfl⟩, hv⟩, ?_⟩
      simpa [Ren3.toRenaming, mapVal] using hv'
  · rintro ⟨v, ⟨_, ⟨p, hp, rfl⟩, hg⟩, rfl⟩
    refine ⟨_, ⟨p, hp, rfl⟩, ?_⟩
    have := (h p hp).get a ha
    change Dict.get? p.2 (ρ.attr a) = _ at this
    rw [this, hg]
    rfl

theorem scaleNums_renamed_one {i : Inst3 A V} {i' : Inst3 A' V'} (hcl : ρ.Closed) (h : RInst ρ.toRenaming i i')
    {a : A} (ha : ρ.dom a) :
    ((scaleNums cfg'.inner [i'] (ρ.scale (cfg.inner a)) : List ℝ) : Multiset ℝ) =
      Multiset.map (ρ.unit (cfg.inner a)) (scaleNums cfg.inner [i] (cfg.inner a) : List ℝ) := by
  obtain ⟨h1, h2, h3⟩ := h
  simp only [scaleNums, List.flatMap_cons, List.flatMap_nil, List.append_nil]
  have hp : (i'.filter fun p => cfg'.inner p.1 = ρ.scale (cfg.inner a)).Perm
      ((i.filter fun p => cfg.inner p.1 = cfg.inner a).map fun p =>
        (ρ.attr p.1, ρ.toRenaming.val p.1 p.2)) := by
    rw [List.perm_ext_iff_of_nodup]
    · rintro ⟨c, v'⟩
      simp only [List.mem_filter, List.mem_map, decide_eq_true_eq, Prod.mk.injEq, Prod.exists]
      constructor
      · rintro ⟨hm, hc⟩
        have hd : ρ.dom' c := hcl.right (ρ.attr a) c (by rw [ρ.inner, hc]) ((ρ.dom_iff a).2 ha)
        obtain ⟨e, he, rfl⟩ := h3.image c (List.mem_map.2 ⟨_, hm, rfl⟩) hd
        change cfg'.inner (ρ.attr e) = _ at hc
        rw [ρ.inner] at hc
        have hg := Dict.get?_of_mem h2 hm
        rw [h3.get e he] at hg
        obtain ⟨v, hv, rfl⟩ := Option.map_eq_some_iff.1 hg
        exact ⟨e, v, ⟨Dict.mem_of_get? hv, ρ.scale_inj hc⟩, rfl, rfl⟩
      · rintro ⟨e, v, ⟨hm, hc⟩, rfl, rfl⟩
        have he : ρ.dom e := hcl.left a e hc.symm ha
        refine ⟨Dict.mem_of_get? ?_, by rw [ρ.inner, hc]⟩
        have := h3.get e he
        change Dict.get? i' (ρ.attr e) = _ at this
        rw [this, Dict.get?_of_mem h1 hm]
        rfl
    · exact (List.Nodup.of_map _ h2).filter _
    · refine List.Nodup.map ?_ ((List.Nodup.of_map _ h1).filter _)
      rintro ⟨e, v⟩ ⟨e', v'⟩ he
      simp only [Prod.mk.injEq] at he
      obtain ⟨h4, h5⟩ := he
      obtain rfl := ρ.attr_inj h4
      rw [ρ.toRenaming.val_inj e h5]
  rw [Multiset.map_coe, Multiset.coe_eq_coe]
  refine (hp.filterMap _).trans (List.Perm.of_eq ?_)
  rw [List.filterMap_map, List.map_filterMap]
  apply List.filterMap_congr
  rintro ⟨e, v⟩ hm
  simp only [List.mem_filter, decide_eq_true_eq] at hm
  cases v with
  | nom v => rfl
  | num x => simp [Ren3.toRenaming, mapVal, Val.num?, Ren3.unit, hm.2]

theorem scaleNums_renamed (hc : ρ.Closed) {H : List (Inst3 A V × Inst3 A' V')}
    (h : ∀ p ∈ H, RInst ρ.toRenaming p.1 p.2) {a : A} (ha : ρ.dom a) :
    ((scaleNums cfg'.inner (H.map Prod.snd) (ρ.scale (cfg.inner a)) : List ℝ) : Multiset ℝ) =
      Multiset.map (ρ.unit (cfg.inner a))
        (scaleNums cfg.inner (H.map Prod.fst) (cfg.inner a) : List ℝ) := by
  induction H with
  | nil => rfl
  | cons p H ih =>
    have e : ∀ {A B V : Type} [DecidableEq A] [DecidableEq B] [DecidableEq V] (inner : A → B)
        (i : Inst3 A V) (h : List (Inst3 A V)) (b : B),
        scaleNums inner (i :: h) b = scaleNums inner [i] b ++ scaleNums inner h b :=
      fun inner i h b => scaleNums_append inner [i] h b
    rw [List.map_cons, List.map_cons, e cfg'.inner p.2, e cfg.inner p.1, ← Multiset.coe_add, ← Multiset.coe_add, Multiset.map_add,
      scaleNums_renamed_one hc (h p (by simp)) ha, ih fun q hq => h q (by simp [hq])]

/-- The numbers of an attribute in some of the instances are among those of its scale. -/
theorem nums_sub_scale {inner : A → B} {m : Multiset (Inst3 A V)} {h : List (Inst3 A V)}
    (hm : ∀ i ∈ m, i ∈ h) {a : A} {x : ℝ} (hx : x ∈ nums m a) : x ∈ scaleNums inner h (inner a) := by
  obtain ⟨i, hi, hg⟩ := mem_nums.1 hx
  refine List.mem_flatMap.2 ⟨i, hm i hi, List.mem_filterMap.2 ⟨(a, .num x), ?_, rfl⟩⟩
  simp [Dict.mem_of_get? hg]

theorem sampleStd_unit (b : B) (k : Multiset ℝ) :
    sampleStd (k.map (ρ.unit b)) = ρ.mul b * sampleStd k := by
  have := sampleStd_affine k (ρ.mul b) (ρ.add b)
  rw [abs_of_pos (ρ.mul_pos b)] at this
  exact this

/-- The units do not matter: either `scaling` divides by them, or they are not changed. -/
structure Ren3.Units (ρ : Ren3 cfg cfg' V V') : Prop where
  scaling : cfg'.scaling = cfg.scaling
  fits : 0 < cfg.scaling ∨ ∀ b, ρ.mul b = 1
  closed : cfg.scaling = 0 ∨ ρ.Closed

theorem numTerm_renamed (hu : ρ.Units) {H : List (Inst3 A V × Inst3 A' V')}
    (hH : ∀ p ∈ H, RInst ρ.toRenaming p.1 p.2)
    (hl : ∀ p ∈ l, ρ.toRenaming.Inst p.1 p.2) (hlH : (∀ b, ρ.mul b = 1) ∨ ∀ p ∈ l, p ∈ H) {a : A}
    (ha : ρ.dom a) :
    numTerm (effScale cfg' (fun b => (scaleNums cfg'.inner (H.map Prod.snd) b : Multiset ℝ)) (ρ.attr a))
      (l.map Prod.snd) (ρ.attr a) =
    numTerm (effScale cfg (fun b => (scaleNums cfg.inner (H.map Prod.fst) b : Multiset ℝ)) a)
      (l.map Prod.fst) a := by
  have hn := nums_renamed hl ha
  set N := nums (l.map Prod.fst) a with hN
  set F : Multiset ℝ := ((scaleNums cfg.inner (H.map Prod.fst) (cfg.inner a) : List ℝ) :
    Multiset ℝ) with hF
  have key : sampleStd (nums (l.map Prod.snd) (ρ.attr a)) /
      effScale cfg' (fun b => (scaleNums cfg'.inner (H.map Prod.snd) b : Multiset ℝ)) (ρ.attr a) =
      sampleStd N / effScale cfg (fun b => (scaleNums cfg.inner (H.map Prod.fst) b : Multiset ℝ)) a := by
    rw [hn, sampleStd_unit]
    by_cases hz : cfg.scaling = 0
    · have h1 : ∀ b, ρ.mul b = 1 := hu.fits.resolve_left (by rw [hz]; exact lt_irrefl 0)
      unfold effScale
      simp [hu.scaling, hz, h1]
    have hs := scaleNums_renamed (hu.closed.resolve_left hz) hH ha
    rw [← hF] at hs
    unfold effScale
    dsimp only
    simp only [hu.scaling, ρ.inner, hs, ← hF, sampleStd_unit, Multiset.map_eq_zero]
    by_cases h1 : ∀ b, ρ.mul b = 1
    · rw [h1, one_mul, one_mul]
    · have hpos : 0 < cfg.scaling := hu.fits.resolve_right h1
      have hsub := hlH.resolve_left h1
      have hp := ρ.mul_pos (cfg.inner a)
      have hNF : ∀ x ∈ N, x ∈ F := fun x hx => nums_sub_scale (inner := cfg.inner)
        (m := l.map Prod.fst) (h := H.map Prod.fst) (by
          intro i hi
          obtain ⟨p, hp, rfl⟩ := Multiset.mem_map.1 hi
          exact List.mem_map.2 ⟨p, hsub p hp, rfl⟩) hx
      have hstd : sampleStd F = 0 → sampleStd N = 0 := by
        rw [sampleStd_eq_zero, sampleStd_eq_zero]
        exact fun h x hx y hy => h x (hNF x hx) y (hNF y hy)
      rcases (sampleStd_nonneg F).eq_or_lt with h0 | h0
      · rw [hstd h0.symm]; simp
      · have hF0 : F ≠ 0 := by
          intro h; rw [h] at h0; simp [sampleStd] at h0
        have hc : ¬ (cfg.scaling = 0 ∨ F = 0) := by simp [hF0, hpos.ne']
        rw [if_neg hc, if_neg hc]
        have e1 : ¬ 1 / cfg.scaling * sampleStd F ≤ 0 := not_le.2 (by positivity)
        have e2 : ¬ 1 / cfg.scaling * (ρ.mul (cfg.inner a) * sampleStd F) ≤ 0 :=
          not_le.2 (by positivity)
        rw [if_neg e1, if_neg e2]
        field_simp
  unfold numTerm
  rw [key, hn, Multiset.card_map, Multiset.card_map, Multiset.card_map]

theorem ecgSpec3_renamed (hu : ρ.Units) (hρ : ρ.toRenaming.Keeps hid hid')
    {H : List (Inst3 A V × Inst3 A' V')} (hH : ∀ p ∈ H, RInst ρ.toRenaming p.1 p.2)
    (hl : ∀ p ∈ l, ρ.toRenaming.Inst p.1 p.2) (hlH : (∀ b, ρ.mul b = 1) ∨ ∀ p ∈ l, p ∈ H) :
    ecgSpec3 hid' cfg' (fun b => (scaleNums cfg'.inner (H.map Prod.snd) b : Multiset ℝ))
      (l.map Prod.snd) =
    ecgSpec3 hid cfg (fun b => (scaleNums cfg.inner (H.map Prod.fst) b : Multiset ℝ))
      (l.map Prod.fst) := by
  unfold ecgSpec3
  rw [visAttrs_renamed hρ hl, Finset.card_image_of_injective _ ρ.toRenaming.attr_inj,
    Finset.sum_image (fun a _ b _ hab => ρ.toRenaming.attr_inj hab)]
  congr 1
  refine Finset.sum_congr rfl fun a ha => ?_
  have hd : ρ.dom a := hρ.vis a (Finset.mem_filter.1 ha).2
  change ∑ v ∈ nomVals (l.map Prod.snd) (ρ.attr a), prob ℝ (l.map Prod.snd) (ρ.attr a) (.nom v) ^ 2 +
    numTerm (effScale cfg' _ (ρ.attr a)) (l.map Prod.snd) (ρ.attr a) = _
  rw [numTerm_renamed hu hH hl hlH hd, nomVals_renamed hl hd,
    Finset.sum_image (fun u _ v _ huv => ρ.val_inj a huv)]
  congr 1
  refine Finset.sum_congr rfl fun v _ => ?_
  unfold prob
  have := occ_renamed hl hd (Val.nom v)
  change occ (l.map Prod.snd) (ρ.attr a) (.nom (ρ.val a v)) = _ at this
  rw [this, Multiset.card_map, Multiset.card_map]

end

variable (ρ : Ren3 cfg cfg' V V')

/-- Renamed instances that are in the history, unless units are unchanged. -/
def RHist (H : List (Inst3 A V × Inst3 A' V')) (i : Inst3 A V) (i' : Inst3 A' V') : Prop :=
  RInst ρ.toRenaming i i' ∧ ((∀ b, ρ.mul b = 1) ∨ (i, i') ∈ H)

theorem sim_renamed3 (hρ : ρ.toRenaming.Keeps hid hid') (H : List (Inst3 A V × Inst3 A' V')) :
    Sim (cobweb3Class hid) (cobweb3Class hid') (RHist ρ H)
      (Paired (RHist ρ H) Summarizes3 Summarizes3) :=
  sim_of_laws (cobweb3Laws hid) (cobweb3Laws hid') (fun _ _ h => ⟨h.1.1, h.1.2.1⟩)
    fun _ _ _ _ hi hj => sameVisible_renamed hρ hi.1.2.2 hj.1.2.2

theorem scores_renamed3 (hu : ρ.Units) (hρ : ρ.toRenaming.Keeps hid hid')
    {H : List (Inst3 A V × Inst3 A' V')} (hH : ∀ p ∈ H, RInst ρ.toRenaming p.1 p.2) {sc : Scales B}
    {sc' : Scales B'} (h : ScalesObs sc fun b => (scaleNums cfg.inner (H.map Prod.fst) b : Multiset ℝ))
    (h' : ScalesObs sc' fun b => (scaleNums cfg'.inner (H.map Prod.snd) b : Multiset ℝ)) :
    SameScores (RingHom.id ℝ) (Paired (RHist ρ H) Summarizes3 Summarizes3) (Stats3.ecg hid cfg sc)
      (Stats3.ecg hid' cfg' sc') := by
  rintro s s' ⟨l, h1, h2, h3⟩
  have hl : ∀ p ∈ l, ρ.toRenaming.Inst p.1 p.2 := fun p hp => (h1 p hp).1.2.2
  have hlH : (∀ b, ρ.mul b = 1) ∨ ∀ p ∈ l, p ∈ H := by
    by_cases hm : ∀ b, ρ.mul b = 1
    · exact .inl hm
    · exact .inr fun p hp => (h1 p hp).2.resolve_left hm
  have hv := visAttrs_renamed hρ hl
  by_cases h0 : (visAttrs hid (l.map Prod.fst)).Nonempty
  · rw [ecg3_eq h2 h h0, ecg3_eq h3 h' (by rw [hv]; exact h0.image _), ecgSpec3_renamed hu hρ hH hl hlH]
    rfl
  · rw [Finset.not_nonempty_iff_eq_empty] at h0
    rw [ecg3_error h2 h0, ecg3_error h3 (by rw [hv, h0]; rfl)]
    rfl

/-- The state of two trees after the histories `H`. -/
structure RState (H : List (Inst3 A V × Inst3 A' V')) (st : State3 A B V) (st' : State3 A' B' V') :
    Prop where
  insts : ∀ p ∈ H, RInst ρ.toRenaming p.1 p.2
  root : TRel (Paired (RHist ρ H) Summarizes3 Summarizes3) st.root st'.root
  scales : ScalesObs st.scales fun b => (scaleNums cfg.inner (H.map Prod.fst) b : Multiset ℝ)
  scales' : ScalesObs st'.scales fun b => (scaleNums cfg'.inner (H.map Prod.snd) b : Multiset ℝ)

theorem RState.init (hρ : ρ.toRenaming.Keeps hid hid') (w : World) :
    RState ρ [] (emptyState3 (B := B) (V := V) hid w) (emptyState3 (B := B') (V := V') hid' w) :=
  ⟨by simp, emptyTree_sim (sim_renamed3 ρ hρ []) w, fun b => .inl ⟨rfl, rfl⟩, fun b => .inl ⟨rfl, rfl⟩⟩

theorem ifit3_sim (hu : ρ.Units) (hρ : ρ.toRenaming.Keeps hid hid')
    {H : List (Inst3 A V × Inst3 A' V')} {st : State3 A B V} {st' : State3 A' B' V'}
    (h : RState ρ H st st') {i : Inst3 A V} {i' : Inst3 A' V'} (hi : RInst ρ.toRenaming i i')
    (w : World) :
    RRel (fun o o' => RState ρ (H ++ [(i, i')]) o.state o'.state ∧ o.leaf = o'.leaf ∧ o.w = o'.w)
      (ifit3 hid cfg st i w) (ifit3 hid' cfg' st' i' w) := by
  have hH : ∀ p ∈ H ++ [(i, i')], RInst ρ.toRenaming p.1 p.2 := by
    intro p hp
    rcases List.mem_append.1 hp with hp | hp
    · exact h.insts p hp
    · rw [List.mem_singleton.1 hp]; exact hi
  have hs : ScalesObs (updateScales cfg.inner st.scales i)
      fun b => (scaleNums cfg.inner ((H ++ [(i, i')]).map Prod.fst) b : Multiset ℝ) := by
    have := scalesObs_update cfg.inner h.scales i
    convert this using 2 with b
    rw [List.map_append, scaleNums_append, Multiset.coe_add]; rfl
  have hs' : ScalesObs (updateScales cfg'.inner st'.scales i')
      fun b => (scaleNums cfg'.inner ((H ++ [(i, i')]).map Prod.snd) b : Multiset ℝ) := by
    have := scalesObs_update cfg'.inner h.scales' i'
    convert this using 2 with b
    rw [List.map_append, scaleNums_append, Multiset.coe_add]; rfl
  have hr : TRel (Paired (RHist ρ (H ++ [(i, i')])) Summarizes3 Summarizes3) st.root st'.root := by
    refine h.root.mono ?_
    rintro s s' ⟨l, h1, h2⟩
    refine ⟨l, fun p hp => ⟨(h1 p hp).1, (h1 p hp).2.imp_right fun hm => ?_⟩, h2⟩
    exact List.mem_append_left _ hm
  have hi2 : RHist ρ (H ++ [(i, i')]) i i' := ⟨hi, .inr (by simp)⟩
  unfold ifit3
  refine RRel.bind (cobweb_sim (φ := RingHom.id ℝ) (fun _ _ h => h) (sim_renamed3 ρ hρ _)
    (scores_renamed3 ρ hu hρ hH hs hs') hi2 hr w) fun o o' ho => ?_
  exact .ok ⟨⟨hH, ho.tree, hs, hs'⟩, ho.leaf, ho.w⟩

theorem runs3_sim (hu : ρ.Units) (hρ : ρ.toRenaming.Keeps hid hid')
    {l : List (Inst3 A V × World)} {l' : List (Inst3 A' V' × World)}
    (hl : List.Forall₂ (fun p q => RInst ρ.toRenaming p.1 q.1 ∧ p.2 = q.2) l l')
    {H : List (Inst3 A V × Inst3 A' V')} {st : State3 A B V} {st' : State3 A' B' V'}
    (h : RState ρ H st st') :
    RRel (fun r r' => (∃ H', RState ρ H' r.1 r'.1) ∧ r.2 = r'.2)
      (runs3 hid cfg st l) (runs3 hid' cfg' st' l') := by
  induction hl generalizing H st st' with
  | nil => exact .ok ⟨⟨H, h⟩, rfl⟩
  | @cons p q _ _ hi _ ih =>
    obtain ⟨i, w⟩ := p
    obtain ⟨i', w'⟩ := q
    obtain ⟨hi, rfl : w = w'⟩ := hi
    unfold runs3
    refine RRel.bind (ifit3_sim ρ hu hρ h hi w) fun o o' ho => ?_
    refine RRel.bind (ih ho.1) fun r r' hr => ?_
    exact .ok ⟨hr.1, by rw [hr.2, ho.2.1, ho.2.2]⟩

theorem categorize3_sim (hu : ρ.Units) (hm : ∀ b, ρ.mul b = 1) (hρ : ρ.toRenaming.Keeps hid hid')
    {H : List (Inst3 A V × Inst3 A' V')} {st : State3 A B V} {st' : State3 A' B' V'}
    (h : RState ρ H st st') {i : Inst3 A V} {i' : Inst3 A' V'} (hi : RInst ρ.toRenaming i i')
    (w : World) :
    RRel (fun r r' => TRel (Paired (RHist ρ H) Summarizes3 Summarizes3) r.1 r'.1 ∧ r.2 = r'.2)
      (categorize3 hid cfg st i w) (categorize3 hid' cfg' st' i' w) :=
  categorize_sim (φ := RingHom.id ℝ) (fun _ _ h => h) (sim_renamed3 ρ hρ _)
    (scores_renamed3 ρ hu hρ h.insts h.scales h.scales') ⟨hi, .inl hm⟩ h.root w

/-! ### What the relation says about the tables -/

theorem obs_affine {c : CV ℝ} {k : Multiset ℝ} (h : c.Obs k) (hk : k ≠ 0) (m b : ℝ) :
    (c.affine m b).Obs (k.map fun x => m * x + b) := by
  have hc : (Multiset.card k : ℝ) ≠ 0 := by simpa using hk
  have hm : sampleMean (k.map fun x => m * x + b) = m * sampleMean k + b := by
    unfold sampleMean
    rw [Multiset.sum_map_add, Multiset.sum_map_mul_left, Multiset.map_const', Multiset.sum_replicate,
      Multiset.card_map, nsmul_eq_mul, Multiset.map_id']
    field_simp
  refine ⟨by simp [CV.affine, h.num], by rw [hm]; simp [CV.affine, h.mean], ?_⟩
  unfold sqDev
  rw [hm, Multiset.map_map]
  simp only [CV.affine, h.meanSq, sqDev, Function.comp_def]
  rw [← Multiset.sum_map_mul_left]
  congr 1
  apply Multiset.map_congr rfl
  intro x _
  ring

theorem table3_of_paired {ρ : Ren3 cfg cfg' V V'} {H : List (Inst3 A V × Inst3 A' V')}
    {s : Stats3 A V} {s' : Stats3 A' V'} (h : Paired (RHist ρ H) Summarizes3 Summarizes3 s s') :
    s'.count = s.count ∧
    (∀ a v, ρ.dom a → s'.nomLookup (ρ.attr a) (ρ.val a v) = s.nomLookup a v) ∧
    (∀ a v', ρ.dom a → s'.nomLookup (ρ.attr a) v' ≠ none → ∃ v, ρ.val a v = v') ∧
    (∀ a, ρ.dom a → s'.cvOf (ρ.attr a) =
      (s.cvOf a).map (CV.affine (ρ.mul (cfg.inner a)) (ρ.add (cfg.inner a)))) ∧
    (∀ c ∈ s'.av.keys, ρ.dom' c → ∃ a ∈ s.av.keys, ρ.attr a = c) ∧
    (∀ a, ρ.dom a → a ∈ s.av.keys → ρ.attr a ∈ s'.av.keys) := by
  obtain ⟨l, h1, h2, h3⟩ := h
  have hl : ∀ p ∈ l, ρ.toRenaming.Inst p.1 p.2 := fun p hp => (h1 p hp).1.2.2
  refine ⟨by rw [h2.count, h3.count, Multiset.card_map, Multiset.card_map], fun a v ha => ?_,
    fun a v' ha hv' => ?_, fun a ha => ?_, fun c hc hd => ?_, fun a ha hk => ?_⟩
  · have := occ_renamed hl ha (Val.nom v)
    change occ (l.map Prod.snd) (ρ.attr a) (.nom (ρ.val a v)) = _ at this
    rw [h2.noms, h3.noms, this]
  · have h0 : v' ∈ nomVals (l.map Prod.snd) (ρ.attr a) := by
      rw [mem_nomVals_iff_occ]
      intro h0
      rw [h3.noms, if_pos h0] at hv'
      exact hv' rfl
    rw [nomVals_renamed hl ha] at h0
    obtain ⟨v, -, hv⟩ := Finset.mem_image.1 h0
    exact ⟨v, hv⟩
  · have hn := nums_renamed hl ha
    rcases h2.cv a with ⟨h4, h5⟩ | ⟨h4, c, h5, h6⟩ <;>
      rcases h3.cv (ρ.attr a) with ⟨h7, h8⟩ | ⟨h7, d, h8, h9⟩
    · rw [h5, h8]; rfl
    · rw [hn, h4] at h7; exact absurd rfl h7
    · rw [hn, Multiset.map_eq_zero] at h7; exact absurd h7 h4
    · rw [h5, h8, Option.map_some]
      rw [hn] at h9
      rw [h9.unique (obs_affine h6 h4 _ _)]
  · obtain ⟨j, hj, hk⟩ := (h3.attrs c).1 hc
    obtain ⟨p, hp, rfl⟩ := Multiset.mem_map.1 hj
    obtain ⟨a, ha, rfl⟩ := (hl p hp).image c hk hd
    refine ⟨a, (h2.attrs a).2 (mem_attrsOf.1 ((attrs_renamed hl ha).1 (mem_attrsOf.2 ?_))), rfl⟩
    exact (h3.attrs _).1 hc
  · exact (h3.attrs _).2 (mem_attrsOf.1 ((attrs_renamed hl ha).2 (mem_attrsOf.2 ((h2.attrs a).1 hk))))

/-- The scales are those of the changed units. -/
theorem RState.scale_eq {ρ : Ren3 cfg cfg' V V'} (hc : ρ.Closed) {H : List (Inst3 A V × Inst3 A' V')}
    {st : State3 A B V} {st' : State3 A' B' V'} (h : RState ρ H st st') {a : A} (ha : ρ.dom a) :
    st'.scales.get? (ρ.scale (cfg.inner a)) =
      (st.scales.get? (cfg.inner a)).map (CV.affine (ρ.mul (cfg.inner a)) (ρ.add (cfg.inner a))) := by
  have hs := scaleNums_renamed hc h.insts ha
  have hf := h.scales (cfg.inner a)
  have hf' := h.scales' (ρ.scale (cfg.inner a))
  dsimp only at hf hf'
  rw [hs] at hf'
  rcases hf with ⟨h4, h5⟩ | ⟨h4, c, h5, h6⟩ <;>
    rcases hf' with ⟨h7, h8⟩ | ⟨h7, d, h8, h9⟩
  · rw [h5, h8]; rfl
  · rw [h4] at h7; exact absurd rfl h7
  · rw [Multiset.map_eq_zero] at h7; exact absurd h7 h4
  · rw [h5, h8, Option.map_some]
    rw [h9.unique (obs_affine h6 h4 _ _)]

end CF
