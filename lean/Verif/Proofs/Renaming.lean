/-
Scores under a renaming of attributes and values.
-/
import Verif.Proofs.Sim
import Verif.Proofs.Ecg
import Verif.Proofs.Nominal
import Verif.Spec.Renaming

set_option linter.unusedSectionVars false

namespace CF
variable {A A' V V' : Type} [DecidableEq A] [DecidableEq A'] [DecidableEq V] [DecidableEq V']
  {hid : A → Bool} {hid' : A' → Bool}

section
variable {ρ : Renaming A A' V V'} {l : Multiset (Inst A V × Inst A' V')}

theorem occ_renamed (h : ∀ p ∈ l, ρ.Inst p.1 p.2) {a : A} (ha : ρ.dom a) (v : V) :
    occ (l.map Prod.snd) (ρ.attr a) (ρ.val a v) = occ (l.map Prod.fst) a v := by
  unfold occ
  rw [Multiset.countP_map, Multiset.countP_map]
  congr 1
  apply Multiset.filter_congr
  intro p hp
  rw [(h p hp).get a ha]
  cases Dict.get? p.1 a with
  | none => simp
  | some u => simp [(ρ.val_inj a).eq_iff]

theorem valsOf_renamed (h : ∀ p ∈ l, ρ.Inst p.1 p.2) {a : A} (ha : ρ.dom a) :
    valsOf (l.map Prod.snd) (ρ.attr a) = (valsOf (l.map Prod.fst) a).image (ρ.val a) := by
  ext v'
  simp only [mem_valsOf, Multiset.mem_map, Finset.mem_image]
  constructor
  · rintro ⟨_, ⟨p, hp, rfl⟩, hg⟩
    rw [(h p hp).get a ha] at hg
    obtain ⟨v, hv, rfl⟩ := Option.map_eq_some_iff.1 hg
    exact ⟨v, ⟨_, ⟨p, hp, rfl⟩, hv⟩, rfl⟩
  · rintro ⟨v, ⟨_, ⟨p, hp, rfl⟩, hg⟩, rfl⟩
    exact ⟨_, ⟨p, hp, rfl⟩, by rw [(h p hp).get a ha, hg]; rfl⟩

theorem attrs_renamed (h : ∀ p ∈ l, ρ.Inst p.1 p.2) {a : A} (ha : ρ.dom a) :
    ρ.attr a ∈ attrsOf (l.map Prod.snd) ↔ a ∈ attrsOf (l.map Prod.fst) := by
  simp only [mem_attrsOf, Multiset.mem_map]
  constructor
  · rintro ⟨_, ⟨p, hp, rfl⟩, hg⟩
    refine ⟨_, ⟨p, hp, rfl⟩, ?_⟩
    rw [← Dict.get?_isSome] at hg ⊢
    rw [(h p hp).get a ha] at hg
    simpa using hg
  · rintro ⟨_, ⟨p, hp, rfl⟩, hg⟩
    refine ⟨_, ⟨p, hp, rfl⟩, ?_⟩
    rw [← Dict.get?_isSome] at hg ⊢
    rw [(h p hp).get a ha]
    simpa using hg

theorem visAttrs_renamed (hρ : ρ.Keeps hid hid') (h : ∀ p ∈ l, ρ.Inst p.1 p.2) :
    visAttrs hid' (l.map Prod.snd) = (visAttrs hid (l.map Prod.fst)).image ρ.attr := by
  ext b
  simp only [visAttrs, Finset.mem_filter, Finset.mem_image]
  constructor
  · rintro ⟨h1, h2⟩
    obtain ⟨_, hm, hk⟩ := mem_attrsOf.1 h1
    obtain ⟨p, hp, rfl⟩ := Multiset.mem_map.1 hm
    obtain ⟨a, ha, rfl⟩ := (h p hp).image b hk (hρ.vis' b h2)
    exact ⟨a, ⟨(attrs_renamed h ha).1 h1, by rw [← hρ.hidden]; exact h2⟩, rfl⟩
  · rintro ⟨a, ⟨h1, h2⟩, rfl⟩
    exact ⟨(attrs_renamed h (hρ.vis a h2)).2 h1, by rw [hρ.hidden]; exact h2⟩

theorem ecgSpec_renamed (K : Type) [Field K] (hρ : ρ.Keeps hid hid') (h : ∀ p ∈ l, ρ.Inst p.1 p.2) :
    ecgSpec K hid' (l.map Prod.snd) = ecgSpec K hid (l.map Prod.fst) := by
  unfold ecgSpec
  rw [visAttrs_renamed hρ h, Finset.card_image_of_injective _ ρ.attr_inj,
    Finset.sum_image (fun a _ b _ hab => ρ.attr_inj hab)]
  congr 1
  refine Finset.sum_congr rfl fun a ha => ?_
  have hd := hρ.vis a (Finset.mem_filter.1 ha).2
  rw [valsOf_renamed h hd, Finset.sum_image (fun u _ v _ huv => ρ.val_inj a huv)]
  refine Finset.sum_congr rfl fun v _ => ?_
  unfold prob
  rw [occ_renamed h hd, Multiset.card_map, Multiset.card_map]

end

variable (ρ : Renaming A A' V V')

/-- Renamed instances, both without repeated keys. -/
def RInst (ρ : Renaming A A' V V') (i : Inst A V) (i' : Inst A' V') : Prop :=
  Dict.Nodup i ∧ Dict.Nodup i' ∧ ρ.Inst i i'

theorem sameVisible_renamed {ρ : Renaming A A' V V'} (hρ : ρ.Keeps hid hid') {i j : Inst A V}
    {i' j' : Inst A' V'} (hi : ρ.Inst i i') (hj : ρ.Inst j j') :
    SameVisible hid i j ↔ SameVisible hid' i' j' := by
  constructor
  · intro h b hb
    by_cases hbi : b ∈ Dict.keys i'
    · obtain ⟨a, ha, rfl⟩ := hi.image b hbi (hρ.vis' b hb)
      rw [hi.get a ha, hj.get a ha, h a (by rw [← hρ.hidden]; exact hb)]
    · by_cases hbj : b ∈ Dict.keys j'
      · obtain ⟨a, ha, rfl⟩ := hj.image b hbj (hρ.vis' b hb)
        rw [hi.get a ha, hj.get a ha, h a (by rw [← hρ.hidden]; exact hb)]
      · rw [Dict.get?_eq_none.2 hbi, Dict.get?_eq_none.2 hbj]
  · intro h a ha
    have h1 := h (ρ.attr a) (by rw [hρ.hidden]; exact ha)
    rw [hi.get a (hρ.vis a ha), hj.get a (hρ.vis a ha)] at h1
    exact Option.map_injective (ρ.val_inj a) h1

theorem sim_renamed (hρ : ρ.Keeps hid hid') :
    Sim (cobwebClass hid) (cobwebClass hid') (RInst ρ) (Paired (RInst ρ) Summarizes Summarizes) :=
  sim_of_laws (cobwebLaws hid) (cobwebLaws hid') (fun _ _ h => ⟨h.1, h.2.1⟩)
    fun _ _ _ _ hi hj => sameVisible_renamed hρ hi.2.2 hj.2.2

theorem scores_renamed {K : Type} [Field K] [LinearOrder K] [IsStrictOrderedRing K]
    (hρ : ρ.Keeps hid hid') :
    SameScores (RingHom.id K) (Paired (RInst ρ) Summarizes Summarizes) (Stats.ecg hid)
      (Stats.ecg hid') := by
  rintro s s' ⟨l, h1, h2, h3⟩
  have hl : ∀ p ∈ l, ρ.Inst p.1 p.2 := fun p hp => (h1 p hp).2.2
  have hv := visAttrs_renamed hρ hl
  by_cases h0 : (visAttrs hid (l.map Prod.fst)).Nonempty
  · rw [ecg_eq h2 h0, ecg_eq h3 (by rw [hv]; exact h0.image _), ecgSpec_renamed K hρ hl]
    rfl
  · rw [Finset.not_nonempty_iff_eq_empty] at h0
    rw [ecg_error h2 h0, ecg_error h3 (by rw [hv, h0]; rfl)]
    rfl

theorem renamed_of_paired {s : Stats A V} {s' : Stats A' V'}
    (h : Paired (RInst ρ) Summarizes Summarizes s s') : ρ.Table s s' := by
  obtain ⟨l, h1, h2, h3⟩ := h
  have hl : ∀ p ∈ l, ρ.Inst p.1 p.2 := fun p hp => (h1 p hp).2.2
  refine ⟨by rw [h2.count, h3.count, Multiset.card_map, Multiset.card_map], fun a v ha => ?_,
    fun a v' ha hv' => ?_, fun b hb hd => ?_, fun a ha => ?_⟩
  · rw [h2.lookup, h3.lookup, occ_renamed hl ha]
  · rw [h3.lookup] at hv'
    have h0 : v' ∈ valsOf (l.map Prod.snd) (ρ.attr a) := by
      rw [mem_valsOf_iff_occ]
      intro h0
      simp [h0] at hv'
    rw [valsOf_renamed hl ha] at h0
    obtain ⟨v, -, hv⟩ := Finset.mem_image.1 h0
    exact ⟨v, hv⟩
  · obtain ⟨j, hj, hk⟩ := (h3.attrs b).1 hb
    obtain ⟨p, hp, rfl⟩ := Multiset.mem_map.1 hj
    obtain ⟨a, ha, rfl⟩ := (hl p hp).image b hk hd
    refine ⟨a, (h2.attrs a).2 (mem_attrsOf.1 ((attrs_renamed hl ha).1 (mem_attrsOf.2 ?_))), rfl⟩
    exact (h3.attrs _).1 hb
  · intro hk
    exact (h3.attrs _).2 (mem_attrsOf.1 ((attrs_renamed hl ha).2 (mem_attrsOf.2 ((h2.attrs a).1 hk))))

end CF
