/-
Properties C31, C32, C64 and C65: what the result of `Cobweb3Tree` does not depend on.
-/
import Verif.Proofs.Renaming3
import Verif.Props.Invariance

set_option linter.unusedSectionVars false

namespace CF
variable {A A' B B' V V' : Type} [DecidableEq A] [DecidableEq A'] [DecidableEq B] [DecidableEq B']
  [DecidableEq V] [DecidableEq V'] {hid : A → Bool} {hid' : A' → Bool}
  {cfg : Cfg3 A B} {cfg' : Cfg3 A' B'}

/-! ### C31: nominal data -/

/-- The instance as `Cobweb3Tree` sees it when all values are nominal. -/
def nominal (i : Inst A V) : Inst3 A V := i.map fun e => (e.1, Val.nom e.2)

theorem nom_inj : Function.Injective (Val.nom : V → Val V) := fun _ _ h => Val.nom.inj h

theorem nominal_inst {i : Inst A V} (hi : Dict.Nodup i) :
    RInst (totalRenaming (A := A) Function.injective_id fun _ => nom_inj (V := V)) i (nominal i) :=
  totalRenaming_inst _ _ hi (List.Perm.refl _)

theorem updateScales_nominal (inner : A → B) (sc : Scales B) (i : Inst A V) :
    updateScales inner sc (nominal i) = sc := by
  unfold nominal
  induction i with
  | nil => rfl
  | cons p i ih => exact ih

/-- The relation between the tables of the two classes. -/
abbrev NomPaired (A V : Type) [DecidableEq A] [DecidableEq V] : Stats A V → Stats3 A V → Prop :=
  Paired (RInst (totalRenaming (A := A) Function.injective_id fun _ => nom_inj (V := V))) Summarizes
    Summarizes3

theorem sim_nominal (hid : A → Bool) :
    Sim (cobwebClass (V := V) hid) (cobweb3Class hid)
      (RInst (totalRenaming (A := A) Function.injective_id fun _ => nom_inj (V := V)))
      (NomPaired A V) :=
  sim_of_laws (cobwebLaws hid) (cobweb3Laws hid) (fun _ _ h => ⟨h.1, h.2.1⟩)
    fun _ _ _ _ hi hj => sameVisible_renamed ⟨fun _ => rfl, fun _ _ => trivial, fun _ _ => trivial⟩
      hi.2.2 hj.2.2

section
variable {l : Multiset (Inst A V × Inst3 A V)}
  (h : ∀ p ∈ l, RInst (totalRenaming (A := A) Function.injective_id fun _ => nom_inj (V := V)) p.1 p.2)
include h

theorem nominal_get? {p : Inst A V × Inst3 A V} (hp : p ∈ l) (a : A) :
    Dict.get? p.2 a = (Dict.get? p.1 a).map Val.nom := (h p hp).2.2.get a trivial

theorem nums_nominal (a : A) : nums (l.map Prod.snd) a = 0 := by
  rw [Multiset.eq_zero_iff_forall_notMem]
  intro x hx
  obtain ⟨_, hm, hg⟩ := mem_nums.1 hx
  obtain ⟨p, hp, rfl⟩ := Multiset.mem_map.1 hm
  rw [nominal_get? h hp] at hg
  cases hq : Dict.get? p.1 a <;> simp [hq] at hg

theorem valsOf_nominal (a : A) :
    valsOf (l.map Prod.snd) a = (nomVals (l.map Prod.snd) a).image Val.nom := by
  ext v
  simp only [mem_valsOf, Finset.mem_image, mem_nomVals]
  constructor
  · rintro ⟨_, hm, hg⟩
    obtain ⟨p, hp, rfl⟩ := Multiset.mem_map.1 hm
    have hg' := hg
    rw [nominal_get? h hp] at hg'
    obtain ⟨u, -, rfl⟩ := Option.map_eq_some_iff.1 hg'
    exact ⟨u, ⟨_, hm, hg⟩, rfl⟩
  · rintro ⟨u, ⟨_, hm, hg⟩, rfl⟩
    exact ⟨_, hm, hg⟩

theorem ecgSpec3_nominal (f : B → Multiset ℝ) :
    ecgSpec3 hid cfg f (l.map Prod.snd) = ((ecgSpec ℚ hid (l.map Prod.fst) : ℚ) : ℝ) := by
  have e := ecgSpec_renamed (ρ := totalRenaming (A := A) Function.injective_id fun _ => nom_inj (V := V))
    (hid := hid) (hid' := hid) (l := l) ℝ
    ⟨fun _ => rfl, fun _ _ => trivial, fun _ _ => trivial⟩ fun p hp => (h p hp).2.2
  have e2 : ((ecgSpec ℚ hid (l.map Prod.fst) : ℚ) : ℝ) = ecgSpec ℝ hid (l.map Prod.fst) := by
    simp [ecgSpec, prob]
  rw [e2, ← e]
  unfold ecgSpec3 ecgSpec
  congr 1
  refine Finset.sum_congr rfl fun a _ => ?_
  rw [numTerm_zero (nums_nominal h a), add_zero, valsOf_nominal h,
    Finset.sum_image fun u _ v _ huv => nom_inj huv]

end

theorem scores_nominal (hid : A → Bool) (cfg : Cfg3 A B) :
    SameScores (Rat.castHom ℝ) (NomPaired A V) (Stats.ecg hid) (Stats3.ecg hid cfg []) := by
  rintro s s' ⟨l, h1, h2, h3⟩
  have hs : ScalesObs ([] : Scales B) fun _ => 0 := fun b => .inl ⟨rfl, rfl⟩
  have hv : visAttrs hid (l.map Prod.snd) = visAttrs hid (l.map Prod.fst) := by
    have := visAttrs_renamed
      (ρ := totalRenaming (A := A) Function.injective_id fun _ => nom_inj (V := V))
      (hid := hid) (hid' := hid) (l := l)
      ⟨fun _ => rfl, fun _ _ => trivial, fun _ _ => trivial⟩ fun p hp => (h1 p hp).2.2
    rw [this]
    exact Finset.image_id
  by_cases h0 : (visAttrs hid (l.map Prod.fst)).Nonempty
  · rw [ecg_eq h2 h0, ecg3_eq h3 hs (by rw [hv]; exact h0), ecgSpec3_nominal h1]
    rfl
  · rw [Finset.not_nonempty_iff_eq_empty] at h0
    rw [ecg_error h2 h0, ecg3_error h3 (by rw [hv, h0])]
    rfl

theorem castHom_strictMono : StrictMono (Rat.castHom ℝ) := fun a b h => by
  simpa using h

theorem sameTable_of_paired {s : Stats A V} {s' : Stats3 A V} (h : NomPaired A V s s') :
    SameTable s s' := by
  obtain ⟨l, h1, h2, h3⟩ := h
  have hl := fun p hp => (h1 p hp).2.2
  refine ⟨by rw [h2.count, h3.count, Multiset.card_map, Multiset.card_map], fun a v => ?_, fun a => ?_,
    fun a => ?_⟩
  · have := occ_renamed hl (a := a) trivial v
    change occ (l.map Prod.snd) a (.nom v) = _ at this
    rw [h2.lookup, h3.noms, this]
  · rcases h3.cv a with ⟨-, h4⟩ | ⟨h4, -⟩
    · exact h4
    · exact absurd (nums_nominal h1 a) h4
  · have := attrs_renamed hl (a := a) trivial
    change a ∈ attrsOf (l.map Prod.snd) ↔ _ at this
    rw [h2.attrs, h3.attrs, ← mem_attrsOf, ← mem_attrsOf, this]

theorem runs_nominal (cfg : Cfg3 A B) {l : List (Inst A V × World)}
    (hl : ∀ p ∈ l, Dict.Nodup p.1) {t : Tree (Stats A V)} {t' : Tree (Stats3 A V)}
    (ht : TRel (NomPaired A V) t t') :
    RRel (fun r r' => TRel (NomPaired A V) r.1 r'.1.root ∧ r'.1.scales = [] ∧ r.2 = r'.2)
      (runs (cobwebClass hid) (Stats.ecg (K := ℚ) hid) t l)
      (runs3 hid cfg ⟨t', []⟩ (l.map fun p => (nominal p.1, p.2))) := by
  induction l generalizing t t' with
  | nil => exact .ok ⟨ht, rfl, rfl⟩
  | cons p l ih =>
    obtain ⟨i, w⟩ := p
    have h1 := cobweb_sim castHom_strictMono (sim_nominal hid) (scores_nominal hid cfg)
      (nominal_inst (hl (i, w) (by simp))) ht w
    rw [List.map_cons]
    unfold runs runs3
    have e : ifit3 hid cfg ⟨t', []⟩ (nominal i) w =
        cobweb (cobweb3Class hid) (Stats3.ecg hid cfg []) t' (nominal i) w >>=
          fun o => pure ⟨⟨o.tree, []⟩, o.leaf, o.w⟩ := by
      unfold ifit3
      rw [updateScales_nominal]
    dsimp only
    rw [e, bind_assoc]
    refine RRel.bind h1 fun o o' ho => ?_
    show RRel _ (runs _ _ _ _ >>= _) (runs3 hid cfg ⟨o'.tree, []⟩ _ >>= _)
    refine RRel.bind (ih (fun q hq => hl q (by simp [hq])) ho.tree) fun r r' hr => ?_
    exact .ok ⟨hr.1, hr.2.1, by rw [hr.2.2, ho.leaf, ho.w]⟩

/-- **C31**: on instances whose values are all nominal, and with the same random numbers, `Cobweb3Tree`
(with any settings) and `CobwebTree` behave alike: the same call raises the same exception, or the trees
have the same shape, ids and tables, the scales stay empty, and every call returns the same concept, draws
as many random numbers and makes as many ids.  (The one computes with real, the other with rational
scores.) -/
theorem C31_nominal (cfg : Cfg3 A B) {l : List (Inst A V × World)} (hl : ∀ p ∈ l, Dict.Nodup p.1)
    (w0 : World) :
    RRel (fun r r' => TRel SameTable r.1 r'.1.root ∧ r'.1.scales = [] ∧ r.2 = r'.2)
      (runs (cobwebClass hid) (Stats.ecg (K := ℚ) hid) (emptyTree (cobwebClass hid) w0) l)
      (runs3 hid cfg (emptyState3 hid w0)
        (l.map fun p => (p.1.map fun e => (e.1, Val.nom e.2), p.2))) := by
  refine (runs_nominal cfg hl (emptyTree_sim (sim_nominal hid) w0)).mono ?_
  rintro r r' ⟨h1, h2⟩
  exact ⟨h1.mono fun _ _ h => sameTable_of_paired h, h2⟩

/-- C31 for `categorize`. -/
theorem C31_nominal_categorize (cfg : Cfg3 A B) {l : List (Inst A V × World)}
    (hl : ∀ p ∈ l, Dict.Nodup p.1) {i : Inst A V} (hi : Dict.Nodup i) (w0 w : World) :
    RRel (fun r r' => r.1.id = r'.1.id ∧ SameTable r.1.stats r'.1.stats ∧ r.2 = r'.2)
      (runs (cobwebClass hid) (Stats.ecg (K := ℚ) hid) (emptyTree (cobwebClass hid) w0) l >>= fun r =>
        categorize (cobwebClass hid) (Stats.ecg (K := ℚ) hid) r.1 i w)
      (runs3 hid cfg (emptyState3 hid w0)
        (l.map fun p => (p.1.map fun e => (e.1, Val.nom e.2), p.2)) >>= fun r =>
        categorize3 hid cfg r.1 (i.map fun e => (e.1, Val.nom e.2)) w) := by
  refine RRel.bind (runs_nominal cfg hl (emptyTree_sim (sim_nominal hid) w0)) fun r r' hr => ?_
  unfold categorize3
  rw [hr.2.1]
  refine (categorize_sim castHom_strictMono (sim_nominal hid) (scores_nominal hid cfg)
    (nominal_inst hi) hr.1 w).mono ?_
  rintro c c' ⟨h1, h2⟩
  exact ⟨h1.id, sameTable_of_paired h1.stats, h2⟩

/-! ### C32: units -/

/-- Total renamings with change of units. -/
def totalRen3 {f : A → A'} (hf : Function.Injective f) {g : A → V → V'}
    (hg : ∀ a, Function.Injective (g a)) {h : B → B'} (hh : Function.Injective h)
    (hi : ∀ a, cfg'.inner (f a) = h (cfg.inner a)) {mul : B → ℝ} (add : B → ℝ) (hm : ∀ b, 0 < mul b) :
    Ren3 cfg cfg' V V' where
  attr := f
  val := g
  scale := h
  mul := mul
  add := add
  dom := fun _ => True
  dom' := fun _ => True
  attr_inj := hf
  val_inj := hg
  scale_inj := hh
  mul_pos := hm
  dom_iff := fun _ => Iff.rfl
  inner := hi

theorem totalRen3_inst {f : A → A'} (hf : Function.Injective f) {g : A → V → V'}
    (hg : ∀ a, Function.Injective (g a)) {h : B → B'} (hh : Function.Injective h)
    (hi : ∀ a, cfg'.inner (f a) = h (cfg.inner a)) {mul : B → ℝ} (add : B → ℝ) (hm : ∀ b, 0 < mul b)
    {i : Inst3 A V} {i' : Inst3 A' V'} (hn : Dict.Nodup i)
    (hp : i'.Perm (i.map fun e => (f e.1, mapVal cfg.inner g mul add e.1 e.2))) :
    RInst (totalRen3 (cfg := cfg) (cfg' := cfg') hf hg hh hi add hm).toRenaming i i' :=
  totalRenaming_inst hf (mapVal_inj cfg.inner hg hm) hn hp

theorem totalRen3_table {f : A → A'} (hf : Function.Injective f) {g : A → V → V'}
    (hg : ∀ a, Function.Injective (g a)) {h : B → B'} (hh : Function.Injective h)
    (hi : ∀ a, cfg'.inner (f a) = h (cfg.inner a)) {mul : B → ℝ} (add : B → ℝ) (hm : ∀ b, 0 < mul b)
    {H : List (Inst3 A V × Inst3 A' V')} {s : Stats3 A V} {s' : Stats3 A' V'}
    (hp : Paired (RHist (totalRen3 (cfg := cfg) (cfg' := cfg') hf hg hh hi add hm) H) Summarizes3
      Summarizes3 s s') :
    RenamedTable3 f g (fun a => mul (cfg.inner a)) (fun a => add (cfg.inner a)) s s' := by
  obtain ⟨h1, h2, h3, h4, h5, h6⟩ := table3_of_paired hp
  exact ⟨h1, fun a v => h2 a v trivial, fun a v' => h3 a v' trivial, fun a => h4 a trivial, fun c =>
    ⟨fun hc => h5 c hc trivial, fun ⟨a, ha, hc⟩ => hc ▸ h6 a trivial ha⟩⟩

/-- **C32**: let `scaling` be positive, and replace every number `x` of the attributes with inner name `b`
by `mul b * x + add b`, where `mul b > 0`.  With the same random numbers, the calls of `ifit` behave alike:
the same call raises the same exception, or the trees have the same shape, ids and nominal counts, the
numeric summaries of concepts and scales are those in the new units, and every call returns the same
concept.  (With a negative `scaling` the code measures in the unit 1, so it is as without scaling.) -/
theorem C32_units (hs : 0 < cfg.scaling) {mul : B → ℝ} (add : B → ℝ) (hm : ∀ b, 0 < mul b)
    {l : List (Inst3 A V × World)} (hl : ∀ p ∈ l, Dict.Nodup p.1) (w0 : World) :
    RRel (fun r r' => TRel (RenamedTable3 id (fun _ => id) (fun a => mul (cfg.inner a))
          (fun a => add (cfg.inner a))) r.1.root r'.1.root ∧
        (∀ a, r'.1.scales.get? (cfg.inner a) = (r.1.scales.get? (cfg.inner a)).map
          (CV.affine (mul (cfg.inner a)) (add (cfg.inner a)))) ∧ r.2 = r'.2)
      (runs3 hid cfg (emptyState3 hid w0) l)
      (runs3 hid cfg (emptyState3 hid w0) (l.map fun p =>
        (p.1.map fun e => (e.1, mapVal cfg.inner (fun _ => id) mul add e.1 e.2), p.2))) := by
  let ρ : Ren3 cfg cfg V V := totalRen3 Function.injective_id (fun _ => Function.injective_id)
    Function.injective_id (fun _ => rfl) add hm
  have hc : ρ.Closed := ⟨fun _ _ _ _ => trivial, fun _ _ _ _ => trivial⟩
  have hu : ρ.Units := ⟨rfl, .inl hs, .inr hc⟩
  have hk : ρ.toRenaming.Keeps hid hid := ⟨fun _ => rfl, fun _ _ => trivial, fun _ _ => trivial⟩
  have hl' : List.Forall₂ (fun p q => RInst ρ.toRenaming p.1 q.1 ∧ p.2 = q.2) l (l.map fun p =>
      (p.1.map fun e => (e.1, mapVal cfg.inner (fun _ => id) mul add e.1 e.2), p.2)) := by
    rw [List.forall₂_map_right_iff, List.forall₂_same]
    exact fun p hp => ⟨totalRen3_inst _ _ _ _ _ _ (hl p hp) (List.Perm.refl _), rfl⟩
  refine (runs3_sim ρ hu hk hl' (RState.init ρ hk w0)).mono ?_
  rintro r r' ⟨⟨H, h1⟩, h2⟩
  exact ⟨h1.root.mono fun _ _ h => totalRen3_table _ _ _ _ _ _ h, fun a => h1.scale_eq hc trivial, h2⟩

/-! ### C65: renaming -/

/-- **C65**: the renaming theorem (C24) for `Cobweb3Tree`: rename attributes (keeping hidden ones hidden),
nominal values and inner names injectively, reorder the keys of the instances, and shift the numbers of
the attributes with inner name `b` by `add b`.  With the same random numbers, `ifit` behaves alike; no
condition on `scaling`. -/
theorem C65_renaming {f : A → A'} (hf : Function.Injective f) {g : A → V → V'}
    (hg : ∀ a, Function.Injective (g a)) {h : B → B'} (hh : Function.Injective h)
    (hi : ∀ a, cfg'.inner (f a) = h (cfg.inner a)) (hs : cfg'.scaling = cfg.scaling)
    (hhid : ∀ a, hid' (f a) = hid a) (add : B → ℝ)
    {l : List (Inst3 A V × World)} {l' : List (Inst3 A' V' × World)}
    (hl : List.Forall₂ (fun p q => Dict.Nodup p.1 ∧
      q.1.Perm (p.1.map fun e => (f e.1, mapVal cfg.inner g (fun _ => 1) add e.1 e.2)) ∧ p.2 = q.2) l l')
    (w0 : World) :
    RRel (fun r r' => TRel (RenamedTable3 f g (fun _ => 1) (fun a => add (cfg.inner a)))
          r.1.root r'.1.root ∧
        (∀ a, r'.1.scales.get? (h (cfg.inner a)) = (r.1.scales.get? (cfg.inner a)).map
          (CV.affine 1 (add (cfg.inner a)))) ∧ r.2 = r'.2)
      (runs3 hid cfg (emptyState3 hid w0) l) (runs3 hid' cfg' (emptyState3 hid' w0) l') := by
  let ρ : Ren3 cfg cfg' V V' := totalRen3 hf hg hh hi add fun _ => one_pos
  have hc : ρ.Closed := ⟨fun _ _ _ _ => trivial, fun _ _ _ _ => trivial⟩
  have hu : ρ.Units := ⟨hs, .inr fun _ => rfl, .inr hc⟩
  have hk : ρ.toRenaming.Keeps hid hid' := ⟨hhid, fun _ _ => trivial, fun _ _ => trivial⟩
  refine (runs3_sim ρ hu hk (hl.imp fun p q h => ⟨totalRen3_inst _ _ _ _ _ _ h.1 h.2.1, h.2.2⟩)
    (RState.init ρ hk w0)).mono ?_
  rintro r r' ⟨⟨H, h1⟩, h2⟩
  exact ⟨h1.root.mono fun _ _ h => totalRen3_table _ _ _ _ _ _ h, fun a => h1.scale_eq hc trivial, h2⟩

/-- C65 for `categorize`. -/
theorem C65_renaming_categorize {f : A → A'} (hf : Function.Injective f) {g : A → V → V'}
    (hg : ∀ a, Function.Injective (g a)) {h : B → B'} (hh : Function.Injective h)
    (hi : ∀ a, cfg'.inner (f a) = h (cfg.inner a)) (hs : cfg'.scaling = cfg.scaling)
    (hhid : ∀ a, hid' (f a) = hid a) (add : B → ℝ)
    {l : List (Inst3 A V × World)} {l' : List (Inst3 A' V' × World)}
    (hl : List.Forall₂ (fun p q => Dict.Nodup p.1 ∧
      q.1.Perm (p.1.map fun e => (f e.1, mapVal cfg.inner g (fun _ => 1) add e.1 e.2)) ∧ p.2 = q.2) l l')
    {i : Inst3 A V} {i' : Inst3 A' V'} (hn : Dict.Nodup i)
    (hp : i'.Perm (i.map fun e => (f e.1, mapVal cfg.inner g (fun _ => 1) add e.1 e.2)))
    (w0 w : World) :
    RRel (fun r r' => r.1.id = r'.1.id ∧
        RenamedTable3 f g (fun _ => 1) (fun a => add (cfg.inner a)) r.1.stats r'.1.stats ∧ r.2 = r'.2)
      (runs3 hid cfg (emptyState3 hid w0) l >>= fun r => categorize3 hid cfg r.1 i w)
      (runs3 hid' cfg' (emptyState3 hid' w0) l' >>= fun r => categorize3 hid' cfg' r.1 i' w) := by
  let ρ : Ren3 cfg cfg' V V' := totalRen3 hf hg hh hi add fun _ => one_pos
  have hc : ρ.Closed := ⟨fun _ _ _ _ => trivial, fun _ _ _ _ => trivial⟩
  have hu : ρ.Units := ⟨hs, .inr fun _ => rfl, .inr hc⟩
  have hk : ρ.toRenaming.Keeps hid hid' := ⟨hhid, fun _ _ => trivial, fun _ _ => trivial⟩
  refine RRel.bind (runs3_sim ρ hu hk
    (hl.imp fun p q h => ⟨totalRen3_inst _ _ _ _ _ _ h.1 h.2.1, h.2.2⟩)
    (RState.init ρ hk w0)) fun r r' hr => ?_
  obtain ⟨⟨H, h1⟩, -⟩ := hr
  refine (categorize3_sim ρ hu (fun _ => rfl) hk h1 (totalRen3_inst _ _ _ _ _ _ hn hp) w).mono ?_
  rintro c c' ⟨h3, h4⟩
  exact ⟨h3.id, totalRen3_table _ _ _ _ _ _ h3.stats, h4⟩

/-! ### C64: hidden attributes -/

/-- Comparing the visible attributes only. -/
def visibleOnly3 (V : Type) (hid : A → Bool) (cfg : Cfg3 A B) : Ren3 cfg cfg V V where
  attr := id
  val := fun _ => id
  scale := id
  mul := fun _ => 1
  add := fun _ => 0
  dom := fun a => hid a = false
  dom' := fun a => hid a = false
  attr_inj := Function.injective_id
  val_inj := fun _ => Function.injective_id
  scale_inj := Function.injective_id
  mul_pos := fun _ => one_pos
  dom_iff := fun _ => Iff.rfl
  inner := fun _ => rfl

theorem visibleOnly3_inst {i i' : Inst3 A V} (hi : Dict.Nodup i) (hi' : Dict.Nodup i')
    (h : SameVisible hid i i') : RInst (visibleOnly3 V hid cfg).toRenaming i i' := by
  refine ⟨hi, hi', fun a ha => ?_, fun b _ hd => ⟨b, hd, rfl⟩⟩
  change Dict.get? i' a = (Dict.get? i a).map _
  rw [← h a ha]
  cases Dict.get? i a with
  | none => rfl
  | some v => cases v <;> simp [visibleOnly3, Ren3.toRenaming, mapVal]

theorem visibleOnly3_table {H : List (Inst3 A V × Inst3 A V)} {s s' : Stats3 A V}
    (h : Paired (RHist (visibleOnly3 V hid cfg) H) Summarizes3 Summarizes3 s s') :
    SameVisibleTable3 hid s s' := by
  obtain ⟨h1, h2, h3, h4, h5, h6⟩ := table3_of_paired h
  refine ⟨h1.symm, fun a v ha => (h2 a v ha).symm, fun a ha => ?_, fun a ha => ⟨h6 a ha, fun hk => ?_⟩⟩
  · have := h4 a ha
    change s'.cvOf a = _ at this
    rw [this]
    cases s.cvOf a with
    | none => rfl
    | some c => simp [visibleOnly3, CV.affine]
  · obtain ⟨c, hc, rfl⟩ := h5 a hk ha
    exact hc

theorem visibleOnly3_units (hsep : cfg.scaling = 0 ∨
      ∀ a c, cfg.inner a = cfg.inner c → hid a = false → hid c = false) :
    (visibleOnly3 V hid cfg).Units :=
  ⟨rfl, .inr fun _ => rfl, hsep.imp_right fun h => ⟨h, h⟩⟩

/-- **C64**: C19 for `Cobweb3Tree`: hidden attributes do not matter, provided that there is no scaling or
that no hidden attribute has the inner name of a visible one. -/
theorem C64_hidden_irrelevant_partial (hsep : cfg.scaling = 0 ∨
      ∀ a c, cfg.inner a = cfg.inner c → hid a = false → hid c = false)
    {l l' : List (Inst3 A V × World)}
    (hl : List.Forall₂ (fun p q => Dict.Nodup p.1 ∧ Dict.Nodup q.1 ∧ SameVisible hid p.1 q.1 ∧
      p.2 = q.2) l l') (w0 : World) :
    RRel (fun r r' => TRel (SameVisibleTable3 hid) r.1.root r'.1.root ∧ r.2 = r'.2)
      (runs3 hid cfg (emptyState3 hid w0) l) (runs3 hid cfg (emptyState3 hid w0) l') := by
  have hk : (visibleOnly3 V hid cfg).toRenaming.Keeps hid hid := ⟨fun _ => rfl, fun _ h => h, fun _ h => h⟩
  refine (runs3_sim _ (visibleOnly3_units hsep) hk
    (hl.imp fun p q h => ⟨visibleOnly3_inst h.1 h.2.1 h.2.2.1, h.2.2.2⟩) (RState.init _ hk w0)).mono ?_
  rintro r r' ⟨⟨H, h1⟩, h2⟩
  exact ⟨h1.root.mono fun _ _ h => visibleOnly3_table h, h2⟩

/-- C64 for `categorize`. -/
theorem C64_hidden_irrelevant_categorize_partial (hsep : cfg.scaling = 0 ∨
      ∀ a c, cfg.inner a = cfg.inner c → hid a = false → hid c = false)
    {l l' : List (Inst3 A V × World)}
    (hl : List.Forall₂ (fun p q => Dict.Nodup p.1 ∧ Dict.Nodup q.1 ∧ SameVisible hid p.1 q.1 ∧
      p.2 = q.2) l l') {i i' : Inst3 A V} (hi : Dict.Nodup i) (hi' : Dict.Nodup i')
    (hii : SameVisible hid i i') (w0 w : World) :
    RRel (fun r r' => r.1.id = r'.1.id ∧ SameVisibleTable3 hid r.1.stats r'.1.stats ∧ r.2 = r'.2)
      (runs3 hid cfg (emptyState3 hid w0) l >>= fun r => categorize3 hid cfg r.1 i w)
      (runs3 hid cfg (emptyState3 hid w0) l' >>= fun r => categorize3 hid cfg r.1 i' w) := by
  have hk : (visibleOnly3 V hid cfg).toRenaming.Keeps hid hid := ⟨fun _ => rfl, fun _ h => h, fun _ h => h⟩
  refine RRel.bind (runs3_sim _ (visibleOnly3_units hsep) hk
    (hl.imp fun p q h => ⟨visibleOnly3_inst h.1 h.2.1 h.2.2.1, h.2.2.2⟩) (RState.init _ hk w0))
    fun r r' hr => ?_
  obtain ⟨⟨H, h1⟩, -⟩ := hr
  refine (categorize3_sim _ (visibleOnly3_units hsep) (fun _ => rfl) hk h1
    (visibleOnly3_inst hi hi' hii) w).mono ?_
  rintro c c' ⟨h3, h4⟩
  exact ⟨h3.id, visibleOnly3_table h3.stats, h4⟩

/-! ### Examples -/

/-- From any reachable state every list of instances with visible attributes can be fitted, so the runs
compared above do not all raise. -/
theorem runs3_ok {st : State3 A B V} {hist : List (Inst3 A V)} {n : ℕ} (h : Reach3 hid cfg st hist n)
    (hh : ∀ i ∈ hist, HasVisible hid i) (is : List (Inst3 A V))
    (hi : ∀ i ∈ is, Dict.Nodup i ∧ HasVisible hid i) :
    ∃ l r, l.map Prod.fst = is ∧ runs3 hid cfg st l = .ok r ∧ r.2.length = is.length := by
  induction is generalizing st hist n with
  | nil => exact ⟨[], (st, []), rfl, rfl, rfl⟩
  | cons i is ih =>
    obtain ⟨h1, h2⟩ := hi i (by simp)
    obtain ⟨o, ho⟩ := C63_ifit_never_raises h hh h1 h2
      (w := ⟨fun k => (k : ℚ), 0, n⟩) (fun a b hab => by simpa using hab)
    obtain ⟨l, r, hl, hr, hn⟩ := ih (.step h h1 (le_refl n) ho) (by
      intro j hj
      rcases List.mem_append.1 hj with hj | hj
      · exact hh j hj
      · rw [List.mem_singleton.1 hj]; exact h2) fun j hj => hi j (by simp [hj])
    refine ⟨(i, ⟨fun k => (k : ℚ), 0, n⟩) :: l, (r.1, (o.leaf, o.w) :: r.2), by simp [hl], ?_, by simp [hn]⟩
    unfold runs3
    rw [ho]
    show (runs3 _ _ _ _ >>= _) = _
    rw [hr]
    rfl

/-- The demonstration run of the nominal class: `Cobweb3Tree` builds the same tree of more than three
concepts. -/
example : ∃ r r', runs (cobwebClass Demo.hid) (Stats.ecg (K := ℚ) Demo.hid)
      (emptyTree (cobwebClass Demo.hid) Demo.w0) Demo.calls = .ok r ∧
    runs3 Demo.hid (⟨1 / 2, id⟩ : Cfg3 ℕ ℕ) (emptyState3 Demo.hid Demo.w0)
      (Demo.calls.map fun p => (p.1.map fun e => (e.1, Val.nom e.2), p.2)) = .ok r' ∧
    r.1.numConcepts > 3 ∧ TRel SameTable r.1 r'.1.root := by
  have h := C31_nominal (hid := Demo.hid) (⟨1 / 2, id⟩ : Cfg3 ℕ ℕ) (l := Demo.calls)
    (by decide +kernel) Demo.w0
  have h0 : (match runs (cobwebClass Demo.hid) (Stats.ecg (K := ℚ) Demo.hid)
      (emptyTree (cobwebClass Demo.hid) Demo.w0) Demo.calls with
    | .ok r => decide (r.1.numConcepts > 3)
    | .error _ => false) = true := by decide +kernel
  cases hr : runs (cobwebClass Demo.hid) (Stats.ecg (K := ℚ) Demo.hid)
      (emptyTree (cobwebClass Demo.hid) Demo.w0) Demo.calls with
  | error e => rw [hr] at h0; exact absurd h0 (by simp)
  | ok r =>
    rw [hr] at h h0
    obtain ⟨r', hr', h1, -⟩ := h.ok_left
    exact ⟨r, r', rfl, hr', by simpa using h0, h1⟩

/-- The mixed history in the unit "half, plus 5": both runs succeed, with four fitted instances. -/
example : ∃ l r r', l.map Prod.fst = Demo.mixed ∧
    runs3 Demo.hid (⟨1 / 2, id⟩ : Cfg3 ℕ ℕ) (emptyState3 Demo.hid Demo.w0) l = .ok r ∧
    runs3 Demo.hid (⟨1 / 2, id⟩ : Cfg3 ℕ ℕ) (emptyState3 Demo.hid Demo.w0) (l.map fun p =>
      (p.1.map fun e => (e.1, mapVal id (fun _ => id) (fun _ => 1 / 2) (fun _ => 5) e.1 e.2), p.2)) =
        .ok r' ∧ r.2 = r'.2 ∧ r.2.length = 4 ∧
    TRel (RenamedTable3 id (fun _ => id) (fun _ => 1 / 2) (fun _ => 5)) r.1.root r'.1.root := by
  obtain ⟨l, r, hl, hr, hn⟩ := runs3_ok (hid := Demo.hid) (cfg := (⟨1 / 2, id⟩ : Cfg3 ℕ ℕ))
    (.init Demo.w0) (by simp) Demo.mixed Demo.mixed_ok
  have h := C32_units (hid := Demo.hid) (cfg := (⟨1 / 2, id⟩ : Cfg3 ℕ ℕ)) (by norm_num)
    (mul := fun _ => 1 / 2) (fun _ => 5) (fun _ => by norm_num) (l := l) (by
      intro p hp
      exact (Demo.mixed_ok p.1 (by rw [← hl]; exact List.mem_map.2 ⟨p, hp, rfl⟩)).1) Demo.w0
  rw [hr] at h
  obtain ⟨r', hr', h1, -, h3⟩ := h.ok_left
  exact ⟨l, r, r', hl, hr, hr', h3, by rw [hn]; rfl, h1⟩

/-- Two visible numbers, and hidden numbers under attribute 100 that share the inner name. -/
noncomputable def Demo.plain : List (Inst3 ℕ ℕ) := [[(1, .num 0)], [(1, .num 2)]]
noncomputable def Demo.shared : List (Inst3 ℕ ℕ) :=
  [[(1, .num 0), (100, .num 0)], [(1, .num 2), (100, .num 2)]]

/-- C64 without the hypothesis fails: with scaling, and with a hidden attribute that has the inner name of
a visible one (in the code: `'_x'` and `('_x', 'y')` with `inner_attr_scaling`), the hidden numbers change
the score of the root. -/
theorem C64_shared_scale_matters :
    List.Forall₂ (SameVisible Demo.hid) Demo.plain Demo.shared ∧
    ∃ st st' n n', Reach3 Demo.hid (⟨1, fun _ => ()⟩ : Cfg3 ℕ Unit) st Demo.plain n ∧
      Reach3 Demo.hid (⟨1, fun _ => ()⟩ : Cfg3 ℕ Unit) st' Demo.shared n' ∧
      Stats3.ecg Demo.hid ⟨1, fun _ => ()⟩ st.scales st.root.stats ≠
        Stats3.ecg Demo.hid ⟨1, fun _ => ()⟩ st'.scales st'.root.stats := by
  have hok : ∀ i ∈ Demo.plain ++ Demo.shared, Dict.Nodup i ∧ HasVisible Demo.hid i := by
    intro i hi
    simp only [Demo.plain, Demo.shared, List.cons_append, List.nil_append, List.mem_cons,
      List.not_mem_nil, or_false] at hi
    rcases hi with rfl | rfl | rfl | rfl <;>
      exact ⟨by simp [Dict.Nodup, Dict.keys], 1, by simp [Dict.keys], by decide⟩
  refine ⟨?_, ?_⟩
  · have h0 : ∀ x : ℝ, SameVisible Demo.hid ([(1, .num x)] : Inst3 ℕ ℕ) [(1, .num x), (100, .num x)] := by
      intro x a ha
      have : a ≠ 100 := by rintro rfl; exact absurd ha (by decide)
      simp [Dict.get?, this.symm]
    exact .cons (h0 0) (.cons (h0 2) .nil)
  obtain ⟨st, n, h⟩ := reach3_exists (hid := Demo.hid) (⟨1, fun _ => ()⟩ : Cfg3 ℕ Unit) Demo.plain
    fun i hi => hok i (by simp [hi])
  obtain ⟨st', n', h'⟩ := reach3_exists (hid := Demo.hid) (⟨1, fun _ => ()⟩ : Cfg3 ℕ Unit) Demo.shared
    fun i hi => hok i (by simp [hi])
  refine ⟨st, st', n, n', h, h', ?_⟩
  have hs := (C29_every_node h).1
  have hs' := (C29_every_node h').1
  have v : visAttrs Demo.hid (Demo.plain : Multiset (Inst3 ℕ ℕ)) = {1} := by
    ext a
    simp [visAttrs, mem_attrsOf, Demo.plain, Dict.keys]
    rintro rfl
    decide
  have v' : visAttrs Demo.hid (Demo.shared : Multiset (Inst3 ℕ ℕ)) = {1} := by
    ext a
    simp only [visAttrs, Finset.mem_filter, mem_attrsOf, Demo.shared, Multiset.mem_coe, List.mem_cons,
      List.not_mem_nil, or_false, Finset.mem_singleton]
    constructor
    · rintro ⟨⟨i, rfl | rfl, hk⟩, h2⟩ <;>
      · simp [Dict.keys] at hk
        rcases hk with rfl | rfl
        · rfl
        · exact absurd h2 (by decide)
    · rintro rfl
      exact ⟨⟨_, .inl rfl, by simp [Dict.keys]⟩, by decide⟩
  have m : nomVals (Demo.plain : Multiset (Inst3 ℕ ℕ)) 1 = ∅ := by
    ext v
    simp [mem_nomVals, Demo.plain, Dict.get?]
  have m' : nomVals (Demo.shared : Multiset (Inst3 ℕ ℕ)) 1 = ∅ := by
    ext v
    simp [mem_nomVals, Demo.shared, Dict.get?]
  have k : nums (Demo.plain : Multiset (Inst3 ℕ ℕ)) 1 = {0, 2} := by
    simp [nums, Demo.plain, Dict.get?, Val.num?, Multiset.filterMap_coe]
    rfl
  have k' : nums (Demo.shared : Multiset (Inst3 ℕ ℕ)) 1 = {0, 2} := by
    simp [nums, Demo.shared, Dict.get?, Val.num?, Multiset.filterMap_coe]
    rfl
  have s : ((scaleNums (fun _ => ()) Demo.plain () : List ℝ) : Multiset ℝ) = {0, 2} := by
    simp [scaleNums, Demo.plain, Val.num?]
    rfl
  have s' : ((scaleNums (fun _ => ()) Demo.shared () : List ℝ) : Multiset ℝ) = {0, 0, 2, 2} := by
    simp [scaleNums, Demo.shared, Val.num?]
    rfl
  have c : c4Real 2 < c4Real 4 := by
    unfold c4Real
    exact_mod_cast (by decide +kernel : (c4Table.get? 2).getD 1 < (c4Table.get? 4).getD 1)
  have c0 : 0 < c4Real 2 := c4Real_pos le_rfl
  have d : sampleStd {0, 2} = Real.sqrt 2 / c4Real 2 := by
    rw [sampleStd_of_le (by simp)]
    congr 2
    simp [sqDev, sampleMean]
    norm_num
  have d' : sampleStd {0, 0, 2, 2} = Real.sqrt (4 / 3) / c4Real 4 := by
    rw [sampleStd_of_le (by simp)]
    congr 2
    simp [sqDev, sampleMean]
    norm_num
  have lt : sampleStd {0, 0, 2, 2} < sampleStd {0, 2} := by
    rw [d, d']
    have h1 : Real.sqrt (4 / 3) ≤ Real.sqrt 2 := Real.sqrt_le_sqrt (by norm_num)
    calc _ < Real.sqrt (4 / 3) / c4Real 2 := div_lt_div_of_pos_left (by positivity) c0 c
      _ ≤ _ := div_le_div_of_nonneg_right h1 c0.le
  have p0 : 0 < sampleStd {0, 0, 2, 2} := by rw [d']; have := c0.trans c; positivity
  have p1 := p0.trans lt
  rw [ecg3_eq hs (reach3_scales h) (by rw [v]; simp), ecg3_eq hs' (reach3_scales h') (by rw [v']; simp)]
  unfold ecgSpec3
  rw [v, v', Finset.sum_singleton, Finset.sum_singleton, m, m']
  unfold numTerm effScale
  dsimp only
  simp only [s, s', k, k']
  have e1 : ({0, 2} : Multiset ℝ) ≠ 0 := by simp
  have e2 : ({0, 0, 2, 2} : Multiset ℝ) ≠ 0 := by simp
  simp only [one_ne_zero, e1, e2, or_self, if_false, div_one, one_mul, not_le.2 p0, not_le.2 p1,
    div_self p1.ne', Finset.sum_empty, zero_add, Finset.card_singleton, Nat.cast_one]
  intro he
  have he := Except.ok.inj he
  have q : ((Multiset.card ({0, 2} : Multiset ℝ) : ℝ) / (Multiset.card (Demo.plain : Multiset (Inst3 ℕ ℕ)) : ℝ)) ^ 2
      = 1 := by simp [Demo.plain]
  have q' : ((Multiset.card ({0, 2} : Multiset ℝ) : ℝ) / (Multiset.card (Demo.shared : Multiset (Inst3 ℕ ℕ)) : ℝ)) ^ 2
      = 1 := by simp [Demo.shared]
  simp only [q, q', one_mul, one_div, inv_inj] at he
  have hp := Real.pi_pos
  have he := mul_left_cancel₀ (by positivity) he
  have hr : 1 < sampleStd {0, 2} / sampleStd {0, 0, 2, 2} := (one_lt_div p0).2 lt
  refine absurd he (ne_of_lt (Real.sqrt_lt_sqrt (by positivity) ?_))
  have := pow_lt_pow_left₀ hr zero_le_one two_ne_zero
  linarith

end CF
