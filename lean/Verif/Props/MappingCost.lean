/-
C74: what `mapping_cost` computes.  C75: the assignment that the search starts from.
-/
import Verif.Model.MappingCost
import Verif.Spec.MappingCost
import Verif.Proofs.StructureMapper
import Verif.Proofs.TrestleFits
import Verif.Proofs.Predict3
import Verif.Props.Trestle

namespace CF

/-! ### C74 -/

theorem setAll_ne {temp so : PyInst} (h : temp ≠ [] ∨ so ≠ []) : setAll temp so ≠ [] := by
  induction so generalizing temp with
  | nil => simpa [setAll] using h
  | cons p so ih =>
    simp only [setAll, List.foldl_cons]
    refine ih (temp := temp.set p.1 p.2) (.inl ?_)
    intro e
    have := Dict.get?_set_self temp p.1 p.2
    rw [e] at this
    cases this

theorem renameFlat_ne {target : PyInst} (h : target ≠ []) (m : Dict Py Py) : renameFlat target m ≠ [] := by
  rw [renameFlat, renameFlatInto_eq]
  exact setAll_ne (.inr (by simpa using h))

theorem mappingCost_eq {cfg : Cfg3 Py Py} {sc : Scales Py} {base : Stats3 Py Py} {m : Dict Py Py} {target : PyInst}
    (h : target ≠ []) : mappingCost cfg sc base m target =
      (Stats3.ecg hid3 cfg sc ((Stats3.fresh.addFrom base).incr (inst3 (renameFlat target m)))).map fun g => -g := by
  have h0 := renameFlat_ne h m
  rw [mappingCost]
  generalize renameFlat target m = r at h0 ⊢
  match r with
  | [] => exact absurd rfl h0
  | p :: r =>
    simp only
    cases Stats3.ecg hid3 cfg sc ((Stats3.fresh.addFrom base).incr (inst3 (p :: r))) <;> rfl

theorem KeepsApart.rename {m : Dict Py Py} {target : PyInst} (hm : KeepsApart m target.keys) (hn : Dict.Nodup target) :
    renameFlat target m = renamedInst m target ∧ Dict.Nodup (renameFlat target m) := by
  classical
  refine renameFlat_eq hm.dom hn (g := fun z => if h : ∃ x ∈ varsOf target.keys, image m x = z then h.choose else z) ?_
  intro p hp x hx
  have hx' : x ∈ varsOf target.keys := mem_varsOf.2 ⟨p.1, List.mem_map_of_mem (f := Prod.fst) hp, hx⟩
  refine ⟨hm.vars x hx', ?_⟩
  have h : ∃ y ∈ varsOf target.keys, image m y = applyMap m x := ⟨x, hx', rfl⟩
  simp only [h, dif_pos]
  exact hm.inj _ h.choose_spec.1 _ hx' h.choose_spec.2

variable {cfg : Cfg3 Py Py} {sc : Scales Py} {f : Py → Multiset ℝ} {base : Stats3 Py Py}
  {m₀ : Multiset (Inst3 Py Py)} {target : PyInst}

theorem cost_summary (hb : Summarizes3 base m₀) {i : PyInst} (hn : Dict.Nodup i) :
    Summarizes3 ((Stats3.fresh.addFrom base).incr (inst3 i)) (inst3 i ::ₘ m₀) := by
  have h := summarizes3_incr (summarizes3_add summarizes3_fresh hb) (inst3_nodup hn)
  rwa [zero_add] at h

theorem vis_cost (hb : Summarizes3 base m₀) {i : PyInst} :
    (visAttrs hid3 (inst3 i ::ₘ m₀)).Nonempty ↔ ∃ a, hid3 a = false ∧ (a ∈ base.av.keys ∨ a ∈ i.keys) := by
  have hk : Dict.keys (inst3 i) = Dict.keys i := by simp [inst3, Dict.keys, Function.comp_def]
  constructor
  · rintro ⟨a, ha⟩
    obtain ⟨h1, h2⟩ := Finset.mem_filter.1 ha
    obtain ⟨j, hj, ha⟩ := mem_attrsOf.1 h1
    refine ⟨a, by simpa using h2, ?_⟩
    rcases Multiset.mem_cons.1 hj with rfl | hj
    · exact .inr (hk ▸ ha)
    · exact .inl ((hb.attrs a).2 ⟨j, hj, ha⟩)
  · rintro ⟨a, h1, h2⟩
    refine ⟨a, Finset.mem_filter.2 ⟨mem_attrsOf.2 ?_, by simpa using h1⟩⟩
    rcases h2 with h2 | h2
    · obtain ⟨j, hj, ha⟩ := (hb.attrs a).1 h2
      exact ⟨j, Multiset.mem_cons_of_mem hj, ha⟩
    · exact ⟨inst3 i, Multiset.mem_cons_self _ _, hk ▸ h2⟩

/-- **C74**: the cost of a mapping is minus the expected correct guesses of a concept that has, besides the
instances of the base, the instance with its variables renamed. -/
theorem C74_cost (hb : Summarizes3 base m₀) (hsc : ScalesObs sc f) (hn : Dict.Nodup target) (h0 : target ≠ [])
    {m : Dict Py Py} (hm : KeepsApart m target.keys)
    (hv : ∃ a, hid3 a = false ∧ (a ∈ base.av.keys ∨ a ∈ (renamedInst m target).keys)) :
    mappingCost cfg sc base m target = .ok (-(ecgSpec3 hid3 cfg f (inst3 (renamedInst m target) ::ₘ m₀))) := by
  obtain ⟨e, hn'⟩ := hm.rename hn
  rw [mappingCost_eq h0, ecg3_eq (cost_summary hb hn') hsc ((vis_cost hb).2 (e ▸ hv)), e]
  rfl

/-- **C74**: it lies between -1 and 0. -/
theorem C74_range (hb : Summarizes3 base m₀) (hsc : ScalesObs sc f) (hn : Dict.Nodup target) (h0 : target ≠ [])
    {m : Dict Py Py} (hm : KeepsApart m target.keys)
    (hv : ∃ a, hid3 a = false ∧ (a ∈ base.av.keys ∨ a ∈ (renamedInst m target).keys)) :
    ∃ x, mappingCost cfg sc base m target = .ok x ∧ -1 ≤ x ∧ x < 0 := by
  refine ⟨_, C74_cost hb hsc hn h0 hm hv, ?_, ?_⟩
  · have := ecgSpec3_le_one (hid := hid3) (cfg := cfg) (f := f) (inst3 (renamedInst m target) ::ₘ m₀)
    linarith
  · have := ecgSpec3_pos (hid := hid3) (cfg := cfg) (f := f) ((vis_cost hb (i := renamedInst m target)).2 hv)
    linarith

/-- **C74**: without a visible attribute `mapping_cost` raises ZeroDivisionError, and on an empty instance
StopIteration. -/
theorem C74_raises (hb : Summarizes3 base m₀) (hn : Dict.Nodup target) {m : Dict Py Py} (hm : KeepsApart m target.keys) :
    (target = [] → mappingCost cfg sc base m target = .error .stopIter) ∧
    (target ≠ [] → (∀ a, a ∈ base.av.keys ∨ a ∈ (renamedInst m target).keys → hid3 a = true) →
      mappingCost cfg sc base m target = .error .zeroDiv) := by
  refine ⟨fun e => by rw [e]; rfl, fun h0 hv => ?_⟩
  obtain ⟨e, hn'⟩ := hm.rename hn
  rw [mappingCost_eq h0, ecg3_error (cost_summary hb hn')]
  · rfl
  · rw [← Finset.not_nonempty_iff_eq_empty, vis_cost hb, e]
    rintro ⟨a, h1, h2⟩
    rw [hv a h2] at h1
    cases h1

/-- Every state of the search keeps the variables apart. -/
theorem MappingOk.keepsApart {K cn : List Py} {s : MapState} (h : MappingOk K cn s) {as : List Py}
    (hK : ∀ x ∈ K, x ∈ varsOf as) (hc : ∀ c ∈ cn, Variable c ∧ c ∉ varsOf as) : KeepsApart s.1 as := by
  have hi : ∀ x, image s.1 x = x ∨ image s.1 x ∈ cn := by
    intro x
    unfold image
    cases e : s.1.get? x with
    | none => exact .inl rfl
    | some v => exact h.into x v e
  refine ⟨fun x w hx => ?_, fun x hx => ?_, fun x hx y hy e => ?_⟩
  · exact varsOf_variable (hK x ((h.dom x).1 (Dict.get?_isSome.1 (by rw [hx]; rfl))))
  · rcases hi x with e | e
    · rw [e]; exact varsOf_variable hx
    · exact (hc _ e).1
  · unfold image at e hi
    cases ex : s.1.get? x with
    | none =>
      cases ey : s.1.get? y with
      | none => simpa [ex, ey] using e
      | some w =>
        rcases h.into y w ey with e' | e'
        · simpa [ex, ey, e'] using e
        · simp only [ex, ey, Option.getD] at e
          exact absurd (e ▸ hx) (hc _ e').2
    | some v =>
      cases ey : s.1.get? y with
      | none =>
        rcases h.into x v ex with e' | e'
        · simpa [ex, ey, e'] using e
        · simp only [ex, ey, Option.getD] at e
          exact absurd (e ▸ hy) (hc _ e').2
      | some w =>
        simp only [ex, ey, Option.getD] at e
        exact h.inj x y w (e ▸ ex) ey

/-- **C74**: while `TrestleTree` maps an instance to the concept at its root, no mapping that the search considers
makes `mapping_cost` raise (if the root has a visible attribute). -/
theorem C74_trestle {c : TrestleCfg} {st : TState} {hist : List PyInst} (hc : c.Ok) (h : TrestleRuns c st hist)
    {t : Tree (Stats3 Py Py)} (ht : IsTree st.h st.h.root t) (hv : ∃ a ∈ t.stats.av.keys, hid3 a = false)
    (hn : Dict.Nodup target) (h0 : target ≠ []) (hd : ∀ x ∈ varsOf target.keys, x ∉ varsOf t.stats.av.keys)
    {K cn : List Py} (hK : ∀ x ∈ K, x ∈ varsOf target.keys) (hcn : ∀ x ∈ cn, x ∈ varsOf t.stats.av.keys)
    {s : MapState} (hs : MappingOk K cn s) :
    ∃ x, mappingCost c.cobweb3 st.sc t.stats s.1 target = .ok x ∧ -1 ≤ x ∧ x < 0 := by
  obtain ⟨n, hr, -⟩ := trestle_reach hc h ht
  obtain ⟨a, ha, hva⟩ := hv
  exact C74_range (C29_every_node hr).1 (reach3_scales hr) hn h0
    (hs.keepsApart hK fun x hx => ⟨varsOf_variable (hcn x hx), fun hx' => hd x hx' (hcn x hx)⟩) ⟨a, hva, .inl ha⟩

/-- Two attributes, one of them with a variable; a base with one instance. -/
example : KeepsApart [(.str c!"?o1", .str c!"?c1")] [.tup [.str c!"color", .str c!"?o1"], .str c!"size"] ∧
    renamedInst [(.str c!"?o1", .str c!"?c1")] [(.tup [.str c!"color", .str c!"?o1"], .str c!"red"), (.str c!"size", .num 2)] =
      [(.tup [.str c!"color", .str c!"?c1"], .str c!"red"), (.str c!"size", .num 2)] ∧
    Summarizes3 (Stats3.fresh.incr (inst3 [(.tup [.str c!"color", .str c!"?c1"], .str c!"red")]))
      {inst3 [(.tup [.str c!"color", .str c!"?c1"], .str c!"red")]} := by
  refine ⟨⟨?_, ?_, ?_⟩, by decide, summarizes3_incr summarizes3_fresh (inst3_nodup (by decide))⟩
  · intro x w h
    by_cases hk : Py.str c!"?o1" = x
    · exact ⟨_, hk.symm⟩
    · rw [Dict.get?, if_neg hk] at h; cases h
  · intro x hx
    have : x = .str c!"?o1" := by simpa [varsOf, varsEl, varsEls, Variable] using hx
    subst this
    exact ⟨c!"c1", by decide⟩
  · intro x hx y hy _
    have hx : x = .str c!"?o1" := by simpa [varsOf, varsEl, varsEls, Variable] using hx
    have hy : y = .str c!"?o1" := by simpa [varsOf, varsEl, varsEls, Variable] using hy
    rw [hx, hy]

/-! ### C74, probability tables -/

section
variable {V : Type}

theorem renameTabInto_keys (m : Dict Py Py) {l temp : Dict Py (Tab Py)}
    (hn : Dict.Nodup (temp ++ l.map fun p => (renameEl m p.1, p.2))) :
    renameTabInto m l temp = temp ++ l.map fun p => (renameEl m p.1, p.2) := by
  induction l generalizing temp with
  | nil => simp [renameTabInto]
  | cons p l ih =>
    have e : temp.set (renameEl m p.1) p.2 = temp ++ [(renameEl m p.1, p.2)] := by
      apply Dict.set_of_not_mem
      intro hk
      simp only [Dict.Nodup, Dict.keys, List.map_append, List.map_cons, List.nodup_append] at hn
      exact hn.2.2 _ hk _ (by simp) rfl
    obtain ⟨a, t⟩ := p
    rw [renameTabInto, e, ih (by simpa using hn)]
    simp

/-- Looking up a renamed key. -/
theorem get?_mapKeys {W : Type} {r : Py → Py} {K : List Py} (hr : ∀ x ∈ K, ∀ y ∈ K, r x = r y → x = y)
    {d : Dict Py W} (hd : ∀ p ∈ d, p.1 ∈ K) {a : Py} (ha : a ∈ K) :
    Dict.get? (d.map fun p => (r p.1, p.2)) (r a) = Dict.get? d a := by
  induction d with
  | nil => rfl
  | cons p d ih =>
    have ih := ih fun q hq => hd q (by simp [hq])
    obtain ⟨k, v⟩ := p
    simp only [List.map_cons, Dict.get?]
    by_cases e : k = a
    · rw [if_pos (by rw [e]), if_pos e]
    · rw [if_neg (fun e' => e (hr k (hd (k, v) (by simp)) a ha e')), if_neg e, ih]

theorem get?_mapKeys_none {W : Type} {r : Py → Py} {d : Dict Py W} {b : Py} (hb : ∀ p ∈ d, r p.1 ≠ b) :
    Dict.get? (d.map fun p => (r p.1, p.2)) b = none := by
  induction d with
  | nil => rfl
  | cons p d ih =>
    simp only [List.map_cons, Dict.get?]
    rw [if_neg (hb p (by simp)), ih fun q hq => hb q (by simp [hq])]

theorem filterMap_map_congr {α β γ : Type} {f : β → Option γ} {g : α → Option γ} {k : α → β} {m : Multiset α}
    (h : ∀ a ∈ m, f (k a) = g a) : (m.map k).filterMap f = m.filterMap g := by
  induction m using Multiset.induction_on with
  | empty => rfl
  | cons a m ih =>
    have e := h a (by simp)
    have ih := ih fun b hb => h b (by simp [hb])
    rw [Multiset.map_cons]
    cases hg : g a with
    | none => rw [Multiset.filterMap_cons_none _ _ hg, Multiset.filterMap_cons_none _ _ (e.trans hg), ih]
    | some c => rw [Multiset.filterMap_cons_some _ _ _ hg, Multiset.filterMap_cons_some _ _ _ (e.trans hg), ih]

/-- The table with renamed attributes is the table of the instances with renamed attributes. -/
theorem summarizes3_mapKeys {s : Stats3 Py Py} {m₁ : Multiset (Inst3 Py Py)} (h : Summarizes3 s m₁) {r : Py → Py}
    (hr : ∀ x ∈ s.av.keys, ∀ y ∈ s.av.keys, r x = r y → x = y) :
    Summarizes3 ⟨s.count, s.av.map fun p => (r p.1, p.2)⟩ (m₁.map fun i => i.map fun p => (r p.1, p.2)) := by
  have hK : ∀ p ∈ s.av, p.1 ∈ s.av.keys := fun p hp => List.mem_map_of_mem (f := Prod.fst) hp
  have hI : ∀ i ∈ m₁, ∀ p ∈ i, p.1 ∈ s.av.keys := fun i hi p hp =>
    (h.attrs _).2 ⟨i, hi, List.mem_map_of_mem (f := Prod.fst) hp⟩
  have hg : ∀ a ∈ s.av.keys, ∀ i ∈ m₁, Dict.get? (i.map fun p => (r p.1, p.2)) (r a) = Dict.get? i a :=
    fun a ha i hi => get?_mapKeys hr (hI i hi) ha
  have hg0 : ∀ b, (∀ a ∈ s.av.keys, r a ≠ b) → ∀ i ∈ m₁, Dict.get? (i.map fun p => (r p.1, p.2)) b = none :=
    fun b hb i hi => get?_mapKeys_none fun p hp => hb _ (hI i hi p hp)
  have hocc : ∀ a ∈ s.av.keys, ∀ v, occ (m₁.map fun i => i.map fun p => (r p.1, p.2)) (r a) v = occ m₁ a v := by
    intro a ha v
    rw [occ, occ, Multiset.countP_map, ← Multiset.countP_eq_card_filter]
    exact Multiset.countP_congr rfl fun i hi => by rw [hg a ha i hi]
  have hnum : ∀ a ∈ s.av.keys, nums (m₁.map fun i => i.map fun p => (r p.1, p.2)) (r a) = nums m₁ a := by
    intro a ha
    exact filterMap_map_congr fun i hi => by rw [hg a ha i hi]
  refine ⟨?_, ?_, ?_, ?_, ?_⟩
  · simp [h.count]
  · intro b v
    by_cases hb : ∃ a ∈ s.av.keys, r a = b
    · obtain ⟨a, ha, rfl⟩ := hb
      rw [hocc a ha, ← h.noms a v]
      simp only [Stats3.nomLookup]
      rw [get?_mapKeys hr hK ha]
    · push Not at hb
      have : occ (m₁.map fun i => i.map fun p => (r p.1, p.2)) b (.nom v) = 0 := by
        rw [occ, Multiset.countP_eq_zero]
        intro j hj
        obtain ⟨i, hi, rfl⟩ := Multiset.mem_map.1 hj
        rw [hg0 b hb i hi]; simp
      rw [this, if_pos rfl]
      simp only [Stats3.nomLookup]
      rw [get?_mapKeys_none fun p hp => hb _ (hK p hp)]
      rfl
  · intro b
    by_cases hb : ∃ a ∈ s.av.keys, r a = b
    · obtain ⟨a, ha, rfl⟩ := hb
      rw [hnum a ha]
      have : Stats3.cvOf ⟨s.count, s.av.map fun p => (r p.1, p.2)⟩ (r a) = s.cvOf a := by
        simp only [Stats3.cvOf]
        rw [get?_mapKeys hr hK ha]
      rw [this]
      exact h.cv a
    · push Not at hb
      left
      constructor
      · rw [nums, Multiset.eq_zero_iff_forall_notMem]
        intro x hx
        obtain ⟨j, hj, hx⟩ := (Multiset.mem_filterMap _ _).1 hx
        obtain ⟨i, hi, rfl⟩ := Multiset.mem_map.1 hj
        rw [hg0 b hb i hi] at hx
        cases hx
      · simp only [Stats3.cvOf]
        rw [get?_mapKeys_none fun p hp => hb _ (hK p hp)]
        rfl
  · intro b
    constructor
    · intro hb
      obtain ⟨p, hp, rfl⟩ := List.mem_map.1 hb
      obtain ⟨q, hq, rfl⟩ := List.mem_map.1 hp
      obtain ⟨i, hi, hk⟩ := (h.attrs q.1).1 (hK q hq)
      obtain ⟨e, he, e1⟩ := List.mem_map.1 hk
      refine ⟨_, Multiset.mem_map_of_mem _ hi, List.mem_map.2 ⟨(r e.1, e.2), List.mem_map.2 ⟨e, he, rfl⟩, by simp [e1]⟩⟩
    · rintro ⟨j, hj, hb⟩
      obtain ⟨i, hi, rfl⟩ := Multiset.mem_map.1 hj
      obtain ⟨p, hp, rfl⟩ := List.mem_map.1 hb
      obtain ⟨q, hq, rfl⟩ := List.mem_map.1 hp
      obtain ⟨e, he, e1⟩ := List.mem_map.1 (hI i hi q hq)
      exact List.mem_map.2 ⟨(r e.1, e.2), List.mem_map.2 ⟨e, he, rfl⟩, by simp [e1]⟩
  · constructor
    · have : Dict.keys (s.av.map fun p => (r p.1, p.2)) = s.av.keys.map r := by simp [Dict.keys, Function.comp_def]
      rw [Dict.Nodup, this]
      exact h.nodup.1.map_on hr
    · intro p hp
      obtain ⟨q, hq, rfl⟩ := List.mem_map.1 hp
      exact h.nodup.2 q hq

/-- The number of values recorded under an attribute is the number of instances that have it. -/
theorem Summarizes3.total_eq {s : Stats3 Py Py} {m₁ : Multiset (Inst3 Py Py)} (h : Summarizes3 s m₁) {a : Py} {t : Tab Py}
    (ht : (a, t) ∈ s.av) : t.total = m₁.countP fun i : Inst3 Py Py => a ∈ Dict.keys i := by
  have h1 := h.total ht
  have h2 := countP_none_add3 m₁ a (nomVals m₁ a) (Finset.Subset.refl _)
  have h3 := Multiset.card_eq_countP_add_countP (fun i : Inst3 Py Py => a ∈ Dict.keys i) m₁
  have h4 : (m₁.countP fun i : Inst3 Py Py => ¬ a ∈ Dict.keys i) = m₁.countP fun i => Dict.get? i a = none :=
    Multiset.countP_congr rfl fun i _ => by rw [Dict.get?_eq_none]
  omega

theorem foldr_max_le {l : List ℕ} {n : ℕ} : l.foldr max 0 ≤ n ↔ ∀ x ∈ l, x ≤ n := by
  induction l with
  | nil => simp
  | cons x l ih => simp [ih]

theorem tableCount_le_iff {av : Dict Py (Tab Py)} {n : ℕ} : tableCount av ≤ n ↔ ∀ p ∈ av, p.2.total ≤ n := by
  rw [tableCount, foldr_max_le, List.forall_mem_map]

/-- **C74**: the count given to the concept made from a table is the number of instances that have the most
frequent attribute. -/
theorem C74_table_count {s : Stats3 Py Py} {m₁ : Multiset (Inst3 Py Py)} (h : Summarizes3 s m₁) :
    tableCount s.av ≤ Multiset.card m₁ ∧
    (tableCount s.av = Multiset.card m₁ ↔ m₁ = 0 ∨ ∃ a, ∀ i ∈ m₁, a ∈ Dict.keys i) := by
  have hle : tableCount s.av ≤ Multiset.card m₁ := tableCount_le_iff.2 fun p hp => by
    rw [h.total_eq hp]; exact Multiset.countP_le_card _ _
  refine ⟨hle, fun e => ?_, ?_⟩
  · by_contra hc
    push Not at hc
    obtain ⟨hc0, hc⟩ := hc
    have hpos : 0 < Multiset.card m₁ := Multiset.card_pos.2 hc0
    have : tableCount s.av ≤ Multiset.card m₁ - 1 := tableCount_le_iff.2 fun p hp => by
      rw [h.total_eq hp]
      obtain ⟨i, hi, hn⟩ := hc p.1
      have := Multiset.countP_le_card (fun i : Inst3 Py Py => p.1 ∈ Dict.keys i) m₁
      have h2 : (m₁.countP fun i : Inst3 Py Py => p.1 ∈ Dict.keys i) ≠ Multiset.card m₁ := by
        rw [Ne, Multiset.countP_eq_card]
        exact fun H => hn (H i hi)
      omega
    omega
  · rintro (rfl | ⟨a, ha⟩)
    · simpa using hle
    · refine le_antisymm hle ?_
      by_cases h0 : m₁ = 0
      · subst h0; simp
      · obtain ⟨i, hi⟩ := Multiset.exists_mem_of_ne_zero h0
        obtain ⟨⟨a', t⟩, hp, e⟩ := List.mem_map.1 ((h.attrs a).2 ⟨i, hi, ha i hi⟩)
        simp only at e
        subst e
        have h1 := tableCount_le_iff.1 (le_refl (tableCount s.av)) _ hp
        simp only at h1
        rw [h.total_eq hp, Multiset.countP_eq_card.2 ha] at h1
        exact h1

theorem KeepsApart.inj_attrs {m : Dict Py Py} {as : List Py} (hm : KeepsApart m as) :
    ∀ a ∈ as, ∀ b ∈ as, renEl (image m) a = renEl (image m) b → a = b := by
  classical
  let g : Py → Py := fun z => if h : ∃ x ∈ varsOf as, image m x = z then h.choose else z
  have hg : ∀ x ∈ varsOf as, g (image m x) = x := by
    intro x hx
    have h : ∃ y ∈ varsOf as, image m y = image m x := ⟨x, hx, rfl⟩
    show (if h : ∃ y ∈ varsOf as, image m y = image m x then h.choose else image m x) = x
    rw [dif_pos h]
    exact hm.inj _ h.choose_spec.1 _ hx h.choose_spec.2
  have hk : ∀ a ∈ as, ∀ x ∈ varsEl a, Variable (image m x) ∧ g (image m x) = x := fun a ha x hx =>
    ⟨hm.vars x (mem_varsOf.2 ⟨a, ha, hx⟩), hg x (mem_varsOf.2 ⟨a, ha, hx⟩)⟩
  intro a ha b hb e
  rw [← renEl_renEl a (hk a ha), e, renEl_renEl b (hk b hb)]

theorem KeepsApart.renameTab {m : Dict Py Py} {av : Dict Py (Tab Py)} (hm : KeepsApart m av.keys) (hn : Dict.Nodup av) :
    renameTab av m = av.map fun p => (renEl (image m) p.1, p.2) := by
  have e : (fun p : Py × Tab Py => (renameEl m p.1, p.2)) = fun p => (renEl (image m) p.1, p.2) := by
    funext p
    rw [renameEl_apply hm.dom]
    rfl
  rw [CF.renameTab, renameTabInto_keys, e]
  · rfl
  · rw [e, List.nil_append]
    have : Dict.keys (av.map fun p => (renEl (image m) p.1, p.2)) = av.keys.map (renEl (image m)) := by
      simp [Dict.keys, Function.comp_def]
    rw [Dict.Nodup, this]
    exact hn.map_on hm.inj_attrs

/-- **C74** (partial): the cost of mapping a probability table is minus the expected correct guesses of a concept
that has, besides the instances of the base, those of the table with their variables renamed, if the instances of
the table have an attribute in common.

Full statement: the same for all tables.  Otherwise the code takes the table to have fewer instances than it has
(`C74_table_count`, `C74_table_count_low`). -/
theorem C74_table_partial (hb : Summarizes3 base m₀) (hsc : ScalesObs sc f) {s : Stats3 Py Py}
    {m₁ : Multiset (Inst3 Py Py)} (h : Summarizes3 s m₁) (h0 : m₁ ≠ 0) (ha : ∃ a, ∀ i ∈ m₁, a ∈ Dict.keys i)
    {m : Dict Py Py} (hm : KeepsApart m s.av.keys)
    (hv : ∃ a, hid3 a = false ∧ (a ∈ base.av.keys ∨ a ∈ s.av.keys.map (renEl (image m)))) :
    mappingCostTab cfg sc base m s.av =
      .ok (-(ecgSpec3 hid3 cfg f (m₀ + m₁.map fun i => i.map fun p => (renEl (image m) p.1, p.2)))) := by
  have hk := hm.renameTab h.nodup.1
  have hc : tableCount (renameTab s.av m) = s.count := by
    rw [hk, h.count, ← (C74_table_count h).2.2 (.inr ha)]
    simp [tableCount, Function.comp_def]
  have hs := summarizes3_add (summarizes3_add summarizes3_fresh hb) (summarizes3_mapKeys h hm.inj_attrs)
  rw [zero_add] at hs
  have hne : renameTab s.av m ≠ [] := by
    obtain ⟨a, ha⟩ := ha
    obtain ⟨i, hi⟩ := Multiset.exists_mem_of_ne_zero h0
    have := (h.attrs a).2 ⟨i, hi, ha i hi⟩
    rw [hk]
    intro e
    rw [List.map_eq_nil_iff] at e
    rw [e] at this
    cases this
  have hvis : (visAttrs hid3 (m₀ + m₁.map fun i => i.map fun p => (renEl (image m) p.1, p.2))).Nonempty := by
    obtain ⟨a, h1, h2⟩ := hv
    refine ⟨a, Finset.mem_filter.2 ⟨mem_attrsOf.2 ((hs.attrs a).1 ?_), by simpa using h1⟩⟩
    rw [hs.attrs]
    rcases h2 with h2 | h2
    · obtain ⟨j, hj, ha⟩ := (hb.attrs a).1 h2
      exact ⟨j, Multiset.mem_add.2 (.inl hj), ha⟩
    · have := ((summarizes3_mapKeys h hm.inj_attrs).attrs a).1 (by simpa [Dict.keys, Function.comp_def] using h2)
      obtain ⟨j, hj, ha⟩ := this
      exact ⟨j, Multiset.mem_add.2 (.inr hj), ha⟩
  have key := ecg3_eq (cfg := cfg) hs hsc hvis
  rw [← hk, ← hc] at key
  rw [mappingCostTab]
  generalize renameTab s.av m = r at hne key
  match r with
  | [] => exact absurd rfl hne
  | p :: r => simp only [key]; rfl

/-- **C74**: two instances without a common attribute are counted as one. -/
theorem C74_table_count_low : ∃ (s : Stats3 Py Py) (m₁ : Multiset (Inst3 Py Py)), Summarizes3 s m₁ ∧
    tableCount s.av = 1 ∧ Multiset.card m₁ = 2 := by
  refine ⟨(Stats3.fresh.incr [(.str c!"a", .nom (.str c!"x"))]).incr [(.str c!"b", .nom (.str c!"y"))], _,
    summarizes3_incr (summarizes3_incr summarizes3_fresh (by decide)) (by decide), ?_, rfl⟩
  rfl

end

end CF
