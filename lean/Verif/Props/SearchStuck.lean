/-
C112: hill climbing from the cheapest assignment can miss the cheapest mapping.
-/
import Verif.Props.SearchSpace

namespace CF

/-! ### Agreements of Python instances -/

theorem val3_inj {v w : Py} (h : val3 v = val3 w) : v = w := by
  cases v <;> cases w <;> simp_all [val3]

theorem get?_inst3 (i : PyInst) (a : Py) : Dict.get? (inst3 i) a = (Dict.get? i a).map val3 := by
  induction i with
  | nil => rfl
  | cons p i ih =>
    simp only [inst3, List.map_cons, Dict.get?]
    split
    · rfl
    · exact ih

theorem attrsOf_inst3 (g : Multiset PyInst) : attrsOf (g.map inst3) = attrsOf g := by
  ext a
  rw [mem_attrsOf, mem_attrsOf]
  constructor
  · rintro ⟨j, hj, ha⟩
    obtain ⟨i, hi, rfl⟩ := Multiset.mem_map.1 hj
    exact ⟨i, hi, keys_inst3 i ▸ ha⟩
  · rintro ⟨i, hi, ha⟩
    exact ⟨_, Multiset.mem_map_of_mem _ hi, (keys_inst3 i).symm ▸ ha⟩

theorem visAttrs_inst3 (g : Multiset PyInst) : visAttrs hid3 (g.map inst3) = visAttrs hid3 g := by
  rw [visAttrs, attrsOf_inst3, visAttrs]

theorem ownAttrs_inst3 (i : PyInst) : ownAttrs hid3 (inst3 i) = ownAttrs hid3 i := by
  rw [ownAttrs, ← Multiset.map_singleton, visAttrs_inst3, ownAttrs]

theorem newAttrs_inst3 (i : PyInst) (g : Multiset PyInst) : newAttrs hid3 (inst3 i) (g.map inst3) = newAttrs hid3 i g := by
  rw [newAttrs, ownAttrs_inst3, visAttrs_inst3, newAttrs]

theorem agreements_inst3 (i : PyInst) (g : Multiset PyInst) :
    agreements hid3 (inst3 i) (g.map inst3) = agreements hid3 i g := by
  rw [agreements, ownAttrs_inst3, agreements]
  refine Finset.sum_congr rfl fun a _ => ?_
  rw [Multiset.countP_map, Multiset.countP_eq_card_filter]
  congr 1
  refine Multiset.filter_congr fun b _ => ?_
  rw [get?_inst3, get?_inst3]
  constructor
  · intro e
    cases h1 : Dict.get? b a <;> cases h2 : Dict.get? i a <;> rw [h1, h2] at e <;> simp at e
    rw [val3_inj e]
  · intro e
    rw [e]

theorem squares_inst3 (i : PyInst) : squares hid3 ({inst3 i} : Multiset (Inst3 Py Py)) = (ownAttrs hid3 i).card := by
  have h := squares_cons (hid := hid3) (inst3 i) 0
  have h0 : squares hid3 (0 : Multiset (Inst3 Py Py)) = 0 := by simp [squares, visAttrs, attrsOf]
  have h1 : agreements hid3 (inst3 i) 0 = 0 := by simp [agreements]
  rw [h0, h1, ownAttrs_inst3] at h
  simpa using h

/-! ### The example -/

namespace Stuck

def x : Py := .str c!"?x"
def y : Py := .str c!"?y"
def k1 : Py := .str c!"?c1"
def k2 : Py := .str c!"?c2"
def k3 : Py := .str c!"?c3"
def k4 : Py := .str c!"?c4"

/-- A scene: a red and a blue thing, and two other things of which one is on, near and above the other. -/
def scene : PyInst :=
  [(.tup [.str c!"color", k1], .str c!"red"), (.tup [.str c!"color", k2], .str c!"blue"),
   (.tup [.str c!"on", k3, k4], .bool true), (.tup [.str c!"near", k3, k4], .bool true),
   (.tup [.str c!"above", k3, k4], .bool true)]

/-- An instance: a red thing on, near and above a blue one. -/
def target : PyInst :=
  [(.tup [.str c!"color", x], .str c!"red"), (.tup [.str c!"color", y], .str c!"blue"),
   (.tup [.str c!"on", x, y], .bool true), (.tup [.str c!"near", x, y], .bool true),
   (.tup [.str c!"above", x, y], .bool true)]

/-- The concept that has counted the scene. -/
noncomputable def base : Stats3 Py Py := Stats3.fresh.incr (inst3 scene)

theorem base_sums : Summarizes3 base ({inst3 scene} : Multiset (Inst3 Py Py)) :=
  summarizes3_incr summarizes3_fresh (inst3_nodup (by decide +kernel))

theorem nominal_of {i : PyInst} (h : ∀ p ∈ i, ∀ q, p.2 ≠ .num q) : Nominal hid3 (inst3 i) := by
  intro a _ r e
  rw [get?_inst3] at e
  cases hg : Dict.get? i a with
  | none => rw [hg] at e; cases e
  | some v =>
    rw [hg] at e
    have hv := h (a, v) (Dict.mem_of_get? hg)
    cases v <;> simp_all [val3]

theorem base_keys (a : Py) : a ∈ base.av.keys ↔ a ∈ Dict.keys scene := by
  rw [base_sums.attrs]
  simp [keys_inst3]

theorem task : NominalTask base {inst3 scene} target [x, y] [k1, k2, k3, k4] where
  sums := base_sums
  nodup := by decide +kernel
  ne := by simp [target]
  attrs := by simp [target, Dict.keys, FitAttr, FitAttrs, x, y]
  vars z := by
    have : varsOf (Dict.keys target) = [x, y, x, y, x, y, x, y] := by decide +kernel
    rw [this]
    simp
    tauto
  baseVars z := by
    have h : z ∈ varsOf base.av.keys ↔ z ∈ varsOf (Dict.keys scene) := by
      rw [mem_varsOf, mem_varsOf]
      simp only [base_keys]
    have : varsOf (Dict.keys scene) = [k1, k2, k3, k4, k3, k4, k3, k4] := by decide +kernel
    rw [h, this]
    simp
    tauto
  apart := by decide +kernel
  distinct := by decide +kernel
  visible := ⟨.tup [.str c!"color", k1], (base_keys _).2 (by decide +kernel), by decide +kernel⟩
  nominal := nominal_of (by simp [target])
  baseNominal := by
    intro j hj
    rw [Multiset.mem_singleton.1 hj]
    exact nominal_of (by simp [scene])

/-- The score of a mapping, from the numbers of agreements and of new attributes. -/
def score (m : Dict Py Py) : ℚ :=
  (10 + 2 * agreements hid3 (renamedInst m target) {scene}) / (4 * (5 + newAttrs hid3 (renamedInst m target) {scene}))

theorem cost {cfg : Cfg3 Py Py} {sc : Scales Py} {f : Py → Multiset ℝ} (hsc : ScalesObs sc f) {m : Dict Py Py}
    (hm : KeepsApart m target.keys) : mappingCost cfg sc base m target = .ok (-(score m : ℝ)) := by
  rw [task.cost_apart hsc hm]
  have e1 : ({inst3 scene} : Multiset (Inst3 Py Py)) = Multiset.map inst3 {scene} := rfl
  have e2 : (ownAttrs hid3 scene).card = 5 := by decide +kernel
  have e3 : (ownAttrs hid3 target).card = 5 := by decide +kernel
  have e4 : (visAttrs hid3 ({scene} : Multiset PyInst)).card = 5 := e2
  rw [squares_inst3, ownAttrs_inst3, e1, agreements_inst3, newAttrs_inst3, visAttrs_inst3, e2, e3, e4, score,
    Multiset.card_map, Multiset.card_singleton]
  generalize agreements hid3 (renamedInst m target) {scene} = p
  generalize newAttrs hid3 (renamedInst m target) {scene} = q
  congr 2
  push_cast
  norm_num

/-- The mapping by colours. -/
def byColor : Dict Py Py := [(x, k1), (y, k2)]

/-- The mapping by relations. -/
def byRelation : MapState := ([(x, k3), (y, k4)], [k1, k2])

/-- The cost of a pair alone. -/
def pair (o d : Py) : ℚ := if d = o then score [] else score [(o, d)]

theorem pair_x : ∀ d ∈ [x, k1, k2, k3, k4], d ≠ k1 → pair x d < pair x k1 := by decide +kernel
theorem pair_y : ∀ d ∈ [y, k1, k2, k3, k4], d ≠ k2 → pair y d < pair y k2 := by decide +kernel

theorem neighbours : ∀ m ∈ byColor.permutations', ∀ u ∈ [k3, k4].permutations', ∀ r ∈ successors (m, u),
    score r.1 < score byColor := by decide +kernel

theorem better : score byColor < score byRelation.1 := by decide +kernel

theorem score_image {m m' : Dict Py Py} (h : ∀ z, m.get? z = m'.get? z) : score m = score m' := by
  have : image m = image m' := by
    funext z
    rw [image, image, h]
  rw [score, score, renamedInst, renamedInst, this]

theorem cost_state {cfg : Cfg3 Py Py} {sc : Scales Py} {f : Py → Multiset ℝ} (hsc : ScalesObs sc f) {s : MapState}
    (hs : MappingOk [x, y] [k1, k2, k3, k4] s) : mappingCost cfg sc base s.1 target = .ok (-(score s.1 : ℝ)) :=
  cost hsc (task.keepsApart hs)

theorem byRelation_ok : MappingOk [x, y] [k1, k2, k3, k4] byRelation := by
  have hg : ∀ z, byRelation.1.get? z = if x = z then some k3 else if y = z then some k4 else none := fun z => rfl
  have hxy : x ≠ y := by decide
  have h34 : k3 ≠ k4 := by decide
  refine ⟨by decide, by simp [byRelation, Dict.keys], ?_, ?_, ?_, by decide⟩
  · intro a b v h1 h2
    rw [hg] at h1 h2
    grind
  · intro a v h
    rw [hg] at h
    have : k3 ∈ [k1, k2, k3, k4] ∧ k4 ∈ [k1, k2, k3, k4] := by simp
    grind
  · intro c
    simp only [hg]
    constructor
    · intro h
      have h1 : k1 ≠ k3 ∧ k1 ≠ k4 ∧ k2 ≠ k3 ∧ k2 ≠ k4 := by decide
      simp only [byRelation, List.mem_cons, List.not_mem_nil, or_false] at h
      refine ⟨by rcases h with rfl | rfl <;> simp, fun z e => ?_⟩
      grind
    · rintro ⟨h1, h2⟩
      have hx := h2 x
      have hy := h2 y
      simp only [List.mem_cons, List.not_mem_nil, or_false] at h1
      rw [if_pos rfl] at hx
      rw [if_neg hxy, if_pos rfl] at hy
      simp only [byRelation, List.mem_cons, List.not_mem_nil, or_false]
      grind

/-- The costs of pairs are those that the matrix has. -/
theorem pair_cost {cfg : Cfg3 Py Py} {sc : Scales Py} {f : Py → Multiset ℝ} (hsc : ScalesObs sc f) :
    (∀ o ∈ [x, y], ∀ d ∈ [k1, k2, k3, k4], mappingCost cfg sc base [(o, d)] target = .ok (-(pair o d : ℝ))) ∧
    ∀ o ∈ [x, y], mappingCost cfg sc base [] target = .ok (-(pair o o : ℝ)) := by
  constructor
  · intro o ho d hd
    have hne : d ≠ o := fun e => task.apart o ho (e ▸ hd)
    rw [cost hsc (keepsApart_one ((task.vars o).1 ho) (varsOf_variable ((task.baseVars d).1 hd))
      fun h => task.apart d ((task.vars d).2 h) hd), pair, if_neg hne]
  · intro o ho
    rw [cost hsc keepsApart_nil, pair, if_pos rfl]

end Stuck

open Stuck in
/-- **C112**: a cheapest assignment is a start from which no step leads to a mapping that costs as little, although the
mapping by relations costs less; so hill climbing returns the mapping by colours, whatever cheapest assignment is taken
and whatever order successors come in. -/
theorem C112_stuck {cfg : Cfg3 Py Py} {sc : Scales Py} {f : Py → Multiset ℝ} (hsc : ScalesObs sc f)
    {compute : List (List (WithTop ℝ)) → Res (List (ℕ × ℕ))} (hM : MunkresLaw compute) {idx : List (ℕ × ℕ)}
    (hrun : munkresAssign compute (fun m => mappingCost cfg sc base m target) [x, y] [k1, k2, k3, k4] = .ok idx) :
    ∃ M v, assignLoop [x, y] [k1, k2, k3, k4] idx [] = .ok M ∧
      MappingOk [x, y] [k1, k2, k3, k4] (M, unusedNames [k1, k2, k3, k4] M) ∧
      mappingCost cfg sc base M target = .ok v ∧
      (∀ r, SuccStep (M, unusedNames [k1, k2, k3, k4] M) r → ∃ w, mappingCost cfg sc base r.1 target = .ok w ∧ v < w) ∧
      ∃ t w, MappingOk [x, y] [k1, k2, k3, k4] t ∧ mappingCost cfg sc base t.1 target = .ok w ∧ w < v := by
  obtain ⟨hw, hu⟩ := pair_cost (cfg := cfg) hsc
  obtain ⟨M, h1, hk, -, hinto, hmin⟩ := C75_hungarian (w := fun o d => -(pair o d : ℝ)) hM (by decide) task.distinct
    task.apart hw hu hrun
  obtain ⟨M', h1', hok⟩ := assign_ok (cn := [k1, k2, k3, k4]) (by decide) task.distinct (fun _ => Iff.rfl) task.apart
    (C75_assignment hM hrun)
  obtain rfl : M = M' := by rw [h1] at h1'; exact Except.ok.inj h1'
  have hxy : x ≠ y := by decide
  have hm := hmin (fun z => if z = x then k1 else if z = y then k2 else z) (by decide) (by decide)
  simp only [List.map_cons, List.map_nil, List.sum_cons, List.sum_nil, add_zero, if_true, if_neg hxy.symm] at hm
  have hx : image M x = k1 := by
    by_contra hne
    have hin : image M x ∈ [x, k1, k2, k3, k4] := by
      rcases hinto x (by simp) with e | e
      · rw [e]; simp
      · exact List.mem_cons_of_mem _ e
    have h2 : (pair x (image M x) : ℝ) < pair x k1 := by exact_mod_cast pair_x _ hin hne
    have h3 : (pair y (image M y) : ℝ) ≤ pair y k2 := by
      have hin : image M y ∈ [y, k1, k2, k3, k4] := by
        rcases hinto y (by simp) with e | e
        · rw [e]; simp
        · exact List.mem_cons_of_mem _ e
      by_cases e : image M y = k2
      · rw [e]
      · exact_mod_cast (pair_y _ hin e).le
    linarith
  have hy : image M y = k2 := by
    by_contra hne
    have hin : image M y ∈ [y, k1, k2, k3, k4] := by
      rcases hinto y (by simp) with e | e
      · rw [e]; simp
      · exact List.mem_cons_of_mem _ e
    have h2 : (pair y (image M y) : ℝ) < pair y k2 := by exact_mod_cast pair_y _ hin hne
    rw [hx] at hm
    linarith
  have hget : ∀ z, M.get? z = byColor.get? z := by
    intro z
    have hb : byColor.get? z = if x = z then some k1 else if y = z then some k2 else none := rfl
    rw [hb]
    split
    · next e => subst e; rw [← hx]; exact hok.get?_image (by simp)
    · split
      · next e => subst e; rw [← hy]; exact hok.get?_image (by simp)
      · next e1 e2 =>
        exact hok.get?_none (by
          simp only [List.mem_cons, List.not_mem_nil, or_false, not_or]
          exact ⟨fun q => e1 q.symm, fun q => e2 q.symm⟩)
  have hperm : M.Perm byColor := by
    refine (List.perm_ext_iff_of_nodup (List.Nodup.of_map _ hok.nodup) (by decide)).2 fun ⟨a, b⟩ => ?_
    rw [Dict.mem_iff_get? hok.nodup, Dict.mem_iff_get? (by decide : Dict.Nodup byColor), hget]
  have hun : (unusedNames [k1, k2, k3, k4] M).Perm [k3, k4] := by
    refine (List.perm_ext_iff_of_nodup hok.set (by decide)).2 fun c => ?_
    have := hok.unused c
    simp only at this
    rw [this]
    have hb : ∀ z, M.get? z = if x = z then some k1 else if y = z then some k2 else none := hget
    have hd : k1 ≠ k3 ∧ k1 ≠ k4 ∧ k2 ≠ k3 ∧ k2 ≠ k4 := by decide
    simp only [hb]
    constructor
    · rintro ⟨h2, h3⟩
      have h4 := h3 x
      have h5 := h3 y
      rw [if_pos rfl] at h4
      rw [if_neg hxy, if_pos rfl] at h5
      simp only [List.mem_cons, List.not_mem_nil, or_false] at h2 ⊢
      grind
    · intro h2
      simp only [List.mem_cons, List.not_mem_nil, or_false] at h2 ⊢
      refine ⟨by tauto, fun z e => ?_⟩
      grind
  refine ⟨M, _, h1, hok, cost_state hsc hok, ?_, byRelation, _, byRelation_ok, cost_state hsc byRelation_ok, ?_⟩
  · intro r hr
    have hrok := hok.step task.apart hr.mapStep
    refine ⟨_, cost_state hsc hrok, neg_lt_neg ?_⟩
    obtain ⟨m, u, hm', hu', hr⟩ := hr
    have := neighbours m (List.mem_permutations'.2 (hm'.trans hperm)) u (List.mem_permutations'.2 (hu'.trans hun)) r hr
    rw [show score (M, unusedNames [k1, k2, k3, k4] M).1 = score byColor from score_image hget]
    exact_mod_cast this
  · rw [show score (M, unusedNames [k1, k2, k3, k4] M).1 = score byColor from score_image hget]
    exact neg_lt_neg (by exact_mod_cast better)

/-- Where no step improves, improving steps lead nowhere. -/
theorem C112_stays {cost : Dict Py Py → Res ℝ} {s r : MapState} {v : ℝ} (hv : cost s.1 = .ok v)
    (h : ∀ r, SuccStep s r → ∃ w, cost r.1 = .ok w ∧ v < w)
    (hr : Relation.ReflTransGen (fun a b => SuccStep a b ∧ ∃ p q, cost a.1 = .ok p ∧ cost b.1 = .ok q ∧ q < p) s r) :
    r = s := by
  induction hr with
  | refl => rfl
  | tail _ hstep ih =>
    subst ih
    obtain ⟨hs, p, q, hp, hq, hlt⟩ := hstep
    obtain ⟨w, hw, hvw⟩ := h _ hs
    rw [hv] at hp
    rw [hw] at hq
    cases hp
    cases hq
    exact absurd hlt (not_lt.2 hvw.le)

open Stuck in
/-- There is such a run. -/
example {cfg : Cfg3 Py Py} {sc : Scales Py} {f : Py → Multiset ℝ} (hsc : ScalesObs sc f) :
    ∃ compute idx, MunkresLaw compute ∧
      munkresAssign compute (fun m => mappingCost cfg sc base m target) [x, y] [k1, k2, k3, k4] = .ok idx := by
  obtain ⟨compute, h1, h2⟩ := munkresLaw_exists
  obtain ⟨hw, hu⟩ := pair_cost (cfg := cfg) hsc
  obtain ⟨idx, hi⟩ := h2 ([x, y].map (rowOf (fun o d => -(pair o d : ℝ)) [x, y] [k1, k2, k3, k4]))
  exact ⟨compute, idx, h1, by rw [munkresAssign, costRows_eq hw hu, ok_bind, hi]⟩

open Stuck in
/-- From the mapping by colours the better one is two steps away. -/
example : ∃ n r, n ≤ 2 ∧ SuccSteps n (byColor, [k3, k4]) r ∧ SameState r byRelation := by
  have hok : MappingOk [x, y] [k1, k2, k3, k4] (byColor, [k3, k4]) := by
    obtain ⟨m, h1, h2⟩ := assign_ok (is := [x, y]) (cs := [k1, k2, k3, k4]) (cn := [k1, k2, k3, k4]) (by decide)
      (by decide) (fun _ => Iff.rfl) (by decide) (assignment_diag 2 4)
    have : m = byColor := by
      have : assignLoop [x, y] [k1, k2, k3, k4] ((List.range 2).map fun r => (r, r)) [] = .ok byColor := by decide +kernel
      exact Except.ok.inj (h1.symm.trans this)
    subst this
    have e : unusedNames [k1, k2, k3, k4] byColor = [k3, k4] := by decide +kernel
    rwa [e] at h2
  exact C112_steps task.apart hok byRelation_ok (by decide)

/-! ### Numbers: mapping more can cost more -/

namespace Stuck

/-- The size of a thing. -/
def size (z : Py) : Py := .tup [.str c!"size", z]

/-- The concept that has counted one thing of size 0. -/
noncomputable def small : Stats3 Py Py := Stats3.fresh.incr (inst3 [(size k1, .num 0)])

theorem small_sums : Summarizes3 small ({inst3 [(size k1, .num 0)]} : Multiset (Inst3 Py Py)) :=
  summarizes3_incr summarizes3_fresh (inst3_nodup (by decide +kernel))

theorem numTerm_one {u : ℝ} {m : Multiset (Inst3 Py Py)} {a : Py} {r : ℝ} (h : nums m a = {r}) (hm : Multiset.card m = 2) :
    numTerm u m a = 1 / 4 := by
  have hstd : sampleStd ({r} : Multiset ℝ) = 0 := by simp [sampleStd]
  rw [numTerm, h, hstd, hm, Multiset.card_singleton, zero_div, zero_pow two_ne_zero, zero_add]
  have hpi := Real.pi_pos
  have : 2 * Real.sqrt Real.pi * Real.sqrt (1 / (4 * Real.pi)) = 1 := by
    rw [Real.sqrt_div zero_le_one, Real.sqrt_one, Real.sqrt_mul (by norm_num : (0 : ℝ) ≤ 4),
      show Real.sqrt 4 = 2 by rw [show (4 : ℝ) = 2 ^ 2 by norm_num]; exact Real.sqrt_sq (by norm_num)]
    have : Real.sqrt Real.pi ≠ 0 := (Real.sqrt_pos.2 hpi).ne'
    field_simp
  rw [this]
  norm_num

end Stuck

open Stuck in
/-- A thing of size 10 costs less unmapped than mapped to one of size 0, whatever the scaling: `C112_extend` needs nominal
values. -/
theorem C112_numbers {cfg : Cfg3 Py Py} {sc : Scales Py} {f : Py → Multiset ℝ} (hsc : ScalesObs sc f)
    (hf : f (cfg.inner (size k1)) = {0}) :
    ∃ v w, mappingCost cfg sc small [] [(size x, .num 10)] = .ok v ∧
      mappingCost cfg sc small [(x, k1)] [(size x, .num 10)] = .ok w ∧ v < w := by
  have hk : ∀ (a b : Py) (q : ℚ), b ∈ Dict.keys (inst3 [(a, .num q)]) ↔ b = a := by
    intro a b q
    rw [keys_inst3]
    simp [Dict.keys]
  have hkey : size k1 ∈ small.av.keys := (small_sums.attrs _).2 ⟨_, Multiset.mem_singleton_self _, (hk _ _ _).2 rfl⟩
  have hv : hid3 (size k1) = false := by decide +kernel
  have hvx : hid3 (size x) = false := by decide +kernel
  have hne : size x ≠ size k1 := by decide
  have hap : KeepsApart [(x, k1)] (Dict.keys ([(size x, .num 10)] : PyInst)) :=
    keepsApart_one (by decide +kernel) ⟨_, rfl⟩ (by decide +kernel)
  refine ⟨_, _, C74_cost small_sums hsc (by decide) (by simp) keepsApart_nil ⟨_, hv, .inl hkey⟩,
    C74_cost small_sums hsc (by decide) (by simp) hap ⟨_, hv, .inl hkey⟩, neg_lt_neg ?_⟩
  have e1 : renamedInst [(x, k1)] [(size x, .num 10)] = [(size k1, .num 10)] := by decide +kernel
  have e2 : renamedInst [] [(size x, .num 10)] = [(size x, .num 10)] := by decide +kernel
  rw [e1, e2]
  have g : ∀ (a b : Py) (q : ℚ), Dict.get? (inst3 [(a, .num q)]) b = if a = b then some (.num (q : ℝ)) else none := by
    intro a b q
    by_cases e : a = b <;> simp [inst3, Dict.get?, e, val3]
  have hnom : ∀ (m : Multiset (Inst3 Py Py)) a, (∀ j ∈ m, ∃ b q, j = inst3 [(b, .num q)]) → nomVals m a = ∅ := by
    intro m a hm
    rw [nomVals]
    refine Finset.eq_empty_of_forall_notMem fun v hv => ?_
    obtain ⟨j, hj, hv⟩ := Finset.mem_biUnion.1 hv
    obtain ⟨b, q, rfl⟩ := hm j (Multiset.mem_toFinset.1 hj)
    rw [g] at hv
    by_cases e : b = a <;> simp [e] at hv
  have two : ∀ (a b : Py) (p q : ℚ), ∀ j ∈ (inst3 [(a, .num p)] ::ₘ {inst3 [(b, .num q)]} : Multiset (Inst3 Py Py)),
      ∃ b q, j = inst3 [(b, .num q)] := by
    intro a b p q j hj
    rcases Multiset.mem_cons.1 hj with rfl | hj
    · exact ⟨_, _, rfl⟩
    · exact ⟨_, _, Multiset.mem_singleton.1 hj⟩
  have hvis : ∀ (m : Multiset (Inst3 Py Py)) (s : Finset Py), (∀ a, a ∈ s ↔ ∃ j ∈ m, a ∈ Dict.keys j) →
      (∀ a ∈ s, hid3 a = false) → visAttrs hid3 m = s := by
    intro m s h1 h2
    ext a
    rw [visAttrs, Finset.mem_filter, mem_attrsOf, ← h1]
    exact ⟨fun h => h.1, fun h => ⟨h, h2 a h⟩⟩
  have v1 : visAttrs hid3 (inst3 [(size k1, .num 10)] ::ₘ {inst3 [(size k1, .num 0)]}) = {size k1} :=
    hvis _ _ (by intro a; simp [hk]) (by simpa using hv)
  have v2 : visAttrs hid3 (inst3 [(size x, .num 10)] ::ₘ {inst3 [(size k1, .num 0)]}) = {size x, size k1} :=
    hvis _ _ (by intro a; simp [hk]) (by simp [hv, hvx])
  have n1 : nums (inst3 [(size k1, .num 10)] ::ₘ {inst3 [(size k1, .num 0)]}) (size k1) = {10, 0} := by
    simp [nums, g, Val.num?, ← Multiset.cons_zero]
  have n2 : nums (inst3 [(size x, .num 10)] ::ₘ {inst3 [(size k1, .num 0)]}) (size k1) = {0} := by
    simp [nums, g, Val.num?, ← Multiset.cons_zero, hne]
  have n3 : nums (inst3 [(size x, .num 10)] ::ₘ {inst3 [(size k1, .num 0)]}) (size x) = {10} := by
    simp [nums, g, Val.num?, ← Multiset.cons_zero, hne.symm]
  have hu : effScale cfg f (size k1) = 1 := by
    have : sampleStd ({0} : Multiset ℝ) = 0 := by simp [sampleStd]
    by_cases h0 : cfg.scaling = 0 <;> simp [effScale, hf, this, h0]
  have w2 : ecgSpec3 hid3 cfg f (inst3 [(size x, .num 10)] ::ₘ {inst3 [(size k1, .num 0)]}) = 1 / 4 := by
    rw [ecgSpec3, v2, Finset.sum_pair hne, Finset.card_pair hne, hnom _ _ (two _ _ _ _), hnom _ _ (two _ _ _ _),
      numTerm_one n3 (by simp), numTerm_one n2 (by simp)]
    norm_num
  rw [w2, ecgSpec3, v1, Finset.sum_singleton, Finset.card_singleton, hnom _ _ (two _ _ _ _), Finset.sum_empty, zero_add, hu,
    numTerm, n1]
  have hstd : (5 : ℝ) ≤ sampleStd {10, 0} := by
    have hdev : sqDev ({10, 0} : Multiset ℝ) = 50 := by
      have hmean : sampleMean ({10, 0} : Multiset ℝ) = 5 := by simp [sampleMean]; norm_num
      rw [sqDev, hmean]
      simp
      norm_num
    have h7 : (7 : ℝ) ≤ Real.sqrt 50 := Real.le_sqrt_of_sq_le (by norm_num)
    have hcard : Multiset.card ({10, 0} : Multiset ℝ) = 2 := rfl
    have hc4 : c4Table.get? 2 = some 0.7978845608028654 := by decide +kernel
    rw [sampleStd, hcard, if_neg (by norm_num), hdev, hc4, Option.getD_some,
      show (50 : ℝ) / (((2 : ℕ) : ℝ) - 1) = 50 by norm_num, le_div_iff₀ (by norm_num)]
    norm_num at h7 ⊢
    linarith
  have hpi : (3 : ℝ) < Real.pi := Real.pi_gt_three
  have h1 : (1 : ℝ) ≤ Real.sqrt Real.pi := Real.one_le_sqrt.2 (by linarith)
  have h2 : (5 : ℝ) ≤ Real.sqrt ((sampleStd {10, 0} / 1) ^ 2 + 1 / (4 * Real.pi)) := by
    refine Real.le_sqrt_of_sq_le ?_
    have : 0 < 1 / (4 * Real.pi) := by positivity
    nlinarith
  have h3 : (10 : ℝ) ≤ 2 * Real.sqrt Real.pi * Real.sqrt ((sampleStd {10, 0} / 1) ^ 2 + 1 / (4 * Real.pi)) := by
    nlinarith
  have h4 := one_div_le_one_div_of_le (by norm_num : (0 : ℝ) < 10) h3
  have hc : ((Multiset.card ({10, 0} : Multiset ℝ) : ℝ) /
      (Multiset.card (inst3 [(size k1, .num 10)] ::ₘ ({inst3 [(size k1, .num 0)]} : Multiset (Inst3 Py Py))) : ℝ)) ^ 2 = 1 := by
    simp
  rw [hc]
  norm_num at h4 ⊢
  linarith

end CF
