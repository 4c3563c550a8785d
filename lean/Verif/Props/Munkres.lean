/-
C75: the mapping that the search starts from has the least cost, and steps never unmap variables.
-/
import Verif.Props.MappingCost
import Verif.Proofs.StructureMapper
import Mathlib.Algebra.BigOperators.Group.List.Basic
import Mathlib.Algebra.Order.BigOperators.Group.List
import Mathlib.Data.Set.Finite.Lattice
import Mathlib.Data.Finite.Prod
import Mathlib.Data.Fintype.Pi

namespace CF

/-! ### The cost matrix -/

section
variable {cost : Dict Py Py → Res ℝ} {is cs : List Py} {w : Py → Py → ℝ}

/-- The row of the cost matrix of `o`. -/
noncomputable def rowOf (w : Py → Py → ℝ) (is cs : List Py) (o : Py) : List (WithTop ℝ) :=
  cs.map (fun c => ((w o c : ℝ) : WithTop ℝ)) ++ is.map fun o' => if o' = o then ((w o o : ℝ) : WithTop ℝ) else ⊤

theorem costsTo_eq {o : Py} {l : List Py} (hw : ∀ c ∈ l, cost [(o, c)] = .ok (w o c)) :
    costsTo cost o l = .ok (l.map fun c => ((w o c : ℝ) : WithTop ℝ)) := by
  induction l with
  | nil => rfl
  | cons c l ih =>
    rw [costsTo, hw c (by simp), ok_bind, ih fun d hd => hw d (by simp [hd]), ok_bind]
    rfl

theorem costRows_eq {os : List Py} (hw : ∀ o ∈ os, ∀ c ∈ cs, cost [(o, c)] = .ok (w o c))
    (hu : ∀ o ∈ os, cost [] = .ok (w o o)) : costRows cost is cs os = .ok (os.map (rowOf w is cs)) := by
  induction os with
  | nil => rfl
  | cons o os ih =>
    rw [costRows, costRow, costsTo_eq (hw o (by simp)), ok_bind, hu o (by simp), ok_bind,
      ih (fun d hd => hw d (by simp [hd])) (fun d hd => hu d (by simp [hd]))]
    rfl

theorem row_left {o : Py} {c : ℕ} (hc : c < cs.length) : (rowOf w is cs o)[c]? = some ((w o cs[c] : ℝ) : WithTop ℝ) := by
  rw [rowOf, List.getElem?_append_left (by simpa using hc)]
  simp [hc]

theorem row_right {o : Py} {k : ℕ} (hk : k < is.length) :
    (rowOf w is cs o)[cs.length + k]? = some (if is[k] = o then ((w o o : ℝ) : WithTop ℝ) else ⊤) := by
  rw [rowOf, List.getElem?_append_right (by simp)]
  simp [hk]

theorem coe_list_sum (l : List ℝ) : ((l.sum : ℝ) : WithTop ℝ) = (l.map fun x : ℝ => ((x : ℝ) : WithTop ℝ)).sum := by
  induction l with
  | nil => rfl
  | cons x l ih => simp [ih]

theorem ne_top_of_sum {l : List (WithTop ℝ)} (h : l.sum ≠ ⊤) : ∀ x ∈ l, x ≠ ⊤ := by
  induction l with
  | nil => simp
  | cons x l ih =>
    rw [List.sum_cons, Ne, WithTop.add_eq_top, not_or] at h
    intro y hy
    rcases List.mem_cons.1 hy with rfl | hy
    · exact h.1
    · exact ih h.2 y hy

/-- The column for the image of a variable. -/
noncomputable def colOf (cs : List Py) (g : Py → Py) (o : Py) (r : ℕ) : ℕ :=
  if g o = o then cs.length + r else cs.idxOf (g o)

/-- The assignment for a mapping. -/
noncomputable def idxOf (is cs : List Py) (g : Py → Py) : List (ℕ × ℕ) :=
  (List.range is.length).map fun r => (r, colOf cs g (is[r]?.getD .none) r)

theorem idxOf_ok (hi : is.Nodup) (hd : ∀ o ∈ is, o ∉ cs) {g : Py → Py}
    (hg : ∀ x ∈ is, ∀ y ∈ is, g x = g y → x = y) (hg' : ∀ o ∈ is, g o = o ∨ g o ∈ cs) :
    Assignment is.length cs.length (idxOf is cs g) := by
  have hcol : ∀ r (h : r < is.length), (g is[r] = is[r] ∧ colOf cs g is[r] r = cs.length + r) ∨
      (g is[r] ∈ cs ∧ colOf cs g is[r] r = cs.idxOf (g is[r])) := by
    intro r h
    by_cases e : g is[r] = is[r]
    · exact .inl ⟨e, by rw [colOf, if_pos e]⟩
    · exact .inr ⟨(hg' _ (List.getElem_mem h)).resolve_left e, by rw [colOf, if_neg e]⟩
  refine ⟨?_, ?_, ?_⟩
  · have : (idxOf is cs g).map Prod.fst = List.range is.length := by simp [idxOf, Function.comp_def]
    rw [this]
  · rw [idxOf, List.map_map]
    refine List.Nodup.map_on ?_ List.nodup_range
    intro x hx y hy e
    simp only [List.mem_range] at hx hy
    simp only [Function.comp, List.getElem?_eq_getElem hx, List.getElem?_eq_getElem hy, Option.getD] at e
    rcases hcol x hx with ⟨h1, h2⟩ | ⟨h1, h2⟩ <;> rcases hcol y hy with ⟨h3, h4⟩ | ⟨h3, h4⟩
    · omega
    · have := List.idxOf_lt_length_iff.2 h3; omega
    · have := List.idxOf_lt_length_iff.2 h1; omega
    · rw [h2, h4] at e
      have e2 : g is[x] = g is[y] := (List.idxOf_inj h1).1 e
      exact (List.Nodup.getElem_inj_iff hi).1 (hg _ (List.getElem_mem hx) _ (List.getElem_mem hy) e2)
  · intro p hp
    obtain ⟨r, hr, rfl⟩ := List.mem_map.1 hp
    simp only [List.mem_range] at hr
    simp only [List.getElem?_eq_getElem hr, Option.getD]
    rcases hcol r hr with ⟨h1, h2⟩ | ⟨h1, h2⟩
    · omega
    · have := List.idxOf_lt_length_iff.2 h1; omega

theorem total_idxOf {g : Py → Py} (hg' : ∀ o ∈ is, g o = o ∨ g o ∈ cs) :
    totalCost (is.map (rowOf w is cs)) (idxOf is cs g) = (((is.map fun o => w o (g o)).sum : ℝ) : WithTop ℝ) := by
  rw [coe_list_sum, totalCost, idxOf, List.map_map, List.map_map]
  congr 1
  apply List.ext_getElem
  · simp
  · intro r h1 h2
    have hr : r < is.length := by simpa using h2
    simp only [List.getElem_map, List.getElem_range, Function.comp, List.getElem?_map, List.getElem?_eq_getElem hr,
      Option.map_some, Option.bind_some, Option.getD_some]
    by_cases e : g is[r] = is[r]
    · rw [colOf, if_pos e, row_right hr]
      simp [e]
    · have hm := (hg' _ (List.getElem_mem hr)).resolve_left e
      rw [colOf, if_neg e, row_left (List.idxOf_lt_length_iff.2 hm)]
      simp

/-- **C75**: if Munkres' algorithm finds a cheapest assignment, then `hungarian_mapping` returns a mapping of all
variables of the instance, each to itself or to a variable of the base, and no such one-to-one mapping has a smaller
sum of the costs of its pairs (a variable mapped to itself costs what mapping nothing costs).  In particular no
infinite entry of the matrix is picked. -/
theorem C75_hungarian {compute : List (List (WithTop ℝ)) → Res (List (ℕ × ℕ))} (hM : MunkresLaw compute)
    (hi : is.Nodup) (hc : cs.Nodup) (hd : ∀ o ∈ is, o ∉ cs)
    (hw : ∀ o ∈ is, ∀ c ∈ cs, cost [(o, c)] = .ok (w o c)) (hu : ∀ o ∈ is, cost [] = .ok (w o o))
    {idx : List (ℕ × ℕ)} (h : munkresAssign compute cost is cs = .ok idx) :
    ∃ M, assignLoop is cs idx [] = .ok M ∧ (∀ x, x ∈ M.keys ↔ x ∈ is) ∧
      (∀ x ∈ is, ∀ y ∈ is, image M x = image M y → x = y) ∧ (∀ o ∈ is, image M o = o ∨ image M o ∈ cs) ∧
      ∀ g : Py → Py, (∀ x ∈ is, ∀ y ∈ is, g x = g y → x = y) → (∀ o ∈ is, g o = o ∨ g o ∈ cs) →
        (is.map fun o => w o (image M o)).sum ≤ (is.map fun o => w o (g o)).sum := by
  rw [munkresAssign, costRows_eq hw hu, ok_bind] at h
  obtain ⟨ha, hmin⟩ := hM _ cs.length idx (by
    intro row hrow
    obtain ⟨o, -, rfl⟩ := List.mem_map.1 hrow
    simp [rowOf]) h
  rw [List.length_map] at ha hmin
  obtain ⟨es, h1, h2, hperm⟩ := assign_entries hi ha
  obtain ⟨M, h1', hok⟩ := assign_ok (cn := cs) hi hc (fun _ => Iff.rfl) hd ha
  obtain rfl : es = M := by rw [h1] at h1'; exact Except.ok.inj h1'
  have hnd : Dict.Nodup es := hperm.nodup_iff.2 hi
  have himg : ∀ e ∈ es, image es e.1 = e.2 := fun e he => by
    rw [image, Dict.get?_of_mem hnd (k := e.1) (v := e.2) he]; rfl
  have hget : ∀ x ∈ is, es.get? x = some (image es x) := by
    intro x hx
    obtain ⟨e, he, rfl⟩ := List.mem_map.1 ((hok.dom x).2 hx)
    rw [himg e he, Dict.get?_of_mem hnd (k := e.1) (v := e.2) he]
  refine ⟨es, h1, hok.dom, fun x hx y hy e => ?_, fun o ho => hok.into o _ (hget o ho), fun g hg hg' => ?_⟩
  · exact hok.inj x y _ (hget x hx) (e ▸ hget y hy)
  · have hle := hmin _ (idxOf_ok hi hd hg hg')
    rw [total_idxOf hg'] at hle
    have hfin : totalCost (is.map (rowOf w is cs)) idx ≠ ⊤ := fun e => by rw [e] at hle; simp at hle
    have hterm := ne_top_of_sum hfin
    -- the picked entries are the costs of the pairs
    have hval : totalCost (is.map (rowOf w is cs)) idx = (((es.map fun e => w e.1 e.2).sum : ℝ) : WithTop ℝ) := by
      rw [coe_list_sum, totalCost, List.map_map]
      congr 1
      have hlen : idx.length = es.length := by simpa using congrArg List.length h2
      apply List.ext_getElem
      · simpa using hlen
      · intro k hk1 hk2
        have hk : k < idx.length := by simpa using hk1
        have hk' : k < es.length := by simpa using hk2
        have e0 : entryOf is cs idx[k] = some es[k] := by
          have := congrArg (fun l => l[k]?) h2
          simpa [hk, hk'] using this
        obtain ⟨q1, q2⟩ := mem_entry e0
        simp only [List.getElem_map, Function.comp]
        obtain ⟨hr, er⟩ := List.getElem?_eq_some_iff.1 q1
        simp only [List.getElem?_map, q1, Option.map_some, Option.bind_some]
        rcases q2 with ⟨hge, e⟩ | q2
        · obtain ⟨j, hj⟩ := Nat.exists_eq_add_of_le hge
          have hjl : j < is.length := by
            have := ha.bound idx[k] (List.getElem_mem hk)
            omega
          have ht := hterm _ (List.mem_map.2 ⟨idx[k], List.getElem_mem hk, rfl⟩)
          simp only [List.getElem?_map, q1, Option.map_some, Option.bind_some] at ht
          rw [hj, row_right hjl] at ht ⊢
          simp only [Option.getD_some] at ht ⊢
          split at ht
          · rename_i he
            rw [if_pos he, e]
          · exact absurd rfl ht
        · obtain ⟨hlt, ec⟩ := List.getElem?_eq_some_iff.1 q2
          rw [row_left hlt, ec]
          rfl
    rw [hval, WithTop.coe_le_coe] at hle
    have hsum : (es.map fun e => w e.1 e.2).sum = (is.map fun o => w o (image es o)).sum := by
      rw [← (hperm.map fun o => w o (image es o)).sum_eq, List.map_map]
      congr 1
      apply List.map_congr_left
      intro e he
      simp only [Function.comp]
      rw [himg e he]
    rwa [hsum] at hle

end

/-- What is asked of `Munkres().compute` by the model of the search follows from what it is for. -/
theorem C75_assignment {compute : List (List (WithTop ℝ)) → Res (List (ℕ × ℕ))} (hM : MunkresLaw compute)
    {cost : Dict Py Py → Res ℝ} {is cs : List Py} {idx : List (ℕ × ℕ)}
    (h : munkresAssign compute cost is cs = .ok idx) : Assignment is.length cs.length idx := by
  have hrow : ∀ o l r, costsTo cost o l = .ok r → r.length = l.length := by
    intro o l
    induction l with
    | nil => intro r hr; cases hr; rfl
    | cons c l ih =>
      intro r hr
      obtain ⟨x, -, hr⟩ := bind_ok.1 hr
      obtain ⟨xs, hxs, hr⟩ := bind_ok.1 hr
      cases hr
      simp [ih xs hxs]
  have hrows : ∀ os rs, costRows cost is cs os = .ok rs → rs.length = os.length ∧ ∀ r ∈ rs, r.length = cs.length + is.length := by
    intro os
    induction os with
    | nil => intro rs hr; cases hr; simp
    | cons o os ih =>
      intro rs hr
      obtain ⟨r, hr1, hr⟩ := bind_ok.1 hr
      obtain ⟨rs', hrs, hr⟩ := bind_ok.1 hr
      cases hr
      obtain ⟨x, hx, hr1⟩ := bind_ok.1 hr1
      obtain ⟨u, -, hr1⟩ := bind_ok.1 hr1
      cases hr1
      obtain ⟨h1, h2⟩ := ih rs' hrs
      refine ⟨by simp [h1], ?_⟩
      intro r hr
      rcases List.mem_cons.1 hr with rfl | hr
      · simp [hrow o cs x hx]
      · exact h2 r hr
  obtain ⟨mat, hmat, h⟩ := bind_ok.1 h
  obtain ⟨h1, h2⟩ := hrows is mat hmat
  rw [← h1]
  exact (hM mat cs.length idx (fun row hr => by rw [h1]; exact h2 row hr) h).1

/-! ### In Trestle -/

section
variable {target : PyInst}

/-- The empty mapping and a single pair keep variables apart. -/
theorem keepsApart_nil {as : List Py} : KeepsApart [] as :=
  ⟨(fun _ _ h => nomatch h), fun _ hx => varsOf_variable hx, fun _ _ _ _ e => e⟩

theorem keepsApart_one {as : List Py} {o c : Py} (ho : o ∈ varsOf as) (hc : Variable c) (hc' : c ∉ varsOf as) :
    KeepsApart [(o, c)] as := by
  have hi : ∀ x, image [(o, c)] x = if o = x then c else x := by
    intro x
    by_cases e : o = x <;> simp [image, Dict.get?, e]
  refine ⟨fun x w h => ?_, fun x hx => ?_, fun x hx y hy e => ?_⟩
  · by_cases e : o = x
    · exact e ▸ varsOf_variable ho
    · rw [Dict.get?, if_neg e] at h; cases h
  · rw [hi]; split
    · exact hc
    · exact varsOf_variable hx
  · rw [hi, hi] at e
    split at e <;> split at e
    · grind
    · exact absurd (e ▸ hy) hc'
    · exact absurd (e ▸ hx) hc'
    · exact e

/-- Mapping a variable to itself changes nothing. -/
theorem renamedInst_self (o : Py) (i : PyInst) : renamedInst [(o, o)] i = renamedInst [] i := by
  have : image [(o, o)] = image [] := by
    funext x
    by_cases e : o = x <;> simp [image, Dict.get?, e]
  rw [renamedInst, renamedInst, this]

/-- **C75** in Trestle: the mapping that the search starts from has, among all one-to-one mappings of the variables of
the instance to themselves or to variables of the root, the least sum of the costs of mapping each variable alone.
The cost of mapping `o` alone to `d` is minus the expected correct guesses of all instances fitted so far together
with the new one in which `o` is renamed to `d`. -/
theorem C75_trestle {c : TrestleCfg} {st : TState} {hist : List PyInst} (hc : c.Ok) (h : TrestleRuns c st hist)
    {t : Tree (Stats3 Py Py)} (ht : IsTree st.h st.h.root t) (hv : ∃ a ∈ t.stats.av.keys, hid3 a = false)
    (hn : Dict.Nodup target) (h0 : target ≠ []) (hd : ∀ x ∈ varsOf target.keys, x ∉ varsOf t.stats.av.keys)
    {is cs : List Py} (his : is.Nodup) (hcs : cs.Nodup) (hi : ∀ x, x ∈ is ↔ x ∈ varsOf target.keys)
    (hs : ∀ x, x ∈ cs ↔ x ∈ varsOf t.stats.av.keys) {w : Py → Py → ℝ}
    (hw : ∀ o d, w o d = -(ecgSpec3 hid3 c.cobweb3 (fun b => (scaleNums c.cobweb3.inner (hist.map inst3) b : Multiset ℝ))
      (inst3 (renamedInst [(o, d)] target) ::ₘ (hist.map inst3 : Multiset (Inst3 Py Py)))))
    {compute : List (List (WithTop ℝ)) → Res (List (ℕ × ℕ))} (hM : MunkresLaw compute) {idx : List (ℕ × ℕ)}
    (hrun : munkresAssign compute (fun m => mappingCost c.cobweb3 st.sc t.stats m target) is cs = .ok idx) :
    ∃ M, assignLoop is cs idx [] = .ok M ∧ MappingOk is cs (M, unusedNames cs M) ∧
      ∀ g : Py → Py, (∀ x ∈ is, ∀ y ∈ is, g x = g y → x = y) → (∀ o ∈ is, g o = o ∨ g o ∈ cs) →
        (is.map fun o => w o (image M o)).sum ≤ (is.map fun o => w o (g o)).sum := by
  obtain ⟨n, hr, -⟩ := trestle_reach hc h ht
  obtain ⟨a, ha, hva⟩ := hv
  have hb := (C29_every_node hr).1
  have hsc := reach3_scales hr
  have hd' : ∀ o ∈ is, o ∉ cs := fun o ho hc' => hd o ((hi o).1 ho) ((hs o).1 hc')
  have hw1 : ∀ o ∈ is, ∀ d ∈ cs, mappingCost c.cobweb3 st.sc t.stats [(o, d)] target = .ok (w o d) := fun o ho d hdc => by
    rw [C74_cost hb hsc hn h0 (keepsApart_one ((hi o).1 ho) (varsOf_variable ((hs d).1 hdc))
      fun hx => hd d hx ((hs d).1 hdc)) ⟨a, hva, .inl ha⟩, hw]
  have hw2 : ∀ o ∈ is, mappingCost c.cobweb3 st.sc t.stats [] target = .ok (w o o) := fun o ho => by
    rw [C74_cost hb hsc hn h0 keepsApart_nil ⟨a, hva, .inl ha⟩, hw, renamedInst_self]
  obtain ⟨M, h1, -, -, -, h5⟩ := C75_hungarian hM his hcs hd' hw1 hw2 hrun
  obtain ⟨M', h1', h2⟩ := assign_ok (cn := cs) his hcs (fun _ => Iff.rfl) hd' (C75_assignment hM hrun)
  obtain rfl : M = M' := by rw [h1] at h1'; exact Except.ok.inj h1'
  exact ⟨M, h1, h2, h5⟩

end

/-! ### How many variables are mapped -/

/-- The variables of the instance that are mapped to variables of the base. -/
def mapped (m : Dict Py Py) : List (Py × Py) := m.filter fun e => e.2 ≠ e.1

/-- **C75**: in every state of the search each variable of the base is either unused or the image of exactly one
variable. -/
theorem C75_images {K cn : List Py} (hcn : cn.Nodup) (hd : ∀ x ∈ K, x ∉ cn) {s : MapState} (h : MappingOk K cn s) :
    ((mapped s.1).map Prod.snd ++ s.2).Perm cn := by
  have hget : ∀ e ∈ mapped s.1, s.1.get? e.1 = some e.2 := fun e he =>
    Dict.get?_of_mem h.nodup (k := e.1) (v := e.2) (List.mem_filter.1 he).1
  have hne : ∀ e ∈ mapped s.1, e.2 ≠ e.1 := fun e he => by simpa using (List.mem_filter.1 he).2
  refine (List.perm_ext_iff_of_nodup (List.nodup_append.2 ⟨?_, h.set, ?_⟩) hcn).2 fun c => ?_
  · refine List.Nodup.map_on (fun e he f hf q => ?_) (List.Nodup.filter _ (List.Nodup.of_map _ h.nodup))
    have := h.inj e.1 f.1 e.2 (hget e he) (q ▸ hget f hf)
    exact Prod.ext this q
  · rintro a ha b hb rfl
    obtain ⟨e, he, rfl⟩ := List.mem_map.1 ha
    exact ((h.unused _).1 hb).2 e.1 (hget e he)
  · rw [List.mem_append, List.mem_map]
    constructor
    · rintro (⟨e, he, rfl⟩ | hc)
      · exact (h.into e.1 e.2 (hget e he)).resolve_left (hne e he)
      · exact ((h.unused c).1 hc).1
    · intro hc
      by_cases hu : c ∈ s.2
      · exact .inr hu
      · have : ∃ x, s.1.get? x = some c := by
          by_contra hx
          push Not at hx
          exact hu ((h.unused c).2 ⟨hc, hx⟩)
        obtain ⟨x, hx⟩ := this
        refine .inl ⟨(x, c), List.mem_filter.2 ⟨Dict.mem_of_get? hx, ?_⟩, rfl⟩
        have : x ∈ K := (h.dom x).1 (Dict.get?_isSome.1 (by rw [hx]; rfl))
        simp only [ne_eq, decide_eq_true_eq]
        rintro rfl
        exact hd c this hc

theorem C75_count {K cn : List Py} (hcn : cn.Nodup) (hd : ∀ x ∈ K, x ∉ cn) {s : MapState} (h : MappingOk K cn s) :
    (mapped s.1).length + s.2.length = cn.length := by
  simpa using (C75_images hcn hd h).length_eq

theorem step_unused {s t : MapState} (h : MapStep s t) : t.2.length ≤ s.2.length := by
  have hu : ∀ (m : Dict Py Py) (u : List Py) e c, c ∈ u → (swapUnnamed (m, u) e c).2.length ≤ u.length := by
    intro m u e c hc
    have := List.length_erase_of_mem hc
    have := List.length_pos_of_mem hc
    simp only [swapUnnamed]
    split <;> simp <;> omega
  obtain ⟨m, u, -, hu', ht⟩ := h
  rw [← hu'.length_eq]
  rcases ht with ht | ht
  · rw [successors, List.mem_append, List.mem_filterMap, List.mem_flatMap] at ht
    rcases ht with ⟨p, -, hq⟩ | ⟨e, -, hq⟩
    · split at hq
      · cases hq
      · cases hq; exact le_refl _
    · obtain ⟨c, hc, rfl⟩ := List.mem_map.1 hq
      exact hu m u e c hc
  · rw [randomSuccessors, List.mem_flatMap] at ht
    obtain ⟨e, -, hq⟩ := ht
    rw [List.mem_append, List.mem_map, List.mem_map] at hq
    rcases hq with ⟨f, -, rfl⟩ | ⟨c, hc, rfl⟩
    · exact le_refl _
    · exact hu m u e c hc

/-- **C75**: no step of the search decreases the number of variables that are mapped to variables of the base, so the
search never returns a mapping with fewer such variables than the one that it starts from, however much less that
would cost. -/
theorem C75_never_unmaps {K cn : List Py} (hcn : cn.Nodup) (hd : ∀ x ∈ K, x ∉ cn) {s t : MapState}
    (h : MappingOk K cn s) (hs : Relation.ReflTransGen MapStep s t) : (mapped s.1).length ≤ (mapped t.1).length := by
  have h1 := C75_count hcn hd h
  have h2 := C75_count hcn hd (h.steps hd hs)
  have h3 : t.2.length ≤ s.2.length := by
    induction hs with
    | refl => exact le_refl _
    | tail hs' h' ih => exact (step_unused h').trans (ih (C75_count hcn hd (h.steps hd hs')))
  omega

/-! ### `random_successor` -/

/-- **C75**: what `random_successor` returns is one of the states that the model of the search allows. -/
theorem C75_random_in {s t : MapState} {e : Py × Py} {r : ℚ} {k : ℕ} (he : drawn s e)
    (h : randomSuccessor s e r k = .ok t) : t ∈ randomSuccessors s := by
  obtain ⟨p, -, h⟩ := bind_ok.1 h
  rw [randomSuccessors, List.mem_flatMap]
  refine ⟨e, List.mem_filter.2 ⟨he.1, decide_eq_true he.2⟩, ?_⟩
  rw [List.mem_append, List.mem_map, List.mem_map]
  split at h
  · split at h
    · cases h
    · next f hf =>
      cases h
      exact .inl ⟨f, List.mem_of_getElem? hf, rfl⟩
  · split at h
    · cases h
    · next c hc =>
      cases h
      exact .inr ⟨c, List.mem_of_getElem? hc, rfl⟩

theorem mem_flips {s : MapState} {e f : Py × Py} (hn : Dict.Nodup s.1) (he : e ∈ s.1) :
    f ∈ flips s e ↔ f ∈ mapped s.1 ∧ e ∈ mapped s.1 ∧ f ≠ e := by
  have : f ∈ s.1 → (f.1 = e.1 ↔ f = e) := fun hf => ⟨fun q => by
    have h1 := Dict.get?_of_mem hn (k := f.1) (v := f.2) hf
    have h2 := Dict.get?_of_mem hn (k := e.1) (v := e.2) he
    rw [q, h2] at h1
    exact Prod.ext q (Option.some.inj h1).symm, fun q => by rw [q]⟩
  simp only [flips, mapped, List.mem_filter, decide_eq_true_eq]
  grind

/-- **C75**: in the searches of `flat_match` the first loop of `random_successor` can always end, since some variable is
mapped to a variable of the base or some variable of the base is unused. -/
theorem C75_random_draw {K cn : List Py} (hcn : cn.Nodup) (hd : ∀ x ∈ K, x ∉ cn) (hK : K ≠ []) (hc0 : cn ≠ [])
    {s : MapState} (h : MappingOk K cn s) : ∃ e, drawn s e := by
  by_cases hu : s.2.length = 0
  · have h1 := C75_count hcn hd h
    have : 0 < cn.length := List.length_pos_iff.2 hc0
    obtain ⟨e, he⟩ := List.exists_mem_of_length_pos (l := mapped s.1) (by omega)
    obtain ⟨h2, h3⟩ := List.mem_filter.1 he
    exact ⟨e, h2, fun q => by simp [q.1] at h3⟩
  · obtain ⟨x, hx⟩ := List.exists_mem_of_ne_nil K hK
    obtain ⟨e, he, -⟩ := List.mem_map.1 ((h.dom x).2 hx)
    exact ⟨e, he, fun q => hu q.2⟩

/-- **C75**: after that `random_successor` raises ZeroDivisionError exactly if the base has one variable and it is in
use, IndexError exactly if `random()` returns 0 although there is nothing to swap the variable with, and otherwise
returns a state. -/
theorem C75_random_raises {K cn : List Py} (hcn : cn.Nodup) (hd : ∀ x ∈ K, x ∉ cn) {s : MapState}
    (h : MappingOk K cn s) {e : Py × Py} (he : drawn s e) {r : ℚ} (hr : 0 ≤ r ∧ r < 1) (k : ℕ) :
    (randomSuccessor s e r k = .error .zeroDiv ↔ cn.length = 1 ∧ s.2 = []) ∧
    (randomSuccessor s e r k = .error .indexErr ↔ r = 0 ∧ s.2 ≠ [] ∧ ∀ f ∈ mapped s.1, f = e ∨ e.2 = e.1) ∧
    ((∃ t, randomSuccessor s e r k = .ok t) ↔
      ¬ (cn.length = 1 ∧ s.2 = []) ∧ ¬ (r = 0 ∧ s.2 ≠ [] ∧ ∀ f ∈ mapped s.1, f = e ∨ e.2 = e.1)) := by
  have hn := h.nodup
  have hf0 : flips s e = [] ↔ ∀ f ∈ mapped s.1, f = e ∨ e.2 = e.1 := by
    rw [List.eq_nil_iff_forall_not_mem]
    constructor
    · intro hf f hm
      by_contra hc
      push Not at hc
      exact hf f ((mem_flips hn he.1).2 ⟨hm, List.mem_filter.2 ⟨he.1, decide_eq_true hc.2⟩, hc.1⟩)
    · intro hf f hm
      obtain ⟨h1, h2, h3⟩ := (mem_flips hn he.1).1 hm
      rcases hf f h1 with q | q
      · exact h3 q
      · exact (of_decide_eq_true (List.mem_filter.1 h2).2) q
  have hone : s.2 = [] → (flips s e = [] ↔ cn.length = 1) := by
    intro hu
    have hem : e ∈ mapped s.1 := List.mem_filter.2 ⟨he.1, decide_eq_true fun q => he.2 ⟨q, by rw [hu]; rfl⟩⟩
    have hlen : (mapped s.1).length = cn.length := by simpa [hu] using C75_count hcn hd h
    have hnd : (mapped s.1).Nodup := List.Nodup.filter _ (List.Nodup.of_map _ hn)
    rw [hf0, ← hlen]
    constructor
    · intro hf
      have : mapped s.1 ⊆ [e] := fun f hm => by
        rcases hf f hm with q | q
        · simp [q]
        · exact absurd q (of_decide_eq_true (List.mem_filter.1 hem).2)
      have := (hnd.subperm this).length_le
      have := List.length_pos_of_mem hem
      simp at *
      omega
    · intro hl f hm
      obtain ⟨x, hx⟩ := List.length_eq_one_iff.1 hl
      rw [hx, List.mem_singleton] at hem hm
      exact .inl (hm.trans hem.symm)
  have hget : ∀ {α : Type} (l : List α), l ≠ [] → ∃ x, l[k % l.length]? = some x := fun l hl => by
    have : k % l.length < l.length := Nat.mod_lt _ (List.length_pos_iff.2 hl)
    exact ⟨_, List.getElem?_eq_getElem this⟩
  rw [← hf0]
  by_cases hu : s.2 = [] <;> by_cases hf : flips s e = []
  · have hc := (hone hu).1 hf
    have : randomSuccessor s e r k = .error .zeroDiv := by
      simp [randomSuccessor, hu, hf, pyDiv, error_bind]
    simp [this, hu, hc]
  · have hc := mt (hone hu).2 hf
    obtain ⟨x, hx⟩ := hget _ hf
    have hl : ((flips s e).length : ℚ) ≠ 0 := by simpa using hf
    have : randomSuccessor s e r k = .ok (swapTwo s e x) := by
      simp only [randomSuccessor, hu, List.length_nil, Nat.cast_zero, add_zero, pyDiv, if_neg hl, ok_bind, div_self hl,
        if_pos hr.2.le, hx]
      rfl
    simp [this, hu, hc]
  · have hl : ((s.2.length : ℕ) : ℚ) ≠ 0 := by simpa using hu
    obtain ⟨c, hc⟩ := hget _ hu
    by_cases hr0 : r = 0
    · have : randomSuccessor s e r k = .error .indexErr := by
        simp [randomSuccessor, hf, pyDiv, hl, ok_bind, hr0]
      rw [this]
      simp [hu, hr0, hf]
    · have hr' : ¬ r ≤ 0 := fun q => hr0 (le_antisymm q hr.1)
      have : randomSuccessor s e r k = .ok (swapUnnamed s e c) := by
        simp only [randomSuccessor, hf, List.length_nil, Nat.cast_zero, zero_add, pyDiv, if_neg hl, ok_bind, zero_div,
          if_neg hr', hc]
        rfl
      simp [this, hu, hr0]
  · obtain ⟨c, hc⟩ := hget _ hu
    obtain ⟨x, hx⟩ := hget _ hf
    have hl : ((flips s e).length : ℚ) + ((s.2.length : ℕ) : ℚ) ≠ 0 := by
      have : 0 < (flips s e).length := List.length_pos_iff.2 hf
      positivity
    have : ∃ t, randomSuccessor s e r k = .ok t := by
      simp only [randomSuccessor, pyDiv, if_neg hl, ok_bind, hc, hx]
      split
      · exact ⟨_, rfl⟩
      · exact ⟨_, rfl⟩
    obtain ⟨t, ht⟩ := this
    simp [ht, hu, hf]

/-- **C75**, partial.  Full statement: `random_successor` never raises.  Here: unless the base has a single variable
that is in use, or `random()` returns exactly 0. -/
theorem C75_random_returns_partial {K cn : List Py} (hcn : cn.Nodup) (hd : ∀ x ∈ K, x ∉ cn) {s : MapState}
    (h : MappingOk K cn s) {e : Py × Py} (he : drawn s e) {r : ℚ} (hr : 0 < r ∧ r < 1) (k : ℕ)
    (h1 : cn.length ≠ 1 ∨ s.2 ≠ []) : ∃ t, randomSuccessor s e r k = .ok t := by
  refine (C75_random_raises hcn hd h he ⟨hr.1.le, hr.2⟩ k).2.2.2 ⟨fun q => ?_, fun q => hr.1.ne' q.1⟩
  rcases h1 with h1 | h1
  · exact h1 q.1
  · exact h1 q.2

/-! ### Examples -/

/-- There are finitely many assignments. -/
theorem assignments_finite (n k : ℕ) : {idx | Assignment n k idx}.Finite := by
  refine (Set.finite_range fun f : Fin n → Fin n × Fin (k + n) => List.ofFn fun i => ((f i).1.val, (f i).2.val)).subset ?_
  intro idx h
  have hl : idx.length = n := by simpa using h.rows.length_eq
  have h1 : ∀ p ∈ idx, p.1 < n := fun p hp =>
    List.mem_range.1 ((h.rows.mem_iff).1 (List.mem_map_of_mem (f := Prod.fst) hp))
  refine ⟨fun i => (⟨(idx[i.val]'(by omega)).1, h1 _ (List.getElem_mem _)⟩,
    ⟨(idx[i.val]'(by omega)).2, h.bound _ (List.getElem_mem _)⟩), ?_⟩
  apply List.ext_getElem
  · simp [hl]
  · intro i h2 h3
    simp

/-- The diagonal. -/
theorem assignment_diag (n k : ℕ) : Assignment n k ((List.range n).map fun r => (r, r)) := by
  refine ⟨?_, ?_, ?_⟩
  · simp [Function.comp_def]
  · simp [Function.comp_def, List.nodup_range]
  · intro p hp
    obtain ⟨r, hr, rfl⟩ := List.mem_map.1 hp
    have := List.mem_range.1 hr
    simp only
    omega

/-- There is a function that satisfies the law: it picks a cheapest assignment. -/
theorem munkresLaw_exists : ∃ compute, MunkresLaw compute ∧
    ∀ mat : List (List (WithTop ℝ)), ∃ idx, compute mat = .ok idx := by
  classical
  have hex : ∀ mat : List (List (WithTop ℝ)), ∃ idx : List (ℕ × ℕ), ∀ k, (∀ row ∈ mat, row.length = k + mat.length) →
      Assignment mat.length k idx ∧ ∀ idx', Assignment mat.length k idx' → totalCost mat idx ≤ totalCost mat idx' := by
    intro mat
    have hk : ∀ k, ∃ idx, Assignment mat.length k idx ∧
        ∀ idx', Assignment mat.length k idx' → totalCost mat idx ≤ totalCost mat idx' := fun k => by
      obtain ⟨idx, h1, h2⟩ := Set.exists_min_image _ (totalCost mat) (assignments_finite mat.length k)
        ⟨_, assignment_diag mat.length k⟩
      exact ⟨idx, h1, h2⟩
    match mat with
    | [] =>
      refine ⟨[], fun k _ => ⟨assignment_diag 0 k, fun idx' h => ?_⟩⟩
      have : idx' = [] := List.length_eq_zero_iff.1 (by simpa using h.rows.length_eq)
      rw [this]
    | row :: rows =>
      obtain ⟨idx, h⟩ := hk (row.length - (row :: rows).length)
      refine ⟨idx, fun k hk' => ?_⟩
      have := hk' row (by simp)
      rwa [this, Nat.add_sub_cancel] at h
  refine ⟨fun mat => .ok (hex mat).choose, fun mat k idx hk h => ?_, fun mat => ⟨_, rfl⟩⟩
  obtain rfl := Except.ok.inj h
  exact (hex mat).choose_spec k hk

/-- Two variables and a base with one: mapping `?x` costs 1, `?y` 2, nothing 5, so the best is to map `?x`
(the sum is 6). -/
def demoCost : Dict Py Py → Res ℝ
  | [] => .ok 5
  | (o, _) :: _ => .ok (if o = .str c!"?x" then 1 else 2)

example : ∃ compute idx, MunkresLaw compute ∧
    munkresAssign compute demoCost [.str c!"?x", .str c!"?y"] [.str c!"?o1"] = .ok idx ∧
    (∀ o ∈ [Py.str c!"?x", .str c!"?y"], ∀ c ∈ [Py.str c!"?o1"],
      demoCost [(o, c)] = .ok (if c = o then 5 else if o = .str c!"?x" then 1 else 2)) := by
  obtain ⟨compute, h1, h2⟩ := munkresLaw_exists
  have : ∃ mat, costRows demoCost [.str c!"?x", .str c!"?y"] [.str c!"?o1"] [.str c!"?x", .str c!"?y"] = .ok mat :=
    ⟨_, rfl⟩
  obtain ⟨mat, hm⟩ := this
  obtain ⟨idx, hi⟩ := h2 mat
  refine ⟨compute, idx, h1, by rw [munkresAssign, hm, ok_bind, hi], ?_⟩
  intro o ho c hc
  simp only [List.mem_cons, List.not_mem_nil, or_false] at ho hc
  rcases ho with rfl | rfl <;> subst hc <;> simp [demoCost]

/-- A state of the search with a used and an unused variable of the base. -/
def demoState : MapState := ([(.str c!"?x", .str c!"?o1"), (.str c!"?y", .str c!"?y")], [.str c!"?o2"])

theorem demoState_ok : MappingOk [.str c!"?x", .str c!"?y"] [.str c!"?o1", .str c!"?o2"] demoState := by
  have hg : ∀ x, demoState.1.get? x = if .str c!"?x" = x then some (.str c!"?o1") else
      if .str c!"?y" = x then some (.str c!"?y") else none := fun x => rfl
  refine ⟨by decide, by simp [demoState, Dict.keys], ?_, ?_, ?_, by decide⟩
  · intro x y v h1 h2
    rw [hg] at h1 h2
    grind
  · intro x v h
    rw [hg] at h
    grind
  · intro c
    constructor
    · intro h
      have : c = .str c!"?o2" := by simpa [demoState] using h
      subst this
      refine ⟨by simp, fun x e => ?_⟩
      rw [hg] at e
      split at e
      · revert e; decide
      · split at e
        · revert e; decide
        · cases e
    · rintro ⟨h1, h2⟩
      have := h2 (.str c!"?x")
      rw [hg, if_pos rfl] at this
      simp only [List.mem_cons, List.not_mem_nil, or_false] at h1
      rcases h1 with rfl | rfl
      · exact absurd rfl this
      · simp [demoState]

/-- `random_successor` from it: with `random()` equal to 1/2 the unused variable takes the place of `?o1`, with 0 it
raises IndexError. -/
example : drawn demoState (.str c!"?x", .str c!"?o1") ∧
    randomSuccessor demoState (.str c!"?x", .str c!"?o1") (1 / 2) 0 =
      .ok ([(.str c!"?x", .str c!"?o2"), (.str c!"?y", .str c!"?y")], [.str c!"?o1"]) ∧
    randomSuccessor demoState (.str c!"?x", .str c!"?o1") 0 0 = .error .indexErr ∧
    (mapped demoState.1).length = 1 := by
  refine ⟨⟨by decide, by decide⟩, by decide +kernel, by decide +kernel, by decide⟩

/-- With a single variable on both sides it always raises ZeroDivisionError. -/
example (r : ℚ) (k : ℕ) : randomSuccessor ([(.str c!"?x", .str c!"?o1")], []) (.str c!"?x", .str c!"?o1") r k =
    .error .zeroDiv := by
  have hf : flips ([(.str c!"?x", .str c!"?o1")], []) (.str c!"?x", .str c!"?o1") = [] := by decide
  rw [randomSuccessor, hf]
  simp [pyDiv, error_bind]

end CF
