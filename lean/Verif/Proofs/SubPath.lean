/-
Sub-components of structured instances in terms of paths.
-/
import Verif.Proofs.SubComponent

set_option linter.unusedSectionVars false

namespace CF

theorem variable_not_hidden {y : Py} (h : Variable y) : ¬ Hidden y := by
  obtain ⟨s, rfl⟩ := h
  simp [Hidden, Py.index0]

theorem memberName_var {o y : Py} (h : Variable y) : memberName o y = .tup [y, o] := by
  simp [memberName, variable_not_hidden h]

theorem not_variable_underscore : ¬ Variable (.str c!"_") := by
  rintro ⟨s, h⟩; simp at h

theorem partOf_memberName {y p o a : Py} (hy : Variable y) (h : PartOf y p (memberName o a)) :
    (y = a ∧ p = o) ∨ PartOf y p o := by
  unfold memberName at h
  split at h
  · rcases partOf_pair.1 h with ⟨rfl, _⟩ | h
    · exact absurd hy not_variable_underscore
    · exact partOf_pair.1 h
  · exact partOf_pair.1 h

theorem partOf_memberName_outer {y p o a : Py} (h : PartOf y p o) : PartOf y p (memberName o a) := by
  unfold memberName
  split
  · exact .outer (.outer h)
  · exact .outer h

theorem pathName_append {k : Py} {ks : List Py} {y : Py} :
    pathName (k :: ks ++ [y]) = memberName (pathName (k :: ks)) y := by
  show List.foldl memberName k (ks ++ [y]) = memberName (List.foldl memberName k ks) y
  simp

theorem partOf_path {y p k : Py} {ks : List Py} (hy : Variable y) (hk : ∃ s, k = .str s)
    (h : PartOf y p (pathName (k :: ks))) :
    ∃ r s, ks = r ++ y :: s ∧ p = pathName (k :: r) := by
  induction ks using List.reverseRecOn with
  | nil =>
    obtain ⟨s, rfl⟩ := hk
    exact absurd h not_partOf_str
  | append_singleton ks a ih =>
    rw [← List.cons_append, pathName_append] at h
    rcases partOf_memberName hy h with ⟨rfl, rfl⟩ | h
    · exact ⟨ks, [], rfl, rfl⟩
    · obtain ⟨r, s, rfl, rfl⟩ := ih h
      exact ⟨r, s ++ [a], by simp, rfl⟩

theorem partOf_path_mk {y k : Py} {r s : List Py} (hy : Variable y) :
    PartOf y (pathName (k :: r)) (pathName (k :: (r ++ y :: s))) := by
  induction s using List.reverseRecOn with
  | nil =>
    rw [← List.cons_append, pathName_append, memberName_var hy]
    exact .here
  | append_singleton s a ih =>
    have : k :: (r ++ y :: (s ++ [a])) = k :: (r ++ y :: s) ++ [a] := by simp
    rw [this, pathName_append]
    exact partOf_memberName_outer ih

theorem stands_path {y k : Py} {ks : List Py} (hy : Variable y) (hk : ∃ s, k = .str s)
    (h : Stands y (pathName (k :: ks))) : y = k := by
  have hyt : ∀ l, y ≠ .tup l := by obtain ⟨s, rfl⟩ := hy; simp
  induction ks using List.reverseRecOn with
  | nil =>
    obtain ⟨s, rfl⟩ := hk
    cases h; rfl
  | append_singleton ks a ih =>
    rw [← List.cons_append, pathName_append] at h
    unfold memberName at h
    split at h
    · exact ih ((stands_pair hyt).1 ((stands_pair hyt).1 h))
    · exact ih ((stands_pair hyt).1 h)

theorem outermost_path {k : Py} {ks : List Py} (hk : ∃ s, k = .str s) :
    outermost (pathName (k :: ks)) = k := by
  induction ks using List.reverseRecOn with
  | nil => obtain ⟨s, rfl⟩ := hk; rfl
  | append_singleton ks a ih =>
    rw [← List.cons_append, pathName_append]
    unfold memberName
    split <;> simpa [outermost] using ih

theorem nameDepth_path {k : Py} {ks : List Py} (hk : ∃ s, k = .str s)
    (hks : ∀ a ∈ ks, ∃ s, a = .str s) : nameDepth (pathName (k :: ks)) ≤ 2 * ks.length := by
  induction ks using List.reverseRecOn with
  | nil => obtain ⟨s, rfl⟩ := hk; simp [pathName, nameDepth]
  | append_singleton ks a ih =>
    rw [← List.cons_append, pathName_append]
    have := ih fun a ha => hks a (by simp [ha])
    obtain ⟨s, rfl⟩ := hks a (by simp)
    unfold memberName
    split
    · simp [nameDepth, nameDepthL]; omega
    · simp [nameDepth, nameDepthL]; omega

theorem extractAttr_str {k : Py} (hk : ∃ s, k = .str s) : extractAttr k = k := by
  obtain ⟨s, rfl⟩ := hk; rfl

theorem extractAttr_member {o a : Py} :
    extractAttr (memberName o a) = if Variable a then a else memberName (extractAttr o) a := by
  have hu : isVarPy (.str c!"_") = false := by simp [isVarPy, isVar]
  by_cases ha : Variable a
  · rw [memberName_var ha, if_pos ha]
    simp [extractAttr, isVarPy_iff.2 ha]
  · have ha' : ¬ isVarPy a = true := fun h => ha (isVarPy_iff.1 h)
    rw [if_neg ha]
    unfold memberName
    split
    · simp [extractAttr, hu, ha']
    · simp [extractAttr, ha']

theorem fromLastVar_append_var {ks : List Py} {y : Py} (hy : Variable y) : fromLastVar (ks ++ [y]) = [y] := by
  induction ks with
  | nil => simp [fromLastVar]
  | cons k ks ih =>
    rw [List.cons_append, fromLastVar, if_pos ⟨y, by simp, hy⟩, ih]

theorem fromLastVar_append_const {ks : List Py} {a : Py} (hks : ks ≠ []) (ha : ¬ Variable a) :
    fromLastVar (ks ++ [a]) = fromLastVar ks ++ [a] := by
  induction ks with
  | nil => exact absurd rfl hks
  | cons k ks ih =>
    have : (∃ y ∈ ks ++ [a], Variable y) ↔ ∃ y ∈ ks, Variable y := by
      constructor
      · rintro ⟨y, hy, h⟩
        rcases List.mem_append.1 hy with hy | hy
        · exact ⟨y, hy, h⟩
        · simp only [List.mem_singleton] at hy; subst hy; exact absurd h ha
      · rintro ⟨y, hy, h⟩; exact ⟨y, by simp [hy], h⟩
    simp only [List.cons_append, fromLastVar, this]
    split
    · rename_i h
      obtain ⟨y, hy, _⟩ := h
      exact ih (List.ne_nil_of_mem hy)
    · rfl

theorem fromLastVar_ne {k : Py} {ks : List Py} : ∃ k' ks', fromLastVar (k :: ks) = k' :: ks' := by
  induction ks generalizing k with
  | nil => exact ⟨k, [], by simp [fromLastVar]⟩
  | cons x ks ih =>
    rw [fromLastVar]
    split
    · exact ih
    · exact ⟨_, _, rfl⟩

theorem extractAttr_path {k : Py} {ks : List Py} (hk : ∃ s, k = .str s) :
    extractAttr (pathName (k :: ks)) = pathName (fromLastVar (k :: ks)) := by
  induction ks using List.reverseRecOn with
  | nil => obtain ⟨s, rfl⟩ := hk; rfl
  | append_singleton ks a ih =>
    rw [← List.cons_append, pathName_append, extractAttr_member]
    split
    · rename_i ha
      rw [fromLastVar_append_var ha]; rfl
    · rename_i ha
      rw [fromLastVar_append_const (by simp) ha, ih]
      obtain ⟨k', ks', e⟩ := fromLastVar_ne (k := k) (ks := ks)
      rw [e, pathName_append]

/-! ### Instances with string attributes -/

mutual
theorem stringKeysV_ok {v : Py} (h : stringKeysV v) : componentOk v := by
  match v, h with
  | .dict l, h => exact ⟨h.1, h.2.1, stringKeysD_ok h.2.2⟩
  | .none, _ | .bool _, _ | .num _, _ | .str _, _ | .tup _, _ | .list _, _ | .other _ _ _, _ => trivial
theorem stringKeysD_ok {l : List (Py × Py)} (h : stringKeysD l) : membersOk l := by
  match l, h with
  | [], _ => trivial
  | (k, v) :: l, h =>
    obtain ⟨⟨⟨s, rfl, hs, hu⟩, hv⟩, hl⟩ := h
    refine ⟨⟨?_, by simpa using hu, stringKeysV_ok hv⟩, stringKeysD_ok hl⟩
    cases s with
    | nil => exact absurd rfl hs
    | cons c s => exact ⟨_, rfl⟩
end

theorem stringKeysD_mem {l : List (Py × Py)} (h : stringKeysD l) :
    ∀ p ∈ l, (∃ s, p.1 = .str s) ∧ componentOk p.2 := by
  induction l with
  | nil => simp
  | cons q l ih =>
    obtain ⟨k, v⟩ := q
    obtain ⟨⟨⟨s, rfl, _, _⟩, hv⟩, hl⟩ := h
    intro p hp
    rcases List.mem_cons.1 hp with rfl | hp
    · exact ⟨⟨s, rfl⟩, stringKeysV_ok hv⟩
    · exact ih hl p hp

theorem stringKeys_structured {i : PyInst} (hn : Dict.Nodup i) (h : stringKeysD i) : Structured i := by
  refine ⟨hn, fun p hp => ?_⟩
  obtain ⟨⟨s, e⟩, h2⟩ := stringKeysD_mem h p hp
  exact ⟨by rw [e]; simp, h2⟩

mutual
theorem leavesV_strings {v : Py} (h : stringKeysV v) : ∀ e ∈ leavesV v, ∀ a ∈ e.1, ∃ s, a = .str s := by
  match v, h with
  | .dict l, h => exact leavesD_strings h.2.2
  | .none, _ | .bool _, _ | .num _, _ | .str _, _ | .tup _, _ | .list _, _ | .other _ _ _, _ =>
    intro e he; simp [leavesV] at he; subst he; simp
theorem leavesD_strings {l : List (Py × Py)} (h : stringKeysD l) :
    ∀ e ∈ leavesD l, ∀ a ∈ e.1, ∃ s, a = .str s := by
  match l, h with
  | [], _ => simp [leavesD]
  | (k, v) :: l, h =>
    obtain ⟨⟨⟨s, rfl, _, _⟩, hv⟩, hl⟩ := h
    intro e he
    simp only [leavesD, List.mem_append, List.mem_map] at he
    rcases he with ⟨f, hf, rfl⟩ | he
    · intro a ha
      rcases List.mem_cons.1 ha with rfl | ha
      · exact ⟨s, rfl⟩
      · exact leavesV_strings hv f hf a ha
    · exact leavesD_strings hl e he
end

theorem nameOk_path {k : Py} {ks : List Py} (hk : ∃ s, k = .str s) (hq : ks ≠ [] → k ≠ .str c!"??")
    (hroot : (∃ y ∈ ks, Variable y) → Variable k) : nameOk (pathName (k :: ks)) := by
  induction ks using List.reverseRecOn with
  | nil => obtain ⟨s, rfl⟩ := hk; trivial
  | append_singleton ks a _ =>
    have ho := outermost_path (ks := ks ++ [a]) hk
    have hp : ∀ y p, Variable y → PartOf y p (pathName (k :: (ks ++ [a]))) → Variable k := by
      intro y p hy h
      obtain ⟨r, s, e, _⟩ := partOf_path hy hk h
      exact hroot ⟨y, by rw [e]; simp, hy⟩
    obtain ⟨s, rfl⟩ := hk
    have hs : s ≠ c!"??" := fun e => hq (by simp) (by rw [e])
    rw [← List.cons_append, pathName_append] at ho hp ⊢
    unfold memberName at ho hp ⊢
    split
    · rename_i hh
      rw [if_pos hh] at ho hp
      refine ⟨s, by simpa [outermost] using ho, hs, ?_⟩
      rintro ⟨y, p, hy, h⟩
      exact hp y p hy h
    · rename_i hh
      rw [if_neg hh] at ho hp
      refine ⟨s, by simpa [outermost] using ho, hs, ?_⟩
      rintro ⟨y, p, hy, h⟩
      exact hp y p hy h

theorem distinct_of_paths {i : PyInst} (h : DistinctPaths i) :
    DistinctObjects (Dict.keys ((leavesD i).map fun e => (pathName e.1, e.2))) := by
  have hkey : ∀ a ∈ Dict.keys ((leavesD i).map fun e => (pathName e.1, e.2)),
      ∃ e ∈ leavesD i, ∃ k ks, e.1 = k :: ks ∧ (∃ s, k = .str s) ∧ a = pathName (k :: ks) := by
    intro a ha
    simp only [Dict.keys, List.map_map, List.mem_map, Function.comp] at ha
    obtain ⟨e, he, rfl⟩ := ha
    obtain ⟨k, ks, e1, _⟩ := leavesD_head e he
    exact ⟨e, he, k, ks, e1, leavesD_strings h.strings e he k (by rw [e1]; simp), by rw [e1]⟩
  refine ⟨?_, ?_, ?_, ?_⟩
  · intro a ha
    obtain ⟨e, he, k, ks, e1, hk, rfl⟩ := hkey a ha
    exact nameOk_path hk (h.split e he k ks e1) (h.rooted e he k ks e1)
  · intro x y hc
    obtain ⟨e, he, k, ks, e1, ⟨s, rfl⟩, e2⟩ := hkey _ hc
    rcases eq_or_ne ks [] with rfl | hks
    · simp [pathName] at e2
    · obtain ⟨a, b, e3⟩ := foldl_memberName_pair (o := .str s) hks
      rw [show pathName (.str s :: ks) = ks.foldl memberName (.str s) from rfl, e3] at e2
      simp at e2
  · intro a ha b hb y p q hy hp hq
    obtain ⟨e, he, k, ks, e1, hk, rfl⟩ := hkey a ha
    obtain ⟨f, hf, k', ks', f1, hk', rfl⟩ := hkey b hb
    obtain ⟨r, s, rfl, rfl⟩ := partOf_path hy hk hp
    obtain ⟨r', s', rfl, rfl⟩ := partOf_path hy hk' hq
    rw [h.one e he f hf y (k :: r) s (k' :: r') s' hy (by rw [e1]; simp) (by rw [f1]; simp)]
  · intro a ha b hb y p hy hp hs
    obtain ⟨e, he, k, ks, e1, hk, rfl⟩ := hkey a ha
    obtain ⟨f, hf, k', ks', f1, hk', rfl⟩ := hkey b hb
    obtain ⟨r, s, rfl, rfl⟩ := partOf_path hy hk hp
    have := stands_path hy hk' hs
    subst this
    have := h.one e he f hf y (k :: r) s [] ks' hy (by rw [e1]; simp) (by rw [f1]; simp)
    simp at this

end CF
