/-
The structure mapper: C54 and C55.
-/
import Verif.Proofs.StructureMapper
import Verif.Props.Preprocess

namespace CF

/-! ### C55 -/

/-- **C55**: whatever assignment Munkres' algorithm returns and however the search moves on from it, the
state of the search is a one-to-one mapping defined on exactly the variables of the instance, which sends
each of them to itself or to a variable of the base, together with the variables of the base that are not
in use. -/
theorem C55_search_states {inames cnames : List Py} (hi : inames.Nodup) (hc : cnames.Nodup)
    (hd : ∀ x ∈ inames, x ∉ cnames) {idx : List (ℕ × ℕ)}
    (ha : Assignment inames.length cnames.length idx) :
    ∃ m, assignLoop inames cnames idx [] = .ok m ∧
      ∀ s, Relation.ReflTransGen MapStep (m, unusedNames cnames m) s → MappingOk inames cnames s := by
  obtain ⟨m, h1, h2⟩ := assign_ok (cn := cnames) hi hc (fun _ => Iff.rfl) hd ha
  exact ⟨m, h1, fun s hs => h2.steps hd hs⟩

/-- **C55** for `flat_match`: the mapping it returns is such a mapping for the variables of the instance
and those of the base; with no variables on one side it is empty. -/
theorem C55_flat_match {S : Search} (hS : SearchLaws S) {base : List Py} {target : PyInst}
    {m : Dict Py Py}
    (h : flatMatch S base none target = .ok m) :
    (m = [] ∧ (varsOf target.keys = [] ∨ varsOf base = [])) ∨
    ∃ K u, (∀ x, x ∈ K ↔ x ∈ varsOf target.keys) ∧ MappingOk K (varsOf base) (m, u) := by
  rcases flatMatch_spec (user := none) hS trivial h with h | ⟨K, u, h1, h2, _, h4⟩
  · exact .inl h
  · exact .inr ⟨K, u, fun x => ⟨h2 x, h4 rfl x⟩, h1⟩

/-- **C55**, starting from a one-to-one mapping of the user instead of Munkres' algorithm: the same, for
the variables that the user's mapping is defined on. -/
theorem C55_user {S : Search} (hS : SearchLaws S) {base : List Py} {target : PyInst}
    {ps : List (Py × Py)} (hu : UserOk (some ps))
    {m : Dict Py Py} (h : flatMatch S base (some ps) target = .ok m) :
    (m = [] ∧ (varsOf target.keys = [] ∨ varsOf base = [])) ∨
    ∃ K u, (∀ x ∈ K, x ∈ varsOf target.keys) ∧ MappingOk K (varsOf base) (m, u) := by
  rcases flatMatch_spec hS hu h with h | ⟨K, u, h1, h2, _, _⟩
  · exact .inl h
  · exact .inr ⟨K, u, h2, h1⟩

/-! ### C54 -/

section
variable {γ : Type} {S : Search} {base : List Py} {user : Option (List (Py × Py))} {target : PyInst}

/-- **C54**: whatever mapping the search returns, `undo_transform(transform(target))` is `target`, entry by
entry and in the same order.  (If a variable of the target occurs in the base, `transform` raises; see
`C54_collision`.) -/
theorem C54_roundtrip (hS : SearchLaws S) (hn : Dict.Nodup target) (hu : UserOk user) (s : γ × Option (Dict Py Py)) :
    Undoes (· = ·) (structureMapper S base user) target s := by
  rintro o s' h g o' rfl
  simp only [structureMapper] at h
  split at h
  · next m hm =>
    cases h
    obtain ⟨e1, hn1⟩ := renameFlat_match hS hn hu hm
    obtain ⟨g1, g2, h3, h4⟩ := flatMatch_back hS hu hm
    obtain ⟨_, _, hr⟩ := reverseMap_eq g1 g2
    refine ⟨_, _, rfl, ?_⟩
    have hv : ∀ p ∈ target, ∀ x ∈ varsEl p.1, x ∈ varsOf target.keys := fun p hp x hx =>
      mem_varsOf.2 ⟨p.1, List.mem_map_of_mem hp, hx⟩
    rw [(renameFlat_eq (g := applyMap m) (fun x w e => (h3 w x ((hr w x).1 e)).2) hn1 ?_).1, e1, List.map_map]
    · symm
      conv_rhs => rw [← List.map_id target]
      apply List.map_congr_left
      intro p hp
      simp only [Function.comp, id]
      rw [renEl_renEl p.1 fun x hx => ⟨(h4 x (hv p hp x hx)).1, (h4 x (hv p hp x hx)).2.1⟩]
    · intro q hq x hx
      rw [e1] at hq
      obtain ⟨p, hp, rfl⟩ := List.mem_map.1 hq
      obtain ⟨y, hy, rfl⟩ := (varsEl_renEl _ _ fun y hy => (h4 y (hv p hp y hy)).1).1 hx
      rw [(h4 y (hv p hp y hy)).2.1]
      exact ⟨varsOf_variable (hv p hp y hy), rfl⟩
  · simp at h

/-- **C54** up to the order of the entries, as a stage of a pipeline. -/
theorem C54_undoes (hS : SearchLaws S) (hw : Py.wf (.dict target)) (hu : UserOk user) (s : γ × Option (Dict Py Py)) :
    Undoes SameInst (structureMapper S base user) target s := by
  intro o s' h g o' ho
  have hn : Dict.Nodup target := hw.1
  simp only [structureMapper] at h
  split at h
  · next m hm =>
    cases h
    obtain ⟨e1, hn1⟩ := renameFlat_match hS hn hu hm
    obtain ⟨g1, g2, h3, h4⟩ := flatMatch_back hS hu hm
    obtain ⟨e2, hn2⟩ := renameFlat_undo hS hn hu hm ho
    refine ⟨_, _, rfl, ?_⟩
    obtain ⟨⟨l', e, hlen, hsd⟩, hw'⟩ := ho
    cases e
    have hlen' : target.length = o'.length := by rw [← hlen, e1, List.length_map]
    refine ⟨⟨_, rfl, by rw [e2, List.length_map, hlen'], ?_⟩, hn2, ?_⟩
    · rw [Py.sameD_iff]
      intro k v hkv
      have h5 : (renEl (applyMap m) k, v) ∈ renameFlat target m := by
        rw [e1]; exact List.mem_map.2 ⟨(k, v), hkv, rfl⟩
      obtain ⟨v', h6, h7⟩ := Py.sameD_iff.1 hsd _ _ h5
      refine ⟨v', ?_, h7⟩
      rw [← Dict.mem_iff_get? hn2, e2, List.mem_map]
      refine ⟨_, Dict.mem_of_get? h6, ?_⟩
      simp only
      have hv : ∀ x ∈ varsEl k, x ∈ varsOf target.keys := fun x hx =>
        mem_varsOf.2 ⟨k, List.mem_map_of_mem (f := Prod.fst) hkv, hx⟩
      rw [renEl_renEl k fun x hx => ⟨(h4 x (hv x hx)).1, (h4 x (hv x hx)).2.1⟩]
    · rw [Py.wfD_iff, e2]
      intro p hp
      obtain ⟨q, hq, rfl⟩ := List.mem_map.1 hp
      exact Py.wfD_iff.1 hw'.2 q hq
  · simp at h

/-- **C54**: `transform` changes nothing but variables: every entry is kept, in order, with its value, and
its attribute with the variables renamed by a one-to-one map. -/
theorem C54_renames (hS : SearchLaws S) (hn : Dict.Nodup target) (hu : UserOk user) {s s' : γ × Option (Dict Py Py)} {o : PyInst}
    (h : (structureMapper S base user).transform target s = (.ok o, s')) :
    ∃ f : Py → Py, o = target.map (fun p => (renEl f p.1, p.2)) ∧ Dict.Nodup o ∧
      (∀ x ∈ varsOf target.keys, Variable (f x) ∧ (f x = x ∨ f x ∈ varsOf base)) ∧
      (∀ x ∈ varsOf target.keys, ∀ y ∈ varsOf target.keys, f x = f y → x = y) := by
  simp only [structureMapper] at h
  split at h
  · next m hm =>
    cases h
    obtain ⟨e1, hn1⟩ := renameFlat_match hS hn hu hm
    obtain ⟨g1, g2, h3, h4⟩ := flatMatch_back hS hu hm
    refine ⟨applyMap m, e1, hn1, fun x hx => ⟨(h4 x hx).1, (h4 x hx).2.2⟩, fun x hx y hy e => ?_⟩
    rw [← (h4 x hx).2.1, e, (h4 y hy).2.1]
  · simp at h

/-- The exception for objects that occur in both is raised when a variable of the target occurs in the base,
and otherwise no exception is raised but those of the external search (given that all attributes are strings
and tuples of strings, so that the names can be collected). -/
theorem C54_collision (hS : SearchLaws S) (hc : ∃ x, componentNames target.keys = .ok x) (hc' : ∃ x, componentNames base = .ok x) :
    ((∃ x ∈ varsOf target.keys, x ∈ varsOf base) → flatMatch S base user target = .error .exc) ∧
    ((∀ x ∈ varsOf target.keys, x ∉ varsOf base) → (∀ m, ∃ s, S.climb m target = .ok s) →
      (∀ is cs, ∃ idx, S.assign is cs target = .ok idx) → ∃ m, flatMatch S base user target = .ok m) := by
  obtain ⟨is, h1⟩ := hc
  obtain ⟨cs, h2⟩ := hc'
  have h3 := componentNames_ok h1
  have h4 := componentNames_ok h2
  subst h3 h4
  constructor
  · rintro ⟨x, hx, hx'⟩
    simp only [flatMatch, h1, h2, ok_bind]
    rw [if_neg, if_pos ⟨x, hx, hx'⟩]
    rintro (h | h)
    · rw [List.length_eq_zero_iff] at h; rw [varsOf, h] at hx; simp at hx
    · rw [List.length_eq_zero_iff] at h; rw [varsOf, h] at hx'; simp at hx'
  · intro hd hcl has
    simp only [flatMatch, h1, h2, ok_bind]
    split
    · exact ⟨_, rfl⟩
    · rw [if_neg fun ⟨x, hx, hx'⟩ => hd x hx hx']
      obtain ⟨m, hm⟩ : ∃ m, initialMapping S user (varsOf target.keys) (varsOf base) target = .ok m := by
        cases user with
        | some ps => exact ⟨_, rfl⟩
        | none =>
          obtain ⟨idx, hi⟩ := has (S.listOf (varsOf target.keys)) (S.listOf (varsOf base))
          obtain ⟨l1, l2⟩ := hS.listOf (varsOf target.keys)
          obtain ⟨l3, l4⟩ := hS.listOf (varsOf base)
          obtain ⟨m, e, _⟩ := assign_ok (cn := varsOf base) l1 l3 l4 (fun x hx => hd x ((l2 x).1 hx))
            (hS.assign _ _ _ _ hi)
          exact ⟨m, by simp only [initialMapping, hungarianMapping, hi, ok_bind, e]⟩
      obtain ⟨s, hs⟩ := hcl (m, unusedNames (S.listOf (varsOf base)) m)
      rw [varsOf] at hm
      rw [varsOf] at hm hs
      exact ⟨s.1, by simp only [hm, ok_bind, hs]; rfl⟩

/-- `get_mapping()` after `transform` is the mapping. -/
theorem C54_get_mapping (hS : SearchLaws S) (hu : UserOk user) {m : Dict Py Py} (h : flatMatch S base user target = .ok m) :
    getMapping (reverseMap m) = m := by
  obtain ⟨g1, g2, _⟩ := flatMatch_back hS hu h
  obtain ⟨e1, e2, hr⟩ := reverseMap_eq g1 g2
  have := (reverseMap_eq e2 fun x y v h1 h2 => by
    have h3 := (hr _ _).1 h1
    rw [(hr _ _).1 h2] at h3
    exact (Option.some.inj h3).symm).1
  rw [getMapping, this, e1, List.map_map]
  simp [Function.comp_def]

end

/-! ### Examples -/

/-- A search that assigns the `k`-th variable to the `k`-th one of the base and stops there. -/
def demoSearch : Search where
  listOf l := l.reverse.dedup.reverse
  assign is _ _ := .ok ((List.range is.length).map fun n => (n, n))
  climb s _ := .ok s

theorem demoSearch_ok : SearchLaws demoSearch where
  listOf l := ⟨by simpa [demoSearch] using List.nodup_dedup l.reverse, fun _ => by simp [demoSearch]⟩
  assign := by
    intro is cs t idx h
    simp only [demoSearch, Except.ok.injEq] at h
    subst h
    refine ⟨?_, ?_, ?_⟩
    · simp [List.map_map, Function.comp_def]
    · rw [List.map_map]
      simpa [Function.comp_def] using List.nodup_range
    · intro p hp
      obtain ⟨n, hn, rfl⟩ := List.mem_map.1 hp
      have := List.mem_range.1 hn
      simp only
      omega
  climb := by
    intro s t s' h
    simp only [demoSearch, Except.ok.injEq] at h
    exact h ▸ .refl

/-- `{('on', '?x', '?y'): True, ('color', '?x'): 'red', 'a': 1}`. -/
def demoTarget : PyInst :=
  [(.tup [.str c!"on", .str c!"?x", .str c!"?y"], .bool true),
   (.tup [.str c!"color", .str c!"?x"], .str c!"red"), (.str c!"a", .num 1)]

/-- The attributes `('color', '?o1')` and `'a'`. -/
def demoBase : List Py := [.tup [.str c!"color", .str c!"?o1"], .str c!"a"]

/-- The hypotheses are satisfiable, ... -/
example : Dict.Nodup demoTarget ∧ Py.wf (.dict demoTarget) := by
  refine ⟨?_, ?_⟩
  · simp [demoTarget, Dict.Nodup, Dict.keys]
  · simp [demoTarget, Py.wf, Py.wfD, Dict.Nodup, Dict.keys]

/-- ... `?x` is mapped to `?o1`, `?y` to itself, and back. -/
example : roundTrip (structureMapper demoSearch demoBase none) demoTarget ((), none) =
    some ([(.tup [.str c!"on", .str c!"?o1", .str c!"?y"], .bool true),
      (.tup [.str c!"color", .str c!"?o1"], .str c!"red"), (.str c!"a", .num 1)], demoTarget) := by
  decide +kernel

/-- A step of the search: the two variables swap their images. -/
example : MapStep ([(.str c!"?x", .str c!"?o1"), (.str c!"?y", .str c!"?o2")], [.str c!"?o3"])
    ([(.str c!"?x", .str c!"?o2"), (.str c!"?y", .str c!"?o1")], [.str c!"?o3"]) :=
  ⟨_, _, .refl _, .refl _, .inl (by decide +kernel)⟩

/-- A mapping of the user that identifies two variables loses data, so C54 needs `UserOk`:
`{('a', '?x'): 1, ('a', '?y'): 2}` with the mapping `{('?x', '?o1'), ('?y', '?o1')}` becomes
`{('a', '?o1'): 2}`, and then `{('a', '?y'): 2}`. -/
theorem C54_user_not_injective :
    roundTrip (structureMapper demoSearch demoBase
        (some [(.str c!"?x", .str c!"?o1"), (.str c!"?y", .str c!"?o1")]))
      [(.tup [.str c!"a", .str c!"?x"], .num 1), (.tup [.str c!"a", .str c!"?y"], .num 2)] ((), none) =
    some ([(.tup [.str c!"a", .str c!"?o1"], .num 2)], [(.tup [.str c!"a", .str c!"?y"], .num 2)]) := by
  decide +kernel

end CF
