/-
Pipelines, flattening and sub-components: C45, C47, C49.
-/
import Verif.Proofs.Pipeline
import Verif.Proofs.SubPath

set_option linter.unusedSectionVars false

namespace CF

/-! ### C45 -/

section
variable {γ τ : Type} {R : PyInst → PyInst → Prop}

/-- C45 for pipelines of different objects: if the `undo_transform` of every stage inverts what its
`transform` did to the intermediate instance, then the pipeline's `undo_transform` inverts the pipeline's
`transform`.  `R` is any relation, equality or Python's `==`; the state of the objects, and the state they
share, are arbitrary.

Full statement: the same for any list of preprocessors.  It fails when an object with state is used twice
(`C45_same_object`). -/
theorem C45_pipeline_partial (ps : List (Stage γ τ)) (hd : (ps.map Stage.addr).Nodup) (i : PyInst)
    (s : γ × (ℕ → τ)) (h : StagesUndo R ps i s) : Undoes R (pipeline ps) i s :=
  pipeline_undoes hd h

/-- The condition on the stages holds whenever each of them inverts its transform for every instance. -/
theorem C45_stages (ps : List (Stage γ τ)) (h : ∀ p ∈ ps, ∀ i s, Undoes R p.cls i s) (i : PyInst)
    (s : γ × (ℕ → τ)) : StagesUndo R ps i s := by
  induction ps generalizing i s with
  | nil => trivial
  | cons p ps ih =>
    exact ⟨h p List.mem_cons_self i _, fun o s' _ => ih (fun q hq => h q (List.mem_cons_of_mem _ hq)) _ _⟩

/-- C45 for stages that need no state: then the list is arbitrary. -/
theorem C45_pipeline_stateless (ps : List (Stage γ τ)) (h : ∀ p ∈ ps, UndoesAlways R p.cls) :
    UndoesAlways R (pipeline ps) :=
  pipeline_undoesAlways h

/-- Then `batch_undo` also inverts `batch_transform`. -/
theorem C45_batch (p : Preproc γ τ) (h : UndoesAlways R p) {is os os' : List PyInst} {s s' : γ × τ}
    (e : batch p.transform is s = (.ok os, s')) (ho : List.Forall₂ R os os') (s₁ : γ × τ) :
    ∃ is' s'', batch p.undo os' s₁ = (.ok is', s'') ∧ List.Forall₂ R is is' :=
  batch_undoes (f := p.transform) (g := p.undo) h e ho s₁

end

/-- Names `?a`, `?aa`, `?aaa`, ... -/
def demoStd : StdCfg where
  strOf | .str s => s | _ => []
  setOrder := id
  gensym n := '?' :: List.replicate (n + 1) 'a'

/-- The state of a pipeline of name standardizers before its first use. -/
def demoStart : ℕ × (ℕ → Option (Dict Py Py)) := (0, fun _ => none)

/-- `{'?x': {'c': 1}}`. -/
def demoVar : PyInst := [(.str c!"?x", .dict [(.str c!"c", .num 1)])]

/-- What a pipeline makes of an instance and back. -/
def roundTrip {γ τ : Type} (p : Preproc γ τ) (i : PyInst) (s : γ × τ) : Option (PyInst × PyInst) :=
  match p.transform i s with
  | (.ok o, s') => match (p.undo o s').1 with
    | .ok i' => some (o, i')
    | .error _ => none
  | (.error _, _) => none

/-- Used alone, or two of them, a name standardizer can be undone ... -/
example : roundTrip (pipeline [⟨0, nameStandardizer demoStd⟩, ⟨1, nameStandardizer demoStd⟩]) demoVar
    demoStart = some ([(.str c!"?aa", .dict [(.str c!"c", .num 1)])], demoVar) := by decide +kernel

/-- ... but the same object twice cannot: `{'?x': {'c': 1}}` comes back as `{'?a': {'c': 1}}`. -/
theorem C45_same_object :
    roundTrip (pipeline [⟨0, nameStandardizer demoStd⟩]) demoVar demoStart =
      some ([(.str c!"?a", .dict [(.str c!"c", .num 1)])], demoVar) ∧
    roundTrip (pipeline [⟨0, nameStandardizer demoStd⟩, ⟨0, nameStandardizer demoStd⟩]) demoVar demoStart =
      some ([(.str c!"?aa", .dict [(.str c!"c", .num 1)])],
        [(.str c!"?a", .dict [(.str c!"c", .num 1)])]) := by
  decide +kernel

/-! ### C47 -/

/-- C47: flattening succeeds; every value that is not a component is kept, under the name of its path;
the names are different and determine the paths; no value is a component; and a name is hidden exactly
when it is a hidden attribute, of the instance or of a component. -/
theorem C47_flatten {i : PyInst} (h : Structured i) :
    ∃ F, flatten i = .ok F ∧ Dict.Nodup F ∧
      (∀ a v, (a, v) ∈ F ↔ ∃ e ∈ leavesD i, a = pathName e.1 ∧ v = e.2) ∧
      (∀ e ∈ leavesD i, ∀ f ∈ leavesD i, pathName e.1 = pathName f.1 → e = f) ∧
      (∀ a v, (a, v) ∈ F → v.isDict = false) := by
  have hn := flat_keys_nodup h
  refine ⟨_, flatten_eq h, hn, ?_, ?_, ?_⟩
  · intro a v
    simp only [List.mem_map, Prod.mk.injEq]
    exact ⟨fun ⟨e, he, h1, h2⟩ => ⟨e, he, h1.symm, h2.symm⟩, fun ⟨e, he, h1, h2⟩ => ⟨e, he, h1.symm, h2.symm⟩⟩
  · intro e he f hf h1
    have := pathName_inj (structured_paths h e he) (structured_paths h f hf) h1
    have h3 := Dict.get?_of_mem hn (List.mem_map.2 ⟨e, he, rfl⟩)
    have h4 := Dict.get?_of_mem hn (List.mem_map.2 ⟨f, hf, rfl⟩)
    rw [h1] at h3
    rw [h3] at h4
    exact Prod.ext this (Option.some.inj h4)
  · intro a v hav
    obtain ⟨e, he, h1⟩ := List.mem_map.1 hav
    cases h1
    exact leavesD_atoms e he

/-- C47: `undo_transform(transform(instance))` is the instance. -/
theorem C47_roundtrip {i : PyInst} (h : Structured i) :
    ∃ F, flatten i = .ok F ∧ unflatten F = .ok i :=
  ⟨_, flatten_eq h, unflatten_eq h⟩

/-- The flattener inverts itself as a stage of any pipeline. -/
theorem C47_undoes {γ τ : Type} {i : PyInst} (h : Structured i) (s : γ × τ) :
    Undoes (· = ·) (flattener : Preproc γ τ) i s :=
  stateless_undoes (flatten_eq h) (unflatten_eq h) s

/-- In particular for instances built of non-empty components with string attribute names. -/
theorem C47_strings {i : PyInst} (hn : Dict.Nodup i) (h : stringKeysD i) : Structured i :=
  stringKeys_structured hn h

/-- In the flattened instance a hidden attribute of a component has a hidden name.

Full statement: so has an attribute of a hidden component (false, see the next theorem). -/
theorem C47_hidden_partial {i : PyInst} (h : Structured i) {k a v : Py} {ks : List Py}
    (he : (k :: ks ++ [a], v) ∈ leavesD i) (ha : Hidden a) :
    ∃ F, flatten i = .ok F ∧ (pathName (k :: ks ++ [a]), v) ∈ F ∧ Hidden (pathName (k :: ks ++ [a])) := by
  obtain ⟨F, h1, _, h2, _⟩ := C47_flatten h
  refine ⟨F, h1, (h2 _ _).2 ⟨_, he, rfl, rfl⟩, ?_⟩
  rw [pathName_append, memberName, if_pos ha]
  rfl

/-- But an attribute of a hidden component does not: that part of C47 is false.  `{'_h': {'d': 1}}` has
the flattened name `('d', '_h')`, whose first element is `'d'`. -/
theorem C47_hidden_component :
    stringKeysD [(.str c!"_h", .dict [(.str c!"d", .num 1)])] ∧
    flatten [(.str c!"_h", .dict [(.str c!"d", .num 1)])] =
      .ok [(.tup [.str c!"d", .str c!"_h"], .num 1)] ∧
    Hidden (.str c!"_h") ∧ ¬ Hidden (.tup [.str c!"d", .str c!"_h"]) := by
  refine ⟨?_, rfl, rfl, by decide +kernel⟩
  refine ⟨⟨⟨_, rfl, by simp, by simp⟩, by simp, by simp [Dict.Nodup, Dict.keys], ?_⟩, trivial⟩
  exact ⟨⟨⟨_, rfl, by simp, by simp⟩, trivial⟩, trivial⟩

/-- `{'a': 1, '?o': {'b': 2, '_h': 3, '?p': {'c': 'x'}}, ('r', 'a', 'b'): True}`. -/
def demoStruct : PyInst :=
  [(.str c!"a", .num 1),
   (.str c!"?o", .dict [(.str c!"b", .num 2), (.str c!"_h", .num 3),
     (.str c!"?p", .dict [(.str c!"c", .str c!"x")])]),
   (.tup [.str c!"r", .str c!"a", .str c!"b"], .bool true)]

/-- The hypothesis of the theorems is satisfiable, with a relation. -/
example : Structured demoStruct := by
  refine ⟨by decide +kernel, ?_⟩
  simp [demoStruct, componentOk, membersOk, Py.index0, Dict.Nodup, Dict.keys]

example : flatten demoStruct = .ok [(.str c!"a", .num 1), (.tup [.str c!"b", .str c!"?o"], .num 2),
    (.tup [.str c!"_", .tup [.str c!"_h", .str c!"?o"]], .num 3),
    (.tup [.str c!"c", .tup [.str c!"?p", .str c!"?o"]], .str c!"x"),
    (.tup [.str c!"r", .str c!"a", .str c!"b"], .bool true)] := by decide +kernel

/-- Empty components are lost, and an attribute `'_'` of a component loses its place. -/
example : (flatten [(.str c!"a", .dict [])], (flatten [(.str c!"a", .dict [(.str c!"_", .num 1)])]).bind
    unflatten) = (.ok [], .ok [(.str c!"a", .num 1)]) := by decide +kernel

/-! ### C49 -/

/-- C49 for flattened instances: when every variable names one object, extracting the sub-components
succeeds and is undone exactly.  The recursion of `rename_embedded` is as deep as the names. -/
theorem C49_flat {F : PyInst} (hF : Dict.Nodup F) (hd : DistinctObjects (Dict.keys F)) {fuel : ℕ}
    (hf : ∀ a ∈ Dict.keys F, nameDepth a < fuel) :
    ∃ G, extractSub F = .ok G ∧ embedSub fuel G = .ok F :=
  let ⟨G, h1, h2, _⟩ := embed_extract hF hd hf
  ⟨G, h1, h2⟩

/-- C49 for structured instances with distinct object names: flattening and extracting the sub-components
names every value by its path from the last variable on, relates every variable to the object it is part
of, and adds nothing else; undoing both returns the instance.

Full statement: without `rooted` and `split` of `DistinctPaths`.  Both are needed: `C49_rooted_needed`,
`C49_split_needed`. -/
theorem C49_roundtrip_partial {i : PyInst} (h : DistinctPaths i) {fuel : ℕ}
    (hf : ∀ e ∈ leavesD i, 2 * e.1.length < fuel) :
    ∃ F G, flatten i = .ok F ∧ extractSub F = .ok G ∧ Dict.Nodup G ∧
      (∀ a v, (a, v) ∈ G ↔ (∃ e ∈ leavesD i, a = pathName (fromLastVar e.1) ∧ v = e.2) ∨
        (v = .bool true ∧ ∃ e ∈ leavesD i, ∃ k r y s, e.1 = k :: r ++ y :: s ∧ Variable y ∧
          a = .tup [.str c!"has-component", pathName (fromLastVar (k :: r)), y])) ∧
      embedSub fuel G = .ok F ∧ unflatten F = .ok i := by
  have hst := stringKeys_structured h.keys h.strings
  have hfn : ∀ a ∈ Dict.keys ((leavesD i).map fun e => (pathName e.1, e.2)), nameDepth a < fuel := by
    intro a ha
    simp only [Dict.keys, List.map_map, List.mem_map, Function.comp] at ha
    obtain ⟨e, he, rfl⟩ := ha
    obtain ⟨k, ks, e1, _⟩ := leavesD_head e he
    have hs := leavesD_strings h.strings e he
    have := hf e he
    rw [e1] at hs this ⊢
    have := nameDepth_path (ks := ks) (hs k (by simp)) fun a ha => hs a (by simp [ha])
    simp at *
    omega
  obtain ⟨G, h1, h2, h3, h4⟩ := embed_extract (flat_keys_nodup hst) (distinct_of_paths h) hfn
  refine ⟨_, G, flatten_eq hst, h1, h3, fun a v => ?_, h2, unflatten_eq hst⟩
  rw [h4]
  refine or_congr ?_ (and_congr_right fun _ => ?_)
  · simp only [List.mem_map, Prod.mk.injEq]
    constructor
    · rintro ⟨b, ⟨e, he, rfl, rfl⟩, rfl⟩
      obtain ⟨k, ks, e1, _⟩ := leavesD_head e he
      refine ⟨e, he, ?_, rfl⟩
      rw [e1, extractAttr_path (leavesD_strings h.strings e he k (by rw [e1]; simp))]
    · rintro ⟨e, he, rfl, rfl⟩
      obtain ⟨k, ks, e1, _⟩ := leavesD_head e he
      refine ⟨_, ⟨e, he, rfl, rfl⟩, ?_⟩
      rw [e1, extractAttr_path (leavesD_strings h.strings e he k (by rw [e1]; simp))]
  · constructor
    · rintro ⟨b, hb, y, p, hp, hy, rfl⟩
      simp only [Dict.keys, List.map_map, List.mem_map, Function.comp] at hb
      obtain ⟨e, he, rfl⟩ := hb
      obtain ⟨k, ks, e1, _⟩ := leavesD_head e he
      have hk := leavesD_strings h.strings e he k (by rw [e1]; simp)
      rw [e1] at hp
      obtain ⟨r, s, rfl, rfl⟩ := partOf_path hy hk hp
      exact ⟨e, he, k, r, y, s, by rw [e1]; simp, hy, by rw [extractAttr_path hk]⟩
    · rintro ⟨e, he, k, r, y, s, e1, hy, rfl⟩
      have hk := leavesD_strings h.strings e he k (by rw [e1]; simp)
      refine ⟨pathName e.1, ?_, y, pathName (k :: r), ?_, hy, by rw [extractAttr_path hk]⟩
      · simp only [Dict.keys, List.map_map, List.mem_map, Function.comp]
        exact ⟨e, he, rfl⟩
      · rw [e1]
        exact partOf_path_mk hy

/-- The pipeline of flattener and sub-component processor undoes itself. -/
theorem C49_undoes {γ τ : Type} {i : PyInst} (h : DistinctPaths i) {fuel : ℕ}
    (hf : ∀ e ∈ leavesD i, 2 * e.1.length < fuel) (s : γ × (ℕ → τ)) :
    Undoes (· = ·) (pipeline [⟨0, flattener⟩, ⟨1, subComponent fuel⟩] : Preproc γ (ℕ → τ)) i s := by
  refine C45_pipeline_partial _ (by simp) i s ⟨C47_undoes (stringKeys_structured h.keys h.strings) _, ?_⟩
  intro o s' e
  obtain ⟨F, G, h1, h2, _, _, h5, _⟩ := C49_roundtrip_partial h hf
  have e : (flatten i, (s.1, s.2 0)) = (.ok o, s') := e
  rw [h1] at e
  obtain ⟨e1, rfl⟩ := Prod.mk.inj e
  obtain rfl : F = o := Except.ok.inj e1
  exact ⟨stateless_undoes h2 h5 _, fun _ _ _ => trivial⟩

/-- `{'?o': {'b': 2, 'd': {'e': 4}, '?p': {'_c': 'x', '?q': {'f': 5}}}, 'g': {'h': 6}}`. -/
def demoObjects : PyInst :=
  [(.str c!"?o", .dict [(.str c!"b", .num 2), (.str c!"d", .dict [(.str c!"e", .num 4)]),
     (.str c!"?p", .dict [(.str c!"_c", .str c!"x"), (.str c!"?q", .dict [(.str c!"f", .num 5)])])]),
   (.str c!"g", .dict [(.str c!"h", .num 6)])]

/-- The place of the only occurrence of a variable in a path. -/
def placeIn (y : Py) : List Py → Option (List Py)
  | [] => none
  | k :: ks => if k = y then some [] else (placeIn y ks).map (k :: ·)

theorem placeIn_eq {y : Py} {r s : List Py} (h : y ∉ r) : placeIn y (r ++ y :: s) = some r := by
  induction r with
  | nil => simp [placeIn]
  | cons a r ih =>
    simp only [List.mem_cons, not_or] at h
    simp [placeIn, Ne.symm h.1, ih h.2]

/-- A decidable form of the condition on the places of variables. -/
theorem one_of_places {i : PyInst} (hnd : ∀ e ∈ leavesD i, e.1.Nodup)
    (h : ∀ e ∈ leavesD i, ∀ f ∈ leavesD i, ∀ y ∈ e.1, y ∈ f.1 → Variable y →
      placeIn y e.1 = placeIn y f.1) :
    ∀ e ∈ leavesD i, ∀ f ∈ leavesD i, ∀ y r s r' s', Variable y → e.1 = r ++ y :: s →
      f.1 = r' ++ y :: s' → r = r' := by
  intro e he f hf y r s r' s' hy h1 h2
  have := h e he f hf y (by simp [h1]) (by simp [h2]) hy
  have n1 := hnd e he
  have n2 := hnd f hf
  rw [h1, List.nodup_append] at n1
  rw [h2, List.nodup_append] at n2
  rw [h1, h2, placeIn_eq (fun hc => n1.2.2 y hc y (by simp) rfl),
    placeIn_eq (fun hc => n2.2.2 y hc y (by simp) rfl)] at this
  exact Option.some.inj this

/-- The hypotheses of the theorems are satisfiable. -/
example : DistinctPaths demoObjects where
  strings := by simp [demoObjects, stringKeysD, stringKeysV, Dict.Nodup, Dict.keys]
  keys := by decide +kernel
  rooted := by
    simp only [demoObjects, leavesD, leavesV, List.map_cons, List.map_nil, List.cons_append,
      List.nil_append, List.append_nil]
    simp [Variable]
  split := by
    simp only [demoObjects, leavesD, leavesV, List.map_cons, List.map_nil, List.cons_append,
      List.nil_append, List.append_nil]
    simp
  one := one_of_places (by decide +kernel) (by decide +kernel)

example : (flatten demoObjects).bind extractSub = .ok
    [(.tup [.str c!"b", .str c!"?o"], .num 2),
     (.tup [.str c!"e", .tup [.str c!"d", .str c!"?o"]], .num 4),
     (.tup [.str c!"has-component", .str c!"?o", .str c!"?p"], .bool true),
     (.tup [.str c!"_", .tup [.str c!"_c", .str c!"?p"]], .str c!"x"),
     (.tup [.str c!"has-component", .str c!"?p", .str c!"?q"], .bool true),
     (.tup [.str c!"f", .str c!"?q"], .num 5),
     (.tup [.str c!"h", .str c!"g"], .num 6)] := by decide +kernel

/-- A flattened instance with a relation between nested objects. -/
example : DistinctObjects [.tup [.str c!"x", .tup [.str c!"?p", .str c!"?o"]],
    .tup [.str c!"ontop", .tup [.str c!"?p", .str c!"?o"], .str c!"?o"]] where
  ok := by
    have h2 : nameOk (.tup [.str c!"?p", .str c!"?o"]) := ⟨_, rfl, by decide, fun _ => ⟨_, rfl⟩⟩
    have h1 : nameOk (.tup [.str c!"x", .tup [.str c!"?p", .str c!"?o"]]) :=
      ⟨_, rfl, by decide, fun _ => ⟨_, rfl⟩⟩
    simp only [List.mem_cons, List.not_mem_nil, or_false, forall_eq_or_imp, forall_eq]
    exact ⟨h1, (nameOk_tup (by simp)).2 ⟨trivial, h2, trivial, trivial⟩⟩
  free := by simp
  one := by
    have key : ∀ a ∈ [Py.tup [.str c!"x", .tup [.str c!"?p", .str c!"?o"]],
        .tup [.str c!"ontop", .tup [.str c!"?p", .str c!"?o"], .str c!"?o"]], ∀ y p, Variable y →
        PartOf y p a → p = .str c!"?o" := by
      intro a ha y p hy h
      simp only [List.mem_cons, List.not_mem_nil, or_false] at ha
      rcases ha with rfl | rfl
      · rcases partOf_pair.1 h with ⟨rfl, _⟩ | h
        · exact absurd hy (by decide)
        · rcases partOf_pair.1 h with ⟨_, rfl⟩ | h
          · rfl
          · exact absurd h not_partOf_str
      · obtain ⟨x, hx, h⟩ := (partOf_tup (by simp)).1 h
        simp only [List.mem_cons, List.not_mem_nil, or_false] at hx
        rcases hx with rfl | rfl | rfl
        · exact absurd h not_partOf_str
        · rcases partOf_pair.1 h with ⟨_, rfl⟩ | h
          · rfl
          · exact absurd h not_partOf_str
        · exact absurd h not_partOf_str
    exact fun a ha b hb y p q hy hp hq => (key a ha y p hy hp).trans (key b hb y q hy hq).symm
  top := by
    intro a ha b hb y p hy hp hs
    have hyt : ∀ l, y ≠ .tup l := by obtain ⟨s, rfl⟩ := hy; simp
    have hstr : ∀ {s : PStr}, Stands y (.str s) → y = .str s := fun h => by cases h; rfl
    have hyo : y = .str c!"?o" ∨ y = .str c!"ontop" := by
      simp only [List.mem_cons, List.not_mem_nil, or_false] at hb
      rcases hb with rfl | rfl
      · exact .inl (hstr ((stands_pair hyt).1 ((stands_pair hyt).1 hs)))
      · cases hs with
        | here => exact absurd rfl (hyt _)
        | elem _ hx h =>
          simp only [List.mem_cons, List.not_mem_nil, or_false] at hx
          rcases hx with rfl | rfl | rfl
          · exact .inr (hstr h)
          · exact .inl (hstr ((stands_pair hyt).1 h))
          · exact .inl (hstr h)
    rcases hyo with rfl | rfl
    · simp only [List.mem_cons, List.not_mem_nil, or_false] at ha
      rcases ha with rfl | rfl
      · rcases partOf_pair.1 hp with ⟨e, _⟩ | h
        · simp at e
        · rcases partOf_pair.1 h with ⟨e, _⟩ | h
          · simp at e
          · exact absurd h not_partOf_str
      · obtain ⟨x, hx, h⟩ := (partOf_tup (by simp)).1 hp
        simp only [List.mem_cons, List.not_mem_nil, or_false] at hx
        rcases hx with rfl | rfl | rfl
        · exact absurd h not_partOf_str
        · rcases partOf_pair.1 h with ⟨e, _⟩ | h
          · simp at e
          · exact absurd h not_partOf_str
        · exact absurd h not_partOf_str
    · exact absurd hy (by decide)

/-- Without the conditions the round trip fails.  A variable inside a constant component loses its place:
`{'c': {'?v': {'x': 1}}}` comes back as `{'?v': {'x': 1}}`. -/
theorem C49_rooted_needed :
    ((flatten [(.str c!"c", .dict [(.str c!"?v", .dict [(.str c!"x", .num 1)])])]).bind extractSub).bind
      (fun G => (embedSub 100 G).bind unflatten) =
    .ok [(.str c!"?v", .dict [(.str c!"x", .num 1)])] := by decide +kernel

/-- The name `'??'` of a component is split into `'?'` and `'?'`: a relation that is not there appears. -/
theorem C49_split_needed :
    (flatten [(.str c!"??", .dict [(.str c!"x", .num 1)])]).bind extractSub =
    .ok [(.tup [.str c!"has-component", .str c!"?", .str c!"?"], .bool true),
      (.tup [.str c!"x", .str c!"??"], .num 1)] := by decide +kernel

/-- With an object `'?'` that relation makes `rename_embedded` recurse without end. -/
theorem C49_split_endless (fuel : ℕ) :
    ((flatten [(.str c!"??", .dict [(.str c!"x", .num 1)]), (.str c!"?", .num 2)]).bind extractSub).bind
      (embedSub fuel) = .error .outOfFuel := by
  have e : (flatten [(.str c!"??", .dict [(.str c!"x", .num 1)]), (.str c!"?", .num 2)]).bind extractSub =
      .ok [(.tup [.str c!"has-component", .str c!"?", .str c!"?"], .bool true),
        (.tup [.str c!"x", .str c!"??"], .num 1), (.str c!"?", .num 2)] := by decide +kernel
  have em : soMapping [(.tup [.str c!"has-component", .str c!"?", .str c!"?"], .bool true),
        (.tup [.str c!"x", .str c!"??"], .num 1), (.str c!"?", .num 2)] =
      [(.str c!"?", .tup [.str c!"?", .str c!"?"])] := by decide +kernel
  have h : ∀ n, renameEmb [(.str c!"?", .tup [.str c!"?", .str c!"?"])] n (.str c!"?") =
      .error .outOfFuel := by
    intro n
    induction n with
    | zero => rfl
    | succ n ih =>
      rw [renameEmb.eq_def]
      simp [Dict.get?, ih, error_bind]
  rw [e]
  show embedD _ fuel _ [] = _
  rw [em]
  have h1 : compEntry (.tup [.str c!"has-component", .str c!"?", .str c!"?"]) ≠ none := by decide +kernel
  have h2 : compEntry (.tup [.str c!"x", .str c!"??"]) = none := by decide +kernel
  have h3 : compEntry (.str c!"?") = none := by decide +kernel
  obtain ⟨w, hw⟩ := Option.ne_none_iff_exists'.1 h1
  simp only [embedD, hw, h2, h3]
  cases hx : renameEmb [(.str c!"?", .tup [.str c!"?", .str c!"?"])] fuel (.tup [.str c!"x", .str c!"??"]) with
  | ok a => simp [ok_bind, h, error_bind]
  | error x =>
    match fuel with
    | 0 => simp [renameEmb] at hx; subst hx; rfl
    | 1 =>
      rw [renameEmb.eq_def] at hx
      simp [Dict.get?, renameEmb, error_bind] at hx
      subst hx; rfl
    | n + 2 =>
      rw [renameEmb.eq_def] at hx
      simp only [Dict.get?] at hx
      rw [renameEmb.eq_def] at hx
      simp [Dict.get?, ok_bind, pure, Except.pure] at hx

end CF
