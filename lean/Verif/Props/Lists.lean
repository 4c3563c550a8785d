/-
C50: the list processor.
-/
import Verif.Proofs.ListRead
import Std.Data.String.ToNat

namespace CF
open Py
variable {cfg : ListCfg} {τ : Type}

/-- C50, the first stage: the elements of all lists, at every depth, become components of their own, and come
back in their order, even if the entries of the dicts come in another order.

`h` says that no attribute is a name that will be generated, and `hl` that no list is hidden and no component
in a list has an attribute `val` (`C50_name_clash`, `C50_hidden`, `C50_val`). -/
theorem C50_extract (hc : ListNames cfg) {i : PyInst} {s : ℕ × τ} (hw : (Py.dict i).wf)
    (h : KeysD (FreshName cfg s.1) i) (hl : ListsOkD i) :
    (∃ o s', (listExtractor cfg).transform i s = (.ok o, s')) ∧ Undoes SameInst (listExtractor cfg) i s := by
  obtain ⟨X, s₁, hX, hrun⟩ := extractE_spec (P := fun _ => True) hc (fun _ => trivial) i s.1 s.1 le_rfl hw.2 hw.1 h hl
  have hrun := hrun [] (by intro k hk; cases hk)
  have ht : (listExtractor cfg : Preproc ℕ τ).transform i s = (.ok X, (s₁, s.2)) := by
    simp only [listExtractor, hrun, List.nil_append]
  refine ⟨⟨_, _, ht⟩, ?_⟩
  intro o s' e g o' ho
  rw [ht] at e
  cases e
  obtain ⟨u, h1, ⟨m, rfl, h2⟩, h3⟩ := hX.level.back hw.1 hX.nodup (.dict o') ho.1 ho.2
  refine ⟨m, (g, s.2), ?_, ⟨m, rfl, h2⟩, h3⟩
  simp only [listExtractor, h1, ok_bind, asInst]
  rfl

/-- C50, the second stage: non-empty lists of different strings, in components at any depth, become relations
of the instance, and come back in their order whatever the order of the relations.

`hk` holds for every Python dict.  `ht` says that the attributes of the instance itself are not relations
like those added, and that lists and components are not at pairs (`C50_repeated`, `C50_pair`). -/
theorem C50_relations {γ : Type} {i : PyInst} (s : γ × τ) (hw : (Py.dict i).wf)
    (hk : KeysD (fun k => k.hashable = true) i) (ht : TopAttrs i) (hf : FlatD i) :
    (∃ o, (listsToRelations cfg).transform i s = (.ok o, s)) ∧ Undoes SameInst (listsToRelations cfg) i s := by
  have h := lists_to_relations (cfg := cfg) hw.2 hw.1 hk ht hf
  have h1 : (listsToRelations cfg : Preproc γ τ).transform i s = (.ok (outTop i), s) := by
    simp only [listsToRelations, stateless, h]; rfl
  refine ⟨⟨_, h1⟩, ?_⟩
  intro o s' e g o' ho
  rw [h1] at e
  cases e
  obtain ⟨X', e1, e2⟩ := relations_to_lists hw.2 hw.1 ht hf ho
  refine ⟨X', (g, s.2), ?_, e2⟩
  simp only [listsToRelations, stateless, e1]
  rfl

theorem Level.topAttrs {l X : PyInst} (h : Level l X) (hl : TopAttrs l) (hX : Dict.Nodup X)
    (hs : ∀ k ∈ Dict.keys X, k ∈ Dict.keys l ∨ ∃ s, k = Py.str s) : TopAttrs X := by
  rintro ⟨k, w⟩ hm
  rcases hs k (List.mem_map.2 ⟨_, hm, rfl⟩) with hk | ⟨s, rfl⟩
  · obtain ⟨⟨k', v⟩, hv, e⟩ := List.mem_map.1 hk
    obtain rfl : k' = k := e
    refine ⟨(hl _ hv).1, fun hw => (hl _ hv).2 ?_⟩
    have hg := Dict.get?_of_mem hX hm
    cases h1 : v.isList with
    | true => rfl
    | false =>
      cases h2 : v.isDict with
      | true => rfl
      | false =>
        have := h.atoms _ v hv h1 h2
        rw [hg] at this
        cases this
        simp only [h1, h2] at hw
        cases hw
  · exact ⟨⟨by simp, by simp, by simp⟩, by simp⟩

/-- C50: `undo_transform` of the result of `transform`, or of the same dicts with their entries in another
order, is the instance with all its lists, of any length and nesting, in their order.

Full statement: for every instance.  Empty lists become components without attributes (`C50_empty`); for the
other conditions see `C50_extract` and `C50_relations`. -/
theorem C50_roundtrip_partial (hc : ListNames cfg) {i : PyInst} {s : ℕ × (ℕ → τ)} (hw : (Py.dict i).wf)
    (hk : KeysD (fun k => k.hashable = true) i) (h : KeysD (FreshName cfg s.1) i) (hl : ListsOkD i)
    (he : NoEmptyD i) (ht : TopAttrs i) :
    (∃ o s', (listProcessor cfg).transform i s = (.ok o, s')) ∧ Undoes SameInst (listProcessor cfg) i s := by
  obtain ⟨X, s₁, hX, hrun⟩ := extractE_spec (P := fun k => k.hashable = true) hc (fun _ => rfl) i s.1 s.1 le_rfl
    hw.2 hw.1 h hl
  have hrun := hrun [] (by intro k hk; cases hk)
  have h1 : (listExtractor cfg : Preproc ℕ τ).transform i (s.1, s.2 0) = (.ok X, (s₁, s.2 0)) := by
    simp only [listExtractor, hrun, List.nil_append]
  have htop : TopAttrs X := hX.level.topAttrs ht hX.nodup fun k hk => by
    rcases hX.keys k hk with hk | ⟨n, _, _, e⟩
    · exact .inl hk
    · exact .inr ⟨_, e⟩
  have h2 := fun t : ℕ × τ => C50_relations (cfg := cfg) (i := X) t ⟨hX.nodup, hX.wf⟩ (hX.attrs hk) htop (hX.flat he)
  constructor
  · obtain ⟨o, ho⟩ := (h2 (s₁, s.2 1)).1
    refine ⟨o, (s₁, Function.update (Function.update s.2 0 (s.2 0)) 1 (s.2 1)), ?_⟩
    simp only [listProcessor, pipeline, pipeTransform]
    rw [SM.bind_eq (s₁ := (s₁, Function.update s.2 0 (s.2 0))) (a := X) (by simp only [callAt, h1])]
    rw [SM.bind_eq (s₁ := (s₁, Function.update (Function.update s.2 0 (s.2 0)) 1 (s.2 1))) (a := o)]
    · rfl
    · have e : Function.update s.2 0 (s.2 0) 1 = s.2 1 := by simp
      simp only [callAt, e, ho]
  · refine pipeline_undoes (by simp) ⟨(C50_extract (s := (s.1, s.2 0)) hc hw h hl).2, fun o s' e => ?_⟩
    have e : (listExtractor cfg : Preproc ℕ τ).transform i (s.1, s.2 0) = (.ok o, s') := e
    rw [h1] at e
    cases e
    exact ⟨(h2 _).2, fun _ _ _ => trivial⟩

/-- `default_gensym` is such a name supply. -/
theorem C50_names (strOf : Py → PStr) : ListNames ⟨strOf, defaultGensym⟩ where
  inj := by
    intro n m e
    simp only [defaultGensym, List.cons.injEq, true_and] at e
    have := Nat.repr_injective (String.toList_inj.1 e)
    omega
  var n := ⟨_, rfl⟩

/-! ### What does not come back -/

/-- `transform` and then `undo_transform`. -/
def listsThere (cfg : ListCfg) (i : PyInst) (s : ℕ) : Option PyInst :=
  ((do
    let o ← (listProcessor cfg (τ := Unit)).transform i
    (listProcessor cfg).undo o) (s, fun _ => ())).1.toOption

/-- `?oa`, `?oaa`, … -/
def demoLists : ListCfg where
  strOf _ := c!"?"
  gensym n := '?' :: 'o' :: List.replicate (n + 1) 'a'

theorem demoLists_ok : ListNames demoLists where
  inj a b h := by
    have := congrArg List.length h
    simpa [demoLists] using this
  var n := ⟨_, rfl⟩

/-- An empty list: `{'l': []}` becomes `{'l': {}}`. -/
theorem C50_empty : listsThere demoLists [(.str c!"l", .list [])] 0 = some [(.str c!"l", .dict [])] := by
  decide +kernel

/-- `{'l': [{'val': 1, 'x': 2}]}` becomes `{'l': [1]}`. -/
theorem C50_val : listsThere demoLists
    [(.str c!"l", .list [.dict [(.str c!"val", .num 1), (.str c!"x", .num 2)]])] 0 =
      some [(.str c!"l", .list [.num 1])] := by decide +kernel

/-- `{'_l': [1]}` becomes a string. -/
theorem C50_hidden : listsThere demoLists [(.str c!"_l", .list [.num 1])] 0 =
    some [(.str c!"_l", .str c!"?")] := by decide +kernel

/-- With an attribute that is a generated name: `{'l': [1], '?oa': 2}` loses the element, and `undo_transform`
raises. -/
theorem C50_name_clash : listsThere demoLists [(.str c!"l", .list [.num 1]), (.str c!"?oa", .num 2)] 0 = Option.none := by
  decide +kernel

/-- `ListsToRelations` alone: `{'l': ['a', 'a']}` becomes `{'l': ['a']}`. -/
theorem C50_repeated : (do
    let o ← relTop demoLists [(.str c!"l", .list [.str c!"a", .str c!"a"])] []
    relationsToLists o).toOption = some [(.str c!"l", .list [.str c!"a"])] := by decide +kernel

/-- A list at the attribute `('a', 'b')` is looked for at attribute `a` of component `b`. -/
theorem C50_pair : listsThere demoLists [(.tup [.str c!"a", .str c!"b"], .list [.num 1])] 0 = Option.none := by
  decide +kernel

/-- `{'l': [1, {'x': [2, 3, 2]}, [4]], 'c': {'m': ['a', 'a', 'b']}, ('r', 'c', 'l'): True}`. -/
def demoListInst : PyInst :=
  [(.str c!"l", .list [.num 1, .dict [(.str c!"x", .list [.num 2, .num 3, .num 2])], .list [.num 4]]),
   (.str c!"c", .dict [(.str c!"m", .list [.str c!"a", .str c!"a", .str c!"b"])]),
   (.tup [.str c!"r", .str c!"c", .str c!"l"], .bool true)]

theorem fresh_demo (c : Char) (t : PStr) (h : c ≠ '?') : FreshName demoLists 0 (.str (c :: t)) := by
  intro n _ e
  have := List.head_eq_of_cons_eq (Py.str.inj e)
  exact h this

example : (Py.dict demoListInst).wf ∧ KeysD (fun k => k.hashable = true) demoListInst ∧
    KeysD (FreshName demoLists 0) demoListInst ∧ ListsOkD demoListInst ∧ NoEmptyD demoListInst ∧
    TopAttrs demoListInst := by
  refine ⟨?_, ?_, ?_, ?_, ?_, ?_⟩
  · simp [demoListInst, Py.wf, Py.wfL, Py.wfD, Dict.Nodup]
  · simp [demoListInst, KeysD, KeysV, KeysL, Py.hashable, Py.hashableL]
  · simp only [demoListInst, KeysD, KeysV, KeysL, and_true, true_and]
    refine ⟨⟨?_, ?_⟩, ⟨?_, ?_⟩, ?_⟩ <;> first | exact fresh_demo _ _ (by decide) | (intro n _ e; cases e)
  · simp [demoListInst, ListsOkD, ListsOkV, ListsOkL, ListsOkE, Py.index0, valKey]
  · simp [demoListInst, NoEmptyD, NoEmptyV, NoEmptyL]
  · intro p hp
    simp only [demoListInst, List.mem_cons, List.not_mem_nil, or_false] at hp
    rcases hp with rfl | rfl | rfl <;> simp [NotListRel, Py.isList, Py.isDict]

example : listsThere demoLists demoListInst 0 = some
    [(.str c!"l", .list [.num 1, .dict [(.str c!"x", .list [.num 2, .num 3, .num 2])], .list [.num 4]]),
     (.str c!"c", .dict [(.str c!"m", .list [.str c!"a", .str c!"a", .str c!"b"])]),
     (.tup [.str c!"r", .str c!"c", .str c!"l"], .bool true)] := by decide +kernel

end CF
