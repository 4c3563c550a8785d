/-
The name standardizer: C48.
-/
import Verif.Proofs.Standardize
import Std.Data.String.ToNat
import Verif.Props.Preprocess

namespace CF

/-- C48: for every instance whose relations are built of strings, every state of the name supply and any
order in which sets are iterated over, `transform` returns the instance with its variables renamed (equal
as Python dicts), in attributes and relations and at every depth, by a one-to-one map onto names that were
generated during the call; nothing else is changed. -/
theorem C48_renames_apart {cfg : StdCfg} (hc : NamesOk cfg) {i : PyInst} (hw : Py.wf (.dict i))
    (hr : relsOkD i) (g : ℕ) (t : Option (Dict Py Py)) :
    ∃ o g' rm f, (nameStandardizer cfg).transform i (g, t) = (.ok o, (g', some rm)) ∧ g ≤ g' ∧
      (∀ x ∈ varsD i, ∃ n, g ≤ n ∧ n < g' ∧ f x = .str (cfg.gensym n)) ∧
      (∀ x ∈ varsD i, ∀ y ∈ varsD i, f x = f y → x = y) ∧
      SameInst (renD f i) o :=
  let ⟨o, g', rm, f, h1, h2, h3, h4, h5, _⟩ := transform_spec hc hw hr g t
  ⟨o, g', rm, f, h1, h2, h3, h4, h5⟩

/-- C48: names generated by different calls are different: the variables of two instances that are
standardized one after the other have nothing in common. -/
theorem C48_apart {cfg : StdCfg} (hc : NamesOk cfg) {g g' g'' n m : ℕ} (hn : g ≤ n ∧ n < g')
    (hm : g' ≤ m ∧ m < g'') : (.str (cfg.gensym n) : Py) ≠ .str (cfg.gensym m) := by
  intro e
  have := hc.inj (Py.str.inj e)
  omega

/-- C48: `undo_transform` restores the instance, when its variables stand for components and lists and the
values of its relations are neither.

Full statement: for every instance.  It fails otherwise (`C48_undo_fails`). -/
theorem C48_undo_partial {cfg : StdCfg} (hc : NamesOk cfg) {i : PyInst} (hw : Py.wf (.dict i))
    (hr : relsOkD i) (ho : objectsOkD i) (s : ℕ × Option (Dict Py Py)) :
    Undoes SameInst (nameStandardizer cfg) i s := by
  intro o s' e g o' hs
  obtain ⟨o₁, g', rm, f, h1, _, _, _, _, h6⟩ := transform_spec hc hw hr s.1 s.2
  rw [h1] at e
  cases e
  exact ⟨_, _, rfl, h6 ho o' hs⟩

/-- The round trip itself. -/
theorem C48_roundtrip_partial {cfg : StdCfg} (hc : NamesOk cfg) {i : PyInst} (hw : Py.wf (.dict i))
    (hr : relsOkD i) (ho : objectsOkD i) (s : ℕ × Option (Dict Py Py)) :
    ∃ o i', roundTrip (nameStandardizer cfg) i s = some (o, i') ∧ SameInst i i' := by
  obtain ⟨o, g', rm, f, h1, _, _, _, h5, _⟩ := transform_spec hc hw hr s.1 s.2
  obtain ⟨i', s'', h7, h8⟩ := C48_undo_partial hc hw hr ho s o _ h1 g' o ⟨Py.same_refl h5.2, h5.2⟩
  refine ⟨o, i', ?_, h8⟩
  unfold roundTrip
  rw [show s = (s.1, s.2) from rfl, h1]
  simp only [h7]

/-- `default_gensym` and the generator of `TrestleTree` are such name supplies. -/
theorem C48_names (strOf : Py → PStr) {setOrder : List Py → List Py} (h : ∀ l x, x ∈ setOrder l ↔ x ∈ l) :
    NamesOk ⟨strOf, setOrder, defaultGensym⟩ where
  inj := by
    intro n m e
    simp only [defaultGensym, List.cons.injEq, true_and] at e
    have := Nat.repr_injective (String.toList_inj.1 e)
    omega
  var := by simp [defaultGensym, isVar]
  order := h

/-- Without the condition: a variable with a value that is not a component is not restored, and neither
is a relation whose value is a component.  `{'?x': 1, ('r', '?x'): {'a': 2}}` comes back as
`{'?a': 1, ('r', '?a'): {'a': 2}}`. -/
theorem C48_undo_fails :
    roundTrip (nameStandardizer demoStd)
      [(.str c!"?x", .num 1), (.tup [.str c!"r", .str c!"?x"], .dict [(.str c!"a", .num 2)])] (0, none) =
    some ([(.str c!"?a", .num 1), (.tup [.str c!"r", .str c!"?a"], .dict [(.str c!"a", .num 2)])],
      [(.str c!"?a", .num 1), (.tup [.str c!"r", .str c!"?a"], .dict [(.str c!"a", .num 2)])]) := by
  decide +kernel

/-- A relation with an element that is neither a string nor a tuple raises TypeError. -/
theorem C48_relation_type_error :
    ((nameStandardizer demoStd).transform [(.tup [.str c!"r", .num 1], .num 1)] (0, none)).1 =
      .error .typeErr := by
  decide +kernel

theorem demoStd_ok : NamesOk demoStd where
  inj := by
    intro n m e
    have := congrArg List.length e
    simpa [demoStd] using this
  var := by simp [demoStd, isVar]
  order := by simp [demoStd]

/-- `{'?y': {'c': 1, '?x': [{'?z': {'d': 2}}, 3]}, ('r', '?x', ('s', '?y', 'k')): True}`. -/
def demoNames : PyInst :=
  [(.tup [.str c!"r", .str c!"?x", .tup [.str c!"s", .str c!"?y", .str c!"k"]], .bool true),
   (.str c!"?y", .dict [(.str c!"c", .num 1),
     (.str c!"?x", .list [.dict [(.str c!"?z", .dict [(.str c!"d", .num 2)])], .num 3])])]

/-- The hypotheses are satisfiable, ... -/
example : Py.wf (.dict demoNames) ∧ relsOkD demoNames ∧ objectsOkD demoNames := by
  refine ⟨?_, ?_, ?_⟩
  · simp [demoNames, Py.wf, Py.wfD, Py.wfL, Dict.Nodup, Dict.keys]
  · simp [demoNames, relsOkD, relsOkV, relsOkL, attrOk, relElsOk, relElOk]
  · simp [demoNames, objectsOkD, objectsOkV, objectsOkL, Py.isDict, Py.isList, Py.isTup, Variable]

/-- ... and this is what happens. -/
example : roundTrip (nameStandardizer demoStd) demoNames (0, none) =
    some ([(.str c!"?aa", .dict [(.str c!"?a", .list [.dict [(.str c!"?aaa", .dict [(.str c!"d", .num 2)])],
        .num 3]), (.str c!"c", .num 1)]),
      (.tup [.str c!"r", .str c!"?a", .tup [.str c!"s", .str c!"?aa", .str c!"k"]], .bool true)],
      [(.str c!"?y", .dict [(.str c!"?x", .list [.dict [(.str c!"?z", .dict [(.str c!"d", .num 2)])], .num 3]),
        (.str c!"c", .num 1)]),
       (.tup [.str c!"r", .str c!"?x", .tup [.str c!"s", .str c!"?y", .str c!"k"]], .bool true)]) := by
  decide +kernel

end CF
