/-
C53: the object variablizer.
-/
import Verif.Proofs.Variablize

namespace CF
variable {ts : Option (List Py)}

/-- C53: at every depth, `?` is put in front of the names of the targeted components that do not have it, and
nothing else is changed: the result has the places of the instance, with marked paths, and their values.

Full statement: also inside components that are no targets (false, `C53_not_inside`), with the relations
renamed alike (false, `C53_relations_stale`), and for every instance (an instance with components `a` and
`?a` loses one of them, `C53_clash`). -/
theorem C53_marks_partial {i : PyInst} (h : MarkableV ts (.dict i)) :
    ∃ o, variablizeD ts i [] [] = .ok o ∧ Dict.Nodup o ∧
      ∀ path x, (path, x) ∈ placesD o ↔ ∃ p, (p, x) ∈ placesD i ∧ path = markPath ts p x := by
  obtain ⟨o, h1, es, h2, h3⟩ := variablizeD_spec i h.2 [] [] (by simpa [Dict.keys] using h.1)
  refine ⟨o, h1, ?_, fun path x => ?_⟩
  · have hk : Dict.keys es = i.map (entryName ts) := by
      clear h3 h1 h
      induction h2 with
      | nil => rfl
      | cons hd _ ih => simp only [Dict.keys_cons, List.map_cons, ih, hd.1]
    have hp : List.Perm (Dict.keys o) (Dict.keys es) := by simpa [Dict.keys] using h3.map Prod.fst
    rw [Dict.Nodup, hp.nodup_iff, hk]
    exact h.1
  · have h4 : (path, x) ∈ placesD o ↔ (path, x) ∈ placesD es := by
      rw [mem_placesD, mem_placesD]
      simp only [List.append_nil, List.nil_append] at h3
      constructor
      · rintro ⟨p, hp, r⟩; exact ⟨p, h3.mem_iff.1 hp, r⟩
      · rintro ⟨p, hp, r⟩; exact ⟨p, h3.mem_iff.2 hp, r⟩
    rw [h4, places_marked h2]
    constructor
    · rintro ⟨⟨p, y⟩, hf, e⟩
      simp only [Prod.mk.injEq] at e
      obtain ⟨rfl, rfl⟩ := e
      exact ⟨p, hf, rfl⟩
    · rintro ⟨p, hf, rfl⟩
      exact ⟨(p, x), hf, rfl⟩

/-- Without targets, all components of an instance whose attributes are strings are marked, and the values
keep their own names. -/
theorem C53_all {ks : List Py} {k : Py} (h : ∀ a ∈ ks, a.isTup = false) (v : Py) :
    markPath none (ks ++ [k]) (some v) = ks.map markName ++ [k] := by
  induction ks with
  | nil => rfl
  | cons a ks ih =>
    have hm : Marked none a := ⟨by simp [Targets], h a List.mem_cons_self⟩
    have : markPath none (a :: (ks ++ [k])) (some v) = markName a :: markPath none (ks ++ [k]) (some v) := by
      rw [markPath, if_pos hm]
      simp
    simp only [List.cons_append, List.map_cons, this, ih fun b hb => h b (List.mem_cons_of_mem _ hb)]

/-- A relation keeps the old names of objects: `{'a': {}, ('r', 'a'): 1}`. -/
theorem C53_relations_stale :
    variablizeD none [(.str c!"a", .dict []), (.tup [.str c!"r", .str c!"a"], .num 1)] [] [] =
      .ok [(.str c!"?a", .dict []), (.tup [.str c!"r", .str c!"a"], .num 1)] := rfl

/-- A target inside a component that is no target is not marked: `{'c': {'a': {}}}` with target `a`. -/
theorem C53_not_inside :
    variablizeD (some [.str c!"a"]) [(.str c!"c", .dict [(.str c!"a", .dict [])])] [] [] =
      .ok [(.str c!"c", .dict [(.str c!"a", .dict [])])] ∧
    variablizeD (some [.str c!"a"]) [(.str c!"a", .dict [])] [] [] = .ok [(.str c!"?a", .dict [])] := ⟨rfl, rfl⟩

/-- Two components become one. -/
theorem C53_clash :
    variablizeD none [(.str c!"a", .dict [(.str c!"x", .num 1)]), (.str c!"?a", .dict [(.str c!"x", .num 2)])] [] []
      = .ok [(.str c!"?a", .dict [(.str c!"x", .num 2)])] := rfl

/-- Components with an empty name, or a name that is a number, raise. -/
theorem C53_raises :
    variablizeD none [(.str [], .dict [])] [] [] = .error .indexErr ∧
    variablizeD none [(.num 1, .dict [])] [] [] = .error .typeErr := ⟨rfl, rfl⟩

/-- `{'a': {'b': {'x': 1}, '?c': {}}, 'y': 2}`. -/
def demoObjs : PyInst :=
  [(.str c!"a", .dict [(.str c!"b", .dict [(.str c!"x", .num 1)]), (.str c!"?c", .dict [])]), (.str c!"y", .num 2)]

example : MarkableV none (.dict demoObjs) := by
  have hm : ∀ s, Marked none (.str s) := fun s => ⟨by simp [Targets], rfl⟩
  simp [demoObjs, MarkableV, MarkableD, entryName, hm, Py.isDict, markName]

example : variablizeD none demoObjs [] [] =
    .ok [(.str c!"?a", .dict [(.str c!"?b", .dict [(.str c!"x", .num 1)]), (.str c!"?c", .dict [])]),
      (.str c!"y", .num 2)] := rfl

end CF
