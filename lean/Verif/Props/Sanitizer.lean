/-
C52: the sanitizer.
-/
import Verif.Proofs.Sanitize

namespace CF
variable {strOf : Py → PStr}

/-- C52 for `Sanitizer('trestle')`: `TrestleTree` accepts the result.

Full statement: for every dict.  It is false for an attribute with an empty name (`C52_empty_name`) and for a
tuple with an element that is not hashable as value (`C52_unhashable_tuple`). -/
theorem C52_trestle_partial {i : PyInst} (h : SanOkD strOf i) :
    trestleCheck (sanitizeD strOf true i []) = .ok () := by
  have := trestleVal_san (strOf := strOf) (.dict i) h
  simpa [sanVal, trestleVal] using this

/-- C52 for `Sanitizer('cobweb')` and `Sanitizer('cobweb3')`: `CobwebTree` and `Cobweb3Tree` accept the
result.  (A dict's keys are hashable.)

Full statement: for every dict.  It is false as above, and for the value `None` (`C52_none`). -/
theorem C52_cobweb_partial {i : PyInst}
    (h : ∀ p ∈ i, p.1.hashable = true ∧ p.1 ≠ .str [] ∧ p.1 ≠ .tup [] ∧
      ((∀ s, p.1 ≠ .str s) → (∀ l, p.1 ≠ .tup l) → strOf p.1 ≠ []) ∧
      p.2 ≠ .none ∧ (hasHash p.2 = true → p.2.hashable = true)) :
    sanityCheck (sanitizeD strOf false i []) = .ok () := by
  rw [sanityCheck_iff]
  intro p hp
  rcases mem_sanitizeD hp with hp | ⟨q, hq, rfl⟩
  · cases hp
  · obtain ⟨h1, h2, h3, h4, h5, h6⟩ := h q hq
    obtain ⟨a, v⟩ := q
    simp only at h1 h2 h3 h4 h5 h6
    refine ⟨?_, ?_⟩
    · have other : strOf a ≠ [] → okAttr (.str (strOf a)) = true := by
        intro hne
        obtain ⟨c, s, e⟩ := List.exists_cons_of_ne_nil hne
        rw [e]; rfl
      cases a with
      | str s =>
        cases s with
        | nil => exact absurd rfl h2
        | cons c s => rfl
      | tup l =>
        cases l with
        | nil => exact absurd rfl h3
        | cons x l =>
          simp only [sanAttr, Bool.false_eq_true, if_false, okAttr, h1, Py.index0, isOk_ok, Bool.and_true]
      | _ => exact other (h4 (by simp) (by simp))
    · have hashed : hasHash v = true → v.isDict = false → okVal (sanVal strOf false v) = true := by
        intro h7 h8
        rw [sanVal_of_not_dict h8, if_pos h7]
        simp [okVal, h6 h7, h5]
      cases v with
      | none => exact absurd rfl h5
      | dict l => rfl
      | list l => rfl
      | other n h i =>
        cases h
        · rfl
        · exact hashed rfl rfl
      | _ => exact hashed rfl rfl

/-- Sanitizing twice is the same as once, for every dict and both kinds of trees. -/
theorem C52_idempotent (strOf : Py → PStr) (trestle : Bool) (i : PyInst) :
    sanitizeD strOf trestle (sanitizeD strOf trestle i []) [] = sanitizeD strOf trestle i [] := by
  have hn : Dict.Nodup (sanitizeD strOf trestle i []) := nodup_sanitizeD Dict.nodup_nil
  refine sanitizeD_fix (ret := []) hn ?_
  intro p hp
  rcases mem_sanitizeD hp with hp | ⟨q, hq, rfl⟩
  · cases hp
  · exact ⟨sanAttr_idem _, sanValD_idem i q hq⟩

/-- An instance that needs no sanitizing is not changed. -/
theorem C52_sane {i : PyInst} (hn : Dict.Nodup i) (h : SaneD i) : sanitizeD strOf true i [] = i := by
  have := sanVal_sane (strOf := strOf) (b := true) (.dict i) ⟨hn, h⟩ rfl
  simpa [sanVal] using this

/-- The same for the flat instances of the other trees. -/
theorem C52_sane_flat {i : PyInst} (hn : Dict.Nodup i)
    (h : ∀ p ∈ i, ((∃ s, p.1 = .str s) ∨ ∃ l, p.1 = .tup l) ∧ hasHash p.2 = true) :
    sanitizeD strOf false i [] = i := by
  refine sanitizeD_fix (ret := []) hn fun p hp => ?_
  obtain ⟨h1, h2⟩ := h p hp
  refine ⟨?_, ?_⟩
  · rcases h1 with ⟨s, e⟩ | ⟨l, e⟩ <;> rw [e] <;> rfl
  · have hd : p.2.isDict = false := by
      cases hv : p.2 <;> first | rfl | (rw [hv] at h2; simp [hasHash] at h2)
    rw [sanVal_of_not_dict hd, if_pos h2]

/-- The empty name is rejected by all trees, and is not changed. -/
theorem C52_empty_name (strOf : Py → PStr) :
    sanityCheck (sanitizeD strOf false [(.str [], .num 1)] []) = .error .valueErr ∧
    trestleCheck (sanitizeD strOf true [(.str [], .num 1)] []) = .error .valueErr := ⟨rfl, rfl⟩

/-- A tuple with an element that is not hashable is rejected by all trees, and is not changed. -/
theorem C52_unhashable_tuple (strOf : Py → PStr) :
    sanityCheck (sanitizeD strOf false [(.str c!"a", .tup [.list []])] []) = .error .valueErr ∧
    trestleCheck (sanitizeD strOf true [(.str c!"a", .tup [.list []])] []) = .error .valueErr := ⟨rfl, rfl⟩

/-- The value `None` is rejected by `CobwebTree` and `Cobweb3Tree`, and is not changed. -/
theorem C52_none (strOf : Py → PStr) :
    sanityCheck (sanitizeD strOf false [(.str c!"a", .none)] []) = .error .valueErr := rfl

/-- What a sanitizer makes of an instance, and whether `TrestleTree` accepts it. -/
def sanitizedFor (strOf : Py → PStr) (spec : PStr) (i : PyInst) : Option (PyInst × Bool) :=
  match sanitizer (γ := Unit) (τ := Unit) strOf spec with
  | .ok p => match (p.transform i ((), ())).1 with
    | .ok o => some (o, (trestleCheck o).isOk)
    | .error _ => none
  | .error _ => none

/-- `Sanitizer('Trestle')` is accepted but behaves like `Sanitizer('cobweb')`: the number in the relation
stays, and `TrestleTree` rejects the result. -/
theorem C52_spec_case (strOf : Py → PStr) :
    sanitizedFor strOf c!"Trestle" [(.tup [.str c!"r", .num 2], .num 1)] =
      some ([(.tup [.str c!"r", .num 2], .num 1)], false) ∧
    sanitizedFor (fun _ => c!"2") c!"trestle" [(.tup [.str c!"r", .num 2], .num 1)] =
      some ([(.tup [.str c!"r", .str c!"2"], .num 1)], true) := ⟨rfl, rfl⟩

/-- Other specs raise `ValueError`. -/
theorem C52_spec {γ τ : Type} (strOf : Py → PStr) (spec : PStr) :
    (∃ p, sanitizer (γ := γ) (τ := τ) strOf spec = .ok p) ↔
      lower spec = c!"trestle" ∨ lower spec = c!"cobweb" ∨ lower spec = c!"cobweb3" := by
  unfold sanitizer
  split
  · rename_i h
    simp only [List.mem_cons, List.not_mem_nil, or_false] at h
    exact ⟨fun _ => h, fun _ => ⟨_, rfl⟩⟩
  · rename_i h
    simp only [List.mem_cons, List.not_mem_nil, or_false] at h
    exact ⟨fun ⟨_, e⟩ => (by cases e), fun h' => absurd h' h⟩

/-- The example of the documentation, with `str` writing digits: keys 1 and `('r1', 2, 'r3')`, a component
with key 3, and a list. -/
def demoSan : PyInst :=
  [(.str c!"a1", .str c!"v1"), (.str c!"a3", .dict [(.str c!"aa1", .str c!"1"), (.num 3, .num 2)]),
    (.num 1, .str c!"v2"), (.tup [.str c!"r1", .num 2, .str c!"r3"], .str c!"v4"), (.str c!"l", .list [.num 1])]

def demoStr : Py → PStr
  | .num q => (Nat.repr q.num.toNat).toList
  | _ => c!"?"

example : SanOkD demoStr demoSan := by
  simp [demoSan, SanOkD, SanOkV, SanName, SanNames, hasHash, Py.hashable, demoStr]

example : sanitizeD demoStr true demoSan [] =
    [(.str c!"a1", .str c!"v1"), (.str c!"a3", .dict [(.str c!"aa1", .str c!"1"), (.str c!"3", .num 2)]),
      (.str c!"1", .str c!"v2"), (.tup [.str c!"r1", .str c!"2", .str c!"r3"], .str c!"v4"),
      (.str c!"l", .str c!"?")] := by decide +kernel

example : sanitizeD demoStr false demoSan [] =
    [(.str c!"a1", .str c!"v1"), (.str c!"a3", .str c!"{3:2,'aa1':'1'}"),
      (.str c!"1", .str c!"v2"), (.tup [.str c!"r1", .num 2, .str c!"r3"], .str c!"v4"),
      (.str c!"l", .str c!"?")] := by decide +kernel

end CF
