/-
C51: the numeric and nominal converters.
-/
import Verif.Proofs.Convert

namespace CF
variable {strOf : Py → PStr} {ts : Option (List Py)} {parse : PStr → Option ℚ} {onFail : OnFail}

/-- C51 for `NumericToNominal`: the result has the same components and attributes; at every depth, a number
under a targeted attribute becomes its string, and every other value stays. -/
theorem C51_nominal {i : PyInst} (h : (Py.dict i).wf) :
    SameShape (.dict i) (.dict (nominalD strOf ts i [])) ∧
    ∀ ks k v, atPath (.dict i) (ks ++ [k]) = some v →
      (Targets ts k → IsNum v →
        atPath (.dict (nominalD strOf ts i [])) (ks ++ [k]) = some (.str (strOf v))) ∧
      (¬ (Targets ts k ∧ IsNum v) → v.isDict = false →
        atPath (.dict (nominalD strOf ts i [])) (ks ++ [k]) = some v) := by
  have key := fun ks => nominal_at (strOf := strOf) (ts := ts) ks .none (.dict i) h
  simp only [nominalV] at key
  refine ⟨fun ks => ⟨fun l hl => ?_, fun hn => by rw [key, hn]; rfl⟩, fun ks k v hv => ⟨fun ht hn => ?_, fun hn hd => ?_⟩⟩
  · have hw : (Py.dict l).wf := wf_at ks h hl
    refine ⟨_, by rw [key, hl, Option.map_some, nominalV], ?_⟩
    rw [nominalD_eq (by exact hw.1)]
    simp [Dict.keys, Function.comp_def]
  · have hd : v.isDict = false := by rcases hn with ⟨q, rfl⟩ | ⟨b, rfl⟩ <;> rfl
    rw [key, hv, Option.map_some, nominalV_of_not_dict hd]
    simp [targeted_iff.2 ht, isNumber_iff.2 hn]
  · rw [key, hv, Option.map_some, nominalV_of_not_dict hd, if_neg]
    simp only [Bool.and_eq_true, targeted_iff, isNumber_iff, List.getLastD_concat]
    exact hn

/-- Nothing that is a number is left under a targeted attribute. -/
theorem C51_no_number {i : PyInst} (h : (Py.dict i).wf) {ks : List Py} {k v : Py} (ht : Targets ts k)
    (hv : atPath (.dict (nominalD strOf ts i [])) (ks ++ [k]) = some v) : ¬ IsNum v := by
  intro hn
  have key := nominal_at (strOf := strOf) (ts := ts) (ks ++ [k]) .none (.dict i) h
  simp only [nominalV] at key
  rw [key] at hv
  obtain ⟨w, hw, rfl⟩ := Option.map_eq_some_iff.1 hv
  rw [List.getLastD_concat] at hn
  cases w with
  | dict l => simp [nominalV, IsNum] at hn
  | _ =>
    rw [nominalV_of_not_dict rfl] at hn
    simp [targeted_iff.2 ht, isNumber, IsNum] at hn

/-- `NumericToNominal` is idempotent. -/
theorem C51_nominal_idempotent {i : PyInst} (h : (Py.dict i).wf) :
    nominalD strOf ts (nominalD strOf ts i []) [] = nominalD strOf ts i [] := by
  have := nominalV_idem (strOf := strOf) (ts := ts) (.dict i) .none h
  simpa [nominalV] using this

/-- C51 for `NominalToNumeric`: if it returns, then at every depth a targeted value has become the number it
stands for; a string that is not a number was dropped, or replaced by 0, as `on_fail` says (never with
`on_fail='break'`).  A component that is no target is still a component, every other value that is no target
is unchanged, and nothing is new. -/
theorem C51_numeric {i o : PyInst} (h : (Py.dict i).wf) (e : numericD parse onFail ts i [] = .ok o)
    (ks : List Py) (k : Py) :
    (∀ v, atPath (.dict i) (ks ++ [k]) = some v → Targets ts k →
      (∃ q, ReadsAs parse v q ∧ atPath (.dict o) (ks ++ [k]) = some (.num q)) ∨
      (∃ s, v = .str s ∧ parse s = none ∧
        ((onFail = .drop ∧ atPath (.dict o) (ks ++ [k]) = none) ∨
          (onFail = .zero ∧ atPath (.dict o) (ks ++ [k]) = some (.num 0))))) ∧
    (∀ v, atPath (.dict i) (ks ++ [k]) = some v → ¬ Targets ts k → v.isDict = false →
      atPath (.dict o) (ks ++ [k]) = some v) ∧
    (∀ l, atPath (.dict i) (ks ++ [k]) = some (.dict l) → ¬ Targets ts k →
      ∃ l', atPath (.dict o) (ks ++ [k]) = some (.dict l')) ∧
    (atPath (.dict i) (ks ++ [k]) = none → atPath (.dict o) (ks ++ [k]) = none) := by
  have e' : numericV parse onFail ts (.dict i) = .ok (.dict o) := by rw [numericV, e]; rfl
  obtain ⟨h1, h2⟩ := numeric_at ks k h e'
  refine ⟨fun v hv ht => ?_, fun v hv ht hd => ?_, fun l hv ht => ?_, h2⟩
  · obtain ⟨x, hx, ho⟩ := (h1 v hv).1 ht
    cases x with
    | some x =>
      rcases tryFloat_some hx with ⟨q, rfl, hq⟩ | ⟨rfl, hz, s, rfl, hp⟩
      · exact .inl ⟨q, hq, ho⟩
      · exact .inr ⟨s, rfl, hp, .inr ⟨hz, ho⟩⟩
    | none =>
      obtain ⟨hz, s, rfl, hp⟩ := tryFloat_none hx
      exact .inr ⟨s, rfl, hp, .inl ⟨hz, ho⟩⟩
  · obtain ⟨w, hw, ho⟩ := (h1 v hv).2 ht
    rw [ho]
    cases v <;> first | (simp only [numericV] at hw; cases hw; rfl) | simp [Py.isDict] at hd
  · obtain ⟨w, hw, ho⟩ := (h1 _ hv).2 ht
    rw [numericV] at hw
    obtain ⟨d, _, hw⟩ := bind_ok.1 hw
    cases hw
    exact ⟨d, ho⟩

/-- Only numbers are left under targeted attributes. -/
theorem C51_only_numbers {i o : PyInst} (h : (Py.dict i).wf) (e : numericD parse onFail ts i [] = .ok o)
    {ks : List Py} {k v : Py} (ht : Targets ts k) (hv : atPath (.dict o) (ks ++ [k]) = some v) :
    ∃ q, v = .num q := by
  obtain ⟨h1, _, _, h4⟩ := C51_numeric h e ks k
  cases hi : atPath (.dict i) (ks ++ [k]) with
  | none => rw [h4 hi] at hv; cases hv
  | some w =>
    rcases h1 w hi ht with ⟨q, _, ho⟩ | ⟨s, _, _, ⟨_, ho⟩ | ⟨_, ho⟩⟩
    · rw [ho] at hv; exact ⟨q, (Option.some.inj hv).symm⟩
    · rw [ho] at hv; cases hv
    · rw [ho] at hv; exact ⟨0, (Option.some.inj hv).symm⟩

/-- When it raises: there is a targeted string that is not a number and `on_fail` is `'break'`, or a
targeted value that is neither a string nor a number.

Full statement: `on_fail` alone decides whether it raises.  The second case contradicts it
(`C51_component_type_error`). -/
theorem C51_raises_partial {i : PyInst} (h : (Py.dict i).wf) :
    (∃ e, numericD parse onFail ts i [] = .error e) ↔
    ∃ ks k v, Targets ts k ∧ atPath (.dict i) (ks ++ [k]) = some v ∧
      ((onFail = .brk ∧ ∃ s, v = .str s ∧ parse s = none) ∨ ((∀ s, v ≠ .str s) ∧ ¬ IsNum v)) := by
  constructor
  · rintro ⟨e, he⟩
    have he' : numericV parse onFail ts (.dict i) = .error e := by rw [numericV, he]; rfl
    obtain ⟨ks, k, w, h1, h2, h3⟩ := numericV_error h he'
    rcases tryFloat_error h3 with ⟨_, h4⟩ | ⟨_, h4, h5⟩
    · exact ⟨ks, k, w, h1, h2, .inr h4⟩
    · exact ⟨ks, k, w, h1, h2, .inl ⟨h4, h5⟩⟩
  · rintro ⟨ks, k, v, h1, h2, h3⟩
    cases he : numericD parse onFail ts i [] with
    | error e => exact ⟨e, rfl⟩
    | ok o =>
      exfalso
      rcases (C51_numeric h he ks k).1 v h2 h1 with ⟨q, hq, _⟩ | ⟨s, rfl, hp, hh⟩
      · rcases h3 with ⟨_, s, rfl, hp⟩ | ⟨h4, h5⟩
        · cases hq with | str hq => rw [hp] at hq; cases hq
        · cases hq with
          | num q => exact h5 (.inl ⟨q, rfl⟩)
          | true => exact h5 (.inr ⟨true, rfl⟩)
          | false => exact h5 (.inr ⟨false, rfl⟩)
          | str _ => exact h4 _ rfl
      · rcases h3 with ⟨h6, _⟩ | ⟨h4, _⟩
        · rcases hh with ⟨hh, _⟩ | ⟨hh, _⟩ <;> rw [h6] at hh <;> cases hh
        · exact h4 s rfl

/-- Which exception: `TypeError` for a value that is neither a string nor a number, otherwise
`ValueError`. -/
theorem C51_exception {i : PyInst} (h : (Py.dict i).wf) {e : PyErr}
    (he : numericD parse onFail ts i [] = .error e) : e = .typeErr ∨ (e = .valueErr ∧ onFail = .brk) := by
  have he' : numericV parse onFail ts (.dict i) = .error e := by rw [numericV, he]; rfl
  obtain ⟨ks, k, w, h1, h2, h3⟩ := numericV_error h he'
  rcases tryFloat_error h3 with ⟨h4, _⟩ | ⟨h4, h5, _⟩
  · exact .inl h4
  · exact .inr ⟨h4, h5⟩

/-- Without targets, every component raises `TypeError`, whatever `on_fail` is; the documentation says that
then "all non-component values will be converted". -/
theorem C51_component_type_error (parse : PStr → Option ℚ) (onFail : OnFail) (l : PyInst) :
    numericD parse onFail none [(.str c!"c", .dict l)] [] = .error .typeErr := rfl

/-- Strings made of one digit are numbers. -/
def demoParse : PStr → Option ℚ
  | [c] => if c.isDigit then some (c.toNat - 48 : ℚ) else none
  | _ => none

/-- `{'a': 1, 'c': {'a': 2, 'b': 3}}` with target `a`. -/
def demoNum : PyInst :=
  [(.str c!"a", .num 1), (.str c!"c", .dict [(.str c!"a", .num 2), (.str c!"b", .num 3)])]

example : nominalD (fun _ => c!"n") (some [.str c!"a"]) demoNum [] =
    [(.str c!"a", .str c!"n"), (.str c!"c", .dict [(.str c!"a", .str c!"n"), (.str c!"b", .num 3)])] := by
  decide +kernel

example : (Py.dict demoNum).wf := by
  simp [demoNum, Py.wf, Py.wfD, Dict.Nodup]

/-- `{'a': '7', 'c': {'a': 'x', 'b': 'y'}}` with target `a`. -/
def demoNom : PyInst :=
  [(.str c!"a", .str c!"7"), (.str c!"c", .dict [(.str c!"a", .str c!"x"), (.str c!"b", .str c!"y")])]

example : (numericD demoParse .drop (some [.str c!"a"]) demoNom []).toOption =
      some [(.str c!"a", .num 7), (.str c!"c", .dict [(.str c!"b", .str c!"y")])] ∧
    (numericD demoParse .zero (some [.str c!"a"]) demoNom []).toOption =
      some [(.str c!"a", .num 7), (.str c!"c", .dict [(.str c!"a", .num 0), (.str c!"b", .str c!"y")])] ∧
    (numericD demoParse .brk (some [.str c!"a"]) demoNom []).toOption = none := by
  decide +kernel

end CF
