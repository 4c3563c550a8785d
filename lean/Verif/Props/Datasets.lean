/-
C62: the dataset loaders.
-/
import Verif.Spec.Datasets
import Mathlib.Data.List.Forall2
import Mathlib.Tactic.NormNum
import Mathlib.Tactic.Linarith

namespace CF
variable {P : Type} {loads : List Char → Res P}

theorem fileLines_line : ∀ (l rest : List Char), '\n' ∉ l →
    fileLines (l ++ '\n' :: rest) = (l ++ ['\n']) :: fileLines rest
  | [], rest, _ => by simp [fileLines]
  | c :: l, rest, h => by
    rw [List.mem_cons, not_or] at h
    rw [List.cons_append, fileLines, if_neg (Ne.symm h.1), fileLines_line l rest h.2]
    rfl

theorem fileLines_end : ∀ l : List Char, '\n' ∉ l → l ≠ [] → fileLines l = [l]
  | [], _, h => absurd rfl h
  | [c], h, _ => by
    rw [fileLines, if_neg (by simpa using Ne.symm (by simpa using h : '\n' ≠ c))]
    rfl
  | c :: d :: l, h, _ => by
    rw [List.mem_cons, not_or] at h
    rw [fileLines, if_neg (Ne.symm h.1), fileLines_end (d :: l) h.2 (by simp)]

theorem dropWhile_all {p : Char → Bool} : ∀ (pre l : List Char), (∀ c ∈ pre, p c) →
    (pre ++ l).dropWhile p = l.dropWhile p
  | [], _, _ => rfl
  | c :: pre, l, h => by
    rw [List.cons_append, List.dropWhile_cons, if_pos (h c (by simp))]
    exact dropWhile_all pre l fun d hd => h d (by simp [hd])

theorem dropWhile_none {p : Char → Bool} (l : List Char) (h : ∀ c, l.head? = some c → p c = false) :
    l.dropWhile p = l := by
  cases l with
  | nil => rfl
  | cons c l => rw [List.dropWhile_cons, if_neg (by simp [h c rfl])]

theorem stripJunk_eq (pre x post : List Char) (hx : InstanceText x) (h1 : ∀ c ∈ pre, jsonJunk c)
    (h2 : ∀ c ∈ post, jsonJunk c) : stripJunk (pre ++ x ++ post) = x := by
  have hn : ∀ c ∈ x, c ≠ '\n' := fun c hc e => hx.oneLine (e ▸ hc)
  have hf : ∀ c, (x ++ post).head? = some c → jsonJunk c = false := by
    intro c hc
    obtain ⟨d, l, rfl⟩ : ∃ d l, x = d :: l := List.exists_cons_of_ne_nil hx.ne
    simp only [List.cons_append, List.head?_cons, Option.some.injEq] at hc
    subst hc
    obtain ⟨a, b, c⟩ := hx.first d rfl
    simp [jsonJunk, a, b, c, hn d (by simp)]
  have hl : ∀ c, x.reverse.head? = some c → jsonJunk c = false := by
    intro c hc
    rw [List.head?_reverse] at hc
    obtain ⟨a, b, d⟩ := hx.last c hc
    simp [jsonJunk, a, b, d, hn c (List.mem_of_getLast? hc)]
  rw [stripJunk, List.append_assoc, dropWhile_all pre _ h1, dropWhile_none _ hf, List.reverse_append,
    dropWhile_all _ _ (by simpa using h2), dropWhile_none _ hl, List.reverse_reverse]

/-- The lines of a data file hold one instance each. -/
theorem moreLines : ∀ (x : List Char) (xs : List (List Char)) (pre : List Char), InstanceText x →
    (∀ y ∈ xs, InstanceText y) → (∀ c ∈ pre, jsonJunk c) → '\n' ∉ pre →
    ∃ ls, fileLines (pre ++ x ++ moreText xs) = ls ∧ ls.map stripJunk = x :: xs
  | x, [], pre, hx, _, hp, hn => by
    refine ⟨_, fileLines_end _ ?_ (by simp [moreText]), ?_⟩
    · simp [moreText, hn, hx.oneLine]
    · rw [List.map_singleton, moreText, stripJunk_eq pre x [']'] hx hp (by simp [jsonJunk])]
  | x, y :: xs, pre, hx, hxs, hp, hn => by
    obtain ⟨ls, e1, e2⟩ := moreLines y xs [] (hxs y (by simp)) (fun z hz => hxs z (by simp [hz])) (by simp) (by simp)
    refine ⟨(pre ++ x ++ [',', '\n']) :: ls, ?_, ?_⟩
    · have : pre ++ x ++ moreText (y :: xs) = (pre ++ x ++ [',']) ++ '\n' :: ([] ++ y ++ moreText xs) := by
        simp [moreText]
      rw [this, fileLines_line _ _ (by simp [hn, hx.oneLine]), e1]
      simp
    · rw [List.map_cons, e2, stripJunk_eq pre x [',', '\n'] hx hp (by simp [jsonJunk])]

theorem datasetLines (xs : List (List Char)) (h : ∀ x ∈ xs, InstanceText x) :
    (fileLines (datasetText xs)).map stripJunk = xs := by
  cases xs with
  | nil => rfl
  | cons x xs =>
    obtain ⟨ls, e1, e2⟩ := moreLines x xs ['['] (h x (by simp)) (fun y hy => h y (by simp [hy])) (by simp [jsonJunk])
      (by simp)
    rw [datasetText, e1, e2]

theorem loadLoop_none : ∀ (ls : List (List Char)) (ps : List P) (idx : ℤ),
    List.Forall₂ (fun x p => loads x = .ok p) (ls.map stripJunk) ps → loadLoop loads none idx ls = .ok ps
  | [], _, _, h => by cases h; rfl
  | l :: ls, _, idx, h => by
    cases h with
    | cons h1 h2 => rw [loadLoop, h1, loadLoop_none ls _ (idx + 1) h2]; rfl

theorem loadLoop_some (n : ℤ) : ∀ (ls : List (List Char)) (ps : List P) (idx : ℤ),
    List.Forall₂ (fun x p => loads x = .ok p) (ls.map stripJunk) ps →
    loadLoop loads (some n) idx ls = .ok (ps.take (n + 1 - idx).toNat)
  | [], _, _, h => by cases h; simp [loadLoop]
  | l :: ls, _, idx, h => by
    cases h with
    | @cons _ p _ ps h1 h2 =>
      rw [loadLoop]
      by_cases hn : n < idx
      · rw [if_pos hn, show (n + 1 - idx).toNat = 0 by omega]; rfl
      · rw [if_neg hn, h1, loadLoop_some n ls _ (idx + 1) h2,
          show (n + 1 - idx).toNat = (n + 1 - (idx + 1)).toNat + 1 by omega]
        rfl

/-- **C62**: without a number, all instances of the file. -/
theorem C62_all {text : List Char} {ps : List P} (h : DescribesFile loads text ps) :
    loadJson loads text none = .ok ps := by
  obtain ⟨xs, rfl, hx, hp⟩ := h
  exact loadLoop_none _ _ _ (by rwa [datasetLines xs hx])

/-- **C62**: and when the number exceeds the file. -/
theorem C62_exceeds {text : List Char} {ps : List P} (h : DescribesFile loads text ps) (n : ℤ) (hn : ps.length ≤ n) :
    loadJson loads text (some n) = .ok ps := by
  obtain ⟨xs, rfl, hx, hp⟩ := h
  rw [loadJson, loadLoop_some n _ ps 0 (by rwa [datasetLines xs hx]), List.take_of_length_le (by omega)]

/-- **C62**, partial.  Full statement: the first `n` instances.  That is wrong (`C62_one_too_many`): the loop
stops after index `n`, so it returns the first `n + 1`. -/
theorem C62_first_partial {text : List Char} {ps : List P} (h : DescribesFile loads text ps) (n : ℕ) :
    loadJson loads text (some n) = .ok (ps.take (n + 1)) := by
  obtain ⟨xs, rfl, hx, hp⟩ := h
  rw [loadJson, loadLoop_some n _ ps 0 (by rwa [datasetLines xs hx])]
  congr 2

/-- **C62**, the negation: whenever the file has more than `n` instances, the loader does not return the first
`n`, but one more. -/
theorem C62_one_too_many {text : List Char} {ps : List P} (h : DescribesFile loads text ps) (n : ℕ) (hn : n < ps.length) :
    loadJson loads text (some n) ≠ .ok (ps.take n) ∧
    ∃ r, loadJson loads text (some n) = .ok r ∧ r.length = n + 1 := by
  rw [C62_first_partial h n]
  refine ⟨fun e => ?_, _, rfl, by rw [List.length_take]; omega⟩
  have := congrArg List.length (Except.ok.inj e)
  rw [List.length_take, List.length_take] at this
  omega

/-- What is asked for is at the front of what is returned. -/
theorem C62_prefix {text : List Char} {ps : List P} (h : DescribesFile loads text ps) (n : ℕ) :
    ∃ r, loadJson loads text (some n) = .ok r ∧ r.take n = ps.take n := by
  refine ⟨_, C62_first_partial h n, ?_⟩
  rw [List.take_take, Nat.min_eq_left (by omega)]

/-- **C62** for `_load_file`: the rows of a file in which every row is terminated. -/
theorem C62_rows (rows : List (List Char)) (h : ∀ r ∈ rows, '\n' ∉ r) :
    loadFile (rows.flatMap (· ++ ['\n'])) = rows := by
  unfold loadFile
  induction rows with
  | nil => rfl
  | cons r rows ih =>
    rw [List.flatMap_cons, List.append_assoc, List.singleton_append, fileLines_line r _ (h r (by simp)),
      List.map_cons, List.dropLast_concat, ih fun x hx => h x (by simp [hx])]

/-- A last row without a line end loses its last character. -/
theorem C62_rows_unterminated (rows : List (List Char)) (r : List Char) (h : ∀ r ∈ rows, '\n' ∉ r) (hr : '\n' ∉ r)
    (hne : r ≠ []) : loadFile (rows.flatMap (· ++ ['\n']) ++ r) = rows ++ [r.dropLast] := by
  unfold loadFile
  induction rows with
  | nil => rw [List.flatMap_nil, List.nil_append, fileLines_end r hr hne]; rfl
  | cons x rows ih =>
    rw [List.flatMap_cons, List.append_assoc, List.append_assoc, List.singleton_append,
      fileLines_line x _ (h x (by simp)), List.map_cons, List.dropLast_concat, ih fun x hx => h x (by simp [hx])]
    rfl

/-- A file with three instances, `[{a},⏎{b},⏎{c}]`. -/
example : DescribesFile (fun x => if x.head? = some '{' then .ok x else .error .valueErr)
    "[{a},\n{b},\n{c}]".toList ["{a}".toList, "{b}".toList, "{c}".toList] := by
  refine ⟨["{a}".toList, "{b}".toList, "{c}".toList], by decide, ?_, ?_⟩
  · intro x hx
    rcases (by simpa using hx : x = _ ∨ x = _ ∨ x = _) with rfl | rfl | rfl <;>
      exact ⟨by decide, by decide, by rintro c ⟨⟩; decide, by rintro c ⟨⟩; decide⟩
  · refine .cons ?_ (.cons ?_ (.cons ?_ .nil)) <;> rfl

end CF
