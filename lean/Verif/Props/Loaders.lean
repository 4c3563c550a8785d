/-
C62 for the functions of datasets.py themselves, and for files of any content.
-/
import Verif.Model.Loaders
import Verif.Props.Datasets
import Verif.Proofs.Choose

namespace CF
variable {P : Type} {loads : List Char → Res P} {files : String → Option (List Char)}

/-- The lines of a file that are read for `num_instances`: one more than that, or all. -/
def linesRead (num : Option ℤ) (text : List Char) : List (List Char) :=
  match num with
  | none => fileLines text
  | some n => (fileLines text).take (n + 1).toNat

theorem loadLoop_none_iff : ∀ (ls : List (List Char)) (idx : ℤ) (ps : List P),
    loadLoop loads none idx ls = .ok ps ↔ List.Forall₂ (fun l p => loads (stripJunk l) = .ok p) ls ps
  | [], idx, ps => by
    rw [loadLoop]
    constructor
    · intro h; cases h; exact .nil
    · intro h; cases h; rfl
  | l :: ls, idx, ps => by
    rw [loadLoop]
    constructor
    · intro h
      obtain ⟨p, h1, h⟩ := bind_ok.1 h
      obtain ⟨r, h2, h⟩ := bind_ok.1 h
      cases h
      exact .cons h1 ((loadLoop_none_iff ls _ _).1 h2)
    · intro h
      cases h with
      | cons h1 h2 =>
        simp only [h1, (loadLoop_none_iff ls (idx + 1) _).2 h2]
        rfl

theorem loadLoop_some_iff (n : ℤ) : ∀ (ls : List (List Char)) (idx : ℤ) (ps : List P),
    loadLoop loads (some n) idx ls = .ok ps ↔
      List.Forall₂ (fun l p => loads (stripJunk l) = .ok p) (ls.take (n + 1 - idx).toNat) ps
  | [], idx, ps => by
    rw [loadLoop, List.take_nil]
    constructor
    · intro h; cases h; exact .nil
    · intro h; cases h; rfl
  | l :: ls, idx, ps => by
    rw [loadLoop]
    by_cases hn : n < idx
    · simp only [if_pos hn]
      rw [show (n + 1 - idx).toNat = 0 by omega, List.take_zero]
      constructor
      · intro h; cases h; exact .nil
      · intro h; cases h; rfl
    · simp only [if_neg hn]
      rw [show (n + 1 - idx).toNat = (n + 1 - (idx + 1)).toNat + 1 by omega, List.take_succ_cons]
      constructor
      · intro h
        obtain ⟨p, h1, h⟩ := bind_ok.1 h
        obtain ⟨r, h2, h⟩ := bind_ok.1 h
        cases h
        exact .cons h1 ((loadLoop_some_iff n ls _ _).1 h2)
      · intro h
        cases h with
        | cons h1 h2 =>
          simp only [h1, (loadLoop_some_iff n ls (idx + 1) _).2 h2]
          rfl

/-- **C62** for a file of any content: exactly when each line that is read, stripped, is JSON, the values are returned.  What
comes after these lines does not matter. -/
theorem C62_any_file (text : List Char) (num : Option ℤ) (ps : List P) :
    loadJson loads text num = .ok ps ↔
      List.Forall₂ (fun l p => loads (stripJunk l) = .ok p) (linesRead num text) ps := by
  cases num with
  | none => exact loadLoop_none_iff _ _ _
  | some n => simpa [loadJson, linesRead] using loadLoop_some_iff n (fileLines text) 0 ps

/-- **C62** for the loaders: what they return. -/
theorem C62_loader (d : Loader) (num : Option ℤ) (ps : List P) :
    d.load loads files num = .ok ps ↔ ∃ text, files d.file = some text ∧
      List.Forall₂ (fun l p => loads (stripJunk l) = .ok p) (linesRead num text) ps := by
  rw [Loader.load]
  cases files d.file with
  | none => simp
  | some text =>
    simp only [Option.some.injEq, exists_eq_left', ← C62_any_file]
    cases loadJson loads text num <;> simp

/-- **C62**: a missing file is the only reason for `FileNotFoundError`, and then it is raised whatever the number. -/
theorem C62_missing (d : Loader) (num : Option ℤ) :
    d.load loads files num = .error .notFound ↔ files d.file = none := by
  rw [Loader.load]
  cases files d.file with
  | none => simp
  | some text =>
    simp only [reduceCtorEq, iff_false]
    cases loadJson loads text num <;> simp

/-- The files in `/repo/concept_formation/data_files`, without the Python files. -/
def filesInRepo : List String :=
  ["congressional_voting.json", "forest_fires.json", "human_s_07_success_predictions.csv", "iris.json", "molecule.json",
    "rb_com_11_continuous.json", "rb_s_07_continuous.json", "rb_s_13_continuous.json", "rb_wb_03_continuous.json"]

/-- **C62**: with these files every loader finds its own, except `load_mushroom`, which raises `FileNotFoundError` whatever
the number. -/
theorem C62_files_in_repo (h : ∀ f, files f ≠ none ↔ f ∈ filesInRepo) (d : Loader) (num : Option ℤ) :
    (d.load loads files num = .error .notFound ↔ d = .mushroom) ∧ loadHumanPredictions files ≠ .error .notFound := by
  constructor
  · rw [C62_missing, ← not_iff_not, ← ne_eq, h]
    cases d <;> simp [Loader.file, filesInRepo]
  · have := (h "human_s_07_success_predictions.csv").2 (by simp [filesInRepo])
    rw [loadHumanPredictions]
    cases e : files "human_s_07_success_predictions.csv" with
    | none => exact absurd e this
    | some text => simp

/-- A directory with these files. -/
example : ∀ f, (fun f => if f ∈ filesInRepo then some "[{}]".toList else none) f ≠ none ↔ f ∈ filesInRepo := by
  intro f
  by_cases h : f ∈ filesInRepo <;> simp [h]

/-- **C62**: no two loaders read the same file, so changing a file changes what one loader returns at most. -/
theorem C62_own_file {d e : Loader} (hne : e ≠ d) (text : Option (List Char)) (num : Option ℤ) :
    e.load loads (fun f => if f = d.file then text else files f) num = e.load loads files num := by
  have : e.file ≠ d.file := by
    revert hne
    cases e <;> cases d <;> simp [Loader.file]
  rw [Loader.load, Loader.load, if_neg this]

theorem sameValues : ∀ {l : List (List Char)} {r q : List P},
    List.Forall₂ (fun x p => loads (stripJunk x) = .ok p) l r →
    List.Forall₂ (fun x p => loads (stripJunk x) = .ok p) l q → r = q
  | [], _, _, h1, h2 => by cases h1; cases h2; rfl
  | _ :: _, _, _, h1, h2 => by
    cases h1 with
    | cons h3 h4 =>
      cases h2 with
      | cons h5 h6 =>
        rw [h3] at h5
        cases h5
        rw [sameValues h4 h6]

/-- **C62**: a call with a number and a call without, when both return: the first result is the beginning of the second,
with one instance more than the number, or everything.  No assumption on the file. -/
theorem C62_beginning {d : Loader} {n : ℕ} {r ps : List P} (h1 : d.load loads files (some n) = .ok r)
    (h2 : d.load loads files none = .ok ps) : r = ps.take (n + 1) := by
  replace h1 := (C62_loader _ _ _).1 h1
  replace h2 := (C62_loader _ _ _).1 h2
  obtain ⟨text, e1, h1⟩ := h1
  obtain ⟨text', e2, h2⟩ := h2
  rw [e1] at e2
  cases e2
  have h3 := List.forall₂_take (n + 1) h2
  have hk : ((n : ℤ) + 1).toNat = n + 1 := by omega
  simp only [linesRead, hk] at h1 h3
  exact sameValues h1 h3

/-- **C62**: a negative number gives no instances, whatever is in the file. -/
theorem C62_negative {d : Loader} {n : ℤ} (hn : n < 0) {text : List Char} (h : files d.file = some text) :
    d.load loads files (some n) = .ok [] := by
  refine (C62_loader _ _ _).2 ⟨text, h, ?_⟩
  rw [linesRead, show (n + 1).toNat = 0 by omega, List.take_zero]
  exact .nil

/-- **C62**: a line that is not JSON, such as an empty one, stops every call that reads it. -/
theorem C62_bad_line {d : Loader} {num : Option ℤ} {text : List Char} (h : files d.file = some text) {l : List Char}
    (hl : l ∈ linesRead num text) {e : PyErr} (he : loads (stripJunk l) = .error e) :
    ∃ e', d.load loads files num = .error (.py e') := by
  rw [Loader.load, h]
  cases hj : loadJson loads text num with
  | error e' => exact ⟨e', by simp only [hj]⟩
  | ok ps =>
    obtain ⟨k, hk, rfl⟩ := List.mem_iff_getElem.1 hl
    have hf := (C62_any_file _ _ _).1 hj
    have := hf.get hk (by rw [← hf.length_eq]; exact hk)
    simp only [List.get_eq_getElem, he] at this
    cases this

/-- **C62** for `load_rb_s_07_human_predictions`: it raises exactly when the file is missing, and returns a row per line. -/
theorem C62_human_predictions (rows : List (List Char)) :
    (loadHumanPredictions files = .error .notFound ↔ files "human_s_07_success_predictions.csv" = none) ∧
    (loadHumanPredictions files = .ok rows ↔ ∃ text, files "human_s_07_success_predictions.csv" = some text ∧
      rows = (fileLines text).map List.dropLast) := by
  rw [loadHumanPredictions]
  cases files "human_s_07_success_predictions.csv" with
  | none => simp
  | some text => simp [loadFile, eq_comm]

/-- The second of three lines is not JSON: with number 0 the first instance is returned, with number 1 an exception. -/
example :
    let loads : List Char → Res (List Char) := fun x => if x.head? = some '{' then .ok x else .error .valueErr
    let files := fun f => if f = "iris.json" then some "[{a},\n\n{c}]".toList else none
    Loader.load loads files .iris (some 0) = .ok ["{a}".toList] ∧
    Loader.load loads files .iris (some 1) = .error (.py .valueErr) ∧
    Loader.load loads files .iris (some (-1)) = .ok [] ∧
    Loader.load loads files .mushroom none = .error .notFound := by
  decide +kernel

end CF
