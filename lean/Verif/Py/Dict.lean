/-
Python runtime pieces shared by every module of the model: exceptions and dictionaries.

These definitions model the Python language, not a file of /repo.
-/
import Mathlib.Data.List.Basic
import Mathlib.Data.List.Nodup

set_option linter.unusedSectionVars false

namespace CF

/-- Python exception classes that the modelled code can raise.  Messages are dropped.
`outOfFuel` is not a Python exception: it marks that a fuel-bounded loop of the model ran out
of fuel; theorems show it never happens. -/
inductive PyErr
  | zeroDiv | typeErr | valueErr | indexErr | keyErr | attrErr | exc | notImpl | stopIter
  | outOfFuel
  deriving DecidableEq, Repr

/-- Result of a Python call: a value or a raised exception. -/
abbrev Res := Except PyErr

/-- A Python `dict`: key/value pairs in insertion order. -/
abbrev Dict (K V : Type) := List (K × V)

namespace Dict
variable {K V W : Type} [DecidableEq K]

/-- `d.get(k)` / `d[k]` when present. -/
def get? : Dict K V → K → Option V
  | [], _ => none
  | (k', v) :: d, k => if k' = k then some v else get? d k

/-- `k in d`. -/
def has (d : Dict K V) (k : K) : Bool := (get? d k).isSome

/-- `d[k] = v`: replaces in place when the key is present, appends otherwise. -/
def set : Dict K V → K → V → Dict K V
  | [], k, v => [(k, v)]
  | (k', v') :: d, k, v => if k' = k then (k', v) :: d else (k', v') :: set d k v

/-- `iter(d)` / `d.keys()`. -/
def keys (d : Dict K V) : List K := d.map Prod.fst

/-- Well-formedness: no key occurs twice.  Every real Python dict has it. -/
def Nodup (d : Dict K V) : Prop := (keys d).Nodup

instance (d : Dict K V) : Decidable (Nodup d) := inferInstanceAs (Decidable (List.Nodup _))

@[simp] theorem get?_nil (k : K) : get? ([] : Dict K V) k = none := rfl
@[simp] theorem keys_nil : keys ([] : Dict K V) = [] := rfl
@[simp] theorem keys_cons (p : K × V) (d : Dict K V) : keys (p :: d) = p.1 :: keys d := rfl
@[simp] theorem nodup_nil : Nodup ([] : Dict K V) := List.nodup_nil

theorem nodup_cons {p : K × V} {d : Dict K V} : Nodup (p :: d) ↔ p.1 ∉ keys d ∧ Nodup d :=
  List.nodup_cons

theorem get?_cons (k' : K) (v : V) (d : Dict K V) (k : K) :
    get? ((k', v) :: d) k = if k' = k then some v else get? d k := rfl

theorem get?_set (d : Dict K V) (k : K) (v : V) (k' : K) :
    get? (set d k v) k' = if k = k' then some v else get? d k' := by
  induction d with
  | nil => simp [set, get?]
  | cons p d ih =>
    obtain ⟨a, b⟩ := p
    by_cases h : a = k
    · subst h; by_cases h2 : a = k' <;> simp [set, get?, h2]
    · by_cases h2 : a = k'
      · subst h2; simp [set, get?, h, Ne.symm h]
      · simp [set, get?, h, h2, ih]

@[simp] theorem get?_set_self (d : Dict K V) (k : K) (v : V) : get? (set d k v) k = some v := by
  simp [get?_set]

theorem get?_set_ne (d : Dict K V) {k k' : K} (h : k ≠ k') (v : V) :
    get? (set d k v) k' = get? d k' := by simp [get?_set, h]

theorem get?_eq_none {d : Dict K V} {k : K} : get? d k = none ↔ k ∉ keys d := by
  induction d with
  | nil => simp
  | cons p d ih =>
    obtain ⟨a, b⟩ := p
    by_cases h : a = k
    · subst h; simp [get?]
    · simp [get?, h, ih, Ne.symm h]

theorem get?_isSome {d : Dict K V} {k : K} : (get? d k).isSome ↔ k ∈ keys d := by
  rw [← not_iff_not, ← get?_eq_none]; cases get? d k <;> simp

theorem has_iff {d : Dict K V} {k : K} : has d k = true ↔ k ∈ keys d := get?_isSome

theorem mem_of_get? {d : Dict K V} {k : K} {v : V} (h : get? d k = some v) : (k, v) ∈ d := by
  induction d with
  | nil => simp at h
  | cons p d ih =>
    obtain ⟨a, b⟩ := p
    by_cases h1 : a = k
    · subst h1; simp [get?] at h; simp [h]
    · simp [get?, h1] at h; exact List.mem_cons_of_mem _ (ih h)

theorem get?_of_mem {d : Dict K V} (hd : Nodup d) {k : K} {v : V} (h : (k, v) ∈ d) :
    get? d k = some v := by
  induction d with
  | nil => simp at h
  | cons p d ih =>
    obtain ⟨a, b⟩ := p
    rw [nodup_cons] at hd
    rcases List.mem_cons.1 h with h | h
    · cases h; simp [get?]
    · have : a ≠ k := by
        rintro rfl; exact hd.1 (List.mem_map.2 ⟨_, h, rfl⟩)
      simp [get?, this, ih hd.2 h]

theorem mem_iff_get? {d : Dict K V} (hd : Nodup d) {k : K} {v : V} :
    (k, v) ∈ d ↔ get? d k = some v := ⟨get?_of_mem hd, mem_of_get?⟩

theorem keys_set (d : Dict K V) (k : K) (v : V) :
    keys (set d k v) = if k ∈ keys d then keys d else keys d ++ [k] := by
  induction d with
  | nil => simp [set]
  | cons p d ih =>
    obtain ⟨a, b⟩ := p
    by_cases h : a = k
    · subst h; simp [set]
    · simp only [set, h, if_false, keys_cons, ih, List.mem_cons]
      by_cases h2 : k ∈ keys d
      · simp [h2]
      · simp [h2, Ne.symm h]

theorem nodup_set {d : Dict K V} (h : Nodup d) (k : K) (v : V) : Nodup (set d k v) := by
  unfold Nodup; rw [keys_set]
  split
  · exact h
  · rename_i hk
    rw [List.nodup_append]
    exact ⟨h, by simp, by rintro x hx y hy rfl; simp at hy; exact hk (hy ▸ hx)⟩

theorem mem_keys_set {d : Dict K V} {k k' : K} {v : V} :
    k' ∈ keys (set d k v) ↔ k' = k ∨ k' ∈ keys d := by
  rw [keys_set]; split
  · constructor
    · exact Or.inr
    · rintro (rfl | h) <;> assumption
  · simp [or_comm]

/-- Appending a key that is not there is what `set` does. -/
theorem set_of_not_mem {d : Dict K V} {k : K} (h : k ∉ keys d) (v : V) :
    set d k v = d ++ [(k, v)] := by
  induction d with
  | nil => rfl
  | cons p d ih =>
    obtain ⟨a, b⟩ := p
    simp only [keys_cons, List.mem_cons, not_or] at h
    simp [set, Ne.symm h.1, ih h.2]

theorem get?_append (d e : Dict K V) (k : K) :
    get? (d ++ e) k = (get? d k).or (get? e k) := by
  induction d with
  | nil => simp
  | cons p d ih =>
    obtain ⟨a, b⟩ := p
    by_cases h : a = k <;> simp [get?, h, ih]

@[simp] theorem keys_append (d e : Dict K V) : keys (d ++ e) = keys d ++ keys e := by
  simp [keys]

/-- `{a: f(d[a]) for a in d}`. -/
def mapVal (f : V → W) (d : Dict K V) : Dict K W := d.map fun p => (p.1, f p.2)

@[simp] theorem keys_mapVal (f : V → W) (d : Dict K V) : keys (mapVal f d) = keys d := by
  simp [mapVal, keys, Function.comp_def]

theorem get?_mapVal (f : V → W) (d : Dict K V) (k : K) :
    get? (mapVal f d) k = (get? d k).map f := by
  induction d with
  | nil => rfl
  | cons p d ih =>
    obtain ⟨a, b⟩ := p
    by_cases h : a = k
    · simp [mapVal, get?, h]
    · simpa [mapVal, get?, h] using ih

/-- Building a dict from pairs in order, later pairs overwriting (`{k: v for ...}` / repeated
`temp[k] = v`). -/
def ofPairs (ps : List (K × V)) : Dict K V := ps.foldl (fun d p => set d p.1 p.2) []

theorem nodup_foldl_set (ps : List (K × V)) {d : Dict K V} (h : Nodup d) :
    Nodup (ps.foldl (fun d p => set d p.1 p.2) d) := by
  induction ps generalizing d with
  | nil => exact h
  | cons p ps ih => exact ih (nodup_set h _ _)

theorem nodup_ofPairs (ps : List (K × V)) : Nodup (ofPairs ps) := nodup_foldl_set ps nodup_nil

theorem foldl_set_of_nodup (ps : List (K × V)) (d : Dict K V)
    (h : Nodup (d ++ ps)) : ps.foldl (fun d p => set d p.1 p.2) d = d ++ ps := by
  induction ps generalizing d with
  | nil => simp
  | cons p ps ih =>
    have hp : p.1 ∉ keys d := by
      intro hc
      unfold Nodup at h
      rw [keys_append, List.nodup_append] at h
      exact h.2.2 _ hc p.1 (by simp) rfl
    rw [List.foldl_cons, set_of_not_mem hp, ih]
    · simp
    · simpa using h

theorem ofPairs_of_nodup (ps : List (K × V)) (h : Nodup ps) : ofPairs ps = ps := by
  simpa [ofPairs] using foldl_set_of_nodup ps [] (by simpa using h)

/-- The loop `for k in ps: d[k] = f(d.get(k), ps[k])`. -/
def updAll (f : Option V → W → V) (d : Dict K V) (ps : Dict K W) : Dict K V :=
  ps.foldl (fun d p => set d p.1 (f (get? d p.1) p.2)) d

@[simp] theorem updAll_nil (f : Option V → W → V) (d : Dict K V) : updAll f d [] = d := rfl

@[simp] theorem updAll_cons (f : Option V → W → V) (d : Dict K V) (p : K × W) (ps : Dict K W) :
    updAll f d (p :: ps) = updAll f (set d p.1 (f (get? d p.1) p.2)) ps := rfl

theorem get?_updAll (f : Option V → W → V) (d : Dict K V) {ps : Dict K W} (h : Nodup ps) (k : K) :
    get? (updAll f d ps) k =
      match get? ps k with
      | none => get? d k
      | some x => some (f (get? d k) x) := by
  induction ps generalizing d with
  | nil => simp
  | cons p ps ih =>
    obtain ⟨a, b⟩ := p
    rw [nodup_cons] at h
    rw [updAll_cons, ih _ h.2]
    by_cases hk : a = k
    · subst hk
      have : get? ps a = none := get?_eq_none.2 h.1
      simp [this, get?_cons]
    · simp [get?_cons, hk, get?_set]

theorem nodup_updAll (f : Option V → W → V) {d : Dict K V} (ps : Dict K W) (h : Nodup d) :
    Nodup (updAll f d ps) := by
  induction ps generalizing d with
  | nil => exact h
  | cons p ps ih => exact ih (nodup_set h _ _)

theorem updAll_append (f : Option V → W → V) (d : Dict K V) (ps : Dict K W)
    (h : Nodup ps) (hd : ∀ k ∈ keys ps, k ∉ keys d) :
    updAll f d ps = d ++ mapVal (f none) ps := by
  induction ps generalizing d with
  | nil => simp [mapVal]
  | cons p ps ih =>
    rw [nodup_cons] at h
    have hp := hd p.1 (by simp)
    rw [updAll_cons, set_of_not_mem hp, get?_eq_none.2 hp, ih _ h.2]
    · simp [mapVal]
    · intro k hk
      simp only [keys_append, List.mem_append, not_or]
      refine ⟨hd k (by simp [hk]), ?_⟩
      simp only [keys_cons, keys_nil, List.mem_singleton]
      rintro rfl; exact h.1 hk

theorem updAll_empty (f : Option V → W → V) (ps : Dict K W) (h : Nodup ps) :
    updAll f [] ps = mapVal (f none) ps := by
  simpa using updAll_append f [] ps h (by simp)

theorem mapVal_id' (f : V → V) (d : Dict K V) (h : ∀ p ∈ d, f p.2 = p.2) : mapVal f d = d := by
  unfold mapVal
  conv_rhs => rw [← List.map_id d]
  apply List.map_congr_left
  intro p hp; simp [h p hp]

/-- Two dicts are equal as Python dicts (`==`): same keys with the same values, in any order. -/
def Equiv (d e : Dict K V) : Prop := ∀ k, get? d k = get? e k

theorem Equiv.keys {d e : Dict K V} (h : Equiv d e) (k : K) : k ∈ keys d ↔ k ∈ keys e := by
  rw [← get?_isSome, ← get?_isSome, h k]

end Dict
end CF
