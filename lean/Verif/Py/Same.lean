/-
Equality of Python objects, and well-formed objects.

These definitions model the Python language, not a file of /repo.
-/
import Verif.Py.Obj
import Mathlib.Data.List.Perm.Subperm

namespace CF

/-- An instance, or any other dict whose keys and values are Python objects. -/
abbrev PyInst := Dict Py Py

namespace Py

mutual
/-- `a == b`: two dicts are equal when they have the same number of entries and every key of the first
is in the second, with an equal value; the order of the entries does not matter. -/
def same : Py → Py → Prop
  | dict l, b => ∃ l', b = dict l' ∧ l.length = l'.length ∧ sameD l l'
  | list l, b => ∃ l', b = list l' ∧ sameL l l'
  | tup l, b => ∃ l', b = tup l' ∧ sameL l l'
  | .none, b => b = .none
  | bool x, b => b = bool x
  | num x, b => b = num x
  | str x, b => b = str x
  | other n h i, b => b = other n h i
/-- Elementwise equality of lists and tuples. -/
def sameL : List Py → List Py → Prop
  | [], b => b = []
  | x :: xs, b => ∃ y ys, b = y :: ys ∧ same x y ∧ sameL xs ys
/-- Every entry of the first dict is in the second. -/
def sameD : List (Py × Py) → List (Py × Py) → Prop
  | [], _ => True
  | (k, v) :: l, l' => (∃ v', Dict.get? l' k = some v' ∧ same v v') ∧ sameD l l'
end

mutual
/-- A dict at any depth has no key twice, as all Python dicts. -/
def wf : Py → Prop
  | dict l => Dict.Nodup l ∧ wfD l
  | list l => wfL l
  | tup l => wfL l
  | _ => True
def wfL : List Py → Prop
  | [] => True
  | x :: xs => wf x ∧ wfL xs
def wfD : List (Py × Py) → Prop
  | [] => True
  | (_, v) :: l => wf v ∧ wfD l
end

/-- `isinstance(x, dict)`. -/
def isDict : Py → Bool
  | dict _ => true
  | _ => false

/-- `isinstance(x, tuple)`. -/
def isTup : Py → Bool
  | tup _ => true
  | _ => false

/-- `isinstance(x, list)`. -/
def isList : Py → Bool
  | list _ => true
  | _ => false

mutual
theorem same_refl : ∀ {a : Py}, a.wf → same a a
  | dict l, h => ⟨l, rfl, rfl, sameD_refl l h.2 fun k v hm => Dict.get?_of_mem h.1 hm⟩
  | list l, h => ⟨l, rfl, sameL_refl h⟩
  | tup l, h => ⟨l, rfl, sameL_refl h⟩
  | .none, _ => rfl
  | bool _, _ => rfl
  | num _, _ => rfl
  | str _, _ => rfl
  | other _ _ _, _ => rfl
theorem sameL_refl : ∀ {l : List Py}, wfL l → sameL l l
  | [], _ => rfl
  | x :: xs, h => ⟨x, xs, rfl, same_refl h.1, sameL_refl h.2⟩
theorem sameD_refl : ∀ (l : List (Py × Py)) {l' : List (Py × Py)}, wfD l →
    (∀ k v, (k, v) ∈ l → Dict.get? l' k = some v) → sameD l l'
  | [], _, _, _ => trivial
  | (k, v) :: l, _, h, hm =>
    ⟨⟨v, hm k v List.mem_cons_self, same_refl h.1⟩,
      sameD_refl l h.2 fun k' v' h' => hm k' v' (List.mem_cons_of_mem _ h')⟩
end

theorem sameD_iff {l l' : List (Py × Py)} :
    sameD l l' ↔ ∀ k v, (k, v) ∈ l → ∃ v', Dict.get? l' k = some v' ∧ same v v' := by
  induction l with
  | nil => simp [sameD]
  | cons p l ih =>
    obtain ⟨k, v⟩ := p
    simp only [sameD, ih, List.mem_cons]
    constructor
    · rintro ⟨h1, h2⟩ k' v' (h | h)
      · cases h; exact h1
      · exact h2 k' v' h
    · exact fun h => ⟨h k v (.inl rfl), fun k' v' h' => h k' v' (.inr h')⟩

theorem wfD_iff {l : List (Py × Py)} : wfD l ↔ ∀ p ∈ l, wf p.2 := by
  induction l with
  | nil => simp [wfD]
  | cons p l ih => simp [wfD, ih]

theorem wfL_iff {l : List Py} : wfL l ↔ ∀ x ∈ l, wf x := by
  induction l with
  | nil => simp [wfL]
  | cons p l ih => simp [wfL, ih]

mutual
theorem same_trans : ∀ {a b c : Py}, same a b → same b c → same a c
  | dict l, _, _, ⟨l', rfl, h1, h2⟩, ⟨l'', rfl, h3, h4⟩ =>
    ⟨l'', rfl, h1.trans h3, sameD_trans h2 h4⟩
  | list l, _, _, ⟨l', rfl, h1⟩, ⟨l'', rfl, h3⟩ => ⟨l'', rfl, sameL_trans h1 h3⟩
  | tup l, _, _, ⟨l', rfl, h1⟩, ⟨l'', rfl, h3⟩ => ⟨l'', rfl, sameL_trans h1 h3⟩
  | .none, _, _, h, h' => by have h : _ = _ := h; subst h; exact h'
  | bool _, _, _, h, h' => by have h : _ = _ := h; subst h; exact h'
  | num _, _, _, h, h' => by have h : _ = _ := h; subst h; exact h'
  | str _, _, _, h, h' => by have h : _ = _ := h; subst h; exact h'
  | other _ _ _, _, _, h, h' => by have h : _ = _ := h; subst h; exact h'
theorem sameL_trans : ∀ {a b c : List Py}, sameL a b → sameL b c → sameL a c
  | [], _, _, h, h' => by have h : _ = _ := h; subst h; exact h'
  | x :: xs, _, _, ⟨y, ys, rfl, h1, h2⟩, ⟨z, zs, rfl, h3, h4⟩ =>
    ⟨z, zs, rfl, same_trans h1 h3, sameL_trans h2 h4⟩
theorem sameD_trans : ∀ {a b c : List (Py × Py)}, sameD a b → sameD b c → sameD a c
  | [], _, _, _, _ => trivial
  | (k, v) :: l, b, c, ⟨⟨v', h1, h2⟩, h3⟩, h4 => by
    obtain ⟨v'', h5, h6⟩ := sameD_iff.1 h4 k v' (Dict.mem_of_get? h1)
    exact ⟨⟨v'', h5, same_trans h2 h6⟩, sameD_trans h3 h4⟩
end

/-- Two dicts that are equal have the same keys. -/
theorem same_keys {l l' : List (Py × Py)} (hn : Dict.Nodup l) (hn' : Dict.Nodup l')
    (hl : l.length = l'.length) (h : sameD l l') : (Dict.keys l).Perm (Dict.keys l') := by
  have hsub : Dict.keys l ⊆ Dict.keys l' := by
    intro k hk
    obtain ⟨p, hp, rfl⟩ := List.mem_map.1 hk
    obtain ⟨v', h1, _⟩ := sameD_iff.1 h p.1 p.2 hp
    exact Dict.get?_isSome.1 (by rw [h1]; rfl)
  exact (List.subperm_of_subset hn hsub).perm_of_length_le (by simp [Dict.keys, hl])

/-- Two equal dicts, from the other side. -/
theorem same_mem {l l' : List (Py × Py)} (hn : Dict.Nodup l) (hn' : Dict.Nodup l')
    (hl : l.length = l'.length) (h : sameD l l') {k v' : Py} (hm : (k, v') ∈ l') :
    ∃ v, (k, v) ∈ l ∧ same v v' := by
  have : k ∈ Dict.keys l := (same_keys hn hn' hl h).mem_iff.2 (List.mem_map.2 ⟨_, hm, rfl⟩)
  obtain ⟨p, hp, rfl⟩ := List.mem_map.1 this
  obtain ⟨v'', h1, h2⟩ := sameD_iff.1 h p.1 p.2 hp
  rw [Dict.get?_of_mem hn' hm] at h1
  cases h1
  exact ⟨p.2, hp, h2⟩

mutual
theorem same_symm : ∀ {a b : Py}, a.wf → b.wf → same a b → same b a
  | dict l, _, h, h', hs => by
    obtain ⟨l', rfl, h1, h2⟩ := hs
    exact ⟨l, rfl, h1.symm, sameD_iff.2 fun k v hm => by
      obtain ⟨v', h3, h4⟩ := same_mem h.1 h'.1 h1 h2 hm
      exact ⟨v', Dict.get?_of_mem h.1 h3, sameD_symm h.2 k v' h3 (wfD_iff.1 h'.2 _ hm) h4⟩⟩
  | list l, _, h, h', hs => by obtain ⟨l', rfl, h1⟩ := hs; exact ⟨l, rfl, sameL_symm h h' h1⟩
  | tup l, _, h, h', hs => by obtain ⟨l', rfl, h1⟩ := hs; exact ⟨l, rfl, sameL_symm h h' h1⟩
  | .none, _, _, _, h => by have h : _ = _ := h; subst h; exact rfl
  | bool _, _, _, _, h => by have h : _ = _ := h; subst h; exact rfl
  | num _, _, _, _, h => by have h : _ = _ := h; subst h; exact rfl
  | str _, _, _, _, h => by have h : _ = _ := h; subst h; exact rfl
  | other _ _ _, _, _, _, h => by have h : _ = _ := h; subst h; exact rfl
theorem sameL_symm : ∀ {a b : List Py}, wfL a → wfL b → sameL a b → sameL b a
  | [], _, _, _, h => by have h : _ = _ := h; subst h; exact rfl
  | x :: xs, _, h, h', hs => by
    obtain ⟨y, ys, rfl, h1, h2⟩ := hs
    exact ⟨x, xs, rfl, same_symm h.1 h'.1 h1, sameL_symm h.2 h'.2 h2⟩
theorem sameD_symm : ∀ {l : List (Py × Py)}, wfD l → ∀ k v, (k, v) ∈ l → ∀ {w : Py}, w.wf → same v w → same w v
  | [], _, _, _, hm, _, _, _ => by simp at hm
  | (k, v) :: l, h, k', v', hm, w, hw, hs => by
    by_cases e : v' = v
    · subst e; exact same_symm h.1 hw hs
    · refine sameD_symm h.2 k' v' ?_ hw hs
      rcases List.mem_cons.1 hm with hm | hm
      · cases hm; exact absurd rfl e
      · exact hm
end

end Py
end CF
