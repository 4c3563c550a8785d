/-
What is assumed about the search for a mapping, and what a mapping should be.
-/
import Verif.Model.StructureMapper
import Verif.Spec.Rename
import Mathlib.Logic.Relation

namespace CF

/-- An assignment of `n` rows to different columns, of which there are `m + n`. -/
structure Assignment (n m : ℕ) (idx : List (ℕ × ℕ)) : Prop where
  rows : (idx.map Prod.fst).Perm (List.range n)
  cols : (idx.map Prod.snd).Nodup
  bound : ∀ p ∈ idx, p.2 < m + n

/-- One step of a search: some successor of the state, listed in any order. -/
def MapStep (s t : MapState) : Prop :=
  ∃ m u, m.Perm s.1 ∧ u.Perm s.2 ∧ (t ∈ successors (m, u) ∨ t ∈ randomSuccessors (m, u))

/-- The external search does what it is for: Munkres' algorithm returns an assignment, the search returns
a state that it reached by steps, and sets are iterated over completely. -/
structure SearchLaws (S : Search) : Prop where
  listOf : ∀ l, (S.listOf l).Nodup ∧ ∀ x, x ∈ S.listOf l ↔ x ∈ l
  assign : ∀ is cs t idx, S.assign is cs t = .ok idx → Assignment is.length cs.length idx
  climb : ∀ s t s', S.climb s t = .ok s' → Relation.ReflTransGen MapStep s s'

/-- The mapping is defined on exactly the variables `K`, one-to-one, sends each to itself or to a variable
of the base, and the unused variables are those of the base that are no images. -/
structure MappingOk (K : List Py) (cnames : List Py) (s : MapState) : Prop where
  nodup : Dict.Nodup s.1
  dom : ∀ x, x ∈ s.1.keys ↔ x ∈ K
  inj : ∀ x y v, s.1.get? x = some v → s.1.get? y = some v → x = y
  into : ∀ x v, s.1.get? x = some v → v = x ∨ v ∈ cnames
  unused : ∀ c, c ∈ s.2 ↔ c ∈ cnames ∧ ∀ x, s.1.get? x ≠ some c
  set : s.2.Nodup

/-- A mapping given by the user that does not identify variables. -/
def UserOk : Option (List (Py × Py)) → Prop
  | none => True
  | some ps => (ps.map Prod.fst).Nodup ∧ (ps.map Prod.snd).Nodup

/-- The variables of a list of attributes. -/
def varsOf (as : List Py) : List Py := as.flatMap varsEl

end CF
