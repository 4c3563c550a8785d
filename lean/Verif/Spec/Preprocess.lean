/-
What the preprocessors should do, stated without their code.
-/
import Verif.Model.Preprocessor

namespace CF

/-! ### Inverting a preprocessor -/

section
variable {γ τ : Type} (R : PyInst → PyInst → Prop)

/-- `undo_transform` inverts `transform` for instance `i` in state `s`, up to `R`: if `transform` returns
`o`, then `undo_transform`, called later on anything that is `o` up to `R` while the object still has its
state, returns `i` up to `R`. -/
def Undoes (p : Preproc γ τ) (i : PyInst) (s : γ × τ) : Prop :=
  ∀ o s', p.transform i s = (.ok o, s') → ∀ g o', R o o' →
    ∃ i' s'', p.undo o' (g, s'.2) = (.ok i', s'') ∧ R i i'

/-- The same without the condition that the object still has its state. -/
def UndoesAlways (p : Preproc γ τ) : Prop :=
  ∀ i s o s', p.transform i s = (.ok o, s') → ∀ s₁ o', R o o' →
    ∃ i' s'', p.undo o' s₁ = (.ok i', s'') ∧ R i i'

/-- Every stage of a pipeline inverts its own step, when the pipeline transforms `i` in state `s`. -/
def StagesUndo : List (Stage γ τ) → PyInst → γ × (ℕ → τ) → Prop
  | [], _, _ => True
  | p :: ps, i, s => Undoes R p.cls i (s.1, s.2 p.addr) ∧
      ∀ o s', p.cls.transform i (s.1, s.2 p.addr) = (.ok o, s') →
        StagesUndo ps o (s'.1, Function.update s.2 p.addr s'.2)

end

/-! ### Structured instances -/

mutual
/-- The values that are not components, each with its path: the attributes from the outside in. -/
def leavesV : Py → List (List Py × Py)
  | .dict l => leavesD l
  | v => [([], v)]
def leavesD : List (Py × Py) → List (List Py × Py)
  | [] => []
  | (k, v) :: l => (leavesV v).map (fun e => (k :: e.1, e.2)) ++ leavesD l
end

/-- A hidden attribute: `attr[0] == '_'`. -/
def Hidden (a : Py) : Prop := a.index0 = .ok (.str c!"_")

instance (a : Py) : Decidable (Hidden a) :=
  match h : a.index0 with
  | .ok x => decidable_of_iff (x = .str c!"_") (by simp [Hidden, h])
  | .error e => .isFalse (by simp [Hidden, h])

/-- The name of attribute `a` of the component named `outer`. -/
def memberName (outer a : Py) : Py :=
  if Hidden a then .tup [.str c!"_", .tup [a, outer]] else .tup [a, outer]

/-- The flattened name of a path. -/
def pathName : List Py → Py
  | [] => .none
  | k :: ks => ks.foldl memberName k

mutual
/-- A value without empty components, all attributes of components being subscriptable, other than `'_'`,
and pairwise different. -/
def componentOk : Py → Prop
  | .dict l => l ≠ [] ∧ Dict.Nodup l ∧ membersOk l
  | _ => True
def membersOk : List (Py × Py) → Prop
  | [] => True
  | (k, v) :: l => ((∃ x, k.index0 = .ok x) ∧ k ≠ .str c!"_" ∧ componentOk v) ∧ membersOk l
end

/-- The instances that can be flattened and restored: no attribute of the instance itself is a pair (the
code takes pairs for flattened names), and its components are as above. -/
def Structured (i : PyInst) : Prop :=
  Dict.Nodup i ∧ ∀ p ∈ i, (∀ a b, p.1 ≠ .tup [a, b]) ∧ componentOk p.2

mutual
/-- Attributes are non-empty strings other than `'_'`, and components are not empty. -/
def stringKeysV : Py → Prop
  | .dict l => l ≠ [] ∧ Dict.Nodup l ∧ stringKeysD l
  | _ => True
def stringKeysD : List (Py × Py) → Prop
  | [] => True
  | (k, v) :: l => ((∃ s : PStr, k = .str s ∧ s ≠ [] ∧ s ≠ c!"_") ∧ stringKeysV v) ∧ stringKeysD l
end

/-! ### Objects in flattened names -/

/-- `'?...'`: the name of an object that may be renamed. -/
def Variable (a : Py) : Prop := ∃ s : PStr, a = .str ('?' :: s)

instance (a : Py) : Decidable (Variable a) :=
  match a with
  | .str [] => .isFalse (by simp [Variable])
  | .str (c :: s) => decidable_of_iff (c = '?') (by simp [Variable])
  | .none | .bool _ | .num _ | .tup _ | .list _ | .dict _ | .other _ _ _ => .isFalse (by simp [Variable])

/-- In the flattened name `a`, `y` is an attribute or part of the object named `place`. -/
inductive PartOf (y place : Py) : Py → Prop
  | here : PartOf y place (.tup [y, place])
  | outer {a b} : PartOf y place b → PartOf y place (.tup [a, b])
  | elem {l x} : l.length ≠ 2 → x ∈ l → PartOf y place x → PartOf y place (.tup l)

/-- In the flattened name `a`, `y` stands for itself, not for a part of an object. -/
inductive Stands (y : Py) : Py → Prop
  | here : Stands y y
  | outer {a b} : Stands y b → Stands y (.tup [a, b])
  | elem {l x} : l.length ≠ 2 → x ∈ l → Stands y x → Stands y (.tup l)

/-- The outermost object of a name. -/
def outermost : Py → Py
  | .tup [_, b] => outermost b
  | x => x

mutual
/-- Nested names end in a string, a variable if any part of the name is one.  (The two characters `??` are
excluded: the code would split them.) -/
def nameOk : Py → Prop
  | .tup [a, b] => ∃ s : PStr, outermost b = .str s ∧ s ≠ c!"??" ∧
      ((∃ y place, Variable y ∧ PartOf y place (.tup [a, b])) → Variable (.str s))
  | .tup l => namesOk l
  | _ => True
def namesOk : List Py → Prop
  | [] => True
  | x :: xs => nameOk x ∧ namesOk xs
end

mutual
/-- The nesting depth of a name. -/
def nameDepth : Py → ℕ
  | .tup l => nameDepthL l + 1
  | _ => 0
def nameDepthL : List Py → ℕ
  | [] => 0
  | x :: xs => max (nameDepth x) (nameDepthL xs)
end

/-- The flattened names of an instance in which every variable names one object: a variable is not part of
two objects, and not at the same time part of an object and an object of its own. -/
structure DistinctObjects (names : List Py) : Prop where
  ok : ∀ a ∈ names, nameOk a
  /-- The code's own relations are not used by the instance. -/
  free : ∀ x y, .tup [.str c!"has-component", x, y] ∉ names
  one : ∀ a ∈ names, ∀ b ∈ names, ∀ y p q, Variable y → PartOf y p a → PartOf y q b → p = q
  top : ∀ a ∈ names, ∀ b ∈ names, ∀ y p, Variable y → PartOf y p a → ¬ Stands y b

/-- The part of a path from its last variable on; all of it when there is no variable. -/
def fromLastVar : List Py → List Py
  | [] => []
  | k :: ks =>
    if ∃ y ∈ ks, Variable y then fromLastVar ks else k :: ks

/-- A structured instance with distinct object names: every path with a variable below its first attribute
starts with a variable, and the same variable is always found at the same place. -/
structure DistinctPaths (i : PyInst) : Prop where
  strings : stringKeysD i
  keys : Dict.Nodup i
  rooted : ∀ e ∈ leavesD i, ∀ k ks, e.1 = k :: ks → (∃ y ∈ ks, Variable y) → Variable k
  /-- The code would split the two characters `??` of a component's name. -/
  split : ∀ e ∈ leavesD i, ∀ k ks, e.1 = k :: ks → ks ≠ [] → k ≠ .str c!"??"
  one : ∀ e ∈ leavesD i, ∀ f ∈ leavesD i, ∀ y r s r' s', Variable y → e.1 = r ++ y :: s →
    f.1 = r' ++ y :: s' → r = r'

end CF
