/-
What the example scripts should draw and write.
-/
import Verif.Model.Scripts
import Verif.Spec.Cobweb3

namespace CF

section
variable {A V : Type} [DecidableEq A] [DecidableEq V]

/-- The instance has a number under the attribute. -/
def HasNumber (a : A) (i : Inst3 A V) : Prop := ∃ r : ℝ, Dict.get? i a = some (.num r)

/-- The ellipse around the mean of the points, two corrected standard deviations to each side. -/
structure EllipseOf (x y : A) (g : Multiset (Inst3 A V)) (e : Ellipse) : Prop where
  cx : e.x = sampleMean (nums g x)
  cy : e.y = sampleMean (nums g y)
  width : e.width = 2 * (2 * sampleStd (nums g x))
  height : e.height = 2 * (2 * sampleStd (nums g y))

/-- What is drawn for the data `l`: no ellipse if no two of them differ in a visible attribute, otherwise the ellipses
around the groups of a division of the data into at least two non-empty groups. -/
def Drawn (hid : A → Bool) (x y : A) (l : List (Inst3 A V)) (f : List Ellipse) : Prop :=
  ((∀ i ∈ l, ∀ j ∈ l, SameVisible hid i j) ∧ f = []) ∨
  ((∃ i ∈ l, ∃ j ∈ l, ¬ SameVisible hid i j) ∧ ∃ groups : List (Multiset (Inst3 A V)), 2 ≤ groups.length ∧
    groups.sum = (l : Multiset (Inst3 A V)) ∧ (∀ g ∈ groups, g ≠ 0) ∧ List.Forall₂ (EllipseOf x y) groups f)

end

/-- `k` halves are the multiple of one half nearest to `q`; of two equally near ones `k` is even. -/
def NearestHalf (q : ℚ) (k : ℤ) : Prop := |2 * q - k| ≤ 1 / 2 ∧ (|2 * q - k| = 1 / 2 → Even k)

/-- The number that a Python object is in arithmetic. -/
inductive PyNum : Py → ℚ → Prop
  | num (q : ℚ) : PyNum (.num q) q
  | true : PyNum (.bool Bool.true) 1
  | false : PyNum (.bool Bool.false) 0

/-- An entry of a block before and after `convert_cat`. -/
inductive BlockEntry (fstr : ℚ → PStr) : Py × Py → Py × Py → Prop
  | type (v : Py) : BlockEntry fstr (.str c!"type", v) (.str c!"type", v)
  | half {k v : Py} {q : ℚ} {n : ℤ} : k ≠ .str c!"type" → PyNum v q → NearestHalf q n →
      BlockEntry fstr (k, v) (k, .str (fstr (n / 2)))

/-- An entry of a tower before and after `convert_cat`. -/
inductive TowerEntry (fstr : ℚ → PStr) : Py × Py → Py × Py → Prop
  | block {a : Py} {b b' : List (Py × Py)} : List.Forall₂ (BlockEntry fstr) b b' →
      TowerEntry fstr (a, .dict b) (a, .dict b')
  | other {a v : Py} : v.isDict = false → TowerEntry fstr (a, v) (a, v)

/-- Fields joined by commas. -/
def commaJoin : List PStr → PStr
  | [] => []
  | [f] => f
  | f :: fs => f ++ ',' :: commaJoin fs

/-- A line of a table: fields without commas, joined by commas, then white space; the last field ends in something
else. -/
structure TableLine (fs : List PStr) (line : PStr) : Prop where
  commas : ∀ f ∈ fs, ',' ∉ f
  text : ∃ sp : PStr, line = commaJoin fs ++ sp ∧ ∀ c ∈ sp, isSpaceChar c = true
  last : ∃ f ∈ fs.getLast?, ∃ c ∈ f.getLast?, isSpaceChar c = false

/-- The field of the row `fs` in the column called `name` is the integer `n`. -/
def Column (int : PStr → Res ℤ) (head fs : List PStr) (name : PStr) (n : ℤ) : Prop :=
  ∃ (j : ℕ) (f : PStr), head[j]? = some name ∧ fs[j]? = some f ∧ int f = .ok n

/-- The row is the answer number `order` of a person: `point` is its position, counted from zero, and 1 if the
prediction is right and 0 otherwise. -/
def Answer (int : PStr → Res ℤ) (head fs : List PStr) (point : ℤ × ℤ) : Prop :=
  ∃ order correct pred, Column int head fs c!"order" order ∧ Column int head fs c!"correctness" correct ∧
    Column int head fs c!"prediction" pred ∧ (correct = 0 ∨ correct = 1) ∧ (pred = 0 ∨ pred = 1) ∧
    point = (order - 1, if pred = correct then 1 else 0)

end CF
