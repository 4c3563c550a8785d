/-
`data_files/generate_quadruped.py`: random animals, and `load_quadruped`.

Numbers are rationals instead of floats.
-/
import Verif.Py.Obj
import Mathlib.Algebra.Order.Field.Rat
import Mathlib.Data.Int.Notation

namespace CF

/-- Python's random generator with states `σ`: `normalvariate(mu, sigma)` returns `mu + z * sigma` for a random
`z`, and `choice` of four things picks one of them. -/
structure Source (σ : Type) where
  normal : σ → ℚ × σ
  pick : σ → Fin 4 × σ

/-- Computations with random numbers; `none`: not finished within the given number of steps. -/
abbrev Draw (σ : Type) := StateT σ Option

section
variable {σ : Type} (R : Source σ)

/-- The loop of `bellrand` (generate_quadruped.py:12-16).  The first sample, infinity, is never in the range, so
the loop is entered; the natural number bounds how often. -/
def bellLoop (start finish : ℚ) : ℕ → Draw σ ℚ
  | 0 => fun _ => none
  | n + 1 => fun s =>
    let mu := start + (finish - start) / 2
    let std := (finish - start) / 2
    let sample := mu + (R.normal s).1 * std
    if sample < start ∨ finish < sample then bellLoop start finish n (R.normal s).2
    else some (sample, (R.normal s).2)

/-- `bellrand(start, finish)` (generate_quadruped.py:5-16), with the range as a pair. -/
def bellrand (fuel : ℕ) (r : ℚ × ℚ) : Draw σ ℚ := bellLoop R r.1 r.2 fuel

/-- The numbers in which the four generating functions differ, in the order in which they are drawn; `upright`
tells the two ways to place neck and head apart (generate_quadruped.py:104-128 and 338-364). -/
structure AnimalKind where
  name : PStr
  torsoHeight : ℚ × ℚ
  torsoRadius : ℚ × ℚ
  legLength : ℚ × ℚ
  legAxis : ℚ × ℚ
  legRadius : ℚ × ℚ
  neckHeight : ℚ × ℚ
  neckRadius : ℚ × ℚ
  headHeight : ℚ × ℚ
  headRadius : ℚ × ℚ
  tailHeight : ℚ × ℚ
  tailAxisZ : ℚ × ℚ
  tailRadius : ℚ × ℚ
  upright : Bool

/-- generate_quadruped.py:29-143. -/
def dogKind : AnimalKind :=
  { name := c!"dog", torsoHeight := (22, 28), torsoRadius := (5.5, 7.5), legLength := (10, 15), legAxis := (0, 1),
    legRadius := (0.8, 1.2), neckHeight := (5, 6), neckRadius := (2, 3), headHeight := (10, 13),
    headRadius := (2.5, 3.5), tailHeight := (6, 8), tailAxisZ := (-1, 1), tailRadius := (0.2, 0.4),
    upright := false }

/-- generate_quadruped.py:146-260. -/
def catKind : AnimalKind :=
  { name := c!"cat", torsoHeight := (15, 22), torsoRadius := (2.5, 4.5), legLength := (4, 9), legAxis := (0, 1),
    legRadius := (0.4, 0.8), neckHeight := (2, 4), neckRadius := (1.5, 2.5), headHeight := (3, 5),
    headRadius := (1.5, 2.5), tailHeight := (10, 18), tailAxisZ := (-1, 1), tailRadius := (0.3, 0.7),
    upright := false }

/-- generate_quadruped.py:263-379. -/
def horseKind : AnimalKind :=
  { name := c!"horse", torsoHeight := (50, 60), torsoRadius := (10, 14.5), legLength := (36, 44),
    legAxis := (0, 0.5), legRadius := (2, 3.5), neckHeight := (12, 16), neckRadius := (5, 7),
    headHeight := (18, 22), headRadius := (4, 6), tailHeight := (26, 33), tailAxisZ := (-1, 0),
    tailRadius := (1, 2), upright := true }

/-- generate_quadruped.py:382-500. -/
def giraffeKind : AnimalKind :=
  { name := c!"giraffe", torsoHeight := (60, 72), torsoRadius := (12.5, 17), legLength := (58, 70),
    legAxis := (0, 0.5), legRadius := (2, 4), neckHeight := (45, 55), neckRadius := (5, 9),
    headHeight := (18, 22), headRadius := (3.5, 5.5), tailHeight := (20, 25), tailAxisZ := (-1, 0),
    tailRadius := (0.5, 1), upright := true }

/-- A component with its ten attributes, in the order of the assignments (e.g. generate_quadruped.py:42-52). -/
def bodyPart (type : PStr) (locX locY locZ axX axY axZ height radius texture : ℚ) : Py :=
  .dict [(.str c!"_type", .str type), (.str c!"locationX", .num locX), (.str c!"locationY", .num locY),
    (.str c!"locationZ", .num locZ), (.str c!"axisX", .num axX), (.str c!"axisY", .num axY),
    (.str c!"axisZ", .num axZ), (.str c!"height", .num height), (.str c!"radius", .num radius),
    (.str c!"texture", .num texture)]

/-- `generate_dog`, `generate_cat`, `generate_horse` and `generate_giraffe` (generate_quadruped.py:29-500), which
make the same assignments with different numbers. -/
def generateAnimal (fuel : ℕ) (K : AnimalKind) : Draw σ (List (Py × Py)) := do
  let torsoH ← bellrand R fuel K.torsoHeight
  let torsoR ← bellrand R fuel K.torsoRadius
  let torsoT ← bellrand R fuel (170, 180)
  let leglength ← bellrand R fuel K.legLength
  let axis1 ← bellrand R fuel K.legAxis
  let radius1 ← bellrand R fuel K.legRadius
  let texture1 ← bellrand R fuel (170, 180)
  let radius2 ← bellrand R fuel K.legRadius
  let texture2 ← bellrand R fuel (170, 180)
  let radius3 ← bellrand R fuel K.legRadius
  let texture3 ← bellrand R fuel (170, 180)
  let axis4 ← bellrand R fuel K.legAxis
  let radius4 ← bellrand R fuel K.legRadius
  let texture4 ← bellrand R fuel (170, 180)
  let neckH ← bellrand R fuel K.neckHeight
  let neckR ← bellrand R fuel K.neckRadius
  let neckT ← bellrand R fuel (170, 180)
  let headY ← bellrand R fuel (-1, 1)
  let headH ← bellrand R fuel K.headHeight
  let headR ← bellrand R fuel K.headRadius
  let headT ← bellrand R fuel (170, 180)
  let tailH ← bellrand R fuel K.tailHeight
  let tailY ← bellrand R fuel (-1, 1)
  let tailZ ← bellrand R fuel K.tailAxisZ
  let tailR ← bellrand R fuel K.tailRadius
  let tailT ← bellrand R fuel (170, 180)
  let legZ := -torsoR - leglength / 2
  return [(.str c!"_type", .str K.name),
    (.str c!"torso", bodyPart c!"torso" 0 0 0 1 0 0 torsoH torsoR torsoT),
    (.str c!"leg1", bodyPart c!"leg1" (torsoH / 2) torsoR legZ axis1 0 (-1) leglength radius1 texture1),
    (.str c!"leg2", bodyPart c!"leg2" (torsoH / 2) (-torsoR) legZ 0 0 (-1) leglength radius2 texture2),
    (.str c!"leg3", bodyPart c!"leg3" (-torsoH / 2) torsoR legZ 0 0 (-1) leglength radius3 texture3),
    (.str c!"leg4", bodyPart c!"leg4" (-torsoH / 2) (-torsoR) legZ axis4 0 (-1) leglength radius4 texture4),
    (.str c!"neck",
      if K.upright then
        bodyPart c!"neck" (torsoH / 2 + neckH / 2.828) 0 (torsoR + neckH / 2.828) 1 0 1 neckH neckR neckT
      else bodyPart c!"neck" (torsoH / 2 + neckH / 2) 0 torsoR 1 0 1 neckH neckR neckT),
    (.str c!"head",
      if K.upright then
        bodyPart c!"head" (torsoH / 2 + neckH / 1.414) 0 (torsoR + neckH / 1.414) 1 headY 0 headH headR headT
      else bodyPart c!"head" (torsoH / 2 + neckH) 0 torsoR 1 headY 1 headH headR headT),
    (.str c!"tail", bodyPart c!"tail" (-torsoH + tailH) 0 0 (-1) tailY tailZ tailH tailR tailT)]

/-- `genfun` (generate_quadruped.py:24). -/
def animalKinds : Fin 4 → AnimalKind
  | 0 => dogKind
  | 1 => catKind
  | 2 => horseKind
  | 3 => giraffeKind

/-- `generate_random_animal` (generate_quadruped.py:23-26). -/
def randomAnimal (fuel : ℕ) : Draw σ (List (Py × Py)) := fun s =>
  generateAnimal R fuel (animalKinds (R.pick s).1) (R.pick s).2

/-- The list comprehension in `generate_animals` (generate_quadruped.py:19-20). -/
def generateAnimals (fuel : ℕ) : ℕ → Draw σ (List (List (Py × Py)))
  | 0 => pure []
  | n + 1 => do
    let a ← randomAnimal R fuel
    let l ← generateAnimals fuel n
    return a :: l

/-- `load_quadruped(num_instances)` (datasets.py:284-386): `range` of a negative number is empty. -/
def loadQuadruped (fuel : ℕ) (num : ℤ) : Draw σ (List (List (Py × Py))) := generateAnimals R fuel num.toNat

end
end CF
