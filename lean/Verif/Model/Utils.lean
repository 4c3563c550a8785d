/-
/repo/concept_formation/utils.py: random choices and elementary statistics.
-/
import Verif.Model.Cobweb

namespace CF
section
variable {α K : Type} [Field K] [LinearOrder K]

/-- The loop of `weighted_choice` (utils.py:143-150): `r` is the number drawn, the accumulator is
`upto`. -/
def weightedLoop (r : K) : List (α × K) → K → Res α
  | [], _ => .error .valueErr
  | (c, w) :: cs, upto =>
    if w < 0 then .error .valueErr
    else if upto + w > r then .ok c
    else weightedLoop r cs (upto + w)

/-- `weighted_choice` (utils.py:116-150).  `u` is the result of `random()`; `uniform(0, total)` is
`total * u` (exact arithmetic: in floating point the product may be rounded up to `total`). -/
def weightedChoice (choices : List (α × K)) (u : K) : Res α :=
  weightedLoop ((choices.map Prod.snd).sum * u) choices 0

/-- An entry `(prob, random(), val)` of the list sorted in `most_likely_choice` (utils.py:178). -/
structure MLEntry (α K : Type) where
  prob : K
  rnd : ℚ
  val : α

def MLEntry.key (e : MLEntry α K) : K ×ₗ ℚ := toLex (e.prob, e.rnd)

/-- The list built at utils.py:178, from position `k` on. -/
def mlEntries (rnd : ℕ → ℚ) : List (α × K) → ℕ → List (MLEntry α K)
  | [], _ => []
  | (v, p) :: cs, k => ⟨p, rnd k, v⟩ :: mlEntries rnd cs (k + 1)

/-- How `sorted` proceeds when two entries agree on probability and random number: Python then
compares the values themselves, which may raise `TypeError`.  A parameter of the model; theorems
assume only `TieBreak.Sound`. -/
abbrev TieBreak (α K : Type) := List (MLEntry α K) → Res α

/-- A tie-break returns an entry of maximal key, if anything. -/
def TieBreak.Sound (tie : TieBreak α K) : Prop :=
  ∀ l a, tie l = .ok a → ∃ e ∈ l, e.val = a ∧ ∀ d ∈ l, d.key ≤ e.key

/-- `most_likely_choice` (utils.py:153-179). `rnd k` is the `k`-th next result of `random()`. -/
def mostLikelyChoice (tie : TieBreak α K) (choices : List (α × K)) (rnd : ℕ → ℚ) : Res α :=
  if choices.length = 0 then .error .valueErr
  else if (choices.filter fun c => c.2 < 0).length > 0 then .error .valueErr
  else
    let es := mlEntries rnd choices 0
    if ¬ (es.map MLEntry.key).Nodup then tie es
    else match es.insertionSort (fun a b => b.key ≤ a.key) with
      | [] => .error .indexErr
      | e :: _ => .ok e.val

/-- `mean` (utils.py:71-89). -/
def pyMean (values : List K) : Res K :=
  if values.length ≤ 0 then .error .valueErr else pyDiv values.sum (values.length : K)

/-- The expression under the root in `std` (utils.py:107-112). -/
def pyVariance (values : List K) : Res K :=
  if values.length ≤ 0 then .error .valueErr else do
    let m ← pyMean values
    pyDiv ((values.map fun v => (v - m) * (v - m)).sum) (values.length : K)

end

/-- `c4n_table` (utils.py:18-45), as decimal fractions. -/
def c4Table : Dict ℕ ℚ :=
  [(2, 0.7978845608028654),
   (3, 0.886226925452758),
   (4, 0.9213177319235613),
   (5, 0.9399856029866254),
   (6, 0.9515328619481445),
   (7, 0.9593687886998328),
   (8, 0.9650304561473722),
   (9, 0.9693106997139539),
   (10, 0.9726592741215884),
   (11, 0.9753500771452293),
   (12, 0.9775593518547722),
   (13, 0.9794056043142177),
   (14, 0.9809714367555161),
   (15, 0.9823161771626504),
   (16, 0.9834835316158412),
   (17, 0.9845064054718315),
   (18, 0.985410043808079),
   (19, 0.9862141368601935),
   (20, 0.9869342675246552),
   (21, 0.9875829288261562),
   (22, 0.9881702533158311),
   (23, 0.988704545233999),
   (24, 0.9891926749585048),
   (25, 0.9896403755857028),
   (26, 0.9900524688409107),
   (27, 0.990433039209448),
   (28, 0.9907855696217323),
   (29, 0.9911130482419843)]

/-- `c4` (utils.py:48-60) on integers. -/
def c4 (n : ℤ) : Res ℚ :=
  if n ≤ 1 then .error .valueErr
  else if n < 30 then
    match c4Table.get? n.toNat with
    | some x => .ok x
    | none => .error .keyErr
  else .ok 1

end CF
