/-
All Python floats, with the infinities and `nan`, and /repo/concept_formation/continuous_value.py once more with
them: `Verif.Model.FloatCV` with overflow.

Simplifications: the sign of zero is left out; it shows only in quotients by zero, which raise, and in texts.
`num` and the counts are natural numbers, converted when they enter an operation.  Python numbers other
than floats are in `Verif.Model.Numbers3`.
-/
import Verif.Model.FloatCV

namespace CF

/-- A Python float. -/
inductive XF where
  | fin (x : ℝ)
  | inf (neg : Bool)
  | nan

noncomputable instance : DecidableEq XF := Classical.decEq _

namespace XF
variable (fl : ℝ → ℝ)

/-- The first number that is too large for a float. -/
noncomputable def big : ℝ := 2 ^ 1024

/-- The float that an exact result becomes: the rounded number, or an infinity if that is too large
(IEEE 754, section 7.4). -/
noncomputable def round (y : ℝ) : XF :=
  if big ≤ fl y then inf false else if fl y ≤ -big then inf true else fin (fl y)

/-- `-x`. -/
def neg : XF → XF
  | fin x => fin (-x)
  | inf s => inf (!s)
  | nan => nan

/-- `x + y`. -/
noncomputable def add : XF → XF → XF
  | fin x, fin y => round fl (x + y)
  | fin _, inf s => inf s
  | inf s, fin _ => inf s
  | inf s, inf t => if s = t then inf s else nan
  | _, _ => nan

/-- `x - y`. -/
noncomputable def sub (x y : XF) : XF := add fl x (neg y)

/-- An infinity times a number, or divided by one. -/
noncomputable def infTimes (s : Bool) (y : ℝ) : XF := inf (s != decide (y < 0))

/-- `x * y`. -/
noncomputable def mul : XF → XF → XF
  | fin x, fin y => round fl (x * y)
  | fin x, inf s => if x = 0 then nan else infTimes s x
  | inf s, fin y => if y = 0 then nan else infTimes s y
  | inf s, inf t => inf (s != t)
  | _, _ => nan

/-- `x / y` for `y` other than zero. -/
noncomputable def quot : XF → XF → XF
  | fin x, fin y => round fl (x / y)
  | fin _, inf _ => fin 0
  | inf s, fin y => infTimes s y
  | _, _ => nan

/-- `x / y`. -/
noncomputable def div (x y : XF) : Res XF := if y = fin 0 then .error .zeroDiv else .ok (quot fl x y)

/-- `math.sqrt`. -/
noncomputable def sqrt : XF → Res XF
  | fin x => if x < 0 then .error .valueErr else .ok (round fl (Real.sqrt x))
  | inf true => .error .valueErr
  | inf false => .ok (inf false)
  | nan => .ok nan

/-- `x <= 0`. -/
def nonpos : XF → Prop
  | fin x => x ≤ 0
  | inf s => s = true
  | nan => False

/-- `x == y`. -/
def same : XF → XF → Prop
  | nan, _ => False
  | x, y => x = y

/-- A count as a float. -/
noncomputable def ofNat (n : ℕ) : XF := round fl (n : ℝ)

/-- `math.pi`. -/
noncomputable def pi : XF := fin (piF fl)

end XF

section
variable (fl : ℝ → ℝ)
open XF

/-- `__init__` (continuous_value.py:24-28). -/
noncomputable def CV.freshX : CV XF := ⟨0, fin 0, fin 0⟩

/-- `update` (continuous_value.py:161-175). -/
noncomputable def CV.updateX (c : CV XF) (x : XF) : CV XF :=
  let num := c.num + 1
  let delta := sub fl x c.mean
  let mean := add fl c.mean (quot fl delta (XF.ofNat fl num))
  ⟨num, mean, add fl c.meanSq (mul fl delta (sub fl x mean))⟩

/-- `update_batch` (continuous_value.py:151-159). -/
noncomputable def CV.updateBatchX (c : CV XF) : List XF → CV XF
  | [] => c
  | x :: xs => (CV.updateX fl c x).updateBatchX xs

/-- `combine` (continuous_value.py:177-196). -/
noncomputable def CV.combineX (c d : CV XF) : Res (CV XF) := do
  let delta := sub fl d.mean c.mean
  let total := add fl (XF.ofNat fl c.num) (XF.ofNat fl d.num)
  let q ← div fl (mul fl (XF.ofNat fl c.num) (XF.ofNat fl d.num)) total
  let meanSq := add fl (add fl c.meanSq d.meanSq) (mul fl (mul fl delta delta) q)
  let mean ← div fl (add fl (mul fl (XF.ofNat fl c.num) c.mean) (mul fl (XF.ofNat fl d.num) d.mean)) total
  pure ⟨c.num + d.num, mean, meanSq⟩

/-- The accumulator that `combine` leaves when it does not raise. -/
noncomputable def CV.joinX (c d : CV XF) : CV XF :=
  let delta := sub fl d.mean c.mean
  let total := add fl (XF.ofNat fl c.num) (XF.ofNat fl d.num)
  ⟨c.num + d.num,
    quot fl (add fl (mul fl (XF.ofNat fl c.num) c.mean) (mul fl (XF.ofNat fl d.num) d.mean)) total,
    add fl (add fl c.meanSq d.meanSq)
      (mul fl (mul fl delta delta) (quot fl (mul fl (XF.ofNat fl c.num) (XF.ofNat fl d.num)) total))⟩

/-- `unbiased_std` (continuous_value.py:81-96). -/
noncomputable def CV.unbiasedStdX (c : CV XF) : Res XF :=
  if c.num < 2 then .ok (fin 0) else do
    let v ← div fl c.meanSq (sub fl (XF.ofNat fl c.num) (fin 1))
    let r ← XF.sqrt fl v
    let k ← c4 c.num
    div fl r (fin (fl (k : ℝ)))

open Classical in
/-- `scaled_unbiased_std` (continuous_value.py:117-134). -/
noncomputable def CV.scaledUnbiasedStdX (c : CV XF) (scale : XF) : Res XF := do
  let scale := if scale.nonpos then fin 1 else scale
  let s ← CV.unbiasedStdX fl c
  div fl s scale

end
end CF
