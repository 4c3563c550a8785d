/-
The helper functions of the example scripts (concept_formation/examples/examples_utils.py).

They are written with numpy and scipy.  A one-dimensional array of floats is a list of exact real
numbers (`moving_average`, `avg_lines`) or a function on `Fin n` (`lowess`, where all arrays have the
length of `x`).  A number that may be `nan` is an `Option ℝ`, `none` being `nan`; a quotient by 0 is
`nan` for 0/0 and infinite otherwise, as numpy computes it (with a warning, not an exception).
-/
import Verif.Model.Utils
import Mathlib.Analysis.Real.Sqrt
import Mathlib.Data.List.Sort
import Mathlib.Data.List.OfFn
import Mathlib.Algebra.BigOperators.Fin

namespace CF

/-! ### `moving_average` -/

/-- `np.cumsum(a, dtype=float)` (examples_utils.py:24), `acc` being the sum so far. -/
def cumsum (acc : ℝ) : List ℝ → List ℝ
  | [] => []
  | x :: xs => (acc + x) :: cumsum (acc + x) xs

/-- The difference of two one-dimensional numpy arrays: equal lengths, or one array of length 1
that is repeated; other lengths raise `ValueError`. -/
def npSub (u v : List ℝ) : Res (List ℝ) :=
  if u.length = v.length then .ok (List.zipWith (· - ·) u v)
  else match u, v with
    | _, [b] => .ok (u.map fun a => a - b)
    | [a], _ => .ok (v.map fun b => a - b)
    | _, _ => .error .valueErr

/-- `l[:-n]`: for `n = 0` this is `l[:0]`. -/
def sliceTo (l : List ℝ) (n : ℕ) : List ℝ := if n = 0 then [] else l.take (l.length - n)

/-- `l[n - 1:]`: for `n = 0` this is `l[-1:]`, the last element. -/
def sliceFrom (l : List ℝ) (n : ℕ) : List ℝ :=
  if n = 0 then l.drop (l.length - 1) else l.drop (n - 1)

/-- `moving_average` (examples_utils.py:20-26) for `n ≥ 0`.  The assignment to `ret[n:]` raises
`ValueError` unless the right-hand side has the length of the slice or length 1.  For `n = 0` the
final quotient is taken over an empty array whenever it is reached. -/
noncomputable def movingAverage (a : List ℝ) (n : ℕ) : Res (List ℝ) := do
  let ret := cumsum 0 a
  let d ← npSub (ret.drop n) (sliceTo ret n)
  let d ← if d.length = (ret.drop n).length then pure d
    else match d with
      | [b] => pure (List.replicate (ret.drop n).length b)
      | _ => .error .valueErr
  pure ((sliceFrom (ret.take n ++ d) n).map fun s => s / (n : ℝ))

/-! ### `avg_lines` and `mean_confidence_interval` -/

/-- `np.mean` of a one-dimensional array: `nan` for an empty one. -/
noncomputable def npMean (a : List ℝ) : Option ℝ :=
  if a.length = 0 then none else some (a.sum / (a.length : ℝ))

/-- `scipy.stats.sem` with its default `ddof=1`: the sample standard deviation over the root of the
size; `nan` for fewer than two values. -/
noncomputable def sem (a : List ℝ) : Option ℝ :=
  if a.length ≤ 1 then none
  else
    let m := a.sum / (a.length : ℝ)
    some (Real.sqrt ((a.map fun v => (v - m) * (v - m)).sum / ((a.length : ℝ) - 1))
      / Real.sqrt (a.length : ℝ))

/-- `mean_confidence_interval` (examples_utils.py:96-106).  `tq k` is `t._ppf((1+confidence)/2., k)`,
the quantile of Student's distribution with `k` degrees of freedom; it is only used next to a `sem`
that is a number, so with `k ≥ 1`.  For an empty array the call `t._ppf(_, -1)` gives `nan` too. -/
noncomputable def meanConfidence (tq : ℕ → ℝ) (data : List ℝ) : Option ℝ × Option ℝ × Option ℝ :=
  let m := npMean data
  let h := (sem data).map fun se => se * tq (data.length - 1)
  (m, m.bind fun m => h.map fun h => m - h, m.bind fun m => h.map fun h => m + h)

/-- `[v for i, v in enumerate(y) if x[i] == x_val]` (examples_utils.py:87): `IndexError` when `y` is
longer than `x`. -/
def valuesAt {α : Type} [DecidableEq α] (a : α) : List α → List ℝ → Res (List ℝ)
  | _, [] => .ok []
  | [], _ :: _ => .error .indexErr
  | b :: xs, v :: ys => do
    let r ← valuesAt a xs ys
    pure (if b = a then v :: r else r)

/-- The loop of `avg_lines` over the positions of `x` (examples_utils.py:86-91). -/
noncomputable def avgLoop {α : Type} [DecidableEq α] (tq : ℕ → ℝ) (x : List α) (y : List ℝ) :
    List α → Res (List (Option ℝ × Option ℝ × Option ℝ))
  | [] => .ok []
  | a :: rest => do
    let ys ← valuesAt a x y
    let r ← avgLoop tq x y rest
    pure (meanConfidence tq ys :: r)

/-- `avg_lines` (examples_utils.py:80-93): the averages, the lower and the upper bounds.
The argument `confidence` is not used by the code: the quantile is that of 95 %. -/
noncomputable def avgLines {α : Type} [DecidableEq α] (tq : ℕ → ℝ) (x : List α) (y : List ℝ) :
    Res (List (Option ℝ) × List (Option ℝ) × List (Option ℝ)) := do
  let r ← avgLoop tq x y x
  pure (r.map (·.1), r.map (·.2.1), r.map (·.2.2))

/-! ### `lowess` -/

/-- A loop `for i in range(n)` that stores one value per index and stops at the first exception. -/
def eachIdx {α : Type} : {n : ℕ} → (Fin n → Res α) → Res (Fin n → α)
  | 0, _ => .ok Fin.elim0
  | _ + 1, f => do
    let a ← f 0
    let g ← eachIdx fun i => f i.succ
    pure (Fin.cons a g)

/-- `np.clip(a / b, lo, hi)`: `nan` for 0/0; other quotients by 0 are infinite. -/
noncomputable def clipDiv (lo hi a b : ℝ) : Option ℝ :=
  if b = 0 then (if a = 0 then none else if 0 < a then some hi else some lo)
  else some (min hi (max lo (a / b)))

/-- `np.sum` of an array with possible `nan`s. -/
noncomputable def nanSum {n : ℕ} (f : Fin n → Option ℝ) : Option ℝ :=
  if ∀ k, (f k).isSome then some (∑ k, (f k).getD 0) else none

/-- `np.sort(np.abs(x - x[i]))[r]` with `r = int(np.ceil(f*n))`, for one `i`
(examples_utils.py:50-51); `f` is taken to be at least 0. -/
noncomputable def bandwidth {n : ℕ} (f : ℝ) (x : Fin n → ℝ) (i : Fin n) : Res ℝ :=
  match ((List.ofFn fun k => |x k - x i|).insertionSort (· ≤ ·))[⌈f * n⌉₊]? with
  | some h => .ok h
  | none => .error .indexErr

/-- `w[k, i]` after examples_utils.py:52-53: the quotient is `|x[k] - x[i]| / h[i]`, since the
division by `h` runs along the last axis. -/
noncomputable def tricube {n : ℕ} (x h : Fin n → ℝ) (k i : Fin n) : Option ℝ :=
  (clipDiv 0 1 |x k - x i| (h i)).map fun u => (1 - u ^ 3) ^ 3

/-- `linalg.solve` for the two equations of examples_utils.py:59-62: `ValueError` if an entry is
`nan`, `LinAlgError` (here `exc`) if the matrix is singular. -/
noncomputable def solve2 {n : ℕ} (x y : Fin n → ℝ) (weights : Fin n → Option ℝ) : Res (ℝ × ℝ) :=
  match nanSum (fun k => (weights k).map fun w => w * y k),
      nanSum (fun k => (weights k).map fun w => w * y k * x k),
      nanSum weights,
      nanSum (fun k => (weights k).map fun w => w * x k),
      nanSum (fun k => (weights k).map fun w => w * x k * x k) with
  | some b0, some b1, some s, some sx, some sxx =>
    if s * sxx - sx * sx = 0 then .error .exc
    else .ok ((b0 * sxx - b1 * sx) / (s * sxx - sx * sx), (s * b1 - sx * b0) / (s * sxx - sx * sx))
  | _, _, _, _, _ => .error .valueErr

/-- The loop over the points (examples_utils.py:57-63). -/
noncomputable def lowessPass {n : ℕ} (x y h : Fin n → ℝ) (delta : Fin n → Option ℝ) :
    Res (Fin n → ℝ) :=
  eachIdx fun i => do
    let beta ← solve2 x y fun k => (delta k).bind fun d => (tricube x h k i).map fun w => d * w
    pure (beta.1 + beta.2 * x i)

/-- `np.median` of a list (`nan`, here 0, for an empty one, where it is not used). -/
noncomputable def median (l : List ℝ) : ℝ :=
  let s := l.insertionSort (· ≤ ·)
  (s.getD ((l.length - 1) / 2) 0 + s.getD (l.length / 2) 0) / 2

/-- The new `delta` (examples_utils.py:65-68). -/
noncomputable def bisquare {n : ℕ} (residuals : Fin n → ℝ) (k : Fin n) : Option ℝ :=
  (clipDiv (-1) 1 (residuals k) (6 * median (List.ofFn fun j => |residuals j|))).map
    fun d => (1 - d ^ 2) ^ 2

/-- The loop of `lowess` over its iterations (examples_utils.py:56-68).  The last argument is the
estimate of the previous iteration, none before the first one. -/
noncomputable def lowessLoop {n : ℕ} (x y h : Fin n → ℝ) :
    ℕ → (Fin n → Option ℝ) → Option (Fin n → ℝ) → Res (Option (Fin n → ℝ))
  | 0, _, est => .ok est
  | iters + 1, delta, _ => do
    let est ← lowessPass x y h delta
    lowessLoop x y h iters (bisquare fun k => y k - est k) (some est)

/-- The half width of the interval at one point (examples_utils.py:71-75).  `tq k` is
`t._ppf((1+confidence)/2., k)`, `nan` for `k = 0`. -/
noncomputable def lowessWidth {n : ℕ} (tq : ℕ → Option ℝ) (x residuals : Fin n → ℝ) (i : Fin n) :
    Res (Option ℝ) := do
  let r2 := ((List.finRange n).filter fun k => decide (x k = x i)).map
    fun k => residuals k * residuals k
  let m ← pyMean r2
  let se := Real.sqrt m / Real.sqrt (r2.length : ℝ)
  pure ((tq (r2.length - 1)).map fun q => se * q)

/-- `lowess` (examples_utils.py:29-77) for arrays `x` and `y` of the same length, a fraction
`f ≥ 0` and `iter ≥ 0`.  Without any iteration the name `residuals` is not bound
(`UnboundLocalError`, here `exc`) unless the arrays are empty.
Result: the estimates, the lower and the upper bounds. -/
noncomputable def lowess {n : ℕ} (tq : ℕ → Option ℝ) (f : ℝ) (iters : ℕ) (x y : Fin n → ℝ) :
    Res ((Fin n → ℝ) × (Fin n → Option ℝ) × (Fin n → Option ℝ)) := do
  let h ← eachIdx (bandwidth f x)
  let last ← lowessLoop x y h iters (fun _ => some 1) none
  match last with
  | none => if n = 0 then pure (fun _ => 0, fun _ => none, fun _ => none) else .error .exc
  | some est =>
    let width ← eachIdx (lowessWidth tq x fun k => y k - est k)
    pure (est, fun i => (width i).map fun w => est i - w, fun i => (width i).map fun w => est i + w)

end CF
