/-
The example scripts that do more than call the package:
concept_formation/examples/cobweb3_cluster_simulated.py, acs_simulation.py, trestle_predict_rumbleblocks.py and
cobweb3_cluster_iris.py.  Drawing itself is left out: the values handed to matplotlib are the result.

Simplifications:
* numbers are exact, as elsewhere; `x * 2.0`, `round` and `/ 2.0` are exact in floating point up to 2^52;
* the text of a float (`str`) and of an integer (`int`) are parameters.
-/
import Verif.Model.Cobweb3
import Verif.Py.Same
import Mathlib.Data.Rat.Floor
import Mathlib.Data.Prod.Lex
import Mathlib.Data.List.Sort

namespace CF

/-! ### cobweb3_cluster_simulated.py -/

/-- An `Ellipse`: its centre, width and height. -/
structure Ellipse where
  x : ℝ
  y : ℝ
  width : ℝ
  height : ℝ

section
variable {A B V : Type} [DecidableEq A] [DecidableEq B] [DecidableEq V]

/-- `cluster.av_counts[a][cv]` (cobweb3_cluster_simulated.py:63-66): either key may be missing. -/
def cvAt (s : Stats3 A V) (a : A) : Res (CV ℝ) :=
  match s.av.get? a with
  | none => .error .keyErr
  | some t => match t.cv with
    | none => .error .keyErr
    | some c => .ok c

/-- The ellipse of a cluster (cobweb3_cluster_simulated.py:63-67). -/
noncomputable def ellipse (x y : A) (s : Stats3 A V) : Res Ellipse := do
  let cx ← cvAt s x
  let cy ← cvAt s y
  let sx ← cx.unbiasedStd
  let sy ← cy.unbiasedStd
  pure ⟨cx.unbiasedMean, cy.unbiasedMean, 4 * sx, 4 * sy⟩

/-- The list of the ellipses (cobweb3_cluster_simulated.py:63-67). -/
noncomputable def ellipses (x y : A) : List (Tree (Stats3 A V)) → Res (List Ellipse)
  | [] => .ok []
  | c :: cs => do
    let e ← ellipse x y c.stats
    let es ← ellipses x y cs
    pure (e :: es)

/-- The loop of the script (cobweb3_cluster_simulated.py:53-76): the ellipses drawn after each datum. -/
noncomputable def simulate (hid : A → Bool) (cfg : Cfg3 A B) (x y : A) :
    State3 A B V → List (Inst3 A V) → World → Res (List (List Ellipse))
  | _, [], _ => .ok []
  | st, i :: data, w => do
    let o ← ifit3 hid cfg st i w
    let es ← ellipses x y o.state.root.children
    let rest ← simulate hid cfg x y o.state data o.w
    pure (es :: rest)

end

/-! ### acs_simulation.py -/

/-- `round(q)`: to the nearest integer, halves to the even one. -/
def roundEven (q : ℚ) : ℤ :=
  if q - ⌊q⌋ < 1 / 2 then ⌊q⌋
  else if 1 / 2 < q - ⌊q⌋ then ⌊q⌋ + 1
  else if ⌊q⌋ % 2 = 0 then ⌊q⌋ else ⌊q⌋ + 1

/-- `str(round(v * 2.0) / 2.0)` (acs_simulation.py:21).  `True` and `False` are 1 and 0; anything else cannot be
multiplied by a float. -/
def toHalf (fstr : ℚ → PStr) : Py → Res Py
  | .num q => .ok (.str (fstr ((roundEven (q * 2) : ℚ) / 2)))
  | .bool b => .ok (.str (fstr ((roundEven ((if b then 1 else 0) * 2) : ℚ) / 2)))
  | _ => .error .typeErr

/-- The inner loop of `convert_cat` (acs_simulation.py:17-21). -/
def convertBlock (fstr : ℚ → PStr) : PyInst → Res PyInst
  | [] => .ok []
  | (k, v) :: l => do
    let v' ← (if k = .str c!"type" then .ok v else toHalf fstr v)
    let r ← convertBlock fstr l
    pure ((k, v') :: r)

/-- `convert_cat` (acs_simulation.py:12-25). -/
def convertCat (fstr : ℚ → PStr) : PyInst → Res PyInst
  | [] => .ok []
  | (a, .dict b) :: t => do
    let b' ← convertBlock fstr b
    let r ← convertCat fstr t
    pure ((a, .dict b') :: r)
  | (a, v) :: t => do
    let r ← convertCat fstr t
    pure ((a, v) :: r)

/-- The lines written after the heading (acs_simulation.py:42-43): `point[0]` and `point[1]`. -/
def csvRows {R : Type} : List (List R) → Res (List (R × R))
  | [] => .ok []
  | (a :: b :: _) :: rows => do
    let r ← csvRows rows
    pure ((a, b) :: r)
  | _ :: _ => .error .indexErr

/-! ### trestle_predict_rumbleblocks.py -/

/-- The inner loop (trestle_predict_rumbleblocks.py:53-55) for one `opp`. -/
def plotOpp {R : Type} (opp : ℕ) : List (List R) → Res (List (ℕ × R))
  | [] => .ok []
  | row :: rows =>
    match row[opp]? with
    | none => .error .indexErr
    | some v => do
      let r ← plotOpp opp rows
      pure ((opp, v) :: r)

/-- The outer loop (trestle_predict_rumbleblocks.py:52-55) over the given values of `opp`. -/
def plotOpps {R : Type} (data : List (List R)) : List ℕ → Res (List (ℕ × R))
  | [] => .ok []
  | opp :: l => do
    let u ← plotOpp opp data
    let r ← plotOpps data l
    pure (u ++ r)

/-- The points of a curve (trestle_predict_rumbleblocks.py:52-55, 57-60): `data[0]` raises without a run. -/
def plotPoints {R : Type} (data : List (List R)) : Res (List (ℕ × R)) :=
  match data with
  | [] => .error .indexErr
  | row :: _ => plotOpps data (List.range row.length)

/-- The white space that `rstrip` removes (the ASCII part of it). -/
def isSpaceChar (c : Char) : Bool :=
  c = ' ' || c = '\n' || c = '\t' || c = '\r' || c = Char.ofNat 11 || c = Char.ofNat 12

/-- `line.rstrip()` (trestle_predict_rumbleblocks.py:37). -/
def rstrip (l : PStr) : PStr := (l.reverse.dropWhile isSpaceChar).reverse

/-- `line.split(",")` (trestle_predict_rumbleblocks.py:37). -/
def splitComma : PStr → List PStr
  | [] => [[]]
  | c :: l =>
    if c = ',' then [] :: splitComma l
    else match splitComma l with
      | [] => [[c]]
      | f :: fs => (c :: f) :: fs

/-- `{v: i for i, v in enumerate(line)}` (trestle_predict_rumbleblocks.py:39). -/
def columnKey (key : Dict PStr ℕ) : ℕ → List PStr → Dict PStr ℕ
  | _, [] => key
  | n, f :: fs => columnKey (key.set f n) (n + 1) fs

/-- `int(line[key[name]])`. -/
def intAt (int : PStr → Res ℤ) (key : Dict PStr ℕ) (fs : List PStr) (name : PStr) : Res ℤ :=
  match key.get? name with
  | none => .error .keyErr
  | some j => match fs[j]? with
    | none => .error .indexErr
    | some f => int f

/-- The points of the lines after the heading (trestle_predict_rumbleblocks.py:41-44). -/
def humanRows (int : PStr → Res ℤ) (key : Dict PStr ℕ) : List PStr → Res (List (ℤ × ℤ))
  | [] => .ok []
  | line :: lines => do
    let fs := splitComma (rstrip line)
    let x ← intAt int key fs c!"order"
    let c ← intAt int key fs c!"correctness"
    let p ← intAt int key fs c!"prediction"
    let r ← humanRows int key lines
    pure ((x - 1, 1 - |c - p|) :: r)

/-- `human_data` (trestle_predict_rumbleblocks.py:33-46); `sort` compares pairs lexicographically. -/
def humanData (int : PStr → Res ℤ) : List PStr → Res (List (ℤ × ℤ))
  | [] => .ok []
  | head :: lines => do
    let r ← humanRows int (columnKey [] 0 (splitComma (rstrip head))) lines
    pure (r.insertionSort fun a b => toLex a ≤ toLex b)

/-! ### cobweb3_cluster_iris.py -/

section
variable {L M : Type} [DecidableEq L] [DecidableEq M]

/-- `colors[clust_set[clusters[i]]]` for the irises of one class (cobweb3_cluster_iris.py:44-45); `cs` is
`list(set(clusters))` and 7 the number of colours. -/
def classColors (cs : List L) (cls : M) : List (L × M) → Res (List ℕ)
  | [] => .ok []
  | (l, m) :: r =>
    if m = cls then
      if cs.idxOf l < 7 then do
        let t ← classColors cs cls r
        pure (cs.idxOf l :: t)
      else .error .indexErr
    else classColors cs cls r

/-- The loop over the classes (cobweb3_cluster_iris.py:41-46), from number `n` on; 3 is the number of shapes.
Result: for each class its shape and the colours of its irises. -/
def scatter (cs : List L) (data : List (L × M)) : ℕ → List M → Res (List (ℕ × List ℕ))
  | _, [] => .ok []
  | n, cls :: r => do
    let colors ← classColors cs cls data
    if n < 3 then do
      let t ← scatter cs data (n + 1) r
      pure ((n, colors) :: t)
    else .error .indexErr

end

end CF
