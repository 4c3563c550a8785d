/-
Every outcome of sorting an instance, whatever the random numbers: /repo/concept_formation/cobweb.py.
The random numbers of `two_best_children` and `get_best_operation` are replaced by trying all the ties they can decide;
concept ids are left out.
-/
import Verif.Model.History

namespace CF

/-- A tree without concept ids. -/
inductive Bare (S : Type) where
  | node (stats : S) (children : List (Bare S)) : Bare S

namespace Bare
variable {S : Type}
def stats : Bare S → S | .node s _ => s
def children : Bare S → List (Bare S) | .node _ cs => cs

mutual
/-- The number of concepts. -/
def size : Bare S → ℕ
  | .node _ cs => 1 + sizeL cs
def sizeL : List (Bare S) → ℕ
  | [] => 0
  | c :: cs => size c + sizeL cs
end

mutual
/-- The tables of the leaves, left to right. -/
def leaves : Bare S → List S
  | .node s cs => if cs.isEmpty then [s] else leavesL cs
def leavesL : List (Bare S) → List S
  | [] => []
  | c :: cs => leaves c ++ leavesL cs
end
end Bare

mutual
/-- A tree with its concept ids removed. -/
def Tree.bare {S : Type} : Tree S → Bare S
  | .node _ s cs => .node s (bareL cs)
def Tree.bareL {S : Type} : List (Tree S) → List (Bare S)
  | [] => []
  | c :: cs => Tree.bare c :: Tree.bareL cs
end

section
variable {I S K : Type} [Field K] [LinearOrder K] (C : NodeClass I S) (ecg : S → Res K)

/-- Not ahead: a lower score, or the same score and not more instances. -/
def behind : Res K × ℕ → Res K × ℕ → Bool
  | (.ok u, n), (.ok v, m) => decide (u < v) || decide (u = v) && decide (n ≤ m)
  | _, _ => false

/-- The score and size by which child number `k` competes (cobweb.py:556-561). -/
def bid (s : S) (cs : List S) (inst : I) (k : ℕ) : Res K × ℕ :=
  (cuForInsert C ecg s cs k inst, (cs[k]?.map C.count).getD 0)

/-- The children that can come first in the list sorted in `two_best_children` (cobweb.py:540-574). -/
def firsts (s : S) (cs : List S) (inst : I) : List ℕ :=
  (List.range cs.length).filter fun i =>
    (List.range cs.length).all fun k => behind (bid C ecg s cs inst k) (bid C ecg s cs inst i)

/-- The children that can come second, after child number `i`; `none` if there is no other child. -/
def seconds (s : S) (cs : List S) (inst : I) (i : ℕ) : List (Option ℕ) :=
  if cs.length = 1 then [none] else
    ((List.range cs.length).filter fun j => j != i &&
      (List.range cs.length).all fun k => k == i || behind (bid C ecg s cs inst k) (bid C ecg s cs inst j)).map some

/-- The operations with their scores (cobweb.py:523-532) when `i` and `j` come first and second. -/
def offers (s : S) (cs : List (Bare S)) (inst : I) (i : ℕ) (j : Option ℕ) : List (Op × Res K) :=
  let css := cs.map Bare.stats
  let grand := ((cs[i]?.map Bare.children).getD []).map Bare.stats
  [(.best, cuForInsert C ecg s css i inst), (.new, cuForNewChild C ecg s css inst)]
    ++ (match css[i]?, j, j.bind fun j => css[j]? with
        | some b1, some j, some b2 => if css.length > 2 then [(.merge, cuForMerge C ecg s css i j b1 b2 inst)] else []
        | _, _, _ => [])
    ++ (if grand.length > 0 then [(.split, cuForSplit C ecg s css i grand)] else [])

/-- The operations that can come first in the list sorted in `get_best_operation` (cobweb.py:534-538). -/
def topOps (s : S) (cs : List (Bare S)) (inst : I) (i : ℕ) (j : Option ℕ) : List Op :=
  ((offers C ecg s cs inst i j).filter fun p =>
    (offers C ecg s cs inst i j).all fun q => behind (q.2, 0) (p.2, 0)).map Prod.fst

/-- Every subtree that the loop of `cobweb` (cobweb.py:154-202) can put in the place of a subtree, with whether it is put
last among its siblings. -/
def sortAll (inst : I) : ℕ → Bare S → List (Bare S × Bool)
  | 0, _ => []
  | _ + 1, .node s [] =>
    if C.isExact s inst || C.count s == 0 then [(.node (C.incr s inst) [], false)]
    else [(.node (C.incr (shallowCopy C s) inst) [.node s [], .node (C.incr C.fresh inst) []], true)]
  | fuel + 1, .node s (c :: cs') =>
    let cs := c :: cs'
    (firsts C ecg s (cs.map Bare.stats) inst).flatMap fun i =>
    (seconds C ecg s (cs.map Bare.stats) inst i).flatMap fun j =>
    (topOps C ecg s cs inst i j).flatMap fun op =>
      match op with
      | .best =>
        match cs[i]? with
        | none => []
        | some t => (sortAll inst fuel t).map fun o =>
            (.node (C.incr s inst) (if o.2 then cs.eraseIdx i ++ [o.1] else cs.set i o.1), false)
      | .new => [(.node (C.incr s inst) (cs ++ [.node (C.incr C.fresh inst) []]), false)]
      | .merge =>
        match j with
        | none => []
        | some j =>
          match cs[i]?, cs[j]? with
          | some t1, some t2 =>
            (sortAll inst fuel (.node (C.addFrom (C.addFrom C.fresh t1.stats) t2.stats) [t1, t2])).map fun o =>
              (.node (C.incr s inst) (dropTwo cs i j ++ [o.1]), false)
          | _, _ => []
      | .split =>
        match cs[i]? with
        | none => []
        | some t => sortAll inst fuel (.node s (cs.eraseIdx i ++ t.children))

/-- Every tree that fitting the instances can lead to. -/
def learnAll : List I → Bare S → List (Bare S)
  | [], t => [t]
  | i :: is, t => (sortAll C ecg i t.size t).flatMap fun o => learnAll is o.1

/-- The tables of every leaf at which `categorize` (cobweb.py:204-217) can end. -/
def placeAll (inst : I) : ℕ → Bare S → List S
  | 0, _ => []
  | _ + 1, .node s [] => [s]
  | fuel + 1, .node s (c :: cs') =>
    (firsts C ecg s ((c :: cs').map Bare.stats) inst).flatMap fun i =>
      match (c :: cs')[i]? with
      | none => []
      | some t => placeAll inst fuel t
end
end CF
