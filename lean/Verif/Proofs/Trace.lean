/-
The functions with a record of the evaluated tables are those of `Model/Cobweb.lean`, and how much they evaluate.
-/
import Verif.Model.Trace
import Verif.Proofs.NoRaise

namespace CF

section monad
variable {S α β : Type}

@[simp] theorem traced_bind_res (x : Traced S α) (f : α → Traced S β) : (x >>= f).res = x.res >>= fun a => (f a).res := by
  obtain ⟨r, l⟩ := x
  cases r <;> rfl

@[simp] theorem traced_pure_res (a : α) : (pure a : Traced S α).res = pure a := rfl
@[simp] theorem traced_lift_res (x : Res α) : (Traced.lift x : Traced S α).res = x := rfl
@[simp] theorem traced_pure_seen (a : α) : (pure a : Traced S α).seen = [] := rfl
@[simp] theorem traced_lift_seen (x : Res α) : (Traced.lift x : Traced S α).seen = [] := rfl

theorem traced_bind_ok {x : Traced S α} {a : α} (h : x.res = .ok a) (f : α → Traced S β) :
    (x >>= f).seen = x.seen ++ (f a).seen := by
  obtain ⟨r, l⟩ := x
  change r = .ok a at h
  subst h
  rfl

theorem traced_bind_error {x : Traced S α} {e : PyErr} (h : x.res = .error e) (f : α → Traced S β) :
    (x >>= f).seen = x.seen := by
  obtain ⟨r, l⟩ := x
  change r = .error e at h
  subst h
  rfl

/-- At most `n` tables are evaluated, exactly `n` if nothing is raised. -/
def Costs (x : Traced S α) (n : ℕ) : Prop := x.seen.length ≤ n ∧ ∀ a, x.res = .ok a → x.seen.length = n

theorem Costs.bind {x : Traced S α} {f : α → Traced S β} {m n : ℕ} (hx : Costs x m)
    (hf : ∀ a, x.res = .ok a → Costs (f a) n) : Costs (x >>= f) (m + n) := by
  cases hr : x.res with
  | error e =>
    refine ⟨by rw [traced_bind_error hr]; exact hx.1.trans (Nat.le_add_right _ _), ?_⟩
    intro a ha
    rw [traced_bind_res, hr] at ha
    cases ha
  | ok a =>
    refine ⟨?_, ?_⟩
    · rw [traced_bind_ok hr, List.length_append]
      exact Nat.add_le_add hx.1 (hf a hr).1
    · intro b hb
      rw [traced_bind_res, hr] at hb
      rw [traced_bind_ok hr, List.length_append, hx.2 a hr, (hf a hr).2 b hb]

theorem costs_lift (x : Res α) : Costs (Traced.lift x : Traced S α) 0 := ⟨le_refl _, fun _ _ => rfl⟩
theorem costs_pure (a : α) : Costs (pure a : Traced S α) 0 := costs_lift _

theorem costs_error (e : PyErr) (n : ℕ) : Costs (Traced.lift (.error e) : Traced S α) n :=
  ⟨Nat.zero_le _, fun _ h => by cases h⟩

theorem Costs.bind_pure {x : Traced S α} {f : α → β} {n : ℕ} (hx : Costs x n) :
    Costs (x >>= fun a => (pure (f a) : Traced S β)) n := hx.bind (n := 0) fun _ _ => costs_pure _

/-- All tables evaluated satisfy `P`. -/
def Sees (P : S → Prop) (x : Traced S α) : Prop := ∀ s ∈ x.seen, P s

theorem Sees.bind {P : S → Prop} {x : Traced S α} {f : α → Traced S β} (hx : Sees P x)
    (hf : ∀ a, x.res = .ok a → Sees P (f a)) : Sees P (x >>= f) := by
  intro s hs
  cases hr : x.res with
  | error e => rw [traced_bind_error hr] at hs; exact hx s hs
  | ok a =>
    rw [traced_bind_ok hr] at hs
    rcases List.mem_append.1 hs with hs | hs
    · exact hx s hs
    · exact hf a hr s hs

theorem sees_lift {P : S → Prop} (x : Res α) : Sees P (Traced.lift x : Traced S α) := by intro s hs; cases hs
theorem sees_pure {P : S → Prop} (a : α) : Sees P (pure a : Traced S α) := sees_lift _

end monad

variable {I S K : Type} [Field K] [LinearOrder K] {C : NodeClass I S} {ecg : S → Res K}

/-! ### The same functions -/

@[simp] theorem evaluate_res (s : S) : (evaluate ecg s).res = ecg s := rfl
@[simp] theorem evaluate_seen (s : S) : (evaluate ecg s).seen = [s] := rfl

theorem cuSumT_res (n : ℕ) (cs : List S) (acc : K) : (cuSumT C ecg n cs acc).res = cuSum C ecg n cs acc := by
  induction cs generalizing acc with
  | nil => rfl
  | cons c cs ih => simp [cuSumT, cuSum, ih]

theorem categoryUtilityT_res (s : S) (cs : List S) : (categoryUtilityT C ecg s cs).res = categoryUtility C ecg s cs := by
  cases cs with
  | nil => rfl
  | cons c cs => simp [categoryUtilityT, categoryUtility, cuSumT_res]

theorem cuForInsertT_res (s : S) (cs : List S) (i : ℕ) (inst : I) :
    (cuForInsertT C ecg s cs i inst).res = cuForInsert C ecg s cs i inst := categoryUtilityT_res _ _

theorem relativeT_res (c : S) (inst : I) : (relativeCuForInsertT C ecg c inst).res = relativeCuForInsert C ecg c inst := by
  simp [relativeCuForInsertT, relativeCuForInsert]

theorem constSumT_res (n : ℕ) (cs : List S) (acc : K) : (constSumT C ecg n cs acc).res = constSum C ecg n cs acc := by
  induction cs generalizing acc with
  | nil => rfl
  | cons c cs ih => simp [constSumT, constSum, ih]

theorem relativeCuConstT_res (s : S) (cs : List S) (inst : I) :
    (relativeCuConstT C ecg s cs inst).res = relativeCuConst C ecg s cs inst := by
  simp [relativeCuConstT, relativeCuConst, constSumT_res]

theorem mkCandsT_res (inst : I) (w : World) (cs : List S) (k : ℕ) :
    (mkCandsT C ecg inst w cs k).res = mkCands C ecg inst w cs k := by
  induction cs generalizing k with
  | nil => rfl
  | cons c cs ih => simp [mkCandsT, mkCands, relativeT_res, ih]

theorem twoBestT_res (s : S) (cs : List S) (inst : I) (w : World) :
    (twoBestT C ecg s cs inst w).res = twoBest C ecg s cs inst w := by
  unfold twoBestT twoBest
  split
  · rfl
  · rw [traced_bind_res, mkCandsT_res]
    congr 1
    funext l
    split
    · rfl
    · rw [traced_bind_res, relativeCuConstT_res]
      congr 1
      funext q
      cases sortCands l <;> rfl

theorem addOpT_res (w : World) (off : ℕ) (l : List (OpCand K)) (op : Op) (cu : Traced S K) :
    (addOpT w off l op cu).res = addOp w off l op cu.res := by
  unfold addOpT addOp
  rw [traced_bind_res]
  cases cu.res <;> rfl

theorem bestOpT_res (ops : List Op) (s : S) (cs : List (Tree S)) (inst : I) (cu1 : K) (b1 b2 : Option ℕ) (w : World)
    (off : ℕ) : (bestOpT C ecg ops s cs inst cu1 b1 b2 w off).res = bestOp C ecg ops s cs inst cu1 b1 b2 w off := by
  unfold bestOpT bestOp
  cases b1 with
  | none => rfl
  | some i =>
    dsimp only
    cases cs[i]? with
    | none => rfl
    | some t1 =>
      dsimp only
      rw [traced_bind_res]
      have h1 : (opsNewT C ecg ops s (cs.map Tree.stats) inst w off (opsBest ops cu1 w off)).res =
          opsNew C ecg ops s (cs.map Tree.stats) inst w off (opsBest ops cu1 w off) := by
        unfold opsNewT opsNew
        split
        · rw [addOpT_res]; unfold cuForNewChildT cuForNewChild; rw [categoryUtilityT_res]
        · rfl
      rw [h1]
      congr 1
      funext l1
      rw [traced_bind_res]
      have h2 : (opsMergeT C ecg ops s cs inst i t1 b2 w off l1).res = opsMerge C ecg ops s cs inst i t1 b2 w off l1 := by
        unfold opsMergeT opsMerge
        cases b2.bind fun j => cs[j]?.map fun t => (j, t) with
        | none => rfl
        | some q =>
          dsimp only
          split
          · rw [addOpT_res]; unfold cuForMergeT cuForMerge; rw [categoryUtilityT_res]
          · rfl
      rw [h2]
      congr 1
      funext l2
      rw [traced_bind_res]
      have h3 : (opsSplitT C ecg ops s (cs.map Tree.stats) i t1 w off l2).res =
          opsSplit C ecg ops s (cs.map Tree.stats) i t1 w off l2 := by
        unfold opsSplitT opsSplit
        split
        · rw [addOpT_res]; unfold cuForSplitT cuForSplit; rw [categoryUtilityT_res]
        · rfl
      rw [h3]
      congr 1
      funext l3
      cases sortOps l3 <;> rfl

theorem chooseOpT_res (s : S) (cs : List (Tree S)) (inst : I) (w : World) :
    (chooseOpT C ecg s cs inst w).res = chooseOp C ecg s cs inst w := by
  unfold chooseOpT chooseOp
  rw [traced_bind_res, twoBestT_res]
  congr 1
  funext b
  rw [traced_bind_res, bestOpT_res]
  rfl

theorem cobwebLoopT_res (inst : I) : ∀ (fuel : ℕ) (t : Tree S) (w : World),
    (cobwebLoopT C ecg inst fuel t w).res = cobwebLoop C ecg inst fuel t w := by
  intro fuel
  induction fuel with
  | zero => intro t w; rfl
  | succ fuel ih =>
    intro t w
    obtain ⟨id, s, cs⟩ := t
    cases cs with
    | nil =>
      simp only [cobwebLoopT, cobwebLoop]
      split <;> rfl
    | cons c cs =>
      rw [cobwebLoopT, cobwebLoop, traced_bind_res, chooseOpT_res]
      congr 1
      funext q
      obtain ⟨b, op, w'⟩ := q
      cases op with
      | best =>
        dsimp only
        cases (c :: cs)[b.b1]? with
        | none => rfl
        | some t => dsimp only; rw [traced_bind_res, ih]; rfl
      | new => rfl
      | merge =>
        dsimp only
        cases b.b2 with
        | none => rfl
        | some j =>
          dsimp only
          cases (c :: cs)[b.b1]? with
          | none => rfl
          | some t1 =>
            cases (c :: cs)[j]? with
            | none => rfl
            | some t2 => dsimp only; rw [traced_bind_res, ih]; rfl
      | split =>
        dsimp only
        cases (c :: cs)[b.b1]? with
        | none => rfl
        | some t => exact ih _ _

theorem categorizeLoopT_res (inst : I) : ∀ (fuel : ℕ) (t : Tree S) (w : World),
    (categorizeLoopT C ecg inst fuel t w).res = categorizeLoop C ecg inst fuel t w := by
  intro fuel
  induction fuel with
  | zero => intro t w; rfl
  | succ fuel ih =>
    intro t w
    obtain ⟨id, s, cs⟩ := t
    cases cs with
    | nil => rfl
    | cons c cs =>
      rw [categorizeLoopT, categorizeLoop, traced_bind_res, twoBestT_res]
      congr 1
      funext b
      cases (c :: cs)[b.b1]? with
      | none => rfl
      | some t => exact ih _ _

/-! ### How much is evaluated -/

theorem costs_evaluate (s : S) : Costs (evaluate ecg s) 1 := ⟨le_refl _, fun _ _ => rfl⟩

theorem costs_cuSum (n : ℕ) (cs : List S) (acc : K) : Costs (cuSumT C ecg n cs acc) cs.length := by
  induction cs generalizing acc with
  | nil => exact costs_pure _
  | cons c cs ih =>
    have := (costs_lift (S := S) (pyDiv (C.count c : K) (n : K))).bind fun p _ =>
      (costs_evaluate (ecg := ecg) c).bind fun e _ => ih (acc + p * e)
    rw [List.length_cons, Nat.add_comm, ← Nat.zero_add (1 + _)]
    exact this

theorem costs_categoryUtility (s : S) {cs : List S} (h : cs ≠ []) : Costs (categoryUtilityT C ecg s cs) (cs.length + 1) := by
  cases cs with
  | nil => exact absurd rfl h
  | cons c cs =>
    exact (costs_cuSum _ _ _).bind fun g _ => (costs_evaluate s).bind (n := 0) fun e _ => costs_lift _

theorem costs_insert (s : S) {cs : List S} (h : cs ≠ []) (i : ℕ) (inst : I) :
    Costs (cuForInsertT C ecg s cs i inst) (cs.length + 1) := by
  have := costs_categoryUtility (C := C) (ecg := ecg) (C.incr (shallowCopy C s) inst)
    (cs := cs.mapIdx fun j c => if j = i then C.incr (shallowCopy C c) inst else shallowCopy C c) (by simpa using h)
  rwa [List.length_mapIdx] at this

theorem costs_relative (c : S) (inst : I) : Costs (relativeCuForInsertT C ecg c inst) 2 :=
  (costs_evaluate _).bind (n := 1) fun _ _ => (costs_evaluate c).bind_pure

theorem costs_constSum (n : ℕ) (cs : List S) (acc : K) : Costs (constSumT C ecg n cs acc) cs.length := by
  induction cs generalizing acc with
  | nil => exact costs_pure _
  | cons c cs ih =>
    rw [List.length_cons, Nat.add_comm]
    exact (costs_evaluate c).bind fun e _ => ih _

theorem costs_const (s : S) (cs : List S) (inst : I) : Costs (relativeCuConstT C ecg s cs inst) (cs.length + 1) := by
  rw [Nat.add_comm]
  exact (costs_evaluate _).bind fun u _ => (costs_constSum _ cs _).bind (n := 0) fun c _ => costs_lift _

theorem costs_mkCands (inst : I) (w : World) (cs : List S) (k : ℕ) : Costs (mkCandsT C ecg inst w cs k) (2 * cs.length) := by
  induction cs generalizing k with
  | nil => exact costs_pure _
  | cons c cs ih =>
    rw [List.length_cons, Nat.mul_succ, Nat.add_comm]
    exact (costs_relative c inst).bind fun r _ => (ih (k + 1)).bind_pure

theorem costs_twoBest (s : S) (cs : List S) (inst : I) (w : World) :
    Costs (twoBestT C ecg s cs inst w) (3 * cs.length + 1) := by
  unfold twoBestT
  split
  · exact costs_error _ _
  · have e : 3 * cs.length + 1 = 2 * cs.length + (cs.length + 1) := by omega
    rw [e]
    refine (costs_mkCands inst w cs 0).bind fun l _ => ?_
    split
    · exact costs_error _ _
    · refine (costs_const s cs inst).bind (n := 0) fun q _ => ?_
      cases sortCands l with
      | nil => exact costs_error _ _
      | cons c1 rest => exact costs_pure _

theorem costs_new (s : S) (cs : List S) (inst : I) : Costs (cuForNewChildT C ecg s cs inst) (cs.length + 2) := by
  have := costs_categoryUtility (C := C) (ecg := ecg) (C.incr (shallowCopy C s) inst)
    (cs := cs.map (shallowCopy C) ++ [C.incr C.fresh inst]) (by simp)
  rw [List.length_append, List.length_map] at this
  exact this

theorem costs_merge (s : S) {cs : List S} {i j : ℕ} {x y : S} (hne : j ≠ i) (hx : cs[i]? = some x) (hy : cs[j]? = some y)
    (b1 b2 : S) (inst : I) : Costs (cuForMergeT C ecg s cs i j b1 b2 inst) cs.length := by
  have := costs_categoryUtility (C := C) (ecg := ecg) (C.incr (shallowCopy C s) inst)
    (cs := C.incr (C.addFrom (C.addFrom C.fresh b1) b2) inst :: (dropTwo cs i j).map (shallowCopy C)) (by simp)
  rw [List.length_cons, List.length_map, Nat.add_assoc, length_dropTwo hne hx hy] at this
  exact this

theorem costs_split (s : S) {cs : List S} {i : ℕ} (hi : i < cs.length) {bcs : List S} (hb : bcs ≠ []) :
    Costs (cuForSplitT C ecg s cs i bcs) (cs.length + bcs.length) := by
  have := costs_categoryUtility (C := C) (ecg := ecg) (shallowCopy C s)
    (cs := (cs.eraseIdx i ++ bcs).map (shallowCopy C)) (by simp [hb])
  rw [List.length_map, List.length_append, List.length_eraseIdx_of_lt hi] at this
  have e : cs.length - 1 + bcs.length + 1 = cs.length + bcs.length := by omega
  rw [e] at this
  exact this

theorem costs_addOp (w : World) (off : ℕ) (l : List (OpCand K)) (op : Op) {cu : Traced S K} {n : ℕ} (h : Costs cu n) :
    Costs (addOpT w off l op cu) n := h.bind_pure

/-- The second best child is there when there are two children. -/
theorem twoBest_second {s : S} {cs : List S} {inst : I} {w : World} {b : Best K} (h : twoBest C ecg s cs inst w = .ok b)
    (hn : b.b2 = none) : cs.length ≤ 1 := by
  obtain ⟨cands, c1, rest, const, hc, -, hs, -, rfl, -⟩ := twoBest_spec C ecg h
  obtain ⟨hl, -, -⟩ := mkCands_spec C ecg hc
  have hp := (perm_sortCands cands).length_eq
  rw [hs, List.length_cons] at hp
  cases rest with
  | nil => simp at hp; omega
  | cons c2 rest => simp at hn

end CF
