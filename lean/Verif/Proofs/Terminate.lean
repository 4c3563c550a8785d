/-
Termination: the loops never run out of fuel when given one unit of fuel per node.
-/
import Verif.Proofs.Loop
import Mathlib.Algebra.Order.BigOperators.Group.List

set_option linter.unusedSectionVars false

namespace CF

/-- The result is not the model's out-of-fuel marker. -/
def Fueled {α : Type} (x : Res α) : Prop := x ≠ .error .outOfFuel

theorem Fueled.bind {α β : Type} {x : Res α} {f : α → Res β} (hx : Fueled x)
    (hf : ∀ a, x = .ok a → Fueled (f a)) : Fueled (x >>= f) := by
  cases x with
  | error e => intro h; apply hx; simpa [Bind.bind, Except.bind] using h
  | ok a => exact hf a rfl

theorem fueled_ok {α : Type} (a : α) : Fueled (.ok a : Res α) := by intro h; cases h
theorem fueled_pure {α : Type} (a : α) : Fueled (pure a : Res α) := by intro h; cases h

section
variable {I S K : Type} [Field K] [LinearOrder K]

theorem fueled_pyDiv (a b : K) : Fueled (pyDiv a b) := by
  unfold pyDiv; split <;> (intro h; cases h)

variable {C : NodeClass I S} {ecg : S → Res K} {inst : I}

theorem fueled_cuSum (he : ∀ s, Fueled (ecg s)) (n : ℕ) (cs : List S) (acc : K) :
    Fueled (cuSum C ecg n cs acc) := by
  induction cs generalizing acc with
  | nil => exact fueled_ok _
  | cons c cs ih =>
    exact (fueled_pyDiv _ _).bind fun _ _ => (he c).bind fun _ _ => ih _

theorem fueled_categoryUtility (he : ∀ s, Fueled (ecg s)) (s : S) (cs : List S) :
    Fueled (categoryUtility C ecg s cs) := by
  cases cs with
  | nil => exact fueled_ok _
  | cons c cs =>
    exact (fueled_cuSum he _ _ _).bind fun _ _ => (he s).bind fun _ _ => fueled_pyDiv _ _

theorem fueled_constSum (he : ∀ s, Fueled (ecg s)) (n : ℕ) (cs : List S) (acc : K) :
    Fueled (constSum C ecg n cs acc) := by
  induction cs generalizing acc with
  | nil => exact fueled_ok _
  | cons c cs ih => exact (he c).bind fun _ _ => ih _

theorem fueled_relative (he : ∀ s, Fueled (ecg s)) (c : S) :
    Fueled (relativeCuForInsert C ecg c inst) :=
  (he _).bind fun _ _ => (he _).bind fun _ _ => fueled_pure _

theorem fueled_mkCands (he : ∀ s, Fueled (ecg s)) (w : World) (cs : List S) (k : ℕ) :
    Fueled (mkCands C ecg inst w cs k) := by
  induction cs generalizing k with
  | nil => exact fueled_ok _
  | cons c cs ih =>
    exact (fueled_relative he c).bind fun _ _ => (ih _).bind fun _ _ => fueled_pure _

theorem fueled_twoBest (he : ∀ s, Fueled (ecg s)) (s : S) (cs : List S) (w : World) :
    Fueled (twoBest C ecg s cs inst w) := by
  unfold twoBest
  split
  · intro h; cases h
  · refine (fueled_mkCands he w cs 0).bind fun cands _ => ?_
    split
    · intro h; cases h
    · refine Fueled.bind ?_ fun const _ => ?_
      · exact (he _).bind fun _ _ => (fueled_constSum he _ _ _).bind fun _ _ => fueled_pyDiv _ _
      · split
        · intro h; cases h
        · exact fueled_pure _

theorem fueled_addOp {w : World} {off : ℕ} {l : List (OpCand K)} {op : Op} {cu : Res K}
    (h : Fueled cu) : Fueled (addOp w off l op cu) := by
  unfold addOp
  cases cu with
  | ok x => exact fueled_ok _
  | error e => intro he; apply h; simpa [Except.map] using he

theorem fueled_bestOp (he : ∀ s, Fueled (ecg s)) (ops : List Op) (s : S) (cs : List (Tree S))
    (cu1 : K) (b1 b2 : Option ℕ) (w : World) (off : ℕ) :
    Fueled (bestOp C ecg ops s cs inst cu1 b1 b2 w off) := by
  unfold bestOp
  split
  · intro h; cases h
  split
  · intro h; cases h
  refine Fueled.bind ?_ fun l1 _ => Fueled.bind ?_ fun l2 _ => Fueled.bind ?_ fun l3 _ => ?_
  · unfold opsNew; split
    · exact fueled_addOp (fueled_categoryUtility he _ _)
    · exact fueled_ok _
  · unfold opsMerge; split
    · split
      · exact fueled_addOp (fueled_categoryUtility he _ _)
      · exact fueled_ok _
    · exact fueled_ok _
  · unfold opsSplit; split
    · exact fueled_addOp (fueled_categoryUtility he _ _)
    · exact fueled_ok _
  · split
    · intro h; cases h
    · exact fueled_pure _

theorem fueled_chooseOp (he : ∀ s, Fueled (ecg s)) (s : S) (cs : List (Tree S)) (w : World) :
    Fueled (chooseOp C ecg s cs inst w) :=
  (fueled_twoBest he _ _ _).bind fun _ _ =>
    (fueled_bestOp he _ _ _ _ _ _ _ _).bind fun _ _ => fueled_pure _

theorem sum_perm {cs cs' : List (Tree S)} (h : cs.Perm cs') :
    (cs.map Tree.numConcepts).sum = (cs'.map Tree.numConcepts).sum :=
  (h.map _).sum_eq

/-- The sorting loop terminates within one iteration per node, on any tree whatsoever. -/
theorem fueled_cobwebLoop (he : ∀ s, Fueled (ecg s)) :
    ∀ (fuel : ℕ) (t : Tree S) (w : World), t.numConcepts ≤ fuel →
      Fueled (cobwebLoop C ecg inst fuel t w) := by
  intro fuel
  induction fuel with
  | zero => intro t w h; have := t.numConcepts_pos; omega
  | succ fuel ih =>
    intro t w hf
    match t with
    | .node id s [] =>
      simp only [cobwebLoop]
      split <;> exact fueled_ok _
    | .node id s (c :: cs') =>
      simp only [cobwebLoop]
      refine (fueled_chooseOp he _ _ _).bind ?_
      rintro ⟨b, op, w'⟩ hch
      obtain ⟨⟨t1, ht1, hsplit⟩, hmerge, -, -⟩ := chooseOp_spec C ecg hch
      rw [Tree.numConcepts_node] at hf
      generalize c :: cs' = cs at *
      have hs := sum_perm (perm_eraseIdx ht1)
      simp only [List.map_cons, List.sum_cons] at hs
      cases op with
      | best =>
        simp only [ht1]
        exact (ih _ _ (by omega)).bind fun _ _ => fueled_pure _
      | new => exact fueled_pure _
      | merge =>
        obtain ⟨hlen, j, t2, hj, hne, ht2⟩ := hmerge rfl
        simp only [hj, ht1, ht2]
        refine (ih _ _ ?_).bind fun _ _ => fueled_pure _
        have hp := sum_perm (perm_dropTwo hne ht1 ht2)
        have hl := length_dropTwo hne ht1 ht2
        rw [Tree.numConcepts_node]
        simp only [List.map_cons, List.sum_cons, List.map_nil, List.sum_nil] at hp ⊢
        have : 0 < ((dropTwo cs b.b1 j).map Tree.numConcepts).sum := by
          cases hd : dropTwo cs b.b1 j with
          | nil => rw [hd] at hl; simp at hl; omega
          | cons x l =>
            simp only [List.map_cons, List.sum_cons]
            have := x.numConcepts_pos; omega
        omega
      | split =>
        simp only [ht1]
        apply ih
        rw [Tree.numConcepts_node]
        have e : t1.numConcepts = 1 + (t1.children.map Tree.numConcepts).sum := by
          cases t1; exact Tree.numConcepts_node _ _ _
        simp only [List.map_append, List.sum_append]
        omega

/-- The categorisation loop terminates within one iteration per node. -/
theorem fueled_categorizeLoop (he : ∀ s, Fueled (ecg s)) :
    ∀ (fuel : ℕ) (t : Tree S) (w : World), t.numConcepts ≤ fuel →
      Fueled (categorizeLoop C ecg inst fuel t w) := by
  intro fuel
  induction fuel with
  | zero => intro t w h; have := t.numConcepts_pos; omega
  | succ fuel ih =>
    intro t w hf
    match t with
    | .node id s [] => simp only [categorizeLoop]; exact fueled_ok _
    | .node id s (c :: cs') =>
      simp only [categorizeLoop]
      refine (fueled_twoBest he _ _ _).bind ?_
      intro b hb
      rw [Tree.numConcepts_node] at hf
      generalize c :: cs' = cs at *
      split
      · intro h; cases h
      · rename_i t1 ht1
        apply ih
        have hs := sum_perm (perm_eraseIdx ht1)
        simp only [List.map_cons, List.sum_cons] at hs
        omega

/-- More fuel changes nothing once there is enough: the fuel is not observable. -/
theorem cobwebLoop_mono : ∀ (fuel : ℕ) (t : Tree S) (w : World),
    Fueled (cobwebLoop C ecg inst fuel t w) → ∀ k,
      cobwebLoop C ecg inst (fuel + k) t w = cobwebLoop C ecg inst fuel t w := by
  intro fuel
  induction fuel with
  | zero => intro t w h; exact absurd (by simp [cobwebLoop]) h
  | succ fuel ih =>
    intro t w h k
    rw [Nat.add_right_comm]
    match t with
    | .node id s [] => simp [cobwebLoop]
    | .node id s (c :: cs') =>
      simp only [cobwebLoop] at h ⊢
      cases hch : chooseOp C ecg s (c :: cs') inst w with
      | error e => simp [Bind.bind, Except.bind]
      | ok r =>
        obtain ⟨b, op, w'⟩ := r
        rw [hch] at h
        simp only [Bind.bind, Except.bind] at h ⊢
        cases op with
        | new => rfl
        | best =>
          simp only at h ⊢
          split
          · rfl
          · rename_i t1 ht1
            rw [ht1] at h
            simp only at h
            rw [ih t1 w' (by
              intro h0; rw [h0] at h; exact h rfl) k]
        | merge =>
          simp only at h ⊢
          split
          · rfl
          · rename_i j hj
            rw [hj] at h
            simp only at h
            split
            · rename_i t1 t2 h1 h2
              rw [h1, h2] at h
              simp only at h
              rw [ih _ _ (by
                intro h0; rw [h0] at h; exact h rfl) k]
            · rfl
        | split =>
          simp only at h ⊢
          split
          · rfl
          · rename_i t1 ht1
            rw [ht1] at h
            exact ih _ _ h k

end
end CF
