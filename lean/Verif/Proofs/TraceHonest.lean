/-
The record is right: the evaluated tables are those on which the outcome depends, in order.
-/
import Verif.Proofs.Trace

set_option linter.unusedSectionVars false

namespace CF

variable {I S K α β : Type}

/-- The record of a computation that uses a score: with another score that agrees on the record the same happens, and with one
that raises at some table of the record, having agreed so far, that is raised. -/
structure Honest (F : (S → Res K) → Traced S α) : Prop where
  only : ∀ ecg ecg' : S → Res K, (∀ s ∈ (F ecg).seen, ecg' s = ecg s) → F ecg' = F ecg
  all : ∀ (ecg ecg' : S → Res K) (pre : List S) (s : S) (post : List S) (e : PyErr), (F ecg).seen = pre ++ s :: post →
    (∀ x ∈ pre, ecg' x = ecg x) → ecg' s = .error e → (F ecg').res = .error e

theorem traced_ext {x y : Traced S α} (h1 : x.res = y.res) (h2 : x.seen = y.seen) : x = y := Prod.ext h1 h2

theorem honest_lift (x : Res α) : Honest (S := S) (K := K) fun _ => (Traced.lift x : Traced S α) :=
  ⟨fun _ _ _ => rfl, fun _ _ pre s post _ h => by simp at h⟩

theorem honest_pure (a : α) : Honest (S := S) (K := K) fun _ => (pure a : Traced S α) := honest_lift _

theorem Honest.bind {F : (S → Res K) → Traced S α} {G : α → (S → Res K) → Traced S β} (hF : Honest F)
    (hG : ∀ a, Honest (G a)) : Honest fun ecg => F ecg >>= fun a => G a ecg := by
  constructor
  · intro ecg ecg' h
    cases hr : (F ecg).res with
    | error e =>
      rw [traced_bind_error hr] at h
      have h1 := hF.only ecg ecg' h
      rw [h1]
      exact traced_ext (by rw [traced_bind_res, traced_bind_res, hr]; rfl)
        (by rw [traced_bind_error hr, traced_bind_error hr])
    | ok a =>
      rw [traced_bind_ok hr] at h
      have h1 := hF.only ecg ecg' fun s hs => h s (List.mem_append_left _ hs)
      have h2 := (hG a).only ecg ecg' fun s hs => h s (List.mem_append_right _ hs)
      rw [h1]
      exact traced_ext (by rw [traced_bind_res, traced_bind_res, hr, ok_bind, ok_bind, h2])
        (by rw [traced_bind_ok hr, traced_bind_ok hr, h2])
  · intro ecg ecg' pre s post e h hpre hs
    cases hr : (F ecg).res with
    | error e' =>
      rw [traced_bind_error hr] at h
      rw [traced_bind_res, hF.all ecg ecg' pre s post e h hpre hs, error_bind]
    | ok a =>
      rw [traced_bind_ok hr] at h
      rcases List.append_eq_append_iff.1 h with ⟨r, h1, h2⟩ | ⟨r, h1, h2⟩
      · have h3 := hF.only ecg ecg' fun x hx => hpre x (by rw [h1]; exact List.mem_append_left _ hx)
        rw [traced_bind_res, h3, hr, ok_bind]
        exact (hG a).all ecg ecg' r s post e h2 (fun x hx => hpre x (by rw [h1]; exact List.mem_append_right _ hx)) hs
      · cases r with
        | nil =>
          simp only [List.append_nil, List.nil_append] at h1 h2
          have h3 := hF.only ecg ecg' fun x hx => hpre x (by rw [← h1]; exact hx)
          rw [traced_bind_res, h3, hr, ok_bind]
          exact (hG a).all ecg ecg' [] s post e h2.symm (by simp) hs
        | cons y r =>
          obtain ⟨rfl, -⟩ := List.cons.inj h2
          rw [traced_bind_res, hF.all ecg ecg' pre s r e h1 hpre hs, error_bind]

theorem honest_evaluate (s : S) : Honest (K := K) fun ecg => evaluate ecg s := by
  constructor
  · intro ecg ecg' h
    exact traced_ext (h s (by simp)) rfl
  · intro ecg ecg' pre x post e h hpre hs
    change [s] = _ at h
    cases pre with
    | nil => obtain ⟨rfl, -⟩ := List.cons.inj h; exact hs
    | cons y pre => simp at h

variable [Field K] [LinearOrder K] {C : NodeClass I S}

theorem honest_cuSum (n : ℕ) (cs : List S) (acc : K) : Honest fun ecg => cuSumT C ecg n cs acc := by
  induction cs generalizing acc with
  | nil => exact honest_pure _
  | cons c cs ih =>
    exact (honest_lift _).bind fun p => (honest_evaluate c).bind fun e => ih (acc + p * e)

theorem honest_categoryUtility (s : S) (cs : List S) : Honest (K := K) fun ecg => categoryUtilityT C ecg s cs := by
  cases cs with
  | nil => exact honest_pure _
  | cons c cs => exact (honest_cuSum _ _ _).bind fun g => (honest_evaluate s).bind fun e => honest_lift _

theorem honest_constSum (n : ℕ) (cs : List S) (acc : K) : Honest fun ecg => constSumT C ecg n cs acc := by
  induction cs generalizing acc with
  | nil => exact honest_pure _
  | cons c cs ih => exact (honest_evaluate c).bind fun e => ih _

theorem honest_const (s : S) (cs : List S) (inst : I) : Honest (K := K) fun ecg => relativeCuConstT C ecg s cs inst :=
  (honest_evaluate _).bind fun u => (honest_constSum _ cs _).bind fun c => honest_lift _

theorem honest_mkCands (inst : I) (w : World) (cs : List S) (k : ℕ) :
    Honest (K := K) fun ecg => mkCandsT C ecg inst w cs k := by
  induction cs generalizing k with
  | nil => exact honest_pure _
  | cons c cs ih =>
    have h1 : Honest (K := K) fun ecg => relativeCuForInsertT C ecg c inst :=
      (honest_evaluate _).bind fun _ => (honest_evaluate c).bind fun _ => honest_pure _
    exact h1.bind fun r => (ih (k + 1)).bind fun l => honest_pure _

theorem honest_twoBest (s : S) (cs : List S) (inst : I) (w : World) :
    Honest (K := K) fun ecg => twoBestT C ecg s cs inst w := by
  unfold twoBestT
  split
  · exact honest_lift _
  · refine (honest_mkCands inst w cs 0).bind fun l => ?_
    split
    · exact honest_lift _
    · refine (honest_const s cs inst).bind fun q => ?_
      cases sortCands l with
      | nil => exact honest_lift _
      | cons c1 rest => exact honest_pure _

theorem honest_addOp (w : World) (off : ℕ) (l : List (OpCand K)) (op : Op) {F : (S → Res K) → Traced S K} (h : Honest F) :
    Honest fun ecg => addOpT w off l op (F ecg) := h.bind fun _ => honest_pure _

theorem honest_bestOp (ops : List Op) (s : S) (cs : List (Tree S)) (inst : I) (cu1 : K) (b1 b2 : Option ℕ) (w : World)
    (off : ℕ) : Honest fun ecg => bestOpT C ecg ops s cs inst cu1 b1 b2 w off := by
  unfold bestOpT
  cases b1 with
  | none => exact honest_lift _
  | some i =>
    dsimp only
    cases cs[i]? with
    | none => exact honest_lift _
    | some t1 =>
      refine Honest.bind ?_ fun l1 => Honest.bind ?_ fun l2 => Honest.bind ?_ fun l3 => ?_
      · unfold opsNewT
        split
        · exact honest_addOp _ _ _ _ (honest_categoryUtility _ _)
        · exact honest_pure _
      · unfold opsMergeT
        cases b2.bind fun j => cs[j]?.map fun t => (j, t) with
        | none => exact honest_pure _
        | some q =>
          dsimp only
          split
          · exact honest_addOp _ _ _ _ (honest_categoryUtility _ _)
          · exact honest_pure _
      · unfold opsSplitT
        split
        · exact honest_addOp _ _ _ _ (honest_categoryUtility _ _)
        · exact honest_pure _
      · cases sortOps l3 with
        | nil => exact honest_lift _
        | cons c l => exact honest_pure _

theorem honest_chooseOp (s : S) (cs : List (Tree S)) (inst : I) (w : World) :
    Honest (K := K) fun ecg => chooseOpT C ecg s cs inst w :=
  (honest_twoBest _ _ _ _).bind fun b => (honest_bestOp _ _ _ _ _ _ _ _ _).bind fun q => honest_pure _

theorem honest_cobwebLoop (inst : I) : ∀ (fuel : ℕ) (t : Tree S) (w : World),
    Honest (K := K) fun ecg => cobwebLoopT C ecg inst fuel t w := by
  intro fuel
  induction fuel with
  | zero => intro t w; exact honest_lift _
  | succ fuel ih =>
    intro t w
    obtain ⟨id, s, cs⟩ := t
    cases cs with
    | nil =>
      simp only [cobwebLoopT]
      split <;> exact honest_pure _
    | cons c cs =>
      simp only [cobwebLoopT]
      refine (honest_chooseOp _ _ _ _).bind ?_
      rintro ⟨b, op, w'⟩
      cases op with
      | best =>
        dsimp only
        cases (c :: cs)[b.b1]? with
        | none => exact honest_lift _
        | some t => exact (ih _ _).bind fun o => honest_pure _
      | new => exact honest_pure _
      | merge =>
        dsimp only
        cases b.b2 with
        | none => exact honest_lift _
        | some j =>
          dsimp only
          cases (c :: cs)[b.b1]? with
          | none => exact honest_lift _
          | some t1 =>
            cases (c :: cs)[j]? with
            | none => exact honest_lift _
            | some t2 => exact (ih _ _).bind fun o => honest_pure _
      | split =>
        dsimp only
        cases (c :: cs)[b.b1]? with
        | none => exact honest_lift _
        | some t => exact ih _ _

theorem honest_categorizeLoop (inst : I) : ∀ (fuel : ℕ) (t : Tree S) (w : World),
    Honest (K := K) fun ecg => categorizeLoopT C ecg inst fuel t w := by
  intro fuel
  induction fuel with
  | zero => intro t w; exact honest_lift _
  | succ fuel ih =>
    intro t w
    obtain ⟨id, s, cs⟩ := t
    cases cs with
    | nil => exact honest_pure _
    | cons c cs =>
      simp only [categorizeLoopT]
      refine (honest_twoBest _ _ _ _).bind fun b => ?_
      cases (c :: cs)[b.b1]? with
      | none => exact honest_lift _
      | some t => exact ih _ _

end CF
