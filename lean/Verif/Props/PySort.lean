/-
C99: what is assumed of `sort`.
-/
import Verif.Model.PySort
import Verif.Props.TrestleX
import Mathlib.Data.EReal.Basic
import Mathlib.Data.Prod.Lex

namespace CF

/-- The program ends with a permutation of `l` and compares elements of `l` at different positions. -/
def SortProg.Rearranges {α : Type} (l : List α) : SortProg α → Prop
  | .done l' => l'.Perm l
  | .ask a b yes no => (∃ rest, (a :: b :: rest).Perm l) ∧ yes.Rearranges l ∧ no.Rearranges l

/-- **C99**: a `sort` by any algorithm that compares only rearranges; it raises `TypeError` or nothing, and only if two
of the random numbers are equal.  So the assumptions on `sort` in C94, C99 and C101 hold for every such algorithm. -/
theorem C99_sort {same : Cand XF → Cand XF → Bool} {alg : List (Cand XF) → SortProg (Cand XF)}
    (h : ∀ l, (alg l).Rearranges l) :
    (∀ l l', (alg l).run (candLt same) = .ok l' → l'.Perm l) ∧
    (∀ l x, (alg l).run (candLt same) = .error x → x = .typeErr ∧ ¬ (l.map Cand.rnd).Nodup) ∧
    ∀ l, (l.map Cand.rnd).Nodup → ∃ l', (alg l).run (candLt same) = .ok l' := by
  have lt_ok : ∀ a b : Cand XF, (∃ r, candLt same a b = .ok r) ∨ (candLt same a b = .error .typeErr ∧ a.rnd = b.rnd) := by
    intro a b
    unfold candLt
    split
    · split
      · split
        · rename_i e; exact .inr ⟨rfl, e⟩
        · exact .inl ⟨_, rfl⟩
      · exact .inl ⟨_, rfl⟩
    · exact .inl ⟨_, rfl⟩
  have key : ∀ (l : List (Cand XF)) (p : SortProg (Cand XF)), p.Rearranges l →
      (∃ l', p.run (candLt same) = .ok l' ∧ l'.Perm l) ∨
      (p.run (candLt same) = .error .typeErr ∧ ¬ (l.map Cand.rnd).Nodup) := by
    intro l p
    induction p with
    | done l' => intro hp; exact .inl ⟨l', rfl, hp⟩
    | ask a b yes no ih1 ih2 =>
      rintro ⟨⟨rest, hr⟩, hy, hn⟩
      rcases lt_ok a b with ⟨r, e⟩ | ⟨e, hab⟩
      · simp only [SortProg.run, e, ok_bind]
        cases r
        · exact ih2 hn
        · exact ih1 hy
      · refine .inr ⟨by simp only [SortProg.run, e, error_bind], fun hd => ?_⟩
        have := (hr.map Cand.rnd).nodup_iff.2 hd
        simp [hab] at this
  refine ⟨fun l l' he => ?_, fun l x he => ?_, fun l hl => ?_⟩
  · rcases key l _ (h l) with ⟨l'', e, hp⟩ | ⟨e, -⟩
    · rw [he] at e; cases e; exact hp
    · rw [he] at e; cases e
  · rcases key l _ (h l) with ⟨l'', e, hp⟩ | ⟨e, hd⟩
    · rw [he] at e; cases e
    · rw [he] at e; cases e; exact ⟨rfl, hd⟩
  · rcases key l _ (h l) with ⟨l'', e, hp⟩ | ⟨e, hd⟩
    · exact ⟨l'', e⟩
    · exact absurd hl hd

section
variable {R : Rounding} {A B V : Type} [DecidableEq A] [DecidableEq B] [DecidableEq V] {hid : A → Bool}
  {cfg : Cfg3 A B} {st : XState A B V} {hist : List (XInst A V)} {n : ℕ}

/-- **C99**: nothing raises when `sort` is any algorithm that compares: `C99_never_raises_partial` without its
assumptions on `sort`. -/
theorem C99_never_raises_sort_partial (h : ReachX R XF.Moderate hid cfg st hist n)
    (hv : ∀ j ∈ hist, HasVisible hid j) {same : Cand XF → Cand XF → Bool}
    {alg : List (Cand XF) → SortProg (Cand XF)} (ha : ∀ l, (alg l).Rearranges l) {pos : XTab V → ℕ}
    {srtOps : List (OpCand XF) → List (OpCand XF)} (hops : ∀ l, (srtOps l).Perm l)
    {i : XInst A V} (hi : XInstOk XF.Moderate i) {w : World} (hw : Function.Injective w.rnd) :
    let e : XEnv V := ⟨pos, fun l => (alg l).run (candLt same), srtOps⟩
    (HasVisible hid i → ∃ o, ifitX R.fl e hid cfg st i w = .ok o) ∧
    ∃ leaf w', categorizeX R.fl e hid cfg st i w = .ok (leaf, w') ∧ leaf ∈ st.root.leaves := by
  intro e
  have hs := C99_sort (same := same) ha
  exact C99_never_raises_partial h hv (e := e) ⟨fun {l l'} he => hs.1 l l' he, hops⟩ hs.2.2 hi hw

end

/-! ### Examples -/

theorem insertProg_ok {α : Type} {l : List α} (x : α) {k : List α → SortProg α} (ys : List α) :
    ∀ front rest : List α, (x :: (front ++ ys) ++ rest).Perm l →
    (∀ s, s.Perm (x :: (front ++ ys)) → (k s).Rearranges l) → (insertProg x front ys k).Rearranges l := by
  induction ys with
  | nil =>
    intro front rest _ hk
    refine hk _ ?_
    rw [List.append_nil]
    exact List.perm_append_singleton x front
  | cons y ys ih =>
    intro front rest hp hk
    refine ⟨⟨front ++ ys ++ rest, ?_⟩, hk _ List.perm_middle, ih (front ++ [y]) rest ?_ fun s hs => hk s ?_⟩
    · refine .trans ?_ hp
      simp only [List.cons_append, List.append_assoc]
      exact .cons x (List.perm_middle (l₁ := front)).symm
    · simpa using hp
    · simpa using hs

/-- Insertion sort is such an algorithm. -/
theorem insertionProg_ok {α : Type} (xs : List α) : ∀ (s l : List α), (s ++ xs).Perm l →
    (insertionProg s xs).Rearranges l := by
  induction xs with
  | nil => intro s l h; rw [List.append_nil] at h; exact h
  | cons x xs ih =>
    intro s l h
    have h' : (x :: ([] ++ s) ++ xs).Perm l := (List.perm_middle (l₁ := s)).symm.trans h
    exact insertProg_ok x s [] xs h' fun s' hs => ih s' l ((hs.append_right xs).trans (by simpa using h'))

example : ∀ l : List (Cand XF), (insertionProg [] l).Rearranges l := fun l => insertionProg_ok l [] l (.refl _)

/-- **C99**: a `nan` is neither below nor above anything, nor equal to another `nan` object: sizes and random numbers are then
not looked at. -/
theorem C99_nan_unordered {same : Cand XF → Cand XF → Bool} {a b : Cand XF} (hs : same a b = false)
    (h : a.rel = .nan ∨ b.rel = .nan) : candLt same a b = .ok false := by
  have h1 : ¬ XF.eqv a.rel b.rel := by
    rcases h with h | h <;> rw [h]
    · exact id
    · cases a.rel <;> exact id
  have h2 : ¬ XF.lt a.rel b.rel := by
    rcases h with h | h <;> rw [h]
    · exact id
    · cases a.rel with
      | inf s => cases s <;> exact id
      | _ => exact id
  unfold candLt
  rw [if_neg (by rw [hs]; simp [h1])]
  congr 1
  exact @decide_eq_false _ (_) h2

theorem insertProg_unordered {α : Type} {lt : α → α → Res Bool} (x : α) {k : List α → SortProg α} (ys : List α)
    (h : ∀ y ∈ ys, lt x y = .ok false) (front : List α) :
    (insertProg x front ys k).run lt = (k (front ++ ys ++ [x])).run lt := by
  induction ys generalizing front with
  | nil => simp [insertProg]
  | cons y ys ih =>
    rw [insertProg, SortProg.run, h y (by simp), ok_bind]
    simp only [Bool.false_eq_true, if_false]
    rw [ih (fun z hz => h z (by simp [hz]))]
    simp

/-- **C99**: if all scores are `nan`, insertion sort leaves the children as they are; so (after `reverse=True` with a stable
sort) the position decides, not the sizes and not the random numbers. -/
theorem C99_nan_sort {same : Cand XF → Cand XF → Bool} (hs : ∀ a b, same a b = false) {l : List (Cand XF)}
    (h : ∀ a ∈ l, a.rel = .nan) : (insertionProg [] l).run (candLt same) = .ok l := by
  have key : ∀ xs s : List (Cand XF), (∀ a ∈ xs, a.rel = .nan) →
      (insertionProg s xs).run (candLt same) = .ok (s ++ xs) := by
    intro xs
    induction xs with
    | nil => intro s _; simp [insertionProg, SortProg.run]
    | cons x xs ih =>
      intro s hx
      rw [insertionProg, insertProg_unordered x s
        (fun y _ => C99_nan_unordered (hs x y) (.inl (hx x (by simp)))) [], ih _ fun a ha => hx a (by simp [ha])]
      simp
  simpa using key l [] h

/-- Two different `nan`s are left as they are; one `nan` twice with equal sizes and random numbers makes it raise. -/
example (x : ℚ) : (insertionProg [] [⟨.nan, 1, 0, 0⟩, ⟨.nan, 1, x, 1⟩]).run (candLt fun _ _ => false) =
      .ok [⟨.nan, 1, 0, 0⟩, ⟨.nan, 1, x, 1⟩] ∧
    (insertionProg [] [⟨.nan, 1, 0, 0⟩, ⟨.nan, 1, 0, 1⟩]).run (candLt fun _ _ => true) = .error .typeErr := by
  constructor
  · simp [insertionProg, insertProg, SortProg.run, candLt, XF.eqv, XF.lt, ok_bind]
    exact @decide_eq_false _ (_) id
  · simp [insertionProg, insertProg, SortProg.run, candLt, error_bind]

/-! ### The order -/

/-- A score as an extended real number (`nan` has no place there). -/
noncomputable def XF.toE : XF → EReal
  | .fin x => (x : EReal)
  | .inf true => ⊥
  | .inf false => ⊤
  | .nan => 0

/-- The order of tuples: score, then size, then random number. -/
noncomputable def candKey (c : Cand XF) : EReal ×ₗ ℕ ×ₗ ℚ := toLex (c.rel.toE, toLex (c.size, c.rnd))

theorem eqv_iff {x y : XF} (hx : x ≠ .nan) (hy : y ≠ .nan) : XF.eqv x y ↔ x.toE = y.toE := by
  rcases x with x | s | _ <;> rcases y with y | t | _ <;> first | contradiction | skip
  · simp [XF.eqv, XF.toE]
  · cases t <;> simp [XF.eqv, XF.toE]
  · cases s <;> simp [XF.eqv, XF.toE]
  · cases s <;> cases t <;> simp [XF.eqv, XF.toE]

theorem xlt_iff {x y : XF} (hx : x ≠ .nan) (hy : y ≠ .nan) : XF.lt x y ↔ x.toE < y.toE := by
  rcases x with x | s | _ <;> rcases y with y | t | _ <;> first | contradiction | skip
  · simp [XF.lt, XF.toE]
  · cases t <;> simp [XF.lt, XF.toE, EReal.coe_lt_top]
  · cases s <;> simp [XF.lt, XF.toE, EReal.bot_lt_coe]
  · cases s <;> cases t <;> simp [XF.lt, XF.toE]

open Classical in
theorem candLt_key {same : Cand XF → Cand XF → Bool} (hs : ∀ a b, same a b = true → a.rel = b.rel) {a b : Cand XF}
    (ha : a.rel ≠ .nan) (hb : b.rel ≠ .nan) (hr : a.rnd ≠ b.rnd) :
    candLt same a b = .ok (decide (candKey a < candKey b)) := by
  have e : (same a b = true ∨ XF.eqv a.rel b.rel) ↔ a.rel.toE = b.rel.toE := by
    rw [eqv_iff ha hb]
    exact ⟨fun h => h.elim (fun h => by rw [hs _ _ h]) id, .inr⟩
  unfold candLt candKey
  rw [if_congr e rfl rfl]
  simp only [Prod.Lex.toLex_lt_toLex, xlt_iff ha hb]
  split
  · rename_i h1
    split
    · rename_i h2
      simp [h1, h2]
    · rename_i h2
      simp [h1, h2]
  · rename_i h1
    simp [h1]

open Classical in
theorem insertProg_run {lt : Cand XF → Cand XF → Res Bool} {x : Cand XF} {k : List (Cand XF) → SortProg (Cand XF)} :
    ∀ (ys front : List (Cand XF)), (∀ y ∈ ys, lt x y = .ok (decide (candKey x < candKey y))) →
    (∀ y ∈ ys, candKey x ≠ candKey y) → ys.Pairwise (fun a b => candKey a < candKey b) →
    ∃ pre post, ys = pre ++ post ∧ (∀ y ∈ pre, candKey y < candKey x) ∧ (∀ y ∈ post, candKey x < candKey y) ∧
      (insertProg x front ys k).run lt = (k (front ++ pre ++ x :: post)).run lt := by
  intro ys
  induction ys with
  | nil => intro front _ _ _; exact ⟨[], [], rfl, by simp, by simp, by simp [insertProg]⟩
  | cons y ys ih =>
    intro front hlt hne hp
    rw [List.pairwise_cons] at hp
    by_cases h : candKey x < candKey y
    · refine ⟨[], y :: ys, rfl, by simp, ?_, ?_⟩
      · intro z hz
        rcases List.mem_cons.1 hz with rfl | hz
        · exact h
        · exact h.trans (hp.1 z hz)
      · simp only [insertProg, SortProg.run, hlt y List.mem_cons_self, ok_bind, h, decide_true, if_true,
          List.append_nil]
    · obtain ⟨pre, post, rfl, h1, h2, h3⟩ := ih (front ++ [y]) (fun z hz => hlt z (List.mem_cons_of_mem _ hz))
        (fun z hz => hne z (List.mem_cons_of_mem _ hz)) hp.2
      refine ⟨y :: pre, post, rfl, ?_, h2, ?_⟩
      · intro z hz
        rcases List.mem_cons.1 hz with rfl | hz
        · exact lt_of_le_of_ne (not_lt.1 h) (hne z List.mem_cons_self).symm
        · exact h1 z hz
      · simp only [insertProg, SortProg.run, hlt y List.mem_cons_self, ok_bind, h, decide_false, h3]
        simp

/-- **C99**: for scores that are not `nan` and different random numbers the comparison of the tuples is the
lexicographic order of score, size and random number, with the infinities at the ends; insertion sort returns the
candidates in this order. -/
theorem C99_sort_order {same : Cand XF → Cand XF → Bool} (hs : ∀ a b, same a b = true → a.rel = b.rel)
    {l : List (Cand XF)} (hn : ∀ a ∈ l, a.rel ≠ .nan) (hd : (l.map Cand.rnd).Nodup) :
    ∃ l', (insertionProg [] l).run (candLt same) = .ok l' ∧ l'.Perm l ∧
      l'.Pairwise fun a b => candKey a < candKey b := by
  have key : ∀ (xs s : List (Cand XF)), (∀ a ∈ s ++ xs, a.rel ≠ .nan) → ((s ++ xs).map Cand.rnd).Nodup →
      s.Pairwise (fun a b => candKey a < candKey b) → ∃ l', (insertionProg s xs).run (candLt same) = .ok l' ∧
      l'.Perm (s ++ xs) ∧ l'.Pairwise fun a b => candKey a < candKey b := by
    intro xs
    induction xs with
    | nil => intro s _ _ hp; exact ⟨s, rfl, by simp, hp⟩
    | cons x xs ih =>
      intro s hn hd hp
      have hrx : ∀ y ∈ s, x.rnd ≠ y.rnd := by
        intro y hy e
        rw [List.map_append, List.map_cons, List.nodup_append] at hd
        exact hd.2.2 _ (List.mem_map_of_mem hy) _ List.mem_cons_self e.symm
      obtain ⟨pre, post, rfl, h1, h2, h3⟩ := insertProg_run (lt := candLt same) (x := x)
        (k := fun s => insertionProg s xs) s []
        (fun y hy => by classical
                        rw [candLt_key hs (hn x (by simp)) (hn y (by simp [hy])) (hrx y hy)])
        (fun y hy e => hrx y hy (by
          have := congrArg (fun p => (ofLex (ofLex p).2).2) e
          simpa [candKey] using this)) hp
      have hperm : (pre ++ x :: post ++ xs).Perm (pre ++ post ++ x :: xs) := by
        rw [List.append_assoc, List.cons_append, List.append_assoc]
        exact .append_left _ List.perm_middle.symm
      obtain ⟨l', e, h4, h5⟩ := ih (pre ++ x :: post)
        (fun a ha => hn a (hperm.mem_iff.1 ha)) ((hperm.map _).nodup_iff.2 hd) (by
          rw [List.pairwise_append] at hp ⊢
          refine ⟨hp.1, List.pairwise_cons.2 ⟨h2, hp.2.1⟩, fun a ha b hb => ?_⟩
          rcases List.mem_cons.1 hb with rfl | hb
          · exact h1 a ha
          · exact hp.2.2 a ha b hb)
      refine ⟨l', ?_, h4.trans hperm, h5⟩
      rw [← e]
      simpa [insertionProg] using h3
  exact key l [] (by simpa using hn) (by simpa using hd) .nil

example : ∃ l', (insertionProg [] [⟨.inf false, 1, 0, 0⟩, ⟨.fin 2, 1, 1, 1⟩, ⟨.inf true, 3, 2, 2⟩]).run
    (candLt fun _ _ => false) = .ok l' ∧ l'.Pairwise fun a b => candKey a < candKey b :=
  let ⟨l', e, _, h⟩ := C99_sort_order (same := fun _ _ => false)
    (l := [⟨.inf false, 1, 0, 0⟩, ⟨.fin 2, 1, 1, 1⟩, ⟨.inf true, 3, 2, 2⟩]) (fun _ _ h => by simp at h) (by simp)
    (by decide)
  ⟨l', e, h⟩

end CF
