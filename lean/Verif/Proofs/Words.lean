/-
The loop of the tuplizer on any words.
-/
import Verif.Proofs.Tuplize
import Verif.Spec.Words

namespace CF
variable {pf : PStr → Option Py}

theorem splitSp_eq (s : PStr) : splitSp s = wordsOf s := by
  induction s with
  | nil => rfl
  | cons c s ih =>
    rw [wordsOf, List.splitOn_cons_eq_if_modifyHead, splitSp, ih, wordsOf]
    by_cases h : c = ' '
    · simp [h]
    · simp only [h, if_false, beq_iff_eq]
      cases hs : List.splitOn ' ' s with
      | nil => exact absurd hs (List.splitOnP_ne_nil _ _)
      | cons p ps => simp

theorem stripEnd_eq (r : PStr) (n : ℕ) :
    stripEnd r n = if (r.dropWhile (· = ')')) = [] then .error .indexErr
      else .ok ((r.dropWhile (· = ')')).reverse, n + (r.takeWhile (· = ')')).length) := by
  induction r generalizing n with
  | nil => simp [stripEnd]
  | cons c r ih =>
    by_cases h : c = ')'
    · simp only [stripEnd, h, if_true, ih, List.dropWhile_cons, List.takeWhile_cons, decide_true, List.length_cons]
      split
      · rfl
      · congr 2; omega
    · simp [stripEnd, h]

theorem wordAtom_eq (w : PStr) : wordAtom w = ((wordBody w).reverse.dropWhile (· = ')')).reverse := by
  have h := List.takeWhile_append_dropWhile (p := fun c : Char => decide (c = ')')) (l := (wordBody w).reverse)
  have h2 : wordBody w = ((wordBody w).reverse.dropWhile (· = ')')).reverse ++
      ((wordBody w).reverse.takeWhile (· = ')')).reverse := by
    rw [← List.reverse_append, h, List.reverse_reverse]
  have h3 : (wordBody w).length = ((wordBody w).reverse.dropWhile (· = ')')).length + closings w := by
    conv_lhs => rw [h2]
    simp [closings]
  rw [wordAtom, h3, Nat.add_sub_cancel]
  conv_lhs => rw [h2]
  rw [List.take_left' (by simp)]

theorem closeN_ok : ∀ (n : ℕ) (st : List (List Py)), n < st.length → 0 < n →
    ∃ c l rest, closeN n st = .ok ((c ++ [.tup l]) :: rest) ∧ rest.length + 1 = st.length - n
  | 0, _, _, h => absurd h (by simp)
  | n + 1, [], h, _ => by simp at h
  | n + 1, [_], h, _ => by simp at h
  | n + 1, t :: c :: st, h, _ => by
    by_cases hn : n = 0
    · subst hn
      exact ⟨c, t, st, rfl, by simp⟩
    · obtain ⟨c', l, rest, h1, h2⟩ := closeN_ok n ((c ++ [.tup t]) :: st)
        (by simp only [List.length_cons] at h ⊢; omega) (Nat.pos_of_ne_zero hn)
      exact ⟨c', l, rest, by rw [closeN, h1], by simp only [List.length_cons] at h2 ⊢; omega⟩

theorem closeN_error : ∀ (n : ℕ) (st : List (List Py)), st.length ≤ n → 0 < st.length → closeN n st = .error .indexErr
  | 0, _, h, h0 => by omega
  | _ + 1, [], _, h0 => by simp at h0
  | _ + 1, [_], _, _ => rfl
  | n + 1, t :: c :: st, h, _ => by
    rw [closeN]
    exact closeN_error n _ (by simp only [List.length_cons] at h ⊢; omega) (by simp)

/-- 1 if the word begins with an opening parenthesis, otherwise 0. -/
def opened (w : PStr) : ℕ := if w.head? = some '(' then 1 else 0

theorem tupStep_start (w : PStr) (st : List (List Py)) (hst : st ≠ []) : ∃ c rest,
    (c :: rest).length = st.length + opened w ∧
    tupStep pf w st = if wordAtom w = [] then .error .indexErr else
      closeN (closings w) ((c ++ [readAtom pf (wordAtom w)]) :: rest) := by
  cases w with
  | nil =>
    obtain ⟨c, rest, rfl⟩ := List.exists_cons_of_ne_nil hst
    exact ⟨c, rest, by simp [opened], by simp [tupStep, wordAtom, wordBody]⟩
  | cons d w =>
    obtain ⟨c, rest, e, hb⟩ : ∃ c rest, (if d = '(' then (w, [] :: st) else (d :: w, st)) = (wordBody (d :: w), c :: rest) ∧
        (c :: rest).length = st.length + opened (d :: w) := by
      obtain ⟨c, rest, rfl⟩ := List.exists_cons_of_ne_nil hst
      by_cases h : d = '('
      · exact ⟨[], c :: rest, by simp [h, wordBody], by simp [h, opened]⟩
      · exact ⟨c, rest, by simp [h, wordBody], by simp [h, opened]⟩
    refine ⟨c, rest, hb, ?_⟩
    rw [tupStep]
    simp only [e, stripEnd_eq]
    have hz : wordAtom (d :: w) = [] ↔ (wordBody (d :: w)).reverse.dropWhile (· = ')') = [] := by
      rw [wordAtom_eq]; simp
    by_cases h : wordAtom (d :: w) = []
    · rw [if_pos (hz.1 h), if_pos h]; rfl
    · rw [if_neg (mt hz.2 h), if_neg h]
      simp only [ok_bind, pushAtom, ← wordAtom_eq, Nat.zero_add, closings]

theorem tupStep_outcome (w : PStr) (st : List (List Py)) (hst : st ≠ []) :
    (wordAtom w ≠ [] ∧ closings w < st.length + opened w →
      ∃ c v rest, tupStep pf w st = .ok ((c ++ [v]) :: rest) ∧
        rest.length + 1 = st.length + opened w - closings w ∧
        (closings w = 0 → v = readAtom pf (wordAtom w)) ∧ (closings w ≠ 0 → ∃ l, v = .tup l)) ∧
    (¬ (wordAtom w ≠ [] ∧ closings w < st.length + opened w) → tupStep pf w st = .error .indexErr) := by
  obtain ⟨c, rest, h1, h2⟩ := tupStep_start (pf := pf) w st hst
  have hl : ((c ++ [readAtom pf (wordAtom w)]) :: rest).length = st.length + opened w := by rw [← h1]; simp
  constructor
  · rintro ⟨ha, hc⟩
    rw [if_neg ha] at h2
    by_cases h0 : closings w = 0
    · rw [h0, closeN] at h2
      refine ⟨c, _, rest, h2, ?_, fun _ => rfl, fun h => absurd h0 h⟩
      simp only [List.length_cons] at h1; omega
    · obtain ⟨c', l, rest', e, hr⟩ := closeN_ok (closings w) _ (by rw [hl]; exact hc) (Nat.pos_of_ne_zero h0)
      exact ⟨c', _, rest', h2.trans e, by rw [hr, hl], fun h => absurd h h0, fun _ => ⟨l, rfl⟩⟩
  · intro h
    by_cases ha : wordAtom w = []
    · rw [h2, if_pos ha]
    · rw [h2, if_neg ha]
      exact closeN_error _ _ (by rw [hl]; by_contra hc; exact h ⟨ha, by omega⟩) (by simp)

/-- `WellClosed` when `d` parentheses are open. -/
def ClosedFrom (d : ℕ) (ws : List PStr) : Prop :=
  (∀ w ∈ ws, wordAtom w ≠ []) ∧ ∀ k, ((ws.take k).map closings).sum ≤ d + openings (ws.take k)

theorem openings_cons (w : PStr) (ws : List PStr) : openings (w :: ws) = opened w + openings ws := by
  by_cases h : w.head? = some '(' <;> simp [openings, opened, h, Nat.add_comm]

theorem closedFrom_cons {d : ℕ} {w : PStr} {ws : List PStr} : ClosedFrom d (w :: ws) ↔
    (wordAtom w ≠ [] ∧ closings w ≤ d + opened w) ∧ ClosedFrom (d + opened w - closings w) ws := by
  constructor
  · rintro ⟨h1, h2⟩
    have h0 := h2 1
    simp only [List.take_succ_cons, List.take_zero, List.map_cons, List.map_nil, List.sum_cons, List.sum_nil,
      openings_cons] at h0
    have h0' : closings w ≤ d + opened w := by simpa [openings] using h0
    refine ⟨⟨h1 w List.mem_cons_self, h0'⟩, fun v hv => h1 v (List.mem_cons_of_mem _ hv), fun k => ?_⟩
    have := h2 (k + 1)
    simp only [List.take_succ_cons, List.map_cons, List.sum_cons, openings_cons] at this
    omega
  · rintro ⟨⟨h1, h2⟩, h3, h4⟩
    refine ⟨fun v hv => ?_, fun k => ?_⟩
    · rcases List.mem_cons.1 hv with rfl | hv
      · exact h1
      · exact h3 v hv
    · cases k with
      | zero => simp [openings]
      | succ k =>
        have := h4 k
        simp only [List.take_succ_cons, List.map_cons, List.sum_cons, openings_cons]
        omega

theorem tupLoop_outcome : ∀ (ws : List PStr) (st : List (List Py)) (d : ℕ), st.length = d + 1 →
    (ClosedFrom d ws → ∃ st', tupLoop pf ws st = .ok st' ∧ (∀ w, ws.getLast? = some w →
      ∃ c v rest, st' = (c ++ [v]) :: rest ∧
        (closings w = 0 → v = readAtom pf (wordAtom w)) ∧ (closings w ≠ 0 → ∃ l, v = .tup l))) ∧
    (¬ ClosedFrom d ws → tupLoop pf ws st = .error .indexErr)
  | [], st, d, _ => ⟨fun _ => ⟨st, rfl, by simp⟩, fun h => absurd ⟨by simp, by simp [openings]⟩ h⟩
  | w :: ws, st, d, hst => by
    have hne : st ≠ [] := by rintro rfl; simp at hst
    obtain ⟨o1, o2⟩ := tupStep_outcome (pf := pf) w st hne
    rw [closedFrom_cons]
    by_cases hw : wordAtom w ≠ [] ∧ closings w < st.length + opened w
    · obtain ⟨c, v, rest, e, hl, hv⟩ := o1 hw
      have hd : ((c ++ [v]) :: rest).length = (d + opened w - closings w) + 1 := by
        simp only [List.length_cons]; omega
      obtain ⟨i1, i2⟩ := tupLoop_outcome ws _ _ hd
      have e' : tupLoop pf (w :: ws) st = tupLoop pf ws ((c ++ [v]) :: rest) := by rw [tupLoop, e, ok_bind]
      rw [e']
      constructor
      · rintro ⟨-, hc⟩
        obtain ⟨st', h1, h2⟩ := i1 hc
        refine ⟨st', h1, fun u hu => ?_⟩
        cases ws with
        | nil =>
          simp only [List.getLast?_singleton, Option.some.injEq] at hu
          subst hu
          simp only [tupLoop, Except.ok.injEq] at h1
          exact ⟨c, v, rest, h1.symm, hv⟩
        | cons x ws => exact h2 u (by simpa using hu)
      · intro h
        exact i2 fun hc => h ⟨⟨hw.1, by omega⟩, hc⟩
    · constructor
      · rintro ⟨⟨ha, hc⟩, -⟩
        exact absurd ⟨ha, by omega⟩ hw
      · intro _
        rw [tupLoop, o2 hw]; rfl

theorem wellClosed_iff {ws : List PStr} : WellClosed ws ↔ ClosedFrom 0 ws := by simp [WellClosed, ClosedFrom]

end CF
