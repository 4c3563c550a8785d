/-
Reading and writing relations.
-/
import Verif.Model.Tuplizer
import Verif.Spec.Relation
import Verif.Proofs.NoRaise

namespace CF
variable {pf : PStr → Option Py}

theorem splitSp_append (a b : PStr) : splitSp (a ++ ' ' :: b) = splitSp a ++ splitSp b := by
  induction a with
  | nil => simp [splitSp]
  | cons c a ih =>
    simp only [List.cons_append, splitSp]
    split
    · simp [ih]
    · rw [ih]
      cases h : splitSp a with
      | nil =>
        exfalso
        cases a with
        | nil => simp [splitSp] at h
        | cons d a => simp only [splitSp] at h; split at h <;> [skip; split at h] <;> simp at h
      | cons p ps => simp

theorem splitSp_single {a : PStr} (h : ∀ c ∈ a, c ≠ ' ') : splitSp a = [a] := by
  induction a with
  | nil => rfl
  | cons c a ih =>
    simp only [splitSp, if_neg (h c List.mem_cons_self), ih fun c hc => h c (List.mem_cons_of_mem _ hc)]

theorem stripEnd_spec {s : PStr} (hs : s ≠ []) (hc : ∀ c ∈ s, c ≠ ')') (k n : ℕ) :
    stripEnd (s ++ List.replicate k ')').reverse n = .ok (s, n + k) := by
  have hr : (s ++ List.replicate k ')').reverse = List.replicate k ')' ++ s.reverse := by simp
  rw [hr]
  clear hr
  induction k generalizing n with
  | zero =>
    simp only [List.replicate_zero, List.nil_append]
    cases h : s.reverse with
    | nil => simp at h; exact absurd h hs
    | cons c cs =>
      have : c ∈ s := by rw [← List.mem_reverse, h]; exact List.mem_cons_self
      simp only [stripEnd, if_neg (hc c this), ← h, List.reverse_reverse, Nat.add_zero]
  | succ k ih => simp only [List.replicate_succ, List.cons_append, stripEnd, if_true, ih]; congr 2; omega

/-- A piece that is a name followed by closing parentheses. -/
theorem tupStep_name {s : PStr} (hs : RelName pf s) (k : ℕ) (c : List Py) (st : List (List Py)) :
    tupStep pf (s ++ List.replicate k ')') (c :: st) = closeN k ((c ++ [.str s]) :: st) := by
  obtain ⟨h1, h2, h3⟩ := hs
  cases s with
  | nil => exact absurd rfl h1
  | cons a s =>
    have ha : a ≠ '(' := (h2 a List.mem_cons_self).2.1
    have e := stripEnd_spec h1 (fun c hc => (h2 c hc).2.2) k 0
    simp only [tupStep, List.cons_append, if_neg ha] at e ⊢
    rw [e]
    simp [ok_bind, pushAtom, readAtom, h3]

/-- The same piece after an opening parenthesis. -/
theorem tupStep_open {s : PStr} (hs : RelName pf s) (k : ℕ) (st : List (List Py)) :
    tupStep pf ('(' :: s ++ List.replicate k ')') st = closeN k ([.str s] :: st) := by
  obtain ⟨h1, h2, h3⟩ := hs
  have e := stripEnd_spec h1 (fun c hc => (h2 c hc).2.2) k 0
  simp only [tupStep, List.cons_append, if_true]
  rw [e]
  simp [ok_bind, pushAtom, readAtom, h3]

theorem tupLoop_append (a b : List PStr) (st : List (List Py)) :
    tupLoop pf (a ++ b) st = (tupLoop pf a st).bind (tupLoop pf b) := by
  induction a generalizing st with
  | nil => rfl
  | cons v a ih =>
    simp only [List.cons_append, tupLoop]
    cases h : tupStep pf v st with
    | error e => rfl
    | ok st' => simp only [ok_bind, ih]

theorem name_nosp {s : PStr} (hs : RelName pf s) (k : ℕ) : ∀ c ∈ s ++ List.replicate k ')', c ≠ ' ' := by
  intro c hc
  rcases List.mem_append.1 hc with h | h
  · exact (hs.2.1 c h).1
  · rw [List.eq_of_mem_replicate h]; decide

mutual
/-- Reading a relation that is followed by `k` closing parentheses. -/
theorem tupLoop_rel : ∀ (r : Py), Relation pf r → ∀ (k : ℕ) (c : List Py) (st : List (List Py)),
    tupLoop pf (splitSp (written r ++ List.replicate k ')')) (c :: st) =
      closeN k ((c ++ [r]) :: st)
  | .tup (.str s :: l), h, k, c, st => by
    have ⟨hs, hl⟩ : RelName pf s ∧ RelationArgs pf l := by simpa [Relation] using h
    cases l with
    | nil =>
      have e : written (.tup [.str s]) ++ List.replicate k ')' = '(' :: s ++ List.replicate (k + 1) ')' := by
        simp [written, writtenL, List.replicate_succ]
      rw [e, splitSp_single, tupLoop, tupStep_open hs]
      · simp only [tupLoop, closeN]
        cases h : closeN k ((c ++ [Py.tup [Py.str s]]) :: st) <;> rfl
      · intro d hd
        rcases List.mem_cons.1 hd with h | h
        · subst h; decide
        · exact name_nosp hs _ d h
    | cons x l =>
      have e : written (.tup (.str s :: x :: l)) ++ List.replicate k ')' =
          ('(' :: s) ++ ' ' :: (writtenL (x :: l) ++ List.replicate (k + 1) ')') := by
        simp [written, writtenL, List.replicate_succ]
      have h0 := tupStep_open (pf := pf) hs 0 (c :: st)
      simp only [List.replicate_zero, List.append_nil, closeN] at h0
      rw [e, splitSp_append, splitSp_single, List.singleton_append, tupLoop, h0, ok_bind,
        tupLoop_args (x :: l) (by simp) hl]
      · simp [closeN]
      · intro d hd
        rcases List.mem_cons.1 hd with h | h
        · subst h; decide
        · exact (hs.2.1 d h).1
  | .tup [], h, _, _, _ | .tup (.none :: _), h, _, _, _ | .tup (.bool _ :: _), h, _, _, _
  | .tup (.num _ :: _), h, _, _, _ | .tup (.tup _ :: _), h, _, _, _ | .tup (.list _ :: _), h, _, _, _
  | .tup (.dict _ :: _), h, _, _, _ | .tup (.other _ _ _ :: _), h, _, _, _
  | .none, h, _, _, _ | .bool _, h, _, _, _ | .num _, h, _, _, _ | .str _, h, _, _, _
  | .list _, h, _, _, _ | .dict _, h, _, _, _ | .other _ _ _, h, _, _, _ => by simp [Relation] at h
theorem tupLoop_args : ∀ (l : List Py), l ≠ [] → RelationArgs pf l →
    ∀ (k : ℕ) (c : List Py) (st : List (List Py)),
    tupLoop pf (splitSp (writtenL l ++ List.replicate k ')')) (c :: st) =
      closeN k ((c ++ l) :: st)
  | [], h, _, _, _, _ => absurd rfl h
  | [x], _, hx, k, c, st => by
    rw [writtenL]
    rcases hx.1 with ⟨t, rfl, ht⟩ | hr
    · rw [written, splitSp_single (name_nosp ht k), tupLoop, tupStep_name ht]
      cases h : closeN k ((c ++ [Py.str t]) :: st) <;> rfl
    · exact tupLoop_rel x hr k c st
  | x :: y :: l, _, hx, k, c, st => by
    have e : writtenL (x :: y :: l) ++ List.replicate k ')' =
        written x ++ ' ' :: (writtenL (y :: l) ++ List.replicate k ')') := by simp [writtenL]
    have h1 : tupLoop pf (splitSp (written x)) (c :: st) = .ok ((c ++ [x]) :: st) := by
      rcases hx.1 with ⟨t, rfl, ht⟩ | hr
      · have h0 := tupStep_name (pf := pf) ht 0 c st
        have h1 := name_nosp (pf := pf) ht 0
        simp only [List.replicate_zero, List.append_nil, closeN] at h0 h1
        rw [written, splitSp_single h1, tupLoop, h0]
        rfl
      · have := tupLoop_rel x hr 0 c st
        simpa [closeN] using this
    rw [e, splitSp_append, tupLoop_append, h1]
    have := tupLoop_args (y :: l) (by simp) hx.2 k (c ++ [x]) st
    simpa [Except.bind] using this
end

theorem tuplize_written {r : Py} (h : Relation pf r) : tuplize pf (.str (written r)) = .ok r := by
  have e := tupLoop_rel r h 0 [] []
  simp only [List.replicate_zero, List.append_nil, closeN, List.nil_append] at e
  have ht : toTuple r = .ok r := by cases r <;> first | rfl | simp [Relation] at h
  have hw : ∃ w, written r = '(' :: w := by
    cases r with
    | tup l => exact ⟨_, rfl⟩
    | _ => simp [Relation] at h
  obtain ⟨w, hw⟩ := hw
  rw [hw] at e ⊢
  simp only [tuplize, Py.index0, ok_bind, if_true, e, List.getLast?_singleton, ht]

mutual
theorem stringify_rel : ∀ (r : Py), Relation pf r → stringify r = .ok (.str (written r))
  | .tup (.str s :: l), h => by
    have ⟨hs, hl⟩ : RelName pf s ∧ RelationArgs pf l := by simpa [Relation] using h
    obtain ⟨l', h1, h2⟩ := stringifyL_args l hl
    have h3 : joinSp (.str s :: l') = .ok (writtenL (.str s :: l)) := by
      cases l with
      | nil => simp only [stringifyL] at h1; cases h1; rfl
      | cons x l =>
        cases l' with
        | nil =>
          simp only [stringifyL] at h1
          obtain ⟨_, _, h1⟩ := bind_ok.1 h1
          obtain ⟨_, _, h1⟩ := bind_ok.1 h1
          cases h1
        | cons y l' => simp only [joinSp, h2 (by simp), ok_bind, writtenL, written]; rfl
    simp only [stringify, stringifyL, ok_bind, h1, pure_bind, h3]
    rfl
  | .tup [], h | .tup (.none :: _), h | .tup (.bool _ :: _), h
  | .tup (.num _ :: _), h | .tup (.tup _ :: _), h | .tup (.list _ :: _), h
  | .tup (.dict _ :: _), h | .tup (.other _ _ _ :: _), h
  | .none, h | .bool _, h | .num _, h | .str _, h
  | .list _, h | .dict _, h | .other _ _ _, h => by simp [Relation] at h
theorem stringifyL_args : ∀ (l : List Py), RelationArgs pf l →
    ∃ l', stringifyL l = .ok l' ∧ (l ≠ [] → joinSp l' = .ok (writtenL l))
  | [], _ => ⟨[], rfl, fun h => absurd rfl h⟩
  | x :: xs, hx => by
    have h1 : stringify x = .ok (.str (written x)) := by
      rcases hx.1 with ⟨t, rfl, ht⟩ | hr
      · rfl
      · exact stringify_rel x hr
    obtain ⟨l', h2, h3⟩ := stringifyL_args xs hx.2
    refine ⟨.str (written x) :: l', by simp [stringifyL, h1, h2, ok_bind, pure, Except.pure], fun _ => ?_⟩
    cases xs with
    | nil => simp only [stringifyL] at h2; cases h2; rfl
    | cons y xs =>
      cases l' with
      | nil =>
        simp only [stringifyL] at h2
        obtain ⟨_, _, h2⟩ := bind_ok.1 h2
        obtain ⟨_, _, h2⟩ := bind_ok.1 h2
        cases h2
      | cons z l' => simp only [joinSp, h3 (by simp), ok_bind, writtenL]; rfl
end

/-- Renaming the attributes by an injective function. -/
theorem mapKeys_inj {f : Py → Res Py} {g : Py → Py} : ∀ {i : List (Py × Py)} {new : PyInst},
    (∀ p ∈ i, f p.1 = .ok (g p.1)) →
    (new.map Prod.fst ++ i.map fun p => g p.1).Nodup →
    mapKeys f i new = .ok (new ++ i.map fun p => (g p.1, p.2))
  | [], new, _, _ => by simp [mapKeys]
  | (a, v) :: i, new, h, hn => by
    have h1 := h (a, v) List.mem_cons_self
    simp only [mapKeys, h1, ok_bind]
    have hnot : g a ∉ Dict.keys new := by
      intro hc
      simp only [List.map_cons] at hn
      exact (List.nodup_append.1 hn).2.2 _ hc _ List.mem_cons_self rfl
    rw [Dict.set_of_not_mem hnot _]
    rw [mapKeys_inj (fun p hp => h p (List.mem_cons_of_mem _ hp))]
    · simp
    · simpa using hn

end CF
