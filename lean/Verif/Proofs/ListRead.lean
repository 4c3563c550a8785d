/-
Making lists of relations again.
-/
import Verif.Proofs.ListRels

namespace CF
open Py

/-! ### Reading the relations -/

def pushAll {α : Type} (d : Dict Py (List α)) (ps : List (Py × α)) : Dict Py (List α) :=
  ps.foldl (fun d p => pushAt d p.1 p.2) d

theorem nodup_pushAll {α : Type} {d : Dict Py (List α)} (h : Dict.Nodup d) (ps : List (Py × α)) :
    Dict.Nodup (pushAll d ps) := by
  induction ps generalizing d with
  | nil => exact h
  | cons p ps ih => exact ih (Dict.nodup_set h _ _)

theorem get?_pushAll {α : Type} (d : Dict Py (List α)) (ps : List (Py × α)) (k : Py) :
    Dict.get? (pushAll d ps) k =
      if (ps.filter fun p => decide (p.1 = k)) = [] then Dict.get? d k
      else some ((Dict.get? d k).getD [] ++ (ps.filter fun p => decide (p.1 = k)).map Prod.snd) := by
  induction ps generalizing d with
  | nil => rfl
  | cons p ps ih =>
    show Dict.get? (pushAll (pushAt d p.1 p.2) ps) k = _
    rw [ih, pushAt, Dict.get?_set]
    by_cases h : p.1 = k
    · subst h
      simp only [decide_true, List.filter_cons_of_pos, if_true, reduceCtorEq, if_false, List.map_cons]
      split
      · next h' => simp [h']
      · simp
    · rw [List.filter_cons_of_neg (by simpa using h), if_neg h]

/-- `("has-element", n, e)` as `(n, e)`. -/
def isElem : Py → Option (Py × Py)
  | .tup [x, n, e] => if x = .str c!"has-element" then some (n, e) else Option.none
  | _ => Option.none

/-- `("ordered-list", n, a, b)` as `(n, (a, b))`. -/
def isOrder : Py → Option (Py × (Py × Py))
  | .tup [x, n, a, b] => if x = .str c!"ordered-list" then some (n, (a, b)) else Option.none
  | _ => Option.none

/-- Any other attribute. -/
def isAttr (k : Py) : Bool := (isElem k).isNone && (isOrder k).isNone

theorem isElem_eq {k n e : Py} : isElem k = some (n, e) ↔ k = elemRel n e := by
  unfold isElem
  split
  · next x n' e' =>
    split
    · next h => subst h; simp [elemRel]
    · next h =>
      simp only [reduceCtorEq, false_iff]
      intro h'
      simp only [elemRel, Py.tup.injEq, List.cons.injEq] at h'
      exact h h'.1
  · next h =>
    simp only [reduceCtorEq, false_iff]
    rintro rfl
    exact h _ _ _ rfl

theorem isOrder_eq {k n a b : Py} : isOrder k = some (n, (a, b)) ↔ k = orderRel n a b := by
  unfold isOrder
  split
  · next x n' a' b' =>
    split
    · next h => subst h; simp [orderRel]
    · next h =>
      simp only [reduceCtorEq, false_iff]
      intro h'
      simp only [orderRel, Py.tup.injEq, List.cons.injEq] at h'
      exact h h'.1
  · next h =>
    simp only [reduceCtorEq, false_iff]
    rintro rfl
    exact h _ _ _ _ rfl

theorem isElem_attr {k : Py} (h : NotListRel k) : isElem k = Option.none := by
  cases e : isElem k with
  | none => rfl
  | some p => obtain ⟨n, x⟩ := p; exact absurd (isElem_eq.1 e) (h.2.1 _)

theorem isOrder_attr {k : Py} (h : NotListRel k) : isOrder k = Option.none := by
  cases e : isOrder k with
  | none => rfl
  | some p => obtain ⟨n, a, b⟩ := p; exact absurd (isOrder_eq.1 e) (h.2.2 _)

theorem isElem_order {n a b : Py} : isElem (orderRel n a b) = Option.none := rfl
theorem isOrder_elem {n e : Py} : isOrder (elemRel n e) = Option.none := rfl

/-- An attribute that the loop can read. -/
def Legible (k : Py) : Prop := NotListRel k ∨ (∃ n e, k = elemRel n e) ∨ ∃ n a b, k = orderRel n a b

theorem readRels_spec : ∀ (i : PyInst) (r : ListRels), (∀ k ∈ Dict.keys i, Legible k) →
    ∃ r', readRels i r = .ok r' ∧ r'.elements = pushAll r.elements (i.filterMap fun p => isElem p.1) ∧
      r'.order = pushAll r.order (i.filterMap fun p => isOrder p.1) ∧
      r'.new = setAll r.new (i.filter fun p => isAttr p.1)
  | [], r, _ => ⟨r, rfl, rfl, rfl, rfl⟩
  | (k, v) :: i, r, h => by
    have ih := fun r => readRels_spec i r fun k hk => h k (List.mem_cons_of_mem _ hk)
    rcases h k List.mem_cons_self with hk | ⟨n, e, rfl⟩ | ⟨n, a, b, rfl⟩
    · obtain ⟨r', h1, h2, h3, h4⟩ := ih { r with new := r.new.set k v }
      have e1 := isElem_attr hk
      have e2 := isOrder_attr hk
      have e3 : isAttr k = true := by simp [isAttr, e1, e2]
      refine ⟨r', ?_, by simp [h2, e1], by simp [h3, e2], by rw [h4, List.filter_cons_of_pos (by exact e3)]; rfl⟩
      rw [← h1]
      conv_lhs => unfold readRels
      cases k with
      | tup xs =>
        cases xs with
        | nil => exact absurd rfl hk.1
        | cons x xs =>
          dsimp only
          rw [if_neg fun e => hk.2.1 xs (by rw [e]), if_neg fun e => hk.2.2 xs (by rw [e])]
      | _ => rfl
    · obtain ⟨r', h1, h2, h3, h4⟩ := ih { r with elements := pushAt r.elements n e, originals := pushNew r.originals n }
      have e1 : isElem (elemRel n e) = some (n, e) := isElem_eq.2 rfl
      refine ⟨r', ?_, by simp only [h2, List.filterMap_cons, e1]; rfl, by rw [h3, List.filterMap_cons_none (by exact isOrder_elem)], ?_⟩
      · rw [← h1]
        rfl
      · rw [h4, List.filter_cons_of_neg (by simp [isAttr, e1])]
    · obtain ⟨r', h1, h2, h3, h4⟩ := ih { r with order := pushAt r.order n (a, b), originals := pushNew r.originals n }
      have e1 : isOrder (orderRel n a b) = some (n, (a, b)) := isOrder_eq.2 rfl
      refine ⟨r', ?_, by rw [h2, List.filterMap_cons_none (by exact isElem_order)], by simp only [h3, List.filterMap_cons, e1]; rfl, ?_⟩
      · rw [← h1]
        rfl
      · rw [h4, List.filter_cons_of_neg (by simp [isAttr, e1])]

/-! ### Filling in the lists -/

mutual
/-- `w` is `v` but for the lists whose path is not in `S`, which are still `{}`. -/
def FillV (S : List Py → Prop) (p : List Py) : Py → Py → Prop
  | .list es, w => (S p ∧ w = .list es) ∨ (¬ S p ∧ w = .dict [])
  | .dict l, w => ∃ l', w = .dict l' ∧ l.length = l'.length ∧ Dict.Nodup l' ∧ FillD S p l l'
  | v, w => same v w ∧ w.wf
def FillD (S : List Py → Prop) (p : List Py) : List (Py × Py) → PyInst → Prop
  | [], _ => True
  | (k, v) :: l, l' => (∃ w, Dict.get? l' k = some w ∧ FillV S (p ++ [k]) v w) ∧ FillD S p l l'
end

theorem FillD_iff {S : List Py → Prop} {p : List Py} {l l' : List (Py × Py)} : FillD S p l l' ↔
    ∀ k v, (k, v) ∈ l → ∃ w, Dict.get? l' k = some w ∧ FillV S (p ++ [k]) v w := by
  induction l with
  | nil => simp [FillD]
  | cons q l ih =>
    obtain ⟨k, v⟩ := q
    rw [FillD, ih]
    constructor
    · rintro ⟨h1, h2⟩ k' v' hm
      rcases List.mem_cons.1 hm with hm | hm
      · cases hm; exact h1
      · exact h2 k' v' hm
    · exact fun h => ⟨h k v List.mem_cons_self, fun k' v' hm => h k' v' (List.mem_cons_of_mem _ hm)⟩

mutual
theorem FillV_congr {S S' : List Py → Prop} : ∀ (v : Py) (p : List Py) (w : Py), (∀ q, p <+: q → (S q ↔ S' q)) →
    FillV S p v w → FillV S' p v w
  | .list es, p, w, hS, h => by
    rw [FillV] at h ⊢
    rw [← hS p (List.prefix_refl p)]
    exact h
  | .dict l, p, w, hS, h => by
    rw [FillV] at h ⊢
    obtain ⟨l', h1, h2, h3, h4⟩ := h
    exact ⟨l', h1, h2, h3, FillD_congr l p l' hS h4⟩
  | .none, p, w, _, h | .bool _, p, w, _, h | .num _, p, w, _, h | .str _, p, w, _, h | .tup _, p, w, _, h
  | .other _ _ _, p, w, _, h => by
    rw [FillV] at h ⊢
    · exact h
    all_goals intros; contradiction
theorem FillD_congr {S S' : List Py → Prop} : ∀ (l : List (Py × Py)) (p : List Py) (l' : PyInst),
    (∀ q, p <+: q → (S q ↔ S' q)) → FillD S p l l' → FillD S' p l l'
  | [], p, l', _, _ => by rw [FillD]; trivial
  | (k, v) :: l, p, l', hS, h => by
    rw [FillD] at h ⊢
    obtain ⟨⟨w, h1, h2⟩, h3⟩ := h
    exact ⟨⟨w, h1, FillV_congr v _ w (fun q hq => hS q ((List.prefix_append p [k]).trans hq)) h2⟩,
      FillD_congr l p l' hS h3⟩
end

mutual
/-- Nothing filled in. -/
theorem FillV_start : ∀ (v : Py) (p : List Py) (w : Py), same (stripV v) w → w.wf → FillV (fun _ => False) p v w
  | .list es, p, w, hs, hw => by
    rw [FillV]
    rw [stripV] at hs
    obtain ⟨l', rfl, h, _⟩ := hs
    exact .inr ⟨id, by rw [List.eq_nil_of_length_eq_zero h.symm]⟩
  | .dict l, p, w, hs, hw => by
    rw [FillV]
    rw [stripV] at hs
    obtain ⟨l', rfl, h, h'⟩ := hs
    have e : (stripD l).length = l.length := by
      have := congrArg List.length (keys_stripD l)
      simpa [Dict.keys] using this
    exact ⟨l', rfl, by rw [← h, e], hw.1, FillD_start l p l' h' hw.2⟩
  | .none, p, w, hs, hw | .bool _, p, w, hs, hw | .num _, p, w, hs, hw | .str _, p, w, hs, hw
  | .tup _, p, w, hs, hw | .other _ _ _, p, w, hs, hw => by
    rw [FillV]
    · rw [stripV] at hs
      · exact ⟨hs, hw⟩
      all_goals intros; contradiction
    all_goals intros; contradiction
theorem FillD_start : ∀ (l : List (Py × Py)) (p : List Py) (l' : PyInst), sameD (stripD l) l' → wfD l' →
    FillD (fun _ => False) p l l'
  | [], _, _, _, _ => by rw [FillD]; trivial
  | (k, v) :: l, p, l', hs, hw => by
    rw [FillD]
    rw [stripD, sameD_iff] at hs
    obtain ⟨w, h1, h2⟩ := hs k _ List.mem_cons_self
    exact ⟨⟨w, h1, FillV_start v _ w h2 (wfD_iff.1 hw _ (Dict.mem_of_get? h1))⟩,
      FillD_start l p l' (sameD_iff.2 fun k' v' hm => hs k' v' (List.mem_cons_of_mem _ hm)) hw⟩
end

mutual
/-- All filled in. -/
theorem FillV_end {S : List Py → Prop} : ∀ (v : Py) (p : List Py) (w : Py), v.wf → (∀ q ∈ listsV p v, S q.1) →
    FillV S p v w → same v w ∧ w.wf
  | .list es, p, w, hw, hS, h => by
    rw [FillV] at h
    rcases h with ⟨_, rfl⟩ | ⟨h, _⟩
    · exact ⟨same_refl hw, hw⟩
    · exact absurd (hS (p, es) (by simp [listsV])) h
  | .dict l, p, w, hw, hS, h => by
    rw [FillV] at h
    obtain ⟨l', rfl, h1, h2, h3⟩ := h
    rw [listsV] at hS
    have h4 := FillD_end l p l' hw.2 hS h3
    have hs : sameD l l' := sameD_iff.2 fun k v hm => by
      obtain ⟨w, e1, e2, _⟩ := h4 k v hm
      exact ⟨w, e1, e2⟩
    refine ⟨⟨l', rfl, h1, hs⟩, h2, wfD_iff.2 fun q hq => ?_⟩
    have hk : q.1 ∈ Dict.keys l := (same_keys hw.1 h2 h1 hs).mem_iff.2 (List.mem_map.2 ⟨q, hq, rfl⟩)
    obtain ⟨⟨k, v⟩, hm, e⟩ := List.mem_map.1 hk
    obtain ⟨w, e1, _, e3⟩ := h4 k v hm
    have e : k = q.1 := e
    rw [e, Dict.get?_of_mem h2 (show (q.1, q.2) ∈ l' from hq)] at e1
    cases e1
    exact e3
  | .none, p, w, hw, hS, h | .bool _, p, w, hw, hS, h | .num _, p, w, hw, hS, h | .str _, p, w, hw, hS, h
  | .tup _, p, w, hw, hS, h | .other _ _ _, p, w, hw, hS, h => by
    rw [FillV] at h
    · exact h
    all_goals intros; contradiction
theorem FillD_end {S : List Py → Prop} : ∀ (l : List (Py × Py)) (p : List Py) (l' : PyInst), wfD l →
    (∀ q ∈ listsD p l, S q.1) → FillD S p l l' →
    ∀ k v, (k, v) ∈ l → ∃ w, Dict.get? l' k = some w ∧ same v w ∧ w.wf
  | [], _, _, _, _, _, _, _, hm => absurd hm (by simp)
  | (k, v) :: l, p, l', hw, hS, h, k', v', hm => by
    rw [FillD] at h
    rw [listsD] at hS
    obtain ⟨⟨w, h1, h2⟩, h3⟩ := h
    have e1 := FillV_end v _ w hw.1 (fun q hq => hS q (List.mem_append_left _ hq)) h2
    have e2 := FillD_end l p l' hw.2 (fun q hq => hS q (List.mem_append_right _ hq)) h3
    rcases List.mem_cons.1 hm with hm | hm
    · cases hm; exact ⟨w, h1, e1⟩
    · exact e2 k' v' hm
end

/-- Filling in one list. -/
theorem assignPath_spec {S : List Py → Prop} {es : List Py} : ∀ (r : List Py) (l : List (Py × Py)) (p : List Py) (l' : PyInst),
    r ≠ [] → wfD l → Dict.Nodup l → Dict.Nodup l' → l.length = l'.length → FillD S p l l' →
    (p ++ r, es) ∈ listsD p l →
    ∃ l'', assignPath l' (.list es) r = .ok l'' ∧ Dict.Nodup l'' ∧ l.length = l''.length ∧
      FillD (fun q => S q ∨ q = p ++ r) p l l''
  | [], _, _, _, h, _, _, _, _, _, _ => absurd rfl h
  | k :: ks, l, p, l', _, hw, hn, hn', hlen, hF, hm => by
    -- the entry
    have hex : ∃ v, (k, v) ∈ l ∧ (p ++ k :: ks, es) ∈ listsV (p ++ [k]) v := by
      clear hlen hF hn hn' hw
      induction l with
      | nil => rw [listsD] at hm; cases hm
      | cons q l ih =>
        obtain ⟨k', v⟩ := q
        rw [listsD, List.mem_append] at hm
        rcases hm with hm | hm
        · have h1 := listsV_prefix v _ _ hm
          have h2 : (p ++ [k]) <+: (p ++ k :: ks) := ⟨ks, by simp⟩
          have := prefix_snoc_inj h1 h2
          subst this
          exact ⟨v, List.mem_cons_self, hm⟩
        · obtain ⟨v, h1, h2⟩ := ih hm
          exact ⟨v, List.mem_cons_of_mem _ h1, h2⟩
    obtain ⟨v, hkv, hv⟩ := hex
    obtain ⟨w, hw1, hw2⟩ := FillD_iff.1 hF k v hkv
    have hkl' : k ∈ Dict.keys l' := Dict.get?_isSome.1 (by rw [hw1]; rfl)
    have hlenset : ∀ u, (Dict.set l' k u).length = l'.length := by
      intro u
      have := congrArg List.length (Dict.keys_set l' k u)
      rw [if_pos hkl'] at this
      simpa [Dict.keys] using this
    -- the others stay as they are
    have hrest : ∀ u, FillV (fun q => S q ∨ q = p ++ k :: ks) (p ++ [k]) v u →
        FillD (fun q => S q ∨ q = p ++ k :: ks) p l (Dict.set l' k u) := by
      intro u hu
      refine FillD_iff.2 fun k' v' hm' => ?_
      by_cases hkk : k' = k
      · subst hkk
        have : v' = v := by
          have e1 := Dict.get?_of_mem hn hm'
          rw [Dict.get?_of_mem hn hkv] at e1
          exact (Option.some.inj e1).symm
        subst this
        exact ⟨u, Dict.get?_set_self _ _ _, hu⟩
      · obtain ⟨w', h1, h2⟩ := FillD_iff.1 hF k' v' hm'
        refine ⟨w', by rw [Dict.get?_set_ne _ (Ne.symm hkk)]; exact h1, FillV_congr v' _ w' ?_ h2⟩
        intro q hq
        constructor
        · exact .inl
        · rintro (h | rfl)
          · exact h
          · exact absurd (prefix_snoc_inj hq ⟨ks, by simp⟩) hkk
    cases ks with
    | nil =>
      refine ⟨_, rfl, Dict.nodup_set hn' _ _, by rw [hlenset, hlen], hrest _ ?_⟩
      -- the value is that list
      by_cases hl : ∃ es', v = .list es'
      · obtain ⟨es', rfl⟩ := hl
        rw [listsV, List.mem_singleton] at hv
        cases hv
        rw [FillV]
        exact .inl ⟨.inr rfl, rfl⟩
      · exfalso
        by_cases hd : ∃ m, v = .dict m
        · obtain ⟨m, rfl⟩ := hd
          rw [listsV] at hv
          obtain ⟨k', _, h2⟩ := listsD_prefix m _ _ hv
          have := h2.length_le
          simp at this
        · rw [listsV] at hv
          · cases hv
          · exact fun es' e => hl ⟨es', e⟩
          · exact fun m e => hd ⟨m, e⟩
    | cons k' ks =>
      by_cases hd : ∃ m, v = .dict m
      · obtain ⟨m, rfl⟩ := hd
        rw [listsV] at hv
        rw [FillV] at hw2
        obtain ⟨m', rfl, e1, e2, e3⟩ := hw2
        have hwm := wfD_iff.1 hw _ hkv
        obtain ⟨m'', f1, f2, f3, f4⟩ := assignPath_spec (k' :: ks) m (p ++ [k]) m' (by simp) hwm.2 hwm.1 e2 e1 e3
          (by simpa using hv)
        refine ⟨_, ?_, Dict.nodup_set hn' _ _, by rw [hlenset, hlen], hrest (.dict m'') ?_⟩
        · simp only [assignPath, hw1, f1, ok_bind]
          rfl
        · rw [FillV]
          exact ⟨m'', rfl, f3, f2, by simpa using f4⟩
      · exfalso
        by_cases hl : ∃ es', v = .list es'
        · obtain ⟨es', rfl⟩ := hl
          rw [listsV, List.mem_singleton] at hv
          simp at hv
        · rw [listsV] at hv
          · cases hv
          · exact fun es' e => hl ⟨es', e⟩
          · exact fun m e => hd ⟨m, e⟩

/-- The second loop. -/
theorem buildLists_spec {r : ListRels} {X : List (Py × Py)} (hw : wfD X) (hn : Dict.Nodup X)
    (hg : ∀ q ∈ listsD [] X, GoodPath q.1) : ∀ (m : List (Py × List Py)) (S : List Py → Prop) (new : PyInst),
    Dict.Nodup new → X.length = new.length → FillD S [] X new →
    (∀ n elems, (n, elems) ∈ m → ∃ q ∈ listsD [] X, listName q.1 = n ∧
      chainList elems (r.order.get? n) = .ok (q.2, [])) →
    ∃ d, buildLists r m new = .ok d ∧ Dict.Nodup d ∧ X.length = d.length ∧
      FillD (fun p => S p ∨ ∃ e ∈ m, e.1 = listName p ∧ GoodPath p) [] X d
  | [], S, new, h1, h2, h3, _ => ⟨new, rfl, h1, h2, FillD_congr X [] new (fun q _ => by simp) h3⟩
  | (n, elems) :: m, S, new, h1, h2, h3, h => by
    obtain ⟨q, hq, rfl, hc⟩ := h n elems List.mem_cons_self
    have hgood := hg q hq
    have hne : q.1 ≠ [] := by obtain ⟨k, ks, e, _⟩ := hgood; rw [e]; simp
    obtain ⟨new', e1, e2, e3, e4⟩ := assignPath_spec (es := q.2) q.1 X [] new hne hw hn h1 h2 h3 (by simpa using hq)
    obtain ⟨d, f1, f2, f3, f4⟩ := buildLists_spec hw hn hg m _ new' e2 e3 e4
      fun n' elems' hm => h n' elems' (List.mem_cons_of_mem _ hm)
    refine ⟨d, ?_, f2, f3, FillD_congr X [] d (fun p _ => ?_) f4⟩
    · simp only [buildLists, hc, ok_bind, if_true, hgood.back, e1, f1]
    · simp only [List.nil_append, List.mem_cons, exists_eq_or_imp]
      constructor
      · rintro ((h | rfl) | h)
        · exact .inl h
        · exact .inr (.inl ⟨rfl, hgood⟩)
        · exact .inr (.inr h)
      · rintro (h | ⟨h, h'⟩ | h)
        · exact .inl (.inl h)
        · exact .inl (.inr (h'.inj hgood h.symm))
        · exact .inr h

theorem filter_map_perm {α : Type} [DecidableEq α] {ps : List (Py × α)} {n : Py} {xs : List α} (hp : ps.Nodup) (hx : xs.Nodup)
    (h : ∀ x, (n, x) ∈ ps ↔ x ∈ xs) : ((ps.filter fun p => decide (p.1 = n)).map Prod.snd).Perm xs := by
  refine (List.perm_ext_iff_of_nodup ?_ hx).2 fun x => ?_
  · refine List.Nodup.map_on ?_ (hp.filter _)
    rintro ⟨a, b⟩ ha ⟨a', b'⟩ ha' e
    simp only [List.mem_filter, decide_eq_true_eq] at ha ha'
    simp only at e
    rw [ha.2, ha'.2, e]
  · rw [← h x]
    simp only [List.mem_map, List.mem_filter, decide_eq_true_eq]
    constructor
    · rintro ⟨⟨a, b⟩, ⟨h1, h2⟩, h3⟩
      simp only at h2 h3
      rw [← h2, ← h3]; exact h1
    · exact fun h => ⟨(n, x), ⟨h, rfl⟩, rfl⟩

theorem nodup_filterMap_keys {α : Type} {i : PyInst} (hn : Dict.Nodup i) {f : Py → Option α}
    (hf : ∀ k k' a, f k = some a → f k' = some a → k = k') : (i.filterMap fun p => f p.1).Nodup := by
  have e : (i.filterMap fun p => f p.1) = (Dict.keys i).filterMap f := by
    simp [Dict.keys, List.filterMap_map]
  rw [e]
  exact List.Nodup.filterMap (fun a a' b h h' => hf a a' b h h') hn

theorem neighbours_nodup {l : List Py} (h : l.Nodup) : (neighbours l).Nodup := by
  induction l with
  | nil => exact List.nodup_nil
  | cons x l ih =>
    cases l with
    | nil => exact List.nodup_nil
    | cons y l =>
      rw [neighbours_cons]
      refine List.nodup_cons.2 ⟨fun hm => ?_, ih (List.nodup_cons.1 h).2⟩
      exact (List.nodup_cons.1 h).1 (List.dropLast_subset _ (mem_neighbours_left hm))

/-- `_relations_to_lists` of the relations, in any order. -/
theorem relations_to_lists {X o' : PyInst} (hw : wfD X) (hn : Dict.Nodup X) (ht : TopAttrs X) (hf : FlatD X)
    (hs : SameInst (outTop X) o') : ∃ X', relationsToLists o' = .ok X' ∧ SameInst X X' := by
  obtain ⟨⟨o'', e, hlen, hsd⟩, hwo⟩ := hs
  cases e
  have hno := nodup_outTop hw hn ht hf
  have hno' := hwo.1
  have hperm := same_keys hno hno' hlen hsd
  have hp := outTop_perm X
  have hg := listsD_good ht
  have hfl := listsD_flat X [] hf
  have hkeys : ∀ k, k ∈ Dict.keys o' ↔ k ∈ Dict.keys X ∨
      ∃ q ∈ listsD [] X, k ∈ Dict.keys (relEntries (listName q.1) q.2) := by
    intro k
    rw [← hperm.mem_iff, ← mem_allRels, Dict.keys, (hp.map Prod.fst).mem_iff]
    show k ∈ Dict.keys (stripD X ++ allRels (listsD [] X)) ↔ _
    rw [Dict.keys_append, List.mem_append, keys_stripD]
  have hXattr : ∀ k ∈ Dict.keys X, NotListRel k := by
    intro k hk
    obtain ⟨p, hp, rfl⟩ := List.mem_map.1 hk
    exact (ht p hp).1
  have hleg : ∀ k ∈ Dict.keys o', Legible k := by
    intro k hk
    rcases (hkeys k).1 hk with hk | ⟨q, _, hk⟩
    · exact .inl (hXattr k hk)
    · rcases mem_relEntries.1 hk with ⟨_, _, rfl⟩ | ⟨_, _, rfl⟩
      · exact .inr (.inl ⟨_, _, rfl⟩)
      · exact .inr (.inr ⟨_, _, _, rfl⟩)
  obtain ⟨r, hr, hre, hro, hrn⟩ := readRels_spec o' ⟨[], [], [], []⟩ hleg
  -- the elements and the order of a list
  have hE : ∀ n e, (n, e) ∈ (o'.filterMap fun p => isElem p.1) ↔ ∃ q ∈ listsD [] X, listName q.1 = n ∧ e ∈ q.2 := by
    intro n e
    have h1 : (n, e) ∈ (o'.filterMap fun p => isElem p.1) ↔ elemRel n e ∈ Dict.keys o' := by
      simp only [List.mem_filterMap, isElem_eq, Dict.keys, List.mem_map]
    rw [h1, hkeys]
    constructor
    · rintro (h | ⟨q, hq, h⟩)
      · exact absurd (hXattr _ h) notListRel_elem
      · rcases mem_relEntries.1 h with ⟨e', he', h⟩ | ⟨_, _, h⟩
        · obtain ⟨h1, h2⟩ := elemRel_inj.1 h
          exact ⟨q, hq, h1.symm, h2 ▸ he'⟩
        · exact absurd h elemRel_ne_orderRel
    · rintro ⟨q, hq, rfl, he⟩
      exact .inr ⟨q, hq, mem_relEntries.2 (.inl ⟨e, he, rfl⟩)⟩
  have hO : ∀ n (p : Py × Py), (n, p) ∈ (o'.filterMap fun p => isOrder p.1) ↔
      ∃ q ∈ listsD [] X, listName q.1 = n ∧ p ∈ neighbours q.2 := by
    rintro n ⟨a, b⟩
    have h1 : (n, (a, b)) ∈ (o'.filterMap fun p => isOrder p.1) ↔ orderRel n a b ∈ Dict.keys o' := by
      simp only [List.mem_filterMap, isOrder_eq, Dict.keys, List.mem_map]
    rw [h1, hkeys]
    constructor
    · rintro (h | ⟨q, hq, h⟩)
      · exact absurd (hXattr _ h) notListRel_order
      · rcases mem_relEntries.1 h with ⟨e', he', h⟩ | ⟨p, hp, h⟩
        · exact absurd h.symm elemRel_ne_orderRel
        · obtain ⟨h1, h2, h3⟩ := orderRel_inj.1 h
          exact ⟨q, hq, h1.symm, by rw [h2, h3]; exact hp⟩
    · rintro ⟨q, hq, rfl, he⟩
      exact .inr ⟨q, hq, mem_relEntries.2 (.inr ⟨_, he, rfl⟩)⟩
  have hEn : (o'.filterMap fun p => isElem p.1).Nodup := nodup_filterMap_keys hno' (by
    rintro k k' ⟨n, e⟩ h h'
    rw [isElem_eq.1 h, isElem_eq.1 h'])
  have hOn : (o'.filterMap fun p => isOrder p.1).Nodup := nodup_filterMap_keys hno' (by
    rintro k k' ⟨n, a, b⟩ h h'
    rw [isOrder_eq.1 h, isOrder_eq.1 h'])
  have hpaths := listsD_nodup X [] hw hn
  have huniq : ∀ q ∈ listsD [] X, ∀ q' ∈ listsD [] X, listName q.1 = listName q'.1 → q = q' := by
    intro q hq q' hq' e
    have := (hg q hq).inj (hg q' hq') e
    exact List.inj_on_of_nodup_map hpaths hq hq' this
  -- every list is rebuilt
  have hchain : ∀ n elems, (n, elems) ∈ r.elements → ∃ q ∈ listsD [] X, listName q.1 = n ∧
      chainList elems (r.order.get? n) = .ok (q.2, []) := by
    intro n elems hm
    have hnd : Dict.Nodup r.elements := by rw [hre]; exact nodup_pushAll Dict.nodup_nil _
    have hget := Dict.get?_of_mem hnd hm
    rw [hre, get?_pushAll] at hget
    split at hget
    · cases hget
    · next hne =>
      have hget := Option.some.inj hget
      simp only [Dict.get?_nil, Option.getD_none, List.nil_append] at hget
      obtain ⟨⟨n', e⟩, hx⟩ := List.exists_mem_of_ne_nil _ hne
      simp only [List.mem_filter, decide_eq_true_eq] at hx
      obtain ⟨hx, rfl⟩ := hx
      obtain ⟨q, hq, rfl, _⟩ := (hE _ _).1 hx
      refine ⟨q, hq, rfl, chainList_spec (hfl q hq).1 (hfl q hq).2.1 ?_ ?_⟩
      · rw [← hget]
        refine filter_map_perm hEn (hfl q hq).2.1 fun x => ?_
        rw [hE]
        constructor
        · rintro ⟨q', hq', e, hx⟩
          rw [← huniq q' hq' q hq e]; exact hx
        · exact fun hx => ⟨q, hq, rfl, hx⟩
      · intro hnb
        have hperm2 : (((o'.filterMap fun p => isOrder p.1).filter fun p => decide (p.1 = listName q.1)).map Prod.snd).Perm
            (neighbours q.2) := by
          refine filter_map_perm hOn (neighbours_nodup (hfl q hq).2.1) fun x => ?_
          rw [hO]
          constructor
          · rintro ⟨q', hq', e, hx⟩
            rw [← huniq q' hq' q hq e]; exact hx
          · exact fun hx => ⟨q, hq, rfl, hx⟩
        refine ⟨_, ?_, hperm2⟩
        rw [hro, get?_pushAll, if_neg]
        · simp
        · intro h
          rw [h] at hperm2
          exact hnb (List.nil_perm.1 hperm2)
  -- the rest
  have hattr : ∀ k ∈ Dict.keys o', isAttr k = true ↔ k ∈ Dict.keys X := by
    intro k hk
    constructor
    · intro h
      rcases (hkeys k).1 hk with hk | ⟨q, _, hk⟩
      · exact hk
      · exfalso
        rcases mem_relEntries.1 hk with ⟨e, _, rfl⟩ | ⟨p, _, rfl⟩
        · rw [isAttr, isElem_eq.2 rfl] at h; cases h
        · rw [isAttr, isOrder_eq.2 rfl] at h; simp at h
    · intro h
      simp [isAttr, isElem_attr (hXattr k h), isOrder_attr (hXattr k h)]
  have hfn : Dict.Nodup (o'.filter fun p => isAttr p.1) :=
    List.Nodup.sublist (List.Sublist.map _ List.filter_sublist) hno'
  have hnew : r.new = o'.filter fun p => isAttr p.1 := by
    rw [hrn, setAll_nodup (by exact hfn)]; rfl
  have hkeysnew : (Dict.keys X).Perm (Dict.keys r.new) := by
    rw [hnew]
    refine (List.perm_ext_iff_of_nodup hn hfn).2 fun k => ?_
    constructor
    · intro hk
      have hk' := (hkeys k).2 (.inl hk)
      obtain ⟨p, hp, rfl⟩ := List.mem_map.1 hk'
      exact List.mem_map.2 ⟨p, List.mem_filter.2 ⟨hp, (hattr _ hk').2 hk⟩, rfl⟩
    · intro hk
      obtain ⟨p, hp, rfl⟩ := List.mem_map.1 hk
      obtain ⟨h1, h2⟩ := List.mem_filter.1 hp
      exact (hattr _ (List.mem_map.2 ⟨p, h1, rfl⟩)).1 h2
  have hstart : FillD (fun _ => False) [] X r.new := by
    refine FillD_start X [] r.new (sameD_iff.2 fun k v hm => ?_) ?_
    · obtain ⟨w, h1, h2⟩ := sameD_iff.1 hsd k v (hp.mem_iff.2 (List.mem_append_left _ hm))
      refine ⟨w, ?_, h2⟩
      rw [hnew]
      have hkX : k ∈ Dict.keys X := by rw [← keys_stripD]; exact List.mem_map.2 ⟨_, hm, rfl⟩
      have hmo := Dict.mem_of_get? h1
      refine Dict.get?_of_mem hfn (List.mem_filter.2 ⟨hmo, (hattr k (List.mem_map.2 ⟨_, hmo, rfl⟩)).2 hkX⟩)
    · rw [hnew]
      exact wfD_iff.2 fun q hq => wfD_iff.1 hwo.2 q (List.mem_filter.1 hq).1
  obtain ⟨d, h1, h2, h3, h4⟩ := buildLists_spec hw hn hg r.elements (fun _ => False) r.new (by rw [hnew]; exact hfn)
    (by simpa [Dict.keys] using hkeysnew.length_eq) hstart hchain
  refine ⟨d, by simp only [relationsToLists, hr, ok_bind]; exact h1, ?_⟩
  refine FillV_end (S := fun p => False ∨ ∃ e ∈ r.elements, e.1 = listName p ∧ GoodPath p) (.dict X) [] (.dict d)
    ⟨hn, hw⟩ ?_ (by rw [FillV]; exact ⟨d, rfl, h3, h2, h4⟩)
  intro q hq
  rw [listsV] at hq
  refine .inr ?_
  have hne := (hfl q hq).1
  obtain ⟨x, hx⟩ := List.exists_mem_of_ne_nil _ hne
  have hmem := (hE (listName q.1) x).2 ⟨q, hq, rfl, hx⟩
  have hget : Dict.get? r.elements (listName q.1) ≠ Option.none := by
    rw [hre, get?_pushAll, if_neg]
    · simp
    · intro h
      have : (listName q.1, x) ∈ ((o'.filterMap fun p => isElem p.1).filter fun p => decide (p.1 = listName q.1)) :=
        List.mem_filter.2 ⟨hmem, by simp⟩
      rw [h] at this
      cases this
  obtain ⟨el, hel⟩ := Option.ne_none_iff_exists'.1 hget
  exact ⟨_, Dict.mem_of_get? hel, rfl, hg q hq⟩

end CF
