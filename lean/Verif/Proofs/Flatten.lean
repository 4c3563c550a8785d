/-
The flattener and its inverse.
-/
import Verif.Model.Preprocessor
import Verif.Spec.Preprocess
import Verif.Proofs.NoRaise

set_option linter.unusedSectionVars false

namespace CF

namespace Dict
variable {K V : Type} [DecidableEq K]

theorem set_set (d : Dict K V) (k : K) (v w : V) : (d.set k v).set k w = d.set k w := by
  induction d with
  | nil => simp [set]
  | cons p d ih =>
    obtain ⟨a, b⟩ := p
    by_cases h : a = k <;> simp [set, h, ih]

theorem set_append_self {d : Dict K V} {k : K} (h : k ∉ keys d) (v w : V) :
    set (d ++ [(k, v)]) k w = d ++ [(k, w)] := by
  rw [← set_of_not_mem h v, set_set, set_of_not_mem h]

end Dict

/-! ### Names of paths -/

/-- Attributes of components that `_get_path` recovers. -/
def MemberKey (k : Py) : Prop := (∃ x, k.index0 = .ok x) ∧ k ≠ .str c!"_"

theorem getPathRev_member {o a : Py} (h : a ≠ .str c!"_") :
    getPathRev (memberName o a) = a :: getPathRev o := by
  unfold memberName
  split
  · simp [getPathRev, h]
  · simp [getPathRev, h]

theorem getPathRev_foldl {o : Py} {ks : List Py} (h : ∀ k ∈ ks, k ≠ .str c!"_") :
    getPathRev (ks.foldl memberName o) = ks.reverse ++ getPathRev o := by
  induction ks generalizing o with
  | nil => rfl
  | cons k ks ih =>
    rw [List.foldl_cons, ih fun x hx => h x (List.mem_cons_of_mem _ hx),
      getPathRev_member (h k List.mem_cons_self)]
    simp

/-- Paths whose name determines them. -/
def PathOk : List Py → Prop
  | [] => False
  | k :: ks => (∀ a b, k ≠ .tup [a, b]) ∧ ∀ x ∈ ks, x ≠ .str c!"_"

theorem getPathRev_atom {k : Py} (h : ∀ a b, k ≠ .tup [a, b]) : getPathRev k = [k] := by
  unfold getPathRev
  split
  · exact absurd rfl (h _ _)
  · rfl

theorem getPath_pathName {p : List Py} (h : PathOk p) : getPath (pathName p) = p := by
  cases p with
  | nil => exact h.elim
  | cons k ks =>
    unfold getPath pathName
    rw [getPathRev_foldl h.2, getPathRev_atom h.1]
    simp

theorem pathName_inj {p q : List Py} (hp : PathOk p) (hq : PathOk q) (e : pathName p = pathName q) :
    p = q := by
  rw [← getPath_pathName hp, ← getPath_pathName hq, e]

theorem memberName_pair (o a : Py) : ∃ x y, memberName o a = .tup [x, y] := by
  unfold memberName; split <;> exact ⟨_, _, rfl⟩

theorem foldl_memberName_pair {o : Py} {ks : List Py} (h : ks ≠ []) :
    ∃ x y, ks.foldl memberName o = .tup [x, y] := by
  rw [← List.dropLast_append_getLast h, List.foldl_append]
  exact memberName_pair _ _

/-! ### Paths of an instance -/

mutual
theorem leavesV_paths {v : Py} (h : componentOk v) : ∀ e ∈ leavesV v, ∀ x ∈ e.1, MemberKey x := by
  match v, h with
  | .dict l, h => exact fun e he => (leavesD_paths h.2.2 e he).2
  | .none, _ | .bool _, _ | .num _, _ | .str _, _ | .tup _, _ | .list _, _ | .other _ _ _, _ =>
    intro e he; simp [leavesV] at he; subst he; simp
theorem leavesD_paths {l : List (Py × Py)} (h : membersOk l) :
    ∀ e ∈ leavesD l, e.1 ≠ [] ∧ ∀ x ∈ e.1, MemberKey x := by
  match l, h with
  | [], _ => simp [leavesD]
  | (k, v) :: l, h =>
    intro e he
    simp only [leavesD, List.mem_append, List.mem_map] at he
    rcases he with ⟨f, hf, rfl⟩ | he
    · refine ⟨by simp, fun x hx => ?_⟩
      rcases List.mem_cons.1 hx with rfl | hx
      · exact ⟨h.1.1, h.1.2.1⟩
      · exact leavesV_paths h.1.2.2 f hf x hx
    · exact leavesD_paths h.2 e he
end

theorem leavesD_head {l : List (Py × Py)} : ∀ e ∈ leavesD l, ∃ k ks, e.1 = k :: ks ∧ k ∈ Dict.keys l := by
  induction l with
  | nil => simp [leavesD]
  | cons p l ih =>
    obtain ⟨k, v⟩ := p
    intro e he
    simp only [leavesD, List.mem_append, List.mem_map] at he
    rcases he with ⟨f, hf, rfl⟩ | he
    · exact ⟨k, f.1, rfl, by simp⟩
    · obtain ⟨k', ks, e1, e2⟩ := ih e he
      exact ⟨k', ks, e1, by simp [e2]⟩

mutual
theorem leavesV_nodup {v : Py} (h : componentOk v) : ((leavesV v).map Prod.fst).Nodup := by
  match v, h with
  | .dict l, h => exact leavesD_nodup h.2.1 h.2.2
  | .none, _ | .bool _, _ | .num _, _ | .str _, _ | .tup _, _ | .list _, _ | .other _ _ _, _ =>
    simp [leavesV]
theorem leavesD_nodup {l : List (Py × Py)} (hn : Dict.Nodup l) (h : membersOk l) :
    ((leavesD l).map Prod.fst).Nodup := by
  match l, hn, h with
  | [], _, _ => simp [leavesD]
  | (k, v) :: l, hn, h =>
    rw [Dict.nodup_cons] at hn
    simp only [leavesD, List.map_append, List.map_map, List.nodup_append]
    refine ⟨?_, leavesD_nodup hn.2 h.2, ?_⟩
    · have := leavesV_nodup h.1.2.2
      rw [show (Prod.fst ∘ fun e : List Py × Py => (k :: e.1, e.2)) = (fun p => k :: p) ∘ Prod.fst from rfl,
        ← List.map_map]
      exact this.map (fun a b e => (List.cons.inj e).2)
    · intro x hx y hy e
      obtain ⟨f, hf, rfl⟩ := List.mem_map.1 hx
      obtain ⟨g, hg, rfl⟩ := List.mem_map.1 hy
      obtain ⟨k', ks, e1, e2⟩ := leavesD_head g hg
      simp only [Function.comp] at e
      rw [e1] at e
      exact hn.1 ((List.cons.inj e).1 ▸ e2)
end

mutual
theorem leavesV_atoms {v : Py} : ∀ e ∈ leavesV v, e.2.isDict = false := by
  match v with
  | .dict l => exact leavesD_atoms
  | .none | .bool _ | .num _ | .str _ | .tup _ | .list _ | .other _ _ _ =>
    intro e he; simp [leavesV] at he; subst he; rfl
theorem leavesD_atoms {l : List (Py × Py)} : ∀ e ∈ leavesD l, e.2.isDict = false := by
  match l with
  | [] => simp [leavesD]
  | (k, v) :: l =>
    intro e he
    simp only [leavesD, List.mem_append, List.mem_map] at he
    rcases he with ⟨f, hf, rfl⟩ | he
    · exact leavesV_atoms f hf
    · exact leavesD_atoms e he
end

/-! ### Flattening -/

theorem setAll_nodup {d e : PyInst} (h : Dict.Nodup (d ++ e)) : setAll d e = d ++ e :=
  Dict.foldl_set_of_nodup e d h

/-- The flattened entries below a name. -/
def under (o : Py) (ls : List (List Py × Py)) : PyInst := ls.map fun e => (e.1.foldl memberName o, e.2)

theorem flatName_some {o a : Py} (h : ∃ x, a.index0 = .ok x) :
    flatName (some o) a = .ok (memberName o a) := by
  obtain ⟨x, hx⟩ := h
  by_cases e : x = .str c!"_"
  · simp [flatName, hx, memberName, Hidden, e, ok_bind, pure, Except.pure]
  · simp [flatName, hx, memberName, Hidden, e, ok_bind, pure, Except.pure]

theorem under_map (o k : Py) (ls : List (List Py × Py)) :
    under o (ls.map fun e => (k :: e.1, e.2)) = under (memberName o k) ls := by
  simp [under, Function.comp_def]

theorem under_append (o : Py) (a b : List (List Py × Py)) : under o (a ++ b) = under o a ++ under o b := by
  simp [under]

mutual
theorem flattenV_eq {v a : Py} {temp : PyInst} (h : componentOk v)
    (hn : Dict.Nodup (temp ++ under a (leavesV v))) :
    flattenV a v temp = .ok (temp ++ under a (leavesV v)) := by
  match v, h, hn with
  | .dict l, h, hn =>
    have hn' : Dict.Nodup (under a (leavesD l)) := by
      unfold Dict.Nodup at hn ⊢
      rw [Dict.keys_append, List.nodup_append] at hn
      exact hn.2.1
    have := flattenD_eq (o := a) (temp := []) h.2.2 (by simpa using hn')
    simp only [flattenV, this, ok_bind, List.nil_append, leavesV]
    have e := setAll_nodup hn
    simp only [leavesV] at e
    rw [e]; rfl
  | .none, _, hn | .bool _, _, hn | .num _, _, hn | .str _, _, hn | .tup _, _, hn | .list _, _, hn
  | .other _ _ _, _, hn =>
    simp only [flattenV, leavesV, under, List.map_cons, List.map_nil, List.foldl_nil] at hn ⊢
    rw [Dict.set_of_not_mem]
    unfold Dict.Nodup at hn
    rw [Dict.keys_append, List.nodup_append] at hn
    exact fun hc => hn.2.2 _ hc _ (by simp) rfl
theorem flattenD_eq {l : List (Py × Py)} {o : Py} {temp : PyInst} (h : membersOk l)
    (hn : Dict.Nodup (temp ++ under o (leavesD l))) :
    flattenD (some o) l temp = .ok (temp ++ under o (leavesD l)) := by
  match l, h, hn with
  | [], _, _ => simp [flattenD, leavesD, under]
  | (k, v) :: l, h, hn =>
    simp only [leavesD, under_append, under_map] at hn ⊢
    rw [← List.append_assoc] at hn ⊢
    have h1 : Dict.Nodup (temp ++ under (memberName o k) (leavesV v)) := by
      unfold Dict.Nodup at hn ⊢
      rw [Dict.keys_append, List.nodup_append] at hn
      exact hn.1
    simp only [flattenD, flatName_some h.1.1, ok_bind, flattenV_eq h.1.2.2 h1]
    exact flattenD_eq h.2 hn
end

theorem flattenD_top {l : List (Py × Py)} {temp : PyInst} (h : ∀ p ∈ l, componentOk p.2)
    (hn : Dict.Nodup (temp ++ (leavesD l).map fun e => (pathName e.1, e.2))) :
    flattenD none l temp = .ok (temp ++ (leavesD l).map fun e => (pathName e.1, e.2)) := by
  induction l generalizing temp with
  | nil => simp [flattenD, leavesD]
  | cons p l ih =>
    obtain ⟨k, v⟩ := p
    have ek : ((leavesV v).map fun e => ((k :: e.1, e.2) : List Py × Py)).map
        (fun e => (pathName e.1, e.2)) = under k (leavesV v) := by
      simp [under, pathName, Function.comp_def]
    simp only [leavesD, List.map_append, ek] at hn ⊢
    rw [← List.append_assoc] at hn ⊢
    have h1 : Dict.Nodup (temp ++ under k (leavesV v)) := by
      unfold Dict.Nodup at hn ⊢
      rw [Dict.keys_append, List.nodup_append] at hn
      exact hn.1
    simp only [flattenD, flatName, ok_bind, flattenV_eq (h _ List.mem_cons_self) h1]
    exact ih (fun p hp => h p (List.mem_cons_of_mem _ hp)) hn

theorem structured_paths {i : PyInst} (h : Structured i) : ∀ e ∈ leavesD i, PathOk e.1 := by
  intro e he
  have : ∀ (l : List (Py × Py)), (∀ p ∈ l, (∀ a b, p.1 ≠ .tup [a, b]) ∧ componentOk p.2) →
      ∀ e ∈ leavesD l, PathOk e.1 := by
    intro l
    induction l with
    | nil => simp [leavesD]
    | cons p l ih =>
      obtain ⟨k, v⟩ := p
      intro hl e he
      simp only [leavesD, List.mem_append, List.mem_map] at he
      rcases he with ⟨f, hf, rfl⟩ | he
      · exact ⟨(hl _ List.mem_cons_self).1,
          fun x hx => (leavesV_paths (hl _ List.mem_cons_self).2 f hf x hx).2⟩
      · exact ih (fun p hp => hl p (List.mem_cons_of_mem _ hp)) e he
  exact this i h.2 e he

theorem leavesD_nodup_top {l : List (Py × Py)} (hn : Dict.Nodup l) (h : ∀ p ∈ l, componentOk p.2) :
    ((leavesD l).map Prod.fst).Nodup := by
  induction l with
  | nil => simp [leavesD]
  | cons p l ih =>
    obtain ⟨k, v⟩ := p
    rw [Dict.nodup_cons] at hn
    simp only [leavesD, List.map_append, List.map_map, List.nodup_append]
    refine ⟨?_, ih hn.2 fun p hp => h p (List.mem_cons_of_mem _ hp), ?_⟩
    · have := leavesV_nodup (h _ List.mem_cons_self)
      rw [show (Prod.fst ∘ fun e : List Py × Py => (k :: e.1, e.2)) = (fun p => k :: p) ∘ Prod.fst from rfl,
        ← List.map_map]
      exact this.map (fun a b e => (List.cons.inj e).2)
    · intro x hx y hy e
      obtain ⟨f, hf, rfl⟩ := List.mem_map.1 hx
      obtain ⟨g, hg, rfl⟩ := List.mem_map.1 hy
      obtain ⟨k', ks, e1, e2⟩ := leavesD_head g hg
      simp only [Function.comp] at e
      rw [e1] at e
      exact hn.1 ((List.cons.inj e).1 ▸ e2)

theorem flat_keys_nodup {i : PyInst} (h : Structured i) :
    Dict.Nodup ((leavesD i).map fun e => (pathName e.1, e.2)) := by
  unfold Dict.Nodup Dict.keys
  rw [List.map_map, show (Prod.fst ∘ fun e : List Py × Py => (pathName e.1, e.2)) =
    pathName ∘ Prod.fst from rfl, ← List.map_map]
  refine List.Nodup.map_on ?_ (leavesD_nodup_top h.1 fun p hp => (h.2 p hp).2)
  intro x hx y hy e
  obtain ⟨f, hf, rfl⟩ := List.mem_map.1 hx
  obtain ⟨g, hg, rfl⟩ := List.mem_map.1 hy
  exact pathName_inj (structured_paths h f hf) (structured_paths h g hg) e

theorem flatten_eq {i : PyInst} (h : Structured i) :
    flatten i = .ok ((leavesD i).map fun e => (pathName e.1, e.2)) := by
  have := flattenD_top (temp := []) (fun p hp => (h.2 p hp).2) (by simpa using flat_keys_nodup h)
  simpa [flatten] using this

/-! ### Restoring -/

/-- Insertion of a list of paths. -/
def insertAll : List (List Py × Py) → PyInst → Res PyInst
  | [], d => .ok d
  | (p, v) :: l, d => do
    let d ← insertPath d v p
    insertAll l d

theorem insertAll_append (a b : List (List Py × Py)) (d : PyInst) :
    insertAll (a ++ b) d = (insertAll a d).bind (insertAll b) := by
  induction a generalizing d with
  | nil => rfl
  | cons e a ih =>
    obtain ⟨p, v⟩ := e
    simp only [List.cons_append, insertAll]
    cases h : insertPath d v p with
    | error e => rfl
    | ok d' => simp only [ok_bind, ih]

theorem structurize_eq {ls : List (List Py × Py)} (h : ∀ e ∈ ls, PathOk e.1) (d : PyInst) :
    structurize (ls.map fun e => (pathName e.1, e.2)) d = insertAll ls d := by
  induction ls generalizing d with
  | nil => rfl
  | cons e ls ih =>
    obtain ⟨p, v⟩ := e
    have hp := h _ List.mem_cons_self
    have ih' := fun d => ih (fun e he => h e (List.mem_cons_of_mem _ he)) d
    match p, hp with
    | [k], hp =>
      have e0 : pathName [k] = k := rfl
      simp only [List.map_cons, e0, insertAll, insertPath, ok_bind]
      rw [structurize]
      · exact ih' _
      · exact hp.1
    | k :: k' :: ks, hp =>
      obtain ⟨x, y, exy⟩ := foldl_memberName_pair (o := k) (ks := k' :: ks) (by simp)
      have e1 : pathName (k :: k' :: ks) = .tup [x, y] := exy
      have e2 : getPath (.tup [x, y]) = k :: k' :: ks := by rw [← e1, getPath_pathName hp]
      simp only [List.map_cons, insertAll, e1, structurize, e2]
      cases insertPath d v (k :: k' :: ks) with
      | error e => rfl
      | ok d' => exact ih' d'

theorem insertPath_cons_dict {d e : PyInst} {k : Py} {v : Py} {p : List Py} (hp : p ≠ [])
    (h : d.get? k = some (.dict e)) :
    insertPath d v (k :: p) = (insertPath e v p).bind fun e' => .ok (d.set k (.dict e')) := by
  cases p with
  | nil => exact absurd rfl hp
  | cons k' ks => simp only [insertPath, h]; rfl

theorem insertPath_cons_none {d : PyInst} {k : Py} {v : Py} {p : List Py} (hp : p ≠ [])
    (h : d.get? k = none) :
    insertPath d v (k :: p) = (insertPath [] v p).bind fun e' => .ok (d.set k (.dict e')) := by
  cases p with
  | nil => exact absurd rfl hp
  | cons k' ks => simp only [insertPath, h]; rfl

theorem insertAll_under {ls : List (List Py × Py)} (hp : ∀ e ∈ ls, e.1 ≠ []) {k : Py} {d e e' : PyInst}
    (h : insertAll ls e = .ok e') :
    insertAll (ls.map fun x => (k :: x.1, x.2)) (d.set k (.dict e)) = .ok (d.set k (.dict e')) := by
  induction ls generalizing e with
  | nil => cases h; rfl
  | cons x ls ih =>
    obtain ⟨p, v⟩ := x
    simp only [insertAll] at h
    obtain ⟨e1, h1, h2⟩ := bind_ok.1 h
    simp only [List.map_cons, insertAll]
    rw [insertPath_cons_dict (hp _ List.mem_cons_self) (Dict.get?_set_self d k _), h1]
    simp only [Except.bind, ok_bind, Dict.set_set]
    exact ih (fun e he => hp e (List.mem_cons_of_mem _ he)) h2

theorem insertAll_new {ls : List (List Py × Py)} (hne : ls ≠ []) (hp : ∀ e ∈ ls, e.1 ≠ []) {k : Py}
    {d e' : PyInst} (hk : d.get? k = none) (h : insertAll ls [] = .ok e') :
    insertAll (ls.map fun x => (k :: x.1, x.2)) d = .ok (d.set k (.dict e')) := by
  cases ls with
  | nil => exact absurd rfl hne
  | cons x ls =>
    obtain ⟨p, v⟩ := x
    simp only [insertAll] at h
    obtain ⟨e1, h1, h2⟩ := bind_ok.1 h
    simp only [List.map_cons, insertAll]
    rw [insertPath_cons_none (hp _ List.mem_cons_self) hk, h1]
    simp only [Except.bind, ok_bind]
    exact insertAll_under (fun e he => hp e (List.mem_cons_of_mem _ he)) h2

mutual
theorem leavesV_ne {v : Py} (h : componentOk v) : leavesV v ≠ [] := by
  match v, h with
  | .dict l, h => exact leavesD_ne h.1 h.2.2
  | .none, _ | .bool _, _ | .num _, _ | .str _, _ | .tup _, _ | .list _, _ | .other _ _ _, _ =>
    simp [leavesV]
theorem leavesD_ne {l : List (Py × Py)} (hl : l ≠ []) (h : membersOk l) : leavesD l ≠ [] := by
  match l, hl, h with
  | (k, v) :: l, _, h =>
    simp only [leavesD]
    intro hc
    exact leavesV_ne h.1.2.2 (List.map_eq_nil_iff.1 (List.append_eq_nil_iff.1 hc).1)
end

mutual
/-- Inserting the values of a component under its name. -/
theorem insertAll_value {v k : Py} {d : PyInst} (h : componentOk v) (hk : d.get? k = none) :
    insertAll ((leavesV v).map fun x => (k :: x.1, x.2)) d = .ok (d ++ [(k, v)]) := by
  match v, h with
  | .dict l, h =>
    have h1 := insertAll_members (d := []) h.2.2 (by simpa using h.2.1)
    rw [List.nil_append] at h1
    rw [← Dict.set_of_not_mem (Dict.get?_eq_none.1 hk)]
    exact insertAll_new (leavesD_ne h.1 h.2.2) (fun e he => (leavesD_paths h.2.2 e he).1) hk h1
  | .none, _ | .bool _, _ | .num _, _ | .str _, _ | .tup _, _ | .list _, _ | .other _ _ _, _ =>
    simp only [leavesV, List.map_cons, List.map_nil, insertAll, insertPath, ok_bind]
    rw [Dict.set_of_not_mem (Dict.get?_eq_none.1 hk)]
theorem insertAll_members {l : List (Py × Py)} {d : PyInst} (h : membersOk l) (hn : Dict.Nodup (d ++ l)) :
    insertAll (leavesD l) d = .ok (d ++ l) := by
  match l, h with
  | [], _ => simp [leavesD, insertAll]
  | (k, v) :: l, h =>
    have hk : d.get? k = none := by
      rw [Dict.get?_eq_none]
      unfold Dict.Nodup at hn
      rw [Dict.keys_append, List.nodup_append] at hn
      exact fun hc => hn.2.2 _ hc k (by simp) rfl
    rw [leavesD, insertAll_append, insertAll_value h.1.2.2 hk]
    simp only [Except.bind]
    rw [insertAll_members h.2 (by simpa using hn)]
    simp
end

theorem insertAll_top {l : List (Py × Py)} {d : PyInst} (h : ∀ p ∈ l, componentOk p.2)
    (hn : Dict.Nodup (d ++ l)) : insertAll (leavesD l) d = .ok (d ++ l) := by
  induction l generalizing d with
  | nil => simp [leavesD, insertAll]
  | cons p l ih =>
    obtain ⟨k, v⟩ := p
    have hk : d.get? k = none := by
      rw [Dict.get?_eq_none]
      unfold Dict.Nodup at hn
      rw [Dict.keys_append, List.nodup_append] at hn
      exact fun hc => hn.2.2 _ hc k (by simp) rfl
    rw [leavesD, insertAll_append, insertAll_value (h _ List.mem_cons_self) hk]
    simp only [Except.bind]
    rw [ih (fun p hp => h p (List.mem_cons_of_mem _ hp)) (by simpa using hn)]
    simp

theorem unflatten_eq {i : PyInst} (h : Structured i) :
    unflatten ((leavesD i).map fun e => (pathName e.1, e.2)) = .ok i := by
  unfold unflatten
  rw [structurize_eq (structured_paths h), insertAll_top (fun p hp => (h.2 p hp).2) (by simpa using h.1)]
  simp

end CF
