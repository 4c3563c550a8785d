/-
What `ListsToRelations` makes of an instance, and back.
-/
import Verif.Proofs.ListExtract
import Verif.Proofs.ListChain
import Verif.Proofs.Flatten

namespace CF
open Py

mutual
/-- Lists replaced by `{}`. -/
def stripV : Py → Py
  | .list _ => .dict []
  | .dict l => .dict (stripD l)
  | v => v
def stripD : List (Py × Py) → List (Py × Py)
  | [] => []
  | (k, v) :: l => (k, stripV v) :: stripD l
end

mutual
/-- The lists with their paths. -/
def listsV (p : List Py) : Py → List (List Py × List Py)
  | .list es => [(p, es)]
  | .dict l => listsD p l
  | _ => []
def listsD (p : List Py) : List (Py × Py) → List (List Py × List Py)
  | [] => []
  | (k, v) :: l => listsV (p ++ [k]) v ++ listsD p l
end

/-- The name of the list at a path. -/
def listName : List Py → Py
  | [] => .none
  | k :: ks => ks.foldl (fun n k => .tup [k, n]) k

theorem listName_snoc {p : List Py} (h : p ≠ []) (k : Py) : listName (p ++ [k]) = .tup [k, listName p] := by
  cases p with
  | nil => exact absurd rfl h
  | cons a p => simp [listName]

/-- The relations of a list. -/
def relEntries (n : Py) : List Py → PyInst
  | [] => []
  | [e] => [(elemRel n e, .bool true)]
  | e :: e' :: es => (orderRel n e e', .bool true) :: (elemRel n e, .bool true) :: relEntries n (e' :: es)

/-- The relations of some lists. -/
def allRels (L : List (List Py × List Py)) : PyInst := L.flatMap fun q => relEntries (listName q.1) q.2

/-- The entries that `_lists_to_relations` adds. -/
def outTop : List (Py × Py) → PyInst
  | [] => []
  | (k, .list es) :: l => (k, .dict []) :: relEntries k es ++ outTop l
  | (k, v) :: l => allRels (listsV [k] v) ++ [(k, stripV v)] ++ outTop l

theorem setAll_app (d a b : PyInst) : setAll d (a ++ b) = setAll (setAll d a) b := by
  simp [setAll]

variable {cfg : ListCfg}

theorem addListRels_eq {n : Py} (hn : n.hashable = true) : ∀ (es : List Py) (top : PyInst),
    (∀ e ∈ es, ∃ s, e = Py.str s) → addListRels cfg n es top = .ok (setAll top (relEntries n es))
  | [], top, _ => rfl
  | [e], top, h => by
    obtain ⟨s, rfl⟩ := h e List.mem_cons_self
    simp [addListRels, elemRel, hashable, hashableL, hn, relEntries, setAll]
  | e :: e' :: es, top, h => by
    obtain ⟨s, rfl⟩ := h e List.mem_cons_self
    obtain ⟨s', rfl⟩ := h e' (by simp)
    have ih := addListRels_eq hn (.str s' :: es)
      ((top.set (orderRel n (.str s) (.str s')) (.bool true)).set (elemRel n (.str s)) (.bool true))
      fun e he => h e (List.mem_cons_of_mem _ he)
    simp only [addListRels, ListCfg.str]
    rw [if_pos (by simp [elemRel, hashable, hashableL, hn]), ih]
    rfl

theorem keys_stripD (l : List (Py × Py)) : Dict.keys (stripD l) = Dict.keys l := by
  induction l with
  | nil => rfl
  | cons p l ih => simp [stripD, ih]

mutual
theorem relV_eq : ∀ (v : Py) (p : List Py) (top : PyInst), p ≠ [] → (listName p).hashable = true → v.wf →
    KeysV (fun k => k.hashable = true) v → FlatV v →
    relV cfg (listName p) v top = .ok (stripV v, setAll top (allRels (listsV p v)))
  | .list es, p, top, hp, hh, hw, hk, hf => by
    simp only [relV, addListRels_eq hh es top hf.2.2, ok_bind, stripV, listsV, allRels, List.flatMap_cons,
      List.flatMap_nil, List.append_nil]
    rfl
  | .dict l, p, top, hp, hh, hw, hk, hf => by
    have := relD_eq l p [] top hp hh hw.2 hk hf (by exact hw.1)
    simp only [relV, this, ok_bind, stripV, listsV]
    rfl
  | .none, p, top, _, _, _, _, _ | .bool _, p, top, _, _, _, _, _ | .num _, p, top, _, _, _, _, _
  | .str _, p, top, _, _, _, _, _ | .tup _, p, top, _, _, _, _, _ | .other _ _ _, p, top, _, _, _, _, _ => by
    rw [relV]
    · rfl
    all_goals intros; contradiction
theorem relD_eq : ∀ (l : List (Py × Py)) (p : List Py) (new top : PyInst), p ≠ [] →
    (listName p).hashable = true → wfD l → KeysD (fun k => k.hashable = true) l → FlatD l →
    (Dict.keys new ++ Dict.keys l).Nodup →
    relD cfg (listName p) l new top = .ok (new ++ stripD l, setAll top (allRels (listsD p l)))
  | [], p, new, top, _, _, _, _, _, _ => by simp [relD, stripD, listsD, allRels, setAll]
  | (k, v) :: l, p, new, top, hp, hh, hw, hk, hf, hn => by
    have h1 : (listName (p ++ [k])).hashable = true := by
      rw [listName_snoc hp]; simp [hashable, hashableL, hh, hk.1.1]
    have e := relV_eq v (p ++ [k]) top (by simp) h1 hw.1 hk.1.2 hf.1
    rw [listName_snoc hp] at e
    have hnot : k ∉ Dict.keys new := fun hm => (List.nodup_append.1 hn).2.2 k hm k (by simp) rfl
    have e2 := relD_eq l p (new ++ [(k, stripV v)]) (setAll top (allRels (listsV (p ++ [k]) v))) hp hh hw.2 hk.2 hf.2
      (by simpa using hn)
    have e3 : allRels (listsD p ((k, v) :: l)) = allRels (listsV (p ++ [k]) v) ++ allRels (listsD p l) := by
      simp [listsD, allRels]
    rw [e3, setAll_app]
    simp only [relD, e, ok_bind, Dict.set_of_not_mem hnot, e2, stripD, List.append_assoc, List.singleton_append]
end

theorem relTop_eq : ∀ (l : List (Py × Py)) (top : PyInst), wfD l →
    KeysD (fun k => k.hashable = true) l → FlatD l → relTop cfg l top = .ok (setAll top (outTop l))
  | [], top, _, _, _ => rfl
  | (k, v) :: l, top, hw, hk, hf => by
    by_cases hv : ∃ es, v = .list es
    · obtain ⟨es, rfl⟩ := hv
      have e := addListRels_eq (cfg := cfg) hk.1.1 es (top.set k (.dict [])) hf.1.2.2
      have e2 := relTop_eq l (setAll (top.set k (.dict [])) (relEntries k es)) hw.2 hk.2 hf.2
      simp only [relTop, e, ok_bind, e2, outTop, List.cons_append]
      rw [← setAll_app]; rfl
    · have e := relV_eq (cfg := cfg) v [k] top (by simp) hk.1.1 hw.1 hk.1.2 hf.1
      have e2 := relTop_eq l ((setAll top (allRels (listsV [k] v))).set k (stripV v)) hw.2 hk.2 hf.2
      rw [relTop, show relV cfg k v top = _ from e]
      · simp only [ok_bind]
        rw [e2, outTop, setAll_app, setAll_app]
        · rfl
        · rintro es rfl; exact hv ⟨es, rfl⟩
      · rintro es e'; exact hv ⟨es, e'⟩

theorem outTop_perm (l : List (Py × Py)) : (outTop l).Perm (stripD l ++ allRels (listsD [] l)) := by
  induction l with
  | nil => exact .refl _
  | cons p l ih =>
    obtain ⟨k, v⟩ := p
    have key : ∀ A : PyInst, (A ++ [(k, stripV v)] ++ outTop l).Perm ((k, stripV v) :: (stripD l ++ (A ++ allRels (listsD [] l)))) := by
      intro A
      rw [List.append_assoc]
      refine (List.perm_middle (l₁ := A)).trans (List.Perm.cons _ ?_)
      refine (ih.append_left A).trans ?_
      rw [← List.append_assoc, ← List.append_assoc]
      exact List.Perm.append_right _ List.perm_append_comm
    have : allRels (listsD [] ((k, v) :: l)) = allRels (listsV [k] v) ++ allRels (listsD [] l) := by
      simp [listsD, allRels]
    rw [this, stripD, List.cons_append]
    cases v with
    | list es =>
      have e : allRels (listsV [k] (.list es)) = relEntries k es := by simp [listsV, allRels, listName]
      rw [e, outTop]
      refine List.Perm.trans ?_ (key (relEntries k es))
      rw [List.append_assoc, stripV]
      exact (List.perm_middle (l₁ := relEntries k es)).symm
    | _ =>
      rw [outTop]
      · exact key _
      all_goals intros; contradiction

/-! ### The relations are all different -/

theorem mem_relEntries {n k : Py} {es : List Py} : k ∈ Dict.keys (relEntries n es) ↔
    (∃ e ∈ es, k = elemRel n e) ∨ ∃ p ∈ neighbours es, k = orderRel n p.1 p.2 := by
  induction es with
  | nil => simp [relEntries, neighbours]
  | cons e es ih =>
    cases es with
    | nil => simp [relEntries, neighbours]
    | cons e' es =>
      simp only [relEntries, Dict.keys_cons, List.mem_cons, ih, neighbours_cons, exists_eq_or_imp]
      constructor
      · rintro (h | h | (h | h) | h)
        · exact .inr (.inl h)
        · exact .inl (.inl h)
        · exact .inl (.inr (.inl h))
        · exact .inl (.inr (.inr h))
        · exact .inr (.inr h)
      · rintro ((h | h | h) | h | h)
        · exact .inr (.inl h)
        · exact .inr (.inr (.inl (.inl h)))
        · exact .inr (.inr (.inl (.inr h)))
        · exact .inl h
        · exact .inr (.inr (.inr h))

theorem elemRel_inj {n n' e e' : Py} : elemRel n e = elemRel n' e' ↔ n = n' ∧ e = e' := by
  simp [elemRel]

theorem orderRel_inj {n n' a a' b b' : Py} : orderRel n a b = orderRel n' a' b' ↔ n = n' ∧ a = a' ∧ b = b' := by
  simp [orderRel]

theorem elemRel_ne_orderRel {n n' e a b : Py} : elemRel n e ≠ orderRel n' a b := by simp [elemRel, orderRel]

theorem nodup_relEntries {n : Py} {es : List Py} (h : es.Nodup) : Dict.Nodup (relEntries n es) := by
  induction es with
  | nil => exact Dict.nodup_nil
  | cons e es ih =>
    cases es with
    | nil => exact Dict.nodup_cons.2 ⟨by simp, Dict.nodup_nil⟩
    | cons e' es =>
      have hn := List.nodup_cons.1 h
      refine Dict.nodup_cons.2 ⟨?_, Dict.nodup_cons.2 ⟨?_, ih hn.2⟩⟩
      · intro hm
        rcases List.mem_cons.1 hm with hm | hm
        · exact elemRel_ne_orderRel hm.symm
        · rcases mem_relEntries.1 hm with ⟨x, _, hx⟩ | ⟨p, hp, hx⟩
          · exact elemRel_ne_orderRel hx.symm
          · have := List.dropLast_subset _ (mem_neighbours_left hp)
            rw [← (orderRel_inj.1 hx).2.1] at this
            exact hn.1 this
      · intro hm
        rcases mem_relEntries.1 hm with ⟨x, hx, hx'⟩ | ⟨p, _, hx⟩
        · rw [← (elemRel_inj.1 hx').2] at hx
          exact hn.1 hx
        · exact elemRel_ne_orderRel hx

mutual
theorem listsV_prefix : ∀ (v : Py) (p : List Py), ∀ q ∈ listsV p v, p <+: q.1
  | .list es, p, q, hq => by
    rw [listsV, List.mem_singleton] at hq
    rw [hq]
  | .dict l, p, q, hq => by
    rw [listsV] at hq
    obtain ⟨k, _, h⟩ := listsD_prefix l p q hq
    exact (List.prefix_append p [k]).trans h
  | .none, p, q, hq | .bool _, p, q, hq | .num _, p, q, hq | .str _, p, q, hq | .tup _, p, q, hq
  | .other _ _ _, p, q, hq => by
    rw [listsV] at hq
    · cases hq
    all_goals intros; contradiction
theorem listsD_prefix : ∀ (l : List (Py × Py)) (p : List Py), ∀ q ∈ listsD p l, ∃ k ∈ Dict.keys l, (p ++ [k]) <+: q.1
  | [], p, q, hq => by rw [listsD] at hq; cases hq
  | (k, v) :: l, p, q, hq => by
    rw [listsD, List.mem_append] at hq
    rcases hq with hq | hq
    · exact ⟨k, by simp, listsV_prefix v _ q hq⟩
    · obtain ⟨k', h1, h2⟩ := listsD_prefix l p q hq
      exact ⟨k', List.mem_cons_of_mem _ h1, h2⟩
end

theorem prefix_snoc_inj {p q : List Py} {a b : Py} (h1 : (p ++ [a]) <+: q) (h2 : (p ++ [b]) <+: q) : a = b := by
  have := List.prefix_of_prefix_length_le h1 h2 (by simp)
  have := List.IsPrefix.eq_of_length this (by simp)
  simpa using this

mutual
theorem listsV_nodup : ∀ (v : Py) (p : List Py), v.wf → ((listsV p v).map Prod.fst).Nodup
  | .list es, p, _ => by simp [listsV]
  | .dict l, p, h => by rw [listsV]; exact listsD_nodup l p h.2 h.1
  | .none, p, _ | .bool _, p, _ | .num _, p, _ | .str _, p, _ | .tup _, p, _ | .other _ _ _, p, _ => by
    rw [listsV]
    · exact List.nodup_nil
    all_goals intros; contradiction
theorem listsD_nodup : ∀ (l : List (Py × Py)) (p : List Py), wfD l → Dict.Nodup l → ((listsD p l).map Prod.fst).Nodup
  | [], p, _, _ => by simp [listsD]
  | (k, v) :: l, p, h, hn => by
    rw [listsD, List.map_append]
    refine List.Nodup.append (listsV_nodup v _ h.1) (listsD_nodup l p h.2 (Dict.nodup_cons.1 hn).2) ?_
    intro x hx hx'
    obtain ⟨q, hq, rfl⟩ := List.mem_map.1 hx
    obtain ⟨q', hq', e⟩ := List.mem_map.1 hx'
    obtain ⟨k', hk', h2⟩ := listsD_prefix l p q' hq'
    rw [e] at h2
    have := prefix_snoc_inj (listsV_prefix v _ q hq) h2
    exact (Dict.nodup_cons.1 hn).1 (this ▸ hk')
end

/-- The path of a name. -/
theorem listPathRev_name {k : Py} (h : ∀ a b, k ≠ .tup [a, b]) (ks : List Py) :
    (listPathRev (listName (k :: ks))).reverse = k :: ks := by
  have h0 : listPathRev k = [k] := by
    unfold listPathRev
    split
    · exact absurd rfl (h _ _)
    · rfl
  have : ∀ (ks : List Py) (n : Py), listPathRev (ks.foldl (fun n k => Py.tup [k, n]) n) = ks.reverse ++ listPathRev n := by
    intro ks
    induction ks with
    | nil => intro n; rfl
    | cons k ks ih => intro n; simp [ih, listPathRev]
  simp [listName, this, h0]

/-- Paths that start with an attribute that is not a pair. -/
def GoodPath (p : List Py) : Prop := ∃ k ks, p = k :: ks ∧ ∀ a b, k ≠ .tup [a, b]

theorem GoodPath.back {p : List Py} (h : GoodPath p) : (listPathRev (listName p)).reverse = p := by
  obtain ⟨k, ks, rfl, h⟩ := h
  exact listPathRev_name h ks

theorem GoodPath.inj {p q : List Py} (hp : GoodPath p) (hq : GoodPath q) (h : listName p = listName q) : p = q := by
  rw [← hp.back, h, hq.back]

theorem listsD_good {l : List (Py × Py)} (h : TopAttrs l) : ∀ q ∈ listsD [] l, GoodPath q.1 := by
  induction l with
  | nil => intro q hq; rw [listsD] at hq; cases hq
  | cons p l ih =>
    obtain ⟨k, v⟩ := p
    intro q hq
    rw [listsD, List.mem_append] at hq
    rcases hq with hq | hq
    · obtain ⟨r, hr⟩ := listsV_prefix v _ q hq
      refine ⟨k, r, by rw [← hr]; simp, ?_⟩
      refine (h _ List.mem_cons_self).2 ?_
      cases v <;> first | rfl | (simp [listsV] at hq)
    · exact ih (fun p hp => h p (List.mem_cons_of_mem _ hp)) q hq

theorem mem_allRels {L : List (List Py × List Py)} {k : Py} : k ∈ Dict.keys (allRels L) ↔
    ∃ q ∈ L, k ∈ Dict.keys (relEntries (listName q.1) q.2) := by
  simp only [Dict.keys, allRels, List.mem_map, List.mem_flatMap]
  constructor
  · rintro ⟨p, ⟨q, hq, hp⟩, rfl⟩
    exact ⟨q, hq, p, hp, rfl⟩
  · rintro ⟨q, hq, p, hp, rfl⟩
    exact ⟨p, ⟨q, hq, hp⟩, rfl⟩

theorem nodup_allRels {L : List (List Py × List Py)} (hg : ∀ q ∈ L, GoodPath q.1) (hn : (L.map Prod.fst).Nodup)
    (he : ∀ q ∈ L, q.2.Nodup) : Dict.Nodup (allRels L) := by
  induction L with
  | nil => exact Dict.nodup_nil
  | cons q L ih =>
    have hn' := List.nodup_cons.1 hn
    refine nodup_append_dict (d := relEntries (listName q.1) q.2) (nodup_relEntries (he q List.mem_cons_self))
      (ih (fun q hq => hg q (List.mem_cons_of_mem _ hq)) hn'.2 fun q hq => he q (List.mem_cons_of_mem _ hq)) ?_
    intro k hk hk'
    obtain ⟨q', hq', hk⟩ := mem_allRels.1 hk
    have : listName q'.1 = listName q.1 := by
      rcases mem_relEntries.1 hk with ⟨_, _, rfl⟩ | ⟨_, _, rfl⟩ <;>
      rcases mem_relEntries.1 hk' with ⟨_, _, e⟩ | ⟨_, _, e⟩
      · exact (elemRel_inj.1 e).1
      · exact absurd e elemRel_ne_orderRel
      · exact absurd e.symm elemRel_ne_orderRel
      · exact (orderRel_inj.1 e).1
    have := GoodPath.inj (hg q' (List.mem_cons_of_mem _ hq')) (hg q List.mem_cons_self) this
    exact hn'.1 (this ▸ List.mem_map.2 ⟨q', hq', rfl⟩)

mutual
theorem listsV_flat : ∀ (v : Py) (p : List Py), FlatV v → ∀ q ∈ listsV p v,
    q.2 ≠ [] ∧ q.2.Nodup ∧ ∀ e ∈ q.2, ∃ s, e = Py.str s
  | .list es, p, h, q, hq => by
    rw [listsV, List.mem_singleton] at hq
    rw [hq]; exact h
  | .dict l, p, h, q, hq => by rw [listsV] at hq; exact listsD_flat l p h q hq
  | .none, p, _, q, hq | .bool _, p, _, q, hq | .num _, p, _, q, hq | .str _, p, _, q, hq | .tup _, p, _, q, hq
  | .other _ _ _, p, _, q, hq => by
    rw [listsV] at hq
    · cases hq
    all_goals intros; contradiction
theorem listsD_flat : ∀ (l : List (Py × Py)) (p : List Py), FlatD l → ∀ q ∈ listsD p l,
    q.2 ≠ [] ∧ q.2.Nodup ∧ ∀ e ∈ q.2, ∃ s, e = Py.str s
  | [], p, _, q, hq => by rw [listsD] at hq; cases hq
  | (k, v) :: l, p, h, q, hq => by
    rw [listsD, List.mem_append] at hq
    rcases hq with hq | hq
    · exact listsV_flat v _ h.1 q hq
    · exact listsD_flat l p h.2 q hq
end

theorem notListRel_elem {n e : Py} : ¬ NotListRel (elemRel n e) := fun h => h.2.1 _ rfl
theorem notListRel_order {n a b : Py} : ¬ NotListRel (orderRel n a b) := fun h => h.2.2 _ rfl

theorem rel_not_attr {n k : Py} {es : List Py} (h : k ∈ Dict.keys (relEntries n es)) : ¬ NotListRel k := by
  rcases mem_relEntries.1 h with ⟨_, _, rfl⟩ | ⟨_, _, rfl⟩
  · exact notListRel_elem
  · exact notListRel_order

theorem nodup_outTop {l : List (Py × Py)} (hw : wfD l) (hn : Dict.Nodup l) (ht : TopAttrs l) (hf : FlatD l) :
    Dict.Nodup (outTop l) := by
  refine (nodup_perm (outTop_perm l)).2 (nodup_append_dict (by rw [Dict.Nodup, keys_stripD]; exact hn)
    (nodup_allRels (listsD_good ht) (listsD_nodup l [] hw hn) fun q hq => (listsD_flat l [] hf q hq).2.1) ?_)
  intro k hk hk'
  obtain ⟨q, _, hk⟩ := mem_allRels.1 hk
  rw [keys_stripD] at hk'
  obtain ⟨p, hp, rfl⟩ := List.mem_map.1 hk'
  exact rel_not_attr hk (ht p hp).1

/-- The instance with its lists as relations. -/
theorem lists_to_relations {l : List (Py × Py)} (hw : wfD l) (hn : Dict.Nodup l)
    (hk : KeysD (fun k => k.hashable = true) l) (ht : TopAttrs l) (hf : FlatD l) :
    relTop cfg l [] = .ok (outTop l) := by
  rw [relTop_eq l [] hw hk hf, setAll_nodup (by exact nodup_outTop hw hn ht hf)]
  rfl

end CF
