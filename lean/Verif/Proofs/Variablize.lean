/-
What the object variablizer returns.
-/
import Verif.Spec.Variablize
import Verif.Proofs.Convert

namespace CF
variable {ts : Option (List Py)}

mutual
theorem renameEl_nil : ∀ (x : Py), renameEl [] x = x
  | .tup l => by rw [renameEl]; simp [renameRel_nil l]
  | .none | .bool _ | .num _ | .str _ | .list _ | .dict _ | .other _ _ _ => by simp [renameEl]
theorem renameRel_nil : ∀ (l : List Py), renameRel [] l = l
  | [] => rfl
  | x :: xs => by rw [renameRel, renameEl_nil x, renameRel_nil xs]
end

theorem renameRelation_nil (x : Py) : renameRelation [] x = x := by
  cases x with
  | tup l => rw [renameRelation, renameRel_nil]
  | _ => rfl

theorem addRelations_nil : ∀ {rels new : PyInst}, (Dict.keys new ++ Dict.keys rels).Nodup →
    addRelations [] new rels = new ++ rels
  | [], new, _ => by simp [addRelations]
  | (r, v) :: rels, new, h => by
    have hnot : r ∉ Dict.keys new := fun hc => (List.nodup_append.1 h).2.2 _ hc _ (by simp) rfl
    rw [addRelations, renameRelation_nil, Dict.set_of_not_mem hnot, addRelations_nil]
    · simp
    · simpa [Dict.keys] using h

theorem varName_str {k : Py} (h : ∃ c s, k = .str (c :: s)) : varName k = .ok (markName k) := by
  obtain ⟨c, s, rfl⟩ := h
  by_cases hc : c = '?'
  · subst hc; rfl
  · have h2 : markName (.str (c :: s)) = .str ('?' :: c :: s) := by
      unfold markName
      split
      · rename_i e; cases e; exact absurd rfl hc
      · rename_i e; cases e; rfl
      · rename_i e; exact absurd rfl (e _)
    rw [h2]
    simp [varName, Py.index0, ok_bind, hc, pure, Except.pure]

theorem mem_placesD {l : List (Py × Py)} {e : List Py × Option Py} :
    e ∈ placesD l ↔ ∃ p ∈ l, ∃ f ∈ placesV p.2, e = (p.1 :: f.1, f.2) := by
  induction l with
  | nil => simp [placesD]
  | cons p l ih =>
    obtain ⟨k, v⟩ := p
    simp only [placesD, List.mem_append, ih, List.mem_map, List.mem_cons, exists_eq_or_imp]
    constructor
    · rintro (⟨f, hf, rfl⟩ | h)
      · exact .inl ⟨f, hf, rfl⟩
      · exact .inr h
    · rintro (⟨f, hf, rfl⟩ | h)
      · exact .inl ⟨f, hf, rfl⟩
      · exact .inr h

/-- The places of a value and of its marked version. -/
def PlacesMarked (ts : Option (List Py)) (v w : Py) : Prop :=
  ∀ e, e ∈ placesV w ↔ ∃ f ∈ placesV v, e = (markPath ts f.1 f.2, f.2)

/-- An entry and its marked version. -/
def EntryMarked (ts : Option (List Py)) (p q : Py × Py) : Prop :=
  q.1 = entryName ts p ∧
    ((Marked ts p.1 ∧ p.2.isDict = true → PlacesMarked ts p.2 q.2 ∧ q.2.isDict = true) ∧
      (¬ (Marked ts p.1 ∧ p.2.isDict = true) → q.2 = p.2))

theorem marked_iff {k : Py} : Marked ts k ↔ k.isTup = false ∧ targeted ts k = true := by
  rw [Marked, targeted_iff, and_comm]

theorem entryName_isTup {p : Py × Py} (h : Marked ts p.1 → p.2.isDict = true → ∃ c s, p.1 = .str (c :: s)) :
    (entryName ts p).isTup = p.1.isTup := by
  unfold entryName
  split
  · rename_i hc
    obtain ⟨c, s, e⟩ := h hc.1 hc.2
    rw [e]
    have := varName_str (k := .str (c :: s)) ⟨c, s, rfl⟩
    unfold markName
    split <;> first | rfl | (rename_i e _; cases e; rfl) | (rename_i e; cases e; rfl) | rfl
  · rfl

theorem places_marked {l es : List (Py × Py)} (hes : List.Forall₂ (EntryMarked ts) l es)
    (e : List Py × Option Py) : e ∈ placesD es ↔ ∃ f ∈ placesD l, e = (markPath ts f.1 f.2, f.2) := by
  induction hes with
  | nil => simp [placesD]
  | @cons p q l es hpq _ ih =>
    obtain ⟨k, v⟩ := p
    obtain ⟨k', v'⟩ := q
    simp only [placesD, List.mem_append, List.mem_map, or_and_right, exists_or]
    rw [ih]
    refine or_congr_left ?_
    obtain ⟨h4, h5, h6⟩ := hpq
    simp only at h4 h5 h6
    by_cases hc : Marked ts k ∧ v.isDict = true
    · obtain ⟨h7, _⟩ := h5 hc
      have h8 : k' = markName k := by rw [h4, entryName, if_pos hc]
      have key : ∀ f ∈ placesV v, markPath ts (k :: f.1) f.2 = markName k :: markPath ts f.1 f.2 := by
        intro f hf
        obtain ⟨l', rfl⟩ : ∃ l', v = .dict l' := by cases v <;> simp [Py.isDict] at hc ⊢
        rcases List.mem_cons.1 hf with rfl | hf
        · simp [markPath, hc.1]
        · obtain ⟨p, _, g, _, rfl⟩ := mem_placesD.1 hf
          rw [markPath, if_pos hc.1]
          simp
      constructor
      · rintro ⟨f, hf, rfl⟩
        obtain ⟨g, hg, rfl⟩ := (h7 f).1 hf
        exact ⟨(k :: g.1, g.2), ⟨g, hg, rfl⟩, by simp only [key g hg, h8]⟩
      · rintro ⟨_, ⟨g, hg, rfl⟩, rfl⟩
        exact ⟨(markPath ts g.1 g.2, g.2), (h7 _).2 ⟨g, hg, rfl⟩, by simp only [key g hg, h8]⟩
    · have h7 := h6 hc
      have h8 : k' = k := by rw [h4, entryName, if_neg hc]
      rw [h7, h8]
      have key : ∀ f ∈ placesV v, markPath ts (k :: f.1) f.2 = k :: f.1 := by
        intro f hf
        by_cases hd : v.isDict = true
        · have hm : ¬ Marked ts k := fun h => hc ⟨h, hd⟩
          obtain ⟨l', rfl⟩ : ∃ l', v = .dict l' := by cases v <;> simp [Py.isDict] at hd ⊢
          rcases List.mem_cons.1 hf with rfl | hf
          · simp [markPath, hm]
          · obtain ⟨p, _, g, _, rfl⟩ := mem_placesD.1 hf
            rw [markPath, if_neg hm]
            simp
        · have : f = ([], some v) := by
            cases v <;> first | simpa [placesV] using hf | simp [Py.isDict] at hd
          subst this
          rfl
      constructor
      · rintro ⟨f, hf, rfl⟩
        exact ⟨(k :: f.1, f.2), ⟨f, hf, rfl⟩, by simp only [key f hf]⟩
      · rintro ⟨_, ⟨g, hg, rfl⟩, rfl⟩
        exact ⟨g, hg, by simp only [key g hg]⟩

mutual
theorem variablizeV_spec : ∀ (v : Py), MarkableV ts v →
    ∃ w, variablizeV ts v = .ok w ∧ (v.isDict = true → PlacesMarked ts v w ∧ w.isDict = true ∧
      ∃ l l', v = .dict l ∧ w = .dict l' ∧ List.Perm (Dict.keys l') (l.map (entryName ts)))
  | .dict l, h => by
    obtain ⟨o, h1, h2⟩ := variablizeD_spec l h.2 [] [] (by simpa [Dict.keys] using h.1)
    obtain ⟨es, hes, hp⟩ := h2
    have hk : List.Perm (Dict.keys o) (l.map (entryName ts)) := by
      have h3 : Dict.keys es = l.map (entryName ts) := by
        clear hp h1 h
        induction hes with
        | nil => rfl
        | cons hd _ ih => simp only [Dict.keys_cons, List.map_cons, ih, hd.1]
      rw [← h3]
      simpa [Dict.keys] using hp.map Prod.fst
    refine ⟨.dict o, by rw [variablizeV, h1]; rfl, fun _ => ⟨?_, rfl, l, o, rfl, rfl, hk⟩⟩
    intro e
    simp only [placesV, List.mem_cons]
    have hmem : e ∈ placesD o ↔ ∃ f ∈ placesD l, e = (markPath ts f.1 f.2, f.2) := by
      have h3 : e ∈ placesD o ↔ e ∈ placesD es := by
        rw [mem_placesD, mem_placesD]
        simp only [List.append_nil, List.nil_append] at hp
        constructor
        · rintro ⟨p, hp', r⟩; exact ⟨p, hp.mem_iff.1 hp', r⟩
        · rintro ⟨p, hp', r⟩; exact ⟨p, hp.mem_iff.2 hp', r⟩
      rw [h3]
      exact places_marked hes e
    rw [hmem]
    constructor
    · rintro (rfl | ⟨f, hf, rfl⟩)
      · exact ⟨([], none), .inl rfl, rfl⟩
      · exact ⟨f, .inr hf, rfl⟩
    · rintro ⟨f, rfl | hf, rfl⟩
      · exact .inl rfl
      · exact .inr ⟨f, hf, rfl⟩
  | .none, _ | .bool _, _ | .num _, _ | .str _, _ | .tup _, _ | .list _, _ | .other _ _ _, _ =>
    ⟨_, by rw [variablizeV]; simp, by simp [Py.isDict]⟩
theorem variablizeD_spec : ∀ (l : List (Py × Py)), MarkableD ts l → ∀ (new rels : PyInst),
    (Dict.keys new ++ Dict.keys rels ++ l.map (entryName ts)).Nodup →
    ∃ o, variablizeD ts l new rels = .ok o ∧
      ∃ es, List.Forall₂ (EntryMarked ts) l es ∧ List.Perm o (new ++ rels ++ es)
  | [], _, new, rels, hn => by
    refine ⟨new ++ rels, ?_, [], .nil, by simp⟩
    rw [variablizeD, addRelations_nil (by simpa using hn)]
  | (a, v) :: l, h, new, rels, hn => by
    have hname := entryName_isTup (p := (a, v)) h.1.1
    by_cases ht : a.isTup = true
    · have hm : ¬ Marked ts a := fun h => by rw [h.2] at ht; cases ht
      have he : entryName ts (a, v) = a := by rw [entryName, if_neg fun h => hm h.1]
      have hn' : (Dict.keys new ++ Dict.keys (rels ++ [(a, v)]) ++ l.map (entryName ts)).Nodup := by
        simpa [Dict.keys, he] using hn
      obtain ⟨o, h1, es, h2, h3⟩ := variablizeD_spec l h.2 new (rels ++ [(a, v)]) hn'
      refine ⟨o, by rw [variablizeD, if_pos ht]; exact h1, (a, v) :: es, .cons ⟨he.symm, fun h => absurd h.1 hm, fun _ => rfl⟩ h2, ?_⟩
      simpa using h3
    · have hnot : entryName ts (a, v) ∉ Dict.keys new := by
        intro hc
        refine (List.nodup_append.1 hn).2.2 _ (List.mem_append_left _ hc) _ ?_ rfl
        simp
      have hperm : ∀ w, (Dict.keys (Dict.set new (entryName ts (a, v)) w) ++ Dict.keys rels ++
          l.map (entryName ts)).Nodup := by
        intro w
        rw [Dict.set_of_not_mem hnot]
        refine (List.Perm.nodup_iff ?_).1 hn
        simp only [Dict.keys_append, Dict.keys_cons, Dict.keys_nil, List.map_cons, List.append_assoc]
        refine List.Perm.append_left _ ?_
        exact List.perm_middle
      have fin : ∀ w, EntryMarked ts (a, v) (entryName ts (a, v), w) →
          ∃ o, variablizeD ts l (new.set (entryName ts (a, v)) w) rels = .ok o ∧
            ∃ es, List.Forall₂ (EntryMarked ts) ((a, v) :: l) es ∧ List.Perm o (new ++ rels ++ es) := by
        intro w hw
        obtain ⟨o, h1, es, h2, h3⟩ := variablizeD_spec l h.2 _ rels (hperm w)
        refine ⟨o, h1, _ :: es, .cons hw h2, h3.trans ?_⟩
        rw [Dict.set_of_not_mem hnot]
        simp only [List.append_assoc]
        refine List.Perm.append_left _ ?_
        exact (List.perm_middle (l₁ := rels)).symm
      by_cases hc : (targeted ts a && v.isDict) = true
      · have hc' : Marked ts a ∧ v.isDict = true := by
          rw [Bool.and_eq_true] at hc
          exact ⟨marked_iff.2 ⟨by simpa using ht, hc.1⟩, hc.2⟩
        have he : entryName ts (a, v) = markName a := by rw [entryName, if_pos hc']
        obtain ⟨w, h1, h2⟩ := variablizeV_spec v h.1.2
        obtain ⟨h3, h4, _⟩ := h2 hc'.2
        obtain ⟨o, h5, h6⟩ := fin w ⟨rfl, fun _ => ⟨h3, h4⟩, fun h => absurd hc' h⟩
        refine ⟨o, ?_, h6⟩
        rw [variablizeD, if_neg ht, if_pos hc, varName_str (h.1.1 hc'.1 hc'.2), ok_bind, h1, ok_bind, ← he, h5]
      · have hc' : ¬ (Marked ts a ∧ v.isDict = true) := by
          rintro ⟨h1, h2⟩
          exact hc (by rw [Bool.and_eq_true]; exact ⟨(marked_iff.1 h1).2, h2⟩)
        have he : entryName ts (a, v) = a := by rw [entryName, if_neg hc']
        obtain ⟨o, h5, h6⟩ := fin v ⟨rfl, fun h => absurd h hc', fun _ => rfl⟩
        refine ⟨o, ?_, h6⟩
        rw [variablizeD, if_neg ht, if_neg hc]
        rw [he] at h5
        exact h5
end

end CF
