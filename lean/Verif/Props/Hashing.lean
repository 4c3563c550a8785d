/-
C116: concepts and continuous values as keys of dicts and sets.
-/
import Verif.Model.Hashing
import Mathlib.Data.Finset.Card
import Mathlib.Tactic.NormNum

namespace CF
variable {C V : Type}

/-- The value last stored for the object `o`. -/
def lastPut (o : ℕ) : List (KeyEvent C V) → Option V
  | [] => none
  | .put p v :: l => match lastPut o l with
    | some x => some x
    | none => if p = o then some v else none
  | .mutate _ _ :: l => lastPut o l

section
variable {σ : Type} {P : KeyProtocol σ} {f : ℕ → ℤ}

/-- Equality is identity, and the hash of an object never changes. -/
structure Stable (P : KeyProtocol σ) (f : ℕ → ℤ) : Prop where
  hash : ∀ s o, P.hash s o = f o
  eq : ∀ s o p, P.eq s o p = (o == p)

/-- Every entry has the hash of its key, and no key has two entries. -/
structure GoodSlots (f : ℕ → ℤ) (d : List (Slot V)) : Prop where
  hash : ∀ e ∈ d, e.hash = f e.ref
  nodup : (d.map Slot.ref).Nodup

theorem Stable.hit (h : Stable P f) {e : Slot V} (he : e.hash = f e.ref) (s : σ) (o : ℕ) :
    P.hit s o e = true ↔ e.ref = o := by
  simp only [KeyProtocol.hit, h.hash, h.eq, he, Bool.or_self, Bool.and_eq_true, beq_iff_eq]
  exact ⟨And.right, fun h => ⟨h ▸ rfl, h⟩⟩

theorem Stable.put_refs (h : Stable P f) (s : σ) (o : ℕ) (v : V) {d : List (Slot V)} (hd : ∀ e ∈ d, e.hash = f e.ref) :
    (P.put s o v d).map Slot.ref = if o ∈ d.map Slot.ref then d.map Slot.ref else d.map Slot.ref ++ [o] := by
  induction d with
  | nil => simp [KeyProtocol.put]
  | cons e d ih =>
    have ih := ih fun e he => hd e (by simp [he])
    rw [KeyProtocol.put]
    by_cases hh : e.ref = o
    · rw [if_pos ((h.hit (hd e (by simp)) s o).2 hh)]
      simp [hh]
    · rw [if_neg (by rw [h.hit (hd e (by simp)) s o]; exact hh)]
      rw [List.map_cons, ih]
      have hh' : o ≠ e.ref := fun e => hh e.symm
      by_cases hm : o ∈ d.map Slot.ref <;> simp only [List.map_cons, List.mem_cons, hm, hh', or_false, or_true, if_true,
        if_false, List.cons_append]

theorem Stable.put_good (h : Stable P f) (s : σ) (o : ℕ) (v : V) {d : List (Slot V)} (hd : GoodSlots f d) :
    GoodSlots f (P.put s o v d) := by
  refine ⟨?_, ?_⟩
  · have := hd.hash
    clear hd
    induction d with
    | nil => simp [KeyProtocol.put, h.hash]
    | cons e d ih =>
      rw [KeyProtocol.put]
      split
      · intro x hx
        rcases List.mem_cons.1 hx with rfl | hx
        · exact this e (by simp)
        · exact this x (by simp [hx])
      · intro x hx
        rcases List.mem_cons.1 hx with rfl | hx
        · exact this x (by simp)
        · exact ih (fun e he => this e (by simp [he])) x hx
  · rw [h.put_refs s o v hd.hash]
    split
    · exact hd.nodup
    · next hm =>
      rw [List.nodup_append]
      exact ⟨hd.nodup, by simp, fun a ha b hb => by rw [List.mem_singleton.1 hb]; rintro rfl; exact hm ha⟩

theorem Stable.put_lookup (h : Stable P f) (s s' : σ) (o p : ℕ) (v : V) {d : List (Slot V)}
    (hd : ∀ e ∈ d, e.hash = f e.ref) :
    P.lookup s' (P.put s o v d) p = if o = p then some v else P.lookup s' d p := by
  induction d with
  | nil =>
    have := h.hit (e := ⟨P.hash s o, o, v⟩) (h.hash s o) s' p
    by_cases e : o = p
    · subst e
      simp [KeyProtocol.put, KeyProtocol.lookup, this.2 rfl]
    · have : P.hit s' p ⟨P.hash s o, o, v⟩ = false := by rw [← Bool.not_eq_true, this]; exact e
      simp [KeyProtocol.put, KeyProtocol.lookup, this, e]
  | cons x d ih =>
    have ih := ih fun e he => hd e (by simp [he])
    have hx := hd x (by simp)
    unfold KeyProtocol.lookup at ih ⊢
    rw [KeyProtocol.put]
    by_cases hh : x.ref = o
    · rw [if_pos ((h.hit hx s o).2 hh)]
      have h2 := h.hit (e := { x with val := v }) hx s' p
      by_cases e : o = p
      · rw [List.find?_cons_of_pos (h2.2 (hh.trans e)), if_pos e]; rfl
      · have e' : ¬ x.ref = p := fun hp => e (hh.symm.trans hp)
        rw [List.find?_cons_of_neg (by rw [h2]; exact e'), if_neg e,
          List.find?_cons_of_neg (by rw [h.hit hx s' p]; exact e')]
    · rw [if_neg (by rw [h.hit hx s o]; exact hh)]
      by_cases hp : x.ref = p
      · have e : ¬ o = p := fun e => hh (hp.trans e.symm)
        rw [List.find?_cons_of_pos ((h.hit hx s' p).2 hp), List.find?_cons_of_pos ((h.hit hx s' p).2 hp), if_neg e]
      · rw [List.find?_cons_of_neg (by rw [h.hit hx s' p]; exact hp),
          List.find?_cons_of_neg (by rw [h.hit hx s' p]; exact hp), ih]

end

section
variable {P : KeyProtocol (ℕ → C)} {f : ℕ → ℤ}

theorem Stable.run_good (h : Stable P f) (l : List (KeyEvent C V)) (s : ℕ → C) {d : List (Slot V)} (hd : GoodSlots f d) :
    GoodSlots f (P.run l s d).2 := by
  induction l generalizing s d with
  | nil => exact hd
  | cons e l ih => cases e with
    | put o v => exact ih s (h.put_good s o v hd)
    | mutate o c => exact ih _ hd

theorem Stable.run_lookup (h : Stable P f) (l : List (KeyEvent C V)) (s s' : ℕ → C) (o : ℕ) {d : List (Slot V)}
    (hd : GoodSlots f d) : P.lookup s' (P.run l s d).2 o = match lastPut o l with
      | some x => some x
      | none => P.lookup s' d o := by
  induction l generalizing s d with
  | nil => rfl
  | cons e l ih => cases e with
    | put p v =>
      rw [KeyProtocol.run, ih s (h.put_good s p v hd), lastPut, h.put_lookup s s' p o v hd.hash]
      cases lastPut o l with
      | some x => rfl
      | none => by_cases e : p = o <;> simp [e]
    | mutate p c => rw [KeyProtocol.run, ih _ hd]; rfl

theorem Stable.run_refs (h : Stable P f) (l : List (KeyEvent C V)) (s : ℕ → C) (o : ℕ) {d : List (Slot V)}
    (hd : GoodSlots f d) : o ∈ ((P.run l s d).2).map Slot.ref ↔ o ∈ d.map Slot.ref ∨ ∃ v, KeyEvent.put o v ∈ l := by
  induction l generalizing s d with
  | nil => simp [KeyProtocol.run]
  | cons e l ih => cases e with
    | put p v =>
      rw [KeyProtocol.run, ih s (h.put_good s p v hd), h.put_refs s p v hd.hash]
      simp only [List.mem_cons, KeyEvent.put.injEq]
      by_cases hm : p ∈ d.map Slot.ref
      · rw [if_pos hm]
        constructor
        · rintro (h | ⟨x, h⟩)
          · exact .inl h
          · exact .inr ⟨x, .inr h⟩
        · rintro (h | ⟨x, ⟨rfl, rfl⟩ | h⟩)
          · exact .inl h
          · exact .inl hm
          · exact .inr ⟨x, h⟩
      · rw [if_neg hm, List.mem_append, List.mem_singleton]
        constructor
        · rintro ((h | rfl) | ⟨x, h⟩)
          · exact .inl h
          · exact .inr ⟨v, .inl ⟨rfl, rfl⟩⟩
          · exact .inr ⟨x, .inr h⟩
        · rintro (h | ⟨x, ⟨rfl, rfl⟩ | h⟩)
          · exact .inl (.inl h)
          · exact .inl (.inr rfl)
          · exact .inr ⟨x, h⟩
    | mutate p c => rw [KeyProtocol.run, ih _ hd]; simp

theorem goodSlots_nil (f : ℕ → ℤ) : GoodSlots f ([] : List (Slot V)) := ⟨by simp, by simp⟩

theorem Stable.all (h : Stable P f) (l : List (KeyEvent C V)) (s s' : ℕ → C) (o : ℕ) :
    P.lookup s' (P.run l s []).2 o = lastPut o l ∧
    (((P.run l s []).2).map Slot.ref).Nodup ∧
    (o ∈ ((P.run l s []).2).map Slot.ref ↔ ∃ v, KeyEvent.put o v ∈ l) ∧
    ∀ e ∈ (P.run l s []).2, P.hit s' o e = true ↔ e.ref = o := by
  have g := h.run_good l s (goodSlots_nil (V := V) f)
  refine ⟨?_, g.nodup, ?_, fun e he => h.hit (g.hash e he) s' o⟩
  · rw [h.run_lookup l s s' o (goodSlots_nil f)]
    cases lastPut o l <;> rfl
  · rw [h.run_refs l s o (goodSlots_nil f)]; simp

end

theorem cvKeys_stable (H : String → ℤ) : Stable (cvKeys H) fun _ => H "#ContinuousValue#" :=
  ⟨fun _ _ => rfl, fun _ _ _ => rfl⟩

theorem nodeKeys_stable (cid : ℕ → ℕ) (H : String → ℤ) :
    Stable (nodeKeys (C := C) cid H) fun o => H ("CobwebNode" ++ toString (cid o)) :=
  ⟨fun _ _ => rfl, fun _ _ _ => rfl⟩

/-- **C116**: continuous values as keys.  Whatever is stored under them and however they are updated in between, a lookup
returns what was last stored under *that object*; every object used has one entry; and a lookup hits the entry of the
object itself and no other. -/
theorem C116_continuous_values (H : String → ℤ) (l : List (KeyEvent (CV ℝ) V)) (s s' : ℕ → CV ℝ) (o : ℕ) :
    (cvKeys H).lookup s' ((cvKeys H).run l s []).2 o = lastPut o l ∧
    ((((cvKeys H).run l s []).2).map Slot.ref).Nodup ∧
    (o ∈ (((cvKeys H).run l s []).2).map Slot.ref ↔ ∃ v, KeyEvent.put o v ∈ l) ∧
    ∀ e ∈ ((cvKeys H).run l s []).2, (cvKeys H).hit s' o e = true ↔ e.ref = o :=
  (cvKeys_stable H).all l s s' o

/-- **C116**: concepts as keys, whether or not hashes or concept ids coincide, and however the tables and links of the
concepts change in between. -/
theorem C116_concepts (cid : ℕ → ℕ) (H : String → ℤ) (l : List (KeyEvent C V)) (s s' : ℕ → C) (o : ℕ) :
    (nodeKeys cid H).lookup s' ((nodeKeys cid H).run l s []).2 o = lastPut o l ∧
    ((((nodeKeys cid H).run l s []).2).map Slot.ref).Nodup ∧
    (o ∈ (((nodeKeys cid H).run l s []).2).map Slot.ref ↔ ∃ v, KeyEvent.put o v ∈ l) ∧
    ∀ e ∈ ((nodeKeys cid H).run l s []).2, (nodeKeys cid H).hit s' o e = true ↔ e.ref = o :=
  (nodeKeys_stable cid H).all l s s' o

/-- **C116**: the docstring of `ContinuousValue.__hash__` promises that all continuous values are mapped to the same entry of
a dict.  They have the same hash, but two objects, even with the same contents, have two entries, and what is stored under
the one is not found under the other. -/
theorem C116_not_one_entry (H : String → ℤ) (s : ℕ → CV ℝ) {o p : ℕ} (h : o ≠ p) (v w : V) :
    (cvKeys H).hash s o = (cvKeys H).hash s p ∧
    (((cvKeys H).run [.put o v, .put p w] s []).2).length = 2 ∧
    (cvKeys H).lookup s ((cvKeys H).run [.put o v] s []).2 p = none := by
  refine ⟨rfl, ?_, ?_⟩
  · have := (cvKeys_stable H).put_refs s p w (d := (cvKeys H).put s o v []) ((cvKeys_stable H).put_good s o v
      (goodSlots_nil _)).hash
    have hl := congrArg List.length this
    rw [(cvKeys_stable H).put_refs s o v (d := []) (by simp)] at hl
    simpa [h.symm, KeyProtocol.run] using hl
  · rw [(C116_continuous_values H [.put o v] s s p).1]
    simp [lastPut, h]

/-- **C116**: `set` of a list of concepts, as the clustering criteria use it, has every object of the list once, also when
two of them have the same concept id. -/
theorem C116_set (cid : ℕ → ℕ) (H : String → ℤ) (s : ℕ → C) (l : List ℕ) :
    ((nodeKeys cid H).setOf s l).Nodup ∧ (∀ o, o ∈ (nodeKeys cid H).setOf s l ↔ o ∈ l) ∧
    ((nodeKeys cid H).setOf s l).length = l.toFinset.card := by
  have hrun : ∀ (d : List (Slot Unit)), l.foldl (fun d o => (nodeKeys cid H).put s o () d) d =
      ((nodeKeys cid H).run (l.map fun o => KeyEvent.put (C := C) o ()) s d).2 := by
    induction l with
    | nil => intro d; rfl
    | cons o l ih => intro d; exact ih _
  have h := C116_concepts cid H (l.map fun o => KeyEvent.put (C := C) o ()) s s
  have hm : ∀ o, o ∈ (nodeKeys cid H).setOf s l ↔ o ∈ l := fun o => by
    rw [KeyProtocol.setOf, hrun, (h o).2.2.1]; simp
  have hn : ((nodeKeys cid H).setOf s l).Nodup := by
    rw [KeyProtocol.setOf, hrun]; exact (h 0).2.1
  refine ⟨hn, hm, ?_⟩
  rw [← List.toFinset_card_of_nodup hn]
  congr 1
  ext o
  simp [hm]

/-- A hash of the contents would lose keys: after a number is added, the entry is no longer found. -/
example : ∃ P : KeyProtocol (ℕ → ℤ), (∀ s o p, P.eq s o p = (o == p)) ∧
    P.lookup (P.run [.put 0 true, .mutate 0 5] (fun _ => 1) []).1
      (P.run [.put 0 true, .mutate 0 5] (fun _ => 1) []).2 0 = none ∧
    lastPut 0 ([.put 0 true, .mutate 0 5] : List (KeyEvent ℤ Bool)) = some true :=
  ⟨⟨fun s o => s o, fun _ o p => o == p⟩, fun _ _ _ => rfl, by decide, rfl⟩

/-- Three objects, two of which have the concept id 7. -/
example : (nodeKeys (C := Unit) (fun o => if o = 2 then 8 else 7) (fun s => s.length)).setOf (fun _ => ()) [0, 1, 2, 1] =
    [0, 1, 2] := by decide

end CF
