/-
What adding one instance to others does to the expected number of correct guesses.
-/
import Verif.Proofs.Recognise

namespace CF
open Finset
variable {A V K : Type} [DecidableEq A] [DecidableEq V] [Field K] [LinearOrder K] [IsStrictOrderedRing K]
  {hid : A → Bool}

/-- How often the values of the visible attributes of `j` occur in `g`, counted over all instances and attributes. -/
def agreements (hid : A → Bool) (j : Inst A V) (g : Multiset (Inst A V)) : ℕ :=
  ∑ a ∈ ownAttrs hid j, g.countP fun b => Dict.get? b a = Dict.get? j a

/-- The squared frequencies of all values of visible attributes. -/
def squares (hid : A → Bool) (g : Multiset (Inst A V)) : ℕ :=
  ∑ a ∈ visAttrs hid g, ∑ v ∈ valsOf g a, occ g a v ^ 2

/-- The number of visible attributes of `j` that do not occur in `g`. -/
def newAttrs (hid : A → Bool) (j : Inst A V) (g : Multiset (Inst A V)) : ℕ :=
  (ownAttrs hid j \ visAttrs hid g).card

theorem visAttrs_consOwn (j : Inst A V) (g : Multiset (Inst A V)) :
    visAttrs hid (j ::ₘ g) = visAttrs hid g ∪ ownAttrs hid j := by
  ext a
  simp only [visAttrs, ownAttrs, mem_filter, mem_union, mem_attrsOf, Multiset.mem_cons, Multiset.mem_singleton]
  constructor
  · rintro ⟨⟨i, rfl | hi, ha⟩, hh⟩
    · exact .inr ⟨⟨i, rfl, ha⟩, hh⟩
    · exact .inl ⟨⟨i, hi, ha⟩, hh⟩
  · rintro (⟨⟨i, hi, ha⟩, hh⟩ | ⟨⟨i, rfl, ha⟩, hh⟩)
    · exact ⟨⟨i, .inr hi, ha⟩, hh⟩
    · exact ⟨⟨i, .inl rfl, ha⟩, hh⟩

theorem card_visAttrs_cons (j : Inst A V) (g : Multiset (Inst A V)) :
    (visAttrs hid (j ::ₘ g)).card = (visAttrs hid g).card + newAttrs hid j g := by
  rw [visAttrs_consOwn, newAttrs, add_comm, ← union_comm, ← card_sdiff_add_card]

/-- The squared frequencies of the values of one attribute. -/
theorem squares_one (j : Inst A V) (g : Multiset (Inst A V)) (a : A) :
    ∑ v ∈ valsOf (j ::ₘ g) a, occ (j ::ₘ g) a v ^ 2 =
      ∑ v ∈ valsOf g a, occ g a v ^ 2 +
        if a ∈ Dict.keys j then 2 * (g.countP fun b => Dict.get? b a = Dict.get? j a) + 1 else 0 := by
  cases hj : Dict.get? j a with
  | none =>
    have hk : a ∉ Dict.keys j := fun h => by
      have := Dict.get?_isSome.2 h
      rw [hj] at this
      cases this
    rw [if_neg hk, add_zero]
    have : valsOf (j ::ₘ g) a = valsOf g a := by
      ext v
      simp only [mem_valsOf, Multiset.mem_cons]
      constructor
      · rintro ⟨i, rfl | hi, he⟩
        · rw [hj] at he; cases he
        · exact ⟨i, hi, he⟩
      · rintro ⟨i, hi, he⟩; exact ⟨i, .inr hi, he⟩
    rw [this]
    exact sum_congr rfl fun v _ => by rw [occ_cons_of_neg (by rw [hj]; simp)]
  | some w =>
    have hk : a ∈ Dict.keys j := Dict.get?_isSome.1 (by rw [hj]; rfl)
    rw [if_pos hk]
    have hv : valsOf (j ::ₘ g) a = insert w (valsOf g a) := by
      ext v
      simp only [mem_valsOf, Multiset.mem_cons, mem_insert]
      constructor
      · rintro ⟨i, rfl | hi, he⟩
        · rw [hj] at he; exact .inl (Option.some.inj he).symm
        · exact .inr ⟨i, hi, he⟩
      · rintro (rfl | ⟨i, hi, he⟩)
        · exact ⟨j, .inl rfl, hj⟩
        · exact ⟨i, .inr hi, he⟩
    have h0 : ∑ v ∈ valsOf g a, occ g a v ^ 2 = ∑ v ∈ insert w (valsOf g a), occ g a v ^ 2 := by
      refine sum_subset (subset_insert _ _) fun v _ hv => ?_
      rw [mem_valsOf_iff_occ, not_not] at hv
      simp [hv]
    have hcnt : (g.countP fun b => Dict.get? b a = some w) = occ g a w := rfl
    rw [hv, h0, hcnt, ← add_sum_erase _ _ (mem_insert_self w (valsOf g a)),
      ← add_sum_erase _ _ (mem_insert_self w (valsOf g a)), occ_cons_of_pos hj]
    have : ∀ v ∈ (insert w (valsOf g a)).erase w, occ (j ::ₘ g) a v ^ 2 = occ g a v ^ 2 := by
      intro v hv
      rw [occ_cons_of_neg]
      rw [hj]
      exact fun e => (mem_erase.1 hv).1 (Option.some.inj e).symm
    rw [sum_congr rfl this]
    ring

theorem squares_cons (j : Inst A V) (g : Multiset (Inst A V)) :
    squares hid (j ::ₘ g) = squares hid g + (ownAttrs hid j).card + 2 * agreements hid j g := by
  have h1 : squares hid (j ::ₘ g) = ∑ a ∈ visAttrs hid g ∪ ownAttrs hid j, ∑ v ∈ valsOf g a, occ g a v ^ 2 +
      ∑ a ∈ visAttrs hid g ∪ ownAttrs hid j,
        if a ∈ Dict.keys j then 2 * (g.countP fun b => Dict.get? b a = Dict.get? j a) + 1 else 0 := by
    rw [squares, visAttrs_consOwn, ← sum_add_distrib]
    exact sum_congr rfl fun a _ => squares_one j g a
  have h2 : ∑ a ∈ visAttrs hid g ∪ ownAttrs hid j, ∑ v ∈ valsOf g a, occ g a v ^ 2 = squares hid g := by
    refine (sum_subset subset_union_left fun a ha hn => ?_).symm
    have hh : hid a = false := by
      rcases mem_union.1 ha with h | h
      · exact (mem_filter.1 h).2
      · exact (mem_ownAttrs.1 h).2
    have : valsOf g a = ∅ := by
      rw [eq_empty_iff_forall_notMem]
      intro v hv
      obtain ⟨i, hi, he⟩ := mem_valsOf.1 hv
      exact hn (mem_filter.2 ⟨mem_attrsOf.2 ⟨i, hi, Dict.get?_isSome.1 (by rw [he]; rfl)⟩, hh⟩)
    rw [this, sum_empty]
  have h3 : (∑ a ∈ visAttrs hid g ∪ ownAttrs hid j,
        if a ∈ Dict.keys j then 2 * (g.countP fun b => Dict.get? b a = Dict.get? j a) + 1 else 0) =
      ∑ a ∈ ownAttrs hid j, (2 * (g.countP fun b => Dict.get? b a = Dict.get? j a) + 1) := by
    symm
    calc _ = ∑ a ∈ ownAttrs hid j,
          if a ∈ Dict.keys j then 2 * (g.countP fun b => Dict.get? b a = Dict.get? j a) + 1 else 0 :=
        sum_congr rfl fun a ha => by rw [if_pos (mem_ownAttrs.1 ha).1]
      _ = _ := by
        refine sum_subset subset_union_right fun a ha hn => ?_
        have hh : hid a = false := by
          rcases mem_union.1 ha with h | h
          · exact (mem_filter.1 h).2
          · exact (mem_ownAttrs.1 h).2
        exact if_neg fun hk => hn (mem_ownAttrs.2 ⟨hk, hh⟩)
  rw [h1, h2, h3, sum_add_distrib, ← mul_sum, agreements]
  simp
  ring

theorem ecg_squares (g : Multiset (Inst A V)) :
    ecgSpec K hid g = (squares hid g : K) / ((Multiset.card g : K) ^ 2 * ((visAttrs hid g).card : K)) := by
  unfold ecgSpec squares
  push_cast
  simp only [prob, div_pow]
  rw [← div_div]
  congr 1
  rw [sum_div]
  exact sum_congr rfl fun a _ => (sum_div _ _ _).symm

/-- The expected number of correct guesses after one instance more. -/
theorem ecg_addOne (j : Inst A V) (g : Multiset (Inst A V)) :
    ecgSpec K hid (j ::ₘ g) = ((squares hid g : K) + (ownAttrs hid j).card + 2 * agreements hid j g) /
      (((Multiset.card g : K) + 1) ^ 2 * ((visAttrs hid g).card + newAttrs hid j g)) := by
  rw [ecg_squares, squares_cons, card_visAttrs_cons, Multiset.card_cons]
  push_cast
  rfl

/-- The instance with renamed attributes. -/
def renameAttrs (φ : A → A) (i : Inst A V) : Inst A V := i.map fun p => (φ p.1, p.2)

theorem keys_renameAttrs (φ : A → A) (i : Inst A V) : Dict.keys (renameAttrs φ i) = (Dict.keys i).map φ := by
  simp [Dict.keys, renameAttrs, Function.comp_def]

theorem get?_renameAttrs {φ : A → A} {i : Inst A V} (hφ : ∀ a ∈ Dict.keys i, ∀ b ∈ Dict.keys i, φ a = φ b → a = b)
    {a : A} (ha : a ∈ Dict.keys i) : Dict.get? (renameAttrs φ i) (φ a) = Dict.get? i a := by
  induction i with
  | nil => simp [Dict.keys] at ha
  | cons p i ih =>
    simp only [renameAttrs, List.map_cons, Dict.get?]
    by_cases e : p.1 = a
    · subst e; simp
    · have : φ p.1 ≠ φ a := fun q => e (hφ p.1 (by simp [Dict.keys]) a ha q)
      have ha' : a ∈ Dict.keys i := by
        simp only [Dict.keys, List.map_cons, List.mem_cons] at ha
        rcases ha with h | h
        · exact absurd h.symm e
        · exact h
      have := ih (fun x hx y hy => hφ x (List.mem_cons_of_mem _ hx) y (List.mem_cons_of_mem _ hy)) ha'
      simp_all [renameAttrs]

theorem ownAttrs_rename {φ : A → A} {i : Inst A V} (hh : ∀ a ∈ Dict.keys i, hid (φ a) = hid a) :
    ownAttrs hid (renameAttrs φ i) = (ownAttrs hid i).image φ := by
  ext b
  rw [mem_ownAttrs, keys_renameAttrs, mem_image]
  constructor
  · rintro ⟨hb, hb'⟩
    obtain ⟨a, ha, rfl⟩ := List.mem_map.1 hb
    exact ⟨a, mem_ownAttrs.2 ⟨ha, by rw [← hh a ha]; exact hb'⟩, rfl⟩
  · rintro ⟨a, ha, rfl⟩
    obtain ⟨ha, ha'⟩ := mem_ownAttrs.1 ha
    exact ⟨List.mem_map_of_mem ha, by rw [hh a ha]; exact ha'⟩

/-- Of two ways of renaming the attributes of an instance, that one is at least as good by which every attribute goes where
it goes by the other, unless by the other it goes to none of the others' attributes. -/
theorem ecg_rename_le {φ ψ : A → A} {i : Inst A V} {g : Multiset (Inst A V)} (h0 : (visAttrs hid g).Nonempty)
    (hφ : ∀ a ∈ Dict.keys i, ∀ b ∈ Dict.keys i, φ a = φ b → a = b)
    (hψ : ∀ a ∈ Dict.keys i, ∀ b ∈ Dict.keys i, ψ a = ψ b → a = b)
    (hhφ : ∀ a ∈ Dict.keys i, hid (φ a) = hid a) (hhψ : ∀ a ∈ Dict.keys i, hid (ψ a) = hid a)
    (hle : ∀ a ∈ Dict.keys i, φ a = ψ a ∨ ψ a ∉ attrsOf g) :
    ecgSpec K hid (renameAttrs ψ i ::ₘ g) ≤ ecgSpec K hid (renameAttrs φ i ::ₘ g) := by
  have hown : ∀ a ∈ ownAttrs hid i, a ∈ Dict.keys i := fun a ha => (mem_ownAttrs.1 ha).1
  have injφ : Set.InjOn φ (ownAttrs hid i : Finset A) := fun a ha b hb => hφ a (hown a ha) b (hown b hb)
  have injψ : Set.InjOn ψ (ownAttrs hid i : Finset A) := fun a ha b hb => hψ a (hown a ha) b (hown b hb)
  have hcard : (ownAttrs hid (renameAttrs φ i)).card = (ownAttrs hid (renameAttrs ψ i)).card := by
    rw [ownAttrs_rename hhφ, ownAttrs_rename hhψ, card_image_of_injOn injφ, card_image_of_injOn injψ]
  have hagree : agreements hid (renameAttrs ψ i) g ≤ agreements hid (renameAttrs φ i) g := by
    unfold agreements
    rw [ownAttrs_rename hhφ, ownAttrs_rename hhψ, sum_image injφ, sum_image injψ]
    refine sum_le_sum fun a ha => ?_
    rw [get?_renameAttrs hφ (hown a ha), get?_renameAttrs hψ (hown a ha)]
    rcases hle a (hown a ha) with e | e
    · rw [e]
    · have : (g.countP fun b => Dict.get? b (ψ a) = Dict.get? i a) = 0 := by
        rw [Multiset.countP_eq_zero]
        intro b hb q
        refine e (mem_attrsOf.2 ⟨b, hb, Dict.get?_isSome.1 ?_⟩)
        rw [q]
        exact Dict.get?_isSome.2 (hown a ha)
      rw [this]
      exact Nat.zero_le _
  have hnew : newAttrs hid (renameAttrs φ i) g ≤ newAttrs hid (renameAttrs ψ i) g := by
    unfold newAttrs
    rw [ownAttrs_rename hhφ, ownAttrs_rename hhψ]
    have : ∀ χ : A → A, Set.InjOn χ (ownAttrs hid i : Finset A) →
        ((ownAttrs hid i).image χ \ visAttrs hid g).card =
          ((ownAttrs hid i).filter fun a => χ a ∉ visAttrs hid g).card := by
      intro χ hχ
      have e : (ownAttrs hid i).image χ \ visAttrs hid g =
          ((ownAttrs hid i).filter fun a => χ a ∉ visAttrs hid g).image χ := by
        ext b
        simp only [mem_sdiff, mem_image, mem_filter]
        constructor
        · rintro ⟨⟨a, ha, rfl⟩, hb⟩; exact ⟨a, ⟨ha, hb⟩, rfl⟩
        · rintro ⟨a, ⟨ha, hb⟩, rfl⟩; exact ⟨⟨a, ha, rfl⟩, hb⟩
      rw [e, card_image_of_injOn (hχ.mono fun a ha => (mem_filter.1 ha).1)]
    rw [this φ injφ, this ψ injψ]
    refine card_le_card fun a ha => ?_
    obtain ⟨ha, hb⟩ := mem_filter.1 ha
    refine mem_filter.2 ⟨ha, ?_⟩
    rcases hle a (hown a ha) with e | e
    · rw [← e]; exact hb
    · exact fun q => e (mem_filter.1 q).1
  rw [ecg_addOne, ecg_addOne, hcard]
  have hpos : (0 : K) < (visAttrs hid g).card := by exact_mod_cast card_pos.2 h0
  have hN : (0 : K) < ((Multiset.card g : K) + 1) ^ 2 := by positivity
  have h1 : (agreements hid (renameAttrs ψ i) g : K) ≤ agreements hid (renameAttrs φ i) g := by exact_mod_cast hagree
  have h2 : (newAttrs hid (renameAttrs φ i) g : K) ≤ newAttrs hid (renameAttrs ψ i) g := by exact_mod_cast hnew
  have h3 : (0 : K) ≤ newAttrs hid (renameAttrs φ i) g := Nat.cast_nonneg _
  refine div_le_div₀ ?_ ?_ ?_ ?_
  · positivity
  · linarith
  · exact mul_pos hN (by linarith)
  · exact mul_le_mul_of_nonneg_left (by linarith) hN.le

end CF
