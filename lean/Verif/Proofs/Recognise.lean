/-
An instance that was just sorted is found again: on hierarchies, for values of groups that behave like the expected
number of correct guesses.
-/
import Verif.Proofs.Ecg
import Verif.Props.TextbookPlace

set_option linter.unusedSectionVars false

namespace CF

section generic
variable {I K : Type} [Field K] [LinearOrder K] [IsStrictOrderedRing K]
variable {E : Multiset I → K} {Same : I → I → Prop} {i : I} {D : I → Prop} {W : Multiset I → K}

/-- How far a group (of instances that satisfy `D`) is from consisting of instances like `i`: what the group loses as a host
of `i`. -/
structure Apart (E : Multiset I → K) (Same : I → I → Prop) (i : I) (D : I → Prop) (W : Multiset I → K) : Prop where
  nonneg : ∀ g, 0 ≤ W g
  empty : W 0 = 0
  cons : ∀ g, W (i ::ₘ g) = W g
  union : ∀ g g', W (g + g') * ((Multiset.card g : K) * Multiset.card g') ≤
    ((Multiset.card g : K) + Multiset.card g') * (W g * Multiset.card g' + W g' * Multiset.card g)
  zero : ∀ g, (∀ j ∈ g, D j) → W g = 0 → ∀ j ∈ g, Same i j
  rate : ∀ g, g ≠ 0 → (∀ j ∈ g, D j) → ((Multiset.card g : K) + 1) * E (i ::ₘ g) - Multiset.card g * E g =
    1 - W g / ((Multiset.card g : K) * (Multiset.card g + 1))

/-- The loss for each instance. -/
def loss (W : Multiset I → K) (g : Multiset I) : K := W g / ((Multiset.card g : K) * (Multiset.card g + 1))

theorem hosting_eq (m : Multiset I) {x : Hier I} {others hs : List (Hier I)} (h : hs.Perm (x :: others)) :
    hosting E m i x others = ((((Multiset.card x.group : K) + 1) * E (i ::ₘ x.group) -
      Multiset.card x.group * E x.group) / ((Multiset.card m : K) + 1) +
      ((groups hs).map fun y => (Multiset.card y : K) / ((Multiset.card m : K) + 1) * E y).sum - E (i ::ₘ m)) /
      (hs.length : K) := by
  have h1 := ((h.map Hier.group).map fun y => (Multiset.card y : K) / ((Multiset.card m : K) + 1) * E y).sum_eq
  unfold hosting gain groups
  rw [h1, h.length_eq]
  simp only [List.map_cons, List.sum_cons, Multiset.card_cons, List.length_cons, List.length_map, Nat.cast_add,
    Nat.cast_one]
  congr 1
  ring

theorem Apart.host (hA : Apart E Same i D W) {m : Multiset I} {hs x_others y_others : List (Hier I)} {x y : Hier I}
    (hx : hs.Perm (x :: x_others)) (hy : hs.Perm (y :: y_others)) (hx0 : x.group ≠ 0) (hy0 : y.group ≠ 0)
    (hxD : ∀ j ∈ x.group, D j) (hyD : ∀ j ∈ y.group, D j) {n n' : ℕ}
    (h : NotAhead (hosting E m i y y_others) n (hosting E m i x x_others) n') : loss W x.group ≤ loss W y.group := by
  have h1 : hosting E m i y y_others ≤ hosting E m i x x_others := by
    rcases h with h | h
    · exact h.le
    · exact h.1.le
  rw [hosting_eq m hx, hosting_eq m hy, hA.rate _ hx0 hxD, hA.rate _ hy0 hyD] at h1
  have hl : (0 : K) < hs.length := by
    rw [hx.length_eq]; simp only [List.length_cons]; positivity
  have hm : (0 : K) < (Multiset.card m : K) + 1 := by positivity
  rw [div_le_div_iff_of_pos_right hl, sub_le_sub_iff_right, add_le_add_iff_right, div_le_div_iff_of_pos_right hm,
    sub_le_sub_iff_left] at h1
  exact h1

theorem loss_zero (hA : Apart E Same i D W) {g : Multiset I} (h0 : g ≠ 0) (h : loss W g ≤ 0) : W g = 0 := by
  have hc : (0 : K) < Multiset.card g := by exact_mod_cast Multiset.card_pos.2 h0
  unfold loss at h
  have := hA.nonneg g
  have h1 : (0 : K) < (Multiset.card g : K) * (Multiset.card g + 1) := by positivity
  rw [div_le_iff₀ h1] at h
  linarith

/-- The best host that has the instance already loses less. -/
theorem Apart.best (hA : Apart E Same i D W) {g : Multiset I} {d : K} (h0 : g ≠ 0) (h1 : loss W g ≤ d)
    (h2 : d ≤ loss W (i ::ₘ g)) : d ≤ 0 := by
  have hc : (0 : K) < Multiset.card g := by exact_mod_cast Multiset.card_pos.2 h0
  unfold loss at h1 h2
  rw [hA.cons, Multiset.card_cons, Nat.cast_add, Nat.cast_one, le_div_iff₀ (by positivity)] at h2
  rw [div_le_iff₀ (by positivity)] at h1
  nlinarith

/-- So does the union of the two best hosts. -/
theorem Apart.merge (hA : Apart E Same i D W) {g g' : Multiset I} {d : K} (h0 : g ≠ 0) (h0' : g' ≠ 0)
    (h1 : loss W g ≤ d) (h1' : loss W g' ≤ d) (h2 : d ≤ loss W (i ::ₘ (g + g'))) : d ≤ 0 := by
  have hc : (0 : K) < Multiset.card g := by exact_mod_cast Multiset.card_pos.2 h0
  have hc' : (0 : K) < Multiset.card g' := by exact_mod_cast Multiset.card_pos.2 h0'
  have hu := hA.union g g'
  unfold loss at h1 h1' h2
  rw [hA.cons, Multiset.card_cons, Nat.cast_add, Nat.cast_one, Multiset.card_add, Nat.cast_add,
    le_div_iff₀ (by positivity)] at h2
  rw [div_le_iff₀ (by positivity)] at h1 h1'
  generalize (Multiset.card g : K) = n at *
  generalize (Multiset.card g' : K) = n' at *
  have e1 : W g * n' ≤ d * (n * (n + 1)) * n' := mul_le_mul_of_nonneg_right h1 hc'.le
  have e2 : W g' * n ≤ d * (n' * (n' + 1)) * n := mul_le_mul_of_nonneg_right h1' hc.le
  have e3 : W (g + g') * (n * n') ≤ (n + n') * (d * (n * (n + 1)) * n' + d * (n' * (n' + 1)) * n) :=
    hu.trans (mul_le_mul_of_nonneg_left (by linarith) (by positivity))
  have e4 : d * ((n + n' + 1) * (n + n' + 1 + 1)) * (n * n') ≤
      (n + n') * (d * (n * (n + 1)) * n' + d * (n' * (n' + 1)) * n) :=
    (mul_le_mul_of_nonneg_right h2 (by positivity)).trans e3
  have e5 : d * ((n * n') * (n + n' + 2)) ≤ 0 := by nlinarith
  by_contra hd
  push Not at hd
  have : 0 < d * ((n * n') * (n + n' + 2)) := by positivity
  linarith

theorem Places.within {T Y : Hier I} (h : Places E i T Y) (hT : T.Proper) : ∀ j ∈ Y.group, j ∈ T.group := by
  induction h with
  | stay => exact fun j hj => hj
  | @down m hs x others Y hp _ _ ih =>
    intro j hj
    have hx : x ∈ hs := hp.mem_iff.2 (by simp)
    obtain ⟨-, h2, h3⟩ := hT.internal (by rintro rfl; simp at hx)
    rw [Hier.group_node, ← h3]
    exact Multiset.mem_of_le (List.le_sum_of_mem (List.mem_map_of_mem hx)) (ih (h2 x hx) j hj)

theorem Places.proper {T Y : Hier I} (h : Places E i T Y) (hT : T.Proper) : Y.Proper := by
  induction h with
  | stay => exact hT
  | @down m hs x others Y hp _ _ ih =>
    have hx : x ∈ hs := hp.mem_iff.2 (by simp)
    exact ih ((hT.internal (by rintro rfl; simp at hx)).2.1 x hx)

theorem Apart.places (hA : Apart E Same i D W) {m : Multiset I} {hs : List (Hier I)} {Y : Hier I}
    (h : Places E i (.node m hs) Y) (hne : hs ≠ []) (hp : (Hier.node m hs).Proper) (hD : ∀ j ∈ m, D j) :
    ∃ x ∈ hs, Places E i x Y ∧ (∀ y ∈ hs, loss W x.group ≤ loss W y.group) ∧
      (loss W x.group ≤ 0 → ∀ j ∈ Y.group, Same i j) := by
  cases h with
  | stay => exact absurd rfl hne
  | @down _ _ x others _ hperm hfirst hY =>
    have hx : x ∈ hs := hperm.mem_iff.2 (by simp)
    obtain ⟨-, h2, h3⟩ := hp.internal hne
    have hsub : ∀ y ∈ hs, ∀ j ∈ y.group, D j := fun y hy j hj => hD j (by
      rw [← h3]; exact Multiset.mem_of_le (List.le_sum_of_mem (List.mem_map_of_mem hy)) hj)
    refine ⟨x, hx, hY, ?_, ?_⟩
    · intro y hy
      obtain ⟨k, hk⟩ := List.getElem?_of_mem hy
      have hys := perm_eraseIdx hk
      exact hA.host hperm hys (h2 x hx).ne_zero (h2 y hy).ne_zero (hsub x hx) (hsub y hy) (hfirst y _ hys)
    · intro hl j hj
      exact hA.zero _ (hsub x hx) (loss_zero hA (h2 x hx).ne_zero hl) j (hY.within (h2 x hx) j hj)

/-- What was sorted is found again. -/
theorem Apart.recognised (hA : Apart E Same i D W) (hrefl : Same i i) (hi : D i) {T T' : Hier I}
    (h : Sorts E Same i T T') : T.Proper → (∀ j ∈ T.group, D j) → ∀ Y, Places E i T' Y → ∀ j ∈ Y.group, Same i j := by
  have single : loss W ({i} : Multiset I) ≤ 0 := by
    have : W ({i} : Multiset I) = 0 := (hA.cons 0).trans hA.empty
    unfold loss; rw [this, zero_div]
  have step : ∀ {T T' : Hier I}, Sorts E Same i T T' → T.Proper → (∀ j ∈ T.group, D j) →
      T'.Proper ∧ ∀ j ∈ T'.group, D j := by
    intro T T' h hT hD
    obtain ⟨h1, h2⟩ := h.proper hT
    refine ⟨h1, fun j hj => ?_⟩
    rw [h2, Multiset.mem_cons] at hj
    rcases hj with rfl | hj
    · exact hi
    · exact hD j hj
  induction h with
  | @join m hm =>
    intro _ _ Y hY
    cases hY with
    | stay =>
      intro j hj
      rcases Multiset.mem_cons.1 hj with rfl | hj
      · exact hrefl
      · exact hm j hj
    | down hp _ _ => exact absurd hp.symm.eq_nil (by simp)
  | @divide m hm =>
    intro hT hD Y hY
    obtain ⟨hp, hd⟩ := step (.divide hm) hT hD
    obtain ⟨x, hx, -, hle, hz⟩ := hA.places hY (by simp) hp hd
    exact hz ((hle (.node {i} []) (by simp)).trans single)
  | @best m hs x y rest x' hH hW hs' ih =>
    intro hT hD Y hY
    obtain ⟨hp, hd⟩ := step (.best hH hW hs') hT hD
    have hne : hs ≠ [] := by rintro rfl; exact absurd hH.all.symm.eq_nil (by simp)
    obtain ⟨-, h2, h3⟩ := hT.internal hne
    have hxs : x ∈ hs := hH.all.mem_iff.2 (by simp)
    have hsub : ∀ y ∈ hs, ∀ j ∈ y.group, D j := fun y hy j hj => hD j (by
      rw [Hier.group_node, ← h3]; exact Multiset.mem_of_le (List.le_sum_of_mem (List.mem_map_of_mem hy)) hj)
    obtain ⟨z, hz, hzY, hle, hfin⟩ := hA.places hY (by simp) hp hd
    rcases List.mem_cons.1 hz with rfl | hz
    · exact ih (h2 x hxs) (hsub x hxs) Y hzY
    · have hzs : z ∈ hs := hH.all.mem_iff.2 (List.mem_cons_of_mem _ hz)
      obtain ⟨k, hk⟩ := List.getElem?_of_mem hzs
      have hzp := perm_eraseIdx hk
      have l1 := hA.host hH.all hzp (h2 x hxs).ne_zero (h2 z hzs).ne_zero (hsub x hxs) (hsub z hzs) (hH.first z _ hzp)
      have l2 := hle x' (by simp)
      rw [(hs'.proper (h2 x hxs)).2] at l2
      exact hfin (hA.best (h2 x hxs).ne_zero l1 l2)
  | @new m hs x y rest hH hW =>
    intro hT hD Y hY
    obtain ⟨hp, hd⟩ := step (.new hH hW) hT hD
    obtain ⟨x, hx, -, hle, hz⟩ := hA.places hY (by simp) hp hd
    exact hz ((hle (.node {i} []) (by simp)).trans single)
  | @merge m hs x y rest z hH hW hs' ih =>
    intro hT hD Y hY
    obtain ⟨hp, hd⟩ := step (.merge hH hW hs') hT hD
    have hne : hs ≠ [] := by rintro rfl; exact absurd hH.all.symm.eq_nil (by simp)
    obtain ⟨-, h2, h3⟩ := hT.internal hne
    have hxs : x ∈ hs := hH.all.mem_iff.2 (by simp)
    have hys : y ∈ hs := hH.all.mem_iff.2 (by simp)
    have hsub : ∀ y ∈ hs, ∀ j ∈ y.group, D j := fun y hy j hj => hD j (by
      rw [Hier.group_node, ← h3]; exact Multiset.mem_of_le (List.le_sum_of_mem (List.mem_map_of_mem hy)) hj)
    have hpr : (Hier.node (x.group + y.group) [x, y]).Proper := .node (by simp) (by
      intro w hw
      simp at hw
      rcases hw with rfl | rfl
      · exact h2 _ hxs
      · exact h2 _ hys) (by simp [groups])
    obtain ⟨v, hv, hvY, hle, hfin⟩ := hA.places hY (by simp) hp hd
    rcases List.mem_cons.1 hv with rfl | hv
    · refine ih hpr (fun j hj => ?_) Y hvY
      rcases Multiset.mem_add.1 hj with hj | hj
      · exact hsub x hxs j hj
      · exact hsub y hys j hj
    · have hvs : v ∈ hs := hH.all.mem_iff.2 (by simp [hv])
      obtain ⟨k, hk⟩ := List.getElem?_of_mem hv
      have hvp := perm_eraseIdx hk
      have p1 : hs.Perm (x :: v :: (y :: rest.eraseIdx k)) :=
        hH.all.trans ((hvp.cons y |>.trans (List.Perm.swap ..)).cons x)
      have p2 : hs.Perm (v :: x :: (y :: rest.eraseIdx k)) := p1.trans (List.Perm.swap ..)
      have p3 : hs.Perm (y :: x :: rest) := hH.all.trans (List.Perm.swap ..)
      have l1 := hA.host hH.all p2 (h2 x hxs).ne_zero (h2 v hvs).ne_zero (hsub x hxs) (hsub v hvs) (hH.first v _ p2)
      have l2 := hA.host p3 p2 (h2 y hys).ne_zero (h2 v hvs).ne_zero (hsub y hys) (hsub v hvs) (hH.second v _ p1)
      have l3 := hle z (by simp)
      rw [(hs'.proper hpr).2] at l3
      exact hfin (hA.merge (h2 x hxs).ne_zero (h2 y hys).ne_zero l1 l2 l3)
  | @split m hs x y rest z hH hW hs' ih =>
    intro hT hD Y hY
    refine ih ?_ hD Y hY
    have hne : hs ≠ [] := by rintro rfl; exact absurd hH.all.symm.eq_nil (by simp)
    obtain ⟨h1, h2, h3⟩ := hT.internal hne
    obtain ⟨u, hu, -⟩ := hW
    have hr : x.subs ≠ [] := by cases hu with | split h => exact h
    obtain ⟨mx, xs⟩ := x
    simp only [Hier.subs_node] at *
    obtain ⟨k1, k2, k3⟩ := (h2 _ (hH.all.mem_iff.2 (List.mem_cons_self ..))).internal hr
    refine .node (by simp; omega) ?_ ?_
    · intro w hw
      rcases List.mem_append.1 hw with hw | hw
      · exact k2 w hw
      · exact h2 w (hH.all.mem_iff.2 (List.mem_cons_of_mem _ hw))
    · rw [groups_sum_perm hH.all] at h3
      rw [← h3]
      simp only [groups, List.map_append, List.sum_append, List.map_cons, List.sum_cons, Hier.group_node] at k3 ⊢
      rw [k3]

end generic

/-! ### Nominal instances with the same attributes -/

section nominal
variable {A V : Type} [DecidableEq A] [DecidableEq V] {hid : A → Bool} {K : Type} [Field K] [LinearOrder K]
  [IsStrictOrderedRing K]

/-- The visible attributes of `j` are those of `i`. -/
def SameAttrs (hid : A → Bool) (i j : Inst A V) : Prop := ∀ a, hid a = false → (a ∈ Dict.keys i ↔ a ∈ Dict.keys j)

/-- The visible attributes of an instance. -/
def ownAttrs (hid : A → Bool) (i : Inst A V) : Finset A := visAttrs hid {i}

/-- The instances of `g` without the value of `i`, squared, and the squared numbers of the other values among `U`, for
the visible attributes. -/
def apart (K : Type) [Field K] (hid : A → Bool) (U : Finset V) (i : Inst A V) (g : Multiset (Inst A V)) : K :=
  (∑ a ∈ ownAttrs hid i, (((Multiset.card g : K) - (g.countP fun j => Dict.get? j a = Dict.get? i a : ℕ)) ^ 2 +
    ∑ v ∈ U.filter fun v => some v ≠ Dict.get? i a, (occ g a v : K) ^ 2)) / ((ownAttrs hid i).card : K)

theorem mem_ownAttrs {i : Inst A V} {a : A} : a ∈ ownAttrs hid i ↔ a ∈ Dict.keys i ∧ hid a = false := by
  simp [ownAttrs, visAttrs, mem_attrsOf]

theorem visAttrs_same {i : Inst A V} {g : Multiset (Inst A V)} (h0 : g ≠ 0) (h : ∀ j ∈ g, SameAttrs hid i j) :
    visAttrs hid g = ownAttrs hid i := by
  ext a
  rw [mem_ownAttrs, visAttrs, Finset.mem_filter, mem_attrsOf]
  constructor
  · rintro ⟨⟨j, hj, ha⟩, hh⟩; exact ⟨(h j hj a hh).2 ha, hh⟩
  · rintro ⟨ha, hh⟩
    obtain ⟨j, hj⟩ := Multiset.exists_mem_of_ne_zero h0
    exact ⟨⟨j, hj, (h j hj a hh).1 ha⟩, hh⟩

/-- One term of the union: squares over sizes. -/
theorem sq_union (p q n n' : K) : (p + q) ^ 2 * (n * n') ≤ (n + n') * (p ^ 2 * n' + q ^ 2 * n) := by
  nlinarith [sq_nonneg (p * n' - q * n)]

/-- The values occurring are among `U`. -/
def ValuesIn (U : Finset V) (j : Inst A V) : Prop := ∀ a v, Dict.get? j a = some v → v ∈ U

theorem ecg_own {i : Inst A V} {U : Finset V} {g : Multiset (Inst A V)} (h0 : g ≠ 0)
    (hD : ∀ j ∈ g, SameAttrs hid i j ∧ ValuesIn U j) :
    (Multiset.card g : K) * ecgSpec K hid g =
      (∑ a ∈ ownAttrs hid i, (∑ v ∈ U, (occ g a v : K) ^ 2) / Multiset.card g) / ((ownAttrs hid i).card : K) := by
  have hc : (Multiset.card g : K) ≠ 0 := by simpa using h0
  unfold ecgSpec
  rw [visAttrs_same h0 fun j hj => (hD j hj).1, mul_div_assoc', Finset.mul_sum]
  congr 1
  refine Finset.sum_congr rfl fun a _ => ?_
  have : ∑ v ∈ valsOf g a, prob K g a v ^ 2 = ∑ v ∈ U, prob K g a v ^ 2 := by
    refine Finset.sum_subset (fun v hv => ?_) (fun v _ hv => ?_)
    · obtain ⟨j, hj, hjv⟩ := mem_valsOf.1 hv
      exact (hD j hj).2 a v hjv
    · rw [mem_valsOf_iff_occ, not_not] at hv
      simp [prob, hv]
  rw [this]
  simp only [prob, div_pow]
  rw [← Finset.sum_div]
  field_simp

theorem apart_apart {i : Inst A V} {U : Finset V} (hi : ValuesIn U i) (hv : (ownAttrs hid i).Nonempty) :
    Apart (ecgSpec K hid) (SameVisible hid) i (fun j => SameAttrs hid i j ∧ ValuesIn U j) (apart K hid U i) where
  nonneg g := div_nonneg (Finset.sum_nonneg fun a _ => add_nonneg (sq_nonneg _)
    (Finset.sum_nonneg fun v _ => sq_nonneg _)) (Nat.cast_nonneg _)
  empty := by simp [apart, occ]
  cons g := by
    unfold apart
    congr 1
    refine Finset.sum_congr rfl fun a _ => ?_
    congr 1
    · rw [Multiset.countP_cons_of_pos (p := fun j => Dict.get? j a = Dict.get? i a) _ rfl, Multiset.card_cons]
      push_cast
      ring
    · refine Finset.sum_congr rfl fun v hv => ?_
      rw [occ, Multiset.countP_cons_of_neg]
      · rfl
      · exact fun h => (Finset.mem_filter.1 hv).2 h.symm
  union g g' := by
    unfold apart
    rw [div_mul_eq_mul_div, div_mul_eq_mul_div, div_mul_eq_mul_div, ← add_div, mul_div_assoc']
    refine div_le_div_of_nonneg_right ?_ (Nat.cast_nonneg _)
    rw [Finset.sum_mul, Finset.sum_mul, Finset.sum_mul, ← Finset.sum_add_distrib, Finset.mul_sum]
    refine Finset.sum_le_sum fun a _ => ?_
    have key : ∀ (s : Finset V), (∑ v ∈ s, (occ (g + g') a v : K) ^ 2) * ((Multiset.card g : K) * Multiset.card g') ≤
        ((Multiset.card g : K) + Multiset.card g') * ((∑ v ∈ s, (occ g a v : K) ^ 2) * Multiset.card g' +
          (∑ v ∈ s, (occ g' a v : K) ^ 2) * Multiset.card g) := by
      intro s
      rw [Finset.sum_mul, Finset.sum_mul, Finset.sum_mul, ← Finset.sum_add_distrib, Finset.mul_sum]
      refine Finset.sum_le_sum fun v _ => ?_
      rw [occ, Multiset.countP_add, Nat.cast_add]
      exact sq_union _ _ _ _
    have h1 := key (U.filter fun v => some v ≠ Dict.get? i a)
    have h2 := sq_union ((Multiset.card g : K) - (g.countP fun j => Dict.get? j a = Dict.get? i a : ℕ))
      ((Multiset.card g' : K) - (g'.countP fun j => Dict.get? j a = Dict.get? i a : ℕ)) (Multiset.card g : K)
      (Multiset.card g' : K)
    rw [Multiset.card_add, Multiset.countP_add]
    push_cast
    have e : ((Multiset.card g : K) + Multiset.card g' - ((g.countP fun j => Dict.get? j a = Dict.get? i a : ℕ) +
        (g'.countP fun j => Dict.get? j a = Dict.get? i a : ℕ))) =
        ((Multiset.card g : K) - (g.countP fun j => Dict.get? j a = Dict.get? i a : ℕ)) +
        ((Multiset.card g' : K) - (g'.countP fun j => Dict.get? j a = Dict.get? i a : ℕ)) := by ring
    rw [e]
    linarith
  zero g hD h j hj a ha := by
    have hk : ((ownAttrs hid i).card : K) ≠ 0 := by simpa using hv.ne_empty
    unfold apart at h
    rw [div_eq_zero_iff, or_iff_left hk] at h
    by_cases hm : a ∈ Dict.keys i
    · have h1 := (Finset.sum_eq_zero_iff_of_nonneg (fun a _ => add_nonneg (sq_nonneg _)
        (Finset.sum_nonneg fun v _ => sq_nonneg _))).1 h a (mem_ownAttrs.2 ⟨hm, ha⟩)
      have h2 : ((Multiset.card g : K) - (g.countP fun j => Dict.get? j a = Dict.get? i a : ℕ)) ^ 2 = 0 := by
        have p1 := sq_nonneg ((Multiset.card g : K) - (g.countP fun j => Dict.get? j a = Dict.get? i a : ℕ))
        have p2 : (0 : K) ≤ ∑ v ∈ U.filter fun v => some v ≠ Dict.get? i a, (occ g a v : K) ^ 2 :=
          Finset.sum_nonneg fun v _ => sq_nonneg _
        linarith
      have h3 : (g.countP fun j => Dict.get? j a = Dict.get? i a) = Multiset.card g := by
        have := pow_eq_zero_iff (two_ne_zero) |>.1 h2
        exact_mod_cast (sub_eq_zero.1 this).symm
      exact (Multiset.countP_eq_card.1 h3 j hj).symm
    · have hj' : a ∉ Dict.keys j := fun h' => hm (((hD j hj).1 a ha).2 h')
      rw [← Dict.get?_isSome, Bool.not_eq_true, Option.isSome_eq_false_iff, Option.isNone_iff_eq_none] at hm hj'
      rw [hm, hj']
  rate g h0 hD := by
    have hc : (0 : K) < Multiset.card g := by exact_mod_cast Multiset.card_pos.2 h0
    have hk : ((ownAttrs hid i).card : K) ≠ 0 := by simpa using hv.ne_empty
    have h1 := ecg_own (K := K) h0 hD
    have h2 := ecg_own (K := K) (i := i) (U := U) (g := i ::ₘ g) (by simp) (by
      intro j hj
      rcases Multiset.mem_cons.1 hj with rfl | hj
      · exact ⟨fun a _ => Iff.rfl, hi⟩
      · exact hD j hj)
    rw [Multiset.card_cons, Nat.cast_add, Nat.cast_one] at h2
    rw [h1, h2]
    unfold apart
    rw [← sub_div, ← Finset.sum_sub_distrib, eq_sub_iff_add_eq, div_div, mul_comm ((ownAttrs hid i).card : K), ← div_div,
      ← add_div, Finset.sum_div, ← Finset.sum_add_distrib, div_eq_one_iff_eq hk]
    have : ∀ a ∈ ownAttrs hid i, (∑ v ∈ U, (occ (i ::ₘ g) a v : K) ^ 2) / ((Multiset.card g : K) + 1) -
        (∑ v ∈ U, (occ g a v : K) ^ 2) / Multiset.card g +
        (((Multiset.card g : K) - (g.countP fun j => Dict.get? j a = Dict.get? i a : ℕ)) ^ 2 +
          ∑ v ∈ U.filter fun v => some v ≠ Dict.get? i a, (occ g a v : K) ^ 2) /
          ((Multiset.card g : K) * (Multiset.card g + 1)) = 1 := by
      intro a ha
      obtain ⟨hm, -⟩ := mem_ownAttrs.1 ha
      rw [← Dict.get?_isSome, Option.isSome_iff_exists] at hm
      obtain ⟨x, hx⟩ := hm
      have hxU : x ∈ U := hi a x hx
      have hf : (U.filter fun v => some v ≠ Dict.get? i a) = U.erase x := by
        ext v; simp [hx, Finset.mem_erase, and_comm]
      have e1 : ∑ v ∈ U, (occ (i ::ₘ g) a v : K) ^ 2 = ((occ g a x : K) + 1) ^ 2 + ∑ v ∈ U.erase x, (occ g a v : K) ^ 2 := by
        rw [← Finset.add_sum_erase U _ hxU]
        congr 1
        · rw [occ_cons_of_pos hx, Nat.cast_add, Nat.cast_one]
        · refine Finset.sum_congr rfl fun v hv => ?_
          rw [occ, Multiset.countP_cons_of_neg]
          · rfl
          · rw [hx]; exact fun h => (Finset.mem_erase.1 hv).1 (Option.some.inj h).symm
      have e2 : (g.countP fun j => Dict.get? j a = Dict.get? i a) = occ g a x := by rw [hx]; rfl
      rw [hf, e1, e2, ← Finset.add_sum_erase U _ hxU]
      field_simp
      ring
    rw [Finset.sum_congr rfl this]
    simp

end nominal
end CF
