/-
C77: the quadruped dataset.
-/
import Verif.Proofs.Quadruped
import Verif.Props.Fit

namespace CF
variable {σ : Type} {R : Source σ}

/-! ### Specification -/

/-- The number that an animal has as an attribute of a part of its body. -/
def measure (i : List (Py × Py)) (part attr : PStr) : Option ℚ :=
  match Dict.get? i (.str part) with
  | some (.dict d) =>
    match Dict.get? d (.str attr) with
    | some (.num q) => some q
    | _ => none
  | _ => none

/-- The attribute has a value between two numbers. -/
def Between (i : List (Py × Py)) (part attr : PStr) (lo hi : ℚ) : Prop :=
  ∃ q, measure i part attr = some q ∧ lo ≤ q ∧ q ≤ hi

/-- Height and radius of the parts of the four animals (Gennari et al. 1989, as in generate_quadruped.py). -/
def sizeTable : List (PStr × List (PStr × (ℚ × ℚ) × (ℚ × ℚ))) :=
  [(c!"dog", [(c!"torso", (22, 28), (5.5, 7.5)), (c!"leg1", (10, 15), (0.8, 1.2)), (c!"leg2", (10, 15), (0.8, 1.2)),
      (c!"leg3", (10, 15), (0.8, 1.2)), (c!"leg4", (10, 15), (0.8, 1.2)), (c!"neck", (5, 6), (2, 3)),
      (c!"head", (10, 13), (2.5, 3.5)), (c!"tail", (6, 8), (0.2, 0.4))]),
    (c!"cat", [(c!"torso", (15, 22), (2.5, 4.5)), (c!"leg1", (4, 9), (0.4, 0.8)), (c!"leg2", (4, 9), (0.4, 0.8)),
      (c!"leg3", (4, 9), (0.4, 0.8)), (c!"leg4", (4, 9), (0.4, 0.8)), (c!"neck", (2, 4), (1.5, 2.5)),
      (c!"head", (3, 5), (1.5, 2.5)), (c!"tail", (10, 18), (0.3, 0.7))]),
    (c!"horse", [(c!"torso", (50, 60), (10, 14.5)), (c!"leg1", (36, 44), (2, 3.5)), (c!"leg2", (36, 44), (2, 3.5)),
      (c!"leg3", (36, 44), (2, 3.5)), (c!"leg4", (36, 44), (2, 3.5)), (c!"neck", (12, 16), (5, 7)),
      (c!"head", (18, 22), (4, 6)), (c!"tail", (26, 33), (1, 2))]),
    (c!"giraffe", [(c!"torso", (60, 72), (12.5, 17)), (c!"leg1", (58, 70), (2, 4)), (c!"leg2", (58, 70), (2, 4)),
      (c!"leg3", (58, 70), (2, 4)), (c!"leg4", (58, 70), (2, 4)), (c!"neck", (45, 55), (5, 9)),
      (c!"head", (18, 22), (3.5, 5.5)), (c!"tail", (20, 25), (0.5, 1))])]

/-- The animals that can be generated. -/
def Quadruped (R : Source σ) (i : List (Py × Py)) : Prop :=
  ∃ fuel s s', randomAnimal R fuel s = some (i, s')

/-! ### C77 -/

/-- The row of the table for a kind. -/
def sizeRow (K : AnimalKind) : PStr × List (PStr × (ℚ × ℚ) × (ℚ × ℚ)) :=
  (K.name, [(c!"torso", K.torsoHeight, K.torsoRadius), (c!"leg1", K.legLength, K.legRadius),
    (c!"leg2", K.legLength, K.legRadius), (c!"leg3", K.legLength, K.legRadius), (c!"leg4", K.legLength, K.legRadius),
    (c!"neck", K.neckHeight, K.neckRadius), (c!"head", K.headHeight, K.headRadius),
    (c!"tail", K.tailHeight, K.tailRadius)])

theorem sizeTable_eq : sizeTable = [sizeRow dogKind, sizeRow catKind, sizeRow horseKind, sizeRow giraffeKind] := rfl

theorem kinds_form {i : List (Py × Py)} (h : Quadruped R i) : 
    ∃ (k : Fin 4) (m : Measures), m.In (animalKinds k) ∧ i = m.inst (animalKinds k) := by
  obtain ⟨fuel, s, s', h⟩ := h
  obtain ⟨m, hm⟩ := generate_form h
  exact ⟨_, m, hm⟩

theorem kinds_axes (k : Fin 4) : (0 ≤ (animalKinds k).legAxis.1 ∧ (animalKinds k).legAxis.2 ≤ 1) ∧
    -1 ≤ (animalKinds k).tailAxisZ.1 ∧ (animalKinds k).tailAxisZ.2 ≤ 1 := by
  fin_cases k <;> norm_num [animalKinds, dogKind, catKind, horseKind, giraffeKind]


/-- **C77**: every animal of the dataset is of one of the four kinds, which is its hidden attribute `_type`;
heights and radii of all parts are in the ranges of this kind, textures in [170, 180], axes in [-1, 1]. -/
theorem C77_sizes {i : List (Py × Py)} (h : Quadruped R i) :
    ∃ row ∈ sizeTable, Dict.get? i (.str c!"_type") = some (.str row.1) ∧
      ∀ p ∈ row.2, Between i p.1 c!"height" p.2.1.1 p.2.1.2 ∧ Between i p.1 c!"radius" p.2.2.1 p.2.2.2 ∧
        Between i p.1 c!"texture" 170 180 ∧ Between i p.1 c!"axisX" (-1) 1 ∧ Between i p.1 c!"axisY" (-1) 1 ∧
        Between i p.1 c!"axisZ" (-1) 1 := by
  obtain ⟨k, m, hm, rfl⟩ := kinds_form h
  obtain ⟨⟨l1, l2⟩, t1, t2⟩ := kinds_axes k
  refine ⟨sizeRow (animalKinds k), ?_, rfl, ?_⟩
  · rw [sizeTable_eq]
    fin_cases k <;> simp [animalKinds]
  generalize animalKinds k = K at *
  have a1 : -1 ≤ m.axis1 ∧ m.axis1 ≤ 1 := ⟨by linarith [hm.axis1.1], by linarith [hm.axis1.2]⟩
  have a4 : -1 ≤ m.axis4 ∧ m.axis4 ≤ 1 := ⟨by linarith [hm.axis4.1], by linarith [hm.axis4.2]⟩
  have t : -1 ≤ m.tailZ ∧ m.tailZ ≤ 1 := ⟨by linarith [hm.tailZ.1], by linarith [hm.tailZ.2]⟩
  obtain ⟨name, th, tr, ll, la, lr, nh, nr, hh, hr, tlh, tlz, tlr, up⟩ := K
  intro p hp
  cases up
  all_goals
    fin_cases hp
    · exact ⟨⟨_, rfl, hm.torsoH⟩, ⟨_, rfl, hm.torsoR⟩, ⟨_, rfl, hm.torsoT⟩, ⟨_, rfl, by norm_num⟩, ⟨_, rfl, by norm_num⟩, ⟨_, rfl, by norm_num⟩⟩
    · exact ⟨⟨_, rfl, hm.leglength⟩, ⟨_, rfl, hm.radius1⟩, ⟨_, rfl, hm.texture1⟩, ⟨_, rfl, a1⟩, ⟨_, rfl, by norm_num⟩, ⟨_, rfl, by norm_num⟩⟩
    · exact ⟨⟨_, rfl, hm.leglength⟩, ⟨_, rfl, hm.radius2⟩, ⟨_, rfl, hm.texture2⟩, ⟨_, rfl, by norm_num⟩, ⟨_, rfl, by norm_num⟩, ⟨_, rfl, by norm_num⟩⟩
    · exact ⟨⟨_, rfl, hm.leglength⟩, ⟨_, rfl, hm.radius3⟩, ⟨_, rfl, hm.texture3⟩, ⟨_, rfl, by norm_num⟩, ⟨_, rfl, by norm_num⟩, ⟨_, rfl, by norm_num⟩⟩
    · exact ⟨⟨_, rfl, hm.leglength⟩, ⟨_, rfl, hm.radius4⟩, ⟨_, rfl, hm.texture4⟩, ⟨_, rfl, a4⟩, ⟨_, rfl, by norm_num⟩, ⟨_, rfl, by norm_num⟩⟩
    · exact ⟨⟨_, rfl, hm.neckH⟩, ⟨_, rfl, hm.neckR⟩, ⟨_, rfl, hm.neckT⟩, ⟨_, rfl, by norm_num⟩, ⟨_, rfl, by norm_num⟩, ⟨_, rfl, by norm_num⟩⟩
    · exact ⟨⟨_, rfl, hm.headH⟩, ⟨_, rfl, hm.headR⟩, ⟨_, rfl, hm.headT⟩, ⟨_, rfl, by norm_num⟩, ⟨_, rfl, hm.headY⟩, ⟨_, rfl, by norm_num⟩⟩
    · exact ⟨⟨_, rfl, hm.tailH⟩, ⟨_, rfl, hm.tailR⟩, ⟨_, rfl, hm.tailT⟩, ⟨_, rfl, by norm_num⟩, ⟨_, rfl, hm.tailY⟩, ⟨_, rfl, t⟩⟩

/-- **C77**: the kinds can be told apart by what is visible: equal lengths of the first leg mean equal kinds. -/
theorem C77_kinds_apart {τ : Type} {R' : Source τ} {i j : List (Py × Py)} (h : Quadruped R i) (h' : Quadruped R' j)
    (he : measure i c!"leg1" c!"height" = measure j c!"leg1" c!"height") :
    Dict.get? i (.str c!"_type") = Dict.get? j (.str c!"_type") := by
  obtain ⟨k, m, hm, rfl⟩ := kinds_form h
  obtain ⟨k', m', hm', rfl⟩ := kinds_form h'
  have e : m.leglength = m'.leglength := Option.some.inj he
  have h1 := hm.leglength
  have h2 := hm'.leglength
  rw [← e] at h2
  obtain ⟨h1, h1'⟩ := h1
  obtain ⟨h2, h2'⟩ := h2
  have : k = k' := by
    fin_cases k <;> fin_cases k' <;> first
      | rfl
      | (exfalso
         simp only [animalKinds, dogKind, catKind, horseKind, giraffeKind] at h1 h1' h2 h2'
         linarith)
  rw [this]
  rfl

/-- **C77**: the body is put together consistently: the legs are as long as each other, placed symmetrically, and
their upper ends are at the underside of the torso; the head is at the end of the neck, twice as far from the
front end of the torso as the middle of the neck. -/
theorem C77_body {i : List (Py × Py)} (h : Quadruped R i) :
    ∃ l r leg : ℚ, measure i c!"torso" c!"height" = some l ∧ measure i c!"torso" c!"radius" = some r ∧
      (∀ part x y, (part, x, y) ∈ [(c!"leg1", l / 2, r), (c!"leg2", l / 2, -r), (c!"leg3", -(l / 2), r),
          (c!"leg4", -(l / 2), -r)] →
        measure i part c!"height" = some leg ∧ measure i part c!"locationX" = some x ∧
        measure i part c!"locationY" = some y ∧ ∃ z, measure i part c!"locationZ" = some z ∧ z + leg / 2 = -r) ∧
      ∃ nx nz hx hz, measure i c!"neck" c!"locationX" = some nx ∧ measure i c!"neck" c!"locationZ" = some nz ∧
        measure i c!"head" c!"locationX" = some hx ∧ measure i c!"head" c!"locationZ" = some hz ∧
        l / 2 < nx ∧ hx - l / 2 = 2 * (nx - l / 2) ∧ hz - r = 2 * (nz - r) := by
  obtain ⟨k, m, hm, rfl⟩ := kinds_form h
  have hn : 0 < m.neckH := by
    have := hm.neckH.1
    fin_cases k <;> norm_num [animalKinds, dogKind, catKind, horseKind, giraffeKind] at this <;> linarith
  generalize animalKinds k = K at *
  obtain ⟨name, th, tr, ll, la, lr, nh, nr, hh, hr, tlh, tlz, tlr, up⟩ := K
  refine ⟨m.torsoH, m.torsoR, m.leglength, rfl, rfl, ?_, ?_⟩
  · intro part x y hp
    simp only [List.mem_cons, Prod.mk.injEq, List.not_mem_nil, or_false] at hp
    rcases hp with ⟨rfl, rfl, rfl⟩ | ⟨rfl, rfl, rfl⟩ | ⟨rfl, rfl, rfl⟩ | ⟨rfl, rfl, rfl⟩
    · exact ⟨rfl, rfl, rfl, _, rfl, by ring⟩
    · exact ⟨rfl, rfl, rfl, _, rfl, by ring⟩
    · exact ⟨rfl, congrArg some (by ring), rfl, _, rfl, by ring⟩
    · exact ⟨rfl, congrArg some (by ring), rfl, _, rfl, by ring⟩
  · cases up
    · exact ⟨_, _, _, _, rfl, rfl, rfl, rfl, by linarith, by ring, by ring⟩
    · exact ⟨_, _, _, _, rfl, rfl, rfl, rfl, by linarith [div_pos hn (by norm_num : (0 : ℚ) < 2.828)], by ring, by ring⟩

/-- **C77**: dogs and cats carry the neck horizontally, at the height of the upper side of the torso, so that the
distance of the head from the torso is the length of the neck; horses and giraffes carry it at an angle of 45
degrees, so that it is this length divided by 1.414 in both directions. -/
theorem C77_posture {i : List (Py × Py)} (h : Quadruped R i) :
    ∃ l r n : ℚ, measure i c!"torso" c!"height" = some l ∧ measure i c!"torso" c!"radius" = some r ∧
      measure i c!"neck" c!"height" = some n ∧
      ((Dict.get? i (.str c!"_type") = some (.str c!"dog") ∨ Dict.get? i (.str c!"_type") = some (.str c!"cat")) →
        measure i c!"head" c!"locationX" = some (l / 2 + n) ∧ measure i c!"head" c!"locationZ" = some r) ∧
      ((Dict.get? i (.str c!"_type") = some (.str c!"horse") ∨
          Dict.get? i (.str c!"_type") = some (.str c!"giraffe")) →
        measure i c!"head" c!"locationX" = some (l / 2 + n / 1.414) ∧
        measure i c!"head" c!"locationZ" = some (r + n / 1.414)) := by
  obtain ⟨k, m, hm, rfl⟩ := kinds_form h
  refine ⟨m.torsoH, m.torsoR, m.neckH, rfl, rfl, by fin_cases k <;> rfl, ?_⟩
  have e : Dict.get? (m.inst (animalKinds k)) (.str c!"_type") = some (.str (animalKinds k).name) := rfl
  rw [e]
  fin_cases k
  · exact ⟨fun _ => ⟨rfl, rfl⟩, fun hk => by simp [animalKinds, dogKind] at hk⟩
  · exact ⟨fun _ => ⟨rfl, rfl⟩, fun hk => by simp [animalKinds, catKind] at hk⟩
  · exact ⟨fun hk => by simp [animalKinds, horseKind] at hk, fun _ => ⟨rfl, rfl⟩⟩
  · exact ⟨fun hk => by simp [animalKinds, giraffeKind] at hk, fun _ => ⟨rfl, rfl⟩⟩

/-- **C77**, partial.  Full statement: the middle of the tail is behind the torso, whose rear end is at minus half
its height, for every animal.  Here: for dogs and giraffes.  For cats it is not (`C77_tail_in_torso`), since the
code computes minus the whole height plus the length of the tail. -/
theorem C77_tail_behind_partial {i : List (Py × Py)} (h : Quadruped R i)
    (hk : Dict.get? i (.str c!"_type") = some (.str c!"dog") ∨ Dict.get? i (.str c!"_type") = some (.str c!"giraffe")) :
    ∃ x l, measure i c!"tail" c!"locationX" = some x ∧ measure i c!"torso" c!"height" = some l ∧ x < -(l / 2) := by
  obtain ⟨k, m, hm, rfl⟩ := kinds_form h
  refine ⟨-m.torsoH + m.tailH, m.torsoH, rfl, rfl, ?_⟩
  have e : Dict.get? (m.inst (animalKinds k)) (.str c!"_type") = some (.str (animalKinds k).name) := rfl
  rw [e] at hk
  have h1 := hm.torsoH.1
  have h2 := hm.tailH.2
  fin_cases k
  · norm_num [animalKinds, dogKind] at h1 h2; linarith
  · simp [animalKinds, catKind] at hk
  · simp [animalKinds, horseKind] at hk
  · norm_num [animalKinds, giraffeKind] at h1 h2; linarith

/-! ### Drawing ends -/

/-- Sooner or later a random number is at most one standard deviation from the mean. -/
def OftenMiddle (R : Source σ) : Prop := ∀ s, ∃ k, |(R.normal ((fun s => (R.normal s).2)^[k] s)).1| ≤ 1

/-- A computation that ends with enough steps, whatever the state; with more steps the result is the same. -/
structure Ends {α : Type} (x : ℕ → Draw σ α) : Prop where
  mono : ∀ {n m s r}, n ≤ m → x n s = some r → x m s = some r
  total : ∀ s, ∃ n r, x n s = some r

theorem Ends.pure {α : Type} (a : α) : Ends (fun _ => (Pure.pure a : Draw σ α)) :=
  ⟨fun _ h => h, fun s => ⟨0, (a, s), rfl⟩⟩

theorem Ends.bind {α β : Type} {x : ℕ → Draw σ α} {f : ℕ → α → Draw σ β} (hx : Ends x) (hf : ∀ a, Ends (f · a)) :
    Ends (fun n => x n >>= f n) := by
  refine ⟨fun {n m s r} hnm h => ?_, fun s => ?_⟩
  · obtain ⟨a, s', h1, h2⟩ := draw_bind.1 h
    exact draw_bind.2 ⟨a, s', hx.mono hnm h1, (hf a).mono hnm h2⟩
  · obtain ⟨n, ⟨a, s'⟩, h1⟩ := hx.total s
    obtain ⟨m, r, h2⟩ := (hf a).total s'
    exact ⟨max n m, r, draw_bind.2 ⟨a, s', hx.mono (le_max_left _ _) h1, (hf a).mono (le_max_right _ _) h2⟩⟩

theorem ends_bellrand (hR : OftenMiddle R) {r : ℚ × ℚ} (hr : r.1 ≤ r.2) : Ends (fun n => bellrand R n r) := by
  have step : ∀ n s, bellrand R (n + 1) r s =
      if r.1 + (r.2 - r.1) / 2 + (R.normal s).1 * ((r.2 - r.1) / 2) < r.1 ∨
        r.2 < r.1 + (r.2 - r.1) / 2 + (R.normal s).1 * ((r.2 - r.1) / 2) then bellrand R n r (R.normal s).2
      else some (r.1 + (r.2 - r.1) / 2 + (R.normal s).1 * ((r.2 - r.1) / 2), (R.normal s).2) := fun _ _ => rfl
  refine ⟨fun {n} => ?_, fun s => ?_⟩
  · induction n with
    | zero => intro m s v _ h; cases h
    | succ n ih =>
      intro m s v hnm h
      obtain ⟨m, rfl⟩ : ∃ m', m = m' + 1 := ⟨m - 1, by omega⟩
      rw [step] at h ⊢
      split at h
      · rw [if_pos (by assumption)]
        exact ih (by omega) h
      · rw [if_neg (by assumption)]
        exact h
  · obtain ⟨k, hk⟩ := hR s
    induction k generalizing s with
    | zero =>
      refine ⟨1, (r.1 + (r.2 - r.1) / 2 + (R.normal s).1 * ((r.2 - r.1) / 2), (R.normal s).2), ?_⟩
      rw [step, if_neg]
      rw [Function.iterate_zero, id, abs_le] at hk
      push Not
      constructor <;> nlinarith
    | succ k ih =>
      rw [Function.iterate_succ_apply] at hk
      obtain ⟨n, v, hn⟩ := ih _ hk
      by_cases hc : r.1 + (r.2 - r.1) / 2 + (R.normal s).1 * ((r.2 - r.1) / 2) < r.1 ∨
        r.2 < r.1 + (r.2 - r.1) / 2 + (R.normal s).1 * ((r.2 - r.1) / 2)
      · exact ⟨n + 1, v, by rw [step, if_pos hc]; exact hn⟩
      · exact ⟨1, _, by rw [step, if_neg hc]⟩

/-- **C77**: `bellrand` of a range returns, in the state `s`, iff some later random number is at most one standard
deviation from the mean; the first such number determines the result, which is in the range. -/
theorem C77_bellrand {r : ℚ × ℚ} (hr : r.1 < r.2) (s : σ) :
    ((∃ n v, bellrand R n r s = some v) ↔ ∃ k, |(R.normal ((fun s => (R.normal s).2)^[k] s)).1| ≤ 1) ∧
    ∀ n v s', bellrand R n r s = some (v, s') → r.1 ≤ v ∧ v ≤ r.2 ∧
      ∃ k, (∀ j < k, 1 < |(R.normal ((fun s => (R.normal s).2)^[j] s)).1|) ∧
        v = (r.1 + r.2) / 2 + (R.normal ((fun s => (R.normal s).2)^[k] s)).1 * ((r.2 - r.1) / 2) ∧
        |(R.normal ((fun s => (R.normal s).2)^[k] s)).1| ≤ 1 := by
  have step : ∀ n s, bellrand R (n + 1) r s =
      if r.1 + (r.2 - r.1) / 2 + (R.normal s).1 * ((r.2 - r.1) / 2) < r.1 ∨
        r.2 < r.1 + (r.2 - r.1) / 2 + (R.normal s).1 * ((r.2 - r.1) / 2) then bellrand R n r (R.normal s).2
      else some (r.1 + (r.2 - r.1) / 2 + (R.normal s).1 * ((r.2 - r.1) / 2), (R.normal s).2) := fun _ _ => rfl
  have mid : ∀ z : ℚ, (r.1 + (r.2 - r.1) / 2 + z * ((r.2 - r.1) / 2) < r.1 ∨
      r.2 < r.1 + (r.2 - r.1) / 2 + z * ((r.2 - r.1) / 2)) ↔ 1 < |z| := by
    intro z
    rw [lt_abs]
    constructor
    · rintro (h | h)
      · right; by_contra hz; push Not at hz; nlinarith
      · left; by_contra hz; push Not at hz; nlinarith
    · rintro (h | h)
      · right; nlinarith
      · left; nlinarith
  have val : ∀ n s v s', bellrand R n r s = some (v, s') →
      ∃ k, (∀ j < k, 1 < |(R.normal ((fun s => (R.normal s).2)^[j] s)).1|) ∧
        v = (r.1 + r.2) / 2 + (R.normal ((fun s => (R.normal s).2)^[k] s)).1 * ((r.2 - r.1) / 2) ∧
        |(R.normal ((fun s => (R.normal s).2)^[k] s)).1| ≤ 1 := by
    intro n
    induction n with
    | zero => intro s v s' h; cases h
    | succ n ih =>
      intro s v s' h
      rw [step] at h
      split at h
      · rename_i hc
        obtain ⟨k, h1, h2, h3⟩ := ih _ _ _ h
        refine ⟨k + 1, ?_, h2, h3⟩
        intro j hj
        cases j with
        | zero => exact (mid _).1 hc
        | succ j => exact h1 j (by omega)
      · rename_i hc
        cases h
        refine ⟨0, by simp, ?_, not_lt.1 fun h => hc ((mid _).2 h)⟩
        rw [Function.iterate_zero, id]
        ring
  have tot : ∀ k s, |(R.normal ((fun s => (R.normal s).2)^[k] s)).1| ≤ 1 → ∃ n v, bellrand R n r s = some v := by
    intro k
    induction k with
    | zero =>
      intro s hk
      refine ⟨1, _, (step 0 s).trans (if_neg fun h => ?_)⟩
      exact absurd ((mid _).1 h) (not_lt.2 hk)
    | succ k ih =>
      intro s hk
      obtain ⟨n, v, hn⟩ := ih _ hk
      by_cases hc : r.1 + (r.2 - r.1) / 2 + (R.normal s).1 * ((r.2 - r.1) / 2) < r.1 ∨
        r.2 < r.1 + (r.2 - r.1) / 2 + (R.normal s).1 * ((r.2 - r.1) / 2)
      · exact ⟨n + 1, v, by rw [step, if_pos hc]; exact hn⟩
      · exact ⟨1, _, by rw [step, if_neg hc]⟩
  refine ⟨⟨fun ⟨n, ⟨v, s'⟩, h⟩ => ?_, fun ⟨k, hk⟩ => ?_⟩, fun n v s' h => ?_⟩
  · obtain ⟨k, -, -, h⟩ := val n s v s' h
    exact ⟨k, h⟩
  · exact tot k s hk
  · obtain ⟨h1, h2⟩ := bellrand_range h
    exact ⟨h1, h2, val n s v s' h⟩

theorem ends_animal (hR : OftenMiddle R) (k : Fin 4) : Ends (fun n => generateAnimal R n (animalKinds k)) := by
  unfold generateAnimal
  have hb : ∀ r ∈ [(animalKinds k).torsoHeight, (animalKinds k).torsoRadius, (animalKinds k).legLength,
      (animalKinds k).legAxis, (animalKinds k).legRadius, (animalKinds k).neckHeight, (animalKinds k).neckRadius,
      (animalKinds k).headHeight, (animalKinds k).headRadius, (animalKinds k).tailHeight,
      (animalKinds k).tailAxisZ, (animalKinds k).tailRadius, (170, 180), (-1, 1)], r.1 ≤ r.2 := by
    fin_cases k <;> norm_num [animalKinds, dogKind, catKind, horseKind, giraffeKind]
  iterate 26 refine Ends.bind (ends_bellrand hR (hb _ (by simp))) fun _ => ?_
  exact Ends.pure _

theorem ends_animals (hR : OftenMiddle R) (n : ℕ) : Ends (fun fuel => generateAnimals R fuel n) := by
  induction n with
  | zero => exact Ends.pure _
  | succ n ih =>
    refine Ends.bind (x := fun fuel => randomAnimal R fuel) ⟨fun {a b s r} hab h => ?_, fun s => ?_⟩
      fun a => Ends.bind ih fun l => Ends.pure _
    · exact (ends_animal hR _).mono hab h
    · exact (ends_animal hR _).total _

theorem animals_mem {fuel : ℕ} : ∀ (n : ℕ) (s s' : σ) (l : List (List (Py × Py))),
    generateAnimals R fuel n s = some (l, s') → l.length = n ∧ ∀ i ∈ l, Quadruped R i := by
  intro n
  induction n with
  | zero =>
    intro s s' l h
    have := congrArg Prod.fst (draw_pure.1 h)
    dsimp only at this
    subst this
    simp
  | succ n ih =>
    intro s s' l h
    obtain ⟨a, s1, h1, h⟩ := draw_bind.1 h
    obtain ⟨l', s2, h2, h⟩ := draw_bind.1 h
    have := congrArg Prod.fst (draw_pure.1 h)
    dsimp only at this
    subst this
    obtain ⟨h3, h4⟩ := ih _ _ _ h2
    refine ⟨by simp [h3], ?_⟩
    intro i hi
    rcases List.mem_cons.1 hi with rfl | hi
    · exact ⟨fuel, s, s1, h1⟩
    · exact h4 i hi

/-- **C62** for `load_quadruped`: exactly the given number of animals. -/
theorem C62_quadruped {fuel n : ℕ} {s s' : σ} {l : List (List (Py × Py))}
    (h : loadQuadruped R fuel n s = some (l, s')) : l.length = n ∧ ∀ i ∈ l, Quadruped R i :=
  animals_mem n s s' l h

/-- **C77**: `load_quadruped` returns, and the number of steps does not matter. -/
theorem C77_returns (hR : OftenMiddle R) (n : ℤ) (s : σ) :
    ∃ fuel r, loadQuadruped R fuel n s = some r ∧ ∀ fuel' ≥ fuel, loadQuadruped R fuel' n s = some r := by
  obtain ⟨fuel, r, h⟩ := (ends_animals hR n.toNat).total s
  exact ⟨fuel, r, h, fun fuel' hf => (ends_animals hR n.toNat).mono hf h⟩

/-! ### Fitting quadrupeds -/

/-- **C77**: every animal is a structured instance as `TrestleTree` wants it. -/
theorem C77_well_formed {i : List (Py × Py)} (h : Quadruped R i) : Py.wf (.dict i) ∧ FitInst i ∧ VisInst i := by
  obtain ⟨k, m, -, rfl⟩ := kinds_form h
  generalize animalKinds k = K
  obtain ⟨name, th, tr, ll, la, lr, nh, nr, hh, hr, tlh, tlz, tlr, up⟩ := K
  have hp : ∀ ty a b c d e f g h i, Py.wf (bodyPart ty a b c d e f g h i) := by
    intro ty a b c d e f g h i
    simp [bodyPart, Py.wf, Py.wfD, Dict.Nodup, Dict.keys]
  have hf : ∀ ty a b c d e f g h i, FitVal (bodyPart ty a b c d e f g h i) := by
    intro ty a b c d e f g h i
    simp [bodyPart, FitVal, FitInst, FitAttr, Py.hashable]
  have hv : ∀ ty a b c d e f g h i x, VisLeaf (bodyPart ty a b c d e f g h i) x := by
    intro ty a b c d e f g h i x
    simp [bodyPart, VisLeaf, VisInst, hid3, Py.index0]
  refine ⟨?_, ?_, ?_⟩
  · cases up <;> simp [Measures.inst, Py.wf, Py.wfD, hp, Dict.Nodup, Dict.keys]
  · cases up <;> simp [Measures.inst, FitInst, hf, FitAttr] <;> simp [FitVal, Py.hashable]
  · simp [Measures.inst, VisInst, hv]

theorem trestleClear_rnd (st : TState) : (trestleClear st).h.w.rnd = st.h.w.rnd := by
  simp [trestleClear, clearH, HM.setRoot, HM.setTree, HM.mod, newNode, Bind.bind, HM.andThen, World.bump]

/-- **C77**: a `TrestleTree` can be fitted with quadrupeds any number of times, without an exception, and then
its root counts all of them. -/
theorem C77_fit {c : TrestleCfg} (hc : c.Ok) (st : TState) {sh : Shuffle PyInst} (hsh : FitShuffle sh)
    (hshr : ∀ l w, (sh l w).2.rnd = w.rnd) {Ss : ℕ → Search} (hS : ∀ k, SearchLaws (Ss k))
    (hT : ∀ k, SearchTotal (Ss k)) (hw : Function.Injective st.h.w.rnd) {fuel n : ℕ} {s s' : σ}
    {l : List (List (Py × Py))} (hl : loadQuadruped R fuel n s = some (l, s')) (iterations : ℕ) (rf : Bool) :
    ∃ (Ss' : ℕ → Search) (st' : TState) (t : Tree (Stats3 Py Py)),
      trestleFit c sh l iterations rf (Ss, trestleClear st) = (.ok (), l, Ss', st') ∧
      IsTree st'.h st'.h.root t ∧ t.stats.count = iterations * n := by
  obtain ⟨hlen, hq⟩ := C62_quadruped hl
  have hok := fun i hi => C77_well_formed (hq i hi)
  obtain ⟨⟨Ss', st'⟩, hf⟩ := C76_fit_trestle_never_raises hc (.clear st) (by simp) hsh hshr hS hT hok
    (by rw [trestleClear_rnd]; exact hw) iterations rf
  obtain ⟨-, ps, temps, -, -, -, hr⟩ := C76_fit_trestle (.clear st) hsh hS (fun i hi => (hok i hi).1) hf
  obtain ⟨t, -, -, -, ht⟩ := C57_tree hc hr
  refine ⟨Ss', st', t, hf, ht, ?_⟩
  have := C76_fit_trestle_count hc (.clear st) hsh hS (fun i hi => (hok i hi).1) hf ht
  simpa [hlen] using this

/-! ### Examples -/

/-- A source that draws the means, apart from the first and the 22nd number of an animal, and picks a cat. -/
def demoSource : Source ℕ where
  normal k := (if k = 0 then -1 else if k = 21 then 1 else 0, k + 1)
  pick k := (1, k)

theorem demoSource_middle : OftenMiddle demoSource := by
  intro s
  refine ⟨0, ?_⟩
  simp only [demoSource, Function.iterate_zero, id]
  split <;> [skip; split] <;> norm_num

/-- **C77**, the negation of the statement about tails: the middle of the tail of a cat can be in the front half
of the torso. -/
theorem C77_tail_in_torso : ∃ i, Quadruped demoSource i ∧
    Dict.get? i (.str c!"_type") = some (.str c!"cat") ∧ measure i c!"torso" c!"height" = some 15 ∧
    measure i c!"tail" c!"locationX" = some 3 := by
  have h : (randomAnimal demoSource 1 0).isSome = true := by decide +kernel
  obtain ⟨⟨i, s'⟩, hi⟩ := Option.isSome_iff_exists.1 h
  refine ⟨i, ⟨1, 0, s', hi⟩, ?_⟩
  have key : (randomAnimal demoSource 1 0).map (fun r => (Dict.get? r.1 (.str c!"_type"),
      measure r.1 c!"torso" c!"height", measure r.1 c!"tail" c!"locationX")) =
      some (some (.str c!"cat"), some 15, some 3) := by decide +kernel
  rw [hi] at key
  simpa using key

/-- Two cats, and a tree that fits them. -/
example : ∃ fuel l s', loadQuadruped demoSource fuel 2 0 = some (l, s') ∧ l.length = 2 := by
  obtain ⟨fuel, ⟨l, s'⟩, h, -⟩ := C77_returns demoSource_middle 2 0
  exact ⟨fuel, l, s', h, (C62_quadruped (n := 2) h).1⟩

example : FitShuffle (fun (l : List PyInst) w => (l.reverse, w)) ∧ SearchLaws demoSearch ∧ SearchTotal demoSearch :=
  ⟨reverse_shuffle, demoSearch_ok, demoSearch_total⟩

end CF
