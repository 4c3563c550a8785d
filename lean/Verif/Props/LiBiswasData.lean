/-
C89: the data and the run of the experiment of Li and Biswas (li_biswas_experiment.py).
-/
import Verif.Props.LiBiswas
import Verif.Props.Cluster

namespace CF

/-! ## What the data should be -/

/-- An instance of group `g`: a label, two nominal values and two numbers. -/
def LBOk (g : ℕ) (i : LBInst) : Prop :=
  ∃ g1 g2 b x y, i = [(.label, .nom (.lab g)), (.f1, .nom (.v1 g1)), (.f2, .nom (.v2 g2 b)), (.f3, .num x), (.f4, .num y)] ∧
    g1 ∈ [1, 2, 3] ∧ g2 ∈ [1, 2, 3]

/-- The group of an instance: the number in its label. -/
def lbGroup (i : LBInst) : ℕ :=
  match i.get? .label with
  | some (.nom (.lab g)) => g
  | _ => 0

/-! ## Proofs -/

theorem pickAt_ok {α : Type} {l : List α} (h : l ≠ []) (k : ℕ) : ∃ a ∈ l, pickAt l k = .ok a := by
  have hk : k % l.length < l.length := Nat.mod_lt _ (List.length_pos_of_ne_nil h)
  refine ⟨l[k % l.length], List.getElem_mem hk, ?_⟩
  rw [pickAt, List.getElem?_eq_getElem hk]

theorem lbNumeric_ok (noise r : ℝ) (k : ℕ) (n : ℝ × ℝ × ℝ) : ∃ x, lbNumeric noise r k n = .ok x := by
  unfold lbNumeric
  split
  · exact ⟨_, rfl⟩
  · obtain ⟨a, -, e⟩ := pickAt_ok (l := [n.2.1, n.2.2]) (by simp) k
    exact ⟨a, e⟩

/-- What noise does to the values of an instance of group `g`: a draw at or above the noise keeps the group's own
value; below, the values of the groups `o1` (for `f1`) and `o2` (for `f2`) are chosen from, or one of the other two
normal draws. -/
structure LBValues (nn mn : ℝ) (d : LBDraws) (g : ℕ) (o1 o2 : List ℕ) (i : LBInst) : Prop where
  label : i.get? .label = some (.nom (.lab g))
  keep1 : nn ≤ d.r1 → i.get? .f1 = some (.nom (.v1 g))
  noise1 : d.r1 < nn → ∃ k ∈ o1, i.get? .f1 = some (.nom (.v1 k))
  keep2 : nn ≤ d.r2 → ∃ b, i.get? .f2 = some (.nom (.v2 g b))
  noise2 : d.r2 < nn → ∃ k ∈ o2, ∃ b, i.get? .f2 = some (.nom (.v2 k b))
  keep3 : mn ≤ d.r3 → i.get? .f3 = some (.num d.n3.1)
  noise3 : d.r3 < mn → i.get? .f3 = some (.num d.n3.2.1) ∨ i.get? .f3 = some (.num d.n3.2.2)
  keep4 : mn ≤ d.r4 → i.get? .f4 = some (.num d.n4.1)
  noise4 : d.r4 < mn → i.get? .f4 = some (.num d.n4.2.1) ∨ i.get? .f4 = some (.num d.n4.2.2)

theorem lbNumeric_values (noise r : ℝ) (k : ℕ) (n : ℝ × ℝ × ℝ) : ∃ x, lbNumeric noise r k n = .ok x ∧
    (noise ≤ r → x = n.1) ∧ (r < noise → x = n.2.1 ∨ x = n.2.2) := by
  unfold lbNumeric
  split_ifs with h
  · exact ⟨_, rfl, fun _ => rfl, fun h' => absurd h (not_le.2 h')⟩
  · obtain ⟨a, ha, e⟩ := pickAt_ok (l := [n.2.1, n.2.2]) (by simp) k
    exact ⟨a, e, fun h' => absurd h' h, fun _ => by simpa using ha⟩

theorem lbInstance_values (nn mn : ℝ) (g : ℕ) {o1 o2 : List ℕ} (h1 : o1 ≠ []) (h2 : o2 ≠ []) (d : LBDraws) :
    ∃ i, lbInstance nn mn g (.v1 g) (o1.map .v1) [.v2 g false, .v2 g true]
        (o2.flatMap fun k => [.v2 k false, .v2 k true]) d = .ok i ∧ LBValues nn mn d g o1 o2 i := by
  obtain ⟨x, e3, p3, q3⟩ := lbNumeric_values mn d.r3 d.k3 d.n3
  obtain ⟨y, e4, p4, q4⟩ := lbNumeric_values mn d.r4 d.k4 d.n4
  have e1 : ∃ f1, lbF1 nn d.r1 (.v1 g) (o1.map .v1) d.k1 = .ok f1 ∧ (nn ≤ d.r1 → f1 = .v1 g) ∧
      (d.r1 < nn → ∃ k ∈ o1, f1 = .v1 k) := by
    unfold lbF1
    split_ifs with h
    · exact ⟨_, rfl, fun _ => rfl, fun h' => absurd h (not_le.2 h')⟩
    · obtain ⟨a, ha, e⟩ := pickAt_ok (l := o1.map LBVal.v1) (by simpa using h1) d.k1
      obtain ⟨k, hk, rfl⟩ := List.mem_map.1 ha
      exact ⟨_, e, fun h' => absurd h' h, fun _ => ⟨k, hk, rfl⟩⟩
  have e2 : ∃ f2, lbF2 nn d.r2 [.v2 g false, .v2 g true] (o2.flatMap fun k => [.v2 k false, .v2 k true]) d.k2 = .ok f2 ∧
      (nn ≤ d.r2 → ∃ b, f2 = .v2 g b) ∧ (d.r2 < nn → ∃ k ∈ o2, ∃ b, f2 = .v2 k b) := by
    unfold lbF2
    split_ifs with h
    · obtain ⟨a, ha, e⟩ := pickAt_ok (l := [LBVal.v2 g false, .v2 g true]) (by simp) d.k2
      refine ⟨a, e, fun _ => ?_, fun h' => absurd h (not_le.2 h')⟩
      simp only [List.mem_cons, List.not_mem_nil, or_false] at ha
      rcases ha with rfl | rfl <;> exact ⟨_, rfl⟩
    · obtain ⟨a, ha, e⟩ := pickAt_ok (l := o2.flatMap fun k => [LBVal.v2 k false, .v2 k true])
        (by cases o2 with | nil => exact absurd rfl h2 | cons _ _ => simp) d.k2
      refine ⟨a, e, fun h' => absurd h' h, fun _ => ?_⟩
      obtain ⟨k, hk, ha⟩ := List.mem_flatMap.1 ha
      simp only [List.mem_cons, List.not_mem_nil, or_false] at ha
      rcases ha with rfl | rfl <;> exact ⟨k, hk, _, rfl⟩
  obtain ⟨f1, e1, p1, q1⟩ := e1
  obtain ⟨f2, e2, p2, q2⟩ := e2
  refine ⟨[(.label, .nom (.lab g)), (.f1, .nom f1), (.f2, .nom f2), (.f3, .num x), (.f4, .num y)], ?_, ?_⟩
  · unfold lbInstance
    rw [e1, e2, e3, e4]
    rfl
  · constructor
    · rfl
    · intro h; rw [← p1 h]; rfl
    · intro h; obtain ⟨k, hk, rfl⟩ := q1 h; exact ⟨k, hk, rfl⟩
    · intro h; obtain ⟨b, rfl⟩ := p2 h; exact ⟨b, rfl⟩
    · intro h; obtain ⟨k, hk, b, rfl⟩ := q2 h; exact ⟨k, hk, b, rfl⟩
    · intro h; rw [← p3 h]; rfl
    · intro h; rcases q3 h with rfl | rfl; exacts [.inl rfl, .inr rfl]
    · intro h; rw [← p4 h]; rfl
    · intro h; rcases q4 h with rfl | rfl; exacts [.inl rfl, .inr rfl]

/-- **C89**: the values of the instances.  Noise takes the values of the other groups, except that group 2 takes
`f1` from the groups 2 and 3 (see `C89_slip`). -/
theorem C89_values (nn mn : ℝ) (d : LBDraws) :
    (∃ i, lbG1 nn mn d = .ok i ∧ LBValues nn mn d 1 [2, 3] [2, 3] i) ∧
    (∃ i, lbG2 nn mn d = .ok i ∧ LBValues nn mn d 2 [2, 3] [1, 3] i) ∧
    ∃ i, lbG3 nn mn d = .ok i ∧ LBValues nn mn d 3 [1, 2] [1, 2] i :=
  ⟨lbInstance_values (o1 := [2, 3]) (o2 := [2, 3]) nn mn 1 (by simp) (by simp) d,
    lbInstance_values (o1 := [2, 3]) (o2 := [1, 3]) nn mn 2 (by simp) (by simp) d,
    lbInstance_values (o1 := [1, 2]) (o2 := [1, 2]) nn mn 3 (by simp) (by simp) d⟩

theorem lbInstance_ok (nn mn : ℝ) (g : ℕ) {own1 : LBVal} {other1 own2 other2 : List LBVal}
    (h1 : other1 ≠ []) (h2 : own2 ≠ []) (h3 : other2 ≠ []) (d : LBDraws) :
    ∃ f1 f2 x y, lbInstance nn mn g own1 other1 own2 other2 d =
        .ok [(.label, .nom (.lab g)), (.f1, .nom f1), (.f2, .nom f2), (.f3, .num x), (.f4, .num y)] ∧
      (f1 = own1 ∨ f1 ∈ other1 ∧ d.r1 < nn) ∧ (f2 ∈ own2 ∨ f2 ∈ other2) := by
  have e1 : ∃ f1, lbF1 nn d.r1 own1 other1 d.k1 = .ok f1 ∧
      (f1 = own1 ∨ f1 ∈ other1 ∧ d.r1 < nn) := by
    unfold lbF1
    split_ifs with h
    · exact ⟨_, rfl, .inl rfl⟩
    · obtain ⟨a, ha, e⟩ := pickAt_ok h1 d.k1
      exact ⟨a, e, .inr ⟨ha, lt_of_not_ge h⟩⟩
  have e2 : ∃ f2, lbF2 nn d.r2 own2 other2 d.k2 = .ok f2 ∧
      (f2 ∈ own2 ∨ f2 ∈ other2) := by
    unfold lbF2
    split_ifs with h
    · obtain ⟨a, ha, e⟩ := pickAt_ok h2 d.k2
      exact ⟨a, e, .inl ha⟩
    · obtain ⟨a, ha, e⟩ := pickAt_ok h3 d.k2
      exact ⟨a, e, .inr ha⟩
  obtain ⟨f1, e1, p1⟩ := e1
  obtain ⟨f2, e2, p2⟩ := e2
  obtain ⟨x, e3⟩ := lbNumeric_ok mn d.r3 d.k3 d.n3
  obtain ⟨y, e4⟩ := lbNumeric_ok mn d.r4 d.k4 d.n4
  refine ⟨f1, f2, x, y, ?_, p1, p2⟩
  unfold lbInstance
  rw [e1, e2, e3, e4]
  rfl

/-- What is known of one instance of group `g`. -/
def LBDrawn (nn : ℝ) (g : ℕ) (d : LBDraws) (i : LBInst) : Prop :=
  LBOk g i ∧ (i.get? .f1 = some (.nom (.v1 g)) ∨ d.r1 < nn) ∧ (g = 2 → i.get? .f1 ≠ some (.nom (.v1 1)))

theorem lbG_ok (nn mn : ℝ) (d : LBDraws) :
    (∃ i, lbG1 nn mn d = .ok i ∧ LBDrawn nn 1 d i) ∧ (∃ i, lbG2 nn mn d = .ok i ∧ LBDrawn nn 2 d i) ∧
      ∃ i, lbG3 nn mn d = .ok i ∧ LBDrawn nn 3 d i := by
  refine ⟨?_, ?_, ?_⟩
  · obtain ⟨f1, f2, x, y, e, p1, p2⟩ := lbInstance_ok nn mn 1 (own1 := .v1 1) (other1 := [.v1 2, .v1 3])
      (own2 := [.v2 1 false, .v2 1 true]) (other2 := [.v2 2 false, .v2 2 true, .v2 3 false, .v2 3 true])
      (by simp) (by simp) (by simp) d
    refine ⟨_, e, ?_, ?_, by simp⟩
    · simp only [List.mem_cons, List.not_mem_nil, or_false] at p1 p2
      rcases p1 with rfl | ⟨rfl | rfl, -⟩ <;> rcases p2 with (rfl | rfl) | rfl | rfl | rfl | rfl <;>
        exact ⟨_, _, _, _, _, rfl, by simp, by simp⟩
    · rcases p1 with rfl | ⟨-, h⟩
      · exact .inl rfl
      · exact .inr h
  · obtain ⟨f1, f2, x, y, e, p1, p2⟩ := lbInstance_ok nn mn 2 (own1 := .v1 2) (other1 := [.v1 2, .v1 3])
      (own2 := [.v2 2 false, .v2 2 true]) (other2 := [.v2 1 false, .v2 1 true, .v2 3 false, .v2 3 true])
      (by simp) (by simp) (by simp) d
    refine ⟨_, e, ?_, ?_, fun _ => ?_⟩
    · simp only [List.mem_cons, List.not_mem_nil, or_false] at p1 p2
      rcases p1 with rfl | ⟨rfl | rfl, -⟩ <;> rcases p2 with (rfl | rfl) | rfl | rfl | rfl | rfl <;>
        exact ⟨_, _, _, _, _, rfl, by simp, by simp⟩
    · rcases p1 with rfl | ⟨-, h⟩
      · exact .inl rfl
      · exact .inr h
    · simp only [List.mem_cons, List.not_mem_nil, or_false] at p1
      rcases p1 with rfl | ⟨rfl | rfl, -⟩ <;> simp [Dict.get?_cons]
  · obtain ⟨f1, f2, x, y, e, p1, p2⟩ := lbInstance_ok nn mn 3 (own1 := .v1 3) (other1 := [.v1 1, .v1 2])
      (own2 := [.v2 3 false, .v2 3 true]) (other2 := [.v2 1 false, .v2 1 true, .v2 2 false, .v2 2 true])
      (by simp) (by simp) (by simp) d
    refine ⟨_, e, ?_, ?_, by simp⟩
    · simp only [List.mem_cons, List.not_mem_nil, or_false] at p1 p2
      rcases p1 with rfl | ⟨rfl | rfl, -⟩ <;> rcases p2 with (rfl | rfl) | rfl | rfl | rfl | rfl <;>
        exact ⟨_, _, _, _, _, rfl, by simp, by simp⟩
    · rcases p1 with rfl | ⟨-, h⟩
      · exact .inl rfl
      · exact .inr h

theorem mapM_ok_of {α β : Type} {f : α → Res β} {P : α → β → Prop} (h : ∀ a, ∃ b, f a = .ok b ∧ P a b)
    (l : List α) : ∃ r, l.mapM f = .ok r ∧ List.Forall₂ P l r := by
  induction l with
  | nil => exact ⟨[], rfl, .nil⟩
  | cons a l ih =>
    obtain ⟨b, e, p⟩ := h a
    obtain ⟨r, e', p'⟩ := ih
    refine ⟨b :: r, ?_, .cons p p'⟩
    rw [List.mapM_cons, e, ok_bind, e']
    rfl

theorem group_of_drawn {nn : ℝ} {g : ℕ} {d : LBDraws} {i : LBInst} (h : LBDrawn nn g d i) : lbGroup i = g := by
  obtain ⟨⟨g1, g2, b, x, y, rfl, -, -⟩, -, -⟩ := h
  rfl

/-- The data as one list of draws and instances. -/
theorem lbData_ok (nn mn : ℝ) (draws : ℕ → ℕ → LBDraws) :
    ∃ d1 d2 d3, lbData nn mn draws = .ok (d1 ++ d2 ++ d3) ∧
      List.Forall₂ (fun i x => LBDrawn nn 1 (draws 1 i) x) (List.range 60) d1 ∧
      List.Forall₂ (fun i x => LBDrawn nn 2 (draws 2 i) x) (List.range 60) d2 ∧
      List.Forall₂ (fun i x => LBDrawn nn 3 (draws 3 i) x) (List.range 60) d3 := by
  obtain ⟨d1, e1, p1⟩ := mapM_ok_of (fun i => (lbG_ok nn mn (draws 1 i)).1) (List.range 60)
  obtain ⟨d2, e2, p2⟩ := mapM_ok_of (fun i => (lbG_ok nn mn (draws 2 i)).2.1) (List.range 60)
  obtain ⟨d3, e3, p3⟩ := mapM_ok_of (fun i => (lbG_ok nn mn (draws 3 i)).2.2) (List.range 60)
  refine ⟨d1, d2, d3, ?_, p1, p2, p3⟩
  rw [lbData, e1, e2, e3]
  rfl

theorem countP_group {nn : ℝ} {g : ℕ} {f : ℕ → LBDraws} {l : List ℕ} {d : List LBInst}
    (h : List.Forall₂ (fun i x => LBDrawn nn g (f i) x) l d) (g' : ℕ) :
    d.countP (fun i => lbGroup i = g') = if g = g' then l.length else 0 := by
  induction h with
  | nil => simp
  | cons p _ ih =>
    rw [List.countP_cons, ih, group_of_drawn p]
    split <;> simp_all

/-- **C89.** Whatever is drawn, the data are 180 complete instances, 60 of each group. -/
theorem C89_data (nn mn : ℝ) (draws : ℕ → ℕ → LBDraws) :
    ∃ data, lbData nn mn draws = .ok data ∧ data.length = 180 ∧
      (∀ g ∈ [1, 2, 3], data.countP (fun i => lbGroup i = g) = 60) ∧
      ∀ i ∈ data, LBOk (lbGroup i) i := by
  obtain ⟨d1, d2, d3, e, p1, p2, p3⟩ := lbData_ok nn mn draws
  refine ⟨_, e, ?_, fun g hg => ?_, fun i hi => ?_⟩
  · rw [List.length_append, List.length_append, ← p1.length_eq, ← p2.length_eq, ← p3.length_eq]
    simp
  · rw [List.countP_append, List.countP_append, countP_group p1, countP_group p2, countP_group p3]
    simp only [List.mem_cons, List.not_mem_nil, or_false] at hg
    rcases hg with rfl | rfl | rfl <;> simp
  · rw [List.mem_append, List.mem_append] at hi
    rcases hi with (hi | hi) | hi
    · obtain ⟨k, -, h⟩ := forall₂_right p1.flip hi; rw [group_of_drawn h]; exact h.1
    · obtain ⟨k, -, h⟩ := forall₂_right p2.flip hi; rw [group_of_drawn h]; exact h.1
    · obtain ⟨k, -, h⟩ := forall₂_right p3.flip hi; rw [group_of_drawn h]; exact h.1

/-- Without nominal noise the first attribute determines the group (`random()` is never negative). -/
theorem C89_noise_free {nn mn : ℝ} {draws : ℕ → ℕ → LBDraws} {data : List LBInst}
    (h : lbData nn mn draws = .ok data) (hn : nn ≤ 0) (hr : ∀ g i, 0 ≤ (draws g i).r1) :
    ∀ i ∈ data, i.get? .f1 = some (.nom (.v1 (lbGroup i))) := by
  obtain ⟨d1, d2, d3, e, p1, p2, p3⟩ := lbData_ok nn mn draws
  rw [e, Except.ok.injEq] at h
  subst h
  intro i hi
  have key : ∀ {g k}, LBDrawn nn g (draws g k) i → i.get? .f1 = some (.nom (.v1 (lbGroup i))) := by
    intro g k h
    rw [group_of_drawn h]
    exact h.2.1.resolve_right (by have := hr g k; intro h'; linarith)
  rw [List.mem_append, List.mem_append] at hi
  rcases hi with (hi | hi) | hi
  · obtain ⟨k, -, h⟩ := forall₂_right p1.flip hi; exact key h
  · obtain ⟨k, -, h⟩ := forall₂_right p2.flip hi; exact key h
  · obtain ⟨k, -, h⟩ := forall₂_right p3.flip hi; exact key h

/-- Whatever the noise, no instance of the second group has the value of the first group for `f1`: line 52
chooses from the group's own value and the third group's. -/
theorem C89_slip {nn mn : ℝ} {draws : ℕ → ℕ → LBDraws} {data : List LBInst}
    (h : lbData nn mn draws = .ok data) :
    ∀ i ∈ data, lbGroup i = 2 → i.get? .f1 ≠ some (.nom (.v1 1)) := by
  obtain ⟨d1, d2, d3, e, p1, p2, p3⟩ := lbData_ok nn mn draws
  rw [e, Except.ok.injEq] at h
  subst h
  intro i hi hg
  rw [List.mem_append, List.mem_append] at hi
  rcases hi with (hi | hi) | hi
  · obtain ⟨k, -, h⟩ := forall₂_right p1.flip hi; rw [group_of_drawn h] at hg; omega
  · obtain ⟨k, -, h⟩ := forall₂_right p2.flip hi; exact h.2.2 rfl
  · obtain ⟨k, -, h⟩ := forall₂_right p3.flip hi; rw [group_of_drawn h] at hg; omega

theorem LBOk.nodup {g : ℕ} {i : LBInst} (h : LBOk g i) : Dict.Nodup i ∧ HasVisible lbHid i := by
  obtain ⟨g1, g2, b, x, y, rfl, -, -⟩ := h
  exact ⟨by simp [Dict.Nodup, Dict.keys], .f1, by simp [Dict.keys], rfl⟩

theorem LBOk.label {g : ℕ} {i : LBInst} (h : LBOk g i) : lbLabel i = .ok (.nom (.lab g)) := by
  obtain ⟨g1, g2, b, x, y, rfl, -, -⟩ := h
  rfl

/-- The first clustering that `cluster` yields for a new `Cobweb3Tree` has one label per instance. -/
theorem next_cluster_ok {A B V : Type} [DecidableEq A] [DecidableEq B] [DecidableEq V] {hid : A → Bool}
    {cfg : Cfg3 A B} {ord : List ℕ → List ℕ} (ho : SetOrder ord) {h0 h : Heap (Stats3 A V)}
    (hc : clearH (cobweb3Class hid) h0 = (.ok (), h)) (hw : Function.Injective h.w.rnd) {data : List (Inst3 A V)}
    (hd : ∀ i ∈ data, Dict.Nodup i ∧ HasVisible hid i) (h3 : data ≠ []) :
    ∃ ls, nextOf (cluster ord Prod.fst (fitC3 hid cfg true) (fun s => toTop (cuC3 hid cfg ord s.2)) 1 1 data
      (h, [])) = .ok ls ∧ ls.length = data.length ∧ ∃ names : List String, ls = names.map .name := by
  have hr : HReach3 hid cfg h [] [] := .init hc
  have e : heurC3 id hid cfg ord (.str "CU") = .ok fun s : Heap (Stats3 A V) × Scales B => toTop (cuC3 hid cfg ord s.2) := by
    simp [heurC3, resolveHeur]
  have hI := C35_yields_cobweb3 (arg := .str "CU") hr ho trivial e true true (le_refl 1) (le_refl 1) h3
    fun i hi => (hd i hi).1
  have hn := C35_never_raises_cobweb3 hr ho e true (le_refl 1) (le_refl 1) h3 (by simp) hd (.inl rfl) hw
  rw [e] at hI hn
  unfold cluster
  generalize clusterIter ord Prod.fst (fitC3 hid cfg true)
    (.ok fun s : Heap (Stats3 A V) × Scales B => toTop (cuC3 hid cfg ord s.2)) true 1 1 data (h, []) = r at hI hn
  obtain ⟨ys, err⟩ := r
  simp only at hn
  subst hn
  have hne : ys ≠ [] := by
    rintro rfl
    rcases hI.stop rfl rfl with h | ⟨y, h, -⟩
    · simp at h
    · simp at h
  cases ys with
  | nil => exact absurd rfl hne
  | cons y ys =>
    obtain ⟨leaves, s', -, hl, hy, -, -⟩ := hI.run hne
    have := (hy y (List.mem_cons_self ..)).1
    refine ⟨y.labels, rfl, ?_, ?_⟩
    · rw [this.labels, List.length_map, ← this.clusters.length_eq, hl]
    · rw [this.labels]
      have hobj : ∀ c ∈ y.clusters, ∃ s, nameOf y.store c = .name s := by
        intro c hc
        obtain ⟨i, hi, rfl⟩ := List.mem_iff_getElem.1 hc
        obtain ⟨-, r, er, hk⟩ := this.clusters.get (i := i) (by rw [this.clusters.length_eq]; exact hi) hi
        have hb : ∃ d, Below y.store y.store.root d y.clusters[i] := by
          rcases hk with hk | ⟨hk, -⟩
          · exact ⟨1, .step (.refl _) er hk⟩
          · exact ⟨0, by rw [List.get_eq_getElem] at hk; rw [hk]; exact .refl _⟩
        obtain ⟨d, hb⟩ := hb
        obtain ⟨r', er', -⟩ := this.links.child_parent hb
        exact ⟨_, by unfold nameOf; rw [er']⟩
      clear this
      generalize y.clusters = cs at hobj
      induction cs with
      | nil => exact ⟨[], rfl⟩
      | cons c cs ih =>
        obtain ⟨s, es⟩ := hobj c (List.mem_cons_self ..)
        obtain ⟨names, en⟩ := ih fun c hc => hobj c (List.mem_cons_of_mem _ hc)
        exact ⟨s :: names, by simp only [List.map_cons, if_true, es] at en ⊢; rw [en]⟩

/-- **C89.** `run_clust_exp` never raises: it returns the data in some order and one label per instance. -/
theorem C89_run {ord : List ℕ → List ℕ} (ho : SetOrder ord) {shuffle : List LBInst → List LBInst}
    (hs : ∀ l, (shuffle l).Perm l) (scaling nn mn : ℝ) (draws : ℕ → ℕ → LBDraws)
    {h0 h : Heap (Stats3 LBAttr LBVal)} (hc : clearH (cobweb3Class lbHid) h0 = (.ok (), h))
    (hw : Function.Injective h.w.rnd) :
    ∃ data ls, runClustExp ord shuffle scaling nn mn draws h = .ok (data, ls) ∧ ls.length = 180 ∧
      data.length = 180 ∧ ∀ g ∈ [1, 2, 3], data.countP (fun i => lbGroup i = g) = 60 := by
  obtain ⟨data, e, hl, hg, hok⟩ := C89_data nn mn draws
  have hp := hs data
  obtain ⟨ls, e', hl', names, hn⟩ := next_cluster_ok (cfg := (⟨scaling, id⟩ : Cfg3 LBAttr LBAttr)) ho hc hw
    (data := shuffle data) (fun i hi => (hok i (hp.mem_iff.1 hi)).nodup)
    (by rw [← List.length_pos_iff, hp.length_eq, hl]; norm_num)
  refine ⟨shuffle data, ls, ?_, ?_, ?_, fun g hg' => ?_⟩
  · rw [runClustExp, e, ok_bind]; simp only [e']
    rfl
  · rw [hl', hp.length_eq, hl]
  · rw [hp.length_eq, hl]
  · rw [hp.countP_eq, hg g hg']

/-- **C88** and **C89.** A round of `run_noise_exp` never raises.  It returns the number of misclassified instances
(C88) of the clustering by the names of the clusters, which is at most 360. -/
theorem C89_round {ord : List ℕ → List ℕ} (ho : SetOrder ord) {shuffle : List LBInst → List LBInst}
    (hs : ∀ l, (shuffle l).Perm l) (scaling nn mn : ℝ) (draws : ℕ → ℕ → LBDraws)
    {h0 h : Heap (Stats3 LBAttr LBVal)} (hc : clearH (cobweb3Class lbHid) h0 = (.ok (), h))
    (hw : Function.Injective h.w.rnd) :
    ∃ data names T, runClustExp ord shuffle scaling nn mn draws h = .ok (data, names.map .name) ∧ IsTop names T ∧
      noiseRound ord shuffle scaling nn mn draws h =
        .ok (missSpec names (data.map fun i => (Val.nom (LBVal.lab (lbGroup i)) : Val LBVal)) T) ∧
      missSpec names (data.map fun i => (Val.nom (LBVal.lab (lbGroup i)) : Val LBVal)) T ≤ 360 := by
  obtain ⟨data, e, hl, hg, hok⟩ := C89_data nn mn draws
  have hp := hs data
  obtain ⟨ls, e', hl', names, hn⟩ := next_cluster_ok (cfg := (⟨scaling, id⟩ : Cfg3 LBAttr LBAttr)) ho hc hw
    (data := shuffle data) (fun i hi => (hok i (hp.mem_iff.1 hi)).nodup)
    (by rw [← List.length_pos_iff, hp.length_eq, hl]; norm_num)
  have e1 : runClustExp ord shuffle scaling nn mn draws h = .ok (shuffle data, ls) := by
    rw [runClustExp, e, ok_bind]; simp only [e']
    rfl
  have e2 : (shuffle data).mapM lbLabel = .ok ((shuffle data).map fun i => Val.nom (.lab (lbGroup i))) := by
    have : ∀ i ∈ shuffle data, lbLabel i = .ok (.nom (.lab (lbGroup i))) :=
      fun i hi => (hok i (hp.mem_iff.1 hi)).label
    generalize shuffle data = l at this
    induction l with
    | nil => rfl
    | cons a l ih =>
      rw [List.mapM_cons, this a (List.mem_cons_self ..), ok_bind,
        ih fun i hi => this i (List.mem_cons_of_mem _ hi)]
      rfl
  have hlen : names.length ≤ ((shuffle data).map fun i => (Val.nom (LBVal.lab (lbGroup i)) : Val LBVal)).length := by
    rw [List.length_map, ← hl', hn, List.length_map]
  have hn' : ls.map Label.text = names := by
    rw [hn, List.map_map]
    exact (List.map_congr_left fun _ _ => rfl).trans (List.map_id _)
  obtain ⟨T, hT, e3⟩ := C88_miss hlen
  have h4 := C88_range hlen e3
  refine ⟨shuffle data, names, T, hn ▸ e1, hT, ?_, ?_⟩
  · rw [noiseRound, e1, ok_bind]
    simp only [e2, ok_bind]
    rw [hn']; exact e3
  · rw [show names.length = 180 by rw [← List.length_map (f := Label.name), ← hn, hl', hp.length_eq, hl]] at h4
    exact h4

/-! ## Examples -/

/-- A draw equal to the noise keeps the value; a smaller one does not. -/
example : ∃ i, lbG2 (1/2) (1/2) ⟨1/2, 1/2, 1/2, 1/4, 0, 0, 0, 0, (4, 10, 16), (20, 32, 44)⟩ = .ok i ∧
    i.get? .f1 = some (.nom (.v1 2)) ∧ i.get? .f3 = some (.num 4) ∧
    (i.get? .f4 = some (.num 32) ∨ i.get? .f4 = some (.num 44)) := by
  obtain ⟨-, ⟨i, e, h⟩, -⟩ := C89_values (1/2) (1/2) ⟨1/2, 1/2, 1/2, 1/4, 0, 0, 0, 0, (4, 10, 16), (20, 32, 44)⟩
  exact ⟨i, e, h.keep1 (le_refl _), h.keep3 (le_refl _), h.noise4 (by norm_num)⟩

/-- Draws of the group's own values when there is no noise. -/
noncomputable def quietDraws : ℕ → ℕ → LBDraws := fun g i => ⟨1/2, 1/2, 1/2, 1/2, i, i, i, i, (6 * g - 2, 0, 0), (12 * g + 8, 0, 0)⟩

example : ∃ data, lbData 0 0 quietDraws = .ok data ∧
    ∀ i ∈ data, i.get? .f1 = some (.nom (.v1 (lbGroup i))) := by
  obtain ⟨data, e, -⟩ := C89_data 0 0 quietDraws
  exact ⟨data, e, C89_noise_free e (le_refl 0) (fun g i => by norm_num [quietDraws])⟩

/-- Under noise the other two groups take every other group's value of `f1`; the claim for all three groups is
false by `C89_slip`. -/
theorem C89_others_mix_partial : ∃ d d' : LBDraws, ∃ i i' j j', lbG1 1 0 d = .ok i ∧ lbG1 1 0 d' = .ok i' ∧
    lbG3 1 0 d = .ok j ∧ lbG3 1 0 d' = .ok j' ∧
    i.get? .f1 = some (.nom (.v1 2)) ∧ i'.get? .f1 = some (.nom (.v1 3)) ∧
    j.get? .f1 = some (.nom (.v1 1)) ∧ j'.get? .f1 = some (.nom (.v1 2)) := by
  refine ⟨⟨0, 1, 0, 0, 0, 0, 0, 0, (4, 0, 0), (20, 0, 0)⟩, ⟨0, 1, 0, 0, 1, 0, 0, 0, (4, 0, 0), (20, 0, 0)⟩, ?_⟩
  have h : ¬ (1 : ℝ) ≤ 0 := by norm_num
  simp [lbG1, lbG3, lbInstance, lbF1, lbF2, lbNumeric, pickAt, ok_bind, h]
  simp [Dict.get?_cons]

end CF
