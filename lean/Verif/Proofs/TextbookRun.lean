/-
Everything the textbook algorithm may do, the loop of the model does for suitable random numbers.
-/
import Verif.Proofs.Textbook

set_option linter.unusedSectionVars false

namespace CF

theorem draws_append {w : World} {l l' : List ℚ} (h : Draws w (l ++ l')) :
    Draws w l ∧ Draws (w.skip l.length) l' := by
  constructor
  · intro k q hk
    refine h k q ?_
    obtain ⟨hl, -⟩ := List.getElem?_eq_some_iff.1 hk
    rw [List.getElem?_append_left hl]; exact hk
  · intro k q hk
    have := h (l.length + k) q (by rw [List.getElem?_append_right (by omega)]; simpa using hk)
    rw [← this]
    simp [World.draw, World.skip, Nat.add_assoc]

theorem draws_range {w : World} {n : ℕ} {f : ℕ → ℚ} (h : Draws w ((List.range n).map f)) {k : ℕ} (hk : k < n) :
    w.draw k = f k := h k (f k) (by simp [hk])

theorem draws_bump {w : World} {l : List ℚ} (n : ℕ) (h : Draws w l) : Draws (w.bump n) l := h

/-! ### Positions of the operations considered -/

/-- The position of an operation among those considered. -/
def opPos (p : Op → Bool) (op : Op) : ℕ := (op.earlier.filter p).length

/-- How many are considered. -/
def opNum (p : Op → Bool) : ℕ := ([Op.best, .new, .merge, .split].filter p).length

theorem opPos_lt {p : Op → Bool} {op : Op} (h : p op = true) : opPos p op < opNum p := by
  unfold opPos opNum
  cases op <;> cases h1 : p .best <;> cases h2 : p .new <;> cases h3 : p .merge <;> cases h4 : p .split <;>
    simp_all [Op.earlier]

theorem opPos_inj {p : Op → Bool} {op op' : Op} (h : p op = true) (h' : p op' = true) (he : opPos p op = opPos p op') :
    op = op' := by
  unfold opPos at he
  cases op <;> cases op' <;> cases h1 : p .best <;> cases h2 : p .new <;> cases h3 : p .merge <;>
    cases h4 : p .split <;> simp_all [Op.earlier]

variable {I S K : Type} [Field K] [LinearOrder K] [IsStrictOrderedRing K]
variable {C : NodeClass I S} {Ok : I → Prop} {Sum : S → Multiset I → Prop} {Same : I → I → Prop}
variable {ecg : S → Res K} {E : Multiset I → K} {G : I → Prop}

/-- The random numbers that make the children at positions `k` and `j` win all ties among `n` children. -/
def hostDraw (n k j q : ℕ) : ℚ :=
  if q = k then ((n : ℚ) + 1) / (n + 2) else if q = j then (n : ℚ) / (n + 2) else (q : ℚ) / (n + 2)

theorem hostDraw_unit {n k j q : ℕ} (hq : q < n) : 0 ≤ hostDraw n k j q ∧ hostDraw n k j q < 1 := by
  have h2 : (0 : ℚ) < (n : ℚ) + 2 := by positivity
  have hq' : (q : ℚ) < n := by exact_mod_cast hq
  unfold hostDraw
  split
  · exact ⟨by positivity, by rw [div_lt_one h2]; linarith⟩
  · split
    · exact ⟨by positivity, by rw [div_lt_one h2]; linarith⟩
    · exact ⟨by positivity, by rw [div_lt_one h2]; linarith⟩

theorem hostDraw_lt_first {n k j q : ℕ} (hq : q < n) (hne : q ≠ k) : hostDraw n k j q < hostDraw n k j k := by
  have h2 : (0 : ℚ) < (n : ℚ) + 2 := by positivity
  have hq' : (q : ℚ) < n := by exact_mod_cast hq
  unfold hostDraw
  rw [if_neg hne, if_pos rfl]
  split
  · rw [div_lt_div_iff_of_pos_right h2]; linarith
  · rw [div_lt_div_iff_of_pos_right h2]; linarith

theorem hostDraw_lt_second {n k j q : ℕ} (hq : q < n) (hj : j ≠ k) (hne : q ≠ k) (hne' : q ≠ j) :
    hostDraw n k j q < hostDraw n k j j := by
  have h2 : (0 : ℚ) < (n : ℚ) + 2 := by positivity
  have hq' : (q : ℚ) < n := by exact_mod_cast hq
  unfold hostDraw
  rw [if_neg hne, if_neg hne', if_neg hj, if_pos rfl, div_lt_div_iff_of_pos_right h2]
  exact hq'

theorem hostDraw_inj {n k j a b : ℕ} (ha : a < n) (hb : b < n) (hj : j ≠ k) (h : hostDraw n k j a = hostDraw n k j b) :
    a = b := by
  by_contra hab
  by_cases h1 : a = k
  · subst h1; exact absurd h (hostDraw_lt_first hb (Ne.symm hab)).ne'
  by_cases h2 : b = k
  · subst h2; exact absurd h (hostDraw_lt_first ha hab).ne
  by_cases h3 : a = j
  · subst h3; exact absurd h (hostDraw_lt_second hb hj h2 (Ne.symm hab)).ne'
  by_cases h4 : b = j
  · subst h4; exact absurd h (hostDraw_lt_second ha hj h1 hab).ne
  have hp : ((n : ℚ) + 2) ≠ 0 := by positivity
  unfold hostDraw at h
  rw [if_neg h1, if_neg h2, if_neg h3, if_neg h4, div_left_inj' hp] at h
  exact hab (by exact_mod_cast h)

/-- Of two hosts with the same utility and size, neither ahead. -/
theorem notBetter_draw {u u' : K} {n n' : ℕ} {r r' : ℚ} (h : NotBetter u n r u' n' r') (h' : NotAhead u' n' u n) :
    u = u' ∧ n = n' ∧ r ≤ r' := by
  rcases h with h | ⟨h1, h2⟩
  · rcases h' with h' | ⟨h', -⟩
    · exact absurd h (not_lt.2 h'.le)
    · exact absurd h' h.ne'
  · rcases h' with h' | ⟨-, h'⟩
    · exact absurd h1 h'.ne'
    · rcases h2 with h2 | ⟨h2, h3⟩
      · omega
      · exact ⟨h1, h2, h3⟩

theorem groups_perm {hs hs' : List (Hier I)} (h : hs.Perm hs') : (groups hs).Perm (groups hs') := h.map _

theorem offer_perm {m : Multiset I} {i : I} {x y : Hier I} {rest rest' : List (Hier I)} (h : rest.Perm rest') {o : Op} {u : K}
    (hu : Offer E m i x y rest o u) : Offer E m i x y rest' o u := by
  cases hu with
  | best => rw [hosting_perm (h.cons y)]; exact .best
  | new => rw [gain_perm ((groups_perm ((h.cons y).cons x)).cons _)]; exact .new
  | merge h0 =>
    rw [gain_perm ((groups_perm h).cons _)]
    exact .merge fun h1 => h0 (by rw [h1] at h; exact h.eq_nil)
  | split h0 => rw [gain_perm (groups_perm ((h.cons y).append_left x.subs))]; exact .split h0

theorem shows_inv {id : ℕ} {s : S} {cs : List (Tree S)} {m : Multiset I} {hs : List (Hier I)}
    (h : Depicts Sum (.node id s cs) (.node m hs)) :
    Sum s m ∧ ∃ hs', List.Forall₂ (Depicts Sum) cs hs' ∧ hs'.Perm hs := by
  cases h with | node h1 h2 h3 => exact ⟨h1, _, depictsL_iff.1 h2, h3⟩

/-- A step of the loop at an internal node. -/
theorem cobwebLoop_step {inst : I} {F id : ℕ} {s : S} {cs : List (Tree S)} (hne : cs ≠ []) (w : World) :
    cobwebLoop C ecg inst (F + 1) (.node id s cs) w = (do
    let (b, op, w) ← chooseOp C ecg s cs inst w
    match op with
    | .best =>
      match cs[b.b1]? with
      | none => .error .indexErr
      | some t => do
        let o ← cobwebLoop C ecg inst F t w
        pure ⟨.node id (C.incr s inst) (putChild cs b.b1 o), o.leaf, false, o.w⟩
    | .new =>
      pure ⟨.node id (C.incr s inst) (cs ++ [.node (w.ctr + 1) (C.incr C.fresh inst) []]),
        w.ctr + 1, false, w.bump 1⟩
    | .merge =>
      match b.b2 with
      | none => .error .indexErr
      | some j =>
      match cs[b.b1]?, cs[j]? with
      | some t1, some t2 => do
        let o ← cobwebLoop C ecg inst F
          (.node (w.ctr + 1) (C.addFrom (C.addFrom C.fresh t1.stats) t2.stats) [t1, t2]) (w.bump 1)
        pure ⟨.node id (C.incr s inst) (removeTwo cs b.b1 j ++ [o.tree]), o.leaf, false, o.w⟩
      | _, _ => .error .indexErr
    | .split =>
      match cs[b.b1]? with
      | none => .error .indexErr
      | some t => cobwebLoop C ecg inst F (.node id s (cs.eraseIdx b.b1 ++ t.children)) w) := by
  cases cs with
  | nil => exact absurd rfl hne
  | cons c cs => rw [cobwebLoop]; rfl

section node
variable (L : Laws C Ok Sum Same) (hV : Values Sum ecg E) (hE : Scores Sum ecg G) {inst : I} (hi : Ok inst) (hg : G inst)
  (hinc : ∀ s, C.count (C.incr s inst) = C.count s + 1)
include L hV hE hi hg hinc

/-- The random numbers for a choice. -/
theorem chooseOp_run {s : S} {m : Multiset I} (hs : Sum s m) (hm : m ≠ 0) (hG : ∀ j ∈ m, G j) {cs : List (Tree S)}
    {hs' : List (Hier I)} (h : List.Forall₂ (Depicts Sum) cs hs') (hP : ∀ x ∈ hs', x.Proper)
    (hsum : (groups hs').sum = m) {hs0 : List (Hier I)} (hp0 : hs'.Perm hs0) {x y : Hier I} {rest : List (Hier I)}
    (hH : Hosts E m inst hs0 x y rest) {op : Op} (hW : Wins E m inst x y rest op) :
    ∃ k j d pre, j ≠ k ∧ hs'[k]? = some x ∧ hs'[j]? = some y ∧ (dropTwo hs' k j).Perm rest ∧
      (∀ q ∈ pre, 0 ≤ q ∧ q < 1) ∧ ∀ w, Draws w pre → ∃ b, b.b1 = k ∧ b.b2 = some j ∧
        chooseOp C ecg s cs inst w = .ok (b, op, (w.skip pre.length).bump d) := by
  classical
  obtain ⟨k, j, hne, hx, hy, hrest⟩ := perm_cons_cons_pos (hp0.trans hH.all)
  have hsg := shows_groups h
  have hmem : ∀ g ∈ groups hs', ∀ i ∈ g, i ∈ m := by
    intro g hgm i hig
    rw [← hsum]
    exact Multiset.mem_of_le (List.le_sum_of_mem hgm) hig
  have hgood : ∀ c ∈ cs, GoodTable Sum G c.stats := by
    intro c hc
    obtain ⟨q, hq⟩ := List.getElem?_of_mem hc
    obtain ⟨z, hz, hcz⟩ := shown_getElem? h hq
    have hz' := List.mem_of_getElem? hz
    exact ⟨z.group, hcz.stats, (hP z hz').ne_zero, fun i hi => hG i (hmem _ (List.mem_map_of_mem hz') i hi)⟩
  have hsgood : GoodTable Sum G s := ⟨m, hs, hm, hG⟩
  obtain ⟨t1, ht1, hst1⟩ := shown_getElem?' h hx
  obtain ⟨t2, ht2, hst2⟩ := shown_getElem?' h hy
  obtain ⟨hklt, -⟩ := List.getElem?_eq_some_iff.1 ht1
  obtain ⟨hjlt, -⟩ := List.getElem?_eq_some_iff.1 ht2
  have hlen2 : 2 ≤ cs.length := by omega
  -- the utilities in terms of the positions
  have hp : hs'.Perm (x :: y :: dropTwo hs' k j) := perm_dropTwo hne hx hy
  have hp1 : (hs'.eraseIdx k).Perm (y :: rest) := ((perm_eraseIdx hx).symm.trans (hp0.trans hH.all)).cons_inv
  have hp2 : (hs'.eraseIdx j).Perm (x :: rest) :=
    ((perm_eraseIdx hy).symm.trans ((hp0.trans hH.all).trans (List.Perm.swap _ _ _))).cons_inv
  -- the operations
  set cu1 := hosting E m inst x (hs'.eraseIdx k) with hcu1
  set p : Op → Bool := fun o => decide (Considered C ecg allOps s cs inst cu1 k (some j) o) with hpdef
  set pre : List ℚ := (List.range cs.length).map (hostDraw cs.length k j) ++
    (List.range (opNum p)).map (fun q => if q = opPos p op then 1 / 2 else 0) with hpre
  refine ⟨k, j, tempIds cs.length t1.children.length true, pre, hne, hx, hy, hrest, ?_, ?_⟩
  · intro q hq
    rcases List.mem_append.1 hq with hq | hq
    · obtain ⟨a, ha, rfl⟩ := List.mem_map.1 hq
      exact hostDraw_unit (List.mem_range.1 ha)
    · obtain ⟨a, ha, rfl⟩ := List.mem_map.1 hq
      split <;> constructor <;> norm_num
  · intro w hw
    obtain ⟨hw1, hw2⟩ := draws_append hw
    rw [List.length_map, List.length_range] at hw2
    have hd1 : ∀ q, q < cs.length → w.draw q = hostDraw cs.length k j q := fun q hq => draws_range hw1 hq
    have hd2 : ∀ q, q < opNum p → w.draw (cs.length + q) = if q = opPos p op then 1 / 2 else 0 := by
      intro q hq
      rw [← draws_range hw2 hq]
      simp [World.draw, World.skip, Nat.add_assoc]
    obtain ⟨b, hb⟩ := twoBest_total' L hE hi (cs := cs.map Tree.stats) (w := w) (by
        intro a b ha hb hab
        rw [List.length_map] at ha hb
        rw [hd1 a ha, hd1 b hb] at hab
        exact hostDraw_inj ha hb hne hab) hsgood (by
      intro c hc
      obtain ⟨c, hc', rfl⟩ := List.mem_map.1 hc
      exact hgood c hc') (by
        intro h0
        have := congrArg List.length h0
        simp at this; subst this; simp at hlen2)
    have hbb := hb
    obtain ⟨c1, hc1, hu1, hall, hnone, hsec⟩ := twoBest_optimal (copies_of_sum L hV hsg)
      (show shallowCopy C s = s from L.copy hs) hinc hb
    -- the best child
    have hb1 : b.b1 = k := by
      by_contra hbk
      obtain ⟨g1, hg1, hsc1⟩ := shown_getElem? hsg hc1
      simp only [groups, List.getElem?_map, Option.map_eq_some_iff] at hg1
      obtain ⟨z, hz, rfl⟩ := hg1
      obtain ⟨hblt, -⟩ := List.getElem?_eq_some_iff.1 hc1
      rw [List.length_map] at hblt
      obtain ⟨u, hu, hnb⟩ := hall k t1.stats (by simp [ht1])
      have hna := hH.first z (hs'.eraseIdx b.b1) (hp0.symm.trans (perm_eraseIdx hz))
      rw [← insert_hosting L hV hi hs h hz hu1, ← hosting_perm hp1, ← insert_hosting L hV hi hs h hx hu,
        ← L.count hsc1, ← L.count hst1.stats] at hna
      obtain ⟨-, -, hr⟩ := notBetter_draw hnb hna
      rw [hd1 k hklt, hd1 b.b1 hblt] at hr
      exact absurd hr (not_le.2 (hostDraw_lt_first hblt hbk))
    have hb2 : b.b2 = some j := by
      cases hb2 : b.b2 with
      | none => rw [hb2] at hnone; simp at hnone; omega
      | some q =>
        by_contra hqj
        have hqj : q ≠ j := fun h => hqj (by rw [h])
        obtain ⟨hqk, c2, u2, hc2, hu2, hsec⟩ := hsec q hb2
        rw [hb1] at hqk hsec
        obtain ⟨g2, hg2, hsc2⟩ := shown_getElem? hsg hc2
        simp only [groups, List.getElem?_map, Option.map_eq_some_iff] at hg2
        obtain ⟨z, hz, rfl⟩ := hg2
        obtain ⟨hqlt, -⟩ := List.getElem?_eq_some_iff.1 hc2
        rw [List.length_map] at hqlt
        obtain ⟨u, hu, -⟩ := hall j t2.stats (by simp [ht2])
        have hnb := hsec j t2.stats u hne (by simp [ht2]) hu
        have hpz : hs'.Perm (x :: z :: dropTwo hs' k q) := perm_dropTwo hqk hx hz
        have hpz1 : (hs'.eraseIdx q).Perm (x :: dropTwo hs' k q) :=
          ((perm_eraseIdx hz).symm.trans (hpz.trans (List.Perm.swap _ _ _))).cons_inv
        have hna := hH.second z (dropTwo hs' k q) (hp0.symm.trans hpz)
        rw [← hosting_perm hpz1, ← insert_hosting L hV hi hs h hz hu2, ← hosting_perm hp2,
          ← insert_hosting L hV hi hs h hy hu, ← L.count hsc2, ← L.count hst2.stats] at hna
        obtain ⟨-, -, hr⟩ := notBetter_draw hnb hna
        rw [hd1 j hjlt, hd1 q hqlt] at hr
        exact absurd hr (not_le.2 (hostDraw_lt_second hqlt hne hqk hqj))
    have hbcu : b.cu = cu1 := by
      rw [hb1] at hu1
      exact insert_hosting L hV hi hs h hx hu1
    -- the operation
    obtain ⟨⟨cu, op', n⟩, ho⟩ := bestOp_total L hE hi hg (w := w) (off := cs.length) (cu1 := cu1) ht1 (some j) hsgood hgood (by
      intro c hc
      obtain ⟨bs, q1, q2⟩ := hst1.subs
      obtain ⟨q, hq⟩ := List.getElem?_of_mem hc
      obtain ⟨z, hz, hcz⟩ := shown_getElem? q1 hq
      have hz' := q2.mem_iff.1 (List.mem_of_getElem? hz)
      have hxP := hP x (List.mem_of_getElem? hx)
      have hxm := hmem x.group (List.mem_map_of_mem (List.mem_of_getElem? hx))
      obtain ⟨mx, xs⟩ := x
      simp only [Hier.subs_node, Hier.group_node] at hz' hxm
      obtain ⟨-, r2, r3⟩ := hxP.internal (List.ne_nil_of_mem hz')
      refine ⟨z.group, hcz.stats, (r2 z hz').ne_zero, fun i hi => hG i (hxm i ?_)⟩
      rw [← r3]
      exact Multiset.mem_of_le (List.le_sum_of_mem (List.mem_map_of_mem hz')) hi)
    have hpR : ∀ {o u}, Offer E m inst x y rest o u → Offer E m inst x y (dropTwo hs' k j) o u :=
      fun h => offer_perm hrest.symm h
    have hpR' : ∀ {o u}, Offer E m inst x y (dropTwo hs' k j) o u → Offer E m inst x y rest o u :=
      fun h => offer_perm hrest h
    have hbo := C12_best_operation ho
    obtain ⟨i1, hi1, -, hsc', hmax⟩ := hbo
    cases hi1
    obtain ⟨i2, hi2, hties, l, hsub, hll, hlmem⟩ := C12_ties ho
    cases hi2
    obtain ⟨u, hu, hubest⟩ := hW
    have hscu := score_of_offer L hV hi hs h hm hne hx hy ho (hpR hu)
    have hofcu := hpR' (offer_of_score L hV hi hs h hm hne hx hy hsc')
    have hall : ∀ o : Op, o ∈ allOps := by intro o; cases o <;> simp [allOps]
    have hueq : u = cu := le_antisymm (hmax op u (hall op) hscu) (hubest op' cu hofcu)
    subst hueq
    have hcons : p op = true := by rw [hpdef]; exact decide_eq_true ⟨hall op, u, hscu⟩
    have hcons' : p op' = true := by rw [hpdef]; exact decide_eq_true ⟨hall op', u, hsc'⟩
    have hdraw : ∀ o, p o = true → opDraw C ecg allOps s cs inst cu1 k (some j) w cs.length o =
        if opPos p o = opPos p op then 1 / 2 else 0 := by
      intro o hpo
      rw [← hd2 (opPos p o) (opPos_lt hpo)]
      unfold opDraw opPos
      rfl
    have hop : op' = op := by
      by_contra hne'
      have h0 : opPos p op' ≠ opPos p op := fun h => hne' (opPos_inj hcons' hcons h)
      have := hties op (hall op) hscu
      rw [hdraw op hcons, hdraw op' hcons', if_pos rfl, if_neg h0] at this
      rcases this with h | ⟨h, -⟩ <;> norm_num at h
    have hn : n = opNum p := by
      rw [← hll]
      unfold opNum
      congr 1
      have hnd : ([Op.best, .new, .merge, .split] : List Op).Nodup := by decide
      have : l = [Op.best, .new, .merge, .split].filter p := by
        have h1 := hsub.filter p
        have h2 : l.filter p = l := List.filter_eq_self.2 fun o ho => by
          rw [hpdef]; exact decide_eq_true ((hlmem o).1 ho)
        rw [h2] at h1
        refine h1.eq_of_length_le ?_
        have h3 : ([Op.best, .new, .merge, .split].filter p) ⊆ l := by
          intro o ho
          have := (List.mem_filter.1 ho).2
          rw [hpdef] at this
          exact (hlmem o).2 (of_decide_eq_true this)
        exact ((hnd.filter p).subperm h3).length_le
      exact this
    subst hop
    refine ⟨b, hb1, hb2, ?_⟩
    unfold chooseOp
    rw [hbb, ok_bind, hbcu, hb1, hb2, ho, ok_bind, ht1, hn]
    simp [hpre, World.skip, pure, Except.pure]


theorem Sorts.run {T T' : Hier I} (h : Sorts E Same inst T T') : T.Proper → (∀ j ∈ T.group, G j) →
    ∀ (s : S) (cs : List (Tree S)), (∀ id, Depicts Sum (.node id s cs) T) →
    ∃ F pre, (∀ q ∈ pre, 0 ≤ q ∧ q < (1 : ℚ)) ∧ ∀ id c, ∃ t' leaf mv c', Depicts Sum t' T' ∧
      ∀ w, w.ctr = c → Draws w pre →
        cobwebLoop C ecg inst F (.node id s cs) w = .ok ⟨t', leaf, mv, ⟨w.rnd, w.pos + pre.length, c'⟩⟩ := by
  induction h with
  | @join m hall =>
    intro hT hG s cs hsh
    obtain ⟨h1, hs', h2, h3⟩ := shows_inv (hsh 0)
    cases h3.eq_nil
    cases h2
    refine ⟨1, [], by simp, fun id c => ⟨.node id (C.incr s inst) [], id, false, c, ?_, ?_⟩⟩
    · exact shows_node (L.incr h1 hi) .nil (.refl _)
    · rintro w rfl -
      simp [cobwebLoop, (L.exact h1 hT.ne_zero hi).2 hall]
  | @divide m hall =>
    intro hT hG s cs hsh
    obtain ⟨h1, hs', h2, h3⟩ := shows_inv (hsh 0)
    cases h3.eq_nil
    cases h2
    have hx : C.isExact s inst = false := by
      cases hx : C.isExact s inst with
      | false => rfl
      | true => exact absurd ((L.exact h1 hT.ne_zero hi).1 hx) hall
    have hc : C.count s ≠ 0 := by rw [L.count h1]; simpa using hT.ne_zero
    refine ⟨1, [], by simp, fun id c => ⟨.node (c + 1) (C.incr (shallowCopy C s) inst)
      [.node id s [], .node (c + 2) (C.incr C.fresh inst) []], c + 2, true, c + 2, ?_, ?_⟩⟩
    rotate_left
    · rintro w rfl -
      simp only [cobwebLoop, hx, Bool.false_or, beq_iff_eq, hc, if_false]
      rfl
    · refine shows_node ?_ (.cons ?_ (.cons ?_ .nil)) (.refl _)
      · rw [show shallowCopy C s = s from L.copy h1]; exact L.incr h1 hi
      · exact shows_node h1 .nil (.refl _)
      · exact shows_node (L.incr L.fresh hi) .nil (.refl _)
  | @best m hs x y rest x' hH hW _ ih =>
    intro hT hG s cs hsh
    obtain ⟨h1, hs', h2, h3⟩ := shows_inv (hsh 0)
    have hne : hs ≠ [] := by rintro rfl; exact absurd hH.all.symm.eq_nil (by simp)
    obtain ⟨p1, p2, p3⟩ := hT.internal hne
    have hl := h2.length_eq.trans h3.length_eq
    have hcne : cs ≠ [] := by rintro rfl; simp at hl; omega
    obtain ⟨k, j, d, pre, hjk, hx, hy, hrest, hun, hrun⟩ := chooseOp_run L hV hE hi hg hinc h1 hT.ne_zero hG h2
      (fun z hz => p2 z (h3.mem_iff.1 hz)) ((groups_sum_perm h3).trans p3) h3 hH hW
    obtain ⟨t1, ht1, hst1⟩ := shown_getElem?' h2 hx
    have hxs := h3.mem_iff.1 (List.mem_of_getElem? hx)
    obtain ⟨i1, s1, cs1⟩ := t1
    obtain ⟨F, pre', hun', hrun'⟩ := ih (p2 x hxs) (fun i hi => hG i (by
      rw [Hier.group_node, ← p3]
      exact Multiset.mem_of_le (List.le_sum_of_mem (List.mem_map_of_mem hxs)) hi)) s1 cs1 (by
        intro id
        obtain ⟨mx, xs⟩ := x
        obtain ⟨a1, l, a2, a3⟩ := shows_inv hst1
        exact shows_node a1 a2 a3)
    refine ⟨F + 1, pre ++ pre', ?_, ?_⟩
    · intro q hq
      rcases List.mem_append.1 hq with hq | hq
      · exact hun q hq
      · exact hun' q hq
    intro id c
    obtain ⟨t', leaf, mv, c', hso, ho⟩ := hrun' i1 (c + d)
    let o : Out S := ⟨t', leaf, mv, ⟨fun _ => 0, 0, 0⟩⟩
    refine ⟨.node id (C.incr s inst) (putChild cs k o), leaf, false, c', ?_, ?_⟩
    · obtain ⟨l, q1, q2⟩ := shows_perm (.cons (a := o.tree) hso (shown_eraseIdx h2 k)) (perm_putChild ht1 o)
      refine shows_node (L.incr h1 hi) q1 (q2.trans (.cons _ ?_))
      exact ((perm_eraseIdx hx).symm.trans (h3.trans hH.all)).cons_inv
    · intro w hc hw
      obtain ⟨hw1, hw2⟩ := draws_append hw
      obtain ⟨b, hb1, hb2, hch⟩ := hrun w hw1
      have ho := ho _ (by simp only [World.skip, World.bump, hc]) (draws_bump d hw2)
      rw [cobwebLoop_step hcne, hch, ok_bind]
      simp only [hb1, ht1, ho, ok_bind, List.length_append, ← Nat.add_assoc]
      rfl
  | @new m hs x y rest hH hW =>
    intro hT hG s cs hsh
    obtain ⟨h1, hs', h2, h3⟩ := shows_inv (hsh 0)
    have hne : hs ≠ [] := by rintro rfl; exact absurd hH.all.symm.eq_nil (by simp)
    obtain ⟨p1, p2, p3⟩ := hT.internal hne
    have hl := h2.length_eq.trans h3.length_eq
    have hcne : cs ≠ [] := by rintro rfl; simp at hl; omega
    obtain ⟨k, j, d, pre, hjk, hx, hy, hrest, hun, hrun⟩ := chooseOp_run L hV hE hi hg hinc h1 hT.ne_zero hG h2
      (fun z hz => p2 z (h3.mem_iff.1 hz)) ((groups_sum_perm h3).trans p3) h3 hH hW
    refine ⟨1, pre, hun, fun id c => ?_⟩
    refine ⟨.node id (C.incr s inst) (cs ++ [.node (c + d + 1) (C.incr C.fresh inst) []]), c + d + 1, false, c + d + 1,
      ?_, ?_⟩
    rotate_left
    · rintro w rfl hw
      obtain ⟨b, hb1, hb2, hch⟩ := hrun w hw
      rw [cobwebLoop_step hcne, hch, ok_bind]
      rfl
    · have h4 : ∀ n, Depicts Sum (.node n (C.incr C.fresh inst) []) (.node {inst} []) :=
        fun n => shows_node (L.incr L.fresh hi) .nil (.refl _)
      exact shows_node (L.incr h1 hi) (List.rel_append h2 (List.Forall₂.cons (h4 _) .nil))
        ((List.perm_append_singleton _ _).trans (h3.cons _))
  | @merge m hs x y rest z hH hW _ ih =>
    intro hT hG s cs hsh
    obtain ⟨h1, hs', h2, h3⟩ := shows_inv (hsh 0)
    have hne : hs ≠ [] := by rintro rfl; exact absurd hH.all.symm.eq_nil (by simp)
    obtain ⟨p1, p2, p3⟩ := hT.internal hne
    have hl := h2.length_eq.trans h3.length_eq
    have hcne : cs ≠ [] := by rintro rfl; simp at hl; omega
    obtain ⟨k, j, d, pre, hjk, hx, hy, hrest, hun, hrun⟩ := chooseOp_run L hV hE hi hg hinc h1 hT.ne_zero hG h2
      (fun z hz => p2 z (h3.mem_iff.1 hz)) ((groups_sum_perm h3).trans p3) h3 hH hW
    obtain ⟨t1, ht1, hst1⟩ := shown_getElem?' h2 hx
    obtain ⟨t2, ht2, hst2⟩ := shown_getElem?' h2 hy
    have hxs := h3.mem_iff.1 (List.mem_of_getElem? hx)
    have hys := h3.mem_iff.1 (List.mem_of_getElem? hy)
    have hin : ∀ z ∈ hs, ∀ i ∈ z.group, G i := fun z hz i hi => hG i (by
      rw [Hier.group_node, ← p3]
      exact Multiset.mem_of_le (List.le_sum_of_mem (List.mem_map_of_mem hz)) hi)
    have hsum := L.add (L.add L.fresh hst1.stats) hst2.stats
    rw [zero_add] at hsum
    obtain ⟨F, pre', hun', hrun'⟩ := ih (.node (by simp) (by
        intro v hv
        simp at hv
        rcases hv with rfl | rfl
        · exact p2 _ hxs
        · exact p2 _ hys) (by simp [groups]))
      (by
        intro i hi
        rcases Multiset.mem_add.1 hi with hi | hi
        · exact hin _ hxs i hi
        · exact hin _ hys i hi) _ [t1, t2]
      (fun id => shows_node hsum (.cons hst1 (.cons hst2 .nil)) (.refl _))
    refine ⟨F + 1, pre ++ pre', ?_, ?_⟩
    · intro q hq
      rcases List.mem_append.1 hq with hq | hq
      · exact hun q hq
      · exact hun' q hq
    intro id c
    obtain ⟨t', leaf, mv, c', hso, ho⟩ := hrun' (c + d + 1) (c + d + 1)
    refine ⟨.node id (C.incr s inst) (removeTwo cs k j ++ [t']), leaf, false, c', ?_, ?_⟩
    rotate_left
    · rintro w rfl hw
      obtain ⟨hw1, hw2⟩ := draws_append hw
      obtain ⟨b, hb1, hb2, hch⟩ := hrun w hw1
      have ho := ho _ (by simp only [World.skip, World.bump]) (draws_bump 1 (draws_bump d hw2))
      rw [cobwebLoop_step hcne, hch, ok_bind]
      simp only [World.skip, World.bump] at ho
      simp only [World.skip, World.bump, hb1, hb2, ht1, ht2, ho, ok_bind, List.length_append, ← Nat.add_assoc]
      rfl
    · exact shows_node (L.incr h1 hi) (List.rel_append (shown_dropTwo h2 k j) (List.Forall₂.cons hso .nil))
        ((List.perm_append_singleton _ _).trans (hrest.cons _))
  | @split m hs x y rest z hH hW _ ih =>
    intro hT hG s cs hsh
    obtain ⟨h1, hs', h2, h3⟩ := shows_inv (hsh 0)
    have hne : hs ≠ [] := by rintro rfl; exact absurd hH.all.symm.eq_nil (by simp)
    obtain ⟨p1, p2, p3⟩ := hT.internal hne
    have hl := h2.length_eq.trans h3.length_eq
    have hcne : cs ≠ [] := by rintro rfl; simp at hl; omega
    obtain ⟨k, j, d, pre, hjk, hx, hy, hrest, hun, hrun⟩ := chooseOp_run L hV hE hi hg hinc h1 hT.ne_zero hG h2
      (fun z hz => p2 z (h3.mem_iff.1 hz)) ((groups_sum_perm h3).trans p3) h3 hH hW
    obtain ⟨t1, ht1, hst1⟩ := shown_getElem?' h2 hx
    have hxs := h3.mem_iff.1 (List.mem_of_getElem? hx)
    obtain ⟨bs, q1, q2⟩ := hst1.subs
    have hsub : x.subs ≠ [] := by
      obtain ⟨u, hu, -⟩ := hW
      cases hu with | split h => exact h
    have hP : Hier.Proper (.node m (x.subs ++ y :: rest)) := by
      have hpx := p2 x hxs
      have hall := hH.all
      obtain ⟨mx, xs⟩ := x
      obtain ⟨r1, r2, r3⟩ := hpx.internal hsub
      refine .node (by simp only [Hier.subs_node, List.length_append, List.length_cons]; omega) ?_ ?_
      · intro v hv
        rcases List.mem_append.1 hv with hv | hv
        · exact r2 v hv
        · exact p2 v (hall.mem_iff.2 (List.mem_cons_of_mem _ hv))
      · rw [groups_sum_perm hall] at p3
        rw [← p3]
        simp only [groups, List.map_append, List.sum_append, List.map_cons, List.sum_cons, Hier.group_node,
          Hier.subs_node] at r3 ⊢
        rw [r3]
    obtain ⟨F, pre', hun', hrun'⟩ := ih hP hG s (cs.eraseIdx k ++ t1.children) (fun id =>
      shows_node h1 (List.rel_append (shown_eraseIdx h2 k) q1) (List.perm_append_comm.trans (q2.append
        ((perm_eraseIdx hx).symm.trans (h3.trans hH.all)).cons_inv)))
    refine ⟨F + 1, pre ++ pre', ?_, ?_⟩
    · intro q hq
      rcases List.mem_append.1 hq with hq | hq
      · exact hun q hq
      · exact hun' q hq
    intro id c
    obtain ⟨t', leaf, mv, c', hso, ho⟩ := hrun' id (c + d)
    refine ⟨t', leaf, mv, c', hso, ?_⟩
    intro w hc hw
    obtain ⟨hw1, hw2⟩ := draws_append hw
    obtain ⟨b, hb1, hb2, hch⟩ := hrun w hw1
    have ho := ho _ (by simp only [World.skip, World.bump, hc]) (draws_bump d hw2)
    rw [cobwebLoop_step hcne, hch, ok_bind]
    simp only [hb1, ht1, ho, List.length_append, ← Nat.add_assoc]
    rfl

/-- The same for the whole call. -/
theorem Sorts.run_cobweb (hf : ∀ s, Fueled (ecg s)) {T T' : Hier I} (h : Sorts E Same inst T T') (hT : T.Proper)
    (hG : ∀ j ∈ T.group, G j) {t : Tree S} (ht : Depicts Sum t T) (c : ℕ) :
    ∃ pre : List ℚ, (∀ q ∈ pre, 0 ≤ q ∧ q < 1) ∧ ∃ t' leaf mv c', Depicts Sum t' T' ∧ ∀ w, w.ctr = c → Draws w pre →
      cobweb C ecg t inst w = .ok ⟨t', leaf, mv, ⟨w.rnd, w.pos + pre.length, c'⟩⟩ := by
  obtain ⟨id0, s, cs⟩ := t
  obtain ⟨m, hs⟩ := T
  obtain ⟨h1, hs', h2, h3⟩ := shows_inv ht
  obtain ⟨F, pre, hun, hrun⟩ := h.run L hV hE hi hg hinc hT hG s cs fun id => shows_node h1 h2 h3
  obtain ⟨t', leaf, mv, c', h4, h5⟩ := hrun id0 c
  refine ⟨pre, hun, t', leaf, mv, c', h4, fun w hc hw => ?_⟩
  have ho := h5 w hc hw
  have hF := fueled_cobwebLoop (C := C) (inst := inst) hf _ (.node id0 s cs) w le_rfl
  have e1 := cobwebLoop_mono _ _ _ hF F
  have e2 := cobwebLoop_mono (C := C) (ecg := ecg) (inst := inst) F (.node id0 s cs) w (by rw [ho]; exact fueled_ok _)
    (Tree.node id0 s cs).numConcepts
  unfold cobweb
  rw [← e1, Nat.add_comm, e2, ho]

end node
end CF
