/-
Property C102: `Cobweb3Tree` with all Python numbers: integers and fractions of any size, `Decimal` and `complex`.
-/
import Verif.Proofs.Numbers3
import Verif.Props.Ext3

set_option linter.unusedSectionVars false

namespace CF
variable {A B V : Type} [DecidableEq A] [DecidableEq B] [DecidableEq V] {R : Rounding} {hid : A → Bool}
variable {X : XF → Prop} {cfg : Cfg3 A B} {st : XState A B V} {hist log : List (UInst A V)} {d : List B} {n : ℕ}

/-! ### `update_scales` and the instances it rejects -/

/-- **C102**: if all values are nominal, floats, or integers and fractions whose nearest floats are finite, then
`update_scales` counts the numbers after conversion and does not raise.  Otherwise it raises at the first value that
is none of these, when it has already counted the numbers before it, and a `Decimal` itself without its value:
`OverflowError` for a number that is too large, `TypeError` for `Decimal` and `complex`. -/
theorem C102_update_scales (inner : A → B) (sc : XScales B) (i : NInst A V)
    (hn : ∀ a x, (a, .use (.flt x)) ∈ i → x ≠ .nan) :
    (∃ u : UInst A V, i = u.toN ∧ (∀ a q, (a, UVal.rat q) ∈ u → |R.fl (q : ℝ)| < XF.big) ∧
      updateScalesN R.fl inner sc i = (none, updateScalesX R.fl inner sc (floatInst R.fl u))) ∨
    ∃ (pre : UInst A V) (a : A) (v : NVal V) (post : NInst A V), i = pre.toN ++ (a, v) :: post ∧
      (∀ a q, (a, UVal.rat q) ∈ pre → |R.fl (q : ℝ)| < XF.big) ∧ ¬ v.Fits R ∧
      updateScalesN R.fl inner sc i =
        (some v.error, spoil inner (updateScalesX R.fl inner sc (floatInst R.fl pre)) a v) := by
  have hmem : ∀ (u : UInst A V) a x, (a, UVal.flt x) ∈ u → (a, NVal.use (.flt x)) ∈ u.toN := by
    intro u a x h
    exact List.mem_map.2 ⟨_, h, rfl⟩
  rcases NInst.cases (R := R) i with ⟨u, rfl, hu⟩ | ⟨pre, a, v, post, rfl, hp, hv⟩
  · refine Or.inl ⟨u, rfl, hu, ?_⟩
    have := updateScalesN_fits (R := R) inner u (fun a x h => hn a x (hmem u a x h)) hu [] sc
    rw [List.append_nil] at this
    exact this
  · refine Or.inr ⟨pre, a, v, post, rfl, hp, hv, ?_⟩
    rw [updateScalesN_fits inner pre
      (fun a x h => hn a x (List.mem_append_left _ (hmem pre a x h))) hp, updateScalesN_bad inner a hv]

/-- **C102**: what `ifit` does with an instance that has such a value: the exception leaves all concepts alone, but
not the scales. -/
theorem C102_rejected {e : XEnv V} {w : World} {pre : UInst A V} (hp : UInstOk R X pre) {a : A} {v : NVal V}
    (hv : ¬ v.Fits R) (post : NInst A V) :
    ifitN R.fl e hid cfg st (pre.toN ++ (a, v) :: post) w = .rejected v.error
      ⟨st.root, spoil cfg.inner (updateScalesX R.fl cfg.inner st.scales (floatInst R.fl pre)) a v⟩ := by
  unfold ifitN
  rw [updateScalesN_fits cfg.inner pre hp.mem_flt hp.mem_rat, updateScalesN_bad cfg.inner a hv]

theorem ifitN_fits {e : XEnv V} {w : World} {i : UInst A V} (hi : UInstOk R X i) :
    ifitN R.fl e hid cfg st i.toN w =
      match cobwebBy (numClass R.fl hid) (chooseOpA (e.ar R.fl) (numClass R.fl hid)
        (XStats.ecg R.fl e.pos hid cfg (updateScalesX R.fl cfg.inner st.scales (floatInst R.fl i)))) st.root i w with
      | .ok o => .done ⟨⟨o.tree, updateScalesX R.fl cfg.inner st.scales (floatInst R.fl i)⟩, o.leaf, o.w⟩
      | .error err => .failed err := by
  have := updateScalesN_fits (R := R) cfg.inner i hi.mem_flt hi.mem_rat [] st.scales
  rw [List.append_nil] at this
  unfold ifitN
  rw [this, used_toN]
  rfl

theorem ifitN_by {e : XEnv V} {i : UInst A V} (hi : UInstOk R X i) {w : World} {o : XOut A B V}
    (ho : ifitN R.fl e hid cfg st i.toN w = .done o) :
    ∃ o', cobwebBy (numClass R.fl hid) (chooseOpA (e.ar R.fl) (numClass R.fl hid)
        (XStats.ecg R.fl e.pos hid cfg (updateScalesX R.fl cfg.inner st.scales (floatInst R.fl i))))
        st.root i w = .ok o' ∧
      o.state.root = o'.tree ∧ o.leaf = o'.leaf ∧ o.w = o'.w ∧
      o.state.scales = updateScalesX R.fl cfg.inner st.scales (floatInst R.fl i) := by
  rw [ifitN_fits hi] at ho
  split at ho
  · rename_i o' h
    cases ho
    exact ⟨o', h, rfl, rfl, rfl, rfl⟩
  · cases ho

/-- **C102**: integers and fractions that are floats (all integers up to 2^53 are) are treated as these floats:
`ifit` does what it does in C99. -/
theorem C102_as_floats {e : XEnv V} {w : World} {i : UInst A V} (hi : UInstOk R X i)
    (hf : ∀ a q, Dict.get? i a = some (.rat q) → IsFloat (q : ℝ)) :
    floatInst R.fl i = exactInst i ∧
    ifitN R.fl e hid cfg st i.toN w = match ifitX R.fl e hid cfg st (exactInst i) w with
      | .ok o => .done o
      | .error err => .failed err := by
  have he : floatInst R.fl i = exactInst i := by
    refine List.map_congr_left fun p hp => ?_
    obtain ⟨a, u⟩ := p
    cases u with
    | nom v => rfl
    | flt x => rfl
    | rat q =>
      have hq := hf a q (Dict.get?_of_mem hi.nodup hp)
      have h1 := hi.mem_rat a q hp
      rw [R.fix hq] at h1
      simp only [UVal.float, UVal.exact]
      rw [round_float hq h1]
  have hat : (numClass R.fl hid).at i = (extClass R.fl hid).at (exactInst i) := by
    unfold numClass extClass NodeClass.at
    simp only [he]
  refine ⟨he, ?_⟩
  rw [ifitN_fits hi]
  simp only [ifitX, he, cobwebBy_at _ _ _ i hat]
  cases cobwebBy (extClass R.fl hid) _ st.root (exactInst i) w <;> rfl

/-! ### The tree -/

theorem reachN_any (h : ReachN R X hid cfg st hist log d n) :
    ∃ m ≤ n, ReachAny (numClass R.fl hid) (UInstOk R X) st.root hist m := by
  induction h with
  | init w => exact ⟨_, le_rfl, .init w⟩
  | fit _ hs hi hw ho ih =>
    obtain ⟨m, hm, ih⟩ := ih
    obtain ⟨o', ho', e1, -, e3, -⟩ := ifitN_by hi ho
    rw [e1, e3]
    exact ⟨_, le_rfl, .step ih hs hi (hm.trans hw) ho'⟩
  | reject _ hp hv hw ho ih =>
    obtain ⟨m, hm, ih⟩ := ih
    rw [C102_rejected hp hv] at ho
    cases ho
    exact ⟨m, hm.trans hw, ih⟩

theorem reachN_holds {P : CV XF → Prop} (K : KeepsX R X P) (h : ReachN R X hid cfg st hist log d n) :
    TreeHolds (numClass R.fl hid) (fun s m => CountsX P s (m.map (floatInst R.fl)))
      (fun i j => SameVisible hid (floatInst R.fl i) (floatInst R.fl j)) st.root (hist : Multiset (UInst A V)) := by
  obtain ⟨m, -, h⟩ := reachN_any h
  exact (reachAny_holds (numLaws K hid) h).holds (numLaws K hid)

/-- **C102**: whatever numbers are fitted, and whatever instances are rejected in between, every concept counts some
of the fitted instances, with their numbers converted to floats, and the root all of them and nothing else; the
concept ids are distinct. -/
theorem C102_every_node (h : ReachN R XF.Valid hid cfg st hist log d n) :
    CountsX AnyCV st.root.stats (hist.map (floatInst R.fl) : Multiset (XInst A V)) ∧ st.root.ids.Nodup ∧
    ∀ x ∈ st.root.nodes, ∃ m ≤ (hist : Multiset (UInst A V)), CountsX AnyCV x.stats (m.map (floatInst R.fl)) := by
  have K := keeps_any (R := R) valid_id
  refine ⟨(reachN_holds K h).sum_table (numLaws K hid), ?_, fun x hx => ?_⟩
  · obtain ⟨m, -, h⟩ := reachN_any h
    exact (reachAny_ids h).1
  · obtain ⟨m, hm, hle⟩ := (reachN_holds K h).of_mem_nodes hx
    exact ⟨m, hle, hm.sum_table (numLaws K hid)⟩

/-- **C102**: an internal concept has at least two children, and its counts are the sums of theirs. -/
theorem C102_conserved (h : ReachN R XF.Valid hid cfg st hist log d n) :
    ∀ x ∈ st.root.nodes, x.children ≠ [] → 2 ≤ x.children.length ∧
      x.stats.count = (x.children.map fun c => c.stats.count).sum ∧
      (∀ a v, (x.stats.nomLookup a v).getD 0 =
        (x.children.map fun c => (c.stats.nomLookup a v).getD 0).sum) ∧
      ∀ a, x.stats.numCount a = (x.children.map fun c => c.stats.numCount a).sum := by
  intro x hx hne
  have K := keeps_any (R := R) valid_id
  obtain ⟨m, hm, -⟩ := (reachN_holds K h).of_mem_nodes hx
  have hs := hm.sum_table (numLaws K hid)
  refine ⟨hm.two_children.resolve_left hne, ?_⟩
  obtain ⟨ms, hf, rfl⟩ := hm.children hne
  have hmap : (ms.sum).map (floatInst R.fl) = ((ms.map fun m => m.map (floatInst R.fl)).sum : Multiset (XInst A V)) :=
    map_list_sum (Multiset.mapAddMonoidHom (floatInst R.fl)) ms
  rw [hmap] at hs
  refine ⟨?_, fun a v => ?_, fun a => ?_⟩
  · rw [hs.count, map_eq_of_forall₂ (g := fun m => Multiset.card (m.map (floatInst R.fl)))
      (fun c m hc => hc.sum.count) hf]
    have := sum_hom Multiset.cardHom (ms.map fun m => m.map (floatInst R.fl))
    simpa [Function.comp_def] using this
  · rw [hs.getD, sum_occ, List.map_map]
    congr 1
    exact (map_eq_of_forall₂ (fun c m hc => hc.sum.getD a v) hf).symm
  · rw [hs.numCount, numsX_sum, map_eq_of_forall₂ (fun c m hc => hc.sum.numCount a) hf]
    have := sum_hom Multiset.cardHom ((ms.map fun m => m.map (floatInst R.fl)).map fun m => numsX m a)
    simpa [Function.comp_def] using this

/-- **C102**: the history is distributed over the leaves in groups of instances that agree on the visible attributes
after the conversion.  An instance matches a leaf if and only if its values themselves, not converted, equal the
floats of the leaf (and it has no visible infinity that the leaf has seen twice). -/
theorem C102_leaves (h : ReachN R XF.Valid hid cfg st hist log d n) (hne : hist ≠ []) :
    ∃ groups : List (List (UInst A V)), (groups.map fun g : List (UInst A V) => (g : Multiset (UInst A V))).sum = (hist : Multiset _) ∧
      List.Forall₂ (fun leaf g => g ≠ [] ∧
        CountsX AnyCV leaf.stats (g.map (floatInst R.fl) : Multiset (XInst A V)) ∧
        (∀ i ∈ g, ∀ j ∈ g, SameVisible hid (floatInst R.fl i) (floatInst R.fl j)) ∧
        ∀ i, UInstOk R XF.Valid i → ((numClass R.fl hid).isExact leaf.stats i = true ↔
          (∀ j ∈ g, SameVisible hid (exactInst i) (floatInst R.fl j)) ∧ Repeats hid g.length (exactInst i)))
        st.root.leaves groups := by
  have K := keeps_any (R := R) valid_id
  obtain ⟨m, -, h⟩ := reachN_any h
  rcases reachAny_holds (numLaws K hid) h with ⟨h0, -⟩ | h
  · simp at h0; exact absurd h0 hne
  · obtain ⟨ls, h1, h2⟩ := h.leaves
    refine ⟨ls, by simpa [List.map_eq_flatMap] using h1, h2.imp ?_⟩
    rintro leaf g ⟨hg, hb, hok, hsame⟩
    rw [hb]
    exact ⟨hg, (numLaws K hid).built hok, hsame, fun i hi => numBuilt_exact valid_id hg hok hsame hi⟩

/-- An instance with a visible number that is not a float matches no leaf. -/
theorem inexact_no_match {i j : UInst A V} (hj : UInstOk R XF.Valid j) (hx : Inexact hid i) :
    ¬ SameVisible hid (exactInst i) (floatInst R.fl j) := by
  obtain ⟨a, q, ha, hq, hf⟩ := hx
  intro h
  have h := h a ha
  rw [get?_exactInst, hq, Option.map_some] at h
  exact hf (hj.float.nums a (.fin (q : ℝ)) h.symm).1

/-- **C102**: `ifit` returns a leaf, the only concept with its id, that holds the instance.  An instance with a visible
integer or fraction that is not a float always gets a new leaf of its own, however often it is fitted. -/
theorem C102_ifit (h : ReachN R XF.Valid hid cfg st hist log d n) {e : XEnv V} (he : (e.ar R.fl).Sorts)
    {i : UInst A V} (hi : UInstOk R XF.Valid i) {w : World} (hw : n ≤ w.ctr) {o : XOut A B V}
    (ho : ifitN R.fl e hid cfg st i.toN w = .done o) :
    ReachN R XF.Valid hid cfg o.state (hist ++ [i]) (log ++ [i]) d o.w.ctr ∧
    (∃ leaf ∈ o.state.root.leaves, leaf.id = o.leaf ∧ leaf.children = [] ∧
      (∀ x ∈ o.state.root.nodes, x.id = o.leaf → x = leaf) ∧
      (∀ a x, hid a = false → Dict.get? (floatInst R.fl i) a = some (.num x) →
        leaf.stats.cvOf a = some (constX leaf.stats.count x)) ∧
      (∀ a v, hid a = false → Dict.get? i a = some (.nom v) → leaf.stats.nomLookup a v = some leaf.stats.count) ∧
      (Inexact hid i → leaf.stats.count = 1)) ∧
    (∀ id s, .node id s [] ∈ st.root.leaves → id ≠ o.leaf → .node id s [] ∈ o.state.root.leaves) ∧
    ∀ x ∈ o.state.root.leaves, x.id ≠ o.leaf → x ∈ st.root.leaves := by
  have K := keeps_any (R := R) valid_id
  have L := numLaws (V := V) K hid
  obtain ⟨o', ho', e1, e2, e3, -⟩ := ifitN_by hi ho
  obtain ⟨m, hm, hr⟩ := reachN_any h
  refine ⟨.fit h he hi hw ho, ?_, fun id s hx hid' => ?_, fun x hx hid' => ?_⟩
  · obtain ⟨l, h1, h2, h3, h4⟩ := reachAny_leaf L he hr hi (hm.trans hw) ho'
    have hok : ∀ j ∈ l ++ [i], UInstOk R XF.Valid j := by
      intro j hj
      rcases List.mem_append.1 hj with hj | hj
      · exact h2 j hj
      · rwa [List.mem_singleton.1 hj]
    have hsum : CountsX AnyCV ((numClass R.fl hid).built (l ++ [i]))
        (((l ++ [i] : List (UInst A V)) : Multiset (UInst A V)).map (floatInst R.fl)) := L.built hok
    rw [e1, e2]
    refine ⟨_, h1, rfl, rfl, h4, fun a x ha hx => ?_, fun a v ha hv => ?_, fun hx => ?_⟩
    · simp only [Tree.stats_node]
      have hl : ∀ j ∈ (l ++ [i]).map (floatInst R.fl), XInstOk XF.Valid j := by
        intro j hj
        obtain ⟨k, hk, rfl⟩ := List.mem_map.1 hj
        exact (hok k hk).float
      rw [hsum.count, numBuilt, builtX_constant valid_id hl (by simp) (x := x) ?_]
      · simp
      · intro j hj
        obtain ⟨k, hk, rfl⟩ := List.mem_map.1 hj
        rw [← h3 i (by simp) k hk a ha]; exact hx
    · have hv' : Dict.get? (floatInst R.fl i) a = some (.nom v) := by rw [get?_floatInst, hv]; rfl
      have hocc : occ (((l ++ [i] : List (UInst A V)) : Multiset (UInst A V)).map (floatInst R.fl)) a (.nom v)
          = Multiset.card (((l ++ [i] : List (UInst A V)) : Multiset (UInst A V)).map (floatInst R.fl)) := by
        apply Multiset.countP_eq_card.2
        intro j hj
        obtain ⟨k, hk, rfl⟩ := Multiset.mem_map.1 hj
        rw [← h3 i (by simp) k (by simpa using hk) a ha]; exact hv'
      simp only [Tree.stats_node]
      rw [hsum.noms, hocc, hsum.count]; simp
    · obtain ⟨s, hs, hcase⟩ := (reachAny_loop he ho').leaf
      have hst := h4 _ (Tree.leaves_subset_nodes _ _ hs) rfl
      simp only [Tree.node.injEq, true_and, and_true] at hst
      simp only [Tree.stats_node]
      rw [← hst]
      rcases hcase with hc | ⟨s0, h0, hc, hx'⟩
      · rw [hc]; rfl
      · have hcount : s.count = s0.count + 1 := by rw [hc]; rfl
        have h00 : s0.count = 0 := by
          rcases hx' with hx' | hx'
          · by_cases hne : hist = []
            · rcases reachAny_holds L hr with ⟨-, id, hr⟩ | hh
              · rw [hr, Tree.leaves_nil] at h0
                simp at h0
                rw [h0.2]; rfl
              · exact absurd (by simp [hne]) (hh.holds L).ne_zero
            · rcases reachAny_holds L hr with ⟨h0', -⟩ | hh
              · simp at h0'; exact absurd h0' hne
              · obtain ⟨ls, -, hf⟩ := hh.leaves
                obtain ⟨g, -, g1, g2, g3, g4⟩ := forall₂_left_mem hf h0
                simp only [Tree.stats_node] at g2
                rw [g2] at hx'
                have := ((numBuilt_exact valid_id g1 g3 g4 hi).1 hx').1
                obtain ⟨j, hj⟩ := List.exists_mem_of_ne_nil g g1
                exact absurd (this j hj) (inexact_no_match (g3 j hj) hx)
          · exact hx'
        omega
  · rw [e1]
    rw [e2] at hid'
    rcases (reachAny_loop he ho').leaves_persist id s hx with h | h
    · exact h
    · exact absurd h.2 hid'
  · rw [e1] at hx
    rw [e2] at hid'
    exact ((reachAny_loop he ho').leaves_from x hx).resolve_right hid'

/-- **C102**: if every fitted instance has a visible integer or fraction that is not a float, then every leaf counts
one instance, however many of the instances are equal. -/
theorem C102_inexact (h : ReachN R XF.Valid hid cfg st hist log d n) (hx : ∀ i ∈ hist, Inexact hid i)
    (hne : hist ≠ []) : st.root.leaves.length = hist.length ∧ ∀ x ∈ st.root.leaves, x.stats.count = 1 := by
  have key : ∀ {st : XState A B V} {hist log d n}, ReachN R XF.Valid hid cfg st hist log d n →
      (∀ i ∈ hist, Inexact hid i) → hist ≠ [] → ∀ x ∈ st.root.leaves, x.stats.count = 1 := by
    intro st hist log d n h
    induction h with
    | init w => intro _ h; exact absurd rfl h
    | @fit st hist log d n i w o e h he hi hw ho ih =>
      intro hx _ x hxl
      obtain ⟨-, ⟨leaf, h1, h2, -, h4, -, -, h5⟩, -, h6⟩ := C102_ifit h he hi hw ho
      by_cases hid' : x.id = o.leaf
      · rw [h4 x (Tree.leaves_subset_nodes _ _ hxl) hid']
        exact h5 (hx i (by simp))
      · by_cases hh : hist = []
        · obtain ⟨m, -, hr⟩ := reachN_any h
          have K := keeps_any (R := R) valid_id
          have hroot := h6 x hxl hid'
          rcases reachAny_holds (numLaws K hid) hr with ⟨-, id, h0⟩ | hh'
          · obtain ⟨o', ho', e1, e2, -⟩ := ifitN_by hi ho
            rw [h0, Tree.leaves_nil, List.mem_singleton] at hroot
            subst hroot
            rw [h0] at ho'
            have hz : (numClass R.fl hid : NodeClass (UInst A V) (XStats A V)).count
              (numClass R.fl hid : NodeClass (UInst A V) (XStats A V)).fresh = 0 := rfl
            cases reachAny_loop he ho' with
            | hit _ => exact absurd e2.symm hid'
            | fringe _ hc => exact absurd hz hc
            | best hc => exact absurd rfl hc
            | new hc => exact absurd rfl hc
            | merge hc => simp at hc
            | split hc => exact absurd rfl hc
          · exact absurd (by simp [hh]) (hh'.holds (numLaws K hid)).ne_zero
        · exact ih (fun j hj => hx j (by simp [hj])) hh x (h6 x hxl hid')
    | reject _ hp hv _ ho ih =>
      rw [C102_rejected hp hv] at ho
      cases ho
      exact ih
  have h1 := key h hx hne
  refine ⟨?_, h1⟩
  obtain ⟨gs, hsum, hf⟩ := C102_leaves h hne
  have hlen : ∀ g ∈ gs, g.length = 1 := by
    intro g hg
    obtain ⟨x, hxl, hp⟩ := forall₂_left_mem hf.flip hg
    have := hp.2.1.count
    rw [h1 x hxl] at this
    simpa using this.symm
  have h2 : hist.length = (gs.map List.length).sum := by
    have := congrArg Multiset.card hsum
    rw [Multiset.coe_card] at this
    rw [← this]
    clear * -
    induction gs with
    | nil => rfl
    | cons g gs ih => simp only [List.map_cons, List.sum_cons, Multiset.card_add, Multiset.coe_card, ih]
  rw [hf.length_eq, h2]
  clear hsum hf h2
  induction gs with
  | nil => rfl
  | cons g gs ih =>
    rw [List.map_cons, List.sum_cons, List.length_cons, hlen g (by simp), ih fun g hg => hlen g (by simp [hg])]
    omega

/-! ### Scales -/

theorem scale_num_append (inner : A → B) (hist : List (XInst A V)) (i : XInst A V) (b : B) :
    scaleNumsX inner (hist ++ [i]) b = scaleNumsX inner hist b ++ scaleNumsX inner [i] b := by
  simp [scaleNumsX]

theorem updateBatchX_num (c : CV XF) (xs : List XF) : (CV.updateBatchX R.fl c xs).num = c.num + xs.length := by
  induction xs generalizing c with
  | nil => rfl
  | cons x xs ih =>
    rw [CV.updateBatchX, ih]
    simp [CV.updateX]; omega

/-- How many numbers the scales record under an inner name. -/
def scaleNum (sc : XScales B) (b : B) : ℕ := ((sc.get? b).map CV.num).getD 0

theorem scaleNum_update (inner : A → B) (sc : XScales B) (i : XInst A V) (b : B) :
    scaleNum (updateScalesX R.fl inner sc i) b = scaleNum sc b + (scaleNumsX inner [i] b).length := by
  unfold scaleNum
  rw [updateScalesX_get]
  split
  · rename_i h; simp [h]
  · rw [Option.map_some, Option.getD_some, updateBatchX_num]
    cases sc.get? b <;> simp [CV.freshX]

theorem scaleNum_spoil (inner : A → B) (sc : XScales B) (a : A) (v : NVal V) (b : B) :
    scaleNum (spoil inner sc a v) b = scaleNum sc b + (spoiled inner a v).count b := by
  match v with
  | .use _ => simp [spoil, spoiled]
  | .cpx => simp [spoil, spoiled]
  | .dec =>
    simp only [spoil, spoiled, scaleNum, Dict.get?_set]
    by_cases hb : inner a = b
    · subst hb
      cases sc.get? (inner a) <;> simp [CV.freshX]
    · simp [hb]

/-- **C102**: `attr_scales` counts the numbers of the fitted instances, those that precede the offending value in a
rejected instance, and the `Decimal`s. -/
theorem C102_scale_num (h : ReachN R X hid cfg st hist log d n) (b : B) :
    scaleNum st.scales b = (scaleNumsX cfg.inner (log.map (floatInst R.fl)) b).length + d.count b := by
  induction h with
  | init w => simp [scaleNum, scaleNumsX]
  | fit _ _ hi _ ho ih =>
    obtain ⟨o', -, -, -, -, e⟩ := ifitN_by hi ho
    rw [e, scaleNum_update, ih, List.map_append, List.map_singleton, scale_num_append, List.length_append]
    omega
  | reject _ hp hv _ ho ih =>
    rw [C102_rejected hp hv] at ho
    cases ho
    simp only
    rw [scaleNum_spoil, scaleNum_update, ih, List.map_append, List.map_singleton, scale_num_append,
      List.length_append, List.count_append]
    omega

/-- **C102**: if there was no `Decimal`, `attr_scales` holds the accumulators of exactly these numbers in their
order. -/
theorem C102_scales (h : ReachN R X hid cfg st hist log d n) (hd : d = []) (b : B) :
    st.scales.get? b = if scaleNumsX cfg.inner (log.map (floatInst R.fl)) b = [] then none
      else some (CV.updateBatchX R.fl CV.freshX (scaleNumsX cfg.inner (log.map (floatInst R.fl)) b)) := by
  induction h generalizing b with
  | init w => simp [scaleNumsX]
  | fit _ _ hi _ ho ih =>
    obtain ⟨o', -, -, -, -, e⟩ := ifitN_by hi ho
    rw [e, List.map_append, List.map_singleton]
    exact scalesX_step (ih hd) b
  | @reject st h log d n w e err st' a v pre post _ hp hv _ ho ih =>
    obtain ⟨hd1, hd2⟩ := List.append_eq_nil_iff.1 hd
    rw [C102_rejected hp hv] at ho
    cases ho
    have : ∀ sc : XScales B, spoil cfg.inner sc a v = sc := by
      intro sc
      match v, hd2 with
      | .use _, _ => rfl
      | .cpx, _ => rfl
    simp only [this]
    rw [List.map_append, List.map_singleton]
    exact scalesX_step (ih hd1) b

/-! ### Exceptions -/

/-- The accumulators of the scales are sound. -/
def SoundAll (sc : XScales B) : Prop := ∀ b c, sc.get? b = some c → c.SoundX

theorem SoundAll.scales {sc : XScales B} (h : SoundAll sc) : SoundScalesX sc := fun b c hc => (h b c hc).sq

theorem SoundAll.spoil {inner : A → B} {sc : XScales B} (h : SoundAll sc) (a : A) (v : NVal V) :
    SoundAll (spoil inner sc a v) := by
  match v with
  | .use _ => exact h
  | .cpx => exact h
  | .dec =>
    intro b c hc
    simp only [CF.spoil, Dict.get?_set] at hc
    split at hc
    · cases hc
      have : ((sc.get? (inner a)).getD CV.freshX).SoundX := by
        cases hg : sc.get? (inner a) with
        | none => exact .fresh
        | some c => exact h _ _ hg
      exact ⟨this.mean, this.sq, fun h0 => absurd h0 (by simp)⟩
    · exact h b c hc

theorem SoundAll.update {inner : A → B} {sc : XScales B} (h : SoundAll sc) {i : XInst A V}
    (hi : XInstOk XF.Moderate i) : SoundAll (updateScalesX R.fl inner sc i) := by
  intro b c hc
  rw [updateScalesX_get] at hc
  split at hc
  · exact h b c hc
  · cases hc
    refine batchX_sound ?_ ?_
    · intro x hx
      simp only [scaleNumsX, List.mem_flatMap, List.mem_singleton, List.mem_filterMap, List.mem_filter] at hx
      obtain ⟨j, rfl, ⟨a, v⟩, ⟨hp, -⟩, hv⟩ := hx
      cases v with
      | nom v => simp [XVal.num?] at hv
      | num y =>
        simp only [XVal.num?, Option.some.injEq] at hv
        subst hv
        exact hi.nums a y (Dict.get?_of_mem hi.nodup hp)
    · cases hg : sc.get? b with
      | none => exact .fresh
      | some c => exact h _ _ hg

theorem reachN_sound (h : ReachN R XF.Moderate hid cfg st hist log d n) : SoundAll st.scales := by
  induction h with
  | init w => intro b c hc; simp at hc
  | fit _ _ hi _ ho ih =>
    obtain ⟨o', -, -, -, -, e⟩ := ifitN_by hi ho
    rw [e]
    exact ih.update hi.float
  | reject _ hp hv _ ho ih =>
    rw [C102_rejected hp hv] at ho
    cases ho
    exact (ih.update hp.float).spoil _ _

theorem hasVisible_float {i : UInst A V} : HasVisible hid (floatInst R.fl i) ↔ HasVisible hid i := by
  unfold HasVisible; rw [keys_floatInst]

theorem numScores {sc : XScales B} (hsc : SoundScalesX sc) (pos : XTab V → ℕ) :
    Scores (fun s m => CountsX CV.SoundX s (Multiset.map (floatInst R.fl) m)) (XStats.ecg R.fl pos hid cfg sc)
      (HasVisible (V := UVal V) hid) := by
  rintro s m h ⟨i, hi, hv⟩
  exact ecgX_scores hsc pos s _ h ⟨_, Multiset.mem_map_of_mem _ hi, hasVisible_float.2 hv⟩

theorem incrErr_fits (i : UInst A V) (hn : ∀ a x, (a, UVal.flt x) ∈ i → x ≠ .nan)
    (hf : ∀ a q, (a, UVal.rat q) ∈ i → |R.fl (q : ℝ)| < XF.big) (post : NInst A V) :
    incrErr R.fl (i.toN ++ post) = incrErr R.fl post := by
  induction i with
  | nil => rfl
  | cons p i ih =>
    obtain ⟨a, v⟩ := p
    have ih := ih (fun a x h => hn a x (by simp [h])) (fun a q h => hf a q (by simp [h]))
    cases v with
    | nom v =>
      show incrErr R.fl ((a, .use (.nom v)) :: (UInst.toN i ++ post)) = _
      rw [incrErr]
      exact ih
    | flt x =>
      show incrErr R.fl ((a, .use (.flt x)) :: (UInst.toN i ++ post)) = _
      have : NVal.isNumber R.fl (.use (.flt x) : NVal V) = .ok true := by
        simp [NVal.isNumber, hn a x (by simp)]
      rw [incrErr, this]
      exact ih
    | rat q =>
      show incrErr R.fl ((a, .use (.rat q)) :: (UInst.toN i ++ post)) = _
      have hq := round_small (hf a q (by simp))
      have : NVal.isNumber R.fl (.use (.rat q) : NVal V) = .ok true := by
        simp only [NVal.isNumber]; rw [hq]
      rw [incrErr, this]
      simp only [CV.updateN]
      rw [hq]
      exact ih

theorem incrErr_bad (a : A) {v : NVal V} (hv : ¬ v.Fits R) (post : NInst A V) :
    incrErr R.fl ((a, v) :: post) = some v.error := by
  match v, hv with
  | .use (.nom v), h => exact absurd trivial h
  | .use (.flt x), h => exact absurd trivial h
  | .use (.rat q), h =>
    obtain ⟨s, hs⟩ := round_large (R := R) h
    rw [incrErr]
    simp only [NVal.isNumber]
    rw [hs]; rfl
  | .dec, _ => rw [incrErr]; rfl
  | .cpx, _ => rw [incrErr]; rfl

/-- **C102**: `categorize` raises on an instance with such a value only if the root has children; before that it
returns the root without looking at the values. -/
theorem C102_categorize_rejected {e : XEnv V} {w : World} {pre : UInst A V} (hp : UInstOk R X pre) {a : A} {v : NVal V}
    (hv : ¬ v.Fits R) (post : NInst A V) :
    (st.root.children ≠ [] →
      categorizeN R.fl e hid cfg st (pre.toN ++ (a, v) :: post) w = .rejected v.error) ∧
    (st.root.children = [] → categorizeN R.fl e hid cfg st (pre.toN ++ (a, v) :: post) w = .done st.root w) := by
  have hb : incrErr R.fl (pre.toN ++ (a, v) :: post) = some v.error := by
    rw [incrErr_fits pre hp.mem_flt hp.mem_rat, incrErr_bad a hv]
  constructor
  · intro h
    obtain ⟨c, cs, hc⟩ := List.exists_cons_of_ne_nil h
    unfold categorizeN
    rw [hc, hb]
  · intro h
    obtain ⟨⟨id, s, cs⟩, sc⟩ := st
    simp only [Tree.children_node] at h
    subst h
    simp [categorizeN, categorizeA, Tree.numConcepts_node, categorizeLoopA]

/-- **C102**: if the floats and the converted numbers are below 2^1023 in magnitude, every fitted instance has a visible
attribute and the random numbers differ, then neither `ifit` nor `categorize` raises, whatever was rejected before,
however results are rounded.  Partial as `C99_never_raises_partial` is, which shows that the bound is the best
possible. -/
theorem C102_never_raises_partial (h : ReachN R XF.Moderate hid cfg st hist log d n) (hv : ∀ j ∈ hist, HasVisible hid j)
    {e : XEnv V} (he : (e.ar R.fl).Sorts)
    (hs : ∀ l : List (Cand XF), (l.map Cand.rnd).Nodup → ∃ l', e.srt l = .ok l')
    {i : UInst A V} (hi : UInstOk R XF.Moderate i) {w : World} (hw : Function.Injective w.rnd) :
    (HasVisible hid i → ∃ o, ifitN R.fl e hid cfg st i.toN w = .done o) ∧
    ∃ leaf w', categorizeN R.fl e hid cfg st i.toN w = .done leaf w' ∧ leaf ∈ st.root.leaves := by
  have L := numLaws (V := V) (keeps_sound (R := R)) hid
  have hs1 := (reachN_sound h).scales
  have hs2 := ((reachN_sound h).update (R := R) (inner := cfg.inner) hi.float).scales
  have hcat : categorizeN R.fl e hid cfg st i.toN w =
      match categorizeA (e.ar R.fl) (numClass R.fl hid) (XStats.ecg R.fl e.pos hid cfg st.scales) st.root i w with
      | .ok r => .done r.1 r.2
      | .error err => .failed err := by
    have := incrErr_fits (R := R) i hi.mem_flt hi.mem_rat []
    rw [List.append_nil] at this
    unfold categorizeN
    rw [this, used_toN]
    cases st.root.children <;> rfl
  rw [ifitN_fits hi, hcat]
  obtain ⟨m, -, hr⟩ := reachN_any h
  have hT : (e.ar R.fl).Total := extArith_total hs
  rcases reachAny_holds L hr with ⟨-, id, he'⟩ | hh
  · refine ⟨fun _ => ⟨⟨⟨.node id (XStats.incr R.fl XStats.fresh (floatInst R.fl i)) [],
        updateScalesX R.fl cfg.inner st.scales (floatInst R.fl i)⟩, id, w⟩, ?_⟩, .node id XStats.fresh [], w, ?_, ?_⟩
    · simp [he', cobwebBy, cobwebLoopBy, Tree.numConcepts_node, numClass, XStats.fresh]
    · simp [he', categorizeA, categorizeLoopA, Tree.numConcepts_node, numClass]
    · rw [he', Tree.leaves_nil]; simp [numClass]
  · have hG : ∀ j ∈ (hist : Multiset (UInst A V)), HasVisible hid j := fun j hj => hv j (by simpa using hj)
    have hh := hh.holds L
    refine ⟨fun hiv => ?_, ?_⟩
    · obtain ⟨o, ho⟩ := cobwebLoopBy_total L he hT (numScores (R := R) (cfg := cfg) hs2 e.pos) hi hiv
        _ st.root w _ le_rfl hh hG hw
      exact ⟨_, by simp only [cobwebBy, ho]; rfl⟩
    · obtain ⟨⟨leaf, w'⟩, ho⟩ := categorizeLoopA_total L he hT
        (numScores (R := R) (cfg := cfg) hs1 e.pos) hi _ st.root w _ le_rfl hh hG hw
      refine ⟨leaf, w', ?_, (categorizeLoopA_leaf _ _ _ _ ho).1⟩
      simp only [categorizeA, ho]

/-! ### Which numbers -/

/-- **C102**: an odd integer beyond 2^53 is not a float. -/
theorem C102_odd {z : ℤ} (ho : Odd z) (hz : 2 ^ 53 ≤ |z|) : ¬ IsFloat ((z : ℚ) : ℝ) := by
  rintro ⟨k, e, hk, -, h⟩
  rw [Rat.cast_intCast] at h
  rcases le_or_gt e 0 with he | he
  · have h1 : |(z : ℝ)| ≤ |(k : ℝ)| := by
      rw [h, abs_mul, abs_of_pos (a := (2 : ℝ) ^ e) (by positivity)]
      exact mul_le_of_le_one_right (abs_nonneg _) (zpow_le_one_of_nonpos₀ (by norm_num) he)
    have h2 : |z| ≤ |k| := by exact_mod_cast h1
    omega
  · obtain ⟨m, rfl⟩ := Int.eq_ofNat_of_zero_le he.le
    rw [zpow_natCast] at h
    have h1 : z = k * 2 ^ m := by exact_mod_cast h
    have hm : m ≠ 0 := by rintro rfl; simp at he
    rw [h1] at ho
    exact absurd ho (by rw [Int.not_odd_iff_even]; exact (even_two.pow_of_ne_zero hm).mul_left _)

/-- **C102**: all integers up to 2^53 are floats. -/
theorem C102_small {z : ℤ} (hz : |z| ≤ 2 ^ 53) : IsFloat ((z : ℚ) : ℝ) := by
  have := IsFloat.mk_le (k := z) (e := 0) hz (by norm_num)
  simpa using this

theorem big_float : IsFloat XF.big :=
  .mk 1 ((1024 : ℕ) : ℤ) (by norm_num) (by norm_num) (by rw [Int.cast_one, one_mul, zpow_natCast]; rfl)

/-- **C102**: a number from 2^1024 on in magnitude does not fit, however it is rounded. -/
theorem C102_large {q : ℚ} (hq : XF.big ≤ |(q : ℝ)|) : ¬ (NVal.use (.rat q) : NVal V).Fits R := by
  simp only [NVal.Fits, not_lt]
  rcases le_abs.1 hq with h | h
  · exact (R.le_fl big_float h).trans (le_abs_self _)
  · exact (le_neg.1 (R.fl_le big_float.neg (by linarith))).trans (neg_le_abs _)

/-! ### Examples -/

theorem reachN_exists (cfg : Cfg3 A B) (hist : List (UInst A ℕ))
    (h : ∀ i ∈ hist, UInstOk R XF.Moderate i ∧ HasVisible hid i) :
    ∃ st n, ReachN R XF.Moderate hid cfg st hist hist [] n := by
  induction hist using List.reverseRecOn with
  | nil => exact ⟨_, _, .init Demo.w0⟩
  | append_singleton l i ih =>
    obtain ⟨st, n, hr⟩ := ih fun j hj => h j (by simp [hj])
    obtain ⟨hi, hv⟩ := h i (by simp)
    obtain ⟨o, ho⟩ := (C102_never_raises_partial hr (fun j hj => (h j (by simp [hj])).2) (Demo.env_sorts _)
      (fun l _ => ⟨l, rfl⟩) hi (w := ⟨fun k => (k : ℚ), 0, n⟩) (fun a b hab => by simpa using hab)).1 hv
    exact ⟨_, _, .fit hr (Demo.env_sorts _) hi (le_refl n) ho⟩

theorem UInstOk.mono {X Y : XF → Prop} (hXY : ∀ x, X x → Y x) {i : UInst A V} (h : UInstOk R X i) : UInstOk R Y i :=
  ⟨h.nodup, fun a x hx => ⟨(h.flt a x hx).1, hXY _ (h.flt a x hx).2⟩,
    fun a q hq => ⟨(h.rat a q hq).1, hXY _ (h.rat a q hq).2⟩⟩

theorem reachN_mono {X Y : XF → Prop} (hXY : ∀ x, X x → Y x) (h : ReachN R X hid cfg st hist log d n) :
    ReachN R Y hid cfg st hist log d n := by
  induction h with
  | init w => exact .init w
  | fit _ hs hi hw ho ih => exact .fit ih hs (hi.mono hXY) hw ho
  | reject _ hp hv hw ho ih => exact .reject ih (hp.mono hXY) hv hw ho

/-- The instance `{1: q}`. -/
def Demo.int (q : ℚ) : UInst ℕ ℕ := [(1, .rat q)]

theorem two_pow_54 : (2 : ℝ) ^ 54 < XF.big / 2 := by
  have h1 : (2 : ℝ) ^ 1023 = XF.big / 2 := by
    have : XF.big = 2 ^ 1023 * 2 := pow_succ 2 1023
    rw [this, mul_div_cancel_right₀ _ two_ne_zero]
  rw [← h1]
  exact pow_lt_pow_right₀ (by norm_num) (by norm_num)

theorem Demo.int_ok {q : ℚ} (hq : |(q : ℝ)| ≤ 2 ^ 54) : UInstOk R XF.Moderate (Demo.int q) := by
  have f : IsFloat ((2 : ℝ) ^ 54) := .mk 1 ((54 : ℕ) : ℤ) (by norm_num) (by norm_num)
    (by rw [Int.cast_one, one_mul, zpow_natCast])
  have h : |R.fl (q : ℝ)| ≤ 2 ^ 54 := by
    obtain ⟨h1, h2⟩ := abs_le.1 hq
    exact abs_le.2 ⟨R.le_fl f.neg h1, R.fl_le f h2⟩
  have hb := two_pow_54
  refine ⟨by simp [Demo.int, Dict.Nodup, Dict.keys], fun a x hx => ?_, fun a q' hx => ?_⟩
  · have := Dict.mem_of_get? hx
    simp [Demo.int] at this
  · have := Dict.mem_of_get? hx
    simp only [Demo.int, List.mem_singleton, Prod.mk.injEq, UVal.rat.injEq] at this
    obtain ⟨-, rfl⟩ := this
    have := big_gt
    exact ⟨by linarith, R.float _, by linarith⟩

theorem Demo.int_visible (q : ℚ) : HasVisible Demo.hid (Demo.int q) := ⟨1, by simp [Demo.int, Dict.keys], rfl⟩

/-- 10**400. -/
theorem Demo.huge : ¬ (NVal.use (.rat ((10 : ℚ) ^ 400)) : NVal ℕ).Fits R := by
  refine C102_large ?_
  have h : XF.big ≤ (10 : ℝ) ^ 400 := by
    have h1 : XF.big ≤ (2 : ℝ) ^ (3 * 400) := pow_le_pow_right₀ (by norm_num) (by norm_num)
    rw [pow_mul] at h1
    exact h1.trans (pow_le_pow_left₀ (by norm_num) (by norm_num) _)
  have h0 : (((10 : ℚ) ^ 400 : ℚ) : ℝ) = (10 : ℝ) ^ 400 := by rw [Rat.cast_pow, Rat.cast_ofNat]
  rw [h0, abs_of_nonneg (by positivity)]
  exact h

/-- The scale after 0 and 1 with `scaling = 1/2`. -/
theorem two_scale : CV.updateX R.fl (constX 1 (.fin 0)) (.fin 1) = ⟨2, .fin (1 / 2), .fin (1 / 2)⟩ ∧
    ∃ x, 1 ≤ x ∧ (do
      let q ← XF.div R.fl (.fin 1) (.fin (1 / 2))
      let s ← CV.unbiasedStdX R.fl ⟨2, .fin (1 / 2), .fin (1 / 2)⟩
      pure (XF.mul R.fl q s)) = (.ok (.fin x) : Res XF) := by
  have hb := big_gt
  have f2 : IsFloat 2 := by simpa using IsFloat.nat (n := 2) (by norm_num)
  have f4 : IsFloat 4 := by simpa using IsFloat.nat (n := 4) (by norm_num)
  have fh : IsFloat (1 / 2) := .mk 1 (-1) (by norm_num) (by norm_num) (by norm_num)
  have e1 : XF.round R.fl 1 = .fin 1 := round_float .one (by rw [abs_one]; linarith)
  have e2 : XF.round R.fl 2 = .fin 2 := round_float f2 (by rw [abs_of_pos two_pos]; linarith)
  have eh : XF.round R.fl (1 / 2) = .fin (1 / 2) := round_float fh (by rw [abs_of_pos (by norm_num)]; linarith)
  have o2 : XF.ofNat R.fl 2 = .fin 2 := by unfold XF.ofNat; simpa using e2
  have a1 : XF.sub R.fl (.fin 1) (.fin 0) = .fin 1 := by simp [XF.sub, XF.neg, XF.add, e1]
  have a2 : XF.quot R.fl (.fin 1) (.fin 2) = .fin (1 / 2) := eh
  have a3 : XF.add R.fl (.fin 0) (.fin (1 / 2)) = .fin (1 / 2) := by simp only [XF.add, zero_add]; exact eh
  have a4 : XF.sub R.fl (.fin 1) (.fin (1 / 2)) = .fin (1 / 2) := by
    simp only [XF.sub, XF.neg, XF.add]
    rw [show (1 : ℝ) + -(1 / 2) = 1 / 2 by norm_num]; exact eh
  have a5 : XF.mul R.fl (.fin 1) (.fin (1 / 2)) = .fin (1 / 2) := by simp only [XF.mul, one_mul]; exact eh
  refine ⟨by simp only [CV.updateX, constX, a1, o2, a2, a3, a4, a5], ?_⟩
  have nh : XF.fin (1 / 2) ≠ .fin 0 := by intro h; injection h with h; norm_num at h
  have n1 : XF.fin 1 ≠ .fin 0 := by intro h; injection h with h; exact one_ne_zero h
  have b1 : XF.div R.fl (.fin 1) (.fin (1 / 2)) = .ok (.fin 2) := by
    rw [div_ok nh]
    simp only [XF.quot]
    rw [show (1 : ℝ) / (1 / 2) = 2 by norm_num, e2]
  have b2 : XF.sub R.fl (.fin 2) (.fin 1) = .fin 1 := by
    simp only [XF.sub, XF.neg, XF.add]
    rw [show (2 : ℝ) + -1 = 1 by norm_num]; exact e1
  have b3 : XF.div R.fl (.fin (1 / 2)) (.fin 1) = .ok (.fin (1 / 2)) := by
    rw [div_ok n1]; simp only [XF.quot, div_one]; rw [eh]
  have s1 : (1 : ℝ) / 2 ≤ √(1 / 2) := Real.le_sqrt_of_sq_le (by norm_num)
  have s2 : √(1 / 2) ≤ 1 := Real.sqrt_le_one.2 (by norm_num)
  have s3 : XF.round R.fl √(1 / 2) = .fin (R.fl √(1 / 2)) :=
    round_fin .one (by rw [abs_of_nonneg (Real.sqrt_nonneg _)]; exact s2) (by linarith)
  have s4 : 1 / 2 ≤ R.fl √(1 / 2) := R.le_fl fh s1
  have s5 : R.fl √(1 / 2) ≤ 1 := R.fl_le .one s2
  have b4 : XF.sqrt R.fl (.fin (1 / 2)) = .ok (.fin (R.fl √(1 / 2))) := by
    simp only [XF.sqrt]; rw [if_neg (by norm_num), s3]
  obtain ⟨k, hk, k1, k2⟩ : ∃ k : ℚ, c4 ((2 : ℕ) : ℤ) = .ok k ∧ (1 / 2 : ℝ) ≤ R.fl (k : ℝ) ∧ R.fl (k : ℝ) ≤ 1 :=
    ⟨_, rfl, R.le_fl fh (by norm_num), R.fl_le .one (by norm_num)⟩
  have kn : XF.fin (R.fl (k : ℝ)) ≠ .fin 0 := by intro h; injection h with h; linarith
  have q1 : 1 / 2 ≤ R.fl √(1 / 2) / R.fl (k : ℝ) := by
    rw [le_div_iff₀ (by linarith)]; linarith
  have q2 : R.fl √(1 / 2) / R.fl (k : ℝ) ≤ 2 := by
    rw [div_le_iff₀ (by linarith)]; linarith
  have q3 : XF.round R.fl (R.fl √(1 / 2) / R.fl (k : ℝ)) = .fin (R.fl (R.fl √(1 / 2) / R.fl (k : ℝ))) :=
    round_fin f2 (by rw [abs_of_nonneg (by linarith)]; exact q2) (by linarith)
  have q4 := R.le_fl fh q1
  have q5 := R.fl_le f2 q2
  have b5 : CV.unbiasedStdX R.fl ⟨2, .fin (1 / 2), .fin (1 / 2)⟩ =
      .ok (.fin (R.fl (R.fl √(1 / 2) / R.fl (k : ℝ)))) := by
    simp only [CV.unbiasedStdX, lt_irrefl, if_false, o2, b2, b3, ok_bind, b4, hk, div_ok kn, XF.quot, q3]
  refine ⟨R.fl (2 * R.fl (R.fl √(1 / 2) / R.fl (k : ℝ))), R.le_fl .one (by linarith), ?_⟩
  rw [b1, ok_bind, b5, ok_bind]
  simp only [XF.mul]
  rw [round_fin f4 (by rw [abs_of_nonneg (by linarith)]; linarith) (by linarith)]
  rfl

/-- **C102**: "a rejected instance has no effect" is false.  After `{1: 0}`, the instance `{1: 1, 2: 10**400}` raises
OverflowError and leaves all concepts as they were; but the scale by which numbers of attribute 1 are divided in every
later score was 0 (so no scaling) and is now at least 1. -/
theorem C102_rejection_has_effect :
    ∃ (st st' : XState ℕ ℕ ℕ) (n : ℕ) (x : ℝ),
      ReachN R XF.Moderate Demo.hid ⟨1 / 2, id⟩ st [Demo.int 0] [Demo.int 0] [] n ∧
      (∀ e w, ifitN R.fl e Demo.hid ⟨1 / 2, id⟩ st [(1, .use (.rat 1)), (2, .use (.rat (10 ^ 400)))] w =
        .rejected .overflow st') ∧
      st'.root = st.root ∧ scaleNum st.scales 1 = 1 ∧ scaleNum st'.scales 1 = 2 ∧
      ecgScaleX R.fl (⟨1 / 2, id⟩ : Cfg3 ℕ ℕ) st.scales 1 = .ok (.fin 0) ∧
      ecgScaleX R.fl (⟨1 / 2, id⟩ : Cfg3 ℕ ℕ) st'.scales 1 = .ok (.fin x) ∧ 1 ≤ x := by
  obtain ⟨st, n, h⟩ := reachN_exists (R := R) (hid := Demo.hid) (⟨1 / 2, id⟩ : Cfg3 ℕ ℕ) [Demo.int 0] (fun i hi => by
    rw [List.mem_singleton.1 hi]
    exact ⟨Demo.int_ok (by simp), Demo.int_visible _⟩)
  have hr := fun e w => C102_rejected (R := R) (st := st) (hid := Demo.hid) (cfg := (⟨1 / 2, id⟩ : Cfg3 ℕ ℕ)) (e := e) (w := w)
    (Demo.int_ok (R := R) (q := 1) (by norm_num)) (a := 2) Demo.huge []
  have h1 := C102_scales h rfl 1
  have e0 : XF.round R.fl 0 = .fin 0 := round_zero
  have e1 : XF.round R.fl 1 = .fin 1 := round_float .one (by have := big_gt; rw [abs_one]; linarith)
  have hf : floatInst R.fl (Demo.int 0) = [(1, .num (.fin 0))] := by
    simp [floatInst, Demo.int, UVal.float, e0]
  have hf1 : floatInst R.fl (Demo.int 1) = [(1, .num (.fin 1))] := by
    simp [floatInst, Demo.int, UVal.float, e1]
  have z : (XF.fin 0).Valid := ⟨.zero, by have := big_gt; rw [abs_zero]; linarith⟩
  have h2 : st.scales.get? 1 = some (constX 1 (.fin 0)) := by
    rw [h1]
    have := batchX_const (R := R) z 1
    simpa [scaleNumsX, hf, XVal.num?] using this
  obtain ⟨c1, x, hx1, hx2⟩ := two_scale (R := R)
  have h3 : (updateScalesX R.fl id st.scales (floatInst R.fl (Demo.int 1))).get? 1 =
      some ⟨2, .fin (1 / 2), .fin (1 / 2)⟩ := by
    rw [hf1]
    simp [updateScalesX, h2, c1]
  refine ⟨st, ⟨st.root, updateScalesX R.fl id st.scales (floatInst R.fl (Demo.int 1))⟩, n, x, h, fun e w => hr e w, rfl,
    by simp [scaleNum, h2, constX], by simp [scaleNum, h3], ?_, ?_, hx1⟩
  · have n0 : XF.fin (1 / 2) ≠ .fin 0 := by intro h; injection h with h; norm_num at h
    have hs : CV.unbiasedStdX R.fl (constX 1 (.fin 0)) = .ok (.fin 0) := by simp [CV.unbiasedStdX, constX]
    simp only [ecgScaleX, id, h2]
    rw [if_neg (by norm_num)]
    simp only [div_ok n0, ok_bind, hs]
    simp only [XF.quot]
    rw [show (1 : ℝ) / (1 / 2) = 2 by norm_num]
    have f2 : IsFloat 2 := by simpa using IsFloat.nat (n := 2) (by norm_num)
    rw [round_float f2 (by have := big_gt; rw [abs_of_pos two_pos]; linarith)]
    simp only [XF.mul, mul_zero]
    rw [e0]; rfl
  · simp only [ecgScaleX, id, h3]
    rw [if_neg (by norm_num)]
    exact hx2

theorem Demo.inexact : Inexact Demo.hid (Demo.int ((2 ^ 53 + 1 : ℤ) : ℚ)) :=
  ⟨1, _, rfl, rfl, C102_odd (by decide) (by norm_num)⟩

/-- Fitting `{1: 2**53 + 1}` three times gives three leaves. -/
example (cfg : Cfg3 ℕ B) : ∃ st n, ReachN R XF.Valid Demo.hid cfg st
      (List.replicate 3 (Demo.int ((2 ^ 53 + 1 : ℤ) : ℚ))) (List.replicate 3 (Demo.int ((2 ^ 53 + 1 : ℤ) : ℚ))) [] n ∧
    st.root.leaves.length = 3 := by
  obtain ⟨st, n, h⟩ := reachN_exists (R := R) (hid := Demo.hid) cfg
    (List.replicate 3 (Demo.int ((2 ^ 53 + 1 : ℤ) : ℚ))) (fun i hi => by
      rw [List.eq_of_mem_replicate hi]
      exact ⟨Demo.int_ok (by rw [Rat.cast_intCast]; norm_num), Demo.int_visible _⟩)
  have h := reachN_mono (fun x hx => XF.Moderate.valid hx) h
  exact ⟨st, n, h, (C102_inexact h (fun i hi => by rw [List.eq_of_mem_replicate hi]; exact Demo.inexact) (by simp)).1⟩

/-- A state after an instance that is rejected for its `Decimal`: the scale of attribute 1 has counted the 1 before
it, that of attribute 2 the `Decimal`, the concepts neither. -/
example : ∃ (st : XState ℕ ℕ ℕ) (n : ℕ),
    ReachN R XF.Valid Demo.hid ⟨1 / 2, id⟩ st [Demo.int 0] [Demo.int 0, Demo.int 1] [2] n ∧
      st.root.stats.count = 1 ∧ scaleNum st.scales 1 = 2 ∧ scaleNum st.scales 2 = 1 := by
  obtain ⟨st, n, h⟩ := reachN_exists (R := R) (hid := Demo.hid) (⟨1 / 2, id⟩ : Cfg3 ℕ ℕ) [Demo.int 0] (fun i hi => by
    rw [List.mem_singleton.1 hi]
    exact ⟨Demo.int_ok (by simp), Demo.int_visible _⟩)
  have hd : ¬ (NVal.dec : NVal ℕ).Fits R := id
  have h1 := Demo.int_ok (R := R) (q := 1) (by norm_num)
  have h2 := ReachN.reject (w := ⟨fun k => (k : ℚ), 0, n⟩) (e := Demo.env) (a := 2) (post := []) h h1 hd le_rfl
    (C102_rejected h1 hd [])
  have h2 := reachN_mono (fun x hx => XF.Moderate.valid hx) h2
  refine ⟨_, _, h2, (C102_every_node h2).1.count.trans rfl, (C102_scale_num h2 1).trans ?_,
    (C102_scale_num h2 2).trans ?_⟩ <;>
  simp [scaleNumsX, floatInst, Demo.int, UVal.float, XVal.num?, spoiled]

/-- The integer 3 is treated as the float 3.0. -/
example (e : XEnv ℕ) (w : World) (cfg : Cfg3 ℕ B) (st : XState ℕ B ℕ) :
    ifitN R.fl e Demo.hid cfg st (Demo.int 3).toN w =
      match ifitX R.fl e Demo.hid cfg st [(1, .num (.fin 3))] w with
      | .ok o => .done o
      | .error err => .failed err := by
  have h := (C102_as_floats (R := R) (hid := Demo.hid) (cfg := cfg) (st := st) (e := e) (w := w)
    (Demo.int_ok (R := R) (q := 3) (by norm_num)) (fun a q hq => by
      have := Dict.mem_of_get? hq
      simp only [Demo.int, List.mem_singleton, Prod.mk.injEq, UVal.rat.injEq] at this
      rw [this.2]
      simpa using C102_small (z := 3) (by norm_num))).2
  have e3 : exactInst (Demo.int 3) = [(1, .num (.fin 3))] := by simp [exactInst, Demo.int, UVal.exact]
  rw [e3] at h
  rw [h]
  cases ifitX R.fl e Demo.hid cfg st [(1, .num (.fin 3))] w <;> rfl

/-- After two different instances the root has children, so that `categorize` raises on `{1: 1, 2: 10**400}`. -/
example : ∃ (st : XState ℕ ℕ ℕ) (n : ℕ),
    ReachN R XF.Valid Demo.hid ⟨1 / 2, id⟩ st [Demo.int 0, Demo.int 1] [Demo.int 0, Demo.int 1] [] n ∧
      st.root.children ≠ [] := by
  obtain ⟨st, n, h⟩ := reachN_exists (R := R) (hid := Demo.hid) (⟨1 / 2, id⟩ : Cfg3 ℕ ℕ) [Demo.int 0, Demo.int 1]
    (fun i hi => by
      simp only [List.mem_cons, List.not_mem_nil, or_false] at hi
      rcases hi with rfl | rfl
      · exact ⟨Demo.int_ok (by simp), Demo.int_visible _⟩
      · exact ⟨Demo.int_ok (by norm_num), Demo.int_visible _⟩)
  have h := reachN_mono (fun x hx => XF.Moderate.valid hx) h
  refine ⟨st, n, h, fun hc => ?_⟩
  obtain ⟨gs, hsum, hf⟩ := C102_leaves h (by simp)
  obtain ⟨⟨id, s, cs⟩, sc⟩ := st
  simp only [Tree.children_node] at hc
  subst hc
  rw [Tree.leaves_nil] at hf
  cases hf with
  | cons hx hr =>
    cases hr
    rename_i g
    simp only [List.map_cons, List.map_nil, List.sum_cons, List.sum_nil, add_zero, Multiset.coe_eq_coe] at hsum
    have h01 := hx.2.2.1 (Demo.int 0) (hsum.mem_iff.2 (by simp)) (Demo.int 1) (hsum.mem_iff.2 (by simp)) 1 rfl
    have e0 : XF.round R.fl 0 = .fin 0 := round_zero
    have e1 : XF.round R.fl 1 = .fin 1 := round_float .one (by have := big_gt; rw [abs_one]; linarith)
    simp [floatInst, Demo.int, UVal.float, e0, e1, Dict.get?_cons] at h01

end CF
