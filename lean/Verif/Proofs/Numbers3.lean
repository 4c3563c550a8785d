/-
`Cobweb3Node` with all Python numbers satisfies the laws of `Verif.Proofs.Tables`; `update_scales` with them.
-/
import Verif.Spec.Numbers3
import Verif.Proofs.Ext3

set_option linter.unusedSectionVars false

namespace CF
variable {A B V : Type} [DecidableEq A] [DecidableEq B] [DecidableEq V] {R : Rounding} {hid : A → Bool}
variable {X : XF → Prop} {P : CV XF → Prop}

/-! ### One instance -/

section
variable {I S K : Type}

/-- The class with the one instance `i`. -/
def NodeClass.at (C : NodeClass I S) (i : I) : NodeClass Unit S where
  fresh := C.fresh
  count := C.count
  incr s _ := C.incr s i
  addFrom := C.addFrom
  isExact s _ := C.isExact s i

variable (ar : Arith K) (C : NodeClass I S) (ecg : S → Res K) (i : I)

theorem cuSumA_at (n : ℕ) (l : List S) (acc : K) : cuSumA ar (C.at i) ecg n l acc = cuSumA ar C ecg n l acc := by
  induction l generalizing acc with
  | nil => rfl
  | cons c l ih => simp only [cuSumA, ih]; rfl

theorem categoryUtilityA_at (s : S) (cs : List S) :
    categoryUtilityA ar (C.at i) ecg s cs = categoryUtilityA ar C ecg s cs := by
  cases cs <;> simp only [categoryUtilityA, cuSumA_at]; rfl

theorem mkCandsA_at (w : World) (l : List S) (k : ℕ) :
    mkCandsA ar (C.at i) ecg () w l k = mkCandsA ar C ecg i w l k := by
  induction l generalizing k with
  | nil => rfl
  | cons c l ih => simp only [mkCandsA, ih]; rfl

theorem constSumA_at (n : ℕ) (l : List S) (acc : K) :
    constSumA ar (C.at i) ecg n l acc = constSumA ar C ecg n l acc := by
  induction l generalizing acc with
  | nil => rfl
  | cons c l ih => simp only [constSumA, ih]; rfl

theorem twoBestA_at (s : S) (cs : List S) (w : World) :
    twoBestA ar (C.at i) ecg s cs () w = twoBestA ar C ecg s cs i w := by
  simp only [twoBestA, relativeCuConstA, mkCandsA_at, constSumA_at]; rfl

theorem bestOpA_at (ops : List Op) (s : S) (cs : List (Tree S)) (cu1 : K) (b1 b2 : Option ℕ) (w : World) (off : ℕ) :
    bestOpA ar (C.at i) ecg ops s cs () cu1 b1 b2 w off = bestOpA ar C ecg ops s cs i cu1 b1 b2 w off := by
  simp only [bestOpA, opsNewA, opsMergeA, opsSplitA, cuForNewChildA, cuForMergeA, cuForSplitA, categoryUtilityA_at]
  rfl

theorem chooseOpA_at (s : S) (cs : List (Tree S)) (w : World) :
    chooseOpA ar (C.at i) ecg s cs () w = chooseOpA ar C ecg s cs i w := by
  simp only [chooseOpA, twoBestA_at, bestOpA_at]

theorem cobwebLoopBy_at (fuel : ℕ) (t : Tree S) (w : World) :
    cobwebLoopBy (C.at i) (chooseOpA ar (C.at i) ecg) () fuel t w = cobwebLoopBy C (chooseOpA ar C ecg) i fuel t w := by
  induction fuel generalizing t w with
  | zero => rfl
  | succ fuel ih =>
    match t with
    | .node id s [] => rfl
    | .node id s (c :: cs) =>
      simp only [cobwebLoopBy, chooseOpA_at, ih]
      rfl

/-- What an instance does depends only on how it is counted and when it matches. -/
theorem cobwebBy_at {J : Type} {D : NodeClass J S} {j : J} (h : C.at i = D.at j) (t : Tree S) (w : World) :
    cobwebBy C (chooseOpA ar C ecg) t i w = cobwebBy D (chooseOpA ar D ecg) t j w := by
  unfold cobwebBy
  rw [← cobwebLoopBy_at, ← cobwebLoopBy_at (C := D), h]
end

/-- Every leaf of the new tree but the returned one is a leaf of the old tree. -/
theorem LoopBy.leaves_from {I S K : Type} {C : NodeClass I S} {ch : Chooser I S K} {inst : I} {t : Tree S} {w : World}
    {o : Out S} (h : LoopBy C ch inst t w o) : ∀ x ∈ o.tree.leaves, x ∈ t.leaves ∨ x.id = o.leaf := by
  induction h with
  | @hit id s w hx =>
    intro x hx
    rw [Tree.leaves_nil] at hx
    right; rw [List.mem_singleton.1 hx]; rfl
  | @fringe id s w _ _ =>
    intro x hx
    rw [Tree.leaves_node _ _ (by simp)] at hx
    simp only [List.flatMap_cons, List.flatMap_nil, Tree.leaves_nil, List.append_nil, List.mem_append,
      List.mem_singleton] at hx
    rw [Tree.leaves_nil, List.mem_singleton]
    rcases hx with rfl | rfl
    · exact Or.inl rfl
    · exact Or.inr rfl
  | @best id s cs w w' b t o hne _ hw ht _ ih =>
    intro x hx
    have hp := perm_putChild ht o
    have hne' : putChild cs b.b1 o ≠ [] := by
      intro h0; rw [h0] at hp; exact List.cons_ne_nil _ _ hp.symm.eq_nil
    rw [Tree.leaves_node _ _ hne', (hp.flatMap_right Tree.leaves).mem_iff, List.flatMap_cons, List.mem_append] at hx
    rw [Tree.leaves_node _ _ hne, ((perm_eraseIdx ht).flatMap_right Tree.leaves).mem_iff, List.flatMap_cons,
      List.mem_append]
    rcases hx with hx | hx
    · rcases ih x hx with h | h
      · exact Or.inl (Or.inl h)
      · exact Or.inr h
    · exact Or.inl (Or.inr hx)
  | @new id s cs w w' b hne _ hw =>
    intro x hx
    rw [Tree.leaves_node _ _ (by simp), List.flatMap_append, List.mem_append] at hx
    rw [Tree.leaves_node _ _ hne]
    rcases hx with hx | hx
    · exact Or.inl hx
    · simp only [List.flatMap_cons, List.flatMap_nil, Tree.leaves_nil, List.append_nil, List.mem_singleton] at hx
      subst hx; exact Or.inr rfl
  | @merge id s cs w w' b j t1 t2 o hlen _ hw hj hne ht1 ht2 _ ih =>
    intro x hx
    rw [Tree.leaves_node _ _ (by simp), List.flatMap_append, List.mem_append] at hx
    rw [Tree.leaves_node _ _ (by rintro rfl; simp at hlen),
      ((perm_dropTwo hne ht1 ht2).flatMap_right Tree.leaves).mem_iff]
    simp only [List.flatMap_cons, List.flatMap_nil, List.append_nil, List.mem_append] at hx ⊢
    rcases hx with hx | hx
    · exact Or.inl (Or.inr (Or.inr hx))
    · rcases ih x hx with h | h
      · rw [Tree.leaves_node _ _ (by simp)] at h
        simp only [List.flatMap_cons, List.flatMap_nil, List.append_nil, List.mem_append] at h
        tauto
      · exact Or.inr h
  | @split id s cs w w' b t o hne0 _ hw ht hne _ ih =>
    intro x hx
    rcases ih x hx with h | h
    · rw [Tree.leaves_node _ _ (by simp [hne]), List.flatMap_append, List.mem_append] at h
      rw [Tree.leaves_node _ _ hne0, ((perm_eraseIdx ht).flatMap_right Tree.leaves).mem_iff, List.flatMap_cons,
        List.mem_append]
      left
      rcases h with h | h
      · exact Or.inr h
      · left
        obtain ⟨i, s1, cs1⟩ := t
        rwa [Tree.leaves_node i s1 (cs := cs1) hne]
    · exact Or.inr h

/-! ### Conversions -/

theorem get?_mapSnd {K W Z : Type} [DecidableEq K] (f : W → Z) (l : List (K × W)) (k : K) :
    Dict.get? (l.map fun p => (p.1, f p.2)) k = (Dict.get? l k).map f := by
  induction l with
  | nil => rfl
  | cons p l ih =>
    obtain ⟨a, v⟩ := p
    simp only [List.map_cons, Dict.get?_cons, ih]
    split <;> rfl

theorem get?_floatInst (i : UInst A V) (a : A) :
    Dict.get? (floatInst R.fl i) a = (Dict.get? i a).map (UVal.float R.fl) := get?_mapSnd _ _ _

theorem get?_exactInst (i : UInst A V) (a : A) :
    Dict.get? (exactInst i) a = (Dict.get? i a).map UVal.exact := get?_mapSnd _ _ _

theorem keys_floatInst (i : UInst A V) : Dict.keys (floatInst R.fl i) = Dict.keys i := by
  simp [Dict.keys, floatInst, List.map_map, Function.comp_def]

theorem keys_exactInst (i : UInst A V) : Dict.keys (exactInst i) = Dict.keys i := by
  simp [Dict.keys, exactInst, List.map_map, Function.comp_def]

theorem round_small {y : ℝ} (h : |R.fl y| < XF.big) : XF.round R.fl y = .fin (R.fl y) := by
  have h1 := abs_lt.1 h
  unfold XF.round
  rw [if_neg (by linarith), if_neg (by linarith)]

theorem round_large {y : ℝ} (h : ¬ |R.fl y| < XF.big) : ∃ s, XF.round R.fl y = .inf s := by
  unfold XF.round
  split_ifs with h1 h2
  · exact ⟨_, rfl⟩
  · exact ⟨_, rfl⟩
  · exact absurd (abs_lt.2 ⟨by linarith, by linarith⟩) h

theorem UInstOk.float {i : UInst A V} (h : UInstOk R X i) : XInstOk X (floatInst R.fl i) where
  nodup := by unfold Dict.Nodup; rw [keys_floatInst]; exact h.nodup
  nums a x hx := by
    rw [get?_floatInst, Option.map_eq_some_iff] at hx
    obtain ⟨u, hu, e⟩ := hx
    cases u with
    | nom v => simp [UVal.float] at e
    | flt y => simp only [UVal.float, XVal.num.injEq] at e; subst e; exact (h.flt a y hu).2
    | rat q =>
      have hq := h.rat a q hu
      simp only [UVal.float, XVal.num.injEq, round_small hq.1] at e
      subst e; exact hq.2
  number a hx := by
    rw [get?_floatInst, Option.map_eq_some_iff] at hx
    obtain ⟨u, hu, e⟩ := hx
    cases u with
    | nom v => simp [UVal.float] at e
    | flt y => simp only [UVal.float, XVal.num.injEq] at e; exact (h.flt a y hu).1 e
    | rat q =>
      have hq := h.rat a q hu
      simp [UVal.float, round_small hq.1] at e

theorem UInstOk.exact_nodup {i : UInst A V} (h : UInstOk R X i) : Dict.Nodup (exactInst i) := by
  unfold Dict.Nodup; rw [keys_exactInst]; exact h.nodup

theorem UInstOk.exact_number {i : UInst A V} (h : UInstOk R X i) (a : A) :
    Dict.get? (exactInst i) a ≠ some (.num .nan) := by
  intro hx
  rw [get?_exactInst, Option.map_eq_some_iff] at hx
  obtain ⟨u, hu, e⟩ := hx
  cases u with
  | nom v => simp [UVal.exact] at e
  | flt y => simp only [UVal.exact, XVal.num.injEq] at e; exact (h.flt a y hu).1 e
  | rat q => simp [UVal.exact] at e

/-- A value that equals a float as it is, is that float after the conversion. -/
theorem float_of_exact {u : UVal V} {v : XVal V} (hv : ∀ x, v = .num x → x.Valid) (h : u.exact = v) :
    u.float R.fl = v := by
  cases u with
  | nom w => exact h
  | flt x => exact h
  | rat q =>
    subst h
    have := hv _ rfl
    simp only [UVal.float, UVal.exact]
    rw [round_float this.1 this.2]

theorem numBuilt (l : List (UInst A V)) :
    (numClass R.fl hid).built l = (extClass R.fl hid).built (l.map (floatInst R.fl)) := by
  induction l using List.reverseRecOn with
  | nil => rfl
  | append_singleton l i ih =>
    rw [List.map_append, List.map_singleton, NodeClass.built_append, NodeClass.built_append, ih]; rfl

/-- `is_exact_match` on a leaf. -/
theorem numBuilt_exact (hX : ∀ x, X x → x.Valid) {l : List (UInst A V)} {i : UInst A V} (hne : l ≠ [])
    (hl : ∀ j ∈ l, UInstOk R X j)
    (hp : ∀ j ∈ l, ∀ k ∈ l, SameVisible hid (floatInst R.fl j) (floatInst R.fl k)) (hi : UInstOk R X i) :
    (numClass R.fl hid).isExact ((numClass R.fl hid).built l) i = true ↔
      (∀ j ∈ l, SameVisible hid (exactInst i) (floatInst R.fl j)) ∧ Repeats hid l.length (exactInst i) := by
  rw [numBuilt]
  have := builtX_exact (R := R) (hid := hid) hX (l := l.map (floatInst R.fl)) (i := exactInst i) (by simpa using hne)
    (by simpa using fun j hj => (hl j hj).float) (by simpa using hp) hi.exact_nodup hi.exact_number
  rw [List.length_map] at this
  simpa [numClass] using this

theorem sameFloat_of_exact (hX : ∀ x, X x → x.Valid) {i j : UInst A V} (hj : UInstOk R X j)
    (h : SameVisible hid (exactInst i) (floatInst R.fl j)) :
    SameVisible hid (floatInst R.fl i) (floatInst R.fl j) := by
  intro a ha
  have h := h a ha
  rw [get?_exactInst] at h
  rw [get?_floatInst]
  cases hu : Dict.get? i a with
  | none => rw [hu] at h; exact h
  | some u =>
    rw [hu, Option.map_some] at h
    rw [← h, Option.map_some]
    rw [float_of_exact (R := R) (v := u.exact) ?_ rfl]
    intro x hx
    exact hX x (hj.float.nums a x (by rw [← h, hx]))

theorem numLaws (K : KeepsX R X P) (hid : A → Bool) :
    TableLaws (numClass R.fl hid : NodeClass (UInst A V) (XStats A V)) (UInstOk R X)
      (fun s m => CountsX P s (m.map (floatInst R.fl)))
      (fun i j => SameVisible hid (floatInst R.fl i) (floatInst R.fl j)) where
  fresh := countsX_fresh
  incr h hi := by rw [Multiset.map_cons]; exact countsX_incr h K hi.float
  add h h' := by rw [Multiset.map_add]; exact countsX_add K h h'
  count h := by rw [← Multiset.card_map (floatInst R.fl)]; exact h.count
  exact h1 h2 h3 h4 h5 j hj :=
    sameFloat_of_exact (fun _ => K.valid) (h2 j hj)
      (((numBuilt_exact (fun _ => K.valid) h1 h2 h3 h4).1 h5).1 j hj)
  refl _ _ _ := rfl
  symm h a ha := (h a ha).symm
  trans h h' a ha := (h a ha).trans (h' a ha)

/-! ### `update_scales` -/

theorem updateScalesN_fits (inner : A → B) (u : UInst A V) (hn : ∀ a x, (a, UVal.flt x) ∈ u → x ≠ .nan)
    (hf : ∀ a q, (a, UVal.rat q) ∈ u → |R.fl (q : ℝ)| < XF.big) (post : NInst A V) (sc : XScales B) :
    updateScalesN R.fl inner sc (u.toN ++ post) =
      updateScalesN R.fl inner (updateScalesX R.fl inner sc (floatInst R.fl u)) post := by
  induction u generalizing sc with
  | nil => rfl
  | cons p u ih =>
    obtain ⟨a, v⟩ := p
    have ih := ih (fun a x h => hn a x (by simp [h])) (fun a q h => hf a q (by simp [h]))
    cases v with
    | nom v =>
      show updateScalesN R.fl inner sc ((a, .use (.nom v)) :: (UInst.toN u ++ post)) = _
      rw [updateScalesN]
      exact ih sc
    | flt x =>
      show updateScalesN R.fl inner sc ((a, .use (.flt x)) :: (UInst.toN u ++ post)) = _
      have : NVal.isNumber R.fl (.use (.flt x) : NVal V) = .ok true := by
        simp [NVal.isNumber, hn a x (by simp)]
      rw [updateScalesN, this]
      exact ih _
    | rat q =>
      show updateScalesN R.fl inner sc ((a, .use (.rat q)) :: (UInst.toN u ++ post)) = _
      have hq := round_small (hf a q (by simp))
      have : NVal.isNumber R.fl (.use (.rat q) : NVal V) = .ok true := by
        simp only [NVal.isNumber]; rw [hq]
      rw [updateScalesN, this]
      simp only [CV.updateN]
      rw [hq]
      simp only [floatInst, List.map_cons, UVal.float, hq, updateScalesX]
      exact ih _

theorem updateScalesN_bad (inner : A → B) (a : A) {v : NVal V} (hv : ¬ v.Fits R) (post : NInst A V)
    (sc : XScales B) :
    updateScalesN R.fl inner sc ((a, v) :: post) = (some v.error, spoil inner sc a v) := by
  match v, hv with
  | .use (.nom v), h => exact absurd trivial h
  | .use (.flt x), h => exact absurd trivial h
  | .use (.rat q), h =>
    obtain ⟨s, hs⟩ := round_large (R := R) h
    rw [updateScalesN]
    simp only [NVal.isNumber]
    rw [hs]; rfl
  | .dec, _ => rw [updateScalesN]; rfl
  | .cpx, _ => rw [updateScalesN]; rfl

/-- Every instance has only values that fit, or a first one that does not. -/
theorem NInst.cases (i : NInst A V) :
    (∃ u : UInst A V, i = u.toN ∧ ∀ a q, (a, UVal.rat q) ∈ u → |R.fl (q : ℝ)| < XF.big) ∨
    ∃ (pre : UInst A V) (a : A) (v : NVal V) (post : NInst A V), i = pre.toN ++ (a, v) :: post ∧
      (∀ a q, (a, UVal.rat q) ∈ pre → |R.fl (q : ℝ)| < XF.big) ∧ ¬ v.Fits R := by
  induction i with
  | nil => exact Or.inl ⟨[], rfl, by simp⟩
  | cons p i ih =>
    obtain ⟨a, v⟩ := p
    by_cases hv : v.Fits R
    · have key : ∃ u : UVal V, v = .use u ∧ ∀ q, u = .rat q → |R.fl (q : ℝ)| < XF.big := by
        match v, hv with
        | .use (.nom v), _ => exact ⟨_, rfl, by simp⟩
        | .use (.flt x), _ => exact ⟨_, rfl, by simp⟩
        | .use (.rat q), h => exact ⟨_, rfl, fun q' h' => by cases h'; exact h⟩
      obtain ⟨u, rfl, hu⟩ := key
      rcases ih with ⟨l, rfl, hl⟩ | ⟨pre, b, w, post, rfl, hl, hw⟩
      · refine Or.inl ⟨(a, u) :: l, rfl, fun b q h => ?_⟩
        rcases List.mem_cons.1 h with h | h
        · cases h; exact hu q rfl
        · exact hl b q h
      · refine Or.inr ⟨(a, u) :: pre, b, w, post, rfl, fun b q h => ?_, hw⟩
        rcases List.mem_cons.1 h with h | h
        · cases h; exact hu q rfl
        · exact hl b q h
    · exact Or.inr ⟨[], a, v, i, rfl, by simp, hv⟩

theorem used_toN (u : UInst A V) : NInst.used u.toN = u := by
  induction u with
  | nil => rfl
  | cons p u ih => 
    obtain ⟨a, v⟩ := p
    show (a, v) :: NInst.used (UInst.toN u) = _
    rw [ih]

theorem UInstOk.mem_flt {i : UInst A V} (h : UInstOk R X i) : ∀ a x, (a, UVal.flt x) ∈ i → x ≠ .nan :=
  fun a x hx => (h.flt a x (Dict.get?_of_mem h.nodup hx)).1

theorem UInstOk.mem_rat {i : UInst A V} (h : UInstOk R X i) :
    ∀ a q, (a, UVal.rat q) ∈ i → |R.fl (q : ℝ)| < XF.big :=
  fun a q hx => (h.rat a q (Dict.get?_of_mem h.nodup hx)).1

end CF
