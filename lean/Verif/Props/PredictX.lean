/-
C117: what Cobweb/3 predicts at a leaf, with all Python floats.
-/
import Verif.Model.PredictX
import Verif.Props.Ext3
import Verif.Props.FloatPredict
import Verif.Props.OneConceptFloat
import Verif.Proofs.Choose

namespace CF
variable {A B V : Type} [DecidableEq A] [DecidableEq B] [DecidableEq V] {R : Rounding} {hid : A → Bool}
variable {cfg : Cfg3 A B} {st : XState A B V} {hist : List (XInst A V)} {n : ℕ}

/-- What a leaf of `n` equal instances predicts where they have the value `v`: an infinity seen twice has become `nan`. -/
noncomputable def recalled (n : ℕ) : XVal V → XVal V
  | .nom v => .nom v
  | .num (.fin x) => .num (.fin x)
  | .num (.inf b) => .num (if n = 1 then .inf b else .nan)
  | .num .nan => .num .nan

theorem mostLikely_sure {α : Type} (tie : TieBreak α ℝ) (x y : α) (rnd : ℕ → ℚ) :
    mostLikelyChoice tie [(x, (1 : ℝ))] rnd = .ok x ∧ mostLikelyChoice tie [(x, (1 : ℝ)), (y, 0)] rnd = .ok x := by
  have hlt : toLex ((0 : ℝ), rnd 1) < toLex ((1 : ℝ), rnd 0) := Prod.Lex.toLex_lt_toLex.2 (Or.inl (by norm_num))
  constructor
  · simp [mostLikelyChoice, mlEntries]
  · have hne : toLex ((1 : ℝ), rnd 0) ≠ toLex ((0 : ℝ), rnd 1) := hlt.ne'
    simp [mostLikelyChoice, mlEntries, MLEntry.key, List.orderedInsert, hlt.le, hne]

theorem only_key {D : Dict V ℕ} (hn : Dict.Nodup D) {v : V} {k : ℕ} (h : D.get? v = some k)
    (ho : ∀ u, u ≠ v → D.get? u = none) : D = [(v, k)] := by
  have key : ∀ p ∈ D, p.1 = v := fun p hp => by
    by_contra hne
    have h1 := ho p.1 hne
    rw [Dict.get?_eq_none] at h1
    exact h1 (List.mem_map.2 ⟨p, hp, rfl⟩)
  match D, hn, h, key with
  | [], _, h, _ => simp [Dict.get?] at h
  | [(u, k')], _, h, key =>
    have : u = v := key (u, k') (by simp)
    subst this
    simp [Dict.get?] at h
    rw [h]
  | (u, k1) :: (u', k2) :: D, hn, _, key =>
    have h1 : u = v := key (u, k1) (by simp)
    have h2 : u' = v := key (u', k2) (by simp)
    subst h1 h2
    simp [Dict.Nodup, Dict.keys] at hn

section
variable {P : CV XF → Prop} {s : XStats A V} {g : List (XInst A V)} {a : A}

theorem leaf_absent (hs : CountsX P s (g : Multiset (XInst A V))) (h : ∀ i ∈ g, Dict.get? i a = none) :
    s.av.get? a = none := by
  rw [Dict.get?_eq_none]
  intro ha
  obtain ⟨i, hi, hk⟩ := (hs.attrs a).1 ha
  exact (Dict.get?_eq_none.1 (h i (by simpa using hi))) hk

omit [DecidableEq V] in
theorem leaf_occ {v u : XVal V} (h : ∀ i ∈ g, Dict.get? i a = some v) :
    occ (g : Multiset (XInst A V)) a u = if u = v then g.length else 0 := by
  unfold occ
  rw [Multiset.coe_countP]
  split
  · next e => subst e; rw [List.countP_eq_length]; simpa using h
  · next e =>
    rw [List.countP_eq_zero]
    intro i hi
    rw [h i hi]
    simpa using fun e' => e e'.symm

theorem leaf_known (hg : g ≠ []) (hs : CountsX P s (g : Multiset (XInst A V))) {v : XVal V}
    (h : ∀ i ∈ g, Dict.get? i a = some v) : ∃ t, s.av.get? a = some t := by
  obtain ⟨i, hi⟩ := List.exists_mem_of_ne_nil g hg
  refine Option.isSome_iff_exists.1 (Dict.get?_isSome.2 ((hs.attrs a).2 ⟨i, by simpa using hi, ?_⟩))
  exact Dict.get?_isSome.1 (by rw [h i hi]; rfl)

theorem leaf_nominal (hg : g ≠ []) (hs : CountsX P s (g : Multiset (XInst A V))) {v : V}
    (h : ∀ i ∈ g, Dict.get? i a = some (.nom v)) : s.av.get? a = some ⟨[(v, g.length)], none⟩ := by
  obtain ⟨t, ht⟩ := leaf_known hg hs h
  have hl : g.length ≠ 0 := by simpa using hg
  rw [ht]
  obtain ⟨noms, cv⟩ := t
  have h1 : ∀ u, noms.get? u = if u = v then some g.length else none := fun u => by
    have := hs.noms a u
    rw [leaf_occ h, XStats.nomLookup, ht] at this
    by_cases e : u = v
    · subst e; simpa [hl] using this
    · simpa [e] using this
  have h2 : noms = [(v, g.length)] := only_key (hs.nodup.2 _ (Dict.mem_of_get? ht)) (by rw [h1, if_pos rfl])
    fun u hu => by rw [h1, if_neg hu]
  have h3 : cv = none := by
    rcases hs.cv a with ⟨-, h0⟩ | ⟨h0, -⟩
    · simpa [XStats.cvOf, ht] using h0
    · refine absurd ?_ h0
      rw [numsX, Multiset.filterMap_coe, Multiset.coe_eq_zero, List.filterMap_eq_nil_iff]
      intro i hi
      rw [h i hi]; rfl
  rw [h2, h3]

theorem leaf_number (hg : g ≠ []) (hs : CountsX P s (g : Multiset (XInst A V))) {x : XF}
    (h : ∀ i ∈ g, Dict.get? i a = some (.num x)) {c : CV XF} (hc : s.cvOf a = some c) :
    s.av.get? a = some ⟨[], some c⟩ := by
  obtain ⟨t, ht⟩ := leaf_known hg hs h
  rw [ht]
  obtain ⟨noms, cv⟩ := t
  have h1 : noms = [] := by
    rcases noms with _ | ⟨⟨u, k⟩, r⟩
    · rfl
    · have := hs.noms a u
      rw [leaf_occ h, XStats.nomLookup, ht] at this
      simp [Dict.get?] at this
  have h2 : cv = some c := by simpa [XStats.cvOf, ht] using hc
  rw [h1, h2]

theorem predictX_sure (hc : s.count ≠ 0) {t : XTab V} (ht : s.av.get? a = some t) {k : Option V}
    (he : ∀ p, t.entriesAt p = [(k, s.count)]) (pos : XTab V → ℕ) (add : List ℝ → ℝ)
    (tie : TieBreak (Option (Option V)) ℝ) (gauss : GaussX) (an : Bool) (w : World) :
    ∃ w', XStats.predictX R.fl pos add tie gauss s a .mostLikely an w =
      finishPredictX R.fl gauss t .mostLikely (some k, w') := by
  have hn : natF R.fl s.count ≠ 0 := natF_ne_zero hc
  have h1 : R.fl 1 = 1 := R.fix .one
  have h0 : R.fl 0 = 0 := R.fix .zero
  have hw : weightLoopF R.fl s.count [(k, s.count)] = .ok [(some k, 1)] := by
    rw [weightLoopF_eq hc]; simp [div_self hn, h1]
  have htot : t.total = s.count := by simp [XTab.total, he]
  cases an with
  | false =>
    refine ⟨w.skip 1, ?_⟩
    simp [XStats.predictX, ht, XStats.weightedValuesX, he, hw, ok_bind, chooseF, (mostLikely_sure tie (some k) none _).1,
      Except.map]
  | true =>
    refine ⟨w.skip 2, ?_⟩
    simp [XStats.predictX, ht, XStats.weightedValuesX, he, hw, ok_bind, chooseF, htot, h0, divF, hn,
      (mostLikely_sure tie (some k) none _).2, Except.map]

end

/-- **C117**: at a leaf of any reachable tree, `predict(attr)` of an attribute that is not hidden gives back what the
instances stored there have: nothing, the nominal value, or the number - except that an infinity that was stored more
than once is predicted as `nan`. -/
theorem C117_leaf_predicts (h : ReachX R XF.Valid hid cfg st hist n) (hne : hist ≠ []) :
    ∃ groups : List (List (XInst A V)),
      (List.map (fun g : List (XInst A V) => (g : Multiset (XInst A V))) groups).sum = (hist : Multiset _) ∧
      List.Forall₂ (fun leaf g => g ≠ [] ∧ ∀ i ∈ g, ∀ a, hid a = false → ∀ pos add tie gauss an w,
        ∃ w', XStats.predictX R.fl pos add tie gauss leaf.stats a .mostLikely an w =
          .ok ((Dict.get? i a).map (recalled g.length), w')) st.root.leaves groups := by
  obtain ⟨groups, h1, h2⟩ := C99_leaves h hne
  have e : (groups >>= fun g => pure (g : Multiset (XInst A V))) =
      List.map (fun g : List (XInst A V) => (g : Multiset (XInst A V))) groups := by
    rw [List.bind_eq_flatMap]
    exact List.flatMap_pure_eq_map _ _
  rw [List.map_id', e] at h1
  refine ⟨groups, h1, h2.imp ?_⟩
  rintro leaf g ⟨hg, hs, hsame, hcv, -, -⟩
  refine ⟨hg, fun i hi a ha pos add tie gauss an w => ?_⟩
  have hall : ∀ j ∈ g, Dict.get? j a = Dict.get? i a := fun j hj => hsame j hj i hi a ha
  have hcount : leaf.stats.count = g.length := by rw [hs.count]; rfl
  have hc : leaf.stats.count ≠ 0 := by rw [hcount]; simpa using hg
  cases hv : Dict.get? i a with
  | none =>
    refine ⟨w, ?_⟩
    have := leaf_absent hs (a := a) fun j hj => by rw [hall j hj, hv]
    simp [XStats.predictX, this]
  | some v =>
    have hall' : ∀ j ∈ g, Dict.get? j a = some v := fun j hj => by rw [hall j hj, hv]
    cases v with
    | nom v =>
      obtain ⟨w', e⟩ := predictX_sure (R := R) hc (leaf_nominal hg hs hall') (k := some v)
        (fun p => by simp [XTab.entriesAt, hcount]) pos add tie gauss an w
      exact ⟨w', by rw [e]; rfl⟩
    | num x =>
      have hx := hcv i hi a x ha hv
      obtain ⟨w', e⟩ := predictX_sure (R := R) hc (leaf_number hg hs hall' hx) (k := none)
        (fun p => by cases x <;> simp [XTab.entriesAt, hcount, constX]) pos add tie gauss an w
      refine ⟨w', ?_⟩
      rw [e]
      cases x <;> rfl

omit [DecidableEq V] in
theorem inferLoopX_out {s : XStats A V} {pos : XTab V → ℕ} {add : List ℝ → ℝ} {tie : TieBreak (Option (Option V)) ℝ}
    {gauss : GaussX} {an : Bool} {r : A → Option (XVal V)} {p : A → Prop}
    (hr : ∀ a, p a → ∀ w, ∃ w', XStats.predictX R.fl pos add tie gauss s a .mostLikely an w = .ok (r a, w')) :
    ∀ (keys : List A) (temp : XInst A V) (w : World) (out : XInst A V) (w' : World),
      inferLoopX R.fl pos add tie gauss s .mostLikely an keys temp w = .ok (out, w') →
      (∀ a v, Dict.get? temp a = some v → Dict.get? out a = some v) ∧
      ∀ a, p a → Dict.get? temp a = none → Dict.get? out a = if a ∈ keys then r a else none := by
  intro keys
  induction keys with
  | nil =>
    intro temp w out w' h
    simp only [inferLoopX, Except.ok.injEq, Prod.mk.injEq] at h
    obtain ⟨rfl, -⟩ := h
    exact ⟨fun _ _ h => h, fun a _ h => by simp [h]⟩
  | cons b keys ih =>
    intro temp w out w' h
    rw [inferLoopX] at h
    split at h
    · next hb =>
      obtain ⟨h1, h2⟩ := ih temp w out w' h
      refine ⟨h1, fun a ha hn => ?_⟩
      have hab : a ≠ b := by
        rintro rfl
        simp [Dict.has, hn] at hb
      rw [h2 a ha hn]
      simp [hab]
    · next hb =>
      rw [bind_ok] at h
      obtain ⟨⟨v, w1⟩, hv, h⟩ := h
      have hrb : p b → v = r b := fun hp => by
        obtain ⟨w2, e⟩ := hr b hp w
        rw [e] at hv
        cases hv
        rfl
      cases v with
      | none =>
        obtain ⟨h1, h2⟩ := ih temp w1 out w' h
        refine ⟨h1, fun a ha hn => ?_⟩
        rw [h2 a ha hn]
        by_cases hab : a = b
        · subst hab; rw [← hrb ha]; simp
        · simp [hab]
      | some v =>
        obtain ⟨h1, h2⟩ := ih (temp.set b v) w1 out w' h
        constructor
        · intro a u hu
          refine h1 a u ?_
          rw [Dict.get?_set]
          split
          · next e =>
            subst e
            exfalso
            apply hb
            simp [Dict.has, hu]
          · exact hu
        · intro a ha hn
          by_cases hab : a = b
          · subst hab
            rw [h1 a v (by rw [Dict.get?_set, if_pos rfl]), ← hrb ha]
            simp
          · rw [h2 a ha (by rw [Dict.get?_set, if_neg (Ne.symm hab)]; exact hn)]
            simp [hab]

/-- **C117**: `infer_missing` completes an instance with what the instances of one leaf have: what is given is kept, and
every attribute that is missing and not hidden gets their value, or `nan` if that is an infinity they have in common. -/
theorem C117_infer (h : ReachX R XF.Valid hid cfg st hist n) (hne : hist ≠ []) {e : XEnv V} {add : List ℝ → ℝ}
    {tie : TieBreak (Option (Option V)) ℝ} {gauss : GaussX} {i out : XInst A V} {an : Bool} {w w' : World}
    (ho : inferMissingX R.fl e add hid cfg tie gauss st i .mostLikely an w = .ok (out, w')) :
    (∀ a v, Dict.get? i a = some v → Dict.get? out a = some v) ∧
    ∃ g : List (XInst A V), g ≠ [] ∧ (g : Multiset (XInst A V)) ≤ hist ∧
      ∀ j ∈ g, ∀ a, hid a = false → Dict.get? i a = none → Dict.get? out a = (Dict.get? j a).map (recalled g.length) := by
  obtain ⟨groups, h1, h2⟩ := C117_leaf_predicts h hne
  rw [inferMissingX, bind_ok] at ho
  obtain ⟨⟨leaf, w1⟩, hc, ho⟩ := ho
  have hl : leaf ∈ st.root.leaves := (categorizeLoopA_leaf _ _ _ _ hc).1
  obtain ⟨k, hk, hkl⟩ := List.getElem_of_mem hl
  have hkg : k < groups.length := h2.length_eq ▸ hk
  have hP := (List.forall₂_iff_get.1 h2).2 k hk hkg
  simp only [List.get_eq_getElem, hkl] at hP
  obtain ⟨hg, hp⟩ := hP
  obtain ⟨j0, hj0⟩ := List.exists_mem_of_ne_nil _ hg
  have hloop := inferLoopX_out (R := R) (p := fun a => hid a = false)
    (r := fun a => (Dict.get? j0 a).map (recalled groups[k].length))
    (fun a ha w => hp j0 hj0 a ha e.pos add tie gauss an w) _ _ _ _ _ ho
  refine ⟨hloop.1, groups[k], hg, ?_, fun j hj a ha hn => ?_⟩
  · rw [← h1]
    have hmem : (groups[k] : Multiset (XInst A V)) ∈
        List.map (fun g : List (XInst A V) => (g : Multiset (XInst A V))) groups :=
      List.mem_map_of_mem (List.getElem_mem hkg)
    exact List.single_le_sum (fun _ _ => Multiset.zero_le _) _ hmem
  · have hjj : (Dict.get? j a).map (recalled groups[k].length) = (Dict.get? j0 a).map (recalled groups[k].length) := by
      obtain ⟨w2, e2⟩ := hp j hj a ha e.pos add tie gauss an w
      obtain ⟨w3, e3⟩ := hp j0 hj0 a ha e.pos add tie gauss an w
      rw [e2] at e3
      simp only [Except.ok.injEq, Prod.mk.injEq] at e3
      exact e3.1
    rw [hjj, hloop.2 a ha hn]
    split
    · rfl
    · next hnk =>
      obtain ⟨w2, e2⟩ := hp j0 hj0 a ha e.pos add tie gauss an w
      have : leaf.stats.av.get? a = none := Dict.get?_eq_none.2 hnk
      simp only [XStats.predictX, this, reduceCtorEq, if_false, Except.ok.injEq, Prod.mk.injEq] at e2
      exact e2.1

/-- **C117**: two instances whose only visible value is infinity: the concept they form predicts `nan`, which no instance
had. -/
theorem C117_infinity_lost : ∃ st n, ReachX ieee XF.Valid Demo.hid (⟨1 / 2, id⟩ : Cfg3 ℕ ℕ) st
      [[(1, .num (.inf true))], [(1, .num (.inf true)), (100, .nom 3)]] n ∧ st.root.numConcepts = 1 ∧
    ∀ pos add tie gauss an w, ∃ w', XStats.predictX ieee.fl pos add tie gauss st.root.stats 1 .mostLikely an w =
      .ok (some (.num .nan), w') := by
  obtain ⟨st, -, n, -, h, h1, -⟩ := C115_third_infinity
  refine ⟨st, n, h, h1, ?_⟩
  rw [numConcepts_one] at h1
  obtain ⟨groups, hsum, hf⟩ := C117_leaf_predicts h (by simp)
  generalize st.root = t at h1 hf
  obtain ⟨id, s, cs⟩ := t
  rw [Tree.children_node] at h1
  subst h1
  rw [Tree.leaves_nil] at hf
  cases hf with
  | cons hP hnil =>
    cases hnil
    rename_i g
    obtain ⟨-, hp⟩ := hP
    simp only [List.map_cons, List.map_nil, List.sum_cons, List.sum_nil, add_zero] at hsum
    have hlen : g.length = 2 := by simpa using congrArg Multiset.card hsum
    have hmem : [(1, .num (.inf true))] ∈ g := by
      have : [(1, .num (.inf true))] ∈ (g : Multiset (XInst ℕ ℕ)) := by rw [hsum]; simp
      simpa using this
    intro pos add tie gauss an w
    obtain ⟨w', e⟩ := hp _ hmem 1 rfl pos add tie gauss an w
    refine ⟨w', ?_⟩
    rw [show (Tree.node id s []).stats = s from rfl] at e ⊢
    rw [e]
    simp [Dict.get?, recalled, hlen]

/-- The wild history of C99 meets the hypotheses: there is a tree for it. -/
example : ∃ st n, ReachX ieee XF.Valid Demo.hid (⟨1 / 2, id⟩ : Cfg3 ℕ ℕ) st Demo.wild n ∧ Demo.wild ≠ [] := by
  obtain ⟨st, n, h⟩ := reachX_exists (R := ieee) ⟨1 / 2, id⟩ Demo.wild Demo.wild_ok
  exact ⟨st, n, reachX_mono (fun x hx => XF.Moderate.valid hx) h, by simp [Demo.wild]⟩

end CF
