/-
`two_best_children` and `get_best_operation` on the store make the choices of Model/Cobweb.lean, with
addresses of children in place of positions.
-/
import Verif.Proofs.HeapScore

set_option linter.unusedSectionVars false

namespace CF
variable {I S K : Type} [Field K] [LinearOrder K]
variable {C : NodeClass I S} {ecg : Bool → S → Res K} {n : ℕ}

/-- A list entry with another name for the child. -/
def Cand.rename (f : ℕ → ℕ) (c : Cand K) : Cand K := { c with idx := f c.idx }

theorem Cand.rename_key (f : ℕ → ℕ) (c : Cand K) : (c.rename f).key = c.key := rfl

theorem sortCands_rename (f : ℕ → ℕ) (l : List (Cand K)) :
    sortCands (l.map (Cand.rename f)) = (sortCands l).map (Cand.rename f) := by
  unfold sortCands
  rw [List.map_insertionSort (fun a b : Cand K => b.key ≤ a.key) (fun a b : Cand K => b.key ≤ a.key)]
  intro a _ b _
  rfl

/-- The result of `two_best_children` with other names for the children. -/
def Best.rename (f : ℕ → ℕ) (b : Best K) : Best K := ⟨b.cu, f b.b1, b.b2.map f⟩

theorem pickBest_rename (f : ℕ → ℕ) (m len : ℕ) (const : K) (l : List (Cand K)) :
    pickBest m len const (l.map (Cand.rename f)) = (pickBest m len const l).map (Best.rename f) := by
  cases l with
  | nil => rfl
  | cons c l => cases l <;> rfl

theorem twoBest_eq (ecg : S → Res K) (s : S) (cs : List S) (i : I) (w : World) :
    twoBest C ecg s cs i w = if cs.length = 0 then .error .exc else
      (mkCands C ecg i w cs 0 >>= fun cands =>
        if ¬ (cands.map Cand.key).Nodup then .error .typeErr else
          relativeCuConst C ecg s cs i >>= fun const =>
            pickBest (C.count s) cs.length const (sortCands cands)) := by
  unfold twoBest
  split
  · rfl
  · congr 1

theorem res_map_bind {α β γ : Type} (x : Res α) (f : α → β) (g : β → Res γ) :
    (x.map f >>= g) = (x >>= fun a => g (f a)) := by cases x <;> rfl

theorem mkCandsH_does {as : List ℕ} {css : List S} {i : I} {w : World} {f : ℕ → ℕ} :
    ∀ {h : Heap S} {k : ℕ}, List.Forall₂ (At h) as css → (∀ a ∈ as, a < n) → n ≤ h.next →
      h.w.rnd = w.rnd → h.w.pos = w.pos + k → (∀ j (hj : j < as.length), f (k + j) = as[j]) →
      Does n (mkCandsH C ecg i as) h
        ((mkCands C (ecg true) i w css k).map (List.map (Cand.rename f))) as.length as.length := by
  induction as generalizing css with
  | nil =>
    intro h k hf _ _ _ _ _
    cases hf
    exact Does.pure _ _
  | cons a as ih =>
    intro h k hf hlt hn hr hp hfn
    cases hf with
    | cons ha hf =>
    rename_i s css
    unfold mkCandsH mkCands
    have han : a < n := hlt a (by simp)
    have e : ∀ (x : Res K) (g : K → Res (List (Cand K))) (F : List (Cand K) → List (Cand K)),
        (x >>= g).map F = (x >>= fun v => (g v).map F) := by
      intro x g F; cases x <;> rfl
    rw [e]
    refine (Does.bind (relativeCuForInsertH_does ha han hn i) (k' := as.length) (d' := as.length + 1)
      fun v h' hv _ hk hw => ?_).cast rfl (by simp; omega) (by simp)
    have ha' := ha.keep hk han
    obtain ⟨r, er, hrs, -⟩ := ha'
    refine Does.get er ?_
    have hd : h'.w.draw 0 = w.draw k := by
      rw [hw]; simp [World.draw, World.skip, World.bump, hr, hp]
    refine (Does.bind (g := fun x => ((mkCands C (ecg true) i w css (k + 1)).map
        (List.map (Cand.rename f))).map fun rest => ⟨v, C.count r.stats, x, a⟩ :: rest)
      (Does.random h') (k' := as.length) (d' := as.length) fun x h'' hx _ hk' hw' => ?_).cast ?_ (by omega)
      (by omega)
    · have := ih (h := h'') (css := css) (k := k + 1)
        (forall₂_imp_mem hf fun x y hx hxy => (hxy.keep hk (hlt x (by simp [hx]))).keep hk'
          (hlt x (by simp [hx])))
        (fun x hx => hlt x (by simp [hx])) (hn.trans (hk.next.trans hk'.next))
        (by rw [hw', hw]; simp [World.skip, World.bump, hr])
        (by rw [hw', hw]; simp [World.skip, World.bump, hp]; omega)
        (fun j hj => by
          have := hfn (j + 1) (by simpa using hj)
          rw [show k + 1 + j = k + (j + 1) by omega, this]; simp)
      refine (Does.bind (g := fun rest => .ok (⟨v, C.count r.stats, x, a⟩ :: rest)) this (k' := 0)
        (d' := 0) fun rest h3 _ _ _ _ => Does.pure _ _).cast ?_ rfl rfl
      cases (mkCands C (ecg true) i w css (k + 1)) <;> rfl
    · rw [hd, hrs]
      have hfa : f k = a := hfn 0 (by simp)
      show Except.map _ (Except.map _ _) = _
      cases (mkCands C (ecg true) i w css (k + 1)) with
      | error x => rfl
      | ok l =>
        show Except.ok _ = Except.ok _
        simp [Cand.rename, hfa]

/-- The address of the child at a position. -/
def addrAt (as : List ℕ) (k : ℕ) : ℕ := as.getD k 0

theorem addrAt_eq {as : List ℕ} {k b : ℕ} (h : as[k]? = some b) : addrAt as k = b := by
  simp [addrAt, h]

theorem twoBestH_does {h : Heap S} {a : ℕ} {s : S} {as : List ℕ} {css : List S}
    (ha : NodeAt n h a s as css) (i : I) :
    Does n (twoBestH C ecg a i) h
      ((twoBest C (ecg true) s css i h.w).map (Best.rename (addrAt as))) (as.length + 1) as.length := by
  obtain ⟨r, e, rfl, rfl, ht⟩ := ha.self
  have hlen := ha.kids.length_eq
  rw [twoBest_eq]
  unfold twoBestH
  refine Does.get e ?_
  by_cases h0 : r.children.length = 0
  · rw [if_pos h0, if_pos (hlen ▸ h0)]
    exact Does.raise _ _ _ _
  · rw [if_neg h0, if_neg (hlen ▸ h0)]
    have hm := mkCandsH_does (C := C) (ecg := ecg) (i := i) (w := h.w) (f := addrAt r.children) (k := 0)
      ha.kids ha.ltc ha.le rfl rfl (fun j hj => by rw [Nat.zero_add]; exact addrAt_eq (List.getElem?_eq_getElem hj))
    refine (Does.bind (g := fun cands => (if ¬ (cands.map Cand.key).Nodup then .error .typeErr else
          relativeCuConst C (ecg true) r.stats css i >>= fun const =>
            pickBest (C.count r.stats) css.length const (sortCands cands))) hm (k' := 1) (d' := 0)
      fun cands h' hc _ hk _ => ?_).cast ?_ rfl rfl
    · by_cases hd : (cands.map Cand.key).Nodup
      · rw [if_neg (not_not.2 hd), if_neg (not_not.2 hd)]
        refine (Does.bind (relativeCuConstH_does (ha.keep hk) i) (k' := 0) (d' := 0)
          fun const h'' _ _ hk' _ => ?_).cast rfl rfl rfl
        refine Does.get (((hk.trans hk').objs a ha.lt).trans e) ?_
        rw [hlen]
        exact Does.lift _ _
      · rw [if_pos hd, if_pos hd]
        exact Does.raise _ _ _ _
    · rw [res_map_bind]
      cases mkCands C (ecg true) i h.w css 0 with
      | error x => rfl
      | ok l =>
        show (if _ then _ else _) = Except.map _ (if _ then _ else _)
        have hkeys : (l.map (Cand.rename (addrAt r.children))).map Cand.key = l.map Cand.key := by
          rw [List.map_map]; rfl
        simp only [hkeys]
        by_cases hd : (l.map Cand.key).Nodup
        · rw [if_neg (not_not.2 hd), if_neg (not_not.2 hd), sortCands_rename]
          cases relativeCuConst C (ecg true) r.stats css i with
          | error x => rfl
          | ok const => exact pickBest_rename _ _ _ _ _
        · rw [if_pos hd, if_pos hd]; rfl

theorem addOpH_does {h : Heap S} {w : World} {off k : ℕ} {l : List (OpCand K)} {op : Op} {cu : HM S K}
    {r : Res K} (hc : Does n cu h r k 0) (hr : h.w.rnd = w.rnd)
    (hp : h.w.pos = w.pos + (off + l.length)) :
    Does n (addOpH l op cu) h (addOp w off l op r) k 1 := by
  unfold addOpH addOp
  refine (Does.bind (g := fun v => .ok (l ++ [⟨v, w.draw (off + l.length), op⟩])) hc (k' := 0) (d' := 1)
    fun v h' hv _ hk hw => ?_).cast ?_ rfl rfl
  · refine (Does.bind (g := fun x => .ok (l ++ [⟨v, x, op⟩])) (Does.random h') (k' := 0) (d' := 0)
      fun x h'' _ _ _ _ => Does.pure _ _).cast ?_ rfl rfl
    have : h'.w.draw 0 = w.draw (off + l.length) := by
      rw [hw]; simp [World.draw, World.skip, World.bump, hr, hp]
    rw [← this]; rfl
  · cases r <;> rfl

theorem length_addOp {w : World} {off : ℕ} {l l' : List (OpCand K)} {op : Op} {cu : Res K}
    (h : addOp w off l op cu = .ok l') : l'.length = l.length + 1 := by
  obtain ⟨x, -, rfl⟩ := (addOp_ok).1 h
  simp

/-- What the store looks like around a node whose children are `cs`. -/
structure Around (n : ℕ) (h : Heap S) (a : ℕ) (s : S) (as : List ℕ) (cs : List (Tree S)) : Prop where
  node : NodeAt n h a s as (cs.map Tree.stats)
  nodup : as.Nodup
  kid : ∀ (k : ℕ) (t : Tree S), cs[k]? = some t → ∃ b bs, as[k]? = some b ∧
    NodeAt n h b t.stats bs (t.children.map Tree.stats) ∧ b ∉ bs

theorem Around.keep {h h' : Heap S} (g : Keep n h h') {a : ℕ} {s : S} {as : List ℕ}
    {cs : List (Tree S)} (H : Around n h a s as cs) : Around n h' a s as cs :=
  ⟨H.node.keep g, H.nodup, fun k t hk => by
    obtain ⟨b, bs, h1, h2, h3⟩ := H.kid k t hk
    exact ⟨b, bs, h1, h2.keep g, h3⟩⟩

theorem NodeAt.at {h : Heap S} {a : ℕ} {s : S} {as : List ℕ} {css : List S}
    (H : NodeAt n h a s as css) : At h a s := by
  obtain ⟨r, e, h1, -, h2⟩ := H.self
  exact ⟨r, e, h1, h2⟩

theorem bestOpH_does {h : Heap S} {a : ℕ} {s : S} {as : List ℕ} {cs : List (Tree S)} {i : I}
    {w : World} {off : ℕ} {cu1 : K} {k : ℕ} {b2 : Option ℕ} {t1 : Tree S}
    (H : Around n h a s as cs) (hk : cs[k]? = some t1)
    (hb2 : ∀ j, b2 = some j → j < cs.length ∧ j ≠ k)
    (hr : h.w.rnd = w.rnd) (hp : h.w.pos = w.pos + off) :
    ∃ d, Does n (bestOpH C ecg allOps a i (addrAt as k) (b2.map (addrAt as)) cu1) h
      ((bestOp C (ecg true) allOps s cs i cu1 (some k) b2 w off).map fun r => (r.1, r.2.1))
      (tempIds cs.length t1.children.length b2.isSome - (cs.length + 1)) d ∧
      ∀ r, bestOp C (ecg true) allOps s cs i cu1 (some k) b2 w off = .ok r → r.2.2 = d := by
  obtain ⟨b, bs, hb, hbn, hbs⟩ := H.kid k t1 hk
  have hab : addrAt as k = b := addrAt_eq hb
  have hlen : as.length = cs.length := by have := H.node.kids.length_eq; simpa using this
  have hbl : bs.length = t1.children.length := by have := hbn.kids.length_eq; simpa using this
  rw [hab]
  obtain ⟨r, e, hrs, hrc, -⟩ := H.node.self
  obtain ⟨rb, eb, hrbs, hrbc, -⟩ := hbn.self
  unfold bestOpH bestOp
  simp only [hk]
  have m1 : Op.best ∈ allOps := by simp [allOps]
  have m2 : Op.new ∈ allOps := by simp [allOps]
  have m3 : Op.merge ∈ allOps := by simp [allOps]
  have m4 : Op.split ∈ allOps := by simp [allOps]
  -- the stages
  have s1 : Does n (opsBestH allOps cu1 []) h (.ok (opsBest allOps cu1 w off)) 0 1 := by
    unfold opsBestH opsBest
    rw [if_pos m1, if_pos m1]
    exact (addOpH_does (w := w) (off := off) (Does.pure cu1 h) hr (by simpa using hp)).cast rfl rfl rfl
  have l1 : (opsBest allOps cu1 w off).length = 1 := by unfold opsBest; rw [if_pos m1]; rfl
  have s2 : ∀ {h' : Heap S} {l : List (OpCand K)}, Keep n h h' → h'.w.rnd = w.rnd →
      h'.w.pos = w.pos + (off + l.length) →
      Does n (opsNewH C ecg allOps a i l) h'
        (opsNew C (ecg true) allOps s (cs.map Tree.stats) i w off l) (cs.length + 2) 1 := by
    intro h' l hK h1 h2
    unfold opsNewH opsNew
    rw [if_pos m2, if_pos m2]
    exact (addOpH_does (cuForNewChildH_does (H.node.keep hK) i) h1 h2).cast rfl (by rw [hlen]) rfl
  set km := if cs.length > 2 ∧ b2.isSome then 2 + (cs.length - 2) else 0 with hkm
  set dm := if cs.length > 2 ∧ b2.isSome then 1 else 0 with hdm
  have s3 : ∀ {h' : Heap S} {l : List (OpCand K)}, Keep n h h' → h'.w.rnd = w.rnd →
      h'.w.pos = w.pos + (off + l.length) →
      Does n (opsMergeH C ecg allOps a i b (b2.map (addrAt as)) l) h'
        (opsMerge C (ecg true) allOps s cs i k t1 b2 w off l) km dm := by
    intro h' l hK h1 h2
    unfold opsMergeH opsMerge
    refine Does.get ((hK.objs a H.node.lt).trans e) ?_
    cases b2 with
    | none => simp only [hkm, hdm, Option.map_none, Option.bind_none]; simpa using Does.pure l h'
    | some j =>
      obtain ⟨hj, hjk⟩ := hb2 j rfl
      have hj' : cs[j]? = some cs[j] := List.getElem?_eq_getElem hj
      obtain ⟨c, ks, hc, hcn, -⟩ := H.kid j _ hj'
      simp only [Option.map_some, Option.bind_some, hj', hrc, hlen, addrAt_eq hc]
      by_cases hl : cs.length > 2
      · rw [if_pos ⟨m3, hl⟩, if_pos ⟨m3, hl⟩]
        have hG := addOpH_does (op := .merge) (l := l) (w := w) (off := off)
          (cuForMergeH_does (C := C) (ecg := ecg) (H.node.keep hK) (hbn.keep hK).at
            (hcn.keep hK).at hb hc hjk H.nodup i) h1 h2
        exact hG.cast rfl (by simp [hkm, hl, hlen]) (by simp [hdm, hl])
      · rw [if_neg (fun h => hl h.2), if_neg (fun h => hl h.2)]
        have : km = 0 ∧ dm = 0 := by simp [hkm, hdm, hl]
        rw [this.1, this.2]
        exact Does.pure _ _
  have l3 : ∀ {l l' : List (OpCand K)}, opsMerge C (ecg true) allOps s cs i k t1 b2 w off l = .ok l' →
      l'.length = l.length + dm := by
    intro l l' hl'
    unfold opsMerge at hl'
    cases b2 with
    | none => simp at hl'; subst hl'; simp [hdm]
    | some j =>
      obtain ⟨hj, hjk⟩ := hb2 j rfl
      have hj' : cs[j]? = some cs[j] := List.getElem?_eq_getElem hj
      simp only [Option.bind_some, hj', Option.map_some] at hl'
      by_cases hl : cs.length > 2
      · rw [if_pos ⟨m3, hl⟩] at hl'
        rw [length_addOp hl']; simp [hdm, hl]
      · rw [if_neg (fun h => hl h.2)] at hl'
        cases hl'; simp [hdm, hl]
  set ks := if t1.children.length > 0 then 1 + (cs.length - 1 + t1.children.length) else 0 with hks
  set ds := if t1.children.length > 0 then 1 else 0 with hds
  have s4 : ∀ {h' : Heap S} {l : List (OpCand K)}, Keep n h h' → h'.w.rnd = w.rnd →
      h'.w.pos = w.pos + (off + l.length) →
      Does n (opsSplitH C ecg allOps a b l) h'
        (opsSplit C (ecg true) allOps s (cs.map Tree.stats) k t1 w off l) ks ds := by
    intro h' l hK h1 h2
    unfold opsSplitH opsSplit
    refine Does.get ((hK.objs b hbn.lt).trans eb) ?_
    rw [hrbc, hbl]
    by_cases hl : t1.children.length > 0
    · rw [if_pos ⟨m4, hl⟩, if_pos ⟨m4, hl⟩]
      exact (addOpH_does (cuForSplitH_does (H.node.keep hK) (hbn.keep hK) hb H.nodup hbs) h1 h2).cast
        rfl (by rw [hks, if_pos hl, hlen, hbl]) (by rw [hds, if_pos hl])
    · rw [if_neg (fun h => hl h.2), if_neg (fun h => hl h.2)]
      have : ks = 0 ∧ ds = 0 := by simp [hks, hds, hl]
      rw [this.1, this.2]
      exact Does.pure _ _
  have l4 : ∀ {l l' : List (OpCand K)},
      opsSplit C (ecg true) allOps s (cs.map Tree.stats) k t1 w off l = .ok l' →
      l'.length = l.length + ds := by
    intro l l' hl'
    unfold opsSplit at hl'
    by_cases hl : t1.children.length > 0
    · rw [if_pos ⟨m4, hl⟩] at hl'
      rw [length_addOp hl', hds, if_pos hl]
    · rw [if_neg (fun h => hl h.2)] at hl'
      cases hl'; rw [hds, if_neg hl]; rfl
  have l2 : ∀ {l l' : List (OpCand K)},
      opsNew C (ecg true) allOps s (cs.map Tree.stats) i w off l = .ok l' →
      l'.length = l.length + 1 := by
    intro l l' hl'
    unfold opsNew at hl'
    rw [if_pos m2] at hl'
    exact length_addOp hl'
  have hpos : ∀ {h' h'' : Heap S} {d k' m m' : ℕ}, h'.w.pos = w.pos + (off + m) →
      h''.w = (h'.w.skip d).bump k' → m' = m + d → h''.w.pos = w.pos + (off + m') := by
    intro h' h'' d k' m m' h1 h2 h3
    rw [h2]; simp [World.skip, World.bump, h1, h3]; omega
  have hrnd : ∀ {h' h'' : Heap S} {d k' : ℕ}, h'.w.rnd = w.rnd → h''.w = (h'.w.skip d).bump k' →
      h''.w.rnd = w.rnd := by
    intro h' h'' d k' h1 h2; rw [h2]; exact h1
  refine ⟨1 + (1 + (dm + (ds + 0))), ?_, ?_⟩
  · refine (Does.bind (g := fun l => opsNew C (ecg true) allOps s (cs.map Tree.stats) i w off l >>=
        fun l => opsMerge C (ecg true) allOps s cs i k t1 b2 w off l >>= fun l =>
          opsSplit C (ecg true) allOps s (cs.map Tree.stats) k t1 w off l >>= fun l =>
            pickOp (sortOps l)) (k' := (cs.length + 2) + (km + (ks + 0)))
      (d' := 1 + (dm + (ds + 0))) s1 fun v h1 hv1 _ k1 w1 => ?_).cast
      ?_ ?_ rfl
    · have r1 := hrnd hr w1
      have p1 : h1.w.pos = w.pos + (off + v.length) := hpos (m := 0) (by simpa using hp) w1
        (by cases hv1; rw [l1])
      refine Does.bind (s2 k1 r1 p1) fun v2 h2 hv2 _ k2 w2 => ?_
      have r2 := hrnd r1 w2
      have p2 := hpos p1 w2 (l2 hv2)
      refine Does.bind (s3 (k1.trans k2) r2 p2) fun v3 h3 hv3 _ k3 w3 => ?_
      have r3 := hrnd r2 w3
      have p3 := hpos p2 w3 (l3 hv3)
      exact Does.bind (s4 ((k1.trans k2).trans k3) r3 p3) fun v4 h4 hv4 _ _ _ => Does.lift _ _
    · show (opsNew C (ecg true) allOps s (cs.map Tree.stats) i w off _ >>= _) = _
      cases opsNew C (ecg true) allOps s (cs.map Tree.stats) i w off (opsBest allOps cu1 w off) with
      | error x => rfl
      | ok v2 =>
        show (opsMerge C (ecg true) allOps s cs i k t1 b2 w off v2 >>= _) =
          Except.map _ (opsMerge C (ecg true) allOps s cs i k t1 b2 w off v2 >>= _)
        cases opsMerge C (ecg true) allOps s cs i k t1 b2 w off v2 with
        | error x => rfl
        | ok v3 =>
          show (opsSplit C (ecg true) allOps s (cs.map Tree.stats) k t1 w off v3 >>= _) =
            Except.map _ (opsSplit C (ecg true) allOps s (cs.map Tree.stats) k t1 w off v3 >>= _)
          cases opsSplit C (ecg true) allOps s (cs.map Tree.stats) k t1 w off v3 with
          | error x => rfl
          | ok v4 =>
            show pickOp (sortOps v4) = Except.map _ _
            simp only [Bind.bind, Except.bind]
            cases sortOps v4 <;> rfl
    · unfold tempIds; omega
  · intro r hr'
    simp only [bind_ok] at hr'
    obtain ⟨v2, h2, v3, h3, v4, h4, h5⟩ := hr'
    have : v4.length = 1 + (1 + (dm + (ds + 0))) := by rw [l4 h4, l3 h3, l2 h2, l1]; omega
    split at h5
    · cases h5
    · rw [← pure_ok.1 h5]; exact this

/-- The choice at an internal node on the store is the choice of the tree model. -/
theorem chooseH_spec {h : Heap S} {a : ℕ} {s : S} {as : List ℕ} {cs : List (Tree S)} {i : I}
    (H : Around n h a s as cs) :
    match chooseOp C (ecg true) s cs i h.w with
    | .error e => ∃ h', Keep n h h' ∧ h.w.ctr ≤ h'.w.ctr ∧ ∀ {β : Type} (f : Best K → K × Op → HM S β),
        (twoBestH C ecg a i >>= fun b => bestOpH C ecg allOps a i b.b1 b.b2 b.cu >>= f b) h =
          (.error e, h')
    | .ok (b, op, w') => ∃ h' x, Keep n h h' ∧ h'.w = w' ∧ ∀ {β : Type} (f : Best K → K × Op → HM S β),
        (twoBestH C ecg a i >>= fun b => bestOpH C ecg allOps a i b.b1 b.b2 b.cu >>= f b) h =
          f (b.rename (addrAt as)) (x, op) h' := by
  have hlen : as.length = cs.length := by have := H.node.kids.length_eq; simpa using this
  obtain ⟨h1, e1, k1, c1, -, w1⟩ := twoBestH_does (C := C) (ecg := ecg) H.node i
  unfold chooseOp
  cases hb : twoBest C (ecg true) s (cs.map Tree.stats) i h.w with
  | error e =>
    rw [hb] at e1
    exact ⟨h1, k1, c1, fun f => HM.bind_err e1⟩
  | ok b =>
    rw [hb] at e1 w1
    have w1 := w1 _ rfl
    obtain ⟨hi1, hi2⟩ := twoBest_idx C (ecg true) hb
    rw [List.length_map] at hi1
    have hk : cs[b.b1]? = some cs[b.b1] := List.getElem?_eq_getElem hi1
    obtain ⟨d, ⟨h2, e2, k2, c2, -, w2⟩, hd⟩ := bestOpH_does (C := C) (ecg := ecg) (i := i) (cu1 := b.cu)
      (b2 := b.b2) (w := h.w) (off := cs.length) (H.keep k1) hk
      (fun j hj => by have := hi2 j hj; rwa [List.length_map] at this)
      (by rw [w1]; rfl) (by rw [w1, hlen]; rfl)
    simp only [ok_bind]
    cases hr : bestOp C (ecg true) allOps s cs i b.cu (some b.b1) b.b2 h.w cs.length with
    | error e =>
      rw [hr] at e2
      exact ⟨h2, k1.trans k2, c1.trans c2, fun f => (HM.bind_ok' e1).trans (HM.bind_err e2)⟩
    | ok r =>
      obtain ⟨cu, op, m⟩ := r
      rw [hr] at e2 w2
      refine ⟨h2, cu, k1.trans k2, ?_, fun f => (HM.bind_ok' e1).trans (HM.bind_ok' e2)⟩
      rw [w2 _ rfl, w1, World.skip_bump_add]
      have hm : m = d := hd _ hr
      simp only [hk]
      rw [hm, hlen]
      congr 1
      unfold tempIds
      omega

end CF
