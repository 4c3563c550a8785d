/-
Simulation: two node classes whose tables are related step by step drive the Cobweb algorithm in the
same way.  Used for every "the result does not depend on ..." property.
-/
import Verif.Proofs.NoRaise
import Verif.Spec.Runs
import Mathlib.Data.List.Forall2
import Mathlib.Algebra.Order.Hom.Ring

set_option linter.unusedSectionVars false

namespace CF

theorem RRel.bind {α β γ δ : Type} {P : α → β → Prop} {Q : γ → δ → Prop} {x : Res α} {y : Res β}
    {f : α → Res γ} {g : β → Res δ} (h : RRel P x y) (hf : ∀ a b, P a b → RRel Q (f a) (g b)) :
    RRel Q (x >>= f) (y >>= g) := by
  cases h with
  | ok h => exact hf _ _ h
  | error e => exact .error e

theorem RRel.of_eq {α : Type} {x : Res α} : RRel Eq x x := by
  cases x with
  | ok a => exact .ok rfl
  | error e => exact .error e

theorem RRel.of_map {α β : Type} {f : α → β} {x : Res α} {y : Res β} (h : y = x.map f) :
    RRel (fun a b => b = f a) x y := by
  subst h
  cases x with
  | ok a => exact .ok rfl
  | error e => exact .error e

theorem RRel.mono {α β : Type} {P Q : α → β → Prop} {x : Res α} {y : Res β} (h : RRel P x y)
    (hPQ : ∀ a b, P a b → Q a b) : RRel Q x y := by
  cases h with
  | ok h => exact .ok (hPQ _ _ h)
  | error e => exact .error e

theorem RRel.ok_left {α β : Type} {P : α → β → Prop} {a : α} {y : Res β} (h : RRel P (.ok a) y) :
    ∃ b, y = .ok b ∧ P a b := by
  cases h with
  | ok h => exact ⟨_, rfl, h⟩

theorem map_bind_eq {α β γ δ : Type} {φ : α → β} {ψ : γ → δ} {x : Res α} {y : Res β} {f : α → Res γ}
    {g : β → Res δ} (h : y = x.map φ) (hf : ∀ a, g (φ a) = (f a).map ψ) :
    (y >>= g) = (x >>= f).map ψ := by
  subst h
  cases x with
  | ok a => exact hf a
  | error e => rfl

section
variable {I I' S S' : Type}

variable {R : S → S' → Prop}

theorem TRelL.forall₂ {cs : List (Tree S)} {cs' : List (Tree S')} :
    TRelL R cs cs' ↔ List.Forall₂ (TRel R) cs cs' := by
  constructor
  · intro h
    induction cs generalizing cs' with
    | nil => cases h; exact .nil
    | cons c cs ih => cases h with | cons h1 h2 => exact .cons h1 (ih h2)
  · intro h
    induction h with
    | nil => exact .nil
    | cons h1 _ ih => exact .cons h1 ih

theorem TRel.stats {t : Tree S} {t' : Tree S'} (h : TRel R t t') : R t.stats t'.stats := by
  cases h; assumption

theorem TRel.id {t : Tree S} {t' : Tree S'} (h : TRel R t t') : t.id = t'.id := by
  cases h; rfl

theorem TRel.children {t : Tree S} {t' : Tree S'} (h : TRel R t t') :
    List.Forall₂ (TRel R) t.children t'.children := by
  cases h with | node _ h => exact TRelL.forall₂.1 h

mutual
theorem TRel.mono {Q : S → S' → Prop} (hRQ : ∀ s s', R s s' → Q s s') :
    ∀ {t : Tree S} {t' : Tree S'}, TRel R t t' → TRel Q t t'
  | _, _, .node h hs => .node (hRQ _ _ h) (TRelL.mono hRQ hs)
theorem TRelL.mono {Q : S → S' → Prop} (hRQ : ∀ s s', R s s' → Q s s') :
    ∀ {t : List (Tree S)} {t' : List (Tree S')}, TRelL R t t' → TRelL Q t t'
  | _, _, .nil => .nil
  | _, _, .cons h hs => .cons (TRel.mono hRQ h) (TRelL.mono hRQ hs)
end

mutual
theorem TRel.numConcepts : ∀ {t : Tree S} {t' : Tree S'}, TRel R t t' →
    t.numConcepts = t'.numConcepts
  | _, _, .node _ hs => by simp only [Tree.numConcepts]; rw [TRelL.numConcepts hs]
theorem TRelL.numConcepts : ∀ {t : List (Tree S)} {t' : List (Tree S')}, TRelL R t t' →
    Tree.numConceptsL t = Tree.numConceptsL t'
  | _, _, .nil => rfl
  | _, _, .cons h hs => by simp only [Tree.numConceptsL]; rw [TRel.numConcepts h, TRelL.numConcepts hs]
end

mutual
theorem TRel.nodes : ∀ {t : Tree S} {t' : Tree S'}, TRel R t t' →
    List.Forall₂ (TRel R) t.nodes t'.nodes
  | _, _, .node h hs => by simp only [Tree.nodes]; exact .cons (.node h hs) (TRelL.nodes hs)
theorem TRelL.nodes : ∀ {t : List (Tree S)} {t' : List (Tree S')}, TRelL R t t' →
    List.Forall₂ (TRel R) (Tree.nodesL t) (Tree.nodesL t')
  | _, _, .nil => .nil
  | _, _, .cons h hs => by
    simp only [Tree.nodesL]; exact List.rel_append (TRel.nodes h) (TRelL.nodes hs)
end

theorem stats_forall₂ {cs : List (Tree S)} {cs' : List (Tree S')} (h : List.Forall₂ (TRel R) cs cs') :
    List.Forall₂ R (cs.map Tree.stats) (cs'.map Tree.stats) := by
  rw [List.forall₂_map_left_iff, List.forall₂_map_right_iff]
  exact h.imp fun _ _ h => h.stats

theorem forall₂_eraseIdx {α β : Type} {P : α → β → Prop} {l : List α} {l' : List β}
    (h : List.Forall₂ P l l') (i : ℕ) : List.Forall₂ P (l.eraseIdx i) (l'.eraseIdx i) := by
  induction h generalizing i with
  | nil => exact .nil
  | cons h hs ih =>
    cases i with
    | zero => exact hs
    | succ i => exact .cons h (ih i)

theorem forall₂_getElem? {α β : Type} {P : α → β → Prop} {l : List α} {l' : List β}
    (h : List.Forall₂ P l l') (i : ℕ) :
    (l[i]? = none ∧ l'[i]? = none) ∨ ∃ a b, l[i]? = some a ∧ l'[i]? = some b ∧ P a b := by
  induction h generalizing i with
  | nil => left; simp
  | cons h hs ih =>
    cases i with
    | zero => right; exact ⟨_, _, rfl, rfl, h⟩
    | succ i => simpa using ih i

theorem forall₂_set {α β : Type} {P : α → β → Prop} {l : List α} {l' : List β}
    (h : List.Forall₂ P l l') (i : ℕ) {a : α} {b : β} (hab : P a b) :
    List.Forall₂ P (l.set i a) (l'.set i b) := by
  induction h generalizing i with
  | nil => exact .nil
  | cons h hs ih =>
    cases i with
    | zero => exact .cons hab hs
    | succ i => exact .cons h (ih i)

theorem forall₂_dropTwo {α β : Type} {P : α → β → Prop} {l : List α} {l' : List β}
    (h : List.Forall₂ P l l') (i j : ℕ) : List.Forall₂ P (dropTwo l i j) (dropTwo l' i j) := by
  have h1 : ∀ k, List.Forall₂ (fun p q => P p.1 q.1 ∧ p.2 = q.2) (l.zipIdx k) (l'.zipIdx k) := by
    induction h with
    | nil => intro k; exact .nil
    | cons h _ ih => intro k; exact .cons ⟨h, rfl⟩ (ih (k + 1))
  unfold dropTwo
  rw [List.forall₂_map_left_iff, List.forall₂_map_right_iff]
  have h2 : List.Forall₂ (fun (p : α × ℕ) (q : β × ℕ) => P p.1 q.1 ∧ p.2 = q.2)
      (l.zipIdx.filter fun p => p.2 ≠ i ∧ p.2 ≠ j) (l'.zipIdx.filter fun p => p.2 ≠ i ∧ p.2 ≠ j) := by
    refine List.rel_filter ?_ (h1 0)
    rintro ⟨a, m⟩ ⟨b, n⟩ ⟨-, rfl⟩
    simp
  exact h2.imp fun _ _ h => h.1

/-- Tables stay related under every operation of the two node classes. -/
structure Sim (C : NodeClass I S) (C' : NodeClass I' S') (RI : I → I' → Prop) (R : S → S' → Prop) :
    Prop where
  fresh : R C.fresh C'.fresh
  incr {s s' i i'} : R s s' → RI i i' → R (C.incr s i) (C'.incr s' i')
  add {s s' u u'} : R s s' → R u u' → R (C.addFrom s u) (C'.addFrom s' u')
  count {s s'} : R s s' → C.count s = C'.count s'
  exact {s s' i i'} : R s s' → RI i i' → C.count s ≠ 0 → C.isExact s i = C'.isExact s' i'

variable {C : NodeClass I S} {C' : NodeClass I' S'} {RI : I → I' → Prop}
variable {K K' : Type} [Field K] [LinearOrder K] [Field K'] [LinearOrder K']

theorem Sim.copy (H : Sim C C' RI R) {s : S} {s' : S'} (h : R s s') :
    R (shallowCopy C s) (shallowCopy C' s') := H.add H.fresh h

theorem Sim.copies (H : Sim C C' RI R) {cs : List S} {cs' : List S'} (h : List.Forall₂ R cs cs') :
    List.Forall₂ R (cs.map (shallowCopy C)) (cs'.map (shallowCopy C')) := by
  rw [List.forall₂_map_left_iff, List.forall₂_map_right_iff]
  exact h.imp fun _ _ h => H.copy h

theorem pyDiv_map (φ : K →+* K') (a b : K) : pyDiv (φ a) (φ b) = (pyDiv a b).map φ := by
  unfold pyDiv
  by_cases hb : b = 0
  · simp [hb, Except.map]
  · rw [if_neg hb, if_neg (by simpa using hb)]
    simp [Except.map]

variable {φ : K →+* K'} {ecg : S → Res K} {ecg' : S' → Res K'}

/-- The scores agree, up to the embedding `φ` of the numbers. -/
def SameScores (φ : K →+* K') (R : S → S' → Prop) (ecg : S → Res K) (ecg' : S' → Res K') : Prop :=
  ∀ s s', R s s' → ecg' s' = (ecg s).map φ

theorem cuSum_sim (H : Sim C C' RI R) (hE : SameScores φ R ecg ecg') {n : ℕ} {cs : List S}
    {cs' : List S'} (h : List.Forall₂ R cs cs') (acc : K) :
    cuSum C' ecg' n cs' (φ acc) = (cuSum C ecg n cs acc).map φ := by
  induction h generalizing acc with
  | nil => rfl
  | cons h _ ih =>
    unfold cuSum
    rw [← H.count h]
    refine map_bind_eq (φ := φ) (by rw [← pyDiv_map, map_natCast, map_natCast]) fun p => ?_
    refine map_bind_eq (hE _ _ h) fun e => ?_
    rw [← ih, map_add, map_mul]

theorem categoryUtility_sim (H : Sim C C' RI R) (hE : SameScores φ R ecg ecg') {s : S} {s' : S'}
    (hs : R s s') {cs : List S} {cs' : List S'} (h : List.Forall₂ R cs cs') :
    categoryUtility C' ecg' s' cs' = (categoryUtility C ecg s cs).map φ := by
  cases h with
  | nil => simp [categoryUtility, Except.map]
  | cons h1 h2 =>
    have h3 := cuSum_sim H hE (List.Forall₂.cons h1 h2) (n := C.count s) 0
    have h4 := (List.Forall₂.cons h1 h2).length_eq
    unfold categoryUtility
    dsimp only
    rw [← H.count hs, ← h4]
    rw [map_zero] at h3
    refine map_bind_eq h3 fun g => ?_
    refine map_bind_eq (hE _ _ hs) fun e => ?_
    rw [← pyDiv_map, map_sub, map_natCast]

theorem cuForNewChild_sim (H : Sim C C' RI R) (hE : SameScores φ R ecg ecg') {s : S} {s' : S'}
    (hs : R s s') {cs : List S} {cs' : List S'} (h : List.Forall₂ R cs cs') {i : I} {i' : I'}
    (hi : RI i i') :
    cuForNewChild C' ecg' s' cs' i' = (cuForNewChild C ecg s cs i).map φ :=
  categoryUtility_sim H hE (H.incr (H.copy hs) hi)
    (List.rel_append (H.copies h) (.cons (H.incr H.fresh hi) .nil))

theorem cuForMerge_sim (H : Sim C C' RI R) (hE : SameScores φ R ecg ecg') {s : S} {s' : S'}
    (hs : R s s') {cs : List S} {cs' : List S'} (h : List.Forall₂ R cs cs') {i : I} {i' : I'}
    (hi : RI i i') (k l : ℕ) {b1 b2 : S} {b1' b2' : S'} (h1 : R b1 b1') (h2 : R b2 b2') :
    cuForMerge C' ecg' s' cs' k l b1' b2' i' = (cuForMerge C ecg s cs k l b1 b2 i).map φ :=
  categoryUtility_sim H hE (H.incr (H.copy hs) hi)
    (.cons (H.incr (H.add (H.add H.fresh h1) h2) hi) (H.copies (forall₂_dropTwo h k l)))

theorem cuForSplit_sim (H : Sim C C' RI R) (hE : SameScores φ R ecg ecg') {s : S} {s' : S'}
    (hs : R s s') {cs : List S} {cs' : List S'} (h : List.Forall₂ R cs cs') (k : ℕ)
    {bs : List S} {bs' : List S'} (hb : List.Forall₂ R bs bs') :
    cuForSplit C' ecg' s' cs' k bs' = (cuForSplit C ecg s cs k bs).map φ :=
  categoryUtility_sim H hE (H.copy hs) (H.copies (List.rel_append (forall₂_eraseIdx h k) hb))

theorem relativeCuForInsert_sim (H : Sim C C' RI R) (hE : SameScores φ R ecg ecg') {c : S} {c' : S'}
    (h : R c c') {i : I} {i' : I'} (hi : RI i i') :
    relativeCuForInsert C' ecg' c' i' = (relativeCuForInsert C ecg c i).map φ := by
  unfold relativeCuForInsert
  rw [← H.count h]
  refine map_bind_eq (hE _ _ (H.incr (H.copy h) hi)) fun e1 => ?_
  refine map_bind_eq (hE _ _ h) fun e0 => ?_
  simp [Except.map, Pure.pure, Except.pure]

theorem constSum_sim (H : Sim C C' RI R) (hE : SameScores φ R ecg ecg') {n : ℕ} {cs : List S}
    {cs' : List S'} (h : List.Forall₂ R cs cs') (acc : K) :
    constSum C' ecg' n cs' (φ acc) = (constSum C ecg n cs acc).map φ := by
  induction h generalizing acc with
  | nil => rfl
  | cons h _ ih =>
    unfold constSum
    rw [← H.count h]
    refine map_bind_eq (hE _ _ h) fun e => ?_
    rw [← ih]
    simp

theorem relativeCuConst_sim (H : Sim C C' RI R) (hE : SameScores φ R ecg ecg') {s : S} {s' : S'}
    (hs : R s s') {cs : List S} {cs' : List S'} (h : List.Forall₂ R cs cs') {i : I} {i' : I'}
    (hi : RI i i') :
    relativeCuConst C' ecg' s' cs' i' = (relativeCuConst C ecg s cs i).map φ := by
  unfold relativeCuConst
  rw [← H.count hs, ← h.length_eq]
  refine map_bind_eq (hE _ _ (H.incr (H.copy hs) hi)) fun u => ?_
  refine map_bind_eq (φ := φ) (by rw [← constSum_sim H hE h, map_zero]) fun c => ?_
  rw [← pyDiv_map, map_sub, map_natCast]

/-- A candidate with its score embedded. -/
def Cand.map (φ : K → K') (c : Cand K) : Cand K' := ⟨φ c.rel, c.size, c.rnd, c.idx⟩

theorem mkCands_sim (H : Sim C C' RI R) (hE : SameScores φ R ecg ecg') {cs : List S}
    {cs' : List S'} (h : List.Forall₂ R cs cs') {i : I} {i' : I'} (hi : RI i i') (w : World) (k : ℕ) :
    mkCands C' ecg' i' w cs' k = (mkCands C ecg i w cs k).map (List.map (Cand.map φ)) := by
  induction h generalizing k with
  | nil => rfl
  | cons h _ ih =>
    unfold mkCands
    refine map_bind_eq (relativeCuForInsert_sim H hE h hi) fun r => ?_
    refine map_bind_eq (ih (k + 1)) fun rest => ?_
    simp [Except.map, Pure.pure, Except.pure, Cand.map, H.count h]

theorem candKey_lt (hφ : StrictMono φ) (a b : Cand K) : (a.map φ).key ≤ (b.map φ).key ↔ a.key ≤ b.key := by
  simp only [Cand.key, Cand.map, Prod.Lex.toLex_le_toLex, hφ.lt_iff_lt, hφ.injective.eq_iff]

theorem candKey_inj (hφ : StrictMono φ) (a b : Cand K) : (a.map φ).key = (b.map φ).key ↔ a.key = b.key := by
  simp only [Cand.key, Cand.map, EmbeddingLike.apply_eq_iff_eq, Prod.mk.injEq, hφ.injective.eq_iff]

theorem sortCands_map (hφ : StrictMono φ) (l : List (Cand K)) :
    sortCands (l.map (Cand.map φ)) = (sortCands l).map (Cand.map φ) := by
  unfold sortCands
  refine (List.map_insertionSort (fun a b : Cand K => b.key ≤ a.key)
    (fun a b : Cand K' => b.key ≤ a.key) (Cand.map φ) l ?_).symm
  intro a _ b _
  exact (candKey_lt hφ b a).symm

theorem nodup_keys_map (hφ : StrictMono φ) (l : List (Cand K)) :
    ((l.map (Cand.map φ)).map Cand.key).Nodup ↔ (l.map Cand.key).Nodup := by
  unfold List.Nodup
  simp only [List.pairwise_map, ne_eq, candKey_inj hφ]

def Best.map (φ : K → K') (b : Best K) : Best K' := ⟨φ b.cu, b.b1, b.b2⟩

theorem twoBest_sim (hφ : StrictMono φ) (H : Sim C C' RI R) (hE : SameScores φ R ecg ecg')
    {s : S} {s' : S'} (hs : R s s') {cs : List S} {cs' : List S'} (h : List.Forall₂ R cs cs')
    {i : I} {i' : I'} (hi : RI i i') (w : World) :
    twoBest C' ecg' s' cs' i' w = (twoBest C ecg s cs i w).map (Best.map φ) := by
  unfold twoBest
  rw [← h.length_eq]
  split
  · rfl
  refine map_bind_eq (mkCands_sim H hE h hi w 0) fun cands => ?_
  simp only [nodup_keys_map hφ]
  split
  · rfl
  refine map_bind_eq (relativeCuConst_sim H hE hs h hi) fun c => ?_
  rw [sortCands_map hφ]
  cases sortCands cands with
  | nil => rfl
  | cons c1 rest =>
    simp only [List.map_cons, Except.map, Pure.pure, Except.pure, Best.map, Cand.map, H.count hs]
    congr 1
    simp only [Best.mk.injEq, true_and]
    refine ⟨by simp, ?_⟩
    cases rest <;> rfl

def OpCand.map (φ : K → K') (c : OpCand K) : OpCand K' := ⟨φ c.cu, c.rnd, c.op⟩

theorem sortOps_map (hφ : StrictMono φ) (l : List (OpCand K)) :
    sortOps (l.map (OpCand.map φ)) = (sortOps l).map (OpCand.map φ) := by
  unfold sortOps
  refine (List.map_insertionSort (fun a b : OpCand K => b.key ≤ a.key)
    (fun a b : OpCand K' => b.key ≤ a.key) (OpCand.map φ) l ?_).symm
  intro a _ b _
  simp only [OpCand.key, OpCand.map, Prod.Lex.toLex_le_toLex, hφ.lt_iff_lt, hφ.injective.eq_iff]

theorem addOp_sim (w : World) (off : ℕ) (l : List (OpCand K)) (op : Op) {x : Res K} {y : Res K'}
    (h : y = x.map φ) :
    addOp w off (l.map (OpCand.map φ)) op y = (addOp w off l op x).map (List.map (OpCand.map φ)) := by
  subst h
  cases x with
  | error e => rfl
  | ok a => simp [addOp, Except.map, OpCand.map]

theorem bestOp_sim (hφ : StrictMono φ) (H : Sim C C' RI R) (hE : SameScores φ R ecg ecg')
    (ops : List Op)
    {s : S} {s' : S'} (hs : R s s') {cs : List (Tree S)} {cs' : List (Tree S')}
    (h : List.Forall₂ (TRel R) cs cs') {i : I} {i' : I'} (hi : RI i i') (cu1 : K) (b1 b2 : Option ℕ)
    (w : World) (off : ℕ) :
    bestOp C' ecg' ops s' cs' i' (φ cu1) b1 b2 w off =
      (bestOp C ecg ops s cs i cu1 b1 b2 w off).map (fun r => (φ r.1, r.2.1, r.2.2)) := by
  unfold bestOp
  cases b1 with
  | none => rfl
  | some k =>
    dsimp only
    rcases forall₂_getElem? h k with ⟨h1, h2⟩ | ⟨t1, t1', h1, h2, ht1⟩
    · rw [h1, h2]; rfl
    rw [h1, h2]
    dsimp only
    have hst := stats_forall₂ h
    refine map_bind_eq (φ := List.map (OpCand.map φ)) ?_ fun l1 => ?_
    · unfold opsNew
      have e : opsBest ops (φ cu1) w off = (opsBest ops cu1 w off).map (OpCand.map φ) := by
        unfold opsBest; split <;> rfl
      rw [e]
      split
      · exact addOp_sim _ _ _ _ (cuForNewChild_sim H hE hs hst hi)
      · rfl
    refine map_bind_eq (φ := List.map (OpCand.map φ)) ?_ fun l2 => ?_
    · unfold opsMerge
      cases b2 with
      | none => rfl
      | some l =>
        simp only [Option.bind_some]
        rcases forall₂_getElem? h l with ⟨h3, h4⟩ | ⟨t2, t2', h3, h4, ht2⟩
        · rw [h3, h4]; rfl
        rw [h3, h4]
        simp only [Option.map_some]
        rw [← h.length_eq]
        split
        · exact addOp_sim _ _ _ _ (cuForMerge_sim H hE hs hst hi _ _ ht1.stats ht2.stats)
        · rfl
    refine map_bind_eq (φ := List.map (OpCand.map φ)) ?_ fun l3 => ?_
    · unfold opsSplit
      rw [← ht1.children.length_eq]
      split
      · exact addOp_sim _ _ _ _ (cuForSplit_sim H hE hs hst _ (stats_forall₂ ht1.children))
      · rfl
    rw [sortOps_map hφ]
    cases sortOps l3 with
    | nil => rfl
    | cons c r => simp [Except.map, Pure.pure, Except.pure, OpCand.map]

theorem chooseOp_sim (hφ : StrictMono φ) (H : Sim C C' RI R) (hE : SameScores φ R ecg ecg')
    {s : S} {s' : S'} (hs : R s s') {cs : List (Tree S)} {cs' : List (Tree S')}
    (h : List.Forall₂ (TRel R) cs cs') {i : I} {i' : I'} (hi : RI i i') (w : World) :
    chooseOp C' ecg' s' cs' i' w =
      (chooseOp C ecg s cs i w).map (fun r => (r.1.map φ, r.2.1, r.2.2)) := by
  unfold chooseOp
  refine map_bind_eq (twoBest_sim hφ H hE hs (stats_forall₂ h) hi w) fun b => ?_
  rw [← h.length_eq]
  refine map_bind_eq (bestOp_sim hφ H hE allOps hs h hi b.cu (some b.b1) b.b2 w cs.length)
    fun r => ?_
  obtain ⟨x, op, n⟩ := r
  simp only [Except.map, Pure.pure, Except.pure, Best.map]
  rcases forall₂_getElem? h b.b1 with ⟨h1, h2⟩ | ⟨t1, t1', h1, h2, ht1⟩
  · rw [h1, h2]
  · rw [h1, h2]
    dsimp only
    rw [ht1.children.length_eq]

/-- Related results of the loop. -/
structure ORel (R : S → S' → Prop) (o : Out S) (o' : Out S') : Prop where
  tree : TRel R o.tree o'.tree
  leaf : o.leaf = o'.leaf
  moved : o.moved = o'.moved
  w : o.w = o'.w

theorem putChild_sim {cs : List (Tree S)} {cs' : List (Tree S')}
    (h : List.Forall₂ (TRel R) cs cs') (k : ℕ) {o : Out S} {o' : Out S'} (ho : ORel R o o') :
    List.Forall₂ (TRel R) (putChild cs k o) (putChild cs' k o') := by
  unfold putChild
  rw [← ho.moved]
  split
  · exact List.rel_append (forall₂_eraseIdx h k) (.cons ho.tree .nil)
  · exact forall₂_set h k ho.tree

theorem cobwebLoop_sim (hφ : StrictMono φ) (H : Sim C C' RI R) (hE : SameScores φ R ecg ecg')
    {i : I} {i' : I'} (hi : RI i i') :
    ∀ (fuel : ℕ) {t : Tree S} {t' : Tree S'} (_ : TRel R t t') (w : World),
      RRel (ORel R) (cobwebLoop C ecg i fuel t w) (cobwebLoop C' ecg' i' fuel t' w) := by
  intro fuel
  induction fuel with
  | zero => intro t t' _ w; exact .error _
  | succ fuel ih =>
    intro t t' ht w
    cases ht with
    | @node id s s' cs cs' hs hcs =>
    cases hcs with
    | nil =>
      unfold cobwebLoop
      have hex : (C'.isExact s' i' || C'.count s' == 0) = (C.isExact s i || C.count s == 0) := by
        rw [← H.count hs]
        by_cases h0 : C.count s = 0
        · simp [h0]
        · rw [H.exact hs hi h0]
      rw [hex]
      split
      · exact .ok ⟨.node (H.incr hs hi) .nil, rfl, rfl, rfl⟩
      · exact .ok ⟨.node (H.incr (H.copy hs) hi)
          (.cons (.node hs .nil) (.cons (.node (H.incr H.fresh hi) .nil) .nil)), rfl, rfl, rfl⟩
    | @cons c c' cs cs' hc hcs =>
      have h2 : List.Forall₂ (TRel R) (c :: cs) (c' :: cs') := .cons hc (TRelL.forall₂.1 hcs)
      unfold cobwebLoop
      dsimp only
      refine RRel.bind (RRel.of_map (chooseOp_sim hφ H hE hs h2 hi w)) ?_
      rintro ⟨b, op, w1⟩ _ rfl
      dsimp only
      cases op with
      | best =>
        dsimp only [Best.map]
        rcases forall₂_getElem? h2 b.b1 with ⟨h3, h4⟩ | ⟨t1, t1', h3, h4, ht1⟩
        · rw [h3, h4]; exact .error _
        rw [h3, h4]
        dsimp only
        refine RRel.bind (ih ht1 w1) fun o o' ho => .ok ⟨.node (H.incr hs hi)
          (TRelL.forall₂.2 (putChild_sim h2 b.b1 ho)), ho.leaf, rfl, ho.w⟩
      | new =>
        exact .ok ⟨.node (H.incr hs hi) (TRelL.forall₂.2
          (List.rel_append h2 (.cons (.node (H.incr H.fresh hi) .nil) .nil))), rfl, rfl, rfl⟩
      | merge =>
        dsimp only [Best.map]
        cases b.b2 with
        | none => exact .error _
        | some j =>
          dsimp only
          rcases forall₂_getElem? h2 b.b1 with ⟨h3, h4⟩ | ⟨t1, t1', h3, h4, ht1⟩
          · rw [h3, h4]; exact .error _
          rcases forall₂_getElem? h2 j with ⟨h5, h6⟩ | ⟨t2, t2', h5, h6, ht2⟩
          · rw [h3, h4, h5, h6]; exact .error _
          rw [h3, h4, h5, h6]
          dsimp only
          refine RRel.bind (ih (.node (H.add (H.add H.fresh ht1.stats) ht2.stats)
            (.cons ht1 (.cons ht2 .nil))) _) fun o o' ho => .ok ⟨.node (H.incr hs hi)
            (TRelL.forall₂.2 (List.rel_append (forall₂_dropTwo h2 _ _) (.cons ho.tree .nil))),
            ho.leaf, rfl, ho.w⟩
      | split =>
        dsimp only [Best.map]
        rcases forall₂_getElem? h2 b.b1 with ⟨h3, h4⟩ | ⟨t1, t1', h3, h4, ht1⟩
        · rw [h3, h4]; exact .error _
        rw [h3, h4]
        dsimp only
        exact ih (.node hs (TRelL.forall₂.2
          (List.rel_append (forall₂_eraseIdx h2 _) ht1.children))) w1

/-- The two classes do the same on related instances. -/
theorem cobweb_sim (hφ : StrictMono φ) (H : Sim C C' RI R) (hE : SameScores φ R ecg ecg')
    {i : I} {i' : I'} (hi : RI i i') {t : Tree S} {t' : Tree S'} (ht : TRel R t t') (w : World) :
    RRel (ORel R) (cobweb C ecg t i w) (cobweb C' ecg' t' i' w) := by
  unfold cobweb
  rw [← ht.numConcepts]
  exact cobwebLoop_sim hφ H hE hi _ ht w

theorem categorizeLoop_sim (hφ : StrictMono φ) (H : Sim C C' RI R) (hE : SameScores φ R ecg ecg')
    {i : I} {i' : I'} (hi : RI i i') :
    ∀ (fuel : ℕ) {t : Tree S} {t' : Tree S'} (_ : TRel R t t') (w : World),
      RRel (fun r r' => TRel R r.1 r'.1 ∧ r.2 = r'.2) (categorizeLoop C ecg i fuel t w)
        (categorizeLoop C' ecg' i' fuel t' w) := by
  intro fuel
  induction fuel with
  | zero => intro t t' _ w; exact .error _
  | succ fuel ih =>
    intro t t' ht w
    cases ht with
    | @node id s s' cs cs' hs hcs =>
    cases hcs with
    | nil => exact .ok ⟨.node hs .nil, rfl⟩
    | @cons c c' cs cs' hc hcs =>
      have h2 : List.Forall₂ (TRel R) (c :: cs) (c' :: cs') := .cons hc (TRelL.forall₂.1 hcs)
      unfold categorizeLoop
      dsimp only
      refine RRel.bind (RRel.of_map (twoBest_sim hφ H hE hs (stats_forall₂ h2) hi w)) ?_
      rintro b _ rfl
      dsimp only [Best.map]
      rcases forall₂_getElem? h2 b.b1 with ⟨h3, h4⟩ | ⟨t1, t1', h3, h4, ht1⟩
      · rw [h3, h4]; exact .error _
      rw [h3, h4]
      dsimp only
      rw [← h2.length_eq]
      exact ih ht1 _

theorem categorize_sim (hφ : StrictMono φ) (H : Sim C C' RI R) (hE : SameScores φ R ecg ecg')
    {i : I} {i' : I'} (hi : RI i i') {t : Tree S} {t' : Tree S'} (ht : TRel R t t') (w : World) :
    RRel (fun r r' => TRel R r.1 r'.1 ∧ r.2 = r'.2) (categorize C ecg t i w)
      (categorize C' ecg' t' i' w) := by
  unfold categorize
  rw [← ht.numConcepts]
  exact categorizeLoop_sim hφ H hE hi _ ht w

theorem emptyTree_sim (H : Sim C C' RI R) (w : World) : TRel R (emptyTree C w) (emptyTree C' w) :=
  .node H.fresh .nil

/-- The two classes do the same on related histories. -/
theorem fitList_sim (hφ : StrictMono φ) (H : Sim C C' RI R) (hE : SameScores φ R ecg ecg')
    {l : List I} {l' : List I'} (hl : List.Forall₂ RI l l') {t : Tree S} {t' : Tree S'}
    (ht : TRel R t t') (w : World) :
    RRel (fun r r' => TRel R r.1 r'.1 ∧ r.2 = r'.2) (fitList C ecg l t w) (fitList C' ecg' l' t' w) := by
  induction hl generalizing t t' w with
  | nil => exact .ok ⟨ht, rfl⟩
  | cons hi _ ih =>
    unfold fitList
    refine RRel.bind (cobweb_sim hφ H hE hi ht w) fun o o' ho => ?_
    rw [← ho.w]
    exact ih ho.tree o.w

/-- The two classes do the same on related sequences of calls. -/
theorem runs_sim (hφ : StrictMono φ) (H : Sim C C' RI R) (hE : SameScores φ R ecg ecg')
    {l : List (I × World)} {l' : List (I' × World)}
    (hl : List.Forall₂ (fun p q => RI p.1 q.1 ∧ p.2 = q.2) l l') {t : Tree S} {t' : Tree S'}
    (ht : TRel R t t') :
    RRel (fun r r' => TRel R r.1 r'.1 ∧ r.2 = r'.2) (runs C ecg t l) (runs C' ecg' t' l') := by
  induction hl generalizing t t' with
  | nil => exact .ok ⟨ht, rfl⟩
  | @cons p q _ _ hi _ ih =>
    obtain ⟨i, w⟩ := p
    obtain ⟨i', w'⟩ := q
    obtain ⟨hi, rfl⟩ := hi
    unfold runs
    refine RRel.bind (cobweb_sim hφ H hE hi ht _) fun o o' ho => ?_
    refine RRel.bind (ih ho.tree) fun r r' hr => ?_
    exact .ok ⟨hr.1, by rw [ho.leaf, ho.w, hr.2]⟩

/-! ### From summaries to simulations -/

/-- The tables summarise corresponding instances. -/
def Paired (RI : I → I' → Prop) (Sum : S → Multiset I → Prop) (Sum' : S' → Multiset I' → Prop)
    (s : S) (s' : S') : Prop :=
  ∃ l : Multiset (I × I'), (∀ p ∈ l, RI p.1 p.2) ∧ Sum s (l.map Prod.fst) ∧ Sum' s' (l.map Prod.snd)

theorem sim_of_laws {Ok : I → Prop} {Ok' : I' → Prop} {Sum : S → Multiset I → Prop}
    {Sum' : S' → Multiset I' → Prop} {Same : I → I → Prop} {Same' : I' → I' → Prop}
    (L : Laws C Ok Sum Same) (L' : Laws C' Ok' Sum' Same')
    (hok : ∀ i i', RI i i' → Ok i ∧ Ok' i')
    (hsame : ∀ i i' j j', RI i i' → RI j j' → (Same i j ↔ Same' i' j')) :
    Sim C C' RI (Paired RI Sum Sum') where
  fresh := ⟨0, by simp, by simpa using L.fresh, by simpa using L'.fresh⟩
  incr := by
    rintro s s' i i' ⟨l, h1, h2, h3⟩ hi
    refine ⟨(i, i') ::ₘ l, ?_, ?_, ?_⟩
    · intro p hp
      rcases Multiset.mem_cons.1 hp with rfl | hp
      · exact hi
      · exact h1 p hp
    · rw [Multiset.map_cons]; exact L.incr h2 (hok _ _ hi).1
    · rw [Multiset.map_cons]; exact L'.incr h3 (hok _ _ hi).2
  add := by
    rintro s s' u u' ⟨l, h1, h2, h3⟩ ⟨k, h4, h5, h6⟩
    refine ⟨l + k, ?_, ?_, ?_⟩
    · intro p hp
      rcases Multiset.mem_add.1 hp with hp | hp
      · exact h1 p hp
      · exact h4 p hp
    · rw [Multiset.map_add]; exact L.add h2 h5
    · rw [Multiset.map_add]; exact L'.add h3 h6
  count := by
    rintro s s' ⟨l, -, h2, h3⟩
    rw [L.count h2, L'.count h3, Multiset.card_map, Multiset.card_map]
  exact := by
    rintro s s' i i' ⟨l, h1, h2, h3⟩ hi h0
    have hl : l ≠ 0 := by
      rintro rfl
      rw [L.count h2] at h0; simp at h0
    rw [Bool.eq_iff_iff, L.exact h2 (by simpa using hl) (hok _ _ hi).1,
      L'.exact h3 (by simpa using hl) (hok _ _ hi).2]
    simp only [Multiset.mem_map, forall_exists_index, and_imp, forall_apply_eq_imp_iff₂]
    exact forall₂_congr fun p hp => hsame _ _ _ _ hi (h1 p hp)

end
end CF
