/-
A property of probability tables that incrementing and merging preserve holds for all objects below the
root after any run of the algorithm, also one that ends with an exception.
-/
import Verif.Spec.Heap

namespace CF
variable {I S K : Type} [Field K] [LinearOrder K]

/-- `D` is a set of existing objects, contains the root and with every object its children, and all tables
in it satisfy `P`. -/
structure Dom (P : S → Prop) (D : Set ℕ) (h : Heap S) : Prop where
  root : h.root ∈ D
  lt : ∀ a ∈ D, a < h.next
  recs : ∀ a ∈ D, ∃ r, h.objs a = some r ∧ P r.stats ∧ ∀ c ∈ r.children, c ∈ D

/-- Running `m` keeps this, for a larger set, and a result satisfies `Q`. -/
def Keeps {α : Type} (P : S → Prop) (D : Set ℕ) (m : HM S α) (Q : Set ℕ → α → Prop) : Prop :=
  ∀ h, Dom P D h → ∃ D', D ⊆ D' ∧ Dom P D' (m h).2 ∧ ∀ a, (m h).1 = .ok a → Q D' a

namespace Keeps
variable {α β : Type} {P : S → Prop} {D : Set ℕ} {m : HM S α} {Q : Set ℕ → α → Prop}

theorem bind {f : α → HM S β} {R : Set ℕ → β → Prop} (hm : Keeps P D m Q)
    (hf : ∀ D', D ⊆ D' → ∀ a, Q D' a → Keeps P D' (f a) R) : Keeps P D (m >>= f) R := by
  intro h hD
  obtain ⟨D1, h1, h2, h3⟩ := hm h hD
  show ∃ D', D ⊆ D' ∧ Dom P D' (HM.andThen m f h).2 ∧ ∀ a, (HM.andThen m f h).1 = .ok a → R D' a
  unfold HM.andThen
  cases e : m h with
  | mk r h' =>
    rw [e] at h2 h3
    cases r with
    | error x => exact ⟨D1, h1, h2, by simp⟩
    | ok a =>
      obtain ⟨D2, g1, g2, g3⟩ := hf D1 h1 a (h3 a rfl) h' h2
      exact ⟨D2, h1.trans g1, g2, g3⟩

theorem mono {R : Set ℕ → α → Prop} (hm : Keeps P D m Q) (h : ∀ D' a, D ⊆ D' → Q D' a → R D' a) :
    Keeps P D m R := by
  intro g hD
  obtain ⟨D1, h1, h2, h3⟩ := hm g hD
  exact ⟨D1, h1, h2, fun a ha => h D1 a h1 (h3 a ha)⟩

theorem pure {a : α} (h : Q D a) : Keeps P D (Pure.pure a : HM S α) Q :=
  fun _ hD => ⟨D, subset_rfl, hD, fun _ e => by cases e; exact h⟩

theorem raise {e : PyErr} : Keeps P D (HM.raise e : HM S α) Q :=
  fun _ hD => ⟨D, subset_rfl, hD, fun _ e => by cases e⟩

theorem lift {r : Res α} : Keeps P D (HM.lift r : HM S α) fun _ a => r = .ok a :=
  fun _ hD => ⟨D, subset_rfl, hD, fun _ e => e⟩

theorem get {a : ℕ} (ha : a ∈ D) :
    Keeps P D (HM.get a : HM S (Rec S)) fun D' r => P r.stats ∧ ∀ c ∈ r.children, c ∈ D' := by
  intro h hD
  obtain ⟨r, h1, h2, h3⟩ := hD.recs a ha
  have e : (HM.get a : HM S (Rec S)) h = (.ok r, h) := by simp only [HM.get, h1]
  rw [e]
  exact ⟨D, subset_rfl, hD, fun r' e => by cases e; exact ⟨h2, h3⟩⟩

theorem mod {a : ℕ} {f : Rec S → Rec S}
    (hf : a ∈ D → ∀ r, P r.stats → (∀ c ∈ r.children, c ∈ D) →
      P (f r).stats ∧ ∀ c ∈ (f r).children, c ∈ D) :
    Keeps P D (HM.mod a f : HM S Unit) fun _ _ => True := by
  intro h hD
  refine ⟨D, subset_rfl, ?_, fun _ _ => trivial⟩
  unfold HM.mod
  cases e : h.objs a with
  | none => exact hD
  | some r =>
    refine ⟨hD.root, hD.lt, fun b hb => ?_⟩
    by_cases hab : b = a
    · subst hab
      obtain ⟨r', h1, h2, h3⟩ := hD.recs b hb
      rw [e] at h1
      cases h1
      exact ⟨f r, by simp, hf hb r h2 h3⟩
    · obtain ⟨r', h1, h2⟩ := hD.recs b hb
      exact ⟨r', by simp [hab, h1], h2⟩

theorem setRoot {a : ℕ} (ha : a ∈ D) : Keeps P D (HM.setRoot a : HM S Unit) fun _ _ => True :=
  fun _ hD => ⟨D, subset_rfl, ⟨ha, hD.lt, hD.recs⟩, fun _ _ => trivial⟩

theorem random : Keeps P D (HM.random : HM S ℚ) fun _ _ => True :=
  fun _ hD => ⟨D, subset_rfl, ⟨hD.root, hD.lt, hD.recs⟩, fun _ _ => trivial⟩

theorem setParent {a : ℕ} {p : Option ℕ} : Keeps P D (HM.setParent a p : HM S Unit) fun _ _ => True :=
  mod fun _ _ h1 h2 => ⟨h1, h2⟩

theorem setTree {a : ℕ} {b : Bool} : Keeps P D (HM.setTree a b : HM S Unit) fun _ _ => True :=
  mod fun _ _ h1 h2 => ⟨h1, h2⟩

theorem append {a c : ℕ} (hc : c ∈ D) : Keeps P D (HM.append a c : HM S Unit) fun _ _ => True :=
  mod fun _ r h1 h2 => ⟨h1, fun x hx => by
    rcases List.mem_append.1 hx with h | h
    · exact h2 x h
    · rw [List.mem_singleton.1 h]; exact hc⟩

theorem remove {a c : ℕ} : Keeps P D (HM.remove a c : HM S Unit) fun _ _ => True := by
  intro h hD
  refine ⟨D, subset_rfl, ?_, fun _ _ => trivial⟩
  show Dom P D (HM.andThen (HM.get a) _ h).2
  unfold HM.andThen HM.get
  cases e : h.objs a with
  | none => exact hD
  | some r =>
    dsimp only
    split
    · unfold HM.mod
      rw [e]
      refine ⟨hD.root, hD.lt, fun b hb => ?_⟩
      by_cases hab : b = a
      · subst hab
        obtain ⟨r', g1, g2, g3⟩ := hD.recs b hb
        rw [e] at g1
        cases g1
        exact ⟨{ r with children := r.children.erase c }, by simp, g2,
          fun x hx => g3 x (List.mem_of_mem_erase hx)⟩
      · obtain ⟨r', g1, g2⟩ := hD.recs b hb
        exact ⟨r', by simp [hab, g1], g2⟩
    · exact hD

end Keeps

/-! ### The algorithm -/

section
variable (C : NodeClass I S) (ecg : Bool → S → Res K) (P : S → Prop) (i : I)

/-- `P` holds for the table of a new node, and is preserved by the two ways of changing a table. -/
structure TableLaw : Prop where
  fresh : P C.fresh
  incr : ∀ s, P s → P (C.incr s i)
  add : ∀ s n, P s → P n → P (C.addFrom s n)

variable {C P i} {D : Set ℕ} (L : TableLaw C P i)
include L

/-- A result that is an object of the set. -/
abbrev InDom (D : Set ℕ) (a : ℕ) : Prop := a ∈ D

theorem keeps_newNode : Keeps P D (newNode C) InDom := by
  intro h hD
  refine ⟨insert h.next D, Set.subset_insert _ _, ⟨Set.mem_insert_of_mem _ hD.root, ?_, ?_⟩, ?_⟩
  · intro a ha
    rcases Set.mem_insert_iff.1 ha with rfl | ha
    · exact Nat.lt_succ_self _
    · exact Nat.lt_succ_of_lt (hD.lt a ha)
  · intro a ha
    by_cases e : a = h.next
    · subst e
      exact ⟨_, by simp [newNode]; rfl, L.fresh, by simp⟩
    · obtain ⟨r, h1, h2, h3⟩ := hD.recs a (Set.mem_of_mem_insert_of_ne ha e)
      exact ⟨r, by simp [newNode, e, h1], h2, fun c hc => Set.mem_insert_of_mem _ (h3 c hc)⟩
  · intro a e
    simp only [newNode, Except.ok.injEq] at e
    rw [← e]
    exact Set.mem_insert _ _

theorem keeps_incr {a : ℕ} : Keeps P D (incrH C a i) fun _ _ => True :=
  Keeps.mod fun _ r h1 h2 => ⟨L.incr _ h1, h2⟩

theorem keeps_addFrom {a b : ℕ} (hb : b ∈ D) : Keeps P D (addFromH C a b) fun _ _ => True :=
  (Keeps.get hb).bind fun _ _ _ hr => Keeps.mod fun _ _ h1 h2 => ⟨L.add _ _ h1 hr.1, h2⟩

omit L in
theorem keeps_ecg {a : ℕ} (ha : a ∈ D) : Keeps P D (ecgH ecg a) fun _ _ => True :=
  (Keeps.get ha).bind fun _ _ _ _ => Keeps.lift.mono fun _ _ _ _ => trivial

theorem keeps_shallowCopy {a : ℕ} (ha : a ∈ D) : Keeps P D (shallowCopyH C a) InDom := by
  refine (keeps_newNode L).bind fun D1 h1 t ht => ?_
  refine (Keeps.get (h1 ha)).bind fun D2 h2 r _ => ?_
  refine Keeps.setTree.bind fun D3 h3 _ _ => ?_
  refine Keeps.setParent.bind fun D4 h4 _ _ => ?_
  refine (keeps_addFrom L (h4 (h3 (h2 (h1 ha))))).bind fun D5 h5 _ _ => ?_
  exact Keeps.pure (h5 (h4 (h3 (h2 ht))))

theorem keeps_copyKids {copy : ℕ → HM S ℕ} {new : ℕ} {cs : List ℕ}
    (hc : ∀ D', D ⊆ D' → ∀ a ∈ D', Keeps P D' (copy a) InDom) (hcs : ∀ c ∈ cs, c ∈ D) :
    Keeps P D (copyKidsH copy new cs) fun _ _ => True := by
  induction cs generalizing D with
  | nil => exact Keeps.pure trivial
  | cons c cs ih =>
    refine (hc D subset_rfl c (hcs c (by simp))).bind fun D1 h1 c' hc' => ?_
    refine (Keeps.append hc').bind fun D2 h2 _ _ => ?_
    exact ih (fun D' h' => hc D' (h1.trans (h2.trans h'))) fun x hx => h2 (h1 (hcs x (by simp [hx])))

theorem keeps_copyNode {fuel a : ℕ} (ha : a ∈ D) : Keeps P D (copyNodeH C fuel a) InDom := by
  induction fuel generalizing D a with
  | zero => exact Keeps.raise
  | succ fuel ih =>
    refine (keeps_newNode L).bind fun D1 h1 t ht => ?_
    refine (Keeps.get (h1 ha)).bind fun D2 h2 r hr => ?_
    refine Keeps.setTree.bind fun D3 h3 _ _ => ?_
    refine Keeps.setParent.bind fun D4 h4 _ _ => ?_
    refine (keeps_addFrom L (h4 (h3 (h2 (h1 ha))))).bind fun D5 h5 _ _ => ?_
    refine (keeps_copyKids L (fun D' _ a ha => ih ha) fun c hc => h5 (h4 (h3 (hr.2 c hc)))).bind
      fun D6 h6 _ _ => ?_
    exact Keeps.pure (h6 (h5 (h4 (h3 (h2 ht)))))

omit L in
theorem keeps_cuSum {a : ℕ} (ha : a ∈ D) {cs : List ℕ} (hcs : ∀ c ∈ cs, c ∈ D) {acc : K} :
    Keeps P D (cuSumH C ecg a cs acc) fun _ _ => True := by
  induction cs generalizing D acc with
  | nil => exact Keeps.pure trivial
  | cons c cs ih =>
    refine (Keeps.get (hcs c (by simp))).bind fun D1 h1 _ _ => ?_
    refine (Keeps.get (h1 ha)).bind fun D2 h2 _ _ => ?_
    refine Keeps.lift.bind fun D3 h3 _ _ => ?_
    refine (keeps_ecg ecg (h3 (h2 (h1 (hcs c (by simp)))))).bind fun D4 h4 _ _ => ?_
    exact ih (h4 (h3 (h2 (h1 ha)))) fun x hx => h4 (h3 (h2 (h1 (hcs x (by simp [hx])))))

omit L in
theorem keeps_categoryUtility {a : ℕ} (ha : a ∈ D) :
    Keeps P D (categoryUtilityH C ecg a) fun _ _ => True := by
  refine (Keeps.get ha).bind fun D1 h1 r hr => ?_
  split
  · exact Keeps.pure trivial
  · refine (keeps_cuSum ecg (h1 ha) hr.2).bind fun D2 h2 _ _ => ?_
    refine (keeps_ecg ecg (h2 (h1 ha))).bind fun D3 h3 _ _ => ?_
    exact Keeps.lift.mono fun _ _ _ _ => trivial

theorem keeps_createNewChild {a : ℕ} (ha : a ∈ D) : Keeps P D (createNewChildH C a i) InDom := by
  refine (keeps_newNode L).bind fun D1 h1 t ht => ?_
  refine Keeps.setParent.bind fun D2 h2 _ _ => ?_
  refine (Keeps.get (h2 (h1 ha))).bind fun D3 h3 _ _ => ?_
  refine Keeps.setTree.bind fun D4 h4 _ _ => ?_
  refine (keeps_incr L).bind fun D5 h5 _ _ => ?_
  refine (Keeps.append (h5 (h4 (h3 (h2 ht))))).bind fun D6 h6 _ _ => ?_
  exact Keeps.pure (h6 (h5 (h4 (h3 (h2 ht)))))

theorem keeps_insertKids {temp child : ℕ} {cs : List ℕ} (hcs : ∀ c ∈ cs, c ∈ D) :
    Keeps P D (insertKidsH C temp child i cs) fun _ _ => True := by
  induction cs generalizing D with
  | nil => exact Keeps.pure trivial
  | cons c cs ih =>
    refine (keeps_shallowCopy L (hcs c (by simp))).bind fun D1 h1 t ht => ?_
    refine (Keeps.append ht).bind fun D2 h2 _ _ => ?_
    refine Keeps.setParent.bind fun D3 h3 _ _ => ?_
    have s3 : ∀ x ∈ cs, x ∈ D3 := fun x hx => h3 (h2 (h1 (hcs x (by simp [hx]))))
    dsimp only
    split
    · exact (keeps_incr L).bind fun D4 h4 _ _ => ih fun x hx => h4 (s3 x hx)
    · exact ih s3

theorem keeps_copyInto {temp : ℕ} {cs : List ℕ} (hcs : ∀ c ∈ cs, c ∈ D) :
    Keeps P D (copyInto C temp cs) fun _ _ => True := by
  induction cs generalizing D with
  | nil => exact Keeps.pure trivial
  | cons c cs ih =>
    refine (keeps_shallowCopy L (hcs c (by simp))).bind fun D1 h1 t ht => ?_
    refine (Keeps.append ht).bind fun D2 h2 _ _ => ?_
    exact ih fun x hx => h2 (h1 (hcs x (by simp [hx])))

theorem keeps_cuForNewChild {a : ℕ} (ha : a ∈ D) :
    Keeps P D (cuForNewChildH C ecg a i) fun _ _ => True := by
  refine (keeps_shallowCopy L ha).bind fun D1 h1 t ht => ?_
  refine (Keeps.get (h1 ha)).bind fun D2 h2 r hr => ?_
  refine (keeps_copyInto L hr.2).bind fun D3 h3 _ _ => ?_
  refine (keeps_incr L).bind fun D4 h4 _ _ => ?_
  refine (keeps_createNewChild L (h4 (h3 (h2 ht)))).bind fun D5 h5 _ _ => ?_
  exact keeps_categoryUtility ecg (h5 (h4 (h3 (h2 ht))))

theorem keeps_cuForMerge {a b1 b2 : ℕ} (ha : a ∈ D) (hb1 : b1 ∈ D) (hb2 : b2 ∈ D) :
    Keeps P D (cuForMergeH C ecg a b1 b2 i) fun _ _ => True := by
  refine (keeps_shallowCopy L ha).bind fun D1 h1 t ht => ?_
  refine (keeps_incr L).bind fun D2 h2 _ _ => ?_
  refine (keeps_newNode L).bind fun D3 h3 n hn => ?_
  refine (Keeps.get (h3 (h2 (h1 ha)))).bind fun D4 h4 _ _ => ?_
  refine Keeps.setTree.bind fun D5 h5 _ _ => ?_
  refine Keeps.setParent.bind fun D6 h6 _ _ => ?_
  have s6 : D ⊆ D6 := h1.trans (h2.trans (h3.trans (h4.trans (h5.trans h6))))
  refine (keeps_addFrom L (s6 hb1)).bind fun D7 h7 _ _ => ?_
  refine (keeps_addFrom L (h7 (s6 hb2))).bind fun D8 h8 _ _ => ?_
  refine (keeps_incr L).bind fun D9 h9 _ _ => ?_
  have s39 : D3 ⊆ D9 := h4.trans (h5.trans (h6.trans (h7.trans (h8.trans h9))))
  refine (Keeps.append (s39 hn)).bind fun D10 h10 _ _ => ?_
  refine (Keeps.get (h10 (s39 (h3 (h2 (h1 ha)))))).bind fun D11 h11 r hr => ?_
  refine (keeps_copyInto L fun c hc => hr.2 c (List.mem_filter.1 hc).1).bind fun D12 h12 _ _ => ?_
  exact keeps_categoryUtility ecg (h12 (h11 (h10 (s39 (h3 (h2 ht))))))

theorem keeps_cuForSplit {a b : ℕ} (ha : a ∈ D) (hb : b ∈ D) :
    Keeps P D (cuForSplitH C ecg a b) fun _ _ => True := by
  refine (keeps_shallowCopy L ha).bind fun D1 h1 t ht => ?_
  refine (Keeps.get (h1 ha)).bind fun D2 h2 r hr => ?_
  refine (Keeps.get (h2 (h1 hb))).bind fun D3 h3 rb hrb => ?_
  refine (keeps_copyInto L fun c hc => ?_).bind fun D4 h4 _ _ => ?_
  · rcases List.mem_append.1 (List.mem_filter.1 hc).1 with h | h
    · exact h3 (hr.2 c h)
    · exact hrb.2 c h
  exact keeps_categoryUtility ecg (h4 (h3 (h2 ht)))

theorem keeps_relativeCuForInsert {a : ℕ} (ha : a ∈ D) :
    Keeps P D (relativeCuForInsertH C ecg a i) fun _ _ => True := by
  refine (keeps_shallowCopy L ha).bind fun D1 h1 t ht => ?_
  refine (keeps_incr L).bind fun D2 h2 _ _ => ?_
  refine (Keeps.get (h2 (h1 ha))).bind fun D3 h3 _ _ => ?_
  refine (keeps_ecg ecg (h3 (h2 ht))).bind fun D4 h4 _ _ => ?_
  refine (keeps_ecg ecg (h4 (h3 (h2 (h1 ha))))).bind fun D5 h5 _ _ => ?_
  exact Keeps.pure trivial

omit L in
theorem keeps_constSum {a : ℕ} (ha : a ∈ D) {cs : List ℕ} (hcs : ∀ c ∈ cs, c ∈ D) {acc : K} :
    Keeps P D (constSumH C ecg a cs acc) fun _ _ => True := by
  induction cs generalizing D acc with
  | nil => exact Keeps.pure trivial
  | cons c cs ih =>
    refine (Keeps.get (hcs c (by simp))).bind fun D1 h1 _ _ => ?_
    refine (Keeps.get (h1 ha)).bind fun D2 h2 _ _ => ?_
    refine (keeps_ecg ecg (h2 (h1 (hcs c (by simp))))).bind fun D4 h4 _ _ => ?_
    exact ih (h4 (h2 (h1 ha))) fun x hx => h4 (h2 (h1 (hcs x (by simp [hx]))))

theorem keeps_relativeCuConst {a : ℕ} (ha : a ∈ D) :
    Keeps P D (relativeCuConstH C ecg a i) fun _ _ => True := by
  refine (keeps_shallowCopy L ha).bind fun D1 h1 t ht => ?_
  refine (keeps_incr L).bind fun D2 h2 _ _ => ?_
  refine (keeps_ecg ecg (h2 ht)).bind fun D3 h3 _ _ => ?_
  refine (Keeps.get (h3 (h2 (h1 ha)))).bind fun D4 h4 r hr => ?_
  refine (keeps_constSum ecg (h4 (h3 (h2 (h1 ha)))) hr.2).bind fun D5 h5 _ _ => ?_
  exact Keeps.lift.mono fun _ _ _ _ => trivial

theorem keeps_mkCands {cs : List ℕ} (hcs : ∀ c ∈ cs, c ∈ D) :
    Keeps P D (mkCandsH C ecg i cs) fun D' l => ∀ x ∈ l, x.idx ∈ D' := by
  induction cs generalizing D with
  | nil => exact Keeps.pure (by simp)
  | cons c cs ih =>
    refine (keeps_relativeCuForInsert ecg L (hcs c (by simp))).bind fun D1 h1 _ _ => ?_
    refine (Keeps.get (h1 (hcs c (by simp)))).bind fun D2 h2 _ _ => ?_
    refine Keeps.random.bind fun D3 h3 _ _ => ?_
    have s3 : D ⊆ D3 := h1.trans (h2.trans h3)
    refine (ih fun x hx => s3 (hcs x (by simp [hx]))).bind fun D4 h4 l hl => ?_
    refine Keeps.pure ?_
    intro x hx
    rcases List.mem_cons.1 hx with rfl | hx
    · exact h4 (s3 (hcs c (by simp)))
    · exact hl x hx

omit [Field K] [LinearOrder K] L in
theorem sortCands_mem [Field K] [LinearOrder K] {l : List (Cand K)} {x : Cand K} (h : x ∈ sortCands l) : x ∈ l := by
  exact (List.mem_insertionSort _).1 h

theorem keeps_twoBest {a : ℕ} (ha : a ∈ D) :
    Keeps P D (twoBestH C ecg a i) fun D' b => b.b1 ∈ D' ∧ ∀ c, b.b2 = some c → c ∈ D' := by
  refine (Keeps.get ha).bind fun D1 h1 r hr => ?_
  split
  · exact Keeps.raise
  refine (keeps_mkCands ecg L hr.2).bind fun D2 h2 l hl => ?_
  split
  · exact Keeps.raise
  refine (keeps_relativeCuConst ecg L (h2 (h1 ha))).bind fun D3 h3 _ _ => ?_
  refine (Keeps.get (h3 (h2 (h1 ha)))).bind fun D4 h4 r' _ => ?_
  refine Keeps.lift.mono fun D5 b h5 e => ?_
  have hmem : ∀ x ∈ sortCands l, x.idx ∈ D5 := fun x hx => h5 (h4 (h3 (hl x (sortCands_mem hx))))
  unfold pickBest at e
  split at e
  · simp at e
  · next c1 rest heq =>
    cases e
    rw [heq] at hmem
    refine ⟨hmem c1 (by simp), fun c hc => ?_⟩
    obtain ⟨y, hy, rfl⟩ := Option.map_eq_some_iff.1 hc
    exact hmem y (by
      cases rest with
      | nil => simp at hy
      | cons z zs => simp at hy; simp [hy])

omit [Field K] [LinearOrder K] L in
theorem keeps_addOp {l : List (OpCand K)} {op : Op} {cu : HM S K} (h : Keeps P D cu fun _ _ => True) :
    Keeps P D (addOpH l op cu) fun _ _ => True :=
  h.bind fun _ _ _ _ => Keeps.random.bind fun _ _ _ _ => Keeps.pure trivial

theorem keeps_bestOp {ops : List Op} {a b1 : ℕ} {b2 : Option ℕ} {cu1 : K} (ha : a ∈ D) (hb1 : b1 ∈ D)
    (hb2 : ∀ c, b2 = some c → c ∈ D) : Keeps P D (bestOpH C ecg ops a i b1 b2 cu1) fun _ _ => True := by
  have t1 : ∀ l : List (OpCand K), Keeps P D (opsBestH ops cu1 l) fun _ _ => True := by
    intro l
    unfold opsBestH
    split
    · exact keeps_addOp (Keeps.pure trivial)
    · exact Keeps.pure trivial
  refine (t1 _).bind fun D1 h1 l _ => ?_
  have t2 : Keeps P D1 (opsNewH C ecg ops a i l) fun _ _ => True := by
    unfold opsNewH
    split
    · exact keeps_addOp (keeps_cuForNewChild ecg L (h1 ha))
    · exact Keeps.pure trivial
  refine t2.bind fun D2 h2 l _ => ?_
  have t3 : Keeps P D2 (opsMergeH C ecg ops a i b1 b2 l) fun _ _ => True := by
    refine (Keeps.get (h2 (h1 ha))).bind fun D3 h3 r _ => ?_
    cases b2 with
    | none => exact Keeps.pure trivial
    | some c =>
      dsimp only
      split
      · exact keeps_addOp (keeps_cuForMerge ecg L (h3 (h2 (h1 ha))) (h3 (h2 (h1 hb1)))
          (h3 (h2 (h1 (hb2 c rfl)))))
      · exact Keeps.pure trivial
  refine t3.bind fun D3 h3 l _ => ?_
  have t4 : Keeps P D3 (opsSplitH C ecg ops a b1 l) fun _ _ => True := by
    refine (Keeps.get (h3 (h2 (h1 hb1)))).bind fun D4 h4 r _ => ?_
    split
    · exact keeps_addOp (keeps_cuForSplit ecg L (h4 (h3 (h2 (h1 ha)))) (h4 (h3 (h2 (h1 hb1)))))
    · exact Keeps.pure trivial
  refine t4.bind fun D4 h4 l _ => ?_
  exact Keeps.lift.mono fun _ _ _ _ => trivial

theorem keeps_merge {a b1 b2 : ℕ} (ha : a ∈ D) (hb1 : b1 ∈ D) (hb2 : b2 ∈ D) :
    Keeps P D (mergeH C a b1 b2) InDom := by
  refine (keeps_newNode L).bind fun D1 h1 n hn => ?_
  refine Keeps.setParent.bind fun D2 h2 _ _ => ?_
  refine (Keeps.get (h2 (h1 ha))).bind fun D3 h3 _ _ => ?_
  refine Keeps.setTree.bind fun D4 h4 _ _ => ?_
  have s4 : D ⊆ D4 := h1.trans (h2.trans (h3.trans h4))
  refine (keeps_addFrom L (s4 hb1)).bind fun D5 h5 _ _ => ?_
  refine (keeps_addFrom L (h5 (s4 hb2))).bind fun D6 h6 _ _ => ?_
  refine Keeps.setParent.bind fun D7 h7 _ _ => ?_
  refine Keeps.setParent.bind fun D8 h8 _ _ => ?_
  have s8 : D4 ⊆ D8 := h5.trans (h6.trans (h7.trans h8))
  refine (Keeps.append (s8 (s4 hb1))).bind fun D9 h9 _ _ => ?_
  refine (Keeps.append (h9 (s8 (s4 hb2)))).bind fun D10 h10 _ _ => ?_
  refine Keeps.remove.bind fun D11 h11 _ _ => ?_
  refine Keeps.remove.bind fun D12 h12 _ _ => ?_
  have s12 : D1 ⊆ D12 :=
    h2.trans (h3.trans (h4.trans (s8.trans (h9.trans (h10.trans (h11.trans h12))))))
  refine (Keeps.append (s12 hn)).bind fun D13 h13 _ _ => ?_
  exact Keeps.pure (h13 (s12 hn))

omit L in
theorem keeps_splitKids {a : ℕ} {cs : List ℕ} (ha : a ∈ D) (hcs : ∀ c ∈ cs, c ∈ D) :
    Keeps P D (splitKidsH a cs : HM S Unit) fun _ _ => True := by
  induction cs generalizing D with
  | nil => exact Keeps.pure trivial
  | cons c cs ih =>
    refine Keeps.setParent.bind fun D1 h1 _ _ => ?_
    refine (Keeps.get (h1 ha)).bind fun D2 h2 _ _ => ?_
    refine Keeps.setTree.bind fun D3 h3 _ _ => ?_
    have s3 : D ⊆ D3 := h1.trans (h2.trans h3)
    refine (Keeps.append (s3 (hcs c (by simp)))).bind fun D4 h4 _ _ => ?_
    exact ih (h4 (s3 ha)) fun x hx => h4 (s3 (hcs x (by simp [hx])))

omit L in
theorem keeps_split {a b : ℕ} (ha : a ∈ D) (hb : b ∈ D) :
    Keeps P D (splitH a b : HM S Unit) fun _ _ => True := by
  refine Keeps.remove.bind fun D1 h1 _ _ => ?_
  refine (Keeps.get (h1 hb)).bind fun D2 h2 r hr => ?_
  exact keeps_splitKids (h2 (h1 ha)) hr.2

omit L in
theorem keeps_relink {cur new : ℕ} (hn : new ∈ D) :
    Keeps P D (relinkH cur new : HM S Unit) fun _ _ => True := by
  refine (Keeps.get hn).bind fun D1 h1 r _ => ?_
  cases r.parent with
  | none => exact Keeps.setRoot (h1 hn)
  | some p => exact Keeps.remove.bind fun D2 h2 _ _ => Keeps.append (h2 (h1 hn))

theorem keeps_fringe {cur : ℕ} (hc : cur ∈ D) : Keeps P D (fringeH C cur i) InDom := by
  refine (keeps_copyNode L hc).bind fun D1 h1 n hn => ?_
  refine Keeps.setParent.bind fun D2 h2 _ _ => ?_
  refine (Keeps.append (h2 (h1 hc))).bind fun D3 h3 _ _ => ?_
  refine (keeps_relink (h3 (h2 hn))).bind fun D4 h4 _ _ => ?_
  refine (keeps_incr L).bind fun D5 h5 _ _ => ?_
  exact keeps_createNewChild L (h5 (h4 (h3 (h2 hn))))

theorem keeps_cobwebLoop {fuel cur : ℕ} (hc : cur ∈ D) : Keeps P D (cobwebLoopH C ecg i fuel cur) InDom := by
  induction fuel generalizing D cur with
  | zero => exact Keeps.raise
  | succ fuel ih =>
    refine (Keeps.get hc).bind fun D1 h1 r _ => ?_
    split
    · split
      · exact (keeps_incr L).bind fun D2 h2 _ _ => Keeps.pure (h2 (h1 hc))
      · exact keeps_fringe L (h1 hc)
    · refine (keeps_twoBest ecg L (h1 hc)).bind fun D2 h2 b hb => ?_
      refine (keeps_bestOp ecg L (h2 (h1 hc)) hb.1 hb.2).bind fun D3 h3 co _ => ?_
      have s3 : D ⊆ D3 := h1.trans (h2.trans h3)
      cases co.2 with
      | best => exact (keeps_incr L).bind fun D4 h4 _ _ => ih (h4 (h3 hb.1))
      | new => exact (keeps_incr L).bind fun D4 h4 _ _ => keeps_createNewChild L (h4 (s3 hc))
      | merge =>
        refine (keeps_incr L).bind fun D4 h4 _ _ => ?_
        cases e : b.b2 with
        | none => exact Keeps.raise
        | some b2 =>
          exact (keeps_merge L (h4 (s3 hc)) (h4 (h3 hb.1)) (h4 (h3 (hb.2 b2 e)))).bind fun D5 h5 n hn => ih hn
      | split => exact (keeps_split (s3 hc) (h3 hb.1)).bind fun D4 h4 _ _ => ih (h4 (s3 hc))

/-- `cobweb`, whether it returns or raises. -/
theorem keeps_cobweb : Keeps P D (cobwebH C ecg i) InDom :=
  fun h hD => keeps_cobwebLoop ecg L hD.root h hD

theorem keeps_categorizeLoop {fuel cur : ℕ} (hc : cur ∈ D) :
    Keeps P D (categorizeLoopH C ecg i fuel cur) InDom := by
  induction fuel generalizing D cur with
  | zero => exact Keeps.raise
  | succ fuel ih =>
    refine (Keeps.get hc).bind fun D1 h1 r _ => ?_
    split
    · exact Keeps.pure (h1 hc)
    · exact (keeps_twoBest ecg L (h1 hc)).bind fun D2 h2 b hb => ih hb.1

/-- `_cobweb_categorize`, whether it returns or raises. -/
theorem keeps_categorize : Keeps P D (categorizeH C ecg i) InDom :=
  fun h hD => keeps_categorizeLoop ecg L hD.root h hD

end
end CF
