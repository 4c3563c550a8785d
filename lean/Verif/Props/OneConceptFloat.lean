/-
C115 with rounded numbers, and for Cobweb with any arithmetic.
-/
import Verif.Props.OneConcept
import Verif.Props.AnyArith
import Verif.Props.Float3
import Verif.Props.Ext3

namespace CF

section
variable {I S : Type} {C : NodeClass I S} {Ok : I → Prop} {Sum : S → Multiset I → Prop} {Same : I → I → Prop}

theorem cobwebBy_covered {K : Type} {choose : Chooser I S K} {id : ℕ} {s : S} {i : I} {w : World}
    (hc : (C.isExact s i || C.count s == 0) = true) :
    cobwebBy C choose (.node id s []) i w = .ok ⟨.node id (C.incr s i) [], id, false, w⟩ := by
  show cobwebLoopBy C _ i 1 _ w = _
  rw [cobwebLoopBy, if_pos hc]

theorem reachAny_one (L : TableLaws C Ok Sum Same)
    (hx : ∀ l i, l ≠ [] → (∀ j ∈ l, Ok j) → (∀ j ∈ l, ∀ k ∈ l, Same j k) → Ok i → (∀ j ∈ l, Same i j) →
      C.isExact (C.built l) i = true)
    {t : Tree S} {hist : List I} {n : ℕ} (h : ReachAny C Ok t hist n) :
    t.children = [] ↔ ∀ i ∈ hist, ∀ j ∈ hist, Same i j := by
  constructor
  · intro ht i hi j hj
    exact ((reachAny_holds L h).holds L).leaf_same ht i (by simpa using hi) j (by simpa using hj)
  · induction h with
    | init w => intro _; rfl
    | @step K ar ecg t hist n i w o hr _ hi _ ho ih =>
      intro hall
      have ht := ih fun a ha b hb => hall a (by simp [ha]) b (by simp [hb])
      obtain ⟨id, s, cs⟩ := t
      rw [Tree.children_node] at ht
      subst ht
      have hc : (C.isExact s i || C.count s == 0) = true := by
        rcases reachAny_holds L hr with ⟨-, id', e⟩ | hB
        · cases e
          rw [L.count L.fresh]
          simp
        · generalize hm : ((hist : List I) : Multiset I) = m at hB
          cases hB with
          | @leaf _ l h1 h2 h3 =>
            have hp : ∀ j ∈ l, j ∈ hist := fun j hj => by
              have : j ∈ (hist : Multiset I) := by rw [hm]; simpa using hj
              simpa using this
            rw [hx l i h1 h2 h3 hi fun j hj => hall i (by simp) j (by simp [hp j hj])]
            simp
          | node h1 _ _ => simp at h1
      rw [cobwebBy_covered hc] at ho
      cases ho
      rfl

end

variable {A B V : Type} [DecidableEq A] [DecidableEq B] [DecidableEq V] {hid : A → Bool}

/-- **C115** for Cobweb whatever the arithmetic, whether it rounds, overflows or raises: the scores have no part in it. -/
theorem C115_any_arithmetic {t : Tree (Stats A V)} {hist : List (Inst A V)} {n : ℕ} (h : CobwebAny hid t hist n) :
    t.numConcepts = 1 ↔ ∀ i ∈ hist, ∀ j ∈ hist, ∀ a, hid a = false → Dict.get? i a = Dict.get? j a := by
  rw [numConcepts_one]
  refine reachAny_one (cobwebLaws hid).table (fun l i h1 h2 _ h4 h5 => ?_) h
  exact ((cobwebLaws hid).exact ((cobwebLaws hid).table.built h2) (by simpa using h1) h4).2 (by simpa using h5)

/-- **C115** for Cobweb/3 with rounded numbers: a single concept exactly when the fitted instances agree, however the
operations round.  Rounding neither splits equal numbers nor makes different ones look equal to a leaf. -/
theorem C115_float {R : Rounding} {cfg : Cfg3 A B} {st : State3 A B V} {hist : List (Inst3 A V)} {n : ℕ}
    (h : Reach3F R hid cfg st hist n) :
    st.root.numConcepts = 1 ↔ ∀ i ∈ hist, ∀ j ∈ hist, ∀ a, hid a = false → Dict.get? i a = Dict.get? j a := by
  rw [numConcepts_one]
  exact reachAny_one (cobweb3LawsF R hid) (fun l i h1 h2 h3 h4 h5 => (built_exactF h1 h2 h3 h4).2 h5) (reach3F_any h)

/-- **C115** for Cobweb/3 with all floats: a single concept exactly when the fitted instances agree and, if there are more
than two, no visible number is infinite.  (`nan` does not count as a number.) -/
theorem C115_all_floats {R : Rounding} {cfg : Cfg3 A B} {st : XState A B V} {hist : List (XInst A V)} {n : ℕ}
    (h : ReachX R XF.Valid hid cfg st hist n) :
    st.root.numConcepts = 1 ↔
      (∀ i ∈ hist, ∀ j ∈ hist, ∀ a, hid a = false → Dict.get? i a = Dict.get? j a) ∧
      (2 < hist.length → ∀ i ∈ hist, ∀ a b, hid a = false → Dict.get? i a ≠ some (.num (.inf b))) := by
  rw [numConcepts_one]
  have K := keeps_any (R := R) valid_id
  have agree : ∀ {st : XState A B V} {hist : List (XInst A V)} {n : ℕ}, ReachX R XF.Valid hid cfg st hist n →
      st.root.children = [] → ∀ i ∈ hist, ∀ j ∈ hist, SameVisible hid i j := fun h ht i hi j hj =>
    (reachX_holds K h).leaf_same ht i (by simpa using hi) j (by simpa using hj)
  constructor
  · intro ht
    refine ⟨agree h ht, ?_⟩
    cases h with
    | init w => simp
    | @step st hist n i w o e hr hs hi hw ho =>
      intro hlen j hj a b ha hjb
      obtain ⟨hR, ⟨leaf, hl, -, -, -, -, -, hc⟩, -⟩ := C99_ifit hr hs hi hw ho
      have hib : Dict.get? i a = some (.num (.inf b)) := by
        rw [agree hR ht i (by simp) j hj a ha]; exact hjb
      have h2 := hc a b ha hib
      have he : leaf = o.state.root := by
        revert hl ht
        generalize o.state.root = t
        obtain ⟨id, s, cs⟩ := t
        rintro ht hl
        rw [Tree.children_node] at ht
        subst ht
        rw [Tree.leaves_nil] at hl
        simpa using hl
      rw [he, (C99_every_node hR).1.count, Multiset.coe_card] at h2
      omega
  · induction h with
    | init w => intro _; rfl
    | @step st hist n i w o e hr hs hi hw ho ih =>
      rintro ⟨hall, hinf⟩
      have ht := ih ⟨fun a ha b hb => hall a (by simp [ha]) b (by simp [hb]), fun hlen j hj =>
        hinf (by simp; omega) j (by simp [hj])⟩
      obtain ⟨o', ho', e1, -⟩ := ifitX_by ho
      rw [e1]
      have hB := reachAny_holds (extLaws K hid) (reachX_any hr)
      clear e1 ho ih
      generalize st.root = t at *
      obtain ⟨id, s, cs⟩ := t
      rw [Tree.children_node] at ht
      subst ht
      have hc : ((extClass R.fl hid).isExact s i || (extClass R.fl hid).count s == 0) = true := by
        rcases hB with ⟨-, id', e⟩ | hB
        · cases e
          rw [(extLaws K hid).count (extLaws K hid).fresh]
          simp
        · generalize hm : ((hist : List (XInst A V)) : Multiset (XInst A V)) = m at hB
          cases hB with
          | @leaf _ l h1 h2 h3 =>
            have hp : ∀ j ∈ l, j ∈ hist := fun j hj => by
              have : j ∈ (hist : Multiset (XInst A V)) := by rw [hm]; simpa using hj
              simpa using this
            have hlen : hist.length = l.length := by simpa using congrArg Multiset.card hm
            have : (extClass R.fl hid).isExact ((extClass R.fl hid).built l) i = true := by
              refine (builtX_exact valid_id h1 h2 h3 hi.nodup hi.number).2
                ⟨fun j hj => hall i (by simp) j (by simp [hp j hj]), fun a x ha hx => ?_⟩
              cases x with
              | fin r => exact Or.inl trivial
              | nan => exact absurd hx (hi.number a)
              | inf b =>
                right
                by_contra hne
                have h0 : l.length ≠ 0 := by simpa using h1
                exact hinf (by simp; omega) i (by simp) a b ha hx
            rw [this]
            simp
          | node h1 _ _ => simp at h1
      rw [cobwebBy_covered hc] at ho'
      cases ho'
      rfl

/-- **C115** fails for infinite numbers: two of them share the only concept, and the third one makes a second concept. -/
theorem C115_third_infinity : ∃ st st' n n', ReachX ieee XF.Valid Demo.hid (⟨1 / 2, id⟩ : Cfg3 ℕ ℕ) st
      [[(1, .num (.inf true))], [(1, .num (.inf true)), (100, .nom 3)]] n ∧ st.root.numConcepts = 1 ∧
    ReachX ieee XF.Valid Demo.hid (⟨1 / 2, id⟩ : Cfg3 ℕ ℕ) st'
      [[(1, .num (.inf true))], [(1, .num (.inf true)), (100, .nom 3)], [(1, .num (.inf true))]] n' ∧
    st'.root.numConcepts ≠ 1 := by
  have ok : ∀ i ∈ ([[(1, .num (.inf true))], [(1, .num (.inf true)), (100, .nom 3)]] : List (XInst ℕ ℕ)),
      XInstOk XF.Moderate i ∧ HasVisible Demo.hid i := by
    intro i hi
    simp only [List.mem_cons, List.not_mem_nil, or_false] at hi
    refine ⟨⟨?_, fun a x hx => ?_, fun a ha => ?_⟩, ?_⟩
    · rcases hi with rfl | rfl <;> simp [Dict.Nodup, Dict.keys]
    · have hm := Dict.mem_of_get? hx
      rcases hi with rfl | rfl <;> simp at hm <;> obtain ⟨-, rfl⟩ := hm <;> trivial
    · have hm := Dict.mem_of_get? ha
      rcases hi with rfl | rfl <;> simp at hm
    · rcases hi with rfl | rfl <;> exact ⟨1, by simp [Dict.keys], rfl⟩
  obtain ⟨st, n, h⟩ := reachX_exists (R := ieee) ⟨1 / 2, id⟩ _ ok
  obtain ⟨st', n', h'⟩ := reachX_exists (R := ieee) (hid := Demo.hid) (⟨1 / 2, id⟩ : Cfg3 ℕ ℕ)
    [[(1, .num (.inf true))], [(1, .num (.inf true)), (100, .nom 3)], [(1, .num (.inf true))]]
    (by intro i hi; apply ok; simp at hi ⊢; tauto)
  have k := reachX_mono (fun x hx => XF.Moderate.valid hx) h
  have k' := reachX_mono (fun x hx => XF.Moderate.valid hx) h'
  refine ⟨st, st', n, n', k, (C115_all_floats k).2 ⟨?_, by simp⟩, k', fun e => ?_⟩
  · intro i hi j hj a ha
    simp only [List.mem_cons, List.not_mem_nil, or_false] at hi hj
    have : a ≠ 100 := by rintro rfl; revert ha; decide
    rcases hi with rfl | rfl <;> rcases hj with rfl | rfl <;> simp [Dict.get?, this.symm]
  · exact ((C115_all_floats k').1 e).2 (by simp) [(1, .num (.inf true))] (by simp) 1 true rfl rfl

/-- The history of four instances in rounded arithmetic is not a single concept. -/
example : ∃ st n, Reach3F ieee Demo.hid (⟨1 / 2, id⟩ : Cfg3 ℕ ℕ) st Demo.mixed n ∧ st.root.numConcepts ≠ 1 := by
  obtain ⟨st, n, h⟩ := reach3F_exists ieee ⟨1 / 2, id⟩ Demo.mixed
    fun i hi => ⟨Demo.mixed_float i hi, (Demo.mixed_ok i hi).2⟩
  refine ⟨st, n, h, fun e => ?_⟩
  have := (C115_float h).1 e _ (List.getElem_mem (l := Demo.mixed) (n := 0) (by simp [Demo.mixed])) _
    (List.getElem_mem (l := Demo.mixed) (n := 2) (by simp [Demo.mixed])) 2 rfl
  simp [Demo.mixed, Dict.get?] at this

/-- The running example in any arithmetic: its instances differ. -/
example : ∃ n, CobwebAny Demo.hid Demo.demoTree Demo.insts n ∧ Demo.demoTree.numConcepts ≠ 1 := by
  obtain ⟨n, h⟩ := demo_reach
  exact ⟨n, C94_of_exact h, by decide +kernel⟩

end CF
