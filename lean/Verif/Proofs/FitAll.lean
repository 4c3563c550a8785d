/-
Fitting or categorising a list of instances, as cluster.py does, returns.
-/
import Verif.Proofs.ClusterIter

set_option linter.unusedSectionVars false

namespace CF
variable {I S K σ : Type} [Field K] [LinearOrder K]

/-- `cobweb` draws from the stream of random numbers but does not change it. -/
theorem cobwebLoop_rnd {C : NodeClass I S} {ecg : S → Res K} {inst : I} :
    ∀ (fuel : ℕ) (t : Tree S) (w : World) (o : Out S),
      cobwebLoop C ecg inst fuel t w = .ok o → o.w.rnd = w.rnd := by
  intro fuel
  induction fuel with
  | zero => intro t w o h; simp [cobwebLoop] at h
  | succ fuel ih =>
    intro t w o h
    match t, h with
    | .node id s [], h =>
      simp only [cobwebLoop] at h
      split at h <;> cases h <;> rfl
    | .node id s (c :: cs'), h =>
      simp only [cobwebLoop, bind_ok] at h
      obtain ⟨⟨b, op, w'⟩, hch, h⟩ := h
      obtain ⟨-, -, -, hrnd⟩ := chooseOp_spec C ecg hch
      generalize c :: cs' = cs at h
      cases op with
      | best =>
        dsimp only at h
        split at h
        · cases h
        · obtain ⟨o', h1, h2⟩ := bind_ok.1 h
          cases h2
          exact (ih _ _ _ h1).trans hrnd
      | new => cases h; exact hrnd
      | merge =>
        dsimp only at h
        split at h
        · cases h
        · split at h
          · obtain ⟨o', h1, h2⟩ := bind_ok.1 h
            cases h2
            exact (ih _ _ _ h1).trans hrnd
          · cases h
      | split =>
        dsimp only at h
        split at h
        · cases h
        · exact (ih _ _ _ h).trans hrnd

theorem fitAll_total {Ok : I → Prop} {R : σ → Prop} {fit : I → σ → Res ℕ × σ}
    (hF : ∀ i s, Ok i → R s → ∃ a s', fit i s = (.ok a, s') ∧ R s') :
    ∀ {insts : List I} {s : σ}, (∀ i ∈ insts, Ok i) → R s → ∃ l s', fitAll fit insts s = (.ok l, s') := by
  intro insts
  induction insts with
  | nil => exact fun _ _ => ⟨[], _, rfl⟩
  | cons i insts ih =>
    intro s hok hR
    obtain ⟨a, s1, e1, hR1⟩ := hF i s (hok i (by simp)) hR
    obtain ⟨l, s2, e2⟩ := ih (fun j hj => hok j (by simp [hj])) hR1
    refine ⟨a :: l, s2, ?_⟩
    unfold fitAll
    rw [e1]
    dsimp only
    rw [e2]

variable {A B V : Type} [DecidableEq A] [DecidableEq B] [DecidableEq V] {hid : A → Bool} {cfg : Cfg3 A B}

/-- The instances have visible attributes and the random numbers differ. -/
def RV (hid : A → Bool) (h : Heap (Stats A V)) : Prop :=
  (∃ dt, RC hid (HasVisible hid) false h dt) ∧ Function.Injective h.w.rnd

def RV3 (hid : A → Bool) (cfg : Cfg3 A B) (s : Heap (Stats3 A V) × Scales B) : Prop :=
  (∃ dt, RC3 hid cfg (HasVisible hid) false s dt) ∧ Function.Injective s.1.w.rnd

theorem fitC_total (mod : Bool) (i : Inst A V) (h : Heap (Stats A V))
    (hi : Dict.Nodup i ∧ HasVisible hid i) (hR : RV hid h) :
    ∃ a h', fitC hid mod i h = (.ok a, h') ∧ RV hid h' := by
  obtain ⟨⟨dt, hR⟩, hw⟩ := hR
  have hR0 := hR
  obtain ⟨g, hist, n, hr, hn, hP, -⟩ := hR
  cases mod with
  | true =>
    obtain ⟨o, ho⟩ := C07_ifit_never_raises_partial hr hP hi.1 hi.2 hw
    have hA := cobwebH_agrees (C := cobwebClass hid) (ecg := fun _ => Stats.ecg (K := ℚ) hid)
      (fun s => fueled_ecg s) g.pre g.root i
    have ho' : cobweb (cobwebClass hid) (Stats.ecg (K := ℚ) hid) dt.erase i h.w = .ok o := ho
    rw [ho'] at hA
    obtain ⟨h', dt', a, hrun, -⟩ := hA
    obtain ⟨o2, -, ho2, -, -, -, hw2, -⟩ := Pre.step (e := fun _ => Stats.ecg (K := ℚ) hid)
      (fun s => fueled_ecg s) g.pre g.root hrun
    rw [ho'] at ho2; cases ho2
    have e : fitC hid true i h = (.ok a, h') := hrun
    obtain ⟨dt2, hR2, -⟩ := rc_fits (HasVisible hid) false true i h dt a h' hi hR0 e
    refine ⟨a, h', e, ⟨dt2, hR2⟩, ?_⟩
    rw [hw2, cobwebLoop_rnd _ _ _ _ ho']
    exact hw
  | false =>
    obtain ⟨⟨t, w⟩, ho⟩ := C07_categorize_never_raises_partial hr hP hi.1 hw
    have hA := categorizeH_agrees (C := cobwebClass hid) (ecg := fun _ => Stats.ecg (K := ℚ) hid)
      (fun s => fueled_ecg s) g.pre g.root i
    rw [ho] at hA
    obtain ⟨-, -, hw2, y, -, -, -, hy⟩ := hA
    have e : fitC hid false i h = (.ok y.addr, (fitC hid false i h).2) := Prod.ext hy rfl
    obtain ⟨dt2, hR2, -⟩ := rc_fits (HasVisible hid) false false i h dt _ _ hi hR0 e
    refine ⟨y.addr, _, e, ⟨dt2, hR2⟩, ?_⟩
    have : (fitC hid false i h).2.w = w := hw2
    rw [this, categorizeLoop_rnd _ _ _ _ ho]
    exact hw

theorem fitC3_total (mod : Bool) (i : Inst3 A V) (s : Heap (Stats3 A V) × Scales B)
    (hi : Dict.Nodup i ∧ HasVisible hid i) (hR : RV3 hid cfg s) :
    ∃ a s', fitC3 hid cfg mod i s = (.ok a, s') ∧ RV3 hid cfg s' := by
  obtain ⟨⟨dt, hR⟩, hw⟩ := hR
  have hR0 := hR
  obtain ⟨h, sc⟩ := s
  obtain ⟨g, hist, n, hr, hn, hP, -⟩ := hR
  cases mod with
  | true =>
    obtain ⟨o, ho⟩ := C63_ifit_never_raises hr hP hi.1 hi.2 hw
    have hA := cobwebH_agrees (C := cobweb3Class hid)
      (ecg := ecg3H hid cfg (updateScales cfg.inner sc i)) (fun s => fueled_ecg3 _ s) g.pre g.root i
    simp only [ifit3, bind_ok] at ho
    obtain ⟨o1, ho1, -⟩ := ho
    have ho1' : cobweb (cobweb3Class hid) (ecg3H hid cfg (updateScales cfg.inner sc i) true) dt.erase i
        h.w = .ok o1 := ho1
    dsimp only at hA
    rw [ho1'] at hA
    obtain ⟨h', dt', a, hrun, -⟩ := hA
    obtain ⟨o2, -, ho2, -, -, -, hw2, -⟩ := Pre.step
      (e := ecg3H hid cfg (updateScales cfg.inner sc i)) (fun s => fueled_ecg3 _ s) g.pre g.root hrun
    rw [ho1'] at ho2; cases ho2
    have e : fitC3 hid cfg true i (h, sc) = (.ok a, h', updateScales cfg.inner sc i) := by
      simp only [fitC3, cobweb3H, if_true]; rw [hrun]
    obtain ⟨dt2, hR2, -⟩ := rc3_fits (HasVisible hid) false true i (h, sc) dt a _ hi hR0 e
    refine ⟨a, _, e, ⟨dt2, hR2⟩, ?_⟩
    show Function.Injective h'.w.rnd
    rw [hw2, cobwebLoop_rnd _ _ _ _ ho1']
    exact hw
  | false =>
    obtain ⟨⟨t, w⟩, ho⟩ := C63_categorize_never_raises hr hP hi.1 hw
    have hA := categorizeH_agrees (C := cobweb3Class hid) (ecg := ecg3H hid cfg sc)
      (fun s => fueled_ecg3 _ s) g.pre g.root i
    have ho' : categorize (cobweb3Class hid) (ecg3H hid cfg sc true) dt.erase i h.w = .ok (t, w) := ho
    dsimp only at hA
    rw [ho'] at hA
    obtain ⟨-, -, hw2, y, -, -, -, hy⟩ := hA
    have e : fitC3 hid cfg false i (h, sc) = (.ok y.addr, (fitC3 hid cfg false i (h, sc)).2) := Prod.ext hy rfl
    obtain ⟨dt2, hR2, -⟩ := rc3_fits (HasVisible hid) false false i (h, sc) dt _ _ hi hR0 e
    refine ⟨y.addr, _, e, ⟨dt2, hR2⟩, ?_⟩
    have : (fitC3 hid cfg false i (h, sc)).2.1.w = w := hw2
    rw [this, categorizeLoop_rnd _ _ _ _ ho']
    exact hw

end CF
