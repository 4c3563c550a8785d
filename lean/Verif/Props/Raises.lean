/-
C07, C63: exactly when `ifit` and `categorize` raise.
-/
import Verif.Proofs.Raises
import Verif.Props.Score
import Verif.Props.Cobweb3

namespace CF
variable {A V : Type} [DecidableEq A] [DecidableEq V] {hid : A → Bool}

theorem visAttrs_empty {m : Multiset (Inst A V)} (h : ∀ i ∈ m, ¬ HasVisible hid i) : visAttrs hid m = ∅ := by
  ext a
  simp only [visAttrs, Finset.mem_filter, mem_attrsOf, Finset.notMem_empty, iff_false, not_and]
  rintro ⟨i, hi, ha⟩ hv
  exact h i hi ⟨a, ha, by simpa using hv⟩

theorem SameVisible.hasVisible {i j : Inst A V} (h : SameVisible hid i j) (hi : HasVisible hid i) : HasVisible hid j := by
  obtain ⟨a, ha, hv⟩ := hi
  refine ⟨a, ?_, hv⟩
  have := h a hv
  rw [← Dict.get?_isSome, ← this, Dict.get?_isSome]
  exact ha

theorem cobweb_scoresIff : ScoresIff Summarizes (Stats.ecg (K := ℚ) hid) (HasVisible (V := V) hid) :=
  ⟨cobweb_scores ℚ, fun _ _ hs hm => ecg_error hs (visAttrs_empty hm)⟩

section
variable {t : Tree (Stats A V)} {hist : List (Inst A V)} {n : ℕ}

/-- Two instances differ in a visible attribute. -/
def Differ (hid : A → Bool) (hist : List (Inst A V)) : Prop := ∃ j ∈ hist, ∃ k ∈ hist, ¬ SameVisible hid j k

/-- **C07**, exactly: after any successful calls, `ifit` raises if and only if two of the instances fitted so far
differ in a visible attribute and one of them, or the new one, has no visible attribute; the exception is
ZeroDivisionError.  (No two random numbers coincide.) -/
theorem C07_ifit_raises_iff (h : CobwebReach hid t hist n) {i : Inst A V} (hi : Dict.Nodup i) {w : World}
    (hw : Function.Injective w.rnd) :
    (ifit hid t i w = .error .zeroDiv ↔ Differ hid hist ∧ ∃ j ∈ i :: hist, ¬ HasVisible hid j) ∧
    ((∃ o, ifit hid t i w = .ok o) ↔ ¬ (Differ hid hist ∧ ∃ j ∈ i :: hist, ¬ HasVisible hid j)) := by
  have key := cobweb_raises_iff (cobwebLaws hid) (E := (· = Stats.ecg hid)) (fun _ e => e ▸ cobweb_scoresIff)
    (fun _ _ h1 h2 => h1.hasVisible h2) h (fun i w => (C06_ifit_terminates t i w 0).2) rfl hi hw
  have hiff : (ifit hid t i w = .error .zeroDiv ↔ Differ hid hist ∧ ∃ j ∈ i :: hist, ¬ HasVisible hid j) := by
    refine ⟨fun he => ?_, key.1⟩
    by_contra hc
    obtain ⟨o, ho⟩ := key.2 hc
    have he' : cobweb (cobwebClass hid) (Stats.ecg hid) t i w = .error .zeroDiv := he
    rw [ho] at he'
    cases he'
  refine ⟨hiff, ⟨?_, key.2⟩⟩
  rintro ⟨o, ho⟩ hc
  rw [hiff.2 hc] at ho
  cases ho

/-- **C07** for `categorize`, exactly: it raises if and only if two of the fitted instances differ and one of them
has no visible attribute. -/
theorem C07_categorize_raises_iff (h : CobwebReach hid t hist n) {i : Inst A V} (hi : Dict.Nodup i) {w : World}
    (hw : Function.Injective w.rnd) :
    (categorize (cobwebClass hid) (Stats.ecg (K := ℚ) hid) t i w = .error .zeroDiv ↔
      Differ hid hist ∧ ∃ j ∈ hist, ¬ HasVisible hid j) ∧
    ((∃ o, categorize (cobwebClass hid) (Stats.ecg (K := ℚ) hid) t i w = .ok o) ↔
      ¬ (Differ hid hist ∧ ∃ j ∈ hist, ¬ HasVisible hid j)) := by
  have key := categorize_raises_iff (cobwebLaws hid) (E := (· = Stats.ecg (K := ℚ) hid)) (fun _ e => e ▸ cobweb_scoresIff)
    (fun _ _ h1 h2 => h1.hasVisible h2) h (fun i w => C06_categorize_terminates t i w) rfl hi hw
  refine ⟨⟨fun he => ?_, key.1⟩, ⟨?_, key.2⟩⟩
  · by_contra hc
    obtain ⟨o, ho⟩ := key.2 hc
    rw [ho] at he
    cases he
  · rintro ⟨o, ho⟩ hc
    rw [key.1 hc] at ho
    cases ho

/-- A history with an empty instance that raises nothing, and then the call that raises. -/
example : (Demo.run [[], [(1, 1)]]).isOk = true ∧ Differ Demo.hid [[], [(1, 1)]] ∧
    ∃ j ∈ ([[(1, 2)], [], [(1, 1)]] : List (Inst ℕ ℕ)), ¬ HasVisible Demo.hid j := by
  refine ⟨by decide +kernel, ⟨[], by simp, [(1, 1)], by simp, fun h => ?_⟩, [], by simp, ?_⟩
  · have := h 1 (by decide)
    revert this
    decide
  · rintro ⟨a, ha, -⟩
    simp [Dict.keys] at ha

end

section
variable {B : Type} [DecidableEq B] {cfg : Cfg3 A B} {st : State3 A B V} {hist : List (Inst3 A V)} {n : ℕ}

theorem cobweb3_scoresIff {sc : Scales B} {f : B → Multiset ℝ} (hsc : ScalesObs sc f) :
    ScoresIff Summarizes3 (Stats3.ecg hid cfg sc) (HasVisible (V := Val V) hid) :=
  ⟨cobweb3_scores hsc, fun _ _ hs hm => ecg3_error hs (visAttrs_empty hm)⟩

/-- **C63**, exactly: when `ifit` of a Cobweb3Tree raises. -/
theorem C63_ifit_raises_iff (h : Reach3 hid cfg st hist n) {i : Inst3 A V} (hi : Dict.Nodup i) {w : World}
    (hw : Function.Injective w.rnd) :
    (ifit3 hid cfg st i w = .error .zeroDiv ↔ Differ hid hist ∧ ∃ j ∈ i :: hist, ¬ HasVisible hid j) ∧
    ((∃ o, ifit3 hid cfg st i w = .ok o) ↔ ¬ (Differ hid hist ∧ ∃ j ∈ i :: hist, ¬ HasVisible hid j)) := by
  have hsc := scalesObs_update cfg.inner (reach3_scales h) i
  have key := cobweb_raises_iff (cobweb3Laws hid) (E := Scoring3 hid cfg)
    (by rintro _ ⟨sc, f, hsc, rfl⟩; exact cobweb3_scoresIff hsc)
    (fun _ _ h1 h2 => h1.hasVisible h2) (reach3_reach h)
    (fun i w => fueled_cobwebLoop (C := cobweb3Class hid) (inst := i)
          (fueled_ecg3 (hid := hid) (cfg := cfg) _) st.root.numConcepts st.root w le_rfl)
    ⟨_, _, hsc, rfl⟩ hi hw
  simp only [ifit3]
  refine ⟨⟨fun he => ?_, fun hc => ?_⟩, ⟨?_, fun hc => ?_⟩⟩
  · by_contra hc
    obtain ⟨o, ho⟩ := key.2 hc
    rw [ho] at he
    cases he
  · rw [key.1 hc]; rfl
  · rintro ⟨o, ho⟩ hc
    rw [key.1 hc] at ho
    cases ho
  · obtain ⟨o, ho⟩ := key.2 hc
    exact ⟨_, by rw [ho]; rfl⟩

/-- **C63**, exactly: when `categorize` of a Cobweb3Tree raises. -/
theorem C63_categorize_raises_iff (h : Reach3 hid cfg st hist n) {i : Inst3 A V} (hi : Dict.Nodup i) {w : World}
    (hw : Function.Injective w.rnd) :
    (categorize3 hid cfg st i w = .error .zeroDiv ↔ Differ hid hist ∧ ∃ j ∈ hist, ¬ HasVisible hid j) ∧
    ((∃ o, categorize3 hid cfg st i w = .ok o) ↔ ¬ (Differ hid hist ∧ ∃ j ∈ hist, ¬ HasVisible hid j)) := by
  have key := categorize_raises_iff (cobweb3Laws hid) (E := Scoring3 hid cfg)
    (by rintro _ ⟨sc, f, hsc, rfl⟩; exact cobweb3_scoresIff hsc)
    (fun _ _ h1 h2 => h1.hasVisible h2) (reach3_reach h)
    (fun i w => fueled_categorizeLoop (fueled_ecg3 (hid := hid) (cfg := cfg) _) _ _ _ le_rfl)
    ⟨_, _, reach3_scales h, rfl⟩ hi hw
  unfold categorize3
  refine ⟨⟨fun he => ?_, key.1⟩, ⟨?_, key.2⟩⟩
  · by_contra hc
    obtain ⟨o, ho⟩ := key.2 hc
    rw [ho] at he
    cases he
  · rintro ⟨o, ho⟩ hc
    rw [key.1 hc] at ho
    cases ho

end
end CF
