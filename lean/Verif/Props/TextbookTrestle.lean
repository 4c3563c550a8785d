/-
Properties C107 and C108 for TrestleTree: its tree is a textbook tree of the preprocessed instances, and `categorize` finds
a textbook leaf for the preprocessed instance.
-/
import Verif.Props.TextbookPlace
import Verif.Props.TrestleInfer

namespace CF

variable {c : TrestleCfg} {st : TState} {hist : List PyInst}

/-- **C107** for TRESTLE: the objects below the root show a hierarchy that the textbook algorithm can learn from the
preprocessed instances. -/
theorem C107_trestle (hc : c.Ok) (h : TrestleRuns c st hist) :
    ∃ t T, IsTree st.h st.h.root t ∧ Learns3 hid3 c.cobweb3 (hist.map inst3) T ∧ Depicts Summarizes3 t T := by
  obtain ⟨t, n, hr, -, ht⟩ := C57_tree hc h
  obtain ⟨T, h1, h2⟩ := C107_every_tree_is_textbook3 hr
  exact ⟨t, T, ht, h1, h2⟩

/-- **C107** for TRESTLE, one call: the preprocessed instance is sorted as the textbook says. -/
theorem C107_trestle_ifit (hc : c.Ok) (h : TrestleRuns c st hist) {t : Tree (Stats3 Py Py)} (ht : IsTree st.h st.h.root t)
    {T : Hier (Inst3 Py Py)} (hT : Learns3 hid3 c.cobweb3 (hist.map inst3) T) (hd : Depicts Summarizes3 t T) {S : Search}
    (hS : SearchLaws S) {i temp : PyInst} (hw : Py.wf (.dict i)) (hp : (trestlePrep c S st i).1 = .ok temp) {a : ℕ}
    {st' : TState} (he : trestleIfit c S i st = (.ok a, st')) :
    ∃ t' T', IsTree st'.h st'.h.root t' ∧ Depicts Summarizes3 t' T' ∧
      Sorts (value3 hid3 c.cobweb3 (hist.map inst3 ++ [inst3 temp])) (SameVisible hid3) (inst3 temp) T T' := by
  obtain ⟨n, hr, hn⟩ := trestle_reach hc h ht
  have hnd : Dict.Nodup (inst3 temp) := inst3_nodup (prep_vars hc hS hw hp).1
  have hA := C66_ifit_agrees_cobweb3 (trestle_heap hc h) ht (inst3 temp)
  unfold trestleIfit at he
  generalize trestlePrep c S st i = p at hp he
  obtain ⟨q, s⟩ := p
  dsimp only at hp
  subst hp
  dsimp only at he
  split at he
  · simp at he
  · cases ho : ifit3 hid3 c.cobweb3 ⟨t, st.sc⟩ (inst3 temp) st.h.w with
    | error e =>
      rw [ho] at hA
      rw [hA] at he
      simp at he
    | ok o =>
      rw [ho] at hA
      obtain ⟨a', h', r, hrun, h1, -⟩ := hA
      rw [hrun] at he
      cases he
      obtain ⟨T', h2, h3⟩ := C107_ifit_sorts3 hr hT hd hnd ho
      exact ⟨_, T', h1, h3, h2⟩

/-- **C108** for TRESTLE: the object that `categorize` returns has no children and the table of a leaf that the textbook
algorithm can choose for the preprocessed instance. -/
theorem C108_trestle_categorize (hc : c.Ok) (h : TrestleRuns c st hist) {t : Tree (Stats3 Py Py)}
    (ht : IsTree st.h st.h.root t) {T : Hier (Inst3 Py Py)} (hd : Depicts Summarizes3 t T) {S : Search}
    (hS : SearchLaws S) {i temp : PyInst} (hw : Py.wf (.dict i)) (hp : (trestlePrep c S st i).1 = .ok temp) {a : ℕ}
    {st' : TState} (he : trestleCategorize c S i st = (.ok a, st')) :
    ∃ r Y, st.h.objs a = some r ∧ r.children = [] ∧ Summarizes3 r.stats Y.group ∧
      Places (value3 hid3 c.cobweb3 (hist.map inst3)) (inst3 temp) T Y := by
  have hnd : Dict.Nodup (inst3 temp) := inst3_nodup (prep_vars hc hS hw hp).1
  obtain ⟨dt, n, hr, -, hpre, hroot⟩ := heap_rep3 (trestle_heap hc h)
  have : t = dt.erase := ht.unique (hroot ▸ hpre.rep.isTree)
  subst this
  obtain ⟨-, -, hA⟩ := categorizeH_agrees (C := cobweb3Class hid3) (ecg := ecg3H hid3 c.cobweb3 st.sc)
    (fun s => fueled_ecg3 _ s) hpre hroot (inst3 temp)
  unfold trestleCategorize at he
  generalize trestlePrep c S st i = p at hp he
  obtain ⟨q, s⟩ := p
  dsimp only at hp
  subst hp
  dsimp only at he
  split at he
  · simp at he
  · cases ho : categorize (cobweb3Class hid3) (ecg3H hid3 c.cobweb3 st.sc true) dt.erase (inst3 temp) st.h.w with
    | error e =>
      rw [ho] at hA
      dsimp only at hA
      rw [hA] at he
      simp at he
    | ok q =>
      obtain ⟨x, w⟩ := q
      rw [ho] at hA
      obtain ⟨-, y, hy, hye, hy0, hya⟩ := hA
      rw [hya] at he
      cases he
      obtain ⟨Y, h1, h2⟩ := C108_categorize_places3 hr hd hnd (r := (x, w)) ho
      obtain ⟨q, hq⟩ := rep_nodes dt hpre.rep y hy
      refine ⟨_, Y, hq.obj, by simp [hy0], ?_, h1⟩
      have := h2.stats
      rw [← hye, Tree.stats_erase] at this
      exact this

/-- The hypotheses are met by a tree that has been fitted with copies of a structured instance. -/
example : ∃ st hist t T, TrestleRuns demoTrestle st hist ∧ hist.length = 2 ∧ IsTree st.h st.h.root t ∧
    Learns3 hid3 demoTrestle.cobweb3 (hist.map inst3) T ∧ Depicts Summarizes3 t T := by
  obtain ⟨st, hist, h1, h2, -⟩ := C71_histories demoTrestle_ok demoSearch_ok demoSearch_total [demoScene, demoScene]
    (fun i hi => by simp at hi; exact hi ▸ demoScene_fit)
  obtain ⟨t, T, h3, h4, h5⟩ := C107_trestle demoTrestle_ok h1
  exact ⟨st, hist, t, T, h1, h2, h3, h4, h5⟩

end CF
