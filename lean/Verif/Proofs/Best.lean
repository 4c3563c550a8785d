/-
`two_best_children` returns children of maximal category utility.
-/
import Verif.Proofs.CU

set_option linter.unusedSectionVars false

namespace CF
section
variable {I S K : Type} [Field K] [LinearOrder K] [IsStrictOrderedRing K]
variable {C : NodeClass I S} {ecg : S → Res K}

theorem key_le_iff {c d : Cand K} :
    c.key ≤ d.key ↔ NotBetter c.rel c.size c.rnd d.rel d.size d.rnd := by
  simp only [Cand.key, NotBetter, Prod.Lex.toLex_le_toLex]

theorem twoBest_optimal {s : S} {cs : List S} {inst : I} {w : World} {b : Best K}
    (hcopy : ∀ c ∈ cs, shallowCopy C c = c) (hcs : shallowCopy C s = s)
    (hincr : ∀ c, C.count (C.incr c inst) = C.count c + 1)
    (h : twoBest C ecg s cs inst w = .ok b) :
    ∃ c1, cs[b.b1]? = some c1 ∧ cuForInsert C ecg s cs b.b1 inst = .ok b.cu ∧
      (∀ k c, cs[k]? = some c → ∃ u, cuForInsert C ecg s cs k inst = .ok u ∧
        NotBetter u (C.count c) (w.draw k) b.cu (C.count c1) (w.draw b.b1)) ∧
      (b.b2 = none ↔ cs.length = 1) ∧
      ∀ j, b.b2 = some j → j ≠ b.b1 ∧ ∃ c2 u2, cs[j]? = some c2 ∧
        cuForInsert C ecg s cs j inst = .ok u2 ∧
        ∀ k c u, k ≠ b.b1 → cs[k]? = some c → cuForInsert C ecg s cs k inst = .ok u →
          NotBetter u (C.count c) (w.draw k) u2 (C.count c2) (w.draw j) := by
  have hidx := twoBest_idx C ecg h
  obtain ⟨cands, c1, rest, const, hc, -, hso, hconst, rfl, hne⟩ := twoBest_spec C ecg h
  obtain ⟨hl, hrange, hmem⟩ := mkCands_spec C ecg hc
  have hp := perm_sortCands cands
  have hpw := pairwise_sortCands cands
  rw [hso] at hp hpw
  set f : K → K := fun r => r / ((C.count s : K) + 1) / (cs.length : K) + const with hf
  have hlenpos : (0 : K) < cs.length := by
    have : cs.length ≠ 0 := by simpa using hne
    exact_mod_cast Nat.pos_of_ne_zero this
  have hmono : ∀ {x y : K}, x < y → f x < f y := by
    intro x y hxy
    simp only [hf]
    have : (0 : K) < (C.count s : K) + 1 := by positivity
    gcongr
  -- every candidate carries the score of inserting into its child
  have hcand : ∀ e ∈ cands, ∃ x, cs[e.idx]? = some x ∧
      cuForInsert C ecg s cs e.idx inst = .ok (f e.rel) ∧ e.size = C.count x ∧
      e.rnd = w.draw e.idx := by
    intro e he
    obtain ⟨x, hx, -, hr, h3, h4⟩ := hmem e he
    rw [Nat.sub_zero] at hx
    exact ⟨x, hx, cuForInsert_eq_relative hcopy hcs hincr hx hr hconst, h3, h4⟩
  have hex : ∀ k c, cs[k]? = some c → ∃ e ∈ cands, e.idx = k := by
    intro k c hk
    obtain ⟨hlt, -⟩ := List.getElem?_eq_some_iff.1 hk
    have : k ∈ cands.map Cand.idx := by rw [hrange]; simpa using hlt
    exact List.mem_map.1 this
  have hnb : ∀ e ∈ cands, ∀ d ∈ cands, e.key ≤ d.key → ∀ x y, cs[e.idx]? = some x →
      cs[d.idx]? = some y → NotBetter (f e.rel) (C.count x) (w.draw e.idx) (f d.rel) (C.count y)
        (w.draw d.idx) := by
    intro e he d hd hk x y hx hy
    obtain ⟨x', hx', -, hs1, hr1⟩ := hcand e he
    obtain ⟨y', hy', -, hs2, hr2⟩ := hcand d hd
    rw [hx] at hx'; cases hx'
    rw [hy] at hy'; cases hy'
    rcases key_le_iff.1 hk with h | ⟨h1, h2⟩
    · exact Or.inl (hmono h)
    · right
      refine ⟨by rw [h1], ?_⟩
      rwa [hs1, hs2, hr1, hr2] at h2
  have hc1 : c1 ∈ cands := hp.mem_iff.1 (by simp)
  obtain ⟨x1, hx1, hu1, -, -⟩ := hcand c1 hc1
  have hhead : ∀ e ∈ cands, e.key ≤ c1.key := by
    intro e he
    rcases List.mem_cons.1 (hp.mem_iff.2 he) with rfl | he
    · exact le_rfl
    · exact (List.pairwise_cons.1 hpw).1 e he
  refine ⟨x1, hx1, hu1, ?_, ?_, ?_⟩
  · intro k c hk
    obtain ⟨e, he, rfl⟩ := hex k c hk
    obtain ⟨x, hx, hu, -, -⟩ := hcand e he
    exact ⟨_, hu, hnb e he c1 hc1 (hhead e he) c x1 hk hx1⟩
  · have := hp.length_eq
    rw [hl] at this
    simp only [Option.map_eq_none_iff, List.head?_eq_none_iff]
    rw [← this]
    simp
  · intro j hj
    refine ⟨(hidx.2 j hj).2, ?_⟩
    cases rest with
    | nil => simp at hj
    | cons c2 rest =>
      simp at hj; subst hj
      have hc2 : c2 ∈ cands := hp.mem_iff.1 (by simp)
      obtain ⟨x2, hx2, hu2, -, -⟩ := hcand c2 hc2
      refine ⟨x2, _, hx2, hu2, ?_⟩
      intro k c u hk hc' hu
      obtain ⟨e, he, rfl⟩ := hex k c hc'
      obtain ⟨x, hx, hu', -, -⟩ := hcand e he
      rw [hu] at hu'; cases hu'
      refine hnb e he c2 hc2 ?_ c x2 hc' hx2
      rcases List.mem_cons.1 (hp.mem_iff.2 he) with rfl | he
      · exact absurd rfl hk
      · rcases List.mem_cons.1 he with rfl | he
        · exact le_rfl
        · exact (List.pairwise_cons.1 (List.pairwise_cons.1 hpw).2).1 e he

end
end CF
