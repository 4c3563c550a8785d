/-
Property C33: sampled predictions of Cobweb/3.
-/
import Verif.Props.Cobweb3Predict
import Verif.Props.Utils

namespace CF
variable {A B V : Type} [DecidableEq A] [DecidableEq B] [DecidableEq V] {hid : A → Bool}
  {cfg : Cfg3 A B} {st : State3 A B V} {hist : List (Inst3 A V)} {n : ℕ}

/-- What is returned for a sampled candidate: nothing, the nominal value, or a number drawn from the normal
distribution with the mean and the corrected deviation of the numbers `k`. -/
noncomputable def sampleOutcome (gauss : Gauss) (k : Multiset ℝ) (w : World) :
    Option (Option V) → Option (Val V) × World
  | none => (none, w)
  | some (some v) => (some (.nom v), w)
  | some none => (some (.num (gauss (sampleMean k) (sampleStd k) w).1), (gauss (sampleMean k) (sampleStd k) w).2)

/-- **C33**, 'sampled': with a random number `u` in `[0, 1)`, the candidates (the nominal values recorded, the
numbers as one candidate, and `None` if it is allowed) are drawn with probabilities proportional to their
shares of the stored instances: a candidate is drawn when `u`, scaled to the total share, falls into its interval,
and the intervals cover. A drawn number comes from the normal distribution with the mean and the corrected
deviation of the numbers stored. -/
theorem C33_predict_sampled (h : Reach3 hid cfg st hist n) {x : Tree (Stats3 A V)} (hx : x ∈ st.root.nodes)
    {a : A} (ha : a ∈ x.stats.av.keys) (tie : TieBreak (Option (Option V)) ℝ) (gauss : Gauss) (an : Bool)
    {w : World} (h0 : 0 ≤ w.draw 0) (h1 : w.draw 0 < 1) :
    ∃ m ≤ (hist : Multiset (Inst3 A V)), Summarizes3 x.stats m ∧
      0 < ((x.stats.candidates a an).map (share m a)).sum ∧
      (∀ pre k post, x.stats.candidates a an = pre ++ k :: post →
        (pre.map (share m a)).sum ≤ ((x.stats.candidates a an).map (share m a)).sum * (w.draw 0 : ℝ) →
        ((x.stats.candidates a an).map (share m a)).sum * (w.draw 0 : ℝ) <
          (pre.map (share m a)).sum + share m a k →
        x.stats.predict tie gauss a .sampled an w = .ok (sampleOutcome gauss (nums m a) (w.skip 1) k)) ∧
      ∃ pre k post, x.stats.candidates a an = pre ++ k :: post ∧
        (pre.map (share m a)).sum ≤ ((x.stats.candidates a an).map (share m a)).sum * (w.draw 0 : ℝ) ∧
        ((x.stats.candidates a an).map (share m a)).sum * (w.draw 0 : ℝ) <
          (pre.map (share m a)).sum + share m a k := by
  obtain ⟨m, hs, hle, -, -⟩ := node_sum3 h hx
  have hm : m ≠ 0 := by
    rintro rfl; obtain ⟨i, hi, -⟩ := (hs.attrs a).1 ha; simp at hi
  obtain ⟨t, hg⟩ : ∃ t, x.stats.av.get? a = some t := Option.isSome_iff_exists.1 (Dict.get?_isSome.2 ha)
  have hws : ∀ l : List (Option (Option V)), weightSum (l.map fun o => (o, share m a o)) =
      (l.map (share m a)).sum := by
    intro l; simp [weightSum, Function.comp_def]
  have hnn : ∀ l : List (Option (Option V)), ∀ p ∈ l.map (fun o => (o, share m a o)), 0 ≤ p.2 := by
    intro l p hp
    obtain ⟨o, -, rfl⟩ := List.mem_map.1 hp
    exact share_nonneg m a o
  have hpos : 0 < ((x.stats.candidates a an).map (share m a)).sum := by
    have hne : x.stats.keysOf a ≠ [] := by
      have := candidates3_ne_nil hs ha false
      simpa [Stats3.candidates] using this
    obtain ⟨k, hk⟩ := List.exists_mem_of_ne_nil _ hne
    have h2 := hs.mem_keysOf.1 hk
    refine lt_of_lt_of_le h2 (List.single_le_sum ?_ _ ?_)
    · intro y hy
      obtain ⟨o, -, rfl⟩ := List.mem_map.1 hy
      exact share_nonneg m a o
    · exact List.mem_map_of_mem (by simp [Stats3.candidates, hk])
  have h0' : (0 : ℝ) ≤ ((w.draw 0 : ℚ) : ℝ) := by exact_mod_cast h0
  have h1' : ((w.draw 0 : ℚ) : ℝ) < 1 := by exact_mod_cast h1
  obtain ⟨hd1, hd2, hd3⟩ := C42_draw ((x.stats.candidates a an).map fun o => (o, share m a o))
    ((w.draw 0 : ℚ) : ℝ) h0' h1' (by rw [hws]; exact hpos)
  refine ⟨m, hle, hs, hpos, ?_, ?_⟩
  · intro pre k post e hlo hhi
    have e' : (x.stats.candidates a an).map (fun o => (o, share m a o)) =
        (pre.map fun o => (o, share m a o)) ++ (k, share m a k) :: post.map fun o => (o, share m a o) := by
      rw [e]; simp
    have hpick := C42_interval (pre.map fun o => (o, share m a o)) (post.map fun o => (o, share m a o)) k
      (share m a k) (((x.stats.candidates a an).map (share m a)).sum * ((w.draw 0 : ℚ) : ℝ)) (hnn pre)
      (by rw [hws]; exact hlo) (by rw [hws]; exact hhi)
    rw [← e', ← hws, ← hd1] at hpick
    rw [predict3_known hs hm hg (by decide)]
    simp only [choose, decide_true, if_true, hpick, Except.map, ok_bind]
    rcases k with _ | _ | v
    · rfl
    · have hk : 0 < share m a (some none) := by linarith
      rcases hs.cv a with ⟨hz, -⟩ | ⟨-, c, hc, ho⟩
      · simp [share, hz] at hk
      · have hc' : t.cv = some c := by simpa [Stats3.cvOf, hg] using hc
        simp only [finishPredict, hc', reduceCtorEq, if_false, unbiasedStd_eq ho, ok_bind, sampleOutcome,
          CV.unbiasedMean, ho.mean]
        rfl
    · rfl
  · obtain ⟨pre, c, q, post, e, hlo, hhi, -, -⟩ := C42_selects _ _ (hnn _) hd2 hd3
    obtain ⟨p1, p2, hp, e1, e2⟩ := List.map_eq_append_iff.1 e
    obtain ⟨y, p3, rfl, e3, e4⟩ := List.map_eq_cons_iff.1 e2
    simp only [Prod.mk.injEq] at e3
    obtain ⟨rfl, rfl⟩ := e3
    rw [← e1, hws, hws] at hlo hhi
    exact ⟨p1, y, p3, hp, hlo, hhi⟩

/-- At the root of a mixed history: for the smallest random numbers the first candidate is drawn. -/
example : ∃ st n r, Reach3 Demo.hid (⟨1 / 2, id⟩ : Cfg3 ℕ ℕ) st Demo.mixed n ∧
    st.root.stats.predict (fun _ => .error .typeErr) (fun μ σ w => (μ + σ, w)) 1 .sampled false ⟨fun _ => 0, 0, 0⟩ =
      .ok r ∧ r.1.isSome = true := by
  obtain ⟨st, n, h⟩ := reach3_exists ⟨1 / 2, id⟩ Demo.mixed Demo.mixed_ok
  have hk : (1 : ℕ) ∈ st.root.stats.av.keys :=
    ((C29_every_node h).1.attrs 1).2 ⟨Demo.mixed.head (by simp [Demo.mixed]), by simp [Demo.mixed],
      by simp [Demo.mixed, Dict.keys]⟩
  obtain ⟨m, -, -, -, hall, pre, k, post, e, hlo, hhi⟩ := C33_predict_sampled h (Tree.self_mem_nodes _) hk
    (fun _ => .error .typeErr) (fun μ σ w => (μ + σ, w)) false (w := ⟨fun _ => 0, 0, 0⟩) (by simp [World.draw])
    (by simp [World.draw])
  refine ⟨st, n, _, h, hall pre k post e hlo hhi, ?_⟩
  have : k ∈ st.root.stats.candidates 1 false := by rw [e]; simp
  simp only [Stats3.candidates, Bool.false_eq_true, if_false, List.append_nil, List.mem_map] at this
  obtain ⟨k', -, rfl⟩ := this
  cases k' <;> rfl

end CF
