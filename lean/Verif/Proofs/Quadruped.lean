/-
What `generateAnimal` draws, for C77.
-/
import Verif.Model.Quadruped
import Mathlib.Tactic.NormNum
import Mathlib.Tactic.Linarith

namespace CF
variable {σ : Type} {R : Source σ}

def InRange (r : ℚ × ℚ) (v : ℚ) : Prop := r.1 ≤ v ∧ v ≤ r.2

theorem draw_bind {α β : Type} {x : Draw σ α} {f : α → Draw σ β} {s : σ} {r : β × σ} :
    (x >>= f) s = some r ↔ ∃ a s', x s = some (a, s') ∧ f a s' = some r := by
  show ((x s).bind fun p => f p.1 p.2) = some r ↔ _
  cases hx : x s with
  | none => simp
  | some p => obtain ⟨a, s'⟩ := p; simp

theorem draw_pure {α : Type} {a : α} {s : σ} {r : α × σ} : (pure a : Draw σ α) s = some r ↔ r = (a, s) := by
  show some (a, s) = some r ↔ _
  rw [Option.some.injEq, eq_comm]

theorem bellrand_range {fuel : ℕ} {r : ℚ × ℚ} {s s' : σ} {v : ℚ} (h : bellrand R fuel r s = some (v, s')) :
    InRange r v := by
  unfold bellrand at h
  induction fuel generalizing s with
  | zero => cases h
  | succ n ih =>
    rw [bellLoop] at h
    dsimp only at h
    split at h
    · exact ih h
    · rename_i hc
      cases h
      push Not at hc
      exact hc

/-- The numbers that are drawn for an animal. -/
structure Measures where
  torsoH : ℚ
  torsoR : ℚ
  torsoT : ℚ
  leglength : ℚ
  axis1 : ℚ
  radius1 : ℚ
  texture1 : ℚ
  radius2 : ℚ
  texture2 : ℚ
  radius3 : ℚ
  texture3 : ℚ
  axis4 : ℚ
  radius4 : ℚ
  texture4 : ℚ
  neckH : ℚ
  neckR : ℚ
  neckT : ℚ
  headY : ℚ
  headH : ℚ
  headR : ℚ
  headT : ℚ
  tailH : ℚ
  tailY : ℚ
  tailZ : ℚ
  tailR : ℚ
  tailT : ℚ

/-- They are in the ranges of the kind. -/
structure Measures.In (m : Measures) (K : AnimalKind) : Prop where
  torsoH : InRange K.torsoHeight m.torsoH
  torsoR : InRange K.torsoRadius m.torsoR
  torsoT : InRange (170, 180) m.torsoT
  leglength : InRange K.legLength m.leglength
  axis1 : InRange K.legAxis m.axis1
  radius1 : InRange K.legRadius m.radius1
  texture1 : InRange (170, 180) m.texture1
  radius2 : InRange K.legRadius m.radius2
  texture2 : InRange (170, 180) m.texture2
  radius3 : InRange K.legRadius m.radius3
  texture3 : InRange (170, 180) m.texture3
  axis4 : InRange K.legAxis m.axis4
  radius4 : InRange K.legRadius m.radius4
  texture4 : InRange (170, 180) m.texture4
  neckH : InRange K.neckHeight m.neckH
  neckR : InRange K.neckRadius m.neckR
  neckT : InRange (170, 180) m.neckT
  headY : InRange (-1, 1) m.headY
  headH : InRange K.headHeight m.headH
  headR : InRange K.headRadius m.headR
  headT : InRange (170, 180) m.headT
  tailH : InRange K.tailHeight m.tailH
  tailY : InRange (-1, 1) m.tailY
  tailZ : InRange K.tailAxisZ m.tailZ
  tailR : InRange K.tailRadius m.tailR
  tailT : InRange (170, 180) m.tailT

/-- The animal with these numbers. -/
def Measures.inst (m : Measures) (K : AnimalKind) : List (Py × Py) :=
  [(.str c!"_type", .str K.name),
    (.str c!"torso", bodyPart c!"torso" 0 0 0 1 0 0 m.torsoH m.torsoR m.torsoT),
    (.str c!"leg1", bodyPart c!"leg1" (m.torsoH / 2) m.torsoR (-m.torsoR - m.leglength / 2) m.axis1 0 (-1) m.leglength m.radius1 m.texture1),
    (.str c!"leg2", bodyPart c!"leg2" (m.torsoH / 2) (-m.torsoR) (-m.torsoR - m.leglength / 2) 0 0 (-1) m.leglength m.radius2 m.texture2),
    (.str c!"leg3", bodyPart c!"leg3" (-m.torsoH / 2) m.torsoR (-m.torsoR - m.leglength / 2) 0 0 (-1) m.leglength m.radius3 m.texture3),
    (.str c!"leg4", bodyPart c!"leg4" (-m.torsoH / 2) (-m.torsoR) (-m.torsoR - m.leglength / 2) m.axis4 0 (-1) m.leglength m.radius4 m.texture4),
    (.str c!"neck",
      if K.upright then
        bodyPart c!"neck" (m.torsoH / 2 + m.neckH / 2.828) 0 (m.torsoR + m.neckH / 2.828) 1 0 1 m.neckH m.neckR m.neckT
      else bodyPart c!"neck" (m.torsoH / 2 + m.neckH / 2) 0 m.torsoR 1 0 1 m.neckH m.neckR m.neckT),
    (.str c!"head",
      if K.upright then
        bodyPart c!"head" (m.torsoH / 2 + m.neckH / 1.414) 0 (m.torsoR + m.neckH / 1.414) 1 m.headY 0 m.headH m.headR m.headT
      else bodyPart c!"head" (m.torsoH / 2 + m.neckH) 0 m.torsoR 1 m.headY 1 m.headH m.headR m.headT),
    (.str c!"tail", bodyPart c!"tail" (-m.torsoH + m.tailH) 0 0 (-1) m.tailY m.tailZ m.tailH m.tailR m.tailT)]

theorem generate_form {fuel : ℕ} {K : AnimalKind} {s s' : σ} {i : List (Py × Py)}
    (h : generateAnimal R fuel K s = some (i, s')) : ∃ m : Measures, m.In K ∧ i = m.inst K := by
  unfold generateAnimal at h
  obtain ⟨torsoH, s1, h1, h⟩ := draw_bind.1 h
  obtain ⟨torsoR, s2, h2, h⟩ := draw_bind.1 h
  obtain ⟨torsoT, s3, h3, h⟩ := draw_bind.1 h
  obtain ⟨leglength, s4, h4, h⟩ := draw_bind.1 h
  obtain ⟨axis1, s5, h5, h⟩ := draw_bind.1 h
  obtain ⟨radius1, s6, h6, h⟩ := draw_bind.1 h
  obtain ⟨texture1, s7, h7, h⟩ := draw_bind.1 h
  obtain ⟨radius2, s8, h8, h⟩ := draw_bind.1 h
  obtain ⟨texture2, s9, h9, h⟩ := draw_bind.1 h
  obtain ⟨radius3, s10, h10, h⟩ := draw_bind.1 h
  obtain ⟨texture3, s11, h11, h⟩ := draw_bind.1 h
  obtain ⟨axis4, s12, h12, h⟩ := draw_bind.1 h
  obtain ⟨radius4, s13, h13, h⟩ := draw_bind.1 h
  obtain ⟨texture4, s14, h14, h⟩ := draw_bind.1 h
  obtain ⟨neckH, s15, h15, h⟩ := draw_bind.1 h
  obtain ⟨neckR, s16, h16, h⟩ := draw_bind.1 h
  obtain ⟨neckT, s17, h17, h⟩ := draw_bind.1 h
  obtain ⟨headY, s18, h18, h⟩ := draw_bind.1 h
  obtain ⟨headH, s19, h19, h⟩ := draw_bind.1 h
  obtain ⟨headR, s20, h20, h⟩ := draw_bind.1 h
  obtain ⟨headT, s21, h21, h⟩ := draw_bind.1 h
  obtain ⟨tailH, s22, h22, h⟩ := draw_bind.1 h
  obtain ⟨tailY, s23, h23, h⟩ := draw_bind.1 h
  obtain ⟨tailZ, s24, h24, h⟩ := draw_bind.1 h
  obtain ⟨tailR, s25, h25, h⟩ := draw_bind.1 h
  obtain ⟨tailT, s26, h26, h⟩ := draw_bind.1 h
  have h := congrArg Prod.fst (draw_pure.1 h)
  exact ⟨⟨torsoH, torsoR, torsoT, leglength, axis1, radius1, texture1, radius2, texture2, radius3, texture3, axis4,
    radius4, texture4, neckH, neckR, neckT, headY, headH, headR, headT, tailH, tailY, tailZ, tailR, tailT⟩,
    ⟨bellrand_range h1, bellrand_range h2, bellrand_range h3, bellrand_range h4, bellrand_range h5,
    bellrand_range h6, bellrand_range h7, bellrand_range h8, bellrand_range h9, bellrand_range h10,
    bellrand_range h11, bellrand_range h12, bellrand_range h13, bellrand_range h14, bellrand_range h15,
    bellrand_range h16, bellrand_range h17, bellrand_range h18, bellrand_range h19, bellrand_range h20,
    bellrand_range h21, bellrand_range h22, bellrand_range h23, bellrand_range h24, bellrand_range h25,
    bellrand_range h26⟩, h⟩

end CF
