/-
Pipelines undo their stages in reverse order.
-/
import Verif.Spec.Preprocess

set_option linter.unusedSectionVars false

namespace CF

variable {γ τ : Type} {R : PyInst → PyInst → Prop}

theorem SM.bind_def {σ α β : Type} (m : SM σ α) (f : α → SM σ β) (s : σ) :
    (m >>= f) s = match m s with
      | (.ok a, s') => f a s'
      | (.error e, s') => (.error e, s') := rfl

theorem SM.bind_ok {σ α β : Type} {m : SM σ α} {f : α → SM σ β} {s s' : σ} {b : β}
    (h : (m >>= f) s = (.ok b, s')) : ∃ a s₁, m s = (.ok a, s₁) ∧ f a s₁ = (.ok b, s') := by
  rw [SM.bind_def] at h
  cases e : m s with
  | mk r s₁ =>
    rw [e] at h
    cases r with
    | ok a => exact ⟨a, s₁, rfl, h⟩
    | error x => simp at h

theorem SM.bind_eq {σ α β : Type} {m : SM σ α} {f : α → SM σ β} {s s₁ : σ} {a : α}
    (h : m s = (.ok a, s₁)) : (m >>= f) s = f a s₁ := by
  rw [SM.bind_def, h]

theorem pipeTransform_frame {ps : List (Stage γ τ)} {i o : PyInst} {s s' : γ × (ℕ → τ)}
    (h : pipeTransform ps i s = (.ok o, s')) {a : ℕ} (ha : a ∉ ps.map Stage.addr) : s'.2 a = s.2 a := by
  induction ps generalizing i s with
  | nil => cases h; rfl
  | cons p ps ih =>
    obtain ⟨i₁, s₁, h1, h2⟩ := SM.bind_ok h
    simp only [List.map_cons, List.mem_cons, not_or] at ha
    rw [ih h2 ha.2]
    have : s₁ = ((callAt p.addr (p.cls.transform i)) s).2 := by rw [h1]
    rw [this]
    simp [callAt, ha.1]

theorem pipeUndoLoop_frame {ps : List (Stage γ τ)} {i o : PyInst} {s s' : γ × (ℕ → τ)}
    (h : pipeUndoLoop ps i s = (.ok o, s')) {a : ℕ} (ha : a ∉ ps.map Stage.addr) : s'.2 a = s.2 a := by
  induction ps generalizing i s with
  | nil => cases h; rfl
  | cons p ps ih =>
    obtain ⟨i₁, s₁, h1, h2⟩ := SM.bind_ok h
    simp only [List.map_cons, List.mem_cons, not_or] at ha
    rw [ih h2 ha.2]
    have : s₁ = ((callAt p.addr (p.cls.undo i)) s).2 := by rw [h1]
    rw [this]
    simp [callAt, ha.1]

theorem pipeUndoLoop_append {ps qs : List (Stage γ τ)} {i i₁ o : PyInst} {s s₁ s' : γ × (ℕ → τ)}
    (h : pipeUndoLoop ps i s = (.ok i₁, s₁)) (h' : pipeUndoLoop qs i₁ s₁ = (.ok o, s')) :
    pipeUndoLoop (ps ++ qs) i s = (.ok o, s') := by
  induction ps generalizing i s with
  | nil => cases h; exact h'
  | cons p ps ih =>
    obtain ⟨i₂, s₂, h1, h2⟩ := SM.bind_ok h
    rw [List.cons_append, pipeUndoLoop, SM.bind_eq h1]
    exact ih h2

theorem pipeline_undoes {ps : List (Stage γ τ)} (hn : (ps.map Stage.addr).Nodup) {i : PyInst}
    {s : γ × (ℕ → τ)} (h : StagesUndo R ps i s) : Undoes R (pipeline ps) i s := by
  induction ps generalizing i s with
  | nil =>
    intro o s' e g o' ho
    have e : (Except.ok i, s) = (Except.ok o, s') := e
    cases e
    exact ⟨o', _, rfl, ho⟩
  | cons p ps ih =>
    simp only [List.map_cons, List.nodup_cons] at hn
    intro o s' e g o' ho
    obtain ⟨i₁, s₁, h1, h2⟩ := SM.bind_ok e
    have h1' : p.cls.transform i (s.1, s.2 p.addr) = (.ok i₁, (s₁.1, s₁.2 p.addr)) := by
      unfold callAt at h1
      cases e1 : p.cls.transform i (s.1, s.2 p.addr) with
      | mk r t =>
        rw [e1] at h1
        cases h1
        simp
    have hs₁ : s₁ = (s₁.1, Function.update s.2 p.addr (s₁.2 p.addr)) := by
      have : s₁ = ((callAt p.addr (p.cls.transform i)) s).2 := by rw [h1]
      rw [this]
      simp [callAt]
    have hst := h.2 _ _ h1'
    rw [← hs₁] at hst
    obtain ⟨i₂, s₂, h3, h4⟩ := ih hn.2 hst o s' h2 g o' ho
    have hf1 : s₂.2 p.addr = s'.2 p.addr :=
      pipeUndoLoop_frame h3 (by simpa using hn.1)
    have hf2 : s'.2 p.addr = s₁.2 p.addr := pipeTransform_frame h2 hn.1
    obtain ⟨i₃, s₃, h5, h6⟩ := h.1 _ _ h1' s₂.1 i₂ h4
    rw [← hf2, ← hf1] at h5
    refine ⟨i₃, (s₃.1, Function.update s₂.2 p.addr s₃.2), ?_, h6⟩
    show pipeUndoLoop (p :: ps).reverse o' (g, s'.2) = _
    rw [List.reverse_cons]
    refine pipeUndoLoop_append h3 ?_
    have : callAt p.addr (p.cls.undo i₂) s₂ = (.ok i₃, (s₃.1, Function.update s₂.2 p.addr s₃.2)) := by
      simp [callAt, h5]
    rw [pipeUndoLoop, SM.bind_eq this]
    rfl

/-- Stages that do not depend on their state may be used several times. -/
theorem pipeline_undoesAlways {ps : List (Stage γ τ)} (h : ∀ p ∈ ps, UndoesAlways R p.cls) :
    UndoesAlways R (pipeline ps) := by
  induction ps with
  | nil =>
    intro i s o s' e s₁ o' ho
    have e : (Except.ok i, s) = (Except.ok o, s') := e
    cases e
    exact ⟨o', _, rfl, ho⟩
  | cons p ps ih =>
    intro i s o s' e s₀ o' ho
    obtain ⟨i₁, s₁, h1, h2⟩ := SM.bind_ok e
    obtain ⟨i₂, s₂, h3, h4⟩ := ih (fun q hq => h q (List.mem_cons_of_mem _ hq)) _ _ _ _ h2 s₀ o' ho
    have h1' : ∃ s₃, p.cls.transform i (s.1, s.2 p.addr) = (.ok i₁, s₃) := by
      unfold callAt at h1
      cases e1 : p.cls.transform i (s.1, s.2 p.addr) with
      | mk r t =>
        rw [e1] at h1
        cases h1
        exact ⟨t, rfl⟩
    obtain ⟨s₃, h1'⟩ := h1'
    obtain ⟨i₃, s₄, h5, h6⟩ := h p List.mem_cons_self _ _ _ _ h1' (s₂.1, s₂.2 p.addr) i₂ h4
    refine ⟨i₃, (s₄.1, Function.update s₂.2 p.addr s₄.2), ?_, h6⟩
    show pipeUndoLoop (p :: ps).reverse o' s₀ = _
    rw [List.reverse_cons]
    refine pipeUndoLoop_append h3 ?_
    have : callAt p.addr (p.cls.undo i₂) s₂ = (.ok i₃, (s₄.1, Function.update s₂.2 p.addr s₄.2)) := by
      simp [callAt, h5]
    rw [pipeUndoLoop, SM.bind_eq this]
    rfl

theorem stateless_undoes {f g : PyInst → Res PyInst} {i o : PyInst} (h1 : f i = .ok o) (h2 : g o = .ok i)
    (s : γ × τ) : Undoes (· = ·) (stateless f g : Preproc γ τ) i s := by
  intro o₁ s' e x o' ho
  have e : (f i, s) = (.ok o₁, s') := e
  rw [h1] at e
  cases e
  subst ho
  refine ⟨i, (x, s.2), ?_, rfl⟩
  show (g o, _) = _
  rw [h2]

theorem batch_undoes {σ : Type} {f g : PyInst → SM σ PyInst}
    (h : ∀ i s o s', f i s = (.ok o, s') → ∀ s₁ o', R o o' → ∃ i' s'', g o' s₁ = (.ok i', s'') ∧ R i i') :
    ∀ {is os : List PyInst} {s s' : σ}, batch f is s = (.ok os, s') → ∀ {os' : List PyInst},
      List.Forall₂ R os os' → ∀ s₁, ∃ is' s'', batch g os' s₁ = (.ok is', s'') ∧ List.Forall₂ R is is' := by
  intro is
  induction is with
  | nil =>
    intro os s s' e os' ho s₁
    have e : (Except.ok [], s) = (Except.ok os, s') := e
    cases e
    cases ho
    exact ⟨[], _, rfl, .nil⟩
  | cons i is ih =>
    intro os s s' e os' ho s₁
    obtain ⟨o, s₂, h1, h2⟩ := SM.bind_ok e
    obtain ⟨os₁, s₃, h3, h4⟩ := SM.bind_ok h2
    have h4 : (Except.ok (o :: os₁), s₃) = (Except.ok os, s') := h4
    cases h4
    cases ho with
    | cons hx hxs =>
      obtain ⟨i', s₄, h5, h6⟩ := h _ _ _ _ h1 s₁ _ hx
      obtain ⟨is', s₅, h7, h8⟩ := ih h3 hxs s₄
      refine ⟨i' :: is', s₅, ?_, .cons h6 h8⟩
      rw [batch, SM.bind_eq h5, SM.bind_eq h7]
      rfl

end CF
