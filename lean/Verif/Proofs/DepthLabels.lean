/-
`depth_labels` (cluster.py:91-149) on a store whose links are those of a tree.
-/
import Verif.Proofs.FitAll

set_option linter.unusedSectionVars false

namespace CF
variable {I S σ : Type}

theorem nameOf_obj {h : Heap S} {a : ℕ} {r : Rec S} (e : h.objs a = some r) :
    nameOf h a = .name (conceptName r.cid) := by
  unfold nameOf; rw [e]

/-- The objects on the way from the root to `a`. -/
structure PathTo (h : Heap S) (d a : ℕ) (f : List ℕ) : Prop where
  length : f.length = d + 1
  last : f.getLast? = some a
  at' : ∀ (k : ℕ) c, f[k]? = some c → Below h h.root k c ∧ Below h c (d - k) a

theorem Linked.path {h : Heap S} (L : Linked h) {d a : ℕ} (hb : Below h h.root d a) :
    ∃ f, PathTo h d a f ∧ ∀ fuel, d < fuel → pathUpH fuel a h = (.ok (f.map (nameOf h)).reverse, h) := by
  generalize hroot : h.root = ro at hb
  induction hb with
  | refl =>
    subst hroot
    refine ⟨[h.root], ⟨rfl, rfl, ?_⟩, ?_⟩
    · intro k c hk
      obtain ⟨hk1, hk2⟩ := List.getElem?_eq_some_iff.1 hk
      have h0 : k = 0 := by simp at hk1; omega
      subst h0
      simp at hk2
      subst hk2
      exact ⟨.refl _, .refl _⟩
    · intro fuel hf
      obtain ⟨fuel, rfl⟩ : ∃ n, fuel = n + 1 := ⟨fuel - 1, by omega⟩
      obtain ⟨r, er, hr⟩ := L.root
      unfold pathUpH
      rw [HM.bind_ok' (HM.get_ok er)]
      rw [hr]
      simp [nameOf_obj er]
      rfl
  | @step d b c r hb er hc ih =>
    subst hroot
    obtain ⟨f, hf, hrun⟩ := ih
    obtain ⟨-, r2, er2, -, -, hch⟩ := L.node hb
    rw [er] at er2; cases er2
    obtain ⟨rc, erc, hrc⟩ := hch c hc
    refine ⟨f ++ [c], ⟨by simp [hf.length], by simp, ?_⟩, ?_⟩
    · intro k x hk
      by_cases hlt : k < f.length
      · rw [List.getElem?_append_left hlt] at hk
        obtain ⟨h1, h2⟩ := hf.at' k x hk
        have : d + 1 - k = (d - k) + 1 := by have := hf.length; omega
        rw [this]
        exact ⟨h1, .step h2 er hc⟩
      · have hk1 := (List.getElem?_eq_some_iff.1 hk).1
        have h0 : k = f.length := by simp at hk1; omega
        subst h0
        simp at hk
        subst hk
        rw [hf.length, Nat.sub_self]
        exact ⟨.step hb er hc, .refl _⟩
    · intro fuel hlt
      obtain ⟨fuel, rfl⟩ : ∃ n, fuel = n + 1 := ⟨fuel - 1, by omega⟩
      unfold pathUpH
      rw [HM.bind_ok' (HM.get_ok erc)]
      rw [hrc]
      dsimp only
      rw [HM.bind_ok' (hrun fuel (by omega))]
      simp [nameOf_obj erc]
      rfl

theorem pathsH_ok {h : Heap S} (L : Linked h) : ∀ {leaves : List ℕ},
    (∀ a ∈ leaves, ∃ d, Below h h.root d a) →
    ∃ ds fs, List.Forall₂ (fun a d => Below h h.root d a) leaves ds ∧
      List.Forall₂ (fun (a : ℕ) (p : ℕ × List ℕ) => PathTo h p.1 a p.2) leaves (ds.zip fs) ∧
      ds.length = fs.length ∧
      pathsH leaves h = .ok (fs.map fun f => (f.map (nameOf h)).reverse) := by
  intro leaves
  induction leaves with
  | nil => exact fun _ => ⟨[], [], .nil, .nil, rfl, rfl⟩
  | cons a leaves ih =>
    intro hl
    obtain ⟨d, hd⟩ := hl a (by simp)
    obtain ⟨f, hf, hrun⟩ := L.path hd
    obtain ⟨ds, fs, h1, h2, h3, h4⟩ := ih fun b hb => hl b (by simp [hb])
    refine ⟨d :: ds, f :: fs, .cons hd h1, .cons hf h2, by simp [h3], ?_⟩
    unfold pathsH
    rw [hrun h.next (L.node hd).1, h4]
    rfl

theorem maxDepth_eq (l : List (List Label)) : maxDepth l = (l.map List.length).foldr max 0 := by
  have : ∀ (l : List (List Label)) m,
      l.foldl (fun m labs => if labs.length > m then labs.length else m) m = max m ((l.map List.length).foldr max 0) := by
    intro l
    induction l with
    | nil => intro m; simp
    | cons a l ih =>
      intro m
      rw [List.foldl_cons, ih, List.map_cons, List.foldr_cons]
      split <;> omega
  unfold maxDepth
  rw [this]
  omega

theorem le_foldr_max {l : List ℕ} {a : ℕ} (h : a ∈ l) : a ≤ l.foldr max 0 := by
  induction l with
  | nil => cases h
  | cons b l ih =>
    rw [List.foldr_cons]
    rcases List.mem_cons.1 h with rfl | h
    · omega
    · have := ih h; omega

theorem padTo_spec {h : Heap S} {d a : ℕ} {f : List ℕ} (hf : PathTo h d a f) (hb : Below h h.root d a) {m : ℕ}
    (hm : d < m) : (padTo m ((f.map (nameOf h)).reverse)).length = m ∧
    ∀ n < m, ∃ c, CutAt h n a c ∧ (padTo m ((f.map (nameOf h)).reverse))[n]? = some (nameOf h c) := by
  have e : padTo m ((f.map (nameOf h)).reverse) =
      f.map (nameOf h) ++ List.replicate (m - f.length) (nameOf h a) := by
    unfold padTo
    dsimp only
    rw [List.reverse_reverse, List.getLast?_map, hf.last]
    simp
  rw [e]
  refine ⟨by simp [hf.length]; omega, ?_⟩
  intro n hn
  by_cases hlt : n < f.length
  · refine ⟨f[n], ?_, ?_⟩
    · obtain ⟨h1, h2⟩ := hf.at' n _ (List.getElem?_eq_getElem hlt)
      have : min n d = n := by have := hf.length; omega
      exact ⟨d, hb, by rw [this]; exact h1, by rw [this]; exact h2⟩
    · rw [List.getElem?_append_left (by simpa using hlt)]
      simp [hlt]
  · refine ⟨a, ?_, ?_⟩
    · have : min n d = d := by have := hf.length; omega
      exact ⟨d, hb, by rw [this]; exact hb, by rw [this, Nat.sub_self]; exact .refl _⟩
    · rw [List.getElem?_append_right (by simpa using hlt)]
      simp only [List.length_map]
      rw [List.getElem?_replicate, if_pos (by omega)]

theorem rowAt_ok {α : Type} {n : ℕ} {R : α → Label → Prop} : ∀ {as : List α} {fs : List (List Label)},
    List.Forall₂ (fun a f => ∃ l, R a l ∧ f[n]? = some l) as fs →
    ∃ row, rowAt n fs = .ok row ∧ List.Forall₂ R as row := by
  intro as fs h
  induction h with
  | nil => exact ⟨[], rfl, .nil⟩
  | cons h _ ih =>
    obtain ⟨l, hl, e⟩ := h
    obtain ⟨row, h1, h2⟩ := ih
    refine ⟨l :: row, ?_, .cons hl h2⟩
    unfold rowAt
    rw [e]
    dsimp only
    rw [h1]
    rfl

theorem rowsAt_ok {fs : List (List Label)} {P : ℕ → List Label → Prop} : ∀ {ns : List ℕ},
    (∀ n ∈ ns, ∃ row, rowAt n fs = .ok row ∧ P n row) →
    ∃ rows, rowsAt fs ns = .ok rows ∧ List.Forall₂ P ns rows := by
  intro ns
  induction ns with
  | nil => exact fun _ => ⟨[], rfl, .nil⟩
  | cons n ns ih =>
    intro h
    obtain ⟨row, h1, h2⟩ := h n (by simp)
    obtain ⟨rows, h3, h4⟩ := ih fun m hm => h m (by simp [hm])
    refine ⟨row :: rows, ?_, .cons h2 h4⟩
    unfold rowsAt
    rw [h1, ok_bind, h3]
    rfl

theorem depthLabels_ok {store : σ → Heap S} {fit : I → σ → Res ℕ × σ} {insts : List I} {s s' : σ}
    {leaves : List ℕ} (e : fitAll fit insts s = (.ok leaves, s')) (hne : leaves ≠ []) (L : Linked (store s'))
    (hl : ∀ a ∈ leaves, LeafOf (store s') a) :
    ∃ rows, depthLabels store fit insts s = (.ok rows, s') ∧ DepthTable (store s') leaves rows := by
  obtain ⟨ds, fs, h1, h2, h3, h4⟩ := pathsH_ok L fun a ha => (hl a ha).below
  set h := store s' with hh
  have hlens : (fs.map fun f => (f.map (nameOf h)).reverse).map List.length = ds.map (· + 1) := by
    have : ∀ {leaves ds : List ℕ} {fs : List (List ℕ)},
        List.Forall₂ (fun (a : ℕ) (p : ℕ × List ℕ) => PathTo h p.1 a p.2) leaves (ds.zip fs) →
        ds.length = fs.length → (fs.map fun f => (f.map (nameOf h)).reverse).map List.length = ds.map (· + 1) := by
      intro leaves ds
      induction ds generalizing leaves with
      | nil => intro fs _ h; cases fs with | nil => rfl | cons => cases h
      | cons d ds ih =>
        intro fs hF hlen
        cases fs with
        | nil => cases hlen
        | cons f fs =>
          rw [List.zip_cons_cons] at hF
          cases hF with
          | cons hd hF =>
            have := ih hF (by simpa using hlen)
            rw [List.map_cons, List.map_cons, this, List.map_cons]
            simp [hd.length]
    exact this h2 h3
  have hmax : maxDepth (fs.map fun f => (f.map (nameOf h)).reverse) = ds.foldr max 0 + 1 := by
    rw [maxDepth_eq, hlens]
    have hne' : ds ≠ [] := by
      rintro rfl
      cases h1
      exact hne rfl
    clear h1 h2 h3 h4 hlens
    induction ds with
    | nil => exact absurd rfl hne'
    | cons d ds ih =>
      rw [List.map_cons, List.foldr_cons, List.foldr_cons]
      by_cases h0 : ds = []
      · subst h0; simp
      · rw [ih h0]; omega
  unfold depthLabels
  rw [e]
  dsimp only
  rw [← hh, h4, ok_bind, hmax]
  set m := ds.foldr max 0 + 1 with hm
  have hF : List.Forall₂ (fun a g => g.length = m ∧ ∀ n < m, ∃ c, CutAt h n a c ∧ g[n]? = some (nameOf h c))
      leaves ((fs.map fun f => (f.map (nameOf h)).reverse).map (padTo m)) := by
    have : ∀ {leaves ds : List ℕ} {fs : List (List ℕ)},
        List.Forall₂ (fun a d => Below h h.root d a) leaves ds →
        List.Forall₂ (fun (a : ℕ) (p : ℕ × List ℕ) => PathTo h p.1 a p.2) leaves (ds.zip fs) →
        ds.length = fs.length → (∀ d ∈ ds, d < m) →
        List.Forall₂ (fun a g => g.length = m ∧ ∀ n < m, ∃ c, CutAt h n a c ∧ g[n]? = some (nameOf h c))
          leaves ((fs.map fun f => (f.map (nameOf h)).reverse).map (padTo m)) := by
      intro leaves ds
      induction ds generalizing leaves with
      | nil => intro fs h1 _ h _; cases fs with | nil => cases h1; exact .nil | cons => cases h
      | cons d ds ih =>
        intro fs h1 hF hlen hd
        cases fs with
        | nil => cases hlen
        | cons f fs =>
          rw [List.zip_cons_cons] at hF
          cases hF with
          | cons hp hF =>
            cases h1 with
            | cons hb h1 =>
              exact .cons (padTo_spec hp hb (hd d (by simp)))
                (ih h1 hF (by simpa using hlen) fun x hx => hd x (by simp [hx]))
    refine this h1 h2 h3 fun d hd => ?_
    have := le_foldr_max hd
    omega
  generalize hgs : (fs.map fun f => (f.map (nameOf h)).reverse).map (padTo m) = gs at hF
  cases gs with
  | nil => cases hF; exact absurd rfl hne
  | cons g gs =>
    have hg : g.length = m := by cases hF with | cons h0 _ => exact h0.1
    dsimp only
    rw [hg]
    obtain ⟨rows, hr, hP⟩ := rowsAt_ok (fs := g :: gs) (ns := List.range m)
      (P := fun n row => List.Forall₂ (fun a l => ∃ c, CutAt h n a c ∧ l = nameOf h c) leaves row) (by
        intro n hn
        refine rowAt_ok (R := fun a l => ∃ c, CutAt h n a c ∧ l = nameOf h c) (hF.imp fun a g hg => ?_)
        obtain ⟨c, hc, e⟩ := hg.2 n (List.mem_range.1 hn)
        exact ⟨_, ⟨c, hc, rfl⟩, e⟩)
    rw [hr]
    refine ⟨rows, rfl, ⟨ds, h1, by rw [← hP.length_eq, List.length_range]⟩, fun n row hn => ?_⟩
    obtain ⟨hlt, rfl⟩ := List.getElem?_eq_some_iff.1 hn
    have := hP.get (i := n) (by rw [hP.length_eq]; exact hlt) hlt
    simpa using this

end CF
