/-
C61: what the visualisations show.
-/
import Verif.Spec.Visualize
import Verif.Props.Demo
import Std.Data.String.ToNat

namespace CF
namespace JOb
variable {P : Type}

theorem paths_eq (anc : List (String × P)) (j : JOb P) :
    j.paths anc = (anc, j) :: pathsL ((j.name, j.rest) :: anc) j.children := by
  cases j; rfl

mutual
/-- What is on the way to an object is on the way to those below it. -/
theorem anc_sub1 : ∀ (j : JOb P) (anc : List (String × P)) (x), x ∈ j.paths anc → ∀ p ∈ anc, p ∈ x.1
  | .mk n r cs, anc, x, h, p, hp => by
    rw [paths] at h
    rcases List.mem_cons.1 h with rfl | h
    · exact hp
    · exact anc_sub cs ((n, r) :: anc) x h p (by simp [hp])
theorem anc_sub : ∀ (cs : List (JOb P)) (anc : List (String × P)) (x), x ∈ pathsL anc cs → ∀ p ∈ anc, p ∈ x.1
  | [], _, x, h, _, _ => by simp [pathsL] at h
  | c :: cs, anc, x, h, p, hp => by
    rw [pathsL, List.mem_append] at h
    rcases h with h | h
    · exact anc_sub1 c anc x h p hp
    · exact anc_sub cs anc x h p hp
end

mutual
theorem anc_paths : ∀ (j : JOb P) (anc : List (String × P)) (x), x ∈ pathsL ((j.name, j.rest) :: anc) j.children →
    x.1 ≠ []
  | .mk n r cs, anc, x, h => anc_pathsL cs ((n, r) :: anc) (by simp) x h
theorem anc_pathsL : ∀ (cs : List (JOb P)) (anc : List (String × P)), anc ≠ [] → ∀ x ∈ pathsL anc cs, x.1 ≠ []
  | [], _, _, x, h => by simp [pathsL] at h
  | c :: cs, anc, ha, x, h => by
    rw [pathsL, List.mem_append, paths_eq] at h
    rcases h with h | h
    · rcases List.mem_cons.1 h with rfl | h
      · exact ha
      · exact anc_paths c anc x h
    · exact anc_pathsL cs anc ha x h
end

theorem trimLeaves_eq (j : JOb P) : trimLeaves j = .mk j.name j.rest (trimKids j.children) := by
  cases j; rfl

theorem pathsL_cons (anc : List (String × P)) (c : JOb P) (cs : List (JOb P)) :
    pathsL anc (c :: cs) = c.paths anc ++ pathsL anc cs := rfl

mutual
theorem trimLeaves_paths : ∀ (j : JOb P) (anc : List (String × P)),
    pathsL ((j.name, j.rest) :: anc) (trimKids j.children) =
      ((pathsL ((j.name, j.rest) :: anc) j.children).filter fun x => ¬ x.2.children = []).map
        fun x => (x.1, trimLeaves x.2)
  | .mk n r cs, anc => trimKids_paths cs ((n, r) :: anc)
theorem trimKids_paths : ∀ (cs : List (JOb P)) (anc : List (String × P)),
    pathsL anc (trimKids cs) =
      ((pathsL anc cs).filter fun x => ¬ x.2.children = []).map fun x => (x.1, trimLeaves x.2)
  | [], anc => rfl
  | c :: cs, anc => by
    have h1 := trimLeaves_paths c anc
    have h2 := trimKids_paths cs anc
    rw [trimKids]
    by_cases hc : c.children = []
    · rw [if_neg (by simp [hc]), h2, pathsL_cons, paths_eq, hc]
      simp [pathsL, hc]
    · rw [if_pos (List.length_pos_iff.2 hc), pathsL_cons, h2, pathsL_cons, List.filter_append, List.map_append,
        paths_eq, paths_eq, List.filter_cons_of_pos (by simp [hc]), List.map_cons, ← h1]
      simp [trimLeaves_eq, name, rest, children]
end

mutual
theorem height_trim : ∀ (j : JOb P), (trimLeaves j).height = j.height - 1
  | .mk n r cs => by rw [trimLeaves, height, height, heightL_trim cs]
theorem heightL_trim : ∀ (cs : List (JOb P)), heightL (trimKids cs) = heightL cs - 1
  | [] => rfl
  | c :: cs => by
    have h1 := height_trim c
    have h2 := heightL_trim cs
    rw [trimKids]
    split
    · rename_i h
      have : 1 ≤ c.height := by
        obtain ⟨n, r, ks⟩ := c
        cases ks with
        | nil => simp [children] at h
        | cons k ks => rw [height, heightL]; omega
      rw [heightL, h1, h2, heightL]
      omega
    · rename_i h
      have : c.height = 0 := by
        obtain ⟨n, r, ks⟩ := c
        cases ks with
        | nil => rfl
        | cons k ks => simp [children] at h
      rw [h2, heightL, this]
      omega
end

theorem height_pos {j : JOb P} : ¬ j.children = [] ↔ 1 ≤ j.height := by
  obtain ⟨n, r, cs⟩ := j
  cases cs with
  | nil => simp [children, height, heightL]
  | cons c cs => simp only [children, height, heightL]; simp

theorem trim_paths (j : JOb P) : (trimLeaves j).paths [] =
    ((j.paths []).filter fun x => x.1 = [] ∨ 1 ≤ x.2.height).map fun x => (x.1, trimLeaves x.2) := by
  rw [paths_eq, paths_eq, List.filter_cons_of_pos (by simp), List.map_cons, trimLeaves_eq]
  refine congrArg₂ List.cons rfl ?_
  rw [← trimLeaves_eq]
  show pathsL ((name (trimLeaves j), rest (trimLeaves j)) :: []) (children (trimLeaves j)) = _
  rw [trimLeaves_eq, name, rest, children, trimLeaves_paths]
  congr 1
  refine List.filter_congr fun x hx => ?_
  simp only [anc_paths j [] x hx, false_or, height_pos]

theorem trims_paths (k : ℕ) (j : JOb P) : (trimLeaves^[k] j).paths [] =
    ((j.paths []).filter fun x => x.1 = [] ∨ k ≤ x.2.height).map fun x => (x.1, trimLeaves^[k] x.2) := by
  induction k generalizing j with
  | zero =>
    simp
  | succ k ih =>
    rw [Function.iterate_succ_apply, ih, trim_paths, List.filter_map, List.filter_filter, List.map_map]
    simp only [Function.comp_def, height_trim, Function.iterate_succ_apply]
    congr 1
    refine List.filter_congr fun x hx => ?_
    rw [← Bool.decide_and]
    refine decide_eq_decide.2 ?_
    constructor
    · rintro ⟨h | h, h' | h'⟩
      · exact .inl h
      · exact .inl h
      · exact .inl h'
      · exact .inr (by omega)
    · rintro (h | h)
      · exact ⟨.inl h, .inl h⟩
      · exact ⟨.inr (by omega), .inr (by omega)⟩

theorem trims_own (k : ℕ) (j : JOb P) : (trimLeaves^[k] j).name = j.name ∧ (trimLeaves^[k] j).rest = j.rest := by
  induction k generalizing j with
  | zero => simp
  | succ k ih =>
    rw [Function.iterate_succ_apply]
    obtain ⟨n, r, cs⟩ := j
    exact ih (trimLeaves (.mk n r cs))

mutual
theorem trimTo_paths (clusters : List String) : ∀ (j : JOb P) (anc : List (String × P)),
    (∀ p ∈ anc, p.1 ∉ clusters) → ((trimTo clusters j).paths anc).map shown =
      ((j.paths anc).filter fun x => ∀ p ∈ x.1, p.1 ∉ clusters).map shown
  | .mk n r cs, anc, ha => by
    rw [trimTo, paths, paths, List.filter_cons_of_pos (by simpa using ha), List.map_cons, List.map_cons]
    refine congrArg₂ List.cons rfl ?_
    split
    · rename_i hn
      refine trimToL_paths clusters cs _ ?_
      intro p hp
      rcases List.mem_cons.1 hp with rfl | hp
      · exact hn
      · exact ha p hp
    · rename_i hn
      rw [not_not] at hn
      rw [List.filter_eq_nil_iff.2]
      · rfl
      · intro x hx
        have := anc_sub cs _ x hx (n, r) (by simp)
        simp only [decide_eq_true_eq, not_forall]
        exact ⟨_, this, by simpa using hn⟩
theorem trimToL_paths (clusters : List String) : ∀ (cs : List (JOb P)) (anc : List (String × P)),
    (∀ p ∈ anc, p.1 ∉ clusters) → (pathsL anc (trimToL clusters cs)).map shown =
      ((pathsL anc cs).filter fun x => ∀ p ∈ x.1, p.1 ∉ clusters).map shown
  | [], anc, _ => rfl
  | c :: cs, anc, ha => by
    rw [trimToL, pathsL_cons, List.map_append, trimTo_paths clusters c anc ha, trimToL_paths clusters cs anc ha,
      pathsL_cons, List.filter_append, List.map_append]
end

end JOb

variable {S P : Type} {entries : S → P}

mutual
theorem output_paths : ∀ (t : Tree S) (anc : List (ℕ × S)), (outputOb entries t).paths (anc.map (writtenNode entries)) =
    (t.ancestry anc).map fun x => (x.1.map (writtenNode entries), outputOb entries x.2)
  | .node id s cs, anc => by
    rw [outputOb, JOb.paths, Tree.ancestry, List.map_cons, outputOb]
    refine congrArg₂ List.cons rfl ?_
    exact outputL_paths cs ((id, s) :: anc)
theorem outputL_paths : ∀ (cs : List (Tree S)) (anc : List (ℕ × S)),
    JOb.pathsL (anc.map (writtenNode entries)) (outputObL entries cs) =
      (Tree.ancestryL anc cs).map fun x => (x.1.map (writtenNode entries), outputOb entries x.2)
  | [], _ => rfl
  | c :: cs, anc => by
    rw [outputObL, JOb.pathsL, output_paths c anc, outputL_paths cs anc, Tree.ancestryL, List.map_append]
end

mutual
theorem output_height : ∀ (t : Tree S), (outputOb entries t).height = t.heightOf
  | .node id s cs => by rw [outputOb, JOb.height, Tree.heightOf, outputL_height cs]
theorem outputL_height : ∀ (cs : List (Tree S)), JOb.heightL (outputObL entries cs) = Tree.heightOfL cs
  | [] => rfl
  | c :: cs => by rw [outputObL, JOb.heightL, Tree.heightOfL, output_height c, outputL_height cs]
end

theorem shown_output (x : List (ℕ × S) × Tree S) :
    shown (x.1.map (writtenNode entries), outputOb entries x.2) = writtenPath entries x := by
  obtain ⟨anc, ⟨id, s, cs⟩⟩ := x
  rfl

/-- **C61**: `visualize` shows the whole tree. -/
theorem C61_visualize (entries : S → P) (t : Tree S) :
    Shows entries t (fun _ _ => True) (visualize entries t) := by
  unfold Shows visualize
  have := output_paths (entries := entries) t []
  rw [List.map_nil] at this
  rw [this, List.map_map]
  simp only [decide_true, List.filter_true]
  exact List.map_congr_left fun x _ => shown_output x

/-- **C61**: `visualize_no_leaves` shows the root and the concepts from which some way down has at least
`cuts` edges; so `_trim_leaves` removes exactly the leaves (other than the root), and the next cut what has
become a leaf. -/
theorem C61_no_leaves (entries : S → P) (t : Tree S) (cuts : ℤ) :
    Shows entries t (fun anc x => anc = [] ∨ cuts ≤ x.heightOf) (visualizeNoLeaves entries t cuts) := by
  unfold Shows visualizeNoLeaves
  have h := output_paths (entries := entries) t []
  rw [List.map_nil] at h
  rw [JOb.trims_paths, h, List.filter_map, List.map_map, List.map_map]
  have e : ∀ x : List (ℕ × S) × Tree S, ((fun x : List (String × P) × JOb P =>
      decide (x.1 = [] ∨ cuts.toNat ≤ x.2.height)) ∘ fun x => (x.1.map (writtenNode entries), outputOb entries x.2)) x =
      decide (x.1 = [] ∨ cuts ≤ x.2.heightOf) := by
    intro x
    simp only [Function.comp, output_height, List.map_eq_nil_iff]
    refine decide_eq_decide.2 (or_congr Iff.rfl ?_)
    omega
  rw [List.filter_congr fun x _ => e x]
  refine List.map_congr_left fun x _ => ?_
  rw [← shown_output]
  simp only [Function.comp, shown, (JOb.trims_own cuts.toNat _).1, (JOb.trims_own cuts.toNat _).2]

/-- **C61**, the leaves. -/
theorem C61_trim_leaves (entries : S → P) (t : Tree S) :
    Shows entries t (fun anc x => anc = [] ∨ ¬ x.children.length = 0) (JOb.trimLeaves (outputOb entries t)) := by
  have := C61_no_leaves entries t 1
  have e : ∀ (x : Tree S), (1 : ℤ) ≤ x.heightOf ↔ ¬ x.children.length = 0 := by
    rintro ⟨id, s, cs⟩
    cases cs with
    | nil => simp [Tree.heightOf, Tree.heightOfL]
    | cons c cs => simp [Tree.heightOf, Tree.heightOfL]
  unfold Shows at this ⊢
  simp only [e] at this
  exact this

theorem trimTo_shows (entries : S → P) (t : Tree S) (labels : List String) :
    Shows entries t (fun anc _ => ∀ p ∈ anc, s!"Concept{p.1}" ∉ labels) (JOb.trimTo labels (outputOb entries t)) := by
  unfold Shows
  have h := output_paths (entries := entries) t []
  rw [List.map_nil] at h
  rw [JOb.trimTo_paths _ _ _ (by simp), h, List.filter_map, List.map_map]
  have e : ∀ x : List (ℕ × S) × Tree S, ((fun x : List (String × P) × JOb P =>
      decide (∀ p ∈ x.1, p.1 ∉ labels)) ∘ fun x => (x.1.map (writtenNode entries), outputOb entries x.2)) x =
      decide (∀ p ∈ x.1, s!"Concept{p.1}" ∉ labels) := by
    intro x
    simp only [Function.comp]
    refine decide_eq_decide.2 ?_
    rw [List.forall_mem_map]
    rfl
  rw [List.filter_congr fun x _ => e x]
  exact List.map_congr_left fun x _ => shown_output x

theorem concept_inj {m n : ℕ} : (s!"Concept{m}" : String) = s!"Concept{n}" ↔ m = n := by
  constructor
  · intro h
    have h' : "Concept" ++ toString m = "Concept" ++ toString n := h
    have := congrArg String.toList h'
    rw [String.toList_append, String.toList_append] at this
    exact Nat.repr_injective (String.toList_inj.1 (List.append_cancel_left this))
  · rintro rfl; rfl

theorem labelSet_labels (l : List String) : labelSet (l.map .label) = l := by
  induction l with
  | nil => rfl
  | cons s l ih => simp [labelSet, ih]

/-- **C61**, partial.  Full statement: the same also when the clusters are given as concepts.  That is wrong
(`C61_concepts_ignored`).  When they are given by the labels of the concepts with the given ids (and other
strings that are not labels), exactly the concepts without a proper ancestor among these are shown: the tree
is cut at the clusters. -/
theorem C61_labels_partial (entries : S → P) (t : Tree S) (ids : List ℕ) (junk : List String)
    (hj : ∀ s ∈ junk, ∀ n : ℕ, s ≠ s!"Concept{n}") (hne : ids ≠ [] ∨ junk ≠ []) :
    ∃ j, visualizeClusters entries t ((ids.map fun n => .label s!"Concept{n}") ++ junk.map .label) = .ok j ∧
      Shows entries t (fun anc _ => ∀ p ∈ anc, p.1 ∉ ids) j := by
  have hl : (ids.map fun n => ClusterArg.label s!"Concept{n}") ++ junk.map .label =
      ((ids.map fun n => s!"Concept{n}") ++ junk).map .label := by simp
  rw [hl]
  have hv : ∀ l : List String, l ≠ [] → visualizeClusters entries t (l.map .label) =
      .ok (JOb.trimTo l (outputOb entries t)) := by
    intro l hl
    cases l with
    | nil => exact absurd rfl hl
    | cons s l =>
      rw [List.map_cons, visualizeClusters, ← List.map_cons, labelSet_labels]
  refine ⟨_, hv _ (by simpa [imp_iff_not_or] using hne), ?_⟩
  have := trimTo_shows entries t ((ids.map fun n => s!"Concept{n}") ++ junk)
  unfold Shows at this ⊢
  rw [this]
  congr 1
  refine List.filter_congr fun x _ => decide_eq_decide.2 (forall₂_congr fun p hp => not_congr ?_)
  rw [List.mem_append, List.mem_map]
  constructor
  · rintro (⟨n, hn, e⟩ | h)
    · exact concept_inj.1 e ▸ hn
    · exact absurd rfl (hj _ h p.1)
  · exact fun h => .inl ⟨p.1, h, rfl⟩

theorem digits_ne_concept {m n : ℕ} : (toString m : String) ≠ s!"Concept{n}" := by
  intro h
  have h' : (toString m).toList = ("Concept" ++ toString n).toList := congrArg String.toList h
  rw [String.toList_append] at h'
  have hd : ∀ c ∈ (toString m).toList, c.isDigit := by
    intro c hc
    rw [show toString m = Nat.repr m from rfl] at hc
    exact Nat.isDigit_of_mem_toDigits (b := 10) (by decide) (by decide) (by simpa [Nat.repr] using hc)
  have := hd 'C' (by rw [h']; simp)
  simp at this

theorem conceptIds_eq (ids : List ℕ) : conceptIds (ids.map .concept) = .ok (ids.map toString) := by
  induction ids with
  | nil => rfl
  | cons n l ih => rw [List.map_cons, conceptIds, ih]; rfl

/-- **C61**, the negation for concepts: concepts given as clusters have no effect, the whole tree is shown;
`visualize_clusters` compares the id `"3"` with the name `"Concept3"`. -/
theorem C61_concepts_ignored (entries : S → P) (t : Tree S) (ids : List ℕ) (hne : ids ≠ []) :
    ∃ j, visualizeClusters entries t (ids.map .concept) = .ok j ∧ Shows entries t (fun _ _ => True) j := by
  refine ⟨JOb.trimTo (ids.map toString) (outputOb entries t), ?_, ?_⟩
  · cases ids with
    | nil => exact absurd rfl hne
    | cons n l =>
      rw [List.map_cons, visualizeClusters, ← List.map_cons, conceptIds_eq]; rfl
  · have := trimTo_shows entries t (ids.map toString)
    unfold Shows at this ⊢
    rw [this]
    congr 1
    refine List.filter_congr fun x _ => decide_eq_decide.2 (iff_of_true ?_ trivial)
    intro p _ hm
    obtain ⟨n, -, e⟩ := List.mem_map.1 hm
    exact digits_ne_concept e

/-- So a tree cut at its root, given as a concept, is not shown as the root alone. -/
theorem C61_concepts_not_cut (entries : S → P) (id : ℕ) (s : S) (c : Tree S) (cs : List (Tree S)) :
    ¬ ∃ j, visualizeClusters entries (.node id s (c :: cs)) [.concept id] = .ok j ∧
      Shows entries (.node id s (c :: cs)) (fun anc _ => ∀ p ∈ anc, p.1 ∉ [id]) j := by
  rintro ⟨j, e, h⟩
  obtain ⟨j', e', h'⟩ := C61_concepts_ignored entries (.node id s (c :: cs)) [id] (by simp)
  rw [List.map_singleton, e] at e'
  cases e'
  unfold Shows at h h'
  rw [h] at h'
  have hl := congrArg List.length h'
  obtain ⟨ci, cst, ccs⟩ := c
  simp only [decide_true, List.filter_true, List.length_map] at hl
  have := (List.length_filter_eq_length_iff (l := (Tree.node id s (.node ci cst ccs :: cs)).ancestry [])).1 hl
    ([(id, s)], .node ci cst ccs) (by simp [Tree.ancestry, Tree.ancestryL])
  simp at this

/-- **C61**: without clusters the call fails. -/
theorem C61_no_clusters (entries : S → P) (t : Tree S) : visualizeClusters entries t [] = .error .indexErr := rfl

/-- A label after a concept is asked for its `concept_id`. -/
theorem C61_mixed (entries : S → P) (t : Tree S) (id : ℕ) (s : String) (cs : List ClusterArg) :
    visualizeClusters entries t (.concept id :: .label s :: cs) = .error .attrErr := rfl

/-- Concepts after a label are not used. -/
theorem C61_concepts_after_label (entries : S → P) (t : Tree S) (s : String) (ids : List ℕ) :
    visualizeClusters entries t (.label s :: ids.map .concept) = visualizeClusters entries t [.label s] := by
  have : ∀ l : List ℕ, labelSet (l.map .concept) = [] := by
    intro l
    induction l with
    | nil => rfl
    | cons n l ih => exact ih
  simp only [visualizeClusters, labelSet, this]

namespace Demo

/-- A tree with concepts 4, 0, 1, 2 and 3; the tables are numbers. -/
def vizTree : Tree ℕ := .node 4 10 [.node 0 7 [.node 1 4 [], .node 2 3 []], .node 3 3 []]

def vizNames (j : JOb ℕ) : List String := (j.paths []).map fun x => x.2.name

/-- Cut at concept 0, without its leaves, and with concepts as clusters. -/
example : (visualizeClusters id vizTree [.label "Concept0", .label "x"]).toOption.map vizNames =
      some ["Concept4", "Concept0", "Concept3"] ∧
    vizNames (visualizeNoLeaves id vizTree 1) = ["Concept4", "Concept0"] ∧
    (visualizeClusters id vizTree [.concept 0]).toOption.map vizNames =
      some ["Concept4", "Concept0", "Concept1", "Concept2", "Concept3"] := by decide +kernel

/-- A string that is not the name of a concept. -/
example (n : ℕ) : "x" ≠ s!"Concept{n}" := by
  intro h
  have := congrArg String.toList (show "x" = "Concept" ++ toString n from h)
  rw [String.toList_append] at this
  simp at this

end Demo

end CF
