/-
C78: what `pretty_print` and `str(tree)` show.
-/
import Verif.Model.Print
import Verif.Props.Datasets
import Verif.Props.Predict
import Verif.Props.Cobweb3
import Verif.Proofs.TreeAux

namespace CF
variable {S A V : Type}

/-! ### Specification -/

/-- `x` is `k` steps below the root of `t`. -/
inductive AtDepth : Tree S → ℕ → Tree S → Prop
  | root (t : Tree S) : AtDepth t 0 t
  | child {id : ℕ} {s : S} {cs : List (Tree S)} {c x : Tree S} {k : ℕ} : c ∈ cs → AtDepth c k x →
      AtDepth (.node id s cs) (k + 1) x

mutual
/-- The nodes in the order parent before children, with their depths. -/
def nodesAt : ℕ → Tree S → List (ℕ × Tree S)
  | d, .node id s cs => (d, .node id s cs) :: nodesAtL (d + 1) cs
def nodesAtL : ℕ → List (Tree S) → List (ℕ × Tree S)
  | _, [] => []
  | d, c :: cs => nodesAt d c ++ nodesAtL d cs
end

/-- The line for a node: as many tabs as its depth, a mark, and the text of the node. -/
def nodeLine (r : S → PStr) (p : ℕ × Tree S) : PStr := List.replicate p.1 '\t' ++ ('|' :: '-' :: r p.2.stats)

mutual
/-- The tree without ids, with other tables. -/
def retable {T : Type} (r : S → T) : Tree S → Tree T
  | .node _ s cs => .node 0 (r s) (retableL r cs)
def retableL {T : Type} (r : S → T) : List (Tree S) → List (Tree T)
  | [] => []
  | c :: cs => retable r c :: retableL r cs
end

theorem nodesAtL_eq (d : ℕ) (cs : List (Tree S)) : nodesAtL d cs = cs.flatMap (nodesAt d) := by
  induction cs with
  | nil => simp [nodesAtL]
  | cons c cs ih => simp [nodesAtL, ih]

theorem nodesAt_node (d id : ℕ) (s : S) (cs : List (Tree S)) :
    nodesAt d (.node id s cs) = (d, .node id s cs) :: cs.flatMap (nodesAt (d + 1)) := by
  rw [nodesAt, nodesAtL_eq]

theorem retableL_eq {T : Type} (r : S → T) (cs : List (Tree S)) : retableL r cs = cs.map (retable r) := by
  induction cs with
  | nil => simp [retableL]
  | cons c cs ih => simp [retableL, ih]

/-- The list has exactly the nodes of the tree, in order, with their depths. -/
theorem nodesAt_nodes (t : Tree S) : ∀ d, (nodesAt d t).map Prod.snd = t.nodes := by
  induction t using Tree.ind with
  | h id s cs ih =>
    intro d
    rw [nodesAt_node, Tree.nodes_node, List.map_cons, List.map_flatMap]
    congr 1
    exact List.flatMap_congr fun c hc => ih c hc (d + 1)

theorem nodesAt_mem (t : Tree S) : ∀ d k x, (k, x) ∈ nodesAt d t ↔ ∃ j, k = d + j ∧ AtDepth t j x := by
  induction t using Tree.ind with
  | h id s cs ih =>
    intro d k x
    rw [nodesAt_node, List.mem_cons, List.mem_flatMap, Prod.mk.injEq]
    constructor
    · rintro (⟨rfl, rfl⟩ | ⟨c, hc, hx⟩)
      · exact ⟨0, rfl, .root _⟩
      · obtain ⟨j, rfl, hj⟩ := (ih c hc _ _ _).1 hx
        exact ⟨j + 1, by omega, .child hc hj⟩
    · rintro ⟨j, rfl, hj⟩
      cases hj with
      | root => exact .inl ⟨rfl, rfl⟩
      | @child _ _ _ c _ j hc hj => exact .inr ⟨c, hc, (ih c hc _ _ _).2 ⟨j, by omega, hj⟩⟩

/-! ### The text -/

/-- **C78**: the text has one line for every node, parents before children and children in order, indented by as
many tabs as the node is deep. -/
theorem C78_text {row : S → Res PStr} {r : S → PStr} (t : Tree S) (h : ∀ x ∈ t.nodes, row x.stats = .ok (r x.stats))
    (d : ℕ) : prettyPrint row d t = .ok ((nodesAt d t).flatMap fun p => nodeLine r p ++ ['\n']) := by
  induction t using Tree.ind generalizing d with
  | h id s cs ih =>
    have hL : ∀ cs' : List (Tree S), (∀ c ∈ cs', c ∈ cs) → ∀ d,
        prettyPrintL row d cs' = .ok ((nodesAtL d cs').flatMap fun p => nodeLine r p ++ ['\n']) := by
      intro cs'
      induction cs' with
      | nil => intro _ d; simp [prettyPrintL, nodesAtL]
      | cons c cs' ih' =>
        intro hc d
        rw [prettyPrintL, ih c (hc c (by simp)) (fun x hx => h x ?_) d, ih' (fun y hy => hc y (by simp [hy])) d]
        · simp only [ok_bind, nodesAtL, List.flatMap_append]; rfl
        · rw [Tree.nodes_node]
          exact List.mem_cons_of_mem _ (List.mem_flatMap.2 ⟨c, hc c (by simp), hx⟩)
    have h0 : row s = .ok (r s) := h (.node id s cs) (by rw [Tree.nodes_node]; simp)
    rw [prettyPrint, h0, hL cs (fun _ h => h) (d + 1)]
    simp [ok_bind, nodesAt, nodeLine]


/-- **C78**: it raises exactly if the text of some node does. -/
theorem C78_raises {row : S → Res PStr} (t : Tree S) (d : ℕ) :
    (∃ s, prettyPrint row d t = .ok s) ↔ ∀ x ∈ t.nodes, ∃ r, row x.stats = .ok r := by
  constructor
  · induction t using Tree.ind generalizing d with
    | h id s cs ih =>
      rintro ⟨o, h⟩
      rw [prettyPrint] at h
      obtain ⟨r, hr, h⟩ := bind_ok.1 h
      obtain ⟨rest, hL, -⟩ := bind_ok.1 h
      have key : ∀ cs' : List (Tree S), (∀ c ∈ cs', c ∈ cs) → ∀ d o, prettyPrintL row d cs' = .ok o →
          ∀ c ∈ cs', ∀ x ∈ c.nodes, ∃ r, row x.stats = .ok r := by
        intro cs'
        induction cs' with
        | nil => intro _ _ _ _ c hc; cases hc
        | cons c cs' ih' =>
          intro hc d o h y hy
          rw [prettyPrintL] at h
          obtain ⟨p, hp, h⟩ := bind_ok.1 h
          obtain ⟨q, hq, -⟩ := bind_ok.1 h
          rcases List.mem_cons.1 hy with rfl | hy
          · exact ih _ (hc _ (by simp)) d ⟨p, hp⟩
          · exact ih' (fun z hz => hc z (by simp [hz])) d q hq y hy
      intro x hx
      rw [Tree.nodes_node] at hx
      rcases List.mem_cons.1 hx with rfl | hx
      · exact ⟨r, hr⟩
      · obtain ⟨c, hc, hx⟩ := List.mem_flatMap.1 hx
        exact key cs (fun _ h => h) _ _ hL c hc x hx
  · intro h
    have hr : ∀ x ∈ t.nodes, row x.stats = .ok (match row x.stats with | .ok r => r | .error _ => []) := by
      intro x hx
      obtain ⟨r, hr⟩ := h x hx
      rw [hr]
    exact ⟨_, C78_text (r := fun s => match row s with | .ok r => r | .error _ => []) t hr d⟩

theorem fileLines_flatMap {α : Type} (f : α → PStr) : ∀ l : List α, (∀ a ∈ l, '\n' ∉ f a) →
    fileLines (l.flatMap fun a => f a ++ ['\n']) = l.map fun a => f a ++ ['\n']
  | [], _ => rfl
  | a :: l, h => by
    rw [List.flatMap_cons, List.append_assoc, List.singleton_append, fileLines_line _ _ (h a (by simp)),
      fileLines_flatMap f l (fun b hb => h b (by simp [hb])), List.map_cons]

theorem nodeLine_noNewline {r : S → PStr} {p : ℕ × Tree S} (h : '\n' ∉ r p.2.stats) : '\n' ∉ nodeLine r p := by
  simp only [nodeLine, List.mem_append, List.mem_replicate, List.mem_cons, not_or]
  exact ⟨by simp, by decide, by decide, h⟩

/-- **C78**: read back line by line, the text has as many lines as `num_concepts`. -/
theorem C78_lines {row : S → Res PStr} {r : S → PStr} (t : Tree S)
    (h : ∀ x ∈ t.nodes, row x.stats = .ok (r x.stats) ∧ '\n' ∉ r x.stats) :
    ∃ text, treeStr row t = .ok text ∧ fileLines text = (nodesAt 0 t).map (fun p => nodeLine r p ++ ['\n']) ∧
      (fileLines text).length = t.numConcepts := by
  have e : fileLines ((nodesAt 0 t).flatMap fun p => nodeLine r p ++ ['\n']) = _ :=
    fileLines_flatMap _ _ fun p hp => nodeLine_noNewline (h p.2 (by
      rw [← nodesAt_nodes t 0]; exact List.mem_map_of_mem hp)).2
  refine ⟨_, C78_text t (fun x hx => (h x hx).1) 0, e, ?_⟩
  rw [e, List.length_map, ← Tree.length_nodes, ← nodesAt_nodes t 0, List.length_map]

/-! ### The text determines the tree -/

theorem replicate_tab_inj : ∀ (j k : ℕ) (x y : PStr),
    List.replicate j '\t' ++ '|' :: x = List.replicate k '\t' ++ '|' :: y → j = k ∧ x = y
  | 0, 0, _, _, h => ⟨rfl, (List.cons.inj h).2⟩
  | 0, k + 1, _, _, h => by simp [List.replicate_succ] at h
  | j + 1, 0, _, _, h => by simp [List.replicate_succ] at h
  | j + 1, k + 1, x, y, h => by
    simp only [List.replicate_succ, List.cons_append, List.cons.injEq, true_and] at h
    obtain ⟨rfl, rfl⟩ := replicate_tab_inj j k x y h
    exact ⟨rfl, rfl⟩

/-- Depth and text of every node. -/
def depthRows (r : S → PStr) (d : ℕ) (t : Tree S) : List (ℕ × PStr) := (nodesAt d t).map fun p => (p.1, r p.2.stats)

theorem depthRows_node (r : S → PStr) (d id : ℕ) (s : S) (cs : List (Tree S)) :
    depthRows r d (.node id s cs) = (d, r s) :: cs.flatMap (depthRows r (d + 1)) := by
  simp [depthRows, nodesAt_node, List.map_flatMap]
  rfl

theorem depthRows_inj (r : S → PStr) (t : Tree S) : ∀ (t' : Tree S) (d : ℕ) (x y : List (ℕ × PStr)),
    (∀ p ∈ x.head?, p.1 ≤ d) → (∀ p ∈ y.head?, p.1 ≤ d) → depthRows r d t ++ x = depthRows r d t' ++ y →
    retable r t = retable r t' ∧ x = y := by
  induction t using Tree.ind with
  | h id s cs ih =>
    rintro ⟨id', s', cs'⟩ d x y hx hy h
    rw [depthRows_node, depthRows_node, List.cons_append, List.cons_append, List.cons.injEq, Prod.mk.injEq] at h
    obtain ⟨⟨-, hs⟩, h⟩ := h
    have key : ∀ (l : List (Tree S)), (∀ c ∈ l, c ∈ cs) → ∀ (l' : List (Tree S)),
        l.flatMap (depthRows r (d + 1)) ++ x = l'.flatMap (depthRows r (d + 1)) ++ y →
        retableL r l = retableL r l' ∧ x = y := by
      intro l
      induction l with
      | nil =>
        rintro - (_ | ⟨⟨i, s, cs⟩, l'⟩) h
        · exact ⟨rfl, h⟩
        · rw [List.flatMap_cons, depthRows_node] at h
          simp only [List.flatMap_nil, List.nil_append, List.cons_append] at h
          exact absurd (hx _ (by rw [h]; rfl)) (by simp)
      | cons c l ihl =>
        rintro hc (_ | ⟨c', l'⟩) h
        · obtain ⟨i, s, cs⟩ := c
          rw [List.flatMap_cons, depthRows_node] at h
          simp only [List.flatMap_nil, List.nil_append, List.cons_append] at h
          exact absurd (hy _ (by rw [← h]; rfl)) (by simp)
        · rw [List.flatMap_cons, List.flatMap_cons, List.append_assoc, List.append_assoc] at h
          have hd : ∀ (l : List (Tree S)) (x : List (ℕ × PStr)), (∀ p ∈ x.head?, p.1 ≤ d) →
              ∀ p ∈ (l.flatMap (depthRows r (d + 1)) ++ x).head?, p.1 ≤ d + 1 := by
            rintro (_ | ⟨⟨i, s, cs⟩, l⟩) x hx p hp
            · exact (hx p hp).trans (by omega)
            · rw [List.flatMap_cons, depthRows_node] at hp
              simp only [List.cons_append, List.head?_cons, Option.mem_def, Option.some.injEq] at hp
              subst hp
              exact le_refl _
          obtain ⟨h1, h2⟩ := ih c (hc c (by simp)) c' (d + 1) _ _ (hd l x hx) (hd l' y hy) h
          obtain ⟨h3, h4⟩ := ihl (fun z hz => hc z (by simp [hz])) l' h2
          exact ⟨by rw [retableL, retableL, h1, h3], h4⟩
    obtain ⟨h1, h2⟩ := key cs (fun _ h => h) cs' h
    exact ⟨by rw [retable, retable, hs, h1], h2⟩

/-- **C78**: equal texts come from trees of the same shape with the same text at every node. -/
theorem C78_determines {row : S → Res PStr} {r : S → PStr} {t t' : Tree S}
    (h : ∀ x ∈ t.nodes, row x.stats = .ok (r x.stats) ∧ '\n' ∉ r x.stats)
    (h' : ∀ x ∈ t'.nodes, row x.stats = .ok (r x.stats) ∧ '\n' ∉ r x.stats) :
    treeStr row t = treeStr row t' ↔ retable r t = retable r t' := by
  obtain ⟨s, h1, h2, -⟩ := C78_lines t h
  obtain ⟨s', h1', h2', -⟩ := C78_lines t' h'
  have e : ∀ t : Tree S, (nodesAt 0 t).map (fun p => nodeLine r p ++ ['\n']) =
      (depthRows r 0 t).map fun p => List.replicate p.1 '\t' ++ '|' :: ('-' :: p.2 ++ ['\n']) := by
    intro t
    simp [depthRows, nodeLine]
  have inj : Function.Injective fun p : ℕ × PStr => List.replicate p.1 '\t' ++ '|' :: ('-' :: p.2 ++ ['\n']) := by
    rintro ⟨j, x⟩ ⟨k, y⟩ h
    obtain ⟨rfl, h⟩ := replicate_tab_inj _ _ _ _ h
    simpa using h
  constructor
  · intro he
    rw [h1, h1', Except.ok.injEq] at he
    rw [he] at h2
    have h3 := h2.symm.trans h2'
    rw [e, e] at h3
    have h4 := (List.map_injective_iff.2 inj) h3
    exact (depthRows_inj r t t' 0 [] [] (by simp) (by simp) (by simpa using h4)).1
  · intro he
    have key : ∀ t t' : Tree S, ∀ d, retable r t = retable r t' → depthRows r d t = depthRows r d t' := by
      intro t
      induction t using Tree.ind with
      | h id s cs ih =>
        rintro ⟨id', s', cs'⟩ d he
        rw [retable, retable] at he
        injection he with _ hs hc
        rw [depthRows_node, depthRows_node, hs]
        congr 1
        have : ∀ (l : List (Tree S)), (∀ c ∈ l, c ∈ cs) → ∀ l' : List (Tree S), retableL r l = retableL r l' →
            l.flatMap (depthRows r (d + 1)) = l'.flatMap (depthRows r (d + 1)) := by
          intro l
          induction l with
          | nil => rintro - (_ | ⟨_, _⟩) h <;> simp [retableL] at h ⊢
          | cons c l ihl =>
            rintro hm (_ | ⟨c', l'⟩) h
            · simp [retableL] at h
            · rw [retableL, retableL, List.cons.injEq] at h
              rw [List.flatMap_cons, List.flatMap_cons, ih c (hm c (by simp)) c' _ h.1,
                ihl (fun z hz => hm z (by simp [hz])) l' h.2]
        exact this cs (fun _ h => h) cs' hc
    have h3 := key t t' 0 he
    have h4 : fileLines s = fileLines s' := by rw [h2, h2', e, e, h3]
    rw [treeStr, C78_text t (fun x hx => (h x hx).1), treeStr, C78_text t' (fun x hx => (h' x hx).1),
      Except.ok.injEq]
    have e2 : ∀ t : Tree S, ((nodesAt 0 t).flatMap fun p => nodeLine r p ++ ['\n']) =
        ((nodesAt 0 t).map (fun p => nodeLine r p ++ ['\n'])).flatten := fun t => by rw [List.flatMap_def]
    rw [e2, e2, e, e, h3]


/-! ### The table of a `CobwebTree` node can be read off its line -/

/-- What `repr` of the attributes and values must do: the text ends where the `:` of a dict begins, it does not start
like the end of a dict, and it has no line breaks. -/
structure ReprLaws {α : Type} (f : α → PStr) : Prop where
  delim : ∀ a b x y, f a ++ ':' :: x = f b ++ ':' :: y → a = b ∧ x = y
  brace : ∀ a x y, f a ++ x ≠ '}' :: y
  line : ∀ a, '\n' ∉ f a

/-- A text that is followed by `,` or `}` can be read off. -/
def Readable {β : Type} (v : β → PStr) : Prop :=
  ∀ b b' x y, (x.head? = some ',' ∨ x.head? = some '}') → (y.head? = some ',' ∨ y.head? = some '}') →
    v b ++ x = v b' ++ y → b = b' ∧ x = y

theorem digits_split {l l' x y : PStr} (hl : ∀ c ∈ l, c.isDigit) (hl' : ∀ c ∈ l', c.isDigit)
    (hx : ∀ c ∈ x.head?, ¬ c.isDigit) (hy : ∀ c ∈ y.head?, ¬ c.isDigit) (h : l ++ x = l' ++ y) : l = l' ∧ x = y := by
  induction l generalizing l' with
  | nil =>
    cases l' with
    | nil => exact ⟨rfl, h⟩
    | cons c l' =>
      rw [List.nil_append] at h
      exact absurd (hl' c (by simp)) (hx c (by rw [h]; rfl))
  | cons c l ih =>
    cases l' with
    | nil =>
      rw [List.nil_append] at h
      exact absurd (hl c (by simp)) (hy c (by rw [← h]; rfl))
    | cons c' l' =>
      rw [List.cons_append, List.cons_append, List.cons.injEq] at h
      obtain ⟨rfl, h⟩ := h
      obtain ⟨e, h2⟩ := ih (fun d hd => hl d (by simp [hd])) (fun d hd => hl' d (by simp [hd])) h
      exact ⟨by rw [e], h2⟩

theorem natStr_digit (n : ℕ) : ∀ c ∈ natStr n, c.isDigit := fun _ hc =>
  Nat.isDigit_of_mem_toDigits (b := 10) (by omega) (by omega) hc

theorem natStr_inj : Function.Injective natStr := by
  intro a b h
  have := congrArg (Nat.ofDigitChars 10 · 0) h
  simpa [natStr, Nat.ofDigitChars_ten_toDigits] using this

theorem natStr_readable : Readable natStr := by
  intro a b x y hx hy h
  have nd : ∀ z : PStr, (z.head? = some ',' ∨ z.head? = some '}') → ∀ c ∈ z.head?, ¬ c.isDigit := by
    rintro z (hz | hz) c hc
    · rw [hz] at hc; obtain rfl := Option.some.inj hc; decide
    · rw [hz] at hc; obtain rfl := Option.some.inj hc; decide
  obtain ⟨h1, h2⟩ := digits_split (natStr_digit a) (natStr_digit b) (nd x hx) (nd y hy) h
  exact ⟨natStr_inj h1, h2⟩

/-- The entries of a dict and what follows. -/
theorem dict_read {α β : Type} {k : α → PStr} {v : β → PStr} (hk : ReprLaws k) (hv : Readable v) :
    ∀ (d d' : List (α × β)) (x y : PStr),
    c!", ".intercalate (d.map fun p => k p.1 ++ c!": " ++ v p.2) ++ '}' :: x =
      c!", ".intercalate (d'.map fun p => k p.1 ++ c!": " ++ v p.2) ++ '}' :: y → d = d' ∧ x = y := by
  have brace : ∀ (p : α × β) (l : List (α × β)) (x y : PStr),
      '}' :: y ≠ c!", ".intercalate ((p :: l).map fun p => k p.1 ++ c!": " ++ v p.2) ++ x := by
    intro p l x y h
    cases l with
    | nil =>
      simp only [List.map_cons, List.map_nil, List.intercalate_singleton, List.append_assoc] at h
      exact hk.brace p.1 _ _ h.symm
    | cons q l =>
      simp only [List.map_cons, List.intercalate_cons_cons, List.append_assoc] at h
      exact hk.brace p.1 _ _ h.symm
  intro d
  induction d with
  | nil =>
    rintro (_ | ⟨p, d'⟩) x y h
    · simpa using h
    · exact absurd h (brace _ _ _ _)
  | cons p d ih =>
    rintro (_ | ⟨q, d'⟩) x y h
    · exact absurd h.symm (brace _ _ _ _)
    · have form : ∀ (p : α × β) (d : List (α × β)) (x : PStr), ∃ z : PStr,
          (z.head? = some ',' ∨ z.head? = some '}') ∧
          c!", ".intercalate ((p :: d).map fun p => k p.1 ++ c!": " ++ v p.2) ++ '}' :: x =
            k p.1 ++ ':' :: ' ' :: (v p.2 ++ z) ∧
          ((d = [] ∧ z = '}' :: x) ∨ (d ≠ [] ∧
            z = ',' :: ' ' :: (c!", ".intercalate (d.map fun p => k p.1 ++ c!": " ++ v p.2) ++ '}' :: x))) := by
        rintro p (_ | ⟨q, d⟩) x
        · exact ⟨'}' :: x, .inr rfl, by simp, .inl ⟨rfl, rfl⟩⟩
        · exact ⟨_, .inl rfl, by simp [List.intercalate_cons_cons], .inr ⟨by simp, rfl⟩⟩
      obtain ⟨z, hz, ez, cz⟩ := form p d x
      obtain ⟨z', hz', ez', cz'⟩ := form q d' y
      rw [ez, ez'] at h
      obtain ⟨e1, h1⟩ := hk.delim _ _ _ _ h
      obtain ⟨e2, h2⟩ := hv _ _ _ _ hz hz' (List.cons.inj h1).2
      obtain rfl : p = q := Prod.ext e1 e2
      subst h2
      rcases cz with ⟨rfl, e⟩ | ⟨_, e⟩ <;> rcases cz' with ⟨rfl, e'⟩ | ⟨_, e'⟩
      · exact ⟨rfl, (List.cons.inj (e.symm.trans e')).2⟩
      · exact absurd (List.cons.inj (e.symm.trans e')).1 (by decide)
      · exact absurd (List.cons.inj (e.symm.trans e')).1 (by decide)
      · have h := e.symm.trans e'
        simp only [List.cons.injEq, true_and] at h
        obtain ⟨rfl, rfl⟩ := ih _ _ _ h
        exact ⟨rfl, rfl⟩

theorem dictStr_read {α β : Type} {k : α → PStr} {v : β → PStr} (hk : ReprLaws k) (hv : Readable v)
    {d d' : Dict α β} {x y : PStr} (h : dictStr k v d ++ x = dictStr k v d' ++ y) : d = d' ∧ x = y := by
  rw [dictStr, dictStr, List.cons_append, List.cons_append, List.append_assoc, List.append_assoc] at h
  exact dict_read hk hv _ _ _ _ (List.cons.inj h).2

theorem dictStr_line {α β : Type} {k : α → PStr} {v : β → PStr} (hk : ReprLaws k) (hv : ∀ b, '\n' ∉ v b)
    (d : Dict α β) : '\n' ∉ dictStr k v d := by
  have : ∀ l : List (α × β), '\n' ∉ c!", ".intercalate (l.map fun p => k p.1 ++ c!": " ++ v p.2) := by
    intro l
    induction l with
    | nil => simp
    | cons p l ih =>
      cases l with
      | nil => simp [hk.line, hv]
      | cons q l =>
        rw [List.map_cons, List.map_cons, List.intercalate_cons_cons]
        simp only [List.mem_append, not_or]
        exact ⟨⟨⟨⟨hk.line _, by decide⟩, hv _⟩, by decide⟩, ih⟩
  simp only [dictStr, List.mem_cons, List.mem_append, not_or]
  exact ⟨by decide, this d, by decide⟩

theorem natStr_line (n : ℕ) : '\n' ∉ natStr n := fun h => absurd (natStr_digit n _ h) (by decide)

theorem countStr_line (n : ℕ) : '\n' ∉ countStr n := by
  rw [countStr, List.mem_append, not_or]
  exact ⟨natStr_line n, by decide⟩

theorem countStr_inj : Function.Injective countStr := fun _ _ h => natStr_inj (List.append_cancel_right h)

section
variable {reprA : A → PStr} {reprV : V → PStr}

/-- The text of a node has no line break. -/
theorem row_line (ha : ReprLaws reprA) (hv : ReprLaws reprV) (s : Stats A V) : '\n' ∉ s.row reprA reprV := by
  simp only [Stats.row, List.mem_append, not_or]
  exact ⟨⟨dictStr_line ha (fun d => dictStr_line hv natStr_line d) _, by decide⟩, countStr_line _⟩

/-- The text of a node determines its count and its table. -/
theorem row_inj (ha : ReprLaws reprA) (hv : ReprLaws reprV) : Function.Injective (Stats.row reprA reprV) := by
  rintro ⟨n, av⟩ ⟨n', av'⟩ h
  simp only [Stats.row, List.append_assoc] at h
  obtain ⟨e, h2⟩ := dictStr_read ha (fun b b' x y _ _ h => dictStr_read hv natStr_readable h) h
  rw [e, countStr_inj (List.cons.inj h2).2]

theorem retable_inj {T T' : Type} {f : S → T} {g : T → T'} (hg : Function.Injective g) (t : Tree S) :
    ∀ t' : Tree S, retable (fun s => g (f s)) t = retable (fun s => g (f s)) t' → retable f t = retable f t' := by
  induction t using Tree.ind with
  | h id s cs ih =>
    rintro ⟨id', s', cs'⟩ h
    rw [retable, retable] at h
    injection h with _ hs hc
    have key : ∀ l : List (Tree S), (∀ c ∈ l, c ∈ cs) → ∀ l' : List (Tree S),
        retableL (fun s => g (f s)) l = retableL (fun s => g (f s)) l' → retableL f l = retableL f l' := by
      intro l
      induction l with
      | nil => rintro - (_ | ⟨_, _⟩) h <;> simp [retableL] at h ⊢
      | cons c l ihl =>
        rintro hm (_ | ⟨c', l'⟩) h
        · simp [retableL] at h
        · rw [retableL, retableL, List.cons.injEq] at h
          rw [retableL, retableL, ih c (hm c (by simp)) c' h.1, ihl (fun z hz => hm z (by simp [hz])) l' h.2]
    rw [retable, retable, hg hs, key cs (fun _ h => h) cs' hc]

/-- **C78**: `str` of a `CobwebTree` never raises, and two trees have the same text exactly if they have the same
shape and, node by node, the same counts and the same dicts in the same order; only the ids are not shown. -/
theorem C78_cobweb (ha : ReprLaws reprA) (hv : ReprLaws reprV) (t t' : Tree (Stats A V)) :
    (∃ text, treeStr (fun s => .ok (s.row reprA reprV)) t = .ok text ∧ (fileLines text).length = t.numConcepts) ∧
    (treeStr (fun s => .ok (s.row reprA reprV)) t = treeStr (fun s => .ok (s.row reprA reprV)) t' ↔
      retable id t = retable id t') := by
  have h : ∀ t : Tree (Stats A V), ∀ x ∈ t.nodes,
      (fun s : Stats A V => (.ok (s.row reprA reprV) : Res PStr)) x.stats = .ok (Stats.row reprA reprV x.stats) ∧
        '\n' ∉ Stats.row reprA reprV x.stats := fun t x _ => ⟨rfl, row_line ha hv _⟩
  constructor
  · obtain ⟨s, h1, -, h2⟩ := C78_lines (row := fun s : Stats A V => .ok (s.row reprA reprV)) t (h t)
    exact ⟨s, h1, h2⟩
  · rw [C78_determines (row := fun s : Stats A V => .ok (s.row reprA reprV)) (h t) (h t')]
    constructor
    · exact retable_inj (f := id) (row_inj ha hv) t t'
    · intro e
      have comp : ∀ t : Tree (Stats A V), retable (Stats.row reprA reprV) t =
          retable (Stats.row reprA reprV) (retable id t) := by
        intro t
        induction t using Tree.ind with
        | h i s cs ih =>
          rw [retable, retable, retable]
          congr 1
          rw [retableL_eq, retableL_eq, retableL_eq, List.map_map]
          exact List.map_congr_left fun c hc => ih c hc
      rw [comp t, comp t', e]

end

/-! ### `repr` of strings meets the assumptions -/

/-- The escapes of `repr` inside quotes `q`, for printable characters and line breaks. -/
def pyEsc (q : Char) : PStr → PStr
  | [] => []
  | c :: s => (if c = '\\' then c!"\\\\" else if c = q then ['\\', q] else if c = '\n' then c!"\\n" else [c]) ++ pyEsc q s

/-- `repr` of a string of printable characters and line breaks: in single quotes, or in double quotes if that saves
escapes. -/
def pyRepr (s : PStr) : PStr :=
  let q := if '\'' ∈ s ∧ '"' ∉ s then '"' else '\''
  q :: (pyEsc q s ++ [q])

theorem pyEsc_inj (q : Char) (hq : q = '\'' ∨ q = '"') : ∀ (s s' : PStr) (x y : PStr),
    pyEsc q s ++ q :: x = pyEsc q s' ++ q :: y → s = s' ∧ x = y := by
  have hne : q ≠ '\\' ∧ q ≠ 'n' := by rcases hq with rfl | rfl <;> decide
  have head : ∀ (c : Char) (s : PStr) (x y : PStr), q :: x ≠ pyEsc q (c :: s) ++ y := by
    intro c s x y h
    rw [pyEsc] at h
    split_ifs at h with h1 h2 h3
    · exact hne.1 (List.cons.inj h).1
    · exact hne.1 (List.cons.inj h).1
    · exact hne.1 (List.cons.inj h).1
    · exact h2 (List.cons.inj h).1.symm
  intro s
  induction s with
  | nil =>
    rintro (_ | ⟨c', s'⟩) x y h
    · exact ⟨rfl, (List.cons.inj h).2⟩
    · exact absurd h (head _ _ _ _)
  | cons c s ih =>
    rintro (_ | ⟨c', s'⟩) x y h
    · exact absurd h.symm (head _ _ _ _)
    · rw [pyEsc, pyEsc] at h
      have key : c = c' ∧ pyEsc q s ++ q :: x = pyEsc q s' ++ q :: y := by
        have a1 : q ≠ '\\' := hne.1
        have a2 : q ≠ 'n' := hne.2
        have a3 : ('n' : Char) ≠ '\\' := by decide
        split_ifs at h with h1 h2 h3 h4 h5 h6 h7 h8 h9 h10 h11 h12 <;>
          simp only [List.cons_append, List.nil_append, List.cons.injEq] at h <;> grind
      obtain ⟨e, h2⟩ := ih _ _ _ key.2
      exact ⟨by rw [key.1, e], h2⟩

theorem pyRepr_laws : ReprLaws pyRepr where
  delim s s' x y h := by
    rw [pyRepr, pyRepr] at h
    have hq : ∀ s : PStr, (if '\'' ∈ s ∧ '"' ∉ s then '"' else '\'') = '\'' ∨
        (if '\'' ∈ s ∧ '"' ∉ s then '"' else '\'') = '"' := by
      intro s
      split_ifs <;> simp
    have h1 := hq s
    generalize (if '\'' ∈ s ∧ '"' ∉ s then '"' else '\'') = q at h h1
    generalize (if '\'' ∈ s' ∧ '"' ∉ s' then '"' else '\'') = q' at h
    simp only [List.cons_append, List.append_assoc, List.nil_append, List.cons.injEq] at h
    obtain ⟨rfl, h⟩ := h
    obtain ⟨e, h2⟩ := pyEsc_inj q h1 _ _ _ _ h
    exact ⟨e, (List.cons.inj h2).2⟩
  brace s x y h := by
    rw [pyRepr] at h
    have := (List.cons.inj h).1
    split_ifs at this <;> exact absurd this (by decide)
  line s := by
    have : ∀ q ≠ '\n', ∀ s, '\n' ∉ pyEsc q s := by
      intro q hq s
      induction s with
      | nil => simp [pyEsc]
      | cons c s ih =>
        rw [pyEsc, List.mem_append, not_or]
        refine ⟨?_, ih⟩
        split_ifs with h1 h2 h3
        · decide
        · simp [hq.symm]
        · decide
        · simpa using Ne.symm h3
    rw [pyRepr]
    split_ifs <;> simp only [List.mem_cons, List.mem_append, not_or] <;>
      exact ⟨by decide, this _ (by decide) s, by decide, by simp⟩

/-- A text of three lines. -/
example : (treeStr (fun s => .ok (s.row pyRepr pyRepr))
    (.node 3 (⟨2, [(c!"x", [(c!"a", 1), (c!"b'", 1)])]⟩ : Stats PStr PStr)
      [.node 1 ⟨1, [(c!"x", [(c!"a", 1)])]⟩ [], .node 2 ⟨1, [(c!"x", [(c!"b'", 1)])]⟩ []])).map String.ofList =
    .ok "|-{'x': {'a': 1, \"b'\": 1}}:2.0\n\t|-{'x': {'a': 1}}:1.0\n\t|-{'x': {\"b'\": 1}}:1.0\n" := by
  decide +kernel

/-! ### `Cobweb3Tree` -/

section
variable {B : Type} [DecidableEq A] [DecidableEq V] [DecidableEq B]
variable {hid : A → Bool} {cfg : Cfg3 A B} {st : State3 A B V} {hist : List (Inst3 A V)} {n : ℕ}
variable {fmt : ℝ → PStr} {strA : A → PStr} {strV : V → PStr}

/-- **C78**: a `ContinuousValue` shows the mean, the corrected standard deviation and the number of its values. -/
theorem C78_number {c : CV ℝ} {m : Multiset ℝ} (h : c.Obs m) :
    c.repr fmt = .ok (fmt (sampleMean m) ++ c!" (" ++ fmt (sampleStd m) ++ c!") [" ++ natStr (Multiset.card m) ++ c!"]") := by
  rw [CV.repr, unbiasedStd_eq h, ok_bind, CV.unbiasedMean, h.mean, h.num]
  rfl

/-- The text of the values of an attribute, from the numbers seen. -/
noncomputable def valueTexts (fmt : ℝ → PStr) (strV : V → PStr) (t : Tab V) (m : Multiset ℝ) : List PStr :=
  (t.noms.map fun q => c!"'" ++ strV q.1 ++ c!"': " ++ natStr q.2) ++
    if m = 0 then [] else [c!"'#ContinuousValue#': " ++ fmt (sampleMean m) ++ c!" (" ++ fmt (sampleStd m) ++ c!") [" ++
      natStr (Multiset.card m) ++ c!"]"]

/-- The text of a node, from the instances it summarises. -/
noncomputable def rowText (fmt : ℝ → PStr) (strA : A → PStr) (strV : V → PStr) (s : Stats3 A V)
    (m : Multiset (Inst3 A V)) : PStr :=
  c!"{" ++ c!", ".intercalate (s.av.map fun p =>
    c!"'" ++ strA p.1 ++ c!"': {" ++ c!", ".intercalate (valueTexts fmt strV p.2 (nums m p.1)) ++ c!"}") ++ c!"}: " ++
    countStr (Multiset.card m)

/-- The text of a node that summarises instances. -/
theorem Stats3.row_eq {s : Stats3 A V} {m : Multiset (Inst3 A V)} (h : Summarizes3 s m) :
    s.row fmt strA strV = .ok (rowText fmt strA strV s m) := by
  have ht : ∀ p ∈ s.av, p.2.texts fmt strV = .ok (valueTexts fmt strV p.2 (nums m p.1)) := by
    intro p hp
    have e : s.cvOf p.1 = p.2.cv := by
      rw [Stats3.cvOf, Dict.get?_of_mem h.nodup.1 hp]
      rfl
    rw [Tab.texts, valueTexts]
    rcases h.cv p.1 with ⟨h0, h1⟩ | ⟨h0, c, h1, h2⟩
    · rw [← e, h1, if_pos h0, List.append_nil]
      rfl
    · rw [← e, h1, if_neg h0]
      simp only [C78_number h2, ok_bind, List.append_assoc]
      rfl
  have key : ∀ l : List (A × Tab V), (∀ p ∈ l, p ∈ s.av) → attrTexts fmt strA strV l = .ok (l.map fun p =>
      c!"'" ++ strA p.1 ++ c!"': {" ++ c!", ".intercalate (valueTexts fmt strV p.2 (nums m p.1)) ++ c!"}") := by
    intro l
    induction l with
    | nil => intro _; rfl
    | cons p l ih =>
      intro hl
      rw [attrTexts, ht p (hl p (by simp)), ih fun q hq => hl q (by simp [hq])]
      rfl
  rw [Stats3.row, key _ fun _ h => h, ok_bind, rowText, h.count]
  rfl

/-- **C78**: `str` of a reachable `Cobweb3Tree` never raises; if the texts of names, values and numbers have no line
breaks then it has one line per concept. -/
theorem C78_cobweb3 (h : Reach3 hid cfg st hist n) :
    ∃ text, treeStr (Stats3.row fmt strA strV) st.root = .ok text ∧
      ((∀ x, '\n' ∉ fmt x) → (∀ a, '\n' ∉ strA a) → (∀ v, '\n' ∉ strV v) →
        (fileLines text).length = st.root.numConcepts) := by
  have hr := (C29_every_node h).2
  obtain ⟨text, ht⟩ := (C78_raises (row := Stats3.row fmt strA strV) st.root 0).2 fun x hx => by
    obtain ⟨m, -, hm⟩ := hr x hx
    exact ⟨_, Stats3.row_eq hm⟩
  refine ⟨text, ht, fun h1 h2 h3 => ?_⟩
  have inter : ∀ l : List PStr, (∀ x ∈ l, '\n' ∉ x) → '\n' ∉ c!", ".intercalate l := by
    intro l
    induction l with
    | nil => intro _; simp
    | cons p l ih =>
      intro hl
      cases l with
      | nil => simpa using hl
      | cons q l =>
        rw [List.intercalate_cons_cons, List.mem_append, List.mem_append, not_or, not_or]
        exact ⟨⟨hl p (by simp), by decide⟩, ih fun x hx => hl x (by simp [hx])⟩
  have hrow : ∀ (s : Stats3 A V) m, '\n' ∉ rowText fmt strA strV s m := by
    intro s m
    simp only [rowText, List.mem_append, not_or]
    refine ⟨⟨⟨by decide, inter _ fun x hx => ?_⟩, by decide⟩, countStr_line _⟩
    obtain ⟨p, -, rfl⟩ := List.mem_map.1 hx
    simp only [List.mem_append, not_or]
    refine ⟨⟨⟨⟨by decide, h2 _⟩, by decide⟩, inter _ fun x hx => ?_⟩, by decide⟩
    rw [valueTexts, List.mem_append] at hx
    rcases hx with hx | hx
    · obtain ⟨q, -, rfl⟩ := List.mem_map.1 hx
      simp only [List.mem_append, not_or]
      exact ⟨⟨⟨by decide, h3 _⟩, by decide⟩, natStr_line _⟩
    · split_ifs at hx with h0
      · cases hx
      · rw [List.mem_singleton] at hx
        subst hx
        simp only [List.mem_append, not_or]
        exact ⟨⟨⟨⟨⟨⟨by decide, h1 _⟩, by decide⟩, h1 _⟩, by decide⟩, natStr_line _⟩, by decide⟩
  obtain ⟨text', e1, -, e2⟩ := C78_lines (row := Stats3.row fmt strA strV)
    (r := fun s => match Stats3.row fmt strA strV s with | .ok r => r | .error _ => []) st.root fun x hx => by
      obtain ⟨m, -, hm⟩ := hr x hx
      rw [Stats3.row_eq hm]
      exact ⟨rfl, hrow _ _⟩
  rw [treeStr, ht] at e1
  rw [Except.ok.inj e1]
  exact e2

end

/-- Cobweb/3 with the demo instances and a format that shows nothing. -/
example : ∃ st n text, Reach3 Demo.hid (⟨1 / 2, id⟩ : Cfg3 ℕ ℕ) st Demo.mixed n ∧
    treeStr (Stats3.row (fun _ => c!"?") natStr natStr) st.root = .ok text ∧
    (fileLines text).length = st.root.numConcepts := by
  obtain ⟨st, n, h⟩ := reach3_exists ⟨1 / 2, id⟩ Demo.mixed Demo.mixed_ok
  obtain ⟨text, h1, h2⟩ := C78_cobweb3 (fmt := fun _ => c!"?") (strA := natStr) (strV := natStr) h
  exact ⟨st, n, text, h, h1, h2 (fun _ => by decide) natStr_line natStr_line⟩

/-- **C78** (negation): the line of a `Cobweb3Tree` node does not determine the table, because `pretty_print` puts
quotes around the text of names and values without escaping it.  Fitting the instance with `x: 1` and `y: 2`, or the
one with the single value `1': 1}, 'y': {'2` for `x`, gives the same text. -/
theorem C78_cobweb3_ambiguous (fmt : ℝ → PStr) (hid : PStr → Bool) (cfg : Cfg3 PStr PStr) (w : World) :
    ∃ o o' : Out3 PStr PStr PStr,
      ifit3 hid cfg (emptyState3 hid w) [(c!"x", .nom c!"1"), (c!"y", .nom c!"2")] w = .ok o ∧
      ifit3 hid cfg (emptyState3 hid w) [(c!"x", .nom c!"1': 1}, 'y': {'2")] w = .ok o' ∧
      treeStr (Stats3.row fmt id id) o.state.root = treeStr (Stats3.row fmt id id) o'.state.root ∧
      o.state.root.stats.av.keys ≠ o'.state.root.stats.av.keys := by
  have fit : ∀ i : Inst3 PStr PStr, ifit3 hid cfg (emptyState3 hid w) i w =
      .ok ⟨⟨.node (w.ctr + 1) (Stats3.incr Stats3.fresh i) [], updateScales cfg.inner [] i⟩, w.ctr + 1, w⟩ := by
    intro i
    have e : (Tree.node (w.ctr + 1) (Stats3.fresh : Stats3 PStr PStr) []).numConcepts = 0 + 1 := rfl
    rw [ifit3, emptyState3, emptyTree, cobweb]
    simp only [cobweb3Class, e, cobwebLoop]
    simp [Stats3.fresh]
  refine ⟨_, _, fit _, fit _, ?_, ?_⟩
  · simp [treeStr, prettyPrint, prettyPrintL, Stats3.row, attrTexts, Tab.texts, Stats3.incr, Stats3.fresh, Dict.updAll,
      Dict.get?, Dict.set, Tab.add, Tab.empty, ok_bind, (by decide : natStr 1 = c!"1")]
  · simp [Stats3.incr, Stats3.fresh, Dict.updAll, Dict.get?, Dict.set, Tab.add, Tab.empty, Dict.keys]

end CF
