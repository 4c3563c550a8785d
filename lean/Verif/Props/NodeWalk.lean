/-
C114: the methods of the nodes that call themselves on the children, run on the store.
-/
import Verif.Model.NodeWalk
import Verif.Props.GenExample
import Verif.Props.Print
import Verif.Props.HeapConverse

namespace CF

section
variable {A V S α : Type} {h : Heap S}

/-- A function on addresses gives, with `n` nested calls, exactly the values of a function on the trees of height less
than `n`. -/
def WalkOk (h : Heap S) (n : ℕ) (f : ℕ → Res α) (F : Tree S → Res α) : Prop :=
  ∀ b y, f b = .ok y ↔ ∃ c, IsTree h b c ∧ c.heightOf < n ∧ F c = .ok y

theorem mapRes_walk {n : ℕ} {f : ℕ → Res α} {F : Tree S → Res α} (hf : WalkOk h n f F) :
    ∀ (l : List ℕ) (ys : List α), mapRes f l = .ok ys ↔
      ∃ cs, List.Forall₂ (IsTree h) l cs ∧ (∀ c ∈ cs, c.heightOf < n) ∧ mapRes F cs = .ok ys := by
  intro l
  induction l with
  | nil =>
    intro ys
    constructor
    · intro e
      exact ⟨[], .nil, by simp, e⟩
    · rintro ⟨cs, h1, -, e⟩
      cases h1
      exact e
  | cons a l ih =>
    intro ys
    rw [mapRes]
    constructor
    · intro e
      obtain ⟨y, h1, e⟩ := bind_ok.1 e
      obtain ⟨zs, h2, e⟩ := bind_ok.1 e
      obtain ⟨c, h3, h4, h5⟩ := (hf a y).1 h1
      obtain ⟨cs, h6, h7, h8⟩ := (ih zs).1 h2
      refine ⟨c :: cs, .cons h3 h6, by simpa using ⟨h4, h7⟩, ?_⟩
      rw [mapRes, h5, h8]
      exact e
    · rintro ⟨cs, h1, h2, e⟩
      cases h1 with
      | @cons _ c _ cs h3 h4 =>
        rw [mapRes] at e
        obtain ⟨y, h5, e⟩ := bind_ok.1 e
        obtain ⟨zs, h6, e⟩ := bind_ok.1 e
        rw [(hf a y).2 ⟨c, h3, h2 c (by simp), h5⟩, (ih zs).2 ⟨cs, h4, fun d hd => h2 d (by simp [hd]), h6⟩]
        exact e

theorem heightOf_lt {cs : List (Tree S)} {i : ℕ} {s : S} {n : ℕ} :
    (Tree.node i s cs).heightOf < n + 1 ↔ ∀ c ∈ cs, c.heightOf < n := by
  constructor
  · intro h1 c hc
    have := heightOf_child (id := i) (s := s) hc
    omega
  · intro h1
    rw [Tree.heightOf]
    by_cases hne : cs = []
    · subst hne
      simp [Tree.heightOfL]
    · obtain ⟨c, hc, e⟩ := heightOfL_attained hne
      have := h1 c hc
      omega

/-- One step of such a method. -/
theorem walk_step {β : Type} {n : ℕ} {f : ℕ → Res α} {F : Tree S → Res α} (hf : WalkOk h n f F) {a : ℕ} {r : Rec S}
    (e : h.objs a = some r) (k : List α → Res β) {G : Tree S → Res β}
    (hG : ∀ cs, G (.node r.cid r.stats cs) = mapRes F cs >>= k) (y : β) :
    (mapRes f r.children >>= k) = .ok y ↔ ∃ t, IsTree h a t ∧ t.heightOf < n + 1 ∧ G t = .ok y := by
  constructor
  · intro e1
    obtain ⟨ys, h1, h2⟩ := bind_ok.1 e1
    obtain ⟨cs, h3, h4, h5⟩ := (mapRes_walk hf _ _).1 h1
    refine ⟨_, .mk e h3, heightOf_lt.2 h4, ?_⟩
    rw [hG, h5]
    exact h2
  · rintro ⟨t, h1, h2, h3⟩
    cases h1 with
    | @mk _ r' cs e' h4 =>
      rw [e] at e'
      cases e'
      rw [hG] at h3
      obtain ⟨ys, h5, h6⟩ := bind_ok.1 h3
      rw [(mapRes_walk hf _ _).2 ⟨cs, h4, heightOf_lt.1 h2, h5⟩]
      exact h6

theorem not_isTree {a : ℕ} (e : h.objs a = none) (t : Tree S) : ¬ IsTree h a t := by
  rintro ⟨e', -⟩
  rw [e] at e'
  cases e'

/-! ### `num_concepts` -/

theorem mapRes_pure {β γ : Type} (g : β → γ) (l : List β) : mapRes (fun x => .ok (g x)) l = .ok (l.map g) := by
  induction l with
  | nil => rfl
  | cons x l ih => rw [mapRes, ih]; rfl

theorem numConceptsL_sum (cs : List (Tree S)) : Tree.numConceptsL cs = (cs.map Tree.numConcepts).sum := by
  induction cs with
  | nil => rfl
  | cons c cs ih => simp [Tree.numConceptsL, ih]

/-- **C114**: `num_concepts` returns exactly when the objects reached by the lists of children form a finite tree of which
no node lies as deep as there are nested calls; then it returns the number of nodes. -/
theorem C114_num_concepts (n a k : ℕ) :
    numConceptsH h n a = .ok k ↔ ∃ t, IsTree h a t ∧ t.heightOf < n ∧ t.nodes.length = k := by
  have main : ∀ n, WalkOk h n (numConceptsH h n) (fun t => .ok t.numConcepts) := by
    intro n
    induction n with
    | zero => intro a y; simp [numConceptsH]
    | succ n ih =>
      intro a y
      rw [numConceptsH]
      cases e : h.objs a with
      | none =>
        simp only [reduceCtorEq, false_iff]
        rintro ⟨t, ht, -⟩
        exact not_isTree e t ht
      | some r =>
        refine walk_step ih e (fun counts => pure (1 + counts.sum)) (fun cs => ?_) y
        rw [mapRes_pure, ok_bind, Tree.numConcepts, numConceptsL_sum]
        rfl
  rw [main n a k]
  simp [Tree.length_nodes]

/-! ### `pretty_print` -/

theorem prettyPrintL_flatten {row : S → Res PStr} (d : ℕ) (cs : List (Tree S)) :
    prettyPrintL row d cs = mapRes (prettyPrint row d) cs >>= fun ps => pure ps.flatten := by
  induction cs with
  | nil => rfl
  | cons c cs ih =>
    rw [prettyPrintL, mapRes, ih]
    cases prettyPrint row d c with
    | error e => rfl
    | ok p =>
      cases mapRes (prettyPrint row d) cs with
      | error e => rfl
      | ok ps => rfl

/-- **C114**: `pretty_print` returns a text exactly when the objects form a tree of which no node lies as deep as there are
nested calls, and `pretty_print` of that tree (C78) returns it. -/
theorem C114_pretty_print (row : S → Res PStr) (n d a : ℕ) (text : PStr) :
    prettyPrintH row h n d a = .ok text ↔ ∃ t, IsTree h a t ∧ t.heightOf < n ∧ prettyPrint row d t = .ok text := by
  revert a text
  change WalkOk h n (prettyPrintH row h n d) (prettyPrint row d)
  induction n generalizing d with
  | zero => intro a y; simp [prettyPrintH]
  | succ n ih =>
    intro a y
    rw [prettyPrintH]
    cases e : h.objs a with
    | none =>
      simp only [reduceCtorEq, false_iff]
      rintro ⟨t, ht, -⟩
      exact not_isTree e t ht
    | some r =>
      have key := walk_step (ih (d + 1)) e (fun ps => row r.stats >>= fun ret =>
          pure (List.replicate d '\t' ++ c!"|-" ++ ret ++ c!"\n" ++ ps.flatten))
        (G := fun t => mapRes (prettyPrint row (d + 1)) t.children >>= fun ps => row t.stats >>= fun ret =>
          pure (List.replicate d '\t' ++ c!"|-" ++ ret ++ c!"\n" ++ ps.flatten)) (fun cs => rfl) y
      have swap : ∀ (x : Res PStr) (z : Res (List PStr)) (g : PStr → List PStr → Res PStr),
          (x >>= fun u => z >>= fun v => g u v) = .ok y ↔ (z >>= fun v => x >>= fun u => g u v) = .ok y := by
        intro x z g
        cases x <;> cases z <;> simp [bind, Except.bind]
      refine (swap _ _ fun ret rest => pure (List.replicate d '\t' ++ c!"|-" ++ ret ++ c!"\n" ++ rest.flatten)).trans
        (key.trans ?_)
      refine exists_congr fun t => and_congr_right fun _ => and_congr_right fun _ => ?_
      cases t with
      | node i s cs =>
        rw [prettyPrint, prettyPrintL_flatten, ← swap]
        simp only [Tree.children_node, Tree.stats_node, bind_assoc, pure_bind]

/-- `str` of a node and of a tree take one and two nested calls more. -/
theorem C114_str (row : S → Res PStr) (n a : ℕ) (text : PStr) :
    (nodeStrH row h (n + 1) a = .ok text ↔ ∃ t, IsTree h a t ∧ t.heightOf < n ∧ treeStr row t = .ok text) ∧
    (treeStrH row h (n + 2) = .ok text ↔ ∃ t, IsTree h h.root t ∧ t.heightOf < n ∧ treeStr row t = .ok text) :=
  ⟨C114_pretty_print row n 0 a text, C114_pretty_print row n 0 h.root text⟩

end

/-! ### `output_json` of Cobweb -/

section
variable {A V : Type} [DecidableEq A] [DecidableEq V] {h : Heap (Stats A V)} {strA : A → String} {strV : V → String}

theorem outputJsonL_map (cs : List (Tree (Stats A V))) : outputJsonL strA strV cs = cs.map (outputJson strA strV) := by
  induction cs with
  | nil => rfl
  | cons c cs ih => simp [outputJsonL, ih]

/-- **C114**: `output_json` of a `CobwebNode` returns an object exactly when the objects form a tree of which no node lies
as deep as there are nested calls, and it is the object of that tree (C21). -/
theorem C114_output_json (n a : ℕ) (j : NodeJson) :
    outputJsonH strA strV h n a = .ok j ↔ ∃ t, IsTree h a t ∧ t.heightOf < n ∧ outputJson strA strV t = j := by
  have main : ∀ n, WalkOk h n (outputJsonH strA strV h n) (fun t => .ok (outputJson strA strV t)) := by
    intro n
    induction n with
    | zero => intro a y; simp [outputJsonH]
    | succ n ih =>
      intro a y
      rw [outputJsonH]
      cases e : h.objs a with
      | none =>
        simp only [reduceCtorEq, false_iff]
        rintro ⟨t, ht, -⟩
        exact not_isTree e t ht
      | some r =>
        refine walk_step ih e (fun children => pure (.mk ("Concept" ++ toString r.cid) r.stats.count
          (jsonCounts strA strV r.stats) children)) (fun cs => ?_) y
        rw [mapRes_pure, ok_bind, outputJson, outputJsonL_map]
        rfl
  rw [main n a j]
  simp

/-! ### After fitting -/

/-- **C114**: after at least one instance has been fitted, with as many nested calls as instances, `num_concepts` of the
root returns less than twice the number of instances, `output_json` returns, and with two more `str(tree)` returns a text
with that many lines. -/
theorem C114_fitted {hid : A → Bool} {hist : List (Inst A V)} (hh : CobwebHeap hid h hist) (hne : hist ≠ []) {n : ℕ}
    (hn : hist.length ≤ n) {reprA : A → PStr} {reprV : V → PStr} (ha : ReprLaws reprA) (hv : ReprLaws reprV) :
    ∃ k text j, numConceptsH h n h.root = .ok k ∧ k + 1 ≤ 2 * hist.length ∧ outputJsonH strA strV h n h.root = .ok j ∧
      j.size = hist.length ∧ treeStrH (fun s => .ok (s.row reprA reprV)) h (n + 2) = .ok text ∧
      (fileLines text).length = k := by
  obtain ⟨t, m, hr, -, ht⟩ := C66_store_is_tree hh
  have hs := C72_size hr hne
  have hpos : 0 < hist.length := List.length_pos_iff.2 hne
  have hlt : t.heightOf < n := by have := hs.height; omega
  obtain ⟨text, h1, h2⟩ := (C78_cobweb ha hv t t).1
  refine ⟨t.numConcepts, text, outputJson strA strV t, (C114_num_concepts n _ _).2 ⟨t, ht, hlt, Tree.length_nodes t⟩, ?_,
    (C114_output_json n _ _).2 ⟨t, ht, hlt, rfl⟩, ?_, (C114_str _ n h.root text).2.2 ⟨t, ht, hlt, h1⟩, h2⟩
  · have := hs.concepts; omega
  · rw [show (outputJson strA strV t).size = t.stats.count by cases t; rfl, (C02_root_summarises_history hr).count, Multiset.coe_card]

/-- **C114** for Cobweb/3 (for `output_json` see C113). -/
theorem C114_fitted_cobweb3 {B : Type} [DecidableEq B] {h : Heap (Stats3 A V)} {hid : A → Bool} {cfg : Cfg3 A B}
    {sc : Scales B} {hist : List (Inst3 A V)} (hh : HReach3 hid cfg h sc hist) (hne : hist ≠ []) {n : ℕ}
    (hn : hist.length ≤ n) {fmt : ℝ → PStr} {reprA : A → PStr} {reprV : V → PStr} (hf : ∀ x, '\n' ∉ fmt x)
    (ha : ∀ a, '\n' ∉ reprA a) (hv : ∀ v, '\n' ∉ reprV v) :
    ∃ k text, numConceptsH h n h.root = .ok k ∧ k + 1 ≤ 2 * hist.length ∧
      treeStrH (Stats3.row fmt reprA reprV) h (n + 2) = .ok text ∧ (fileLines text).length = k := by
  obtain ⟨t, m, hr, -, ht⟩ := C66_store_is_tree_cobweb3 hh
  have hs := C72_size_cobweb3 hr hne
  have hpos : 0 < hist.length := List.length_pos_iff.2 hne
  have hlt : t.heightOf < n := by have : t.heightOf ≤ _ := hs.height; omega
  obtain ⟨text, h1, h2⟩ := C78_cobweb3 (fmt := fmt) (strA := reprA) (strV := reprV) hr
  refine ⟨t.numConcepts, text, (C114_num_concepts n _ _).2 ⟨t, ht, hlt, Tree.length_nodes t⟩, ?_,
    (C114_str _ n h.root text).2.2 ⟨t, ht, hlt, h1⟩, h2 hf ha hv⟩
  have : t.numConcepts ≤ _ := hs.concepts
  omega

end

/-! ### The exception -/

section
variable {S : Type} {h : Heap S}

theorem mapRes_error_of {α β : Type} {f : α → Res β} {l : List α} {e : PyErr} (he : mapRes f l = .error e) :
    ∃ x ∈ l, f x = .error e := by
  induction l with
  | nil => cases he
  | cons y l ih =>
    rw [mapRes] at he
    cases hy : f y with
    | error e' =>
      rw [hy] at he
      cases he
      exact ⟨y, by simp, hy⟩
    | ok z =>
      rw [hy, ok_bind] at he
      cases hl : mapRes f l with
      | error e' =>
        rw [hl] at he
        cases he
        obtain ⟨x, hx, h1⟩ := ih hl
        exact ⟨x, by simp [hx], h1⟩
      | ok zs =>
        rw [hl] at he
        cases he

/-- **C114**: on a tree `num_concepts` raises nothing but `RecursionError`, and that exactly when a node lies as deep as
there are nested calls. -/
theorem C114_recursion_error {t : Tree S} {a : ℕ} (ht : IsTree h a t) (n : ℕ) :
    numConceptsH h n a = if t.heightOf < n then .ok t.nodes.length else .error .outOfFuel := by
  split
  · rename_i hn
    exact (C114_num_concepts n a _).2 ⟨t, ht, hn, rfl⟩
  · rename_i hn
    cases e : numConceptsH h n a with
    | ok k =>
      obtain ⟨t', h1, h2, -⟩ := (C114_num_concepts n a k).1 e
      rw [ht.unique h1] at hn
      exact absurd h2 hn
    | error x =>
      clear hn
      suffices x = .outOfFuel by rw [this]
      induction n generalizing a t with
      | zero => cases e; rfl
      | succ n ih =>
        cases ht with
        | @mk _ r cs er hf =>
          rw [numConceptsH, er] at e
          cases hm : mapRes (numConceptsH h n) r.children with
          | ok ks => simp only [hm] at e; cases e
          | error y =>
            simp only [hm] at e
            cases e
            obtain ⟨b, hb, h1⟩ := mapRes_error_of hm
            obtain ⟨k, hk, rfl⟩ := List.mem_iff_getElem.1 hb
            exact ih (hf.get hk (by rw [← hf.length_eq]; exact hk)) h1

/-- `b` is among the children of the object at `a`. -/
def ChildIn (h : Heap S) (a b : ℕ) : Prop := ∃ r, h.objs a = some r ∧ b ∈ r.children

theorem isTree_below {a b : ℕ} (hab : Relation.TransGen (ChildIn h) a b) {t : Tree S} (ht : IsTree h a t) :
    ∃ t', IsTree h b t' ∧ t'.heightOf < t.heightOf := by
  have one : ∀ {a b : ℕ} {t : Tree S}, ChildIn h a b → IsTree h a t → ∃ t', IsTree h b t' ∧ t'.heightOf < t.heightOf := by
    rintro a b t ⟨r, e, hb⟩ ht
    cases ht with
    | @mk _ r' cs e' hf =>
      rw [e] at e'
      cases e'
      obtain ⟨j, hj, rfl⟩ := List.mem_iff_getElem.1 hb
      have hj' : j < cs.length := by rw [← hf.length_eq]; exact hj
      have := heightOf_child (id := r.cid) (s := r.stats) (List.getElem_mem hj')
      exact ⟨cs[j], hf.get hj hj', by omega⟩
  induction hab with
  | single h1 => exact one h1 ht
  | tail _ h1 ih =>
    obtain ⟨t', h2, h3⟩ := ih
    obtain ⟨t'', h4, h5⟩ := one h1 h2
    exact ⟨t'', h4, h5.trans h3⟩

/-- **C114**: if an object can be reached from itself by going to children, `num_concepts` raises, however many nested
calls are allowed. -/
theorem C114_cycle {a : ℕ} (ha : Relation.TransGen (ChildIn h) a a) (n k : ℕ) : numConceptsH h n a ≠ .ok k := by
  intro hk
  obtain ⟨t, ht, -, -⟩ := (C114_num_concepts n a k).1 hk
  obtain ⟨t', h1, h2⟩ := isTree_below ha ht
  rw [ht.unique h1] at h2
  exact lt_irrefl _ h2

end

/-! ### Examples -/

/-- The store of the running example: seven concepts are counted when nested calls are allowed three deep, and not when
only two are. -/
example : ∃ h, CobwebHeap Demo.hid h Demo.insts ∧ numConceptsH h 3 h.root = .ok 7 ∧
    numConceptsH h 2 h.root = .error .outOfFuel := by
  obtain ⟨h, h1, h2⟩ := C66_same_trees.1 demo_reach
  have hh : Demo.demoTree.heightOf = 2 := by decide +kernel
  have hn : Demo.demoTree.nodes.length = 7 := by decide +kernel
  exact ⟨h, h1, by rw [C114_recursion_error h2, hh, hn]; rfl, by rw [C114_recursion_error h2, hh]; rfl⟩

/-- Two node objects, each of them the child of the other. -/
example (n k : ℕ) :
    numConceptsH (⟨fun a => some ⟨a, (), [1 - a], none, true⟩, 2, 0, ⟨fun _ => 0, 0, 0⟩⟩ : Heap Unit) n 0 ≠ .ok k :=
  C114_cycle (.tail (b := 1) (.single ⟨_, rfl, by simp⟩) ⟨_, rfl, by simp⟩) n k

/-- Strings printed by `repr` meet the hypotheses of `C114_fitted`. -/
example {h : Heap (Stats PStr PStr)} {hid : PStr → Bool} {i : Inst PStr PStr} (hh : CobwebHeap hid h [i]) :
    ∃ text, treeStrH (fun s => .ok (s.row pyRepr pyRepr)) h 3 = .ok text ∧ (fileLines text).length = 1 := by
  obtain ⟨k, text, -, h1, h2, -, -, h3, h4⟩ := C114_fitted (strA := String.ofList) (strV := String.ofList) hh (by simp)
    (le_refl _) pyRepr_laws pyRepr_laws
  obtain ⟨t, -, -, rfl⟩ := (C114_num_concepts _ _ _).1 h1
  have : 0 < t.nodes.length := by rw [Tree.length_nodes]; cases t; simp [Tree.numConcepts]
  refine ⟨text, h3, ?_⟩
  simp only [List.length_singleton] at h2
  omega

end CF
