/-
The depth cuts of `depth_labels`, property C40.
-/
import Verif.Proofs.DepthLabels

set_option linter.unusedSectionVars false

namespace CF
variable {I S σ : Type}
variable {A B V : Type} [DecidableEq A] [DecidableEq B] [DecidableEq V] {hid : A → Bool} {cfg : Cfg3 A B}

theorem depthLabels_error {store : σ → Heap S} {fit : I → σ → Res ℕ × σ} {insts : List I} {s : σ} {e : PyErr}
    (h : (fitAll fit insts s).1 = .error e) : (depthLabels store fit insts s).1 = .error e := by
  unfold depthLabels
  generalize fitAll fit insts s = r at h
  obtain ⟨r, s'⟩ := r
  cases h
  rfl

theorem depthLabels_table {Ok : I → Prop} {R : σ → Tree (ℕ × S) → Prop} {store : σ → Heap S}
    {fit : I → σ → Res ℕ × σ} (hF : Fits Ok R fit) (hG : ∀ s dt, R s dt → Good (store s) dt) {insts : List I}
    {s : σ} {dt : Tree (ℕ × S)} (hok : ∀ i ∈ insts, Ok i) (hR : R s dt) (hne : insts ≠ []) :
    (∃ e, (fitAll fit insts s).1 = .error e ∧ (depthLabels store fit insts s).1 = .error e) ∨
      ∃ leaves rows s', fitAll fit insts s = (.ok leaves, s') ∧
        depthLabels store fit insts s = (.ok rows, s') ∧ TableOk (store s') insts.length leaves rows := by
  cases e : fitAll fit insts s with
  | mk r s' =>
    cases r with
    | error x => exact .inl ⟨x, rfl, depthLabels_error (by rw [e])⟩
    | ok leaves =>
      right
      obtain ⟨dt', hR', -, hlen, xs, rfl, hxs⟩ := fitAll_spec hF hok hR e
      have g := hG _ _ hR'
      have L := g.pre.linked g.root
      have hl : ∀ a ∈ xs.map Tree.addr, LeafOf (store s') a := by
        intro a ha
        obtain ⟨x, hx, rfl⟩ := List.mem_map.1 ha
        obtain ⟨d, hd⟩ := below_of_rep dt' g.pre.rep x (hxs x hx).1
        obtain ⟨q, hq⟩ := rep_nodes dt' g.pre.rep x (hxs x hx).1
        exact ⟨⟨d, g.root ▸ hd⟩, _, hq.obj, by simp [(hxs x hx).2]⟩
      obtain ⟨rows, h1, h2⟩ := depthLabels_ok e
        (by intro h0; rw [h0] at hlen; exact hne (List.length_eq_zero_iff.1 hlen.symm)) L hl
      exact ⟨_, rows, s', rfl, h1, L.linksOk, g.names, hlen, hl, h2⟩

/-- **C40** for every `CobwebTree`: `depth_labels` raises what fitting an instance raises, and otherwise
returns the table of the depth cuts.  See `TableOk` and the theorems below. -/
theorem C40_table {h : Heap (Stats A V)} {hist insts : List (Inst A V)} (hr : CobwebHeap hid h hist) (mod : Bool)
    (hne : insts ≠ []) (hi : ∀ i ∈ insts, Dict.Nodup i) :
    (∃ e, (fitAll (fitC hid mod) insts h).1 = .error e ∧ (depthLabels id (fitC hid mod) insts h).1 = .error e) ∨
      ∃ leaves rows h', fitAll (fitC hid mod) insts h = (.ok leaves, h') ∧
        depthLabels id (fitC hid mod) insts h = (.ok rows, h') ∧ TableOk h' insts.length leaves rows := by
  obtain ⟨dt, hR⟩ := rc_of_heap (P := fun _ => True) (b := false) hr (fun _ _ => trivial) (by simp)
  exact depthLabels_table (store := id) (rc_fits _ false mod) (fun s dt hR => hR.1)
    (fun i hm => ⟨hi i hm, trivial⟩) hR hne

/-- **C40**: nothing is raised if every instance has a visible attribute. -/
theorem C40_never_raises {h : Heap (Stats A V)} {hist insts : List (Inst A V)} (hr : CobwebHeap hid h hist)
    (mod : Bool) (hne : insts ≠ []) (hv : ∀ i ∈ hist, HasVisible hid i)
    (hi : ∀ i ∈ insts, Dict.Nodup i ∧ HasVisible hid i) (hw : Function.Injective h.w.rnd) :
    ∃ leaves rows h', fitAll (fitC hid mod) insts h = (.ok leaves, h') ∧
      depthLabels id (fitC hid mod) insts h = (.ok rows, h') ∧ TableOk h' insts.length leaves rows := by
  obtain ⟨l, h', hf⟩ := fitAll_total (fitC_total (hid := hid) mod) hi
    (s := h) ⟨rc_of_heap hr hv (by simp), hw⟩
  rcases C40_table hr mod hne fun i hm => (hi i hm).1 with ⟨e, h1, -⟩ | h1
  · rw [hf] at h1; cases h1
  · exact h1

/-- **C40** for every `Cobweb3Tree`. -/
theorem C40_table_cobweb3 {h : Heap (Stats3 A V)} {sc : Scales B} {hist insts : List (Inst3 A V)}
    (hr : HReach3 hid cfg h sc hist) (mod : Bool) (hne : insts ≠ []) (hi : ∀ i ∈ insts, Dict.Nodup i) :
    (∃ e, (fitAll (fitC3 hid cfg mod) insts (h, sc)).1 = .error e ∧
      (depthLabels Prod.fst (fitC3 hid cfg mod) insts (h, sc)).1 = .error e) ∨
      ∃ leaves rows s', fitAll (fitC3 hid cfg mod) insts (h, sc) = (.ok leaves, s') ∧
        depthLabels Prod.fst (fitC3 hid cfg mod) insts (h, sc) = (.ok rows, s') ∧
        TableOk s'.1 insts.length leaves rows := by
  obtain ⟨dt, hR⟩ := rc3_of_heap (P := fun _ => True) (b := false) hr (fun _ _ => trivial) (by simp)
  exact depthLabels_table (store := Prod.fst) (rc3_fits _ false mod) (fun s dt hR => hR.1)
    (fun i hm => ⟨hi i hm, trivial⟩) hR hne

/-- An empty list of instances raises `IndexError`, for every tree. -/
theorem C40_empty (store : σ → Heap S) (fit : I → σ → Res ℕ × σ) (s : σ) :
    depthLabels store fit [] s = (.error .indexErr, s) := rfl

section
variable {h : Heap S} {leaves : List ℕ} {rows : List (List Label)} {n m : ℕ} {row row' : List Label}

theorem LinksOk.depth_unique (L : LinksOk h) {a d d' : ℕ} (h1 : Below h h.root d a)
    (h2 : Below h h.root d' a) : d = d' := by
  have e1 := L.depth h1 h.next (le_refl _)
  rw [L.depth h2 h.next (le_refl _)] at e1
  have := congrArg Prod.fst e1
  exact (Except.ok.inj this).symm

theorem LinksOk.above_unique (L : LinksOk h) : ∀ {m a c c' k k' : ℕ}, Below h h.root k c → Below h h.root k' c' →
    Below h c m a → Below h c' m a → c = c' := by
  intro m
  induction m with
  | zero => intro a c c' k k' _ _ h1 h2; cases h1; cases h2; rfl
  | succ m ih =>
    intro a c c' k k' hc hc' h1 h2
    cases h1 with
    | @step _ b _ r hb er ha =>
      cases h2 with
      | @step _ b' _ r' hb' er' ha' =>
        have hba := hc.trans hb
        have hba' := hc'.trans hb'
        obtain ⟨q, rq, -, -, -, hu⟩ := L.one_list (.step hba er ha) (by
          intro h0; exact L.root_no_list hba er (h0 ▸ ha))
        obtain rfl := (hu b r ⟨_, hba⟩ er ha).trans (hu b' r' ⟨_, hba'⟩ er' ha').symm
        exact ih hc hc' hb hb'

theorem LinksOk.cut_unique (L : LinksOk h) {a c c' : ℕ} (h1 : CutAt h n a c) (h2 : CutAt h n a c') : c = c' := by
  obtain ⟨d, hd, hc, hb⟩ := h1
  obtain ⟨d', hd', hc', hb'⟩ := h2
  obtain rfl := L.depth_unique hd hd'
  exact L.above_unique hc hc' hb hb'

/-- **C40**: every row has one label per instance. -/
theorem C40_row_length (t : TableOk h m leaves rows) (hrow : row ∈ rows) : row.length = m := by
  obtain ⟨n, hn⟩ := List.mem_iff_getElem?.1 hrow
  rw [← (t.table.entry n row hn).length_eq, t.length]

/-- **C40**: there is one row more than the depth of the deepest of the concepts. -/
theorem C40_rows (t : TableOk h m leaves rows) (hm : m ≠ 0) : (∃ a ∈ leaves, Below h h.root (rows.length - 1) a) ∧
    1 ≤ rows.length ∧ ∀ a ∈ leaves, ∀ d, Below h h.root d a → d ≤ rows.length - 1 := by
  obtain ⟨ds, h1, h2⟩ := t.table.height
  have hne : leaves ≠ [] := by rintro rfl; exact hm t.length.symm
  rw [h2, Nat.add_sub_cancel]
  refine ⟨?_, by omega, ?_⟩
  · clear h2
    have key : ∀ {leaves ds : List ℕ}, List.Forall₂ (fun a d => Below h h.root d a) leaves ds → leaves ≠ [] →
        ∃ a ∈ leaves, Below h h.root (ds.foldr max 0) a := by
      intro leaves ds hF
      induction hF with
      | nil => exact fun h => absurd rfl h
      | @cons a d leaves ds hd hF ih =>
        intro _
        rw [List.foldr_cons]
        by_cases h0 : leaves = []
        · subst h0; cases hF
          exact ⟨a, by simp, by simpa using hd⟩
        · obtain ⟨b, hb, hb'⟩ := ih h0
          rcases le_total d (ds.foldr max 0) with hle | hle
          · exact ⟨b, by simp [hb], by rw [max_eq_right hle]; exact hb'⟩
          · exact ⟨a, by simp, by rw [max_eq_left hle]; exact hd⟩
    exact key h1 hne
  · intro a ha d hd
    obtain ⟨n, hn, rfl⟩ := List.getElem_of_mem ha
    have := h1.get (i := n) hn (by rw [← h1.length_eq]; exact hn)
    simp only [List.get_eq_getElem] at this
    rw [t.links.depth_unique hd this]
    exact le_foldr_max (List.getElem_mem _)

theorem DepthTable.lookup (t : DepthTable h leaves rows) (hrow : rows[n]? = some row) {i : ℕ} {l : Label}
    (hi : row[i]? = some l) : ∃ a c, leaves[i]? = some a ∧ CutAt h n a c ∧ l = nameOf h c := by
  obtain ⟨hlt, rfl⟩ := List.getElem?_eq_some_iff.1 hi
  have hF := t.entry n row hrow
  have hlt' : i < leaves.length := by rw [hF.length_eq]; exact hlt
  have := hF.get (i := i) hlt' hlt
  simp only [List.get_eq_getElem] at this
  obtain ⟨c, h1, h2⟩ := this
  exact ⟨_, c, List.getElem?_eq_getElem hlt', h1, h2⟩

/-- **C40**: the first row is the root for everyone. -/
theorem C40_first_row (t : TableOk h m leaves rows) (hrow : rows[0]? = some row) :
    row = List.replicate m (nameOf h h.root) := by
  refine List.eq_replicate_iff.2 ⟨C40_row_length t (List.mem_of_getElem? hrow), fun l hl => ?_⟩
  obtain ⟨i, hi⟩ := List.mem_iff_getElem?.1 hl
  obtain ⟨a, c, -, ⟨d, -, hc, -⟩, rfl⟩ := t.table.lookup hrow hi
  rw [Nat.zero_min] at hc
  cases hc
  rfl

/-- **C40**: the last row is the concept of each instance. -/
theorem C40_last_row (t : TableOk h m leaves rows) (hm : m ≠ 0) (hrow : rows[rows.length - 1]? = some row) :
    row = leaves.map (nameOf h) := by
  have h1 := C40_row_length t (List.mem_of_getElem? hrow)
  refine List.ext_getElem? fun i => ?_
  by_cases hi : i < row.length
  · obtain ⟨a, c, ha, ⟨d, hd, hc, hb⟩, he⟩ := t.table.lookup hrow (List.getElem?_eq_getElem hi)
    have := (C40_rows t hm).2.2 a (List.mem_of_getElem? ha) d hd
    rw [Nat.min_eq_right this, Nat.sub_self] at hb
    cases hb
    rw [List.getElem?_eq_getElem hi, he, List.getElem?_map, ha]
    rfl
  · rw [List.getElem?_eq_none (by omega), List.getElem?_eq_none (by rw [List.length_map, t.length]; omega)]

/-- **C40**: the labels in one row determine the labels in the row before: who is together below is
together above. -/
theorem C40_nested (t : TableOk h m leaves rows) (hrow : rows[n]? = some row) (hrow' : rows[n + 1]? = some row')
    {i j : ℕ} {l : Label} (hi : row'[i]? = some l) (hj : row'[j]? = some l) :
    ∃ k, row[i]? = some k ∧ row[j]? = some k := by
  have hm1 := C40_row_length t (List.mem_of_getElem? hrow)
  have hm2 := C40_row_length t (List.mem_of_getElem? hrow')
  have hin : i < row.length := by rw [hm1, ← hm2]; exact (List.getElem?_eq_some_iff.1 hi).1
  have hjn : j < row.length := by rw [hm1, ← hm2]; exact (List.getElem?_eq_some_iff.1 hj).1
  obtain ⟨a, c, ha, ⟨d, hd, hc, hb⟩, rfl⟩ := t.table.lookup hrow' hi
  obtain ⟨b, c', hb', ⟨d', hd', hc', hbc'⟩, e⟩ := t.table.lookup hrow' hj
  obtain rfl := t.names hc hc' e
  obtain ⟨a1, e1, ha1, hcut1, he1⟩ := t.table.lookup hrow (List.getElem?_eq_getElem hin)
  obtain ⟨b1, e2, hb1, hcut2, he2⟩ := t.table.lookup hrow (List.getElem?_eq_getElem hjn)
  rw [ha] at ha1; cases ha1
  rw [hb'] at hb1; cases hb1
  refine ⟨_, List.getElem?_eq_getElem hin, ?_⟩
  rw [List.getElem?_eq_getElem hjn, he1, he2]
  congr 2
  have hmin := t.links.depth_unique hc hc'
  by_cases hdn : d ≤ n
  · have hd'n : d' = d := by omega
    subst hd'n
    rw [Nat.min_eq_right (by omega), Nat.sub_self] at hb hbc'
    cases hb; cases hbc'
    exact t.links.cut_unique hcut2 hcut1
  · have hd'n : ¬ d' ≤ n := by omega
    rw [Nat.min_eq_left (by omega)] at hc hb hc' hbc'
    cases hc with
    | @step _ p _ r hp er hcp =>
      have cut : ∀ {x dx : ℕ}, ¬ dx ≤ n → Below h h.root dx x → Below h c (dx - (n + 1)) x → CutAt h n x p := by
        intro x dx hdx hx hcx
        refine ⟨dx, hx, by rw [Nat.min_eq_left (by omega)]; exact hp, ?_⟩
        have : dx - min n dx = 1 + (dx - (n + 1)) := by omega
        rw [this]
        exact (Below.step (.refl _) er hcp).trans hcx
      rw [t.links.cut_unique hcut1 (cut hdn hd hb), t.links.cut_unique hcut2 (cut hd'n hd' hbc')]

end
end CF
