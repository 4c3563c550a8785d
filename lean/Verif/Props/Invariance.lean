/-
Properties C19 and C24: what the result of fitting does not depend on.
-/
import Verif.Proofs.Renaming
import Verif.Props.CobwebTree

set_option linter.unusedSectionVars false

namespace CF
variable {A A' V V' : Type} [DecidableEq A] [DecidableEq A'] [DecidableEq V] [DecidableEq V']
  {hid : A → Bool} {hid' : A' → Bool}

/-! ### C19: hidden attributes -/

/-- Comparing only the visible attributes. -/
def visibleOnly (hid : A → Bool) : Renaming A A V V where
  attr := id
  val := fun _ => id
  attr_inj := Function.injective_id
  val_inj := fun _ => Function.injective_id
  dom := fun a => hid a = false
  dom' := fun a => hid a = false
  dom_iff := fun _ => Iff.rfl

theorem visibleOnly_keeps (hid : A → Bool) : (visibleOnly (V := V) hid).Keeps hid hid :=
  ⟨fun _ => rfl, fun _ h => h, fun _ h => h⟩

theorem visibleOnly_inst {i i' : Inst A V} (h : SameVisible hid i i') : (visibleOnly hid).Inst i i' :=
  ⟨fun a ha => by simpa [visibleOnly] using (h a ha).symm, fun b _ hd => ⟨b, hd, rfl⟩⟩

theorem visibleOnly_table {s s' : Stats A V} (h : (visibleOnly hid).Table s s') :
    SameVisibleTable hid s s' :=
  ⟨h.count.symm, fun a v ha => (h.lookup a v ha).symm, fun a ha =>
    ⟨fun hk => h.attrs a ha hk, fun hk => by
      obtain ⟨b, hb, rfl⟩ := h.onlyAttrs a hk ha
      exact hb⟩⟩

/-- **C19**: two sequences of `ifit` calls with the same random numbers, whose instances differ only in
hidden attributes, behave alike: the same call raises the same exception, or the trees have the same
shape, the same concept ids and the same tables on visible attributes, and every call returns the same
concept, draws as many random numbers and makes as many ids. -/
theorem C19_hidden_irrelevant {l l' : List (Inst A V × World)}
    (hl : List.Forall₂ (fun p q => Dict.Nodup p.1 ∧ Dict.Nodup q.1 ∧ SameVisible hid p.1 q.1 ∧
      p.2 = q.2) l l') (w0 : World) :
    RRel (fun r r' => TRel (SameVisibleTable hid) r.1 r'.1 ∧ r.2 = r'.2)
      (runs (cobwebClass hid) (Stats.ecg (K := ℚ) hid) (emptyTree (cobwebClass hid) w0) l)
      (runs (cobwebClass hid) (Stats.ecg (K := ℚ) hid) (emptyTree (cobwebClass hid) w0) l') := by
  have H := sim_renamed (visibleOnly (V := V) hid) (visibleOnly_keeps hid)
  have hE := scores_renamed (K := ℚ) (visibleOnly (V := V) hid) (visibleOnly_keeps hid)
  refine (runs_sim (fun a b h => h) H hE (hl.imp fun p q h =>
    ⟨⟨h.1, h.2.1, visibleOnly_inst h.2.2.1⟩, h.2.2.2⟩) (emptyTree_sim H w0)).mono ?_
  rintro r r' ⟨h1, h2⟩
  exact ⟨h1.mono fun _ _ h => visibleOnly_table (renamed_of_paired _ h), h2⟩

/-- C19 for `categorize`: after such sequences of calls, instances that differ only in hidden attributes
are categorised to the same concept. -/
theorem C19_hidden_irrelevant_categorize {l l' : List (Inst A V × World)}
    (hl : List.Forall₂ (fun p q => Dict.Nodup p.1 ∧ Dict.Nodup q.1 ∧ SameVisible hid p.1 q.1 ∧
      p.2 = q.2) l l') {i i' : Inst A V} (hi : Dict.Nodup i) (hi' : Dict.Nodup i')
    (hii : SameVisible hid i i') (w0 w : World) :
    RRel (fun r r' => r.1.id = r'.1.id ∧ SameVisibleTable hid r.1.stats r'.1.stats ∧ r.2 = r'.2)
      (runs (cobwebClass hid) (Stats.ecg (K := ℚ) hid) (emptyTree (cobwebClass hid) w0) l >>= fun r =>
        categorize (cobwebClass hid) (Stats.ecg (K := ℚ) hid) r.1 i w)
      (runs (cobwebClass hid) (Stats.ecg (K := ℚ) hid) (emptyTree (cobwebClass hid) w0) l' >>= fun r =>
        categorize (cobwebClass hid) (Stats.ecg (K := ℚ) hid) r.1 i' w) := by
  have H := sim_renamed (visibleOnly (V := V) hid) (visibleOnly_keeps hid)
  have hE := scores_renamed (K := ℚ) (visibleOnly (V := V) hid) (visibleOnly_keeps hid)
  refine RRel.bind (runs_sim (fun a b h => h) H hE (hl.imp fun p q h =>
    ⟨⟨h.1, h.2.1, visibleOnly_inst h.2.2.1⟩, h.2.2.2⟩) (emptyTree_sim H w0)) fun r r' hr => ?_
  refine (categorize_sim (fun a b h => h) H hE ⟨hi, hi', visibleOnly_inst hii⟩ hr.1 w).mono ?_
  rintro c c' ⟨h1, h2⟩
  exact ⟨h1.id, visibleOnly_table (renamed_of_paired _ h1.stats), h2⟩

/-! ### C24: renaming and reordering -/

/-- A renaming of all attributes. -/
def totalRenaming {f : A → A'} (hf : Function.Injective f) {g : A → V → V'}
    (hg : ∀ a, Function.Injective (g a)) : Renaming A A' V V' where
  attr := f
  val := g
  attr_inj := hf
  val_inj := hg
  dom := fun _ => True
  dom' := fun _ => True
  dom_iff := fun _ => Iff.rfl

theorem get?_renamed {f : A → A'} (hf : Function.Injective f) (g : A → V → V') (i : Inst A V) (a : A) :
    Dict.get? (i.map fun p => (f p.1, g p.1 p.2)) (f a) = (Dict.get? i a).map (g a) := by
  induction i with
  | nil => rfl
  | cons p i ih =>
    obtain ⟨k, v⟩ := p
    simp only [List.map_cons, Dict.get?, hf.eq_iff]
    by_cases h : k = a
    · subst h; simp
    · simp [h, ih]

theorem get?_perm {d e : Dict A V} (hd : Dict.Nodup d) (hp : d.Perm e) (k : A) :
    Dict.get? d k = Dict.get? e k := by
  have he : Dict.Nodup e := (hp.map Prod.fst).nodup_iff.1 hd
  cases h : Dict.get? d k with
  | some v => exact (Dict.get?_of_mem he (hp.mem_iff.1 (Dict.mem_of_get? h))).symm
  | none =>
    rw [Dict.get?_eq_none] at h
    rw [eq_comm, Dict.get?_eq_none]
    intro h'
    exact h ((hp.map Prod.fst).mem_iff.2 h')

theorem totalRenaming_inst {f : A → A'} (hf : Function.Injective f) {g : A → V → V'}
    (hg : ∀ a, Function.Injective (g a)) {i : Inst A V} {i' : Inst A' V'} (hi : Dict.Nodup i)
    (hp : i'.Perm (i.map fun p => (f p.1, g p.1 p.2))) :
    RInst (totalRenaming hf hg) i i' := by
  have hn : Dict.Nodup (i.map fun p => (f p.1, g p.1 p.2)) := by
    unfold Dict.Nodup Dict.keys at hi ⊢
    rw [List.map_map]
    have : (Prod.fst ∘ fun p : A × V => (f p.1, g p.1 p.2)) = f ∘ Prod.fst := rfl
    rw [this, ← List.map_map]
    exact hi.map hf
  have hn' : Dict.Nodup i' := (hp.map Prod.fst).nodup_iff.2 hn
  refine ⟨hi, hn', fun a _ => ?_, fun b hb _ => ?_⟩
  · show Dict.get? i' (f a) = (Dict.get? i a).map (g a)
    rw [get?_perm hn' hp, get?_renamed hf]
  · obtain ⟨q, hq, rfl⟩ := List.mem_map.1 hb
    obtain ⟨p, -, rfl⟩ := List.mem_map.1 (hp.mem_iff.1 hq)
    exact ⟨p.1, trivial, rfl⟩

theorem totalRenaming_table {f : A → A'} (hf : Function.Injective f) {g : A → V → V'}
    (hg : ∀ a, Function.Injective (g a)) {s : Stats A V} {s' : Stats A' V'}
    (h : (totalRenaming hf hg).Table s s') : RenamedTable f g s s' :=
  ⟨h.count, fun a v => h.lookup a v trivial, fun a v' => h.onlyVals a v' trivial, fun b =>
    ⟨fun hb => h.onlyAttrs b hb trivial, fun ⟨a, ha, hb⟩ => hb ▸ h.attrs a trivial ha⟩⟩

/-- **C24**: rename the attributes by an injective `f` that keeps hidden ones hidden and visible ones
visible, rename the values of each attribute `a` by an injective `g a`, and reorder the keys of the
instances arbitrarily: with the same random numbers, the calls of `ifit` behave alike and the tree is the
same up to the renaming. -/
theorem C24_renaming {f : A → A'} (hf : Function.Injective f) {g : A → V → V'}
    (hg : ∀ a, Function.Injective (g a)) (hh : ∀ a, hid' (f a) = hid a)
    {l : List (Inst A V × World)} {l' : List (Inst A' V' × World)}
    (hl : List.Forall₂ (fun p q => Dict.Nodup p.1 ∧ q.1.Perm (p.1.map fun e => (f e.1, g e.1 e.2)) ∧
      p.2 = q.2) l l') (w0 : World) :
    RRel (fun r r' => TRel (RenamedTable f g) r.1 r'.1 ∧ r.2 = r'.2)
      (runs (cobwebClass hid) (Stats.ecg (K := ℚ) hid) (emptyTree (cobwebClass hid) w0) l)
      (runs (cobwebClass hid') (Stats.ecg (K := ℚ) hid') (emptyTree (cobwebClass hid') w0) l') := by
  have hk : (totalRenaming hf hg).Keeps hid hid' := ⟨hh, fun _ _ => trivial, fun _ _ => trivial⟩
  have H := sim_renamed (totalRenaming hf hg) hk
  have hE := scores_renamed (K := ℚ) (totalRenaming hf hg) hk
  refine (runs_sim (fun a b h => h) H hE (hl.imp fun p q h =>
    ⟨totalRenaming_inst hf hg h.1 h.2.1, h.2.2⟩) (emptyTree_sim H w0)).mono ?_
  rintro r r' ⟨h1, h2⟩
  exact ⟨h1.mono fun _ _ h => totalRenaming_table hf hg (renamed_of_paired _ h), h2⟩

/-- C24 for `categorize`. -/
theorem C24_renaming_categorize {f : A → A'} (hf : Function.Injective f) {g : A → V → V'}
    (hg : ∀ a, Function.Injective (g a)) (hh : ∀ a, hid' (f a) = hid a)
    {l : List (Inst A V × World)} {l' : List (Inst A' V' × World)}
    (hl : List.Forall₂ (fun p q => Dict.Nodup p.1 ∧ q.1.Perm (p.1.map fun e => (f e.1, g e.1 e.2)) ∧
      p.2 = q.2) l l') {i : Inst A V} {i' : Inst A' V'} (hi : Dict.Nodup i)
    (hp : i'.Perm (i.map fun e => (f e.1, g e.1 e.2))) (w0 w : World) :
    RRel (fun r r' => r.1.id = r'.1.id ∧ RenamedTable f g r.1.stats r'.1.stats ∧ r.2 = r'.2)
      (runs (cobwebClass hid) (Stats.ecg (K := ℚ) hid) (emptyTree (cobwebClass hid) w0) l >>= fun r =>
        categorize (cobwebClass hid) (Stats.ecg (K := ℚ) hid) r.1 i w)
      (runs (cobwebClass hid') (Stats.ecg (K := ℚ) hid') (emptyTree (cobwebClass hid') w0) l' >>=
        fun r => categorize (cobwebClass hid') (Stats.ecg (K := ℚ) hid') r.1 i' w) := by
  have hk : (totalRenaming hf hg).Keeps hid hid' := ⟨hh, fun _ _ => trivial, fun _ _ => trivial⟩
  have H := sim_renamed (totalRenaming hf hg) hk
  have hE := scores_renamed (K := ℚ) (totalRenaming hf hg) hk
  refine RRel.bind (runs_sim (fun a b h => h) H hE (hl.imp fun p q h =>
    ⟨totalRenaming_inst hf hg h.1 h.2.1, h.2.2⟩) (emptyTree_sim H w0)) fun r r' hr => ?_
  refine (categorize_sim (fun a b h => h) H hE (totalRenaming_inst hf hg hi hp) hr.1 w).mono ?_
  rintro c c' ⟨h1, h2⟩
  exact ⟨h1.id, totalRenaming_table hf hg (renamed_of_paired _ h1.stats), h2⟩

/-! ### Examples: two runs that really differ -/

/-- The demonstration instances, each in a world that continues the previous ones. -/
def Demo.calls : List (Inst ℕ ℕ × World) := Demo.insts.zipIdx.map fun p => (p.1, ⟨Demo.w0.rnd, 20 * p.2, 20 * p.2⟩)

/-- Hidden attributes are changed: attribute 100 is hidden. -/
def Demo.calls' : List (Inst ℕ ℕ × World) :=
  Demo.calls.map fun p => ((101, 5) :: p.1.filter (fun e => !Demo.hid e.1), p.2)

example : (match runs (cobwebClass Demo.hid) (Stats.ecg (K := ℚ) Demo.hid)
      (emptyTree (cobwebClass Demo.hid) Demo.w0) Demo.calls,
    runs (cobwebClass Demo.hid) (Stats.ecg (K := ℚ) Demo.hid)
      (emptyTree (cobwebClass Demo.hid) Demo.w0) Demo.calls' with
    | .ok (t, r), .ok (t', r') => decide (t.ids = t'.ids ∧ r.map Prod.fst = r'.map Prod.fst ∧
        t.numConcepts > 3 ∧ t.stats.av ≠ t'.stats.av)
    | _, _ => false) = true := by decide +kernel

/-- Renaming attribute `a` to `a + 200` when it is hidden and to `a + 7` otherwise, values to `3 * v + a`,
and reversing the keys. -/
example : (match runs (cobwebClass Demo.hid) (Stats.ecg (K := ℚ) Demo.hid)
      (emptyTree (cobwebClass Demo.hid) Demo.w0) Demo.calls,
    runs (cobwebClass Demo.hid) (Stats.ecg (K := ℚ) Demo.hid)
      (emptyTree (cobwebClass Demo.hid) Demo.w0)
      (Demo.calls.map fun p => ((p.1.map fun e => (if Demo.hid e.1 then e.1 + 200 else e.1 + 7,
        3 * e.2 + e.1)).reverse, p.2)) with
    | .ok (t, r), .ok (t', r') => decide (t.ids = t'.ids ∧ r.map Prod.fst = r'.map Prod.fst ∧
        t.numConcepts > 3 ∧ t.stats.lookup 2 3 = some 2 ∧ t'.stats.lookup 9 11 = some 2)
    | _, _ => false) = true := by decide +kernel

end CF
