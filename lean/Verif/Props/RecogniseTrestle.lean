/-
Property C110 for TrestleTree: the preprocessed instance is recognised when preprocessing it again gives the same; flat
nominal instances always are.
-/
import Verif.Props.Recognise3
import Verif.Props.TextbookTrestle
import Verif.Props.Fit

namespace CF

variable {c : TrestleCfg} {st : TState} {hist : List PyInst}

/-- **C110** for TRESTLE: `ifit` of an instance is followed by `categorize` of an instance that is preprocessed to the same
(that searches give the same renaming is an assumption); all preprocessed instances have the same visible attributes, at
least one, and nominal values there. Then `categorize` returns an object without children in whose table each visible
attribute has the value of the preprocessed instance, as often as there are instances. -/
theorem C110_trestle (hc : c.Ok) (h : TrestleRuns c st hist) {S S' : Search} (hS : SearchLaws S) (hS' : SearchLaws S')
    {i i' temp : PyInst} (hw : Py.wf (.dict i)) (hw' : Py.wf (.dict i')) (hp : (trestlePrep c S st i).1 = .ok temp) {a : ℕ}
    {st' : TState} (he : trestleIfit c S i st = (.ok a, st')) (hp' : (trestlePrep c S' st' i').1 = .ok temp) {b : ℕ}
    {st'' : TState} (hc' : trestleCategorize c S' i' st' = (.ok b, st''))
    (hv : HasVisible hid3 (inst3 temp)) (hs : ∀ j ∈ hist, SameAttrs hid3 (inst3 temp) (inst3 j))
    (hn : ∀ j ∈ temp :: hist, Nominal hid3 (inst3 j)) :
    ∃ r, st'.h.objs b = some r ∧ r.children = [] ∧ ∀ x, hid3 x = false →
      (∀ v, r.stats.nomLookup x v = if Dict.get? (inst3 temp) x = some (.nom v) then some r.stats.count else none) ∧
      r.stats.cvOf x = none := by
  obtain ⟨t, T, ht, hT, hd⟩ := C107_trestle hc h
  obtain ⟨t', T', ht', hd', hsort⟩ := C107_trestle_ifit hc h ht hT hd hS hw hp he
  have h' : TrestleRuns c st' (hist ++ [temp]) := .ifit h hS hw hp he
  obtain ⟨r, Y, hr, hr0, hrs, hY⟩ := C108_trestle_categorize hc h' ht' hd' hS' hw' hp' hc'
  rw [List.map_append, List.map_singleton] at hY
  have hsame := recognised_places3 hT hv (fun j hj => by
    obtain ⟨k, hk, rfl⟩ := List.mem_map.1 hj; exact hs k hk) (fun j hj => by
    rcases List.mem_cons.1 hj with rfl | hj
    · exact hn temp (by simp)
    · obtain ⟨k, hk, rfl⟩ := List.mem_map.1 hj
      exact hn k (by simp [hk])) hsort hY
  refine ⟨r, hr, hr0, fun x hx => table_like hrs ?_ (hn temp (by simp)) hsame hx⟩
  exact (hY.proper (hsort.start hT.start.1).1).ne_zero

/-- The visible values of a flat instance are nominal. -/
def NoNumbers (i : PyInst) : Prop := ∀ p ∈ i, hid3 p.1 = false → ∀ q, p.2 ≠ .num q

theorem NoNumbers.nominal {i : PyInst} (h : NoNumbers i) : Nominal hid3 (inst3 i) := by
  intro a ha x hx
  obtain ⟨p, hp, he⟩ := List.mem_map.1 (Dict.mem_of_get? hx)
  obtain ⟨k, v⟩ := p
  simp only [Prod.mk.injEq] at he
  obtain ⟨rfl, he⟩ := he
  cases v <;> simp [val3] at he
  exact h _ hp ha _ rfl

theorem NoNumbers.get {i : PyInst} (h : NoNumbers i) {x : Py} (hx : hid3 x = false) (v : Py) :
    Dict.get? (inst3 i) x = some (.nom v) ↔ Dict.get? i x = some v := by
  induction i with
  | nil => simp [inst3, Dict.get?]
  | cons p i ih =>
    obtain ⟨k, u⟩ := p
    have ih' := ih fun p hp => h p (List.mem_cons_of_mem _ hp)
    have hk := h (k, u) (List.mem_cons_self ..)
    unfold inst3 at ih' ⊢
    rw [List.map_cons, Dict.get?_cons, Dict.get?_cons]
    split
    · subst_vars
      cases u <;> simp [val3]
      exact absurd rfl (hk hx _)
    · exact ih'

theorem keys_inst3 (i : PyInst) : Dict.keys (inst3 i) = Dict.keys i := by
  simp [Dict.keys, inst3, Function.comp_def]

/-- **C110** for TRESTLE and flat instances with nominal values (names and values of which the tree makes nothing new): no
assumption about the searches is needed, and the table is that of the instance itself. -/
theorem C110_trestle_flat (hc : c.Ok) (h : TrestleRuns c st hist) (hf : ∀ j ∈ hist, FlatInst j) {S S' : Search}
    (hS : SearchLaws S) (hS' : SearchLaws S') {i : PyInst} (hi : FlatInst i) (hw : Py.wf (.dict i)) {a : ℕ} {st' : TState}
    (he : trestleIfit c S i st = (.ok a, st')) {b : ℕ} {st'' : TState}
    (hc' : trestleCategorize c S' i st' = (.ok b, st''))
    (hv : ∃ x ∈ Dict.keys i, hid3 x = false)
    (hs : ∀ j ∈ hist, ∀ x, hid3 x = false → (x ∈ Dict.keys i ↔ x ∈ Dict.keys j))
    (hn : ∀ j ∈ i :: hist, NoNumbers j) :
    ∃ r, st'.h.objs b = some r ∧ r.children = [] ∧ ∀ x, hid3 x = false →
      (∀ v, r.stats.nomLookup x v = if Dict.get? i x = some v then some r.stats.count else none) ∧
      r.stats.cvOf x = none := by
  have hperm : (sortEntries c.std i).Perm i := List.perm_insertionSort _ _
  have hkeys : ∀ x, x ∈ Dict.keys (sortEntries c.std i) ↔ x ∈ Dict.keys i := fun x => (hperm.map Prod.fst).mem_iff
  obtain ⟨s, h1, -⟩ := prep_flat (c := c) (S := S) (rootAttrs_plain (trestle_heap hc h) hf) hi.list hi.nodup
  have hp : (trestlePrep c S st i).1 = .ok (sortEntries c.std i) := by rw [h1]
  have h' : TrestleRuns c st' (hist ++ [sortEntries c.std i]) := .ifit h hS hw hp he
  obtain ⟨s', h1', -⟩ := prep_flat (c := c) (S := S') (rootAttrs_plain (trestle_heap hc h') fun j hj => by
    rcases List.mem_append.1 hj with hj | hj
    · exact hf j hj
    · exact List.mem_singleton.1 hj ▸ hi.perm hperm) hi.list hi.nodup
  have hn' : NoNumbers (sortEntries c.std i) := fun p hp => hn i (by simp) p (hperm.mem_iff.1 hp)
  obtain ⟨r, hr, hr0, ht⟩ := C110_trestle hc h hS hS' hw hw hp he (by rw [h1']) hc'
    (by
      obtain ⟨x, hx, hh⟩ := hv
      exact ⟨x, by rw [keys_inst3]; exact (hkeys x).2 hx, hh⟩)
    (fun j hj x hx => by rw [keys_inst3, keys_inst3, hkeys]; exact hs j hj x hx)
    (fun j hj => by
      rcases List.mem_cons.1 hj with rfl | hj
      · exact hn'.nominal
      · exact (hn j (by simp [hj])).nominal)
  refine ⟨r, hr, hr0, fun x hx => ⟨fun v => ?_, (ht x hx).2⟩⟩
  rw [(ht x hx).1 v]
  simp only [hn'.get hx v, get?_permSM hi.nodup hperm]

/-- Flat instances can be fitted one after the other. -/
theorem flat_histories (hc : c.Ok) {S : Search} (hS : SearchLaws S) (hT : SearchTotal S) (is : List PyInst)
    (hw : ∀ i ∈ is, Py.wf (.dict i) ∧ FitInst i ∧ VisInst i) (hf : ∀ i ∈ is, FlatInst i) :
    ∃ st, TrestleRuns c st (is.map (sortEntries c.std)) ∧ Function.Injective st.h.w.rnd ∧
      ∀ j ∈ is.map (sortEntries c.std), HasVisible hid3 (inst3 j) := by
  induction is using List.reverseRecOn with
  | nil =>
    refine ⟨_, .other (.clear ⟨⟨fun _ => none, 0, 0, Demo.w0⟩, [], 0⟩) (h' := { (trestleClear
      ⟨⟨fun _ => none, 0, 0, Demo.w0⟩, [], 0⟩).h with w := ⟨fun k => (k : ℚ), 0, _⟩ })
      ⟨fun _ _ => rfl, le_refl _, rfl, le_refl _⟩, Nat.cast_injective, by simp⟩
  | append_singleton l i ih =>
    obtain ⟨st, h1, h2, h3⟩ := ih (fun j hj => hw j (by simp [hj])) fun j hj => hf j (by simp [hj])
    obtain ⟨w1, w2, w3⟩ := hw i (by simp)
    have hi := hf i (by simp)
    have hfl : ∀ j ∈ l.map (sortEntries c.std), FlatInst j := by
      intro j hj
      obtain ⟨k, hk, rfl⟩ := List.mem_map.1 hj
      exact (hf k (by simp [hk])).perm (List.perm_insertionSort _ _)
    obtain ⟨a, st', temp, h4, -, -⟩ := C71_ifit_never_raises hc h1 h3 hS hT w1 w2 w3 h2
    obtain ⟨temp', h6, -, -, h7⟩ := C71_prep hc h1 hS hT w1 w2
    obtain ⟨s, h5, -⟩ := prep_flat (c := c) (S := S) (rootAttrs_plain (trestle_heap hc h1) hfl) hi.list hi.nodup
    have hp : (trestlePrep c S st i).1 = .ok (sortEntries c.std i) := by rw [h5]
    rw [hp] at h6
    cases h6
    have hr := TrestleRuns.other (TrestleRuns.ifit h1 hS w1 hp h4)
      (h' := { st'.h with w := ⟨fun k => (k : ℚ), 0, st'.h.w.ctr⟩ }) ⟨fun _ _ => rfl, le_refl _, rfl, le_refl _⟩
    refine ⟨_, by simpa using hr, Nat.cast_injective, fun j hj => ?_⟩
    rw [List.map_append, List.mem_append] at hj
    rcases hj with hj | hj
    · exact h3 j hj
    · rw [List.map_singleton, List.mem_singleton] at hj
      exact hj ▸ h7 w3

/-- Flat nominal instances with the same attributes, in different orders. -/
def demoToys : List PyInst :=
  [[(.str c!"shape", .str c!"box"), (.str c!"size", .str c!"big")],
    [(.str c!"size", .str c!"small"), (.str c!"shape", .str c!"ball")],
    [(.str c!"shape", .str c!"box"), (.str c!"size", .str c!"small")]]
def demoToy : PyInst := [(.str c!"size", .str c!"big"), (.str c!"shape", .str c!"ball")]

theorem demoToys_ok : ∀ i ∈ demoToy :: demoToys, (Py.wf (.dict i) ∧ FitInst i ∧ VisInst i) ∧ FlatInst i ∧ NoNumbers i ∧
    ∀ x, x ∈ Dict.keys i ↔ x = .str c!"shape" ∨ x = .str c!"size" := by
  intro i hi
  simp only [demoToy, demoToys, List.mem_cons, List.not_mem_nil, or_false] at hi
  have h1 : PlainAttr (.str c!"shape") := ⟨'s', _, rfl, by decide⟩
  have h2 : PlainAttr (.str c!"size") := ⟨'s', _, rfl, by decide⟩
  rcases hi with rfl | rfl | rfl | rfl
  all_goals
    refine ⟨⟨by simp [Py.wf, Py.wfD, Dict.Nodup, Dict.keys], by simp [FitInst, FitVal, FitAttr, Py.hashable],
      by simp [VisInst, VisLeaf, hid3, Py.index0]⟩, ⟨by simp [Dict.Nodup, Dict.keys], by simp [h1, h2],
      by simp [Py.hashable]⟩, by simp [NoNumbers], ?_⟩
    intro x
    simp [Dict.keys, or_comm]

/-- The hypotheses are met: after three toys a fourth one is fitted and recognised. -/
example : ∃ st hist a st' b st'', TrestleRuns demoTrestle st hist ∧ hist.length = 3 ∧
    trestleIfit demoTrestle demoSearch demoToy st = (.ok a, st') ∧
    trestleCategorize demoTrestle demoSearch demoToy st' = (.ok b, st'') ∧
    ∃ r, st'.h.objs b = some r ∧ r.stats.nomLookup (.str c!"shape") (.str c!"ball") = some r.stats.count := by
  have hsort : ∀ i : PyInst, (sortEntries demoTrestle.std i).Perm i := fun i => List.perm_insertionSort _ _
  obtain ⟨st, h1, h2, h3⟩ := flat_histories demoTrestle_ok demoSearch_ok demoSearch_total demoToys
    (fun i hi => (demoToys_ok i (by simp [hi])).1) (fun i hi => (demoToys_ok i (by simp [hi])).2.1)
  obtain ⟨⟨w1, w2, w3⟩, hi, hn, hk⟩ := demoToys_ok demoToy (by simp)
  obtain ⟨a, st', temp, h4, h5, h6⟩ := C71_ifit_never_raises demoTrestle_ok h1 h3 demoSearch_ok demoSearch_total w1 w2 w3 h2
  have hrnd : Function.Injective st'.h.w.rnd := by
    obtain ⟨_, -, -, e⟩ := trestleIfit_prep h4
    rw [cobweb3H_rnd (trestle_heap demoTrestle_ok h1) e]
    exact h2
  obtain ⟨b, st'', h7⟩ := C71_categorize_never_raises demoTrestle_ok h5 (fun j hj => by
    rcases List.mem_append.1 hj with hj | hj
    · exact h3 j hj
    · exact List.mem_singleton.1 hj ▸ h6) demoSearch_ok demoSearch_total w1 w2 hrnd
  have hall : ∀ j ∈ demoToys.map (sortEntries demoTrestle.std), ∃ k ∈ demoToy :: demoToys, j.Perm k := by
    intro j hj
    obtain ⟨k, hk, rfl⟩ := List.mem_map.1 hj
    exact ⟨k, by simp [hk], hsort k⟩
  obtain ⟨r, hr, -, ht⟩ := C110_trestle_flat demoTrestle_ok h1 (fun j hj => by
      obtain ⟨k, hk, hp⟩ := hall j hj
      exact (demoToys_ok k hk).2.1.perm hp) demoSearch_ok demoSearch_ok hi w1 h4 h7
    ⟨.str c!"shape", (hk _).2 (.inl rfl), by simp [hid3, Py.index0]⟩
    (fun j hj x _ => by
      obtain ⟨k, hk', hp⟩ := hall j hj
      rw [hk, ← (demoToys_ok k hk').2.2.2 x]
      exact (hp.map Prod.fst).mem_iff.symm)
    (fun j hj => by
      rcases List.mem_cons.1 hj with rfl | hj
      · exact hn
      · obtain ⟨k, hk', hp⟩ := hall j hj
        exact fun p hp' => (demoToys_ok k hk').2.2.1 p (hp.mem_iff.1 hp'))
  refine ⟨st, _, a, st', b, st'', h1, rfl, h4, h7, r, hr, ?_⟩
  rw [(ht (.str c!"shape") (by simp [hid3, Py.index0])).1, if_pos (by simp [demoToy, Dict.get?])]

end CF
