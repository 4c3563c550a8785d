/-
Property C105: `pretty_print` and `output_json` on the dicts of a `Cobweb3Tree`, in the order of the dicts.
-/
import Verif.Props.RawRead
import Verif.Props.Print
import Verif.Props.Json3

set_option linter.unusedSectionVars false

namespace CF
variable {A B V : Type} [DecidableEq A] [DecidableEq B] [DecidableEq V] {key : V} {hid : A → Bool}
  {ord : RawStats A V → Inst3 A V → List A} {cfg : Cfg3 A B} {u : RawState A B V} {hist : List (Inst3 A V)} {n : ℕ}

/-! ### `pretty_print` -/

/-- The text of what the instances `m` have recorded under a key: the number of occurrences of the value; mean,
corrected deviation and number of the numbers. -/
noncomputable def recordText (fmt : ℝ → PStr) (key : V) (m : Multiset (Inst3 A V)) (a : A) (v : V) : PStr :=
  if v = key then fmt (sampleMean (nums m a)) ++ c!" (" ++ fmt (sampleStd (nums m a)) ++ c!") [" ++
    natStr (Multiset.card (nums m a)) ++ c!"]"
  else natStr (occ m a (.nom v))

/-- The text of a concept with the instances `m`, the entries in the order of the dicts. -/
noncomputable def dictText (fmt : ℝ → PStr) (strA : A → PStr) (strV : V → PStr) (key : V) (r : RawStats A V)
    (m : Multiset (Inst3 A V)) : PStr :=
  c!"{" ++ c!", ".intercalate (r.av.keys.map fun a => c!"'" ++ strA a ++ c!"': {" ++
    c!", ".intercalate ((r.keysOf a).map fun v => c!"'" ++ strV v ++ c!"': " ++ recordText fmt key m a v) ++ c!"}") ++
    c!"}: " ++ countStr (Multiset.card m)

variable {fmt : ℝ → PStr} {strA : A → PStr} {strV : V → PStr}

theorem RawSums.cellText {r : RawStats A V} {m : Multiset (Inst3 A V)} (h : RawSums key r m) {a : A} {t : RawTab V}
    (ht : (a, t) ∈ r.av) {v : V} {x : Cell} (hx : (v, x) ∈ t) :
    cellText fmt x = .ok (recordText fmt key m a v) := by
  have hc : r.cell a v = some x := by
    rw [RawStats.cell, Dict.get?_of_mem h.nodup.1 ht, Option.bind_some]
    exact Dict.get?_of_mem (h.nodup.2 _ ht) hx
  unfold recordText
  by_cases hv : v = key
  · subst hv
    rcases h.cv a with ⟨-, h1⟩ | ⟨-, c, h1, h2⟩
    · rw [h1] at hc; cases hc
    · rw [h1] at hc
      cases hc
      rw [if_pos rfl]
      exact C78_number h2
  · rw [h.noms a v hv] at hc
    split_ifs at hc
    cases hc
    rw [if_neg hv]
    rfl

theorem RawSums.row_eq {r : RawStats A V} {m : Multiset (Inst3 A V)} (h : RawSums key r m) :
    r.row fmt strA strV = .ok (dictText fmt strA strV key r m) := by
  have ht : ∀ p ∈ r.av, ∀ l : RawTab V, (∀ q ∈ l, q ∈ p.2) → rawTexts fmt strV l = .ok ((Dict.keys l).map fun v =>
      c!"'" ++ strV v ++ c!"': " ++ recordText fmt key m p.1 v) := by
    intro p hp l
    induction l with
    | nil => intro _; rfl
    | cons q l ih =>
      intro hl
      obtain ⟨v, x⟩ := q
      rw [rawTexts, h.cellText (a := p.1) (t := p.2) hp (hl (v, x) (by simp)), ih fun q hq => hl q (by simp [hq])]
      rfl
  have hk : ∀ p ∈ r.av, r.keysOf p.1 = Dict.keys p.2 := by
    intro p hp
    rw [RawStats.keysOf, Dict.get?_of_mem h.nodup.1 hp]
  have hall : ∀ l : List (A × RawTab V), (∀ p ∈ l, p ∈ r.av) → rawAttrTexts fmt strA strV l =
      .ok ((Dict.keys l).map fun a => c!"'" ++ strA a ++ c!"': {" ++
        c!", ".intercalate ((r.keysOf a).map fun v => c!"'" ++ strV v ++ c!"': " ++ recordText fmt key m a v) ++
        c!"}") := by
    intro l
    induction l with
    | nil => intro _; rfl
    | cons p l ih =>
      intro hl
      obtain ⟨a, t⟩ := p
      have hp := hl (a, t) (by simp)
      rw [rawAttrTexts, ht _ hp _ fun _ h => h, ih fun q hq => hl q (by simp [hq]), Dict.keys_cons, List.map_cons,
        hk _ hp]
      rfl
  rw [RawStats.row, hall _ fun _ h => h, ok_bind, dictText, h.count]
  rfl

/-- **C105**: `str` of a reachable tree never raises; the lines stand in preorder, indented by the depth; the line of a
concept shows, in the order of the dicts, how often every nominal value occurs and mean, corrected deviation and number
of the numbers. -/
theorem C105_pretty_print (hord : UnionOrder hid ord) (h : ReachRaw key hid ord cfg u hist n) (fmt : ℝ → PStr)
    (strA : A → PStr) (strV : V → PStr) :
    ∃ r : RawStats A V → PStr,
      (∀ x ∈ u.root.nodes, ∀ m, RawSums key x.stats m → r x.stats = dictText fmt strA strV key x.stats m) ∧
      treeStr (RawStats.row fmt strA strV) u.root =
        .ok ((nodesAt 0 u.root).flatMap fun p => nodeLine r p ++ ['\n']) := by
  refine ⟨fun s => match RawStats.row fmt strA strV s with | .ok t => t | .error _ => [], ?_, C78_text _ ?_ 0⟩
  · intro x _ m hm
    dsimp only
    rw [hm.row_eq]
  · intro x hx
    obtain ⟨m, -, hm⟩ := (C105_tables hord h).2 x hx
    rw [hm.row_eq]

/-! ### `output_json` -/

/-- What the instances `m` have recorded under a key, as a value of the output. -/
noncomputable def recordJson (key : V) (m : Multiset (Inst3 A V)) (a : A) (v : V) : JsonCell :=
  if v = key then .dist (sampleMean (nums m a)) (sampleStd (nums m a)) (Multiset.card (nums m a))
  else .count (occ m a (.nom v))

/-- The text of a key in the output. -/
def jsonKey (strV : V → String) (key v : V) : String := if v = key then "#ContinuousValue#" else strV v

/-- The entry `counts` of a concept with the instances `m`, in the order of the dicts. -/
noncomputable def dictJson (strA : A → String) (strV : V → String) (key : V) (r : RawStats A V)
    (m : Multiset (Inst3 A V)) : Dict String (Dict String JsonCell) :=
  r.av.keys.map fun a => (strA a, (r.keysOf a).map fun v => (jsonKey strV key v, recordJson key m a v))

/-- The object describes the tree: for every concept, whatever instances `m` its dicts record, the name, the number of
instances, the entries of the dicts in their order, the last key recorded under `g` if there is one, and the children in
order. -/
inductive RawDescribed (strA : A → String) (strV : V → String) (g : A) (key : V) :
    Tree (RawStats A V) → RawJson V → Prop
  | mk {id : ℕ} {s : RawStats A V} {cs : List (Tree (RawStats A V))} {guid : Option V} {size : ℕ}
      {counts : Dict String (Dict String JsonCell)} {js : List (RawJson V)} :
      (∀ m, RawSums key s m → TextsApart strA strV m → size = Multiset.card m ∧
        counts = dictJson strA strV key s m ∧
        ((∀ i ∈ m, Avoids key i) → (guid = none ↔ ∀ i ∈ m, g ∉ Dict.keys i))) →
      (∀ l v, s.keysOf g = l ++ [v] → guid = some v) →
      List.Forall₂ (RawDescribed strA strV g key) cs js →
      RawDescribed strA strV g key (.node id s cs) (.mk guid s!"Concept{id}" size counts js)

section
variable {strA : A → String} {strV : V → String} {r : RawStats A V} {m : Multiset (Inst3 A V)}

theorem RawSums.occ_ne (h : RawSums key r m) {a : A} {t : RawTab V} (ht : (a, t) ∈ r.av) {v : V}
    (hv : v ∈ Dict.keys t) (hk : v ≠ key) : occ m a (.nom v) ≠ 0 := by
  intro h0
  have h1 := h.noms a v hk
  rw [if_pos h0, RawStats.cell, Dict.get?_of_mem h.nodup.1 ht, Option.bind_some] at h1
  exact Dict.get?_eq_none.1 h1 hv

theorem RawSums.jsonKey_inj (h : RawSums key r m) (ha : TextsApart strA strV m) {a : A} {t : RawTab V}
    (ht : (a, t) ∈ r.av) : ∀ v ∈ Dict.keys t, ∀ w ∈ Dict.keys t, jsonKey strV key v = jsonKey strV key w → v = w := by
  intro v hv w hw e
  unfold jsonKey at e
  split_ifs at e with h1 h2 h2
  · rw [h1, h2]
  · exact absurd e.symm (ha.cv a w (h.occ_ne ht hw h2))
  · exact absurd e (ha.cv a v (h.occ_ne ht hv h1))
  · exact ha.val a v w (h.occ_ne ht hv h1) (h.occ_ne ht hw h2) e

theorem RawSums.cell_of_mem (h : RawSums key r m) {a : A} {t : RawTab V} (ht : (a, t) ∈ r.av) {v : V} {x : Cell}
    (hx : (v, x) ∈ t) : r.cell a v = some x := by
  rw [RawStats.cell, Dict.get?_of_mem h.nodup.1 ht, Option.bind_some]
  exact Dict.get?_of_mem (h.nodup.2 _ ht) hx

theorem RawSums.jsonTab_eq (h : RawSums key r m) (ha : TextsApart strA strV m) {a : A} {t : RawTab V}
    (ht : (a, t) ∈ r.av) : rawJsonTab key strV t [] =
      .ok ((Dict.keys t).map fun v => (jsonKey strV key v, recordJson key m a v)) := by
  have key' : ∀ l : RawTab V, (∀ q ∈ l, q ∈ t) → ∀ d, rawJsonTab key strV l d = .ok
      (((Dict.keys l).map fun v => (jsonKey strV key v, recordJson key m a v)).foldl
        (fun d p => Dict.set d p.1 p.2) d) := by
    intro l
    induction l with
    | nil => intro _ _; rfl
    | cons q l ih =>
      intro hl d
      obtain ⟨v, x⟩ := q
      have hc := h.cell_of_mem ht (hl (v, x) (by simp))
      have ih' := ih fun q hq => hl q (by simp [hq])
      rw [rawJsonTab.eq_def]
      dsimp only
      rw [Dict.keys_cons, List.map_cons, List.foldl_cons]
      by_cases hv : v = key
      · subst hv
        rcases h.cv a with ⟨-, h1⟩ | ⟨-, c, h1, h2⟩
        · rw [h1] at hc; cases hc
        · rw [h1] at hc
          cases hc
          have h3 : c.outputJson = .ok (sampleMean (nums m a), sampleStd (nums m a), Multiset.card (nums m a)) := by
            rw [CV.outputJson, unbiasedStd_eq h2, ok_bind, CV.unbiasedMean, h2.mean, h2.num]
            rfl
          rw [if_pos rfl]
          simp only [h3, ok_bind]
          rw [ih']
          simp [jsonKey, recordJson]
      · rw [h.noms a v hv] at hc
        split_ifs at hc
        cases hc
        rw [if_neg hv]
        dsimp only
        rw [ih']
        simp [jsonKey, recordJson, hv]
  rw [key' t (fun _ h => h), ← Dict.ofPairs, Dict.ofPairs_of_nodup]
  unfold Dict.Nodup
  have e : Dict.keys ((Dict.keys t).map fun v => (jsonKey strV key v, recordJson key m a v)) =
      (Dict.keys t).map (jsonKey strV key) := by
    simp [Dict.keys, Function.comp_def]
  rw [e]
  exact (h.nodup.2 _ ht).map_on fun v hv w hw => h.jsonKey_inj ha ht v hv w hw

theorem RawSums.jsonCounts_eq (h : RawSums key r m) (ha : TextsApart strA strV m) :
    rawJsonCounts key strA strV r.av [] = .ok (dictJson strA strV key r m) := by
  have key' : ∀ l : List (A × RawTab V), (∀ p ∈ l, p ∈ r.av) → ∀ d, rawJsonCounts key strA strV l d = .ok
      (((Dict.keys l).map fun a => (strA a, (r.keysOf a).map fun v => (jsonKey strV key v, recordJson key m a v))).foldl
        (fun d p => Dict.set d p.1 p.2) d) := by
    intro l
    induction l with
    | nil => intro _ _; rfl
    | cons p l ih =>
      intro hl d
      obtain ⟨a, t⟩ := p
      have hk : r.keysOf a = Dict.keys t := by rw [RawStats.keysOf, Dict.get?_of_mem h.nodup.1 (hl (a, t) (by simp))]
      rw [rawJsonCounts, h.jsonTab_eq ha (hl (a, t) (by simp)), ok_bind, ih fun q hq => hl q (by simp [hq]),
        Dict.keys_cons, List.map_cons, List.foldl_cons, hk]
  rw [key' _ (fun _ h => h), ← Dict.ofPairs, Dict.ofPairs_of_nodup]
  · rfl
  unfold Dict.Nodup
  have e : Dict.keys (r.av.keys.map fun a => (strA a, (r.keysOf a).map fun v =>
      (jsonKey strV key v, recordJson key m a v))) = r.av.keys.map strA := by
    simp [Dict.keys, Function.comp_def]
  rw [e]
  exact h.nodup.1.map_on fun a h1 b h2 e => ha.attr a b ((h.attrs a).1 h1) ((h.attrs b).1 h2) e

/-- An attribute of some instance has a key. -/
theorem RawSums.keysOf_nil (h : RawSums key r m) (hm : ∀ i ∈ m, Avoids key i) (g : A) : r.keysOf g = [] ↔ ∀ i ∈ m, g ∉ Dict.keys i := by
  constructor
  · intro h0 i hi hg
    obtain ⟨v, hv⟩ := Option.isSome_iff_exists.1 (Dict.get?_isSome.2 hg)
    have hcell : ∀ v, r.cell g v = none := by
      intro v
      unfold RawStats.keysOf at h0
      unfold RawStats.cell
      cases hg : r.av.get? g with
      | none => rfl
      | some t =>
        rw [hg] at h0
        rw [Option.bind_some, Dict.get?_eq_none]
        dsimp only at h0
        simp [h0]
    cases v with
    | nom v =>
      have h3 : occ m g (.nom v) ≠ 0 := (occ_pos.2 ⟨i, hi, hv⟩).ne'
      by_cases hk : v = key
      · exact absurd (by rw [hk]) (hm i hi (g, .nom v) (Dict.mem_of_get? hv))
      · have := h.noms g v hk
        rw [if_neg h3, hcell] at this
        cases this
    | num x =>
      rcases h.cv g with ⟨h3, -⟩ | ⟨-, c, h3, -⟩
      · have : x ∈ nums m g := (Multiset.mem_filterMap _ _).2 ⟨i, hi, by rw [hv]; rfl⟩
        rw [h3] at this
        cases this
      · rw [hcell] at h3; cases h3
  · intro h1
    have : g ∉ r.av.keys := fun hg => by
      obtain ⟨i, hi, hg⟩ := (h.attrs g).1 hg
      exact h1 i hi hg
    rw [RawStats.keysOf, Dict.get?_eq_none.2 this]

theorem rawDescribed (g : A) (x : Tree (RawStats A V))
    (hx : ∀ y ∈ x.nodes, ∃ m, RawSums key y.stats m ∧ TextsApart strA strV m) :
    ∃ j, rawOutputJson key strA strV g x = .ok j ∧ RawDescribed strA strV g key x j := by
  induction x using Tree.ind with
  | h id s cs ih =>
    obtain ⟨m, hs, ha⟩ := hx _ (Tree.self_mem_nodes _)
    simp only [Tree.stats_node] at hs
    have hL : ∀ l : List (Tree (RawStats A V)), (∀ c ∈ l, c ∈ cs) → ∃ js, rawOutputJsonL key strA strV g l = .ok js ∧
        List.Forall₂ (RawDescribed strA strV g key) l js := by
      intro l
      induction l with
      | nil => intro _; exact ⟨[], rfl, .nil⟩
      | cons c l ihl =>
        intro hl
        obtain ⟨j, h1, h2⟩ := ih c (hl c (by simp)) fun y hy =>
          hx y (Tree.mem_nodes_child (t := .node id s cs) (hl c (by simp)) hy)
        obtain ⟨js, h3, h4⟩ := ihl fun d hd => hl d (by simp [hd])
        refine ⟨j :: js, ?_, .cons h2 h4⟩
        rw [rawOutputJsonL, h1, h3]
        rfl
    obtain ⟨js, h1, h2⟩ := hL cs fun _ h => h
    refine ⟨_, by rw [rawOutputJson, hs.jsonCounts_eq ha, h1]; rfl, .mk (fun m' hs' ha' => ⟨hs'.count, ?_, fun hm => ?_⟩)
      (fun l v hl => ?_) h2⟩
    · exact Except.ok.inj ((hs.jsonCounts_eq ha).symm.trans (hs'.jsonCounts_eq ha'))
    · rw [rawGuid, List.getLast?_eq_none_iff]
      exact hs'.keysOf_nil hm g
    · rw [rawGuid, hl, List.getLast?_concat]

end

/-- **C105**: on every reachable tree, if the texts used as keys stand for one thing each, `output_json` does not raise,
and describes the whole tree: for every concept its name, the number of its instances, the recorded values in the order
of the dicts, the last guid that was recorded for the first time, and the children. -/
theorem C105_output_json (hord : UnionOrder hid ord) (h : ReachRaw key hid ord cfg u hist n) {strA : A → String}
    {strV : V → String} (ha : TextsApart strA strV (hist : Multiset (Inst3 A V))) (g : A) :
    ∃ j, rawOutputJson key strA strV g u.root = .ok j ∧ RawDescribed strA strV g key u.root j :=
  rawDescribed g u.root fun y hy => by
    obtain ⟨m, hle, hm⟩ := (C105_tables hord h).2 y hy
    exact ⟨m, hm, ha.mono hle⟩

theorem reachRaw_avoids (h : ReachRaw key hid ord cfg u hist n) : ∀ i ∈ hist, Avoids key i := by
  induction h with
  | init w => simp
  | step _ _ hk _ _ ih =>
    intro j hj
    rcases List.mem_append.1 hj with hj | hj
    · exact ih j hj
    · rw [List.mem_singleton.1 hj]; exact hk

/-- **C105**: the object of the root shows the whole history. -/
theorem C105_output_root (hord : UnionOrder hid ord) (h : ReachRaw key hid ord cfg u hist n) {strA : A → String}
    {strV : V → String} (ha : TextsApart strA strV (hist : Multiset (Inst3 A V))) (g : A) :
    ∃ guid js, rawOutputJson key strA strV g u.root = .ok (.mk guid s!"Concept{u.root.id}" hist.length
        (dictJson strA strV key u.root.stats (hist : Multiset (Inst3 A V))) js) ∧
      (guid = none ↔ ∀ i ∈ hist, g ∉ Dict.keys i) ∧
      ∀ v, guid = some v → 0 < keyShare key (hist : Multiset (Inst3 A V)) g (some v) := by
  obtain ⟨j, h1, h2⟩ := C105_output_json hord h ha g
  have h3 := (C105_tables hord h).1
  obtain ⟨st, hr, -, -, he⟩ := reachRaw_reach3 hord h
  have hk : ∀ v, v ∈ u.root.stats.keysOf g ↔ 0 < keyShare key (hist : Multiset (Inst3 A V)) g (some v) :=
    fun v => mem_rawKeys he.stats (C29_every_node hr).1
  clear he
  generalize u.root = t at h1 h2 h3 hk
  cases h2 with
  | @mk id s cs guid size counts js hs hl hc =>
    obtain ⟨e1, e2, h4⟩ := hs _ h3 ha
    rw [Multiset.coe_card] at e1
    subst e1 e2
    have hav : ∀ i ∈ (hist : Multiset (Inst3 A V)), Avoids key i := fun i hi => reachRaw_avoids h i (by simpa using hi)
    have h5 := h4 hav
    refine ⟨_, _, h1, h5, fun v hv => ?_⟩
    rw [← hk]
    rcases List.eq_nil_or_concat (s.keysOf g) with h0 | ⟨l, w, h0⟩
    · rw [h5.2 ((RawSums.keysOf_nil h3 hav g).1 h0)] at hv
      cases hv
    · have := hl l w (by simpa using h0)
      rw [hv] at this
      cases this
      rw [Tree.stats_node, h0]
      simp

/-- The mixed history, printed and written. -/
example : ∃ u n j text, ReachRaw 99 Demo.hid (demoOrd Demo.hid) (⟨1 / 2, id⟩ : Cfg3 ℕ ℕ) u Demo.mixed n ∧
    rawOutputJson 99 (fun a => toString a) (fun v => toString v) 9 u.root = .ok j ∧
    treeStr (RawStats.row (fun _ => c!"?") natStr natStr) u.root = .ok text := by
  obtain ⟨u, n, h⟩ := reachRaw_exists (demoOrd_ok Demo.hid) (⟨1 / 2, id⟩ : Cfg3 ℕ ℕ) Demo.mixed Demo.mixed_raw
  obtain ⟨j, hj, -⟩ := C105_output_json (strA := fun a => toString a) (strV := fun v => toString v)
    (demoOrd_ok _) h ⟨fun _ _ _ _ h => Nat.repr_injective h, fun _ _ _ _ _ h => Nat.repr_injective h, fun a v _ e => by
      have := congrArg String.toList e
      have h1 : (Nat.repr v).toList = Nat.toDigits 10 v := by simp [Nat.repr]
      have h2 : '#' ∈ Nat.toDigits 10 v := by
        rw [← h1]
        change '#' ∈ (toString v).toList
        rw [this]
        decide
      exact absurd (Nat.isDigit_of_mem_toDigits (b := 10) (by omega) (by omega) h2) (by decide)⟩ 9
  obtain ⟨r, -, ht⟩ := C105_pretty_print (demoOrd_ok _) h (fun _ => c!"?") natStr natStr
  exact ⟨u, n, j, _, h, hj, ht⟩

end CF
