/-
C79: `output_json` of a `Cobweb3Tree` describes the tree.
-/
import Verif.Model.Json3
import Verif.Props.Cobweb3
import Verif.Props.Predict

namespace CF
variable {A B V : Type} [DecidableEq A] [DecidableEq B] [DecidableEq V]

/-! ### Specification -/

/-- Every text that `output_json` uses as a key for the instances `m` stands for one thing. -/
structure TextsApart (strA : A → String) (strV : V → String) (m : Multiset (Inst3 A V)) : Prop where
  attr : ∀ a b, (∃ i ∈ m, a ∈ Dict.keys i) → (∃ i ∈ m, b ∈ Dict.keys i) → strA a = strA b → a = b
  val : ∀ a u v, occ m a (.nom u) ≠ 0 → occ m a (.nom v) ≠ 0 → strV u = strV v → u = v
  cv : ∀ a v, occ m a (.nom v) ≠ 0 → strV v ≠ "#ContinuousValue#"

/-- The entries `guid`, `size` and `counts` show the instances `m`: the size is their number; there is one entry per
attribute that occurs, with the number of occurrences of every nominal value, and with mean, corrected standard
deviation and number of the numbers if there are any, and with nothing else; the guid is missing if no instance has
one, and otherwise one of theirs. -/
structure ShowsInsts (strA : A → String) (strV : V → String) (g : A) (m : Multiset (Inst3 A V))
    (guid : Option (Option V)) (size : ℕ) (counts : Dict String (Dict String JsonCount)) : Prop where
  size : size = Multiset.card m
  nom : ∀ a v, occ m a (.nom v) ≠ 0 →
    (counts.get? (strA a)).bind (·.get? (strV v)) = some (.count (occ m a (.nom v)))
  num : ∀ a, nums m a ≠ 0 → (counts.get? (strA a)).bind (·.get? "#ContinuousValue#") =
    some (.dist (sampleMean (nums m a)) (sampleStd (nums m a)) (Multiset.card (nums m a)))
  attrs : ∀ k, k ∈ counts.keys ↔ ∃ a, (∃ i ∈ m, a ∈ Dict.keys i) ∧ strA a = k
  keys : ∀ a t, (∃ i ∈ m, a ∈ Dict.keys i) → counts.get? (strA a) = some t → ∀ k, k ∈ t.keys ↔
    (∃ v, occ m a (.nom v) ≠ 0 ∧ strV v = k) ∨ (nums m a ≠ 0 ∧ k = "#ContinuousValue#")
  noGuid : guid = none ↔ ∀ i ∈ m, g ∉ Dict.keys i
  guidNom : ∀ v, guid = some (some v) → occ m g (.nom v) ≠ 0
  guidNum : guid = some none → nums m g ≠ 0

/-- The object describes the tree: name and instances of the root, and the children in order. -/
inductive Described3 (strA : A → String) (strV : V → String) (g : A) : Tree (Stats3 A V) → NodeJson3 V → Prop
  | mk {id : ℕ} {s : Stats3 A V} {cs : List (Tree (Stats3 A V))} {guid : Option (Option V)} {size : ℕ}
      {counts : Dict String (Dict String JsonCount)} {js : List (NodeJson3 V)} :
      (∀ m, Summarizes3 s m → ShowsInsts strA strV g m guid size counts) →
      List.Forall₂ (Described3 strA strV g) cs js →
      Described3 strA strV g (.node id s cs) (.mk guid s!"Concept{id}" size counts js)

/-! ### Proof -/

theorem occ_ne_zero_mem {s : Stats3 A V} {m : Multiset (Inst3 A V)} (h : Summarizes3 s m) {a : A} {t : Tab V}
    (ht : s.av.get? a = some t) (v : V) : v ∈ Dict.keys t.noms ↔ occ m a (.nom v) ≠ 0 := by
  have h1 := h.noms a v
  rw [Stats3.nomLookup, ht, Option.bind_some] at h1
  rw [← Dict.get?_isSome, h1]
  split_ifs with h0 <;> simp [h0]

theorem jsonTab_eq {strA : A → String} {strV : V → String} {s : Stats3 A V} {m : Multiset (Inst3 A V)}
    (h : Summarizes3 s m) (ha : TextsApart strA strV m) {a : A} {t : Tab V} (ht : s.av.get? a = some t) :
    jsonTab strV t = .ok ((t.noms.map fun q => (strV q.1, .count q.2)) ++ if nums m a = 0 then [] else
      [("#ContinuousValue#", .dist (sampleMean (nums m a)) (sampleStd (nums m a)) (Multiset.card (nums m a)))]) := by
  have hnd : Dict.Nodup t.noms := h.nodup.2 (a, t) (Dict.mem_of_get? ht)
  have e1 : t.noms.foldl (fun d q => Dict.set d (strV q.1) (JsonCount.count q.2)) [] =
      t.noms.map fun q => (strV q.1, .count q.2) := by
    have h2 := Dict.ofPairs_of_nodup (t.noms.map fun q => (strV q.1, JsonCount.count q.2))
      (nodup_map_keys (g := JsonCount.count) hnd fun u hu v hv =>
        ha.val a u v ((occ_ne_zero_mem h ht u).1 hu) ((occ_ne_zero_mem h ht v).1 hv))
    rw [Dict.ofPairs, List.foldl_map] at h2
    exact h2
  have hcv : s.cvOf a = t.cv := by rw [Stats3.cvOf, ht]; rfl
  rw [jsonTab, e1]
  rcases h.cv a with ⟨h0, h1⟩ | ⟨h0, c, h1, h2⟩
  · rw [← hcv, h1, if_pos h0, List.append_nil]
    rfl
  · rw [← hcv, h1, if_neg h0]
    have h3 : c.outputJson = .ok (sampleMean (nums m a), sampleStd (nums m a), Multiset.card (nums m a)) := by
      rw [CV.outputJson, unbiasedStd_eq h2, ok_bind, CV.unbiasedMean, h2.mean, h2.num]
      rfl
    simp only [h3, ok_bind]
    rw [Dict.set_of_not_mem]
    · rfl
    · intro hk
      obtain ⟨p, hp, e⟩ := List.mem_map.1 hk
      obtain ⟨q, hq, rfl⟩ := List.mem_map.1 hp
      exact ha.cv a q.1 ((occ_ne_zero_mem h ht q.1).1 (List.mem_map_of_mem hq)) e

/-- The table of an attribute in the output. -/
noncomputable def tabOut (strV : V → String) (m : Multiset (Inst3 A V)) (p : A × Tab V) : Dict String JsonCount :=
  (p.2.noms.map fun q => (strV q.1, .count q.2)) ++ if nums m p.1 = 0 then [] else
      [("#ContinuousValue#", .dist (sampleMean (nums m p.1)) (sampleStd (nums m p.1)) (Multiset.card (nums m p.1)))]

theorem jsonCounts3_eq {strA : A → String} {strV : V → String} {s : Stats3 A V} {m : Multiset (Inst3 A V)}
    (h : Summarizes3 s m) (ha : TextsApart strA strV m) :
    jsonCounts3 strA strV s.av [] = .ok (s.av.map fun p => (strA p.1, tabOut strV m p)) := by
  have key : ∀ l : List (A × Tab V), (∀ p ∈ l, p ∈ s.av) → ∀ d, jsonCounts3 strA strV l d =
      .ok ((l.map fun p => (strA p.1, tabOut strV m p)).foldl (fun d p => Dict.set d p.1 p.2) d) := by
    intro l
    induction l with
    | nil => intro _ _; rfl
    | cons p l ih =>
      intro hl d
      rw [jsonCounts3, jsonTab_eq h ha (Dict.get?_of_mem h.nodup.1 (hl p (by simp))), ok_bind,
        ih fun q hq => hl q (by simp [hq])]
      rfl
  rw [key _ (fun _ h => h), ← Dict.ofPairs, Dict.ofPairs_of_nodup]
  unfold Dict.Nodup
  have e : Dict.keys (s.av.map fun p => (strA p.1, tabOut strV m p)) = s.av.keys.map strA := by
    simp [Dict.keys]
  rw [e]
  exact h.nodup.1.map_on fun a h1 b h2 e => ha.attr a b ((h.attrs a).1 h1) ((h.attrs b).1 h2) e

theorem shows_json {strA : A → String} {strV : V → String} {g : A} {s : Stats3 A V} {m : Multiset (Inst3 A V)}
    (h : Summarizes3 s m) (ha : TextsApart strA strV m) :
    ShowsInsts strA strV g m (jsonGuid g s) s.count (s.av.map fun p => (strA p.1, tabOut strV m p)) := by
  have hget : ∀ a t, s.av.get? a = some t →
      Dict.get? (s.av.map fun p => (strA p.1, tabOut strV m p)) (strA a) = some (tabOut strV m (a, t)) := by
    intro a t ht
    refine Dict.get?_of_mem (v := tabOut strV m (a, t)) ?_ (List.mem_map.2 ⟨(a, t), Dict.mem_of_get? ht, rfl⟩)
    unfold Dict.Nodup
    have e : Dict.keys (s.av.map fun p => (strA p.1, tabOut strV m p)) = s.av.keys.map strA := by
      simp [Dict.keys]
    rw [e]
    exact h.nodup.1.map_on fun a h1 b h2 e => ha.attr a b ((h.attrs a).1 h1) ((h.attrs b).1 h2) e
  have hkeys : ∀ a t, s.av.get? a = some t → ∀ k, k ∈ Dict.keys (tabOut strV m (a, t)) ↔
      (∃ v, occ m a (.nom v) ≠ 0 ∧ strV v = k) ∨ (nums m a ≠ 0 ∧ k = "#ContinuousValue#") := by
    intro a t ht k
    rw [tabOut, Dict.keys, List.map_append, List.mem_append, List.map_map]
    apply or_congr
    · rw [List.mem_map]
      constructor
      · rintro ⟨q, hq, rfl⟩
        exact ⟨q.1, (occ_ne_zero_mem h ht q.1).1 (List.mem_map_of_mem hq), rfl⟩
      · rintro ⟨v, hv, rfl⟩
        obtain ⟨q, hq, rfl⟩ := List.mem_map.1 ((occ_ne_zero_mem h ht v).2 hv)
        exact ⟨q, hq, rfl⟩
    · split_ifs with h0 <;> simp [h0]
  have hnd : ∀ a t, s.av.get? a = some t → Dict.Nodup (tabOut strV m (a, t)) := by
    intro a t ht
    have h1 : Dict.Nodup (t.noms.map fun q => (strV q.1, JsonCount.count q.2)) :=
      nodup_map_keys (g := JsonCount.count) (h.nodup.2 (a, t) (Dict.mem_of_get? ht)) fun u hu v hv =>
        ha.val a u v ((occ_ne_zero_mem h ht u).1 hu) ((occ_ne_zero_mem h ht v).1 hv)
    unfold Dict.Nodup Dict.keys at h1 ⊢
    rw [tabOut, List.map_append, List.nodup_append]
    refine ⟨h1, by split_ifs <;> simp, ?_⟩
    intro x hx y hy e
    subst e
    split_ifs at hy with h0
    · cases hy
    · simp only [List.map_cons, List.map_nil, List.mem_singleton] at hy
      subst hy
      obtain ⟨p, hp, e⟩ := List.mem_map.1 hx
      obtain ⟨q, hq, rfl⟩ := List.mem_map.1 hp
      exact ha.cv a q.1 ((occ_ne_zero_mem h ht q.1).1 (List.mem_map_of_mem hq)) e
  have some_nom : ∀ a v, occ m a (.nom v) ≠ 0 → ∃ t k, s.av.get? a = some t ∧ t.noms.get? v = some k ∧
      k = occ m a (.nom v) := by
    intro a v hv
    have h1 := h.noms a v
    rw [if_neg hv, Stats3.nomLookup] at h1
    obtain ⟨t, ht, h2⟩ := Option.bind_eq_some_iff.1 h1
    exact ⟨t, _, ht, h2, rfl⟩
  have some_num : ∀ a, nums m a ≠ 0 → ∃ t, s.av.get? a = some t ∧ t.cv.isSome := by
    intro a h0
    rcases h.cv a with ⟨h1, -⟩ | ⟨-, c, h1, -⟩
    · exact absurd h1 h0
    · obtain ⟨t, ht, h2⟩ := Option.bind_eq_some_iff.1 h1
      exact ⟨t, ht, by rw [h2]; rfl⟩
  refine ⟨h.count, ?_, ?_, ?_, ?_, ?_, ?_, ?_⟩
  · intro a v hv
    obtain ⟨t, k, ht, hk, rfl⟩ := some_nom a v hv
    rw [hget a t ht, Option.bind_some]
    refine Dict.get?_of_mem (hnd a t ht) ?_
    rw [tabOut]
    exact List.mem_append_left _ (List.mem_map.2 ⟨(v, _), Dict.mem_of_get? hk, rfl⟩)
  · intro a h0
    obtain ⟨t, ht, -⟩ := some_num a h0
    rw [hget a t ht, Option.bind_some]
    refine Dict.get?_of_mem (hnd a t ht) ?_
    rw [tabOut, if_neg h0]
    exact List.mem_append_right _ (by simp)
  · intro k
    have e : Dict.keys (s.av.map fun p => (strA p.1, tabOut strV m p)) = s.av.keys.map strA := by
      simp [Dict.keys]
    rw [e, List.mem_map]
    exact exists_congr fun a => and_congr_left fun _ => h.attrs a
  · intro a t hm ht k
    obtain ⟨t', ht'⟩ := Option.isSome_iff_exists.1 (Dict.get?_isSome.2 ((h.attrs a).2 hm))
    rw [hget a t' ht', Option.some.injEq] at ht
    rw [← ht]
    exact hkeys a t' ht' k
  · rw [jsonGuid]
    have hk := h.attrs g
    constructor
    · intro h1 i hi hg
      obtain ⟨t, ht⟩ := Option.isSome_iff_exists.1 (Dict.get?_isSome.2 (hk.2 ⟨i, hi, hg⟩))
      rw [ht] at h1
      simp only at h1
      split_ifs at h1 with h2
      have hn : t.noms = [] := by simpa using h1
      have hcv : s.cvOf g = none := by
        rw [Stats3.cvOf, ht]
        simpa using h2
      obtain ⟨v, hv⟩ : ∃ v, Dict.get? i g = some v :=
        Option.isSome_iff_exists.1 (Dict.get?_isSome.2 hg)
      cases v with
      | nom v =>
        have h3 : occ m g (.nom v) ≠ 0 := (occ_pos.2 ⟨i, hi, hv⟩).ne'
        have h4 := (occ_ne_zero_mem h ht v).2 h3
        rw [hn] at h4
        cases h4
      | num x =>
        rcases h.cv g with ⟨h3, -⟩ | ⟨-, c, h3, -⟩
        · have : x ∈ nums m g := (Multiset.mem_filterMap _ _).2 ⟨i, hi, by rw [hv]; rfl⟩
          rw [h3] at this
          cases this
        · rw [hcv] at h3; cases h3
    · intro h1
      have : g ∉ s.av.keys := fun hg => by
        obtain ⟨i, hi, hg⟩ := hk.1 hg
        exact h1 i hi hg
      rw [Dict.get?_eq_none.2 this]
  · intro v hv
    rw [jsonGuid] at hv
    split at hv
    · cases hv
    · next t ht =>
      split_ifs at hv with h2
      · cases hv
      · obtain ⟨q, hq, e⟩ := Option.map_eq_some_iff.1 hv
        obtain rfl := Option.some.inj e
        exact (occ_ne_zero_mem h ht q.1).1 (List.mem_map_of_mem (List.mem_of_getLast? hq))
  · intro hv
    rw [jsonGuid] at hv
    split at hv
    · cases hv
    · next t ht =>
      split_ifs at hv with h2
      · rcases h.cv g with ⟨-, h3⟩ | ⟨h3, -⟩
        · rw [Stats3.cvOf, ht, Option.bind_some] at h3
          rw [h3] at h2
          cases h2
        · exact h3
      · obtain ⟨q, hq, e⟩ := Option.map_eq_some_iff.1 hv
        cases e

theorem TextsApart.mono {strA : A → String} {strV : V → String} {m m' : Multiset (Inst3 A V)}
    (h : TextsApart strA strV m') (hle : m ≤ m') : TextsApart strA strV m := by
  have up : ∀ a v, occ m a v ≠ 0 → occ m' a v ≠ 0 := by
    intro a v h0
    obtain ⟨i, hi, e⟩ := occ_pos.1 (Nat.pos_of_ne_zero h0)
    exact (occ_pos.2 ⟨i, Multiset.mem_of_le hle hi, e⟩).ne'
  have upk : ∀ a, (∃ i ∈ m, a ∈ Dict.keys i) → ∃ i ∈ m', a ∈ Dict.keys i :=
    fun a ⟨i, hi, e⟩ => ⟨i, Multiset.mem_of_le hle hi, e⟩
  exact ⟨fun a b h1 h2 => h.attr a b (upk a h1) (upk b h2), fun a u v h1 h2 => h.val a u v (up _ _ h1) (up _ _ h2),
    fun a v h1 => h.cv a v (up _ _ h1)⟩

theorem TextsApart.congr {strA : A → String} {strV : V → String} {s : Stats3 A V} {m m' : Multiset (Inst3 A V)}
    (h : TextsApart strA strV m') (h1 : Summarizes3 s m) (h2 : Summarizes3 s m') : TextsApart strA strV m := by
  have up : ∀ a v, occ m a (.nom v) ≠ 0 → occ m' a (.nom v) ≠ 0 := by
    intro a v h0 h0'
    have e := (h1.noms a v).symm.trans (h2.noms a v)
    rw [if_neg h0, if_pos h0'] at e
    cases e
  have upk : ∀ a, (∃ i ∈ m, a ∈ Dict.keys i) → ∃ i ∈ m', a ∈ Dict.keys i :=
    fun a ha => (h2.attrs a).1 ((h1.attrs a).2 ha)
  exact ⟨fun a b h1 h2 => h.attr a b (upk a h1) (upk b h2), fun a u v h1 h2 => h.val a u v (up _ _ h1) (up _ _ h2),
    fun a v h1 => h.cv a v (up _ _ h1)⟩

theorem described3 {strA : A → String} {strV : V → String} {g : A} (x : Tree (Stats3 A V))
    (hx : ∀ y ∈ x.nodes, ∃ m, Summarizes3 y.stats m ∧ TextsApart strA strV m) :
    ∃ j, outputJson3 strA strV g x = .ok j ∧ Described3 strA strV g x j := by
  induction x using Tree.ind with
  | h id s cs ih =>
    obtain ⟨m, hs, ha⟩ := hx _ (Tree.self_mem_nodes _)
    simp only [Tree.stats_node] at hs
    have hL : ∀ l : List (Tree (Stats3 A V)), (∀ c ∈ l, c ∈ cs) → ∃ js, outputJson3L strA strV g l = .ok js ∧
        List.Forall₂ (Described3 strA strV g) l js := by
      intro l
      induction l with
      | nil => intro _; exact ⟨[], rfl, .nil⟩
      | cons c l ihl =>
        intro hl
        obtain ⟨j, h1, h2⟩ := ih c (hl c (by simp)) fun y hy =>
          hx y (Tree.mem_nodes_child (t := .node id s cs) (hl c (by simp)) hy)
        obtain ⟨js, h3, h4⟩ := ihl fun d hd => hl d (by simp [hd])
        refine ⟨j :: js, ?_, .cons h2 h4⟩
        rw [outputJson3L, h1, h3]
        rfl
    obtain ⟨js, h1, h2⟩ := hL cs fun _ h => h
    refine ⟨_, by rw [outputJson3, jsonCounts3_eq hs ha, h1]; rfl, .mk (fun m' hs' => ?_) h2⟩
    have e : ∀ p ∈ s.av, tabOut strV m p = tabOut strV m' p := by
      intro p hp
      have : ∀ {m}, Summarizes3 s m → TextsApart strA strV m → jsonTab strV p.2 = .ok (tabOut strV m p) :=
        fun h h' => jsonTab_eq h h' (Dict.get?_of_mem h.nodup.1 hp)
      exact Except.ok.inj ((this hs ha).symm.trans (this hs' (ha.congr hs' hs)))
    rw [List.map_congr_left fun p hp => by rw [e p hp]]
    exact shows_json hs' (ha.congr hs' hs)

section
variable {hid : A → Bool} {cfg : Cfg3 A B} {st : State3 A B V} {hist : List (Inst3 A V)} {n : ℕ}

/-- **C79**: on every reachable `Cobweb3Tree`, if the texts used as keys stand for one thing each, `output_json` does
not raise and describes the whole tree: for every node its name, the number of its instances, how often each nominal
value occurs, mean, corrected standard deviation and number of its numbers, nothing else, one of the guids, and the
children in order. -/
theorem C79_output_json (h : Reach3 hid cfg st hist n) {strA : A → String} {strV : V → String}
    (ha : TextsApart strA strV (hist : Multiset (Inst3 A V))) (g : A) :
    ∃ j, outputJson3 strA strV g st.root = .ok j ∧ Described3 strA strV g st.root j :=
  described3 st.root fun y hy => by
    obtain ⟨m, hle, hm⟩ := (C29_every_node h).2 y hy
    exact ⟨m, hm, ha.mono hle⟩

/-- **C79**: the object of the root shows the whole history. -/
theorem C79_root (h : Reach3 hid cfg st hist n) {strA : A → String} {strV : V → String}
    (ha : TextsApart strA strV (hist : Multiset (Inst3 A V))) (g : A) :
    ∃ guid counts js, outputJson3 strA strV g st.root = .ok (.mk guid s!"Concept{st.root.id}" hist.length counts js) ∧
      ShowsInsts strA strV g (hist : Multiset (Inst3 A V)) guid hist.length counts := by
  obtain ⟨j, h1, h2⟩ := C79_output_json h ha g
  have h3 := (C29_every_node h).1
  generalize st.root = t at h1 h2 h3
  cases h2 with
  | mk hs hc =>
    have h4 := hs _ h3
    have e := h4.size
    rw [Multiset.coe_card] at e
    subst e
    exact ⟨_, _, _, h1, h4⟩

/-- **C79** (negation without the hypothesis): attributes with the same text overwrite each other; here the attributes
`1` and `2` are both written `"x"`, and the first disappears from the output. -/
theorem C79_collision (hid : ℕ → Bool) (cfg : Cfg3 ℕ ℕ) (w : World) :
    ∃ o : Out3 ℕ ℕ ℕ, ifit3 hid cfg (emptyState3 hid w) [(1, .nom 7), (2, .nom 8)] w = .ok o ∧
      outputJson3 (fun _ => "x") (fun v => toString v) 0 o.state.root =
        .ok (.mk none s!"Concept{o.state.root.id}" 1 [("x", [("8", .count 1)])] []) := by
  refine ⟨⟨⟨.node (w.ctr + 1) (Stats3.incr Stats3.fresh [(1, .nom 7), (2, .nom 8)]) [],
    updateScales cfg.inner [] [(1, .nom 7), (2, .nom 8)]⟩, w.ctr + 1, w⟩, ?_, ?_⟩
  · have e : (Tree.node (w.ctr + 1) (Stats3.fresh : Stats3 ℕ ℕ) []).numConcepts = 0 + 1 := rfl
    rw [ifit3, emptyState3, emptyTree, cobweb]
    simp only [cobweb3Class, e, cobwebLoop]
    simp [Stats3.fresh]
  · simp [outputJson3, outputJson3L, jsonCounts3, jsonTab, jsonGuid, Stats3.incr, Stats3.fresh, Dict.updAll, Dict.get?,
      Dict.set, Tab.add, Tab.empty, ok_bind]
    exact ⟨rfl, by decide⟩

end

/-- The hypotheses hold for the demo instances. -/
example : ∃ st n j, Reach3 Demo.hid (⟨1 / 2, id⟩ : Cfg3 ℕ ℕ) st Demo.mixed n ∧
    outputJson3 (fun a => toString a) (fun v => toString v) 9 st.root = .ok j := by
  obtain ⟨st, n, h⟩ := reach3_exists ⟨1 / 2, id⟩ Demo.mixed Demo.mixed_ok
  obtain ⟨j, hj, -⟩ := C79_output_json (strA := fun a => toString a) (strV := fun v => toString v) h
    ⟨fun _ _ _ _ h => Nat.repr_injective h, fun _ _ _ _ _ h => Nat.repr_injective h, fun a v _ e => by
      have := congrArg String.toList e
      have h1 : (Nat.repr v).toList = Nat.toDigits 10 v := by simp [Nat.repr]
      have h2 : '#' ∈ Nat.toDigits 10 v := by
        rw [← h1]
        change '#' ∈ (toString v).toList
        rw [this]
        decide
      exact absurd (Nat.isDigit_of_mem_toDigits (b := 10) (by omega) (by omega) h2) (by decide)⟩ 9
  exact ⟨st, n, j, h, hj⟩

end CF
