/-
The loop of the model does what the textbook algorithm may do, and everything it may do.
-/
import Verif.Spec.Textbook
import Verif.Proofs.Loop
import Verif.Proofs.Best
import Verif.Proofs.NoRaise
import Verif.Proofs.Terminate
import Verif.Props.OpTies

set_option linter.unusedSectionVars false

namespace CF

@[simp] theorem Hier.group_node {I : Type} (m : Multiset I) (hs : List (Hier I)) : (Hier.node m hs).group = m := rfl
@[simp] theorem Hier.subs_node {I : Type} (m : Multiset I) (hs : List (Hier I)) : (Hier.node m hs).subs = hs := rfl

section lists

theorem shown_eraseIdx {α β : Type} {R : α → β → Prop} {l : List α} {l' : List β} (h : List.Forall₂ R l l') (k : ℕ) :
    List.Forall₂ R (l.eraseIdx k) (l'.eraseIdx k) := by
  induction h generalizing k with
  | nil => simp
  | cons h _ ih =>
    cases k with
    | zero => simpa
    | succ k => simpa using ⟨h, ih k⟩

theorem shown_set {α β : Type} {R : α → β → Prop} {l : List α} {l' : List β} (h : List.Forall₂ R l l') (k : ℕ)
    {a : α} {b : β} (hab : R a b) : List.Forall₂ R (l.set k a) (l'.set k b) := by
  induction h generalizing k with
  | nil => simp
  | cons h h' ih =>
    cases k with
    | zero => simpa using ⟨hab, h'⟩
    | succ k => simpa using ⟨h, ih k⟩

theorem shown_getElem? {α β : Type} {R : α → β → Prop} {l : List α} {l' : List β} (h : List.Forall₂ R l l') {k : ℕ}
    {a : α} (ha : l[k]? = some a) : ∃ b, l'[k]? = some b ∧ R a b := by
  induction h generalizing k with
  | nil => simp at ha
  | cons h h' ih =>
    cases k with
    | zero => simp at ha; subst ha; exact ⟨_, rfl, h⟩
    | succ k => simp only [List.getElem?_cons_succ] at ha ⊢; exact ih ha

theorem shown_getElem?' {α β : Type} {R : α → β → Prop} {l : List α} {l' : List β} (h : List.Forall₂ R l l') {k : ℕ}
    {b : β} (hb : l'[k]? = some b) : ∃ a, l[k]? = some a ∧ R a b := by
  obtain ⟨a, h1, h2⟩ := shown_getElem? (R := fun b a => R a b) h.flip hb
  exact ⟨a, h1, h2⟩

theorem shown_dropTwo {α β : Type} {R : α → β → Prop} {l : List α} {l' : List β} (h : List.Forall₂ R l l') (i j : ℕ) :
    List.Forall₂ R (dropTwo l i j) (dropTwo l' i j) := by
  unfold dropTwo
  have key : ∀ n, List.Forall₂ R (((l.zipIdx n).filter fun p => p.2 ≠ i ∧ p.2 ≠ j).map Prod.fst)
      (((l'.zipIdx n).filter fun p => p.2 ≠ i ∧ p.2 ≠ j).map Prod.fst) := by
    induction h with
    | nil => simp
    | cons h _ ih =>
      intro n
      simp only [List.zipIdx_cons, List.filter_cons]
      split
      · exact .cons h (ih (n + 1))
      · exact ih (n + 1)
  exact key 0

/-- A list that is a permutation of `x :: rest` has `x` at some position, and the others elsewhere. -/
theorem perm_cons_pos {α : Type} {l rest : List α} {x : α} (h : l.Perm (x :: rest)) :
    ∃ k, l[k]? = some x ∧ (l.eraseIdx k).Perm rest := by
  have hx : x ∈ l := h.mem_iff.2 (by simp)
  obtain ⟨k, hk⟩ := List.getElem?_of_mem hx
  exact ⟨k, hk, ((perm_eraseIdx hk).symm.trans h).cons_inv⟩

theorem getElem?_eraseIdx_pos {α : Type} {l : List α} {k j : ℕ} {y : α} (h : (l.eraseIdx k)[j]? = some y) :
    ∃ j', j' ≠ k ∧ l[j']? = some y := by
  rw [List.getElem?_eraseIdx] at h
  split at h
  · exact ⟨j, by omega, h⟩
  · exact ⟨j + 1, by omega, h⟩

theorem perm_cons_cons_pos {α : Type} {l rest : List α} {x y : α} (h : l.Perm (x :: y :: rest)) :
    ∃ k j, j ≠ k ∧ l[k]? = some x ∧ l[j]? = some y ∧ (dropTwo l k j).Perm rest := by
  obtain ⟨k, hk, h1⟩ := perm_cons_pos h
  obtain ⟨j0, hj0, -⟩ := perm_cons_pos h1
  obtain ⟨j, hne, hj⟩ := getElem?_eraseIdx_pos hj0
  exact ⟨k, j, hne, hk, hj, ((perm_dropTwo hne hk hj).symm.trans h).cons_inv.cons_inv⟩

end lists

variable {I S K : Type} [Field K] [LinearOrder K] [IsStrictOrderedRing K]
variable {C : NodeClass I S} {Ok : I → Prop} {Sum : S → Multiset I → Prop} {Same : I → I → Prop}
variable {ecg : S → Res K} {E : Multiset I → K} {G : I → Prop}

theorem gain_perm {m : Multiset I} {ms ms' : List (Multiset I)} (h : ms.Perm ms') : gain E m ms = gain E m ms' := by
  unfold gain
  rw [(h.map _).sum_eq, h.length_eq]

theorem hosting_perm {m : Multiset I} {i : I} {x : Hier I} {hs hs' : List (Hier I)} (h : hs.Perm hs') :
    hosting E m i x hs = hosting E m i x hs' := gain_perm ((h.map _).cons _)

/-- The scores are the values of the groups. -/
def Values (Sum : S → Multiset I → Prop) (ecg : S → Res K) (E : Multiset I → K) : Prop :=
  ∀ s m e, Sum s m → ecg s = .ok e → e = E m

theorem cu_utility (L : Laws C Ok Sum Same) (hV : Values Sum ecg E) {s : S} {ss : List S} {m : Multiset I}
    {gs : List (Multiset I)} (hs : Sum s m) (hm : m ≠ 0) (h : List.Forall₂ Sum ss gs) (hne : ss ≠ []) {u : K}
    (hu : categoryUtility C ecg s ss = .ok u) : u = gain E m gs := by
  have hc : C.count s ≠ 0 := by rw [L.count hs]; simpa using hm
  obtain ⟨h1, ⟨e, he⟩, rfl⟩ := (categoryUtility_ok_iff hc hne).1 hu
  unfold gain
  rw [he, val_ok, hV s m e hs he, h.length_eq, L.count hs]
  congr 2
  clear hne hu
  induction h with
  | nil => rfl
  | @cons c g _ _ h _ ih =>
    obtain ⟨e', he'⟩ := h1 c (by simp)
    rw [List.map_cons, List.map_cons, List.sum_cons, List.sum_cons, ih fun c hc => h1 c (by simp [hc]), he', val_ok,
      hV _ _ _ h he', L.count h]

section scores
variable (L : Laws C Ok Sum Same) (hV : Values Sum ecg E) {inst : I} (hi : Ok inst) {s : S} {m : Multiset I}
  (hs : Sum s m) {ss : List S} {gs : List (Multiset I)} (h : List.Forall₂ Sum ss gs)
include L hV hi hs h

omit hi hs in
theorem copies_of_sum : ∀ c ∈ ss, shallowCopy C c = c := by
  intro c hc
  obtain ⟨k, hk⟩ := List.getElem?_of_mem hc
  obtain ⟨g, -, hg⟩ := shown_getElem? h hk
  exact L.copy hg

omit hi hs in
theorem map_copies : ss.map (shallowCopy C) = ss := by
  conv_rhs => rw [← List.map_id ss]
  exact List.map_congr_left fun c hc => copies_of_sum L hV h c hc

theorem insert_utility {k : ℕ} {g : Multiset I} (hk : gs[k]? = some g) {u : K}
    (hu : cuForInsert C ecg s ss k inst = .ok u) :
    u = gain E (inst ::ₘ m) ((inst ::ₘ g) :: gs.eraseIdx k) := by
  obtain ⟨c, hc, hcg⟩ := shown_getElem?' h hk
  unfold cuForInsert at hu
  rw [insertChildren_eq (copies_of_sum L hV h) k inst hc, show shallowCopy C s = s from L.copy hs] at hu
  have := cu_utility L hV (L.incr hs hi) (by simp) (shown_set h k (L.incr hcg hi)) (by
    obtain ⟨hl, -⟩ := List.getElem?_eq_some_iff.1 hc
    intro h0
    have := congrArg List.length h0
    rw [List.length_set, List.length_nil] at this
    omega) hu
  rw [this]
  exact gain_perm (perm_set hk _)

theorem new_utility {u : K} (hu : cuForNewChild C ecg s ss inst = .ok u) :
    u = gain E (inst ::ₘ m) ({inst} :: gs) := by
  unfold cuForNewChild at hu
  rw [map_copies L hV h, show shallowCopy C s = s from L.copy hs] at hu
  have h1 : Sum (C.incr C.fresh inst) {inst} := L.incr L.fresh hi
  rw [cu_utility L hV (L.incr hs hi) (by simp) (List.rel_append h (List.Forall₂.cons h1 .nil)) (by simp) hu]
  exact gain_perm (List.perm_append_singleton _ _)

theorem merge_utility {i j : ℕ} {s1 s2 : S} {g1 g2 : Multiset I} (h1 : Sum s1 g1) (h2 : Sum s2 g2) {u : K}
    (hu : cuForMerge C ecg s ss i j s1 s2 inst = .ok u) :
    u = gain E (inst ::ₘ m) ((inst ::ₘ (g1 + g2)) :: dropTwo gs i j) := by
  unfold cuForMerge at hu
  rw [← map_dropTwo, map_copies L hV h, show shallowCopy C s = s from L.copy hs] at hu
  have h3 := L.add (L.add L.fresh h1) h2
  rw [zero_add] at h3
  exact cu_utility L hV (L.incr hs hi) (by simp) (.cons (L.incr h3 hi) (shown_dropTwo h i j)) (by simp) hu

omit hi in
theorem split_utility (hm : m ≠ 0) {k : ℕ} {bs : List S} {hs' : List (Multiset I)} (hb : List.Forall₂ Sum bs hs') (hne : bs ≠ [])
    {u : K} (hu : cuForSplit C ecg s ss k bs = .ok u) : u = gain E m (hs' ++ gs.eraseIdx k) := by
  unfold cuForSplit at hu
  have h1 : List.Forall₂ Sum (ss.eraseIdx k ++ bs) (gs.eraseIdx k ++ hs') := List.rel_append (shown_eraseIdx h k) hb
  rw [map_copies L hV h1, show shallowCopy C s = s from L.copy hs] at hu
  rw [cu_utility L hV hs hm h1 (by simp [hne]) hu]
  exact gain_perm List.perm_append_comm

end scores

/-! ### The concepts below -/

theorem depictsL_iff {cs : List (Tree S)} {hs : List (Hier I)} : DepictsL Sum cs hs ↔ List.Forall₂ (Depicts Sum) cs hs := by
  constructor
  · intro h
    induction cs generalizing hs with
    | nil => cases h; exact .nil
    | cons c cs ih => cases h with | cons h1 h2 => exact .cons h1 (ih h2)
  · intro h
    induction h with
    | nil => exact .nil
    | cons h _ ih => exact .cons h ih

theorem Depicts.stats {t : Tree S} {T : Hier I} (h : Depicts Sum t T) : Sum t.stats T.group := by
  cases h with | node h _ _ => exact h

theorem Depicts.subs {t : Tree S} {T : Hier I} (h : Depicts Sum t T) :
    ∃ hs', List.Forall₂ (Depicts Sum) t.children hs' ∧ hs'.Perm T.subs := by
  cases h with | node _ h1 h2 => exact ⟨_, depictsL_iff.1 h1, h2⟩

theorem shows_node {id : ℕ} {s : S} {cs : List (Tree S)} {m : Multiset I} {hs hs' : List (Hier I)} (h : Sum s m)
    (h1 : List.Forall₂ (Depicts Sum) cs hs') (h2 : hs'.Perm hs) : Depicts Sum (.node id s cs) (.node m hs) :=
  .node h (depictsL_iff.2 h1) h2

theorem shows_groups {cs : List (Tree S)} {hs : List (Hier I)} (h : List.Forall₂ (Depicts Sum) cs hs) :
    List.Forall₂ Sum (cs.map Tree.stats) (groups hs) := by
  induction h with
  | nil => exact .nil
  | cons h _ ih => exact .cons h.stats ih

/-- A permutation of the list of trees shows a permutation of the list of hierarchies. -/
theorem shows_perm {cs cs' : List (Tree S)} {hs : List (Hier I)} (h : List.Forall₂ (Depicts Sum) cs hs) (hp : cs'.Perm cs) :
    ∃ hs', List.Forall₂ (Depicts Sum) cs' hs' ∧ hs'.Perm hs := by
  obtain ⟨hs', h1, h2⟩ := List.perm_comp_forall₂ hp h
  exact ⟨hs', h1, h2⟩

section node
variable (L : Laws C Ok Sum Same) (hV : Values Sum ecg E) {inst : I} (hi : Ok inst) {s : S} {m : Multiset I}
  (hs : Sum s m) {cs : List (Tree S)} {hs' : List (Hier I)} (h : List.Forall₂ (Depicts Sum) cs hs')
include L hV hi hs h

theorem insert_hosting {k : ℕ} {x : Hier I} (hk : hs'[k]? = some x) {u : K}
    (hu : cuForInsert C ecg s (cs.map Tree.stats) k inst = .ok u) : u = hosting E m inst x (hs'.eraseIdx k) := by
  rw [insert_utility L hV hi hs (shows_groups h) (g := x.group) (by simp [groups, hk]) hu]
  unfold hosting groups
  rw [List.eraseIdx_map]

/-- The scores of the code are the utilities of the offers. -/
theorem offer_of_score (hm : m ≠ 0) {k j : ℕ} {x y : Hier I} (hne : j ≠ k) (hk : hs'[k]? = some x)
    (hj : hs'[j]? = some y) {op : Op} {u : K}
    (hu : OpScore C ecg s cs inst (hosting E m inst x (hs'.eraseIdx k)) k (some j) op u) :
    Offer E m inst x y (dropTwo hs' k j) op u := by
  have hp : hs'.Perm (x :: y :: dropTwo hs' k j) := perm_dropTwo hne hk hj
  have hp1 : (hs'.eraseIdx k).Perm (y :: dropTwo hs' k j) := ((perm_eraseIdx hk).symm.trans hp).cons_inv
  cases hu with
  | best => rw [hosting_perm hp1]; exact .best
  | new hu =>
    have h1 : (groups hs').Perm (groups (x :: y :: dropTwo hs' k j)) := hp.map _
    rw [new_utility L hV hi hs (shows_groups h) hu, gain_perm (h1.cons _)]
    exact .new
  | @merge j' t1 t2 _ h1 h2 h3 h4 hu =>
    cases h1
    obtain ⟨x', hx', h5⟩ := shown_getElem? h h2
    obtain ⟨y', hy', h6⟩ := shown_getElem? h h3
    rw [hk] at hx'; cases hx'
    rw [hj] at hy'; cases hy'
    rw [merge_utility L hV hi hs (shows_groups h) h5.stats h6.stats hu]
    unfold groups
    rw [map_dropTwo]
    refine .merge ?_
    intro h0
    have := hp.length_eq
    rw [h0, ← h.length_eq] at this
    simp at this; omega
  | @split t1 _ h1 h2 hu =>
    obtain ⟨x', hx', h5⟩ := shown_getElem? h h1
    rw [hk] at hx'; cases hx'
    obtain ⟨bs, h6, h7⟩ := h5.subs
    rw [split_utility L hV hs (shows_groups h) hm (shows_groups h6) (by simpa using h2) hu]
    have : (groups bs ++ (groups hs').eraseIdx k).Perm (groups (x.subs ++ y :: dropTwo hs' k j)) := by
      unfold groups
      rw [List.eraseIdx_map, List.map_append]
      exact (h7.map _).append (hp1.map _)
    rw [gain_perm this]
    refine .split ?_
    intro h0
    rw [h0] at h7
    have := h7.eq_nil
    subst this
    cases h6' : t1.children with
    | nil => exact h2 h6'
    | cons a b => rw [h6'] at h6; cases h6

end node

/-- What `get_best_operation` has computed when it returns. -/
theorem bestOp_scores {s : S} {cs : List (Tree S)} {inst : I} {cu1 : K} {i : ℕ} {b2 : Option ℕ} {w : World} {off : ℕ}
    {r : K × Op × ℕ} (h : bestOp C ecg allOps s cs inst cu1 (some i) b2 w off = .ok r) {t1 : Tree S}
    (ht1 : cs[i]? = some t1) :
    (∃ u, cuForNewChild C ecg s (cs.map Tree.stats) inst = .ok u) ∧
    (∀ j t2, b2 = some j → cs[j]? = some t2 → cs.length > 2 →
      ∃ u, cuForMerge C ecg s (cs.map Tree.stats) i j t1.stats t2.stats inst = .ok u) ∧
    (t1.children ≠ [] → ∃ u, cuForSplit C ecg s (cs.map Tree.stats) i (t1.children.map Tree.stats) = .ok u) := by
  unfold bestOp at h
  simp only [ht1, bind_ok] at h
  obtain ⟨l1, hl1, l2, hl2, l3, hl3, -⟩ := h
  refine ⟨?_, ?_, ?_⟩
  · unfold opsNew at hl1
    rw [if_pos (by simp [allOps]), addOp_ok] at hl1
    obtain ⟨u, hu, -⟩ := hl1
    exact ⟨u, hu⟩
  · rintro j t2 rfl ht2 hlen
    unfold opsMerge at hl2
    simp only [Option.bind_some, ht2, Option.map_some] at hl2
    rw [if_pos ⟨by simp [allOps], hlen⟩, addOp_ok] at hl2
    obtain ⟨u, hu, -⟩ := hl2
    exact ⟨u, hu⟩
  · intro hne
    unfold opsSplit at hl3
    rw [if_pos ⟨by simp [allOps], List.length_pos_iff.2 hne⟩, addOp_ok] at hl3
    obtain ⟨u, hu, -⟩ := hl3
    exact ⟨u, hu⟩

section node
variable (L : Laws C Ok Sum Same) (hV : Values Sum ecg E) {inst : I} (hi : Ok inst) {s : S} {m : Multiset I}
  (hs : Sum s m) {cs : List (Tree S)} {hs' : List (Hier I)} (h : List.Forall₂ (Depicts Sum) cs hs')
include L hV hi hs h

/-- The offers are scored by the code. -/
theorem score_of_offer (hm : m ≠ 0) {k j : ℕ} {x y : Hier I} (hne : j ≠ k) (hk : hs'[k]? = some x)
    (hj : hs'[j]? = some y) {w : World} {off : ℕ} {r : K × Op × ℕ}
    (hb : bestOp C ecg allOps s cs inst (hosting E m inst x (hs'.eraseIdx k)) (some k) (some j) w off = .ok r)
    {op : Op} {u : K} (hu : Offer E m inst x y (dropTwo hs' k j) op u) :
    OpScore C ecg s cs inst (hosting E m inst x (hs'.eraseIdx k)) k (some j) op u := by
  obtain ⟨t1, ht1, h1⟩ := shown_getElem?' h hk
  obtain ⟨t2, ht2, h2⟩ := shown_getElem?' h hj
  obtain ⟨⟨un, hn⟩, hmg, hsp⟩ := bestOp_scores hb ht1
  -- a score of the same operation is that of the offer
  have key : ∀ {u'}, OpScore C ecg s cs inst (hosting E m inst x (hs'.eraseIdx k)) k (some j) op u' → 
      OpScore C ecg s cs inst (hosting E m inst x (hs'.eraseIdx k)) k (some j) op u := by
    intro u' h'
    have := offer_of_score L hV hi hs h hm hne hk hj h'
    have e : u' = u := by cases hu <;> cases this <;> rfl
    rwa [e] at h'
  cases hu with
  | best => exact key .best
  | new => exact key (.new hn)
  | merge h0 =>
    have hlen : cs.length > 2 := by
      have := (perm_dropTwo hne hk hj).length_eq
      rw [← h.length_eq] at this
      have h3 := List.length_pos_iff.2 h0
      simp at this; omega
    obtain ⟨u', hu'⟩ := hmg j t2 rfl ht2 hlen
    exact key (.merge rfl ht1 ht2 hlen hu')
  | split h0 =>
    have h3 : t1.children ≠ [] := by
      obtain ⟨bs, h6, h7⟩ := h1.subs
      intro h3
      rw [h3] at h6
      cases h6
      exact h0 h7.nil_eq.symm
    obtain ⟨u', hu'⟩ := hsp h3
    exact key (.split ht1 h3 hu')

end node

/-! ### Proper hierarchies -/

/-- Leaves are not empty, and a concept with concepts below has at least two, which divide its instances. -/
inductive Hier.Proper : Hier I → Prop
  | leaf {m} : m ≠ 0 → Hier.Proper (.node m [])
  | node {m hs} : 2 ≤ hs.length → (∀ x ∈ hs, Hier.Proper x) → (groups hs).sum = m → Hier.Proper (.node m hs)

theorem Hier.Proper.ne_zero {T : Hier I} (h : T.Proper) : T.group ≠ 0 := by
  induction h with
  | leaf h => exact h
  | @node m hs h1 _ h3 ih =>
    cases hs with
    | nil => simp at h1
    | cons x xs =>
      rw [Hier.group_node, ← h3]
      have := ih x (by simp)
      intro h0
      simp only [groups, List.map_cons, List.sum_cons] at h0
      have h4 := congrArg Multiset.card h0
      simp only [Multiset.card_add, Multiset.card_zero] at h4
      exact this (Multiset.card_eq_zero.1 (by omega))

theorem Hier.Proper.internal {m : Multiset I} {hs : List (Hier I)} (h : (Hier.node m hs).Proper) (hne : hs ≠ []) :
    2 ≤ hs.length ∧ (∀ x ∈ hs, Hier.Proper x) ∧ (groups hs).sum = m := by
  cases h with
  | leaf => exact absurd rfl hne
  | node h1 h2 h3 => exact ⟨h1, h2, h3⟩

theorem groups_sum_perm {hs hs' : List (Hier I)} (h : hs.Perm hs') : (groups hs).sum = (groups hs').sum :=
  (h.map _).sum_eq

/-- The textbook algorithm adds the instance, and keeps the hierarchy proper. -/
theorem Sorts.proper {i : I} {T T' : Hier I} (h : Sorts E Same i T T') (hT : T.Proper) :
    T'.Proper ∧ T'.group = i ::ₘ T.group := by
  induction h with
  | join _ => exact ⟨.leaf (by simp), rfl⟩
  | @divide m _ =>
    refine ⟨.node (by simp) ?_ ?_, rfl⟩
    · intro x hx
      simp at hx
      rcases hx with rfl | rfl
      · exact .leaf hT.ne_zero
      · exact .leaf (by simp)
    · simp only [groups, List.map_cons, Hier.group_node, List.map_nil, List.sum_cons, List.sum_nil, add_zero]
      rw [add_comm, Multiset.singleton_add]
  | @best m hs x y rest x' hH _ _ ih =>
    have hne : hs ≠ [] := by rintro rfl; exact absurd hH.all.symm.eq_nil (by simp)
    obtain ⟨h1, h2, h3⟩ := hT.internal hne
    obtain ⟨h4, h5⟩ := ih (h2 x (hH.all.mem_iff.2 (by simp)))
    refine ⟨.node (by simp) ?_ ?_, rfl⟩
    · intro z hz
      rcases List.mem_cons.1 hz with rfl | hz
      · exact h4
      · exact h2 z (hH.all.mem_iff.2 (List.mem_cons_of_mem _ hz))
    · rw [groups_sum_perm hH.all] at h3
      rw [← h3]
      simp only [groups, List.map_cons, List.sum_cons, h5, Multiset.cons_add]
  | @new m hs x y rest hH _ =>
    have hne : hs ≠ [] := by rintro rfl; exact absurd hH.all.symm.eq_nil (by simp)
    obtain ⟨h1, h2, h3⟩ := hT.internal hne
    refine ⟨.node (by simp; omega) ?_ ?_, rfl⟩
    · intro z hz
      rcases List.mem_cons.1 hz with rfl | hz
      · exact .leaf (by simp)
      · exact h2 z hz
    · rw [← h3]; simp [groups, Multiset.singleton_add]
  | @merge m hs x y rest z hH hW _ ih =>
    have hne : hs ≠ [] := by rintro rfl; exact absurd hH.all.symm.eq_nil (by simp)
    obtain ⟨h1, h2, h3⟩ := hT.internal hne
    obtain ⟨u, hu, -⟩ := hW
    have hr : rest ≠ [] := by cases hu with | merge h => exact h
    obtain ⟨h4, h5⟩ := ih (.node (by simp) (by
      intro w hw
      simp at hw
      rcases hw with rfl | rfl <;> exact h2 _ (hH.all.mem_iff.2 (by simp))) (by simp [groups]))
    have := List.length_pos_iff.2 hr
    refine ⟨.node (by simp; omega) ?_ ?_, rfl⟩
    · intro w hw
      rcases List.mem_cons.1 hw with rfl | hw
      · exact h4
      · exact h2 w (hH.all.mem_iff.2 (by simp [hw]))
    · rw [groups_sum_perm hH.all] at h3
      rw [← h3]
      simp only [groups, List.map_cons, List.sum_cons, h5, Hier.group_node, Multiset.cons_add, add_assoc]
  | @split m hs x y rest z hH hW _ ih =>
    have hne : hs ≠ [] := by rintro rfl; exact absurd hH.all.symm.eq_nil (by simp)
    obtain ⟨h1, h2, h3⟩ := hT.internal hne
    obtain ⟨u, hu, -⟩ := hW
    have hr : x.subs ≠ [] := by cases hu with | split h => exact h
    obtain ⟨mx, xs⟩ := x
    simp only [Hier.subs_node] at *
    obtain ⟨k1, k2, k3⟩ := (h2 _ (hH.all.mem_iff.2 (List.mem_cons_self ..))).internal hr
    refine ih (.node (by simp; omega) ?_ ?_)
    · intro w hw
      rcases List.mem_append.1 hw with hw | hw
      · exact k2 w hw
      · exact h2 w (hH.all.mem_iff.2 (List.mem_cons_of_mem _ hw))
    · rw [groups_sum_perm hH.all] at h3
      rw [← h3]
      simp only [groups, List.map_append, List.sum_append, List.map_cons, List.sum_cons, Hier.group_node] at k3 ⊢
      rw [k3]

/-! ### Every run is one of the textbook -/

section node
variable (L : Laws C Ok Sum Same) (hV : Values Sum ecg E) {inst : I} (hi : Ok inst)
  (hinc : ∀ s, C.count (C.incr s inst) = C.count s + 1)
include L hV hi hinc

theorem chooseOp_hosts {s : S} {m : Multiset I} (hs : Sum s m) (hm : m ≠ 0) {cs : List (Tree S)} {hs' : List (Hier I)}
    (h : List.Forall₂ (Depicts Sum) cs hs') (h2 : 2 ≤ cs.length) {w w' : World} {b : Best K} {op : Op}
    (hch : chooseOp C ecg s cs inst w = .ok (b, op, w')) :
    ∃ j x y, b.b2 = some j ∧ j ≠ b.b1 ∧ hs'[b.b1]? = some x ∧ hs'[j]? = some y ∧
      Wins E m inst x y (dropTwo hs' b.b1 j) op ∧
      ∀ hs, hs'.Perm hs → Hosts E m inst hs x y (dropTwo hs' b.b1 j) := by
  unfold chooseOp at hch
  simp only [bind_ok] at hch
  obtain ⟨b', hb, ⟨cu, op', n⟩, ho, hch⟩ := hch
  simp only [pure_ok, Prod.mk.injEq] at hch
  obtain ⟨rfl, rfl, rfl⟩ := hch
  have hsg := shows_groups h
  obtain ⟨c1, hc1, hu1, hall, hnone, hsec⟩ := twoBest_optimal (copies_of_sum L hV hsg)
    (show shallowCopy C s = s from L.copy hs) hinc hb
  cases hb2 : b'.b2 with
  | none => rw [hb2] at hnone; simp at hnone; omega
  | some j =>
  obtain ⟨hne, c2, u2, hc2, hu2, hsec⟩ := hsec j hb2
  obtain ⟨g1, hg1, hs1⟩ := shown_getElem? hsg hc1
  obtain ⟨g2, hg2, hs2⟩ := shown_getElem? hsg hc2
  simp only [groups, List.getElem?_map, Option.map_eq_some_iff] at hg1 hg2
  obtain ⟨x, hx, rfl⟩ := hg1
  obtain ⟨y, hy, rfl⟩ := hg2
  have hcu := insert_hosting L hV hi hs h hx hu1
  have hcu2 := insert_hosting L hV hi hs h hy hu2
  have hp : hs'.Perm (x :: y :: dropTwo hs' b'.b1 j) := perm_dropTwo hne hx hy
  have hp1 : (hs'.eraseIdx b'.b1).Perm (y :: dropTwo hs' b'.b1 j) := ((perm_eraseIdx hx).symm.trans hp).cons_inv
  have hp2 : (hs'.eraseIdx j).Perm (x :: dropTwo hs' b'.b1 j) :=
    ((perm_eraseIdx hy).symm.trans (hp.trans (List.Perm.swap _ _ _))).cons_inv
  refine ⟨j, x, y, rfl, hne, hx, hy, ?_, fun hs0 hp0 => ⟨hp0.symm.trans hp, ?_, ?_⟩⟩
  · rw [hb2] at ho
    rw [hcu] at ho
    obtain ⟨i, hi', -, hsc, hmax⟩ := C12_best_operation ho
    cases hi'
    refine ⟨cu, offer_of_score L hV hi hs h hm hne hx hy hsc, fun o' u' hu' => ?_⟩
    exact hmax o' u' (by cases o' <;> simp [allOps]) (score_of_offer L hV hi hs h hm hne hx hy ho hu')
  · intro z zs hz
    obtain ⟨k, hk, hk2⟩ := perm_cons_pos (hp0.trans hz)
    obtain ⟨c, hc, hcs⟩ := shown_getElem?' hsg (b := z.group) (k := k) (by simp [groups, hk])
    obtain ⟨u, hu, hnb⟩ := hall k c hc
    rw [← hosting_perm hk2, ← insert_hosting L hV hi hs h hk hu, ← hosting_perm hp1, ← hcu, ← L.count hcs, ← L.count hs1]
    rcases hnb with h | ⟨h, h' | ⟨h', -⟩⟩
    · exact .inl h
    · exact .inr ⟨h, h'.le⟩
    · exact .inr ⟨h, h'.le⟩
  · intro z zs hz
    have hz1 : (hs'.eraseIdx b'.b1).Perm (z :: zs) := ((perm_eraseIdx hx).symm.trans (hp0.trans hz)).cons_inv
    obtain ⟨k0, hk0, -⟩ := perm_cons_pos hz1
    obtain ⟨k, hkne, hk⟩ := getElem?_eraseIdx_pos hk0
    have hk2 : (hs'.eraseIdx k).Perm (x :: zs) :=
      ((perm_eraseIdx hk).symm.trans ((hp0.trans hz).trans (List.Perm.swap _ _ _))).cons_inv
    obtain ⟨c, hc, hcs⟩ := shown_getElem?' hsg (b := z.group) (k := k) (by simp [groups, hk])
    obtain ⟨u, hu, -⟩ := hall k c hc
    have hnb := hsec k c u hkne hc hu
    rw [← hosting_perm hk2, ← insert_hosting L hV hi hs h hk hu, ← hosting_perm hp2, ← hcu2, ← L.count hcs, ← L.count hs2]
    rcases hnb with h | ⟨h, h' | ⟨h', -⟩⟩
    · exact .inl h
    · exact .inr ⟨h, h'.le⟩
    · exact .inr ⟨h, h'.le⟩

theorem LoopRel.sorts {t : Tree S} {w : World} {o : Out S} (h : LoopRel C ecg inst t w o) :
    ∀ T : Hier I, Depicts Sum t T → T.Proper → ∃ T', Sorts E Same inst T T' ∧ Depicts Sum o.tree T' := by
  induction h with
  | @hit id s w hx =>
    rintro _ (@⟨_, _, _, m, hs, hs', h1, h2, h3⟩) hT
    cases h2
    cases h3.nil_eq
    refine ⟨_, .join ?_, shows_node (L.incr h1 hi) .nil (.refl _)⟩
    rcases hx with hx | hx
    · exact (L.exact h1 hT.ne_zero hi).1 hx
    · rw [L.count h1, Multiset.card_eq_zero] at hx
      exact absurd hx hT.ne_zero
  | @fringe id s w hx hc =>
    rintro _ (@⟨_, _, _, m, hs, hs', h1, h2, h3⟩) hT
    cases h2
    cases h3.nil_eq
    refine ⟨_, .divide ?_, shows_node ?_ (.cons ?_ (.cons ?_ .nil)) (.refl _)⟩
    · intro h
      rw [(L.exact h1 hT.ne_zero hi).2 h] at hx
      cases hx
    · rw [show shallowCopy C s = s from L.copy h1]; exact L.incr h1 hi
    · exact shows_node h1 .nil (.refl _)
    · exact shows_node (L.incr L.fresh hi) .nil (.refl _)
  | @best id s cs w w' b t o hne hch _ ht _ ih =>
    rintro _ (@⟨_, _, _, m, hs, hs', h1, h2, h3⟩) hT
    rw [depictsL_iff] at h2
    have hne' : hs ≠ [] := by
      rintro rfl; have := h2.length_eq; rw [h3.length_eq] at this; exact hne (List.length_eq_zero_iff.1 this)
    obtain ⟨p1, p2, p3⟩ := hT.internal hne'
    obtain ⟨j, x, y, hb2, hnj, hx, hy, hW, hH⟩ := chooseOp_hosts L hV hi hinc h1 hT.ne_zero h2
      (by rw [h2.length_eq, h3.length_eq]; exact p1) hch
    obtain ⟨x0, hx0, hs0⟩ := shown_getElem? h2 ht
    rw [hx] at hx0; cases hx0
    obtain ⟨x', k1, k2⟩ := ih x hs0 (p2 x (h3.mem_iff.1 (List.mem_of_getElem? hx)))
    refine ⟨_, .best (hH hs h3) hW k1, ?_⟩
    obtain ⟨l, q1, q2⟩ := shows_perm (.cons k2 (shown_eraseIdx h2 b.b1)) (perm_putChild ht o)
    refine shows_node (L.incr h1 hi) q1 (q2.trans (.cons _ ?_))
    exact ((perm_eraseIdx hx).symm.trans (perm_dropTwo hnj hx hy)).cons_inv
  | @new id s cs w w' b hne hch _ =>
    rintro _ (@⟨_, _, _, m, hs, hs', h1, h2, h3⟩) hT
    rw [depictsL_iff] at h2
    have hne' : hs ≠ [] := by
      rintro rfl; have := h2.length_eq; rw [h3.length_eq] at this; exact hne (List.length_eq_zero_iff.1 this)
    obtain ⟨p1, p2, p3⟩ := hT.internal hne'
    obtain ⟨j, x, y, hb2, hnj, hx, hy, hW, hH⟩ := chooseOp_hosts L hV hi hinc h1 hT.ne_zero h2
      (by rw [h2.length_eq, h3.length_eq]; exact p1) hch
    refine ⟨_, .new (hH hs h3) hW, ?_⟩
    have h4 : Depicts Sum (.node (w'.ctr + 1) (C.incr C.fresh inst) []) (.node {inst} []) :=
      shows_node (L.incr L.fresh hi) .nil (.refl _)
    exact shows_node (L.incr h1 hi) (List.rel_append h2 (List.Forall₂.cons h4 .nil))
      ((List.perm_append_singleton _ _).trans (h3.cons _))
  | @merge id s cs w w' b j t1 t2 o hlen hch _ hj hne ht1 ht2 _ ih =>
    rintro _ (@⟨_, _, _, m, hs, hs', h1, h2, h3⟩) hT
    rw [depictsL_iff] at h2
    have hl := h2.length_eq
    rw [h3.length_eq] at hl
    have hne' : hs ≠ [] := by
      rintro rfl; simp at hl; subst hl; simp at hlen
    obtain ⟨p1, p2, p3⟩ := hT.internal hne'
    obtain ⟨j', x, y, hb2, hnj, hx, hy, hW, hH⟩ := chooseOp_hosts L hV hi hinc h1 hT.ne_zero h2 (by omega) hch
    rw [hj] at hb2; cases hb2
    obtain ⟨x0, hx0, hs1⟩ := shown_getElem? h2 ht1
    obtain ⟨y0, hy0, hs2⟩ := shown_getElem? h2 ht2
    rw [hx] at hx0; cases hx0
    rw [hy] at hy0; cases hy0
    have hsum := L.add (L.add L.fresh hs1.stats) hs2.stats
    rw [zero_add] at hsum
    obtain ⟨z, k1, k2⟩ := ih (.node (x.group + y.group) [x, y])
      (shows_node hsum (.cons hs1 (.cons hs2 .nil)) (.refl _))
      (.node (by simp) (by
        intro v hv
        simp at hv
        rcases hv with rfl | rfl
        · exact p2 _ (h3.mem_iff.1 (List.mem_of_getElem? hx))
        · exact p2 _ (h3.mem_iff.1 (List.mem_of_getElem? hy))) (by simp [groups]))
    refine ⟨_, .merge (hH hs h3) hW k1, ?_⟩
    exact shows_node (L.incr h1 hi) (List.rel_append (shown_dropTwo h2 b.b1 j) (List.Forall₂.cons k2 .nil))
      (List.perm_append_singleton _ _)
  | @split id s cs w w' b t o hne hch _ ht hne2 _ ih =>
    rintro _ (@⟨_, _, _, m, hs, hs', h1, h2, h3⟩) hT
    rw [depictsL_iff] at h2
    have hne' : hs ≠ [] := by
      rintro rfl; have := h2.length_eq; rw [h3.length_eq] at this; exact hne (List.length_eq_zero_iff.1 this)
    obtain ⟨p1, p2, p3⟩ := hT.internal hne'
    obtain ⟨j, x, y, hb2, hnj, hx, hy, hW, hH⟩ := chooseOp_hosts L hV hi hinc h1 hT.ne_zero h2
      (by rw [h2.length_eq, h3.length_eq]; exact p1) hch
    obtain ⟨x0, hx0, hs0⟩ := shown_getElem? h2 ht
    rw [hx] at hx0; cases hx0
    obtain ⟨bs, q1, q2⟩ := hs0.subs
    have hsub : x.subs ≠ [] := by
      intro h0
      rw [h0] at q2
      cases q2.eq_nil
      have := q1.length_eq
      exact hne2 (List.length_eq_zero_iff.1 this)
    have hP : Hier.Proper (.node m (x.subs ++ y :: dropTwo hs' b.b1 j)) := by
      have hp0 := hx
      have hpx := p2 x (h3.mem_iff.1 (List.mem_of_getElem? hx))
      have hall := (hH hs h3).all
      obtain ⟨mx, xs⟩ := x
      obtain ⟨r1, r2, r3⟩ := hpx.internal hsub
      refine .node (by simp; omega) ?_ ?_
      · intro v hv
        rcases List.mem_append.1 hv with hv | hv
        · exact r2 v hv
        · exact p2 v (hall.mem_iff.2 (List.mem_cons_of_mem _ hv))
      · rw [groups_sum_perm hall] at p3
        rw [← p3]
        simp only [groups, List.map_append, List.sum_append, List.map_cons, List.sum_cons, Hier.group_node,
          Hier.subs_node] at r3 ⊢
        rw [r3]
    obtain ⟨z, k1, k2⟩ := ih (.node m (x.subs ++ y :: dropTwo hs' b.b1 j))
      (shows_node h1 (List.rel_append (shown_eraseIdx h2 b.b1) q1) (List.perm_append_comm.trans (q2.append
        ((perm_eraseIdx hx).symm.trans (perm_dropTwo hnj hx hy)).cons_inv))) hP
    exact ⟨z, .split (hH hs h3) hW k1, k2⟩

end node
end CF
