/-
Property C68, continued: when `log_likelihood` of two Cobweb/3 concepts raises.
-/
import Verif.Props.Cobweb3Likelihood

set_option linter.unusedSectionVars false

namespace CF
variable {A B V : Type} [DecidableEq A] [DecidableEq B] [DecidableEq V] {hid : A → Bool}
  {cfg : Cfg3 A B} {s leaf : Stats3 A V} {mx my : Multiset (Inst3 A V)}

/-- The key under which an outcome of an attribute is found: missing, a number, or a nominal value. -/
def outcome : Option (Val V) → Option (Option V)
  | none => none
  | some (.num _) => some none
  | some (.nom v) => some (some v)

theorem freq_pos_iff {m : Multiset (Inst3 A V)} (hm : m ≠ 0) (a : A) (o : Option (Val V)) :
    0 < freq ℝ m a o ↔ ∃ i ∈ m, Dict.get? i a = o := by
  have hc : (0 : ℝ) < Multiset.card m := by
    have : 0 < Multiset.card m := Multiset.card_pos.2 hm
    exact_mod_cast this
  unfold freq
  rw [← Multiset.countP_pos]
  constructor
  · intro h
    rcases Nat.eq_zero_or_pos (m.countP fun i => Dict.get? i a = o) with h0 | h0
    · rw [h0] at h; simp at h
    · exact h0
  · intro h
    exact div_pos (by exact_mod_cast h) hc

theorem share_pos_iff {m : Multiset (Inst3 A V)} (hm : m ≠ 0) (a : A) (o : Option (Option V)) :
    0 < share m a o ↔ ∃ i ∈ m, outcome (Dict.get? i a) = o := by
  rcases o with _ | _ | v
  · refine (freq_pos_iff hm a none).trans ⟨?_, ?_⟩
    · rintro ⟨i, hi, h⟩; exact ⟨i, hi, by rw [h]; rfl⟩
    · rintro ⟨i, hi, h⟩
      refine ⟨i, hi, ?_⟩
      rcases hg : Dict.get? i a with _ | _ | _ <;> rw [hg] at h <;> simp [outcome] at h ⊢
  · have hc : (0 : ℝ) < Multiset.card m := by
      have : 0 < Multiset.card m := Multiset.card_pos.2 hm
      exact_mod_cast this
    have e : 0 < share m a (some none) ↔ nums m a ≠ 0 := by
      simp only [share]
      constructor
      · intro h h0; rw [h0] at h; simp at h
      · intro h
        have := Multiset.card_pos.2 h
        positivity
    rw [e, ← Multiset.card_pos, Multiset.card_pos_iff_exists_mem]
    constructor
    · rintro ⟨x, hx⟩
      obtain ⟨i, hi, hg⟩ := mem_nums.1 hx
      exact ⟨i, hi, by rw [hg]; rfl⟩
    · rintro ⟨i, hi, h⟩
      rcases hg : Dict.get? i a with _ | x | x
      · rw [hg] at h; simp [outcome] at h
      · rw [hg] at h; simp [outcome] at h
      · exact ⟨x, mem_nums.2 ⟨i, hi, hg⟩⟩
  · refine (freq_pos_iff hm a (some (.nom v))).trans ⟨?_, ?_⟩
    · rintro ⟨i, hi, h⟩; exact ⟨i, hi, by rw [h]; rfl⟩
    · rintro ⟨i, hi, h⟩
      refine ⟨i, hi, ?_⟩
      rcases hg : Dict.get? i a with _ | _ | _ <;> rw [hg] at h <;> simp [outcome] at h ⊢
      exact h

theorem llNum_ok (hs : Summarizes3 s mx) (hl : Summarizes3 leaf my) (hmx : mx ≠ 0) (hmy : my ≠ 0) (a : A) :
    ∃ r, llNum s leaf a = .ok r := by
  unfold llNum
  have e1 : (s.av.get? a).bind Tab.cv = s.cvOf a := rfl
  have e2 : (leaf.av.get? a).bind Tab.cv = leaf.cvOf a := rfl
  rw [e1, e2]
  rcases hs.cv a with ⟨-, hn⟩ | ⟨h0, c1, hc1, ho1⟩
  · rw [hn]; exact ⟨0, rfl⟩
  rcases hl.cv a with ⟨-, hn⟩ | ⟨h0', c2, hc2, ho2⟩
  · rw [hn, hc1]; exact ⟨0, rfl⟩
  rw [hc1, hc2]
  dsimp only
  rw [pyDiv_ok (hs.count_ne hmx), ok_bind, pyDiv_ok (hl.count_ne hmy), ok_bind, gaussOverlap_eq ho1 ho2, ok_bind]
  have p1 : (0 : ℝ) < (c1.num : ℝ) / (s.count : ℝ) := by
    rw [ho1.num, hs.count]
    have := Multiset.card_pos.2 h0
    have := Multiset.card_pos.2 hmx
    positivity
  have p2 : (0 : ℝ) < (c2.num : ℝ) / (leaf.count : ℝ) := by
    rw [ho2.num, hl.count]
    have := Multiset.card_pos.2 h0'
    have := Multiset.card_pos.2 hmy
    positivity
  have ho := (overlap_range (nums mx a) (nums my a)).1
  change ∃ r, (if (c1.num : ℝ) / (s.count : ℝ) * ((c2.num : ℝ) / (leaf.count : ℝ)) *
    overlap (nums mx a) (nums my a) > 0 then _ else _) = _
  rw [if_pos (mul_pos (mul_pos p1 p2) ho)]
  exact ⟨_, rfl⟩

/-- The summand of a key: it fails for a missing or nominal value that only the lower concept has. -/
theorem llKey_cases (hs : Summarizes3 s mx) (hl : Summarizes3 leaf my) (hmx : mx ≠ 0) (hmy : my ≠ 0)
    (sc : Scales B) (a : A) (o : Option (Option V)) :
    (o ≠ some none ∧ 0 < share my a o ∧ ¬ 0 < share mx a o ∧ llKey cfg sc s leaf a o = .error .exc) ∨
      ((o ≠ some none → 0 < share my a o → 0 < share mx a o) ∧ ∃ r, llKey cfg sc s leaf a o = .ok r) := by
  have nomCase : ∀ (q : Option (Val V)), o ≠ some none →
      leaf.probability cfg sc a q = .ok (share my a o) → s.probability cfg sc a q = .ok (share mx a o) →
      (o ≠ some none ∧ 0 < share my a o ∧ ¬ 0 < share mx a o ∧ llNom cfg sc s leaf a q = .error .exc) ∨
      ((o ≠ some none → 0 < share my a o → 0 < share mx a o) ∧ ∃ r, llNom cfg sc s leaf a q = .ok r) := by
    intro q ho h1 h2
    unfold llNom
    rw [h1, ok_bind]
    by_cases hp : 0 < share my a o
    · rw [if_pos hp, h2, ok_bind]
      dsimp only
      by_cases hx : 0 < share mx a o
      · rw [if_pos (mul_pos hx hp)]
        exact .inr ⟨fun _ _ => hx, _, rfl⟩
      · have : share mx a o = 0 := le_antisymm (not_lt.1 hx) (share_nonneg _ _ _)
        rw [if_neg (by rw [this, zero_mul]; exact lt_irrefl _)]
        exact .inl ⟨ho, hp, hx, rfl⟩
    · rw [if_neg hp]
      exact .inr ⟨fun _ h => absurd h hp, 0, rfl⟩
  rcases o with _ | _ | v
  · exact nomCase none (by simp) (probNone_eq hl hmy a) (probNone_eq hs hmx a)
  · exact .inr ⟨fun h => absurd rfl h, llNum_ok hs hl hmx hmy a⟩
  · exact nomCase (some (.nom v)) (by simp) (probNom_eq hl hmy a v) (probNom_eq hs hmx a v)

theorem llInner3_cases {sc : Scales B} {a : A} (bad : Option (Option V) → Prop) (ks : List (Option (Option V)))
    (h : ∀ k ∈ ks, (bad k ∧ llKey cfg sc s leaf a k = .error .exc) ∨
      (¬ bad k ∧ ∃ r, llKey cfg sc s leaf a k = .ok r)) (acc : ℝ) :
    ((∃ k ∈ ks, bad k) ∧ llInner3 cfg sc s leaf a ks acc = .error .exc) ∨
      ((∀ k ∈ ks, ¬ bad k) ∧ ∃ r, llInner3 cfg sc s leaf a ks acc = .ok r) := by
  induction ks generalizing acc with
  | nil => exact .inr ⟨by simp, acc, rfl⟩
  | cons k ks ih =>
    unfold llInner3
    rcases h k (by simp) with ⟨h1, h2⟩ | ⟨h1, r, h2⟩
    · rw [h2]
      exact .inl ⟨⟨k, by simp, h1⟩, rfl⟩
    · rw [h2, ok_bind]
      rcases ih (fun q hq => h q (by simp [hq])) (acc + r) with ⟨⟨q, hq, h3⟩, h4⟩ | ⟨h3, h4⟩
      · exact .inl ⟨⟨q, by simp [hq], h3⟩, h4⟩
      · refine .inr ⟨fun q hq => ?_, h4⟩
        rcases List.mem_cons.1 hq with rfl | hq
        · exact h1
        · exact h3 q hq

theorem llOuter3_cases {sc : Scales B} (bad : A → Prop) (as : List A)
    (h : ∀ a ∈ as, ∀ acc, (bad a ∧ llInner3 cfg sc s leaf a (llVals3 s leaf a) acc = .error .exc) ∨
      (¬ bad a ∧ ∃ r, llInner3 cfg sc s leaf a (llVals3 s leaf a) acc = .ok r)) (acc : ℝ) :
    ((∃ a ∈ as, bad a) ∧ llOuter3 cfg sc s leaf as acc = .error .exc) ∨
      ((∀ a ∈ as, ¬ bad a) ∧ ∃ r, llOuter3 cfg sc s leaf as acc = .ok r) := by
  induction as generalizing acc with
  | nil => exact .inr ⟨by simp, acc, rfl⟩
  | cons a as ih =>
    unfold llOuter3
    rcases h a (by simp) acc with ⟨h1, h2⟩ | ⟨h1, r, h2⟩
    · rw [h2]
      exact .inl ⟨⟨a, by simp, h1⟩, rfl⟩
    · rw [h2, ok_bind]
      rcases ih (fun q hq => h q (by simp [hq])) r with ⟨⟨q, hq, h3⟩, h4⟩ | ⟨h3, h4⟩
      · exact .inl ⟨⟨q, by simp [hq], h3⟩, h4⟩
      · refine .inr ⟨fun q hq => ?_, h4⟩
        rcases List.mem_cons.1 hq with rfl | hq
        · exact h1
        · exact h3 q hq

/-- **C68**, when it raises: for two concepts that hold the nonempty collections of instances `mx` and `my`,
`log_likelihood` raises its exception ("p must be greater than 0", cobweb3.py:518-519) exactly when some visible
attribute has, in an instance of `my`, a nominal value (or none) that it has in no instance of `mx`.  Numbers
never matter: not even when `mx` has no numbers there. -/
theorem C68_raises_iff (hs : Summarizes3 s mx) (hl : Summarizes3 leaf my) (hmx : mx ≠ 0) (hmy : my ≠ 0)
    (sc : Scales B) :
    ((∃ a, hid a = false ∧ ∃ i ∈ my, (∀ x, Dict.get? i a ≠ some (.num x)) ∧
        ∀ j ∈ mx, Dict.get? j a ≠ Dict.get? i a) ∧
      s.logLikelihood hid cfg sc leaf = .error .exc) ∨
    ((∀ a, hid a = false → ∀ i ∈ my, (∃ x, Dict.get? i a = some (.num x)) ∨
        ∃ j ∈ mx, Dict.get? j a = Dict.get? i a) ∧
      ∃ r, s.logLikelihood hid cfg sc leaf = .ok r) := by
  classical
  let badKey : A → Option (Option V) → Prop := fun a k =>
    k ≠ some none ∧ 0 < share my a k ∧ ¬ 0 < share mx a k
  let bad : A → Prop := fun a => ∃ k ∈ llVals3 s leaf a, badKey a k
  have hin : ∀ a acc, (bad a ∧ llInner3 cfg sc s leaf a (llVals3 s leaf a) acc = .error .exc) ∨
      (¬ bad a ∧ ∃ r, llInner3 cfg sc s leaf a (llVals3 s leaf a) acc = .ok r) := by
    intro a acc
    rcases llInner3_cases (cfg := cfg) (sc := sc) (s := s) (leaf := leaf) (badKey a) (llVals3 s leaf a)
      (fun k _ => by
        rcases llKey_cases (cfg := cfg) hs hl hmx hmy sc a k with ⟨h1, h2, h3, h4⟩ | ⟨h1, h2⟩
        · exact .inl ⟨⟨h1, h2, h3⟩, h4⟩
        · exact .inr ⟨fun hb => hb.2.2 (h1 hb.1 hb.2.1), h2⟩) acc with h | ⟨h1, h2⟩
    · exact .inl h
    · exact .inr ⟨fun ⟨k, hk, hb⟩ => h1 k hk hb, h2⟩
  have hout : ∀ {o : Option (Val V)} {p : Option (Val V)}, (∀ x, o ≠ some (.num x)) →
      outcome p = outcome o → p = o := by
    intro o p ho h
    rcases o with _ | v | x
    · rcases p with _ | v | x <;> simp [outcome] at h ⊢
    · rcases p with _ | u | x <;> simp [outcome] at h ⊢
      exact h
    · exact absurd rfl (ho x)
  rcases llOuter3_cases (cfg := cfg) (sc := sc) bad (llAttrs3 hid s leaf) (fun a _ acc => hin a acc) 0 with
    ⟨⟨a, ha, k, hk, h1, h2, h3⟩, h4⟩ | ⟨h1, h2⟩
  · left
    refine ⟨⟨a, ?_, ?_⟩, h4⟩
    · unfold llAttrs3 at ha
      simp only [List.mem_append, List.mem_filter, decide_eq_true_eq] at ha
      have hv : ∀ {t : Stats3 A V}, a ∈ (t.visible hid).keys → hid a = false := by
        intro t ht
        obtain ⟨p, hp, rfl⟩ := List.mem_map.1 ht
        have := (List.mem_filter.1 hp).2
        simpa using this
      rcases ha with ha | ⟨ha, -⟩ <;> exact hv ha
    · obtain ⟨i, hi, hk'⟩ := (share_pos_iff hmy a k).1 h2
      refine ⟨i, hi, fun x hx => ?_, fun j hj hjx => h3 ((share_pos_iff hmx a k).2 ⟨j, hj, by rw [hjx, hk']⟩)⟩
      rw [hx] at hk'
      exact h1 hk'.symm
  · right
    refine ⟨fun a ha i hi => ?_, h2⟩
    by_contra hc
    push Not at hc
    obtain ⟨hc1, hc2⟩ := hc
    have hp : 0 < share my a (outcome (Dict.get? i a)) := (share_pos_iff hmy a _).2 ⟨i, hi, rfl⟩
    have hx : ¬ 0 < share mx a (outcome (Dict.get? i a)) := by
      rw [share_pos_iff hmx]
      rintro ⟨j, hj, h⟩
      exact hc2 j hj (hout hc1 h)
    have hne : outcome (Dict.get? i a) ≠ some none := by
      rcases hg : Dict.get? i a with _ | v | x
      · simp [outcome]
      · simp [outcome]
      · exact absurd hg (hc1 x)
    have hvis : ∀ {t : Stats3 A V} {m : Multiset (Inst3 A V)}, Summarizes3 t m → ∀ k ∈ m,
        Dict.get? k a ≠ none → a ∈ (t.visible hid).keys := by
      intro t m ht k hk hg
      have : a ∈ visAttrs hid m := by
        simp only [visAttrs, Finset.mem_filter, mem_attrsOf]
        refine ⟨⟨k, hk, ?_⟩, ha⟩
        rw [← Dict.get?_isSome, Option.isSome_iff_ne_none]
        exact hg
      rw [← ht.visible_keys] at this
      simpa [Dict.keys] using this
    have hattr : a ∈ llAttrs3 hid s leaf := by
      unfold llAttrs3
      simp only [List.mem_append, List.mem_filter, decide_eq_true_eq]
      by_cases hm : a ∈ (s.visible hid).keys
      · exact .inl hm
      · refine .inr ⟨?_, hm⟩
        by_cases hg : Dict.get? i a = none
        · exfalso
          obtain ⟨j, hj⟩ := Multiset.exists_mem_of_ne_zero hmx
          exact hm (hvis hs j hj (by rw [← hg]; exact hc2 j hj))
        · exact hvis hl i hi hg
    refine h1 a hattr ⟨outcome (Dict.get? i a), ?_, hne, hp, hx⟩
    unfold llVals3
    cases ho : outcome (Dict.get? i a) with
    | none => simp
    | some k =>
      rw [ho] at hp hx
      refine List.mem_cons_of_mem _ (List.mem_map.2 ⟨k, ?_, rfl⟩)
      have := hl.mem_keysOf.2 hp
      rw [List.mem_append]
      by_cases hk : k ∈ s.keysOf a
      · exact .inl hk
      · exact .inr (List.mem_filter.2 ⟨this, by simpa using hk⟩)

/-- Both cases occur: a concept with the nominal value 1 against one with the value 2, and against one with a
number. -/
example : ∃ s s2 s3 : Stats3 ℕ ℕ,
    s.logLikelihood (fun _ => false) (⟨0, id⟩ : Cfg3 ℕ ℕ) [] s2 = .error .exc ∧
    ∃ r, s.logLikelihood (fun _ => false) (⟨0, id⟩ : Cfg3 ℕ ℕ) [] s3 = .ok r := by
  have mk : ∀ i : Inst3 ℕ ℕ, Dict.Nodup i → Summarizes3 (Stats3.fresh.incr i) (i ::ₘ 0) := fun i hi =>
    summarizes3_incr summarizes3_fresh hi
  refine ⟨Stats3.fresh.incr [(0, .nom 1)], Stats3.fresh.incr [(0, .nom 2)], Stats3.fresh.incr [(0, .num 5)],
    ?_, ?_⟩
  · rcases C68_raises_iff (hid := fun _ => false) (cfg := ⟨0, id⟩) (mk [(0, .nom 1)] (by simp [Dict.Nodup, Dict.keys]))
      (mk [(0, .nom 2)] (by simp [Dict.Nodup, Dict.keys])) (by simp) (by simp) ([] : Scales ℕ) with h | h
    · exact h.2
    · exfalso
      have := h.1 0 rfl [(0, .nom 2)] (by simp)
      simp [Dict.get?] at this
  · rcases C68_raises_iff (hid := fun _ => false) (cfg := ⟨0, id⟩) (mk [(0, .nom 1)] (by simp [Dict.Nodup, Dict.keys]))
      (mk [(0, .num 5)] (by simp [Dict.Nodup, Dict.keys])) (by simp) (by simp) ([] : Scales ℕ) with h | h
    · exfalso
      obtain ⟨a, -, i, hi, h1, h2⟩ := h.1
      have hi : i = [(0, .num 5)] := by simpa using hi
      subst hi
      by_cases ha : a = 0
      · subst ha; exact h1 5 (by simp [Dict.get?])
      · refine h2 [(0, .nom 1)] (by simp) ?_
        simp [Dict.get?, Ne.symm ha]
    · exact h.2

end CF
