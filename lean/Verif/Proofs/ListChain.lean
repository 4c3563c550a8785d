/-
Putting a list together from its elements and the pairs of neighbours.
-/
import Verif.Model.Lists
import Verif.Proofs.NoRaise
import Mathlib.Data.List.Basic

namespace CF

/-- The pairs of neighbours. -/
def neighbours : List Py → List (Py × Py)
  | x :: y :: l => (x, y) :: neighbours (y :: l)
  | _ => []

theorem neighbours_cons (x y : Py) (l : List Py) : neighbours (x :: y :: l) = (x, y) :: neighbours (y :: l) := by
  rw [neighbours]

theorem neighbours_snoc (l : List Py) (a b : Py) : neighbours (l ++ [a, b]) = neighbours (l ++ [a]) ++ [(a, b)] := by
  induction l with
  | nil => rfl
  | cons x l ih =>
    cases l with
    | nil => rfl
    | cons y l => simp only [List.cons_append, neighbours_cons] at ih ⊢; rw [ih]

theorem neighbours_length (l : List Py) : (neighbours l).length = l.length - 1 := by
  induction l with
  | nil => rfl
  | cons x l ih =>
    cases l with
    | nil => rfl
    | cons y l => rw [neighbours_cons, List.length_cons, ih]; simp

theorem neighbours_append (l : List Py) (a : Py) (r : List Py) :
    neighbours (l ++ a :: r) = neighbours (l ++ [a]) ++ neighbours (a :: r) := by
  induction l with
  | nil => rfl
  | cons x l ih =>
    cases l with
    | nil => simp [neighbours]
    | cons y l => simp only [List.cons_append, neighbours_cons] at ih ⊢; rw [ih]

theorem mem_neighbours_left {l : List Py} {p : Py × Py} (h : p ∈ neighbours l) : p.1 ∈ l.dropLast := by
  induction l with
  | nil => cases h
  | cons x l ih =>
    cases l with
    | nil => cases h
    | cons y l =>
      rw [neighbours_cons] at h
      rw [List.dropLast_cons_of_ne_nil (by simp)]
      rcases List.mem_cons.1 h with h | h
      · rw [h]; exact List.mem_cons_self
      · exact List.mem_cons_of_mem _ (ih h)

theorem mem_neighbours_right {l : List Py} {p : Py × Py} (h : p ∈ neighbours l) : p.2 ∈ l.tail := by
  induction l with
  | nil => cases h
  | cons x l ih =>
    cases l with
    | nil => cases h
    | cons y l =>
      rw [neighbours_cons] at h
      rcases List.mem_cons.1 h with h | h
      · rw [h]; exact List.mem_cons_self
      · exact List.mem_cons_of_mem _ (ih h)

/-- The pair that leads to the first element found so far. -/
theorem chainFront_spec {post : List Py} : ∀ (n : ℕ) (pre : List Py) (x : Py) (mid : List Py) (z : Py) (c : Chain),
    pre.length < n → c.out = x :: mid → z ∈ x :: mid → c.elems.Perm (pre ++ post) →
    c.order.Perm (neighbours (pre ++ [x]) ++ neighbours (z :: post)) →
    (pre ++ x :: mid ++ post).Nodup →
    ∃ c', chainFront n c = .ok c' ∧ c'.out = pre ++ x :: mid ∧ c'.elems.Perm post ∧
      c'.order.Perm (neighbours (z :: post))
  | 0, pre, x, mid, z, c, hn, _, _, _, _, _ => by omega
  | n + 1, pre, x, mid, z, c, hn, ho, hz, he, hp, hnd => by
    have hxpost : x ∉ post := by
      intro h
      rw [List.append_assoc] at hnd
      have := (List.nodup_append.1 hnd).2.1
      rw [List.cons_append, List.nodup_cons] at this
      exact this.1 (List.mem_append_right _ h)
    have hxpre : x ∉ pre := by
      intro h
      rw [List.append_assoc] at hnd
      exact (List.nodup_append.1 hnd).2.2 x h x (by simp) rfl
    rcases List.eq_nil_or_concat pre with rfl | ⟨pre', a, rfl⟩
    · refine ⟨c, ?_, by simpa using ho, by simpa using he, by simpa [neighbours] using hp⟩
      have hnone : c.order.find? (fun p => decide (p.2 = x)) = none := by
        rw [List.find?_eq_none]
        intro p hpm
        have := hp.mem_iff.1 hpm
        simp only [List.nil_append, neighbours, List.nil_append] at this
        have := mem_neighbours_right this
        simp only [List.tail_cons] at this
        rw [decide_eq_true_eq]
        rintro rfl
        exact hxpost this
      simp only [chainFront, ho, hnone]
    · rw [List.concat_eq_append] at hn he hp hnd hxpre ⊢
      have hn1 : neighbours (pre' ++ [a] ++ [x]) = neighbours (pre' ++ [a]) ++ [(a, x)] := by
        rw [← neighbours_snoc]; simp
      rw [hn1] at hp
      have huniq : ∀ p ∈ c.order, p.2 = x → p = (a, x) := by
        intro p hpm e
        have := hp.mem_iff.1 hpm
        rw [List.append_assoc, List.mem_append] at this
        rcases this with this | this
        · exfalso
          have h2 := List.mem_of_mem_tail (mem_neighbours_right this)
          rw [e] at h2
          exact hxpre h2
        · rw [List.mem_append] at this
          rcases this with this | this
          · exact List.mem_singleton.1 this
          · exfalso
            have h2 := mem_neighbours_right this
            rw [e] at h2
            exact hxpost h2
      have hmem : (a, x) ∈ c.order := hp.mem_iff.2 (by simp)
      have hfind : c.order.find? (fun p => decide (p.2 = x)) = some (a, x) := by
        cases hf : c.order.find? (fun p => decide (p.2 = x)) with
        | none =>
          rw [List.find?_eq_none] at hf
          exact absurd (hf _ hmem) (by simp)
        | some p =>
          have h1 := List.mem_of_find?_eq_some hf
          have h2 := List.find?_some hf
          rw [huniq p h1 (by simpa using h2)]
      have hae : a ∈ c.elems := he.mem_iff.2 (by simp)
      obtain ⟨c', h1, h2, h3, h4⟩ := chainFront_spec (post := post) n pre' a (x :: mid) z
        ⟨c.elems.erase a, c.order.erase (a, x), a :: x :: mid, true⟩
        (by simp at hn; omega) rfl (List.mem_cons_of_mem _ hz)
        (by
          refine (List.perm_cons_erase hae).symm.trans he |>.trans ?_ |>.cons_inv
          rw [List.append_assoc]
          exact List.perm_middle)
        (by
          refine (List.perm_cons_erase hmem).symm.trans hp |>.trans ?_ |>.cons_inv
          rw [List.append_assoc]
          exact List.perm_middle)
        (by simpa using hnd)
      refine ⟨c', ?_, by simpa using h2, h3, h4⟩
      simp only [chainFront, ho, hfind, if_pos hae]
      exact h1

theorem chainBack_spec : ∀ (n : ℕ) (post : List Py) (mid : List Py) (x : Py) (c : Chain),
    post.length < n → c.out = mid ++ [x] → c.elems.Perm post →
    c.order.Perm (neighbours (x :: post)) → (mid ++ x :: post).Nodup →
    ∃ c', chainBack n c = .ok c' ∧ c'.out = mid ++ x :: post ∧ c'.elems = []
  | 0, _, _, _, _, hn, _, _, _, _ => by omega
  | n + 1, post, mid, x, c, hn, ho, he, hp, hnd => by
    have hlast : c.out.getLast? = some x := by rw [ho]; simp
    have hxpost : x ∉ post := (List.nodup_cons.1 (List.nodup_append.1 hnd).2.1).1
    cases post with
    | nil =>
      refine ⟨c, ?_, ho, List.perm_nil.1 he⟩
      have : c.order = [] := List.perm_nil.1 hp
      simp only [chainBack, hlast, this, List.find?_nil]
    | cons b post =>
      rw [neighbours_cons] at hp
      have huniq : ∀ p ∈ c.order, p.1 = x → p = (x, b) := by
        intro p hpm e
        rcases List.mem_cons.1 (hp.mem_iff.1 hpm) with h | h
        · exact h
        · exfalso
          have h2 := List.dropLast_subset _ (mem_neighbours_left h)
          rw [e] at h2
          exact hxpost h2
      have hmem : (x, b) ∈ c.order := hp.mem_iff.2 (by simp)
      have hfind : c.order.find? (fun p => decide (p.1 = x)) = some (x, b) := by
        cases hf : c.order.find? (fun p => decide (p.1 = x)) with
        | none =>
          rw [List.find?_eq_none] at hf
          exact absurd (hf _ hmem) (by simp)
        | some p =>
          have h1 := List.mem_of_find?_eq_some hf
          have h2 := List.find?_some hf
          rw [huniq p h1 (by simpa using h2)]
      have hbe : b ∈ c.elems := he.mem_iff.2 (by simp)
      obtain ⟨c', h1, h2, h3⟩ := chainBack_spec n post (mid ++ [x]) b
        ⟨c.elems.erase b, c.order.erase (x, b), c.out ++ [b], true⟩ (by simp at hn; omega)
        (by simp [ho])
        (((List.perm_cons_erase hbe).symm.trans he).cons_inv)
        (((List.perm_cons_erase hmem).symm.trans hp).cons_inv)
        (by simpa using hnd)
      refine ⟨c', ?_, by simpa using h2, h3⟩
      simp only [chainBack, hlast, hfind, if_pos hbe]
      exact h1

/-- Any order of the elements and of the pairs gives the list back. -/
theorem chainList_spec {es elems : List Py} {order : Option (List (Py × Py))} (hne : es ≠ []) (hnd : es.Nodup)
    (he : elems.Perm es) (ho : neighbours es ≠ [] → ∃ o, order = some o ∧ o.Perm (neighbours es)) :
    chainList elems order = .ok (es, []) := by
  match elems, he with
  | [], he => exact absurd (List.nil_perm.1 he) hne
  | [x], he => rw [← List.singleton_perm.1 he]; rfl
  | x :: y :: xs, he =>
    have hlen := he.length_eq
    have : neighbours es ≠ [] := by
      intro h
      have := neighbours_length es
      rw [h] at this
      simp at this hlen
      omega
    obtain ⟨o, rfl, hp⟩ := ho this
    obtain ⟨pre, post, rfl⟩ := List.append_of_mem (he.mem_iff.1 (List.mem_cons_self (a := x)))
    have he' : (y :: xs).Perm (pre ++ post) := (he.trans List.perm_middle).cons_inv
    have hp' : o.Perm (neighbours (pre ++ [x]) ++ neighbours (x :: post)) := by
      rw [← neighbours_append]; exact hp
    have hol : o.length = pre.length + post.length := by
      rw [hp.length_eq, neighbours_length]; simp
    obtain ⟨c, h1, h2, h3, h4⟩ := chainFront_spec (post := post) (o.length + 1) pre x [] x
      ⟨y :: xs, o, [x], false⟩ (by omega) rfl (by simp) he' hp' (by simpa using hnd)
    have hcl : c.order.length = post.length := by rw [h4.length_eq, neighbours_length]; simp
    obtain ⟨c', e1, e2, e3⟩ := chainBack_spec (c.order.length + 1) post pre x c (by omega) h2 h3 h4
      (by simpa using hnd)
    simp only [chainList]
    have : chainLoop (o.length + 2) ⟨y :: xs, o, [x], true⟩ = .ok c' := by
      rw [chainLoop, if_pos (by simp)]
      simp only [h1, ok_bind, e1]
      rw [chainLoop, if_neg (by simp [e3])]
    rw [this]
    simp only [ok_bind, e2, e3]
    rfl

end CF
