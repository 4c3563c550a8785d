/-
C59, C60: the evaluation.
-/
import Verif.Spec.Evaluation
import Verif.Props.Dummy
import Verif.Props.Heap

namespace CF
variable {σ R : Type} {T : PyTree σ}

/-! ### C60 -/

theorem get?_filter {i : PyInst} {a k : Py} :
    Dict.get? (i.filter fun p => ¬ p.1 = a) k = if k = a then none else Dict.get? i k := by
  induction i with
  | nil => simp [Dict.get?]
  | cons p i ih =>
    obtain ⟨k', v⟩ := p
    by_cases h : k' = a
    · rw [List.filter_cons_of_neg (by simpa using h), ih, Dict.get?]
      by_cases hk : k = a
      · simp [hk]
      · rw [if_neg hk, if_neg hk, if_neg (fun e => hk (e.symm.trans h))]
    · rw [List.filter_cons_of_pos (by simpa using h), Dict.get?, ih, Dict.get?]
      by_cases hk : k' = k
      · subst hk; simp [h]
      · simp [hk]

/-- What is given to `categorize`: the instance as it is without the target attribute. -/
theorem get?_without (i : PyInst) (a k : Py) :
    Dict.get? (without i a) k = if k = a then none else Dict.get? i k := by
  unfold without
  split
  · exact get?_filter
  · rename_i h
    split
    · rename_i hk
      subst hk
      cases hg : Dict.get? i k with
      | none => rfl
      | some v => exact absurd (Dict.has_iff.2 (Dict.get?_isSome.1 (by rw [hg]; rfl))) h
    · rfl

theorem without_eq (i : PyInst) (a : Py) : without i a = i.filter fun p => ¬ p.1 = a := by
  unfold without
  split
  · rfl
  · rename_i h
    refine (List.filter_eq_self.2 fun p hp => ?_).symm
    simp only [decide_not, Bool.not_eq_eq_eq_not, Bool.not_true, decide_eq_false_iff_not]
    rintro rfl
    exact h (Dict.has_iff.2 (List.mem_map.2 ⟨p, hp, rfl⟩))

theorem wf_without {i : PyInst} (h : Py.wf (.dict i)) (a : Py) : Py.wf (.dict (without i a)) := by
  rw [without_eq]
  have hD : ∀ l : PyInst, Py.wfD l → Py.wfD (l.filter fun p => ¬ p.1 = a) := by
    intro l hl
    induction l with
    | nil => simpa using hl
    | cons p l ih =>
      obtain ⟨k, v⟩ := p
      by_cases hk : k = a
      · rw [List.filter_cons_of_neg (by simpa using hk)]
        exact ih hl.2
      · rw [List.filter_cons_of_pos (by simpa using hk)]
        exact ⟨hl.1, ih hl.2⟩
  refine ⟨?_, hD i h.2⟩
  exact (List.Sublist.map _ List.filter_sublist).nodup h.1

theorem without_key (i : PyInst) (a : Py) : a ∉ Dict.keys (without i a) := by
  rw [without_eq]
  simp [Dict.keys]

/-- **C60**: the target attribute is never seen: the result and the state afterwards are the same for any
instance with the same other entries, and for any tree that behaves the same on instances without the
attribute. -/
theorem C60_target_hidden {T T' : PyTree σ} {a : Py}
    (hc : ∀ i, a ∉ Dict.keys i → T.categorize i = T'.categorize i)
    (hp : ∀ c v, T.probability c a v = T'.probability c a v) (hq : ∀ c, T.predict c a = T'.predict c a)
    {i i' : PyInst} (hi : (i.filter fun p => ¬ p.1 = a) = i'.filter fun p => ¬ p.1 = a) (v : Py) :
    evalProbability T i a v = evalProbability T' i' a v ∧ evalError T i a v = evalError T' i' a v ∧
    evalAbsolute T i a v = evalAbsolute T' i' a v ∧ evalSquared T i a v = evalSquared T' i' a v := by
  have hw : without i a = without i' a := by rw [without_eq, without_eq, hi]
  have hc' : T.categorize (without i a) = T'.categorize (without i' a) := by
    rw [hc _ (without_key i a), hw]
  have h1 : evalProbability T i a v = evalProbability T' i' a v := by
    unfold evalProbability
    rw [hc']
    simp only [hp]
  have h2 : evalError T i a v = evalError T' i' a v := by
    unfold evalError
    rw [hc']
    simp only [hq]
  refine ⟨h1, h2, ?_, ?_⟩
  · unfold evalAbsolute; rw [h2]
  · unfold evalSquared; rw [h2]

/-- **C60**, what is compared: when `error` returns, the instance without the target was categorized, the
concept predicted `p`, and the error of a number is the number minus the number predicted
(where `True` and `False` count as 1 and 0); that of any other
value is 0 if it was predicted and 1 otherwise. -/
theorem C60_error {i : PyInst} {a v : Py} {s s' : σ} {e : ℚ} (h : evalError T i a v s = (.ok e, s')) :
    ∃ c s1 p, T.categorize (without i a) s = (.ok c, s1) ∧ T.predict c a s1 = (.ok p, s') ∧
      (∀ q, v = .num q → (∃ r, p = .num r ∧ e = q - r) ∨ (p = .bool true ∧ e = q - 1) ∨ (p = .bool false ∧ e = q)) ∧
      ((∀ q, v ≠ .num q) → (e = 0 ∧ v = p) ∨ (e = 1 ∧ v ≠ p)) := by
  unfold evalError at h
  split at h
  · cases h
  · obtain ⟨c, s1, h1, h⟩ := SM.bind_ok h
    refine ⟨c, s1, ?_⟩
    cases v with
    | dict l => cases h
    | num q =>
      obtain ⟨p, s2, h2, h⟩ := SM.bind_ok h
      split at h
      · cases h
      · simp only [SM.lift, Prod.mk.injEq] at h
        obtain ⟨h3, rfl⟩ := h
        refine ⟨p, h1, h2, fun q' hq => ?_, fun hq => absurd rfl (hq q)⟩
        cases hq
        cases p with
        | num r => exact .inl ⟨r, rfl, (Except.ok.inj h3).symm⟩
        | bool b =>
          cases b
          · exact .inr (.inr ⟨rfl, by rw [← Except.ok.inj h3]; simp⟩)
          · exact .inr (.inl ⟨rfl, by rw [← Except.ok.inj h3]; simp⟩)
        | _ => cases h3
    | none =>
      obtain ⟨p, s2, h2, h⟩ := SM.bind_ok h
      refine ⟨p, h1, ?_⟩
      split at h
      · cases h
      · split at h
        · rename_i hv
          cases h
          exact ⟨h2, by simp, fun _ => .inl ⟨rfl, hv⟩⟩
        · rename_i hv
          cases h
          exact ⟨h2, by simp, fun _ => .inr ⟨rfl, hv⟩⟩
    | _ =>
      obtain ⟨p, s2, h2, h⟩ := SM.bind_ok h
      refine ⟨p, h1, ?_⟩
      split at h
      · cases h
      · split at h
        · rename_i hv
          cases h
          exact ⟨h2, by simp, fun _ => .inl ⟨rfl, hv⟩⟩
        · rename_i hv
          cases h
          exact ⟨h2, by simp, fun _ => .inr ⟨rfl, hv⟩⟩

/-- **C60**: the error of a value that is not a number is 0 or 1. -/
theorem C60_nominal {i : PyInst} {a v : Py} {s s' : σ} {e : ℚ} (h : evalError T i a v s = (.ok e, s'))
    (hv : ∀ q, v ≠ .num q) : e = 0 ∨ e = 1 := by
  obtain ⟨c, s1, p, -, -, -, h4⟩ := C60_error h
  rcases h4 hv with ⟨h, -⟩ | ⟨h, -⟩
  · exact .inl h
  · exact .inr h

/-- **C60**: `absolute_error` is the absolute value of `error`, hence not negative, `squared_error` is the
square; they raise when `error` raises and change the state as `error` does. -/
theorem C60_absolute_squared (i : PyInst) (a v : Py) (s : σ) :
    (∀ e s', evalError T i a v s = (.ok e, s') → evalAbsolute T i a v s = (.ok |e|, s') ∧
      evalSquared T i a v s = (.ok (e ^ 2), s')) ∧
    (∀ x s', evalError T i a v s = (.error x, s') → evalAbsolute T i a v s = (.error x, s') ∧
      evalSquared T i a v s = (.error x, s')) ∧
    (∀ e s', evalAbsolute T i a v s = (.ok e, s') → 0 ≤ e) ∧
    ∀ e s', evalSquared T i a v s = (.ok e, s') → 0 ≤ e := by
  have key : ∀ f : ℚ → SM σ ℚ, (evalError T i a v >>= f) s =
      match evalError T i a v s with
      | (.ok e, s') => f e s'
      | (.error x, s') => (.error x, s') := by
    intro f
    show SM.andThen _ f s = _
    unfold SM.andThen
    rcases evalError T i a v s with ⟨_ | _, _⟩ <;> rfl
  unfold evalAbsolute evalSquared
  simp only [key]
  rcases evalError T i a v s with ⟨_ | e, s1⟩
  · simp
  · simp only [Prod.mk.injEq, Except.ok.injEq, SM.ret, reduceCtorEq, false_and, false_imp_iff, implies_true,
      true_and]
    refine ⟨?_, ?_, ?_⟩
    · rintro _ _ ⟨rfl, rfl⟩; exact ⟨⟨rfl, rfl⟩, by ring, rfl⟩
    · rintro _ _ ⟨rfl, rfl⟩; exact abs_nonneg e
    · rintro _ _ ⟨rfl, rfl⟩; exact mul_self_nonneg e

/-! ### The scoring functions leave the tree as it is -/

/-- What a computation with the tree does to the state. -/
def Leaves (T : PyTree σ) {α : Type} (m : SM σ α) : Prop :=
  ∀ s hist, Fitted T s hist → Fitted T (m s).2 hist

theorem Leaves.bind {α β : Type} {m : SM σ α} {f : α → SM σ β} (hm : Leaves T m) (hf : ∀ x, Leaves T (f x)) :
    Leaves T (m >>= f) := by
  intro s hist h
  have h1 := hm s hist h
  show Fitted T (SM.andThen m f s).2 hist
  unfold SM.andThen
  rcases e : m s with ⟨_ | x, s1⟩
  · rw [e] at h1; exact h1
  · rw [e] at h1; exact hf x s1 hist h1

theorem Leaves.ret {α : Type} (x : α) : Leaves T (SM.ret x : SM σ α) := fun _ _ h => h
theorem Leaves.raise {α : Type} (e : PyErr) : Leaves T (SM.raise e : SM σ α) := fun _ _ h => h
theorem Leaves.lift {α : Type} (r : Res α) : Leaves T (SM.lift r : SM σ α) := fun _ _ h => h

theorem leaves_probability {i : PyInst} (hw : Py.wf (.dict i)) (a v : Py) :
    Leaves T (evalProbability T i a v) := by
  unfold evalProbability
  split
  · exact .raise _
  · refine .bind (fun s hist h => .categorize h (wf_without hw a)) fun c => ?_
    split
    · exact .raise _
    · exact fun s hist h => .probability h

theorem leaves_error {i : PyInst} (hw : Py.wf (.dict i)) (a v : Py) : Leaves T (evalError T i a v) := by
  unfold evalError
  split
  · exact .raise _
  · refine .bind (fun s hist h => .categorize h (wf_without hw a)) fun c => ?_
    split
    · exact .raise _
    · refine .bind (fun s hist h => .predict h) fun p => ?_
      split
      · exact .raise _
      · exact .lift _
    · refine .bind (fun s hist h => .predict h) fun p => ?_
      split
      · exact .raise _
      · split <;> exact .ret _

/-- **C60**: scoring does not change what the tree was fitted with, whether it returns or raises. -/
theorem C60_scores_keep (T : PyTree σ) : KeepsFitted T (evalProbability T) ∧ KeepsFitted T (evalError T) ∧
    KeepsFitted T (evalAbsolute T) ∧ KeepsFitted T (evalSquared T) :=
  ⟨fun _ a v s hist h hw => leaves_probability hw a v s hist h,
   fun _ a v s hist h hw => leaves_error hw a v s hist h,
   fun _ a v s hist h hw => (Leaves.bind (leaves_error hw a v) fun _ => .ret _) s hist h,
   fun _ a v s hist h hw => (Leaves.bind (leaves_error hw a v) fun _ => .ret _) s hist h⟩

/-! ### C59 -/

theorem targetOf_eq (i : PyInst) (a : Py) : (i.get? a).getD .none = targetOf i a := by
  unfold targetOf
  cases Dict.get? i a <;> rfl

theorem evalRow_scored {score : PyInst → Py → Py → SM σ R} (hk : KeepsFitted T score) {a : Py} :
    ∀ {is : List PyInst} (_ : ∀ i ∈ is, Py.wf (.dict i)) {hist : List PyInst} {s s' : σ} {row : List R},
      Fitted T s hist → evalRow T score a is s = (.ok row, s') →
      row.length = is.length ∧ (∀ j i, is[j]? = some i → ∃ s1 s2 r, row[j]? = some r ∧
        Fitted T s1 (hist ++ is.take j) ∧ score i a (targetOf i a) s1 = (.ok r, s2)) ∧
      Fitted T s' (hist ++ is)
  | [], _, hist, s, s', row, hf, h => by
    cases h
    exact ⟨rfl, by simp, by simpa using hf⟩
  | i :: is, hw, hist, s, s', row, hf, h => by
    rw [evalRow] at h
    split at h
    · cases h
    · obtain ⟨r, s1, h1, h⟩ := SM.bind_ok h
      obtain ⟨c, s2, h2, h⟩ := SM.bind_ok h
      obtain ⟨rs, s3, h3, h⟩ := SM.bind_ok h
      cases h
      have hwi := hw i (by simp)
      have f1 : Fitted T s1 hist := by
        have := hk i a ((i.get? a).getD .none) s hist hf hwi
        rwa [h1] at this
      have f2 := f1.ifit hwi h2
      obtain ⟨g1, g2, g3⟩ := evalRow_scored hk (fun j hj => hw j (by simp [hj])) f2 h3
      refine ⟨by simp [g1], ?_, by simpa using g3⟩
      rintro (_ | j) i' hi'
      · simp only [List.getElem?_cons_zero, Option.some.injEq] at hi'
        subst hi'
        exact ⟨s, s1, r, rfl, by simpa using hf, by rw [← targetOf_eq]; exact h1⟩
      · simp only [List.getElem?_cons_succ] at hi'
        obtain ⟨s1', s2', r', e1, e2, e3⟩ := g2 j i' hi'
        exact ⟨s1', s2', r', by simpa using e1, by simpa using e2, e3⟩

theorem prefixTo_sub {α : Type} (l : List α) (k : ℤ) : ∀ x ∈ prefixTo l k, x ∈ l := by
  intro x hx
  unfold prefixTo at hx
  split at hx <;> exact List.mem_of_mem_take hx

theorem evalRuns_scored {score : PyInst → Py → Py → SM σ R} (hk : KeepsFitted T score) {a : Py} {len : ℤ}
    {first : Bool} {shuffle : List PyInst → World → List PyInst × World} (hs : ShuffleLaws shuffle) :
    ∀ (n r : ℕ) {is is' : List PyInst} (_ : ∀ i ∈ is, Py.wf (.dict i)) {s s' : σ} {rows : List (List R)},
      evalRuns T score a len first shuffle n r is s = (.ok (rows, is'), s') →
      is'.Perm is ∧ ∃ orders : List (List PyInst), orders.length = n ∧ (∀ o ∈ orders, o.Perm is) ∧
        ((first = false ∧ r = 0) → ∀ o, orders.head? = some o → o = is) ∧
        (∀ o, orders.getLast? = some o → o = is') ∧
        List.Forall₂ (fun o row => ScoredRow T score a (prefixTo o (len + 2)) row) orders rows
  | 0, r, is, is', hw, s, s', rows, h => by
    cases h
    exact ⟨.refl _, [], rfl, by simp, by simp, by simp, .nil⟩
  | n + 1, r, is, is', hw, s, s', rows, h => by
    rw [evalRuns] at h
    obtain ⟨s0, s1, h0, h⟩ := SM.bind_ok h
    cases h0
    obtain ⟨_, s1, h1, h⟩ := SM.bind_ok h
    cases h1
    obtain ⟨is1, s2, h2, h⟩ := SM.bind_ok h
    obtain ⟨row, s3, h3, h⟩ := SM.bind_ok h
    obtain ⟨⟨rows', is2⟩, s4, h4, h⟩ := SM.bind_ok h
    cases h
    have hc : Fitted T (T.clear s) [] := .clear s
    have key : is1.Perm is ∧ Fitted T s2 [] ∧ (first = false ∧ r = 0 → is1 = is) := by
      unfold shuffleRun at h2
      split at h2
      · rename_i hf
        cases h2
        refine ⟨hs.perm _ _, hc.draw (hs.ctr _ _), ?_⟩
        rintro ⟨h, h'⟩
        simp [h, h'] at hf
      · cases h2
        exact ⟨.refl _, hc, fun _ => rfl⟩
    obtain ⟨k1, k2, k3⟩ := key
    have hw1 : ∀ i ∈ is1, Py.wf (.dict i) := fun i hi => hw i (k1.mem_iff.1 hi)
    obtain ⟨e1, e2, -⟩ := evalRow_scored hk (fun i hi => hw1 i (prefixTo_sub _ _ i hi)) k2 h3
    obtain ⟨p1, os, p2, p3, p4, p5, p6⟩ := evalRuns_scored hk hs n (r + 1) hw1 h4
    refine ⟨p1.trans k1, is1 :: os, by simp [p2], ?_, ?_, ?_, .cons ⟨e1, ?_⟩ p6⟩
    · intro o ho
      rcases List.mem_cons.1 ho with rfl | ho
      · exact k1
      · exact (p3 o ho).trans k1
    · intro hf o ho
      simp only [List.head?_cons, Option.some.injEq] at ho
      rw [← ho, k3 hf]
    · intro o ho
      cases os with
      | nil =>
        have hn : n = 0 := by simpa using p2.symm
        subst hn
        cases h4
        simpa using ho.symm
      | cons x os => exact p5 o (by simpa using ho)
    · simpa using e2

/-- **C59**, partial.  Full statement: in addition, every row has `run_length` entries, as documented.  That
is wrong (`C59_row_too_long`): the code uses `run_length + 2` instances.  When `incremental_evaluation` returns,
there is one row per run; each run goes through a permutation of the instances, the first one through the
list itself unless it is to be shuffled; row `r` has an entry for each of the first `run_length + 2` instances
of that order, and the `j`-th entry is the score of the `j`-th instance for a tree fitted with exactly the
ones before it.  Afterwards the caller's list is in the order of the last run. -/
theorem C59_table_partial {score : PyInst → Py → Py → SM σ R} (hk : KeepsFitted T score) {a : Py} {len runs : ℤ}
    {first : Bool} {shuffle : List PyInst → World → List PyInst × World} (hs : ShuffleLaws shuffle)
    {is is' : List PyInst} (hw : ∀ i ∈ is, Py.wf (.dict i)) {s s' : σ} {rows : List (List R)}
    (h : incrementalEvaluation T score a len runs first shuffle is s = (.ok (rows, is'), s')) :
    rows.length = runs.toNat ∧ is'.Perm is ∧
    ∃ orders : List (List PyInst), orders.length = runs.toNat ∧ (∀ o ∈ orders, o.Perm is) ∧
      (first = false → ∀ o, orders.head? = some o → o = is) ∧
      (∀ o, orders.getLast? = some o → o = is') ∧
      List.Forall₂ (fun o row => ScoredRow T score a (prefixTo o (len + 2)) row) orders rows := by
  obtain ⟨h1, os, h2, h3, h4, h5, h6⟩ := evalRuns_scored hk hs _ _ hw h
  exact ⟨by rw [← h6.length_eq, h2], h1, os, h2, h3, fun hf => h4 ⟨hf, rfl⟩, h5, h6⟩

theorem forall2_right {α β : Type} {P : α → β → Prop} {l : List α} {l' : List β} (h : List.Forall₂ P l l')
    {y : β} (hy : y ∈ l') : ∃ x ∈ l, P x y := by
  induction h with
  | nil => simp at hy
  | cons h1 _ ih =>
    rcases List.mem_cons.1 hy with rfl | hy
    · exact ⟨_, by simp, h1⟩
    · obtain ⟨x, hx, h⟩ := ih hy
      exact ⟨x, by simp [hx], h⟩

/-- **C59**, the length of the rows. -/
theorem C59_row_length {score : PyInst → Py → Py → SM σ R} (hk : KeepsFitted T score) {a : Py} {len runs : ℤ}
    {first : Bool} {shuffle : List PyInst → World → List PyInst × World} (hs : ShuffleLaws shuffle)
    {is is' : List PyInst} (hw : ∀ i ∈ is, Py.wf (.dict i)) {s s' : σ} {rows : List (List R)}
    (h : incrementalEvaluation T score a len runs first shuffle is s = (.ok (rows, is'), s')) (hl : 0 ≤ len)
    {row : List R} (hr : row ∈ rows) : (row.length : ℤ) = min (len + 2) is.length := by
  obtain ⟨-, -, os, -, h3, -, -, h6⟩ := C59_table_partial hk hs hw h
  obtain ⟨o, ho, hs⟩ := forall2_right h6 hr
  rw [hs.1, prefixTo, if_pos (by omega), List.length_take, (h3 o ho).length_eq]
  omega

/-- **C59** fails: whenever there are more than `run_length` instances, every row is longer than documented;
rows have `run_length` entries exactly if there are just as many instances. -/
theorem C59_row_too_long {score : PyInst → Py → Py → SM σ R} (hk : KeepsFitted T score) {a : Py} {len runs : ℤ}
    {first : Bool} {shuffle : List PyInst → World → List PyInst × World} (hs : ShuffleLaws shuffle)
    {is is' : List PyInst} (hw : ∀ i ∈ is, Py.wf (.dict i)) {s s' : σ} {rows : List (List R)}
    (h : incrementalEvaluation T score a len runs first shuffle is s = (.ok (rows, is'), s')) (hl : 0 ≤ len)
    {row : List R} (hr : row ∈ rows) :
    (len < is.length → len < row.length) ∧ ((row.length : ℤ) = len ↔ (is.length : ℤ) = len) := by
  have := C59_row_length hk hs hw h hl hr
  constructor
  · intro; omega
  · constructor <;> intro <;> omega

/-! ### The trees of the package -/

theorem wf_nodup {i : PyInst} (h : Py.wf (.dict i)) : Dict.Nodup i := h.1

theorem lift_bind {α β : Type} {r : Res α} {f : α → SM σ β} {s : σ} {y : β} {s' : σ}
    (h : (SM.lift r >>= f) s = (.ok y, s')) : ∃ x, r = .ok x ∧ f x s = (.ok y, s') := by
  obtain ⟨x, s1, h1, h2⟩ := SM.bind_ok h
  cases h1
  exact ⟨x, rfl, h2⟩

theorem lift_bind_state {α β : Type} {r : Res α} {f : α → SM σ β} {s : σ} :
    ((SM.lift r >>= f) s).2 = s ∨ ∃ x, r = .ok x ∧ ((SM.lift r >>= f) s) = f x s := by
  cases r with
  | error e => exact .inl rfl
  | ok x => exact .inr ⟨x, rfl, rfl⟩

/-- **C59** for a `CobwebTree`: "fitted with exactly `hist`" means that the store is reached by fitting `hist`,
for which C01 to C22 hold. -/
theorem C59_fitted_cobweb {tie : TieBreak (Option Py) ℚ} {h : Heap (Stats Py Py)} {hist : List PyInst}
    (hf : Fitted (cobwebTree tie) h hist) : CobwebHeap hid3 h hist := by
  induction hf with
  | clear s => exact .init (h := s) (Prod.ext (by simp [clearH, HM.setRoot, HM.setTree, HM.mod, newNode, Bind.bind, HM.andThen]) rfl)
  | @ifit s s' hist i c _ hw h ih =>
    obtain ⟨_, -, h⟩ := lift_bind h
    exact .step ih rfl (wf_nodup hw) h
  | @categorize s hist i _ hw ih =>
    rcases lift_bind_state (r := sanityCheck i)
      (f := fun _ => categorizeH (cobwebClass hid3) (fun _ => Stats.ecg (K := ℚ) hid3) i) (s := s) with h | ⟨_, -, h⟩
    · rw [show ((cobwebTree tie).categorize i s).2 = s from h]
      exact ih
    · obtain ⟨r, h', h1, h2, -⟩ := C10_categorize_unchanged ih i
      rw [show (cobwebTree tie).categorize i s = _ from h, h1]
      exact .other ih h2
  | probability _ ih => exact ih
  | @predict s hist c a _ ih =>
    show CobwebHeap hid3 (match (tableAt c s).bind fun t => t.predict tie a .mostLikely true s.w with
      | .ok (v, w) => (.ok (v.getD .none), { s with w := w })
      | .error e => (.error e, s) : Res Py × Heap (Stats Py Py)).2 hist
    cases hp : (tableAt c s).bind fun t => t.predict tie a .mostLikely true s.w with
    | error e => exact ih
    | ok p =>
      obtain ⟨v, w⟩ := p
      cases ht : tableAt c s with
      | error e => rw [ht] at hp; cases hp
      | ok t =>
        rw [ht] at hp
        exact .other ih ⟨fun _ _ => rfl, le_refl _, rfl, (predict_ctr (show t.predict tie a .mostLikely true s.w = .ok (v, w) from hp)).ge⟩
  | draw _ hw ih => exact .other ih ⟨fun _ _ => rfl, le_refl _, rfl, hw.ge⟩

theorem predictPy3_state {N : Numbers} (hN : N.Ok) (c : ℕ) (a : Py) (h : Heap (Stats3 Py Py)) :
    Undisturbed h (predictPy3 N c a h).2 := by
  unfold predictPy3
  cases hp : (tableAt c h).bind fun s => s.predict N.tie N.gauss a .mostLikely true h.w with
  | error e => exact ⟨fun _ _ => rfl, le_refl _, rfl, le_refl _⟩
  | ok p =>
    obtain ⟨v, w⟩ := p
    cases ht : tableAt c h with
    | error e => rw [ht] at hp; cases hp
    | ok t =>
      rw [ht] at hp
      exact ⟨fun _ _ => rfl, le_refl _, rfl,
        (predict3_ctr hN (show t.predict N.tie N.gauss a .mostLikely true h.w = .ok (v, w) from hp)).ge⟩

/-- **C59** for a `Cobweb3Tree`. -/
theorem C59_fitted_cobweb3 {cfg : Cfg3 Py Py} {N : Numbers} (hN : N.Ok) {st : Heap (Stats3 Py Py) × Scales Py}
    {hist : List PyInst} (hf : Fitted (cobweb3Tree cfg N) st hist) :
    HReach3 hid3 cfg st.1 st.2 (hist.map inst3) := by
  induction hf with
  | clear s => exact .init (h := s.1) (Prod.ext (by simp [clearH, HM.setRoot, HM.setTree, HM.mod, newNode, Bind.bind, HM.andThen]) rfl)
  | @ifit s s' hist i c _ hw h ih =>
    obtain ⟨_, -, h⟩ := lift_bind h
    rw [List.map_append]
    exact .step ih (inst3_nodup (wf_nodup hw)) h
  | @categorize s hist i _ hw ih =>
    rcases lift_bind_state (r := sanityCheck i) (f := fun _ (st : Heap (Stats3 Py Py) × Scales Py) =>
        let (r, h) := categorizeH (cobweb3Class hid3) (ecg3H hid3 cfg st.2) (inst3 i) st.1
        (r, h, st.2)) (s := s) with h | ⟨_, -, h⟩
    · rw [show ((cobweb3Tree cfg N).categorize i s).2 = s from h]
      exact ih
    · obtain ⟨r, h', h1, h2, -⟩ := C10_categorize_unchanged_cobweb3 ih (inst3 i)
      rw [show (cobweb3Tree cfg N).categorize i s = _ from h, h1]
      exact .other ih h2
  | probability _ ih => exact ih
  | @predict s hist c a _ ih => exact .other ih (predictPy3_state hN c a s.1)
  | draw _ hw ih => exact .other ih ⟨fun _ _ => rfl, le_refl _, rfl, hw.ge⟩

/-- **C59** for a `TrestleTree`: it was fitted with the preprocessed instances, in this order. -/
theorem C59_fitted_trestle {c : TrestleCfg} {S : PyInst → TState → Search} (hS : ∀ i st, SearchLaws (S i st))
    {N : Numbers} (hN : N.Ok) {st : TState} {hist : List PyInst} (hf : Fitted (trestleTree c S N) st hist) :
    ∃ temps, TrestleRuns c st temps ∧
      List.Forall₂ (fun i t => ∃ st0, (trestlePrep c (S i st0) st0 i).1 = .ok t) hist temps := by
  induction hf with
  | clear s => exact ⟨[], .clear s, .nil⟩
  | @ifit s s' hist i x _ hw h ih =>
    obtain ⟨ts, h1, h2⟩ := ih
    have h : trestleIfit c (S i s) i s = (.ok x, s') := h
    cases hp : (trestlePrep c (S i s) s i).1 with
    | error e =>
      unfold trestleIfit at h
      generalize trestlePrep c (S i s) s i = p at h hp
      obtain ⟨q, s2⟩ := p
      dsimp only at hp
      subst hp
      cases h
    | ok t => exact ⟨ts ++ [t], h1.ifit (hS i s) hw hp h, List.rel_append h2 (.cons ⟨s, hp⟩ .nil)⟩
  | @categorize s hist i _ hw ih =>
    obtain ⟨ts, h1, h2⟩ := ih
    exact ⟨ts, h1.categorize (hS i s) hw, h2⟩
  | probability _ ih => exact ih
  | @predict s hist x a _ ih =>
    obtain ⟨ts, h1, h2⟩ := ih
    exact ⟨ts, .other h1 (predictPy3_state hN x a s.h), h2⟩
  | draw _ hw ih =>
    obtain ⟨ts, h1, h2⟩ := ih
    exact ⟨ts, .other h1 ⟨fun _ _ => rfl, le_refl _, rfl, hw.ge⟩, h2⟩

/-- **C59** for a `DummyTree`. -/
theorem C59_fitted_dummy {c : TrestleCfg} {S : Search} (hS : SearchLaws S) {N : Numbers} (hN : N.Ok) {st : TState}
    {hist : List PyInst} (hf : Fitted (dummyTree c S N) st hist) :
    ∃ temps, DummyRuns c st temps ∧
      List.Forall₂ (fun i t => ∃ st0, (dummyPrep c S false st0 i).1 = .ok t) hist temps := by
  induction hf with
  | clear s => exact ⟨[], .clear s, .nil⟩
  | @ifit s s' hist i x _ hw h ih =>
    obtain ⟨ts, h1, h2⟩ := ih
    have h : dummyIfit c S false i s = (.ok x, s') := h
    obtain ⟨t, hp, -⟩ := (C58_ifit_returns h1.any S false i).1 ⟨x, s', h⟩
    exact ⟨ts ++ [t], h1.ifit hS hw hp h, List.rel_append h2 (.cons ⟨s, hp⟩ .nil)⟩
  | @categorize s hist i _ hw ih =>
    obtain ⟨ts, h1, h2⟩ := ih
    exact ⟨ts, .categorize (i := i) h1, h2⟩
  | probability _ ih => exact ih
  | @predict s hist x a _ ih =>
    obtain ⟨ts, h1, h2⟩ := ih
    exact ⟨ts, .other h1 (predictPy3_state hN x a s.h), h2⟩
  | draw _ hw ih =>
    obtain ⟨ts, h1, h2⟩ := ih
    exact ⟨ts, .other h1 ⟨fun _ _ => rfl, le_refl _, rfl, hw.ge⟩, h2⟩

/-! ### A finding, and examples -/

theorem categorize_cleared (i : PyInst) (h : Heap (Stats Py Py)) :
    let h' := (clearH (cobwebClass hid3) h).2
    categorizeH (cobwebClass hid3) (fun _ => Stats.ecg (K := ℚ) hid3) i h' = (.ok h'.root, h') ∧
      ∃ r, h'.objs h'.root = some r ∧ r.stats = Stats.fresh := by
  simp [clearH, HM.setRoot, HM.setTree, HM.mod, newNode, Bind.bind, HM.andThen, categorizeH, categorizeLoopH,
    HM.get, pure, HM.ret, cobwebClass]

/-- **C59**, a finding: with the default score `probability` the evaluation of a `CobwebTree` raises
`ZeroDivisionError` when the first instance does not have the attribute, because the tree is empty then. -/
theorem C59_first_missing_raises {tie : TieBreak (Option Py) ℚ} {a : Py} (ha : a.hashable = true) {len runs : ℤ}
    (hl : 0 ≤ len) (hr : 0 < runs) (shuffle : List PyInst → World → List PyInst × World) {i : PyInst}
    (hi : sanityCheck i = .ok ()) (hm : a ∉ Dict.keys i) (is : List PyInst) (h : Heap (Stats Py Py)) :
    (incrementalEvaluation (cobwebTree tie) (evalProbability (cobwebTree tie)) a len runs false shuffle (i :: is)
      h).1 = .error .zeroDiv := by
  obtain ⟨n, hn⟩ : ∃ n, runs.toNat = n + 1 := ⟨runs.toNat - 1, by omega⟩
  have hp : prefixTo (i :: is) (len + 2) = i :: is.take (len + 1).toNat := by
    unfold prefixTo
    rw [if_pos (by omega), show (len + 2).toNat = (len + 1).toNat + 1 by omega]
    rfl
  have hg : Dict.get? i a = none := Dict.get?_eq_none.2 hm
  have hw : without i a = i := by
    rw [without, if_neg]
    simp [Dict.has, hg]
  obtain ⟨c1, r, c2, c3⟩ := categorize_cleared i h
  have key : evalProbability (cobwebTree tie) i a .none (clearH (cobwebClass hid3) h).2 =
      (.error .zeroDiv, (clearH (cobwebClass hid3) h).2) := by
    unfold evalProbability
    rw [if_neg (by simp [ha]), hw]
    have h1 : (cobwebTree tie).categorize i (clearH (cobwebClass hid3) h).2 =
        (.ok (clearH (cobwebClass hid3) h).2.root, (clearH (cobwebClass hid3) h).2) := by
      show (SM.lift (sanityCheck i) >>= fun _ => _) _ = _
      rw [hi]
      exact c1
    rw [SM.bind_eq h1]
    simp only [cobwebTree, tableAt, c2, c3]
    simp [Except.bind, probabilityPy, Stats.probability, Stats.fresh, pyDiv]
  unfold incrementalEvaluation
  rw [hn, evalRuns]
  have h2 : evalRow (cobwebTree tie) (evalProbability (cobwebTree tie)) a (prefixTo (i :: is) (len + 2))
      (clearH (cobwebClass hid3) h).2 = (.error .zeroDiv, (clearH (cobwebClass hid3) h).2) := by
    rw [hp, evalRow, if_neg (by simp [ha]), hg]
    show SM.andThen (evalProbability (cobwebTree tie) i a .none) _ _ = _
    rw [SM.andThen, key]
  show (SM.andThen (evalRow (cobwebTree tie) (evalProbability (cobwebTree tie)) a (prefixTo (i :: is) (len + 2)))
    _ (clearH (cobwebClass hid3) h).2).1 = _
  rw [SM.andThen, h2]

theorem demoShuffle_laws : ShuffleLaws fun l w => (l.reverse, w.skip 1) :=
  ⟨fun l _ => l.reverse_perm, fun _ _ => rfl⟩

/-- An evaluation that returns: any number of copies of a scene, in a `DummyTree`, with a score that returns
always; the row is longer than documented. -/
example (S : Search) (N : Numbers) (st : TState) (n : ℕ) :
    ∃ rows is' st', incrementalEvaluation (dummyTree demoTrestle S N) (fun _ _ _ => SM.ret (1 : ℚ)) (.str c!"k") 2 1
      true (fun l w => (l.reverse, w.skip 1)) (List.replicate n demoScene) st = (.ok (rows, is'), st') := by
  have step : ∀ (m : ℕ) (st : TState), DummyAny demoTrestle st → ∃ row st',
      evalRow (dummyTree demoTrestle S N) (fun _ _ _ => SM.ret (1 : ℚ)) (.str c!"k") (List.replicate m demoScene) st =
        (.ok row, st') := by
    intro m
    induction m with
    | zero => exact fun st _ => ⟨[], st, rfl⟩
    | succ m ih =>
      intro st h
      have hp : ∃ temp, (dummyPrep demoTrestle S false st demoScene).1 = .ok temp ∧
          ∀ p ∈ temp, p.2.hashable = true := by
        have : ((dummyPrep demoTrestle S false st demoScene).1.toOption.map
            fun t => t.all fun p => p.2.hashable) = some true := rfl
        cases hq : (dummyPrep demoTrestle S false st demoScene).1 with
        | error e => rw [hq] at this; simp [Except.toOption] at this
        | ok t =>
          rw [hq] at this
          exact ⟨t, rfl, by simpa [Except.toOption] using this⟩
      obtain ⟨a, st1, h1⟩ := (C58_ifit_returns h S false demoScene).2 hp
      have h2 : DummyAny demoTrestle st1 := by
        have := h.ifit (S := S) (mapping := false) (i := demoScene)
        rwa [h1] at this
      obtain ⟨row, st2, h3⟩ := ih st1 h2
      refine ⟨1 :: row, st2, ?_⟩
      rw [List.replicate_succ, evalRow, if_neg (by simp [Py.hashable])]
      rw [SM.bind_def]
      show (do let _ ← (dummyTree demoTrestle S N).ifit demoScene; _ : SM TState (List ℚ)) st = _
      rw [SM.bind_eq (show (dummyTree demoTrestle S N).ifit demoScene st = (.ok a, st1) from h1), SM.bind_eq h3]
      rfl
  obtain ⟨m, hm⟩ : ∃ m, prefixTo (List.replicate n demoScene).reverse (2 + 2) = List.replicate m demoScene := by
    rw [List.reverse_replicate]
    exact ⟨min 4 n, by simp [prefixTo, List.take_replicate]⟩
  have hd : DummyAny demoTrestle { trestleClear st with
      h := { (trestleClear st).h with w := (trestleClear st).h.w.skip 1 } } :=
    .other (.clear st) ⟨fun _ _ => rfl, le_refl _, rfl, le_refl _⟩
  obtain ⟨row, st', h⟩ := step m _ hd
  rw [← hm] at h
  refine ⟨[row], (List.replicate n demoScene).reverse, st', ?_⟩
  unfold incrementalEvaluation
  show evalRuns _ _ _ _ _ _ 1 0 _ _ = _
  rw [evalRuns]
  show SM.andThen (evalRow _ _ _ _) _ _ = _
  rw [SM.andThen]
  erw [h]
  rfl

/-- `error` for an instance of a new `DummyTree`: the value is not predicted. -/
example (S : Search) (N : Numbers) (st : TState) : ∃ st', evalError (dummyTree demoTrestle S N)
    [(.str c!"k", .str c!"x"), (.str c!"l", .num 2)] (.str c!"k") (.str c!"x") (trestleClear st) = (.ok 1, st') := by
  obtain ⟨r, h1, -, -, h4⟩ := dummy_clear st
  have : predictPy3 N (trestleClear st).h.root (.str c!"k") (trestleClear st).h = (.ok .none, (trestleClear st).h) := by
    simp [predictPy3, tableAt, h1, h4, Except.bind, Stats3.predict, Stats3.fresh]
  refine ⟨trestleClear st, ?_⟩
  unfold evalError
  rw [if_neg (by simp [Py.hashable])]
  show SM.andThen ((dummyTree demoTrestle S N).predict (trestleClear st).h.root (.str c!"k")) _ (trestleClear st) = _
  rw [SM.andThen, show (dummyTree demoTrestle S N).predict (trestleClear st).h.root (.str c!"k") (trestleClear st) =
    (.ok .none, trestleClear st) by simp [dummyTree, this]]
  rfl

end CF
