/-
The scoring methods on the store compute the scores of Model/Cobweb.lean and only construct
temporary nodes.
-/
import Verif.Model.Heap
import Verif.Proofs.Choose
import Verif.Proofs.Ops
import Verif.Proofs.Sim

set_option linter.unusedSectionVars false

namespace CF
variable {I S K : Type} [Field K] [LinearOrder K]

namespace HM
variable {α β : Type}

theorem bind_ok' {m : HM S α} {f : α → HM S β} {h h' : Heap S} {a : α} (e : m h = (.ok a, h')) :
    (m >>= f) h = f a h' := by
  show HM.andThen m f h = _
  simp [HM.andThen, e]

theorem bind_err {m : HM S α} {f : α → HM S β} {h h' : Heap S} {x : PyErr}
    (e : m h = (.error x, h')) : (m >>= f) h = (.error x, h') := by
  show HM.andThen m f h = _
  simp [HM.andThen, e]

theorem pure_eq (a : α) (h : Heap S) : (pure a : HM S α) h = (.ok a, h) := rfl

theorem get_ok {a : ℕ} {r : Rec S} {h : Heap S} (e : h.objs a = some r) :
    get a h = (.ok r, h) := by simp [get, e]

end HM

/-- The store after assigning the object at `a`. -/
def Heap.upd (h : Heap S) (a : ℕ) (r : Rec S) : Heap S :=
  { h with objs := Function.update h.objs a (some r) }

/-- The store after constructing a node. -/
def Heap.push (h : Heap S) (r : Rec S) : Heap S :=
  { h with objs := Function.update h.objs h.next (some r), next := h.next + 1, w := h.w.bump 1 }

theorem HM.mod_ok {a : ℕ} {r : Rec S} {f : Rec S → Rec S} {h : Heap S} (e : h.objs a = some r) :
    HM.mod a f h = (.ok (), h.upd a (f r)) := by simp [HM.mod, e, Heap.upd]

@[simp] theorem upd_objs_self (h : Heap S) (a : ℕ) (r : Rec S) : (h.upd a r).objs a = some r := by
  simp [Heap.upd]
theorem upd_objs_ne (h : Heap S) {a x : ℕ} (r : Rec S) (hx : x ≠ a) :
    (h.upd a r).objs x = h.objs x := by simp [Heap.upd, Function.update_of_ne hx]
@[simp] theorem upd_next (h : Heap S) (a : ℕ) (r : Rec S) : (h.upd a r).next = h.next := rfl
@[simp] theorem upd_root (h : Heap S) (a : ℕ) (r : Rec S) : (h.upd a r).root = h.root := rfl
@[simp] theorem upd_w (h : Heap S) (a : ℕ) (r : Rec S) : (h.upd a r).w = h.w := rfl
@[simp] theorem push_objs_self (h : Heap S) (r : Rec S) : (h.push r).objs h.next = some r := by
  simp [Heap.push]
theorem push_objs_ne (h : Heap S) {x : ℕ} (r : Rec S) (hx : x ≠ h.next) :
    (h.push r).objs x = h.objs x := by simp [Heap.push, Function.update_of_ne hx]
@[simp] theorem push_next (h : Heap S) (r : Rec S) : (h.push r).next = h.next + 1 := rfl
@[simp] theorem push_root (h : Heap S) (r : Rec S) : (h.push r).root = h.root := rfl
@[simp] theorem push_w (h : Heap S) (r : Rec S) : (h.push r).w = h.w.bump 1 := rfl
@[simp] theorem upd_upd (h : Heap S) (a : ℕ) (r r' : Rec S) : (h.upd a r).upd a r' = h.upd a r' := by
  simp [Heap.upd]
@[simp] theorem push_upd (h : Heap S) (r r' : Rec S) : (h.push r).upd h.next r' = h.push r' := by
  simp [Heap.upd, Heap.push]

/-- From `h` to `h'` the objects below address `n` and the root were not touched. -/
structure Keep (n : ℕ) (h h' : Heap S) : Prop where
  objs : ∀ x < n, h'.objs x = h.objs x
  next : h.next ≤ h'.next
  root : h'.root = h.root

theorem Keep.refl (n : ℕ) (h : Heap S) : Keep n h h := ⟨fun _ _ => rfl, le_refl _, rfl⟩
theorem Keep.trans {n : ℕ} {h h' h'' : Heap S} (a : Keep n h h') (b : Keep n h' h'') : Keep n h h'' :=
  ⟨fun x hx => (b.objs x hx).trans (a.objs x hx), a.next.trans b.next, b.root.trans a.root⟩
theorem Keep.mono {n m : ℕ} {h h' : Heap S} (a : Keep n h h') (hm : m ≤ n) : Keep m h h' :=
  ⟨fun x hx => a.objs x (lt_of_lt_of_le hx hm), a.next, a.root⟩
theorem Keep.push {n : ℕ} (h : Heap S) (r : Rec S) (hn : n ≤ h.next) : Keep n h (h.push r) :=
  ⟨fun _ hx => push_objs_ne h r (by omega), Nat.le_succ _, rfl⟩
theorem Keep.upd {n : ℕ} (h : Heap S) {a : ℕ} (ha : n ≤ a) (r : Rec S) : Keep n h (h.upd a r) :=
  ⟨fun x hx => upd_objs_ne _ _ (by omega), le_refl _, rfl⟩

/-- Running `m` gives `r`, leaves the objects below `n` alone and, unless it raises, constructs `k`
nodes and draws `d` random numbers. -/
def Does {α : Type} (n : ℕ) (m : HM S α) (h : Heap S) (r : Res α) (k d : ℕ) : Prop :=
  ∃ h', m h = (r, h') ∧ Keep n h h' ∧ h.w.ctr ≤ h'.w.ctr ∧ h'.w.rnd = h.w.rnd ∧
    ∀ v, r = .ok v → h'.w = (h.w.skip d).bump k

theorem World.skip_bump_add (w : World) (d d' k k' : ℕ) :
    (((w.skip d).bump k).skip d').bump k' = (w.skip (d + d')).bump (k + k') := by
  simp [World.skip, World.bump, Nat.add_assoc]

theorem World.skip_zero (w : World) : w.skip 0 = w := rfl
theorem World.bump_zero (w : World) : w.bump 0 = w := rfl

section
variable {α β : Type} {n : ℕ}

theorem Does.pure (a : α) (h : Heap S) : Does n (pure a : HM S α) h (.ok a) 0 0 :=
  ⟨h, rfl, .refl _ h, le_refl _, rfl, fun _ _ => rfl⟩

theorem Does.lift (r : Res α) (h : Heap S) : Does n (HM.lift r) h r 0 0 :=
  ⟨h, rfl, .refl _ h, le_refl _, rfl, fun _ _ => rfl⟩

theorem Does.raise (e : PyErr) (h : Heap S) (k d : ℕ) :
    Does n (HM.raise e : HM S α) h (.error e) k d :=
  ⟨h, rfl, .refl _ h, le_refl _, rfl, fun _ hv => by cases hv⟩

theorem Does.random (h : Heap S) : Does n (HM.random : HM S ℚ) h (.ok (h.w.draw 0)) 0 1 :=
  ⟨{ h with w := h.w.skip 1 }, rfl, ⟨fun _ _ => rfl, le_refl _, rfl⟩, le_refl _, rfl,
    fun _ _ => rfl⟩

theorem Does.bind {m : HM S α} {f : α → HM S β} {h : Heap S} {r : Res α} {g : α → Res β}
    {k k' d d' : ℕ} (hm : Does n m h r k d)
    (hf : ∀ v h', r = .ok v → m h = (.ok v, h') → Keep n h h' → h'.w = (h.w.skip d).bump k →
      Does n (f v) h' (g v) k' d') :
    Does n (m >>= f) h (r >>= g) (k + k') (d + d') := by
  obtain ⟨h', e, hg, hc, hr, hw⟩ := hm
  cases r with
  | error x => exact ⟨h', HM.bind_err e, hg, hc, hr, fun _ hv => by cases hv⟩
  | ok v =>
    obtain ⟨h'', e', hg', hc', hr', hw'⟩ := hf v h' rfl e hg (hw v rfl)
    refine ⟨h'', (HM.bind_ok' e).trans e', hg.trans hg', hc.trans hc', hr'.trans hr, fun x hx => ?_⟩
    rw [hw' x hx, hw v rfl, World.skip_bump_add]

theorem Does.cast {m : HM S α} {h : Heap S} {r r' : Res α} {k k' d d' : ℕ} (hm : Does n m h r k d)
    (e : r = r') (ek : k = k') (ed : d = d') : Does n m h r' k' d' := by
  subst e; subst ek; subst ed; exact hm

/-- Continue after a prefix that ran in a known way. -/
theorem Does.after {m : HM S α} {f : α → HM S β} {h h' : Heap S} {a : α} {r : Res β} {k k' d' : ℕ}
    (e : m h = (.ok a, h')) (g : Keep n h h') (hw : h'.w = h.w.bump k)
    (hf : Does n (f a) h' r k' d') : Does n (m >>= f) h r (k + k') d' := by
  obtain ⟨h'', e', hg', hc', hr', hw'⟩ := hf
  refine ⟨h'', (HM.bind_ok' e).trans e', g.trans hg', ?_, ?_, fun x hx => ?_⟩
  · rw [hw] at hc'; exact le_trans (Nat.le_add_right _ _) hc'
  · rw [hr', hw]; rfl
  · rw [hw' x hx, hw]
    exact (World.skip_bump_add h.w 0 d' k k').trans (by rw [Nat.zero_add])

theorem Does.get {a : ℕ} {rc : Rec S} {f : Rec S → HM S β} {h : Heap S} {r : Res β} {k d : ℕ}
    (e : h.objs a = some rc) (hf : Does n (f rc) h r k d) : Does n (HM.get a >>= f) h r k d :=
  (Does.after (HM.get_ok e) (.refl _ _) rfl hf).cast rfl (Nat.zero_add _) rfl

theorem Does.mod {a : ℕ} {rc : Rec S} {g : Rec S → Rec S} {f : Unit → HM S β} {h : Heap S} {r : Res β}
    {k d : ℕ} (e : h.objs a = some rc) (ha : n ≤ a) (hf : Does n (f ()) (h.upd a (g rc)) r k d) :
    Does n (HM.mod a g >>= f) h r k d :=
  (Does.after (HM.mod_ok e) (.upd _ ha _) rfl hf).cast rfl (Nat.zero_add _) rfl
end

theorem forall₂_imp_mem {α β : Type} {P Q : α → β → Prop} {l : List α} {l' : List β}
    (h : List.Forall₂ P l l') (hPQ : ∀ x y, x ∈ l → P x y → Q x y) : List.Forall₂ Q l l' := by
  induction h with
  | nil => exact .nil
  | cons h _ ih =>
    exact .cons (hPQ _ _ (by simp) h) (ih fun x y hx => hPQ x y (by simp [hx]))

/-! ### Copies and category utility -/

/-- The object at `a` has the table `s` and belongs to the tree. -/
def At (h : Heap S) (a : ℕ) (s : S) : Prop := ∃ r, h.objs a = some r ∧ r.stats = s ∧ r.tree = true

theorem At.keep {n : ℕ} {h h' : Heap S} (g : Keep n h h') {a : ℕ} {s : S} (ha : At h a s)
    (hn : a < n) : At h' a s := by
  obtain ⟨r, h1, h2⟩ := ha
  exact ⟨r, (g.objs a hn).trans h1, h2⟩

section
variable (C : NodeClass I S) (ecg : Bool → S → Res K) {n : ℕ}

theorem newNode_eq (h : Heap S) :
    newNode C h = (.ok h.next, h.push ⟨h.w.ctr + 1, C.fresh, [], none, false⟩) := rfl

theorem shallowCopyH_eq {h : Heap S} {a : ℕ} {r : Rec S} (e : h.objs a = some r) (ha : a < h.next) :
    shallowCopyH C a h =
      (.ok h.next, h.push ⟨h.w.ctr + 1, shallowCopy C r.stats, [], r.parent, r.tree⟩) := by
  have hne : a ≠ h.next := by omega
  unfold shallowCopyH
  rw [HM.bind_ok' (newNode_eq C h), HM.bind_ok' (HM.get_ok ((push_objs_ne h _ hne).trans e))]
  unfold HM.setTree HM.setParent addFromH
  rw [HM.bind_ok' (HM.mod_ok (push_objs_self h _)), push_upd,
    HM.bind_ok' (HM.mod_ok (push_objs_self h _)), push_upd]
  have : (HM.get a >>= fun rb => HM.mod h.next fun r => { r with stats := C.addFrom r.stats rb.stats })
      (h.push ⟨h.w.ctr + 1, C.fresh, [], r.parent, r.tree⟩) =
      (.ok (), h.push ⟨h.w.ctr + 1, shallowCopy C r.stats, [], r.parent, r.tree⟩) := by
    rw [HM.bind_ok' (HM.get_ok ((push_objs_ne h _ hne).trans e)), HM.mod_ok (push_objs_self h _),
      push_upd]
    rfl
  rw [HM.bind_ok' this]
  rfl

theorem ecgH_eq {h : Heap S} {a : ℕ} {s : S} (ha : At h a s) :
    ecgH ecg a h = (ecg true s, h) := by
  obtain ⟨r, e, rfl, ht⟩ := ha
  unfold ecgH
  rw [HM.bind_ok' (HM.get_ok e), ht]; rfl

theorem cuSumH_does {h : Heap S} {a : ℕ} {s : S} (ha : At h a s) {as : List ℕ} {css : List S}
    (hcs : List.Forall₂ (At h) as css) (acc : K) :
    cuSumH C ecg a as acc h = (cuSum C (ecg true) (C.count s) css acc, h) := by
  induction hcs generalizing acc with
  | nil => rfl
  | cons hc _ ih =>
    obtain ⟨rc, e, rfl, ht⟩ := hc
    obtain ⟨r, e', rfl, -⟩ := ha
    unfold cuSumH cuSum
    rw [HM.bind_ok' (HM.get_ok e), HM.bind_ok' (HM.get_ok e')]
    cases hd : pyDiv (C.count rc.stats : K) (C.count r.stats : K) with
    | error x => exact HM.bind_err (show HM.lift (Except.error x) h = _ from rfl)
    | ok p =>
      rw [HM.bind_ok' (show HM.lift (Except.ok p) h = (.ok p, h) from rfl)]
      have hE := ecgH_eq ecg ⟨rc, e, rfl, ht⟩
      cases hx : ecg true rc.stats with
      | error x => rw [hx] at hE; exact HM.bind_err hE
      | ok x =>
        rw [hx] at hE
        rw [HM.bind_ok' hE, ih]
        rfl

theorem categoryUtilityH_eq {h : Heap S} {a : ℕ} {r : Rec S} (e : h.objs a = some r)
    (ht : r.tree = true) {css : List S} (hcs : List.Forall₂ (At h) r.children css) :
    categoryUtilityH C ecg a h = (categoryUtility C (ecg true) r.stats css, h) := by
  have ha : At h a r.stats := ⟨r, e, rfl, ht⟩
  unfold categoryUtilityH
  rw [HM.bind_ok' (HM.get_ok e)]
  have hlen := hcs.length_eq
  cases css with
  | nil => rw [if_pos (by simpa using hlen)]; rfl
  | cons c cs =>
    rw [if_neg (by simp [hlen])]
    unfold categoryUtility
    have h1 := cuSumH_does C ecg ha hcs 0
    cases hs : cuSum C (ecg true) (C.count r.stats) (c :: cs) 0 with
    | error x => rw [hs] at h1; exact HM.bind_err h1
    | ok g =>
      rw [hs] at h1
      rw [HM.bind_ok' h1]
      have h2 := ecgH_eq ecg ha
      cases hx : ecg true r.stats with
      | error x => rw [hx] at h2; exact HM.bind_err h2
      | ok x =>
        rw [hx] at h2
        rw [HM.bind_ok' h2, hlen]
        rfl

/-- What the loops that fill a temporary with copies do. -/
theorem copyInto_does {temp : ℕ} {as : List ℕ} {css : List S} :
    ∀ {h : Heap S} {r : Rec S}, h.objs temp = some r → n ≤ temp → temp < h.next →
      List.Forall₂ (At h) as css → (∀ a ∈ as, a < n) →
      ∃ h', copyInto C temp as h = (.ok (), h') ∧ Keep n h h' ∧ h'.w = h.w.bump as.length ∧
        (∀ x < h.next, x ≠ temp → h'.objs x = h.objs x) ∧
        ∃ new, h'.objs temp = some { r with children := r.children ++ new } ∧
          List.Forall₂ (At h') new (css.map (shallowCopy C)) ∧
          ∀ x ∈ new, h.next ≤ x ∧ x < h'.next := by
  induction as generalizing css with
  | nil =>
    intro h r e hn ht hf _
    cases hf
    exact ⟨h, rfl, .refl _ _, rfl, fun _ _ _ => rfl, [], by simp [e], .nil, by simp⟩
  | cons a as ih =>
    intro h r e hn ht hf hlt
    cases hf with
    | cons ha hf =>
    rename_i s css
    obtain ⟨ra, ea, rfl, hat⟩ := ha
    have han : a < n := hlt a (by simp)
    set h1 := h.push ⟨h.w.ctr + 1, shallowCopy C ra.stats, [], ra.parent, ra.tree⟩ with hh1
    have e1 : h1.objs temp = some r := (push_objs_ne h _ (by omega)).trans e
    set h2 := h1.upd temp { r with children := r.children ++ [h.next] } with hh2
    have hk1 : Keep n h h1 := .push h _ (by omega)
    have hk2 : Keep n h h2 := hk1.trans (.upd h1 hn _)
    obtain ⟨h', e', hk, hw, hold, new, en, hnew, hrange⟩ := ih (h := h2) (css := css) (upd_objs_self h1 temp _) hn
      (by simp [hh2, hh1]; omega)
      (forall₂_imp_mem hf fun x y hx hxy => At.keep hk2 hxy (hlt x (by simp [hx])))
      (fun x hx => hlt x (by simp [hx]))
    refine ⟨h', ?_, hk2.trans hk, ?_, ?_, h.next :: new, ?_, ?_, ?_⟩
    · unfold copyInto
      rw [HM.bind_ok' (shallowCopyH_eq C ea (by omega))]
      unfold HM.append
      rw [HM.bind_ok' (HM.mod_ok e1)]
      exact e'
    · rw [hw]; simp [hh2, hh1, World.bump]; omega
    · intro x hx hxt
      rw [hold x (by simp [hh2, hh1]; omega) hxt, hh2, upd_objs_ne _ _ hxt, hh1,
        push_objs_ne _ _ (by omega)]
    · rw [en]; simp
    · refine .cons ⟨⟨h.w.ctr + 1, shallowCopy C ra.stats, [], ra.parent, ra.tree⟩, ?_, rfl, hat⟩ hnew
      rw [hold h.next (by simp [hh2, hh1]) (by omega), hh2, upd_objs_ne _ _ (by omega), hh1,
        push_objs_self]
    · have hx2 : h2.next = h.next + 1 := rfl
      have := hk.next
      intro x hx
      rcases List.mem_cons.1 hx with rfl | hx
      · omega
      · have := hrange x hx; omega

/-- The node at `a` belongs to the tree, has the table `s` and children at `as` with the tables
`css`; all these addresses are below `n`. -/
structure NodeAt (n : ℕ) (h : Heap S) (a : ℕ) (s : S) (as : List ℕ) (css : List S) : Prop where
  self : ∃ r, h.objs a = some r ∧ r.stats = s ∧ r.children = as ∧ r.tree = true
  lt : a < n
  ltc : ∀ c ∈ as, c < n
  kids : List.Forall₂ (At h) as css
  le : n ≤ h.next

variable {C} {ecg}

theorem NodeAt.keep {h h' : Heap S} (g : Keep n h h') {a : ℕ} {s : S} {as : List ℕ} {css : List S}
    (ha : NodeAt n h a s as css) : NodeAt n h' a s as css := by
  obtain ⟨⟨r, e, hr⟩, h1, h2, h3, h4⟩ := ha
  exact ⟨⟨r, (g.objs a h1).trans e, hr⟩, h1, h2,
    forall₂_imp_mem h3 fun x y hx hxy => hxy.keep g (h2 x hx), h4.trans g.next⟩

theorem createNewChildH_eq {h : Heap S} {a : ℕ} {r : Rec S} (e : h.objs a = some r) (ha : a < h.next)
    (i : I) :
    createNewChildH C a i h = (.ok h.next,
      (h.push ⟨h.w.ctr + 1, C.incr C.fresh i, [], some a, r.tree⟩).upd a
        { r with children := r.children ++ [h.next] }) := by
  have hne : a ≠ h.next := by omega
  unfold createNewChildH
  rw [HM.bind_ok' (newNode_eq C h)]
  unfold HM.setParent HM.setTree incrH HM.append
  rw [HM.bind_ok' (HM.mod_ok (push_objs_self h _)), push_upd,
    HM.bind_ok' (HM.get_ok ((push_objs_ne h _ hne).trans e)),
    HM.bind_ok' (HM.mod_ok (push_objs_self h _)), push_upd,
    HM.bind_ok' (HM.mod_ok (push_objs_self h _)), push_upd,
    HM.bind_ok' (HM.mod_ok ((push_objs_ne h _ hne).trans e))]
  rfl

theorem Does.shallow {β : Type} {a : ℕ} {rc : Rec S} {f : ℕ → HM S β} {h : Heap S} {r : Res β}
    {k d : ℕ} (e : h.objs a = some rc) (ha : a < h.next) (hn : n ≤ h.next)
    (hf : Does n (f h.next)
      (h.push ⟨h.w.ctr + 1, shallowCopy C rc.stats, [], rc.parent, rc.tree⟩) r k d) :
    Does n (shallowCopyH C a >>= f) h r (1 + k) d :=
  Does.after (shallowCopyH_eq C e ha) (.push h _ hn) rfl hf

theorem Does.done {α : Type} {m : HM S α} {h : Heap S} {r : Res α} (e : m h = (r, h)) :
    Does n m h r 0 0 := ⟨h, e, .refl _ _, le_refl _, rfl, fun _ _ => rfl⟩

theorem ecg_bind {β : Type} {a : ℕ} {s : S} {f : K → HM S β} {g : K → Res β} {h : Heap S} {k d : ℕ}
    (ha : At h a s) (hf : ∀ v, ecg true s = .ok v → Does n (f v) h (g v) k d) :
    Does n (ecgH ecg a >>= f) h (ecg true s >>= g) k d :=
  ((Does.done (ecgH_eq ecg ha)).bind fun v h' hv e _ _ => by
    have e' := (ecgH_eq ecg ha).symm.trans e
    rw [Prod.mk.injEq] at e'
    rw [← e'.2]
    exact hf v hv).cast rfl (Nat.zero_add _) (Nat.zero_add _)

theorem relativeCuForInsertH_does {h : Heap S} {a : ℕ} {s : S} (ha : At h a s) (hlt : a < n)
    (hn : n ≤ h.next) (i : I) :
    Does n (relativeCuForInsertH C ecg a i) h (relativeCuForInsert C (ecg true) s i) 1 0 := by
  obtain ⟨r, e, rfl, ht⟩ := ha
  unfold relativeCuForInsertH relativeCuForInsert
  refine Does.shallow (k := 0) e (by omega) hn ?_
  refine Does.mod (push_objs_self h _) hn ?_
  rw [push_upd]
  have hk : ∀ q, Keep n h (h.push q) := fun q => .push h q hn
  have e' : ∀ q, (h.push q).objs a = some r := fun q => ((hk q).objs a hlt).trans e
  refine Does.get (e' _) ?_
  refine ecg_bind (s := C.incr (shallowCopy C r.stats) i) ⟨_, push_objs_self h _, rfl, ht⟩ fun v _ => ?_
  exact ecg_bind ⟨r, e' _, rfl, ht⟩ fun v' _ => Does.pure _ _

theorem constSumH_eq {h : Heap S} {a : ℕ} {s : S} (ha : At h a s) {as : List ℕ} {css : List S}
    (hcs : List.Forall₂ (At h) as css) (acc : K) :
    constSumH C ecg a as acc h = (constSum C (ecg true) (C.count s) css acc, h) := by
  induction hcs generalizing acc with
  | nil => rfl
  | cons hc _ ih =>
    obtain ⟨rc, e, rfl, ht⟩ := hc
    obtain ⟨r, e', rfl, -⟩ := ha
    unfold constSumH constSum
    rw [HM.bind_ok' (HM.get_ok e), HM.bind_ok' (HM.get_ok e')]
    have hE := ecgH_eq ecg ⟨rc, e, rfl, ht⟩
    cases hx : ecg true rc.stats with
    | error x => rw [hx] at hE; exact HM.bind_err hE
    | ok x =>
      rw [hx] at hE
      rw [HM.bind_ok' hE, ih]
      rfl

theorem relativeCuConstH_does {h : Heap S} {a : ℕ} {s : S} {as : List ℕ} {css : List S}
    (ha : NodeAt n h a s as css) (i : I) :
    Does n (relativeCuConstH C ecg a i) h (relativeCuConst C (ecg true) s css i) 1 0 := by
  obtain ⟨r, e, rfl, rfl, ht⟩ := ha.self
  have hn := ha.le
  have hlt := ha.lt
  unfold relativeCuConstH relativeCuConst
  refine Does.shallow (k := 0) e (by omega) hn ?_
  refine Does.mod (push_objs_self h _) hn ?_
  rw [push_upd]
  refine ecg_bind (s := C.incr (shallowCopy C r.stats) i) ⟨_, push_objs_self h _, rfl, ht⟩ fun v _ => ?_
  have ha1 : ∀ q, NodeAt n (h.push q) a r.stats r.children css := fun q => ha.keep (.push h q hn)
  have e1 : ∀ q, (h.push q).objs a = some r := fun q => (push_objs_ne h q (by omega)).trans e
  refine Does.get (e1 _) ?_
  refine (Does.bind (Does.done (constSumH_eq (C := C) (ecg := ecg) ⟨r, e1 _, rfl, ht⟩ (ha1 _).kids 0))
    (k' := 0) (d' := 0) fun c h' hc' e' _ _ => ?_).cast rfl rfl rfl
  rw [ha.kids.length_eq]
  exact Does.lift _ _

/-- Scores that fill a temporary with copies of the nodes at `as` and evaluate it. -/
theorem fill_does {h : Heap S} {temp : ℕ} {r : Rec S} {as : List ℕ} {css pre : List S}
    (e : h.objs temp = some r) (hn : n ≤ temp) (ht : temp < h.next) (htree : r.tree = true)
    (hp : List.Forall₂ (At h) r.children pre) (hpt : ∀ x ∈ r.children, x < h.next ∧ x ≠ temp)
    (hf : List.Forall₂ (At h) as css) (hlt : ∀ a ∈ as, a < n) :
    Does n (copyInto C temp as >>= fun _ => categoryUtilityH C ecg temp) h
      (categoryUtility C (ecg true) r.stats (pre ++ css.map (shallowCopy C))) as.length 0 := by
  obtain ⟨h', e', hk, hw, hold, new, en, hnew, hrange⟩ := copyInto_does C e hn ht hf hlt
  refine (Does.after (k' := 0) e' hk hw ?_).cast rfl (Nat.add_zero _) rfl
  apply Does.done
  refine categoryUtilityH_eq C ecg en htree ?_
  refine List.rel_append ?_ hnew
  refine forall₂_imp_mem hp fun x y hx hxy => ?_
  obtain ⟨q, hq1, hq2⟩ := hxy
  exact ⟨q, (hold x (hpt x hx).1 (hpt x hx).2).trans hq1, hq2⟩

theorem cuForSplitH_does {h : Heap S} {a b : ℕ} {s sb : S} {as bs : List ℕ} {css bcs : List S} {k : ℕ}
    (ha : NodeAt n h a s as css) (hb : NodeAt n h b sb bs bcs) (hk : as[k]? = some b)
    (hnd : as.Nodup) (hbs : b ∉ bs) :
    Does n (cuForSplitH C ecg a b) h (cuForSplit C (ecg true) s css k bcs)
      (1 + (as.length - 1 + bs.length)) 0 := by
  obtain ⟨r, e, rfl, rfl, ht⟩ := ha.self
  obtain ⟨rb, eb, rfl, rfl, htb⟩ := hb.self
  have hn := ha.le
  have hlt := ha.lt
  have hltb := hb.lt
  unfold cuForSplitH cuForSplit
  have hE : (r.children ++ rb.children).filter (fun c => ¬ c = b) =
      r.children.eraseIdx k ++ rb.children := by
    rw [List.filter_append]
    congr 1
    · obtain ⟨hkl, hkb⟩ := List.getElem?_eq_some_iff.1 hk
      rw [← hkb, ← hnd.erase_getElem k hkl, hnd.erase_eq_filter]
      apply List.filter_congr
      intro x _
      by_cases hx : x = r.children[k] <;> simp [hx]
    · rw [List.filter_eq_self]
      intro x hx
      simp only [decide_eq_true_eq]
      rintro rfl
      exact hbs hx
  refine Does.shallow e (by omega) hn ?_
  refine Does.get (((Keep.push h _ hn).objs a hlt).trans e) ?_
  refine Does.get (((Keep.push h _ hn).objs b hltb).trans eb) ?_
  rw [hE]
  refine (fill_does (r := ⟨h.w.ctr + 1, shallowCopy C r.stats, [], r.parent, r.tree⟩)
    (push_objs_self h _) hn (by simp) ht (pre := []) .nil (by simp) (css := css.eraseIdx k ++ bcs) ?_ ?_).cast ?_ ?_ rfl
  · refine List.rel_append (forall₂_eraseIdx ?_ _) ?_
    · exact (ha.keep (.push h _ hn)).kids
    · exact (hb.keep (.push h _ hn)).kids
  · intro x hx
    rcases List.mem_append.1 hx with hx | hx
    · exact ha.ltc x (List.mem_of_mem_eraseIdx hx)
    · exact hb.ltc x hx
  · simp
  · have := (List.getElem?_eq_some_iff.1 hk).1
    rw [List.length_append, List.length_eraseIdx_of_lt this]

theorem filter_eq_dropTwo {as : List ℕ} (hnd : as.Nodup) {i j b1 b2 : ℕ} (h1 : as[i]? = some b1)
    (h2 : as[j]? = some b2) : as.filter (fun c => ¬ (c = b1 ∨ c = b2)) = dropTwo as i j := by
  unfold dropTwo
  have e : as = as.zipIdx.map Prod.fst := by simp
  conv_lhs => rw [e]
  rw [List.filter_map]
  congr 1
  apply List.filter_congr
  rintro ⟨x, k⟩ hx
  have hk : as[k]? = some x := by
    have := List.mem_zipIdx_iff_getElem?.1 hx
    simpa using this
  have key : ∀ {m b}, as[m]? = some b → (x = b ↔ k = m) := by
    intro m b hm
    obtain ⟨hk1, hk2⟩ := List.getElem?_eq_some_iff.1 hk
    obtain ⟨hm1, hm2⟩ := List.getElem?_eq_some_iff.1 hm
    rw [← hk2, ← hm2]
    exact hnd.getElem_inj_iff
  simp [key h1, key h2]

theorem cuForNewChildH_does {h : Heap S} {a : ℕ} {s : S} {as : List ℕ} {css : List S}
    (ha : NodeAt n h a s as css) (i : I) :
    Does n (cuForNewChildH C ecg a i) h (cuForNewChild C (ecg true) s css i) (as.length + 2) 0 := by
  obtain ⟨r, e, rfl, rfl, ht⟩ := ha.self
  have hn := ha.le
  have hlt := ha.lt
  unfold cuForNewChildH cuForNewChild
  refine (Does.shallow (k := r.children.length + 1) e (by omega) hn ?_).cast rfl (by omega) rfl
  refine Does.get (((Keep.push h _ hn).objs a hlt).trans e) ?_
  set r0 : Rec S := ⟨h.w.ctr + 1, shallowCopy C r.stats, [], r.parent, r.tree⟩ with hr0
  obtain ⟨h', e', hk, hw, hold, new, en, hnew, hrange⟩ := copyInto_does C (push_objs_self h r0) hn (by simp)
    (ha.keep (.push h _ hn)).kids ha.ltc
  refine Does.after (k' := 1) e' hk hw ?_
  have hnx : h.next + 1 ≤ h'.next := hk.next
  refine Does.mod en hn ?_
  set r1 : Rec S := { r0 with stats := C.incr r0.stats i, children := [] ++ new } with hr1
  have e1 : (h'.upd h.next r1).objs h.next = some r1 := upd_objs_self _ _ _
  refine (Does.after (k := 1) (k' := 0) (createNewChildH_eq e1 (by simp; omega) i)
    ((Keep.push _ _ (by simp; omega)).trans (.upd _ hn _)) rfl ?_).cast rfl rfl rfl
  apply Does.done
  set h2 := (h'.upd h.next r1).push ⟨(h'.upd h.next r1).w.ctr + 1, C.incr C.fresh i, [], some h.next,
    r1.tree⟩ with hh2
  refine categoryUtilityH_eq C ecg (r := { r1 with children := r1.children ++ [(h'.upd h.next r1).next] })
    (upd_objs_self _ _ _) ht ?_
  have hr1c : r1.children = new := by simp [hr1]
  show List.Forall₂ _ (r1.children ++ [_]) _
  rw [hr1c]
  refine List.rel_append ?_ (.cons ?_ .nil)
  · refine forall₂_imp_mem hnew fun x y hx hxy => ?_
    obtain ⟨q, hq, hq'⟩ := hxy
    have hx' := hrange x hx
    have : (h.push r0).next = h.next + 1 := rfl
    refine ⟨q, ?_, hq'⟩
    rw [upd_objs_ne _ _ (by omega), push_objs_ne _ _ (by simp; omega), upd_objs_ne _ _ (by omega)]
    exact hq
  · refine ⟨⟨(h'.upd h.next r1).w.ctr + 1, C.incr C.fresh i, [], some h.next, r1.tree⟩, ?_, rfl, ht⟩
    rw [upd_objs_ne _ _ (by simp; omega), push_objs_self]

theorem cuForMergeH_does {h : Heap S} {a b1 b2 : ℕ} {s s1 s2 : S} {as : List ℕ} {css : List S}
    {k l : ℕ} (ha : NodeAt n h a s as css) (h1 : At h b1 s1) (h2 : At h b2 s2) (hk : as[k]? = some b1)
    (hl : as[l]? = some b2) (hkl : l ≠ k) (hnd : as.Nodup) (i : I) :
    Does n (cuForMergeH C ecg a b1 b2 i) h (cuForMerge C (ecg true) s css k l s1 s2 i)
      (2 + (as.length - 2)) 0 := by
  obtain ⟨r, e, rfl, rfl, ht⟩ := ha.self
  have hn := ha.le
  have hlt := ha.lt
  have hb1 : b1 < n := ha.ltc b1 (List.mem_of_getElem? hk)
  have hb2 : b2 < n := ha.ltc b2 (List.mem_of_getElem? hl)
  obtain ⟨r1, e1, rfl, -⟩ := h1
  obtain ⟨r2, e2, rfl, -⟩ := h2
  unfold cuForMergeH cuForMerge
  refine (Does.shallow (k := 1 + (r.children.length - 2)) e (by omega) hn ?_).cast rfl (by omega) rfl
  refine Does.mod (push_objs_self h _) hn ?_
  rw [push_upd]
  set q0 : Rec S := ⟨h.w.ctr + 1, C.incr (shallowCopy C r.stats) i, [], r.parent, r.tree⟩ with hq0
  show Does n _ (h.push q0) _ _ _
  set hh := h.push q0 with hhh
  have hhn : n ≤ hh.next := by simp [hhh]; omega
  have kh : Keep n h hh := .push h _ hn
  refine Does.after (newNode_eq C hh) (.push hh _ hhn) rfl ?_
  have kp : ∀ q, Keep n h (hh.push q) := fun q => kh.trans (.push hh _ hhn)
  refine Does.get (((kp _).objs a hlt).trans e) ?_
  refine Does.mod (push_objs_self hh _) hhn ?_
  rw [push_upd]
  refine Does.mod (push_objs_self hh _) hhn ?_
  rw [push_upd]
  have add : ∀ {b : ℕ} {rb : Rec S} (q : Rec S), b < n → h.objs b = some rb →
      addFromH C hh.next b (hh.push q) =
        (.ok (), hh.push { q with stats := C.addFrom q.stats rb.stats }) := by
    intro b rb q hb eb
    unfold addFromH
    rw [HM.bind_ok' (HM.get_ok (((kp _).objs b hb).trans eb)), HM.mod_ok (push_objs_self hh _), push_upd]
  have kpp : ∀ q q', Keep n (hh.push q) (hh.push q') := fun q q' =>
    ⟨fun x hx => ((kp _).objs x hx).trans ((kp _).objs x hx).symm, le_refl _, rfl⟩
  refine (Does.after (k := 0) (k' := r.children.length - 2) (add _ hb1 e1) (kpp _ _) rfl ?_).cast rfl
    (Nat.zero_add _) rfl
  refine (Does.after (k := 0) (k' := r.children.length - 2) (add _ hb2 e2) (kpp _ _) rfl ?_).cast rfl
    (Nat.zero_add _) rfl
  refine Does.mod (push_objs_self hh _) hhn ?_
  rw [push_upd]
  set q1 : Rec S := ⟨hh.w.ctr + 1, C.incr (C.addFrom (C.addFrom C.fresh r1.stats) r2.stats) i, [],
    some h.next, r.tree⟩ with hq1
  show Does n _ (hh.push q1) _ _ _
  have et : (hh.push q1).objs h.next = some q0 := by
    rw [push_objs_ne _ _ (by simp [hhh]), hhh, push_objs_self]
  refine Does.mod et hn ?_
  have kf : Keep n h ((hh.push q1).upd h.next { q0 with children := q0.children ++ [hh.next] }) :=
    (kp q1).trans (.upd _ hn _)
  refine Does.get ((kf.objs a hlt).trans e) ?_
  rw [filter_eq_dropTwo hnd hk hl]
  refine (fill_does (r := { q0 with children := q0.children ++ [hh.next] }) (upd_objs_self _ _ _) hn
    (by simp [hhh]; omega) ht (pre := [C.incr (C.addFrom (C.addFrom C.fresh r1.stats) r2.stats) i])
    (css := dropTwo css k l) ?_ ?_ ?_ ?_).cast rfl ?_ rfl
  · refine .cons ⟨q1, ?_, rfl, ht⟩ .nil
    rw [upd_objs_ne _ _ (by simp [hhh]), push_objs_self]
  · intro x hx
    have : x = hh.next := by simpa [hq0] using hx
    subst this
    simp [hhh]
  · exact forall₂_dropTwo (ha.keep kf).kids _ _
  · intro x hx; exact ha.ltc x (mem_of_mem_dropTwo hx)
  · have := length_dropTwo hkl hk hl; omega

end
end CF
