/-
The criteria of cluster.py: what they leave alone and what they return.
-/
import Verif.Proofs.Cluster
import Verif.Proofs.CU

set_option linter.unusedSectionVars false

namespace CF
variable {I S K H : Type} [Field K] [LinearOrder K]
variable {C : NodeClass I S} {ecg : Bool → S → Res K} {ord : List ℕ → List ℕ}

/-! ### Existing objects are left alone -/

/-- `m` leaves the objects below `n` alone, in every store with at least `n` objects, and what it returns
satisfies `P`. -/
def Safe {α : Type} (n : ℕ) (m : HM S α) (P : α → Prop) : Prop :=
  ∀ h, n ≤ h.next → (Keep n h (m h).2 ∧ h.w.ctr ≤ (m h).2.w.ctr) ∧ ∀ a h', m h = (.ok a, h') → P a

section
variable {α β : Type} {n : ℕ}

theorem Safe.bind {m : HM S α} {P : α → Prop} {f : α → HM S β} {Q : β → Prop} (hm : Safe n m P)
    (hf : ∀ a, P a → Safe n (f a) Q) : Safe n (m >>= f) Q := by
  intro h hn
  obtain ⟨⟨k, c⟩, hP⟩ := hm h hn
  cases e : m h with
  | mk r h' =>
    rw [e] at k c hP
    cases r with
    | error x =>
      rw [HM.bind_err e]
      exact ⟨⟨k, c⟩, fun a h'' he => by cases he⟩
    | ok a =>
      rw [HM.bind_ok' e]
      obtain ⟨⟨k', c'⟩, hQ⟩ := hf a (hP a h' rfl) h' (hn.trans k.next)
      exact ⟨⟨k.trans k', c.trans c'⟩, hQ⟩

theorem Safe.of_eq {m : HM S α} (hm : ∀ h, (m h).2 = h) : Safe n m fun _ => True :=
  fun h _ => ⟨by rw [hm h]; exact ⟨.refl _ _, le_refl _⟩, fun _ _ _ => trivial⟩

theorem Safe.pure (a : α) : Safe n (pure a : HM S α) fun _ => True := .of_eq fun _ => rfl
theorem Safe.raise (e : PyErr) : Safe n (HM.raise e : HM S α) fun _ => True := .of_eq fun _ => rfl
theorem Safe.lift (r : Res α) : Safe n (HM.lift r : HM S α) fun _ => True := .of_eq fun _ => rfl

theorem get_snd (a : ℕ) (h : Heap S) : (HM.get a h).2 = h := by
  unfold HM.get
  cases h.objs a <;> rfl

theorem Safe.get (a : ℕ) : Safe n (HM.get a : HM S (Rec S)) fun _ => True := .of_eq (get_snd a)

theorem Safe.mod {a : ℕ} (ha : n ≤ a) (f : Rec S → Rec S) : Safe n (HM.mod a f) fun _ => True := by
  intro h hn
  refine ⟨?_, fun _ _ _ => trivial⟩
  cases e : h.objs a with
  | none =>
    have : HM.mod a f h = (.error .exc, h) := by simp [HM.mod, e]
    rw [this]
    exact ⟨.refl _ _, le_refl _⟩
  | some r =>
    rw [HM.mod_ok e]
    exact ⟨.upd _ ha _, le_refl _⟩

theorem Safe.newNode : Safe n (newNode C) fun a => n ≤ a := by
  intro h hn
  rw [newNode_eq]
  refine ⟨⟨.push _ _ hn, ?_⟩, fun a h' e => ?_⟩
  · simp [World.bump]
  · cases e; exact hn

theorem Safe.weak {m : HM S α} {P : α → Prop} (hm : Safe n m P) : Safe n m fun _ => True :=
  fun h hn => ⟨(hm h hn).1, fun _ _ _ => trivial⟩

theorem Safe.ite {p : Prop} [Decidable p] {m m' : HM S α} {P : α → Prop} (hm : Safe n m P)
    (hm' : Safe n m' P) : Safe n (if p then m else m') P := by split <;> assumption

theorem Safe.addFrom {a b : ℕ} (ha : n ≤ a) : Safe n (addFromH C a b) fun _ => True :=
  .bind (.get b) fun _ _ => .mod ha _

theorem isParentH_snd (a : ℕ) (h : Heap S) : ∀ (fuel : ℕ) (o : Option ℕ), (isParentH a fuel o h).2 = h := by
  intro fuel
  induction fuel with
  | zero => intro o; cases o <;> rfl
  | succ fuel ih =>
    intro o
    cases o with
    | none => rfl
    | some t =>
      unfold isParentH
      split
      · rfl
      · cases e : h.objs t with
        | none => rw [HM.bind_err (show HM.get t h = (.error .exc, h) by simp [HM.get, e])]
        | some r => rw [HM.bind_ok' (HM.get_ok e)]; exact ih _

theorem cuLeaves_safe {temp c : ℕ} (ht : n ≤ temp) : ∀ ls, Safe n (cuLeavesH C temp c ls) fun _ => True := by
  intro ls
  induction ls with
  | nil => exact .pure _
  | cons l ls ih =>
    refine .bind (P := fun _ => True) ?_ fun _ _ => ih
    refine .bind (P := fun _ => True) (.of_eq fun h => isParentH_snd c h _ _) fun b _ => ?_
    exact .ite (.addFrom ht) (.pure _)

theorem cuChildren_safe {root : ℕ} {leaves : List ℕ} (hr : n ≤ root) : ∀ cs,
    Safe n (cuChildrenH C root leaves cs) fun _ => True := by
  intro cs
  induction cs with
  | nil => exact .pure _
  | cons c cs ih =>
    refine .bind .newNode fun child hc => .bind (.get c) fun r _ => .bind (.mod hc _) fun _ _ =>
      .bind (cuLeaves_safe hc _) fun _ _ => .bind (.addFrom hr) fun _ _ => .bind (.mod hr _) fun _ _ => ih

theorem cuSum_safe (a : ℕ) : ∀ (cs : List ℕ) (acc : K), Safe n (cuSumH C ecg a cs acc) fun _ => True := by
  intro cs
  induction cs with
  | nil => intro acc; exact .pure _
  | cons c cs ih =>
    intro acc
    unfold cuSumH
    repeat' first
      | exact ih _
      | exact .get _
      | exact .lift _
      | exact .pure _
      | refine Safe.bind (P := fun _ => True) ?_ fun _ _ => ?_

theorem categoryUtility_safe (a : ℕ) : Safe n (categoryUtilityH C ecg a) fun _ => True := by
  unfold categoryUtilityH
  repeat' first
    | exact .get _
    | exact .lift _
    | exact .pure _
    | exact .raise _
    | exact cuSum_safe _ _ _
    | refine Safe.bind (P := fun _ => True) ?_ fun _ _ => ?_
    | refine Safe.ite ?_ ?_

theorem Safe.undisturbed {m : HM S α} {P : α → Prop} {h : Heap S} (hm : Safe h.next m P) :
    Undisturbed h (m h).2 := by
  obtain ⟨⟨k, c⟩, -⟩ := hm h (le_refl _)
  exact ⟨k.objs, k.next, k.root, c⟩

end

theorem cuHeur_quiet : Quiet (cuHeur C ecg ord) := by
  intro cl leaves h
  refine Safe.undisturbed (P := fun _ => True) ?_
  unfold cuHeur
  cases cl with
  | nil => exact .raise _
  | cons c0 cs =>
    exact .bind .newNode fun root hr => .bind (.get _) fun r _ => .bind (.mod hr _) fun _ _ =>
      .bind (cuChildren_safe hr _) fun _ _ => .bind (categoryUtility_safe _) fun v _ => .pure _

section
variable {n : ℕ} {ll : S → S → Res ℝ} {params : S → ℕ}

theorem llSum_safe : ∀ (cs ls : List ℕ) (acc : ℝ), Safe n (llSumH ll cs ls acc) fun _ => True := by
  intro cs
  induction cs with
  | nil => intro ls acc; exact .pure _
  | cons c cs ih =>
    intro ls acc
    cases ls with
    | nil => exact .raise _
    | cons l ls =>
      exact .bind (.get _) fun _ _ => .bind (.get _) fun _ _ => .bind (.lift _) fun _ _ => ih _ _

theorem params_safe : ∀ (cs : List ℕ) (k : ℕ), Safe n (paramsH params cs k) fun _ => True := by
  intro cs
  induction cs with
  | nil => intro k; exact .pure _
  | cons c cs ih => intro k; exact .bind (.get _) fun _ _ => ih _

theorem aicHeur_quiet : Quiet (aicHeur ll params ord) := fun _ _ _ =>
  Safe.undisturbed (P := fun _ => True)
    (.bind (llSum_safe _ _ _) fun _ _ => .bind (params_safe _ _) fun _ _ => .pure _)

theorem bicHeur_quiet : Quiet (bicHeur ll params ord) := fun _ _ _ =>
  Safe.undisturbed (P := fun _ => True)
    (.bind (llSum_safe _ _ _) fun _ _ => .bind (params_safe _ _) fun _ _ => .bind (.lift _) fun _ _ => .pure _)

theorem aiccHeur_quiet : Quiet (aiccHeur ll params ord) := fun _ _ _ =>
  Safe.undisturbed (P := fun _ => True)
    (.bind (llSum_safe _ _ _) fun _ _ => .bind (params_safe _ _) fun _ _ =>
      .ite (.pure _) (.bind (.lift _) fun _ _ => .pure _))

end

/-! ### The value of `CU` -/

theorem Good.keep {n : ℕ} {h h' : Heap S} {dt : Tree (ℕ × S)} (g : Good h dt) (hn : ∀ x ∈ dt.addrs, x < n)
    (k : Keep n h h') : Good h' dt :=
  ⟨⟨g.pre.rep.congr dt fun x hx => k.objs x (hn x hx), g.pre.nodup,
    fun x hx => (g.pre.lt x hx).trans_le k.next, fun q hq => by cases hq⟩, k.root.trans g.root, g.ids⟩

open Classical in
theorem isParentOf_eq {h : Heap S} {dt x y : Tree (ℕ × S)} (g : Good h dt) (hx : x ∈ dt.nodes)
    (hy : y ∈ dt.nodes) : isParentOfH x.addr y.addr h = (.ok (decide (y ∈ x.nodes)), h) := by
  have L := g.pre.linked g.root
  obtain ⟨d, hd⟩ := below_of_rep dt g.pre.rep x hx
  obtain ⟨d', hd'⟩ := below_of_rep dt g.pre.rep y hy
  rw [← g.root] at hd hd'
  obtain ⟨v, e, hv⟩ := L.isParent hd hd' h.next (L.node hd').1
  unfold isParentOfH
  rw [e]
  have : (v = true ↔ y ∈ x.nodes) := by
    rw [hv]
    obtain ⟨q, hq⟩ := rep_nodes dt g.pre.rep x hx
    constructor
    · rintro ⟨k, hk⟩
      obtain ⟨z, hz, -, -, hzy, -⟩ := rep_below hq hk
      have : z = y := addr_inj g.pre.nodup (Tree.nodes_trans hx hz) hy hzy
      exact this ▸ hz
    · intro hyx
      exact below_of_rep x hq y hyx
  congr 2
  by_cases hyx : y ∈ x.nodes
  · simp [hyx, this.2 hyx]
  · have : v = false := by
      cases v with
      | false => rfl
      | true => exact absurd (this.1 rfl) hyx
    simp [hyx, this]

open Classical in
/-- The table of the leaves `ys` that are below `x`. -/
noncomputable def leafSum (C : NodeClass I S) (ys : List (Tree (ℕ × S))) (x : Tree (ℕ × S)) : S :=
  (ys.filter (· ∈ x.nodes)).foldl (fun s y => C.addFrom s y.stats.2) C.fresh

open Classical in
theorem cuLeaves_eq {n : ℕ} {dt x : Tree (ℕ × S)} (hn : ∀ z ∈ dt.addrs, z < n) (hx : x ∈ dt.nodes) {temp : ℕ}
    (ht : n ≤ temp) : ∀ {ys : List (Tree (ℕ × S))} {h : Heap S} {r : Rec S}, Good h dt →
    (∀ y ∈ ys, y ∈ dt.nodes) → h.objs temp = some r →
    ∃ h', cuLeavesH C temp x.addr (ys.map Tree.addr) h = (.ok (), h') ∧ Keep n h h' ∧ h'.next = h.next ∧
      (∀ z ≠ temp, h'.objs z = h.objs z) ∧
      h'.objs temp = some { r with
        stats := (ys.filter (· ∈ x.nodes)).foldl (fun s y => C.addFrom s y.stats.2) r.stats } := by
  intro ys
  induction ys with
  | nil => intro h r _ _ e; exact ⟨h, rfl, .refl _ _, rfl, fun _ _ => rfl, e⟩
  | cons y ys ih =>
    intro h r g hy e
    have hyd := hy y (by simp)
    have e1 := isParentOf_eq g hx hyd
    rw [List.map_cons]
    unfold cuLeavesH addIfH
    obtain ⟨q, hq⟩ := rep_nodes dt g.pre.rep y hyd
    by_cases hyx : y ∈ x.nodes
    · have e2 : addFromH C temp y.addr h = (.ok (), h.upd temp { r with stats := C.addFrom r.stats y.stats.2 }) := by
        unfold addFromH
        rw [HM.bind_ok' (HM.get_ok hq.obj), HM.mod_ok e]
      have k1 : Keep n h (h.upd temp { r with stats := C.addFrom r.stats y.stats.2 }) := .upd _ ht _
      obtain ⟨h', e3, k2, k3, k4, k5⟩ := ih (h := h.upd temp { r with stats := C.addFrom r.stats y.stats.2 })
        (r := { r with stats := C.addFrom r.stats y.stats.2 }) (g.keep hn k1)
        (fun z hz => hy z (by simp [hz])) (upd_objs_self _ _ _)
      refine ⟨h', ?_, k1.trans k2, k3, fun z hz => (k4 z hz).trans (upd_objs_ne _ _ hz), ?_⟩
      · have e4 : (isParentOfH x.addr y.addr >>= fun b => if b then addFromH C temp y.addr else pure ()) h =
            (.ok (), h.upd temp { r with stats := C.addFrom r.stats y.stats.2 }) := by
          rw [HM.bind_ok' e1]; simp [hyx, e2]
        rw [HM.bind_ok' e4, e3]
      · rw [k5]; simp [hyx]
    · obtain ⟨h', e3, k2, k3, k4, k5⟩ := ih g (fun z hz => hy z (by simp [hz])) e
      refine ⟨h', ?_, k2, k3, k4, ?_⟩
      · have e4 : (isParentOfH x.addr y.addr >>= fun b => if b then addFromH C temp y.addr else pure ()) h =
            (.ok (), h) := by
          rw [HM.bind_ok' e1]; simp [hyx, HM.pure_eq]
        rw [HM.bind_ok' e4, e3]
      · rw [k5]; simp [hyx]

theorem cuChildren_eq {n : ℕ} {dt : Tree (ℕ × S)} (hn : ∀ z ∈ dt.addrs, z < n) {root : ℕ} (hr : n ≤ root)
    {ys : List (Tree (ℕ × S))} (hy : ∀ y ∈ ys, y ∈ dt.nodes) :
    ∀ {xs : List (Tree (ℕ × S))} {h : Heap S} {r : Rec S} {pre : List S}, Good h dt → n ≤ h.next →
    (∀ x ∈ xs, x ∈ dt.nodes) → h.objs root = some r → root < h.next →
    List.Forall₂ (At h) r.children pre → (∀ c ∈ r.children, c < h.next ∧ c ≠ root) →
    ∃ h' kids, cuChildrenH C root (ys.map Tree.addr) (xs.map Tree.addr) h = (.ok (), h') ∧
      h'.objs root = some { r with
        stats := (xs.map (leafSum C ys)).foldl C.addFrom r.stats, children := r.children ++ kids } ∧
      List.Forall₂ (At h') (r.children ++ kids) (pre ++ xs.map (leafSum C ys)) := by
  intro xs
  induction xs with
  | nil =>
    intro h r pre g _ _ e _ hF _
    exact ⟨h, [], rfl, by simpa using e, by simpa using hF⟩
  | cons x xs ih =>
    intro h r pre g hnn hx e hrl hF hlt
    have hxd := hx x (by simp)
    rw [List.map_cons]
    unfold cuChildrenH
    rw [HM.bind_ok' (newNode_eq C h)]
    set h1 := h.push ⟨h.w.ctr + 1, C.fresh, [], none, false⟩ with hh1
    have k1 : Keep n h h1 := .push _ _ hnn
    obtain ⟨q, hq⟩ := rep_nodes dt g.pre.rep x hxd
    have hxl : x.addr < n := hn _ (List.mem_map_of_mem hxd)
    have ex : h1.objs x.addr = _ := (k1.objs _ hxl).trans hq.obj
    rw [HM.bind_ok' (HM.get_ok ex)]
    have e1 : h1.objs h.next = some ⟨h.w.ctr + 1, C.fresh, [], none, false⟩ := push_objs_self _ _
    have e2 : HM.setTree h.next true h1 = (.ok (), h1.upd h.next ⟨h.w.ctr + 1, C.fresh, [], none, true⟩) := by
      unfold HM.setTree; rw [HM.mod_ok e1]
    rw [HM.bind_ok' e2]
    set h2 := h1.upd h.next ⟨h.w.ctr + 1, C.fresh, [], none, true⟩ with hh2
    have k2 : Keep n h h2 := k1.trans (.upd _ hnn _)
    obtain ⟨h3, e3, k3, k3n, k3o, k3t⟩ := cuLeaves_eq (C := C) hn hxd hnn (g.keep hn k2) hy
      (show h2.objs h.next = some ⟨h.w.ctr + 1, C.fresh, [], none, true⟩ from upd_objs_self _ _ _)
    rw [HM.bind_ok' e3]
    have hrne : root ≠ h.next := by omega
    have er3 : h3.objs root = some r := by
      rw [k3o _ hrne, hh2, upd_objs_ne _ _ hrne, hh1, push_objs_ne _ _ hrne, e]
    have e4 : addFromH C root h.next h3 = (.ok (), h3.upd root { r with stats := C.addFrom r.stats (leafSum C ys x) }) := by
      unfold addFromH
      rw [HM.bind_ok' (HM.get_ok k3t), HM.mod_ok er3]
      rfl
    rw [HM.bind_ok' e4]
    set h4 := h3.upd root { r with stats := C.addFrom r.stats (leafSum C ys x) } with hh4
    have e5 : HM.append root h.next h4 = (.ok (), h4.upd root { r with
        stats := C.addFrom r.stats (leafSum C ys x), children := r.children ++ [h.next] }) := by
      unfold HM.append
      rw [HM.mod_ok (show h4.objs root = some { r with stats := C.addFrom r.stats (leafSum C ys x) } from
        upd_objs_self _ _ _)]
    rw [HM.bind_ok' e5]
    set h5 := h4.upd root { r with
        stats := C.addFrom r.stats (leafSum C ys x), children := r.children ++ [h.next] } with hh5
    have hnext : h5.next = h.next + 1 := by
      rw [hh5, upd_next, hh4, upd_next, k3n, hh2, upd_next, hh1, push_next]
    have k5 : Keep n h h5 := (k2.trans k3).trans ((Keep.upd _ hr _).trans (.upd _ hr _))
    have hobj : ∀ z, z ≠ root → z ≠ h.next → h5.objs z = h.objs z := by
      intro z hz1 hz2
      rw [hh5, upd_objs_ne _ _ hz1, hh4, upd_objs_ne _ _ hz1, k3o _ hz2, hh2, upd_objs_ne _ _ hz2, hh1,
        push_objs_ne _ _ hz2]
    have hkid : At h5 h.next (leafSum C ys x) := by
      refine ⟨⟨h.w.ctr + 1, leafSum C ys x, [], none, true⟩, ?_, rfl, rfl⟩
      · rw [hh5, upd_objs_ne _ _ hrne.symm, hh4, upd_objs_ne _ _ hrne.symm, k3t]
        rfl
    obtain ⟨h6, kids, e6, e7, hF6⟩ := ih (h := h5) (pre := pre ++ [leafSum C ys x]) (g.keep hn k5)
      (hnn.trans k5.next) (fun z hz => hx z (by simp [hz])) (upd_objs_self _ _ _) (by omega)
      (List.rel_append (forall₂_imp_mem hF fun c s hc hcs => by
        obtain ⟨rc, ec, h7⟩ := hcs
        obtain ⟨h8, h9⟩ := hlt c hc
        exact ⟨rc, (hobj c h9 (by omega)).trans ec, h7⟩) (.cons hkid .nil))
      (by
        intro c hc
        rcases List.mem_append.1 hc with hc | hc
        · have := hlt c hc; exact ⟨by omega, this.2⟩
        · rw [List.mem_singleton.1 hc]; exact ⟨by omega, hrne.symm⟩)
    refine ⟨h6, h.next :: kids, e6, ?_, ?_⟩
    · rw [e7]; simp
    · simpa using hF6

/-- `CU` returns minus the category utility of the tables of the leaves below the clusters. -/
theorem cuHeur_eq {h : Heap S} {dt : Tree (ℕ × S)} (g : Good h dt) {cs xs ys : List (Tree (ℕ × S))}
    (hcs : ∀ x ∈ cs, x ∈ dt.nodes) (hne : cs ≠ []) (hxs : ∀ x ∈ xs, x ∈ dt.nodes)
    (ho : ord (cs.map Tree.addr) = xs.map Tree.addr) (hys : ∀ y ∈ ys, y ∈ dt.nodes) :
    (cuHeur C ecg ord (cs.map Tree.addr) (ys.map Tree.addr) h).1 =
      (categoryUtility C (ecg true) ((xs.map (leafSum C ys)).foldl C.addFrom C.fresh)
        (xs.map (leafSum C ys))).map Neg.neg := by
  cases cs with
  | nil => exact absurd rfl hne
  | cons c0 cs =>
    have hc0 := hcs c0 (by simp)
    have hn := g.pre.lt
    rw [List.map_cons] at ho ⊢
    unfold cuHeur
    simp only
    rw [ho, HM.bind_ok' (newNode_eq C h)]
    set h1 := h.push ⟨h.w.ctr + 1, C.fresh, [], none, false⟩ with hh1
    have k1 : Keep h.next h h1 := .push _ _ le_rfl
    obtain ⟨q, hq⟩ := rep_nodes dt g.pre.rep c0 hc0
    rw [HM.bind_ok' (HM.get_ok ((k1.objs _ (hn _ (List.mem_map_of_mem hc0))).trans hq.obj))]
    have e2 : HM.setTree h.next true h1 = (.ok (), h1.upd h.next ⟨h.w.ctr + 1, C.fresh, [], none, true⟩) := by
      unfold HM.setTree
      rw [HM.mod_ok (show h1.objs h.next = some ⟨h.w.ctr + 1, C.fresh, [], none, false⟩ from push_objs_self _ _)]
    rw [HM.bind_ok' e2]
    have k2 : Keep h.next h (h1.upd h.next ⟨h.w.ctr + 1, C.fresh, [], none, true⟩) := k1.trans (.upd _ le_rfl _)
    obtain ⟨h3, kids, e3, e4, hF⟩ := cuChildren_eq (C := C) hn (le_refl h.next) hys (g.keep hn k2)
      (le_trans (Nat.le_succ _) (by simp [hh1])) hxs
      (show (h1.upd h.next ⟨h.w.ctr + 1, C.fresh, [], none, true⟩).objs h.next = _ from upd_objs_self _ _ _)
      (by simp [hh1]) .nil (by simp)
    rw [HM.bind_ok' e3]
    have e5 := categoryUtilityH_eq (C := C) (ecg := ecg) e4 rfl hF
    simp only [List.nil_append] at e5
    cases ev : categoryUtility C (ecg true) ((xs.map (leafSum C ys)).foldl C.addFrom C.fresh)
        (xs.map (leafSum C ys)) with
    | error x => rw [ev] at e5; rw [HM.bind_err e5]; rfl
    | ok v => rw [ev] at e5; rw [HM.bind_ok' e5]; rfl

/-- `category_utility` of tables of the groups `ms`, whose expected correct guesses are `e`. -/
theorem categoryUtility_utility {Sum : S → Multiset I → Prop} {Ok : I → Prop} {Same : I → I → Prop}
    (L : Laws C Ok Sum Same) {f : S → Res K} {e : Multiset I → K} {G : Multiset I → Prop}
    (hf : ∀ s m, Sum s m → G m → f s = .ok (e m)) [IsStrictOrderedRing K] {s : S} {cs : List S}
    {ms : List (Multiset I)} (hne : ms ≠ []) (hs : Sum s ms.sum) (hcs : List.Forall₂ Sum cs ms)
    (hG : ∀ m ∈ ms, G m) (hGs : G ms.sum) (h0 : ms.sum ≠ 0) :
    categoryUtility C f s cs = .ok (utility e ms) := by
  have hlen := hcs.length_eq
  have hne' : cs ≠ [] := by
    rintro rfl; simp at hlen; exact hne (List.length_eq_zero_iff.1 hlen.symm)
  have hc0 : C.count s ≠ 0 := by rw [L.count hs]; simpa using h0
  rw [categoryUtility_ok_iff hc0 hne']
  refine ⟨fun c hc => ?_, ⟨_, hf _ _ hs hGs⟩, ?_⟩
  · obtain ⟨i, hi, rfl⟩ := List.getElem_of_mem hc
    exact ⟨_, hf _ _ (hcs.get hi (hlen ▸ hi)) (hG _ (List.get_mem _ _))⟩
  · unfold utility
    rw [hf _ _ hs hGs, val_ok, hlen, L.count hs]
    congr 3
    generalize Multiset.card ms.sum = N
    clear hs hGs h0 hne hlen hne' hc0
    induction hcs with
    | nil => rfl
    | cons hab _ ih =>
      rw [List.map_cons, List.map_cons, ih fun m hm => hG m (by simp [hm]), hf _ _ hab (hG _ (by simp)),
        val_ok, L.count hab]

open Classical in
theorem leafSum_sum {Sum : S → Multiset I → Prop} {Ok : I → Prop} {Same : I → I → Prop}
    (L : Laws C Ok Sum Same) {M : Tree (ℕ × S) → Multiset I} {ys : List (Tree (ℕ × S))}
    (hM : ∀ y ∈ ys, Sum y.stats.2 (M y)) (x : Tree (ℕ × S)) :
    Sum (leafSum C ys x) ((ys.filter (· ∈ x.nodes)).map M).sum := by
  unfold leafSum
  have : ∀ (l : List (Tree (ℕ × S))) (s : S) (m : Multiset I), (∀ y ∈ l, Sum y.stats.2 (M y)) → Sum s m →
      Sum (l.foldl (fun s y => C.addFrom s y.stats.2) s) (m + (l.map M).sum) := by
    intro l
    induction l with
    | nil => intro s m _ h; simpa using h
    | cons y l ih =>
      intro s m hl h
      have := ih _ _ (fun z hz => hl z (by simp [hz])) (L.add h (hl y (by simp)))
      simpa [add_assoc] using this
  simpa using this _ _ _ (fun y hy => hM y (List.mem_filter.1 hy).1) L.fresh

theorem foldl_sum {Sum : S → Multiset I → Prop} {Ok : I → Prop} {Same : I → I → Prop}
    (L : Laws C Ok Sum Same) {ss : List S} {ms : List (Multiset I)} (h : List.Forall₂ Sum ss ms) :
    Sum (ss.foldl C.addFrom C.fresh) ms.sum := by
  have : ∀ {ss : List S} {ms : List (Multiset I)}, List.Forall₂ Sum ss ms → ∀ (s : S) (m : Multiset I), Sum s m →
      Sum (ss.foldl C.addFrom s) (m + ms.sum) := by
    intro ss ms h
    induction h with
    | nil => intro s m h; simpa using h
    | cons hab _ ih =>
      intro s m h
      have := ih _ _ (L.add h hab)
      simpa [add_assoc] using this
  simpa using this h _ _ L.fresh

open Classical in
/-- `CU` in terms of the instances in the leaves. -/
theorem cuHeur_utility {Sum : S → Multiset I → Prop} {Ok : I → Prop} {Same : I → I → Prop}
    (L : Laws C Ok Sum Same) {e : Multiset I → K} {G : Multiset I → Prop} [IsStrictOrderedRing K]
    (hf : ∀ s m, Sum s m → G m → ecg true s = .ok (e m)) (hG0 : ∀ m, G m → m ≠ 0)
    (hGa : ∀ m m', G m → G (m + m'))
    {h : Heap S} {dt : Tree (ℕ × S)} (g : Good h dt) {cs xs ys : List (Tree (ℕ × S))}
    (hcs : ∀ x ∈ cs, x ∈ dt.nodes) (hne : cs ≠ []) (hxs : ∀ x ∈ xs, x ∈ dt.nodes) (hnx : xs ≠ [])
    (ho : ord (cs.map Tree.addr) = xs.map Tree.addr) (hys : ∀ y ∈ ys, y ∈ dt.nodes)
    {M : Tree (ℕ × S) → Multiset I} (hM : ∀ y ∈ ys, Sum y.stats.2 (M y) ∧ G (M y))
    (hcov : ∀ x ∈ xs, ∃ y ∈ ys, y ∈ x.nodes) :
    (cuHeur C ecg ord (cs.map Tree.addr) (ys.map Tree.addr) h).1 =
      .ok (- utility e (xs.map fun x => ((ys.filter (· ∈ x.nodes)).map M).sum)) := by
  rw [cuHeur_eq g hcs hne hxs ho hys]
  have hF : List.Forall₂ Sum (xs.map (leafSum C ys)) (xs.map fun x => ((ys.filter (· ∈ x.nodes)).map M).sum) := by
    rw [List.forall₂_map_left_iff, List.forall₂_map_right_iff, List.forall₂_same]
    exact fun x _ => leafSum_sum L (fun y hy => (hM y hy).1) x
  have hG : ∀ m ∈ xs.map fun x => ((ys.filter (· ∈ x.nodes)).map M).sum, G m := by
    intro m hm
    obtain ⟨x, hx, rfl⟩ := List.mem_map.1 hm
    obtain ⟨y, hy, hyx⟩ := hcov x hx
    have hmem : M y ∈ (ys.filter (· ∈ x.nodes)).map M :=
      List.mem_map_of_mem (List.mem_filter.2 ⟨hy, by simpa using hyx⟩)
    have := (List.perm_cons_erase hmem).sum_eq
    rw [this, List.sum_cons]
    exact hGa _ _ (hM y hy).2
  have hGs : G (xs.map fun x => ((ys.filter (· ∈ x.nodes)).map M).sum).sum := by
    obtain ⟨x, hx⟩ := List.exists_mem_of_ne_nil xs hnx
    have hmem := List.mem_map_of_mem (f := fun x => ((ys.filter (· ∈ x.nodes)).map M).sum) hx
    have := (List.perm_cons_erase hmem).sum_eq
    rw [this, List.sum_cons]
    exact hGa _ _ (hG _ hmem)
  rw [categoryUtility_utility L hf (by simpa using hnx) (foldl_sum L hF) hF hG hGs (hG0 _ hGs)]
  rfl

/-! ### The value of the information criteria -/

section
variable {ll : S → S → Res ℝ} {params : S → ℕ}

theorem llSum_eq {h : Heap S} {L : ℕ → ℕ → ℝ} : ∀ {cs ls : List ℕ} (acc : ℝ), cs.length = ls.length →
    (∀ p ∈ cs.zip ls, ∃ rc rl, h.objs p.1 = some rc ∧ h.objs p.2 = some rl ∧
      ll rc.stats rl.stats = .ok (L p.1 p.2)) →
    llSumH ll cs ls acc h = (.ok (acc + ((cs.zip ls).map fun p => L p.1 p.2).sum), h) := by
  intro cs
  induction cs with
  | nil => intro ls acc hl _; simp [llSumH, HM.pure_eq]
  | cons c cs ih =>
    intro ls acc hl hp
    cases ls with
    | nil => simp at hl
    | cons l ls =>
      obtain ⟨rc, rl, e1, e2, e3⟩ := hp (c, l) (by simp)
      unfold llSumH
      rw [HM.bind_ok' (HM.get_ok e1), HM.bind_ok' (HM.get_ok e2), e3,
        HM.bind_ok' (show HM.lift (Except.ok (L c l)) h = (.ok (L c l), h) from rfl),
        ih _ (by simpa using hl) fun p hpm => hp p (by simp [hpm])]
      simp [add_assoc]

theorem params_eq {h : Heap S} {P : ℕ → ℕ} : ∀ {cs : List ℕ} (k : ℕ),
    (∀ c ∈ cs, ∃ r, h.objs c = some r ∧ params r.stats = P c) →
    paramsH params cs k h = (.ok (k + (cs.map P).sum), h) := by
  intro cs
  induction cs with
  | nil => intro k _; simp [paramsH, HM.pure_eq]
  | cons c cs ih =>
    intro k hp
    obtain ⟨r, e, hr⟩ := hp c (by simp)
    unfold paramsH
    rw [HM.bind_ok' (HM.get_ok e), ih _ fun d hd => hp d (by simp [hd]), hr]
    simp [add_assoc]

theorem ord_sum (ho : SetOrder ord) (P : ℕ → ℕ) (cs : List ℕ) : ((ord cs).map P).sum = ∑ c ∈ cs.toFinset, P c := by
  have : cs.toFinset = (ord cs).toFinset := by
    ext c; simp [ho.mem]
  rw [this, List.sum_toFinset _ (ho.nodup cs)]

end

end CF
