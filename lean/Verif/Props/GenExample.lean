/-
C113: the script `gen_example.py` and `output_json` on the store.
-/
import Verif.Model.GenExample
import Verif.Props.Fit
import Verif.Props.Json3
import Verif.Props.Size
import Verif.Props.Cost
import Verif.Props.VizFiles

namespace CF

/-! ### `output_json` on the store -/

section
variable {A V : Type} [DecidableEq A] [DecidableEq V] {strA : A → String} {strV : V → String} {g : A}
  {h : Heap (Stats3 A V)}

theorem outputJson3H_list {n : ℕ} {cs : List (Tree (Stats3 A V))} {l : List ℕ}
    (hl : List.Forall₂ (fun a c => outputJson3H strA strV g h n a = outputJson3 strA strV g c) l cs) :
    mapRes (outputJson3H strA strV g h n) l = outputJson3L strA strV g cs := by
  induction hl with
  | nil => rfl
  | cons h1 _ ih => rw [mapRes, outputJson3L, h1, ih]

/-- **C113**: on the store `output_json` makes the object of the tree, when nested calls are allowed down to the leaves. -/
theorem C113_store_json {t : Tree (Stats3 A V)} : ∀ {a n : ℕ}, IsTree h a t → t.heightOf < n →
    outputJson3H strA strV g h n a = outputJson3 strA strV g t := by
  induction t using Tree.ind with
  | h id s cs ih =>
    intro a n ht hn
    obtain ⟨n, rfl⟩ : ∃ k, n = k + 1 := ⟨n - 1, by omega⟩
    cases ht with
    | @mk _ r _ e f =>
      have : List.Forall₂ (fun a c => outputJson3H strA strV g h n a = outputJson3 strA strV g c) r.children cs := by
        have hc : ∀ c ∈ cs, c.heightOf < n := fun c hc => by
          have := heightOf_child (id := r.cid) (s := r.stats) hc
          omega
        generalize r.children = l at f
        clear e hn
        induction f with
        | nil => exact .nil
        | cons hx _ ih2 =>
          exact .cons (ih _ (by simp) hx (hc _ (by simp))) (ih2 (fun c hc => ih c (by simp [hc])) fun c h => hc c (by simp [h]))
      rw [outputJson3H, e]
      simp only [outputJson3H_list this, outputJson3]

theorem mapRes_error {α β : Type} {f : α → Res β} {l : List α} {x : α} (hx : x ∈ l) {e : PyErr} (h : f x = .error e) :
    ∃ e', mapRes f l = .error e' := by
  induction l with
  | nil => cases hx
  | cons y l ih =>
    rw [mapRes]
    rcases List.mem_cons.1 hx with rfl | hx
    · exact ⟨e, by rw [h]; rfl⟩
    · obtain ⟨e', he⟩ := ih hx
      cases f y with
      | error e => exact ⟨e, rfl⟩
      | ok z => exact ⟨e', by rw [he]; rfl⟩

theorem heightOfL_attained {S : Type} {cs : List (Tree S)} (h : cs ≠ []) : ∃ c ∈ cs, c.heightOf + 1 = Tree.heightOfL cs := by
  induction cs with
  | nil => exact absurd rfl h
  | cons c cs ih =>
    rw [Tree.heightOfL]
    by_cases hcs : cs = []
    · subst hcs
      exact ⟨c, by simp, by simp [Tree.heightOfL]⟩
    · obtain ⟨d, hd, e⟩ := ih hcs
      rcases le_total (c.heightOf + 1) (Tree.heightOfL cs) with hle | hle
      · exact ⟨d, by simp [hd], by rw [max_eq_right hle, e]⟩
      · exact ⟨c, by simp, by rw [max_eq_left hle]⟩

/-- With fewer it raises. -/
theorem C113_too_deep {t : Tree (Stats3 A V)} : ∀ {a n : ℕ}, IsTree h a t → n ≤ t.heightOf →
    ∃ e, outputJson3H strA strV g h n a = .error e := by
  induction t using Tree.ind with
  | h id s cs ih =>
    intro a n ht hn
    cases n with
    | zero => exact ⟨_, rfl⟩
    | succ n =>
      have hne : cs ≠ [] := by
        rintro rfl
        simp [Tree.heightOf, Tree.heightOfL] at hn
      obtain ⟨c, hc, e1⟩ := heightOfL_attained hne
      cases ht with
      | @mk _ r _ e f =>
        obtain ⟨b, hb, hbc⟩ : ∃ b ∈ r.children, IsTree h b c := by
          obtain ⟨k, hk, rfl⟩ := List.mem_iff_getElem.1 hc
          have hk' : k < r.children.length := by rw [f.length_eq]; exact hk
          exact ⟨r.children[k], List.getElem_mem _, f.get hk' hk⟩
        rw [Tree.heightOf] at hn
        obtain ⟨x, hx⟩ := ih c hc hbc (n := n) (by omega)
        obtain ⟨x', hx'⟩ := mapRes_error hb hx
        rw [outputJson3H, e]
        simp only [hx']
        cases jsonCounts3 strA strV r.stats.av [] with
        | error y => exact ⟨y, rfl⟩
        | ok y => exact ⟨x', rfl⟩

/-! ### The object is always made -/

theorem jsonTab_ok {s : Stats3 A V} {m : Multiset (Inst3 A V)} (hs : Summarizes3 s m) {a : A} {t : Tab V}
    (ht : s.av.get? a = some t) : ∃ d, jsonTab strV t = .ok d := by
  have hcv : s.cvOf a = t.cv := by rw [Stats3.cvOf, ht]; rfl
  rw [jsonTab]
  rcases hs.cv a with ⟨h0, h1⟩ | ⟨h0, c, h1, h2⟩
  · rw [← hcv, h1]
    exact ⟨_, rfl⟩
  · rw [← hcv, h1]
    have h3 : c.outputJson = .ok (sampleMean (nums m a), sampleStd (nums m a), Multiset.card (nums m a)) := by
      rw [CV.outputJson, unbiasedStd_eq h2, ok_bind, CV.unbiasedMean, h2.mean, h2.num]
      rfl
    simp only [h3, ok_bind]
    exact ⟨_, rfl⟩

theorem jsonCounts3_ok {s : Stats3 A V} {m : Multiset (Inst3 A V)} (hs : Summarizes3 s m) :
    ∃ d, jsonCounts3 strA strV s.av [] = .ok d := by
  have key : ∀ l : List (A × Tab V), (∀ p ∈ l, p ∈ s.av) → ∀ d, ∃ d', jsonCounts3 strA strV l d = .ok d' := by
    intro l
    induction l with
    | nil => exact fun _ d => ⟨d, rfl⟩
    | cons p l ih =>
      intro hl d
      obtain ⟨d1, h1⟩ := jsonTab_ok (strV := strV) hs (Dict.get?_of_mem hs.nodup.1 (hl p (by simp)))
      obtain ⟨d2, h2⟩ := ih (fun q hq => hl q (by simp [hq])) (d.set (strA p.1) d1)
      exact ⟨d2, by rw [jsonCounts3, h1, ok_bind, h2]⟩
  exact key _ (fun _ h => h) _

/-- `output_json` never raises on a tree whose nodes summarise instances, whatever the texts. -/
theorem C113_json_ok {t : Tree (Stats3 A V)} (ht : ∀ y ∈ t.nodes, ∃ m, Summarizes3 y.stats m) :
    ∃ j, outputJson3 strA strV g t = .ok j := by
  induction t using Tree.ind with
  | h id s cs ih =>
    obtain ⟨m, hs⟩ := ht _ (Tree.self_mem_nodes _)
    simp only [Tree.stats_node] at hs
    have hL : ∀ l : List (Tree (Stats3 A V)), (∀ c ∈ l, c ∈ cs) → ∃ js, outputJson3L strA strV g l = .ok js := by
      intro l
      induction l with
      | nil => intro _; exact ⟨[], rfl⟩
      | cons c l ihl =>
        intro hl
        obtain ⟨j, h1⟩ := ih c (hl c (by simp)) fun y hy =>
          ht y (Tree.mem_nodes_child (t := .node id s cs) (hl c (by simp)) hy)
        obtain ⟨js, h3⟩ := ihl fun d hd => hl d (by simp [hd])
        exact ⟨j :: js, by rw [outputJson3L, h1, h3]; rfl⟩
    obtain ⟨js, h1⟩ := hL cs fun _ h => h
    obtain ⟨d, h2⟩ := jsonCounts3_ok (strA := strA) (strV := strV) hs
    exact ⟨_, by rw [outputJson3, h2, h1]; rfl⟩

end

/-! ### Marking variables keeps instances well formed -/

theorem wfD_set {d : List (Py × Py)} (h : Py.wfD d) {k v : Py} (hv : v.wf) : Py.wfD (Dict.set d k v) := by
  induction d with
  | nil => exact ⟨hv, trivial⟩
  | cons p d ih =>
    obtain ⟨a, w⟩ := p
    rw [Dict.set]
    split
    · exact ⟨hv, h.2⟩
    · exact ⟨h.1, ih h.2⟩

theorem addRelations_wf {m : Dict Py Py} : ∀ {rs : List (Py × Py)} {new : PyInst}, Py.wfD rs → Dict.Nodup new → Py.wfD new →
    Dict.Nodup (addRelations m new rs) ∧ Py.wfD (addRelations m new rs)
  | [], _, _, h2, h3 => ⟨h2, h3⟩
  | (_, _) :: rs, _, h1, h2, h3 => addRelations_wf (rs := rs) h1.2 (Dict.nodup_set h2 _ _) (wfD_set h3 h1.1)

theorem wfD_joined {l l' : List (Py × Py)} (h : Py.wfD l) (h' : Py.wfD l') : Py.wfD (l ++ l') := by
  induction l with
  | nil => exact h'
  | cons p l ih => exact ⟨h.1, ih h.2⟩

mutual
theorem variablizeV_wf {ts : Option (List Py)} : ∀ (v : Py) {w : Py}, v.wf → variablizeV ts v = .ok w → w.wf
  | .dict l, w, h, e => by
    rw [variablizeV] at e
    cases hd : variablizeD ts l [] [] with
    | error x => rw [hd] at e; cases e
    | ok d =>
      rw [hd] at e
      cases e
      exact variablizeD_wf l (new := []) (rels := []) h.2 (by simp [Dict.Nodup, Dict.keys]) trivial trivial hd
  | .str _, w, h, e | .num _, w, h, e | .tup _, w, h, e | .list _, w, h, e | .other _ _ _, w, h, e | .none, w, h, e | .bool _, w, h, e => by
    simp only [variablizeV] at e
    cases e
    exact h
theorem variablizeD_wf {ts : Option (List Py)} : ∀ (l : List (Py × Py)) {new o : PyInst} {rels : List (Py × Py)}, Py.wfD l →
    Dict.Nodup new → Py.wfD new → Py.wfD rels → variablizeD ts l new rels = .ok o → Dict.Nodup o ∧ Py.wfD o
  | [], new, o, rels, _, h2, h3, h4, e => by
    rw [variablizeD] at e
    cases e
    exact addRelations_wf h4 h2 h3
  | (a, v) :: rest, new, o, rels, h1, h2, h3, h4, e => by
    rw [variablizeD] at e
    split at e
    · exact variablizeD_wf rest h1.2 h2 h3 (wfD_joined (l' := [(a, v)]) h4 ⟨h1.1, trivial⟩) e
    · split at e
      · cases hn : varName a with
        | error x => rw [hn] at e; cases e
        | ok name =>
          cases hv : variablizeV ts v with
          | error x => rw [hn, hv] at e; cases e
          | ok w =>
            rw [hn, hv] at e
            exact variablizeD_wf rest h1.2 (Dict.nodup_set h2 _ _) (wfD_set h3 (variablizeV_wf v h1.1 hv)) h4 e
      · exact variablizeD_wf rest h1.2 (Dict.nodup_set h2 _ _) (wfD_set h3 h1.1) h4 e
end

/-! ### The script -/

/-- **C113**: the eight names load eight different data sets, and the variables of those with components are marked. -/
theorem C113_names : exampleData "forest" = (.forestFires, false) ∧ exampleData "voting" = (.congressionalVoting, false) ∧
    exampleData "iris" = (.iris, false) ∧ exampleData "mushroom" = (.mushroom, false) ∧
    exampleData "rb_com_11" = (.rbCom11, true) ∧ exampleData "rb_s_07" = (.rbS07, true) ∧
    exampleData "rb_s_13" = (.rbS13, true) ∧ exampleData "rb_wb_03" = (.rbWb03, true) := by
  decide +kernel

/-- Any other name, a misspelt one for instance, loads the forest fires without complaint. -/
theorem C113_other_names {file : String} : exampleData file = (.forestFires, false) ↔ file = "forest" ∨
    file ∉ ["voting", "iris", "mushroom", "rb_com_11", "rb_s_07", "rb_s_13", "rb_wb_03"] := by
  unfold exampleData
  split_ifs <;> simp_all

/-- One data set that the script can show cannot be asked for on the command line. -/
theorem C113_not_offered {x : ExampleData} : (∃ file ∈ exampleChoices, (exampleData file).1 = x) ↔ x ≠ .rbWb03 := by
  cases x <;> decide +kernel

section
variable {D : Type} [DecidableEq D] {E : ExampleEnv D}

/-- The laws of the functions that the script uses. -/
structure ExampleEnv.Ok (E : ExampleEnv D) : Prop where
  trestle : E.trestle.Ok
  shuffle : FitShuffle E.shuffle
  searches : ∀ k, SearchLaws (E.searches k)
  data : ∀ x l, E.load x = .ok l → ∀ i ∈ l, Py.wf (.dict i)

/-- The instances that are fitted: in the order of the shuffled data the first ones, with variables marked. -/
def Chosen (marked : Bool) (size : ℤ) (shuffled l : List PyInst) : Prop :=
  List.Forall₂ (fun i o => if marked then variablizeD none i [] [] = .ok o else o = i) (prefixTo shuffled size) l

theorem forall₂_mapRes {α β : Type} {f : α → Res β} : ∀ {l : List α} {l' : List β}, mapRes f l = .ok l' →
    List.Forall₂ (fun x y => f x = .ok y) l l'
  | [], _, e => by cases e; exact .nil
  | x :: l, l', e => by
    rw [mapRes] at e
    cases hx : f x with
    | error y => rw [hx] at e; cases e
    | ok y =>
      cases hl : mapRes f l with
      | error z => rw [hx, hl] at e; cases e
      | ok ys =>
        rw [hx, hl] at e
        cases e
        exact .cons hx (forall₂_mapRes hl)

theorem exampleInstances_ok {marked : Bool} {size : ℤ} {shuffled l : List PyInst}
    (h : exampleInstances marked size shuffled = .ok l) : shuffled ≠ [] ∧ Chosen marked size shuffled l := by
  cases shuffled with
  | nil => cases h
  | cons x xs =>
    refine ⟨by simp, ?_⟩
    simp only [exampleInstances] at h
    cases marked with
    | true => simpa [Chosen] using forall₂_mapRes h
    | false =>
      cases h
      simp [Chosen, List.forall₂_same]

theorem Chosen.wf {marked : Bool} {size : ℤ} {shuffled l : List PyInst} (h : Chosen marked size shuffled l)
    (hw : ∀ i ∈ shuffled, Py.wf (.dict i)) : ∀ i ∈ l, Py.wf (.dict i) := by
  have hp : ∀ i ∈ prefixTo shuffled size, Py.wf (.dict i) := by
    intro i hi
    refine hw i ?_
    rw [prefixTo] at hi
    split at hi <;> exact List.mem_of_mem_take hi
  rw [Chosen] at h
  generalize prefixTo shuffled size = q at h hp
  induction h with
  | nil => simp
  | @cons a b l1 l2 hx _ ih =>
    intro i hi
    rcases List.mem_cons.1 hi with rfl | hi
    · have ha := hp a (by simp)
      cases marked with
      | true => exact variablizeD_wf a (new := []) (rels := []) ha.2 (by simp [Dict.Nodup, Dict.keys]) trivial trivial (by simpa using hx)
      | false =>
        simp only [Bool.false_eq_true, if_false] at hx
        exact hx ▸ ha
    · exact ih (fun i hi => hp i (by simp [hi])) i hi

/-- The tree that the script makes. -/
theorem exampleTree_ok (hE : E.Ok) {file : String} {size seed burn : ℤ} {st st' : TState}
    (h : exampleTree E file size seed burn st = (.ok (), st')) :
    ∃ data shuffled l ps temps t n, E.load (exampleData file).1 = .ok data ∧ data ≠ [] ∧ shuffled.Perm data ∧
      Chosen (exampleData file).2 size shuffled l ∧ Passes l true ps ∧ ps.length = burn.toNat ∧
      List.Forall₂ (Prepared E.trestle) ps.flatten temps ∧ IsTree st'.h st'.h.root t ∧
      Reach3 hid3 E.trestle.cobweb3 ⟨t, st'.sc⟩ (temps.map inst3) n := by
  rw [exampleTree] at h
  cases hl : E.load (exampleData file).1 with
  | error e => simp [hl] at h
  | ok data =>
    simp only [hl] at h
    have hp := hE.shuffle.perm data (E.seed seed st.h.w)
    generalize (E.shuffle data (E.seed seed st.h.w)).1 = shuffled at h hp
    cases hi : exampleInstances (exampleData file).2 size shuffled with
    | error e => simp [hi] at h
    | ok l =>
      simp only [hi] at h
      obtain ⟨hne, hch⟩ := exampleInstances_ok hi
      generalize hf : trestleFit E.trestle E.shuffle l burn.toNat true (E.searches, trestleClear _) = q at h
      obtain ⟨r, l', Ss', st2⟩ := q
      simp only [Prod.mk.injEq] at h
      obtain ⟨h, rfl⟩ := h
      subst h
      obtain ⟨-, ps, temps, h1, h2, h3, h4⟩ := C76_fit_trestle (.clear _) hE.shuffle hE.searches
        (hch.wf fun i hi => hE.data _ _ hl i (hp.mem_iff.1 hi)) hf
      obtain ⟨t, n, h5, -, h6⟩ := C57_tree hE.trestle h4
      refine ⟨data, shuffled, l, ps, temps, t, n, rfl, ?_, hp, hch, h1, h2, h3, h6, by simpa using h5⟩
      rintro rfl
      exact hne (List.perm_nil.1 hp)

theorem Chosen.length {marked : Bool} {size : ℤ} {shuffled l : List PyInst} (h : Chosen marked size shuffled l) :
    l.length = if 0 ≤ size then min size.toNat shuffled.length else (shuffled.length + size).toNat := by
  rw [← List.Forall₂.length_eq h, prefixTo]
  split_ifs with h0
  · simp
  · rw [List.length_take]
    omega

/-- What the script does after the tree is made. -/
theorem exampleOutput_ok {file : String} {size seed burn : ℤ} {prune : Bool} {st st' : TState} {d d' : Disk D}
    (h : exampleOutput E file size prune seed burn st d = (.ok (), st', d')) :
    exampleTree E file size seed burn st = (.ok (), st') ∧ d.dirs E.dir = true ∧
      ∃ j text, outputJson3H E.strA E.strV (.str c!"_guid") st'.h E.limit st'.h.root = .ok j ∧ E.dumps j = some text ∧
        d' = { d with file := Function.update d.file (E.dir, "output.js") (some ("var trestle_output = " ++ text ++ ";")) } := by
  rw [exampleOutput] at h
  generalize ht : exampleTree E file size seed burn st = q at h
  obtain ⟨r, st1⟩ := q
  cases r with
  | error e => simp at h
  | ok u =>
    by_cases hd : d.dirs E.dir = true
    · rw [writeFile_ok (p := (E.dir, "output.js")) hd] at h
      simp only at h
      cases hj : outputJson3H E.strA E.strV (.str c!"_guid") st1.h E.limit st1.h.root with
      | error e => simp [hj] at h
      | ok j =>
        simp only [hj] at h
        cases ht' : E.dumps j with
        | none => simp [ht'] at h
        | some text =>
          simp only [ht'] at h
          rw [writeFile_ok (p := (E.dir, "output.js")) (by exact hd)] at h
          simp only [Prod.mk.injEq, true_and] at h
          obtain ⟨rfl, rfl⟩ := h
          exact ⟨rfl, hd, j, text, hj, ht', by simp [exampleHead]⟩
    · simp [writeFile, hd] at h

/-- **C113**: when the script returns, `output.js` has the object of a Trestle tree that was fitted, `burn` times each in any
order, with the first `size` instances of the data in some order; its root counts `burn` times as many; no other file
changes. -/
theorem C113_written (hE : E.Ok) {file : String} {size seed burn : ℤ} {prune : Bool} {st st' : TState} {d d' : Disk D}
    (h : exampleOutput E file size prune seed burn st d = (.ok (), st', d')) :
    ∃ data shuffled l ps temps t n j text, E.load (exampleData file).1 = .ok data ∧ data ≠ [] ∧ shuffled.Perm data ∧
      Chosen (exampleData file).2 size shuffled l ∧
      l.length = (if 0 ≤ size then min size.toNat data.length else (data.length + size).toNat) ∧
      Passes l true ps ∧ ps.length = burn.toNat ∧ List.Forall₂ (Prepared E.trestle) ps.flatten temps ∧
      IsTree st'.h st'.h.root t ∧ Reach3 hid3 E.trestle.cobweb3 ⟨t, st'.sc⟩ (temps.map inst3) n ∧
      t.stats.count = burn.toNat * l.length ∧ t.heightOf < E.limit ∧
      outputJson3 E.strA E.strV (.str c!"_guid") t = .ok j ∧ E.dumps j = some text ∧
      (TextsApart E.strA E.strV (temps.map inst3 : Multiset (Inst3 Py Py)) → Described3 E.strA E.strV (.str c!"_guid") t j) ∧
      d'.file (E.dir, "output.js") = some ("var trestle_output = " ++ text ++ ";") ∧
      (∀ p, p ≠ (E.dir, "output.js") → d'.file p = d.file p) ∧ d'.dirs = d.dirs := by
  obtain ⟨h1, -, j, text, h2, h3, rfl⟩ := exampleOutput_ok h
  obtain ⟨data, shuffled, l, ps, temps, t, n, a1, a2, a3, a4, a5, a6, a7, a8, a9⟩ := exampleTree_ok hE h1
  have hlim : t.heightOf < E.limit := by
    by_contra hge
    obtain ⟨e, he⟩ := C113_too_deep (strA := E.strA) (strV := E.strV) (g := .str c!"_guid") a8 (Nat.le_of_not_lt hge)
    rw [he] at h2
    cases h2
  rw [C113_store_json a8 hlim] at h2
  refine ⟨data, shuffled, l, ps, temps, t, n, j, text, a1, a2, a3, a4, ?_, a5, a6, a7, a8, a9, ?_, hlim, h2, h3, ?_,
    Function.update_self .., fun p hp => Function.update_of_ne hp .., rfl⟩
  · rw [a4.length, a3.length_eq]
  · have e := (C29_every_node a9).1.count
    have hl : ps.flatten.length = burn.toNat * l.length := by
      have := congrArg Multiset.card a5.total
      simpa [a6] using this
    simp only [State3.root] at e
    rw [e]
    simp [← a7.length_eq, hl]
  · intro ha
    obtain ⟨j', e1, e2⟩ := C79_output_json a9 ha (.str c!"_guid")
    rw [show outputJson3 E.strA E.strV (.str c!"_guid") t = .ok j' from e1] at h2
    cases h2
    exact e2

/-- Without data the script raises IndexError, and writes nothing. -/
theorem C113_no_data {file : String} (hsh : FitShuffle E.shuffle) (hl : E.load (exampleData file).1 = .ok []) (size seed burn : ℤ) (prune : Bool)
    (st : TState) (d : Disk D) :
    ∃ st', exampleOutput E file size prune seed burn st d = (.error (.py .indexErr), st', d) := by
  have : (E.shuffle [] (E.seed seed st.h.w)).1 = [] := List.perm_nil.1 (hsh.perm _ _)
  rw [exampleOutput, exampleTree]
  simp only [hl, this, exampleInstances]
  exact ⟨_, rfl⟩

/-- When the tree is too deep for the interpreter, or its object cannot be written as JSON, the script raises and leaves a
file that is no JavaScript. -/
theorem C113_cut_off {file : String} {size seed burn : ℤ} {prune : Bool} {st st' : TState} {d : Disk D}
    (ht : exampleTree E file size seed burn st = (.ok (), st')) (hd : d.dirs E.dir = true) {t : Tree (Stats3 Py Py)}
    (hh : IsTree st'.h st'.h.root t)
    (hbad : E.limit ≤ t.heightOf ∨ ∀ j, outputJson3 E.strA E.strV (.str c!"_guid") t = .ok j → E.dumps j = none) :
    ∃ e d', exampleOutput E file size prune seed burn st d = (.error e, st', d') ∧
      d'.file (E.dir, "output.js") = some "var trestle_output = " := by
  rw [exampleOutput, ht]
  simp only [writeFile_ok (p := (E.dir, "output.js")) hd]
  have key : (∃ e, outputJson3H E.strA E.strV (.str c!"_guid") st'.h E.limit st'.h.root = .error e) ∨
      ∃ j, outputJson3H E.strA E.strV (.str c!"_guid") st'.h E.limit st'.h.root = .ok j ∧ E.dumps j = none := by
    by_cases hlim : E.limit ≤ t.heightOf
    · exact .inl (C113_too_deep hh hlim)
    · rw [C113_store_json hh (Nat.lt_of_not_le hlim)]
      cases hj : outputJson3 E.strA E.strV (.str c!"_guid") t with
      | error e => exact .inl ⟨e, rfl⟩
      | ok j => exact .inr ⟨j, rfl, (hbad.resolve_left hlim) j hj⟩
  rcases key with ⟨e, he⟩ | ⟨j, hj, hn⟩
  · simp only [he]
    exact ⟨_, _, rfl, Function.update_self ..⟩
  · simp only [hj, hn]
    exact ⟨_, _, rfl, Function.update_self ..⟩

theorem exampleClear_rnd (st : TState) : (trestleClear st).h.w.rnd = st.h.w.rnd := by
  simp [trestleClear, clearH, newNode, HM.setRoot, HM.setTree, HM.mod, bind, HM.andThen, World.bump]

/-- **C113**: the script returns when there are data that can be marked and fitted, the searches return, no two random
numbers coincide, the directory exists, objects can be written as JSON and the interpreter allows as many nested calls as
instances are fitted. -/
theorem C113_returns (hE : E.Ok) {file : String} {data : List PyInst} (hl : E.load (exampleData file).1 = .ok data)
    (hne : data ≠ [])
    (hfit : ∀ i ∈ data, ∃ o, (if (exampleData file).2 then variablizeD none i [] [] else .ok i) = .ok o ∧ FitInst o ∧ VisInst o)
    (hT : ∀ k, SearchTotal (E.searches k)) (hshr : ∀ l w, (E.shuffle l w).2.rnd = w.rnd) (size seed burn : ℤ)
    (prune : Bool) (st : TState) (hw : Function.Injective (E.seed seed st.h.w).rnd) {d : Disk D}
    (hd : d.dirs E.dir = true) (hj : ∀ j, E.dumps j ≠ none) (hlim : burn.toNat * data.length < E.limit) :
    ∃ st' d', exampleOutput E file size prune seed burn st d = (.ok (), st', d') := by
  have hp := hE.shuffle.perm data (E.seed seed st.h.w)
  have hshne : (E.shuffle data (E.seed seed st.h.w)).1 ≠ [] := fun e => hne (List.nil_perm.1 (e ▸ hp))
  have hpre : ∀ i ∈ prefixTo (E.shuffle data (E.seed seed st.h.w)).1 size, i ∈ data := by
    intro i hi
    rw [prefixTo] at hi
    split at hi <;> exact hp.mem_iff.1 (List.mem_of_mem_take hi)
  obtain ⟨l, hli, hlf⟩ : ∃ l, exampleInstances (exampleData file).2 size (E.shuffle data (E.seed seed st.h.w)).1 = .ok l ∧
      ∀ o ∈ l, FitInst o ∧ VisInst o := by
    generalize (E.shuffle data (E.seed seed st.h.w)).1 = sh at hshne hpre
    cases sh with
    | nil => exact absurd rfl hshne
    | cons x xs =>
      simp only [exampleInstances]
      generalize prefixTo (x :: xs) size = q at hpre
      cases hm : (exampleData file).2 with
      | false =>
        refine ⟨q, rfl, fun o ho => ?_⟩
        obtain ⟨o', h1, h2⟩ := hfit o (hpre o ho)
        rw [hm] at h1
        cases h1
        exact h2
      | true =>
        simp only [if_true]
        simp only [hm, if_true] at hfit
        clear hm
        induction q with
        | nil => exact ⟨[], rfl, by simp⟩
        | cons y q ih =>
          obtain ⟨l, h1, h2⟩ := ih fun i hi => hpre i (by simp [hi])
          obtain ⟨o, h3, h4⟩ := hfit y (hpre y (by simp))
          refine ⟨o :: l, by rw [mapRes, h3, h1]; rfl, fun i hi => ?_⟩
          rcases List.mem_cons.1 hi with rfl | hi
          · exact h4
          · exact h2 i hi
  obtain ⟨-, hch⟩ := exampleInstances_ok hli
  have hwf := hch.wf fun i hi => hE.data _ _ hl i (hp.mem_iff.1 hi)
  obtain ⟨s', hs'⟩ := C76_fit_trestle_never_raises (c := E.trestle)
    (st := trestleClear { st with h := { st.h with w := (E.shuffle data (E.seed seed st.h.w)).2 } })
    hE.trestle (.clear _) (by simp) hE.shuffle hshr hE.searches hT (fun i hi => ⟨hwf i hi, hlf i hi⟩)
    (by
      rw [exampleClear_rnd]
      show Function.Injective (E.shuffle data (E.seed seed st.h.w)).2.rnd
      rw [hshr]
      exact hw) burn.toNat true
  have htree : exampleTree E file size seed burn st = (.ok (), s'.2) := by
    rw [exampleTree]
    simp only [hl, hli, hs']
  obtain ⟨data', shuffled, l', ps, temps, t, n, a1, a2, a3, a4, a5, a6, a7, a8, a9⟩ := exampleTree_ok hE htree
  rw [hl] at a1
  cases a1
  have hlen : temps.length ≤ burn.toNat * data.length := by
    have hfl : ps.flatten.length = burn.toNat * l'.length := by
      have := congrArg Multiset.card a5.total
      simpa [a6] using this
    rw [← a7.length_eq, hfl]
    refine Nat.mul_le_mul_left _ ?_
    rw [a4.length, a3.length_eq]
    split_ifs <;> omega
  have hheight : t.heightOf < E.limit := by
    by_cases h0 : temps = []
    · subst h0
      rcases reach3_holds a9 with ⟨-, id, h2⟩ | hh
      · simp only at h2
        rw [h2]
        exact lt_of_le_of_lt (Nat.zero_le _) hlim
      · have := hh.size (C29_at_least_two_children a9)
        have := this.height
        simp only [List.map_nil, List.length_nil] at this
        exact lt_of_le_of_lt (this.trans (Nat.zero_le _)) hlim
    · have := (C72_size_cobweb3 a9 (by simpa using h0)).height
      simp only [List.length_map] at this
      exact lt_of_le_of_lt (this.trans (Nat.sub_le _ _)) (lt_of_le_of_lt hlen hlim)
  obtain ⟨j, hjo⟩ := C113_json_ok (strA := E.strA) (strV := E.strV) (g := .str c!"_guid") (t := t) fun y hy => by
    obtain ⟨m, -, hm⟩ := (C29_every_node a9).2 y hy
    exact ⟨m, hm⟩
  obtain ⟨text, htext⟩ := Option.ne_none_iff_exists'.1 (hj j)
  rw [exampleOutput, htree]
  simp only [writeFile_ok (p := (E.dir, "output.js")) hd, C113_store_json a8 hheight, hjo, htext]
  rw [writeFile_ok (p := (E.dir, "output.js")) (by exact hd)]
  exact ⟨_, _, rfl⟩

end

/-! ### An example -/

/-- A world for the script: two scenes for every name, and a directory. -/
noncomputable def demoEnv : ExampleEnv ℕ where
  trestle := demoTrestle
  load := fun _ => .ok [demoScene, [(.str c!"k", .num 2)]]
  seed := fun _ w => ⟨fun k => (k : ℚ), 0, w.ctr⟩
  shuffle := fun l w => (l.reverse, w)
  searches := fun _ => demoSearch
  limit := 1000
  strA := fun _ => "a"
  strV := fun _ => "v"
  dumps := fun _ => some "{}"
  dir := 7

theorem demoScenes_fit : ∀ i ∈ [demoScene, [(.str c!"k", .num 2)]], Py.wf (.dict i) ∧ FitInst i ∧ VisInst i := by
  intro i hi
  rcases List.mem_cons.1 hi with rfl | hi
  · exact demoScene_fit
  · rw [List.mem_singleton] at hi
    subst hi
    refine ⟨?_, ?_, ?_⟩
    · simp [Py.wf, Py.wfD, Dict.Nodup, Dict.keys]
    · simp [FitInst, FitVal, FitAttr, Py.hashable]
    · simp [VisInst, VisLeaf, hid3, Py.index0]

theorem demoEnv_ok : demoEnv.Ok where
  trestle := demoTrestle_ok
  shuffle := reverse_shuffle
  searches := fun _ => demoSearch_ok
  data := by
    intro x l h i hi
    cases h
    exact (demoScenes_fit i hi).1

/-- Both instances, three times each, and a file. -/
example (st : TState) : ∃ st' d' t, exampleOutput demoEnv "iris" 100 true 50 3 st ⟨fun _ => true, fun _ => none⟩ =
      (.ok (), st', d') ∧ IsTree st'.h st'.h.root t ∧ t.stats.count = 6 ∧
      d'.file (7, "output.js") = some "var trestle_output = {};" := by
  obtain ⟨st', d', h⟩ := C113_returns demoEnv_ok (file := "iris") rfl (by simp)
    (fun i hi => ⟨i, by rw [C113_names.2.2.1]; rfl, (demoScenes_fit i hi).2⟩) (fun _ => demoSearch_total) (fun _ _ => rfl) 100 50 3 true st
    (fun a b hab => Nat.cast_injective (R := ℚ) hab) (d := ⟨fun _ => true, fun _ => none⟩) rfl
    (fun _ => by simp [demoEnv]) (by simp [demoEnv])
  obtain ⟨data, sh, l, ps, temps, t, n, j, text, h1, -, -, -, h2, -, -, -, h3, -, h4, -, -, h5, -, h6, -⟩ :=
    C113_written demoEnv_ok h
  cases h1
  cases h5
  refine ⟨st', d', t, h, h3, ?_, h6⟩
  rw [h4, h2]
  rfl

end CF
