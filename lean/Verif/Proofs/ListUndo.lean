/-
Undoing the extraction of list elements, one level at a time.
-/
import Verif.Spec.Lists
import Verif.Proofs.Standardize

namespace CF
open Py

/-- `_undo_extract` makes `v` of `w`, whatever the order of the entries. -/
def Back (v w : Py) : Prop :=
  ∀ w', same w w' → w'.wf → ∃ u, unextV w' = .ok u ∧ same v u ∧ u.wf

/-- The same for the object of a list element. -/
def BackEl (el w : Py) : Prop :=
  ∀ w', same w w' → w'.wf → ∃ u, unextV w' = .ok u ∧ same el (elementOf u) ∧ (elementOf u).wf

/-- A list and the list of its elements' names in `X`. -/
def NamesFor (X : PyInst) (els names : List Py) : Prop :=
  List.Forall₂ (fun el n => (∃ s, n = .str s) ∧ ∃ o, Dict.get? X n = some (.dict o) ∧ BackEl el (.dict o)) els names

/-- The extracted form `X` of the entries `l`. -/
structure Level (l X : List (Py × Py)) : Prop where
  lists : ∀ a els, (a, .list els) ∈ l → ∃ names, Dict.get? X a = some (.list names) ∧ NamesFor X els names ∧
    ∀ n ∈ names, n ∉ Dict.keys l
  dicts : ∀ a m, (a, .dict m) ∈ l → ∃ o, Dict.get? X a = some (.dict o) ∧ Back (.dict m) (.dict o)
  atoms : ∀ a v, (a, v) ∈ l → v.isList = false → v.isDict = false → Dict.get? X a = some v
  keys : ∀ k ∈ Dict.keys X, k ∈ Dict.keys l ∨ ∃ a els names, (a, .list els) ∈ l ∧
    Dict.get? X a = some (.list names) ∧ k ∈ names

theorem get?_unextVals (l : List (Py × Py)) (k : Py) :
    Dict.get? (unextVals l) k = (Dict.get? l k).map unextV := by
  induction l with
  | nil => rfl
  | cons p l ih =>
    obtain ⟨a, v⟩ := p
    simp only [unextVals, Dict.get?_cons, ih]
    split <;> rfl

theorem unextLists_spec {vals : Dict Py (Res Py)} : ∀ (m : List (Py × Py)) (new : PyInst) (elems : List Py),
    Dict.Nodup m → Dict.Nodup new →
    (∀ a ns, (a, .list ns) ∈ m → ∃ os, unextElems vals ns = .ok os) →
    ∃ new' elems', unextLists vals m new elems = .ok (new', elems') ∧ Dict.Nodup new' ∧
      (∀ k, k ∈ elems' ↔ k ∈ elems ∨ ∃ a ns, (a, .list ns) ∈ m ∧ k ∈ ns) ∧
      (∀ a ns, (a, .list ns) ∈ m → ∃ os, unextElems vals ns = .ok os ∧ Dict.get? new' a = some (.list os)) ∧
      (∀ k, (∀ ns, (k, .list ns) ∉ m) → Dict.get? new' k = Dict.get? new k)
  | [], new, elems, _, hn, _ => ⟨new, elems, rfl, hn, by simp, by simp, by simp⟩
  | (a, v) :: m, new, elems, hm, hn, h => by
    have hm' := (Dict.nodup_cons.1 hm).2
    have ha : a ∉ Dict.keys m := (Dict.nodup_cons.1 hm).1
    have hna : ∀ w, (a, w) ∉ m := fun w hw => ha (List.mem_map.2 ⟨_, hw, rfl⟩)
    by_cases hv : ∃ ns, v = .list ns
    · obtain ⟨ns, rfl⟩ := hv
      obtain ⟨os, ho⟩ := h a ns List.mem_cons_self
      obtain ⟨new', elems', h1, h2, h3, h4, h5⟩ := unextLists_spec m (new.set a (.list os)) (elems ++ ns) hm'
        (Dict.nodup_set hn _ _) fun b ns' hb => h b ns' (List.mem_cons_of_mem _ hb)
      refine ⟨new', elems', by simp only [unextLists, ho]; exact h1, h2, fun k => ?_, ?_, ?_⟩
      · rw [h3]
        simp only [List.mem_append, List.mem_cons, Prod.mk.injEq]
        constructor
        · rintro ((h | h) | ⟨b, ns', hb, hk⟩)
          · exact .inl h
          · exact .inr ⟨a, ns, .inl ⟨rfl, rfl⟩, h⟩
          · exact .inr ⟨b, ns', .inr hb, hk⟩
        · rintro (h | ⟨b, ns', ⟨_, hb⟩ | hb, hk⟩)
          · exact .inl (.inl h)
          · cases hb; exact .inl (.inr hk)
          · exact .inr ⟨b, ns', hb, hk⟩
      · intro b ns' hb
        rcases List.mem_cons.1 hb with hb | hb
        · cases hb
          exact ⟨os, ho, by rw [h5 a fun ns' => hna _, Dict.get?_set_self]⟩
        · exact h4 b ns' hb
      · intro k hk
        have hne : k ≠ a := fun e => hk ns (by rw [e]; exact List.mem_cons_self)
        rw [h5 k fun ns' h' => hk ns' (List.mem_cons_of_mem _ h'), Dict.get?_set_ne _ (Ne.symm hne)]
    · obtain ⟨new', elems', h1, h2, h3, h4, h5⟩ := unextLists_spec m new elems hm' hn
        fun b ns' hb => h b ns' (List.mem_cons_of_mem _ hb)
      have hv' : ∀ b ns, (b, Py.list ns) ∈ (a, v) :: m ↔ (b, Py.list ns) ∈ m := by
        intro b ns
        constructor
        · intro hb
          rcases List.mem_cons.1 hb with hb | hb
          · cases hb; exact absurd ⟨ns, rfl⟩ hv
          · exact hb
        · exact List.mem_cons_of_mem _
      refine ⟨new', elems', ?_, h2, fun k => ?_, fun b ns' hb => h4 b ns' ((hv' b ns').1 hb), fun k hk => ?_⟩
      · rw [unextLists]
        · exact h1
        · rintro _ ns e; cases e; exact hv ⟨ns, rfl⟩
      · simp only [h3, hv']
      · exact h5 k fun ns' h' => hk ns' ((hv' k ns').2 h')

/-- What the second loop stores for an entry. -/
def restVal (vals : Dict Py (Res Py)) (a v : Py) : Option Py :=
  if v.isDict then match Dict.get? vals a with
    | some (.ok o) => some o
    | _ => Option.none
  else some v

theorem unextRest_spec {vals : Dict Py (Res Py)} {elems : List Py} : ∀ (m : List (Py × Py)) (new : PyInst),
    Dict.Nodup m → Dict.Nodup new →
    (∀ a v, (a, v) ∈ m → v.isList = false → a ∉ elems → ∃ o, restVal vals a v = some o) →
    ∃ d, unextRest vals elems m new = .ok d ∧ Dict.Nodup d ∧
      (∀ a v, (a, v) ∈ m → v.isList = false → a ∉ elems → Dict.get? d a = restVal vals a v) ∧
      (∀ k, (∀ v, (k, v) ∈ m → v.isList = true ∨ k ∈ elems) → Dict.get? d k = Dict.get? new k)
  | [], new, _, hn, _ => ⟨new, rfl, hn, by simp, by simp⟩
  | (a, v) :: m, new, hm, hn, h => by
    have hm' := (Dict.nodup_cons.1 hm).2
    have ha : a ∉ Dict.keys m := (Dict.nodup_cons.1 hm).1
    have hna : ∀ w, (a, w) ∉ m := fun w hw => ha (List.mem_map.2 ⟨_, hw, rfl⟩)
    have hrec := fun b w hb => h b w (List.mem_cons_of_mem (a, v) hb)
    by_cases hc : (v.isList || elems.contains a) = true
    · obtain ⟨d, h1, h2, h3, h4⟩ := unextRest_spec m new hm' hn hrec
      refine ⟨d, by rw [unextRest, if_pos hc]; exact h1, h2, ?_, fun k hk => h4 k fun w hw => hk w (List.mem_cons_of_mem _ hw)⟩
      intro b w hb hl he
      rcases List.mem_cons.1 hb with hb | hb
      · cases hb
        simp [hl, he] at hc
      · exact h3 b w hb hl he
    · have hc' : v.isList = false ∧ a ∉ elems := by simpa using hc
      obtain ⟨o, ho⟩ := h a v List.mem_cons_self hc'.1 hc'.2
      obtain ⟨d, h1, h2, h3, h4⟩ := unextRest_spec m (new.set a o) hm' (Dict.nodup_set hn _ _) hrec
      refine ⟨d, ?_, h2, ?_, ?_⟩
      · rw [unextRest, if_neg hc, ← h1]
        unfold restVal at ho
        by_cases hd : v.isDict = true
        · rw [if_pos hd] at ho ⊢
          cases hg : Dict.get? vals a with
          | none => rw [hg] at ho; cases ho
          | some r =>
            rw [hg] at ho
            cases r with
            | error e => cases ho
            | ok o' => cases ho; rfl
        · rw [if_neg hd] at ho ⊢
          cases ho; rfl
      · intro b w hb hl he
        rcases List.mem_cons.1 hb with hb | hb
        · cases hb
          rw [h4 a fun w hw => absurd hw (hna w), Dict.get?_set_self, ho]
        · exact h3 b w hb hl he
      · intro k hk
        have hne : k ≠ a := by
          rintro rfl
          rcases hk v List.mem_cons_self with h' | h'
          · rw [hc'.1] at h'; cases h'
          · exact hc'.2 h'
        rw [h4 k fun w hw => hk w (List.mem_cons_of_mem _ hw), Dict.get?_set_ne _ (Ne.symm hne)]

theorem sameL_str {names l' : List Py} (h : ∀ n ∈ names, ∃ s, n = .str s) (hs : sameL names l') : l' = names := by
  induction names generalizing l' with
  | nil => exact hs
  | cons n names ih =>
    obtain ⟨y, ys, rfl, h1, h2⟩ := hs
    obtain ⟨s, rfl⟩ := h n List.mem_cons_self
    have : y = .str s := h1
    rw [this, ih (fun m hm => h m (List.mem_cons_of_mem _ hm)) h2]

theorem unextElems_spec {l' X : PyInst} (hX : sameD X l') (hw : wfD l') :
    ∀ {els names : List Py}, NamesFor X els names →
    ∃ os, unextElems (unextVals l') names = .ok os ∧ sameL els os ∧ wfL os
  | [], _, .nil => ⟨[], rfl, rfl, trivial⟩
  | el :: els, n :: names, .cons ⟨⟨s, hs⟩, o, ho, hb⟩ h => by
    obtain ⟨os, h1, h2, h3⟩ := unextElems_spec hX hw h
    obtain ⟨w', hw', hsame⟩ := sameD_iff.1 hX _ _ (Dict.mem_of_get? ho)
    obtain ⟨u, hu, hel, hwu⟩ := hb w' hsame (wfD_iff.1 hw _ (Dict.mem_of_get? hw'))
    refine ⟨elementOf u :: os, ?_, ⟨_, _, rfl, hel, h2⟩, ⟨hwu, h3⟩⟩
    rw [unextElems, get?_unextVals, hw', if_pos (by rw [hs]; rfl)]
    simp only [Option.map_some, hu, ok_bind, h1]
    rfl

theorem Level.back {l X : List (Py × Py)} (h : Level l X) (hl : Dict.Nodup l) (hX : Dict.Nodup X) :
    Back (.dict l) (.dict X) := by
  rintro w' ⟨l', rfl, hlen, hsd⟩ hw'
  have hn' := hw'.1
  -- an entry of `X` in `l'`
  have getX : ∀ {k w}, Dict.get? X k = some w → ∃ w', Dict.get? l' k = some w' ∧ same w w' ∧ w'.wf := by
    intro k w hk
    obtain ⟨w', h1, h2⟩ := sameD_iff.1 hsd _ _ (Dict.mem_of_get? hk)
    exact ⟨w', h1, h2, wfD_iff.1 hw'.2 _ (Dict.mem_of_get? h1)⟩
  have keysX : ∀ k, k ∈ Dict.keys l' ↔ k ∈ Dict.keys X := fun k => (same_keys hX hn' hlen hsd).mem_iff.symm
  have listX : ∀ {k names}, (∀ n ∈ names, ∃ s, n = Py.str s) → Dict.get? X k = some (.list names) →
      Dict.get? l' k = some (.list names) := by
    intro k names hs hk
    obtain ⟨w', h1, ⟨ns, rfl, h2⟩, _⟩ := getX hk
    rw [h1, sameL_str hs h2]
  have names_str : ∀ {els names}, NamesFor X els names → ∀ n ∈ names, ∃ s, n = Py.str s := by
    intro els names hf
    induction hf with
    | nil => simp
    | cons hh _ ih =>
      intro n hn
      rcases List.mem_cons.1 hn with hn | hn
      · exact hn ▸ hh.1
      · exact ih n hn
  have names_dict : ∀ {els names}, NamesFor X els names → ∀ n ∈ names, ∃ o, Dict.get? X n = some (.dict o) := by
    intro els names hf
    induction hf with
    | nil => simp
    | cons hh _ ih =>
      intro n hn
      rcases List.mem_cons.1 hn with hn | hn
      · obtain ⟨_, o, ho, _⟩ := hh; exact ⟨o, hn ▸ ho⟩
      · exact ih n hn
  -- a list in `l'` is one of `l`
  have listsBack : ∀ {a ns}, (a, Py.list ns) ∈ l' → ∃ els, (a, Py.list els) ∈ l ∧
      Dict.get? X a = some (.list ns) ∧ NamesFor X els ns ∧ ∀ n ∈ ns, n ∉ Dict.keys l := by
    intro a ns ha
    have hk : a ∈ Dict.keys X := (keysX a).1 (List.mem_map.2 ⟨_, ha, rfl⟩)
    have hg := Dict.get?_of_mem hn' ha
    rcases h.keys a hk with hk | ⟨b, els, names, hb, hbX, hmem⟩
    · obtain ⟨⟨a', v⟩, hv, e⟩ := List.mem_map.1 hk
      simp only at e
      obtain rfl : a' = a := e
      rename' a' => a
      cases hvl : v.isList with
      | false =>
        exfalso
        cases hvd : v.isDict with
        | false =>
          obtain ⟨w', h1, h2, _⟩ := getX (h.atoms a v hv hvl hvd)
          rw [hg] at h1
          cases h1
          have := same_isList h2
          rw [hvl] at this; cases this
        | true =>
          obtain ⟨m, rfl⟩ : ∃ m, v = .dict m := by cases v <;> simp [Py.isDict] at hvd ⊢
          obtain ⟨o, ho, _⟩ := h.dicts a m hv
          obtain ⟨w', h1, ⟨m', rfl, _⟩, _⟩ := getX ho
          rw [hg] at h1
          cases h1
      | true =>
        obtain ⟨els, rfl⟩ : ∃ m, v = .list m := by cases v <;> simp [Py.isList] at hvl ⊢
        obtain ⟨names, h1, h2, h3⟩ := h.lists a els hv
        have h4 := listX (names_str h2) h1
        rw [hg] at h4
        cases h4
        exact ⟨els, hv, h1, h2, h3⟩
    · exfalso
      obtain ⟨names', h1, h2, h3⟩ := h.lists b els hb
      rw [hbX] at h1
      cases h1
      obtain ⟨o, ho⟩ := names_dict h2 a hmem
      obtain ⟨w', h4, ⟨m', rfl, _⟩, _⟩ := getX ho
      rw [hg] at h4
      cases h4
  obtain ⟨new, elems, e1, hn1, hel, hls, hother⟩ := unextLists_spec (vals := unextVals l') l' [] [] hn'
    Dict.nodup_nil (by
      intro a ns ha
      obtain ⟨els, _, _, hf, _⟩ := listsBack ha
      obtain ⟨os, ho, _⟩ := unextElems_spec hsd hw'.2 hf
      exact ⟨os, ho⟩)
  have elems_not : ∀ k ∈ elems, k ∉ Dict.keys l := by
    intro k hk
    rcases (hel k).1 hk with hk | ⟨a, ns, ha, hk⟩
    · cases hk
    · obtain ⟨els, _, _, _, hf⟩ := listsBack ha
      exact hf k hk
  -- every other attribute of `l'` is one of `l`
  have restBack : ∀ {a v'}, (a, v') ∈ l' → v'.isList = false → a ∉ elems → ∃ v u, (a, v) ∈ l ∧
      v.isList = false ∧ restVal (unextVals l') a v' = some u ∧ same v u ∧ u.wf := by
    intro a v' ha hl' he
    have hk : a ∈ Dict.keys X := (keysX a).1 (List.mem_map.2 ⟨_, ha, rfl⟩)
    have hg := Dict.get?_of_mem hn' ha
    rcases h.keys a hk with hk | ⟨b, els, names, hb, hbX, hmem⟩
    · obtain ⟨⟨a', v⟩, hv, e⟩ := List.mem_map.1 hk
      simp only at e
      obtain rfl : a' = a := e
      rename' a' => a
      cases hvl : v.isList with
      | true =>
        exfalso
        obtain ⟨els, rfl⟩ : ∃ m, v = .list m := by cases v <;> simp [Py.isList] at hvl ⊢
        obtain ⟨names, h1, h2, h3⟩ := h.lists a els hv
        have h4 := listX (names_str h2) h1
        rw [hg] at h4
        cases h4
        cases hl'
      | false =>
        cases hvd : v.isDict with
        | false =>
          obtain ⟨w', h1, h2, h3⟩ := getX (h.atoms a v hv hvl hvd)
          rw [hg] at h1
          cases h1
          have hd := same_isDict h2
          rw [hvd] at hd
          exact ⟨v, v', hv, hvl, by rw [restVal, hd]; rfl, h2, h3⟩
        | true =>
          obtain ⟨m, rfl⟩ : ∃ m, v = .dict m := by cases v <;> simp [Py.isDict] at hvd ⊢
          obtain ⟨o, ho, hb⟩ := h.dicts a m hv
          obtain ⟨w', h1, h2, h3⟩ := getX ho
          rw [hg] at h1
          cases h1
          obtain ⟨u, hu, hs, hwu⟩ := hb v' h2 h3
          have hd := same_isDict h2
          refine ⟨_, u, hv, rfl, ?_, hs, hwu⟩
          rw [restVal, hd, get?_unextVals, hg]
          simp [Py.isDict, hu]
    · exfalso
      obtain ⟨names', h1, h2, h3⟩ := h.lists b els hb
      have h5 := listX (names_str h2) h1
      rw [hbX] at h1
      cases h1
      exact he ((hel a).2 (.inr ⟨b, names, Dict.mem_of_get? h5, hmem⟩))
  obtain ⟨d, e2, hn2, hrest, hkeep⟩ := unextRest_spec (vals := unextVals l') (elems := elems) l' new hn' hn1 (by
    intro a v' ha hl' he
    obtain ⟨_, u, _, _, hu, _⟩ := restBack ha hl' he
    exact ⟨u, hu⟩)
  -- every entry of `l` is in the result
  have hin : ∀ a v, (a, v) ∈ l → ∃ u, Dict.get? d a = some u ∧ same v u ∧ u.wf := by
    intro a v hv
    have hal : a ∈ Dict.keys l := List.mem_map.2 ⟨_, hv, rfl⟩
    cases hvl : v.isList with
    | true =>
      obtain ⟨els, rfl⟩ : ∃ m, v = .list m := by cases v <;> simp [Py.isList] at hvl ⊢
      obtain ⟨names, h1, h2, h3⟩ := h.lists a els hv
      have h4 := listX (names_str h2) h1
      obtain ⟨os, ho, hnew⟩ := hls a names (Dict.mem_of_get? h4)
      obtain ⟨os', ho', hs, hwo⟩ := unextElems_spec hsd hw'.2 h2
      rw [ho] at ho'
      cases ho'
      refine ⟨.list os, ?_, ⟨os, rfl, hs⟩, hwo⟩
      rw [hkeep a fun v' hv' => ?_, hnew]
      have := Dict.get?_of_mem hn' hv'
      rw [h4] at this
      cases this
      exact .inl rfl
    | false =>
      have hx : ∃ v', Dict.get? l' a = some v' ∧ v'.isList = false := by
        cases hvd : v.isDict with
        | false =>
          obtain ⟨w', h1, h2, _⟩ := getX (h.atoms a v hv hvl hvd)
          exact ⟨w', h1, by rw [same_isList h2, hvl]⟩
        | true =>
          obtain ⟨m, rfl⟩ : ∃ m, v = .dict m := by cases v <;> simp [Py.isDict] at hvd ⊢
          obtain ⟨o, ho, _⟩ := h.dicts a m hv
          obtain ⟨w', h1, h2, _⟩ := getX ho
          exact ⟨w', h1, by rw [same_isList h2]; rfl⟩
      obtain ⟨v', hv', hl'⟩ := hx
      have he : a ∉ elems := fun he => elems_not a he hal
      obtain ⟨v₂, u, h2, _, hu, hs, hwu⟩ := restBack (Dict.mem_of_get? hv') hl' he
      have : v₂ = v := by
        have e1 := Dict.get?_of_mem hl h2
        have e2 := Dict.get?_of_mem hl hv
        rw [e1] at e2; exact Option.some.inj e2
      subst this
      exact ⟨u, by rw [hrest a v' (Dict.mem_of_get? hv') hl' he, hu], hs, hwu⟩
  -- and nothing else
  have hout : ∀ k ∈ Dict.keys d, k ∈ Dict.keys l := by
    intro k hk
    by_contra hkl
    have : Dict.get? d k = Option.none := by
      by_cases hkl' : ∃ v', (k, v') ∈ l' ∧ v'.isList = false ∧ k ∉ elems
      · obtain ⟨v', h1, h2, h3⟩ := hkl'
        obtain ⟨v, _, hv, _⟩ := restBack h1 h2 h3
        exact absurd (List.mem_map.2 ⟨_, hv, rfl⟩) hkl
      · rw [hkeep k, hother k]
        · rfl
        · intro ns hns
          obtain ⟨els, hv, _⟩ := listsBack hns
          exact absurd (List.mem_map.2 ⟨_, hv, rfl⟩) hkl
        · intro v' hv'
          by_contra hc
          rw [not_or] at hc
          exact hkl' ⟨v', hv', by simpa using hc.1, hc.2⟩
    exact (Dict.get?_eq_none.1 this) hk
  refine ⟨.dict d, ?_, ⟨d, rfl, ?_, ?_⟩, hn2, ?_⟩
  · simp only [unextV, e1, ok_bind, e2]
    rfl
  · have hp : List.Perm (Dict.keys l) (Dict.keys d) := by
      refine (List.perm_ext_iff_of_nodup hl hn2).2 fun k => ⟨fun hk => ?_, hout k⟩
      obtain ⟨⟨_, v⟩, hv, rfl⟩ := List.mem_map.1 hk
      obtain ⟨u, hu, _⟩ := hin _ v hv
      exact Dict.get?_isSome.1 (by rw [hu]; rfl)
    simpa [Dict.keys] using hp.length_eq
  · refine sameD_iff.2 fun k v hv => ?_
    obtain ⟨u, hu, hs, _⟩ := hin k v hv
    exact ⟨u, hu, hs⟩
  · refine wfD_iff.2 fun p hp => ?_
    have hk := hout p.1 (List.mem_map.2 ⟨_, hp, rfl⟩)
    obtain ⟨⟨_, v⟩, hv, e⟩ := List.mem_map.1 hk
    simp only at e
    subst e
    obtain ⟨u, hu, _, hwu⟩ := hin _ v hv
    rw [Dict.get?_of_mem hn2 hp] at hu
    cases hu
    exact hwu

end CF
