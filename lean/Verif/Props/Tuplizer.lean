/-
C46: the tuplizer reads what it writes, and writes what it reads.
-/
import Verif.Proofs.Words
import Verif.Proofs.Pipeline

namespace CF
variable {pf : PStr → Option Py}

/-- C46: tuplizing the written form of a relation, of any depth and arity, returns the relation.

Full statement: also for relations whose first element is itself a relation, and for relations without
elements.  Both are false: `C46_nested_head`. -/
theorem C46_reads_partial {r : Py} (h : Relation pf r) : tuplize pf (.str (written r)) = .ok r :=
  tuplize_written h

/-- Undoing writes the relation. -/
theorem C46_writes {r : Py} (h : Relation pf r) : stringify r = .ok (.str (written r)) :=
  stringify_rel r h

/-- Different relations are written differently. -/
theorem C46_unambiguous {r r' : Py} (h : Relation pf r) (h' : Relation pf r') (e : written r = written r') :
    r = r' := by
  have h1 := tuplize_written h
  rw [e, tuplize_written h'] at h1
  exact (Except.ok.inj h1).symm

/-- An attribute that the tuplizer understands: a written relation, or a string that does not begin with
a parenthesis. -/
def TupAttr (pf : PStr → Option Py) (a : Py) : Prop :=
  (∃ c s, a = .str (c :: s) ∧ c ≠ '(') ∨ ∃ r, Relation pf r ∧ a = .str (written r)

theorem tuplize_attr {a : Py} (h : TupAttr pf a) :
    ∃ b, tuplize pf a = .ok b ∧ stringify b = .ok a ∧ (b = a ∨ (Relation pf b ∧ a = .str (written b))) := by
  rcases h with ⟨c, s, rfl, hc⟩ | ⟨r, hr, rfl⟩
  · refine ⟨.str (c :: s), ?_, rfl, .inl rfl⟩
    simp [tuplize, Py.index0, ok_bind, hc, pure, Except.pure]
  · exact ⟨r, tuplize_written hr, stringify_rel r hr, .inr ⟨hr, rfl⟩⟩

/-- C46 for instances: `transform` replaces every written relation by the relation and keeps everything
else, and `undo_transform` returns the instance.

Full statement: see `C46_reads_partial`; an attribute that is a tuple already is not restored
(`C46_tuple_attribute`). -/
theorem C46_roundtrip_partial {i : PyInst} (hn : Dict.Nodup i) (h : ∀ a ∈ Dict.keys i, TupAttr pf a) :
    ∃ o, mapKeys (tuplize pf) i [] = .ok o ∧ mapKeys stringify o [] = .ok i ∧
      List.Forall₂ (fun p q : Py × Py => q.2 = p.2 ∧
        (q.1 = p.1 ∨ Relation pf q.1 ∧ p.1 = .str (written q.1))) i o := by
  choose! g h1 h2 h3 using fun a ha => tuplize_attr (h a ha)
  have hk : ∀ p ∈ i, p.1 ∈ Dict.keys i := fun p hp => List.mem_map.2 ⟨p, hp, rfl⟩
  have hinj : (i.map fun p => g p.1).Nodup := by
    have : (i.map fun p => g p.1) = (Dict.keys i).map g := by simp [Dict.keys]
    rw [this]
    refine List.Nodup.map_on ?_ hn
    intro a ha b hb e
    have := h2 a ha
    rw [e, h2 b hb] at this
    exact (Except.ok.inj this).symm
  have e1 := mapKeys_inj (f := tuplize pf) (g := g) (i := i) (new := []) (fun p hp => h1 _ (hk p hp))
    (by simpa using hinj)
  simp only [List.nil_append] at e1
  refine ⟨_, e1, ?_, ?_⟩
  · have e2 : ∀ (j : PyInst) (new : PyInst), (∀ p ∈ j, p ∈ i) → (Dict.keys new ++ Dict.keys j).Nodup →
        mapKeys stringify (j.map fun p => (g p.1, p.2)) new = .ok (new ++ j) := by
      intro j
      induction j with
      | nil => intro new _ _; simp [mapKeys]
      | cons p j ih =>
        intro new hj hnd
        simp only [List.map_cons, mapKeys, h2 _ (hk p (hj p List.mem_cons_self)), ok_bind]
        have hnot : p.1 ∉ Dict.keys new := fun hc =>
          (List.nodup_append.1 hnd).2.2 _ hc _ (by simp [Dict.keys]) rfl
        rw [Dict.set_of_not_mem hnot, ih _ fun q hq => hj q (List.mem_cons_of_mem _ hq)]
        · simp
        · simpa [Dict.keys] using hnd
    simpa using e2 i [] (fun p hp => hp) hn
  · rw [List.forall₂_map_right_iff]
    exact List.forall₂_same.2 fun p hp => ⟨rfl, h3 _ (hk p hp)⟩

/-- The tuplizer inverts itself as a stage of any pipeline. -/
theorem C46_undoes {γ τ : Type} {i : PyInst} (hn : Dict.Nodup i) (h : ∀ a ∈ Dict.keys i, TupAttr pf a)
    (s : γ × τ) : Undoes (· = ·) (tuplizer pf : Preproc γ τ) i s := by
  obtain ⟨o, h1, h2, _⟩ := C46_roundtrip_partial hn h
  exact stateless_undoes (f := fun i => mapKeys (tuplize pf) i []) (g := fun i => mapKeys stringify i []) h1 h2 s

/-- A relation whose first element is a relation, and the empty relation, raise `IndexError`. -/
theorem C46_nested_head (pf : PStr → Option Py) :
    tuplize pf (.str (written (.tup [.tup [.str c!"a", .str c!"b"], .str c!"c"]))) = .error .indexErr ∧
    tuplize pf (.str (written (.tup []))) = .error .indexErr := by
  constructor
  · simp [written, writtenL, tuplize, Py.index0, ok_bind, splitSp, tupLoop, tupStep, stripEnd, pushAtom, closeN,
      error_bind]
  · rfl

/-- C46: what happens to every string that begins with a parenthesis.  It raises `IndexError` exactly if a word
says nothing or a parenthesis is closed that is not open; it raises `TypeError` exactly if, otherwise, the last
word is a number without a parenthesis after it; and a tuple is the result of all the others. -/
theorem C46_outcome (hpf : ∀ s v, pf s = some v → ∃ x, v = .num x) (s : PStr) :
    (¬ WellClosed (wordsOf ('(' :: s)) → tuplize pf (.str ('(' :: s)) = .error .indexErr) ∧
    ∀ w, (wordsOf ('(' :: s)).getLast? = some w → WellClosed (wordsOf ('(' :: s)) →
      (closings w = 0 ∧ pf (wordAtom w) ≠ none → tuplize pf (.str ('(' :: s)) = .error .typeErr) ∧
      (closings w = 0 ∧ pf (wordAtom w) = none →
        tuplize pf (.str ('(' :: s)) = .ok (.tup ((wordAtom w).map fun c => .str [c]))) ∧
      (closings w ≠ 0 → ∃ l, tuplize pf (.str ('(' :: s)) = .ok (.tup l)) := by
  obtain ⟨o1, o2⟩ := tupLoop_outcome (pf := pf) (wordsOf ('(' :: s)) [[]] 0 rfl
  simp only [← wellClosed_iff] at o1 o2
  simp only [tuplize, Py.index0, ok_bind, if_true, splitSp_eq]
  constructor
  · intro h; rw [o2 h]; rfl
  · intro w hw hc
    obtain ⟨st, e, hl⟩ := o1 hc
    obtain ⟨c, v, rest, rfl, h0, h1⟩ := hl w hw
    rw [e]
    simp only [ok_bind, List.getLast?_concat]
    refine ⟨fun h => ?_, fun h => ?_, fun h => ?_⟩
    · obtain ⟨u, hu⟩ := Option.ne_none_iff_exists'.1 h.2
      obtain ⟨x, rfl⟩ := hpf _ _ hu
      rw [h0 h.1, readAtom, hu]; rfl
    · rw [h0 h.1, readAtom, h.2]; rfl
    · obtain ⟨l, rfl⟩ := h1 h
      exact ⟨l, rfl⟩

/-- Hence a relation whose parentheses are not all closed is accepted: `(a bc` becomes the two letters of its last
word, and `(a (b c)` its last relation. -/
theorem C46_unclosed (pf : PStr → Option Py) (h : ∀ s ∈ [c!"a", c!"b", c!"c", c!"bc"], pf s = none) :
    tuplize pf (.str c!"(a bc") = .ok (.tup [.str c!"b", .str c!"c"]) ∧
    tuplize pf (.str c!"(a (b c)") = .ok (.tup [.str c!"b", .str c!"c"]) := by
  have ha := h c!"a" (by simp)
  have hb := h c!"b" (by simp)
  have hc := h c!"c" (by simp)
  have hbc := h c!"bc" (by simp)
  constructor <;>
  simp [tuplize, Py.index0, ok_bind, splitSp, tupLoop, tupStep, stripEnd, pushAtom, closeN, readAtom, ha, hb, hc, hbc,
    toTuple]

/-- Anything else, if it is not empty, is left alone, except a tuple or list that begins with a parenthesis. -/
theorem C46_others (pf : PStr → Option Py) (x : Py) (l : List Py) :
    (x ≠ .str c!"(" → tuplize pf (.tup (x :: l)) = .ok (.tup (x :: l))) ∧
    tuplize pf (.tup (.str c!"(" :: l)) = .error .attrErr ∧
    (∀ c s, c ≠ '(' → tuplize pf (.str (c :: s)) = .ok (.str (c :: s))) ∧
    tuplize pf (.str []) = .error .indexErr ∧ tuplize pf (.tup []) = .error .indexErr := by
  refine ⟨fun h => ?_, rfl, fun c s h => ?_, rfl, rfl⟩
  · simp [tuplize, Py.index0, ok_bind, h, pure, Except.pure]
  · simp [tuplize, Py.index0, ok_bind, h, pure, Except.pure]

/-- A number in a relation can be read but not written. -/
theorem C46_number (pf : PStr → Option Py) (ha : pf c!"a" = none) (h3 : pf c!"3" = some (.num 3)) :
    tuplize pf (.str c!"(a 3)") = .ok (.tup [.str c!"a", .num 3]) ∧
    stringify (.tup [.str c!"a", .num 3]) = .error .typeErr := by
  constructor
  · simp [tuplize, Py.index0, ok_bind, splitSp, tupLoop, tupStep, stripEnd, pushAtom, closeN, readAtom, ha, h3,
      toTuple]
  · rfl

/-- Two spaces in a row raise `IndexError`. -/
theorem C46_two_spaces (pf : PStr → Option Py) : tuplize pf (.str c!"(a  b)") = .error .indexErr := by
  simp [tuplize, Py.index0, ok_bind, splitSp, tupLoop, tupStep, stripEnd, pushAtom, closeN, error_bind]

/-- An attribute that is a tuple already becomes a string. -/
theorem C46_tuple_attribute (pf : PStr → Option Py) :
    (mapKeys (tuplize pf) [(.tup [.str c!"a", .str c!"b"], .bool true)] []).bind
      (fun o => mapKeys stringify o []) = .ok [(.str c!"(a b)", .bool true)] := rfl

/-- No string is a number. -/
def noNumbers : PStr → Option Py := fun _ => none

/-- The example of the code's documentation, `(foo1 o1 (foo2 o2 o3))`, is a relation. -/
def demoRel : Py := .tup [.str c!"foo1", .str c!"o1", .tup [.str c!"foo2", .str c!"o2", .str c!"o3"]]

theorem demoRel_ok : Relation noNumbers demoRel := by
  simp [demoRel, Relation, RelationArgs, RelName, noNumbers]

example : written demoRel = c!"(foo1 o1 (foo2 o2 o3))" := rfl

example : TupAttr noNumbers (.str c!"(foo1 o1 (foo2 o2 o3))") ∧ TupAttr noNumbers (.str c!"x") :=
  ⟨.inr ⟨demoRel, demoRel_ok, rfl⟩, .inl ⟨'x', [], rfl, by decide⟩⟩

/-- `(foo1 o1 (foo2 o2 o3))` is well closed, `(a b))` and `(a ())` are not. -/
example : wordsOf c!"(foo1 o1 (foo2 o2 o3))" = [c!"(foo1", c!"o1", c!"(foo2", c!"o2", c!"o3))"] ∧
    closings c!"o3))" = 2 ∧ wordAtom c!"o3))" = c!"o3" ∧ wordAtom c!"(foo2" = c!"foo2" ∧ wordAtom c!"())" = [] := by
  decide +kernel

example : WellClosed (wordsOf c!"(foo1 o1 (foo2 o2 o3))") := by
  rw [wellClosed_iff]
  have e : wordsOf c!"(foo1 o1 (foo2 o2 o3))" = [c!"(foo1", c!"o1", c!"(foo2", c!"o2", c!"o3))"] := by decide +kernel
  rw [e]
  simp only [closedFrom_cons]
  refine ⟨by decide, by decide, by decide, by decide, by decide, by simp, by simp [openings]⟩

example : ¬ WellClosed (wordsOf c!"(a b))") := by
  rw [wellClosed_iff]
  have e : wordsOf c!"(a b))" = [c!"(a", c!"b))"] := by decide +kernel
  rw [e]
  simp only [closedFrom_cons]
  rintro ⟨-, ⟨-, h⟩, -⟩
  exact absurd h (by decide)

example : mapKeys (tuplize noNumbers) [(.str c!"(foo1 o1 (foo2 o2 o3))", .bool true), (.str c!"x", .num 1)] [] =
    .ok [(demoRel, .bool true), (.str c!"x", .num 1)] := by decide +kernel

end CF
