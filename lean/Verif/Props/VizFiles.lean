/-
C111: the files written by the visualisations.
-/
import Verif.Model.VizFiles
import Verif.Props.Visualize

namespace CF
variable {D : Type} [DecidableEq D]

/-- The files that are copied with the page. -/
def supportFiles : List String := ["viz.html", "viz_logic.js", "viz_styling.css"]

/-- The supporting files are copied: when that is asked for, or there is no page yet. -/
def Copying (d : Disk D) (dst : D) (recreate : Bool) : Prop := recreate = true ∨ d.file (dst, "viz.html") = none

instance (d : Disk D) (dst : D) (recreate : Bool) : Decidable (Copying d dst recreate) :=
  inferInstanceAs (Decidable (_ ∨ _))

/-- The disk `d'` is `d` with a visualisation in `dst`, whose data are written in `text`. -/
def VizIn (home : D) (text : String) (dst : D) (recreate : Bool) (d d' : Disk D) : Prop :=
  d'.dirs = d.dirs ∧
  d'.file (dst, "output.js") = some text ∧
  (∀ n ∈ supportFiles, d'.file (dst, n) = if Copying d dst recreate then d.file (home, n) else d.file (dst, n)) ∧
  ∀ p : FilePath D, (p.1 = dst → p.2 ≠ "output.js" ∧ p.2 ∉ supportFiles) → d'.file p = d.file p

omit [DecidableEq D] in
theorem copying_iff (d : Disk D) (dst : D) (recreate : Bool) :
    (recreate || (d.file (dst, "viz.html")).isNone) = true ↔ Copying d dst recreate := by
  simp [Copying]

theorem writeFile_ok {p : FilePath D} {d : Disk D} (h : d.dirs p.1 = true) (text : String) :
    writeFile p text d = (.ok (), { d with file := Function.update d.file p (some text) }) := by
  simp [writeFile, h]

theorem writeOutput_ok {p : FilePath D} {d : Disk D} (h : d.dirs p.1 = true) (j : String) :
    writeOutput p (some j) d = (.ok (), { d with file := Function.update d.file p (some (outputText j)) }) := by
  simp [writeOutput, writeFile, h]

theorem copyViz_ok {home dst : D} {n : String} {d : Disk D} {text : String} (h : d.dirs dst = true) (hne : home ≠ dst)
    (hn : d.file (home, n) = some text) :
    copyViz home n dst d = (.ok (dst, n), { d with file := Function.update d.file (dst, n) (some text) }) := by
  simp [copyViz, copyFile, hn, hne, writeFile, h]

/-- The disk after the supporting files are copied. -/
theorem copyAll_ok {home dst : D} {d : Disk D} (h : d.dirs dst = true) (hne : home ≠ dst)
    (hs : ∀ n ∈ supportFiles, d.file (home, n) ≠ none) :
    ∃ d', copyAll home dst d = (.ok (dst, "viz.html"), d') ∧ d'.dirs = d.dirs ∧
      (∀ n ∈ supportFiles, d'.file (dst, n) = d.file (home, n)) ∧
      ∀ p : FilePath D, (p.1 = dst → p.2 ∉ supportFiles) → d'.file p = d.file p := by
  obtain ⟨a, ha⟩ := Option.ne_none_iff_exists'.1 (hs "viz.html" (by simp [supportFiles]))
  obtain ⟨b, hb⟩ := Option.ne_none_iff_exists'.1 (hs "viz_logic.js" (by simp [supportFiles]))
  obtain ⟨c, hc⟩ := Option.ne_none_iff_exists'.1 (hs "viz_styling.css" (by simp [supportFiles]))
  refine ⟨{ d with file := Function.update (Function.update (Function.update d.file (dst, "viz.html") (some a))
    (dst, "viz_logic.js") (some b)) (dst, "viz_styling.css") (some c) }, ?_, rfl, ?_, ?_⟩
  · unfold copyAll
    rw [copyViz_ok h hne ha]
    dsimp only
    rw [copyViz_ok (text := b) (by exact h) hne (by simp [hne, hb])]
    dsimp only
    rw [copyViz_ok (text := c) (by exact h) hne (by simp [hne, hc])]
  · simp [supportFiles, Function.update_apply, ha, hb, hc]
  · rintro ⟨q, n⟩ hp
    have : ∀ m ∈ supportFiles, (q, n) ≠ (dst, m) := by
      rintro m hm e
      cases e
      exact hp rfl hm
    simp only [supportFiles, List.mem_cons, List.not_mem_nil, or_false, forall_eq_or_imp, forall_eq] at this
    obtain ⟨h1, h2, h3⟩ := this
    simp [h1, h2, h3]

/-- Called with a directory that exists and is not the one in the package, the function returns, opens the page in that
directory, has written the data and, when it copies, the three supporting files, and has changed no other file. -/
theorem C111_writes {home dst : D} (j : String) (recreate : Bool) {d : Disk D} (hd : d.dirs dst = true)
    (hc : Copying d dst recreate → home ≠ dst ∧ ∀ n ∈ supportFiles, d.file (home, n) ≠ none) :
    ∃ d', genViz home (some j) (some dst) recreate d = (.ok (dst, "viz.html"), d') ∧
      VizIn home ("(function (){ window.trestle_output=" ++ j ++ "; })();") dst recreate d d' := by
  by_cases hcopy : Copying d dst recreate
  · obtain ⟨hne, hs⟩ := hc hcopy
    obtain ⟨d1, e1, hdirs, hsup, hrest⟩ := copyAll_ok hd hne hs
    have hd1 : d1.dirs dst = true := by rw [hdirs]; exact hd
    refine ⟨{ d1 with file := Function.update d1.file (dst, "output.js") (some (outputText j)) }, ?_, hdirs, ?_, ?_, ?_⟩
    · simp only [genViz, (copying_iff d dst recreate).2 hcopy, if_true, e1]
      rw [writeOutput_ok (by exact hd1)]
    · exact Function.update_self ..
    · intro n hn
      have hno : n ≠ "output.js" := by
        rintro rfl
        simp [supportFiles] at hn
      simp only [if_pos hcopy]
      rw [← hsup n hn, Function.update_of_ne (by simpa using hno)]
    · rintro p hp
      have : p ≠ (dst, "output.js") := by
        rintro rfl
        exact (hp rfl).1 rfl
      show Function.update d1.file (dst, "output.js") _ p = _
      rw [Function.update_of_ne this, hrest p fun e => (hp e).2]
  · have hb : ¬ (recreate || (d.file (dst, "viz.html")).isNone) = true := fun h => hcopy ((copying_iff _ _ _).1 h)
    refine ⟨{ d with file := Function.update d.file (dst, "output.js") (some (outputText j)) }, ?_, rfl, ?_, ?_, ?_⟩
    · simp only [genViz, if_neg hb]
      rw [writeOutput_ok (by exact hd)]
    · exact Function.update_self ..
    · intro n hn
      have hno : n ≠ "output.js" := by
        rintro rfl
        simp [supportFiles] at hn
      rw [if_neg hcopy]
      exact Function.update_of_ne (by simpa using hno) _ _
    · rintro p hp
      have : p ≠ (dst, "output.js") := by
        rintro rfl
        exact (hp rfl).1 rfl
      exact Function.update_of_ne this _ _

/-- Called without a directory it writes the data into the package. -/
theorem C111_in_place {home : D} (j : String) (recreate : Bool) {d : Disk D} (hd : d.dirs home = true) :
    ∃ d', genViz home (some j) none recreate d = (.ok (home, "viz.html"), d') ∧ d'.dirs = d.dirs ∧
      d'.file (home, "output.js") = some ("(function (){ window.trestle_output=" ++ j ++ "; })();") ∧
      ∀ p, p ≠ (home, "output.js") → d'.file p = d.file p := by
  refine ⟨{ d with file := Function.update d.file (home, "output.js") (some (outputText j)) }, ?_, rfl, ?_, ?_⟩
  · simp only [genViz]
    rw [writeOutput_ok (by exact hd)]
  · exact Function.update_self ..
  · exact fun p hp => Function.update_of_ne hp _ _

/-- The text determines what is shown. -/
theorem C111_text {j j' : String} (h : outputText j = outputText j') : j = j' := by
  unfold outputText at h
  have := congrArg String.toList h
  simp only [String.toList_append, List.append_cancel_left_eq, List.append_cancel_right_eq] at this
  exact String.toList_inj.1 this

/-- "If None no files will be generated": whatever was in the package, it is not left as it was for every tree. -/
theorem C111_none_writes {home : D} (recreate : Bool) {d : Disk D} (hd : d.dirs home = true) (j j' : String)
    (hne : j ≠ j') :
    ¬ ((genViz home (some j) none recreate d).2.file = d.file ∧
      (genViz home (some j') none recreate d).2.file = d.file) := by
  rintro ⟨h, h'⟩
  obtain ⟨d1, e1, -, o1, -⟩ := C111_in_place j recreate hd
  obtain ⟨d2, e2, -, o2, -⟩ := C111_in_place j' recreate hd
  rw [e1] at h
  rw [e2] at h'
  simp only at h h'
  rw [h] at o1
  rw [h', o1] at o2
  exact hne (C111_text (Option.some.inj o2))

/-- A copy that raises. -/
theorem copyViz_error {home dst : D} {n : String} {d : Disk D}
    (h : d.file (home, n) = none ∨ home = dst ∨ d.dirs dst = false) :
    ∃ e, copyViz home n dst d = (.error e, d) := by
  unfold copyViz copyFile
  cases hf : d.file (home, n) with
  | none => exact ⟨_, rfl⟩
  | some text =>
    rcases h with h | h | h
    · rw [hf] at h; cases h
    · subst h
      exact ⟨.sameFile, by simp⟩
    · by_cases he : home = dst
      · subst he
        exact ⟨.sameFile, by simp⟩
      · exact ⟨.notFound, by simp [he, writeFile, h]⟩

theorem copyAll_error {home dst : D} {d : Disk D}
    (h : home = dst ∨ d.dirs dst = false ∨ ∃ n ∈ supportFiles, d.file (home, n) = none) :
    ∃ e d', copyAll home dst d = (.error e, d') := by
  by_cases h1 : home = dst ∨ d.dirs dst = false
  · obtain ⟨e, he⟩ := copyViz_error (n := "viz.html") (d := d) (Or.inr h1)
    exact ⟨e, d, by simp [copyAll, he]⟩
  push Not at h1
  have hd : d.dirs dst = true := by simpa using h1.2
  have h : ∃ n ∈ supportFiles, d.file (home, n) = none := by
    rcases h with h | h | h
    · exact absurd h h1.1
    · rw [hd] at h; cases h
    · exact h
  cases ha : d.file (home, "viz.html") with
  | none =>
    obtain ⟨e, he⟩ := copyViz_error (dst := dst) (d := d) (Or.inl ha)
    exact ⟨e, d, by simp [copyAll, he]⟩
  | some a =>
    unfold copyAll
    rw [copyViz_ok hd h1.1 ha]
    dsimp only
    cases hb : d.file (home, "viz_logic.js") with
    | none =>
      obtain ⟨e, he⟩ := copyViz_error (home := home) (dst := dst) (n := "viz_logic.js")
        (d := { d with file := Function.update d.file (dst, "viz.html") (some a) })
        (Or.inl (by simp [h1.1, hb]))
      rw [he]
      exact ⟨_, _, rfl⟩
    | some b =>
      rw [copyViz_ok (text := b) (by exact hd) h1.1 (by simp [h1.1, hb])]
      dsimp only
      obtain ⟨n, hn, hno⟩ := h
      have hc : d.file (home, "viz_styling.css") = none := by
        simp only [supportFiles, List.mem_cons, List.not_mem_nil, or_false] at hn
        rcases hn with rfl | rfl | rfl
        · rw [ha] at hno; cases hno
        · rw [hb] at hno; cases hno
        · exact hno
      generalize hd2 : ({ d with file := _ } : Disk D) = d2
      obtain ⟨e, he⟩ := copyViz_error (home := home) (dst := dst) (n := "viz_styling.css") (d := d2)
        (Or.inl (by subst hd2; simp [h1.1, hc]))
      rw [he]
      exact ⟨_, _, rfl⟩

/-- With a directory, it raises exactly when the data cannot be written as JSON, the directory does not exist, or files
are to be copied and the directory is that of the package or one of them is missing there. -/
theorem C111_raises {home dst : D} (json : Option String) (recreate : Bool) (d : Disk D) :
    (∃ e, (genViz home json (some dst) recreate d).1 = .error e) ↔
      json = none ∨ d.dirs dst = false ∨
        (Copying d dst recreate ∧ (home = dst ∨ ∃ n ∈ supportFiles, d.file (home, n) = none)) := by
  constructor
  · rintro ⟨e, he⟩
    by_contra hcon
    push Not at hcon
    obtain ⟨hj, hd, hc⟩ := hcon
    obtain ⟨j, rfl⟩ := Option.ne_none_iff_exists'.1 hj
    obtain ⟨d', e', -⟩ := C111_writes (home := home) j recreate (by simpa using hd) fun h => hc h
    rw [e'] at he
    cases he
  · have hdir : d.dirs dst = false → ∃ e, (genViz home json (some dst) recreate d).1 = .error e := by
      intro hd
      by_cases hcopy : Copying d dst recreate
      · obtain ⟨e, d', he⟩ := copyAll_error (home := home) (Or.inr (Or.inl hd))
        exact ⟨e, by simp [genViz, (copying_iff d dst recreate).2 hcopy, he]⟩
      · have hb : ¬ (recreate || (d.file (dst, "viz.html")).isNone) = true := fun h => hcopy ((copying_iff _ _ _).1 h)
        exact ⟨.notFound, by simp only [genViz, if_neg hb, writeOutput, writeFile, hd]; rfl⟩
    rintro (rfl | hd | ⟨hcopy, h⟩)
    · by_cases hd : d.dirs dst = false
      · exact hdir hd
      have hd : d.dirs dst = true := by simpa using hd
      by_cases hcopy : Copying d dst recreate
      · by_cases hbad : home = dst ∨ d.dirs dst = false ∨ ∃ n ∈ supportFiles, d.file (home, n) = none
        · obtain ⟨e, d', he⟩ := copyAll_error hbad
          exact ⟨e, by simp [genViz, (copying_iff d dst recreate).2 hcopy, he]⟩
        · push Not at hbad
          obtain ⟨d1, e1, hdirs, -⟩ := copyAll_ok hd hbad.1 hbad.2.2
          have hd1 : d1.dirs dst = true := by rw [hdirs]; exact hd
          exact ⟨.notJson, by
            simp [genViz, (copying_iff d dst recreate).2 hcopy, e1, writeOutput, writeFile, hd1]⟩
      · have hb : ¬ (recreate || (d.file (dst, "viz.html")).isNone) = true := fun h => hcopy ((copying_iff _ _ _).1 h)
        exact ⟨.notJson, by simp only [genViz, if_neg hb, writeOutput, writeFile, hd, if_true]⟩
    · exact hdir hd
    · obtain ⟨e, d', he⟩ := copyAll_error (home := home) (dst := dst) (d := d) (by tauto)
      exact ⟨e, by simp [genViz, (copying_iff d dst recreate).2 hcopy, he]⟩

/-- Without a directory, it raises exactly when the data cannot be written as JSON or the package has no directory for
the visualisation. -/
theorem C111_raises_none {home : D} (json : Option String) (recreate : Bool) (d : Disk D) :
    (∃ e, (genViz home json none recreate d).1 = .error e) ↔ json = none ∨ d.dirs home = false := by
  cases json <;> cases hd : d.dirs home <;> simp [genViz, writeOutput, writeFile, hd]

/-- Data that cannot be written as JSON: the exception comes after what was in `output.js` has been lost. -/
theorem C111_emptied {home : D} (recreate : Bool) {d : Disk D} (hd : d.dirs home = true) :
    genViz home none none recreate d =
      (.error .notJson, { d with file := Function.update d.file (home, "output.js") (some "") }) := by
  simp [genViz, writeOutput, writeFile, hd]

/-- The same in a directory: the old page is there and shows nothing. -/
theorem C111_emptied_in {home dst : D} (recreate : Bool) {d : Disk D} (hd : d.dirs dst = true)
    (hc : Copying d dst recreate → home ≠ dst ∧ ∀ n ∈ supportFiles, d.file (home, n) ≠ none) :
    (genViz home none (some dst) recreate d).1 = .error .notJson ∧
      VizIn home "" dst recreate d (genViz home none (some dst) recreate d).2 := by
  by_cases hcopy : Copying d dst recreate
  · obtain ⟨hne, hs⟩ := hc hcopy
    obtain ⟨d1, e1, hdirs, hsup, hrest⟩ := copyAll_ok hd hne hs
    have hd1 : d1.dirs dst = true := by rw [hdirs]; exact hd
    have e : genViz home none (some dst) recreate d =
        (.error .notJson, { d1 with file := Function.update d1.file (dst, "output.js") (some "") }) := by
      simp [genViz, (copying_iff d dst recreate).2 hcopy, e1, writeOutput, writeFile, hd1]
    rw [e]
    refine ⟨rfl, hdirs, by simp, ?_, ?_⟩
    · intro n hn
      have hno : n ≠ "output.js" := by
        rintro rfl
        simp [supportFiles] at hn
      simp only [if_pos hcopy]
      rw [← hsup n hn, Function.update_of_ne (by simpa using hno)]
    · rintro p hp
      have : p ≠ (dst, "output.js") := by
        rintro rfl
        exact (hp rfl).1 rfl
      show Function.update d1.file (dst, "output.js") _ p = _
      rw [Function.update_of_ne this, hrest p fun e => (hp e).2]
  · have hb : ¬ (recreate || (d.file (dst, "viz.html")).isNone) = true := fun h => hcopy ((copying_iff _ _ _).1 h)
    have e : genViz home none (some dst) recreate d =
        (.error .notJson, { d with file := Function.update d.file (dst, "output.js") (some "") }) := by
      simp only [genViz, if_neg hb, writeOutput, writeFile, hd, if_true]
    rw [e]
    refine ⟨rfl, rfl, by simp, ?_, ?_⟩
    · intro n hn
      have hno : n ≠ "output.js" := by
        rintro rfl
        simp [supportFiles] at hn
      rw [if_neg hcopy]
      exact Function.update_of_ne (by simpa using hno) _ _
    · rintro p hp
      have : p ≠ (dst, "output.js") := by
        rintro rfl
        exact (hp rfl).1 rfl
      exact Function.update_of_ne this _ _

/-- With the directory of the package, the default arguments raise before the data are written, and nothing is
changed. -/
theorem C111_same_file {home : D} (json : Option String) {d : Disk D} (h : d.file (home, "viz.html") ≠ none) :
    genViz home json (some home) true d = (.error .sameFile, d) := by
  obtain ⟨a, ha⟩ := Option.ne_none_iff_exists'.1 h
  simp [genViz, copyAll, copyViz, copyFile, ha]

omit [DecidableEq D] in
/-- A disk is described by what is in it. -/
theorem Disk.eq_of {d d' : Disk D} (h : d.dirs = d'.dirs) (h' : d.file = d'.file) : d = d' := by
  cases d; cases d'; cases h; cases h'; rfl

/-- Only the last of two calls with the same directory is to be seen: the result is that of the second alone. -/
theorem C111_last {home dst : D} (j j' : String) (recreate : Bool) {d : Disk D} (hd : d.dirs dst = true)
    (hc : Copying d dst recreate → home ≠ dst ∧ ∀ n ∈ supportFiles, d.file (home, n) ≠ none) :
    genViz home (some j') (some dst) recreate (genViz home (some j) (some dst) recreate d).2 =
      genViz home (some j') (some dst) recreate d := by
  obtain ⟨d1, e1, h1, o1, s1, r1⟩ := C111_writes j recreate hd hc
  obtain ⟨d2, e2, h2, o2, s2, r2⟩ := C111_writes j' recreate hd hc
  rw [e1, e2]
  have hhome : Copying d dst recreate → ∀ n, d1.file (home, n) = d.file (home, n) := fun h n =>
    r1 (home, n) fun e => absurd e (hc h).1
  have hcopy : Copying d1 dst recreate → Copying d dst recreate := by
    rintro (h | h)
    · exact Or.inl h
    · by_contra hn
      rw [s1 "viz.html" (by simp [supportFiles]), if_neg hn] at h
      exact hn (Or.inr h)
  obtain ⟨d3, e3, h3, o3, s3, r3⟩ := C111_writes (home := home) (dst := dst) j' recreate (d := d1) (by rw [h1]; exact hd)
    fun h => ⟨(hc (hcopy h)).1, fun n hn => by rw [hhome (hcopy h)]; exact (hc (hcopy h)).2 n hn⟩
  rw [e3]
  refine congrArg _ (Disk.eq_of (by rw [h3, h1, h2]) ?_)
  funext ⟨q, n⟩
  by_cases hq : q = dst
  · subst hq
    by_cases hn : n = "output.js"
    · subst hn
      rw [o3, o2]
    · by_cases hs : n ∈ supportFiles
      · rw [s3 n hs, s2 n hs]
        by_cases hcd : Copying d q recreate
        · rw [if_pos hcd]
          by_cases hc1 : Copying d1 q recreate
          · rw [if_pos hc1, hhome hcd]
          · rw [if_neg hc1, s1 n hs, if_pos hcd]
        · rw [if_neg hcd, if_neg fun h => hcd (hcopy h), s1 n hs, if_neg hcd]
      · rw [r3 _ fun _ => ⟨hn, hs⟩, r1 _ fun _ => ⟨hn, hs⟩, r2 _ fun _ => ⟨hn, hs⟩]
  · rw [r3 _ fun e => absurd e hq, r1 _ fun e => absurd e hq, r2 _ fun e => absurd e hq]

/-- Two trees shown without a directory are shown on one page, which is then that of the second. -/
theorem C111_one_page {home : D} (j j' : String) (r r' : Bool) {d : Disk D} (hd : d.dirs home = true) :
    (genViz home (some j) none r d).1 = (genViz home (some j') none r' (genViz home (some j) none r d).2).1 ∧
    genViz home (some j') none r' (genViz home (some j) none r d).2 = genViz home (some j') none r' d := by
  simp [genViz, writeOutput, writeFile, hd]

/-- Without `recreate_html`, a page that is there is taken for all three files: the call returns, whether or not the
script of the page exists. -/
theorem C111_incomplete {home dst : D} (j : String) {d : Disk D} (hd : d.dirs dst = true)
    (hp : d.file (dst, "viz.html") ≠ none) (hl : d.file (dst, "viz_logic.js") = none) :
    ∃ d', genViz home (some j) (some dst) false d = (.ok (dst, "viz.html"), d') ∧
      d'.file (dst, "viz_logic.js") = none := by
  have hn : ¬ Copying d dst false := by
    rintro (h | h)
    · cases h
    · exact hp h
  obtain ⟨d', e, -, -, hs, -⟩ := C111_writes (home := home) j false hd fun h => absurd h hn
  exact ⟨d', e, by rw [hs _ (by simp [supportFiles]), if_neg hn, hl]⟩

section
variable {S P : Type}

/-- `visualize`: the data that are written are those of an object that shows all concepts of the tree. -/
theorem C111_visualize (entries : S → P) (dumps : JOb P → Option String) {home dst : D} (t : Tree S) (recreate : Bool)
    {d : Disk D} (hdump : ∀ x, dumps x ≠ none) (hd : d.dirs dst = true)
    (hc : Copying d dst recreate → home ≠ dst ∧ ∀ n ∈ supportFiles, d.file (home, n) ≠ none) :
    ∃ d' x j, visualizeTo entries dumps home t (some dst) recreate d = (.ok (dst, "viz.html"), d') ∧
      Shows entries t (fun _ _ => True) x ∧ dumps x = some j ∧
      VizIn home ("(function (){ window.trestle_output=" ++ j ++ "; })();") dst recreate d d' := by
  obtain ⟨j, hj⟩ := Option.ne_none_iff_exists'.1 (hdump (visualize entries t))
  obtain ⟨d', e, h⟩ := C111_writes (home := home) j recreate hd hc
  exact ⟨d', _, j, by rw [visualizeTo, hj, e], C61_visualize entries t, hj, h⟩

/-- `visualize_no_leaves`: likewise, with the concepts that are high enough. -/
theorem C111_no_leaves (entries : S → P) (dumps : JOb P → Option String) {home dst : D} (t : Tree S) (cuts : ℤ)
    (recreate : Bool) {d : Disk D} (hdump : ∀ x, dumps x ≠ none) (hd : d.dirs dst = true)
    (hc : Copying d dst recreate → home ≠ dst ∧ ∀ n ∈ supportFiles, d.file (home, n) ≠ none) :
    ∃ d' x j, visualizeNoLeavesTo entries dumps home t cuts (some dst) recreate d = (.ok (dst, "viz.html"), d') ∧
      Shows entries t (fun anc x => anc = [] ∨ cuts ≤ x.heightOf) x ∧ dumps x = some j ∧
      VizIn home ("(function (){ window.trestle_output=" ++ j ++ "; })();") dst recreate d d' := by
  obtain ⟨j, hj⟩ := Option.ne_none_iff_exists'.1 (hdump (visualizeNoLeaves entries t cuts))
  obtain ⟨d', e, h⟩ := C111_writes (home := home) j recreate hd hc
  exact ⟨d', _, j, by rw [visualizeNoLeavesTo, hj, e], C61_no_leaves entries t cuts, hj, h⟩

/-- `visualize_clusters` with labels of concepts: likewise, down to the clusters. -/
theorem C111_clusters (entries : S → P) (dumps : JOb P → Option String) {home dst : D} (t : Tree S) (ids : List ℕ)
    (recreate : Bool) {d : Disk D} (hids : ids ≠ []) (hdump : ∀ x, dumps x ≠ none) (hd : d.dirs dst = true)
    (hc : Copying d dst recreate → home ≠ dst ∧ ∀ n ∈ supportFiles, d.file (home, n) ≠ none) :
    ∃ d' x j, visualizeClustersTo entries dumps home t (ids.map fun n => .label s!"Concept{n}") (some dst) recreate d =
        (some (.ok (dst, "viz.html")), d') ∧
      Shows entries t (fun anc _ => ∀ p ∈ anc, p.1 ∉ ids) x ∧ dumps x = some j ∧
      VizIn home ("(function (){ window.trestle_output=" ++ j ++ "; })();") dst recreate d d' := by
  obtain ⟨x, hx, hshow⟩ := C61_labels_partial entries t ids [] (by simp) (Or.inl hids)
  rw [List.map_nil, List.append_nil] at hx
  obtain ⟨j, hj⟩ := Option.ne_none_iff_exists'.1 (hdump x)
  obtain ⟨d', e, h⟩ := C111_writes (home := home) j recreate hd hc
  exact ⟨d', x, j, by simp only [visualizeClustersTo, hx, hj, e], hshow, hj, h⟩

/-- `visualize_clusters` without clusters raises and writes nothing. -/
theorem C111_no_clusters (entries : S → P) (dumps : JOb P → Option String) (home : D) (t : Tree S) (dst : Option D)
    (recreate : Bool) (d : Disk D) : visualizeClustersTo entries dumps home t [] dst recreate d = (none, d) := rfl

end

/-! Examples: directories are numbers, 0 is that of the package, 1 is an empty directory. -/

/-- The package, and an empty directory. -/
def demoDisk : Disk ℕ where
  dirs n := n ≤ 1
  file p := if p.1 = 0 ∧ p.2 ∈ supportFiles then some ("packaged " ++ p.2) else none

example : ∃ d', genViz 0 (some "{}") (some 1) false demoDisk = (.ok (1, "viz.html"), d') ∧
    d'.file (1, "viz_logic.js") = some "packaged viz_logic.js" ∧
    d'.file (1, "output.js") = some "(function (){ window.trestle_output={}; })();" := by
  obtain ⟨d', e, -, o, s, -⟩ := C111_writes (home := 0) (dst := 1) "{}" false (d := demoDisk) (by simp [demoDisk])
    fun _ => ⟨by simp, by simp [demoDisk, supportFiles]⟩
  exact ⟨d', e, by rw [s _ (by simp [supportFiles])]; simp [Copying, demoDisk, supportFiles], o⟩

example : (genViz 0 (some "{}") (some 2) true demoDisk).1 = .error .notFound ∧
    (genViz 0 (some "{}") (some 0) true demoDisk).1 = .error .sameFile ∧
    (genViz 0 (some "{}") (some 0) false demoDisk).1 = .ok (0, "viz.html") := by
  decide +kernel

/-- A package without its script: the page is copied and the call raises; then, without `recreate_html`, the next one
returns and shows the page without the script. -/
example : let d : Disk ℕ := { demoDisk with file := Function.update demoDisk.file (0, "viz_logic.js") none }
    let r := genViz 0 (some "{}") (some 1) false d
    r.1 = .error .notFound ∧ (genViz 0 (some "{}") (some 1) false r.2).1 = .ok (1, "viz.html") ∧
      (genViz 0 (some "{}") (some 1) false r.2).2.file (1, "viz_logic.js") = none := by
  decide +kernel

end CF
