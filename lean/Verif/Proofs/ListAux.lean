/-
List facts about removing children by position.
-/
import Verif.Model.Cobweb
import Mathlib.Data.List.Perm.Basic
import Mathlib.Data.List.Nodup

namespace CF

theorem perm_cons_filter_snd {α : Type} {l : List (α × ℕ)} (hnd : (l.map Prod.snd).Nodup)
    {x : α} {i : ℕ} (h : (x, i) ∈ l) :
    l.Perm ((x, i) :: l.filter fun p => decide (p.2 ≠ i)) := by
  induction l with
  | nil => simp at h
  | cons q l ih =>
    simp only [List.map_cons, List.nodup_cons] at hnd
    rcases List.mem_cons.1 h with rfl | h
    · have : l.filter (fun p => decide (p.2 ≠ i)) = l := by
        apply List.filter_eq_self.2
        intro p hp
        simp only [decide_eq_true_eq]
        rintro rfl
        exact hnd.1 (List.mem_map.2 ⟨_, hp, rfl⟩)
      rw [List.filter_cons_of_neg (by simp), this]
    · have hq : q.2 ≠ i := by
        rintro rfl
        exact hnd.1 (List.mem_map.2 ⟨_, h, rfl⟩)
      rw [List.filter_cons_of_pos (by simpa using hq)]
      exact ((ih hnd.2 h).cons q).trans (List.Perm.swap _ _ _)

theorem perm_dropTwo {α : Type} {cs : List α} {i j : ℕ} {x y : α} (hij : j ≠ i)
    (hx : cs[i]? = some x) (hy : cs[j]? = some y) :
    cs.Perm (x :: y :: dropTwo cs i j) := by
  have hnd : (cs.zipIdx.map Prod.snd).Nodup := by
    rw [List.zipIdx_map_snd]; exact List.nodup_range'
  have h1 : (x, i) ∈ cs.zipIdx := by
    rw [List.mem_zipIdx_iff_getElem?]; exact hx
  have h2 : (y, j) ∈ cs.zipIdx := by
    rw [List.mem_zipIdx_iff_getElem?]; exact hy
  have p1 := perm_cons_filter_snd hnd h1
  have hnd' : ((cs.zipIdx.filter fun p => decide (p.2 ≠ i)).map Prod.snd).Nodup :=
    (List.filter_sublist.map _).nodup hnd
  have p2 := perm_cons_filter_snd hnd' (x := y) (i := j)
    (List.mem_filter.2 ⟨h2, by simpa using hij⟩)
  have p3 := (p1.trans (p2.cons _)).map Prod.fst
  rw [List.zipIdx_map_fst] at p3
  simp only [List.map_cons, List.filter_filter] at p3
  have e : dropTwo cs i j = List.map Prod.fst (List.filter
      (fun a : α × ℕ => decide (a.2 ≠ j) && decide (a.2 ≠ i)) cs.zipIdx) := by
    unfold dropTwo
    congr 2
    funext a
    by_cases h1 : a.2 = i <;> by_cases h2 : a.2 = j <;> simp [h1, h2]
  rw [e]; exact p3

theorem length_dropTwo {α : Type} {cs : List α} {i j : ℕ} {x y : α} (hij : j ≠ i)
    (hx : cs[i]? = some x) (hy : cs[j]? = some y) :
    (dropTwo cs i j).length + 2 = cs.length := by
  have := (perm_dropTwo hij hx hy).length_eq
  simp at this; omega

theorem perm_eraseIdx {α : Type} {cs : List α} {i : ℕ} {x : α} (hx : cs[i]? = some x) :
    cs.Perm (x :: cs.eraseIdx i) := by
  obtain ⟨h, rfl⟩ := List.getElem?_eq_some_iff.1 hx
  exact (List.getElem_cons_eraseIdx_perm h).symm

theorem perm_set {α : Type} {cs : List α} {i : ℕ} {x : α} (hx : cs[i]? = some x) (y : α) :
    (cs.set i y).Perm (y :: cs.eraseIdx i) := by
  have h : (cs.set i y)[i]? = some y := by
    obtain ⟨h, -⟩ := List.getElem?_eq_some_iff.1 hx
    simp [h]
  have := perm_eraseIdx h
  rwa [List.eraseIdx_set_eq] at this

theorem perm_putChild {S : Type} {cs : List (Tree S)} {i : ℕ} {t : Tree S} (hx : cs[i]? = some t)
    (o : Out S) : (putChild cs i o).Perm (o.tree :: cs.eraseIdx i) := by
  unfold putChild
  split
  · exact List.perm_append_singleton _ _
  · exact perm_set hx _

end CF
