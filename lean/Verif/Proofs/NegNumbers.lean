/-
Numbers for the tree with a negative category utility (C85).
-/
import Verif.Proofs.PlanePoints

namespace CF

/-- The five points, in the order in which they are fitted: `D`, `B`, `A`, `C`, `E`. -/
def negD : ℝ × ℝ := (1000, 1000)
def negB : ℝ × ℝ := (0, 0)
def negA : ℝ × ℝ := (10, 0)
def negC : ℝ × ℝ := (0, 1)
def negE : ℝ × ℝ := (-1000000, -1000)

/-- The first three points, the first four, all. -/
def negHist3 : List (ℝ × ℝ) := [negD, negB, negA]
def negHist4 : List (ℝ × ℝ) := [negD, negB, negA, negC]
def negHist5 : List (ℝ × ℝ) := [negD, negB, negA, negC, negE]

theorem negVar_ab0 : listVar [(10 : ℝ), 0] = 50 / 1 / 0.7978845608028654 ^ 2 := by
  rw [listVar_eq (c := 0.7978845608028654) (by simp) rfl]
  norm_num

theorem negVar_dba0 : listVar [(1000 : ℝ), 0, 10] = 990100 / 3 / 0.886226925452758 ^ 2 := by
  rw [listVar_eq (c := 0.886226925452758) (by simp) rfl]
  norm_num

theorem negVar_ab1 : listVar [(0 : ℝ), 0] = 0 / 1 / 0.7978845608028654 ^ 2 := by
  rw [listVar_eq (c := 0.7978845608028654) (by simp) rfl]
  norm_num

theorem negVar_dba1 : listVar [(1000 : ℝ), 0, 0] = 1000000 / 3 / 0.886226925452758 ^ 2 := by
  rw [listVar_eq (c := 0.886226925452758) (by simp) rfl]
  norm_num

theorem negVar_ad0 : listVar [(10 : ℝ), 1000] = 490050 / 1 / 0.7978845608028654 ^ 2 := by
  rw [listVar_eq (c := 0.7978845608028654) (by simp) rfl]
  norm_num

theorem negVar_ad1 : listVar [(0 : ℝ), 1000] = 500000 / 1 / 0.7978845608028654 ^ 2 := by
  rw [listVar_eq (c := 0.7978845608028654) (by simp) rfl]
  norm_num

theorem negVar_abd0 : listVar [(10 : ℝ), 0, 1000] = 990100 / 3 / 0.886226925452758 ^ 2 := by
  rw [listVar_eq (c := 0.886226925452758) (by simp) rfl]
  norm_num

theorem negVar_abd1 : listVar [(0 : ℝ), 0, 1000] = 1000000 / 3 / 0.886226925452758 ^ 2 := by
  rw [listVar_eq (c := 0.886226925452758) (by simp) rfl]
  norm_num

theorem negVar_cab0 : listVar [(0 : ℝ), 10, 0] = 100 / 3 / 0.886226925452758 ^ 2 := by
  rw [listVar_eq (c := 0.886226925452758) (by simp) rfl]
  norm_num

theorem negVar_dbac0 : listVar [(1000 : ℝ), 0, 10, 0] = 745075 / 3 / 0.9213177319235613 ^ 2 := by
  rw [listVar_eq (c := 0.9213177319235613) (by simp) rfl]
  norm_num

theorem negVar_cab1 : listVar [(1 : ℝ), 0, 0] = 1 / 3 / 0.886226925452758 ^ 2 := by
  rw [listVar_eq (c := 0.886226925452758) (by simp) rfl]
  norm_num

theorem negVar_dbac1 : listVar [(1000 : ℝ), 0, 0, 1] = 2998003 / 12 / 0.9213177319235613 ^ 2 := by
  rw [listVar_eq (c := 0.9213177319235613) (by simp) rfl]
  norm_num

theorem negVar_cd1 : listVar [(1 : ℝ), 1000] = 998001 / 2 / 0.7978845608028654 ^ 2 := by
  rw [listVar_eq (c := 0.7978845608028654) (by simp) rfl]
  norm_num

theorem negVar_cabd0 : listVar [(0 : ℝ), 10, 0, 1000] = 745075 / 3 / 0.9213177319235613 ^ 2 := by
  rw [listVar_eq (c := 0.9213177319235613) (by simp) rfl]
  norm_num

theorem negVar_cabd1 : listVar [(1 : ℝ), 0, 0, 1000] = 2998003 / 12 / 0.9213177319235613 ^ 2 := by
  rw [listVar_eq (c := 0.9213177319235613) (by simp) rfl]
  norm_num

theorem negVar_cb1 : listVar [(1 : ℝ), 0] = 1 / 2 / 0.7978845608028654 ^ 2 := by
  rw [listVar_eq (c := 0.7978845608028654) (by simp) rfl]
  norm_num

theorem negVar_ca0 : listVar [(0 : ℝ), 10] = 50 / 1 / 0.7978845608028654 ^ 2 := by
  rw [listVar_eq (c := 0.7978845608028654) (by simp) rfl]
  norm_num

theorem negVar_ed0 : listVar [(-1000000 : ℝ), 1000] = 501000500000 / 1 / 0.7978845608028654 ^ 2 := by
  rw [listVar_eq (c := 0.7978845608028654) (by simp) rfl]
  norm_num

theorem negVar_dbace0 : listVar [(1000 : ℝ), 0, 10, 0, -1000000] = 200101199020 / 1 / 0.9399856029866254 ^ 2 := by
  rw [listVar_eq (c := 0.9399856029866254) (by simp) rfl]
  norm_num

theorem negVar_ed1 : listVar [(-1000 : ℝ), 1000] = 2000000 / 1 / 0.7978845608028654 ^ 2 := by
  rw [listVar_eq (c := 0.7978845608028654) (by simp) rfl]
  norm_num

theorem negVar_dbace1 : listVar [(1000 : ℝ), 0, 0, 1, -1000] = 2500001 / 5 / 0.9399856029866254 ^ 2 := by
  rw [listVar_eq (c := 0.9399856029866254) (by simp) rfl]
  norm_num

theorem negVar_ecab0 : listVar [(-1000000 : ℝ), 0, 10, 0] = 750005000075 / 3 / 0.9213177319235613 ^ 2 := by
  rw [listVar_eq (c := 0.9213177319235613) (by simp) rfl]
  norm_num

theorem negVar_ecab1 : listVar [(-1000 : ℝ), 1, 0, 0] = 3002003 / 12 / 0.9213177319235613 ^ 2 := by
  rw [listVar_eq (c := 0.9213177319235613) (by simp) rfl]
  norm_num

theorem negVar_ecabd0 : listVar [(-1000000 : ℝ), 0, 10, 0, 1000] = 200101199020 / 1 / 0.9399856029866254 ^ 2 := by
  rw [listVar_eq (c := 0.9399856029866254) (by simp) rfl]
  norm_num

theorem negVar_ecabd1 : listVar [(-1000 : ℝ), 1, 0, 0, 1000] = 2500001 / 5 / 0.9399856029866254 ^ 2 := by
  rw [listVar_eq (c := 0.9399856029866254) (by simp) rfl]
  norm_num

theorem negPos30 : 0 < listVar (negHist3.map Prod.fst) := by
  simp only [negHist3, List.map_cons, List.map_nil, negA, negB, negC, negD, negE, negVar_dba0]
  norm_num

theorem negPos31 : 0 < listVar (negHist3.map Prod.snd) := by
  simp only [negHist3, List.map_cons, List.map_nil, negA, negB, negC, negD, negE, negVar_dba1]
  norm_num

theorem negPos40 : 0 < listVar (negHist4.map Prod.fst) := by
  simp only [negHist4, List.map_cons, List.map_nil, negA, negB, negC, negD, negE, negVar_dbac0]
  norm_num

theorem negPos41 : 0 < listVar (negHist4.map Prod.snd) := by
  simp only [negHist4, List.map_cons, List.map_nil, negA, negB, negC, negD, negE, negVar_dbac1]
  norm_num

theorem negPos50 : 0 < listVar (negHist5.map Prod.fst) := by
  simp only [negHist5, List.map_cons, List.map_nil, negA, negB, negC, negD, negE, negVar_dbace0]
  norm_num

theorem negPos51 : 0 < listVar (negHist5.map Prod.snd) := by
  simp only [negHist5, List.map_cons, List.map_nil, negA, negB, negC, negD, negE, negVar_dbace1]
  norm_num

theorem negEcg3_ab : (1999706538155 / 2000000000000 : ℝ) ≤ planeEcg negHist3 [negA, negB] ∧
    planeEcg negHist3 [negA, negB] ≤ 1999706547493 / 2000000000000 := by
  have h0 := guess_bounds (v := (50 / 1 / 0.7978845608028654 ^ 2 : ℝ)) (w := (990100 / 3 / 0.886226925452758 ^ 2 : ℝ)) (lo := 999706538155 / 1000000000000) (hi := 999706547493 / 1000000000000)
    (by norm_num) (by norm_num) (by norm_num) (by norm_num) (by norm_num) (by norm_num)
  have h1 := guess_bounds (v := (0 / 1 / 0.7978845608028654 ^ 2 : ℝ)) (w := (1000000 / 3 / 0.886226925452758 ^ 2 : ℝ)) (lo := 1000000000000 / 1000000000000) (hi := 1000000000000 / 1000000000000)
    (by norm_num) (by norm_num) (by norm_num) (by norm_num) (by norm_num) (by norm_num)
  simp only [planeEcg, negHist3, List.map_cons, List.map_nil, negA, negB, negC, negD, negE,
    negVar_ab0, negVar_dba0, negVar_ab1, negVar_dba1]
  constructor <;> linarith [h0.1, h0.2, h1.1, h1.2]

theorem negEcg3_ad : (767855535864 / 2000000000000 : ℝ) ≤ planeEcg negHist3 [negA, negD] ∧
    planeEcg negHist3 [negA, negD] ≤ 767865955476 / 2000000000000 := by
  have h0 := guess_bounds (v := (490050 / 1 / 0.7978845608028654 ^ 2 : ℝ)) (w := (990100 / 3 / 0.886226925452758 ^ 2 : ℝ)) (lo := 384758493083 / 1000000000000) (hi := 384763710264 / 1000000000000)
    (by norm_num) (by norm_num) (by norm_num) (by norm_num) (by norm_num) (by norm_num)
  have h1 := guess_bounds (v := (500000 / 1 / 0.7978845608028654 ^ 2 : ℝ)) (w := (1000000 / 3 / 0.886226925452758 ^ 2 : ℝ)) (lo := 383097042781 / 1000000000000) (hi := 383102245212 / 1000000000000)
    (by norm_num) (by norm_num) (by norm_num) (by norm_num) (by norm_num) (by norm_num)
  simp only [planeEcg, negHist3, List.map_cons, List.map_nil, negA, negB, negC, negD, negE,
    negVar_ad0, negVar_dba0, negVar_ad1, negVar_dba1]
  constructor <;> linarith [h0.1, h0.2, h1.1, h1.2]

theorem negEcg3_abd : (982756488074 / 2000000000000 : ℝ) ≤ planeEcg negHist3 [negA, negB, negD] ∧
    planeEcg negHist3 [negA, negB, negD] ≤ 982768352746 / 2000000000000 := by
  have h0 := guess_bounds (v := (990100 / 3 / 0.886226925452758 ^ 2 : ℝ)) (w := (990100 / 3 / 0.886226925452758 ^ 2 : ℝ)) (lo := 491378244037 / 1000000000000) (hi := 491384176373 / 1000000000000)
    (by norm_num) (by norm_num) (by norm_num) (by norm_num) (by norm_num) (by norm_num)
  have h1 := guess_bounds (v := (1000000 / 3 / 0.886226925452758 ^ 2 : ℝ)) (w := (1000000 / 3 / 0.886226925452758 ^ 2 : ℝ)) (lo := 491378244037 / 1000000000000) (hi := 491384176373 / 1000000000000)
    (by norm_num) (by norm_num) (by norm_num) (by norm_num) (by norm_num) (by norm_num)
  simp only [planeEcg, negHist3, List.map_cons, List.map_nil, negA, negB, negC, negD, negE,
    negVar_abd0, negVar_dba0, negVar_abd1, negVar_dba1]
  constructor <;> linarith [h0.1, h0.2, h1.1, h1.2]

theorem negEcg4_cab : (1999769962357 / 2000000000000 : ℝ) ≤ planeEcg negHist4 [negC, negA, negB] ∧
    planeEcg negHist4 [negC, negA, negB] ≤ 1999769969678 / 2000000000000 := by
  have h0 := guess_bounds (v := (100 / 3 / 0.886226925452758 ^ 2 : ℝ)) (w := (745075 / 3 / 0.9213177319235613 ^ 2 : ℝ)) (lo := 999772227400 / 1000000000000) (hi := 999772234648 / 1000000000000)
    (by norm_num) (by norm_num) (by norm_num) (by norm_num) (by norm_num) (by norm_num)
  have h1 := guess_bounds (v := (1 / 3 / 0.886226925452758 ^ 2 : ℝ)) (w := (2998003 / 12 / 0.9213177319235613 ^ 2 : ℝ)) (lo := 999997734957 / 1000000000000) (hi := 999997735030 / 1000000000000)
    (by norm_num) (by norm_num) (by norm_num) (by norm_num) (by norm_num) (by norm_num)
  simp only [planeEcg, negHist4, List.map_cons, List.map_nil, negA, negB, negC, negD, negE,
    negVar_cab0, negVar_dbac0, negVar_cab1, negVar_dbac1]
  constructor <;> linarith [h0.1, h0.2, h1.1, h1.2]

theorem negEcg4_cd : (652341566612 / 2000000000000 : ℝ) ≤ planeEcg negHist4 [negC, negD] ∧
    planeEcg negHist4 [negC, negD] ≤ 652350844568 / 2000000000000 := by
  have h0 := guess_bounds (v := (500000 / 1 / 0.7978845608028654 ^ 2 : ℝ)) (w := (745075 / 3 / 0.9213177319235613 ^ 2 : ℝ)) (lo := 325593422363 / 1000000000000) (hi := 325598055085 / 1000000000000)
    (by norm_num) (by norm_num) (by norm_num) (by norm_num) (by norm_num) (by norm_num)
  have h1 := guess_bounds (v := (998001 / 2 / 0.7978845608028654 ^ 2 : ℝ)) (w := (2998003 / 12 / 0.9213177319235613 ^ 2 : ℝ)) (lo := 326748144249 / 1000000000000) (hi := 326752789483 / 1000000000000)
    (by norm_num) (by norm_num) (by norm_num) (by norm_num) (by norm_num) (by norm_num)
  simp only [planeEcg, negHist4, List.map_cons, List.map_nil, negA, negB, negC, negD, negE,
    negVar_ad1, negVar_dbac0, negVar_cd1, negVar_dbac1]
  constructor <;> linarith [h0.1, h0.2, h1.1, h1.2]

theorem negEcg4_ab : (1999578617667 / 2000000000000 : ℝ) ≤ planeEcg negHist4 [negA, negB] ∧
    planeEcg negHist4 [negA, negB] ≤ 1999578631072 / 2000000000000 := by
  have h0 := guess_bounds (v := (50 / 1 / 0.7978845608028654 ^ 2 : ℝ)) (w := (745075 / 3 / 0.9213177319235613 ^ 2 : ℝ)) (lo := 999578617667 / 1000000000000) (hi := 999578631072 / 1000000000000)
    (by norm_num) (by norm_num) (by norm_num) (by norm_num) (by norm_num) (by norm_num)
  have h1 := guess_bounds (v := (0 / 1 / 0.7978845608028654 ^ 2 : ℝ)) (w := (2998003 / 12 / 0.9213177319235613 ^ 2 : ℝ)) (lo := 1000000000000 / 1000000000000) (hi := 1000000000000 / 1000000000000)
    (by norm_num) (by norm_num) (by norm_num) (by norm_num) (by norm_num) (by norm_num)
  simp only [planeEcg, negHist4, List.map_cons, List.map_nil, negA, negB, negC, negD, negE,
    negVar_ab0, negVar_dbac0, negVar_ab1, negVar_dbac1]
  constructor <;> linarith [h0.1, h0.2, h1.1, h1.2]

theorem negEcg4_cabd : (982756488074 / 2000000000000 : ℝ) ≤ planeEcg negHist4 [negC, negA, negB, negD] ∧
    planeEcg negHist4 [negC, negA, negB, negD] ≤ 982768352746 / 2000000000000 := by
  have h0 := guess_bounds (v := (745075 / 3 / 0.9213177319235613 ^ 2 : ℝ)) (w := (745075 / 3 / 0.9213177319235613 ^ 2 : ℝ)) (lo := 491378244037 / 1000000000000) (hi := 491384176373 / 1000000000000)
    (by norm_num) (by norm_num) (by norm_num) (by norm_num) (by norm_num) (by norm_num)
  have h1 := guess_bounds (v := (2998003 / 12 / 0.9213177319235613 ^ 2 : ℝ)) (w := (2998003 / 12 / 0.9213177319235613 ^ 2 : ℝ)) (lo := 491378244037 / 1000000000000) (hi := 491384176373 / 1000000000000)
    (by norm_num) (by norm_num) (by norm_num) (by norm_num) (by norm_num) (by norm_num)
  simp only [planeEcg, negHist4, List.map_cons, List.map_nil, negA, negB, negC, negD, negE,
    negVar_cabd0, negVar_dbac0, negVar_cabd1, negVar_dbac1]
  constructor <;> linarith [h0.1, h0.2, h1.1, h1.2]

theorem negEcg4_abd : (851180512292 / 2000000000000 : ℝ) ≤ planeEcg negHist4 [negA, negB, negD] ∧
    planeEcg negHist4 [negA, negB, negD] ≤ 851191605717 / 2000000000000 := by
  have h0 := guess_bounds (v := (990100 / 3 / 0.886226925452758 ^ 2 : ℝ)) (w := (745075 / 3 / 0.9213177319235613 ^ 2 : ℝ)) (lo := 425941103849 / 1000000000000) (hi := 425946653111 / 1000000000000)
    (by norm_num) (by norm_num) (by norm_num) (by norm_num) (by norm_num) (by norm_num)
  have h1 := guess_bounds (v := (1000000 / 3 / 0.886226925452758 ^ 2 : ℝ)) (w := (2998003 / 12 / 0.9213177319235613 ^ 2 : ℝ)) (lo := 425239408443 / 1000000000000) (hi := 425244952606 / 1000000000000)
    (by norm_num) (by norm_num) (by norm_num) (by norm_num) (by norm_num) (by norm_num)
  simp only [planeEcg, negHist4, List.map_cons, List.map_nil, negA, negB, negC, negD, negE,
    negVar_abd0, negVar_dbac0, negVar_abd1, negVar_dbac1]
  constructor <;> linarith [h0.1, h0.2, h1.1, h1.2]

theorem negEcg4_cb : (1999995808436 / 2000000000000 : ℝ) ≤ planeEcg negHist4 [negC, negB] ∧
    planeEcg negHist4 [negC, negB] ≤ 1999995808570 / 2000000000000 := by
  have h0 := guess_bounds (v := (0 / 1 / 0.7978845608028654 ^ 2 : ℝ)) (w := (745075 / 3 / 0.9213177319235613 ^ 2 : ℝ)) (lo := 1000000000000 / 1000000000000) (hi := 1000000000000 / 1000000000000)
    (by norm_num) (by norm_num) (by norm_num) (by norm_num) (by norm_num) (by norm_num)
  have h1 := guess_bounds (v := (1 / 2 / 0.7978845608028654 ^ 2 : ℝ)) (w := (2998003 / 12 / 0.9213177319235613 ^ 2 : ℝ)) (lo := 999995808436 / 1000000000000) (hi := 999995808570 / 1000000000000)
    (by norm_num) (by norm_num) (by norm_num) (by norm_num) (by norm_num) (by norm_num)
  simp only [planeEcg, negHist4, List.map_cons, List.map_nil, negA, negB, negC, negD, negE,
    negVar_ab1, negVar_dbac0, negVar_cb1, negVar_dbac1]
  constructor <;> linarith [h0.1, h0.2, h1.1, h1.2]

theorem negEcg4_ca : (1999574426103 / 2000000000000 : ℝ) ≤ planeEcg negHist4 [negC, negA] ∧
    planeEcg negHist4 [negC, negA] ≤ 1999574439642 / 2000000000000 := by
  have h0 := guess_bounds (v := (50 / 1 / 0.7978845608028654 ^ 2 : ℝ)) (w := (745075 / 3 / 0.9213177319235613 ^ 2 : ℝ)) (lo := 999578617667 / 1000000000000) (hi := 999578631072 / 1000000000000)
    (by norm_num) (by norm_num) (by norm_num) (by norm_num) (by norm_num) (by norm_num)
  have h1 := guess_bounds (v := (1 / 2 / 0.7978845608028654 ^ 2 : ℝ)) (w := (2998003 / 12 / 0.9213177319235613 ^ 2 : ℝ)) (lo := 999995808436 / 1000000000000) (hi := 999995808570 / 1000000000000)
    (by norm_num) (by norm_num) (by norm_num) (by norm_num) (by norm_num) (by norm_num)
  simp only [planeEcg, negHist4, List.map_cons, List.map_nil, negA, negB, negC, negD, negE,
    negVar_ca0, negVar_dbac0, negVar_cb1, negVar_dbac1]
  constructor <;> linarith [h0.1, h0.2, h1.1, h1.2]

theorem negEcg5_ed : (522545684878 / 2000000000000 : ℝ) ≤ planeEcg negHist5 [negE, negD] ∧
    planeEcg negHist5 [negE, negD] ≤ 522553413755 / 2000000000000 := by
  have h0 := guess_bounds (v := (501000500000 / 1 / 0.7978845608028654 ^ 2 : ℝ)) (w := (200101199020 / 1 / 0.9399856029866254 ^ 2 : ℝ)) (lo := 289679189424 / 1000000000000) (hi := 289683413018 / 1000000000000)
    (by norm_num) (by norm_num) (by norm_num) (by norm_num) (by norm_num) (by norm_num)
  have h1 := guess_bounds (v := (2000000 / 1 / 0.7978845608028654 ^ 2 : ℝ)) (w := (2500001 / 5 / 0.9399856029866254 ^ 2 : ℝ)) (lo := 232866495454 / 1000000000000) (hi := 232870000737 / 1000000000000)
    (by norm_num) (by norm_num) (by norm_num) (by norm_num) (by norm_num) (by norm_num)
  simp only [planeEcg, negHist5, List.map_cons, List.map_nil, negA, negB, negC, negD, negE,
    negVar_ed0, negVar_dbace0, negVar_ed1, negVar_dbace1]
  constructor <;> linarith [h0.1, h0.2, h1.1, h1.2]

theorem negEcg5_cab : (1999998821607 / 2000000000000 : ℝ) ≤ planeEcg negHist5 [negC, negA, negB] ∧
    planeEcg negHist5 [negC, negA, negB] ≤ 1999998821647 / 2000000000000 := by
  have h0 := guess_bounds (v := (100 / 3 / 0.886226925452758 ^ 2 : ℝ)) (w := (200101199020 / 1 / 0.9399856029866254 ^ 2 : ℝ)) (lo := 999999999705 / 1000000000000) (hi := 999999999706 / 1000000000000)
    (by norm_num) (by norm_num) (by norm_num) (by norm_num) (by norm_num) (by norm_num)
  have h1 := guess_bounds (v := (1 / 3 / 0.886226925452758 ^ 2 : ℝ)) (w := (2500001 / 5 / 0.9399856029866254 ^ 2 : ℝ)) (lo := 999998821902 / 1000000000000) (hi := 999998821941 / 1000000000000)
    (by norm_num) (by norm_num) (by norm_num) (by norm_num) (by norm_num) (by norm_num)
  simp only [planeEcg, negHist5, List.map_cons, List.map_nil, negA, negB, negC, negD, negE,
    negVar_cab0, negVar_dbace0, negVar_cab1, negVar_dbace1]
  constructor <;> linarith [h0.1, h0.2, h1.1, h1.2]

theorem negEcg5_ecab : (1059330940033 / 2000000000000 : ℝ) ≤ planeEcg negHist5 [negE, negC, negA, negB] ∧
    planeEcg negHist5 [negE, negC, negA, negB] ≤ 1059342693904 / 2000000000000 := by
  have h0 := guess_bounds (v := (750005000075 / 3 / 0.9213177319235613 ^ 2 : ℝ)) (w := (200101199020 / 1 / 0.9399856029866254 ^ 2 : ℝ)) (lo := 443429069760 / 1000000000000) (hi := 443434739559 / 1000000000000)
    (by norm_num) (by norm_num) (by norm_num) (by norm_num) (by norm_num) (by norm_num)
  have h1 := guess_bounds (v := (3002003 / 12 / 0.9213177319235613 ^ 2 : ℝ)) (w := (2500001 / 5 / 0.9399856029866254 ^ 2 : ℝ)) (lo := 615901870273 / 1000000000000) (hi := 615907954345 / 1000000000000)
    (by norm_num) (by norm_num) (by norm_num) (by norm_num) (by norm_num) (by norm_num)
  simp only [planeEcg, negHist5, List.map_cons, List.map_nil, negA, negB, negC, negD, negE,
    negVar_ecab0, negVar_dbace0, negVar_ecab1, negVar_dbace1]
  constructor <;> linarith [h0.1, h0.2, h1.1, h1.2]

theorem negEcg5_ecabd : (982756488074 / 2000000000000 : ℝ) ≤ planeEcg negHist5 [negE, negC, negA, negB, negD] ∧
    planeEcg negHist5 [negE, negC, negA, negB, negD] ≤ 982768352746 / 2000000000000 := by
  have h0 := guess_bounds (v := (200101199020 / 1 / 0.9399856029866254 ^ 2 : ℝ)) (w := (200101199020 / 1 / 0.9399856029866254 ^ 2 : ℝ)) (lo := 491378244037 / 1000000000000) (hi := 491384176373 / 1000000000000)
    (by norm_num) (by norm_num) (by norm_num) (by norm_num) (by norm_num) (by norm_num)
  have h1 := guess_bounds (v := (2500001 / 5 / 0.9399856029866254 ^ 2 : ℝ)) (w := (2500001 / 5 / 0.9399856029866254 ^ 2 : ℝ)) (lo := 491378244037 / 1000000000000) (hi := 491384176373 / 1000000000000)
    (by norm_num) (by norm_num) (by norm_num) (by norm_num) (by norm_num) (by norm_num)
  simp only [planeEcg, negHist5, List.map_cons, List.map_nil, negA, negB, negC, negD, negE,
    negVar_ecabd0, negVar_dbace0, negVar_ecabd1, negVar_dbace1]
  constructor <;> linarith [h0.1, h0.2, h1.1, h1.2]

theorem negEcg5_cabd : (1616154674660 / 2000000000000 : ℝ) ≤ planeEcg negHist5 [negC, negA, negB, negD] ∧
    planeEcg negHist5 [negC, negA, negB, negD] ≤ 1616160758236 / 2000000000000 := by
  have h0 := guess_bounds (v := (745075 / 3 / 0.9213177319235613 ^ 2 : ℝ)) (w := (200101199020 / 1 / 0.9399856029866254 ^ 2 : ℝ)) (lo := 999997970578 / 1000000000000) (hi := 999997970644 / 1000000000000)
    (by norm_num) (by norm_num) (by norm_num) (by norm_num) (by norm_num) (by norm_num)
  have h1 := guess_bounds (v := (2998003 / 12 / 0.9213177319235613 ^ 2 : ℝ)) (w := (2500001 / 5 / 0.9399856029866254 ^ 2 : ℝ)) (lo := 616156704082 / 1000000000000) (hi := 616162787592 / 1000000000000)
    (by norm_num) (by norm_num) (by norm_num) (by norm_num) (by norm_num) (by norm_num)
  simp only [planeEcg, negHist5, List.map_cons, List.map_nil, negA, negB, negC, negD, negE,
    negVar_cabd0, negVar_dbace0, negVar_cabd1, negVar_dbace1]
  constructor <;> linarith [h0.1, h0.2, h1.1, h1.2]

theorem negEcg5_cb : (1999997819874 / 2000000000000 : ℝ) ≤ planeEcg negHist5 [negC, negB] ∧
    planeEcg negHist5 [negC, negB] ≤ 1999997819944 / 2000000000000 := by
  have h0 := guess_bounds (v := (0 / 1 / 0.7978845608028654 ^ 2 : ℝ)) (w := (200101199020 / 1 / 0.9399856029866254 ^ 2 : ℝ)) (lo := 1000000000000 / 1000000000000) (hi := 1000000000000 / 1000000000000)
    (by norm_num) (by norm_num) (by norm_num) (by norm_num) (by norm_num) (by norm_num)
  have h1 := guess_bounds (v := (1 / 2 / 0.7978845608028654 ^ 2 : ℝ)) (w := (2500001 / 5 / 0.9399856029866254 ^ 2 : ℝ)) (lo := 999997819874 / 1000000000000) (hi := 999997819944 / 1000000000000)
    (by norm_num) (by norm_num) (by norm_num) (by norm_num) (by norm_num) (by norm_num)
  simp only [planeEcg, negHist5, List.map_cons, List.map_nil, negA, negB, negC, negD, negE,
    negVar_ab1, negVar_dbace0, negVar_cb1, negVar_dbace1]
  constructor <;> linarith [h0.1, h0.2, h1.1, h1.2]

end CF
