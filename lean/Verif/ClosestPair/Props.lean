import Verif.ClosestPair.Lemmas
import Verif.ClosestPair.RaceModel
import Verif.BatchKd.Props
import Verif.Metric
import Mathlib.Data.List.FinRange

set_option linter.unusedSectionVars false
set_option linter.unusedVariables false

/-!
C21: `closestPair`.
-/

namespace Verif.ClosestPair

open Verif BatchKd

variable {α K : Type} {d : ℕ} [Field K] [LinearOrder K] [IsStrictOrderedRing K]
variable {dist : Point K d → Point K d → K} {pos : α → Point K d}

/-- The Euclidean distance over the reals. -/
theorem eucl_sqDist : SqDist (eucl : Point ℝ d → Point ℝ d → ℝ) := ⟨eucl_nonneg, eucl_sq⟩

theorem ctx_top (h : 0 < d) (P : List α) (m δ : Fin d → K) (side : Fin d → α → Bool) :
    Ctx dist pos (d - 1) P m δ side := fun i hi => absurd i.isLt (by omega)

/-- Lenient runs return a closest pair where the packing bound holds. -/
theorem closestPair_lenient (hD : SqDist dist) {srt : Fin d → List α → List α} (hsrt : SortItems srt pos) (h2 : 2 ≤ d)
    (serialRun : Bool) {P : List α} (hpk : Packs dist pos P) (hn : P.Nodup) (hP : 2 ≤ P.length) :
    ∃ u v, closestPair dist pos false serialRun srt (by omega) P = .ok (some (u, v)) ∧ Closest dist pos P u v := by
  unfold closestPair
  cases serialRun
  · exact parallel_ok hD hsrt hpk (d - 1) (by omega) (by omega) P 0 0 (fun _ _ => true) (fun _ h => h) hP hn
      (ctx_top (by omega) _ _ _ _)
  · exact serial_ok hD hsrt hpk (d - 1) (by omega) (by omega) P 0 0 (fun _ _ => true) (fun _ h => h) hP hn
      (ctx_top (by omega) _ _ _ _)

theorem closestPair_refines {srt : Fin d → List α → List α} (serialRun : Bool) (h : 0 < d) (P : List α) :
    Refines (closestPair dist pos true serialRun srt h P) (closestPair dist pos false serialRun srt h P) := by
  unfold closestPair
  cases serialRun
  · exact parallel_refines _ _ P
  · exact serial_refines _ _ P

/-- **C21**, plane, serial run: for at least two points the run has no undefined behaviour and returns two different points at
smallest distance. Two equal points are two items at distance 0. -/
theorem c21_plane {dist : Point K 2 → Point K 2 → K} {pos : α → Point K 2} (hD : SqDist dist)
    {srt : Fin 2 → List α → List α} (hsrt : SortItems srt pos) {P : List α} (hn : P.Nodup) (hP : 2 ≤ P.length) :
    ∃ u v, closestPair dist pos true true srt (by omega) P = .ok (some (u, v)) ∧
      u ∈ P ∧ v ∈ P ∧ u ≠ v ∧ ∀ x ∈ P, ∀ y ∈ P, x ≠ y → dist (pos u) (pos v) ≤ dist (pos x) (pos y) := by
  show ∃ u v, serial dist pos true srt 1 _ P = .ok (some (u, v)) ∧ Closest dist pos P u v
  rw [serial]
  refine level_ok hD hsrt (by norm_num) (k := (1 : Fin 2)) (by simp) (Q := P)
    (fun P _ _ _ _ _ h2 hn _ => brute_ok hD true h2 hn) ?_ _ P 0 0 (fun _ _ => true) (by omega) (fun _ h => h) hP hn
    (ctx_top (by omega) _ _ _ _)
  intro S m δ side hS _ hn hC
  exact slabScan_ok hD hsrt (by omega) (by omega) hn hC (packs_of_le hD (by omega) (by omega) S)

/-- **C21**, plane, in terms of the list of points and the Euclidean distance: the serial run on the positions `0 … n-1` returns
two different positions whose points are at smallest distance. -/
theorem c21_plane_points (pts : List (Point ℝ 2)) {srt : Fin 2 → List (Fin pts.length) → List (Fin pts.length)}
    (hsrt : SortItems srt fun i => pts[i]) (hP : 2 ≤ pts.length) :
    ∃ i j, closestPair eucl (fun i => pts[i]) true true srt (by omega) (List.finRange pts.length) = .ok (some (i, j)) ∧
      i ≠ j ∧ ∀ x y : Fin pts.length, x ≠ y → eucl pts[i] pts[j] ≤ eucl pts[x] pts[y] := by
  obtain ⟨u, v, he, -, -, hne, hmin⟩ := c21_plane eucl_sqDist hsrt (List.nodup_finRange _)
    (by rw [List.length_finRange]; exact hP)
  exact ⟨u, v, he, hne, fun x y hxy => hmin x (List.mem_finRange x) y (List.mem_finRange y) hxy⟩

/-- **C21**, dimensions 2 to 4, serial and parallel: a run without undefined behaviour returns two different points at smallest
distance. Missing: runs that read behind the end of an array (`c21_single_false`, `c21_parallel_false`), the races of the
brute-force loop (`c21_race_false`), dimensions 5 to 7 (`c21_highdim_partial`). -/
theorem c21_closest_partial (hD : SqDist dist) {srt : Fin d → List α → List α} (hsrt : SortItems srt pos) (h2 : 2 ≤ d)
    (h4 : d ≤ 4) (serialRun : Bool) {P : List α} (hn : P.Nodup) (hP : 2 ≤ P.length) :
    closestPair dist pos true serialRun srt (by omega) P = .error .ub ∨
    ∃ u v, closestPair dist pos true serialRun srt (by omega) P = .ok (some (u, v)) ∧
      u ∈ P ∧ v ∈ P ∧ u ≠ v ∧ ∀ x ∈ P, ∀ y ∈ P, x ≠ y → dist (pos u) (pos v) ≤ dist (pos x) (pos y) := by
  rcases closestPair_refines (dist := dist) (pos := pos) (srt := srt) serialRun (by omega : 0 < d) P with h | h
  · exact Or.inl h
  · rw [h]
    exact Or.inr (closestPair_lenient hD hsrt h2 serialRun (packs_of_le hD h2 h4 P) hn hP)

/-- **C21**, dimensions 2 to 4, serial and parallel: whatever values the reads behind the end of an array give, they do not
reach the result, which is a closest pair. -/
theorem c21_lenient_partial (hD : SqDist dist) {srt : Fin d → List α → List α} (hsrt : SortItems srt pos) (h2 : 2 ≤ d)
    (h4 : d ≤ 4) (serialRun : Bool) {P : List α} (hn : P.Nodup) (hP : 2 ≤ P.length) :
    ∃ u v, closestPair dist pos false serialRun srt (by omega) P = .ok (some (u, v)) ∧
      u ∈ P ∧ v ∈ P ∧ u ≠ v ∧ ∀ x ∈ P, ∀ y ∈ P, x ≠ y → dist (pos u) (pos v) ≤ dist (pos x) (pos y) :=
  closestPair_lenient hD hsrt h2 serialRun (packs_of_le hD h2 h4 P) hn hP

/-- **C21**, every dimension, up to `2^(2d-1)` points (512, 2048 and 8192 in dimensions 5, 6 and 7). Missing: more points in
dimensions above 4, where the number of points checked is below what the cell argument needs. -/
theorem c21_highdim_partial (hD : SqDist dist) {srt : Fin d → List α → List α} (hsrt : SortItems srt pos) (h2 : 2 ≤ d)
    (serialRun : Bool) {P : List α} (hn : P.Nodup) (hP : 2 ≤ P.length) (hmax : P.length ≤ 2 ^ (2 * d - 1)) :
    ∃ u v, closestPair dist pos false serialRun srt (by omega) P = .ok (some (u, v)) ∧
      u ∈ P ∧ v ∈ P ∧ u ≠ v ∧ ∀ x ∈ P, ∀ y ∈ P, x ≠ y → dist (pos u) (pos v) ≤ dist (pos x) (pos y) := by
  refine closestPair_lenient hD hsrt h2 serialRun (packs_of_length ?_) hn hP
  have hpow : ∀ e, intPow 2 e = 2 ^ e := by
    intro e
    induction e with
    | zero => rfl
    | succ e ih => rw [intPow, ih, pow_succ]
  have hpos : 0 < 2 ^ (2 * d - 1) := by positivity
  rw [numToCheck, hpow, mul_comm d 2]
  omega

/-- The contracts can be met, and the result is found: four points in the plane. -/
example : ∃ (srt : Fin 2 → List (Fin 4) → List (Fin 4)) (pts : Fin 4 → Point ℝ 2),
    SortItems srt pts ∧ (List.finRange 4).Nodup ∧ 2 ≤ (List.finRange 4).length :=
  ⟨_, fun i => ![(i : ℝ), 0], sortBy_ok _, List.nodup_finRange 4, by simp⟩

/-- Five dimensions. -/
example : ∃ (srt : Fin 5 → List (Fin 500) → List (Fin 500)) (pts : Fin 500 → Point ℝ 5),
    SortItems srt pts ∧ (List.finRange 500).Nodup ∧ 2 ≤ (List.finRange 500).length ∧
      (List.finRange 500).length ≤ 2 ^ (2 * 5 - 1) :=
  ⟨_, fun i => ![(i : ℝ), 0, 1, 0, 0], sortBy_ok _, List.nodup_finRange _, by simp, by simp⟩

/-- The divide step is reached: in the plane, 101 points on a parabola and two of them close together. -/
example : (closestPair (fun p q : Point ℚ 2 => max |p 0 - q 0| |p 1 - q 1|)
    (fun i : Fin 102 => if i.val = 101 then ![51, 2601 + 1/2] else ![(i.val : ℚ), (i.val : ℚ) * i.val])
    true true (fun dim L => L.insertionSort fun x y =>
      (if x.val = 101 then (![51, 2601 + 1/2] : Point ℚ 2) else ![(x.val : ℚ), (x.val : ℚ) * x.val]) dim ≤
      (if y.val = 101 then (![51, 2601 + 1/2] : Point ℚ 2) else ![(y.val : ℚ), (y.val : ℚ) * y.val]) dim)
    (by omega) (List.finRange 102)).toOption = some (some (51, 101)) := by decide +kernel

/-! ### Undefined behaviour -/

/-- Heights on the last axis: two groups of neighbours at distance 1, and one point far from both. -/
def height (K : Type) [Field K] (i : Fin 100) : K := if i.val < 50 then i.val else if i.val = 50 then 1000 else 2000 + i.val

/-- The points of `height`. -/
def lonely (K : Type) [Field K] (i : Fin 100) : Point K 3 := ![0, 0, height K i]

theorem height_lt {i j : Fin 100} (h : i < j) : height K i + 1 ≤ height K j := by
  have hi : (i.val : K) + 1 ≤ j.val := by exact_mod_cast h
  have hj : (j.val : K) ≤ 100 := by exact_mod_cast j.isLt.le
  have hi0 : (0 : K) ≤ i.val := Nat.cast_nonneg _
  have hlt : i.val < j.val := h
  unfold height
  split_ifs <;> first | omega | linarith

theorem height_far {i : Fin 100} (h : i ≠ 50) : height K i + 1 < 1000 ∨ 1000 + 1 < height K i := by
  have hne : i.val ≠ 50 := fun e => h (Fin.ext e)
  have hj : (i.val : K) ≤ 100 := by exact_mod_cast i.isLt.le
  have hi0 : (0 : K) ≤ i.val := Nat.cast_nonneg _
  unfold height
  split_ifs
  · left; linarith
  · right; linarith

theorem sorted_lonely {srt : Fin 3 → List (Fin 100) → List (Fin 100)} (hsrt : SortItems srt (lonely K)) :
    srt 2 (List.finRange 100) = List.finRange 100 := by
  obtain ⟨hp, hs⟩ := hsrt 2 (List.finRange 100)
  refine List.Perm.eq_of_pairwise (le := fun x y => lonely K x 2 ≤ lonely K y 2) ?_ hs ?_ hp
  · intro a b _ _ h1 h2
    rcases lt_trichotomy a b with h | h | h
    · exact absurd (show height K b ≤ height K a from h2) (by have := height_lt (K := K) h; intro h'; linarith)
    · exact h
    · exact absurd (show height K a ≤ height K b from h1) (by have := height_lt (K := K) h; intro h'; linarith)
  · refine (List.pairwise_lt_finRange 100).imp ?_
    intro a b h
    show height K a ≤ height K b
    have := height_lt (K := K) h
    linarith

theorem lonely_dist {dist : Point K 3 → Point K 3 → K} (hD : SqDist dist) {i j : Fin 100} :
    dist (lonely K i) (lonely K j) = |height K i - height K j| := by
  refine (pow_left_inj₀ (hD.nonneg _ _) (abs_nonneg _) (by norm_num : (2 : ℕ) ≠ 0)).mp ?_
  rw [hD.sq, sq_abs]
  simp [distSqr, Fin.sum_univ_three, lonely, pow_two]

/-- **C21** fails in space: for these 100 points the slab around the middle has one point, and the brute-force search reads a
second one behind the end of the array. -/
theorem c21_single_false {dist : Point K 3 → Point K 3 → K} (hD : SqDist dist)
    {srt : Fin 3 → List (Fin 100) → List (Fin 100)} (hsrt : SortItems srt (lonely K)) :
    closestPair dist (lonely K) true true srt (by omega) (List.finRange 100) = .error .ub := by
  show serial dist (lonely K) true srt 2 _ (List.finRange 100) = .error .ub
  rw [serial]
  rw [level, if_neg (by rw [List.length_finRange]; omega)]
  have hs := sorted_lonely hsrt
  have h50 : (List.finRange 100)[50]? = some 50 := by decide +kernel
  have hlen : (List.finRange 100).length / 2 = 50 := by rw [List.length_finRange]
  have h2 : (⟨0 + 2, by omega⟩ : Fin 3) = 2 := rfl
  simp only [h2, hs, hlen, h50]
  have hnd := List.nodup_finRange 100
  have hTl : ((List.finRange 100).take 50).length = 50 := by rw [List.length_take, List.length_finRange]; rfl
  have hDl : ((List.finRange 100).drop 50).length = 50 := by rw [List.length_drop, List.length_finRange]
  have hT : level dist (lonely K) srt 100 (brute dist (lonely K) true) (serial dist (lonely K) true srt 1 (by omega)) 2
      (List.finRange 100).length ((List.finRange 100).take 50) = brute dist (lonely K) true ((List.finRange 100).take 50) := by
    rw [List.length_finRange, level, if_pos (by rw [hTl]; omega)]
  have hR : level dist (lonely K) srt 100 (brute dist (lonely K) true) (serial dist (lonely K) true srt 1 (by omega)) 2
      (List.finRange 100).length ((List.finRange 100).drop 50) = brute dist (lonely K) true ((List.finRange 100).drop 50) := by
    rw [List.length_finRange, level, if_pos (by rw [hDl]; omega)]
  obtain ⟨u₁, v₁, e₁, -, -, hne₁, hmin₁⟩ := brute_ok (pos := lonely K) hD true (P := (List.finRange 100).take 50)
    (by rw [hTl]; omega) (hnd.sublist (List.take_sublist ..))
  obtain ⟨u₂, v₂, e₂, -, -, hne₂, hmin₂⟩ := brute_ok (pos := lonely K) hD true (P := (List.finRange 100).drop 50)
    (by rw [hDl]; omega) (hnd.sublist (List.drop_sublist ..))
  have hpos : ∀ u v : Fin 100, u ≠ v → dist (lonely K u) (lonely K v) ≠ 0 := by
    intro u v huv h0
    rw [lonely_dist hD, abs_eq_zero] at h0
    rcases lt_or_gt_of_ne huv with h | h
    · have := height_lt (K := K) h; linarith
    · have := height_lt (K := K) h; linarith
  obtain ⟨b, hbe, hb0, hb1⟩ : ∃ b,
      (if ppLt dist (lonely K) (some (u₁, v₁)) (some (u₂, v₂)) = true then some (u₁, v₁) else some (u₂, v₂)) = some b ∧
      dist (lonely K b.1) (lonely K b.2) ≠ 0 ∧ dist (lonely K b.1) (lonely K b.2) ≤ 1 := by
    have hL := hmin₁ 0 (by decide +kernel) 1 (by decide +kernel) (by decide)
    rw [lonely_dist hD (i := 0) (j := 1)] at hL
    have h01 : |height K 0 - height K 1| = 1 := by simp [height]
    split
    · exact ⟨_, rfl, hpos _ _ hne₁, by rw [h01] at hL; exact hL⟩
    · rename_i h
      have h' : ¬ dist (lonely K u₁) (lonely K v₁) < dist (lonely K u₂) (lonely K v₂) := fun h' => h (decide_eq_true h')
      exact ⟨_, rfl, hpos _ _ hne₂, le_trans (not_lt.mp h') (by rw [h01] at hL; exact hL)⟩
  have hslab : (List.finRange 100).filter
      (inSlab (lonely K) 2 (lonely K 50 2) (dist (lonely K b.1) (lonely K b.2))) = [50] := by
    have hf : ∀ i ∈ List.finRange 100,
        inSlab (lonely K) 2 (lonely K 50 2) (dist (lonely K b.1) (lonely K b.2)) i = decide (i = 50) := by
      intro i _
      generalize hDe : dist (lonely K b.1) (lonely K b.2) = D at hb0 hb1
      have hD0 : 0 ≤ D := hDe ▸ hD.nonneg _ _
      have h50 : lonely K 50 2 = 1000 := by simp [lonely, height]
      have hi : lonely K i 2 = height K i := rfl
      unfold inSlab
      rw [h50, hi]
      by_cases h : i = 50
      · subst h
        have : height K 50 = 1000 := by simp [height]
        rw [this]
        simp [hD0]
      · rw [decide_eq_false h, Bool.and_eq_false_iff, decide_eq_false_iff_not, decide_eq_false_iff_not]
        rcases height_far (K := K) h with h | h
        · right; intro h'; linarith
        · left; intro h'; linarith
    rw [List.filter_congr hf]
    decide +kernel
  rw [hT, hR, e₁, e₂]
  simp only [Except.bind]
  rw [hbe]
  dsimp only
  rw [if_neg hb0, hslab, serial_small (by simp)]
  rfl

/-- The contract of the theorem can be met, also over the reals. -/
example : ∃ srt : Fin 3 → List (Fin 100) → List (Fin 100), SortItems srt (lonely ℝ) ∧
    SqDist (eucl : Point ℝ 3 → Point ℝ 3 → ℝ) := ⟨_, sortBy_ok _, eucl_sqDist⟩

/-- **C21** fails for parallel runs: in the plane, at least 10000 different points at the same height are all in the slab, and
the array version of the scan reads behind the end of the slab. -/
theorem c21_parallel_false {dist : Point K 2 → Point K 2 → K} {pos : α → Point K 2} (hD : SqDist dist)
    {srt : Fin 2 → List α → List α} (hsrt : SortItems srt pos) {P : List α} (hn : P.Nodup) (hP : 10000 ≤ P.length)
    (hdist : ∀ x ∈ P, ∀ y ∈ P, x ≠ y → pos x ≠ pos y) (y₀ : K) (hy : ∀ x ∈ P, pos x 1 = y₀) :
    closestPair dist pos true false srt (by omega) P = .error .ub := by
  show parallel dist pos true srt 1 _ P = .error .ub
  have hpk : Packs dist pos P := packs_of_le hD (by omega) (by omega) P
  have hlev : ∀ fuel Q, Q.length < fuel → Q ⊆ P → 2 ≤ Q.length → Q.Nodup →
      level dist pos srt 10000 (serial dist pos true srt 1 (by omega)) (slabScanPar dist pos true (by omega) srt) 1 fuel Q
        = .error .ub ∨
      ∃ u v, level dist pos srt 10000 (serial dist pos true srt 1 (by omega)) (slabScanPar dist pos true (by omega) srt) 1
        fuel Q = .ok (some (u, v)) ∧ Closest dist pos Q u v := by
    intro fuel Q hf hQ h2 hnQ
    have href := level_refines (dist := dist) (pos := pos) (srt := srt) (base := 10000) (k := (1 : Fin 2))
      (small := serial dist pos true srt 1 (by omega)) (small' := serial dist pos false srt 1 (by omega))
      (slabSolve := slabScanPar dist pos true (by omega) srt) (slabSolve' := slabScanPar dist pos false (by omega) srt)
      (fun P => serial_refines 1 _ P)
      (fun S => by
        unfold slabScanPar
        by_cases hS : 100 < S.length
        · left; simp [hS]
        · right; simp [hS]) fuel Q
    rcases href with h | h
    · exact Or.inl h
    · right
      rw [h]
      refine level_ok hD hsrt (by norm_num) (k := (1 : Fin 2)) (by simp) (Q := P)
        (fun P m δ side hP _ h2 hn hC => serial_ok hD hsrt hpk 1 (by omega) (by omega) P m δ side hP h2 hn hC)
        ?_ fuel Q 0 0 (fun _ _ => true) hf hQ h2 hnQ (ctx_top (by omega) _ _ _ _)
      intro S m δ side hS _ hn hC
      exact slabScan_ok hD hsrt (by omega) (by omega) hn hC (hpk.mono hS)
  rw [parallel, level, if_neg (by omega)]
  obtain ⟨hp, hs⟩ := hsrt 1 P
  have h1 : (⟨1, by omega⟩ : Fin 2) = 1 := rfl
  simp only [h1]
  generalize srt 1 P = P' at hp hs
  have hlen := hp.length_eq
  have hn' : P'.Nodup := hp.nodup_iff.mpr hn
  have hxm : P.length / 2 < P'.length := by omega
  rw [List.getElem?_eq_getElem hxm]
  dsimp only
  have hLsub : P'.take (P.length / 2) ⊆ P := fun x hx => hp.subset (List.mem_of_mem_take hx)
  have hRsub : P'.drop (P.length / 2) ⊆ P := fun x hx => hp.subset (List.mem_of_mem_drop hx)
  rcases hlev P.length _ (by rw [List.length_take]; omega) hLsub (by rw [List.length_take]; omega)
    (hn'.sublist (List.take_sublist ..)) with h | ⟨u₁, v₁, h, hu₁, hv₁, hne₁, -⟩
  · rw [h]; rfl
  rw [h]
  simp only [Except.bind]
  rcases hlev P.length _ (by rw [List.length_drop]; omega) hRsub (by rw [List.length_drop]; omega)
    (hn'.sublist (List.drop_sublist ..)) with h | ⟨u₂, v₂, h, hu₂, hv₂, hne₂, -⟩
  · rw [h]
  rw [h]
  have hpos : ∀ u ∈ P, ∀ v ∈ P, u ≠ v → dist (pos u) (pos v) ≠ 0 := by
    intro u hu v hv huv h0
    have hsq := hD.sq (pos u) (pos v)
    rw [h0] at hsq
    exact hdist u hu v hv huv (distSqr_eq_zero.mp (by rw [← hsq]; norm_num))
  obtain ⟨b, hbe, hb0⟩ : ∃ b,
      (if ppLt dist pos (some (u₁, v₁)) (some (u₂, v₂)) = true then some (u₁, v₁) else some (u₂, v₂)) = some b ∧
      dist (pos b.1) (pos b.2) ≠ 0 := by
    split
    · exact ⟨_, rfl, hpos _ (hLsub hu₁) _ (hLsub hv₁) hne₁⟩
    · exact ⟨_, rfl, hpos _ (hRsub hu₂) _ (hRsub hv₂) hne₂⟩
  dsimp only
  rw [hbe]
  dsimp only
  rw [if_neg hb0]
  have hall : P'.filter (inSlab pos 1 (pos P'[P.length / 2] 1) (dist (pos b.1) (pos b.2))) = P' := by
    rw [List.filter_eq_self]
    intro x hx
    have hnn := hD.nonneg (pos b.1) (pos b.2)
    unfold inSlab
    rw [hy x (hp.subset hx), hy _ (hp.subset (List.getElem_mem hxm)), Bool.and_eq_true, decide_eq_true_eq,
      decide_eq_true_eq]
    constructor <;> linarith
  rw [hall]
  have : slabScanPar dist pos true (by omega) srt P' = .error .ub := by
    unfold slabScanPar
    rw [if_pos]
    simp; omega
  rw [this]
  rfl

/-- There are such inputs. -/
example : (List.finRange 10000).Nodup ∧ 10000 ≤ (List.finRange 10000).length ∧
    (∀ x ∈ List.finRange 10000, ∀ y ∈ List.finRange 10000, x ≠ y →
      (![(x.val : ℝ), 0] : Point ℝ 2) ≠ ![(y.val : ℝ), 0]) ∧
    ∀ x ∈ List.finRange 10000, (![(x.val : ℝ), 0] : Point ℝ 2) 1 = 0 := by
  refine ⟨List.nodup_finRange _, by rw [List.length_finRange], fun x _ y _ hxy h => hxy ?_, fun x _ => rfl⟩
  have := congrFun h 0
  simp only [Matrix.cons_val_zero, Nat.cast_inj] at this
  exact Fin.ext this

/-! ### The loop of the brute-force search -/

namespace Race

variable {dst : α → α → K}

/-- The shared pair is the closest of the pairs `M`. -/
def Best (dst : α → α → K) (M : List (α × α)) (s : Shared α K) : Prop :=
  (s.dist = none ∧ M = []) ∨
    (s.dist = some (dst s.u s.v) ∧ (s.u, s.v) ∈ M ∧ ∀ c ∈ M, dst s.u s.v ≤ dst c.1 c.2)

/-- **C21**, brute force: if the calls of `closer` were atomic, every order of the calls would give a closest pair. Missing: the
calls are not atomic (`c21_race_false`). -/
theorem c21_atomic_partial (calls order : List (α × α)) (hperm : order.Perm calls) (hne : calls ≠ []) (s₀ : Shared α K)
    (h₀ : s₀.dist = none) :
    let s := order.foldl (closerStep dst) s₀
    s.dist = some (dst s.u s.v) ∧ (s.u, s.v) ∈ calls ∧ ∀ c ∈ calls, dst s.u s.v ≤ dst c.1 c.2 := by
  have key : ∀ (order done : List (α × α)) (s : Shared α K), Best dst done s →
      Best dst (done ++ order) (order.foldl (closerStep dst) s) := by
    intro order
    induction order with
    | nil => intro done s h; simpa using h
    | cons c order ih =>
      intro done s h
      rw [List.foldl_cons, show done ++ c :: order = (done ++ [c]) ++ order by simp]
      refine ih _ _ ?_
      unfold closerStep
      rcases h with ⟨hd, rfl⟩ | ⟨hd, hm, hmin⟩
      · rw [hd, if_pos rfl]
        right
        refine ⟨rfl, by simp, fun c' hc' => ?_⟩
        simp at hc'
        rw [hc']
      · rw [hd]
        dsimp only
        right
        split
        · rename_i hlt
          have hlt := of_decide_eq_true hlt
          refine ⟨rfl, by simp, fun c' hc' => ?_⟩
          rcases List.mem_append.mp hc' with h' | h'
          · exact le_trans hlt.le (hmin c' h')
          · rw [List.mem_singleton.mp h']
        · rename_i hlt
          have hlt : ¬ dst c.1 c.2 < dst s.u s.v := fun h => hlt (decide_eq_true h)
          refine ⟨hd, List.mem_append_left _ hm, fun c' hc' => ?_⟩
          rcases List.mem_append.mp hc' with h' | h'
          · exact hmin c' h'
          · rw [List.mem_singleton.mp h']; exact not_lt.mp hlt
  have hb := key order [] s₀ (Or.inl ⟨h₀, rfl⟩)
  rw [List.nil_append] at hb
  rcases hb with ⟨-, rfl⟩ | ⟨h1, h2, h3⟩
  · exact absurd (hperm.symm.eq_nil) hne
  · exact ⟨h1, hperm.subset h2, fun c hc => h3 c (hperm.symm.subset hc)⟩

/-- Three points on a line at 0, 1 and 10. -/
def line : Fin 3 → ℚ := ![0, 1, 10]

/-- Distance on the line. -/
def lineDist (i j : Fin 3) : ℚ := |line i - line j|

/-- **C21** fails when the iterations of the brute-force loop overlap: iteration 1 tests its pair first, iteration 0 stores the
closest pair, and iteration 1 overwrites it. The loop ends with a pair that is not closest. -/
theorem c21_race_false :
    let s := run lineDist ⟨⟨0, 1, none⟩, threads [0, 1, 2]⟩ [1, 0, 0, 0, 0, 1, 1, 1, 0]
    Done s ∧ s.shared = ⟨1, 2, some 9⟩ ∧ lineDist 0 1 < 9 := by
  decide +kernel

/-- Without overlap the loop finds the pair. -/
example : (run lineDist ⟨⟨0, 1, none⟩, threads [0, 1, 2]⟩ [0, 0, 0, 0, 0, 1]).shared = ⟨0, 1, some 1⟩ := by
  decide +kernel

end Race

end Verif.ClosestPair
