import Verif.Hull2d.DcModel
import Verif.Hull2d.QuickProps

set_option linter.unusedSectionVars false
set_option linter.unusedVariables false

/-!
Property C34: the divide-and-conquer planar hull.
-/

namespace Verif.Hull2d

open Verif

variable {K : Type} [Field K] [LinearOrder K] [IsStrictOrderedRing K]

/-- What the planar hull routines are to return: valid indices whose points span all points. -/
def HullOK (P : List (Point K 2)) (out : List ℕ) : Prop :=
  (∀ i ∈ out, i < P.length) ∧ ∀ p ∈ P, p ∈ convexHull K {q | ∃ i ∈ out, P[i]? = some q}

theorem blocks_spec (n k : ℕ) :
    (n < 10 → blocks n k = .error .ub) ∧
      (10 ≤ n → 0 < k → ∃ B, blocks n k = .ok B ∧ 0 < B ∧ B ≤ k ∧ 10 ≤ n / B ∧ ∀ B', B < B' → B' ≤ k → n / B' < 10) := by
  induction k with
  | zero => exact ⟨fun _ => rfl, fun _ h => absurd h (lt_irrefl _)⟩
  | succ k ih =>
    constructor
    · intro h
      rw [blocks, if_pos (lt_of_le_of_lt (Nat.div_le_self _ _) h)]
      exact ih.1 h
    · intro h _
      rw [blocks]
      by_cases hlt : n / (k + 1) < 10
      · rw [if_pos hlt]
        have hk : 0 < k := by
          by_contra hc
          have : k = 0 := by omega
          subst this
          simp at hlt
          omega
        obtain ⟨B, h1, h2, h3, h4, h5⟩ := ih.2 h hk
        refine ⟨B, h1, h2, by omega, h4, fun B' hB hB' => ?_⟩
        rcases Nat.lt_or_ge k B' with hc | hc
        · rw [show B' = k + 1 by omega]
          exact hlt
        · exact h5 B' hB hc
      · rw [if_neg hlt]
        exact ⟨k + 1, rfl, by omega, le_rfl, by omega, fun B' h1 h2 => by omega⟩

theorem subHulls_ok (hull : List (Point K 2) → Except Err (List ℕ))
    (hh : ∀ P : List (Point K 2), P ≠ [] → ∃ out, hull P = .ok out ∧ HullOK P out) (P : List (Point K 2)) (b : ℕ)
    (hb : 0 < b) (is : List ℕ) (his : ∀ i ∈ is, (i + 1) * b ≤ P.length) :
    ∃ U, subHulls hull b P is = .ok U ∧ (∀ x ∈ U, x < P.length) ∧
      ∀ i ∈ is, ∀ j, i * b ≤ j → j < (i + 1) * b → P.getD j 0 ∈ convexHull K {q | ∃ x ∈ U, P[x]? = some q} := by
  induction is with
  | nil => exact ⟨[], rfl, by simp, by simp⟩
  | cons i is ih =>
    obtain ⟨U, hU, hlt, hcov⟩ := ih fun j hj => his j (by simp [hj])
    have hi := his i (by simp)
    rw [subHulls, min_eq_right hi]
    have hsz : (i + 1) * b - i * b = b := by
      rw [Nat.add_mul, Nat.one_mul]
      omega
    have hib : i * b + b ≤ P.length := by
      rw [Nat.add_mul, Nat.one_mul] at hi
      exact hi
    rw [hsz]
    set Q := (P.drop (i * b)).take b with hQ
    have hQl : Q.length = b := by
      rw [hQ, List.length_take, List.length_drop]
      omega
    have hQget : ∀ x, x < b → Q[x]? = P[i * b + x]? := by
      intro x hx
      rw [hQ, List.getElem?_take, if_pos hx, List.getElem?_drop]
    obtain ⟨out, ho, h1, h2⟩ := hh Q (by
      intro h
      rw [h] at hQl
      simp at hQl
      omega)
    rw [ho, hU]
    refine ⟨out.map (fun x => i * b + x) ++ U, rfl, ?_, ?_⟩
    · intro x hx
      rcases List.mem_append.mp hx with hx | hx
      · obtain ⟨y, hy, rfl⟩ := List.mem_map.mp hx
        have := h1 y hy
        omega
      · exact hlt x hx
    · intro k hk j hj1 hj2
      rcases List.mem_cons.mp hk with rfl | hk
      · rw [Nat.add_mul, Nat.one_mul] at hj2
        have hjP : j < P.length := by omega
        have hmem : P.getD j 0 ∈ Q := by
          rw [List.mem_iff_getElem?]
          refine ⟨j - k * b, ?_⟩
          rw [hQget _ (by omega), show k * b + (j - k * b) = j by omega, List.getD_eq_getElem _ _ hjP]
          exact List.getElem?_eq_getElem hjP
        refine convexHull_mono ?_ (h2 _ hmem)
        rintro q ⟨x, hx, hq⟩
        refine ⟨k * b + x, List.mem_append.mpr (Or.inl (List.mem_map.mpr ⟨x, hx, rfl⟩)), ?_⟩
        have := h1 x hx
        rw [← hQget x (by omega)]
        exact hq
      · refine convexHull_mono ?_ (hcov k hk j hj1 hj2)
        rintro q ⟨x, hx, hq⟩
        exact ⟨x, List.mem_append.mpr (Or.inr hx), hq⟩

/-- **C34**, what holds: from ten points on, the routine returns valid indices whose hull contains the points of all full
blocks; the number of blocks is the largest one up to eight per worker with at least ten points per block. What is missing:
the last `n mod B` points are not looked at (`c34_tail_false`). -/
theorem c34_blocks_partial (pick : (ℕ → K) → List ℕ → ℕ) (hpick : PickOK pick) (mm : List (Point K 2) → ℕ × ℕ)
    (hmm : MinMaxOK mm) (w : ℕ) (hw : 0 < w) (P : List (Point K 2)) (hn : 10 ≤ P.length) :
    ∃ B out, dcCompute (compute pick mm) w P = .ok out ∧ (0 < B ∧ B ≤ w * 8 ∧ 10 ≤ P.length / B ∧
        ∀ B', B < B' → B' ≤ w * 8 → P.length / B' < 10) ∧ (∀ i ∈ out, i < P.length) ∧
      ∀ j, ∀ hj : j < P.length, j < B * (P.length / B) → P[j] ∈ convexHull K {q | ∃ i ∈ out, P[i]? = some q} := by
  obtain ⟨B, hB, hB0, hBk, hB10, hBmax⟩ := (blocks_spec P.length (w * 8)).2 hn (by omega)
  have hh : ∀ P : List (Point K 2), P ≠ [] → ∃ out, compute pick mm P = .ok out ∧ HullOK P out := by
    intro P hP
    obtain ⟨out, h1, h2, h3⟩ := c32_hull pick hpick mm hmm P hP
    exact ⟨out, h1, h2, h3⟩
  set b := P.length / B with hb
  have hBb : B * b ≤ P.length := Nat.mul_div_le _ _
  obtain ⟨U, hU, hlt, hcov⟩ := subHulls_ok (compute pick mm) hh P b (by omega) (List.range B) (by
    intro i hi
    exact le_trans (Nat.mul_le_mul_right b (List.mem_range.mp hi)) hBb)
  have hUne : U ≠ [] := by
    rintro rfl
    have h0 := hcov 0 (List.mem_range.mpr hB0) 0 (by omega) (by omega)
    simp at h0
  obtain ⟨H, hH, hH1, hH2⟩ := hh (U.map fun i => P.getD i 0) (by simpa using hUne)
  refine ⟨B, H.map fun h => U.getD h 0, ?_, ⟨hB0, hBk, hB10, hBmax⟩, ?_, ?_⟩
  · unfold dcCompute
    rw [hB]
    show (subHulls (compute pick mm) (P.length / B) P (List.range B)).bind _ = _
    rw [← hb, hU]
    show (compute pick mm (U.map fun i => P.getD i 0)).map _ = _
    rw [hH]
    rfl
  · intro i hi
    obtain ⟨h, hh', rfl⟩ := List.mem_map.mp hi
    have := hH1 h hh'
    rw [List.length_map] at this
    rw [List.getD_eq_getElem _ _ this]
    exact hlt _ (List.getElem_mem this)
  · intro j hj hjb
    have hb0 : 0 < b := by omega
    have hin := hcov (j / b) (List.mem_range.mpr ((Nat.div_lt_iff_lt_mul hb0).mpr hjb)) j
      (Nat.div_mul_le_self _ _) (by
        have := Nat.div_add_mod j b
        have := Nat.mod_lt j hb0
        rw [Nat.add_mul, Nat.one_mul, Nat.mul_comm]
        omega)
    rw [List.getD_eq_getElem _ _ hj] at hin
    refine convexHull_min ?_ (convex_convexHull K _) hin
    rintro q ⟨x, hx, hq⟩
    have hxP := hlt x hx
    rw [List.getElem?_eq_getElem hxP] at hq
    have hqm : q ∈ U.map fun i => P.getD i 0 := by
      refine List.mem_map.mpr ⟨x, hx, ?_⟩
      rw [List.getD_eq_getElem _ _ hxP]
      exact Option.some.inj hq
    refine convexHull_mono ?_ (hH2 q hqm)
    rintro y ⟨h, hh', hy⟩
    have hhl := hH1 h hh'
    rw [List.length_map] at hhl
    refine ⟨U.getD h 0, List.mem_map.mpr ⟨h, hh', rfl⟩, ?_⟩
    rw [List.getElem?_map, List.getElem?_eq_getElem hhl] at hy
    simp only [Option.map_some, Option.some.injEq] at hy
    rw [List.getD_eq_getElem _ _ hhl, List.getElem?_eq_getElem (hlt _ (List.getElem_mem hhl)), ← hy,
      List.getD_eq_getElem _ _ (hlt _ (List.getElem_mem hhl))]

/-- Below ten points the number of blocks is decremented to zero, and the code divides by it. -/
theorem c34_small_ub (hull : List (Point K 2) → Except Err (List ℕ)) (w : ℕ) (P : List (Point K 2))
    (hn : P.length < 10) : dcCompute hull w P = .error .ub := by
  unfold dcCompute
  rw [(blocks_spec P.length (w * 8)).1 hn]
  rfl

/-- C34 is false in general: with one worker and 81 points the last point is lost. -/
theorem c34_tail_false : ∃ (P : List (Point ℚ 2)) (out : List ℕ),
    dcCompute (compute reduceMax firstMinMax) 1 P = .ok out ∧
      ∃ p ∈ P, p ∉ convexHull ℚ {q | ∃ i ∈ out, P[i]? = some q} := by
  set P : List (Point ℚ 2) :=
    (List.range 80).map (fun i => (![((i % 7 : ℕ) : ℚ), ((i % 5 : ℕ) : ℚ)] : Point ℚ 2)) ++ [![100, 0]] with hP
  have hrun : ((dcCompute (compute reduceMax firstMinMax) 1 P).toOption.map
      fun out => decide (∀ i ∈ out, i < 80)) = some true := by decide +kernel
  have hlow : ∀ i < 80, (P.getD i 0) 0 ≤ 10 := by decide +kernel
  generalize hr : dcCompute (compute reduceMax firstMinMax) 1 P = res at hrun
  match res, hrun with
  | .ok out, hrun =>
    have h80 : ∀ i ∈ out, i < 80 := by simpa [Except.toOption] using hrun
    refine ⟨P, out, hr, ![100, 0], by rw [hP]; simp, fun hmem => ?_⟩
    have hsub : {q | ∃ i ∈ out, P[i]? = some q} ⊆ {q : Point ℚ 2 | q 0 ≤ 10} := by
      rintro q ⟨i, hi, hq⟩
      have := hlow i (h80 i hi)
      rw [List.getD_eq_getElem?_getD, hq] at this
      exact this
    have hconv : Convex ℚ {q : Point ℚ 2 | q 0 ≤ 10} := by
      intro x hx y hy a b ha hb hab
      show a * x 0 + b * y 0 ≤ 10
      have hx' : x 0 ≤ 10 := hx
      have hy' : y 0 ≤ 10 := hy
      nlinarith [mul_le_mul_of_nonneg_left hx' ha, mul_le_mul_of_nonneg_left hy' hb]
    have := convexHull_min hsub hconv hmem
    have h' : (100 : ℚ) ≤ 10 := this
    norm_num at h'

/-- Non-trivial instance of the hypotheses: 80 points, eight full blocks, nothing lost. -/
example : (blocks 80 8).toOption = some 8 ∧ 8 * (80 / 8) = 80 := by decide +kernel

end Verif.Hull2d
