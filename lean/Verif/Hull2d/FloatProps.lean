import Verif.Hull2d.FloatModel
import Verif.Hull2d.QuickProps
import Mathlib.Tactic.IntervalCases

set_option linter.unusedSectionVars false
set_option linter.unusedVariables false

/-!
C99: planar quickhull in rounded arithmetic.
-/

namespace Verif.Hull2d

open Verif Verif.Float

variable {fl : ℝ → ℝ}

theorem areaFl_self_right (hf : IsMonoRounding fl) (a b : Point ℝ 2) : areaFl fl a b b = 0 := by
  unfold areaFl
  rw [mul_comm (fl (b 1 - a 1)), sub_self, hf.zero]

theorem areaFl_self_left (hf : IsMonoRounding fl) (a b : Point ℝ 2) : areaFl fl a b a = 0 := by
  unfold areaFl
  simp [hf.zero]

/-- The recursion ends and stays inside the arrays whatever the rounding does: the chosen point is never kept. -/
theorem helperFl_ok (hf : IsMonoRounding fl) (pick : (ℕ → ℝ) → List ℕ → ℕ) (hpick : PickOK pick) (P : List (Point ℝ 2))
    (fuel : ℕ) (idxs : List ℕ) (l mid r : ℕ) (hl : idxs.length ≤ fuel + 1) (h1 : l < P.length) (h2 : r < P.length)
    (hidx : ∀ j ∈ idxs, j < P.length) (hmid : 2 ≤ idxs.length → mid ∈ idxs) :
    ∃ out, helperFl fl pick P fuel idxs l mid r = .ok out ∧ (∀ j ∈ out, j ∈ idxs) ∧ (idxs ≠ [] → out ≠ []) := by
  induction fuel generalizing idxs l mid r with
  | zero =>
    rw [helperFl, if_pos (by omega)]
    exact ⟨idxs, rfl, fun j hj => hj, id⟩
  | succ fuel ih =>
    by_cases hlen : idxs.length ≤ 1
    · rw [helperFl, if_pos hlen]
      exact ⟨idxs, rfl, fun j hj => hj, id⟩
    · have hm := hmid (by omega)
      have hmP := hidx mid hm
      rw [helperFl, if_neg hlen]
      simp only []
      rw [if_pos ⟨h1, hmP, h2, hidx⟩]
      set lefta : ℕ → ℝ := fun j => areaFl fl (P.getD l 0) (P.getD mid 0) (P.getD j 0) with hla
      set righta : ℕ → ℝ := fun j => areaFl fl (P.getD mid 0) (P.getD r 0) (P.getD j 0) with hra
      set left := idxs.filter fun j => decide (0 < lefta j) with hlf
      set right := idxs.filter fun j => decide (0 < righta j) with hrf
      have hll : left.length < idxs.length := by
        rw [hlf, List.length_filter_lt_length_iff_exists]
        exact ⟨mid, hm, by simp only [hla, areaFl_self_right hf]; simp⟩
      have hrl : right.length < idxs.length := by
        rw [hrf, List.length_filter_lt_length_iff_exists]
        exact ⟨mid, hm, by simp only [hra, areaFl_self_left hf]; simp⟩
      have hpk : ∀ f : ℕ → ℝ, 2 ≤ (idxs.filter fun j => decide (0 < f j)).length →
          pick f idxs ∈ idxs.filter fun j => decide (0 < f j) := by
        intro f h
        obtain ⟨x, hx⟩ := List.exists_mem_of_ne_nil (idxs.filter fun j => decide (0 < f j))
          (by rintro h'; rw [h'] at h; simp at h)
        rw [List.mem_filter, decide_eq_true_eq] at hx
        obtain ⟨p1, p2⟩ := hpick f idxs ⟨x, hx⟩
        rw [List.mem_filter, decide_eq_true_eq]
        exact ⟨p1, lt_of_lt_of_le hx.2 (p2 x hx.1)⟩
      obtain ⟨lo, hlo, sl, _⟩ := ih left l (pick lefta idxs) mid (by omega) h1 hmP
        (fun j hj => hidx j (List.mem_of_mem_filter hj)) (hpk lefta)
      obtain ⟨ro, hro, sr, _⟩ := ih right mid (pick righta idxs) r (by omega) hmP h2
        (fun j hj => hidx j (List.mem_of_mem_filter hj)) (hpk righta)
      rw [hlo, hro]
      refine ⟨lo ++ mid :: ro, rfl, fun j hj => ?_, fun _ => by simp⟩
      simp only [List.mem_append, List.mem_cons] at hj
      rcases hj with hj | rfl | hj
      · exact List.mem_of_mem_filter (sl j hj)
      · exact hm
      · exact List.mem_of_mem_filter (sr j hj)

/-- **C99**, what holds with any rounding: for at least one point the routine ends, without reading outside an array, with
indices of input points, among them those of the two lexicographic extremes. If a point is computed to lie to the left of the
line between the extremes, a point computed to lie there is returned, and likewise to the right. -/
theorem c99_defined_partial (hf : IsMonoRounding fl) (pick : (ℕ → ℝ) → List ℕ → ℕ) (hpick : PickOK pick)
    (mm : List (Point ℝ 2) → ℕ × ℕ) (hmm : MinMaxOK mm) (P : List (Point ℝ 2)) (hP : P ≠ []) :
    ∃ mn mx out, computeFl fl pick mm P = .ok out ∧ (∀ i ∈ out, i < P.length) ∧ out.head? = some mn ∧ mx ∈ out ∧
      (∀ p ∈ P, LexLe (P.getD mn 0) p ∧ LexLe p (P.getD mx 0)) ∧
      ((∃ p ∈ P, 0 < areaFl fl (P.getD mn 0) (P.getD mx 0) p) →
        ∃ i ∈ out, 0 < areaFl fl (P.getD mn 0) (P.getD mx 0) (P.getD i 0)) ∧
      ((∃ p ∈ P, areaFl fl (P.getD mn 0) (P.getD mx 0) p < 0) →
        ∃ i ∈ out, areaFl fl (P.getD mn 0) (P.getD mx 0) (P.getD i 0) < 0) := by
  obtain ⟨h1, h2, hlex⟩ := hmm P hP
  unfold computeFl
  rw [if_neg hP]
  simp only []
  set mn := (mm P).1
  set mx := (mm P).2
  set a : ℕ → ℝ := fun i => areaFl fl (P.getD mn 0) (P.getD mx 0) (P.getD i 0) with ha
  set all := List.range P.length with hall
  set up := all.filter fun i => decide (0 < a i) with hup
  set lo := all.filter fun i => decide (a i < 0) with hlo
  have hul : up.length ≤ P.length + 1 := by
    have := List.length_filter_le (fun i => decide (0 < a i)) all
    rw [← hup, hall, List.length_range] at this
    omega
  have hll : lo.length ≤ P.length + 1 := by
    have := List.length_filter_le (fun i => decide (a i < 0)) all
    rw [← hlo, hall, List.length_range] at this
    omega
  have hin : ∀ j ∈ all, j < P.length := fun j hj => List.mem_range.1 hj
  obtain ⟨U, hU, su, nu⟩ := helperFl_ok hf pick hpick P P.length up mn (pick a all) mx hul h1 h2
    (fun j hj => hin j (List.mem_of_mem_filter hj)) (fun h => by
      obtain ⟨x, hx⟩ := List.exists_mem_of_ne_nil up (by rintro h'; rw [h'] at h; simp at h)
      rw [hup, List.mem_filter, decide_eq_true_eq] at hx
      obtain ⟨p1, p2⟩ := hpick a all ⟨x, hx⟩
      rw [hup, List.mem_filter, decide_eq_true_eq]
      exact ⟨p1, lt_of_lt_of_le hx.2 (p2 x hx.1)⟩)
  obtain ⟨L, hL, sl, nl⟩ := helperFl_ok hf pick hpick P P.length lo mx (pick (fun i => -a i) all) mn hll h2 h1
    (fun j hj => hin j (List.mem_of_mem_filter hj)) (fun h => by
      obtain ⟨x, hx⟩ := List.exists_mem_of_ne_nil lo (by rintro h'; rw [h'] at h; simp at h)
      rw [hlo, List.mem_filter, decide_eq_true_eq] at hx
      obtain ⟨p1, p2⟩ := hpick (fun i => -a i) all ⟨x, hx.1, neg_pos.mpr hx.2⟩
      rw [hlo, List.mem_filter, decide_eq_true_eq]
      refine ⟨p1, ?_⟩
      have := p2 x hx.1
      linarith [hx.2])
  rw [hU, hL]
  refine ⟨mn, mx, _, rfl, ?_, rfl, by simp, hlex, ?_, ?_⟩
  · intro i hi
    simp only [List.mem_append, List.mem_cons] at hi
    rcases hi with (rfl | hi) | rfl | hi
    · exact h1
    · exact hin i (List.mem_of_mem_filter (su i hi))
    · exact h2
    · exact hin i (List.mem_of_mem_filter (sl i hi))
  · rintro ⟨p, hp, hpos⟩
    obtain ⟨j, hj, rfl⟩ := List.mem_iff_getElem.mp hp
    rw [← List.getD_eq_getElem P 0 hj] at hpos
    have hju : j ∈ up := by
      rw [hup, List.mem_filter, decide_eq_true_eq]
      exact ⟨List.mem_range.2 hj, hpos⟩
    obtain ⟨i, hi⟩ := List.exists_mem_of_ne_nil U (nu (List.ne_nil_of_mem hju))
    have := su i hi
    rw [hup, List.mem_filter, decide_eq_true_eq] at this
    exact ⟨i, by simp [hi], this.2⟩
  · rintro ⟨p, hp, hneg⟩
    obtain ⟨j, hj, rfl⟩ := List.mem_iff_getElem.mp hp
    rw [← List.getD_eq_getElem P 0 hj] at hneg
    have hju : j ∈ lo := by
      rw [hlo, List.mem_filter, decide_eq_true_eq]
      exact ⟨List.mem_range.2 hj, hneg⟩
    obtain ⟨i, hi⟩ := List.exists_mem_of_ne_nil L (nl (List.ne_nil_of_mem hju))
    have := sl i hi
    rw [hlo, List.mem_filter, decide_eq_true_eq] at this
    exact ⟨i, by simp [hi], this.2⟩

/-! ### Coordinates on a grid -/

/-- Multiples of a power of two of at most `p` bits are not rounded. -/
theorem rne_grid {p : ℕ} (hp : 1 ≤ p) (s : ℤ) {n : ℤ} (h : |n| ≤ 2 ^ p) : rne p (n * (2 : ℝ) ^ s) = n * (2 : ℝ) ^ s := by
  apply rne_repr hp
  rcases lt_or_eq_of_le h with h | h
  · exact ⟨n, s, h, rfl⟩
  · have h1 : (1 : ℤ) < 2 ^ p := by
      calc (1 : ℤ) < 2 ^ 1 := by norm_num
        _ ≤ 2 ^ p := pow_le_pow_right₀ (by norm_num) hp
    rcases abs_eq (by positivity : (0 : ℤ) ≤ 2 ^ p) |>.1 h with h | h
    · refine ⟨1, p + s, by simpa using h1, ?_⟩
      rw [h, zpow_add₀ (by norm_num)]
      push_cast
      rw [zpow_natCast]
      ring
    · refine ⟨-1, p + s, by simpa using h1, ?_⟩
      rw [h, zpow_add₀ (by norm_num)]
      push_cast
      rw [zpow_natCast]
      ring

/-- Specification: the coordinates are multiples of `2^s`, by factors of size at most `2^k`. -/
def OnGrid (s : ℤ) (k : ℕ) (a : Point ℝ 2) : Prop := ∀ i, ∃ n : ℤ, a i = n * (2 : ℝ) ^ s ∧ |n| ≤ 2 ^ k

theorem areaFl_grid {p k : ℕ} {s : ℤ} (hk : 2 * k + 3 ≤ p) {a b c : Point ℝ 2} (ha : OnGrid s k a) (hb : OnGrid s k b)
    (hc : OnGrid s k c) : areaFl (rne p) a b c = triArea a b c := by
  have hp : 1 ≤ p := by omega
  have pw : ∀ m : ℕ, m ≤ p → (2 : ℤ) ^ m ≤ 2 ^ p := fun m hm => pow_le_pow_right₀ (by norm_num) hm
  have sub : ∀ {x y : ℤ}, |x| ≤ 2 ^ k → |y| ≤ 2 ^ k → |x - y| ≤ 2 ^ (k + 1) := by
    intro x y hx hy
    rw [pow_succ]
    have := abs_sub x y
    linarith
  have mul : ∀ {x y : ℤ}, |x| ≤ 2 ^ (k + 1) → |y| ≤ 2 ^ (k + 1) → |x * y| ≤ 2 ^ (2 * k + 2) := by
    intro x y hx hy
    rw [abs_mul]
    calc |x| * |y| ≤ 2 ^ (k + 1) * 2 ^ (k + 1) := mul_le_mul hx hy (abs_nonneg _) (by positivity)
      _ = 2 ^ (2 * k + 2) := by rw [← pow_add]; congr 1; ring
  have sub2 : ∀ {x y : ℤ}, |x| ≤ 2 ^ (2 * k + 2) → |y| ≤ 2 ^ (2 * k + 2) → |x - y| ≤ 2 ^ (2 * k + 3) := by
    intro x y hx hy
    have : (2 : ℤ) ^ (2 * k + 3) = 2 ^ (2 * k + 2) * 2 := pow_succ _ _
    rw [this]
    have := abs_sub x y
    linarith
  obtain ⟨a0, ea0, ha0⟩ := ha 0
  obtain ⟨a1, ea1, ha1⟩ := ha 1
  obtain ⟨b0, eb0, hb0⟩ := hb 0
  obtain ⟨b1, eb1, hb1⟩ := hb 1
  obtain ⟨c0, ec0, hc0⟩ := hc 0
  obtain ⟨c1, ec1, hc1⟩ := hc 1
  have df : ∀ {x y : ℤ}, |x| ≤ 2 ^ k → |y| ≤ 2 ^ k →
      rne p (x * (2 : ℝ) ^ s - y * (2 : ℝ) ^ s) = ((x - y : ℤ) : ℝ) * (2 : ℝ) ^ s := by
    intro x y hx hy
    rw [← rne_grid hp s ((sub hx hy).trans (pw _ (by omega)))]
    congr 1
    push_cast
    ring
  have pr : ∀ {x y : ℤ}, |x| ≤ 2 ^ (k + 1) → |y| ≤ 2 ^ (k + 1) →
      rne p (x * (2 : ℝ) ^ s * (y * (2 : ℝ) ^ s)) = ((x * y : ℤ) : ℝ) * (2 : ℝ) ^ (s + s) := by
    intro x y hx hy
    rw [← rne_grid hp (s + s) ((mul hx hy).trans (pw _ (by omega)))]
    congr 1
    rw [zpow_add₀ (by norm_num)]
    push_cast
    ring
  unfold areaFl triArea
  rw [ea0, ea1, eb0, eb1, ec0, ec1, df hb0 ha0, df hc1 ha1, df hb1 ha1, df hc0 ha0, pr (sub hb0 ha0) (sub hc1 ha1),
    pr (sub hb1 ha1) (sub hc0 ha0)]
  rw [← sub_mul, ← Int.cast_sub, rne_grid hp (s + s) ((sub2 (mul (sub hb0 ha0) (sub hc1 ha1))
    (mul (sub hb1 ha1) (sub hc0 ha0))).trans (pw _ hk)), zpow_add₀ (by norm_num)]
  push_cast
  ring

theorem helperFl_eq (pick : (ℕ → ℝ) → List ℕ → ℕ) (P : List (Point ℝ 2))
    (h : ∀ i j k, areaFl fl (P.getD i 0) (P.getD j 0) (P.getD k 0) = triArea (P.getD i 0) (P.getD j 0) (P.getD k 0))
    (fuel : ℕ) (idxs : List ℕ) (l mid r : ℕ) :
    helperFl fl pick P fuel idxs l mid r = helper pick P fuel idxs l mid r := by
  induction fuel generalizing idxs l mid r with
  | zero => rw [helperFl, helper]
  | succ fuel ih =>
    rw [helperFl, helper]
    simp only [h, ih]

theorem computeFl_eq (pick : (ℕ → ℝ) → List ℕ → ℕ) (mm : List (Point ℝ 2) → ℕ × ℕ) (P : List (Point ℝ 2))
    (h : ∀ i j k, areaFl fl (P.getD i 0) (P.getD j 0) (P.getD k 0) = triArea (P.getD i 0) (P.getD j 0) (P.getD k 0)) :
    computeFl fl pick mm P = compute pick mm P := by
  unfold computeFl compute
  simp only [h, helperFl_eq pick P h]

/-- **C99**, coordinates on a grid: if the coordinates are multiples of one power of two by integers of at most `k` bits, where
`2 k + 3 ≤ p` (25 bits for `double`), then nothing is rounded, and the result is the convex hull, in clockwise order and
without repetitions, as in C32 and C33. -/
theorem c99_grid_partial {p k : ℕ} (hk : 2 * k + 3 ≤ p) (s : ℤ) (pick : (ℕ → ℝ) → List ℕ → ℕ) (hpick : PickOK pick)
    (mm : List (Point ℝ 2) → ℕ × ℕ) (hmm : MinMaxOK mm) (P : List (Point ℝ 2)) (hP : P ≠ [])
    (hgrid : ∀ q ∈ P, OnGrid s k q) :
    ∃ out, computeFl (rne p) pick mm P = .ok out ∧ ∃ hlen : 2 ≤ out.length, (∀ i ∈ out, i < P.length) ∧
      (∀ q ∈ P, q ∈ convexHull ℝ {q | ∃ i ∈ out, P[i]? = some q}) ∧
      (∀ k, ∀ hk : k < out.length, ∀ q ∈ P, ∀ a b, P[out[k]]? = some a →
        P[out[(k + 1) % out.length]'(Nat.mod_lt _ (by omega))]? = some b →
        (b 0 - a 0) * (q 1 - a 1) - (b 1 - a 1) * (q 0 - a 0) ≤ 0) ∧
      ((∃ q ∈ P, ∃ q' ∈ P, q ≠ q') → (out.map fun i => P[i]?).Nodup) := by
  have hg : ∀ i, OnGrid s k (P.getD i 0) := by
    intro i
    by_cases hi : i < P.length
    · rw [List.getD_eq_getElem _ _ hi]
      exact hgrid _ (List.getElem_mem hi)
    · rw [List.getD_eq_default _ _ (not_lt.1 hi)]
      exact fun _ => ⟨0, by simp, by simp⟩
  rw [computeFl_eq pick mm P fun i j l => areaFl_grid hk (hg i) (hg j) (hg l)]
  obtain ⟨out, h1, h2, h3⟩ := c32_hull pick hpick mm hmm P hP
  obtain ⟨out', g1, g2, g3, g4⟩ := c33_clockwise pick hpick mm hmm P hP
  rw [h1] at g1
  cases g1
  exact ⟨out, h1, g2, h2, h3, g3, g4⟩

/-! ### Four points on which the result is wrong -/

/-- Four points with `double` coordinates. -/
def twice : List (Point ℝ 2) :=
  [![0, 12 * 2 ^ 52], ![2 ^ 52, 2 ^ 52], ![2 ^ 52 + 1, 2 ^ 52], ![2 ^ 52, 2 ^ 52 + 1]]

theorem rne_53 {n : ℤ} (h : |n| ≤ 2 ^ 53) : rne 53 (n : ℝ) = n := by
  have := rne_grid (p := 53) (by norm_num) 0 h
  simpa using this

theorem rne_11 (m : ℤ) (h : |m| ≤ 2 ^ 53) (s : ℤ) (x : ℝ) (hx : x = m * (2 : ℝ) ^ s) : rne 53 x = x := by
  rw [hx]
  exact rne_grid (by norm_num) s h

/-- The three numbers that are rounded. -/
theorem rne_m1 : rne 53 (11 * 2 ^ 52 - 1 : ℝ) = 11 * 2 ^ 52 := by
  rw [rne_eval (p := 53) 3 (by norm_num) (by norm_num)]
  have : rhe ((11 * 2 ^ 52 - 1 : ℝ) / (2 : ℝ) ^ (3 : ℤ)) = 11 * 2 ^ 49 := by
    have h1 := rhe_err ((11 * 2 ^ 52 - 1 : ℝ) / (2 : ℝ) ^ (3 : ℤ))
    have h2 := rhe_nearest ((11 * 2 ^ 52 - 1 : ℝ) / (2 : ℝ) ^ (3 : ℤ)) (11 * 2 ^ 49)
    generalize rhe ((11 * 2 ^ 52 - 1 : ℝ) / (2 : ℝ) ^ (3 : ℤ)) = m at *
    have e : ((11 * 2 ^ 52 - 1 : ℝ) / (2 : ℝ) ^ (3 : ℤ)) = ((11 * 2 ^ 49 : ℤ) : ℝ) - 1 / 8 := by norm_num
    rw [e] at h2
    generalize (11 * 2 ^ 49 : ℤ) = t at *
    rw [abs_le] at h2
    have e2 : |(t : ℝ) - ((t : ℝ) - 1 / 8)| = 1 / 8 := by
      rw [sub_sub_cancel]
      norm_num
    rw [e2] at h2
    obtain ⟨h3, h4⟩ := h2
    have h5 : ((m - t : ℤ) : ℝ) < 1 := by push_cast; linarith
    have h6 : (-1 : ℝ) < ((m - t : ℤ) : ℝ) := by push_cast; linarith
    have h7 : m - t < 1 := by exact_mod_cast h5
    have h8 : -1 < m - t := by exact_mod_cast h6
    omega
  rw [this]
  norm_num

theorem rne_prod : rne 53 (11 * 2 ^ 52 * (2 ^ 52 + 1) : ℝ) = 11 * 2 ^ 104 + 8 * 2 ^ 52 := by
  rw [rne_eval (p := 53) 55 (by norm_num) (by norm_num)]
  have e : (11 * 2 ^ 52 * (2 ^ 52 + 1) : ℝ) / (2 : ℝ) ^ (55 : ℤ) = ((11 * 2 ^ 49 + 1 : ℤ) : ℝ) + 3 / 8 := by norm_num
  rw [e, rhe_down (11 * 2 ^ 49 + 1) (by norm_num) (by norm_num)]
  norm_num

/-- The result on the four points, for every choice of the extreme points. -/
theorem twice_run (mm : List (Point ℝ 2) → ℕ × ℕ) (hmm : MinMaxOK mm) :
    computeFl (rne 53) reduceMax mm twice = .ok [0, 2, 1, 3, 1] := by
  have hf := (isRounding_rne (p := 53) (by norm_num)).toIsMonoRounding
  have hm : mm twice = (0, 2) := by
    obtain ⟨h1, h2, h3⟩ := hmm twice (by simp [twice])
    have l : twice.length = 4 := rfl
    rw [l] at h1 h2
    have g0 := h3 ![0, 12 * 2 ^ 52] (by simp [twice])
    have g2 := h3 ![2 ^ 52 + 1, 2 ^ 52] (by simp [twice])
    generalize mm twice = q at *
    obtain ⟨u, v⟩ := q
    simp only at h1 h2 g0 g2
    have e1 : u = 0 := by
      have := g0.1
      interval_cases u
      · rfl
      all_goals (exfalso; revert this; norm_num [twice, LexLe])
    have e2 : v = 2 := by
      have := g2.2
      interval_cases v
      all_goals first
        | rfl
        | (exfalso; revert this; norm_num [twice, LexLe])
    rw [e1, e2]
  have z : rne 53 0 = 0 := hf.zero
  have i1 : rne 53 1 = 1 := by exact_mod_cast rne_53 (n := 1) (by norm_num)
  have n1 : rne 53 (-1) = -1 := by rw [rne_neg, i1]
  have iS : rne 53 (2 ^ 52) = 2 ^ 52 := rne_11 1 (by norm_num) 52 _ (by norm_num)
  have iS1 : rne 53 (2 ^ 52 + 1) = 2 ^ 52 + 1 := rne_11 (2 ^ 52 + 1) (by norm_num) 0 _ (by norm_num)
  have i11 : rne 53 (11 * 2 ^ 52) = 11 * 2 ^ 52 := rne_11 11 (by norm_num) 52 _ (by norm_num)
  have i8 : rne 53 (8 * 2 ^ 52) = 8 * 2 ^ 52 := rne_11 8 (by norm_num) 52 _ (by norm_num)
  have iSS : rne 53 (11 * 2 ^ 52 * 2 ^ 52) = 11 * 2 ^ 104 := by
    rw [rne_11 11 (by norm_num) 104 _ (by norm_num)]
    norm_num
  have p0 : twice.getD 0 0 = ![0, 12 * 2 ^ 52] := rfl
  have p1 : twice.getD 1 0 = ![2 ^ 52, 2 ^ 52] := rfl
  have p2 : twice.getD 2 0 = ![2 ^ 52 + 1, 2 ^ 52] := rfl
  have p3 : twice.getD 3 0 = ![2 ^ 52, 2 ^ 52 + 1] := rfl
  have A1 : areaFl (rne 53) (twice.getD 0 0) (twice.getD 2 0) (twice.getD 1 0) = -(8 * 2 ^ 52) := by
    rw [p0, p1, p2]
    unfold areaFl
    simp only [Matrix.cons_val_zero, Matrix.cons_val_one, sub_zero]
    rw [iS1, iS, show (2 ^ 52 - 12 * 2 ^ 52 : ℝ) = -(11 * 2 ^ 52) by ring, rne_neg, i11,
      show ((2 ^ 52 + 1) * -(11 * 2 ^ 52) : ℝ) = -(11 * 2 ^ 52 * (2 ^ 52 + 1)) by ring, rne_neg, rne_prod,
      show (-(11 * 2 ^ 52) * 2 ^ 52 : ℝ) = -(11 * 2 ^ 52 * 2 ^ 52) by ring, rne_neg, iSS,
      show (-(11 * 2 ^ 104 + 8 * 2 ^ 52) - -(11 * 2 ^ 104) : ℝ) = -(8 * 2 ^ 52) by ring, rne_neg, i8]
  have A3 : areaFl (rne 53) (twice.getD 0 0) (twice.getD 2 0) (twice.getD 3 0) = -(8 * 2 ^ 52) := by
    rw [p0, p3, p2]
    unfold areaFl
    simp only [Matrix.cons_val_zero, Matrix.cons_val_one, sub_zero]
    rw [iS1, iS, show (2 ^ 52 + 1 - 12 * 2 ^ 52 : ℝ) = -(11 * 2 ^ 52 - 1) by ring, rne_neg, rne_m1,
      show (2 ^ 52 - 12 * 2 ^ 52 : ℝ) = -(11 * 2 ^ 52) by ring, rne_neg, i11,
      show ((2 ^ 52 + 1) * -(11 * 2 ^ 52) : ℝ) = -(11 * 2 ^ 52 * (2 ^ 52 + 1)) by ring, rne_neg, rne_prod,
      show (-(11 * 2 ^ 52) * 2 ^ 52 : ℝ) = -(11 * 2 ^ 52 * 2 ^ 52) by ring, rne_neg, iSS,
      show (-(11 * 2 ^ 104 + 8 * 2 ^ 52) - -(11 * 2 ^ 104) : ℝ) = -(8 * 2 ^ 52) by ring, rne_neg, i8]
  have A0 := areaFl_self_left hf (twice.getD 0 0) (twice.getD 2 0)
  have A2 := areaFl_self_right hf (twice.getD 0 0) (twice.getD 2 0)
  have B1 : areaFl (rne 53) (twice.getD 2 0) (twice.getD 3 0) (twice.getD 1 0) = 1 := by
    rw [p1, p3, p2]
    unfold areaFl
    simp only [Matrix.cons_val_zero, Matrix.cons_val_one]
    rw [sub_self, z, mul_zero, z, show (2 ^ 52 + 1 - 2 ^ 52 : ℝ) = 1 by ring,
      show (2 ^ 52 - (2 ^ 52 + 1) : ℝ) = -1 by ring, i1, n1, one_mul, n1, zero_sub, neg_neg, i1]
  have B3 := areaFl_self_right hf (twice.getD 2 0) (twice.getD 3 0)
  have C1 : areaFl (rne 53) (twice.getD 3 0) (twice.getD 0 0) (twice.getD 1 0) = 2 ^ 52 := by
    rw [p1, p3, p0]
    unfold areaFl
    simp only [Matrix.cons_val_zero, Matrix.cons_val_one]
    rw [sub_self, z, mul_zero, z, zero_sub, rne_neg, iS, show (2 ^ 52 - (2 ^ 52 + 1) : ℝ) = -1 by ring, n1, neg_mul_neg,
      mul_one, iS, sub_zero, iS]
  have C3 := areaFl_self_left hf (twice.getD 3 0) (twice.getD 0 0)
  have hne : twice ≠ [] := by simp [twice]
  have hall : List.range twice.length = [0, 1, 2, 3] := rfl
  have c8 : (0 : ℝ) < 8 * 2 ^ 52 := by positivity
  have cS : (0 : ℝ) < 2 ^ 52 := by positivity
  generalize (8 * 2 ^ 52 : ℝ) = e8 at *
  unfold computeFl
  rw [if_neg hne, hm, hall]
  simp only [List.filter_cons, List.filter_nil, A0, A1, A2, A3, reduceMax, List.foldl_cons, List.foldl_nil, lt_irrefl,
    decide_false, decide_true, if_false, if_true, neg_zero, neg_neg, not_lt.2 c8.le, Left.neg_neg_iff, Left.neg_pos_iff, c8,
    Bool.false_eq_true]
  have hU : ∀ m, helperFl (rne 53) reduceMax
      twice twice.length [] 0 m 2 = .ok [] := by
    intro m
    unfold helperFl
    simp
  rw [hU]
  have hl4 : twice.length = 3 + 1 := rfl
  rw [hl4, helperFl]
  simp only [List.filter_cons, List.filter_nil, B1, B3, C1, C3, lt_irrefl, zero_lt_one, cS, decide_false, decide_true, if_false,
    if_true, Bool.false_eq_true]
  rw [if_neg (by simp), if_pos (by simp [twice])]
  have hS : ∀ a m b, helperFl (rne 53) reduceMax
      twice 3 [1] a m b = .ok [1] := by
    intro a m b
    unfold helperFl
    simp
  rw [hS, hS]
  rfl

/-- **C99** is false in general: there are four different points with `double` coordinates for which the routine returns one
index twice, and returns a point that lies strictly inside the triangle of the three others. -/
theorem c99_twice_false : ∃ P : List (Point ℝ 2), P.Nodup ∧ (∀ q ∈ P, ∀ i, Repr 53 (q i)) ∧
    ∀ mm, MinMaxOK mm → ∃ out i, computeFl (rne 53) reduceMax mm P = .ok out ∧ ¬ out.Nodup ∧ i ∈ out ∧
      ∃ a b c, a ∈ P ∧ b ∈ P ∧ c ∈ P ∧ ∃ x y z : ℝ, 0 < x ∧ 0 < y ∧ 0 < z ∧ x + y + z = 1 ∧ triArea a b c ≠ 0 ∧
        P.getD i 0 = x • a + y • b + z • c := by
  refine ⟨twice, ?_, ?_, fun mm hmm => ⟨_, 3, twice_run mm hmm, by simp, by simp, ?_⟩⟩
  · have h0 : ∀ {x y : Point ℝ 2} (i : Fin 2), x i ≠ y i → x ≠ y := fun i h e => h (congrFun e i)
    simp only [twice, List.nodup_cons, List.mem_cons, List.not_mem_nil, or_false, not_or, not_false_eq_true, List.nodup_nil,
      and_true]
    refine ⟨⟨h0 0 ?_, h0 0 ?_, h0 0 ?_⟩, ⟨h0 0 ?_, h0 1 ?_⟩, h0 0 ?_⟩ <;> norm_num
  · intro q hq i
    have r0 : Repr 53 (0 : ℝ) := ⟨0, 0, by norm_num, by norm_num⟩
    have r1 : Repr 53 (12 * 2 ^ 52 : ℝ) := ⟨12, 52, by norm_num, by norm_num⟩
    have r2 : Repr 53 (2 ^ 52 : ℝ) := ⟨1, 52, by norm_num, by norm_num⟩
    have r3 : Repr 53 (2 ^ 52 + 1 : ℝ) := ⟨2 ^ 52 + 1, 0, by norm_num, by norm_num⟩
    simp only [twice, List.mem_cons, List.not_mem_nil, or_false] at hq
    rcases hq with rfl | rfl | rfl | rfl <;> fin_cases i <;> first | exact r0 | exact r1 | exact r2 | exact r3
  · refine ⟨![0, 12 * 2 ^ 52], ![2 ^ 52, 2 ^ 52], ![2 ^ 52 + 1, 2 ^ 52], by simp [twice], by simp [twice], by simp [twice],
      1 / (11 * 2 ^ 52), 1 - 1 / (11 * 2 ^ 52) - 1 / 11, 1 / 11, by norm_num, by norm_num, by norm_num, by norm_num, ?_, ?_⟩
    · norm_num [triArea]
    · have e : twice.getD 3 0 = ![2 ^ 52, 2 ^ 52 + 1] := rfl
      rw [e]
      funext i
      fin_cases i <;> norm_num

/-- The hypotheses are met: rounding to 53 bits is a rounding, the reductions meet their contracts. -/
example : IsMonoRounding (rne 53) ∧ PickOK (reduceMax (K := ℝ)) ∧ MinMaxOK (firstMinMax (K := ℝ)) ∧ twice ≠ [] :=
  ⟨(isRounding_rne (p := 53) (by norm_num)).toIsMonoRounding, reduceMax_ok, firstMinMax_ok, by simp [twice]⟩

/-- The hypotheses on the grid are met: multiples of 1/8, and 25 bits with `double`. -/
example : 2 * 25 + 3 ≤ 53 ∧ ∀ q ∈ [(![0, 1 / 8] : Point ℝ 2), ![5, -3 / 4], ![1000, 1 / 2]], OnGrid (-3) 25 q := by
  refine ⟨by norm_num, ?_⟩
  intro q hq
  simp only [List.mem_cons, List.not_mem_nil, or_false] at hq
  rcases hq with rfl | rfl | rfl <;> intro i <;> fin_cases i
  · exact ⟨0, by norm_num, by norm_num⟩
  · exact ⟨1, by norm_num, by norm_num⟩
  · exact ⟨40, by norm_num, by norm_num⟩
  · exact ⟨-6, by norm_num, by norm_num⟩
  · exact ⟨8000, by norm_num, by norm_num⟩
  · exact ⟨4, by norm_num, by norm_num⟩

end Verif.Hull2d
