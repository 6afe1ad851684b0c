import Verif.KdTree.BccpFloatLemmas
import Verif.KdTree.FloatProps

set_option linter.unusedSectionVars false
set_option linter.unusedVariables false

/-!
Property C92: the bichromatic closest pair in rounded arithmetic.
-/

namespace Verif.KdTree

open Verif.Float

variable {α : Type} {d : ℕ} {u : ℝ} {fl : ℝ → ℝ}

/-- C92. For every rounding that keeps the order and is symmetric about 0 (this includes underflow):
`bichromaticClosestPair` returns a pair with one item from each list whose computed distance is
minimum among the computed distances of all such pairs, and that distance. Pruning never loses a
pair to rounding. -/
theorem c92_bccp (hf : IsMonoRounding fl) (w bs : ℕ) (hw : 0 < w) (hb : 0 < bs) (hd : 0 < d)
    (pos : α → Point ℝ d) (ls1 ls2 : ℕ) (hls1 : 1 ≤ ls1) (hls2 : 1 ≤ ls2) (par1 par2 : Bool)
    (A B : List α) (hA : A ≠ []) (hB : B ≠ []) (t1 t2 : Tree α ℝ d)
    (ht1 : buildFl fl w bs pos ls1 par1 A = .ok t1) (ht2 : buildFl fl w bs pos ls2 par2 B = .ok t2)
    (ord : List (Tree α ℝ d × Tree α ℝ d) → List (Tree α ℝ d × Tree α ℝ d))
    (hord : ∀ l, (ord l).Perm l) :
    ∃ x y, bichromaticClosestPairFl fl pos ord t1 t2 = .ok (some (x, y, distFl fl (pos x) (pos y))) ∧
      x ∈ A ∧ y ∈ B ∧ ∀ a ∈ A, ∀ b ∈ B, distFl fl (pos x) (pos y) ≤ distFl fl (pos a) (pos b) := by
  obtain ⟨t1', h1, h2, h3⟩ := c91_build hf w bs hw hb hd pos ls1 hls1 par1 A hA
  rw [h1] at ht1
  cases ht1
  obtain ⟨t2', h4, h5, h6⟩ := c91_build hf w bs hw hb hd pos ls2 hls2 par2 B hB
  rw [h4] at ht2
  cases ht2
  obtain ⟨r, h7, h8⟩ := bcpHelper_okFl hf pos ord hord (t1.height + t2.height + 1) t1 t2 h3.boxesOk
    h6.boxesOk (by omega) none
  obtain ⟨a, ha⟩ := List.exists_mem_of_ne_nil _ hA
  obtain ⟨b, hb'⟩ := List.exists_mem_of_ne_nil _ hB
  obtain ⟨u, v, c, h9, -⟩ := h8.all a b ⟨h2.mem_iff.mpr ha, h5.mem_iff.mpr hb'⟩
  rcases h8.src with h10 | ⟨x, y, ⟨hx, hy⟩, h10⟩
  · rw [h9] at h10; cases h10
  · refine ⟨x, y, ?_, h2.mem_iff.mp hx, h5.mem_iff.mp hy, ?_⟩
    · unfold bichromaticClosestPairFl
      rw [h7, h10]
    · intro x' hx' y' hy'
      obtain ⟨u', v', c', h11, h12⟩ := h8.all x' y' ⟨h2.mem_iff.mpr hx', h5.mem_iff.mpr hy'⟩
      rw [h10] at h11
      simp only [Option.some.injEq, Prod.mk.injEq] at h11
      obtain ⟨-, -, rfl⟩ := h11
      exact h12

/-- C92, the commented-out check against `bcpBruteforce`: the two searches return the same distance
in rounded arithmetic. -/
theorem c92_bruteforce (hf : IsMonoRounding fl) (w bs : ℕ) (hw : 0 < w) (hb : 0 < bs) (hd : 0 < d)
    (pos : α → Point ℝ d) (ls1 ls2 : ℕ) (hls1 : 1 ≤ ls1) (hls2 : 1 ≤ ls2) (par1 par2 : Bool)
    (A B : List α) (hA : A ≠ []) (hB : B ≠ []) (t1 t2 : Tree α ℝ d)
    (ht1 : buildFl fl w bs pos ls1 par1 A = .ok t1) (ht2 : buildFl fl w bs pos ls2 par2 B = .ok t2)
    (ord : List (Tree α ℝ d × Tree α ℝ d) → List (Tree α ℝ d × Tree α ℝ d))
    (hord : ∀ l, (ord l).Perm l) :
    ∃ x y x' y' c, bichromaticClosestPairFl fl pos ord t1 t2 = .ok (some (x, y, c)) ∧
      bcpBruteforceFl fl pos t1 t2 = some (x', y', c) := by
  obtain ⟨x, y, h1, hx, hy, h2⟩ := c92_bccp hf w bs hw hb hd pos ls1 ls2 hls1 hls2 par1 par2 A B hA
    hB t1 t2 ht1 ht2 ord hord
  obtain ⟨t1', g1, g2, -⟩ := c91_build hf w bs hw hb hd pos ls1 hls1 par1 A hA
  rw [g1] at ht1
  cases ht1
  obtain ⟨t2', g3, g4, -⟩ := c91_build hf w bs hw hb hd pos ls2 hls2 par2 B hB
  rw [g3] at ht2
  cases ht2
  have h8 := bcpLoop_scannedFl (fl := fl) pos t1.items t2.items none
  obtain ⟨u, v, c, h9, h10⟩ := h8.all x y ⟨g2.mem_iff.mpr hx, g4.mem_iff.mpr hy⟩
  rcases h8.src with h11 | ⟨x', y', ⟨hx', hy'⟩, h11⟩
  · rw [h9] at h11; cases h11
  · refine ⟨x, y, x', y', _, h1, ?_⟩
    unfold bcpBruteforceFl
    rw [h11]
    rw [h11] at h9
    simp only [Option.some.injEq, Prod.mk.injEq] at h9
    obtain ⟨-, -, rfl⟩ := h9
    have := le_antisymm h10 (h2 x' (g2.mem_iff.mp hx') y' (g4.mem_iff.mp hy'))
    rw [this]

/-- C92 in terms of exact distances: with relative rounding error `u`, the returned pair is closest
up to a relative error of about `(d + 5) u`. -/
theorem c92_accuracy (hf : IsRounding u fl) (hu : u ≤ 1) (w bs : ℕ) (hw : 0 < w) (hb : 0 < bs)
    (hd : 0 < d) (pos : α → Point ℝ d) (ls1 ls2 : ℕ) (hls1 : 1 ≤ ls1) (hls2 : 1 ≤ ls2)
    (par1 par2 : Bool) (A B : List α) (hA : A ≠ []) (hB : B ≠ []) (t1 t2 : Tree α ℝ d)
    (ht1 : buildFl fl w bs pos ls1 par1 A = .ok t1) (ht2 : buildFl fl w bs pos ls2 par2 B = .ok t2)
    (ord : List (Tree α ℝ d × Tree α ℝ d) → List (Tree α ℝ d × Tree α ℝ d))
    (hord : ∀ l, (ord l).Perm l) :
    ∃ x y c, bichromaticClosestPairFl fl pos ord t1 t2 = .ok (some (x, y, c)) ∧ x ∈ A ∧ y ∈ B ∧
      ∀ a ∈ A, ∀ b ∈ B, (1 - u) ^ (d + 5) * eucl (pos x) (pos y) ^ 2
        ≤ (1 + u) ^ (d + 5) * eucl (pos a) (pos b) ^ 2 := by
  obtain ⟨x, y, h1, hx, hy, h2⟩ := c92_bccp hf.toIsMonoRounding w bs hw hb hd pos ls1 ls2 hls1 hls2
    par1 par2 A B hA hB t1 t2 ht1 ht2 ord hord
  refine ⟨x, y, _, h1, hx, hy, ?_⟩
  intro a ha b hb
  rw [eucl_sq, eucl_sq]
  refine (distFl_bounds hf hu _ _).1.trans (le_trans ?_ (distFl_bounds hf hu _ _).2)
  exact pow_le_pow_left₀ (distFl_nonneg hf.toIsMonoRounding _ _) (h2 a ha b hb) 2

/-- Non-vacuity of the C92 theorems: two sets of planar points with the rounding of `double`. -/
example : ∃ t1 t2, buildFl (rne 53) 1 1 (id : Point ℝ 2 → Point ℝ 2) 1 false [![0, 0], ![5, 1]]
      = .ok t1 ∧ buildFl (rne 53) 1 1 (id : Point ℝ 2 → Point ℝ 2) 1 false [![9, 9], ![4, 3]]
      = .ok t2 ∧
    ∃ x y c, bichromaticClosestPairFl (rne 53) id id t1 t2 = .ok (some (x, y, c)) ∧
      (x, y) = (![5, 1], ![4, 3]) := by
  have hf := isRounding_rne (p := 53) (by norm_num)
  obtain ⟨t1, h1, -⟩ := c91_build hf.toIsMonoRounding 1 1 (by norm_num) (by norm_num) (by norm_num)
    (id : Point ℝ 2 → Point ℝ 2) 1 (le_refl _) false [![0, 0], ![5, 1]] (by simp)
  obtain ⟨t2, h2, -⟩ := c91_build hf.toIsMonoRounding 1 1 (by norm_num) (by norm_num) (by norm_num)
    (id : Point ℝ 2 → Point ℝ 2) 1 (le_refl _) false [![9, 9], ![4, 3]] (by simp)
  obtain ⟨x, y, c, h3, hx, hy, h4⟩ := c92_accuracy hf (by norm_num) 1 1 (by norm_num) (by norm_num)
    (by norm_num) (id : Point ℝ 2 → Point ℝ 2) 1 1 (le_refl _) (le_refl _) false false _ _
    (by simp) (by simp) t1 t2 h1 h2 id (fun l => List.Perm.refl l)
  refine ⟨t1, t2, h1, h2, x, y, c, h3, ?_⟩
  have h5 := h4 ![5, 1] (by simp) ![4, 3] (by simp)
  rw [eucl_sq, eucl_sq] at h5
  simp only [List.mem_cons, List.not_mem_nil, or_false] at hx hy
  rcases hx with rfl | rfl <;> rcases hy with rfl | rfl <;>
    simp [distSqr, Fin.sum_univ_two] at h5 ⊢ <;> norm_num at h5

end Verif.KdTree
