import Verif.KdTree.BccpLemmas
import Verif.Metric

set_option linter.unusedSectionVars false
set_option linter.unusedVariables false

/-!
Property C07: bichromatic closest pair.
-/

namespace Verif.KdTree

variable {α K : Type} {d : ℕ} [Field K] [LinearOrder K] [IsStrictOrderedRing K]

/-- C07. For any two non-empty item lists and any leaf sizes, `bichromaticClosestPair` on the built
trees returns a pair with one item from each list whose distance is minimum over all such pairs, and
that distance; whatever the order in which children pairs at equal distance are visited. -/
theorem c07_bccp (w bs : ℕ) (hw : 0 < w) (hb : 0 < bs) (hd : 0 < d) (pos : α → Point K d)
    (ls1 ls2 : ℕ) (hls1 : 1 ≤ ls1) (hls2 : 1 ≤ ls2) (par1 par2 : Bool) (A B : List α)
    (hA : A ≠ []) (hB : B ≠ []) (t1 t2 : Tree α K d)
    (ht1 : build w bs pos ls1 par1 A = .ok t1) (ht2 : build w bs pos ls2 par2 B = .ok t2)
    (ord : List (Tree α K d × Tree α K d) → List (Tree α K d × Tree α K d))
    (hord : ∀ l, (ord l).Perm l) :
    ∃ u v, bichromaticClosestPair pos ord t1 t2 = .ok (some (u, v, distSqr (pos u) (pos v))) ∧
      u ∈ A ∧ v ∈ B ∧ ∀ x ∈ A, ∀ y ∈ B, distSqr (pos u) (pos v) ≤ distSqr (pos x) (pos y) := by
  obtain ⟨t1', h1, h2, h3, -⟩ := c01_build w bs hw hb hd pos ls1 hls1 par1 A hA
  rw [h1] at ht1
  cases ht1
  obtain ⟨t2', h4, h5, h6, -⟩ := c01_build w bs hw hb hd pos ls2 hls2 par2 B hB
  rw [h4] at ht2
  cases ht2
  obtain ⟨r, h7, h8⟩ := bcpHelper_ok pos ord hord (t1.height + t2.height + 1) t1 t2 h3.boxesOk
    h6.boxesOk (by omega) none
  obtain ⟨a, ha⟩ := List.exists_mem_of_ne_nil _ hA
  obtain ⟨b, hb'⟩ := List.exists_mem_of_ne_nil _ hB
  obtain ⟨u, v, c, h9, -⟩ := h8.all a b ⟨h2.mem_iff.mpr ha, h5.mem_iff.mpr hb'⟩
  rcases h8.src with h10 | ⟨x, y, ⟨hx, hy⟩, h10⟩
  · rw [h9] at h10; cases h10
  · refine ⟨x, y, ?_, h2.mem_iff.mp hx, h5.mem_iff.mp hy, ?_⟩
    · unfold bichromaticClosestPair
      rw [h7, h10]
    · intro x' hx' y' hy'
      obtain ⟨u', v', c', h11, h12⟩ := h8.all x' y' ⟨h2.mem_iff.mpr hx', h5.mem_iff.mpr hy'⟩
      rw [h10] at h11
      simp only [Option.some.injEq, Prod.mk.injEq] at h11
      obtain ⟨-, -, rfl⟩ := h11
      exact h12

/-- C07 for the Euclidean distance over the reals (the distance the code compares). -/
theorem c07_bccp_eucl (w bs : ℕ) (hw : 0 < w) (hb : 0 < bs) (hd : 0 < d) (pos : α → Point ℝ d)
    (ls1 ls2 : ℕ) (hls1 : 1 ≤ ls1) (hls2 : 1 ≤ ls2) (par1 par2 : Bool) (A B : List α)
    (hA : A ≠ []) (hB : B ≠ []) (t1 t2 : Tree α ℝ d)
    (ht1 : build w bs pos ls1 par1 A = .ok t1) (ht2 : build w bs pos ls2 par2 B = .ok t2)
    (ord : List (Tree α ℝ d × Tree α ℝ d) → List (Tree α ℝ d × Tree α ℝ d))
    (hord : ∀ l, (ord l).Perm l) :
    ∃ u v c, bichromaticClosestPair pos ord t1 t2 = .ok (some (u, v, c)) ∧
      u ∈ A ∧ v ∈ B ∧ ∀ x ∈ A, ∀ y ∈ B, eucl (pos u) (pos v) ≤ eucl (pos x) (pos y) := by
  obtain ⟨u, v, h1, h2, h3, h4⟩ := c07_bccp w bs hw hb hd pos ls1 ls2 hls1 hls2 par1 par2 A B hA hB
    t1 t2 ht1 ht2 ord hord
  exact ⟨u, v, _, h1, h2, h3, fun x hx y hy => eucl_le_eucl_iff.mpr (h4 x hx y hy)⟩

/-- The brute-force reference returns a closest pair of any two non-empty nodes. -/
theorem c07_bruteforce (pos : α → Point K d) (t1 t2 : Tree α K d) (h1 : t1.items ≠ [])
    (h2 : t2.items ≠ []) :
    ∃ u v, bcpBruteforce pos t1 t2 = some (u, v, distSqr (pos u) (pos v)) ∧
      u ∈ t1.items ∧ v ∈ t2.items ∧
      ∀ x ∈ t1.items, ∀ y ∈ t2.items, distSqr (pos u) (pos v) ≤ distSqr (pos x) (pos y) := by
  have h8 := bcpLoop_scanned pos t1.items t2.items none
  obtain ⟨a, ha⟩ := List.exists_mem_of_ne_nil _ h1
  obtain ⟨b, hb'⟩ := List.exists_mem_of_ne_nil _ h2
  obtain ⟨u, v, c, h9, -⟩ := h8.all a b ⟨ha, hb'⟩
  rcases h8.src with h10 | ⟨x, y, ⟨hx, hy⟩, h10⟩
  · rw [h9] at h10; cases h10
  · refine ⟨x, y, h10, hx, hy, ?_⟩
    intro x' hx' y' hy'
    obtain ⟨u', v', c', h11, h12⟩ := h8.all x' y' ⟨hx', hy'⟩
    rw [h10] at h11
    simp only [Option.some.injEq, Prod.mk.injEq] at h11
    obtain ⟨-, -, rfl⟩ := h11
    exact h12

/-- Non-vacuity of `c07_bccp`: two sets of three points in the plane, searched in the order given. -/
example : ((build 1 1 (id : Point ℚ 2 → Point ℚ 2) 1 false [![0, 0], ![5, 1], ![2, 7]]).bind fun t1 =>
    (build 1 1 id 1 false [![9, 9], ![4, 3], ![-3, 6]]).bind fun t2 =>
      (bichromaticClosestPair id id t1 t2).map fun r => r.map fun p => (p.1, p.2.1, p.2.2)) =
    .ok (some (![5, 1], ![4, 3], 5)) := by
  decide +kernel

end Verif.KdTree
