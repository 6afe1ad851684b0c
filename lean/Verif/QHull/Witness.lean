import Verif.QHull.Props

set_option linter.unusedSectionVars false
set_option linter.unusedVariables false

/-!
Inputs that meet the hypotheses of C64 and C65, and inputs for which the stronger claims fail.
-/

namespace Verif.QHull

open Verif Verif.Hull3d

/-- Eleven points on the moment curve. -/
def moment : List (P3 ℚ) :=
  [![1, 1, 1], ![2, 4, 8], ![3, 9, 27], ![4, 16, 64], ![5, 25, 125], ![6, 36, 216], ![7, 49, 343], ![8, 64, 512], ![9, 81, 729],
    ![10, 100, 1000], ![11, 121, 1331]]

theorem moment_centre : centreOf moment = some ![11/2, 45, 851/2] := by
  decide +kernel

/-- They are in general position. -/
theorem moment_gen : GenInput 0 moment := by
  refine ⟨⟨le_refl _, by decide +kernel, ?_⟩, ?_⟩
  · decide +kernel
  · intro o ho
    rw [moment_centre] at ho
    obtain rfl := Option.some.inj ho
    decide +kernel

/-- The hypotheses of `c64_quickhull`, `c64_corners_extreme` and `c65_vertices_partial` are met by these points, with the loop (not
the small case) doing the work. -/
example : GenInput 0 moment ∧ moment.length = 11 := ⟨moment_gen, rfl⟩

example : ∃ out, compute 0 12000 moment = .ok out ∧ IsHull3 moment out :=
  c64_quickhull moment_gen (by decide) (by decide)

/-- C64 fails as soon as it asks for outward orientation: the coordinates of these points are all positive, and the facet through the
first three points comes out with all other points on the negative side, while another facet has them on the positive side. -/
theorem c64_orientation_false : ∃ out, compute 0 12000 moment = .ok out ∧
    (∃ f ∈ out, ∀ p ∈ moment, ¬ HasV f p → vol f.a f.b f.c p < 0) ∧
    ∃ f ∈ out, ∀ p ∈ moment, ¬ HasV f p → 0 < vol f.a f.b f.c p := by
  obtain ⟨out, he, hh⟩ := c64_quickhull (fuel := 12000) moment_gen (by decide) (by decide)
  refine ⟨out, he, ?_, ?_⟩
  · obtain ⟨out', he', f, hf, _, h⟩ := c64_orientation_inverted (fuel := 12000) moment_gen (by decide) (by decide)
      (x := ![1, 1, 1]) (y := ![2, 4, 8]) (z := ![3, 9, 27]) (by decide +kernel) (by decide +kernel) (by decide +kernel)
      (by decide +kernel) (by decide +kernel) (by decide +kernel) (by decide +kernel) (by decide +kernel)
    obtain rfl := Except.ok.inj (he.symm.trans he')
    exact ⟨f, hf, h⟩
  · obtain ⟨f, hf, h1, h2, h3⟩ := hh.complete ![11, 121, 1331] (by decide +kernel) ![10, 100, 1000] (by decide +kernel) ![9, 81, 729]
      (by decide +kernel) (by decide +kernel) (by decide +kernel) (by decide +kernel) (by decide +kernel)
    refine ⟨f, hf, ?_⟩
    rcases hh.support f hf with h | h
    · exact h
    · exfalso
      have h4 := compute_orient (fuel := 12000) moment_gen (by decide) out he f hf
      have hn1 : ¬ HasV f ![1, 1, 1] := by
        rw [has3 h1 h2 h3 (by decide +kernel) (by decide +kernel) (by decide +kernel)]
        decide +kernel
      have h5 := h ![1, 1, 1] (by decide +kernel) hn1
      have n1 : (![11, 121, 1331] : P3 ℚ) ≠ ![10, 100, 1000] := by decide +kernel
      have n2 : (![10, 100, 1000] : P3 ℚ) ≠ ![9, 81, 729] := by decide +kernel
      have n3 : (![9, 81, 729] : P3 ℚ) ≠ ![11, 121, 1331] := by decide +kernel
      unfold HasV at h1 h2 h3
      rcases h1 with h1 | h1 | h1 <;> rcases h2 with h2 | h2 | h2 <;> rcases h3 with h3 | h3 | h3 <;>
        first
          | exact absurd (h1.trans h2.symm) n1
          | exact absurd (h2.trans h3.symm) n2
          | exact absurd (h3.trans h1.symm) n3
          | (rw [← h1, ← h2, ← h3] at h4 h5; revert h4 h5; decide +kernel)

/-- A tetrahedron whose corners have only two different sums of coordinates. -/
def tet4 : List (P3 ℚ) := [![0, 0, 0], ![10, 0, 0], ![0, 10, 0], ![0, 0, 10]]

theorem tet4_gen : GenInput 0 tet4 := by
  refine ⟨⟨le_refl _, by decide +kernel, by decide +kernel⟩, ?_⟩
  intro o ho
  have hc : centreOf tet4 = some ![5/2, 5/2, 5/2] := by decide +kernel
  rw [hc] at ho
  obtain rfl := Option.some.inj ho
  decide +kernel

/-- A tetrahedron around the origin. -/
def around : List (P3 ℚ) := [![-3, -2, -1], ![5, 0, 0], ![0, 5, 0], ![0, 0, 5]]

/-- The hypotheses of `c64_orientation_inside` are met. -/
example : ∃ out, compute 0 600 around = .ok out ∧ ∀ f ∈ out, ∀ p ∈ around, 0 ≤ vol f.a f.b f.c p := by
  refine c64_orientation_inside ?_ (fun _ => by decide +kernel) ?_ (by decide +kernel) (by decide)
  · refine ⟨⟨le_refl _, by decide +kernel, by decide +kernel⟩, ?_⟩
    intro o ho
    have hc : centreOf around = some ![1/2, 3/4, 1] := by decide +kernel
    rw [hc] at ho
    obtain rfl := Option.some.inj ho
    decide +kernel
  · have hm : ∀ p ∈ around, p ∈ convexHull ℚ {p | p ∈ around} := fun p hp => subset_convexHull ℚ _ hp
    refine convex4 (convex_convexHull ℚ _) (hm ![-3, -2, -1] (by simp [around])) (hm ![5, 0, 0] (by simp [around]))
      (hm ![0, 5, 0] (by simp [around])) (hm ![0, 0, 5] (by simp [around])) (w1 := 5/11) (w2 := 3/11) (w3 := 2/11) (w4 := 1/11)
      (by norm_num) (by norm_num) (by norm_num) (by norm_num) (by norm_num) ?_
    decide +kernel

/-- A stable sort. -/
def stableSort : List (P3 ℚ) → List (P3 ℚ) := List.insertionSort fun a b => csum a ≤ csum b

theorem stableSort_ok : SortOK stableSort := by
  refine ⟨fun l => List.perm_insertionSort _ l, fun l => ?_⟩
  have : Std.Total (fun a b : P3 ℚ => csum a ≤ csum b) := ⟨fun a b => le_total _ _⟩
  have : IsTrans (P3 ℚ) (fun a b : P3 ℚ => csum a ≤ csum b) := ⟨fun a b c => le_trans⟩
  exact (List.pairwise_insertionSort (fun a b : P3 ℚ => csum a ≤ csum b) l).imp fun h => not_lt.mpr h

/-- C65 fails as soon as it asks that a vertex is returned once: points are sorted by the sum of their coordinates, so that copies of a
point need not be adjacent when `unique` removes adjacent copies. The four corners of this tetrahedron come out as eight points. -/
theorem c65_once_false : SortOK stableSort ∧ GenInput 0 tet4 ∧
    (computeVertex 0 40 stableSort tet4).toOption = some [![0, 0, 0], ![0, 0, 10], ![10, 0, 0], ![0, 0, 10], ![0, 10, 0], ![0, 0, 10],
      ![10, 0, 0], ![0, 10, 0]] := by
  refine ⟨stableSort_ok, tet4_gen, ?_⟩
  decide +kernel

/-- Eleven points on a parabola in a plane. -/
def flat : List (P3 ℚ) :=
  [![0, 0, 0], ![1, 1, 0], ![2, 4, 0], ![3, 9, 0], ![4, 16, 0], ![5, 25, 0], ![6, 36, 0], ![7, 49, 0], ![8, 64, 0],
    ![9, 81, 0], ![10, 100, 0]]

theorem flat_run : ∃ out, compute 0 40 flat = .ok out ∧ ∀ f ∈ out, 5 * f.a 0 ≤ f.a 1 ∧ 5 * f.b 0 ≤ f.b 1 ∧ 5 * f.c 0 ≤ f.c 1 := by
  have h : ((compute 0 40 flat).toOption.map fun out => out.all fun f =>
      decide (5 * f.a 0 ≤ f.a 1 ∧ 5 * f.b 0 ≤ f.b 1 ∧ 5 * f.c 0 ≤ f.c 1)) = some true := by
    decide +kernel
  generalize compute (K := ℚ) 0 40 flat = r at h
  cases r with
  | error e => simp [Except.toOption] at h
  | ok out =>
    refine ⟨out, rfl, ?_⟩
    simp only [Except.toOption, Option.map_some, Option.some.injEq, List.all_eq_true, decide_eq_true_eq] at h
    exact h

/-- C64 needs general position: for eleven points in a plane the run ends without an error, and the returned triangles do not span
the hull. -/
theorem c64_flat_false : ∃ out, compute 0 40 flat = .ok out ∧
    convexHull ℚ {p | p ∈ flat} ≠ convexHull ℚ {p | ∃ f ∈ out, HasV f p} := by
  obtain ⟨out, he, hs⟩ := flat_run
  refine ⟨out, he, fun heq => ?_⟩
  have h1 : (![3, 9, 0] : P3 ℚ) ∈ convexHull ℚ {p | p ∈ flat} := subset_convexHull ℚ _ (by simp [flat])
  rw [heq] at h1
  have hsub : convexHull ℚ {p | ∃ f ∈ out, HasV f p} ⊆ {p : P3 ℚ | 5 * p 0 ≤ p 1} := by
    refine convexHull_min ?_ ?_
    · rintro p ⟨f, hf, hv⟩
      obtain ⟨e1, e2, e3⟩ := hs f hf
      rcases hv with rfl | rfl | rfl
      · exact e1
      · exact e2
      · exact e3
    · intro x hx y hy s t hs ht hst
      rw [Set.mem_ofPred_eq] at hx hy ⊢
      simp only [Pi.add_apply, Pi.smul_apply, smul_eq_mul]
      have h1 := mul_le_mul_of_nonneg_left hx hs
      have h2 := mul_le_mul_of_nonneg_left hy ht
      linarith
  have h2 := hsub h1
  rw [Set.mem_ofPred_eq] at h2
  norm_num at h2

end Verif.QHull
