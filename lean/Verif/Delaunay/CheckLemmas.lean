import Verif.Delaunay.CheckModel
import Verif.Delaunay.FindLemmas

set_option linter.unusedSectionVars false
set_option linter.unusedVariables false

/-!
A triangulation whose neighbouring triangles pass the circle test is a Delaunay triangulation.
-/

namespace Verif.Delaunay

variable {K : Type} [Field K] [LinearOrder K] [IsStrictOrderedRing K]

/-- Specification: the triangles `live` of the mesh are a triangulation of the vertices `vs`; like `IsDelaunay` without the condition on
circles. -/
structure IsTriangulated (pos : ℕ → P2 K) (live vs : Finset ℕ) (m : Mesh) : Prop where
  /-- the corners are vertices -/
  corner : ∀ x ∈ live, ∀ k, m.vtx x k ∈ vs
  /-- every vertex is a corner, of the triangle its pointer names -/
  vertex : ∀ u ∈ vs, m.vt u ∈ live ∧ ∃ k, m.vtx (m.vt u) k = u
  /-- the corners of a triangle are in counterclockwise order -/
  ccw : ∀ x ∈ live, 0 < area (pos (m.vtx x 0)) (pos (m.vtx x 1)) (pos (m.vtx x 2))
  /-- no point is strictly inside two triangles -/
  disjoint : ∀ x ∈ live, ∀ y ∈ live, x ≠ y → ¬ ∃ z, In pos m x z ∧ In pos m y z
  /-- the neighbour across an edge is the triangle with the same edge in the other direction -/
  neighbour : ∀ x ∈ live, ∀ i y, m.ngh x i = some y ↔
    y ∈ live ∧ ∃ j, m.vtx y j = m.vtx x (i + 2) ∧ m.vtx y (j + 2) = m.vtx x i
  /-- all vertices lie on the inner side of an edge without neighbour -/
  outline : ∀ x ∈ live, ∀ i, m.ngh x i = none → ∀ q ∈ vs, 0 ≤ area (pos (m.vtx x (i + 2))) (pos (m.vtx x i)) (pos q)

section
variable {pos : ℕ → P2 K} {live vs : Finset ℕ} {m : Mesh}

theorem IsDelaunay.tri (h : IsDelaunay pos live vs m) : IsTriangulated pos live vs m :=
  ⟨h.corner, h.vertex, h.ccw, h.disjoint, h.neighbour, h.outline⟩

theorem IsTriangulated.delaunay (h : IsTriangulated pos live vs m)
    (he : ∀ x ∈ live, ∀ q ∈ vs, circT pos m x (pos q) ≤ 0) : IsDelaunay pos live vs m :=
  ⟨h.corner, h.vertex, h.ccw, h.disjoint, h.neighbour,
    fun x hx o r hr q hq => (circ_le_iff (h.ccw x hx)).mp (he x hx q hq) o r (hr 0) (hr 1) (hr 2), h.outline⟩

theorem IsTriangulated.planar (h : IsTriangulated pos live vs m) : Planar pos live m := by
  have inj : ∀ x ∈ live, ∀ i j, m.vtx x i = m.vtx x j → i = j := by
    intro x hx i j e
    have c := h.ccw x hx
    rw [← ccw_rot i] at c
    rcases fin3_cases i j with rfl | rfl | rfl
    · rfl
    · rw [← e, area_self] at c
      exact absurd c (lt_irrefl _)
    · rw [← e, area_self_left] at c
      exact absurd c (lt_irrefl _)
  have full : ∀ x ∈ live, ∀ y ∈ live, ∀ i j, m.vtx y j = m.vtx x (i + 2) → m.vtx y (j + 2) = m.vtx x i →
      m.ngh x i = some y := fun x hx y hy i j e1 e2 => (h.neighbour x hx i y).mpr ⟨hy, j, e1, e2⟩
  have twin : ∀ x ∈ live, ∀ i y, m.ngh x i = some y → y ∈ live ∧ ∃ j, m.ngh y j = some x ∧
      m.vtx y j = m.vtx x (i + 2) ∧ m.vtx y (j + 2) = m.vtx x i := by
    intro x hx i y hn
    obtain ⟨hy, j, e1, e2⟩ := (h.neighbour x hx i y).mp hn
    exact ⟨hy, j, full y hy x hx j i e2.symm e1.symm, e1, e2⟩
  exact ⟨⟨inj, twin, uniq_of_ccw inj twin h.ccw⟩, h.ccw,
    fun x hx y hy hxy z k1 k2 => h.disjoint x hx y hy hxy ⟨z, k1, k2⟩, full⟩

theorem circT_vtx (pos : ℕ → P2 K) (m : Mesh) (x : ℕ) (k : Fin 3) : circT pos m x (pos (m.vtx x k)) = 0 := by
  unfold circT
  rcases fin3_cases 0 k with rfl | rfl | rfl
  · exact circ_self1 _ _ _
  · exact circ_self2 _ _ _
  · exact circ_self _ _ _

/-- A vertex strictly inside the circle of a triangle lies strictly beyond one of its edges. -/
theorem IsTriangulated.beyond_edge (h : IsTriangulated pos live vs m) {q : ℕ} (hq : q ∈ vs) {x : ℕ} (hx : x ∈ live)
    (hc : 0 < circT pos m x (pos q)) : ∃ i, area (pos (m.vtx x (i + 2))) (pos (m.vtx x i)) (pos q) < 0 := by
  by_contra hno
  push Not at hno
  have hp := h.planar
  obtain ⟨ht, k0, hk0⟩ := h.vertex q hq
  set t := m.vt q with htd
  have hct : ∀ i, 0 ≤ area (pos (m.vtx t (i + 2))) (pos (m.vtx t i)) (pos q) := fun i => hk0 ▸ corner_side hp ht i k0
  have hct0 : circT pos m t (pos q) = 0 := hk0 ▸ circT_vtx pos m t k0
  have hne : x ≠ t := by
    rintro e
    rw [e, hct0] at hc
    exact lt_irrefl _ hc
  have hcorner : ∀ k, pos q ≠ pos (m.vtx x k) := by
    intro k e
    rw [e, circT_vtx] at hc
    exact lt_irrefl _ hc
  have cx : ∀ i : Fin 3, 0 < area (pos (m.vtx x (i + 2))) (pos (m.vtx x i)) (pos (m.vtx x (i + 1))) := by
    intro i
    rw [ccw_edge]
    exact h.ccw x hx
  by_cases hz : ∃ i : Fin 3, area (pos (m.vtx x (i + 2))) (pos (m.vtx x i)) (pos q) = 0
  · obtain ⟨i, hi⟩ := hz
    have c1 := hno (i + 1)
    have c2 := hno (i + 2)
    rw [add_one_add_two] at c1
    rw [add_two_add_two] at c2
    have p1 : 0 < area (pos (m.vtx x i)) (pos (m.vtx x (i + 1))) (pos q) := by
      refine lt_of_le_of_ne c1 fun e => hcorner i ?_
      exact eq_corner (cx i) hi e.symm
    have p2 : 0 < area (pos (m.vtx x (i + 1))) (pos (m.vtx x (i + 2))) (pos q) := by
      refine lt_of_le_of_ne c2 fun e => hcorner (i + 2) ?_
      refine eq_corner (a := pos (m.vtx x (i + 1))) (c := pos (m.vtx x i)) ?_ e.symm hi
      have := cx i
      rw [← area_rot'] at this
      exact this
    have near : ∀ g', In pos m t g' → area (pos (m.vtx x (i + 2))) (pos (m.vtx x i)) g' ≠ 0 → False := by
      intro g' hg' hside
      have int : ∀ e, 0 < e → e < 1 → In pos m t (lerp (pos q) g' e) := by
        intro e k1 k2 k
        rw [area_lerp]
        have := mul_nonneg (show 0 ≤ 1 - e by linarith) (hct k)
        have := mul_pos k1 (hg' k)
        linarith
      rcases lt_or_gt_of_ne hside with hlt | hgt
      · rcases hn : m.ngh x i with _ | y
        · obtain ⟨b1, b2, b3⟩ := (in_iff pos m t g' 0).mp hg'
          have e := area_bary (pos (m.vtx t (0 + 2))) (pos (m.vtx t 0)) (pos (m.vtx t (0 + 1)))
            (pos (m.vtx x (i + 2))) (pos (m.vtx x i)) g'
          have o1 := h.outline x hx i hn _ (h.corner t ht (0 + 2))
          have o2 := h.outline x hx i hn _ (h.corner t ht 0)
          have o3 := h.outline x hx i hn _ (h.corner t ht (0 + 1))
          have hA : 0 < area (pos (m.vtx t (0 + 2))) (pos (m.vtx t 0)) (pos (m.vtx t (0 + 1))) := by
            rw [ccw_edge]
            exact h.ccw t ht
          have t1 := mul_nonneg b2.le o1
          have t2 := mul_nonneg b3.le o2
          have t3 := mul_nonneg b1.le o3
          have := mul_neg_of_pos_of_neg hA hlt
          linarith
        · obtain ⟨hy, j, hj, f1, f2⟩ := hp.wf.twin _ hx _ _ hn
          have cy := h.ccw y hy
          rw [← ccw_edge j, f1, f2] at cy
          have y0 : area (pos (m.vtx x i)) (pos (m.vtx x (i + 2))) (pos q) = 0 := by
            rw [area_swap, hi]
            simp
          have y1 : 0 < area (pos (m.vtx x (i + 2))) (pos (m.vtx y (j + 1))) (pos q) := by
            have e := area_bary (pos (m.vtx x (i + 2))) (pos (m.vtx x i)) (pos (m.vtx x (i + 1)))
              (pos (m.vtx x (i + 2))) (pos (m.vtx y (j + 1))) (pos q)
            rw [hi, area_self_left] at e
            have c2 : 0 < area (pos (m.vtx x (i + 2))) (pos (m.vtx y (j + 1))) (pos (m.vtx x i)) := by
              rw [area_rot]
              exact cy
            have := mul_pos p2 c2
            have h3 : 0 < area (pos (m.vtx x (i + 2))) (pos (m.vtx x i)) (pos (m.vtx x (i + 1))) *
                area (pos (m.vtx x (i + 2))) (pos (m.vtx y (j + 1))) (pos q) := by linarith
            exact (pos_iff_pos_of_mul_pos h3).mp (cx i)
          have y2 : 0 < area (pos (m.vtx y (j + 1))) (pos (m.vtx x i)) (pos q) := by
            have e := area_bary (pos (m.vtx x (i + 2))) (pos (m.vtx x i)) (pos (m.vtx x (i + 1)))
              (pos (m.vtx y (j + 1))) (pos (m.vtx x i)) (pos q)
            rw [hi, area_self_right] at e
            have c2 : 0 < area (pos (m.vtx y (j + 1))) (pos (m.vtx x i)) (pos (m.vtx x (i + 2))) := by
              rw [area_rot']
              exact cy
            have := mul_pos p1 c2
            have h3 : 0 < area (pos (m.vtx x (i + 2))) (pos (m.vtx x i)) (pos (m.vtx x (i + 1))) *
                area (pos (m.vtx y (j + 1))) (pos (m.vtx x i)) (pos q) := by linarith
            exact (pos_iff_pos_of_mul_pos h3).mp (cx i)
          have hyg : 0 < circT pos m y (pos q) := by
            rw [circT_edge pos m y _ j, f1, f2]
            exact circ_pos_on_edge cy y0 y1 y2
          have hty : t ≠ y := by
            rintro e
            rw [← e, hct0] at hyg
            exact lt_irrefl _ hyg
          obtain ⟨e, k1, k2, k3⟩ := exists_small (pos q) g'
            [(pos (m.vtx x (i + 2)), pos (m.vtx y (j + 1))), (pos (m.vtx y (j + 1)), pos (m.vtx x i))] (by
              intro s hs
              simp only [List.mem_cons, List.not_mem_nil, or_false] at hs
              rcases hs with rfl | rfl
              · exact y1
              · exact y2)
          refine hp.disj t ht y hy hty _ (int e k1 k2) ((in_iff pos m y _ j).mpr ?_)
          rw [f1, f2]
          refine ⟨?_, k3 e k1 le_rfl (_, _) (by simp), k3 e k1 le_rfl (_, _) (by simp)⟩
          rw [area_lerp, y0, area_swap]
          have := mul_pos k1 (neg_pos.mpr hlt)
          linarith
      · obtain ⟨e, k1, k2, k3⟩ := exists_small (pos q) g'
          [(pos (m.vtx x i), pos (m.vtx x (i + 1))), (pos (m.vtx x (i + 1)), pos (m.vtx x (i + 2)))] (by
            intro s hs
            simp only [List.mem_cons, List.not_mem_nil, or_false] at hs
            rcases hs with rfl | rfl
            · exact p1
            · exact p2)
        refine hp.disj t ht x hx hne.symm _ (int e k1 k2) ((in_iff pos m x _ i).mpr ?_)
        refine ⟨?_, k3 e k1 le_rfl (_, _) (by simp), k3 e k1 le_rfl (_, _) (by simp)⟩
        rw [area_lerp, hi]
        have := mul_pos k1 hgt
        linarith
    obtain ⟨g', hg'⟩ := exists_in hp ht
    by_cases hside : area (pos (m.vtx x (i + 2))) (pos (m.vtx x i)) g' = 0
    · obtain ⟨e, k1, k2, k3⟩ := exists_small g' (pos (m.vtx x (i + 1))) (edges pos m t)
        ((in_edges pos m t g').mp hg')
      refine near (lerp g' (pos (m.vtx x (i + 1))) e) ((in_edges pos m t _).mpr (k3 e k1 le_rfl)) ?_
      rw [area_lerp, hside]
      have := mul_pos k1 (cx i)
      exact ne_of_gt (by linarith)
    · exact near g' hg' hside
  · push Not at hz
    obtain ⟨i, hi⟩ := outside_other hp hx (p := pos q) (fun i => lt_of_le_of_ne (hno i) (hz i).symm) ht hne.symm
    exact absurd (hct i) (not_le.mpr hi)

open Classical in
/-- **The circle test on neighbours suffices.** -/
theorem IsTriangulated.local_global (h : IsTriangulated pos live vs m)
    (hloc : ∀ x ∈ live, ∀ i y, m.ngh x i = some y → ∀ k, circT pos m x (pos (m.vtx y k)) ≤ 0) :
    ∀ x ∈ live, ∀ q ∈ vs, circT pos m x (pos q) ≤ 0 := by
  intro x0 hx0 q hq
  by_contra hc0
  push Not at hc0
  let A : Finset (ℕ × Fin 3) := (live ×ˢ Finset.univ).filter fun e => 0 < circT pos m e.1 (pos q) ∧
    area (pos (m.vtx e.1 (e.2 + 2))) (pos (m.vtx e.1 e.2)) (pos q) < 0
  have memA : ∀ e, e ∈ A ↔ e.1 ∈ live ∧ 0 < circT pos m e.1 (pos q) ∧
      area (pos (m.vtx e.1 (e.2 + 2))) (pos (m.vtx e.1 e.2)) (pos q) < 0 := by
    intro e
    simp [A, Finset.mem_product]
  have hout : ∀ x ∈ live, 0 < circT pos m x (pos q) → ∃ i, (x, i) ∈ A := by
    intro x hx hc
    obtain ⟨i, hi⟩ := h.beyond_edge hq hx hc
    exact ⟨i, (memA _).mpr ⟨hx, hc, hi⟩⟩
  obtain ⟨i0, hi0⟩ := hout x0 hx0 hc0
  obtain ⟨e1, he1, hmax⟩ := Finset.exists_max_image A (fun e => pwT pos m e.1 (pos q)) ⟨_, hi0⟩
  obtain ⟨e2, he2, hmin⟩ := Finset.exists_min_image
    (A.filter fun e => pwT pos m e.1 (pos q) = pwT pos m e1.1 (pos q)) (fun e => beyond pos vs m e.1 e.2)
    ⟨e1, Finset.mem_filter.mpr ⟨he1, rfl⟩⟩
  rw [Finset.mem_filter] at he2
  obtain ⟨he2, hpe⟩ := he2
  obtain ⟨x, i⟩ := e2
  obtain ⟨hx, hc, hi⟩ := (memA _).mp he2
  simp only at hx hc hi hpe hmin
  rcases hn : m.ngh x i with _ | y
  · have := h.outline x hx i hn q hq
    linarith
  · obtain ⟨hy, j, hj, f1, f2⟩ := h.planar.wf.twin _ hx _ _ hn
    have hw := walk_step_local h.planar hx hn (h.corner y hy) (hloc x hx i y hn) hi
    have hle : pwT pos m x (pos q) ≤ pwT pos m y (pos q) := by
      rcases hw with w | w
      · exact w.le
      · exact w.1.le
    have hcy : 0 < circT pos m y (pos q) := by
      have c1 := h.ccw x hx
      have c2 := h.ccw y hy
      have : 0 < pwT pos m x (pos q) := div_pos hc c1
      have : 0 < pwT pos m y (pos q) := lt_of_lt_of_le this hle
      unfold pwT at this
      rcases (div_pos_iff).mp this with g | g
      · exact g.1
      · linarith [g.2]
    obtain ⟨i', hi'⟩ := hout y hy hcy
    have m1 := hmax _ hi'
    simp only at m1
    rcases hw with w | ⟨w1, w2⟩
    · linarith
    · have hlt := w2 i' ((memA _).mp hi').2.2
      have := hmin (y, i') (Finset.mem_filter.mpr ⟨hi', by simp only; rw [← w1, hpe]⟩)
      simp only at this
      omega

end

end Verif.Delaunay
