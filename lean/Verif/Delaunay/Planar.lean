import Verif.Delaunay.GeomLemmas
import Verif.Delaunay.MeshLemmas

set_option linter.unusedSectionVars false
set_option linter.unusedVariables false

/-!
Meshes drawn in the plane: counterclockwise triangles with disjoint interiors, whose neighbour pointers are exactly the
shared edges. `flip` of an edge in a strictly convex quadrilateral and `split` at a strictly interior point keep this.
-/

namespace Verif.Delaunay

variable {K : Type} [Field K] [LinearOrder K] [IsStrictOrderedRing K]

/-- Specification: `z` lies strictly inside triangle `x`. -/
def In (pos : ℕ → P2 K) (m : Mesh) (x : ℕ) (z : P2 K) : Prop :=
  ∀ i : Fin 3, 0 < area (pos (m.vtx x (i + 2))) (pos (m.vtx x i)) z

/-- Specification: a triangulation drawn in the plane. -/
structure Planar (pos : ℕ → P2 K) (live : Finset ℕ) (m : Mesh) : Prop where
  wf : WF live m
  ccw : ∀ x ∈ live, 0 < area (pos (m.vtx x 0)) (pos (m.vtx x 1)) (pos (m.vtx x 2))
  disj : ∀ x ∈ live, ∀ y ∈ live, x ≠ y → ∀ z, In pos m x z → ¬ In pos m y z
  full : ∀ x ∈ live, ∀ y ∈ live, ∀ i j, m.vtx y j = m.vtx x (i + 2) → m.vtx y (j + 2) = m.vtx x i → m.ngh x i = some y

theorem in_iff (pos : ℕ → P2 K) (m : Mesh) (x : ℕ) (z : P2 K) (o : Fin 3) : In pos m x z ↔
    0 < area (pos (m.vtx x (o + 2))) (pos (m.vtx x o)) z ∧ 0 < area (pos (m.vtx x o)) (pos (m.vtx x (o + 1))) z ∧
    0 < area (pos (m.vtx x (o + 1))) (pos (m.vtx x (o + 2))) z := by
  constructor
  · intro h
    have h1 := h (o + 1)
    have h2 := h (o + 2)
    rw [add_one_add_two] at h1
    rw [add_two_add_two] at h2
    exact ⟨h o, h1, h2⟩
  · rintro ⟨h0, h1, h2⟩ i
    rcases fin3_cases o i with rfl | rfl | rfl
    · exact h0
    · rw [add_one_add_two]
      exact h1
    · rw [add_two_add_two]
      exact h2

theorem ccw_rot {pos : ℕ → P2 K} {m : Mesh} {x : ℕ} (o : Fin 3) :
    area (pos (m.vtx x o)) (pos (m.vtx x (o + 1))) (pos (m.vtx x (o + 2))) =
      area (pos (m.vtx x 0)) (pos (m.vtx x 1)) (pos (m.vtx x 2)) := by
  rcases fin3_cases 0 o with rfl | rfl | rfl
  · rfl
  · exact area_rot _ _ _
  · exact area_rot' _ _ _

theorem ccw_edge {pos : ℕ → P2 K} {m : Mesh} {x : ℕ} (o : Fin 3) :
    area (pos (m.vtx x (o + 2))) (pos (m.vtx x o)) (pos (m.vtx x (o + 1))) =
      area (pos (m.vtx x 0)) (pos (m.vtx x 1)) (pos (m.vtx x 2)) := by
  rw [area_rot', ]
  exact ccw_rot o

/-- Two counterclockwise triangles with a common directed edge overlap. -/
theorem overlap {a b c d : P2 K} (hc : 0 < area a b c) (hd : 0 < area a b d) :
    ∃ z, (0 < area a b z ∧ 0 < area b c z ∧ 0 < area c a z) ∧ 0 < area a b z ∧ 0 < area b d z ∧ 0 < area d a z := by
  have hmid : ∀ s : P2 K × P2 K, area s.1 s.2 (lerp a b (1 / 2)) = (area s.1 s.2 a + area s.1 s.2 b) / 2 := by
    intro s
    rw [area_lerp]
    ring
  obtain ⟨e, h1, h2, h3⟩ := exists_small (lerp a b (1 / 2)) c [(b, c), (c, a), (b, d), (d, a)] (by
    intro s hs
    rw [hmid]
    simp only [List.mem_cons, List.not_mem_nil, or_false] at hs
    rcases hs with rfl | rfl | rfl | rfl
    · simp only [area_self_left]
      rw [area_rot]
      linarith
    · simp only [area_self_right]
      rw [area_rot']
      linarith
    · simp only [area_self_left]
      rw [area_rot]
      linarith
    · simp only [area_self_right]
      rw [area_rot']
      linarith)
  have h4 := h3 e h1 le_rfl
  have h5 : 0 < area a b (lerp (lerp a b (1 / 2)) c e) := by
    rw [area_lerp, hmid (a, b)]
    simp only [area_self_left, area_self_right]
    have := mul_pos h1 hc
    linarith
  exact ⟨_, ⟨h5, h4 (b, c) (by simp), h4 (c, a) (by simp)⟩, h5, h4 (b, d) (by simp), h4 (d, a) (by simp)⟩

/-- A directed edge belongs to one triangle. -/
theorem own_unique {pos : ℕ → P2 K} {live : Finset ℕ} {m : Mesh}
    (ccw : ∀ x ∈ live, 0 < area (pos (m.vtx x 0)) (pos (m.vtx x 1)) (pos (m.vtx x 2)))
    (disj : ∀ x ∈ live, ∀ y ∈ live, x ≠ y → ∀ z, In pos m x z → ¬ In pos m y z)
    {x y : ℕ} (hx : x ∈ live) (hy : y ∈ live) {i j : Fin 3} (h1 : m.vtx x (i + 2) = m.vtx y (j + 2))
    (h2 : m.vtx x i = m.vtx y j) : x = y := by
  by_contra hne
  have cx := ccw x hx
  have cy := ccw y hy
  rw [← ccw_edge i] at cx
  rw [← ccw_edge j] at cy
  rw [← h1, ← h2] at cy
  obtain ⟨z, ⟨a1, a2, a3⟩, b1, b2, b3⟩ := overlap cx cy
  refine disj x hx y hy hne z ((in_iff pos m x z i).mpr ⟨a1, a2, a3⟩) ((in_iff pos m y z j).mpr ⟨?_, ?_, ?_⟩)
  · rw [← h1, ← h2]
    exact b1
  · rw [← h2]
    exact b2
  · rw [← h1]
    exact b3

theorem Planar.own {pos : ℕ → P2 K} {live : Finset ℕ} {m : Mesh} (h : Planar pos live m)
    {x y : ℕ} (hx : x ∈ live) (hy : y ∈ live) {i j : Fin 3} (h1 : m.vtx x (i + 2) = m.vtx y (j + 2))
    (h2 : m.vtx x i = m.vtx y j) : x = y := own_unique h.ccw h.disj hx hy h1 h2

/-- Counterclockwise triangles are neighbours along one edge only. -/
theorem uniq_of_ccw {pos : ℕ → P2 K} {live : Finset ℕ} {m : Mesh}
    (inj : ∀ x ∈ live, ∀ i j, m.vtx x i = m.vtx x j → i = j)
    (twin : ∀ x ∈ live, ∀ i y, m.ngh x i = some y → y ∈ live ∧ ∃ j, m.ngh y j = some x ∧
      m.vtx y j = m.vtx x (i + 2) ∧ m.vtx y (j + 2) = m.vtx x i)
    (ccw : ∀ x ∈ live, 0 < area (pos (m.vtx x 0)) (pos (m.vtx x 1)) (pos (m.vtx x 2))) :
    ∀ x ∈ live, ∀ i j y, m.ngh x i = some y → m.ngh x j = some y → i = j := by
  have key : ∀ x ∈ live, ∀ i y, m.ngh x i = some y → m.ngh x (i + 1) = some y → False := by
    intro x hx i y h1 h2
    obtain ⟨hy, j, -, a1, a2⟩ := twin x hx _ _ h1
    obtain ⟨-, k, -, b1, b2⟩ := twin x hx _ _ h2
    rw [add_one_add_two] at b1
    obtain rfl : k = j + 2 := inj y hy _ _ (b1.trans a2.symm)
    rw [add_two_add_two] at b2
    have cx := ccw x hx
    have cy := ccw y hy
    rw [← ccw_rot i] at cx
    rw [← ccw_rot j, a1, a2, b2] at cy
    simp only [area] at cx cy
    linarith
  intro x hx i j y h1 h2
  rcases fin3_cases i j with rfl | rfl | rfl
  · rfl
  · exact absurd (key x hx _ _ h1 h2) (by simp)
  · have := key x hx (i + 2) y h2 (by rw [add_two_add_one]; exact h1)
    exact absurd this (by simp)

/-- An edge of a triangle is not the reverse of an edge of it. -/
theorem not_self_twin {m : Mesh} {x : ℕ} (inj : ∀ i j, m.vtx x i = m.vtx x j → i = j) {k l : Fin 3}
    (h1 : m.vtx x l = m.vtx x (k + 2)) (h2 : m.vtx x (l + 2) = m.vtx x k) : False := by
  have a := inj _ _ h1
  have b := inj _ _ h2
  subst a
  revert b
  generalize k = i
  revert i
  decide

/-- After a flip the upper new triangle `p c a` is covered by the two old ones `b a p` and `a b c`. -/
theorem quad_upper {a b c p z : P2 K} (hS : 0 < area b a p) (hT : 0 < area a b c) (h1 : 0 < area b c p)
    (h2 : 0 < area c a p) (l : List (P2 K × P2 K)) (hl : ∀ s ∈ l, 0 < area s.1 s.2 z)
    (z1 : 0 < area p c z) (z2 : 0 < area c a z) (z3 : 0 < area a p z) :
    ∃ z', (∀ s ∈ l, 0 < area s.1 s.2 z') ∧ ((0 < area b a z' ∧ 0 < area a p z' ∧ 0 < area p b z') ∨
      (0 < area a b z' ∧ 0 < area b c z' ∧ 0 < area c a z')) := by
  have main : ∀ z' : P2 K, 0 < area p c z' → 0 < area c a z' → 0 < area a p z' → 0 < area b a z' →
      0 < area p b z' := by
    intro z' k1 k2 k3 k4
    refine area_pos_of_inside k1 k2 k3 (s := p) (t := b) ?_ ?_ ?_ ?_
    · rw [area_self_left]
    · rw [area_rot']
      exact h1.le
    · rw [area_rot']
      exact hS.le
    · right
      left
      rw [area_rot']
      exact h1
  rcases lt_trichotomy (area b a z) 0 with h | h | h
  · refine ⟨z, hl, Or.inr ⟨?_, ?_, z2⟩⟩
    · rw [area_swap]
      linarith
    · refine area_pos_of_inside z1 z2 z3 (s := b) (t := c) h1.le ?_ ?_ (Or.inl h1)
      · rw [area_self_right]
      · rw [area_rot]
        exact hT.le
  · obtain ⟨e, e1, e2, e3⟩ := exists_small z p ((p, c) :: (c, a) :: (a, p) :: l) (by
      intro s hs
      simp only [List.mem_cons] at hs
      rcases hs with rfl | rfl | rfl | hs
      · exact z1
      · exact z2
      · exact z3
      · exact hl s hs)
    have e4 := e3 e e1 le_rfl
    have e5 : 0 < area b a (lerp z p e) := by
      rw [area_lerp, h]
      have := mul_pos e1 hS
      linarith
    refine ⟨lerp z p e, fun s hs => e4 s (by simp [hs]), Or.inl ⟨e5, e4 (a, p) (by simp), ?_⟩⟩
    exact main _ (e4 (p, c) (by simp)) (e4 (c, a) (by simp)) (e4 (a, p) (by simp)) e5
  · exact ⟨z, hl, Or.inl ⟨h, z3, main z z1 z2 z3 h⟩⟩

/-- The lower new triangle `c p b`. -/
theorem quad_lower {a b c p z : P2 K} (hS : 0 < area b a p) (hT : 0 < area a b c) (h1 : 0 < area b c p)
    (h2 : 0 < area c a p) (l : List (P2 K × P2 K)) (hl : ∀ s ∈ l, 0 < area s.1 s.2 z)
    (z1 : 0 < area c p z) (z2 : 0 < area p b z) (z3 : 0 < area b c z) :
    ∃ z', (∀ s ∈ l, 0 < area s.1 s.2 z') ∧ ((0 < area b a z' ∧ 0 < area a p z' ∧ 0 < area p b z') ∨
      (0 < area a b z' ∧ 0 < area b c z' ∧ 0 < area c a z')) := by
  have main : ∀ z' : P2 K, 0 < area c p z' → 0 < area p b z' → 0 < area b c z' → 0 < area b a z' →
      0 < area a p z' := by
    intro z' k1 k2 k3 k4
    refine area_pos_of_inside k1 k2 k3 (s := a) (t := p) ?_ ?_ ?_ ?_
    · rw [area_rot]
      exact h2.le
    · rw [area_self_right]
    · rw [area_rot]
      exact hS.le
    · left
      rw [area_rot]
      exact h2
  rcases lt_trichotomy (area b a z) 0 with h | h | h
  · refine ⟨z, hl, Or.inr ⟨?_, z3, ?_⟩⟩
    · rw [area_swap]
      linarith
    · refine area_pos_of_inside z1 z2 z3 (s := c) (t := a) ?_ h2.le ?_ (Or.inr (Or.inl h2))
      · rw [area_self_left]
      · rw [area_rot']
        exact hT.le
  · obtain ⟨e, e1, e2, e3⟩ := exists_small z p ((c, p) :: (p, b) :: (b, c) :: l) (by
      intro s hs
      simp only [List.mem_cons] at hs
      rcases hs with rfl | rfl | rfl | hs
      · exact z1
      · exact z2
      · exact z3
      · exact hl s hs)
    have e4 := e3 e e1 le_rfl
    have e5 : 0 < area b a (lerp z p e) := by
      rw [area_lerp, h]
      have := mul_pos e1 hS
      linarith
    refine ⟨lerp z p e, fun s hs => e4 s (by simp [hs]), Or.inl ⟨e5, ?_, e4 (p, b) (by simp)⟩⟩
    exact main _ (e4 (c, p) (by simp)) (e4 (p, b) (by simp)) (e4 (b, c) (by simp)) e5
  · exact ⟨z, hl, Or.inl ⟨h, main z z1 z2 z3 h, z2⟩⟩

/-- The three edges of a triangle as conditions. -/
def edges (pos : ℕ → P2 K) (m : Mesh) (x : ℕ) : List (P2 K × P2 K) :=
  [(pos (m.vtx x 2), pos (m.vtx x 0)), (pos (m.vtx x 0), pos (m.vtx x 1)), (pos (m.vtx x 1), pos (m.vtx x 2))]

theorem in_edges (pos : ℕ → P2 K) (m : Mesh) (x : ℕ) (z : P2 K) :
    In pos m x z ↔ ∀ s ∈ edges pos m x, 0 < area s.1 s.2 z := by
  rw [in_iff pos m x z 0]
  simp [edges]

/-- Flipping the diagonal of a strictly convex quadrilateral. -/
theorem Flipped.planar {pos : ℕ → P2 K} {live : Finset ℕ} {m m' : Mesh} (h : Planar pos live m) {x : ℕ} (hx : x ∈ live)
    {o : Fin 3} {y : ℕ} (hy : m.ngh x o = some y) {j : Fin 3} (hj : m.ngh y j = some x)
    (hf : Flipped m m' x o y j)
    (h1 : 0 < area (pos (m.vtx x o)) (pos (m.vtx x (o + 1))) (pos (m.vtx y (j + 1))))
    (h2 : 0 < area (pos (m.vtx x (o + 1))) (pos (m.vtx x (o + 2))) (pos (m.vtx y (j + 1)))) : Planar pos live m' := by
  have hw := h.wf
  have hyl : y ∈ live := (hw.twin _ hx _ _ hy).1
  have hyx : y ≠ x := hw.ne_self hx hy
  have hxy : x ≠ y := hyx.symm
  obtain ⟨_, j', hj', e1, e2⟩ := hw.twin _ hx _ _ hy
  obtain rfl : j' = j := hw.uniq _ hyl _ _ _ hj' hj
  have hv : m.vtx x (o + 1) ≠ m.vtx y (j' + 1) := by
    intro e
    rw [← e, area_self_right] at h1
    exact lt_irrefl _ h1
  obtain ⟨hinj, htw⟩ := hf.adj hw hx hy hj hv
  have no := add_one_ne o
  have no2 := add_two_ne o
  have no3 := add_two_ne_add_one o
  have nj := add_one_ne j'
  have nj2 := add_two_ne j'
  have nj3 := add_two_ne_add_one j'
  have vx : ∀ k, m'.vtx x k = if k = o then m.vtx y (j' + 1) else m.vtx x k := by
    intro k
    rw [hf.vtx]
    simp [hxy]
  have vy : ∀ k, m'.vtx y k = if k = j' then m.vtx x (o + 1) else m.vtx y k := by
    intro k
    rw [hf.vtx]
    simp [hyx]
  have vw : ∀ w, w ≠ x → w ≠ y → m'.vtx w = m.vtx w := by
    intro w h1 h2
    funext k
    rw [hf.vtx]
    simp [h1, h2]
  have x0 : m'.vtx x o = m.vtx y (j' + 1) := by rw [vx, if_pos rfl]
  have x1 : m'.vtx x (o + 1) = m.vtx x (o + 1) := by rw [vx, if_neg no]
  have x2 : m'.vtx x (o + 2) = m.vtx x (o + 2) := by rw [vx, if_neg no2]
  have y0 : m'.vtx y j' = m.vtx x (o + 1) := by rw [vy, if_pos rfl]
  have y1 : m'.vtx y (j' + 1) = m.vtx y (j' + 1) := by rw [vy, if_neg nj]
  have y2 : m'.vtx y (j' + 2) = m.vtx x o := by rw [vy, if_neg nj2, e2]
  -- the old triangles
  have hT : 0 < area (pos (m.vtx x (o + 2))) (pos (m.vtx x o)) (pos (m.vtx x (o + 1))) := by
    rw [ccw_edge]
    exact h.ccw x hx
  have hS : 0 < area (pos (m.vtx x o)) (pos (m.vtx x (o + 2))) (pos (m.vtx y (j' + 1))) := by
    rw [← e1, ← e2, ccw_edge]
    exact h.ccw y hyl
  have inx : ∀ z, In pos m x z ↔ 0 < area (pos (m.vtx x (o + 2))) (pos (m.vtx x o)) z ∧
      0 < area (pos (m.vtx x o)) (pos (m.vtx x (o + 1))) z ∧
      0 < area (pos (m.vtx x (o + 1))) (pos (m.vtx x (o + 2))) z := fun z => in_iff pos m x z o
  have iny : ∀ z, In pos m y z ↔ 0 < area (pos (m.vtx x o)) (pos (m.vtx x (o + 2))) z ∧
      0 < area (pos (m.vtx x (o + 2))) (pos (m.vtx y (j' + 1))) z ∧
      0 < area (pos (m.vtx y (j' + 1))) (pos (m.vtx x o)) z := by
    intro z
    rw [in_iff pos m y z j', e1, e2]
  have inx' : ∀ z, In pos m' x z ↔ 0 < area (pos (m.vtx x (o + 2))) (pos (m.vtx y (j' + 1))) z ∧
      0 < area (pos (m.vtx y (j' + 1))) (pos (m.vtx x (o + 1))) z ∧
      0 < area (pos (m.vtx x (o + 1))) (pos (m.vtx x (o + 2))) z := by
    intro z
    rw [in_iff pos m' x z o, x0, x1, x2]
  have iny' : ∀ z, In pos m' y z ↔ 0 < area (pos (m.vtx x o)) (pos (m.vtx x (o + 1))) z ∧
      0 < area (pos (m.vtx x (o + 1))) (pos (m.vtx y (j' + 1))) z ∧
      0 < area (pos (m.vtx y (j' + 1))) (pos (m.vtx x o)) z := by
    intro z
    rw [in_iff pos m' y z j', y0, y1, y2]
  have inw : ∀ w, w ≠ x → w ≠ y → ∀ z, In pos m' w z ↔ In pos m w z := by
    intro w h3 h4 z
    unfold In
    rw [vw w h3 h4]
  have hccw : ∀ w ∈ live, 0 < area (pos (m'.vtx w 0)) (pos (m'.vtx w 1)) (pos (m'.vtx w 2)) := by
    intro w hwl
    by_cases hwx : w = x
    · subst hwx
      rw [← ccw_rot o, x0, x1, x2, ← area_rot]
      exact h2
    · by_cases hwy : w = y
      · subst hwy
        rw [← ccw_rot j', y0, y1, y2, ← area_rot']
        exact h1
      · rw [vw w hwx hwy]
        exact h.ccw w hwl
  have hdisj1 : ∀ w ∈ live, w ≠ x → w ≠ y → ∀ z, In pos m w z → ¬ In pos m' x z ∧ ¬ In pos m' y z := by
    intro w hwl hwx hwy z hz
    constructor
    · intro hzx
      rw [inx'] at hzx
      obtain ⟨z', k1, k2⟩ := quad_upper hS hT h1 h2 (edges pos m w) ((in_edges pos m w z).mp hz) hzx.2.1 hzx.2.2 hzx.1
      have hz' := (in_edges pos m w z').mpr k1
      rcases k2 with k2 | k2
      · exact h.disj w hwl y hyl hwy z' hz' ((iny z').mpr k2)
      · exact h.disj w hwl x hx hwx z' hz' ((inx z').mpr k2)
    · intro hzy
      rw [iny'] at hzy
      obtain ⟨z', k1, k2⟩ := quad_lower hS hT h1 h2 (edges pos m w) ((in_edges pos m w z).mp hz) hzy.2.1 hzy.2.2 hzy.1
      have hz' := (in_edges pos m w z').mpr k1
      rcases k2 with k2 | k2
      · exact h.disj w hwl y hyl hwy z' hz' ((iny z').mpr k2)
      · exact h.disj w hwl x hx hwx z' hz' ((inx z').mpr k2)
  have hdisj2 : ∀ z, In pos m' x z → ¬ In pos m' y z := by
    intro z k1 k2
    rw [inx'] at k1
    rw [iny'] at k2
    have a := k1.2.1
    have b := k2.2.1
    rw [area_swap] at b
    linarith
  have hdisj : ∀ u ∈ live, ∀ w ∈ live, u ≠ w → ∀ z, In pos m' u z → ¬ In pos m' w z := by
    intro u hu w hwl huw z k1 k2
    by_cases hux : u = x
    · subst hux
      by_cases hwy : w = y
      · subst hwy
        exact hdisj2 z k1 k2
      · exact (hdisj1 w hwl huw.symm hwy z ((inw w huw.symm hwy z).mp k2)).1 k1
    · by_cases huy : u = y
      · subst huy
        by_cases hwx : w = x
        · subst hwx
          exact hdisj2 z k2 k1
        · exact (hdisj1 w hwl hwx huw.symm z ((inw w hwx huw.symm z).mp k2)).2 k1
      · have k1' := (inw u hux huy z).mp k1
        by_cases hwx : w = x
        · subst hwx
          exact (hdisj1 u hu hux huy z k1').1 k2
        · by_cases hwy : w = y
          · subst hwy
            exact (hdisj1 u hu hux huy z k1').2 k2
          · exact h.disj u hu w hwl huw z k1' ((inw w hwx hwy z).mp k2)
  refine ⟨⟨hinj, htw, uniq_of_ccw hinj htw hccw⟩, hccw, hdisj, ?_⟩
  -- pointers are complete
  intro u hu w hwl k l l1 l2
  rcases hn : m'.ngh u k with _ | w'
  · exfalso
    -- an old triangle with an edge of `x` or `y` in the new mesh
    have owx : ∀ l, l ≠ o + 1 → ∃ w' ∈ live, ∃ l', m.vtx w' (l' + 2) = m'.vtx x (l + 2) ∧ m.vtx w' l' = m'.vtx x l := by
      intro l hl
      rcases fin3_cases o l with rfl | rfl | rfl
      · exact ⟨y, hyl, j' + 1, by rw [add_one_add_two, e1, x2], by rw [x0]⟩
      · exact absurd rfl hl
      · exact ⟨x, hx, o + 2, by rw [add_two_add_two, x1], by rw [x2]⟩
    have owy : ∀ l, l ≠ j' + 1 → ∃ w' ∈ live, ∃ l', m.vtx w' (l' + 2) = m'.vtx y (l + 2) ∧ m.vtx w' l' = m'.vtx y l := by
      intro l hl
      rcases fin3_cases j' l with rfl | rfl | rfl
      · exact ⟨x, hx, o + 1, by rw [add_one_add_two, y2], by rw [y0]⟩
      · exact absurd rfl hl
      · exact ⟨y, hyl, j' + 2, by rw [add_two_add_two, y1], by rw [y2, e2]⟩
    have ow : ∃ w' ∈ live, ∃ l', (m.vtx w' (l' + 2) = m'.vtx w (l + 2) ∧ m.vtx w' l' = m'.vtx w l) ∨
        (w = x ∧ l = o + 1) ∨ (w = y ∧ l = j' + 1) := by
      by_cases hwx : w = x
      · subst hwx
        by_cases hl : l = o + 1
        · exact ⟨w, hwl, 0, Or.inr (Or.inl ⟨rfl, hl⟩)⟩
        · obtain ⟨w', a, l', b⟩ := owx l hl
          exact ⟨w', a, l', Or.inl b⟩
      · by_cases hwy : w = y
        · subst hwy
          by_cases hl : l = j' + 1
          · exact ⟨w, hwl, 0, Or.inr (Or.inr ⟨rfl, hl⟩)⟩
          · obtain ⟨w', a, l', b⟩ := owy l hl
            exact ⟨w', a, l', Or.inl b⟩
        · exact ⟨w, hwl, l, Or.inl (by rw [vw w hwx hwy]; exact ⟨rfl, rfl⟩)⟩
    -- the reverse of the new diagonal is its partner's
    have diag : ∀ u ∈ live, ∀ k, m'.ngh u k = none → ((m'.vtx u (k + 2) = m.vtx x (o + 1) ∧ m'.vtx u k = m.vtx y (j' + 1)) ∨
        (m'.vtx u (k + 2) = m.vtx y (j' + 1) ∧ m'.vtx u k = m.vtx x (o + 1))) → False := by
      intro u hu k hn hd
      rcases hd with ⟨d1, d2⟩ | ⟨d1, d2⟩
      · obtain rfl : u = y := own_unique hccw hdisj hu hyl (i := k) (j := j' + 1)
          (by rw [d1, add_one_add_two, y0]) (by rw [d2, y1])
        obtain rfl : k = j' + 1 := hinj u hyl _ _ (by rw [d2, y1])
        rw [hf.nghy, if_neg nj, if_pos rfl] at hn
        exact absurd hn (by simp)
      · obtain rfl : u = x := own_unique hccw hdisj hu hx (i := k) (j := o + 1)
          (by rw [d1, add_one_add_two, x0]) (by rw [d2, x1])
        obtain rfl : k = o + 1 := hinj u hx _ _ (by rw [d2, x1])
        rw [hf.nghx, if_neg no, if_pos rfl] at hn
        exact absurd hn (by simp)
    obtain ⟨w', hw', l', hl' | ⟨rfl, rfl⟩ | ⟨rfl, rfl⟩⟩ := ow
    · -- the edge of `u`, and the old triangle owning it
      have old : ∀ u' ∈ live, ∀ k', m.vtx u' (k' + 2) = m'.vtx u (k + 2) → m.vtx u' k' = m'.vtx u k →
          m.ngh u' k' = some w' := by
        intro u' hu' k' a1 a2
        exact h.full u' hu' w' hw' k' l' (by rw [hl'.2, l1, a1]) (by rw [hl'.1, l2, a2])
      by_cases hux : u = x
      · subst hux
        rcases fin3_cases o k with rfl | rfl | rfl
        · rw [hf.nghx, if_pos rfl] at hn
          have := old y hyl (j' + 1) (by rw [add_one_add_two, e1, x2]) (by rw [x0])
          rw [hn] at this
          exact absurd this (by simp)
        · rw [hf.nghx, if_neg no, if_pos rfl] at hn
          exact absurd hn (by simp)
        · rw [hf.nghx, if_neg no2, if_neg no3] at hn
          have := old u hx (o + 2) (by rw [add_two_add_two, x1]) (by rw [x2])
          rw [hn] at this
          exact absurd this (by simp)
      · by_cases huy : u = y
        · subst huy
          rcases fin3_cases j' k with rfl | rfl | rfl
          · rw [hf.nghy, if_pos rfl] at hn
            have := old x hx (o + 1) (by rw [add_one_add_two, y2]) (by rw [y0])
            rw [hn] at this
            exact absurd this (by simp)
          · rw [hf.nghy, if_neg nj, if_pos rfl] at hn
            exact absurd hn (by simp)
          · rw [hf.nghy, if_neg nj2, if_neg nj3] at hn
            have := old u hyl (j' + 2) (by rw [add_two_add_two, y1]) (by rw [y2, e2])
            rw [hn] at this
            exact absurd this (by simp)
        · rw [hf.ngh u hux huy] at hn
          have := old u hu k (by rw [vw u hux huy]) (by rw [vw u hux huy])
          split_ifs at hn
          rw [hn] at this
          exact absurd this (by simp)
    · refine diag u hu k hn (Or.inl ⟨?_, ?_⟩)
      · rw [← l1, x1]
      · rw [← l2, add_one_add_two, x0]
    · refine diag u hu k hn (Or.inr ⟨?_, ?_⟩)
      · rw [← l1, y1]
      · rw [← l2, add_one_add_two, y0]
  · obtain ⟨hw', i, -, a1, a2⟩ := htw u hu _ _ hn
    have : w' = w := own_unique hccw hdisj hw' hwl (i := i) (j := l) (by rw [a2, l2]) (by rw [a1, l1])
    rw [this]

/-- A point inside the part of a triangle seen from an interior point through one edge is inside the triangle. -/
theorem sub_inside {a b c p z : P2 K} (hp1 : 0 < area b c p) (hp2 : 0 < area c a p) (hc : 0 < area a b c)
    (h1 : 0 < area a b z) (h2 : 0 < area b p z) (h3 : 0 < area p a z) : 0 < area b c z ∧ 0 < area c a z := by
  constructor
  · refine area_pos_of_inside h1 h2 h3 (s := b) (t := c) ?_ ?_ hp1.le (Or.inr (Or.inr hp1))
    · rw [area_rot]
      exact hc.le
    · rw [area_self_left]
  · refine area_pos_of_inside h1 h2 h3 (s := c) (t := a) ?_ ?_ hp2.le (Or.inr (Or.inr hp2))
    · rw [area_self_right]
    · rw [area_rot']
      exact hc.le

/-- The three triangles that replace `t`, in the order of its edges. -/
def parts (t a b : ℕ) (i : Fin 3) : ℕ := if i = 0 then t else if i = 1 then a else b

theorem SplitAt.part_vtx {m m' : Mesh} {t v a b : ℕ} (hs : SplitAt m m' t v a b) (i : Fin 3) :
    m'.vtx (parts t a b i) 0 = m.vtx t i ∧ m'.vtx (parts t a b i) 1 = v ∧
    m'.vtx (parts t a b i) 2 = m.vtx t (i + 2) := by
  have e : (1 : Fin 3) + 2 = 0 := by decide
  have e' : (2 : Fin 3) + 2 = 1 := by decide
  rcases fin3_cases 0 i with rfl | rfl | rfl <;> simp [parts, hs.vtxt, hs.vtxa, hs.vtxb, e, e']

theorem SplitAt.part_ngh {m m' : Mesh} {t v a b : ℕ} (hs : SplitAt m m' t v a b) (i : Fin 3) :
    m'.ngh (parts t a b i) 0 = m.ngh t i ∧ m'.ngh (parts t a b i) 1 = some (parts t a b (i + 1)) ∧
    m'.ngh (parts t a b i) 2 = some (parts t a b (i + 2)) := by
  have e : (1 : Fin 3) + 2 = 0 := by decide
  have e' : (2 : Fin 3) + 2 = 1 := by decide
  have e2 : (1 : Fin 3) + 1 = 2 := by decide
  have e3 : (2 : Fin 3) + 1 = 0 := by decide
  rcases fin3_cases 0 i with rfl | rfl | rfl <;> simp [parts, hs.nght, hs.ngha, hs.nghb, e, e', e2, e3]

theorem parts_mem {live : Finset ℕ} {t a b : ℕ} (ht : t ∈ live) (i : Fin 3) :
    parts t a b i ∈ insert a (insert b live) := by
  unfold parts
  split_ifs <;> simp [ht]

theorem parts_cases {live : Finset ℕ} {t a b x : ℕ} (hx : x ∈ insert a (insert b live)) :
    (∃ i, x = parts t a b i) ∨ (x ∈ live ∧ x ≠ t ∧ x ≠ a ∧ x ≠ b) := by
  by_cases h1 : x = t
  · exact Or.inl ⟨0, by simp [parts, h1]⟩
  · by_cases h2 : x = a
    · exact Or.inl ⟨1, by simp [parts, h2]⟩
    · by_cases h3 : x = b
      · exact Or.inl ⟨2, by simp [parts, h3]⟩
      · simp only [Finset.mem_insert, h2, h3, false_or] at hx
        exact Or.inr ⟨hx, h1, h2, h3⟩

/-- Splitting a triangle at a point strictly inside it. -/
theorem SplitAt.planar {pos : ℕ → P2 K} {live : Finset ℕ} {m m' : Mesh} (h : Planar pos live m) {t v a b : ℕ}
    (ht : t ∈ live) (ha : a ∉ live) (hb : b ∉ live) (hab : a ≠ b) (hv : ∀ x ∈ live, ∀ k, m.vtx x k ≠ v)
    (hs : SplitAt m m' t v a b) (hin : In pos m t (pos v)) : Planar pos (insert a (insert b live)) m' := by
  have hwf := hs.wf h.wf ht ha hb hab hv
  have hti : ∀ i, 0 < area (pos (m.vtx t (i + 2))) (pos (m.vtx t i)) (pos (m.vtx t (i + 1))) := by
    intro i
    rw [ccw_edge]
    exact h.ccw t ht
  have two : (0 : Fin 3) + 2 = 2 := by decide
  have one : (0 : Fin 3) + 1 = 1 := by decide
  have inp : ∀ i z, In pos m' (parts t a b i) z ↔ 0 < area (pos (m.vtx t (i + 2))) (pos (m.vtx t i)) z ∧
      0 < area (pos (m.vtx t i)) (pos v) z ∧ 0 < area (pos v) (pos (m.vtx t (i + 2))) z := by
    intro i z
    obtain ⟨p0, p1, p2⟩ := hs.part_vtx i
    rw [in_iff pos m' _ z 0, two, one, p0, p1, p2]
  have vw : ∀ w, w ≠ t → w ≠ a → w ≠ b → m'.vtx w = m.vtx w := by
    intro w h1 h2 h3
    funext k
    exact hs.vtx w h1 h2 h3 k
  have inw : ∀ w, w ≠ t → w ≠ a → w ≠ b → ∀ z, In pos m' w z ↔ In pos m w z := by
    intro w h1 h2 h3 z
    unfold In
    rw [vw w h1 h2 h3]
  have sub : ∀ i z, In pos m' (parts t a b i) z → In pos m t z := by
    intro i z hz
    rw [inp] at hz
    have k1 := hin (i + 1)
    have k2 := hin (i + 2)
    rw [add_one_add_two] at k1
    rw [add_two_add_two] at k2
    obtain ⟨l1, l2⟩ := sub_inside k1 k2 (hti i) hz.1 hz.2.1 hz.2.2
    exact (in_iff pos m t z i).mpr ⟨hz.1, l1, l2⟩
  have hccw : ∀ x ∈ insert a (insert b live), 0 < area (pos (m'.vtx x 0)) (pos (m'.vtx x 1)) (pos (m'.vtx x 2)) := by
    intro x hx
    rcases parts_cases (t := t) hx with ⟨i, rfl⟩ | ⟨h1, h2, h3, h4⟩
    · obtain ⟨p0, p1, p2⟩ := hs.part_vtx i
      rw [p0, p1, p2, ← area_rot']
      exact hin i
    · rw [vw x h2 h3 h4]
      exact h.ccw x h1
  have hdisj : ∀ x ∈ insert a (insert b live), ∀ y ∈ insert a (insert b live), x ≠ y → ∀ z, In pos m' x z →
      ¬ In pos m' y z := by
    intro x hx y hy hxy z k1 k2
    rcases parts_cases (t := t) hx with ⟨i, rfl⟩ | ⟨h1, h2, h3, h4⟩
    · rcases parts_cases (t := t) hy with ⟨j, rfl⟩ | ⟨g1, g2, g3, g4⟩
      · rw [inp] at k1 k2
        rcases fin3_cases i j with rfl | rfl | rfl
        · exact hxy rfl
        · have q1 := k1.2.1
          have q2 := k2.2.2
          rw [add_one_add_two, area_swap] at q2
          linarith
        · have q1 := k1.2.2
          have q2 := k2.2.1
          rw [area_swap] at q2
          linarith
      · exact h.disj t ht y g1 (Ne.symm g2) z (sub i z k1) ((inw y g2 g3 g4 z).mp k2)
    · rcases parts_cases (t := t) hy with ⟨j, rfl⟩ | ⟨g1, g2, g3, g4⟩
      · exact h.disj t ht x h1 (Ne.symm h2) z (sub j z k2) ((inw x h2 h3 h4 z).mp k1)
      · exact h.disj x h1 y g1 hxy z ((inw x h2 h3 h4 z).mp k1) ((inw y g2 g3 g4 z).mp k2)
  refine ⟨hwf, hccw, hdisj, ?_⟩
  intro u hu w hwl k l l1 l2
  rcases hn : m'.ngh u k with _ | w'
  · exfalso
    -- an edge without the new vertex is an old edge
    have old : ∀ x ∈ insert a (insert b live), ∀ k, m'.vtx x (k + 2) ≠ v → m'.vtx x k ≠ v →
        ∃ x' ∈ live, ∃ k', m.vtx x' (k' + 2) = m'.vtx x (k + 2) ∧ m.vtx x' k' = m'.vtx x k ∧
          (m'.ngh x k = none → m.ngh x' k' = none) := by
      intro x hx k n1 n2
      rcases parts_cases (t := t) hx with ⟨i, rfl⟩ | ⟨g1, g2, g3, g4⟩
      · obtain ⟨p0, p1, p2⟩ := hs.part_vtx i
        have hk : k = 0 := by
          rcases fin3_cases 0 k with rfl | rfl | rfl
          · rfl
          · exact absurd p1 n2
          · exact absurd p1 n1
        subst hk
        rw [two]
        refine ⟨t, ht, i, by rw [p2], by rw [p0], ?_⟩
        rw [(hs.part_ngh i).1]
        exact id
      · refine ⟨x, g1, k, by rw [vw x g2 g3 g4], by rw [vw x g2 g3 g4], ?_⟩
        rw [hs.ngh x g2 g3 g4]
        intro h5
        split_ifs at h5
        exact h5
    have nv : m'.vtx u (k + 2) ≠ v ∧ m'.vtx u k ≠ v := by
      rcases parts_cases (t := t) hu with ⟨i, rfl⟩ | ⟨g1, g2, g3, g4⟩
      · obtain ⟨n0, n1, n2⟩ := hs.part_ngh i
        obtain ⟨p0, p1, p2⟩ := hs.part_vtx i
        rcases fin3_cases 0 k with rfl | rfl | rfl
        · rw [two, p0, p2]
          exact ⟨hv t ht _, hv t ht _⟩
        · rw [one, n1] at hn
          exact absurd hn (by simp)
        · rw [two, n2] at hn
          exact absurd hn (by simp)
      · rw [vw u g2 g3 g4]
        exact ⟨hv u g1 _, hv u g1 _⟩
    obtain ⟨u', hu', k', a1, a2, a3⟩ := old u hu k nv.1 nv.2
    obtain ⟨w', hw', l', b1, b2, -⟩ := old w hwl l (by rw [l2]; exact nv.2) (by rw [l1]; exact nv.1)
    have := h.full u' hu' w' hw' k' l' (by rw [b2, l1, a1]) (by rw [b1, l2, a2])
    rw [a3 hn] at this
    exact absurd this (by simp)
  · obtain ⟨hw', i, -, a1, a2⟩ := hwf.twin u hu _ _ hn
    have : w' = w := own_unique hccw hdisj hw' hwl (i := i) (j := l) (by rw [a2, l2]) (by rw [a1, l1])
    rw [this]

end Verif.Delaunay
