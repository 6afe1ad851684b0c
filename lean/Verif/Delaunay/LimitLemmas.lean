import Verif.Delaunay.DelaunayLemmas

set_option linter.unusedSectionVars false
set_option linter.unusedVariables false

/-!
Inserting a point that lies on an edge: it is moved a little into the triangle, and the result is compared.
-/

namespace Verif.Delaunay

open CT

variable {K : Type} [Field K] [LinearOrder K] [IsStrictOrderedRing K]

/-- Finitely many positive quantities stay positive under a small affine change. -/
theorem exists_small_pairs (l : List (K × K)) (h : ∀ s ∈ l, 0 < s.1) :
    ∃ e0 : K, 0 < e0 ∧ e0 < 1 ∧ ∀ e, 0 < e → e ≤ e0 → ∀ s ∈ l, 0 < (1 - e) * s.1 + e * s.2 := by
  induction l with
  | nil => exact ⟨1 / 2, by norm_num, by norm_num, by simp⟩
  | cons s l ih =>
    obtain ⟨e1, h1, h2, h3⟩ := ih fun s hs => h s (by simp [hs])
    have hs := h s (by simp)
    have hd : 0 < s.1 + |s.2 - s.1| := by
      have := abs_nonneg (s.2 - s.1)
      linarith
    have hq : 0 < s.1 / (2 * (s.1 + |s.2 - s.1|)) := by positivity
    refine ⟨min e1 (s.1 / (2 * (s.1 + |s.2 - s.1|))), lt_min h1 hq, lt_of_le_of_lt (min_le_left _ _) h2, ?_⟩
    intro e he hle r hr
    rw [List.mem_cons] at hr
    rcases hr with rfl | hr
    · have hle2 := hle.trans (min_le_right _ _)
      rw [le_div_iff₀ (by positivity)] at hle2
      have h4 : -(e * |r.2 - r.1|) ≤ e * (r.2 - r.1) := by
        rw [← mul_neg]
        exact mul_le_mul_of_nonneg_left (neg_abs_le _) he.le
      have h5 := mul_pos he hs
      nlinarith
    · exact h3 e he (hle.trans (min_le_left _ _)) r hr

/-- The in-circle determinant at a moved point. -/
theorem circ_lerp (a b c p g : P2 K) (e : K) : circ a b c (lerp p g e) =
    (1 - e) * circ a b c p + e * circ a b c g + e * (1 - e) * sqd p g * area a b c := by
  unfold circ lerp sqd area
  ring

theorem area_lerp_mid (s p g z : P2 K) (e : K) : area s (lerp p g e) z = (1 - e) * area s p z + e * area s g z := by
  unfold area lerp
  ring

theorem area_lerp_first (s p g z : P2 K) (e : K) : area (lerp p g e) s z = (1 - e) * area p s z + e * area g s z := by
  unfold area lerp
  ring

/-- On two edge lines of a triangle there is only the common corner. -/
theorem eq_corner {a b c p : P2 K} (hA : 0 < area a b c) (h1 : area a b p = 0) (h2 : area b c p = 0) : p = b := by
  have ex : area a b c * (p.x - b.x) = area b c p * (a.x - b.x) + area a b p * (c.x - b.x) := by
    unfold area
    ring
  have ey : area a b c * (p.y - b.y) = area b c p * (a.y - b.y) + area a b p * (c.y - b.y) := by
    unfold area
    ring
  rw [h1, h2] at ex ey
  have hx : p.x - b.x = 0 := by
    have : area a b c * (p.x - b.x) = 0 := by linarith
    rcases mul_eq_zero.mp this with g | g
    · exact absurd g hA.ne'
    · exact g
  have hy : p.y - b.y = 0 := by
    have : area a b c * (p.y - b.y) = 0 := by linarith
    rcases mul_eq_zero.mp this with g | g
    · exact absurd g hA.ne'
    · exact g
  cases p
  cases b
  simp only [P2.mk.injEq] at *
  exact ⟨by linarith, by linarith⟩

/-- A point on an edge, strictly between its ends, is strictly inside the circle. -/
theorem circ_pos_on_edge {a b c p : P2 K} (hA : 0 < area a b c) (h1 : area a b p = 0) (h2 : 0 < area b c p)
    (h3 : 0 < area c a p) : 0 < circ a b c p := by
  have e := circ_bary a b c p
  rw [h1] at e
  have s : 0 < sqd a b := by
    refine sqd_pos (a := c) ?_
    rw [area_rot']
    exact hA.ne'
  have := mul_pos (mul_pos h2 h3) s
  have : 0 < circ a b c p * area a b c := by linarith
  exact (pos_iff_pos_of_mul_pos this).mpr hA

/-- A point on the line of an edge and strictly inside the circle is strictly between its ends. -/
theorem between_of_circ {a b c p : P2 K} (hA : 0 < area a b c) (h1 : area a b p = 0) (hc : 0 < circ a b c p) :
    0 < area b c p ∧ 0 < area c a p := by
  have e := circ_bary a b c p
  rw [h1] at e
  have es := area_sum a b c p
  have s : 0 < sqd a b := by
    refine sqd_pos (a := c) ?_
    rw [area_rot']
    exact hA.ne'
  have hp := mul_pos hc hA
  have h4 : 0 < area b c p * area c a p * sqd a b := by linarith
  have h5 : 0 < area b c p * area c a p := (pos_iff_pos_of_mul_pos h4).mpr s
  rcases mul_pos_iff.mp h5 with g | g
  · exact g
  · linarith [g.1, g.2]

section
variable {pos : ℕ → P2 K} {live vs : Finset ℕ} {m : Mesh} {v a b : ℕ}

/-- The vertex `v` moved towards `g`. -/
def moved (pos : ℕ → P2 K) (v : ℕ) (g : P2 K) (e : K) : ℕ → P2 K := Function.update pos v (lerp (pos v) g e)

theorem moved_self (pos : ℕ → P2 K) (v : ℕ) (g : P2 K) (e : K) : moved pos v g e v = lerp (pos v) g e := by
  simp [moved]

theorem moved_ne (pos : ℕ → P2 K) {v u : ℕ} (g : P2 K) (e : K) (h : u ≠ v) : moved pos v g e u = pos u := by
  simp [moved, h]

/-- An edge condition of a mesh is an affine function of the move. -/
theorem moved_area (pos : ℕ → P2 K) (v : ℕ) (g : P2 K) {s t : ℕ} (hst : s ≠ t) (z : P2 K) : ∃ β : K, ∀ e,
    area (moved pos v g e s) (moved pos v g e t) z = (1 - e) * area (pos s) (pos t) z + e * β := by
  by_cases hs : s = v
  · subst hs
    refine ⟨area g (pos t) z, fun e => ?_⟩
    rw [moved_self, moved_ne pos g e hst.symm, area_lerp_first]
  · by_cases ht : t = v
    · subst ht
      refine ⟨area (pos s) g z, fun e => ?_⟩
      rw [moved_self, moved_ne pos g e hst, area_lerp_mid]
    · refine ⟨area (pos s) (pos t) z, fun e => ?_⟩
      rw [moved_ne pos g e hs, moved_ne pos g e ht]
      ring

theorem planar_congr {pos pos' : ℕ → P2 K} (h : Planar pos live m)
    (he : ∀ x ∈ live, ∀ k, pos' (m.vtx x k) = pos (m.vtx x k)) : Planar pos' live m := by
  have hin : ∀ x ∈ live, ∀ z, In pos' m x z ↔ In pos m x z := by
    intro x hx z
    unfold In
    constructor
    · intro h i
      have := h i
      rw [he x hx, he x hx] at this
      exact this
    · intro h i
      rw [he x hx, he x hx]
      exact h i
  refine ⟨h.wf, ?_, ?_, h.full⟩
  · intro x hx
    rw [he x hx, he x hx, he x hx]
    exact h.ccw x hx
  · intro x hx y hy hne z h1 h2
    exact h.disj x hx y hy hne z ((hin x hx z).mp h1) ((hin y hy z).mp h2)

theorem limit_nonneg {α β e0 : K} (h0 : 0 < e0) (h : ∀ e, 0 < e → e ≤ e0 → 0 < (1 - e) * α + e * β) : 0 ≤ α := by
  by_contra hlt
  push Not at hlt
  obtain ⟨e1, h1, h2, h3⟩ := exists_small_pairs [(-α, -β)] (by simpa using hlt)
  have k1 := h (min e0 e1) (lt_min h0 h1) (min_le_left _ _)
  have k2 := h3 (min e0 e1) (lt_min h0 h1) (min_le_right _ _) (-α, -β) (by simp)
  simp only at k2
  linarith

theorem in_limit {x : ℕ} (hinj : ∀ i j, m.vtx x i = m.vtx x j → i = j) {z : P2 K} (hz : In pos m x z) (g : P2 K) :
    ∃ e1 : K, 0 < e1 ∧ ∀ e, 0 < e → e ≤ e1 → In (moved pos v g e) m x z := by
  have hb : ∀ i : Fin 3, ∃ β : K, ∀ e, area (moved pos v g e (m.vtx x (i + 2))) (moved pos v g e (m.vtx x i)) z =
      (1 - e) * area (pos (m.vtx x (i + 2))) (pos (m.vtx x i)) z + e * β :=
    fun i => moved_area pos v g (fun e => add_two_ne i (hinj _ _ e)) z
  choose β hβ using hb
  obtain ⟨e1, h1, h2, h3⟩ := exists_small_pairs
    ([0, 1, 2].map fun i : Fin 3 => (area (pos (m.vtx x (i + 2))) (pos (m.vtx x i)) z, β i)) (by
      intro s hs
      rw [List.mem_map] at hs
      obtain ⟨i, -, rfl⟩ := hs
      exact hz i)
  refine ⟨e1, h1, fun e he hle i => ?_⟩
  rw [hβ]
  refine h3 e he hle (_, _) (List.mem_map.mpr ⟨i, ?_, rfl⟩)
  revert i
  decide

theorem circT_congr {pos pos' : ℕ → P2 K} {x : ℕ} (he : ∀ k, pos' (m.vtx x k) = pos (m.vtx x k)) (q : P2 K) :
    circT pos' m x q = circT pos m x q := by
  unfold circT
  rw [he, he, he]

open Classical in
/-- Inserting a point anywhere strictly inside the outline, away from the vertices. -/
theorem insert_delaunay (h : DMesh pos live vs m) (hv : v ∉ vs) (hne : ∀ u ∈ vs, pos u ≠ pos v) {t : ℕ} (ht : t ∈ live)
    (hcl : ∀ i, 0 ≤ area (pos (m.vtx t (i + 2))) (pos (m.vtx t i)) (pos v))
    (hhull : ∀ x ∈ live, ∀ i, m.ngh x i = none → 0 < area (pos (m.vtx x (i + 2))) (pos (m.vtx x i)) (pos v))
    (ha : a ∉ live) (hb : b ∉ live) (hab : a ≠ b) (o : Fin 3) :
    ∃ (c : Fin 3 → CT) (cur : Mesh) (proc : Finset ℕ),
      (∀ i, IsCT (fun T => 0 < circT pos m T (pos v)) live m (m.vtx t (i + 2)) (m.vtx t i) (c i)) ∧
      (∀ i, (c i).size < live.card) ∧
      ((split m t v a b).bind fun m => flips m (simplexQ o c)) = .ok cur ∧
      St pos live (insert v vs) m v a b cur proc ∧
      (∀ x ∈ insert a (insert b proc), Closed (fun T => 0 < circT pos m T (pos v)) live m v cur x) ∧
      (∀ y ∈ live, y ∈ proc ↔ 0 < circT pos m y (pos v)) ∧
      (∀ y ∈ proc, ∀ k, m.vtx y k ∈ vertexQ m t o c) ∧ (vertexQ m t o c).Nodup ∧
      (∀ u, SV a b cur proc u ↔ u = v ∨ u ∈ vertexQ m t o c) ∧
      (∀ u, u ≠ v → u ∉ vertexQ m t o c → cur.vt u = m.vt u) ∧
      (∀ own, Owns own live m a b cur proc → InsertFoot own m t v a b (simplexQ o c) cur) ∧
      DMesh pos (insert a (insert b live)) (insert v vs) cur := by
  have hvt : ∀ x ∈ live, ∀ k, m.vtx x k ≠ v := fun x hx k e => hv (e ▸ h.corner x hx k)
  have ct : ∀ i : Fin 3, 0 < area (pos (m.vtx t (i + 2))) (pos (m.vtx t i)) (pos (m.vtx t (i + 1))) := by
    intro i
    rw [ccw_edge]
    exact h.planar.ccw t ht
  have hcorner : ∀ k, pos v ≠ pos (m.vtx t k) := fun k e => hne _ (h.corner t ht k) e.symm
  -- at most one edge passes through the point
  have hone : ∀ i : Fin 3, area (pos (m.vtx t (i + 2))) (pos (m.vtx t i)) (pos v) = 0 →
      0 < area (pos (m.vtx t i)) (pos (m.vtx t (i + 1))) (pos v) ∧
      0 < area (pos (m.vtx t (i + 1))) (pos (m.vtx t (i + 2))) (pos v) := by
    intro i hi
    have c1 := hcl (i + 1)
    have c2 := hcl (i + 2)
    rw [add_one_add_two] at c1
    rw [add_two_add_two] at c2
    constructor
    · refine lt_of_le_of_ne c1 fun e => hcorner i ?_
      exact eq_corner (ct i) hi e.symm
    · refine lt_of_le_of_ne c2 fun e => hcorner (i + 2) ?_
      refine eq_corner (a := pos (m.vtx t (i + 1))) (c := pos (m.vtx t i)) ?_ e.symm hi
      have := ct i
      rw [← area_rot'] at this
      exact this
  have htgood : 0 < circT pos m t (pos v) := by
    by_cases hz : ∃ i : Fin 3, area (pos (m.vtx t (i + 2))) (pos (m.vtx t i)) (pos v) = 0
    · obtain ⟨i, hi⟩ := hz
      rw [circT_edge pos m t _ i]
      exact circ_pos_on_edge (ct i) hi (hone i hi).1 (hone i hi).2
    · push Not at hz
      have hin : In pos m t (pos v) := fun i => lt_of_le_of_ne (hcl i) (hz i).symm
      obtain ⟨k1, k2, k3⟩ := (in_iff pos m t _ 0).mp hin
      exact circ_pos_of_inside k2 k3 k1
  obtain ⟨g, hg⟩ := exists_in h.planar ht
  have mv : ∀ e, ∀ x ∈ live, ∀ k, moved pos v g e (m.vtx x k) = pos (m.vtx x k) :=
    fun e x hx k => moved_ne pos g e (hvt x hx k)
  obtain ⟨e0, he0, he1, hsm⟩ := exists_small_pairs
    ((live.filter fun T => 0 < circT pos m T (pos v)).toList.map fun T => (circT pos m T (pos v), circT pos m T g)) (by
      intro s hs
      rw [List.mem_map] at hs
      obtain ⟨T, hT, rfl⟩ := hs
      rw [Finset.mem_toList, Finset.mem_filter] at hT
      exact hT.2)
  have hgood : ∀ e, 0 < e → e ≤ e0 → ∀ T ∈ live, 0 < circT pos m T (pos v) →
      0 < circT (moved pos v g e) m T (moved pos v g e v) := by
    intro e k1 k2 T hT hc
    rw [circT_congr (mv e T hT), moved_self]
    have := hsm e k1 k2 (circT pos m T (pos v), circT pos m T g)
      (List.mem_map.mpr ⟨T, Finset.mem_toList.mpr (Finset.mem_filter.mpr ⟨hT, hc⟩), rfl⟩)
    simp only at this
    unfold circT at this ⊢
    rw [circ_lerp]
    have c := h.planar.ccw T hT
    have h2 : 0 ≤ e * (1 - e) * sqd (pos v) g * area (pos (m.vtx T 0)) (pos (m.vtx T 1)) (pos (m.vtx T 2)) :=
      mul_nonneg (mul_nonneg (mul_nonneg k1.le (by linarith)) (sqd_nonneg _ _)) c.le
    linarith
  have hin : ∀ e, 0 < e → e ≤ e0 → In (moved pos v g e) m t (moved pos v g e v) := by
    intro e k1 k2 i
    rw [mv e t ht, mv e t ht, moved_self, area_lerp]
    have := mul_pos k1 (hg i)
    have := mul_nonneg (show 0 ≤ 1 - e by linarith) (hcl i)
    linarith
  have run : ∀ e, 0 < e → e ≤ e0 → _ := fun e k1 k2 =>
    insert_run (good := fun T => 0 < circT pos m T (pos v)) (hgood e k1 k2) (planar_congr h.planar (mv e)) h.vp ht ha hb
      hab hvt (hin e k1 k2) o
  obtain ⟨c, cur, proc, tr, sz, ru, st', htp, clo, isg, cor, nd, sv, vtk, foot⟩ := run e0 he0 le_rfl
  have hpl : ∀ e, 0 < e → e ≤ e0 → Planar (moved pos v g e) (insert a (insert b live)) cur := by
    intro e k1 k2
    obtain ⟨c2, cur2, proc2, tr2, -, ru2, st2, -⟩ := run e k1 k2
    have hcc : c2 = c := by
      funext i
      exact isCT_unique h.planar _ _ _ _ _ (tr2 i) (tr i)
    rw [hcc, ru] at ru2
    have hcu : cur = cur2 := Except.ok.inj ru2
    rw [hcu]
    exact st2.planar
  have hinside : ∀ x ∈ proc, 0 < circT pos m x (pos v) := by
    intro x hx
    rcases isg x hx with rfl | hx
    · exact htgood
    · exact hx
  have hsplit : ∀ x ∈ insert a (insert b live), x ∈ insert a (insert b proc) ∨ (x ∈ live ∧ x ∉ proc) := by
    intro x hx
    simp only [Finset.mem_insert] at hx ⊢
    by_cases hp : x ∈ proc
    · exact Or.inl (Or.inr (Or.inr hp))
    · rcases hx with g | g | g
      · exact Or.inl (Or.inl g)
      · exact Or.inl (Or.inr (Or.inl g))
      · exact Or.inr ⟨g, hp⟩
  -- the point is strictly inside every link edge
  have hccw : ∀ x ∈ insert a (insert b live), 0 < area (pos (cur.vtx x 0)) (pos (cur.vtx x 1)) (pos (cur.vtx x 2)) := by
    intro x hx
    rcases hsplit x hx with hs | ⟨hl, hp⟩
    · obtain ⟨j, hj⟩ := st'.star x hs
      obtain ⟨y, hy, l, q1, q2⟩ := hj.inner
      have hyl := st'.sub hy
      have nb : cur.vtx x (j + 2) ≠ v := by
        rw [← q1]
        exact hvt y hyl _
      have na : cur.vtx x j ≠ v := by
        rw [← q2]
        exact hvt y hyl _
      rw [← ccw_edge j, hj.apex]
      have hge : 0 ≤ area (pos (cur.vtx x (j + 2))) (pos (cur.vtx x j)) (pos v) := by
        refine limit_nonneg (β := area (pos (cur.vtx x (j + 2))) (pos (cur.vtx x j)) g) he0 fun e k1 k2 => ?_
        have := (hpl e k1 k2).ccw x hx
        rw [← ccw_edge j, hj.apex, moved_self, moved_ne pos g e nb, moved_ne pos g e na, area_lerp] at this
        exact this
      refine lt_of_le_of_ne hge fun hz => ?_
      have hz := hz.symm
      have cy := h.planar.ccw y hyl
      rw [← ccw_edge l, q1, q2] at cy
      have iy := hinside y hy
      rw [circT_edge pos m y _ l, q1, q2] at iy
      obtain ⟨b1, b2⟩ := between_of_circ cy hz iy
      rcases hn : m.ngh y l with _ | z
      · have := hhull y hyl l hn
        rw [q1, q2, hz] at this
        exact lt_irrefl _ this
      · obtain ⟨hzl, k, -, f1, f2⟩ := h.planar.wf.twin y hyl _ _ hn
        refine clo x hs j hj.apex z hzl k (by rw [f2, q2]) (by rw [f1, q1]) ?_
        have cz := h.planar.ccw z hzl
        rw [← ccw_edge k, f1, f2, q1, q2] at cz
        show 0 < circT pos m z (pos v)
        rw [circT_edge pos m z _ k, f1, f2, q1, q2]
        refine circ_pos_on_edge cz ?_ ?_ ?_
        · rw [area_swap, hz]
          simp
        · have e := area_bary (pos (cur.vtx x (j + 2))) (pos (cur.vtx x j)) (pos (m.vtx y (l + 1)))
            (pos (cur.vtx x (j + 2))) (pos (m.vtx z (k + 1))) (pos v)
          rw [hz, area_self_left] at e
          have c2 : 0 < area (pos (cur.vtx x (j + 2))) (pos (m.vtx z (k + 1))) (pos (cur.vtx x j)) := by
            rw [area_rot]
            exact cz
          have := mul_pos b2 c2
          have h3 : 0 < area (pos (cur.vtx x (j + 2))) (pos (cur.vtx x j)) (pos (m.vtx y (l + 1))) *
              area (pos (cur.vtx x (j + 2))) (pos (m.vtx z (k + 1))) (pos v) := by linarith
          exact (pos_iff_pos_of_mul_pos h3).mp cy
        · have e := area_bary (pos (cur.vtx x (j + 2))) (pos (cur.vtx x j)) (pos (m.vtx y (l + 1)))
            (pos (m.vtx z (k + 1))) (pos (cur.vtx x j)) (pos v)
          rw [hz, area_self_right] at e
          have c2 : 0 < area (pos (m.vtx z (k + 1))) (pos (cur.vtx x j)) (pos (cur.vtx x (j + 2))) := by
            rw [area_rot']
            exact cz
          have := mul_pos b1 c2
          have h3 : 0 < area (pos (cur.vtx x (j + 2))) (pos (cur.vtx x j)) (pos (m.vtx y (l + 1))) *
              area (pos (m.vtx z (k + 1))) (pos (cur.vtx x j)) (pos v) := by linarith
          exact (pos_iff_pos_of_mul_pos h3).mp cy
    · rw [st'.old x hl hp, st'.old x hl hp, st'.old x hl hp]
      exact h.planar.ccw x hl
  have hplanar : Planar pos (insert a (insert b live)) cur := by
    refine ⟨st'.planar.wf, hccw, ?_, st'.planar.full⟩
    intro x hx y hy hxy z k1 k2
    obtain ⟨e1, a1, a2⟩ := in_limit (v := v) (st'.planar.wf.inj x hx) k1 g
    obtain ⟨e2, b1, b2⟩ := in_limit (v := v) (st'.planar.wf.inj y hy) k2 g
    have hp : 0 < min e0 (min e1 e2) := lt_min he0 (lt_min a1 b1)
    refine (hpl _ hp (min_le_left _ _)).disj x hx y hy hxy z (a2 _ hp ?_) (b2 _ hp ?_)
    · exact (min_le_right _ _).trans (min_le_left _ _)
    · exact (min_le_right _ _).trans (min_le_right _ _)
  have st : St pos live (insert v vs) m v a b cur proc :=
    ⟨hplanar, st'.vp, st'.sub, st'.old, st'.keep, hinside, st'.star, st'.cover⟩
  -- triangles outside the cavity do not touch the point
  have hbey : ∀ x ∈ live, x ∉ proc → 0 < circT pos m x (pos v) →
      ∃ i, area (pos (m.vtx x (i + 2))) (pos (m.vtx x i)) (pos v) < 0 := by
    intro x hx hxp hxc
    have hxt : x ≠ t := fun e => hxp (e ▸ htp)
    by_cases hz : ∃ i : Fin 3, area (pos (m.vtx t (i + 2))) (pos (m.vtx t i)) (pos v) = 0
    · obtain ⟨i, hi⟩ := hz
      rcases hn : m.ngh t i with _ | y
      · have := hhull t ht i hn
        rw [hi] at this
        exact absurd this (lt_irrefl _)
      · obtain ⟨hy, j, hj, f1, f2⟩ := h.planar.wf.twin _ ht _ _ hn
        obtain ⟨p1, p2⟩ := hone i hi
        -- the triangle across the edge through the point
        have cy := h.planar.ccw y hy
        rw [← ccw_edge j, f1, f2] at cy
        have y0 : area (pos (m.vtx t i)) (pos (m.vtx t (i + 2))) (pos v) = 0 := by
          rw [area_swap, hi]
          simp
        have y1 : 0 < area (pos (m.vtx t (i + 2))) (pos (m.vtx y (j + 1))) (pos v) := by
          have e := area_bary (pos (m.vtx t (i + 2))) (pos (m.vtx t i)) (pos (m.vtx t (i + 1)))
            (pos (m.vtx t (i + 2))) (pos (m.vtx y (j + 1))) (pos v)
          rw [hi, area_self_left] at e
          have c2 : 0 < area (pos (m.vtx t (i + 2))) (pos (m.vtx y (j + 1))) (pos (m.vtx t i)) := by
            rw [area_rot]
            exact cy
          have := mul_pos p2 c2
          have h3 : 0 < area (pos (m.vtx t (i + 2))) (pos (m.vtx t i)) (pos (m.vtx t (i + 1))) *
              area (pos (m.vtx t (i + 2))) (pos (m.vtx y (j + 1))) (pos v) := by linarith
          exact (pos_iff_pos_of_mul_pos h3).mp (ct i)
        have y2 : 0 < area (pos (m.vtx y (j + 1))) (pos (m.vtx t i)) (pos v) := by
          have e := area_bary (pos (m.vtx t (i + 2))) (pos (m.vtx t i)) (pos (m.vtx t (i + 1)))
            (pos (m.vtx y (j + 1))) (pos (m.vtx t i)) (pos v)
          rw [hi, area_self_right] at e
          have c2 : 0 < area (pos (m.vtx y (j + 1))) (pos (m.vtx t i)) (pos (m.vtx t (i + 2))) := by
            rw [area_rot']
            exact cy
          have := mul_pos p1 c2
          have h3 : 0 < area (pos (m.vtx t (i + 2))) (pos (m.vtx t i)) (pos (m.vtx t (i + 1))) *
              area (pos (m.vtx y (j + 1))) (pos (m.vtx t i)) (pos v) := by linarith
          exact (pos_iff_pos_of_mul_pos h3).mp (ct i)
        have hyg : 0 < circT pos m y (pos v) := by
          rw [circT_edge pos m y _ j, f1, f2]
          exact circ_pos_on_edge cy y0 y1 y2
        have hyp : y ∈ proc := by
          rcases st.cover t htp i with ⟨z, hz, l, q1, q2⟩ | ⟨s, hs, k, q1, q2, q3⟩
          · have : z = y := h.planar.own (st.sub hz) hy (i := l) (j := j) (by rw [q2, f2]) (by rw [q1, f1])
            exact this ▸ hz
          · exact absurd hyg (clo s hs k q1 y hy j (by rw [q3, f2]) (by rw [q2, f1]))
        have hxy : x ≠ y := fun e => hxp (e ▸ hyp)
        by_contra hno
        push Not at hno
        -- points of `x` close to the point lie in `t` or in `y`
        have near : ∀ g', In pos m x g' → area (pos (m.vtx t (i + 2))) (pos (m.vtx t i)) g' ≠ 0 → False := by
          intro g' hg' hside
          have inx : ∀ e, 0 < e → e < 1 → In pos m x (lerp (pos v) g' e) := by
            intro e k1 k2 k
            rw [area_lerp]
            have := mul_nonneg (show 0 ≤ 1 - e by linarith) (hno k)
            have := mul_pos k1 (hg' k)
            linarith
          rcases lt_or_gt_of_ne hside with hlt | hgt
          · obtain ⟨e, k1, k2, k3⟩ := exists_small (pos v) g'
              [(pos (m.vtx t (i + 2)), pos (m.vtx y (j + 1))), (pos (m.vtx y (j + 1)), pos (m.vtx t i))] (by
                intro s hs
                simp only [List.mem_cons, List.not_mem_nil, or_false] at hs
                rcases hs with rfl | rfl
                · exact y1
                · exact y2)
            refine h.planar.disj x hx y hy hxy _ (inx e k1 k2) ((in_iff pos m y _ j).mpr ?_)
            rw [f1, f2]
            refine ⟨?_, k3 e k1 le_rfl (_, _) (by simp), k3 e k1 le_rfl (_, _) (by simp)⟩
            rw [area_lerp, y0, area_swap]
            have := mul_pos k1 (neg_pos.mpr hlt)
            linarith
          · obtain ⟨e, k1, k2, k3⟩ := exists_small (pos v) g'
              [(pos (m.vtx t i), pos (m.vtx t (i + 1))), (pos (m.vtx t (i + 1)), pos (m.vtx t (i + 2)))] (by
                intro s hs
                simp only [List.mem_cons, List.not_mem_nil, or_false] at hs
                rcases hs with rfl | rfl
                · exact p1
                · exact p2)
            refine h.planar.disj x hx t ht hxt _ (inx e k1 k2) ((in_iff pos m t _ i).mpr ?_)
            refine ⟨?_, k3 e k1 le_rfl (_, _) (by simp), k3 e k1 le_rfl (_, _) (by simp)⟩
            rw [area_lerp, hi]
            have := mul_pos k1 hgt
            linarith
        obtain ⟨g', hg'⟩ := exists_in h.planar hx
        by_cases hside : area (pos (m.vtx t (i + 2))) (pos (m.vtx t i)) g' = 0
        · obtain ⟨e, k1, k2, k3⟩ := exists_small g' (pos (m.vtx t (i + 1))) (edges pos m x)
            ((in_edges pos m x g').mp hg')
          refine near (lerp g' (pos (m.vtx t (i + 1))) e) ((in_edges pos m x _).mpr (k3 e k1 le_rfl)) ?_
          rw [area_lerp, hside]
          have := mul_pos k1 (ct i)
          exact ne_of_gt (by linarith)
        · exact near g' hg' hside
    · push Not at hz
      exact outside_other h.planar ht (fun i => lt_of_le_of_ne (hcl i) (hz i).symm) hx hxt
  have hhull' : ∀ x ∈ live, ∀ i, m.ngh x i = none → 0 ≤ area (pos (m.vtx x (i + 2))) (pos (m.vtx x i)) (pos v) :=
    fun x hx i hn => (hhull x hx i hn).le
  refine ⟨c, cur, proc, tr, sz, ru, st, clo, ?_, cor, nd, sv, vtk, foot, st.dmesh h hbey hhull' clo⟩
  intro y hy
  refine ⟨hinside y, fun hc => ?_⟩
  by_contra hp
  exact absurd hc (not_lt.mpr (complete h st hbey hhull' clo y hy hp))

end

end Verif.Delaunay
