import Verif.Gift.Geo
import Verif.QHull.ParLoop

set_option linter.unusedSectionVars false
set_option linter.unusedVariables false

/-!
The facets that pivoting finds: the first one, and the one on the other side of an edge.
-/

namespace Verif.Gift

open Verif Verif.Hull3d Verif.QHull

/-- The point with an index. -/
def at' (P : List (P3 ℝ)) (i : ℕ) : P3 ℝ := P.getD i 0

/-- Inputs in general position. -/
structure General (P : List (P3 ℝ)) : Prop where
  nodup : P.Nodup
  four : 4 ≤ P.length
  gen : GenPos 0 P

variable {P : List (P3 ℝ)}

theorem at_mem {i : ℕ} (h : i < P.length) : at' P i ∈ P := by
  unfold at'
  rw [List.getD_eq_getElem _ _ h]
  exact List.getElem_mem h

theorem at_inj (hn : P.Nodup) {i j : ℕ} (hi : i < P.length) (hj : j < P.length) (h : at' P i = at' P j) : i = j := by
  unfold at' at h
  rw [List.getD_eq_getElem _ _ hi, List.getD_eq_getElem _ _ hj] at h
  exact hn.getElem_inj_iff.mp h

theorem at_surj {p : P3 ℝ} (h : p ∈ P) : ∃ i < P.length, p = at' P i := by
  obtain ⟨i, hi, rfl⟩ := List.getElem_of_mem h
  refine ⟨i, hi, ?_⟩
  unfold at'
  rw [List.getD_eq_getElem _ _ hi]

/-- A supporting triangle, oriented with all points on its negative side, seen from which the origin is on the negative side. -/
structure Ok3 (P : List (P3 ℝ)) (x y z : ℕ) : Prop where
  lx : x < P.length
  ly : y < P.length
  lz : z < P.length
  det : det3 (at' P x) (at' P y) (at' P z) < 0
  sup : ∀ p ∈ P, sv (at' P x) (at' P y) (at' P z) p ≤ 0

theorem Ok3.cyc {x y z : ℕ} (h : Ok3 P x y z) : Ok3 P y z x :=
  ⟨h.ly, h.lz, h.lx, by rw [det3_cyc]; exact h.det, fun p hp => by rw [sv_cyc]; exact h.sup p hp⟩

theorem Ok3.ne {x y z : ℕ} (h : Ok3 P x y z) : x ≠ y ∧ y ≠ z ∧ z ≠ x := by
  have hd := h.det
  refine ⟨?_, ?_, ?_⟩
  · rintro rfl; rw [det3_same] at hd; exact lt_irrefl _ hd
  · rintro rfl; rw [det3_same'] at hd; exact lt_irrefl _ hd
  · rintro rfl; rw [det3_same''] at hd; exact lt_irrefl _ hd

theorem General.vol_ne (hg : General P) {i j k l : ℕ} (hi : i < P.length) (hj : j < P.length) (hk : k < P.length) (hl : l < P.length)
    (n1 : i ≠ j) (n2 : i ≠ k) (n3 : i ≠ l) (n4 : j ≠ k) (n5 : j ≠ l) (n6 : k ≠ l) :
    sv (at' P i) (at' P j) (at' P k) (at' P l) ≠ 0 := by
  have ne : ∀ {i j}, i < P.length → j < P.length → i ≠ j → at' P i ≠ at' P j := fun hi hj h he => h (at_inj hg.nodup hi hj he)
  have := hg.gen.vol _ (at_mem hi) _ (at_mem hj) _ (at_mem hk) _ (at_mem hl) (ne hi hj n1) (ne hi hk n2) (ne hi hl n3) (ne hj hk n4)
    (ne hj hl n5) (ne hk hl n6)
  exact abs_pos.mp this

theorem General.det_ne (hg : General P) {i j k : ℕ} (hi : i < P.length) (hj : j < P.length) (hk : k < P.length)
    (n1 : i ≠ j) (n2 : i ≠ k) (n4 : j ≠ k) : det3 (at' P i) (at' P j) (at' P k) ≠ 0 := by
  have ne : ∀ {i j}, i < P.length → j < P.length → i ≠ j → at' P i ≠ at' P j := fun hi hj h he => h (at_inj hg.nodup hi hj he)
  exact abs_pos.mp (hg.gen.det _ (at_mem hi) _ (at_mem hj) _ (at_mem hk) (ne hi hj n1) (ne hi hk n2) (ne hj hk n4))

theorem General.other (hg : General P) (x y z : ℕ) : ∃ l < P.length, l ≠ x ∧ l ≠ y ∧ l ≠ z := by
  have h4 := hg.four
  by_contra hc
  push Not at hc
  have h0 := hc 0 (by omega)
  have h1 := hc 1 (by omega)
  have h2 := hc 2 (by omega)
  have h3 := hc 3 (by omega)
  by_cases a0 : 0 = x <;> by_cases a1 : 0 = y <;> by_cases b0 : 1 = x <;> by_cases b1 : 1 = y <;> by_cases c0 : 2 = x <;>
    by_cases c1 : 2 = y <;> by_cases d0 : 3 = x <;> by_cases d1 : 3 = y <;> omega

/-- Two supporting triangles with a common directed edge are the same. -/
theorem Ok3.uniq (hg : General P) {x y z w : ℕ} (h1 : Ok3 P x y z) (h2 : Ok3 P x y w) : z = w := by
  by_contra hn
  obtain ⟨a1, a2, a3⟩ := h1.ne
  obtain ⟨b1, b2, b3⟩ := h2.ne
  have s1 := h1.sup _ (at_mem h2.lz)
  have s2 := h2.sup _ (at_mem h1.lz)
  rw [sv_swap_last] at s2
  exact hg.vol_ne h1.lx h1.ly h1.lz h2.lz a1 a3.symm b3.symm a2 b2 hn (by linarith)

/-- If the origin is in the hull, a supporting plane has it on the side of the points. -/
theorem sup_origin (h0 : (0 : P3 ℝ) ∈ convexHull ℝ {p | p ∈ P}) {a b c : P3 ℝ} (h : ∀ p ∈ P, sv a b c p ≤ 0) : det3 a b c ≤ 0 := by
  have hsub : convexHull ℝ {p | p ∈ P} ⊆ {p | 0 ≤ vol a b c p} := by
    refine convexHull_min ?_ ?_
    · intro p hp
      have := h p hp
      simp only [Set.mem_ofPred_eq]
      rw [vol_sv]
      linarith
    · intro x hx y hy s t hs ht hst
      simp only [Set.mem_ofPred_eq] at hx hy ⊢
      rw [vol_affine4 _ _ _ _ _ _ _ hst]
      positivity
  have := hsub h0
  simp only [Set.mem_ofPred_eq] at this
  rw [vol_sv, sv_zero] at this
  linarith

/-- The facet on the other side of an edge. -/
theorem pivot_ok (hg : General P) (h0 : (0 : P3 ℝ) ∈ convexHull ℝ {p | p ∈ P}) {pick : (ℕ → ℝ) → ℕ} (hp : PickOk P.length pick) {x y z : ℕ}
    (h : Ok3 P x y z) : Ok3 P x (pivot pick (at' P) (at' P y) (at' P x) (at' P z)) y := by
  set q := pivot pick (at' P) (at' P y) (at' P x) (at' P z) with hq
  obtain ⟨hqn, hqmax⟩ := hp fun i => facetAngle (at' P y) (at' P x) (at' P z) (at' P i)
  change q < _ at hqn
  change ∀ i < P.length, _ ≤ facetAngle (at' P y) (at' P x) (at' P z) (at' P q) at hqmax
  obtain ⟨n1, n2, n3⟩ := h.ne
  obtain ⟨l, hl, l1, l2, l3⟩ := hg.other x y z
  have hv : ∀ p, vol (at' P y) (at' P x) (at' P z) p = sv (at' P x) (at' P y) (at' P z) p := by
    intro p; rw [vol_sv, sv_swap, neg_neg]
  have hpos : 0 < facetAngle (at' P y) (at' P x) (at' P z) (at' P q) := by
    refine lt_of_lt_of_le (angle_pos (c := at' P l) ?_) (hqmax l hl)
    rw [hv]
    exact hg.vol_ne h.lx h.ly h.lz hl n1 n3.symm l1.symm n2 l2.symm l3.symm
  have hsup : ∀ p ∈ P, sv (at' P x) (at' P q) (at' P y) p ≤ 0 := by
    intro p hp'
    obtain ⟨i, hi, rfl⟩ := at_surj hp'
    have := pivot_nonpos hpos (hqmax i hi) (by rw [hv]; exact h.sup _ (at_mem hqn)) (by rw [hv]; exact h.sup _ (at_mem hi))
    rw [vol_sv, ← sv_cyc] at this
    linarith
  have hproper := (angle_proper hpos).2
  have qx : q ≠ x := by
    intro he
    rw [he, nrm_self'] at hproper
    exact lt_irrefl _ hproper
  have qy : q ≠ y := by
    intro he
    rw [he, nrm_self] at hproper
    exact lt_irrefl _ hproper
  refine ⟨h.lx, hqn, h.ly, lt_of_le_of_ne (sup_origin h0 hsup) (hg.det_ne h.lx hqn h.ly qx.symm n1 qy), hsup⟩

theorem mkFc_ok {x q y : ℕ} (h : Ok3 P x q y) : mkFc (at' P) y q x = ⟨x, q, y⟩ := by
  unfold mkFc
  rw [if_pos]
  have := h.det
  have e : det3 (at' P y) (at' P q) (at' P x) = -det3 (at' P x) (at' P q) (at' P y) := by
    unfold det3; ring
  linarith

/-- A vector orthogonal to three independent ones vanishes. -/
theorem normal_zero (a b c d : P3 ℝ) (n0 n1 n2 : ℝ) (hb : n0 * (b 0 - a 0) + n1 * (b 1 - a 1) + n2 * (b 2 - a 2) = 0)
    (hc : n0 * (c 0 - a 0) + n1 * (c 1 - a 1) + n2 * (c 2 - a 2) = 0)
    (hd : n0 * (d 0 - a 0) + n1 * (d 1 - a 1) + n2 * (d 2 - a 2) = 0) (hv : vol a b c d ≠ 0) : n0 = 0 ∧ n1 = 0 ∧ n2 = 0 := by
  have e : n0 * vol a b c d = 0 ∧ n1 * vol a b c d = 0 ∧ n2 * vol a b c d = 0 := by
    unfold vol
    refine ⟨?_, ?_, ?_⟩
    · linear_combination ((c 1 - a 1) * (d 2 - a 2) - (c 2 - a 2) * (d 1 - a 1)) * hb +
        ((d 1 - a 1) * (b 2 - a 2) - (d 2 - a 2) * (b 1 - a 1)) * hc + ((b 1 - a 1) * (c 2 - a 2) - (b 2 - a 2) * (c 1 - a 1)) * hd
    · linear_combination ((c 2 - a 2) * (d 0 - a 0) - (c 0 - a 0) * (d 2 - a 2)) * hb +
        ((d 2 - a 2) * (b 0 - a 0) - (d 0 - a 0) * (b 2 - a 2)) * hc + ((b 2 - a 2) * (c 0 - a 0) - (b 0 - a 0) * (c 2 - a 2)) * hd
    · linear_combination ((c 0 - a 0) * (d 1 - a 1) - (c 1 - a 1) * (d 0 - a 0)) * hb +
        ((d 0 - a 0) * (b 1 - a 1) - (d 1 - a 1) * (b 0 - a 0)) * hc + ((b 0 - a 0) * (c 1 - a 1) - (b 1 - a 1) * (c 0 - a 0)) * hd
  exact ⟨(mul_eq_zero.mp e.1).resolve_right hv, (mul_eq_zero.mp e.2.1).resolve_right hv, (mul_eq_zero.mp e.2.2).resolve_right hv⟩

theorem General.others (hg : General P) (x : ℕ) : ∃ i < P.length, ∃ j < P.length, ∃ k < P.length,
    x ≠ i ∧ x ≠ j ∧ x ≠ k ∧ i ≠ j ∧ i ≠ k ∧ j ≠ k := by
  obtain ⟨i, hi, a1, _⟩ := hg.other x x x
  obtain ⟨j, hj, b1, b2, _⟩ := hg.other x i i
  obtain ⟨k, hk, c1, c2, c3⟩ := hg.other x i j
  exact ⟨i, hi, j, hj, k, hk, a1.symm, b1.symm, c1.symm, b2.symm, c2.symm, c3.symm⟩

/-- The first three points span a supporting plane. -/
theorem first_ok (hg : General P) {low pick : (ℕ → ℝ) → ℕ} (hl : LowOk P.length low) (hp : PickOk P.length pick) {p1 p2 p3 : ℕ}
    (he : firstThree low pick (at' P) = (p1, p2, p3)) : p1 < P.length ∧ p2 < P.length ∧ p3 < P.length ∧ p1 ≠ p2 ∧ p1 ≠ p3 ∧ p2 ≠ p3 ∧
      (∀ p ∈ P, at' P p1 0 ≤ p 0) ∧ ∀ p ∈ P, 0 ≤ sv (at' P p1) (at' P p2) (at' P p3) p := by
  unfold firstThree at he
  simp only [Prod.mk.injEq] at he
  obtain ⟨e1, e2, e3⟩ := he
  obtain ⟨l1, l2⟩ := hl fun i => at' P i 0
  rw [e1] at l1 l2 e2 e3
  set q1 : P3 ℝ := fun k => if k = 1 then at' P p1 k + 1 else at' P p1 k with hq1
  set q2 : P3 ℝ := fun k => if k = 2 then at' P p1 k + 1 else at' P p1 k with hq2
  rw [e2] at e3
  have x0 : q1 0 = at' P p1 0 ∧ q1 1 = at' P p1 1 + 1 ∧ q1 2 = at' P p1 2 := by rw [hq1]; simp
  have y0 : q2 0 = at' P p1 0 ∧ q2 1 = at' P p1 1 ∧ q2 2 = at' P p1 2 + 1 := by rw [hq2]; simp
  obtain ⟨a1, a2⟩ := hp fun i => facetAngle (at' P p1) q1 q2 (at' P i)
  have e2' : (pick fun i => facetAngle (at' P p1) q1 q2 (at' P i)) = p2 := e2
  rw [e2'] at a1 a2
  obtain ⟨b1, b2⟩ := hp fun i => facetAngle (at' P p1) (at' P p2) q1 (at' P i)
  have e3' : (pick fun i => facetAngle (at' P p1) (at' P p2) q1 (at' P i)) = p3 := e3
  rw [e3'] at b1 b2
  have v1 : ∀ p, vol (at' P p1) q1 q2 p = p 0 - at' P p1 0 := by
    intro p; unfold vol; rw [x0.1, x0.2.1, x0.2.2, y0.1, y0.2.1, y0.2.2]; ring
  -- some point is not in the first plane
  have pos1 : 0 < facetAngle (at' P p1) q1 q2 (at' P p2) := by
    obtain ⟨i, hi, j, hj, k, hk, n1, n2, n3, n4, n5, n6⟩ := hg.others p1
    have hv := hg.vol_ne l1 hi hj hk n1 n2 n3 n4 n5 n6
    by_contra hn
    have zero : ∀ m < P.length, vol (at' P p1) q1 q2 (at' P m) = 0 := by
      intro m hm
      by_contra h0
      exact hn (lt_of_lt_of_le (angle_pos h0) (a2 m hm))
    have z1 := zero i hi
    have z2 := zero j hj
    have z3 := zero k hk
    rw [v1] at z1 z2 z3
    have := normal_zero (at' P p1) (at' P i) (at' P j) (at' P k) 1 0 0 (by linarith) (by linarith) (by linarith)
      (by rw [vol_sv]; exact neg_ne_zero.mpr hv)
    simp at this
  have s1 : ∀ m < P.length, 0 ≤ vol (at' P p1) q1 q2 (at' P m) := by
    intro m hm
    rw [v1]
    have := l2 m hm
    linarith
  have v2 : ∀ m < P.length, 0 ≤ vol (at' P p1) (at' P p2) q1 (at' P m) := by
    intro m hm
    have := pivot_nonneg pos1 (a2 m hm) (s1 p2 a1) (s1 m hm)
    rw [vol_swap]
    linarith
  have pr1 := (angle_proper pos1).2
  have n12 : p1 ≠ p2 := by
    intro he
    rw [← he, nrm_self] at pr1
    exact lt_irrefl _ pr1
  have pos2 : 0 < facetAngle (at' P p1) (at' P p2) q1 (at' P p3) := by
    obtain ⟨i, hi, c1, c2, _⟩ := hg.other p1 p2 p2
    obtain ⟨j, hj, d1, d2, d3⟩ := hg.other p1 p2 i
    have hv := hg.vol_ne l1 a1 hi hj n12 c1.symm d1.symm c2.symm d2.symm d3.symm
    by_contra hn
    have zero : ∀ m < P.length, vol (at' P p1) (at' P p2) q1 (at' P m) = 0 := by
      intro m hm
      by_contra h0
      exact hn (lt_of_lt_of_le (angle_pos h0) (b2 m hm))
    have z0 := zero p2 a1
    have z1 := zero i hi
    have z2 := zero j hj
    have ex : ∀ p, vol (at' P p1) (at' P p2) q1 p = -(at' P p2 2 - at' P p1 2) * (p 0 - at' P p1 0) +
        0 * (p 1 - at' P p1 1) + (at' P p2 0 - at' P p1 0) * (p 2 - at' P p1 2) := by
      intro p; unfold vol; rw [x0.1, x0.2.1, x0.2.2]; ring
    rw [ex] at z0 z1 z2
    obtain ⟨t1, _, t2⟩ := normal_zero (at' P p1) (at' P p2) (at' P i) (at' P j) _ _ _ z0 z1 z2
      (by rw [vol_sv]; exact neg_ne_zero.mpr hv)
    rw [dot3, nrm0, nrm1, nrm2, x0.1, x0.2.1, x0.2.2, t2] at pr1
    have t1' : at' P p2 2 - at' P p1 2 = 0 := by linarith
    rw [t1'] at pr1
    simp at pr1
  have pr2 := (angle_proper pos2).2
  refine ⟨l1, a1, b1, n12, ?_, ?_, ?_, ?_⟩
  · intro he
    rw [← he, nrm_self] at pr2
    exact lt_irrefl _ pr2
  · intro he
    rw [← he, nrm_self'] at pr2
    exact lt_irrefl _ pr2
  · intro p hp'
    obtain ⟨i, hi, rfl⟩ := at_surj hp'
    exact l2 i hi
  · intro p hp'
    obtain ⟨i, hi, rfl⟩ := at_surj hp'
    have := pivot_nonneg pos2 (b2 i hi) (v2 p3 b1) (v2 i hi)
    rw [vol_sv] at this
    linarith

end Verif.Gift
