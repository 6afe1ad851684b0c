import Verif.QHull.PseudoLemmas

set_option linter.unusedSectionVars false
set_option linter.unusedVariables false

/-!
The first simplex of the pseudo hull, and the whole filter.
-/

namespace Verif.QHull

open Verif Verif.Hull3d

variable {K : Type} [Field K] [LinearOrder K] [IsStrictOrderedRing K]
variable {P : List (P3 K)}

/-- The points do not all lie in one plane. -/
def Solid (P : List (P3 K)) : Prop := ∃ a ∈ P, ∃ b ∈ P, ∃ c ∈ P, ∃ d ∈ P, sv a b c d ≠ 0

theorem Solid.ne (h : Solid P) : P ≠ [] := by
  rintro rfl
  obtain ⟨a, ha, _⟩ := h
  simp at ha

theorem Solid.spread (h : Solid P) (k : Fin 3) : ∃ x ∈ P, ∃ y ∈ P, argmax (fun p => -p k) P = some x ∧
    argmax (fun p => p k) P = some y ∧ x ≠ y := by
  obtain ⟨x, hx, ex, mx⟩ := argmax_spec (fun p => -p k) h.ne
  obtain ⟨y, hy, ey, my⟩ := argmax_spec (fun p => p k) h.ne
  refine ⟨x, hx, y, hy, ex, ey, ?_⟩
  rintro rfl
  obtain ⟨a, ha, b, hb, c, hc, d, hd, h0⟩ := h
  have heq : ∀ q ∈ P, q k = x k := fun q hq => le_antisymm (my q hq) (neg_le_neg_iff.mp (mx q hq))
  exact h0 (sv_flat k a b c d ((heq b hb).trans (heq a ha).symm) ((heq c hc).trans (heq a ha).symm)
    ((heq d hd).trans (heq a ha).symm))

theorem Solid.extremes (h : Solid P) : ∃ x ∈ P, ∃ y ∈ P, extremes P = some (x, y) ∧ x ≠ y := by
  obtain ⟨x0, hx0, x1, hx1, e1, e2, n0⟩ := h.spread 0
  obtain ⟨y0, hy0, y1, hy1, e3, e4, n1⟩ := h.spread 1
  obtain ⟨z0, hz0, z1, hz1, e5, e6, n2⟩ := h.spread 2
  unfold QHull.extremes
  simp only [e1, e2, e3, e4, e5, e6]
  split
  · exact ⟨x0, hx0, x1, hx1, rfl, n0⟩
  · split
    · exact ⟨y0, hy0, y1, hy1, rfl, n1⟩
    · exact ⟨z0, hz0, z1, hz1, rfl, n2⟩

/-- A point on the line through two different points. -/
theorem on_line {x1 x2 q : P3 K} (hne : x1 ≠ x2) (h : ∀ i, cross3 (fun i => x1 i - q i) (fun i => x2 i - q i) i = 0) :
    ∃ t : K, ∀ i, q i = x1 i + t * (x2 i - x1 i) := by
  have c0 := h 0
  have c1 := h 1
  have c2 := h 2
  simp only [cross3] at c0 c1 c2
  rw [if_neg (by decide), if_neg (by decide)] at c2
  norm_num at c0 c1
  obtain ⟨k, hk⟩ : ∃ k, x1 k ≠ x2 k := by
    by_contra hcon
    push Not at hcon
    exact hne (funext hcon)
  have hk' : x2 k - x1 k ≠ 0 := sub_ne_zero.mpr hk.symm
  refine ⟨(q k - x1 k) / (x2 k - x1 k), fun i => ?_⟩
  have key : (q i - x1 i) * (x2 k - x1 k) = (q k - x1 k) * (x2 i - x1 i) := by
    fin_cases k <;> fin_cases i <;> simp <;> linarith
  rw [div_mul_eq_mul_div, ← key, mul_div_assoc, div_self hk']
  ring

theorem sv_line {x u a b c d : P3 K} (ha : ∃ t : K, ∀ i, a i = x i + t * u i) (hb : ∃ t : K, ∀ i, b i = x i + t * u i)
    (hc : ∃ t : K, ∀ i, c i = x i + t * u i) : sv a b c d = 0 := by
  obtain ⟨r, hr⟩ := ha
  obtain ⟨s, hs⟩ := hb
  obtain ⟨t, ht⟩ := hc
  rw [sv_poly]
  simp only [hr, hs, ht]
  ring

/-- The corners of the first simplex are not in one plane. -/
theorem Solid.corners (h : Solid P) : ∃ a ∈ P, ∃ b ∈ P, ∃ c ∈ P, ∃ d ∈ P, corners P = some (a, b, c, d) ∧ sv a b c d ≠ 0 := by
  obtain ⟨x1, hx1, x2, hx2, he, hne⟩ := h.extremes
  obtain ⟨y, hy, ey, my⟩ := argmax_spec (P := P) (fun p => dot (cross3 (fun i => x1 i - p i) fun i => x2 i - p i)
    (cross3 (fun i => x1 i - p i) fun i => x2 i - p i)) h.ne
  obtain ⟨z, hz, ez, mz⟩ := argmax_spec (P := P)
    (fun p => |dot (fun i => y i - p i) (cross3 (fun i => x1 i - y i) fun i => x2 i - y i)|) h.ne
  simp only [sv_cross] at mz
  have hoff : ¬ ∀ i, cross3 (fun i => x1 i - y i) (fun i => x2 i - y i) i = 0 := by
    intro h0
    have hall : ∀ q ∈ P, ∃ t : K, ∀ i, q i = x1 i + t * (x2 i - x1 i) := by
      intro q hq
      refine on_line hne (dot_self_zero _ ((my q hq).trans ?_))
      rw [dot3, h0 0, h0 1, h0 2]
      simp
    obtain ⟨a, ha, b, hb, c, hc, d, hd, hv⟩ := h
    exact hv (sv_line (hall a ha) (hall b hb) (hall c hc))
  -- the plane of the three corners does not contain all points
  have hz0 : sv x1 x2 y z ≠ 0 := by
    intro h0
    have hall : ∀ q ∈ P, sv x1 x2 y q = 0 := by
      intro q hq
      have := mz q hq
      rw [h0, abs_zero] at this
      exact abs_eq_zero.mp (le_antisymm this (abs_nonneg _))
    obtain ⟨a, ha, b, hb, c, hc, d, hd, hv⟩ := h
    obtain ⟨i, hi⟩ := not_forall.mp hoff
    -- the normal
    set n : P3 K := cross3 (fun i => x1 i - y i) (fun i => x2 i - y i) with hn
    have lin : ∀ q ∈ P, n 0 * (y 0 - q 0) + n 1 * (y 1 - q 1) + n 2 * (y 2 - q 2) = 0 := by
      intro q hq
      have := hall q hq
      rw [← sv_cross, dot3] at this
      linarith
    have la := lin a ha
    have lb := lin b hb
    have lc := lin c hc
    have ld := lin d hd
    have h1 : n 0 * (b 0 - a 0) + n 1 * (b 1 - a 1) + n 2 * (b 2 - a 2) = 0 := by linarith
    have h2 : n 0 * (c 0 - a 0) + n 1 * (c 1 - a 1) + n 2 * (c 2 - a 2) = 0 := by linarith
    have h3 : n 0 * (a 0 - d 0) + n 1 * (a 1 - d 1) + n 2 * (a 2 - d 2) = 0 := by linarith
    apply hv
    have hm : n i * sv a b c d = 0 := by
      rw [sv_poly]
      fin_cases i
      · show n 0 * _ = 0
        linear_combination (((b 1 - a 1) * (c 2 - a 2) - (b 2 - a 2) * (c 1 - a 1))) * h3 +
          ((a 1 - d 1) * (-(c 2 - a 2)) + (a 2 - d 2) * (c 1 - a 1)) * h1 +
          ((a 1 - d 1) * (b 2 - a 2) - (a 2 - d 2) * (b 1 - a 1)) * h2
      · show n 1 * _ = 0
        linear_combination (((b 2 - a 2) * (c 0 - a 0) - (b 0 - a 0) * (c 2 - a 2))) * h3 +
          ((a 0 - d 0) * (c 2 - a 2) - (a 2 - d 2) * (c 0 - a 0)) * h1 +
          ((a 2 - d 2) * (b 0 - a 0) - (a 0 - d 0) * (b 2 - a 2)) * h2
      · show n 2 * _ = 0
        linear_combination (((b 0 - a 0) * (c 1 - a 1) - (b 1 - a 1) * (c 0 - a 0))) * h3 +
          ((a 1 - d 1) * (c 0 - a 0) - (a 0 - d 0) * (c 1 - a 1)) * h1 +
          ((a 0 - d 0) * (b 1 - a 1) - (a 1 - d 1) * (b 0 - a 0)) * h2
    exact (mul_eq_zero.mp hm).resolve_left hi
  refine ⟨x1, hx1, x2, hx2, y, hy, z, hz, ?_, hz0⟩
  unfold QHull.corners
  rw [he]
  simp only [Option.bind_some]
  rw [ey]
  simp only [Option.bind_some]
  rw [ez]
  rfl

/-- Inputs on which the filter works: no point twice, not all in one plane, and four points that are not in one plane span a volume
(of the parallelepiped) of more than `4 knob`. -/
structure PseudoInput (knob : K) (P : List (P3 K)) : Prop where
  nn : 0 ≤ knob
  nodup : P.Nodup
  solid : Solid P
  sep : ∀ a ∈ P, ∀ b ∈ P, ∀ c ∈ P, ∀ d ∈ P, sv a b c d ≠ 0 → 4 * knob < |sv a b c d|

theorem PseudoInput.toSep {knob : K} (h : PseudoInput knob P) : Sep knob {p | p ∈ P} := by
  intro a ha b hb c hc d hd
  by_cases h0 : sv a b c d ≤ 0
  · exact Or.inl h0
  · right
    rw [not_le] at h0
    have := h.sep a ha b hb c hc d hd h0.ne'
    rw [abs_of_pos h0] at this
    have := h.nn
    linarith

theorem facet_out {knob : K} (hk : 0 ≤ knob) {x y z w o : P3 K} (ho : sv x y z o = sv x y z w / 4) (hv : 4 * knob < |sv x y z w|) :
    ∃ g : PF K, mkPF knob (tr o x) (tr o y) (tr o z) = g ∧ ∃ s : K, (s = 1 ∨ s = -1) ∧
      (∀ p, sv g.a g.b g.c (tr o p) = s * sv x y z p) ∧ s * sv x y z w < 0 ∧
      ∀ v, IsC g v ↔ v = tr o x ∨ v = tr o y ∨ v = tr o z := by
  refine ⟨_, rfl, ?_⟩
  unfold mkPF
  rw [det_tr, ho]
  split
  · rename_i h
    refine ⟨-1, Or.inr rfl, ?_, by linarith, ?_⟩
    · intro p
      simp only [sv_tr]
      simp only [sv_poly]; ring
    · intro v
      unfold IsC
      simp only
      tauto
  · rename_i h
    refine ⟨1, Or.inl rfl, ?_, ?_, fun v => Iff.rfl⟩
    · intro p
      simp only [sv_tr, one_mul]
    · rw [one_mul]
      rcases lt_abs.mp hv with h1 | h1
      · exact absurd (by linarith) h
      · linarith

/-- A point on the inner side of the four faces. -/
theorem mem_tetra' {C : Set (P3 K)} (hC : Convex K C) {a b c d p : P3 K} (ha : a ∈ C) (hb : b ∈ C) (hc : c ∈ C) (hd : d ∈ C)
    (hV : sv a b c d ≠ 0) (h1 : 0 ≤ sv a b c p * sv a b c d) (h2 : 0 ≤ sv a b d p * sv a b d c)
    (h3 : 0 ≤ sv c d b p * sv c d b a) (h4 : 0 ≤ sv c d a p * sv c d a b) : p ∈ C := by
  have e2 : sv a b d c = -sv a b c d := by simp only [sv_poly]; ring
  have e3 : sv c d b a = -sv a b c d := by simp only [sv_poly]; ring
  have e4 : sv c d a b = sv a b c d := by simp only [sv_poly]; ring
  rw [e2] at h2
  rw [e3] at h3
  rw [e4] at h4
  have hs : sv c d b p * -1 + sv c d a p + sv a b d p * -1 + sv a b c p = sv a b c d := by
    simp only [sv_poly]; ring
  have hp : ∀ i, sv a b c d * p i = -sv c d b p * a i + sv c d a p * b i + -sv a b d p * c i + sv a b c p * d i := by
    intro i
    simp only [sv_poly]
    fin_cases i <;> simp <;> ring
  generalize sv a b c d = V at *
  generalize sv c d b p = A at *
  generalize sv c d a p = B at *
  generalize sv a b d p = G at *
  generalize sv a b c p = D at *
  have hV2 : 0 < V * V := mul_self_pos.mpr hV
  refine convex4 hC ha hb hc hd (w1 := A * -V / (V * V)) (w2 := B * V / (V * V)) (w3 := G * -V / (V * V)) (w4 := D * V / (V * V))
    (div_nonneg h3 hV2.le) (div_nonneg h4 hV2.le) (div_nonneg h2 hV2.le) (div_nonneg h1 hV2.le) ?_ ?_
  · rw [← add_div, ← add_div, ← add_div, div_eq_one_iff_eq hV2.ne', ← hs]
    ring
  · intro i
    have := hp i
    field_simp
    linarith


set_option maxHeartbeats 800000 in
/-- The filter stops; what it returns are points of the input, none of them more often than in the input, that span the same
convex hull. -/
theorem pseudoHull_ok {knob : K} {E : P3 K} (h : PseudoInput knob P) {fuel : ℕ} (hf : P.length < fuel) :
    ∃ R, pseudoHull knob E fuel P = .ok R ∧ R.Subperm P ∧ ∀ p ∈ P, p ∈ convexHull K {q | q ∈ R} := by
  obtain ⟨a, ha, b, hb, c, hc, d, hd, he, hV⟩ := h.solid.corners
  have hk := h.nn
  have hsep := h.sep a ha b hb c hc d hd hV
  unfold pseudoHull
  rw [he]
  simp only
  generalize ho : centre a b c d = o
  have e2 : sv a b d c = -sv a b c d := by simp only [sv_poly]; ring
  have e3 : sv c d b a = -sv a b c d := by simp only [sv_poly]; ring
  have e4 : sv c d a b = sv a b c d := by simp only [sv_poly]; ring
  obtain ⟨g0, hg0, s0, hs0, v0, o0, c0⟩ := facet_out (o := o) hk (x := a) (y := b) (z := c) (w := d)
    (by rw [← ho]; simp only [sv_poly, centre]; ring) hsep
  obtain ⟨g1, hg1, s1, hs1, v1, o1, c1⟩ := facet_out (o := o) hk (x := a) (y := b) (z := d) (w := c)
    (by rw [← ho]; simp only [sv_poly, centre]; ring) (by rw [e2, abs_neg]; exact hsep)
  obtain ⟨g2, hg2, s2, hs2, v2, o2, c2⟩ := facet_out (o := o) hk (x := c) (y := d) (z := b) (w := a)
    (by rw [← ho]; simp only [sv_poly, centre]; ring) (by rw [e3, abs_neg]; exact hsep)
  obtain ⟨g3, hg3, s3, hs3, v3, o3, c3⟩ := facet_out (o := o) hk (x := c) (y := d) (z := a) (w := b)
    (by rw [← ho]; simp only [sv_poly, centre]; ring) (by rw [e4]; exact hsep)
  show ∃ R, (pParts knob (pHelper knob E fuel) [mkPF knob (tr o a) (tr o b) (tr o c), mkPF knob (tr o a) (tr o b) (tr o d),
      mkPF knob (tr o c) (tr o d) (tr o b), mkPF knob (tr o c) (tr o d) (tr o a)] (P.map (tr o))).map (fun R => R.map (back o)) = .ok R ∧
    R.Subperm P ∧ ∀ p ∈ P, p ∈ convexHull K {q | q ∈ R}
  rw [hg0, hg1, hg2, hg3]
  have hS := h.toSep.image o
  have hnm : (P.map (tr o)).Nodup := h.nodup.map fun p q h => tr_inj h
  have hcor : ∀ g ∈ [g0, g1, g2, g3], ∀ v, IsC g v → v = tr o a ∨ v = tr o b ∨ v = tr o c ∨ v = tr o d := by
    intro g hg v hv
    simp only [List.mem_cons, List.not_mem_nil, or_false] at hg
    rcases hg with rfl | rfl | rfl | rfl
    · rcases (c0 v).mp hv with h | h | h <;> simp [h]
    · rcases (c1 v).mp hv with h | h | h <;> simp [h]
    · rcases (c2 v).mp hv with h | h | h <;> simp [h]
    · rcases (c3 v).mp hv with h | h | h <;> simp [h]
  have hcU : ∀ v, v = tr o a ∨ v = tr o b ∨ v = tr o c ∨ v = tr o d → v ∈ tr o '' {p | p ∈ P} := by
    rintro v (rfl | rfl | rfl | rfl)
    · exact ⟨a, ha, rfl⟩
    · exact ⟨b, hb, rfl⟩
    · exact ⟨c, hc, rfl⟩
    · exact ⟨d, hd, rfl⟩
  obtain ⟨R, hR, sR, cR, vR⟩ := pParts_ok (knob := knob) (rec := pHelper knob E fuel) [g0, g1, g2, g3] (P.map (tr o)) (by
    intro g hg Q' hQ' hvis
    refine pHelper_ok hk fuel g Q' (tr o '' {p | p ∈ P}) hS (hcU _ (hcor g hg _ (Or.inl rfl)))
      (hcU _ (hcor g hg _ (Or.inr (Or.inl rfl)))) (hcU _ (hcor g hg _ (Or.inr (Or.inr rfl)))) ?_ (hnm.sublist hQ') hvis ?_
    · intro p hp
      obtain ⟨q, hq, rfl⟩ := List.mem_map.mp (hQ'.subset hp)
      exact ⟨q, hq, rfl⟩
    · have h1 := (List.filter_sublist (p := fun p => decide (knob < sv g.a g.b g.c p)) (l := Q')).length_le
      have h2 := hQ'.length_le
      rw [List.length_map] at h2
      omega)
  have hkeep : ∀ p ∈ P, p = a ∨ p = b ∨ p = c ∨ p = d → p ∈ R.map (back o) := by
    intro p hp hpc
    refine List.mem_map.mpr ⟨tr o p, vR _ (List.mem_map_of_mem hp) ?_ ?_, back_tr o p⟩
    · rcases hpc with rfl | rfl | rfl | rfl
      · exact ⟨g0, by simp, (c0 _).mpr (Or.inl rfl)⟩
      · exact ⟨g0, by simp, (c0 _).mpr (Or.inr (Or.inl rfl))⟩
      · exact ⟨g0, by simp, (c0 _).mpr (Or.inr (Or.inr rfl))⟩
      · exact ⟨g1, by simp, (c1 _).mpr (Or.inr (Or.inr rfl))⟩
    · have nle : ∀ {s x y z w : _}, s * sv x y z w < 0 → (p = x ∨ p = y ∨ p = z ∨ p = w) → ¬ knob < s * sv x y z p := by
        intro s x y z w h1 h2
        rcases h2 with rfl | rfl | rfl | rfl
        · rw [sv_a]; simpa using hk
        · rw [sv_b]; simpa using hk
        · rw [sv_c]; simpa using hk
        · exact not_lt.mpr (h1.le.trans hk)
      intro g hg
      simp only [List.mem_cons, List.not_mem_nil, or_false] at hg
      rcases hg with rfl | rfl | rfl | rfl
      · rw [v0]; exact nle o0 (by clear * - hpc; tauto)
      · rw [v1]; exact nle o1 (by clear * - hpc; tauto)
      · rw [v2]; exact nle o2 (by clear * - hpc; tauto)
      · rw [v3]; exact nle o3 (by clear * - hpc; tauto)
  refine ⟨R.map (back o), by rw [hR]; rfl, ?_, ?_⟩
  · have := sR.map (f := back o) (back_inj o)
    rw [List.map_map] at this
    rwa [show (back o ∘ tr o : P3 K → P3 K) = id from funext fun p => back_tr o p, List.map_id] at this
  · intro p hp
    have hcorner : ∀ x, x = a ∨ x = b ∨ x = c ∨ x = d → x ∈ convexHull K {v | v ∈ R.map (back o)} := by
      rintro x hx
      refine subset_convexHull K _ (hkeep x ?_ hx)
      rcases hx with rfl | rfl | rfl | rfl <;> assumption
    by_cases hv : ∃ g ∈ [g0, g1, g2, g3], pVisible knob g (tr o p) = true
    · have := cR _ (List.mem_map_of_mem hp) hv
      rw [← back_tr o p]
      refine hull_shift ?_ this
      rintro s (hs | ⟨g, hg, hs⟩)
      · exact subset_convexHull K _ (List.mem_map_of_mem hs)
      · refine hcorner _ ?_
        rcases hcor g hg s hs with rfl | rfl | rfl | rfl <;> simp only [back_tr] <;> simp
    · push Not at hv
      have hle : ∀ {g : PF K} {s : K} {x y z w : P3 K}, g ∈ [g0, g1, g2, g3] → x ∈ P → y ∈ P → z ∈ P → (s = 1 ∨ s = -1) →
          (∀ p, sv g.a g.b g.c (tr o p) = s * sv x y z p) → s * sv x y z w < 0 → 0 ≤ sv x y z p * sv x y z w := by
        intro g s x y z w hg hx hy hz hs hsv hw
        have h1 := hv g hg
        rw [Ne, pVisible_iff] at h1
        push Not at h1
        have h2 := h1.1
        rw [hsv] at h2
        have h3 : s * sv x y z p ≤ 0 := by
          rcases hs with rfl | rfl
          · rw [one_mul] at h2 ⊢
            exact (h.toSep x hx y hy z hz p hp).resolve_right (not_lt.mpr h2)
          · have e : -1 * sv x y z p = sv y x z p := by rw [sv_swap]; ring
            rw [e] at h2 ⊢
            exact (h.toSep y hy x hx z hz p hp).resolve_right (not_lt.mpr h2)
        have h4 := mul_nonneg_of_nonpos_of_nonpos h3 hw.le
        have h5 : s * s = 1 := by rcases hs with rfl | rfl <;> ring
        calc (0 : K) ≤ s * sv x y z p * (s * sv x y z w) := h4
          _ = (s * s) * (sv x y z p * sv x y z w) := by ring
          _ = _ := by rw [h5, one_mul]
      exact mem_tetra' (convex_convexHull K _) (hcorner a (by simp)) (hcorner b (by simp)) (hcorner c (by simp))
        (hcorner d (by simp)) hV (hle (by simp) ha hb hc hs0 v0 o0) (hle (by simp) ha hb hd hs1 v1 o1)
        (hle (by simp) hc hd hb hs2 v2 o2) (hle (by simp) hc hd ha hs3 v3 o3)

end Verif.QHull
