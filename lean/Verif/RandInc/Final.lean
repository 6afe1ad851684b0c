import Verif.RandInc.ConvStep

set_option linter.unusedSectionVars false
set_option linter.unusedVariables false

/-!
The first ring is convex; the rounds end with a convex ring.
-/

namespace Verif.RandInc

open Verif Verif.Hull2d

variable {K : Type} [Field K] [LinearOrder K] [IsStrictOrderedRing K]

/-- A point of a line between two points that differ in coordinate `j`. -/
theorem on_segment {a b p : Point K 2} (j j' : Fin 2) (hj : j ≠ j') (hab : a j < b j) (h1 : a j ≤ p j) (h2 : p j ≤ b j)
    (hl : (b j - a j) * (p j' - a j') = (b j' - a j') * (p j - a j)) {S : Set (Point K 2)} (ha : a ∈ convexHull K S)
    (hb : b ∈ convexHull K S) : p ∈ convexHull K S := by
  have hd : 0 < b j - a j := sub_pos.mpr hab
  refine (convex_convexHull K S).segment_subset ha hb ?_
  refine ⟨(b j - p j) / (b j - a j), (p j - a j) / (b j - a j), div_nonneg (sub_nonneg.mpr h2) hd.le,
    div_nonneg (sub_nonneg.mpr h1) hd.le, by field_simp; ring, ?_⟩
  have hne := hd.ne'
  have hj1 : ((b j - p j) / (b j - a j)) * a j + ((p j - a j) / (b j - a j)) * b j = p j := by field_simp; ring
  have hj2 : ((b j - p j) / (b j - a j)) * a j' + ((p j - a j) / (b j - a j)) * b j' = p j' := by
    field_simp
    linear_combination -hl
  funext c
  simp only [Pi.add_apply, Pi.smul_apply, smul_eq_mul]
  have hc : c = j ∨ c = j' := by omega
  rcases hc with rfl | rfl
  · exact hj1
  · exact hj2

/-- Half of the quadrilateral. -/
theorem half {a b c p : Point K 2} (hac : a 0 < c 0) (h1 : a 0 ≤ p 0) (h2 : p 0 ≤ c 0) (hT : triArea a b c ≤ 0)
    (k1 : triArea a b p ≤ 0) (k2 : triArea b c p ≤ 0) (k3 : triArea c a p ≤ 0)
    {S : Set (Point K 2)} (ha : a ∈ convexHull K S) (hb : b ∈ convexHull K S) (hc : c ∈ convexHull K S) : p ∈ convexHull K S := by
  rcases hT.lt_or_eq with h | h
  · exact triangle h k1 k2 k3 ha hb hc
  · have hsum : triArea a b p + triArea b c p + triArea c a p = triArea a b c := by unfold triArea; ring
    have h0 : triArea c a p = 0 := by linarith
    refine on_segment 0 1 (by decide) hac h1 h2 ?_ ha hc
    unfold triArea at h0
    linear_combination -h0

/-- A point of the bounding box to the right of the four facets is in the hull of the extreme points. -/
theorem quad {q0 q1 q2 q3 p : Point K 2} (x0 : q0 0 ≤ p 0) (x2 : p 0 ≤ q2 0) (y1 : p 1 ≤ q1 1) (y3 : q3 1 ≤ p 1)
    (hx : q0 0 ≤ q1 0 ∧ q1 0 ≤ q2 0 ∧ q0 0 ≤ q3 0 ∧ q3 0 ≤ q2 0)
    (c1 : triArea q0 q1 q2 ≤ 0) (c3 : triArea q2 q3 q0 ≤ 0)
    (k0 : triArea q0 q1 p ≤ 0) (k1 : triArea q1 q2 p ≤ 0) (k2 : triArea q2 q3 p ≤ 0) (k3 : triArea q3 q0 p ≤ 0)
    {S : Set (Point K 2)} (h0 : q0 ∈ convexHull K S) (h1 : q1 ∈ convexHull K S) (h2 : q2 ∈ convexHull K S)
    (h3 : q3 ∈ convexHull K S) : p ∈ convexHull K S := by
  rcases (x0.trans x2).lt_or_eq with hlt | heq
  · have hswap : triArea q0 q2 p = -triArea q2 q0 p := by unfold triArea; ring
    rcases le_total (triArea q2 q0 p) 0 with h | h
    · exact half hlt x0 x2 c1 k0 k1 h h0 h1 h2
    · have c3' : triArea q2 q3 q0 ≤ 0 := c3
      have hT : triArea q2 q3 q0 ≤ 0 := c3
      rcases c3.lt_or_eq with hh | hh
      · exact triangle hh k2 k3 (by linarith) h2 h3 h0
      · have hsum : triArea q2 q3 p + triArea q3 q0 p + triArea q0 q2 p = triArea q2 q3 q0 := by unfold triArea; ring
        have hz : triArea q0 q2 p = 0 := by linarith
        refine on_segment 0 1 (by decide) hlt x0 x2 ?_ h0 h2
        unfold triArea at hz
        linear_combination hz
  · have e1 : q1 0 = p 0 := by linarith [hx.1, hx.2.1]
    have e3 : q3 0 = p 0 := by linarith [hx.2.2.1, hx.2.2.2]
    rcases (y3.trans y1).lt_or_eq with hlt | he
    · refine on_segment 1 0 (by decide) hlt y3 y1 ?_ h3 h1
      rw [e1, e3]
      ring
    · have : p = q1 := by
        funext c
        fin_cases c
        · exact e1.symm
        · exact le_antisymm y1 (show q1 1 ≤ p 1 by rw [← he]; exact y3)
      rw [this]; exact h1

section
variable {pos : ℕ → Point K 2} {n : ℕ} {e : Ext}

theorem rv_start {eps : K} {t : ℕ} : RV chain0 (start eps pos e n).heap t ↔ ∃ i, e.at i = t := by
  constructor
  · rintro ⟨i, x, hx, f, hf, hft⟩
    simp only [chain0, List.mem_singleton] at hx
    subst hx
    rw [start_heap, Option.some.injEq] at hf
    subst hf
    simp only at hft
    rw [(corner_p i).1, (corner_p i).2] at hft
    rcases hft with rfl | rfl
    · exact ⟨i, rfl⟩
    · exact ⟨i + 1, rfl⟩
  · rintro ⟨i, rfl⟩
    exact ⟨i, i.val, by simp [chain0], _, start_heap i, .inl (corner_p i).1⟩

theorem start_conv (h : e.Ok pos n) : Conv pos n e.at chain0 (start (0 : K) pos e n) := by
  have hnull : ∀ v < n, (start (0 : K) pos e n).see v = none → ∀ i : Fin 4, triArea (pos (e.at i)) (pos (e.at (i + 1))) (pos v) ≤ 0 := by
    intro v hv hs i
    simp only [start] at hs
    have hf : ¬ flag0 (0 : K) pos e v < 4 := by
      intro hf
      rw [if_pos ⟨hv, hf⟩] at hs
      cases hs
    have := flag0_none hf i
    rw [hid0, (corner_p i).1, (corner_p i).2] at this
    exact this
  have hself : ∀ j i : Fin 4, triArea (pos (e.at i)) (pos (e.at (i + 1))) (pos (e.at j)) ≤ 0 :=
    fun j i => hnull _ (h.at_lt j) (vertex_null h (le_refl _) j) i
  have hmem : ∀ i, pos (e.at i) ∈ convexHull K (RS pos chain0 (start (0 : K) pos e n).heap) := fun i =>
    subset_convexHull K _ ⟨_, rv_start.mpr ⟨i, rfl⟩, rfl⟩
  refine ⟨fun i v hv => h.rx i hv, ?_, ?_, ?_, ?_⟩
  · intro i x hx f hf
    simp only [chain0, List.mem_singleton] at hx
    subst hx
    rw [start_heap, Option.some.injEq] at hf
    subst hf
    unfold dirF
    simp only
    rw [(corner_p i).1, (corner_p i).2]
    exact (h.ends i).1.2
  · intro i x hx f hf
    simp only [chain0, List.mem_singleton] at hx
    subst hx
    exact .inr rfl
  · intro t ht i x hx f hf
    obtain ⟨j, rfl⟩ := rv_start.mp ht
    simp only [chain0, List.mem_singleton] at hx
    subst hx
    rw [start_heap, Option.some.injEq] at hf
    subst hf
    simp only
    rw [(corner_p i).1, (corner_p i).2]
    exact hself j i
  · intro v hv hs
    have hk := hnull v hv hs
    have l := h.lt
    exact quad (q0 := pos e.xMin) (q1 := pos e.yMax) (q2 := pos e.xMax) (q3 := pos e.yMin) (h.xMin v hv) (h.xMax v hv)
      (h.yMax v hv) (h.yMin v hv) ⟨h.xMin _ l.2.2.2, h.xMax _ l.2.2.2, h.xMin _ l.2.2.1, h.xMax _ l.2.2.1⟩ (hself 2 0) (hself 0 2)
      (hk 0) (hk 1) (hk 2) (hk 3) (hmem 0) (hmem 1) (hmem 2) (hmem 3)

end

end Verif.RandInc
