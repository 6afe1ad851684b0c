import Verif.KdTree.WspdFloatLemmas
import Verif.KdTree.WspdProps
import Verif.KdTree.FloatProps

set_option linter.unusedSectionVars false
set_option linter.unusedVariables false

/-!
Property C94: the well-separated pair decomposition in rounded arithmetic.
-/

namespace Verif.KdTree

open Verif.Float

variable {α : Type} {d : ℕ} {u : ℝ} {fl : ℝ → ℝ}

/-- Specification of C94: the items are in two balls of radii `rA` and `rB`, and
`s * max rA rB ≤ distance of the balls`, up to relative errors of `d + 7` roundings and the error of
the centres. -/
def WellSeparatedUpTo (u M : ℝ) (pos : α → Point ℝ d) (s : ℝ) (A B : List α) : Prop :=
  ∃ (cA cB : Point ℝ d) (rA rB : ℝ), 0 ≤ rA ∧ 0 ≤ rB ∧ (∀ x ∈ A, eucl (pos x) cA ≤ rA) ∧
    (∀ y ∈ B, eucl (pos y) cB ≤ rB) ∧
    (1 - u) ^ (d + 7) * (s * max rA rB + rA + rB) ≤
      (1 + u) ^ (d + 7) * (eucl cA cB + 6 * Real.sqrt d * u * M)

theorem distFl_self (hf : IsMonoRounding fl) (p : Point ℝ d) : distFl fl p p = 0 := by
  have : distSqrFl fl p p = 0 := by
    unfold distSqrFl
    generalize List.finRange d = l
    induction l with
    | nil => rfl
    | cons i l ih =>
      rw [List.foldl_cons]
      have : addSqFl fl p p 0 i = 0 := by simp [addSqFl, hf.zero]
      rw [this]
      exact ih
  unfold distFl
  rw [this, Real.sqrt_zero, hf.zero]

theorem geomWellSeparatedFl_leaf (hf : IsMonoRounding fl) {pos : α → Point ℝ d} {s : ℝ}
    {bu bv : Box ℝ d} {iu iv : List α} (hu : Sound pos 1 (.leaf bu iu))
    (hv : Sound pos 1 (.leaf bv iv)) :
    geomWellSeparatedFl fl s (.leaf bu iu : Tree α ℝ d) (.leaf bv iv) = true := by
  have diam0 : ∀ (b : Box ℝ d) (i : List α), Sound pos 1 (.leaf b i) → boxDiamFl fl b = 0 := by
    intro b i h
    obtain ⟨h1, h2, h3⟩ := h
    match i, h1, h2 with
    | [a], _, _ =>
      unfold boxDiamFl
      have : b.hi = b.lo := by
        funext i
        obtain ⟨x, hx, hx'⟩ := (h3.2 i).1
        obtain ⟨y, hy, hy'⟩ := (h3.2 i).2
        simp at hx hy
        subst hx
        subst hy
        rw [← hx', ← hy']
      rw [this, distFl_self hf]
  simp only [geomWellSeparatedFl, ge_iff_le, decide_eq_true_eq, Tree.box, diam0 bu iu hu,
    diam0 bv iv hv]
  simp only [max_self, zero_div, hf.zero, mul_zero, sub_zero]
  exact hf.nonneg (hf.nonneg (distFl_nonneg hf _ _))

theorem fl_nonneg_iff (hf : IsRounding u fl) (hu : u < 1) {x : ℝ} (h : 0 ≤ fl x) : 0 ≤ x := by
  by_contra hx
  rw [not_le] at hx
  have := fl_ge hf (x := -x) (by linarith)
  rw [hf.odd] at this
  nlinarith

/-- The test of the code without its inner roundings. -/
theorem test_bound (hf : IsRounding u fl) (hu : u < 1) {D hA hB y : ℝ} (h1 : 0 ≤ hA) (h2 : 0 ≤ hB)
    (hy : 0 ≤ y) (h : fl y ≤ fl (fl (D - hA) - hB)) :
    (1 - u) * y + hA + hB ≤ (1 + u) ^ 2 * D := by
  have hu0 := u_nonneg hf
  have hx : 0 ≤ fl (D - hA) - hB := fl_nonneg_iff hf hu ((hf.nonneg hy).trans h)
  have hx2 : 0 ≤ D - hA := fl_nonneg_iff hf hu (by linarith)
  have g1 := fl_ge hf hy
  have g2 := fl_le hf hx
  have g3 := fl_le hf hx2
  have g4 := mul_le_mul_of_nonneg_left g3 (by linarith : 0 ≤ 1 + u)
  have g5 : 0 ≤ u * hA := mul_nonneg hu0 h1
  have g6 : 0 ≤ u * hB := mul_nonneg hu0 h2
  have g7 : 0 ≤ u * (u * hA) := mul_nonneg hu0 g5
  nlinarith

theorem distFl_le (hf : IsRounding u fl) (hu : u ≤ 1) (p q : Point ℝ d) :
    distFl fl p q ≤ (1 + u) ^ (d + 5) * eucl p q := by
  have hu0 := u_nonneg hf
  have hc : 1 ≤ (1 + u) ^ (d + 5) := one_le_pow₀ (by linarith)
  apply le_of_sq_le_sq _ (mul_nonneg (by linarith) (eucl_nonneg _ _))
  refine (distFl_bounds hf hu p q).2.trans ?_
  rw [mul_pow, eucl_sq]
  apply mul_le_mul_of_nonneg_right _ (distSqr_nonneg _ _)
  rw [sq]
  exact le_mul_of_one_le_left (by linarith) hc

theorem distFl_ge (hf : IsRounding u fl) (hu : u ≤ 1) (p q : Point ℝ d) :
    (1 - u) ^ (d + 5) * eucl p q ≤ distFl fl p q := by
  have hu0 := u_nonneg hf
  have hc0 : 0 ≤ (1 - u) ^ (d + 5) := pow_nonneg (by linarith) _
  have hc1 : (1 - u) ^ (d + 5) ≤ 1 := pow_le_one₀ (by linarith) (by linarith)
  apply le_of_sq_le_sq _ (distFl_nonneg hf.toIsMonoRounding _ _)
  refine le_trans ?_ (distFl_bounds hf hu p q).1
  rw [mul_pow, eucl_sq]
  apply mul_le_mul_of_nonneg_right _ (distSqr_nonneg _ _)
  rw [sq]
  exact mul_le_of_le_one_left hc0 hc1

theorem boxDiam_eq_eucl (b : Box ℝ d) : boxDiam b = eucl b.hi b.lo := by
  unfold boxDiam eucl distSqr
  congr 1

/-- The computed middle of a box with corners of size at most `M`. -/
theorem boxCentreFl_near (hf : IsRounding u fl) (hu : u ≤ 1) {M : ℝ} {b : Box ℝ d}
    (hb : ∀ i, |b.lo i| ≤ M ∧ |b.hi i| ≤ M) (hM : 0 ≤ M) :
    eucl (boxCentreFl fl b) (boxCentre b) ≤ 3 * Real.sqrt d * u * M := by
  have hu0 := u_nonneg hf
  have hnn : 0 ≤ 3 * Real.sqrt d * u * M := by positivity
  rw [eucl_le_iff hnn]
  have hsq : (3 * Real.sqrt d * u * M) ^ 2 = ∑ _i : Fin d, (3 * u * M) * (3 * u * M) := by
    rw [Finset.sum_const, Finset.card_univ, Fintype.card_fin, nsmul_eq_mul]
    have := Real.sq_sqrt (Nat.cast_nonneg (α := ℝ) d)
    calc _ = Real.sqrt d ^ 2 * (3 * u * M * (3 * u * M)) := by ring
      _ = _ := by rw [this]
  rw [hsq]
  unfold distSqr
  apply Finset.sum_le_sum
  intro i _
  rw [← abs_mul_abs_self]
  have key : |boxCentreFl fl b i - boxCentre b i| ≤ 3 * u * M := by
    unfold boxCentreFl boxCentre
    have e1 := hf.err (b.hi i + b.lo i)
    have e2 := hf.err (fl (b.hi i + b.lo i) / 2)
    have s1 : |b.hi i + b.lo i| ≤ 2 * M := by
      have := abs_add_le (b.hi i) (b.lo i)
      have := hb i
      linarith
    have s2 : u * |b.hi i + b.lo i| ≤ u * (2 * M) := mul_le_mul_of_nonneg_left s1 hu0
    have s3 : |fl (b.hi i + b.lo i)| ≤ 4 * M := by
      have h1 : |fl (b.hi i + b.lo i)| ≤ |fl (b.hi i + b.lo i) - (b.hi i + b.lo i)|
          + |b.hi i + b.lo i| := by
        have := abs_add_le (fl (b.hi i + b.lo i) - (b.hi i + b.lo i)) (b.hi i + b.lo i)
        rwa [sub_add_cancel] at this
      have : u * (2 * M) ≤ 1 * (2 * M) := mul_le_mul_of_nonneg_right hu (by linarith)
      linarith
    have s4 : |fl (b.hi i + b.lo i) / 2| ≤ 2 * M := by
      rw [abs_div, abs_two]
      linarith
    have s5 : u * |fl (b.hi i + b.lo i) / 2| ≤ u * (2 * M) := mul_le_mul_of_nonneg_left s4 hu0
    have s6 : |fl (fl (b.hi i + b.lo i) / 2) - (b.hi i + b.lo i) / 2| ≤
        |fl (fl (b.hi i + b.lo i) / 2) - fl (b.hi i + b.lo i) / 2|
          + |fl (b.hi i + b.lo i) / 2 - (b.hi i + b.lo i) / 2| := abs_sub_le _ _ _
    have s7 : |fl (b.hi i + b.lo i) / 2 - (b.hi i + b.lo i) / 2| ≤ u * (2 * M) / 2 := by
      rw [← sub_div, abs_div, abs_two]
      linarith
    calc _ ≤ u * (2 * M) + u * (2 * M) / 2 := by linarith
      _ = 3 * u * M := by ring
  exact mul_self_le_mul_self (abs_nonneg _) key

theorem geomWellSeparatedFl_sound (hf : IsRounding u fl) (hu : u < 1) (pos : α → Point ℝ d) {M : ℝ}
    (hM : 0 ≤ M) (s : ℝ) (hs : 0 ≤ s) (a b : Tree α ℝ d)
    (ha : ∀ x ∈ a.items, a.box.Mem (pos x)) (hb : ∀ x ∈ b.items, b.box.Mem (pos x))
    (hMa : ∀ i, |a.box.lo i| ≤ M ∧ |a.box.hi i| ≤ M)
    (hMb : ∀ i, |b.box.lo i| ≤ M ∧ |b.box.hi i| ≤ M)
    (h : geomWellSeparatedFl fl s a b = true) :
    WellSeparatedUpTo u M pos s a.items b.items := by
  have hu0 := u_nonneg hf
  have h1u : 0 ≤ 1 - u := by linarith
  simp only [geomWellSeparatedFl, ge_iff_le, decide_eq_true_eq] at h
  have na : 0 ≤ boxDiamFl fl a.box := distFl_nonneg hf.toIsMonoRounding _ _
  have nb : 0 ≤ boxDiamFl fl b.box := distFl_nonneg hf.toIsMonoRounding _ _
  have nmax : 0 ≤ max (boxDiamFl fl a.box) (boxDiamFl fl b.box) / 2 := by
    have := le_max_left (boxDiamFl fl a.box) (boxDiamFl fl b.box)
    linarith
  have t := test_bound hf hu (hf.nonneg (by linarith)) (hf.nonneg (by linarith))
    (mul_nonneg hs (hf.nonneg nmax)) h
  have da : (1 - u) ^ (d + 5) * boxDiam a.box ≤ boxDiamFl fl a.box := by
    rw [boxDiam_eq_eucl]; exact distFl_ge hf hu.le _ _
  have db : (1 - u) ^ (d + 5) * boxDiam b.box ≤ boxDiamFl fl b.box := by
    rw [boxDiam_eq_eucl]; exact distFl_ge hf hu.le _ _
  have pa : 0 ≤ boxDiam a.box := Real.sqrt_nonneg _
  have pb : 0 ≤ boxDiam b.box := Real.sqrt_nonneg _
  refine ⟨boxCentre a.box, boxCentre b.box, boxDiam a.box / 2, boxDiam b.box / 2, by linarith,
    by linarith, fun x hx => eucl_boxCentre_le (ha x hx), fun x hx => eucl_boxCentre_le (hb x hx),
    ?_⟩
  have hl : 0 ≤ (1 - u) ^ (d + 5) := pow_nonneg h1u _
  have half : ∀ {x y : ℝ}, (1 - u) ^ (d + 5) * x ≤ y → 0 ≤ y → 0 ≤ x →
      (1 - u) ^ (d + 6) * (x / 2) ≤ fl (y / 2) := by
    intro x y hxy hy hx
    have := fl_ge hf (x := y / 2) (by linarith)
    refine le_trans ?_ this
    calc (1 - u) ^ (d + 6) * (x / 2) = (1 - u) * (((1 - u) ^ (d + 5) * x) / 2) := by ring
      _ ≤ (1 - u) * (y / 2) := mul_le_mul_of_nonneg_left (by linarith) h1u
  have weaken : ∀ {x : ℝ}, 0 ≤ x → (1 - u) ^ (d + 7) * x ≤ (1 - u) ^ (d + 6) * x := by
    intro x hx
    apply mul_le_mul_of_nonneg_right _ hx
    exact pow_le_pow_of_le_one h1u (by linarith) (by omega)
  have ra := (weaken (by linarith)).trans (half da na pa)
  have rb := (weaken (by linarith)).trans (half db nb pb)
  have dm : (1 - u) ^ (d + 5) * max (boxDiam a.box) (boxDiam b.box) ≤
      max (boxDiamFl fl a.box) (boxDiamFl fl b.box) := by
    rw [mul_max_of_nonneg _ _ hl]
    exact max_le_max da db
  have rm := half dm (na.trans (le_max_left _ _)) (pa.trans (le_max_left _ _))
  have rm2 := mul_le_mul_of_nonneg_left (mul_le_mul_of_nonneg_left rm hs) h1u
  have mx : max (boxDiam a.box / 2) (boxDiam b.box / 2) = max (boxDiam a.box) (boxDiam b.box) / 2 :=
    max_div_div_right (by norm_num) _ _
  have lhs : (1 - u) ^ (d + 7) * (s * max (boxDiam a.box / 2) (boxDiam b.box / 2)
      + boxDiam a.box / 2 + boxDiam b.box / 2) ≤ (1 - u) *
        (s * fl (max (boxDiamFl fl a.box) (boxDiamFl fl b.box) / 2)) + fl (boxDiamFl fl a.box / 2)
        + fl (boxDiamFl fl b.box / 2) := by
    rw [mx]
    have e : (1 - u) ^ (d + 7) * (s * (max (boxDiam a.box) (boxDiam b.box) / 2)
        + boxDiam a.box / 2 + boxDiam b.box / 2) =
        (1 - u) * (s * ((1 - u) ^ (d + 6) * (max (boxDiam a.box) (boxDiam b.box) / 2)))
        + (1 - u) ^ (d + 7) * (boxDiam a.box / 2) + (1 - u) ^ (d + 7) * (boxDiam b.box / 2) := by
      ring
    rw [e]
    linarith
  have rhs : distFl fl (boxCentreFl fl a.box) (boxCentreFl fl b.box) ≤
      (1 + u) ^ (d + 5) * (eucl (boxCentre a.box) (boxCentre b.box)
        + 6 * Real.sqrt d * u * M) := by
    refine (distFl_le hf hu.le _ _).trans ?_
    apply mul_le_mul_of_nonneg_left _ (pow_nonneg (by linarith) _)
    have c1 := boxCentreFl_near hf hu.le hMa hM
    have c2 := boxCentreFl_near hf hu.le hMb hM
    have t1 := eucl_triangle (boxCentreFl fl a.box) (boxCentre a.box) (boxCentreFl fl b.box)
    have t2 := eucl_triangle (boxCentre a.box) (boxCentre b.box) (boxCentreFl fl b.box)
    rw [eucl_comm (boxCentre b.box) (boxCentreFl fl b.box)] at t2
    linarith
  refine lhs.trans (t.trans ?_)
  calc _ ≤ (1 + u) ^ 2 * ((1 + u) ^ (d + 5) * (eucl (boxCentre a.box) (boxCentre b.box)
        + 6 * Real.sqrt d * u * M)) := mul_le_mul_of_nonneg_left rhs (by positivity)
    _ = _ := by ring

open Classical in
/-- C94, the pairs. With any monotone odd rounding, for every non-empty list of distinct items and
every `s`, the decomposition of the tree with leaf size 1 does not throw, the serial and the parallel
version report the same pairs, and every unordered pair of different items is covered exactly
once. -/
theorem c94_cover (hf : IsMonoRounding fl) (w bs : ℕ) (hw : 0 < w) (hb : 0 < bs) (hd : 0 < d)
    (pos : α → Point ℝ d) (parallel : Bool) (items : List α) (hne : items ≠ []) (hnd : items.Nodup)
    (t : Tree α ℝ d) (ht : buildFl fl w bs pos 1 parallel items = .ok t) (s : ℝ) :
    ∃ out, wspdSerialFl fl (geomWellSeparatedFl fl s) t = .ok out ∧
      wspdParallelFl fl (geomWellSeparatedFl fl s) t = .ok out ∧
      (∀ x ∈ items, ∀ y ∈ items, x ≠ y → out.countP (fun p => Covers x y p) = 1) ∧
      (∀ p ∈ out, geomWellSeparatedFl fl s p.1 p.2 = true ∧ Below p.1 t ∧ Below p.2 t ∧
        ∀ x ∈ p.1.items, ∀ y ∈ p.2.items, x ≠ y) := by
  obtain ⟨t', h1, h2, h3⟩ := c91_build hf w bs hw hb hd pos 1 (le_refl _) parallel items hne
  rw [h1] at ht
  cases ht
  obtain ⟨out, h4, h5, h6⟩ := wspdSerialFl_ok fl (geomWellSeparatedFl fl s) t
    (fun bu iu bv iv hu hv => geomWellSeparatedFl_leaf hf (h3.below hu) (h3.below hv))
    h3.singleLeaves (h2.nodup_iff.mpr hnd)
  refine ⟨out, h4, by rw [wspdParallelFl_eq, h4], ?_, h5⟩
  intro x hx y hy hxy
  rw [h6, if_pos ⟨h2.mem_iff.mpr hx, h2.mem_iff.mpr hy, hxy⟩]

/-- C94, the separation. With a rounding of relative error `u < 1` and points of size at most `M`,
every reported pair is well separated with constant `s ≥ 0`, up to a few roundings. -/
theorem c94_separated (hf : IsRounding u fl) (hu : u < 1) (w bs : ℕ) (hw : 0 < w) (hb : 0 < bs)
    (hd : 0 < d) (pos : α → Point ℝ d) (parallel : Bool) (items : List α) (hne : items ≠ [])
    (hnd : items.Nodup) (M : ℝ) (hM : ∀ x ∈ items, ∀ i, |pos x i| ≤ M)
    (t : Tree α ℝ d) (ht : buildFl fl w bs pos 1 parallel items = .ok t) (s : ℝ) (hs : 0 ≤ s) :
    ∃ out, wspdSerialFl fl (geomWellSeparatedFl fl s) t = .ok out ∧
      ∀ p ∈ out, WellSeparatedUpTo u M pos s p.1.items p.2.items := by
  obtain ⟨out, h4, -, -, h5⟩ := c94_cover hf.toIsMonoRounding w bs hw hb hd pos parallel items hne hnd
    t ht s
  obtain ⟨t', h1, h2, h3⟩ := c91_build hf.toIsMonoRounding w bs hw hb hd pos 1 (le_refl _) parallel
    items hne
  rw [h1] at ht
  cases ht
  have sub : ∀ {a t : Tree α ℝ d}, Below a t → ∀ x ∈ a.items, x ∈ t.items := by
    intro a t h
    induction h with
    | refl => exact fun x hx => hx
    | left _ ih => exact fun x hx => List.mem_append_left _ (ih x hx)
    | right _ ih => exact fun x hx => List.mem_append_right _ (ih x hx)
  have hM0 : 0 ≤ M := by
    obtain ⟨x, hx⟩ := List.exists_mem_of_ne_nil items hne
    exact (abs_nonneg _).trans (hM x hx ⟨0, hd⟩)
  have hbox : ∀ a, Below a t → ∀ i, |a.box.lo i| ≤ M ∧ |a.box.hi i| ≤ M := by
    intro a ha i
    have hsa := h3.below ha
    have htight : a.box.Tight pos a.items := by
      cases a with
      | leaf b l => exact hsa.2.2
      | node b l r => exact hsa.2.1
    obtain ⟨x, hx, hx'⟩ := (htight.2 i).1
    obtain ⟨y, hy, hy'⟩ := (htight.2 i).2
    rw [← hx', ← hy']
    exact ⟨hM x (h2.mem_iff.mp (sub ha x hx)) i, hM y (h2.mem_iff.mp (sub ha y hy)) i⟩
  refine ⟨out, h4, ?_⟩
  intro p hp
  obtain ⟨a1, a2, a3, -⟩ := h5 p hp
  exact geomWellSeparatedFl_sound hf hu pos hM0 s hs p.1 p.2 (h3.below a2).mem_box
    (h3.below a3).mem_box (hbox _ a2) (hbox _ a3) a1

/-- Non-vacuity of `c94_cover` and `c94_separated`: three points on a line in `double`, `s = 2`. -/
example : ∃ (t : Tree (Fin 3) ℝ 1) (out : List (Tree (Fin 3) ℝ 1 × Tree (Fin 3) ℝ 1)),
    buildFl (rne 53) 1 1 (![![0], ![1], ![10]] : Fin 3 → Point ℝ 1) 1 false [0, 1, 2] = .ok t ∧
    wspdSerialFl (rne 53) (geomWellSeparatedFl (rne 53) 2) t = .ok out ∧ out ≠ [] ∧
    ∀ p ∈ out, WellSeparatedUpTo ((2 : ℝ)⁻¹ ^ 53) 10 (![![0], ![1], ![10]] : Fin 3 → Point ℝ 1) 2
      p.1.items p.2.items := by
  classical
  have hf := isRounding_rne (p := 53) (by norm_num)
  obtain ⟨t, ht, -⟩ := c91_build hf.toIsMonoRounding 1 1 (by decide) (by decide) (by decide)
    (![![0], ![1], ![10]] : Fin 3 → Point ℝ 1) 1 (by decide) false [0, 1, 2] (by decide)
  obtain ⟨out, h1, -, h2, -⟩ := c94_cover hf.toIsMonoRounding 1 1 (by decide) (by decide) (by decide)
    (![![0], ![1], ![10]] : Fin 3 → Point ℝ 1) false [0, 1, 2] (by decide) (by decide) t ht 2
  obtain ⟨out', h3, h4⟩ := c94_separated hf (by norm_num) 1 1 (by decide) (by decide) (by decide)
    (![![0], ![1], ![10]] : Fin 3 → Point ℝ 1) false [0, 1, 2] (by decide) (by decide) 10 (by
      intro x _ i
      fin_cases x <;> fin_cases i <;> simp <;> norm_num) t ht 2 (by norm_num)
  rw [h1] at h3
  cases h3
  refine ⟨t, out, ht, h1, ?_, h4⟩
  rintro rfl
  have := h2 0 (by simp) 1 (by simp) (by decide)
  simp at this

end Verif.KdTree
