import Verif.KdTree.WspdLemmas

set_option linter.unusedSectionVars false
set_option linter.unusedVariables false

/-!
Properties C08 and C09: the well-separated pair decomposition.
-/

namespace Verif.KdTree

variable {α K : Type} {d : ℕ}

section
variable [Field K] [LinearOrder K] [IsStrictOrderedRing K]

theorem Sound.below {pos : α → Point K d} {leafSize : ℕ} {t u : Tree α K d}
    (ht : Sound pos leafSize t) (h : Below u t) : Sound pos leafSize u := by
  induction h with
  | refl => exact ht
  | left _ ih => exact ih ht.2.2.1
  | right _ ih => exact ih ht.2.2.2

theorem Sound.singleLeaves {pos : α → Point K d} {t : Tree α K d} (ht : Sound pos 1 t) :
    SingleLeaves t := by
  intro b items h
  exact (ht.below h).2.1

open Classical in
/-- C08. For every non-empty list of distinct items, the decomposition of the tree with leaf size 1
(serial or parallel) by any separation test that accepts all pairs of leaves runs without throwing,
and every unordered pair of different items is covered by exactly one reported pair; no reported
pair covers an item with itself. -/
theorem c08_wspd_cover (w bs : ℕ) (hw : 0 < w) (hb : 0 < bs) (hd : 0 < d) (pos : α → Point K d)
    (parallel : Bool) (items : List α) (hne : items ≠ []) (hnd : items.Nodup)
    (t : Tree α K d) (ht : build w bs pos 1 parallel items = .ok t)
    (ws : Tree α K d → Tree α K d → Bool)
    (hws : ∀ bu iu bv iv, ws (.leaf bu iu) (.leaf bv iv) = true) :
    ∃ out, wspdSerial ws t = .ok out ∧ wspdParallel ws t = .ok out ∧
      (∀ x ∈ items, ∀ y ∈ items, x ≠ y → out.countP (fun p => Covers x y p) = 1) ∧
      (∀ p ∈ out, ws p.1 p.2 = true ∧ (∀ x ∈ p.1.items, x ∈ items) ∧
        (∀ y ∈ p.2.items, y ∈ items) ∧ ∀ x ∈ p.1.items, ∀ y ∈ p.2.items, x ≠ y) := by
  obtain ⟨t', h1, h2, h3, -⟩ := c01_build w bs hw hb hd pos 1 (le_refl _) parallel items hne
  rw [h1] at ht
  cases ht
  obtain ⟨out, h4, h5, h6⟩ := wspdSerial_ok ws t (fun bu iu bv iv _ _ => hws bu iu bv iv)
    h3.singleLeaves (h2.nodup_iff.mpr hnd)
  have sub : ∀ {a t : Tree α K d}, Below a t → ∀ x ∈ a.items, x ∈ t.items := by
    intro a t h
    induction h with
    | refl => exact fun x hx => hx
    | left _ ih => exact fun x hx => List.mem_append_left _ (ih x hx)
    | right _ ih => exact fun x hx => List.mem_append_right _ (ih x hx)
  refine ⟨out, h4, by rw [wspdParallel_eq, h4], ?_, ?_⟩
  · intro x hx y hy hxy
    rw [h6, if_pos ⟨h2.mem_iff.mpr hx, h2.mem_iff.mpr hy, hxy⟩]
  · intro p hp
    obtain ⟨a1, a2, a3, a4⟩ := h5 p hp
    exact ⟨a1, fun x hx => h2.mem_iff.mp (sub a2 x hx), fun y hy => h2.mem_iff.mp (sub a3 y hy), a4⟩

end

/-- Specification of C09: the items of the two nodes are in balls of a common radius `r` whose
distance is at least `s * r`. -/
def WellSeparated (pos : α → Point ℝ d) (s : ℝ) (A B : List α) : Prop :=
  ∃ (cA cB : Point ℝ d) (r : ℝ), 0 ≤ r ∧ (∀ x ∈ A, eucl (pos x) cA ≤ r) ∧
    (∀ y ∈ B, eucl (pos y) cB ≤ r) ∧ s * r ≤ eucl cA cB - 2 * r

theorem eucl_boxCentre_le {b : Box ℝ d} {p : Point ℝ d} (h : b.Mem p) :
    eucl p (boxCentre b) ≤ boxDiam b / 2 := by
  have h2 : 0 ≤ boxDiam b / 2 := by unfold boxDiam; positivity
  rw [eucl_le_iff h2]
  unfold boxDiam
  rw [div_pow, Real.sq_sqrt (Finset.sum_nonneg fun i _ => mul_self_nonneg _)]
  unfold distSqr
  rw [le_div_iff₀ (by norm_num), Finset.sum_mul]
  apply Finset.sum_le_sum
  intro i _
  have := h i
  unfold boxCentre
  nlinarith [mul_nonneg (sub_nonneg.mpr this.1) (sub_nonneg.mpr this.2)]

/-- Two balls can be moved apart to radius `r` without bringing them closer. -/
theorem shift_balls (a b : EuclideanSpace ℝ (Fin d)) (ra rb r s : ℝ) (hra : 0 ≤ ra) (hrb : 0 ≤ rb)
    (ha : ra ≤ r) (hb : rb ≤ r) (hr : r = ra ∨ r = rb) (hs : 0 ≤ s)
    (h : s * r ≤ dist a b - ra - rb) :
    ∃ a' b' : EuclideanSpace ℝ (Fin d), (∀ x, dist x a ≤ ra → dist x a' ≤ r) ∧
      (∀ x, dist x b ≤ rb → dist x b' ≤ r) ∧ s * r ≤ dist a' b' - 2 * r := by
  have hr0 : 0 ≤ r := hra.trans ha
  rcases eq_or_ne a b with hab | hab
  · subst hab
    rw [dist_self] at h
    have hsr : 0 ≤ s * r := mul_nonneg hs hr0
    have h1 : ra = 0 := by linarith
    have h2 : rb = 0 := by linarith
    have h3 : r = 0 := by rcases hr with h | h <;> linarith
    refine ⟨a, a, fun x hx => by linarith, fun x hx => by linarith, ?_⟩
    rw [dist_self, h3]
    linarith
  · have hD : 0 < dist a b := dist_pos.mpr hab
    set D := dist a b with hDdef
    have hn : ‖a - b‖ = D := by rw [hDdef, dist_eq_norm]
    set e := (1 / D) • (a - b) with he
    have hen : ‖e‖ = 1 := by
      rw [he, norm_smul, hn, Real.norm_of_nonneg (by positivity)]
      field_simp
    have hab' : a - b = D • e := by
      rw [he, smul_smul]
      field_simp
      simp
    refine ⟨a + (r - ra) • e, b - (r - rb) • e, ?_, ?_, ?_⟩
    · intro x hx
      calc dist x (a + (r - ra) • e) ≤ dist x a + dist a (a + (r - ra) • e) := dist_triangle _ _ _
        _ ≤ ra + (r - ra) := by
          apply add_le_add hx
          rw [dist_eq_norm]
          simp only [sub_add_cancel_left, norm_neg, norm_smul, hen, mul_one]
          rw [Real.norm_of_nonneg (by linarith)]
        _ = r := by ring
    · intro x hx
      calc dist x (b - (r - rb) • e) ≤ dist x b + dist b (b - (r - rb) • e) := dist_triangle _ _ _
        _ ≤ rb + (r - rb) := by
          apply add_le_add hx
          rw [dist_eq_norm]
          simp only [sub_sub_cancel, norm_smul, hen, mul_one]
          rw [Real.norm_of_nonneg (by linarith)]
        _ = r := by ring
    · have : a + (r - ra) • e - (b - (r - rb) • e) = (D + (r - ra) + (r - rb)) • e := by
        rw [add_smul, add_smul, ← hab']
        abel
      rw [dist_eq_norm, this, norm_smul, hen, mul_one, Real.norm_of_nonneg (by linarith)]
      linarith

theorem geomWellSeparated_sound (pos : α → Point ℝ d) (s : ℝ) (hs : 0 ≤ s) (u v : Tree α ℝ d)
    (hu : ∀ x ∈ u.items, u.box.Mem (pos x)) (hv : ∀ x ∈ v.items, v.box.Mem (pos x))
    (h : geomWellSeparated s u v = true) : WellSeparated pos s u.items v.items := by
  simp only [geomWellSeparated, ge_iff_le, decide_eq_true_eq, eucl_eq_dist] at h
  have hdu : 0 ≤ boxDiam u.box := Real.sqrt_nonneg _
  have hdv : 0 ≤ boxDiam v.box := Real.sqrt_nonneg _
  obtain ⟨a, b, h1, h2, h3⟩ := shift_balls _ _ (boxDiam u.box / 2) (boxDiam v.box / 2)
    (max (boxDiam u.box) (boxDiam v.box) / 2) s (by linarith) (by linarith)
    (by linarith [le_max_left (boxDiam u.box) (boxDiam v.box)])
    (by linarith [le_max_right (boxDiam u.box) (boxDiam v.box)])
    (by rcases max_choice (boxDiam u.box) (boxDiam v.box) with h | h <;> simp [h]) hs h
  refine ⟨a.ofLp, b.ofLp, max (boxDiam u.box) (boxDiam v.box) / 2,
    by linarith [le_max_left (boxDiam u.box) (boxDiam v.box)], ?_, ?_, ?_⟩
  · intro x hx
    rw [eucl_eq_dist]
    apply h1
    rw [← eucl_eq_dist]
    exact eucl_boxCentre_le (hu x hx)
  · intro x hx
    rw [eucl_eq_dist]
    apply h2
    rw [← eucl_eq_dist]
    exact eucl_boxCentre_le (hv x hx)
  · rw [eucl_eq_dist]
    exact h3

theorem geomWellSeparated_leaf {pos : α → Point ℝ d} {s : ℝ} {bu bv : Box ℝ d} {iu iv : List α}
    (hu : Sound pos 1 (.leaf bu iu)) (hv : Sound pos 1 (.leaf bv iv)) :
    geomWellSeparated s (.leaf bu iu : Tree α ℝ d) (.leaf bv iv) = true := by
  have diam0 : ∀ (b : Box ℝ d) (i : List α), Sound pos 1 (.leaf b i) → boxDiam b = 0 := by
    intro b i h
    obtain ⟨h1, h2, h3⟩ := h
    match i, h1, h2 with
    | [a], _, _ =>
      unfold boxDiam
      have : ∀ i, b.hi i - b.lo i = 0 := by
        intro i
        obtain ⟨x, hx, hx'⟩ := (h3.2 i).1
        obtain ⟨y, hy, hy'⟩ := (h3.2 i).2
        simp at hx hy
        subst hx
        subst hy
        rw [← hx', ← hy']
        ring
      simp [this]
  simp only [geomWellSeparated, ge_iff_le, decide_eq_true_eq, Tree.box, diam0 bu iu hu,
    diam0 bv iv hv]
  simp [eucl_nonneg]

open Classical in
/-- C09 (and C08 for the geometric test). For every non-empty list of distinct items and every
`s ≥ 0`, the decomposition with the geometric test on the tree with leaf size 1 does not throw, the
serial and the parallel version report the same pairs, every reported pair is well separated with
constant `s`, and every unordered pair of different items is covered exactly once. -/
theorem c09_wspd (w bs : ℕ) (hw : 0 < w) (hb : 0 < bs) (hd : 0 < d) (pos : α → Point ℝ d)
    (parallel : Bool) (items : List α) (hne : items ≠ []) (hnd : items.Nodup)
    (t : Tree α ℝ d) (ht : build w bs pos 1 parallel items = .ok t) (s : ℝ) (hs : 0 ≤ s) :
    ∃ out, wspdSerial (geomWellSeparated s) t = .ok out ∧
      wspdParallel (geomWellSeparated s) t = .ok out ∧
      (∀ p ∈ out, WellSeparated pos s p.1.items p.2.items) ∧
      (∀ x ∈ items, ∀ y ∈ items, x ≠ y → out.countP (fun p => Covers x y p) = 1) ∧
      (∀ p ∈ out, Below p.1 t ∧ Below p.2 t) := by
  obtain ⟨t', h1, h2, h3, -⟩ := c01_build w bs hw hb hd pos 1 (le_refl _) parallel items hne
  rw [h1] at ht
  cases ht
  obtain ⟨out, h4, h5, h6⟩ := wspdSerial_ok (geomWellSeparated s) t
    (fun bu iu bv iv hu hv => geomWellSeparated_leaf (h3.below hu) (h3.below hv))
    h3.singleLeaves (h2.nodup_iff.mpr hnd)
  refine ⟨out, h4, by rw [wspdParallel_eq, h4], ?_, ?_, ?_⟩
  · intro p hp
    obtain ⟨a1, a2, a3, a4⟩ := h5 p hp
    exact geomWellSeparated_sound pos s hs p.1 p.2 (h3.below a2).mem_box (h3.below a3).mem_box a1
  · intro x hx y hy hxy
    rw [h6, if_pos ⟨h2.mem_iff.mpr hx, h2.mem_iff.mpr hy, hxy⟩]
  · intro p hp
    obtain ⟨a1, a2, a3, a4⟩ := h5 p hp
    exact ⟨a2, a3⟩

/-- Non-vacuity of `c09_wspd` and `c08_wspd_cover`: four points in the plane, `s = 2`; the pair of
the first two points is covered. -/
example : ∃ t out, build 1 1 (![![0, 0], ![1, 0], ![10, 0], ![10, 3]] : Fin 4 → Point ℝ 2) 1 false
    (List.finRange 4) = .ok t ∧ wspdParallel (geomWellSeparated 2) t = .ok out ∧
    ∃ p ∈ out, Covers (0 : Fin 4) 1 p := by
  obtain ⟨t, h1, -⟩ := c01_build 1 1 (by decide) (by decide) (by decide)
    (![![0, 0], ![1, 0], ![10, 0], ![10, 3]] : Fin 4 → Point ℝ 2) 1 (le_refl _) false
    (List.finRange 4) (by decide)
  obtain ⟨out, h2, h3, h4, h5, -⟩ := c09_wspd 1 1 (by decide) (by decide) (by decide)
    (![![0, 0], ![1, 0], ![10, 0], ![10, 3]] : Fin 4 → Point ℝ 2) false
    (List.finRange 4) (by decide) (List.nodup_finRange 4) t h1 2 (by norm_num)
  refine ⟨t, out, h1, h3, ?_⟩
  have := h5 0 (List.mem_finRange 0) 1 (List.mem_finRange 1) (by decide)
  have h6 : 0 < out.countP (fun p => @decide (Covers (0 : Fin 4) 1 p) (Classical.propDecidable _)) := by
    rw [this]; decide
  rw [List.countP_pos_iff] at h6
  obtain ⟨p, hp, hp'⟩ := h6
  exact ⟨p, hp, by simpa using hp'⟩

/-- With larger leaves the decomposition can throw: two interleaved leaves of two items each. The
theorem is about the search, for any separation test that rejects the two leaves. -/
theorem c09_large_leaf_throws [Field K] [LinearOrder K] (ws : Tree α K d → Tree α K d → Bool)
    (b bu bv : Box K d) (iu iv : List α) (h : ws (.leaf bu iu) (.leaf bv iv) = false) :
    wspdSerial ws (.node b (.leaf bu iu) (.leaf bv iv)) = .error .throws := by
  simp [wspdSerial, findPairSerial, h, bind, Except.bind]

end Verif.KdTree
