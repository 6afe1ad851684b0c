import Mathlib.Data.Fin.VecNotation
import Verif.Seb.BallLemmas
import Verif.Metric

set_option linter.unusedSectionVars false
set_option linter.unusedVariables false

/-!
Properties C50 (equality and containment of balls) and C54 (balls through given points).
-/

namespace Verif.Seb

variable {K : Type} [Field K] [LinearOrder K] [IsStrictOrderedRing K] {dim : ℕ}

/-- A centre in the affine hull with equal distances: every other equidistant centre is farther by its distance to the
first one. -/
theorem pythagoras (P : List (Point K dim)) (hP : 0 < P.length) (c c' : Point K dim) (r ρ : K) (a : ℕ → K)
    (hull : ∀ x, c x = (∑ i ∈ Finset.range (P.length - 1), diff P (i + 1) x * a i) + P.getD 0 0 x)
    (h1 : ∀ k < P.length, distSqr (P.getD k 0) c = r) (h2 : ∀ k < P.length, distSqr (P.getD k 0) c' = ρ) :
    ρ = r + distSqr c c' := by
  have horth : ∀ k < P.length, dot (diff P k) (fun x => c' x - c x) = 0 := by
    intro k hk
    have e : ∀ p o d d' : Point K dim, 2 * dot (fun x => p x - o x) (fun x => d' x - d x) =
        (distSqr p d - distSqr o d) - (distSqr p d' - distSqr o d') := by
      intro p o d d'
      unfold distSqr dot
      rw [Finset.mul_sum, ← Finset.sum_sub_distrib, ← Finset.sum_sub_distrib, ← Finset.sum_sub_distrib]
      exact Finset.sum_congr rfl fun i _ => by ring
    have := e (P.getD k 0) (P.getD 0 0) c c'
    rw [h1 k hk, h1 0 hP, h2 k hk, h2 0 hP, sub_self, sub_self, sub_zero] at this
    rcases mul_eq_zero.mp this with h | h
    · exact absurd h two_ne_zero
    · exact h
  have hv : dot (fun x => c x - P.getD 0 0 x) (fun x => c' x - c x) = 0 := by
    have : (fun x => c x - P.getD 0 0 x) =
        fun x => ∑ i ∈ Finset.range (P.length - 1), (fun i => diff P (i + 1)) i x * a i := by
      funext x
      rw [hull x]
      ring
    rw [this, dot_sum_left]
    exact Finset.sum_eq_zero fun i hi => by
      rw [horth (i + 1) (by have := Finset.mem_range.mp hi; omega), mul_zero]
  have e : distSqr (P.getD 0 0) c' = distSqr (P.getD 0 0) c + distSqr c c' +
      2 * dot (fun x => c x - P.getD 0 0 x) (fun x => c' x - c x) := by
    unfold distSqr dot
    rw [Finset.mul_sum, ← Finset.sum_add_distrib, ← Finset.sum_add_distrib]
    exact Finset.sum_congr rfl fun i _ => by ring
  rw [h1 0 hP, h2 0 hP, hv, mul_zero, add_zero] at e
  exact e

theorem distSqr_shift (p o c : Point K dim) :
    distSqr (fun x => p x - o x) c = distSqr p (fun x => c x + o x) := by
  unfold distSqr
  exact Finset.sum_congr rfl fun i _ => by ring

theorem map_shift_back (PP : List (Point K dim)) (o : Point K dim) :
    ((PP.map fun p => fun x => p x - o x).map fun p => fun x => p x + o x) = PP := by
  rw [List.map_map]
  conv_rhs => rw [← List.map_id PP]
  refine List.map_congr_left fun p _ => ?_
  funext x
  simp

/-- Two points: the ball with the segment as diameter. -/
theorem mkBall_two (junk : ℕ → K) (p q : Point K dim) (hd : 1 ≤ dim) :
    ∃ B, mkBall junk [p, q] = .ok B ∧ B.sup = [p, q] ∧ B.center = (fun x => (p x + q x) / 2) ∧
      B.r2 = distSqr p q / 4 := by
  refine ⟨_, by
    unfold mkBall
    rw [if_neg (by simp; omega)]
    simp only [Ball.construct]
    rw [if_neg (by simp), if_pos (by simp)]
    rfl, map_shift_back [p, q] _, ?_, ?_⟩
  · funext x
    simp only [Ball.center, Ball.twoPoint, List.map_cons, List.getD_cons_zero, List.getD_cons_succ]
    ring
  · simp only [Ball.twoPoint, List.map_cons, List.getD_cons_zero, List.getD_cons_succ]
    congr 1
    unfold distSqr
    exact Finset.sum_congr rfl fun i _ => by ring

/-- Specification: `c` is an affine combination of the points. -/
def InHull (P : List (Point K dim)) (c : Point K dim) : Prop :=
  ∃ w : ℕ → K, ∑ i ∈ Finset.range P.length, w i = 1 ∧
    ∀ x, c x = ∑ i ∈ Finset.range P.length, w i * P.getD i 0 x

theorem inHull_diff (P : List (Point K dim)) (hP : 0 < P.length) (c : Point K dim) (a : ℕ → K)
    (h : ∀ x, c x = (∑ i ∈ Finset.range (P.length - 1), diff P (i + 1) x * a i) + P.getD 0 0 x) : InHull P c := by
  obtain ⟨m, hm⟩ : ∃ m, P.length = m + 1 := ⟨P.length - 1, by omega⟩
  rw [hm, Nat.add_sub_cancel] at h
  refine ⟨fun i => if i = 0 then 1 - ∑ j ∈ Finset.range m, a j else a (i - 1), ?_, fun x => ?_⟩
  · rw [hm, Finset.sum_range_succ']
    simp
  · rw [hm, Finset.sum_range_succ', h x]
    simp only [diff, sub_mul, Finset.sum_sub_distrib, Nat.add_one_sub_one, Nat.add_eq_zero_iff, one_ne_zero, and_false,
      if_false, if_true]
    rw [← Finset.mul_sum]
    simp_rw [mul_comm (a _)]
    ring

theorem mkBall_many (junk : ℕ → K) (PP : List (Point K dim)) (h3 : 3 ≤ PP.length) (hd : PP.length ≤ dim + 1)
    (hi : AffIndep PP) :
    ∃ B, mkBall junk PP = .ok B ∧ B.sup = PP ∧ (∀ p ∈ PP, distSqr p B.center = B.r2) ∧
      (∀ c' ρ', (∀ p ∈ PP, distSqr p c' = ρ') → ρ' = B.r2 + distSqr B.center c') ∧ InHull PP B.center := by
  unfold mkBall
  rw [if_neg (by omega)]
  simp only []
  set off := centroid PP with hoff
  obtain ⟨B', g, ok, hs, ho⟩ := construct_ok
    { sup := PP.map fun p => fun x => p x - off x
      ainv := junk
      q := junk
      la := junk
      off := off
      c := 0
      r2 := 0 } (by simpa using h3) (by simpa using hd) (hi.translate off)
  rw [g]
  simp only at hs ho
  refine ⟨_, rfl, ?_, ?_, ?_, ?_⟩
  · show B'.sup.map _ = PP
    rw [hs]
    exact map_shift_back PP off
  · intro p hp
    show distSqr p (fun x => B'.c x + B'.off x) = B'.r2
    rw [ho, ← distSqr_shift]
    obtain ⟨k, hk, rfl⟩ := List.mem_iff_getElem.mp hp
    have := ok.circ k (by rw [hs]; simpa using hk)
    rwa [hs, List.getD_eq_getElem _ _ (by simpa using hk), List.getElem_map] at this
  · intro c' ρ' h
    show ρ' = B'.r2 + distSqr (fun x => B'.c x + B'.off x) c'
    obtain ⟨a, ha⟩ := ok.hull
    have h3 : ∀ k < B'.sup.length, distSqr (B'.sup.getD k 0) (fun x => c' x - off x) = ρ' := by
      intro k hk
      rw [hs] at hk ⊢
      have hk' : k < PP.length := by simpa using hk
      rw [List.getD_eq_getElem _ _ hk, List.getElem_map, ← h _ (List.getElem_mem hk')]
      unfold distSqr
      exact Finset.sum_congr rfl fun i _ => by ring
    rw [pythagoras B'.sup (by have := ok.len; omega) B'.c _ B'.r2 ρ' a ha ok.circ h3, ho]
    congr 1
    unfold distSqr
    exact Finset.sum_congr rfl fun i _ => by ring
  · obtain ⟨a, ha⟩ := ok.hull
    obtain ⟨w, hw1, hw2⟩ := inHull_diff B'.sup (by have := ok.len; omega) B'.c a ha
    have hl : B'.sup.length = PP.length := by rw [hs]; simp
    rw [hl] at hw1 hw2
    refine ⟨w, hw1, fun x => ?_⟩
    show B'.c x + B'.off x = _
    have e : ∀ i ∈ Finset.range PP.length, w i * B'.sup.getD i 0 x = w i * PP.getD i 0 x - w i * off x := by
      intro i hi
      have hi := Finset.mem_range.mp hi
      rw [hs, List.getD_eq_getElem _ _ (by simpa using hi), List.getD_eq_getElem _ _ hi, List.getElem_map]
      ring
    rw [hw2 x, Finset.sum_congr rfl e, Finset.sum_sub_distrib, ← Finset.sum_mul, hw1, ho]
    ring

/-- **C54**: the constructor on two or more (at most `dim + 1`) affinely independent points returns a ball with these
support points; all of them are at the same distance `radius()` from `center()`, and every other sphere through them is
larger: its squared radius exceeds by the squared distance of the centres. The centre is in the affine hull of the points.
`junk` stands for the uninitialised arrays. -/
theorem c54_construct (junk : ℕ → K) (PP : List (Point K dim)) (h2 : 2 ≤ PP.length) (hd : PP.length ≤ dim + 1)
    (hi : AffIndep PP) :
    ∃ B, mkBall junk PP = .ok B ∧ B.sup = PP ∧ (∀ p ∈ PP, distSqr p B.center = B.r2) ∧
      (∀ c' ρ', (∀ p ∈ PP, distSqr p c' = ρ') → ρ' = B.r2 + distSqr B.center c') ∧ InHull PP B.center := by
  rcases Nat.lt_or_ge 2 PP.length with h | h
  · exact mkBall_many junk PP h hd hi
  · match PP, h2, h with
    | [p, q], _, _ =>
      obtain ⟨B, g, hs, hc, hr⟩ := mkBall_two junk p q (by simp at hd; omega)
      refine ⟨B, g, hs, ?_, ?_, ?_⟩
      · intro s hs'
        rw [hc, hr]
        have hp : distSqr p (fun x => (p x + q x) / 2) = distSqr p q / 4 := by
          unfold distSqr
          rw [Finset.sum_div]
          exact Finset.sum_congr rfl fun i _ => by ring
        have hq : distSqr q (fun x => (p x + q x) / 2) = distSqr p q / 4 := by
          unfold distSqr
          rw [Finset.sum_div]
          exact Finset.sum_congr rfl fun i _ => by ring
        rcases List.mem_pair.mp hs' with rfl | rfl
        · exact hp
        · exact hq
      · intro c' ρ' hρ
        have h1 := hρ p (by simp)
        have h2 := hρ q (by simp)
        have e : distSqr p c' + distSqr q c' = 2 * (distSqr p q / 4 + distSqr (fun x => (p x + q x) / 2) c') := by
          unfold distSqr
          rw [Finset.sum_div, ← Finset.sum_add_distrib, ← Finset.sum_add_distrib, Finset.mul_sum]
          exact Finset.sum_congr rfl fun i _ => by ring
        rw [h1, h2] at e
        rw [hr, hc]
        linarith
      · refine ⟨fun _ => 1 / 2, ?_, fun x => ?_⟩
        · simp [Finset.sum_range_succ]
        · rw [hc]
          simp only [List.length_cons, List.length_nil, Nat.zero_add, Nat.reduceAdd, Finset.sum_range_succ,
            Finset.sum_range_zero, List.getD_cons_zero, List.getD_cons_succ]
          ring

/-- C54, `grow`: growing a ball built by the constructor does not give the ball through the extended support: `center()`
adds the offset of the construction to a centre that is computed without it. -/
theorem c54_grow_false : ∃ (PP : List (Point ℚ 2)) (p : Point ℚ 2) (B B' : Ball ℚ 2),
    AffIndep (PP ++ [p]) ∧ mkBall 0 PP = .ok B ∧ B.grow p = .ok B' ∧ B'.sup = PP ++ [p] ∧
      ∃ s ∈ B'.sup, distSqr s B'.center ≠ B'.r2 ∧ B'.contain (1 / 100000) s = false := by
  refine ⟨[![1, 0], ![3, 0]], ![2, 5], _, _, ?_, rfl, rfl, by decide +kernel, ![1, 0], by decide +kernel, by decide +kernel, by decide +kernel⟩
  intro w h1 h2
  have h3 := h2 0
  have h4 := h2 1
  simp [Finset.sum_range_succ] at h1 h3 h4
  have : w 2 = 0 := h4
  have : w 1 = 0 := by linarith
  have : w 0 = 0 := by linarith
  intro i hi
  have hi : i < 3 := hi
  interval_cases i <;> assumption

/-- C54, what `grow` does achieve: the member `c` (without the offset) is equidistant from the extended support, and the
radius is right. -/
theorem c54_grow_partial (junk : ℕ → K) (B : Ball K dim) (PP : List (Point K dim)) (p : Point K dim)
    (h3 : 3 ≤ PP.length) (hd : PP.length ≤ dim) (hi : AffIndep (PP ++ [p])) (hB : mkBall junk PP = .ok B) :
    ∃ B', B.grow p = .ok B' ∧ B'.sup = PP ++ [p] ∧ ∀ s ∈ PP ++ [p], distSqr s B'.c = B'.r2 := by
  have hiP : AffIndep PP := by
    have := hi.take PP.length
    rwa [List.take_left' rfl] at this
  unfold mkBall at hB
  rw [if_neg (by omega)] at hB
  simp only [] at hB
  set off := centroid PP with hoff
  obtain ⟨B1, g, ok, hs, ho⟩ := construct_ok
    { sup := PP.map fun p => fun x => p x - off x
      ainv := junk
      q := junk
      la := junk
      off := off
      c := 0
      r2 := 0 } (by simpa using h3) (by simp; omega) (hiP.translate off)
  rw [g] at hB
  simp only at hs ho
  have hB := Except.ok.inj hB
  have hsup : B.sup = PP := by
    rw [← hB]
    show B1.sup.map _ = PP
    rw [hs]
    exact map_shift_back PP off
  have hdiff : ∀ i < PP.length, diff B.sup i = diff B1.sup i := by
    intro i hi
    funext x
    unfold diff
    rw [hsup, hs]
    rw [List.getD_eq_getElem _ _ hi, List.getD_eq_getElem _ _ (by omega),
      List.getD_eq_getElem _ _ (by simpa using hi), List.getD_eq_getElem _ _ (by simp; omega)]
    simp
  -- the centre part of the invariant is not used by `grow`: put the right values there
  have hlen : B.sup.length = B1.sup.length := by rw [hsup, hs]; simp
  have hlenP : B.sup.length = PP.length := by rw [hsup]
  have okB : ∃ c r2, BallOK { B with c := c, r2 := r2 } := by
    obtain ⟨a, ha⟩ := ok.hull
    refine ⟨fun x => B1.c x + off x, B1.r2, ?_⟩
    exact
      { len := by
          show 3 ≤ B.sup.length
          omega
        inv := by
          show InvOK (fun i => diff B.sup (i + 1)) (B.sup.length - 1) B.ainv
          have h := ok.inv
          rw [hlen]
          refine ⟨?_, ?_⟩
          · rw [← hB]
            exact h.sym
          · intro i hi k hk
            rw [← h.inv i hi k hk, ← hB]
            refine Finset.sum_congr rfl fun j hj => ?_
            rw [Finset.mem_range] at hj
            rw [← hdiff (j + 1) (by omega), ← hdiff (k + 1) (by omega), ← hB]
        q := by
          show ∀ i < B.sup.length - 1, B.q i = _
          intro i hi
          have := ok.q i (by omega)
          rw [hdiff (i + 1) (by omega), ← this, ← hB]
        hull := ⟨a, fun x => by
          show B1.c x + off x = (∑ i ∈ Finset.range (B.sup.length - 1), diff B.sup (i + 1) x * a i) + B.sup.getD 0 0 x
          rw [ha x, hlen]
          have e : ∑ i ∈ Finset.range (B1.sup.length - 1), diff B1.sup (i + 1) x * a i =
              ∑ i ∈ Finset.range (B1.sup.length - 1), diff B.sup (i + 1) x * a i :=
            Finset.sum_congr rfl fun i hi => by
              have := Finset.mem_range.mp hi
              rw [hdiff (i + 1) (by omega)]
          rw [e, hsup, hs, List.getD_eq_getElem PP _ (show 0 < PP.length by omega),
            List.getD_eq_getElem _ _ (by simp; omega)]
          simp only [List.getElem_map]
          ring⟩
        circ := by
          show ∀ k < B.sup.length, distSqr (B.sup.getD k 0) (fun x => B1.c x + off x) = B1.r2
          intro k hk
          have := ok.circ k (by omega)
          rw [← this, ← distSqr_shift, hsup, hs, List.getD_eq_getElem PP _ (show k < PP.length by omega),
            List.getD_eq_getElem _ _ (by simp; omega), List.getElem_map] }
  obtain ⟨c, r2, okB⟩ := okB
  obtain ⟨B', g', ok', hs', _⟩ := grow_ok _ p okB (by show B.sup.length ≤ dim; omega)
    (by show AffIndep (B.sup ++ [p]); rw [hsup]; exact hi)
  have hs' : B'.sup = PP ++ [p] := by
    rw [hs']
    show B.sup ++ [p] = _
    rw [hsup]
  refine ⟨B', ?_, hs', ?_⟩
  · rw [← g']
    rfl
  · intro s hsm
    rw [← hs'] at hsm
    obtain ⟨k, hk, rfl⟩ := List.mem_iff_getElem.mp hsm
    have := ok'.circ k hk
    rwa [List.getD_eq_getElem _ _ hk] at this

/-- **C50**, containment: over the real numbers `contain(p)` is true iff the distance of `p` to `center()` is at most
`radius()` plus the epsilon. -/
theorem c50_contain {dim : ℕ} (eps : ℝ) (heps : 0 ≤ eps) (B : Ball ℝ dim) (hr : 0 ≤ B.r2) (p : Point ℝ dim) :
    B.contain eps p = true ↔ eucl p B.center ≤ Real.sqrt B.r2 + eps := by
  have hs := Real.sqrt_nonneg B.r2
  have hsq := Real.mul_self_sqrt hr
  rw [eucl_le_iff (by positivity)]
  unfold Ball.contain within
  simp only [distSqr_shift, Bool.or_eq_true, decide_eq_true_eq]
  show _ ↔ distSqr p (fun x => B.c x + B.off x) ≤ _
  set D := distSqr p (fun x => B.c x + B.off x)
  set r := Real.sqrt B.r2
  constructor
  · rintro (h | h)
    · nlinarith [mul_nonneg hs heps]
    · have h2 : (D - B.r2 - eps * eps) ^ 2 ≤ (2 * eps * r) ^ 2 := by nlinarith
      have := abs_le_of_sq_le_sq h2 (by positivity)
      nlinarith [(abs_le.mp this).2]
  · intro h
    rcases le_total (D - B.r2 - eps * eps) 0 with h0 | h0
    · exact Or.inl h0
    · right
      have h1 : D - B.r2 - eps * eps ≤ 2 * eps * r := by nlinarith
      have := mul_le_mul h1 h1 h0 (by positivity)
      nlinarith

/-- C50, equality: `operator==` also holds between balls with different centres and radii. -/
theorem c50_eq_false : ∃ b1 b2 : Ball ℚ 2, mkBall 0 [![0, 0], ![2, 0]] = .ok b1 ∧
    mkBall 0 [![0, 0], ![0, 6]] = .ok b2 ∧ b1.center ≠ b2.center ∧ b1.r2 ≠ b2.r2 ∧ ballEq b1 b2 = true :=
  ⟨_, _, rfl, rfl, by decide +kernel, by decide +kernel, by decide +kernel⟩

/-- C50, equality, the direction that holds. -/
theorem c50_eq_partial (b1 b2 : Ball K dim) (hc : b1.center = b2.center) (hr : b1.r2 = b2.r2) :
    ballEq b1 b2 = true := by simp [ballEq]

/-- Non-trivial instances: a ball through four points of space, with offset and growing, and through three points. -/
example : AffIndep [(![0, 0, 0] : Point ℚ 3), ![2, 0, 0], ![0, 4, 0], ![0, 0, 6]] := by
  intro w h1 h2
  have h3 := h2 0
  have h4 := h2 1
  have h5 := h2 2
  simp [Finset.sum_range_succ] at h1 h3 h4 h5
  have : w 0 = 0 := by linarith
  intro i hi
  have hi : i < 4 := hi
  interval_cases i <;> assumption

example : ((mkBall (fun i => (i : ℚ)) [(![0, 0, 0] : Point ℚ 3), ![2, 0, 0], ![0, 4, 0], ![0, 0, 6]]).toOption.map
    fun B => (B.center, B.r2)) = some (![1, 2, 3], 14) := by decide +kernel

end Verif.Seb
