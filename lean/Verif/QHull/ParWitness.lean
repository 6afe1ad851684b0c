import Mathlib.Tactic.Ring
import Verif.QHull.ParProps

set_option linter.unusedSectionVars false
set_option linter.unusedVariables false

/-!
Inputs that meet the hypotheses of C66.
-/

namespace Verif.QHull

open Verif Verif.Hull3d Verif.Par Verif.Reserve

/-- The oracle in which addresses and orders are those of the numbers and threads run one after the other, each `m` times. -/
def plainOracle (T m : ℕ) : Oracle ℚ :=
  ⟨id, id, fun _ => id, (List.range T).flatMap (List.replicate m), (List.range T).flatMap (List.replicate m), 0⟩

theorem plain_fine (T m : ℕ) : (plainOracle T m).Fine := ⟨fun _ _ h => h, fun l => List.Perm.refl l, fun _ l => List.Perm.refl l⟩

theorem plain_count (T m t : ℕ) (ht : t < T) : m ≤ ((List.range T).flatMap (List.replicate m)).count t := by
  rw [List.count_flatMap]
  refine le_trans ?_ (List.single_le_sum (fun _ _ => Nat.zero_le _) _ (List.mem_map.mpr ⟨t, List.mem_range.mpr ht, rfl⟩))
  simp

theorem plain_fair (T m : ℕ) : Fair (fun _ => plainOracle T m) T m := fun _ t ht => ⟨plain_count T m t ht, plain_count T m t ht⟩

/-- C66 fails for a tetrahedron: the run follows a null pointer. -/
theorem c66_small_false : GenInput 0 tet4 ∧ ∃ o : ℕ → Oracle ℚ, (∀ n, (o n).Fine) ∧
    parCompute 0 600 (fun _ f l => furthestPar f l) 1 o tet4 = .error .ub := by
  refine ⟨tet4_gen, ?_⟩
  obtain ⟨out, _, hA⟩ := c64_quickhull tet4_gen (fun _ => by decide +kernel) (fuel := 600) (by decide)
  have hl : out.length < 64 := by
    have h1 := brute_isHull tet4_gen (by decide +kernel)
    rw [hA.length_eq h1]
    decide +kernel
  obtain ⟨B, hB⟩ := c66_small_ub tet4_gen hA hl picks_furthest (le_refl 1) (fuel := 600) (by decide)
  exact ⟨fun _ => plainOracle 8 B, fun _ => plain_fine 8 B, (hB _ fun _ => plain_fine 8 B).2 (plain_fair 8 B)⟩

/-- A point of the moment curve. -/
def cur (t : ℤ) : P3 ℚ := ![(t : ℚ), (t : ℚ) ^ 2, (t : ℚ) ^ 3]

/-- Parameters of 34 points. -/
def par34 : List ℤ := (List.range 34).map fun k : ℕ => (k : ℤ) - 20

/-- 34 points of the moment curve. -/
def mom34 : List (P3 ℚ) := par34.map cur

theorem cur_sv (a b c d : ℤ) : sv (cur a) (cur b) (cur c) (cur d) =
    -(((b - a) * (c - a) * (d - a) * (c - b) * (d - b) * (d - c) : ℤ) : ℚ) := by
  rw [sv_poly]
  simp [cur]
  ring

theorem cur_det (a b c : ℤ) : sv (cur a) (cur b) (cur c) ![-19/4, 713/4, -7531/4] =
    (((b - a) * (c - a) * (c - b) * (4 * (a * b * c) + 19 * (a * b + b * c + c * a) + 713 * (a + b + c) + 7531) : ℤ) : ℚ) / 4 := by
  rw [sv_poly]
  simp [cur]
  ring

theorem par34_det_lt : ∀ a ∈ par34, ∀ b ∈ par34, a < b → ∀ c ∈ par34, b < c →
    4 * (a * b * c) + 19 * (a * b + b * c + c * a) + 713 * (a + b + c) + 7531 ≠ 0 := by
  decide +kernel

theorem par34_det (a : ℤ) (ha : a ∈ par34) (b : ℤ) (hb : b ∈ par34) (c : ℤ) (hc : c ∈ par34) (n1 : a ≠ b) (n2 : a ≠ c) (n3 : b ≠ c) :
    4 * (a * b * c) + 19 * (a * b + b * c + c * a) + 713 * (a + b + c) + 7531 ≠ 0 := by
  rcases lt_or_gt_of_ne n1 with h1 | h1 <;> rcases lt_or_gt_of_ne n2 with h2 | h2 <;> rcases lt_or_gt_of_ne n3 with h3 | h3
  · exact par34_det_lt a ha b hb h1 c hc h3
  · have := par34_det_lt a ha c hc h2 b hb h3
    intro h; apply this; rw [← h]; ring
  · omega
  · have := par34_det_lt c hc a ha h2 b hb h1
    intro h; apply this; rw [← h]; ring
  · have := par34_det_lt b hb a ha h1 c hc h2
    intro h; apply this; rw [← h]; ring
  · omega
  · have := par34_det_lt b hb c hc h3 a ha h2
    intro h; apply this; rw [← h]; ring
  · have := par34_det_lt c hc b hb h3 a ha h1
    intro h; apply this; rw [← h]; ring

theorem mom34_centre : centreOf mom34 = some ![-19/4, 713/4, -7531/4] := by
  decide +kernel

theorem mom34_gen : GenInput 0 mom34 := by
  refine ⟨⟨le_refl _, by decide +kernel, ?_⟩, ?_⟩
  · intro a ha b hb c hc d hd n1 n2 n3 n4 n5 n6
    obtain ⟨a, _, rfl⟩ := List.mem_map.mp ha
    obtain ⟨b, _, rfl⟩ := List.mem_map.mp hb
    obtain ⟨c, _, rfl⟩ := List.mem_map.mp hc
    obtain ⟨d, _, rfl⟩ := List.mem_map.mp hd
    have e : ∀ {x y : ℤ}, cur x ≠ cur y → y - x ≠ 0 := fun h hc => h (by rw [sub_eq_zero.mp hc])
    rw [abs_pos, cur_sv, neg_ne_zero, Int.cast_ne_zero]
    exact mul_ne_zero (mul_ne_zero (mul_ne_zero (mul_ne_zero (mul_ne_zero (e n1) (e n2)) (e n3)) (e n4)) (e n5)) (e n6)
  · intro o ho a ha b hb c hc n1 n2 n3
    rw [mom34_centre] at ho
    obtain rfl := Option.some.inj ho
    obtain ⟨a, ha', rfl⟩ := List.mem_map.mp ha
    obtain ⟨b, hb', rfl⟩ := List.mem_map.mp hb
    obtain ⟨c, hc', rfl⟩ := List.mem_map.mp hc
    have e : ∀ {x y : ℤ}, cur x ≠ cur y → y - x ≠ 0 := fun h hc => h (by rw [sub_eq_zero.mp hc])
    rw [abs_pos, cur_det]
    refine div_ne_zero (Int.cast_ne_zero.mpr ?_) (by norm_num)
    refine mul_ne_zero (mul_ne_zero (mul_ne_zero (e n1) (e n2)) (e n3)) (par34_det a ha' b hb' c hc' ?_ ?_ ?_)
    · rintro rfl; exact n1 rfl
    · rintro rfl; exact n2 rfl
    · rintro rfl; exact n3 rfl

/-- Its facets, by Gale's criterion: the parameters. -/
def gale : List (ℤ × ℤ × ℤ) :=
  ((List.range 32).map fun k : ℕ => (-20, (k : ℤ) - 19, (k : ℤ) - 18)) ++
    (List.range 32).map fun k : ℕ => (13, (k : ℤ) - 20, (k : ℤ) - 19)

/-- Its facets. -/
def gale34 : List (IFacet ℚ) := gale.map fun t => ⟨cur t.1, cur t.2.1, cur t.2.2⟩

theorem mom34_facets {A : List (IFacet ℚ)} (hA : IsHull3 mom34 A) : 64 ≤ A.length := by
  have hv : ∀ f ∈ gale34, f.a ∈ mom34 ∧ f.b ∈ mom34 ∧ f.c ∈ mom34 := by decide +kernel
  have hd : gale34.Pairwise fun f g => ¬ ((f.a = g.a ∨ f.a = g.b ∨ f.a = g.c) ∧ (f.b = g.a ∨ f.b = g.b ∨ f.b = g.c) ∧
      (f.c = g.a ∨ f.c = g.b ∨ f.c = g.c)) := by decide +kernel
  have hi : ∀ t ∈ gale, (∀ d ∈ par34, ¬ (d = t.1 ∨ d = t.2.1 ∨ d = t.2.2) →
        0 < (t.2.1 - t.1) * (t.2.2 - t.1) * (d - t.1) * (t.2.2 - t.2.1) * (d - t.2.1) * (d - t.2.2)) ∨
      ∀ d ∈ par34, ¬ (d = t.1 ∨ d = t.2.1 ∨ d = t.2.2) →
        (t.2.1 - t.1) * (t.2.2 - t.1) * (d - t.1) * (t.2.2 - t.2.1) * (d - t.2.1) * (d - t.2.2) < 0 := by decide +kernel
  have hs : ∀ f ∈ gale34, (∀ p ∈ mom34, ¬ HasV f p → 0 < vol f.a f.b f.c p) ∨
      ∀ p ∈ mom34, ¬ HasV f p → vol f.a f.b f.c p < 0 := by
    intro f hf
    obtain ⟨t, ht, rfl⟩ := List.mem_map.mp hf
    have key : ∀ d, ¬ HasV (⟨cur t.1, cur t.2.1, cur t.2.2⟩ : IFacet ℚ) (cur d) → ¬ (d = t.1 ∨ d = t.2.1 ∨ d = t.2.2) := by
      rintro d hn (rfl | rfl | rfl)
      · exact hn (Or.inl rfl)
      · exact hn (Or.inr (Or.inl rfl))
      · exact hn (Or.inr (Or.inr rfl))
    rcases hi t ht with h | h
    · refine Or.inl fun p hp hn => ?_
      obtain ⟨d, hd', rfl⟩ := List.mem_map.mp hp
      rw [vol_sv, cur_sv, neg_neg]
      exact Int.cast_pos.mpr (h d hd' (key d hn))
    · refine Or.inr fun p hp hn => ?_
      obtain ⟨d, hd', rfl⟩ := List.mem_map.mp hp
      rw [vol_sv, cur_sv, neg_neg]
      exact Int.cast_lt_zero.mpr (h d hd' (key d hn))
  have h := length_le_of_match (B := gale34) (facets_match hA.complete (by
    rintro f hf v (rfl | rfl | rfl)
    · exact (hv f hf).1
    · exact (hv f hf).2.1
    · exact (hv f hf).2.2) (by decide +kernel) hs) (hd.imp fun hn hc =>
      hn ⟨(hc _).mp (Or.inl rfl), (hc _).mp (Or.inr (Or.inl rfl)), (hc _).mp (Or.inr (Or.inr rfl))⟩)
  exact h

/-- The hypotheses of `c66_par_quickhull_partial` are met: the hull of these 34 points has 64 facets. -/
theorem c66_moment_curve : ∃ o : ℕ → Oracle ℚ, (∀ n, (o n).Fine) ∧
    ∃ out, parCompute 0 400000 (fun _ f l => furthestPar f l) 4 o mom34 = .ok out ∧ IsHull3 mom34 out := by
  obtain ⟨A, hA⟩ := hull_exists mom34_gen
  obtain ⟨B, hB⟩ := c66_par_quickhull_partial mom34_gen hA (mom34_facets hA) picks_furthest (numProc := 4) (by decide)
    (fuel := 400000) (by decide)
  exact ⟨fun _ => plainOracle 32 B, fun _ => plain_fine 32 B, (hB _ fun _ => plain_fine 32 B).2 (plain_fair 32 B)⟩

end Verif.QHull
