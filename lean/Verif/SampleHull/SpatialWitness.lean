import Verif.SampleHull.SpatialProps
import Verif.QHull.ParWitness
import Verif.QHull.DcWitness

set_option linter.unusedSectionVars false
set_option linter.unusedVariables false

/-!
Inputs that meet the hypotheses of C78, and an input for which a wrong hull is returned. They lie on the moment curve, moved so that the
origin is inside the hull of the sample.
-/

namespace Verif.SampleHull

open Verif Verif.QHull Verif.Hull3d Verif.Par Verif.Reserve

/-- A point of the moved moment curve. -/
def cu (t : ℤ) : P3 ℚ := ![(t : ℚ) - 17 / 4, (t : ℚ) ^ 2 - 861 / 4, (t : ℚ) ^ 3 + 2197 / 4]

/-- Parameters of 34 points. -/
def parA : List ℤ := [12, -20, 11, 14] ++ (List.range 30).map fun k : ℕ => (k : ℤ) - 19

/-- One more point. -/
def parB : List ℤ := parA ++ [13]

/-- 34 points. -/
def ptsA : List (P3 ℚ) := parA.map cu

/-- 35 points. -/
def ptsB : List (P3 ℚ) := parB.map cu

theorem cu_sv (a b c d : ℤ) : sv (cu a) (cu b) (cu c) (cu d) =
    -(((b - a) * (c - a) * (d - a) * (c - b) * (d - b) * (d - c) : ℤ) : ℚ) := by
  rw [sv_poly]
  simp [cu]
  ring

theorem cu_det (a b c : ℤ) : sv (cu a) (cu b) (cu c) ![-35 / 4, -121 / 4, -4787 / 4] =
    (((b - a) * (c - a) * (c - b) * (2 * (a * b * c) + 9 * (a * b + b * c + c * a) + 370 * (a + b + c) + 3492) : ℤ) : ℚ) / 2 := by
  rw [sv_poly]
  simp [cu]
  ring

theorem parB_det_lt : ∀ a ∈ parB, ∀ b ∈ parB, a < b → ∀ c ∈ parB, b < c →
    2 * (a * b * c) + 9 * (a * b + b * c + c * a) + 370 * (a + b + c) + 3492 ≠ 0 := by
  decide +kernel

theorem parB_det (a : ℤ) (ha : a ∈ parB) (b : ℤ) (hb : b ∈ parB) (c : ℤ) (hc : c ∈ parB) (n1 : a ≠ b) (n2 : a ≠ c) (n3 : b ≠ c) :
    2 * (a * b * c) + 9 * (a * b + b * c + c * a) + 370 * (a + b + c) + 3492 ≠ 0 := by
  rcases lt_or_gt_of_ne n1 with h1 | h1 <;> rcases lt_or_gt_of_ne n2 with h2 | h2 <;> rcases lt_or_gt_of_ne n3 with h3 | h3
  · exact parB_det_lt a ha b hb h1 c hc h3
  · have := parB_det_lt a ha c hc h2 b hb h3
    intro h; apply this; rw [← h]; ring
  · omega
  · have := parB_det_lt c hc a ha h2 b hb h1
    intro h; apply this; rw [← h]; ring
  · have := parB_det_lt b hb a ha h1 c hc h2
    intro h; apply this; rw [← h]; ring
  · omega
  · have := parB_det_lt b hb c hc h3 a ha h2
    intro h; apply this; rw [← h]; ring
  · have := parB_det_lt c hc b hb h3 a ha h1
    intro h; apply this; rw [← h]; ring

/-- Parts of the 35 points with the same interior point are in general position. -/
theorem cu_gen {T : List ℤ} (hT : T ⊆ parB) (h4 : 4 ≤ (T.map cu).toFinset.card)
    (hc : centreOf (T.map cu) = some ![-35 / 4, -121 / 4, -4787 / 4]) : GenInput 0 (T.map cu) := by
  refine ⟨⟨le_refl _, h4, ?_⟩, ?_⟩
  · intro a ha b hb c hc d hd n1 n2 n3 n4 n5 n6
    obtain ⟨a, _, rfl⟩ := List.mem_map.mp ha
    obtain ⟨b, _, rfl⟩ := List.mem_map.mp hb
    obtain ⟨c, _, rfl⟩ := List.mem_map.mp hc
    obtain ⟨d, _, rfl⟩ := List.mem_map.mp hd
    have e : ∀ {x y : ℤ}, cu x ≠ cu y → y - x ≠ 0 := fun h hc => h (by rw [sub_eq_zero.mp hc])
    rw [abs_pos, cu_sv, neg_ne_zero, Int.cast_ne_zero]
    exact mul_ne_zero (mul_ne_zero (mul_ne_zero (mul_ne_zero (mul_ne_zero (e n1) (e n2)) (e n3)) (e n4)) (e n5)) (e n6)
  · intro o ho a ha b hb c hc' n1 n2 n3
    rw [hc] at ho
    obtain rfl := Option.some.inj ho
    obtain ⟨a, ha', rfl⟩ := List.mem_map.mp ha
    obtain ⟨b, hb', rfl⟩ := List.mem_map.mp hb
    obtain ⟨c, hcT, rfl⟩ := List.mem_map.mp hc'
    have e : ∀ {x y : ℤ}, cu x ≠ cu y → y - x ≠ 0 := fun h hc => h (by rw [sub_eq_zero.mp hc])
    rw [abs_pos, cu_det]
    refine div_ne_zero (Int.cast_ne_zero.mpr ?_) (by norm_num)
    refine mul_ne_zero (mul_ne_zero (mul_ne_zero (e n1) (e n2)) (e n3)) (parB_det a (hT ha') b (hT hb') c (hT hcT) ?_ ?_ ?_)
    · rintro rfl; exact n1 rfl
    · rintro rfl; exact n2 rfl
    · rintro rfl; exact n3 rfl

theorem ptsA_gen : GenInput 0 ptsA := cu_gen (fun t h => List.mem_append_left _ h) (by decide +kernel) (by decide +kernel)

theorem ptsB_gen : GenInput 0 ptsB := cu_gen (fun t h => h) (by decide +kernel) (by decide +kernel)

/-- The parameters in order. -/
def ordA : List ℤ := ((List.range 33).map fun k : ℕ => (k : ℤ) - 20) ++ [14]

/-- The facets of the first hull, by Gale's criterion: the parameters. -/
def galeA : List (ℤ × ℤ × ℤ) :=
  ((List.range 32).map fun k => (-20, ordA.getD (k + 1) 0, ordA.getD (k + 2) 0)) ++
    (List.range 32).map fun k => (14, ordA.getD k 0, ordA.getD (k + 1) 0)

/-- The facets of the first hull. -/
def facetsA : List (IFacet ℚ) := galeA.map fun t => ⟨cu t.1, cu t.2.1, cu t.2.2⟩

theorem ptsA_facets {A : List (IFacet ℚ)} (hA : IsHull3 ptsA A) : 64 ≤ A.length := by
  have hv : ∀ f ∈ facetsA, f.a ∈ ptsA ∧ f.b ∈ ptsA ∧ f.c ∈ ptsA := by decide +kernel
  have hd : facetsA.Pairwise fun f g => ¬ ((f.a = g.a ∨ f.a = g.b ∨ f.a = g.c) ∧ (f.b = g.a ∨ f.b = g.b ∨ f.b = g.c) ∧
      (f.c = g.a ∨ f.c = g.b ∨ f.c = g.c)) := by decide +kernel
  have hi : ∀ t ∈ galeA, (∀ d ∈ parA, ¬ (d = t.1 ∨ d = t.2.1 ∨ d = t.2.2) →
        0 < (t.2.1 - t.1) * (t.2.2 - t.1) * (d - t.1) * (t.2.2 - t.2.1) * (d - t.2.1) * (d - t.2.2)) ∨
      ∀ d ∈ parA, ¬ (d = t.1 ∨ d = t.2.1 ∨ d = t.2.2) →
        (t.2.1 - t.1) * (t.2.2 - t.1) * (d - t.1) * (t.2.2 - t.2.1) * (d - t.2.1) * (d - t.2.2) < 0 := by decide +kernel
  have hs : ∀ f ∈ facetsA, (∀ p ∈ ptsA, ¬ HasV f p → 0 < vol f.a f.b f.c p) ∨
      ∀ p ∈ ptsA, ¬ HasV f p → vol f.a f.b f.c p < 0 := by
    intro f hf
    obtain ⟨t, ht, rfl⟩ := List.mem_map.mp hf
    have key : ∀ d, ¬ HasV (⟨cu t.1, cu t.2.1, cu t.2.2⟩ : IFacet ℚ) (cu d) → ¬ (d = t.1 ∨ d = t.2.1 ∨ d = t.2.2) := by
      rintro d hn (rfl | rfl | rfl)
      · exact hn (Or.inl rfl)
      · exact hn (Or.inr (Or.inl rfl))
      · exact hn (Or.inr (Or.inr rfl))
    rcases hi t ht with h | h
    · refine Or.inl fun p hp hn => ?_
      obtain ⟨d, hd', rfl⟩ := List.mem_map.mp hp
      rw [vol_sv, cu_sv, neg_neg]
      exact Int.cast_pos.mpr (h d hd' (key d hn))
    · refine Or.inr fun p hp hn => ?_
      obtain ⟨d, hd', rfl⟩ := List.mem_map.mp hp
      rw [vol_sv, cu_sv, neg_neg]
      exact Int.cast_lt_zero.mpr (h d hd' (key d hn))
  have h := length_le_of_match (B := facetsA) (facets_match hA.complete (by
    rintro f hf v (rfl | rfl | rfl)
    · exact (hv f hf).1
    · exact (hv f hf).2.1
    · exact (hv f hf).2.2) (by decide +kernel) hs) (hd.imp fun hn hc =>
      hn ⟨(hc _).mp (Or.inl rfl), (hc _).mp (Or.inr (Or.inl rfl)), (hc _).mp (Or.inr (Or.inr rfl))⟩)
  exact h

/-- The sample: four points. -/
def ptsS : List (P3 ℚ) := [12, -20, 11, 14].map cu

/-- The hull of the sample. -/
def hullS : List (IFacet ℚ) := [⟨cu 12, cu (-20), cu 11⟩, ⟨cu 12, cu 14, cu (-20)⟩, ⟨cu 12, cu 11, cu 14⟩, ⟨cu (-20), cu 14, cu 11⟩]

theorem hullS_ok (fuel : ℕ) : QHull.compute 0 fuel ptsS = .ok hullS := by
  have h : brute 0 ptsS = hullS := by
    have h1 : (brute 0 ptsS).map (fun f => (f.a, f.b, f.c)) = hullS.map fun f => (f.a, f.b, f.c) := by decide +kernel
    refine List.map_injective_iff.mpr ?_ h1
    rintro ⟨a, b, c⟩ ⟨a', b', c'⟩ he
    simp only [Prod.mk.injEq] at he
    obtain ⟨rfl, rfl, rfl⟩ := he
    rfl
  unfold QHull.compute
  rw [if_pos (by decide), h]

/-- The calls of the filter one after the other, the last facet first. -/
def schedS : List ℕ := List.replicate 40 3 ++ List.replicate 40 1 ++ List.replicate 40 0 ++ List.replicate 40 2

theorem ok_of_toOption {α : Type} {r : Except Err α} {x : α} (h : r.toOption = some x) : r = .ok x := by
  cases r with
  | error e => cases h
  | ok y =>
    simp only [Except.toOption, Option.some.injEq] at h
    rw [h]

theorem filterA : filter2 4 2048 corners3 schedS ptsA (filterFacets hullS) = .ok ptsA := ok_of_toOption (by decide +kernel)

theorem filterB : filter2 4 2048 corners3 schedS ptsB (filterFacets hullS) = .ok ptsA := ok_of_toOption (by decide +kernel)

/-- The hypotheses of `c78_large_partial` are met: with a limit of 30 points, the hull of the 34 points is returned. -/
theorem c78_instance : ∃ o : ℕ → Oracle ℚ, (∀ n, (o n).Fine) ∧ ∃ out,
    compute3 30 4 2048 (QHull.compute 0 400000) (parCompute 0 400000 (fun _ f l => furthestPar f l) 4 o) (fun _ _ => .ok ptsS) 0 schedS
      ptsA = .ok out ∧ IsHull3 ptsA out := by
  obtain ⟨B, hB⟩ := c78_large_partial (limit := 30) (size := 0) (sample := fun _ _ => .ok ptsS) ptsA_gen (w := 4) (bs := 2048)
    (by norm_num) (by norm_num) (by decide) picks_furthest (numProc := 4) (by norm_num) (fuel := 400000) (by decide) rfl
    (hullS_ok _) filterA ptsA_gen
  obtain ⟨_, h⟩ := hB (fun _ => plainOracle 32 B) fun _ => plain_fine 32 B
  exact ⟨fun _ => plainOracle 32 B, fun _ => plain_fine 32 B,
    h ((covers_iff ptsA_gen (List.Subset.refl _)).mp fun p hp => subset_convexHull ℚ _ hp) (fun A hA => ptsA_facets hA) (plain_fair 32 B)⟩

/-- The point with parameter 13 is not in the hull of the others. -/
theorem cu13_outside : cu 13 ∉ convexHull ℚ {q | q ∈ ptsA} := by
  have hpos : ∀ p ∈ ptsA, (0 : ℚ) < p 1 - 26 * p 0 + 273 + 1 / 4 + 1/2 := by decide +kernel
  have h : convexHull ℚ {q | q ∈ ptsA} ⊆ {q : P3 ℚ | 0 < q 1 - 26 * q 0 + 273 + 1 / 4 + 1/2} := by
    refine convexHull_min hpos ?_
    intro x hx y hy s t hs ht hst
    simp only [Set.mem_ofPred_eq, Pi.add_apply, Pi.smul_apply, smul_eq_mul] at *
    have e : s * x 1 + t * y 1 - 26 * (s * x 0 + t * y 0) + 273 + 1 / 4 + 1 / 2 =
        s * (x 1 - 26 * x 0 + 273 + 1 / 4 + 1 / 2) + t * (y 1 - 26 * y 0 + 273 + 1 / 4 + 1 / 2) := by
      have : t = 1 - s := by linarith
      rw [this]; ring
    rw [e]
    rcases hs.eq_or_lt with rfl | hs'
    · have : t = 1 := by linarith
      rw [this]; linarith
    · have := mul_pos hs' hx
      have := mul_nonneg ht hy.le
      linarith
  intro hc
  have := h hc
  revert this
  show ¬ (0 : ℚ) < _
  decide +kernel

/-- C78 fails for 35 points, with a limit of 30: a hull vertex is lost in the filter, and the facets of the hull of the other 34 points
are returned. -/
theorem c78_lost_false : GenInput 0 ptsB ∧ ∃ o : ℕ → Oracle ℚ, (∀ n, (o n).Fine) ∧ ∃ out,
    compute3 30 4 2048 (QHull.compute 0 400000) (parCompute 0 400000 (fun _ f l => furthestPar f l) 4 o) (fun _ _ => .ok ptsS) 0 schedS
      ptsB = .ok out ∧ IsHull3 ptsA out ∧ ¬ IsHull3 ptsB out ∧ cu 13 ∈ ptsB ∧
      cu 13 ∉ convexHull ℚ {p | ∃ f ∈ out, HasV f p} := by
  refine ⟨ptsB_gen, ?_⟩
  obtain ⟨o, ho, out, h1, h2⟩ := c78_instance
  refine ⟨o, ho, out, ?_⟩
  have e1 := compute3_large (limit := 30) (size := 0) (sample := fun _ _ => .ok ptsS)
    (par := parCompute 0 400000 (fun _ f l => furthestPar f l) 4 o) (P := ptsA) (by decide) rfl (hullS_ok 400000) filterA
  have e2 := compute3_large (limit := 30) (size := 0) (sample := fun _ _ => .ok ptsS)
    (par := parCompute 0 400000 (fun _ f l => furthestPar f l) 4 o) (P := ptsB) (by decide) rfl (hullS_ok 400000) filterB
  have hm : cu 13 ∈ ptsB := by decide +kernel
  have hout : cu 13 ∉ convexHull ℚ {p | ∃ f ∈ out, HasV f p} := by
    rw [← h2.span]
    exact cu13_outside
  refine ⟨by rw [e2, ← e1]; exact h1, h2, fun hc => ?_, hm, hout⟩
  apply hout
  rw [← hc.span]
  exact subset_convexHull ℚ _ hm

set_option synthInstance.maxSize 2000 in
set_option synthInstance.maxHeartbeats 200000 in
/-- The hypotheses of `c78_small_hull_false` are met by a tetrahedron, with a limit of four points. -/
example (sched : List ℕ) (sample : List (P3 ℚ) → ℕ → Except Err (List (P3 ℚ))) (o : ℕ → Oracle ℚ) (ho : ∀ n, (o n).Fine)
    (out : List (IFacet ℚ)) :
    ¬ (compute3 4 4 2048 (QHull.compute 0 600) (parCompute 0 600 (fun _ f l => furthestPar f l) 4 o) sample 0 sched tet4 = .ok out ∧
      IsHull3 tet4 out) := by
  have hA := brute_isHull tet4_gen (by decide +kernel)
  exact c78_small_hull_false ⟨le_refl _, by decide +kernel, by decide +kernel, by decide +kernel⟩ (by decide) hA (by decide +kernel)
    (by norm_num) (by norm_num) (by decide) picks_furthest (by norm_num) (by decide) ho

/-- The hypotheses of `c78_result_partial` on the input are met by a thousand points. -/
example : ∃ P : List (P3 ℚ), P.length = 1000 ∧ GenAll 0 P := by
  obtain ⟨T, hT, _, hg⟩ := genAll_exists 1000
  exact ⟨T.map mc, by rw [List.length_map, hT], hg⟩

/-- The hypotheses of `c78_small` are met. -/
example : GenInput 0 ptsA ∧ ptsA.length = 34 := ⟨ptsA_gen, by decide⟩

end Verif.SampleHull
