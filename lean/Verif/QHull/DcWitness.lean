import Mathlib.Algebra.MvPolynomial.Funext
import Verif.QHull.DcWhole
import Verif.QHull.ParWitness

set_option linter.unusedSectionVars false
set_option linter.unusedVariables false

/-!
Inputs of every size that meet the hypotheses of `c48_compute_partial`.
-/

namespace Verif.QHull

open Verif Verif.Hull3d Verif.Par Verif.Reserve

/-- A point of the moment curve. -/
def mc (t : ℚ) : P3 ℚ := ![t, t ^ 2, t ^ 3]

theorem mc_inj {s t : ℚ} (h : mc s = mc t) : s = t := congrFun h 0

theorem mc_sv (a b c d : ℚ) : sv (mc a) (mc b) (mc c) (mc d) = -((b - a) * (c - a) * (d - a) * (c - b) * (d - b) * (d - c)) := by
  rw [sv_poly]
  simp [mc]
  ring

theorem mc_centre (a b c d x y z : ℚ) : sv (mc x) (mc y) (mc z) (centre (mc a) (mc b) (mc c) (mc d)) =
    -((y - x) * (z - x) * (z - y) * ((a - x) * (a - y) * (a - z) + (b - x) * (b - y) * (b - z) + (c - x) * (c - y) * (c - z) +
      (d - x) * (d - y) * (d - z))) / 4 := by
  rw [sv_poly]
  simp [mc, centre]
  ring

section

variable {n : ℕ}

open MvPolynomial

/-- The condition on four and three parameters as a polynomial. -/
noncomputable def condPoly (i : Fin 4 → Fin n) (j : Fin 3 → Fin n) : MvPolynomial (Fin n) ℚ :=
  ∑ k : Fin 4, (X (i k) - X (j 0)) * (X (i k) - X (j 1)) * (X (i k) - X (j 2))

theorem condPoly_ne (i : Fin 4 → Fin n) (j : Fin 3 → Fin n) (hi : Function.Injective i) : condPoly i j ≠ 0 := by
  obtain ⟨k, hk⟩ : ∃ k, ∀ l, i k ≠ j l := by
    by_contra hcon
    push Not at hcon
    choose g hg using hcon
    have hinj : Function.Injective g := fun a b h => hi (by rw [hg a, hg b, h])
    have := Fintype.card_le_of_injective g hinj
    simp at this
  intro h0
  have h1 := congrArg (eval (Pi.single (i k) (1 : ℚ))) h0
  simp only [condPoly, map_sum, map_mul, map_sub, eval_X, map_zero] at h1
  have hj : ∀ l, (Pi.single (i k) (1 : ℚ) : Fin n → ℚ) (j l) = 0 := fun l => Pi.single_eq_of_ne (hk l).symm _
  simp only [hj, sub_zero] at h1
  rw [Finset.sum_eq_single k] at h1
  · simp at h1
  · intro b _ hb
    rw [Pi.single_eq_of_ne (fun h => hb (hi h))]
    simp
  · simp

theorem diffPoly_ne (a b : Fin n) (h : a ≠ b) : (X a - X b : MvPolynomial (Fin n) ℚ) ≠ 0 := by
  intro h0
  have h1 := congrArg (eval (Pi.single a (1 : ℚ))) h0
  simp only [map_sub, eval_X, map_zero, Pi.single_eq_same, Pi.single_eq_of_ne h.symm] at h1
  norm_num at h1

/-- Parameters that are different and meet all conditions. -/
theorem params_exist (n : ℕ) : ∃ v : Fin n → ℚ, Function.Injective v ∧ ∀ (i : Fin 4 → Fin n) (j : Fin 3 → Fin n),
    Function.Injective i → ∑ k : Fin 4, (v (i k) - v (j 0)) * (v (i k) - v (j 1)) * (v (i k) - v (j 2)) ≠ 0 := by
  classical
  set D : MvPolynomial (Fin n) ℚ := ∏ q ∈ (Finset.univ : Finset (Fin n × Fin n)).filter (fun q => q.1 ≠ q.2), (X q.1 - X q.2)
    with hD
  set E : MvPolynomial (Fin n) ℚ := ∏ q ∈ (Finset.univ : Finset ((Fin 4 → Fin n) × (Fin 3 → Fin n))).filter
    (fun q => Function.Injective q.1), condPoly q.1 q.2 with hE
  have hne : D * E ≠ 0 := by
    refine mul_ne_zero ?_ ?_
    · rw [hD, Finset.prod_ne_zero_iff]
      intro q hq
      exact diffPoly_ne _ _ (Finset.mem_filter.mp hq).2
    · rw [hE, Finset.prod_ne_zero_iff]
      intro q hq
      exact condPoly_ne _ _ (Finset.mem_filter.mp hq).2
  obtain ⟨v, hv⟩ : ∃ v : Fin n → ℚ, eval v (D * E) ≠ 0 := by
    by_contra hcon
    push Not at hcon
    exact hne (MvPolynomial.funext fun v => by rw [hcon v, map_zero])
  rw [map_mul] at hv
  have hvD := left_ne_zero_of_mul hv
  have hvE := right_ne_zero_of_mul hv
  rw [hD, map_prod, Finset.prod_ne_zero_iff] at hvD
  rw [hE, map_prod, Finset.prod_ne_zero_iff] at hvE
  refine ⟨v, ?_, ?_⟩
  · intro a b hab
    by_contra h
    have := hvD (a, b) (Finset.mem_filter.mpr ⟨Finset.mem_univ _, h⟩)
    simp only [map_sub, eval_X] at this
    exact this (sub_eq_zero.mpr hab)
  · intro i j hi
    have := hvE (i, j) (Finset.mem_filter.mpr ⟨Finset.mem_univ _, hi⟩)
    simpa only [condPoly, map_sum, map_mul, map_sub, eval_X] using this

end

/-- For every size there are points of the moment curve in general position. -/
theorem genAll_exists (n : ℕ) : ∃ T : List ℚ, T.length = n ∧ T.Nodup ∧ GenAll 0 (T.map mc) := by
  obtain ⟨v, hv, hc⟩ := params_exist n
  have hnd : (List.ofFn v).Nodup := List.nodup_ofFn.mpr hv
  refine ⟨List.ofFn v, List.length_ofFn, hnd, le_refl _, hnd.map fun a b => mc_inj, ?_, ?_⟩
  · intro a ha b hb c hc d hd n1 n2 n3 n4 n5 n6
    obtain ⟨a, _, rfl⟩ := List.mem_map.mp ha
    obtain ⟨b, _, rfl⟩ := List.mem_map.mp hb
    obtain ⟨c, _, rfl⟩ := List.mem_map.mp hc
    obtain ⟨d, _, rfl⟩ := List.mem_map.mp hd
    have e : ∀ {x y : ℚ}, mc x ≠ mc y → y - x ≠ 0 := fun h hc => h (by rw [sub_eq_zero.mp hc])
    rw [abs_pos, mc_sv, neg_ne_zero]
    exact mul_ne_zero (mul_ne_zero (mul_ne_zero (mul_ne_zero (mul_ne_zero (e n1) (e n2)) (e n3)) (e n4)) (e n5)) (e n6)
  · intro a ha b hb c hc' d hd n1 n2 n3 n4 n5 n6 x hx y hy z hz m1 m2 m3
    have e : ∀ {x y : ℚ}, mc x ≠ mc y → y - x ≠ 0 := fun h hc => h (by rw [sub_eq_zero.mp hc])
    have key : ∀ p ∈ (List.ofFn v).map mc, ∃ i, p = mc (v i) := by
      intro p hp
      obtain ⟨t, ht, rfl⟩ := List.mem_map.mp hp
      obtain ⟨i, rfl⟩ := (List.mem_ofFn' v t).mp ht
      exact ⟨i, rfl⟩
    obtain ⟨a, rfl⟩ := key a ha
    obtain ⟨b, rfl⟩ := key b hb
    obtain ⟨c, rfl⟩ := key c hc'
    obtain ⟨d, rfl⟩ := key d hd
    obtain ⟨x, rfl⟩ := key x hx
    obtain ⟨y, rfl⟩ := key y hy
    obtain ⟨z, rfl⟩ := key z hz
    have f : ∀ {x y : Fin n}, mc (v x) ≠ mc (v y) → x ≠ y := fun h hc => h (by rw [hc])
    have hsum := hc ![a, b, c, d] ![x, y, z] (by
      have := f n1
      have := f n2
      have := f n3
      have := f n4
      have := f n5
      have := f n6
      intro i j
      fin_cases i <;> fin_cases j <;> simp <;> first | assumption | (apply Ne.symm; assumption))
    rw [Fin.sum_univ_four] at hsum
    rw [abs_pos, mc_centre]
    refine div_ne_zero (neg_ne_zero.mpr (mul_ne_zero (mul_ne_zero (mul_ne_zero (e m1) (e m2)) (e m3)) hsum)) (by norm_num)

/-- Every point of the moment curve is a corner of the hull. -/
theorem mc_facets {T : List ℚ} (hnd : T.Nodup) {A : List (IFacet ℚ)} (hA : IsHull3 (T.map mc) A) : T.length ≤ 3 * A.length := by
  have hc : ∀ p ∈ T.map mc, ∃ f ∈ A, HasV f p := by
    intro p hp
    by_contra hcon
    have hp' : p ∈ convexHull ℚ {p | p ∈ T.map mc} := subset_convexHull ℚ _ hp
    obtain ⟨t, ht, rfl⟩ := List.mem_map.mp hp
    rw [hA.span] at hp'
    have hsub : convexHull ℚ {p | ∃ f ∈ A, HasV f p} ⊆ {q : P3 ℚ | 0 < q 1 - 2 * t * q 0 + t ^ 2} := by
      refine convexHull_min ?_ ?_
      · rintro q ⟨f, hf, hq⟩
        obtain ⟨s, hs, rfl⟩ := List.mem_map.mp (hA.vert f hf q hq)
        have hst : s ≠ t := by
          rintro rfl
          exact hcon ⟨f, hf, hq⟩
        show 0 < s ^ 2 - 2 * t * s + t ^ 2
        have := sq_pos_of_ne_zero (sub_ne_zero.mpr hst)
        nlinarith
      · intro x hx y hy a b ha hb hab
        show 0 < (a * x 1 + b * y 1) - 2 * t * (a * x 0 + b * y 0) + t ^ 2
        have hx' : 0 < x 1 - 2 * t * x 0 + t ^ 2 := hx
        have hy' : 0 < y 1 - 2 * t * y 0 + t ^ 2 := hy
        have e : (a * x 1 + b * y 1) - 2 * t * (a * x 0 + b * y 0) + t ^ 2 =
            a * (x 1 - 2 * t * x 0 + t ^ 2) + b * (y 1 - 2 * t * y 0 + t ^ 2) := by
          have : t ^ 2 = (a + b) * t ^ 2 := by rw [hab, one_mul]
          linear_combination this
        rw [e]
        rcases ha.eq_or_lt with rfl | ha
        · rw [zero_add] at hab
          rw [hab]
          linarith
        · exact add_pos_of_pos_of_nonneg (mul_pos ha hx') (mul_nonneg hb hy'.le)
    have h0 : 0 < t ^ 2 - 2 * t * t + t ^ 2 := hsub hp'
    nlinarith
  have hsub : T.map mc ⊆ A.flatMap fun f => [f.a, f.b, f.c] := by
    intro p hp
    obtain ⟨f, hf, hv⟩ := hc p hp
    rw [List.mem_flatMap]
    refine ⟨f, hf, ?_⟩
    rcases hv with rfl | rfl | rfl <;> simp
  have := (List.subperm_of_subset (hnd.map fun a b => mc_inj) hsub).length_le
  rw [List.length_map, List.length_flatMap] at this
  have e : (A.map fun f : IFacet ℚ => [f.a, f.b, f.c].length).sum = 3 * A.length := by
    simp [Nat.mul_comm]
  omega

/-- The hypotheses of `c48_compute_partial` are met: 1024 points, one worker, eight blocks. -/
theorem c48_instance : ∃ P : List (P3 ℚ), P.length = 1024 ∧ GenAll 0 P ∧ ∃ fuel fuel' o out, (∀ n, (o n : Oracle ℚ).Fine) ∧
    dcCompute3 (computeVertex 0 fuel stableSort) (compute 0 fuel) (parCompute 0 fuel' (fun _ f l => furthestPar f l) 4 o) true 1 P =
      .ok out ∧ IsHull3 P out := by
  obtain ⟨T, hT, hnd, hg⟩ := genAll_exists 1024
  have hl : (T.map mc).length = 1024 := by rw [List.length_map, hT]
  refine ⟨T.map mc, hl, hg, ?_⟩
  obtain ⟨B, ⟨hB0, hB8, hB10, hBm⟩, F, hF⟩ := c48_compute_partial hg (by omega) (w := 1) (by norm_num) stableSort_ok
    (fuel := 9 * (T.map mc).length ^ 3 + (T.map mc).length + 5) (le_refl _) picks_furthest (numProc := 4) (by norm_num)
    (compute 0 (9 * (T.map mc).length ^ 3 + (T.map mc).length + 5))
  have hB : B = 8 := by
    by_contra h
    have := hBm 8 (by omega) (by omega)
    rw [hl] at this
    omega
  subst hB
  obtain ⟨N, hN⟩ := hF F (le_refl _)
  have htake : (T.map mc).take (8 * ((T.map mc).length / 8)) = T.map mc := by
    rw [hl]
    exact List.take_of_length_le (by omega)
  rw [htake] at hN
  obtain ⟨A, hA⟩ := hull_exists (hg.sublist (List.Sublist.refl _) (by omega))
  have h64 : 64 ≤ A.length := by
    have := mc_facets hnd hA
    omega
  obtain ⟨h1, h2⟩ := hN A hA (fun _ => plainOracle 32 N) (fun _ => plain_fine 32 N) _ rfl
  rcases h1 with h1 | ⟨_, out, h1, h3⟩ | ⟨h1, _⟩
  · exact absurd h1 (h2 (plain_fair 32 N))
  · exact ⟨_, F, _, out, fun _ => plain_fine 32 N, h1, h3⟩
  · omega

end Verif.QHull
