import Mathlib.Data.Fin.VecNotation
import Mathlib.Algebra.Order.Ring.Rat
import Mathlib.Data.List.Nodup
import Mathlib.Data.List.TakeWhile
import Mathlib.Tactic.Linarith
import Mathlib.Tactic.Ring
import Mathlib.Algebra.BigOperators.Fin
import Verif.Hull3d.BruteModel

set_option linter.unusedSectionVars false
set_option linter.unusedVariables false

/-!
Property C49: the brute-force hull in space.
-/

namespace Verif.Hull3d

open Verif

variable {K : Type} [Field K] [LinearOrder K] [IsStrictOrderedRing K]

/-- Specification: six times the signed volume of the tetrahedron `a, b, c, p`, as a determinant of differences from `a`. -/
def vol (a b c p : Point K 3) : K :=
  (b 0 - a 0) * ((c 1 - a 1) * (p 2 - a 2) - (c 2 - a 2) * (p 1 - a 1)) -
    (b 1 - a 1) * ((c 0 - a 0) * (p 2 - a 2) - (c 2 - a 2) * (p 0 - a 0)) +
    (b 2 - a 2) * ((c 0 - a 0) * (p 1 - a 1) - (c 1 - a 1) * (p 0 - a 0))

theorem visible_iff (eps : K) (f : IFacet K) (p : Point K 3) :
    f.visible eps p = true ↔ eps < -vol f.a f.b f.c p := by
  unfold IFacet.visible
  rw [decide_eq_true_eq]
  have : dot (fun i => f.a i - p i) (cross3 (fun i => f.b i - f.a i) fun i => f.c i - f.a i) =
      -vol f.a f.b f.c p := by
    unfold dot cross3 vol
    rw [Fin.sum_univ_three]
    simp only [if_true, show (1 : Fin 3) ≠ 0 by decide, show (2 : Fin 3) ≠ 0 by decide, show (2 : Fin 3) ≠ 1 by decide,
      if_false]
    ring
  rw [this]

theorem vol_swap (a b c p : Point K 3) : vol a c b p = -vol a b c p := by
  unfold vol; ring

theorem onHull_iff (n : ℕ) (skip vis : ℕ → Bool) :
    onHull n skip vis = true ↔
      (∀ l < n, skip l = false → vis l = true) ∨ (∀ l < n, skip l = false → vis l = false) := by
  have hsplit := List.takeWhile_append_dropWhile (p := skip) (l := List.range n)
  have htake : ∀ l ∈ (List.range n).takeWhile skip, skip l = true := fun l hl => List.mem_takeWhile_imp hl
  unfold onHull
  cases hd : (List.range n).dropWhile skip with
  | nil =>
    simp only [true_iff]
    left
    intro l hl hs
    rw [hd, List.append_nil] at hsplit
    have : l ∈ (List.range n).takeWhile skip := by
      rw [hsplit]
      exact List.mem_range.mpr hl
    rw [htake l this] at hs
    cases hs
  | cons x rest =>
    simp only [List.all_eq_true, Bool.or_eq_true, decide_eq_true_eq]
    have hx : skip x = false := by
      have := List.head_dropWhile_not skip (l := List.range n) (by rw [hd]; simp)
      simpa [hd] using this
    have hmem : ∀ l, skip l = false → (l < n ↔ l ∈ x :: rest) := by
      intro l hs
      rw [← List.mem_range, ← hsplit, hd, List.mem_append]
      constructor
      · rintro (h | h)
        · rw [htake l h] at hs
          cases hs
        · exact h
      · exact Or.inr
    constructor
    · intro h
      have key : ∀ l < n, skip l = false → vis l = vis x := by
        intro l hl hs
        rcases h l ((hmem l hs).mp hl) with h' | h'
        · rw [h'] at hs
          cases hs
        · exact h'
      cases hv : vis x with
      | true => exact Or.inl fun l hl hs => by rw [key l hl hs, hv]
      | false => exact Or.inr fun l hl hs => by rw [key l hl hs, hv]
    · intro h l hl
      by_cases hs : skip l = true
      · exact Or.inl hs
      · right
        have hs' : skip l = false := by simpa using hs
        have hln := (hmem l hs').mpr hl
        have hxn := (hmem x hx).mpr (by simp)
        rcases h with h | h
        · rw [h l hln hs', h x hxn hx]
        · rw [h l hln hs', h x hxn hx]

/-- All triples of increasing positions. -/
def triples (n : ℕ) : List (ℕ × ℕ × ℕ) :=
  (List.range n).flatMap fun i => (List.range' (i + 1) (n - (i + 1))).flatMap fun j =>
    (List.range' (j + 1) (n - (j + 1))).map fun k => (i, j, k)

theorem mem_triples (n i j k : ℕ) : (i, j, k) ∈ triples n ↔ i < j ∧ j < k ∧ k < n := by
  unfold triples
  simp only [List.mem_flatMap, List.mem_map, List.mem_range, List.mem_range'_1, Prod.mk.injEq]
  constructor
  · rintro ⟨i', hi, j', hj, k', hk, rfl, rfl, rfl⟩
    omega
  · rintro ⟨h1, h2, h3⟩
    exact ⟨i, by omega, j, by omega, k, by omega, rfl, rfl, rfl⟩

theorem nodup_triples (n : ℕ) : (triples n).Nodup := by
  unfold triples
  rw [List.nodup_flatMap]
  constructor
  · intro i _
    rw [List.nodup_flatMap]
    constructor
    · intro j _
      refine List.Nodup.map ?_ List.nodup_range'
      intro k k' h
      simpa using h
    · refine List.Pairwise.imp ?_ List.nodup_range'
      intro j j' hne x hx hx'
      obtain ⟨k, _, rfl⟩ := List.mem_map.mp hx
      obtain ⟨k', _, h⟩ := List.mem_map.mp hx'
      simp only [Prod.mk.injEq] at h
      exact hne h.2.1.symm
  · refine List.Pairwise.imp ?_ List.nodup_range
    intro i i' hne x hx hx'
    obtain ⟨j, _, hx⟩ := List.mem_flatMap.mp hx
    obtain ⟨j', _, hx'⟩ := List.mem_flatMap.mp hx'
    obtain ⟨k, _, rfl⟩ := List.mem_map.mp hx
    obtain ⟨k', _, h⟩ := List.mem_map.mp hx'
    simp only [Prod.mk.injEq] at h
    exact hne h.1.symm

theorem flatMap_ite {α β : Type} (L : List α) (q : α → Bool) (f : α → β) :
    (L.flatMap fun x => if q x then [f x] else []) = (L.filter q).map f := by
  induction L with
  | nil => rfl
  | cons x L ih =>
    rw [List.flatMap_cons, ih]
    by_cases h : q x = true
    · simp [h]
    · simp [h]

/-- The facet of the output for a triple of positions, and the test. -/
theorem brute_eq (eps : K) (P : List (Point K 3)) :
    brute eps P = ((triples P.length).filter fun t =>
      onHull P.length (fun l => decide (l = t.1) || decide (l = t.2.1) || decide (l = t.2.2))
        fun l => (mkIFacet eps (P.getD t.1 0) (P.getD t.2.1 0) (P.getD t.2.2 0)).visible eps (P.getD l 0)).map
      fun t => mkFacet (mkIFacet eps (P.getD t.1 0) (P.getD t.2.1 0) (P.getD t.2.2 0)) := by
  rw [← flatMap_ite]
  unfold brute triples
  simp only [List.flatMap_assoc, List.flatMap_map]

/-- Same three points, in the same order or with the last two exchanged. -/
def SameTriangle (f : IFacet K) (a b c : Point K 3) : Prop :=
  f.a = a ∧ ((f.b = b ∧ f.c = c) ∨ (f.b = c ∧ f.c = b))

theorem mkIFacet_same (eps : K) (a b c : Point K 3) : SameTriangle (mkIFacet eps a b c) a b c := by
  unfold mkIFacet SameTriangle
  split <;> simp

theorem mkFacet_same (f : IFacet K) (a b c : Point K 3) (h : SameTriangle f a b c) :
    SameTriangle (mkFacet f) a b c := by
  unfold mkFacet
  split
  · obtain ⟨h1, h2 | h2⟩ := h
    · exact ⟨h1, Or.inr ⟨h2.2, h2.1⟩⟩
    · exact ⟨h1, Or.inl ⟨h2.2, h2.1⟩⟩
  · exact h

/-- **C49**: for any list of points and epsilon, the result has exactly one facet for every triple `i < j < k` of positions
such that all other points are visible from the triangle or all are not visible, and it has no other facet. Visible means
that the signed volume exceeds epsilon, for the vertex order chosen by the code. -/
theorem c49_brute_facets (eps : K) (P : List (Point K 3)) :
    ∃ T : List (ℕ × ℕ × ℕ), T.Nodup ∧
      (∀ i j k, (i, j, k) ∈ T ↔ i < j ∧ j < k ∧ k < P.length ∧
        ∃ σ : K, (σ = if eps < det3 (P.getD i 0) (P.getD j 0) (P.getD k 0) then 1 else -1) ∧
          ((∀ l < P.length, l ≠ i → l ≠ j → l ≠ k →
              eps < σ * vol (P.getD i 0) (P.getD j 0) (P.getD k 0) (P.getD l 0)) ∨
            ∀ l < P.length, l ≠ i → l ≠ j → l ≠ k →
              σ * vol (P.getD i 0) (P.getD j 0) (P.getD k 0) (P.getD l 0) ≤ eps)) ∧
      List.Forall₂ (fun f t => SameTriangle f (P.getD t.1 0) (P.getD t.2.1 0) (P.getD t.2.2 0)) (brute eps P) T := by
  rw [brute_eq]
  set q : ℕ × ℕ × ℕ → Bool := fun t =>
    onHull P.length (fun l => decide (l = t.1) || decide (l = t.2.1) || decide (l = t.2.2))
      fun l => (mkIFacet eps (P.getD t.1 0) (P.getD t.2.1 0) (P.getD t.2.2 0)).visible eps (P.getD l 0) with hq
  refine ⟨(triples P.length).filter q, (nodup_triples _).filter _, ?_, ?_⟩
  · intro i j k
    rw [List.mem_filter, mem_triples, hq]
    simp only [onHull_iff]
    have hskip : ∀ l, (decide (l = i) || decide (l = j) || decide (l = k)) = false ↔ l ≠ i ∧ l ≠ j ∧ l ≠ k := by
      intro l
      simp [and_assoc]
    simp only [hskip]
    have hvis : ∀ l, (mkIFacet eps (P.getD i 0) (P.getD j 0) (P.getD k 0)).visible eps (P.getD l 0) = true ↔
        eps < (if eps < det3 (P.getD i 0) (P.getD j 0) (P.getD k 0) then (1 : K) else -1) *
          vol (P.getD i 0) (P.getD j 0) (P.getD k 0) (P.getD l 0) := by
      intro l
      rw [visible_iff]
      unfold mkIFacet
      split
      · rw [vol_swap]
        simp
      · simp
    have hvis' : ∀ l, (mkIFacet eps (P.getD i 0) (P.getD j 0) (P.getD k 0)).visible eps (P.getD l 0) = false ↔
        (if eps < det3 (P.getD i 0) (P.getD j 0) (P.getD k 0) then (1 : K) else -1) *
          vol (P.getD i 0) (P.getD j 0) (P.getD k 0) (P.getD l 0) ≤ eps := by
      intro l
      rw [← not_lt, ← hvis l]
      simp
    simp only [hvis, hvis']
    constructor
    · rintro ⟨⟨h1, h2, h3⟩, h4⟩
      refine ⟨h1, h2, h3, _, rfl, ?_⟩
      rcases h4 with h4 | h4
      · exact Or.inl fun l hl n1 n2 n3 => h4 l hl ⟨n1, n2, n3⟩
      · exact Or.inr fun l hl n1 n2 n3 => h4 l hl ⟨n1, n2, n3⟩
    · rintro ⟨h1, h2, h3, σ, rfl, h4⟩
      refine ⟨⟨h1, h2, h3⟩, ?_⟩
      rcases h4 with h4 | h4
      · exact Or.inl fun l hl n => h4 l hl n.1 n.2.1 n.2.2
      · exact Or.inr fun l hl n => h4 l hl n.1 n.2.1 n.2.2
  · rw [List.forall₂_map_left_iff, List.forall₂_same]
    intro t _
    exact mkFacet_same _ _ _ _ (mkIFacet_same eps _ _ _)

/-- The three points of a triangle are in its plane. -/
theorem vol_self (a b c : Point K 3) : vol a b c a = 0 ∧ vol a b c b = 0 ∧ vol a b c c = 0 := by
  unfold vol
  refine ⟨by ring, by ring, by ring⟩

/-- Geometric meaning with epsilon zero: a triple that is reported spans a supporting plane (all points in one closed half
space), and a triple with all other points strictly on one side of its plane is reported. -/
theorem c49_supporting (P : List (Point K 3)) :
    ∃ T : List (ℕ × ℕ × ℕ), T.Nodup ∧
      List.Forall₂ (fun f t => SameTriangle f (P.getD t.1 0) (P.getD t.2.1 0) (P.getD t.2.2 0)) (brute 0 P) T ∧
      (∀ i j k, (i, j, k) ∈ T → i < j ∧ j < k ∧ k < P.length ∧
        ((∀ p ∈ P, 0 ≤ vol (P.getD i 0) (P.getD j 0) (P.getD k 0) p) ∨
          ∀ p ∈ P, vol (P.getD i 0) (P.getD j 0) (P.getD k 0) p ≤ 0)) ∧
      ∀ i j k, i < j → j < k → k < P.length →
        ((∀ l < P.length, l ≠ i → l ≠ j → l ≠ k → 0 < vol (P.getD i 0) (P.getD j 0) (P.getD k 0) (P.getD l 0)) ∨
          ∀ l < P.length, l ≠ i → l ≠ j → l ≠ k → vol (P.getD i 0) (P.getD j 0) (P.getD k 0) (P.getD l 0) < 0) →
        (i, j, k) ∈ T := by
  obtain ⟨T, h1, h2, h3⟩ := c49_brute_facets 0 P
  refine ⟨T, h1, h3, ?_, ?_⟩
  · intro i j k ht
    obtain ⟨a, b, c, σ, hσ, h⟩ := (h2 i j k).mp ht
    refine ⟨a, b, c, ?_⟩
    obtain ⟨z1, z2, z3⟩ := vol_self (P.getD i 0) (P.getD j 0) (P.getD k 0)
    have key : ∀ s : K, (∀ l < P.length, l ≠ i → l ≠ j → l ≠ k →
        0 ≤ s * vol (P.getD i 0) (P.getD j 0) (P.getD k 0) (P.getD l 0)) →
        ∀ p ∈ P, 0 ≤ s * vol (P.getD i 0) (P.getD j 0) (P.getD k 0) p := by
      intro s hs p hp
      obtain ⟨l, hl, rfl⟩ := List.mem_iff_getElem.mp hp
      rw [← List.getD_eq_getElem P 0 hl]
      by_cases q1 : l = i
      · rw [q1, z1, mul_zero]
      by_cases q2 : l = j
      · rw [q2, z2, mul_zero]
      by_cases q3 : l = k
      · rw [q3, z3, mul_zero]
      exact hs l hl q1 q2 q3
    have fin : ∀ s : K, s = 1 ∨ s = -1 → (∀ p ∈ P, 0 ≤ s * vol (P.getD i 0) (P.getD j 0) (P.getD k 0) p) →
        ((∀ p ∈ P, 0 ≤ vol (P.getD i 0) (P.getD j 0) (P.getD k 0) p) ∨
          ∀ p ∈ P, vol (P.getD i 0) (P.getD j 0) (P.getD k 0) p ≤ 0) := by
      rintro s (rfl | rfl) hs
      · exact Or.inl fun p hp => by simpa using hs p hp
      · exact Or.inr fun p hp => by simpa using hs p hp
    have hs1 : σ = 1 ∨ σ = -1 := by
      rw [hσ]
      split <;> simp
    rcases h with h | h
    · exact fin σ hs1 (key σ fun l hl n1 n2 n3 => (h l hl n1 n2 n3).le)
    · refine fin (-σ) ?_ (key (-σ) fun l hl n1 n2 n3 => ?_)
      · rcases hs1 with h' | h' <;> rw [h'] <;> simp
      · have := h l hl n1 n2 n3
        linarith
  · intro i j k a b c h
    refine (h2 i j k).mpr ⟨a, b, c, _, rfl, ?_⟩
    by_cases hd : 0 < det3 (P.getD i 0) (P.getD j 0) (P.getD k 0)
    · rw [if_pos hd]
      simp only [one_mul]
      rcases h with h | h
      · exact Or.inl h
      · exact Or.inr fun l hl n1 n2 n3 => (h l hl n1 n2 n3).le
    · rw [if_neg hd]
      simp only [neg_mul, one_mul]
      rcases h with h | h
      · exact Or.inr fun l hl n1 n2 n3 => by linarith [h l hl n1 n2 n3]
      · exact Or.inl fun l hl n1 n2 n3 => by linarith [h l hl n1 n2 n3]

/-- Non-trivial run: a tetrahedron with a point inside has four facets. -/
example : (brute 0 [(![0, 0, 0] : Point ℚ 3), ![8, 0, 0], ![0, 8, 0], ![0, 0, 8], ![1, 1, 1]]).length = 4 := by
  decide +kernel

/-- With four points in one plane a whole face of the hull can be missing: the square base of this pyramid (all other points
are above it) has no facet in the result. -/
theorem c49_coplanar_false :
    let P : List (Point ℚ 3) := [![0, 0, 1], ![1, 0, 1], ![1, 1, 1], ![0, 1, 1], ![0, 0, 2]]
    (∀ p ∈ P, 1 ≤ p 2) ∧ (P.filter fun p => decide (p 2 = 1)).length = 4 ∧
      ∀ f ∈ brute 0 P, ¬ (f.a 2 = 1 ∧ f.b 2 = 1 ∧ f.c 2 = 1) := by
  decide +kernel

end Verif.Hull3d
