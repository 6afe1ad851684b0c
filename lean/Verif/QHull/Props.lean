import Verif.QHull.Extreme
import Verif.QHull.VertexModel

set_option linter.unusedSectionVars false
set_option linter.unusedVariables false

/-!
The sequential quickhull in space: C64 (facets) and C65 (vertices). The specification is `IsHull3` in `Output.lean`.
-/

namespace Verif.QHull

open Verif Verif.Hull3d

variable {K : Type} [Field K] [LinearOrder K] [IsStrictOrderedRing K]

section

variable {eps : K} {P : List (P3 K)}

/-- C64: for every input in general position the quickhull stops, no pointer is followed to freed memory, nothing is thrown, and
the returned triangles are exactly the facets of the convex hull. -/
theorem c64_quickhull (hg : GenInput eps P) (hsmall : P.length ≤ 10 → P.Nodup) {fuel : ℕ}
    (hf : 9 * P.length ^ 3 + P.length + 5 ≤ fuel) : ∃ out, compute eps fuel P = .ok out ∧ IsHull3 P out := by
  unfold compute
  by_cases hl : P.length ≤ 10
  · rw [if_pos hl]
    exact ⟨_, rfl, brute_isHull hg (hsmall hl)⟩
  · rw [if_neg hl]
    obtain ⟨o, st, st', h1, h2, hg', hG, hin, hlen⟩ := run_ok hg hf
    obtain ⟨V, hV, hm, he⟩ := dfsFacet_collect hg' hG.mesh (fun out f => out ++ [outFacet o f]) (fun f => [outFacet o f])
      (fun _ _ => rfl) hG.start hlen
    refine ⟨V.map fun i => outFacet o (st'.heap i), ?_, IsHull3.of_mesh hg' hG.mesh hin hV hm⟩
    rw [h1]
    simp only [Except.bind]
    rw [h2]
    simp only
    unfold getFacet
    refine he.trans ?_
    rw [← List.flatMap_singleton' (V.map _), List.flatMap_map]

/-- C64: the extreme points of the hull are the corners of the returned triangles. -/
theorem c64_corners_extreme (hg : GenInput eps P) (hsmall : P.length ≤ 10 → P.Nodup) {fuel : ℕ}
    (hf : 9 * P.length ^ 3 + P.length + 5 ≤ fuel) : ∃ out, compute eps fuel P = .ok out ∧
      ∀ v, v ∈ (convexHull K {p | p ∈ P}).extremePoints K ↔ ∃ f ∈ out, HasV f v := by
  obtain ⟨out, he, hh⟩ := c64_quickhull hg hsmall hf
  exact ⟨out, he, hh.extreme hg.four⟩

/-- The orientation of every returned triangle is chosen by the side on which the origin of the coordinates lies. -/
theorem mkFacet_orient (f : IFacet K) : 0 ≤ vol (mkFacet f).a (mkFacet f).b (mkFacet f).c 0 := by
  unfold mkFacet
  split
  · rename_i h
    have : vol f.a f.c f.b 0 = det3 f.a f.b f.c := by
      unfold vol det3
      simp
      ring
    simp only
    rw [this]
    exact h.le
  · rename_i h
    have : vol f.a f.b f.c 0 = -det3 f.a f.b f.c := by
      unfold vol det3
      simp
      ring
    rw [this]
    linarith [not_lt.mp h]

theorem compute_orient (hg : GenInput eps P) {fuel : ℕ} (hf : 9 * P.length ^ 3 + P.length + 5 ≤ fuel) :
    ∀ out, compute eps fuel P = .ok out → ∀ f ∈ out, 0 ≤ vol f.a f.b f.c 0 := by
  intro out he f hfo
  unfold compute at he
  by_cases hl : P.length ≤ 10
  · rw [if_pos hl] at he
    obtain rfl := Except.ok.inj he
    rw [brute_eq] at hfo
    obtain ⟨t, _, rfl⟩ := List.mem_map.mp hfo
    exact mkFacet_orient _
  · rw [if_neg hl] at he
    obtain ⟨o, st, st', h1, h2, hg', hG, hin, hlen⟩ := run_ok hg hf
    obtain ⟨V, hV, hm, he'⟩ := dfsFacet_collect hg' hG.mesh (fun out f => out ++ [outFacet o f]) (fun f => [outFacet o f])
      (fun _ _ => rfl) hG.start hlen
    rw [h1] at he
    simp only [Except.bind] at he
    rw [h2] at he
    simp only at he
    unfold getFacet at he
    have h3 := Except.ok.inj (he'.symm.trans he)
    rw [← h3] at hfo
    obtain ⟨i, _, hfi⟩ := List.mem_flatMap.mp hfo
    rw [List.mem_singleton] at hfi
    rw [hfi]
    exact mkFacet_orient _

/-- C64 (orientation): if the origin of the coordinates lies in the hull and in no plane through three of the points, all triangles
are oriented the same way round, with the points on the positive side. For hulls that do not contain the origin this is false
(`c64_orientation_inverted`, `c64_orientation_false`). -/
theorem c64_orientation_inside (hg : GenInput eps P) (hsmall : P.length ≤ 10 → P.Nodup)
    (h0 : (0 : P3 K) ∈ convexHull K {p | p ∈ P})
    (hne : ∀ a ∈ P, ∀ b ∈ P, ∀ c ∈ P, a ≠ b → b ≠ c → c ≠ a → vol a b c 0 ≠ 0) {fuel : ℕ}
    (hf : 9 * P.length ^ 3 + P.length + 5 ≤ fuel) :
    ∃ out, compute eps fuel P = .ok out ∧ ∀ f ∈ out, ∀ p ∈ P, 0 ≤ vol f.a f.b f.c p := by
  obtain ⟨out, he, hh⟩ := c64_quickhull hg hsmall hf
  refine ⟨out, he, ?_⟩
  intro f hfo
  have hor := compute_orient hg hf out he f hfo
  obtain ⟨n1, n2, n3⟩ := hh.proper f hfo
  have hn := hne f.a (hh.vert f hfo _ (Or.inl rfl)) f.b (hh.vert f hfo _ (Or.inr (Or.inl rfl))) f.c
    (hh.vert f hfo _ (Or.inr (Or.inr rfl))) n1 n2 n3
  obtain ⟨z1, z2, z3⟩ := vol_self f.a f.b f.c
  have hz : ∀ p, HasV f p → vol f.a f.b f.c p = 0 := by
    rintro p (rfl | rfl | rfl)
    · exact z1
    · exact z2
    · exact z3
  rcases hh.support f hfo with hs | hs
  · intro p hp
    by_cases hv : HasV f p
    · exact (hz p hv).ge
    · exact (hs p hp hv).le
  · exfalso
    have hsub : convexHull K {p | p ∈ P} ⊆ {p | vol f.a f.b f.c p ≤ 0} := by
      refine convexHull_min ?_ ?_
      · intro p hp
        by_cases hv : HasV f p
        · exact (hz p hv).le
        · exact (hs p hp hv).le
      · intro x hx y hy s t hs ht hst
        rw [Set.mem_ofPred_eq] at hx hy ⊢
        rw [vol_affine4 _ _ _ _ _ _ _ hst]
        have h1 := mul_nonneg hs (neg_nonneg.mpr hx)
        have h2 := mul_nonneg ht (neg_nonneg.mpr hy)
        linarith
    have h1 : vol f.a f.b f.c 0 ≤ 0 := hsub h0
    exact hn (le_antisymm h1 hor)

/-- C64 (orientation): a facet that has the origin of the coordinates beyond it comes out the other way round, with the points on
the negative side. -/
theorem c64_orientation_inverted (hg : GenInput eps P) (hsmall : P.length ≤ 10 → P.Nodup) {fuel : ℕ}
    (hf : 9 * P.length ^ 3 + P.length + 5 ≤ fuel) {x y z : P3 K} (hx : x ∈ P) (hy : y ∈ P) (hz : z ∈ P) (n1 : x ≠ y) (n2 : y ≠ z)
    (n3 : z ≠ x) (hs : ∀ p ∈ P, 0 ≤ vol x y z p) (h0 : vol x y z 0 < 0) :
    ∃ out, compute eps fuel P = .ok out ∧ ∃ f ∈ out, (HasV f x ∧ HasV f y ∧ HasV f z) ∧
      ∀ p ∈ P, ¬ HasV f p → vol f.a f.b f.c p < 0 := by
  obtain ⟨out, he, hh⟩ := c64_quickhull hg hsmall hf
  obtain ⟨f, hfo, h1, h2, h3⟩ := hh.complete x hx y hy z hz n1 n2 n3 (Or.inl hs)
  refine ⟨out, he, f, hfo, ⟨h1, h2, h3⟩, ?_⟩
  have hor := compute_orient hg hf out he f hfo
  have hsgn : (∀ p, vol f.a f.b f.c p = vol x y z p) ∨ ∀ p, vol f.a f.b f.c p = -vol x y z p := by
    have e1 : ∀ a b c p : P3 K, vol b a c p = -vol a b c p := by intros; unfold vol; ring
    have e2 : ∀ a b c p : P3 K, vol c b a p = -vol a b c p := by intros; unfold vol; ring
    have e3 : ∀ a b c p : P3 K, vol c a b p = vol a b c p := by intros; unfold vol; ring
    rcases h1 with rfl | rfl | rfl <;> rcases h2 with rfl | rfl | rfl <;> rcases h3 with rfl | rfl | rfl <;>
      first
        | exact absurd rfl n1
        | exact absurd rfl n2
        | exact absurd rfl n3
        | exact Or.inl fun p => rfl
        | exact Or.inl fun p => (vol_rot _ _ _ p).symm
        | exact Or.inl fun p => (e3 _ _ _ p).symm
        | exact Or.inr fun p => vol_swap _ _ _ p
        | exact Or.inr fun p => e1 _ _ _ p
        | exact Or.inr fun p => e2 _ _ _ p
  rcases hsgn with hsgn | hsgn
  · rw [hsgn] at hor
    exact absurd hor (not_le.mpr h0)
  · rcases hh.support f hfo with hsp | hsp
    · intro p hp hn
      have h4 := hsp p hp hn
      rw [hsgn] at h4
      have := hs p hp
      linarith
    · exact hsp

end

section

variable {eps : K} {P : List (P3 K)}

theorem mem_uniqFrom (p : P3 K) (l : List (P3 K)) (v : P3 K) : v ∈ p :: uniqFrom p l ↔ v ∈ p :: l := by
  induction l generalizing p with
  | nil => simp [uniqFrom]
  | cons q l ih =>
    rw [uniqFrom]
    split
    · rename_i h
      subst h
      rw [ih q]
      simp
    · rw [List.mem_cons, ih q, ← List.mem_cons]

theorem mem_uniq (l : List (P3 K)) (v : P3 K) : v ∈ uniq l ↔ v ∈ l := by
  cases l with
  | nil => simp [uniq]
  | cons p l => exact mem_uniqFrom p l v

theorem uniqFrom_sublist (p : P3 K) (l : List (P3 K)) : (uniqFrom p l).Sublist l := by
  induction l generalizing p with
  | nil => exact List.Sublist.refl _
  | cons q l ih =>
    rw [uniqFrom]
    split
    · exact (ih q).cons q
    · exact (ih q).cons_cons q

theorem uniq_sublist (l : List (P3 K)) : (uniq l).Sublist l := by
  cases l with
  | nil => exact List.Sublist.refl _
  | cons p l => exact (uniqFrom_sublist p l).cons_cons p

theorem uniqFrom_nodup (p : P3 K) (l : List (P3 K)) (hs : (p :: l).Pairwise fun p q => ¬ csum q < csum p)
    (hinj : ∀ x ∈ p :: l, ∀ y ∈ p :: l, csum x = csum y → x = y) : (p :: uniqFrom p l).Nodup := by
  induction l generalizing p with
  | nil => simp [uniqFrom]
  | cons q l ih =>
    rw [uniqFrom]
    have h1 := ih q (List.pairwise_cons.mp hs).2 fun x hx y hy => hinj x (by simp [List.mem_cons.mp hx])
      y (by simp [List.mem_cons.mp hy])
    split
    · rename_i h; subst h; exact h1
    · rename_i h
      rw [List.nodup_cons]
      refine ⟨fun hp => ?_, h1⟩
      have hp' := (mem_uniqFrom q l p).mp hp
      rw [List.pairwise_cons] at hs
      have hpq := hs.1 q (by simp)
      rcases List.mem_cons.mp hp' with rfl | hpl
      · exact h rfl
      · have hqp := (List.pairwise_cons.mp hs.2).1 p hpl
        exact h (hinj q (by simp) p (by simp) (le_antisymm (not_lt.mp hqp) (not_lt.mp hpq)))

/-- C65: the vertices returned for an input in general position are exactly the extreme points of the convex hull, ordered by the
sum of their coordinates, and each of them once provided that different extreme points have different sums. Missing: that a vertex is
returned once in general, which is false (`c65_once_false`). -/
theorem c65_vertices_partial (hg : GenInput eps P) {sort : List (P3 K) → List (P3 K)} (hsort : SortOK sort) {fuel : ℕ}
    (hf : 9 * P.length ^ 3 + P.length + 5 ≤ fuel) : ∃ out, computeVertex eps fuel sort P = .ok out ∧
      (∀ v, v ∈ out ↔ v ∈ (convexHull K {p | p ∈ P}).extremePoints K) ∧ (out.Pairwise fun p q => csum p ≤ csum q) ∧
      ((∀ x ∈ (convexHull K {p | p ∈ P}).extremePoints K, ∀ y ∈ (convexHull K {p | p ∈ P}).extremePoints K,
        csum x = csum y → x = y) → out.Nodup) := by
  obtain ⟨o, st, st', h1, h2, hg', hG, hin, hlen⟩ := run_ok hg hf
  have hext := (IsHull3.of_mesh hg' hG.mesh hin hG.mesh.nodup fun i => Iff.rfl).extreme hg.four
  obtain ⟨V, hV, hm, he⟩ := dfsFacet_collect hg' hG.mesh
    (fun out f => out ++ [fun i => f.a i + o i, fun i => f.b i + o i, fun i => f.c i + o i])
    (fun f => [fun i => f.a i + o i, fun i => f.b i + o i, fun i => f.c i + o i]) (fun _ _ => rfl) hG.start hlen
  set raw := V.flatMap fun i => [fun k => (st'.heap i).a k + o k, fun k => (st'.heap i).b k + o k, fun k => (st'.heap i).c k + o k]
    with hraw
  have hmem : ∀ v, v ∈ sort raw ↔ v ∈ (convexHull K {p | p ∈ P}).extremePoints K := by
    intro v
    rw [(hsort.perm raw).mem_iff, hext, hraw, List.mem_flatMap]
    constructor
    · rintro ⟨i, hi, hv⟩
      refine ⟨_, List.mem_map.mpr ⟨i, (hm i).mp hi, rfl⟩, ?_⟩
      rw [outFacet_has]
      unfold IsV
      rw [← tr_eq, ← tr_eq, ← tr_eq]
      simpa using hv
    · rintro ⟨f, hf, hv⟩
      obtain ⟨i, hi, rfl⟩ := List.mem_map.mp hf
      refine ⟨i, (hm i).mpr hi, ?_⟩
      rw [outFacet_has] at hv
      unfold IsV at hv
      rw [← tr_eq, ← tr_eq, ← tr_eq] at hv
      simpa using hv
  have hmem' : ∀ v, v ∈ uniq (sort raw) ↔ v ∈ (convexHull K {p | p ∈ P}).extremePoints K := fun v =>
    (mem_uniq _ v).trans (hmem v)
  refine ⟨uniq (sort raw), ?_, hmem', ?_, ?_⟩
  · unfold computeVertex
    rw [h1]
    simp only [Except.bind]
    rw [h2]
    simp only
    unfold getVertex
    rw [he]
    rfl
  · exact ((hsort.sorted raw).sublist (uniq_sublist _)).imp fun h => not_lt.mp h
  · intro hinj
    have hs := hsort.sorted raw
    cases hr : sort raw with
    | nil => simp [uniq]
    | cons p l =>
      rw [hr] at hs
      refine uniqFrom_nodup p l hs fun x hx y hy => hinj x ?_ y ?_
      · rw [← hmem, hr]; exact hx
      · rw [← hmem, hr]; exact hy

end

end Verif.QHull
