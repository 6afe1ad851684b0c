import Mathlib.Analysis.Convex.Extreme
import Mathlib.Analysis.Convex.KreinMilman
import Verif.QHull.Output

set_option linter.unusedSectionVars false
set_option linter.unusedVariables false

/-!
Consequences of the specification of the hull: two lists of facets that meet it are the same up to order and orientation, and the
corners are the extreme points.
-/

namespace Verif.QHull

open Verif Verif.Hull3d

variable {K : Type} [Field K] [LinearOrder K] [IsStrictOrderedRing K]

section

variable {P : List (P3 K)}

theorem has3 {f : IFacet K} {x y z : P3 K} (hx : HasV f x) (hy : HasV f y) (hz : HasV f z) (n1 : x ≠ y) (n2 : y ≠ z) (n3 : z ≠ x) :
    ∀ v, HasV f v ↔ v = x ∨ v = y ∨ v = z := by
  intro v
  unfold HasV at *
  rcases hx with rfl | rfl | rfl <;> rcases hy with rfl | rfl | rfl <;> rcases hz with rfl | rfl | rfl <;>
    first
      | exact absurd rfl n1 | exact absurd rfl n2 | exact absurd rfl n3 | tauto

/-- The facets of one list are among those of the other. -/
theorem facets_match {A B : List (IFacet K)}
    (complete : ∀ x ∈ P, ∀ y ∈ P, ∀ z ∈ P, x ≠ y → y ≠ z → z ≠ x →
      ((∀ p ∈ P, 0 ≤ vol x y z p) ∨ ∀ p ∈ P, vol x y z p ≤ 0) → ∃ f ∈ A, HasV f x ∧ HasV f y ∧ HasV f z)
    (vert : ∀ f ∈ B, ∀ v, HasV f v → v ∈ P) (proper : ∀ f ∈ B, f.a ≠ f.b ∧ f.b ≠ f.c ∧ f.c ≠ f.a)
    (support : ∀ f ∈ B, (∀ p ∈ P, ¬ HasV f p → 0 < vol f.a f.b f.c p) ∨ ∀ p ∈ P, ¬ HasV f p → vol f.a f.b f.c p < 0) :
    ∀ g ∈ B, ∃ f ∈ A, ∀ v, HasV f v ↔ HasV g v := by
  intro g hg
  obtain ⟨n1, n2, n3⟩ := proper g hg
  obtain ⟨z1, z2, z3⟩ := vol_self g.a g.b g.c
  have h0 : ∀ p, HasV g p → vol g.a g.b g.c p = 0 := by
    rintro p (rfl | rfl | rfl)
    · exact z1
    · exact z2
    · exact z3
  obtain ⟨f, hf, h1, h2, h3⟩ := complete g.a (vert g hg _ (Or.inl rfl)) g.b (vert g hg _ (Or.inr (Or.inl rfl))) g.c
    (vert g hg _ (Or.inr (Or.inr rfl))) n1 n2 n3 (by
      rcases support g hg with hs | hs
      · refine Or.inl fun p hp => ?_
        by_cases hv : HasV g p
        · exact (h0 p hv).ge
        · exact (hs p hp hv).le
      · refine Or.inr fun p hp => ?_
        by_cases hv : HasV g p
        · exact (h0 p hv).le
        · exact (hs p hp hv).le)
  exact ⟨f, hf, has3 h1 h2 h3 n1 n2 n3⟩

theorem IsHull3.of_facets {A B : List (IFacet K)} (hA : IsHull3 P A) (vert : ∀ f ∈ B, ∀ v, HasV f v → v ∈ P)
    (proper : ∀ f ∈ B, f.a ≠ f.b ∧ f.b ≠ f.c ∧ f.c ≠ f.a)
    (support : ∀ f ∈ B, (∀ p ∈ P, ¬ HasV f p → 0 < vol f.a f.b f.c p) ∨ ∀ p ∈ P, ¬ HasV f p → vol f.a f.b f.c p < 0)
    (complete : ∀ x ∈ P, ∀ y ∈ P, ∀ z ∈ P, x ≠ y → y ≠ z → z ≠ x →
      ((∀ p ∈ P, 0 ≤ vol x y z p) ∨ ∀ p ∈ P, vol x y z p ≤ 0) → ∃ f ∈ B, HasV f x ∧ HasV f y ∧ HasV f z)
    (distinct : B.Pairwise fun f g => ¬ ∀ v, HasV f v ↔ HasV g v) : IsHull3 P B := by
  have mBA := facets_match hA.complete vert proper support
  have mAB := facets_match complete hA.vert hA.proper hA.support
  refine ⟨vert, proper, support, complete, distinct, ?_, ?_⟩
  · rw [hA.span]
    congr 1
    ext p
    constructor
    · rintro ⟨f, hf, hv⟩
      obtain ⟨g, hg, he⟩ := mAB f hf
      exact ⟨g, hg, (he p).mpr hv⟩
    · rintro ⟨f, hf, hv⟩
      obtain ⟨g, hg, he⟩ := mBA f hf
      exact ⟨g, hg, (he p).mpr hv⟩
  · intro f hf u v hu hv hne
    obtain ⟨f', hf', ef⟩ := mBA f hf
    obtain ⟨g', hg', gu, gv, gne, gall⟩ := hA.edge f' hf' u v ((ef u).mpr hu) ((ef v).mpr hv) hne
    obtain ⟨g, hg, eg⟩ := mAB g' hg'
    refine ⟨g, hg, (eg u).mpr gu, (eg v).mpr gv, ?_, ?_⟩
    · intro he
      exact gne fun w => (eg w).symm.trans ((he w).trans (ef w).symm)
    · intro k hk ku kv
      obtain ⟨k', hk', ek⟩ := mBA k hk
      rcases gall k' hk' ((ek u).mpr ku) ((ek v).mpr kv) with h | h
      · exact Or.inl fun w => (ek w).symm.trans ((h w).trans (ef w))
      · exact Or.inr fun w => (ek w).symm.trans ((h w).trans (eg w).symm)

/-- A point that is the strict lexicographic minimum of two affine functions is an extreme point. -/
theorem extreme_of_lex {S : Set (P3 K)} {a : P3 K} (L M : P3 K → K)
    (hL : ∀ x y : P3 K, ∀ s t : K, s + t = 1 → L (s • x + t • y) = s * L x + t * L y)
    (hM : ∀ x y : P3 K, ∀ s t : K, s + t = 1 → M (s • x + t • y) = s * M x + t * M y) (ha : a ∈ S) (hLa : L a = 0) (hMa : M a = 0)
    (hlex : ∀ p ∈ S, p ≠ a → 0 < L p ∨ (L p = 0 ∧ 0 < M p)) : a ∈ (convexHull K S).extremePoints K := by
  have hsub : convexHull K S ⊆ {p | p = a ∨ 0 < L p ∨ (L p = 0 ∧ 0 < M p)} := by
    refine convexHull_min ?_ ?_
    · intro p hp
      by_cases hpa : p = a
      · exact Or.inl hpa
      · exact Or.inr (hlex p hp hpa)
    · intro x hx y hy s t hs ht hst
      rcases hs.eq_or_lt with hs0 | hs0
      · have h1 : t = 1 := by linarith
        rw [← hs0, h1]
        simpa using hy
      rcases ht.eq_or_lt with ht0 | ht0
      · have h1 : s = 1 := by linarith
        rw [← ht0, h1]
        simpa using hx
      simp only [Set.mem_ofPred_eq] at hx hy ⊢
      have eL := hL x y s t hst
      have eM := hM x y s t hst
      rcases hx with rfl | hx | ⟨hx, hx'⟩
      · rcases hy with rfl | hy | ⟨hy, hy'⟩
        · left
          rw [← add_smul, hst, one_smul]
        · refine Or.inr (Or.inl ?_)
          rw [eL, hLa]
          have := mul_pos ht0 hy
          linarith
        · refine Or.inr (Or.inr ⟨by rw [eL, hLa, hy]; ring, ?_⟩)
          rw [eM, hMa]
          have := mul_pos ht0 hy'
          linarith
      · refine Or.inr (Or.inl ?_)
        rw [eL]
        have h1 := mul_pos hs0 hx
        rcases hy with rfl | hy | ⟨hy, hy'⟩
        · rw [hLa]; linarith
        · have := mul_pos ht0 hy
          linarith
        · rw [hy]; linarith
      · have h1 := mul_pos hs0 hx'
        rcases hy with rfl | hy | ⟨hy, hy'⟩
        · refine Or.inr (Or.inr ⟨by rw [eL, hLa, hx]; ring, ?_⟩)
          rw [eM, hMa]
          linarith
        · refine Or.inr (Or.inl ?_)
          rw [eL, hx]
          have := mul_pos ht0 hy
          linarith
        · refine Or.inr (Or.inr ⟨by rw [eL, hy, hx]; ring, ?_⟩)
          rw [eM]
          have := mul_pos ht0 hy'
          linarith
  rw [mem_extremePoints_iff_left]
  refine ⟨subset_convexHull K S ha, ?_⟩
  rintro x hx y hy ⟨s, t, hs, ht, hst, he⟩
  have eL := hL x y s t hst
  have eM := hM x y s t hst
  rw [he, hLa] at eL
  rw [he, hMa] at eM
  rcases hsub hx with h | h | ⟨h, h'⟩
  · exact h
  · have h1 := mul_pos hs h
    rcases hsub hy with h2 | h2 | ⟨h2, _⟩
    · rw [h2, hLa] at eL; linarith
    · have := mul_pos ht h2; linarith
    · rw [h2] at eL; linarith
  · have h1 := mul_pos hs h'
    rcases hsub hy with h2 | h2 | ⟨h2, h2'⟩
    · rw [h2, hMa] at eM; linarith
    · have := mul_pos ht h2
      rw [h] at eL
      linarith
    · have := mul_pos ht h2'; linarith

theorem vol_affine4 (a b c x y : P3 K) (s t : K) (hst : s + t = 1) :
    vol a b c (s • x + t • y) = s * vol a b c x + t * vol a b c y := by
  obtain rfl : t = 1 - s := by linarith
  unfold vol
  simp only [Pi.add_apply, Pi.smul_apply, smul_eq_mul]
  ring

theorem vol_affine3 (a b c x y : P3 K) (s t : K) (hst : s + t = 1) :
    vol a b (s • x + t • y) c = s * vol a b x c + t * vol a b y c := by
  obtain rfl : t = 1 - s := by linarith
  unfold vol
  simp only [Pi.add_apply, Pi.smul_apply, smul_eq_mul]
  ring

theorem vol_affine2 (a b c x y : P3 K) (s t : K) (hst : s + t = 1) :
    vol a (s • x + t • y) b c = s * vol a x b c + t * vol a y b c := by
  obtain rfl : t = 1 - s := by linarith
  unfold vol
  simp only [Pi.add_apply, Pi.smul_apply, smul_eq_mul]
  ring

theorem corner_extreme {a b c d : P3 K} (ha : a ∈ P) (hd : d ∈ P) (hs : ∀ p ∈ P, p ≠ a → p ≠ b → p ≠ c → 0 < vol a b c p)
    (nab : a ≠ b) (nac : a ≠ c) (nd : d ≠ a ∧ d ≠ b ∧ d ≠ c) : a ∈ (convexHull K {p | p ∈ P}).extremePoints K := by
  have hpos := hs d hd nd.1 nd.2.1 nd.2.2
  refine extreme_of_lex (vol a b c) (fun p => vol a p c d + vol a b p d) (fun x y s t h => vol_affine4 a b c x y s t h) ?_ ha
    (vol_self a b c).1 ?_ ?_
  · intro x y s t h
    rw [vol_affine2 _ _ _ _ _ _ _ h, vol_affine3 _ _ _ _ _ _ _ h]
    ring
  · unfold vol
    ring
  · intro p hp hpa
    by_cases hb : p = b
    · refine Or.inr ⟨by rw [hb]; exact (vol_self a b c).2.1, ?_⟩
      have e : vol a b b d = 0 := by unfold vol; ring
      rw [hb, e]
      linarith
    by_cases hc : p = c
    · refine Or.inr ⟨by rw [hc]; exact (vol_self a b c).2.2, ?_⟩
      have e : vol a c c d = 0 := by unfold vol; ring
      rw [hc, e]
      linarith
    · exact Or.inl (hs p hp hpa hb hc)

theorem vol_rot (a b c p : P3 K) : vol b c a p = vol a b c p := by
  unfold vol; ring

/-- The corners of the facets are exactly the extreme points of the convex hull. -/
theorem IsHull3.extreme {out : List (IFacet K)} (hA : IsHull3 P out) (h4 : 4 ≤ P.toFinset.card) (v : P3 K) :
    v ∈ (convexHull K {p | p ∈ P}).extremePoints K ↔ ∃ f ∈ out, HasV f v := by
  constructor
  · intro hv
    rw [hA.span] at hv
    have h := extremePoints_convexHull_subset hv
    exact h
  · rintro ⟨f, hf, hv⟩
    obtain ⟨n1, n2, n3⟩ := hA.proper f hf
    obtain ⟨d, hd, nd⟩ : ∃ d ∈ P, ¬ HasV f d := by
      obtain ⟨d, hd, hn⟩ := Finset.exists_mem_notMem_of_card_lt_card (s := {f.a, f.b, f.c}) (t := P.toFinset)
        (by have := Finset.card_le_three (a := f.a) (b := f.b) (c := f.c); omega)
      refine ⟨d, List.mem_toFinset.mp hd, fun h => hn ?_⟩
      simp only [Finset.mem_insert, Finset.mem_singleton]
      exact h
    have key : ∀ a b c : P3 K, (∀ w, HasV f w ↔ w = a ∨ w = b ∨ w = c) → a ≠ b → a ≠ c →
        ((∀ p ∈ P, ¬ HasV f p → 0 < vol a b c p) ∨ ∀ p ∈ P, ¬ HasV f p → vol a b c p < 0) →
        a ∈ (convexHull K {p | p ∈ P}).extremePoints K := by
      intro a b c hw nab nac hs
      have ha := hA.vert f hf a ((hw a).mpr (Or.inl rfl))
      rw [hw] at nd
      push Not at nd
      rcases hs with hs | hs
      · refine corner_extreme (b := b) (c := c) ha hd (fun p hp h1 h2 h3 => hs p hp ?_) nab nac nd
        rw [hw]; tauto
      · refine corner_extreme (b := c) (c := b) ha hd (fun p hp h1 h2 h3 => ?_) nac nab (by tauto)
        rw [vol_swap]
        have := hs p hp (by rw [hw]; tauto)
        linarith
    have hs := hA.support f hf
    rcases hv with rfl | rfl | rfl
    · exact key f.a f.b f.c (fun w => Iff.rfl) n1 n3.symm hs
    · refine key f.b f.c f.a (fun w => by unfold HasV; tauto) n2 n1.symm ?_
      simp only [vol_rot f.a f.b f.c]
      exact hs
    · refine key f.c f.a f.b (fun w => by unfold HasV; tauto) n3 n2.symm ?_
      simp only [← vol_rot f.c f.a f.b]
      exact hs

end

section

variable {eps : K} {P : List (P3 K)}

/-- Whatever the number of points, the loop run on them gives the hull. -/
theorem hull_exists (hg : GenInput eps P) : ∃ A, IsHull3 P A := by
  obtain ⟨o, st, st', h1, h2, hg', hG, hin, hlen⟩ := run_ok hg (le_refl _)
  exact ⟨_, IsHull3.of_mesh hg' hG.mesh hin hG.mesh.nodup fun i => Iff.rfl⟩

theorem forall₂_mem_left {α β : Type} {R : α → β → Prop} {l : List α} {m : List β} (h : List.Forall₂ R l m) :
    (∀ x ∈ l, ∃ y ∈ m, R x y) ∧ ∀ y ∈ m, ∃ x ∈ l, R x y := by
  induction h with
  | nil => simp
  | cons hr _ ih =>
    refine ⟨?_, ?_⟩
    · intro x hx
      rcases List.mem_cons.mp hx with rfl | hx
      · exact ⟨_, by simp, hr⟩
      · obtain ⟨y, hy, hr⟩ := ih.1 x hx
        exact ⟨y, by simp [hy], hr⟩
    · intro x hx
      rcases List.mem_cons.mp hx with rfl | hx
      · exact ⟨_, by simp, hr⟩
      · obtain ⟨y, hy, hr⟩ := ih.2 x hx
        exact ⟨y, by simp [hy], hr⟩

theorem forall₂_pairwise {α β : Type} {R : α → β → Prop} {l : List α} {m : List β} (h : List.Forall₂ R l m) {S : α → α → Prop}
    {T : β → β → Prop} (hm : m.Pairwise T) (hST : ∀ x y a b, R x a → R y b → a ∈ m → b ∈ m → T a b → S x y) : l.Pairwise S := by
  induction h with
  | nil => exact List.Pairwise.nil
  | cons hr ht ih =>
    rw [List.pairwise_cons] at hm
    refine List.Pairwise.cons ?_ (ih hm.2 fun x y a b h1 h2 ha hb => hST x y a b h1 h2 (by simp [ha]) (by simp [hb]))
    intro y hy
    obtain ⟨b, hb, hrb⟩ := (forall₂_mem_left ht).1 y hy
    exact hST _ _ _ _ hr hrb (by simp) (by simp [hb]) (hm.1 b hb)

theorem same_has {f : IFacet K} {a b c : P3 K} (h : SameTriangle f a b c) (v : P3 K) : HasV f v ↔ v = a ∨ v = b ∨ v = c := by
  obtain ⟨h1, ⟨h2, h3⟩ | ⟨h2, h3⟩⟩ := h
  · unfold HasV; rw [h1, h2, h3]
  · unfold HasV; rw [h1, h2, h3]; tauto

theorem same_vol {f : IFacet K} {a b c : P3 K} (h : SameTriangle f a b c) :
    (∀ p, vol f.a f.b f.c p = vol a b c p) ∨ ∀ p, vol f.a f.b f.c p = -vol a b c p := by
  obtain ⟨h1, ⟨h2, h3⟩ | ⟨h2, h3⟩⟩ := h
  · left; intro p; rw [h1, h2, h3]
  · right; intro p; rw [h1, h2, h3, vol_swap]

/-- The small case: all triples are tried. -/
theorem brute_isHull (hg : GenInput eps P) (hn : P.Nodup) : IsHull3 P (brute eps P) := by
  obtain ⟨A, hA⟩ := hull_exists hg
  obtain ⟨T, hT, hmem, hF⟩ := c49_brute_facets eps P
  obtain ⟨hF1, hF2⟩ := forall₂_mem_left hF
  set X : ℕ → P3 K := fun i => P.getD i 0 with hX
  have xmem : ∀ {i}, i < P.length → X i ∈ P := by
    intro i hi
    rw [hX]
    simp only
    rw [List.getD_eq_getElem _ _ hi]
    exact List.getElem_mem hi
  have xinj : ∀ {i j}, i < P.length → j < P.length → X i = X j → i = j := by
    intro i j hi hj he
    rw [hX] at he
    simp only at he
    rw [List.getD_eq_getElem _ _ hi, List.getD_eq_getElem _ _ hj] at he
    exact (hn.getElem_inj_iff).mp he
  have xsurj : ∀ {p}, p ∈ P → ∃ i < P.length, p = X i := by
    intro p hp
    obtain ⟨i, hi, rfl⟩ := List.getElem_of_mem hp
    refine ⟨i, hi, ?_⟩
    rw [hX]
    simp only
    rw [List.getD_eq_getElem _ _ hi]
  have hvol : ∀ i j k l, i < P.length → j < P.length → k < P.length → l < P.length → i ≠ j → i ≠ k → j ≠ k → l ≠ i → l ≠ j →
      l ≠ k → eps < |vol (X i) (X j) (X k) (X l)| := by
    intro i j k l hi hj hk hl n1 n2 n3 n4 n5 n6
    rw [vol_sv, abs_neg]
    exact hg.vol _ (xmem hi) _ (xmem hj) _ (xmem hk) _ (xmem hl) (fun h => n1 (xinj hi hj h)) (fun h => n2 (xinj hi hk h))
      (fun h => n4 (xinj hi hl h).symm) (fun h => n3 (xinj hj hk h)) (fun h => n5 (xinj hj hl h).symm)
      (fun h => n6 (xinj hk hl h).symm)
  have hne := hg.nn
  -- the triples that are kept have all other points on one side
  have hside : ∀ i j k, (i, j, k) ∈ T ↔ i < j ∧ j < k ∧ k < P.length ∧
      ((∀ l < P.length, l ≠ i → l ≠ j → l ≠ k → 0 < vol (X i) (X j) (X k) (X l)) ∨
        ∀ l < P.length, l ≠ i → l ≠ j → l ≠ k → vol (X i) (X j) (X k) (X l) < 0) := by
    intro i j k
    rw [hmem]
    constructor
    · rintro ⟨h1, h2, h3, σ, hσ, h⟩
      refine ⟨h1, h2, h3, ?_⟩
      have habs : ∀ l < P.length, l ≠ i → l ≠ j → l ≠ k → eps < |vol (X i) (X j) (X k) (X l)| := fun l hl n1 n2 n3 =>
        hvol i j k l (by omega) (by omega) h3 hl (by omega) (by omega) (by omega) n1 n2 n3
      have hσ' : σ = 1 ∨ σ = -1 := by
        rw [hσ]; split <;> simp
      rcases hσ' with hσ | hσ <;> rw [hσ] at h
      · rcases h with h | h
        · refine Or.inl fun l hl n1 n2 n3 => ?_
          have := h l hl n1 n2 n3
          rw [one_mul] at this
          linarith
        · refine Or.inr fun l hl n1 n2 n3 => ?_
          have h4 := h l hl n1 n2 n3
          rw [one_mul] at h4
          have h5 := habs l hl n1 n2 n3
          by_contra hc
          rw [abs_of_nonneg (not_lt.mp hc)] at h5
          linarith
      · rcases h with h | h
        · refine Or.inr fun l hl n1 n2 n3 => ?_
          have := h l hl n1 n2 n3
          linarith
        · refine Or.inl fun l hl n1 n2 n3 => ?_
          have h4 := h l hl n1 n2 n3
          have h5 := habs l hl n1 n2 n3
          by_contra hc
          rw [abs_of_nonpos (not_lt.mp hc)] at h5
          linarith
    · rintro ⟨h1, h2, h3, h⟩
      refine ⟨h1, h2, h3, _, rfl, ?_⟩
      have habs : ∀ l < P.length, l ≠ i → l ≠ j → l ≠ k → eps < |vol (X i) (X j) (X k) (X l)| := fun l hl n1 n2 n3 =>
        hvol i j k l (by omega) (by omega) h3 hl (by omega) (by omega) (by omega) n1 n2 n3
      split
      · rcases h with h | h
        · refine Or.inl fun l hl n1 n2 n3 => ?_
          have h5 := habs l hl n1 n2 n3
          rw [abs_of_pos (h l hl n1 n2 n3)] at h5
          rw [one_mul]
          exact h5
        · refine Or.inr fun l hl n1 n2 n3 => ?_
          have := h l hl n1 n2 n3
          rw [one_mul]
          exact (this.le).trans hne
      · rcases h with h | h
        · refine Or.inr fun l hl n1 n2 n3 => ?_
          have := h l hl n1 n2 n3
          refine le_trans ?_ hne
          have h6 : (0 : K) < vol (P.getD i 0) (P.getD j 0) (P.getD k 0) (P.getD l 0) := this
          linarith
        · refine Or.inl fun l hl n1 n2 n3 => ?_
          have h5 := habs l hl n1 n2 n3
          rw [abs_of_neg (h l hl n1 n2 n3)] at h5
          have h6 : eps < -vol (P.getD i 0) (P.getD j 0) (P.getD k 0) (P.getD l 0) := h5
          linarith
  refine hA.of_facets ?_ ?_ ?_ ?_ ?_
  · intro f hf v hv
    obtain ⟨⟨i, j, k⟩, ht, hs⟩ := hF1 f hf
    obtain ⟨h1, h2, h3, _⟩ := (hside i j k).mp ht
    rcases (same_has hs v).mp hv with rfl | rfl | rfl
    · exact xmem (i := i) (by omega)
    · exact xmem (i := j) (by omega)
    · exact xmem (i := k) h3
  · intro f hf
    obtain ⟨⟨i, j, k⟩, ht, hs⟩ := hF1 f hf
    obtain ⟨h1, h2, h3, _⟩ := (hside i j k).mp ht
    have e1 : X i ≠ X j := fun h => by have := xinj (by omega) (by omega) h; omega
    have e2 : X j ≠ X k := fun h => by have := xinj (by omega) (by omega) h; omega
    have e3 : X k ≠ X i := fun h => by have := xinj (by omega) (by omega) h; omega
    obtain ⟨s1, ⟨s2, s3⟩ | ⟨s2, s3⟩⟩ := hs
    · rw [s1, s2, s3]; exact ⟨e1, e2, e3⟩
    · rw [s1, s2, s3]; exact ⟨e3.symm, e2.symm, e1.symm⟩
  · intro f hf
    obtain ⟨⟨i, j, k⟩, ht, hs⟩ := hF1 f hf
    obtain ⟨h1, h2, h3, h4⟩ := (hside i j k).mp ht
    have tra : ∀ p ∈ P, ¬ HasV f p → ∃ l < P.length, l ≠ i ∧ l ≠ j ∧ l ≠ k ∧ p = X l := by
      intro p hp hv
      obtain ⟨l, hl, rfl⟩ := xsurj hp
      rw [same_has hs] at hv
      push Not at hv
      exact ⟨l, hl, fun h => hv.1 (h ▸ rfl), fun h => hv.2.1 (h ▸ rfl), fun h => hv.2.2 (h ▸ rfl), rfl⟩
    have sgn : (∀ p ∈ P, ¬ HasV f p → 0 < vol (X i) (X j) (X k) p) ∨ ∀ p ∈ P, ¬ HasV f p → vol (X i) (X j) (X k) p < 0 := by
      rcases h4 with h4 | h4
      · refine Or.inl fun p hp hv => ?_
        obtain ⟨l, hl, n1, n2, n3, rfl⟩ := tra p hp hv
        exact h4 l hl n1 n2 n3
      · refine Or.inr fun p hp hv => ?_
        obtain ⟨l, hl, n1, n2, n3, rfl⟩ := tra p hp hv
        exact h4 l hl n1 n2 n3
    rcases same_vol hs with hv | hv
    · simp only [hv]; exact sgn
    · simp only [hv]
      rcases sgn with sgn | sgn
      · exact Or.inr fun p hp hn => neg_neg_of_pos (sgn p hp hn)
      · exact Or.inl fun p hp hn => neg_pos.mpr (sgn p hp hn)
  · -- every supporting triple is found
    have ord : ∀ i j k, i < j → j < k → k < P.length →
        ((∀ p ∈ P, 0 ≤ vol (X i) (X j) (X k) p) ∨ ∀ p ∈ P, vol (X i) (X j) (X k) p ≤ 0) →
        ∃ f ∈ brute eps P, HasV f (X i) ∧ HasV f (X j) ∧ HasV f (X k) := by
      intro i j k h1 h2 h3 hs
      have habs : ∀ l < P.length, l ≠ i → l ≠ j → l ≠ k → vol (X i) (X j) (X k) (X l) ≠ 0 := by
        intro l hl n1 n2 n3 h0
        have := hvol i j k l (by omega) (by omega) h3 hl (by omega) (by omega) (by omega) n1 n2 n3
        rw [h0, abs_zero] at this
        linarith
      have ht : (i, j, k) ∈ T := by
        rw [hside]
        refine ⟨h1, h2, h3, ?_⟩
        rcases hs with hs | hs
        · exact Or.inl fun l hl n1 n2 n3 => lt_of_le_of_ne (hs _ (xmem hl)) (habs l hl n1 n2 n3).symm
        · exact Or.inr fun l hl n1 n2 n3 => lt_of_le_of_ne (hs _ (xmem hl)) (habs l hl n1 n2 n3)
      obtain ⟨f, hf, he⟩ := hF2 _ ht
      exact ⟨f, hf, (same_has he _).mpr (Or.inl rfl), (same_has he _).mpr (Or.inr (Or.inl rfl)),
        (same_has he _).mpr (Or.inr (Or.inr rfl))⟩
    intro x hx y hy z hz n1 n2 n3 hs
    obtain ⟨i, hi, rfl⟩ := xsurj hx
    obtain ⟨j, hj, rfl⟩ := xsurj hy
    obtain ⟨k, hk, rfl⟩ := xsurj hz
    have d1 : i ≠ j := fun h => n1 (h ▸ rfl)
    have d2 : j ≠ k := fun h => n2 (h ▸ rfl)
    have d3 : k ≠ i := fun h => n3 (h ▸ rfl)
    have rot : ∀ i j k, (((∀ p ∈ P, 0 ≤ vol (X i) (X j) (X k) p) ∨ ∀ p ∈ P, vol (X i) (X j) (X k) p ≤ 0) →
        ((∀ p ∈ P, 0 ≤ vol (X j) (X k) (X i) p) ∨ ∀ p ∈ P, vol (X j) (X k) (X i) p ≤ 0)) := by
      intro i j k h
      simp only [vol_rot (X i) (X j) (X k)]
      exact h
    have swp : ∀ i j k, (((∀ p ∈ P, 0 ≤ vol (X i) (X j) (X k) p) ∨ ∀ p ∈ P, vol (X i) (X j) (X k) p ≤ 0) →
        ((∀ p ∈ P, 0 ≤ vol (X i) (X k) (X j) p) ∨ ∀ p ∈ P, vol (X i) (X k) (X j) p ≤ 0)) := by
      intro i j k h
      simp only [vol_swap (X i) (X j) (X k)]
      rcases h with h | h
      · exact Or.inr fun p hp => neg_nonpos.mpr (h p hp)
      · exact Or.inl fun p hp => neg_nonneg.mpr (h p hp)
    rcases lt_or_gt_of_ne d1 with a1 | a1 <;> rcases lt_or_gt_of_ne d2 with a2 | a2 <;> rcases lt_or_gt_of_ne d3 with a3 | a3
    · omega
    · obtain ⟨f, hf, e1, e2, e3⟩ := ord i j k a1 a2 hk hs
      exact ⟨f, hf, e1, e2, e3⟩
    · -- k < i < j
      obtain ⟨f, hf, e1, e2, e3⟩ := ord k i j a3 a1 hj (rot j k i (rot i j k hs))
      exact ⟨f, hf, e2, e3, e1⟩
    · -- i < k < j
      obtain ⟨f, hf, e1, e2, e3⟩ := ord i k j a3 a2 hj (swp i j k hs)
      exact ⟨f, hf, e1, e3, e2⟩
    · -- j < k < i
      obtain ⟨f, hf, e1, e2, e3⟩ := ord j k i a2 a3 hi (rot i j k hs)
      exact ⟨f, hf, e3, e1, e2⟩
    · -- j < i < k
      obtain ⟨f, hf, e1, e2, e3⟩ := ord j i k a1 a3 hk (swp j k i (rot i j k hs))
      exact ⟨f, hf, e2, e1, e3⟩
    · -- k < j < i
      obtain ⟨f, hf, e1, e2, e3⟩ := ord k j i a2 a1 hi (swp k i j (rot j k i (rot i j k hs)))
      exact ⟨f, hf, e3, e2, e1⟩
    · omega
  · refine forall₂_pairwise hF hT ?_
    rintro f g ⟨i, j, k⟩ ⟨i', j', k'⟩ h1 h2 ha hb hne he
    apply hne
    obtain ⟨a1, a2, a3, _⟩ := (hside i j k).mp ha
    obtain ⟨b1, b2, b3, _⟩ := (hside i' j' k').mp hb
    have t : ∀ v, (v = X i ∨ v = X j ∨ v = X k) ↔ (v = X i' ∨ v = X j' ∨ v = X k') := fun v =>
      (same_has h1 v).symm.trans ((he v).trans (same_has h2 v))
    have g1 : ∀ l < P.length, (l = i ∨ l = j ∨ l = k) → (l = i' ∨ l = j' ∨ l = k') := by
      intro l hl h
      rcases (t (X l)).mp (by rcases h with rfl | rfl | rfl <;> simp) with h | h | h
      · exact Or.inl (xinj hl (by omega) h)
      · exact Or.inr (Or.inl (xinj hl (by omega) h))
      · exact Or.inr (Or.inr (xinj hl (by omega) h))
    have q1 := g1 i (by omega) (Or.inl rfl)
    have q2 := g1 j (by omega) (Or.inr (Or.inl rfl))
    have q3 := g1 k (by omega) (Or.inr (Or.inr rfl))
    simp only [Prod.mk.injEq]
    omega

end

end Verif.QHull
