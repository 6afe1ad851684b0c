import Verif.QHull.ParProps
import Verif.QHull.Props
import Verif.Hull3d.DcProps

set_option linter.unusedSectionVars false
set_option linter.unusedVariables false

/-!
Property C48: the divide and conquer hull in space with the quickhulls it calls.
-/

namespace Verif.QHull

open Verif Verif.Hull3d Verif.Par Verif.Reserve

variable {K : Type} [Field K] [LinearOrder K] [IsStrictOrderedRing K]
variable {eps : K} {P Q U : List (P3 K)}

/-- General position of every part of the input: no point twice, no four points within `eps` of a plane and no three of them within
`eps` of a plane through the centre of four points. -/
structure GenAll (eps : K) (P : List (P3 K)) : Prop where
  nn : 0 ≤ eps
  nodup : P.Nodup
  vol : ∀ a ∈ P, ∀ b ∈ P, ∀ c ∈ P, ∀ d ∈ P, a ≠ b → a ≠ c → a ≠ d → b ≠ c → b ≠ d → c ≠ d → eps < |sv a b c d|
  det : ∀ a ∈ P, ∀ b ∈ P, ∀ c ∈ P, ∀ d ∈ P, a ≠ b → a ≠ c → a ≠ d → b ≠ c → b ≠ d → c ≠ d →
    ∀ x ∈ P, ∀ y ∈ P, ∀ z ∈ P, x ≠ y → x ≠ z → y ≠ z → eps < |sv x y z (centre a b c d)|

theorem GenAll.gen (hg : GenAll eps P) (hs : Q ⊆ P) (h4 : 4 ≤ Q.toFinset.card) : GenInput eps Q := by
  have hv : GenVol eps Q := ⟨hg.nn, h4, fun a ha b hb c hc d hd => hg.vol a (hs ha) b (hs hb) c (hs hc) d (hs hd)⟩
  refine ⟨hv, fun o ho x hx y hy z hz => ?_⟩
  obtain ⟨a, ha, b, hb, c, hc, d, hd, he, n1, n2, n3, n4, n5, n6⟩ := hv.corners
  unfold centreOf at ho
  rw [he] at ho
  obtain rfl := Option.some.inj ho
  exact hg.det a (hs ha) b (hs hb) c (hs hc) d (hs hd) n1 n2 n3 n4 n5 n6 x (hs hx) y (hs hy) z (hs hz)

theorem GenAll.sublist (hg : GenAll eps P) (hs : Q.Sublist P) (h4 : 4 ≤ Q.length) : GenInput eps Q :=
  hg.gen hs.subset (by rwa [List.toFinset_card_of_nodup (hg.nodup.sublist hs)])

theorem mem_of_extreme {v : P3 K} (h : v ∈ (convexHull K {q | q ∈ U}).extremePoints K) : v ∈ U := by
  have := extremePoints_convexHull_subset h
  exact this

theorem vol_ne {a b c p : P3 K} (h : 0 < |sv a b c p|) : vol a b c p ≠ 0 := by
  rw [vol_sv, neg_ne_zero]
  exact abs_pos.mp h

theorem vol_mono {a b c p : P3 K} (h : p ∈ convexHull K {q | q ∈ U}) (hU : ∀ u ∈ U, 0 ≤ vol a b c u) : 0 ≤ vol a b c p := by
  have : convexHull K {q | q ∈ U} ⊆ {q | 0 ≤ vol a b c q} := by
    refine convexHull_min hU ?_
    intro x hx y hy s t hs ht hst
    show 0 ≤ vol a b c _
    rw [vol_affine4 a b c x y s t hst]
    exact add_nonneg (mul_nonneg hs hx) (mul_nonneg ht hy)
  exact this h

theorem vol_anti {a b c p : P3 K} (h : p ∈ convexHull K {q | q ∈ U}) (hU : ∀ u ∈ U, vol a b c u ≤ 0) : vol a b c p ≤ 0 := by
  have e : ∀ q, vol a c b q = -vol a b c q := by intro q; unfold vol; ring
  have := vol_mono (a := a) (b := c) (c := b) h fun u hu => by rw [e]; have := hU u hu; linarith
  rw [e] at this
  linarith

/-- The facets of the hull of points that span `Q` are the facets of the hull of `Q`. -/
theorem IsHull3.transfer (hg : GenInput eps Q) (hs : U ⊆ Q) (hcov : ∀ p ∈ Q, p ∈ convexHull K {q | q ∈ U})
    {out : List (IFacet K)} (hout : IsHull3 U out) : IsHull3 Q out := by
  have hconv : convexHull K {p | p ∈ Q} = convexHull K {p | p ∈ U} :=
    le_antisymm (convexHull_min hcov (convex_convexHull K _)) (convexHull_mono hs)
  obtain ⟨A, hA⟩ := hull_exists hg
  refine ⟨fun f hf v hv => hs (hout.vert f hf v hv), hout.proper, ?_, ?_, hout.distinct, hconv.trans hout.span, hout.edge⟩
  · intro f hf
    obtain ⟨n1, n2, n3⟩ := hout.proper f hf
    obtain ⟨z1, z2, z3⟩ := vol_self f.a f.b f.c
    have hz : ∀ p, HasV f p → vol f.a f.b f.c p = 0 := by
      rintro p (rfl | rfl | rfl)
      · exact z1
      · exact z2
      · exact z3
    have hm : ∀ v, HasV f v → v ∈ Q := fun v hv => hs (hout.vert f hf v hv)
    have hne : ∀ p ∈ Q, ¬ HasV f p → vol f.a f.b f.c p ≠ 0 := by
      intro p hp hn
      refine vol_ne (lt_of_le_of_lt hg.nn (hg.vol _ (hm _ (Or.inl rfl)) _ (hm _ (Or.inr (Or.inl rfl))) _
        (hm _ (Or.inr (Or.inr rfl))) p hp n1 n3.symm ?_ n2 ?_ ?_))
      · exact fun h => hn (Or.inl h.symm)
      · exact fun h => hn (Or.inr (Or.inl h.symm))
      · exact fun h => hn (Or.inr (Or.inr h.symm))
    rcases hout.support f hf with h | h
    · left
      intro p hp hn
      refine lt_of_le_of_ne (vol_mono (hcov p hp) fun u hu => ?_) (hne p hp hn).symm
      by_cases hv : HasV f u
      · exact (hz u hv).ge
      · exact (h u hu hv).le
    · right
      intro p hp hn
      refine lt_of_le_of_ne (vol_anti (hcov p hp) fun u hu => ?_) (hne p hp hn)
      by_cases hv : HasV f u
      · exact (hz u hv).le
      · exact (h u hu hv).le
  · intro x hx y hy z hz n1 n2 n3 hside
    obtain ⟨g, hgA, h1, h2, h3⟩ := hA.complete x hx y hy z hz n1 n2 n3 hside
    have hin : ∀ v, HasV g v → v ∈ U := by
      intro v hv
      have := (hA.extreme hg.four v).mpr ⟨g, hgA, hv⟩
      rw [hconv] at this
      exact mem_of_extreme this
    exact hout.complete x (hin x h1) y (hin y h2) z (hin z h3) n1 n2 n3
      (hside.imp (fun h p hp => h p (hs hp)) fun h p hp => h p (hs hp))

/-- Points that span `Q` number at least four. -/
theorem four_of_span (hg : GenInput eps Q) (hcov : ∀ p ∈ Q, p ∈ convexHull K {q | q ∈ U}) (hs : U ⊆ Q) :
    4 ≤ U.toFinset.card := by
  obtain ⟨A, hA⟩ := hull_exists hg
  have hconv : convexHull K {p | p ∈ Q} = convexHull K {p | p ∈ U} :=
    le_antisymm (convexHull_min hcov (convex_convexHull K _)) (convexHull_mono hs)
  have hin : ∀ g ∈ A, ∀ v, HasV g v → v ∈ U := by
    intro g hgA v hv
    have := (hA.extreme hg.four v).mpr ⟨g, hgA, hv⟩
    rw [hconv] at this
    exact mem_of_extreme this
  have hne : A ≠ [] := by
    rintro rfl
    have h := hA.span
    obtain ⟨q, hq, _⟩ := hg.other ∅ (by simp)
    have hq' : q ∈ convexHull K {p | p ∈ Q} := subset_convexHull K _ hq
    rw [h] at hq'
    simp at hq'
  obtain ⟨f, hf⟩ := List.exists_mem_of_ne_nil _ hne
  obtain ⟨n1, n2, n3⟩ := hA.proper f hf
  obtain ⟨g, hgA, ga, gb, hdiff, _⟩ := hA.edge f hf f.a f.b (Or.inl rfl) (Or.inr (Or.inl rfl)) n1
  have hw : ∃ w, HasV g w ∧ ¬ HasV f w := by
    by_contra hcon
    push Not at hcon
    obtain ⟨m1, m2, m3⟩ := hA.proper g hgA
    apply hdiff
    intro w
    refine ⟨hcon w, ?_⟩
    have k1 := hcon g.a (Or.inl rfl)
    have k2 := hcon g.b (Or.inr (Or.inl rfl))
    have k3 := hcon g.c (Or.inr (Or.inr rfl))
    unfold HasV at *
    rcases k1 with k1 | k1 | k1 <;> rcases k2 with k2 | k2 | k2 <;> rcases k3 with k3 | k3 | k3 <;>
      first
        | exact absurd (k1.trans k2.symm) m1
        | exact absurd (k2.trans k3.symm) m2
        | exact absurd (k3.trans k1.symm) m3
        | (rw [k1, k2, k3]; tauto)
  obtain ⟨w, hwg, hwf⟩ := hw
  have hsub : ({f.a, f.b, f.c, w} : Finset (P3 K)) ⊆ U.toFinset := by
    intro v hv
    simp only [Finset.mem_insert, Finset.mem_singleton] at hv
    rw [List.mem_toFinset]
    rcases hv with rfl | rfl | rfl | rfl
    · exact hin f hf _ (Or.inl rfl)
    · exact hin f hf _ (Or.inr (Or.inl rfl))
    · exact hin f hf _ (Or.inr (Or.inr rfl))
    · exact hin g hgA _ hwg
  refine le_trans (le_of_eq ?_) (Finset.card_le_card hsub)
  have e1 : f.a ≠ w := fun h => hwf (Or.inl h.symm)
  have e2 : f.b ≠ w := fun h => hwf (Or.inr (Or.inl h.symm))
  have e3 : f.c ≠ w := fun h => hwf (Or.inr (Or.inr h.symm))
  rw [Finset.card_insert_of_notMem (by simp [n1, n3.symm, e1]), Finset.card_insert_of_notMem (by simp [n2, e2]),
    Finset.card_pair e3]

/-- `computeVertex` returns points of the input that span it. -/
theorem computeVertex_span (hg : GenInput eps Q) {sort : List (P3 K) → List (P3 K)} (hsort : SortOK sort) {fuel : ℕ}
    (hf : 9 * Q.length ^ 3 + Q.length + 5 ≤ fuel) : ∃ out, computeVertex eps fuel sort Q = .ok out ∧ out ⊆ Q ∧
      ∀ p ∈ Q, p ∈ convexHull K {q | q ∈ out} := by
  obtain ⟨out, he, hm, _⟩ := c65_vertices_partial hg hsort hf
  obtain ⟨A, hA⟩ := hull_exists hg
  refine ⟨out, he, fun v hv => mem_of_extreme ((hm v).mp hv), fun p hp => ?_⟩
  have h : p ∈ convexHull K {p | p ∈ Q} := subset_convexHull K _ hp
  rw [hA.span] at h
  refine convexHull_mono ?_ h
  rintro v ⟨f, hf, hv⟩
  exact (hm v).mpr ((hA.extreme hg.four v).mpr ⟨f, hf, hv⟩)

/-- C48 with the quickhulls it calls, for inputs in general position of at least 1000 points of which few are on the hull by the
sampled estimate, all numbers of workers and all interleavings of the final parallel quickhull: the number `B` of blocks is the largest
number up to eight per worker that gives blocks of ten points; a run that comes to an end returns exactly the facets of the
hull of the first `B * (n / B)` points - of all points, if `B` divides `n` - provided that there are at least 64 of them,
and otherwise follows a null pointer; and every run in which all threads get enough accesses comes to an end.
Missing: the last `n mod B` points, which are ignored (`c48_tail_false`), and hulls of fewer than 64 facets (C66). -/
theorem c48_compute_partial (hg : GenAll eps P) (hn : 1000 ≤ P.length) {w : ℕ} (hw : 0 < w)
    {sort : List (P3 K) → List (P3 K)} (hsort : SortOK sort) {fuel : ℕ} (hf : 9 * P.length ^ 3 + P.length + 5 ≤ fuel)
    {pick : Pick K} (hp : Picks pick) {numProc : ℕ} (hnp : 1 ≤ numProc) (serial : List (P3 K) → Except Err (List (IFacet K))) :
    ∃ B, (0 < B ∧ B ≤ w * 8 ∧ 10 ≤ P.length / B ∧ ∀ B', B < B' → B' ≤ w * 8 → P.length / B' < 10) ∧
      ∃ F, ∀ fuel', F ≤ fuel' → ∃ N, ∀ A, IsHull3 (P.take (B * (P.length / B))) A →
        ∀ o : ℕ → Oracle K, (∀ n, (o n).Fine) → ∀ r,
          dcCompute3 (computeVertex eps fuel sort) serial (parCompute eps fuel' pick numProc o) true w P = r →
          (r = .error .fuel ∨ (64 ≤ A.length ∧ ∃ out, r = .ok out ∧ IsHull3 (P.take (B * (P.length / B))) out) ∨
            (A.length < 64 ∧ r = .error .ub)) ∧
          (Fair o (numProc * 8) N → r ≠ .error .fuel) := by
  have hsub : ∀ Q : List (P3 K), 10 ≤ Q.length → Q.Sublist P → ∃ out, computeVertex eps fuel sort Q = .ok out ∧ out ⊆ Q ∧
      ∀ p ∈ Q, p ∈ convexHull K {q | q ∈ out} := by
    intro Q h10 hQ
    refine computeVertex_span (hg.sublist hQ (by omega)) hsort (le_trans ?_ hf)
    have := hQ.length_le
    have := Nat.pow_le_pow_left this 3
    omega
  obtain ⟨B, U, hU, hB, hUs, hcov⟩ := c48_blocks_partial (computeVertex eps fuel sort) P hsub w hw (by omega)
  refine ⟨B, hB, ?_⟩
  set m := B * (P.length / B) with hm
  have hmle : m ≤ P.length := Nat.mul_div_le _ _
  have hm10 : 10 ≤ m := by
    have := Nat.mul_le_mul hB.1 hB.2.2.1
    omega
  have hQ : GenInput eps (P.take m) := hg.sublist (List.take_sublist _ _) (by rw [List.length_take]; omega)
  have hcov' : ∀ p ∈ P.take m, p ∈ convexHull K {q | q ∈ U} := by
    intro p hp
    obtain ⟨j, hj, rfl⟩ := List.mem_iff_getElem.mp hp
    rw [List.getElem_take]
    rw [List.length_take] at hj
    exact hcov j (by omega) (by omega)
  have hUg : GenInput eps U := hg.gen (fun u hu => List.take_subset _ _ (hUs hu)) (four_of_span hQ hcov' hUs)
  refine ⟨9 * U.length ^ 3 + U.length + 5, fun fuel' hf' => ?_⟩
  obtain ⟨N, hN⟩ := par_outcome hUg hp hnp hf'
  refine ⟨N, fun A hA o ho r hr => ?_⟩
  have hr' : parCompute eps fuel' pick numProc o U = r := by
    rw [← hr]
    unfold dcCompute3
    rw [if_neg (by omega), if_pos rfl, hU]
    rfl
  obtain ⟨h1, h2⟩ := hN o ho
  rw [hr'] at h1 h2
  refine ⟨?_, h2⟩
  rcases h1 with h1 | ⟨A', hA', h1⟩
  · exact Or.inl h1
  · have ht := hA'.transfer hQ hUs hcov'
    have hl := ht.length_eq hA
    rcases h1 with ⟨h3, h4⟩ | ⟨h3, h4⟩
    · exact Or.inr (Or.inr ⟨by omega, h4⟩)
    · exact Or.inr (Or.inl ⟨by omega, A', h4, ht⟩)

end Verif.QHull
