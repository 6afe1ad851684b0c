import Verif.QHull.ParRound
import Verif.QHull.Extreme

set_option linter.unusedSectionVars false
set_option linter.unusedVariables false

/-!
The loop of the parallel quickhull in space.
-/

namespace Verif.QHull

open Verif Verif.Hull3d Verif.Par Verif.Reserve

variable {K : Type} [Field K] [LinearOrder K] [IsStrictOrderedRing K]

section

variable {eps : K} {Q : List (P3 K)} {st : Hull K}

/-- `facetWalk` finds a facet with the most points. -/
theorem facetWalk_max (hg : GenPos eps Q) (hG : Good Q st) {fuel : ℕ} (hf : 3 * st.live.length + 1 < fuel) :
    ∃ f ∈ st.live, facetWalk fuel st = .ok f ∧ ∀ i ∈ st.live, (st.pts i).length ≤ (st.pts f).length := by
  unfold facetWalk
  rw [deref_some hG.start]
  simp only [Except.bind]
  obtain ⟨V', s', h1, ⟨h2, h3, h4⟩, _, _, h5⟩ := dfsFacet_all hg hG.mesh
    (fun (s : ℕ × ℕ) i _ => if s.2 < (st.pts i).length then (i, (st.pts i).length) else s) (fun _ => false)
    (fun V s => s.1 ∈ st.live ∧ s.2 = (st.pts s.1).length ∧ ∀ i ∈ V, (st.pts i).length ≤ s.2) (by
      rintro V s i hi _ ⟨g1, g2, g3⟩
      split
      · rename_i hlt
        refine ⟨hi, rfl, ?_⟩
        intro k hk
        rcases List.mem_cons.mp hk with rfl | hk
        · exact le_refl _
        · exact (g3 k hk).trans hlt.le
      · rename_i hnl
        refine ⟨g1, g2, ?_⟩
        intro k hk
        rcases List.mem_cons.mp hk with rfl | hk
        · exact not_lt.mp hnl
        · exact g3 k hk) hG.start (st.H, (st.pts st.H).length) ⟨hG.start, rfl, by simp⟩ hf
  rw [h1]
  refine ⟨s'.1, h2, rfl, ?_⟩
  rcases h5 with h5 | h5
  · simp at h5
  · intro i hi
    rw [← h3]
    exact h4 i (h5 i hi)

/-- The null pointer is followed if the facet has no points. -/
theorem apexPar_ub (pick : Pick K) (fuel : ℕ) {f : ℕ} (hf : f ∈ st.live) (he : st.pts f = []) :
    apexPar pick (fuel + 1) st f = .error .ub := by
  unfold apexPar
  rw [dfsFacetE, deref_some hf]
  simp only [Except.bind]
  rw [if_neg (by simp), he]
  simp

theorem apexPar_ok {pick : Pick K} (hp : Picks pick) (fuel : ℕ) {f : ℕ} (hf : f ∈ st.live) (he : st.pts f ≠ []) :
    ∃ v ∈ st.pts f, apexPar pick (fuel + 1) st f = .ok (some v) := by
  obtain ⟨v, hv, hpv⟩ := hp 0 (st.heap f) (st.pts f) he
  refine ⟨v, hv, ?_⟩
  unfold apexPar
  rw [dfsFacetE, deref_some hf]
  simp only [Except.bind]
  rw [if_neg (by simp), if_pos (List.length_pos_of_ne_nil he), hpv]
  simp

/-- The loop: not through, or stopped by the null pointer with a hull of fewer than 64 facets, or through with at least 64. -/
theorem parLoop_ok (hg : GenPos eps Q) {pick : Pick K} (hp : Picks pick) {numProc : ℕ} (hnp : 1 ≤ numProc) {o : ℕ → Oracle K}
    (ho : ∀ n, (o n).Fine) {fuel : ℕ} (hf : 9 * Q.length ^ 3 + 5 ≤ fuel) :
    ∀ n (st : Hull K), Good Q st → total st < n →
      (parLoop eps fuel pick numProc o n st (fun _ => noRes) = .error .fuel ∨
        ∃ s, Good Q s ∧ (∀ i ∈ s.live, s.pts i = []) ∧
          ((s.hSize < 64 ∧ parLoop eps fuel pick numProc o n st (fun _ => noRes) = .error .ub) ∨
            (64 ≤ s.hSize ∧ parLoop eps fuel pick numProc o n st (fun _ => noRes) = .ok s))) ∧
      ∀ M, st.next + 3 * Q.length ^ 3 * total st ≤ M →
        (∀ m < n, ∀ t < numProc * 8, fairBound (numProc * 8) M (Q.length ^ 3) ≤ (o m).s1.count t ∧
          fairBound (numProc * 8) M (Q.length ^ 3) ≤ (o m).s2.count t) →
        parLoop eps fuel pick numProc o n st (fun _ => noRes) ≠ .error .fuel := by
  intro n
  induction n with
  | zero => intro st _ h; omega
  | succ n ih =>
    intro st hG ht
    have hlen := hG.mesh.length_le
    obtain ⟨fuel', rfl⟩ : ∃ k, fuel = k + 1 := ⟨fuel - 1, by omega⟩
    rw [parLoop]
    by_cases hs : st.hSize < 64
    · rw [if_pos hs]
      obtain ⟨f, hfl, hfw, hmax⟩ := facetWalk_max hg hG (fuel := fuel' + 1) (by omega)
      rw [hfw]
      simp only [Except.bind]
      by_cases hfe : st.pts f = []
      · rw [apexPar_ub pick fuel' hfl hfe]
        refine ⟨Or.inr ⟨st, hG, ?_, Or.inl ⟨hs, rfl⟩⟩, ?_⟩
        · intro i hi
          have := hmax i hi
          rw [hfe] at this
          exact List.eq_nil_of_length_eq_zero (by simpa using this)
        · intro M _ _ hc
          simp at hc
      · obtain ⟨v, hv, hap⟩ := apexPar_ok hp fuel' hfl hfe
        rw [hap]
        simp only
        obtain ⟨q1, rfl, q3⟩ := hG.see f hfl v hv
        have hA := hG.apex hfl hv
        obtain ⟨fr, hfr, hF⟩ := computeFrontier_ok hg hG.mesh hA hfl ((hG.mesh.vis_iff hg q1 hfl).mpr q3) (n := fuel' + 1) (by omega)
        rw [hfr]
        simp only
        rw [if_pos hF.closedChain]
        have hR : Ready eps Q st (v, fr) := ⟨hA, hF, hfl, hv⟩
        obtain ⟨st', hS⟩ := round_shape hg hG hR
        rw [hS.ok]
        simp only
        have hres : (fun c => if st.next ≤ c ∧ c < st.next + fr.1.length then noRes else noRes) = fun _ => noRes := by
          funext c
          simp
        rw [hres]
        have hless := hS.less
        obtain ⟨i1, i2⟩ := ih st' hS.good (by omega)
        refine ⟨i1, ?_⟩
        intro M hM hfair
        refine i2 M ?_ fun m hm => hfair m (by omega)
        have h1 := (hR.sizes hG).1
        have h2 := hS.next
        simp only at h1 h2
        have h3 : 3 * Q.length ^ 3 * (total st' + 1) ≤ 3 * Q.length ^ 3 * total st := Nat.mul_le_mul_left _ hless
        rw [Nat.mul_add] at h3
        omega
    · rw [if_neg hs]
      by_cases he : st.live.flatMap st.pts = []
      · rw [if_pos he]
        refine ⟨Or.inr ⟨st, hG, ?_, Or.inr ⟨not_lt.mp hs, rfl⟩⟩, ?_⟩
        · intro i hi
          exact List.flatMap_eq_nil_iff.mp he i hi
        · intro M _ _ hc
          simp at hc
      · rw [if_neg he]
        have hne := seenFacets_ne (ho n) (n := numProc * 8) (by omega) he
        rw [if_neg hne]
        obtain ⟨r1, r2⟩ := parRound_ok hg hG (ho n) hp hne (fuel := fuel' + 1) hf
        rcases r1 with r1 | ⟨s, r1, hGs, hless, hnext⟩
        · rw [r1]
          refine ⟨Or.inl rfl, ?_⟩
          intro M hM hfair _
          exact r2 M (by omega) (hfair n (by omega)) r1
        · rw [r1]
          simp only [Except.bind]
          obtain ⟨i1, i2⟩ := ih s hGs (by omega)
          refine ⟨i1, ?_⟩
          intro M hM hfair
          exact i2 M (by omega) fun m hm => hfair m (by omega)

end

/-! ### The number of facets -/

theorem length_le_of_match {A B : List (IFacet K)} (hm : ∀ g ∈ B, ∃ f ∈ A, ∀ v, HasV f v ↔ HasV g v)
    (hd : B.Pairwise fun f g => ¬ ∀ v, HasV f v ↔ HasV g v) : B.length ≤ A.length := by
  classical
  let vs : IFacet K → Finset (P3 K) := fun f => {f.a, f.b, f.c}
  have hvs : ∀ f v, v ∈ vs f ↔ HasV f v := by
    intro f v
    simp [vs, HasV]
  have h1 : (B.map vs).Nodup := by
    refine List.pairwise_map.mpr (hd.imp ?_)
    intro f g hn he
    refine hn fun v => ?_
    rw [← hvs, ← hvs, he]
  have h2 : B.map vs ⊆ A.map vs := by
    intro x hx
    obtain ⟨g, hg, rfl⟩ := List.mem_map.mp hx
    obtain ⟨f, hf, hfg⟩ := hm g hg
    refine List.mem_map.mpr ⟨f, hf, ?_⟩
    ext v
    rw [hvs, hvs, hfg]
  have := (List.subperm_of_subset h1 h2).length_le
  rwa [List.length_map, List.length_map] at this

/-- Two lists of the facets of a hull have the same length. -/
theorem IsHull3.length_eq {P : List (P3 K)} {A B : List (IFacet K)} (hA : IsHull3 P A) (hB : IsHull3 P B) : A.length = B.length :=
  le_antisymm (length_le_of_match (facets_match hB.complete hA.vert hA.proper hA.support) hA.distinct)
    (length_le_of_match (facets_match hA.complete hB.vert hB.proper hB.support) hB.distinct)

end Verif.QHull
