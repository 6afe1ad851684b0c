import Verif.QHull.ParLoop
import Verif.QHull.Witness

set_option linter.unusedSectionVars false
set_option linter.unusedVariables false

/-!
The parallel quickhull in space (C66), for every interleaving. The specification is `IsHull3` in `Output.lean`.
-/

namespace Verif.QHull

open Verif Verif.Hull3d Verif.Par Verif.Reserve

variable {K : Type} [Field K] [LinearOrder K] [IsStrictOrderedRing K]

/-- Every thread of every round occurs at least `B` times in both interleavings. -/
def Fair (o : ℕ → Oracle K) (T B : ℕ) : Prop := ∀ m, ∀ t < T, B ≤ (o m).s1.count t ∧ B ≤ (o m).s2.count t

section

variable {eps : K} {P : List (P3 K)}

/-- Both choices of apexes find one. -/
theorem picks_furthest : Picks (K := K) fun _ f l => furthestPar f l := by
  intro i f l hl
  induction l with
  | nil => exact absurd rfl hl
  | cons v l ih =>
    show ∃ u ∈ v :: l, furthestPar f (v :: l) = some u
    by_cases h : l = []
    · subst h
      exact ⟨v, by simp, rfl⟩
    · obtain ⟨u, hu, he⟩ := ih h
      rw [furthestPar, show furthestPar f l = some u from he]
      simp only
      split
      · exact ⟨u, by simp [hu], rfl⟩
      · exact ⟨v, by simp, rfl⟩

theorem picks_random (hash : ℕ → ℕ) : Picks (K := K) fun i _ l => randomPick hash i l := by
  intro i f l hl
  have : hash i % l.length < l.length := Nat.mod_lt _ (List.length_pos_of_ne_nil hl)
  exact ⟨l[hash i % l.length], List.getElem_mem this, List.getElem?_eq_getElem this⟩

/-- All outcomes of a run. -/
theorem par_outcome (hg : GenInput eps P) {pick : Pick K} (hp : Picks pick) {numProc : ℕ} (hnp : 1 ≤ numProc) {fuel : ℕ}
    (hf : 9 * P.length ^ 3 + P.length + 5 ≤ fuel) : ∃ B, ∀ o : ℕ → Oracle K, (∀ n, (o n).Fine) →
      (parCompute eps fuel pick numProc o P = .error .fuel ∨ ∃ A, IsHull3 P A ∧
        ((A.length < 64 ∧ parCompute eps fuel pick numProc o P = .error .ub) ∨
          (64 ≤ A.length ∧ parCompute eps fuel pick numProc o P = .ok A))) ∧
      (Fair o (numProc * 8) B → parCompute eps fuel pick numProc o P ≠ .error .fuel) := by
  obtain ⟨c, st, hc, he, hG, ht⟩ := initSerial_ok hg
  have hg' := hg.genPos hc
  refine ⟨fairBound (numProc * 8) (st.next + 3 * (P.map (tr c)).length ^ 3 * total st) ((P.map (tr c)).length ^ 3), fun o ho => ?_⟩
  have hf' : 9 * (P.map (tr c)).length ^ 3 + 5 ≤ fuel := by rw [List.length_map]; omega
  obtain ⟨l1, l2⟩ := parLoop_ok hg' hp hnp ho hf' fuel st hG (by omega)
  have hpc : parCompute eps fuel pick numProc o P =
      (parLoop eps fuel pick numProc o fuel st fun _ => noRes).bind fun st => getFacet fuel st c := by
    unfold parCompute
    rw [he]
    rfl
  rw [hpc]
  have hin : ∀ s : Hull K, Good (P.map (tr c)) s → (∀ i ∈ s.live, s.pts i = []) →
      ∀ q ∈ P.map (tr c), ∀ i ∈ s.live, fsv (s.heap i) q ≤ 0 := by
    intro s hGs hemp q hq i hi
    rcases hGs.cov q hq with ⟨j, hj, v, hv, _⟩ | h
    · rw [hemp j hj] at hv
      exact absurd hv List.not_mem_nil
    · exact h i hi
  rcases l1 with l1 | ⟨s, hGs, hemp, ⟨hsz, l1⟩ | ⟨hsz, l1⟩⟩
  · refine ⟨Or.inl (by rw [l1]; rfl), fun hfair _ => l2 _ (le_refl _) (fun m _ => hfair m) l1⟩
  · refine ⟨Or.inr ⟨s.live.map fun i => outFacet c (s.heap i), ?_, Or.inl ⟨?_, by rw [l1]; rfl⟩⟩, ?_⟩
    · exact IsHull3.of_mesh hg' hGs.mesh (hin s hGs hemp) hGs.mesh.nodup fun i => Iff.rfl
    · rw [List.length_map, ← hGs.size]; exact hsz
    · intro _ hcon
      rw [l1] at hcon
      simp [Except.bind] at hcon
  · have hlen : 3 * s.live.length + 1 < fuel := by
      have := hGs.mesh.length_le
      omega
    obtain ⟨V, hV, hm, hcol⟩ := dfsFacet_collect hg' hGs.mesh (fun out f => out ++ [outFacet c f]) (fun f => [outFacet c f])
      (fun _ _ => rfl) hGs.start hlen
    have hout : getFacet fuel s c = .ok (V.map fun i => outFacet c (s.heap i)) := by
      unfold getFacet
      refine hcol.trans ?_
      rw [← List.flatMap_singleton' (V.map _), List.flatMap_map]
    refine ⟨Or.inr ⟨V.map fun i => outFacet c (s.heap i), ?_, Or.inr ⟨?_, by rw [l1]; exact hout⟩⟩, ?_⟩
    · exact IsHull3.of_mesh hg' hGs.mesh (hin s hGs hemp) hV hm
    · have : V.Perm s.live := (List.perm_ext_iff_of_nodup hV hGs.mesh.nodup).mpr hm
      rw [List.length_map, this.length_eq, ← hGs.size]
      exact hsz
    · intro _ hcon
      rw [l1] at hcon
      simp only [Except.bind] at hcon
      rw [hout] at hcon
      simp at hcon

/-- C66, for inputs in general position whose hull has at least 64 facets, all numbers of threads, all choices of apexes, all
addresses and all interleavings: no pointer to freed memory is followed and nothing is thrown in the rounds (`.ub` and `.throws` are
not outcomes); a run that comes to an end returns exactly the facets of the hull, and every run in which all threads get enough
accesses comes to an end. Missing: hulls with fewer facets, for which this is false (`c66_small_false`). -/
theorem c66_par_quickhull_partial (hg : GenInput eps P) {A : List (IFacet K)} (hA : IsHull3 P A) (h64 : 64 ≤ A.length)
    {pick : Pick K} (hp : Picks pick) {numProc : ℕ} (hnp : 1 ≤ numProc) {fuel : ℕ}
    (hf : 9 * P.length ^ 3 + P.length + 5 ≤ fuel) : ∃ B, ∀ o : ℕ → Oracle K, (∀ n, (o n).Fine) →
      (parCompute eps fuel pick numProc o P = .error .fuel ∨ ∃ out, parCompute eps fuel pick numProc o P = .ok out ∧ IsHull3 P out) ∧
      (Fair o (numProc * 8) B → ∃ out, parCompute eps fuel pick numProc o P = .ok out ∧ IsHull3 P out) := by
  obtain ⟨B, hB⟩ := par_outcome hg hp hnp hf
  refine ⟨B, fun o ho => ?_⟩
  obtain ⟨h1, h2⟩ := hB o ho
  have h3 : parCompute eps fuel pick numProc o P = .error .fuel ∨
      ∃ out, parCompute eps fuel pick numProc o P = .ok out ∧ IsHull3 P out := by
    rcases h1 with h1 | ⟨A', hA', ⟨hl, _⟩ | ⟨_, h1⟩⟩
    · exact Or.inl h1
    · have := hA'.length_eq hA
      omega
    · exact Or.inr ⟨A', h1, hA'⟩
  exact ⟨h3, fun hfair => h3.resolve_left (h2 hfair)⟩

/-- C66 fails for every input in general position whose hull has fewer than 64 facets: every run follows a null pointer. -/
theorem c66_small_ub (hg : GenInput eps P) {A : List (IFacet K)} (hA : IsHull3 P A) (h64 : A.length < 64)
    {pick : Pick K} (hp : Picks pick) {numProc : ℕ} (hnp : 1 ≤ numProc) {fuel : ℕ}
    (hf : 9 * P.length ^ 3 + P.length + 5 ≤ fuel) : ∃ B, ∀ o : ℕ → Oracle K, (∀ n, (o n).Fine) →
      (parCompute eps fuel pick numProc o P = .error .fuel ∨ parCompute eps fuel pick numProc o P = .error .ub) ∧
      (Fair o (numProc * 8) B → parCompute eps fuel pick numProc o P = .error .ub) := by
  obtain ⟨B, hB⟩ := par_outcome hg hp hnp hf
  refine ⟨B, fun o ho => ?_⟩
  obtain ⟨h1, h2⟩ := hB o ho
  have h3 : parCompute eps fuel pick numProc o P = .error .fuel ∨ parCompute eps fuel pick numProc o P = .error .ub := by
    rcases h1 with h1 | ⟨A', hA', ⟨_, h1⟩ | ⟨hl, _⟩⟩
    · exact Or.inl h1
    · exact Or.inr h1
    · have := hA'.length_eq hA
      omega
  exact ⟨h3, fun hfair => h3.resolve_left (h2 hfair)⟩

/-- C66: two runs that come to an end return the same facets, whatever the interleavings, the addresses, the choices of apexes and the
numbers of threads. -/
theorem c66_deterministic (hg : GenInput eps P) {pick pick' : Pick K} (hp : Picks pick) (hp' : Picks pick') {numProc numProc' : ℕ}
    (hnp : 1 ≤ numProc) (hnp' : 1 ≤ numProc') {fuel : ℕ} (hf : 9 * P.length ^ 3 + P.length + 5 ≤ fuel) {o o' : ℕ → Oracle K}
    (ho : ∀ n, (o n).Fine) (ho' : ∀ n, (o' n).Fine) {out out' : List (IFacet K)}
    (h : parCompute eps fuel pick numProc o P = .ok out) (h' : parCompute eps fuel pick' numProc' o' P = .ok out') :
    out.length = out'.length ∧ ∀ f ∈ out, ∃ g ∈ out', ∀ v, HasV g v ↔ HasV f v := by
  obtain ⟨B, hB⟩ := par_outcome hg hp hnp hf
  obtain ⟨B', hB'⟩ := par_outcome hg hp' hnp' hf
  have key : ∀ {r : Except Err (List (IFacet K))} {x : List (IFacet K)}, r = .ok x → (r = .error .fuel ∨ ∃ A, IsHull3 P A ∧
      ((A.length < 64 ∧ r = .error .ub) ∨ (64 ≤ A.length ∧ r = .ok A))) → IsHull3 P x := by
    rintro r x rfl (h | ⟨A, hA, ⟨_, h⟩ | ⟨_, h⟩⟩)
    · simp at h
    · simp at h
    · rw [Except.ok.inj h]; exact hA
  have h1 := key h (hB o ho).1
  have h2 := key h' (hB' o' ho').1
  exact ⟨h1.length_eq h2, facets_match h2.complete h1.vert h1.proper h1.support⟩

end

end Verif.QHull
