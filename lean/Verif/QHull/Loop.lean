import Mathlib.Data.List.Basic
import Mathlib.Data.List.ProdSigma
import Mathlib.Data.Prod.Basic
import Verif.QHull.RoundMain

set_option linter.unusedSectionVars false
set_option linter.unusedVariables false

/-!
The loop of the quickhull in space.
-/

namespace Verif.QHull

open Verif Verif.Hull3d

variable {K : Type} [Field K] [LinearOrder K] [IsStrictOrderedRing K]

section

variable {eps : K} {Q : List (P3 K)} {st : Hull K}

/-- The pointers of a facet. -/
def ptrs (f : Facet (P3 K)) : List (Option ℕ) := [f.bc, f.ca, f.ab]

theorem Mesh.ptr (hg : GenPos eps Q) {h : Heap (P3 K)} {live : List ℕ} (hM : Mesh Q h live) {i : ℕ} (hi : i ∈ live) {o : Option ℕ}
    (ho : o ∈ ptrs (h i)) : ∃ j ∈ live, o = some j := by
  have : ∃ d, IsDart (h i) d o := by
    unfold ptrs at ho
    simp only [List.mem_cons, List.not_mem_nil, or_false] at ho
    rcases ho with rfl | rfl | rfl
    · exact ⟨_, Or.inr (Or.inl ⟨rfl, rfl⟩)⟩
    · exact ⟨_, Or.inr (Or.inr ⟨rfl, rfl⟩)⟩
    · exact ⟨_, Or.inl ⟨rfl, rfl⟩⟩
  obtain ⟨d, hd⟩ := this
  obtain ⟨j, hj, _, h1, _⟩ := hM.adj hg hi hd
  exact ⟨j, hj, h1⟩

theorem dfsFacet_ok {σ : Type} (hg : GenPos eps Q) (hM : Mesh Q st.heap st.live) (fDo : σ → ℕ → Facet (P3 K) → σ)
    (fStop : σ → Bool) (P : List ℕ → σ → Prop)
    (hP : ∀ V s i, i ∈ st.live → i ∉ V → P V s → P (i :: V) (fDo s i (st.heap i))) (i0 : ℕ) :
    ∀ fuel S V s, (∀ o ∈ S, ∃ i ∈ st.live, o = some i) → (∀ i ∈ V, i ∈ st.live) → V.Nodup →
      (∀ i ∈ V, ∀ j, some j ∈ ptrs (st.heap i) → j ∈ V ∨ some j ∈ S) → (i0 ∈ V ∨ some i0 ∈ S) →
      S.length + 3 * (st.live.filter fun i => decide (i ∉ V)).length < fuel → P V s →
      ∃ V' s', dfsFacet st fDo fStop fuel S V s = .ok s' ∧ P V' s' ∧ V'.Nodup ∧ (∀ i ∈ V', i ∈ st.live) ∧
        (fStop s' = true ∨ (i0 ∈ V' ∧ ∀ i ∈ V', ∀ j, some j ∈ ptrs (st.heap i) → j ∈ V')) := by
  intro fuel
  induction fuel with
  | zero => intro S V s _ _ _ _ _ h; omega
  | succ fuel ih =>
    intro S V s hS hV hnd hcl h0 hfu hPs
    cases S with
    | nil =>
      refine ⟨V, s, rfl, hPs, hnd, hV, Or.inr ⟨?_, ?_⟩⟩
      · simpa using h0
      · intro i hi j hj
        simpa using hcl i hi j hj
    | cons o S =>
      obtain ⟨i, hi, rfl⟩ := hS o (by simp)
      have hS' : ∀ o ∈ S, ∃ i ∈ st.live, o = some i := fun o ho => hS o (by simp [ho])
      rw [List.length_cons] at hfu
      rw [dfsFacet, deref_some hi]
      simp only [Except.bind]
      by_cases hiV : i ∈ V
      · rw [if_pos hiV]
        by_cases hst : fStop s = true
        · rw [if_pos hst]
          exact ⟨V, s, rfl, hPs, hnd, hV, Or.inl hst⟩
        · rw [if_neg hst]
          refine ih S V s hS' hV hnd ?_ ?_ (by omega) hPs
          · intro k hk j hj
            rcases hcl k hk j hj with h | h
            · exact Or.inl h
            · rcases List.mem_cons.mp h with h | h
              · obtain rfl := Option.some.inj h
                exact Or.inl hiV
              · exact Or.inr h
          · rcases h0 with h | h
            · exact Or.inl h
            · rcases List.mem_cons.mp h with h | h
              · obtain rfl := Option.some.inj h
                exact Or.inl hiV
              · exact Or.inr h
      · rw [if_neg hiV]
        have hP' := hP V s i hi hiV hPs
        have hnd' : (i :: V).Nodup := List.nodup_cons.mpr ⟨hiV, hnd⟩
        have hV' : ∀ k ∈ i :: V, k ∈ st.live := by
          intro k hk
          rcases List.mem_cons.mp hk with rfl | hk
          · exact hi
          · exact hV k hk
        by_cases hst : fStop (fDo s i (st.heap i)) = true
        · rw [if_pos hst]
          exact ⟨i :: V, _, rfl, hP', hnd', hV', Or.inl hst⟩
        · rw [if_neg hst]
          refine ih _ _ _ ?_ hV' hnd' ?_ ?_ ?_ hP'
          · intro o ho
            rcases List.mem_append.mp (show o ∈ ptrs (st.heap i) ++ S from ho) with ho | ho
            · exact hM.ptr hg hi ho
            · exact hS' o ho
          · intro k hk j hj
            show j ∈ i :: V ∨ some j ∈ ptrs (st.heap i) ++ S
            rcases List.mem_cons.mp hk with rfl | hk
            · exact Or.inr (List.mem_append_left _ hj)
            · rcases hcl k hk j hj with h | h
              · exact Or.inl (List.mem_cons_of_mem _ h)
              · rcases List.mem_cons.mp h with h | h
                · obtain rfl := Option.some.inj h
                  exact Or.inl (by simp)
                · exact Or.inr (List.mem_append_right _ h)
          · show i0 ∈ i :: V ∨ some i0 ∈ ptrs (st.heap i) ++ S
            rcases h0 with h | h
            · exact Or.inl (List.mem_cons_of_mem _ h)
            · rcases List.mem_cons.mp h with h | h
              · obtain rfl := Option.some.inj h
                exact Or.inl (by simp)
              · exact Or.inr (List.mem_append_right _ h)
          · have hlt : (st.live.filter fun k => decide (k ∉ i :: V)).length < (st.live.filter fun k => decide (k ∉ V)).length := by
              have he : (st.live.filter fun k => decide (k ∉ i :: V)) =
                  (st.live.filter fun k => decide (k ∉ V)).filter fun k => decide (k ≠ i) := by
                rw [List.filter_filter]
                apply List.filter_congr
                intro k _
                by_cases h1 : k = i <;> by_cases h2 : k ∈ V <;> simp [h1, h2]
              rw [he]
              refine List.length_filter_lt_length_iff_exists.mpr ⟨i, ?_, by simp⟩
              rw [List.mem_filter]
              exact ⟨hi, by simpa using hiV⟩
            simp only [List.length_cons]
            omega

/-- A traversal from a facet of the surface that is not stopped visits every facet once. -/
theorem dfsFacet_all {σ : Type} (hg : GenPos eps Q) (hM : Mesh Q st.heap st.live) (fDo : σ → ℕ → Facet (P3 K) → σ)
    (fStop : σ → Bool) (P : List ℕ → σ → Prop)
    (hP : ∀ V s i, i ∈ st.live → i ∉ V → P V s → P (i :: V) (fDo s i (st.heap i))) {i0 : ℕ} (hi0 : i0 ∈ st.live) (s : σ)
    (hs : P [] s) {fuel : ℕ} (hf : 3 * st.live.length + 1 < fuel) :
    ∃ V' s', dfsFacet st fDo fStop fuel [some i0] [] s = .ok s' ∧ P V' s' ∧ V'.Nodup ∧ (∀ i ∈ V', i ∈ st.live) ∧
      (fStop s' = true ∨ ∀ i ∈ st.live, i ∈ V') := by
  obtain ⟨V', s', h1, h2, h3, h4, h5⟩ := dfsFacet_ok hg hM fDo fStop P hP i0 fuel [some i0] [] s
    (by intro o ho; rw [List.mem_singleton] at ho; exact ⟨i0, hi0, ho⟩) (by simp) (by simp) (by simp) (Or.inr (by simp))
    (by simp; omega) hs
  refine ⟨V', s', h1, h2, h3, h4, ?_⟩
  rcases h5 with h5 | ⟨h5, h6⟩
  · exact Or.inl h5
  · refine Or.inr (hM.connected hg (fun i => i ∈ V') hi0 h5 ?_)
    intro i hi j hj x y z w ti tj hiV
    obtain ⟨o, hd⟩ := ti.dart
    obtain ⟨j', hj', _, ho, hd'⟩ := hM.adj hg hi hd
    obtain ⟨w', tw⟩ := hd'.tri
    obtain rfl : j' = j := hM.uniq hg hj' hj (show Tri (st.heap j') y x w' from tw) tj
    refine h6 i hiV j' ?_
    rw [← ho]
    unfold ptrs
    rcases hd with ⟨_, h⟩ | ⟨_, h⟩ | ⟨_, h⟩ <;> simp [h]

theorem facetWalk_ok (hg : GenPos eps Q) (hG : Good Q st) {fuel : ℕ} (hf : 3 * st.live.length + 1 < fuel) :
    ∃ f ∈ st.live, facetWalk fuel st = .ok f := by
  unfold facetWalk
  rw [deref_some hG.start]
  simp only [Except.bind]
  obtain ⟨V', s', h1, h2, _⟩ := dfsFacet_all hg hG.mesh
    (fun (s : ℕ × ℕ) i _ => if s.2 < (st.pts i).length then (i, (st.pts i).length) else s) (fun _ => false)
    (fun _ s => s.1 ∈ st.live) (by
      intro V s i hi _ hs
      split
      · exact hi
      · exact hs) hG.start (st.H, (st.pts st.H).length) hG.start hf
  rw [h1]
  exact ⟨s'.1, h2, rfl⟩

theorem furthestGo_spec (f : Facet (P3 K)) (l : List (Vtx K)) (m : K) (apex : Option (Vtx K)) :
    (∀ v, furthestGo f l m apex = some v → v ∈ l ∨ apex = some v) ∧
      ((apex.isSome ∨ ∃ v ∈ l, m < sv f.a f.b f.c v.1) → (furthestGo f l m apex).isSome) := by
  induction l generalizing m apex with
  | nil =>
    refine ⟨fun v h => Or.inr h, ?_⟩
    rintro (h | ⟨v, hv, _⟩)
    · exact h
    · simp at hv
  | cons v l ih =>
    rw [furthestGo]
    split
    · rename_i hlt
      obtain ⟨h1, h2⟩ := ih (sv f.a f.b f.c v.1) (some v)
      refine ⟨?_, fun _ => h2 (Or.inl rfl)⟩
      intro u hu
      rcases h1 u hu with h | h
      · exact Or.inl (List.mem_cons_of_mem _ h)
      · obtain rfl := Option.some.inj h
        exact Or.inl (by simp)
    · rename_i hnl
      obtain ⟨h1, h2⟩ := ih m apex
      refine ⟨?_, ?_⟩
      · intro u hu
        rcases h1 u hu with h | h
        · exact Or.inl (List.mem_cons_of_mem _ h)
        · exact Or.inr h
      · rintro (h | ⟨u, hu, hul⟩)
        · exact h2 (Or.inl h)
        · rcases List.mem_cons.mp hu with rfl | hu
          · exact absurd hul hnl
          · exact h2 (Or.inr ⟨u, hu, hul⟩)

theorem furthestApex_ok (hg : GenPos eps Q) (hG : Good Q st) {f0 : ℕ} (hf0 : f0 ∈ st.live) {fuel : ℕ}
    (hf : 3 * st.live.length + 1 < fuel) :
    (furthestApex eps fuel st f0 = .ok none ∧ ∀ i ∈ st.live, st.pts i = []) ∨
      ∃ v, furthestApex eps fuel st f0 = .ok (some v) ∧ ∃ i ∈ st.live, v ∈ st.pts i := by
  unfold furthestApex
  obtain ⟨V', s', h1, h2, h3, h4, h5⟩ := dfsFacet_all hg hG.mesh
    (fun (s : Option (Vtx K)) i g => if 0 < (st.pts i).length then furthest eps g (st.pts i) else s)
    (fun s => s.isSome)
    (fun V s => (s = none → ∀ i ∈ V, st.pts i = []) ∧ ∀ v, s = some v → ∃ i ∈ st.live, v ∈ st.pts i) (by
      intro V s i hi _ ⟨hs1, hs2⟩
      split
      · rename_i hpos
        obtain ⟨g1, g2⟩ := furthestGo_spec (st.heap i) (st.pts i) eps none
        refine ⟨?_, ?_⟩
        · intro hc
          exfalso
          have hex : ∃ v ∈ st.pts i, eps < sv (st.heap i).a (st.heap i).b (st.heap i).c v.1 := by
            obtain ⟨v, hv⟩ := List.exists_mem_of_length_pos hpos
            obtain ⟨q1, _, q3⟩ := hG.see i hi v hv
            refine ⟨v, hv, ?_⟩
            have := (hG.mesh.vis_iff hg q1 hi).mpr q3
            unfold visible at this
            exact of_decide_eq_true this
          have := g2 (Or.inr hex)
          unfold furthest at hc
          rw [hc] at this
          simp at this
        · intro v hv
          rcases g1 v hv with h | h
          · exact ⟨i, hi, h⟩
          · simp at h
      · rename_i hpos
        refine ⟨?_, hs2⟩
        intro hc k hk
        rcases List.mem_cons.mp hk with rfl | hk
        · exact List.eq_nil_of_length_eq_zero (by omega)
        · exact hs1 hc k hk) hf0 none (by simp) hf
  rw [h1]
  cases s' with
  | none =>
    refine Or.inl ⟨rfl, ?_⟩
    rcases h5 with h5 | h5
    · simp at h5
    · intro i hi
      exact h2.1 rfl i (h5 i hi)
  | some v => exact Or.inr ⟨v, rfl, h2.2 v rfl⟩

/-- The number of facets is bounded. -/
theorem PreMesh.length_le {h : Heap (P3 K)} {live : List ℕ} (hM : PreMesh Q h live) : live.length ≤ Q.length ^ 3 := by
  have hnd : (live.map fun i => ((h i).a, (h i).b, (h i).c)).Nodup := by
    refine (List.nodup_map_iff_inj_on hM.nodup).mpr ?_
    intro i hi j hj he
    simp only [Prod.mk.injEq] at he
    refine hM.dist i hi j hj fun v hv => ?_
    unfold IsV at hv ⊢
    rw [he.1, he.2.1, he.2.2] at hv
    exact hv
  have hsub : (live.map fun i => ((h i).a, (h i).b, (h i).c)) ⊆ Q ×ˢ (Q ×ˢ Q) := by
    intro t ht
    obtain ⟨i, hi, rfl⟩ := List.mem_map.mp ht
    have hv := hM.vert i hi
    rw [List.mem_product, List.mem_product]
    exact ⟨hv _ (Or.inl rfl), hv _ (Or.inr (Or.inl rfl)), hv _ (Or.inr (Or.inr rfl))⟩
  have := (List.subperm_of_subset hnd hsub).length_le
  rw [List.length_map, List.length_product, List.length_product] at this
  calc live.length ≤ _ := this
    _ = Q.length ^ 3 := by ring

/-- The loop ends with no point left over. -/
theorem quickHull_ok (hg : GenPos eps Q) {fuel : ℕ} (hf : 9 * Q.length ^ 3 + 5 ≤ fuel) :
    ∀ n (st : Hull K), Good Q st → total st < n →
      ∃ st', quickHull eps fuel n st = .ok st' ∧ Good Q st' ∧ ∀ i ∈ st'.live, st'.pts i = [] := by
  intro n
  induction n with
  | zero => intro st _ h; omega
  | succ n ih =>
    intro st hG ht
    have hlen := hG.mesh.length_le
    have hf3 : 3 * st.live.length + 1 < fuel := by omega
    have hstart : ∃ f ∈ st.live, (if st.hSize < 512 then facetWalk fuel st else .ok st.H) = .ok f := by
      split
      · exact facetWalk_ok hg hG hf3
      · exact ⟨st.H, hG.start, rfl⟩
    obtain ⟨f0, hf0, hfe⟩ := hstart
    rw [quickHull, hfe]
    simp only [Except.bind]
    rcases furthestApex_ok hg hG hf0 hf3 with ⟨h1, h2⟩ | ⟨v, h1, i, hi, hv⟩
    · rw [h1]
      exact ⟨st, rfl, hG, h2⟩
    · rw [h1]
      simp only
      obtain ⟨q1, rfl, q3⟩ := hG.see i hi v hv
      have hp : Apex Q st.heap st.live v.1 := by
        refine ⟨q1, fun m hm hV => ?_⟩
        have := hG.mesh.conv v.2 hi m hm v.1 hV
        linarith
      obtain ⟨fr, hfr, hF⟩ := computeFrontier_ok hg hG.mesh hp hi ((hG.mesh.vis_iff hg q1 hi).mpr q3) (n := fuel) (by omega)
      rw [hfr]
      simp only
      rw [if_pos hF.closedChain]
      obtain ⟨st', hr, hG', hlt⟩ := round_ok hg hG hp hF hi hv
      rw [hr]
      simp only
      exact ih st' hG' (by omega)

end

end Verif.QHull
