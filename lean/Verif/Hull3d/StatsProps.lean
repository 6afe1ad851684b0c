import Verif.Hull3d.StatsModel
import Verif.Hull3d.CheckProps
import Mathlib.Algebra.BigOperators.Finprod

set_option linter.unusedSectionVars false
set_option linter.unusedVariables false

/-!
C107: the reservation check and the statistics of the parallel hull, on every memory.
-/

namespace Verif.Hull3d

open Verif

variable {V : Type} [DecidableEq V]

theorem foldl_reset (res : ℕ → ℕ) : ∀ (W : List ℕ) (ok : Bool),
    W.foldl (fun ok f => if res f ≠ unreserved then false else ok) ok = (ok && decide (∀ f ∈ W, res f = unreserved)) := by
  intro W
  induction W with
  | nil => intro ok; simp
  | cons a W ih =>
    intro ok
    rw [List.foldl_cons, ih]
    by_cases h : res a = unreserved
    · simp [h]
    · simp [h]

/-- **C107** (check): on a hull whose facets are allocated and have their pointers, `checkReset` returns whether no facet that can
be reached is reserved, that is, whether all hold the largest `size_t`. -/
theorem c107_reset (t : Topo V) (hs : Sound t t.H) (res : ℕ → ℕ) (fuel : ℕ) (hf : 3 * t.live.length + 1 < fuel) :
    ∃ b, checkReset fuel t res = .ok b ∧ (b = true ↔ ∀ f, Reach t t.H f → res f = 2 ^ 64 - 1) := by
  obtain ⟨W, hn, hm, hd⟩ := c84_dfs t t.H hs fuel hf
  refine ⟨_, by unfold checkReset; rw [hd, foldlM_ok, foldl_reset], ?_⟩
  simp only [Bool.true_and, decide_eq_true_eq]
  exact forall_congr' fun f => by rw [hm f, unreserved]

theorem foldl_count (n : ℕ → ℕ) : ∀ (W : List ℕ) (s : Stats),
    (W.foldl (fun s f => s.count (n f)) s).numFacet = s.numFacet + W.length ∧
    (W.foldl (fun s f => s.count (n f)) s).nonEmpty = s.nonEmpty + (W.filter fun f => 0 < n f).length ∧
    (W.foldl (fun s f => s.count (n f)) s).totalPts = s.totalPts + (W.map n).sum := by
  intro W
  induction W with
  | nil => intro s; simp
  | cons a W ih =>
    intro s
    obtain ⟨h1, h2, h3⟩ := ih (s.count (n a))
    rw [List.foldl_cons]
    refine ⟨?_, ?_, ?_⟩
    · rw [h1]; simp only [Stats.count, List.length_cons]; omega
    · rw [h2]
      by_cases h : 0 < n a
      · rw [List.filter_cons_of_pos (by simpa using h)]
        simp only [Stats.count, if_pos h, List.length_cons]
        omega
      · rw [List.filter_cons_of_neg (by simpa using h)]
        simp only [Stats.count, if_neg h]
    · rw [h3]; simp only [Stats.count, List.map_cons, List.sum_cons]; omega

theorem foldl_minmax (n : ℕ → ℕ) : ∀ (W : List ℕ) (s : Stats) (S : Set ℕ),
    (∀ m, s.minPts = some m ↔ IsLeast S m) → (∀ m, s.maxPts = some m ↔ IsGreatest S m) →
    (S = ∅ ∨ (∃ m, s.minPts = some m) ∧ ∃ m, s.maxPts = some m) →
    (∀ m, (W.foldl (fun s f => s.count (n f)) s).minPts = some m ↔ IsLeast (S ∪ {x | ∃ f ∈ W, n f = x ∧ 0 < x}) m) ∧
    (∀ m, (W.foldl (fun s f => s.count (n f)) s).maxPts = some m ↔
      IsGreatest (S ∪ {x | ∃ f ∈ W, n f = x ∧ 0 < x}) m) := by
  intro W
  induction W with
  | nil => intro s S h1 h2 _; simpa using ⟨h1, h2⟩
  | cons a W ih =>
    intro s S h1 h2 h3
    rw [List.foldl_cons]
    by_cases h : 0 < n a
    · have key : S ∪ {x | ∃ f ∈ a :: W, n f = x ∧ 0 < x} = insert (n a) S ∪ {x | ∃ f ∈ W, n f = x ∧ 0 < x} := by
        ext x
        simp only [Set.mem_union, Set.mem_setOf_eq, List.mem_cons, Set.mem_insert_iff]
        constructor
        · rintro (hx | ⟨f, rfl | hf, e, hp⟩)
          · exact Or.inl (Or.inr hx)
          · exact Or.inl (Or.inl e.symm)
          · exact Or.inr ⟨f, hf, e, hp⟩
        · rintro ((rfl | hx) | ⟨f, hf, e, hp⟩)
          · exact Or.inr ⟨a, Or.inl rfl, rfl, h⟩
          · exact Or.inl hx
          · exact Or.inr ⟨f, Or.inr hf, e, hp⟩
      rw [key]
      rcases h3 with rfl | ⟨⟨m1, e1⟩, m2, e2⟩
      · have g1 : s.minPts = none := by
          cases hm : s.minPts with
          | none => rfl
          | some m => exact absurd ((h1 m).mp hm).1 (Set.notMem_empty m)
        have g2 : s.maxPts = none := by
          cases hm : s.maxPts with
          | none => rfl
          | some m => exact absurd ((h2 m).mp hm).1 (Set.notMem_empty m)
        have c1 : (s.count (n a)).minPts = some (n a) := by simp [Stats.count, h, g1]
        have c2 : (s.count (n a)).maxPts = some (n a) := by simp [Stats.count, h, g2]
        have l : IsLeast (insert (n a) (∅ : Set ℕ)) (n a) := by simp
        have g : IsGreatest (insert (n a) (∅ : Set ℕ)) (n a) := by simp
        refine ih _ _ (fun m => ?_) (fun m => ?_) (Or.inr ⟨⟨_, c1⟩, _, c2⟩)
        · rw [c1, Option.some_inj]
          exact ⟨fun e => e ▸ l, fun hl => l.unique hl⟩
        · rw [c2, Option.some_inj]
          exact ⟨fun e => e ▸ g, fun hl => g.unique hl⟩
      · have c1 : (s.count (n a)).minPts = some (min m1 (n a)) := by simp [Stats.count, h, e1]
        have c2 : (s.count (n a)).maxPts = some (max m2 (n a)) := by simp [Stats.count, h, e2]
        have l : IsLeast (insert (n a) S) (min m1 (n a)) := by
          rw [min_comm]
          exact ((h1 m1).mp e1).insert (n a)
        have g : IsGreatest (insert (n a) S) (max m2 (n a)) := by
          rw [max_comm]
          exact ((h2 m2).mp e2).insert (n a)
        refine ih _ _ (fun m => ?_) (fun m => ?_) (Or.inr ⟨⟨_, c1⟩, _, c2⟩)
        · rw [c1, Option.some_inj]
          exact ⟨fun e => e ▸ l, fun hl => l.unique hl⟩
        · rw [c2, Option.some_inj]
          exact ⟨fun e => e ▸ g, fun hl => g.unique hl⟩
    · have key : {x | ∃ f ∈ a :: W, n f = x ∧ 0 < x} = {x | ∃ f ∈ W, n f = x ∧ 0 < x} := by
        ext x
        simp only [Set.mem_setOf_eq, List.mem_cons]
        constructor
        · rintro ⟨f, rfl | hf, e, hp⟩
          · omega
          · exact ⟨f, hf, e, hp⟩
        · rintro ⟨f, hf, e, hp⟩
          exact ⟨f, Or.inr hf, e, hp⟩
      rw [key]
      have c1 : (s.count (n a)).minPts = s.minPts := by simp [Stats.count, h]
      have c2 : (s.count (n a)).maxPts = s.maxPts := by simp [Stats.count, h]
      exact ih _ _ (by rw [c1]; exact h1) (by rw [c2]; exact h2) (by rw [c1, c2]; exact h3)

/-- **C107** (statistics): on a hull whose facets are allocated and have their pointers, `stats` prints the number of facets that
can be reached, the number of those with points, the number of points of all of them, and the smallest and the largest number of
points of a facet with points. Without such a facet the last two keep their first values. -/
theorem c107_stats (t : Topo V) (hs : Sound t t.H) (fuel : ℕ) (hf : 3 * t.live.length + 1 < fuel) :
    ∃ s, stats fuel t = .ok s ∧ s.numFacet = (comp t t.H).ncard ∧
      s.nonEmpty = {f | Reach t t.H f ∧ t.pts f ≠ []}.ncard ∧
      s.totalPts = ∑ᶠ f ∈ comp t t.H, (t.pts f).length ∧
      (∀ m, s.minPts = some m ↔ IsLeast {x | ∃ f, Reach t t.H f ∧ (t.pts f).length = x ∧ 0 < x} m) ∧
      (∀ m, s.maxPts = some m ↔ IsGreatest {x | ∃ f, Reach t t.H f ∧ (t.pts f).length = x ∧ 0 < x} m) := by
  obtain ⟨W, hn, hm, hd⟩ := c84_dfs t t.H hs fuel hf
  have hst : stats fuel t = .ok (W.foldl (fun s f => s.count (t.pts f).length) ⟨0, 0, 0, none, none⟩) := by
    unfold stats
    rw [hd, foldlM_ok]
  obtain ⟨h1, h2, h3⟩ := foldl_count (fun f => (t.pts f).length) W ⟨0, 0, 0, none, none⟩
  obtain ⟨h4, h5⟩ := foldl_minmax (fun f => (t.pts f).length) W ⟨0, 0, 0, none, none⟩ ∅
    (fun m => ⟨fun h => absurd h (by simp), fun h => absurd h.1 (Set.notMem_empty m)⟩)
    (fun m => ⟨fun h => absurd h (by simp), fun h => absurd h.1 (Set.notMem_empty m)⟩) (Or.inl rfl)
  have hset : (∅ : Set ℕ) ∪ {x | ∃ f ∈ W, (t.pts f).length = x ∧ 0 < x} =
      {x | ∃ f, Reach t t.H f ∧ (t.pts f).length = x ∧ 0 < x} := by
    ext x
    simp only [Set.empty_union, Set.mem_setOf_eq, hm]
  refine ⟨_, hst, ?_, ?_, ?_, ?_, ?_⟩
  · rw [h1, ncard_of_list (S := comp t t.H) hn hm]; simp
  · rw [h2, ncard_of_list (W := W.filter fun f => 0 < (t.pts f).length) (hn.filter _)]
    · simp
    · intro j
      rw [List.mem_filter, hm j]
      simp [List.length_pos_iff]
  · rw [h3]
    have hW : comp t t.H = (W.toFinset : Set ℕ) := by
      ext j
      simp only [List.coe_toFinset, Set.mem_setOf_eq]
      exact (hm j).symm
    rw [hW, finsum_mem_coe_finset, List.sum_toFinset _ hn]
    simp
  · rw [← hset]; exact h4
  · rw [← hset]; exact h5

/-- Non-vacuity of `c107_reset` and `c107_stats`: a linked memory with four facets, one of them reserved. -/
example : (∃ b, checkReset 14 turned (fun f => if f = 2 then 5 else unreserved) = .ok b) ∧ ∃ s, stats 14 turned = .ok s := by
  have hs := turned_sound 0 (by decide)
  obtain ⟨b, h, -⟩ := c107_reset turned hs (fun f => if f = 2 then 5 else unreserved) 14 (by decide)
  obtain ⟨s, h', -⟩ := c107_stats turned hs 14 (by decide)
  exact ⟨⟨b, h⟩, s, h'⟩

end Verif.Hull3d
