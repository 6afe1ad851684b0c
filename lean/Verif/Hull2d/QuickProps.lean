import Mathlib.Data.Fin.VecNotation
import Mathlib.Algebra.Order.Ring.Rat
import Verif.Hull2d.QuickLemmas

set_option linter.unusedSectionVars false
set_option linter.unusedVariables false

/-!
Properties C32 and C33: planar quickHull.
-/

namespace Verif.Hull2d

open Verif

variable {K : Type} [Field K] [LinearOrder K] [IsStrictOrderedRing K]

theorem lex_antisymm {a b : Point K 2} (h1 : LexLe a b) (h2 : LexLe b a) : a = b := by
  have hx : ∀ x : Fin 2, x = 0 ∨ x = 1 := by omega
  funext x
  rcases h1 with h1 | ⟨h1, h1'⟩ <;> rcases h2 with h2 | ⟨h2, h2'⟩ <;> rcases hx x with rfl | rfl <;> linarith

/-- The call of `compute` in terms of the two chains. -/
theorem compute_ok (pick : (ℕ → K) → List ℕ → ℕ) (hpick : PickOK pick) (mm : List (Point K 2) → ℕ × ℕ)
    (hmm : MinMaxOK mm) (P : List (Point K 2)) (hP : P ≠ []) :
    ∃ (mn mx : ℕ) (U L : List ℕ), compute pick mm P = .ok (mn :: U ++ mx :: L) ∧ mn < P.length ∧ mx < P.length ∧
      (∀ p ∈ P, LexLe (P.getD mn 0) p ∧ LexLe p (P.getD mx 0)) ∧
      (∀ j ∈ U, j < P.length ∧ 0 < triArea (P.getD mn 0) (P.getD mx 0) (P.getD j 0)) ∧
      (∀ j ∈ L, j < P.length ∧ triArea (P.getD mn 0) (P.getD mx 0) (P.getD j 0) < 0) ∧
      ∃ up lo, HelperPost P up mn mx U ∧ HelperPost P lo mx mn L ∧
        (∀ j < P.length, 0 < triArea (P.getD mn 0) (P.getD mx 0) (P.getD j 0) → j ∈ up) ∧
        (∀ j < P.length, triArea (P.getD mn 0) (P.getD mx 0) (P.getD j 0) < 0 → j ∈ lo) := by
  obtain ⟨h1, h2, hlex⟩ := hmm P hP
  unfold compute
  rw [if_neg hP]
  simp only []
  set mn := (mm P).1
  set mx := (mm P).2
  set a : ℕ → K := fun i => triArea (P.getD mn 0) (P.getD mx 0) (P.getD i 0) with ha
  set all := List.range P.length with hall
  set up := all.filter fun i => decide (0 < a i) with hup
  set lo := all.filter fun i => decide (a i < 0) with hlo
  have hum : ∀ j, j ∈ up ↔ j < P.length ∧ 0 < triArea (P.getD mn 0) (P.getD mx 0) (P.getD j 0) := by
    intro j
    rw [hup, List.mem_filter, decide_eq_true_eq, hall, List.mem_range]
  have hneg : ∀ j, triArea (P.getD mx 0) (P.getD mn 0) (P.getD j 0) = -a j := fun j => area_swap _ _ _
  have hlm : ∀ j, j ∈ lo ↔ j < P.length ∧ 0 < triArea (P.getD mx 0) (P.getD mn 0) (P.getD j 0) := by
    intro j
    rw [hlo, List.mem_filter, decide_eq_true_eq, hall, List.mem_range, hneg, neg_pos]
  have hul : up.length ≤ P.length + 1 := by
    have := List.length_filter_le (fun i => decide (0 < a i)) all
    rw [← hup, hall, List.length_range] at this
    omega
  have hll : lo.length ≤ P.length + 1 := by
    have := List.length_filter_le (fun i => decide (a i < 0)) all
    rw [← hlo, hall, List.length_range] at this
    omega
  obtain ⟨U, hU, pu⟩ := helper_ok pick hpick P P.length up mn (pick a all) mx hul h1 h2 hum (fun h => by
    obtain ⟨x, hx⟩ := List.exists_mem_of_ne_nil up (by rintro h'; rw [h'] at h; simp at h)
    rw [hup, List.mem_filter, decide_eq_true_eq] at hx
    obtain ⟨p1, p2⟩ := hpick a all ⟨x, hx⟩
    refine ⟨?_, fun j hj => p2 j (List.mem_of_mem_filter hj)⟩
    rw [hup, List.mem_filter, decide_eq_true_eq]
    exact ⟨p1, lt_of_lt_of_le hx.2 (p2 x hx.1)⟩)
    (cone_start _ _ _ (fun p hp => (hlex p hp).1) fun p hp => (hlex p hp).2)
  obtain ⟨L, hL, pl⟩ := helper_ok pick hpick P P.length lo mx (pick (fun i => -a i) all) mn hll h2 h1 hlm (fun h => by
    obtain ⟨x, hx⟩ := List.exists_mem_of_ne_nil lo (by rintro h'; rw [h'] at h; simp at h)
    rw [hlo, List.mem_filter, decide_eq_true_eq] at hx
    obtain ⟨p1, p2⟩ := hpick (fun i => -a i) all ⟨x, hx.1, neg_pos.mpr hx.2⟩
    refine ⟨?_, fun j hj => ?_⟩
    · rw [hlo, List.mem_filter, decide_eq_true_eq]
      refine ⟨p1, ?_⟩
      have := p2 x hx.1
      linarith [hx.2]
    · rw [hneg, hneg]
      exact p2 j (List.mem_of_mem_filter hj))
    (cone_start' _ _ _ (fun p hp => (hlex p hp).2) fun p hp => (hlex p hp).1)
  refine ⟨mn, mx, U, L, ?_, h1, h2, hlex, fun j hj => (hum j).mp (pu.sub hj), fun j hj => ?_, up, lo, pu, pl,
    fun j hj h => (hum j).mpr ⟨hj, h⟩, fun j hj h => (hlm j).mpr ⟨hj, ?_⟩⟩
  · rw [hU, hL]
    rfl
  · obtain ⟨h3, h4⟩ := (hlm j).mp (pl.sub hj)
    rw [hneg] at h4
    exact ⟨h3, neg_pos.mp h4⟩
  · rw [hneg]
    exact neg_pos.mpr h

/-- **C32**: for at least one point, whatever maxima and extreme points the reductions pick, the routine returns valid
indices, and every input point lies in the convex hull of the points at these indices. -/
theorem c32_hull (pick : (ℕ → K) → List ℕ → ℕ) (hpick : PickOK pick) (mm : List (Point K 2) → ℕ × ℕ)
    (hmm : MinMaxOK mm) (P : List (Point K 2)) (hP : P ≠ []) :
    ∃ out, compute pick mm P = .ok out ∧ (∀ i ∈ out, i < P.length) ∧
      ∀ p ∈ P, p ∈ convexHull K {q | ∃ i ∈ out, P[i]? = some q} := by
  obtain ⟨mn, mx, U, L, h, hmn, hmx, hlex, hU, hL, up, lo, pu, pl, hup, hlo⟩ := compute_ok pick hpick mm hmm P hP
  have hlt : ∀ i ∈ mn :: U ++ mx :: L, i < P.length := by
    intro i hi
    simp only [List.mem_append, List.mem_cons] at hi
    rcases hi with (rfl | hi) | rfl | hi
    · exact hmn
    · exact (hU i hi).1
    · exact hmx
    · exact (hL i hi).1
  refine ⟨_, h, hlt, fun p hp => ?_⟩
  have hS : ∀ i ∈ mn :: U ++ mx :: L, P.getD i 0 ∈ {q | ∃ i ∈ mn :: U ++ mx :: L, P[i]? = some q} := by
    intro i hi
    refine ⟨i, hi, ?_⟩
    rw [List.getD_eq_getElem _ _ (hlt i hi)]
    exact List.getElem?_eq_getElem (hlt i hi)
  obtain ⟨j, hj, rfl⟩ := List.mem_iff_getElem.mp hp
  have e : P.getD j 0 = P[j] := List.getD_eq_getElem _ _ hj
  rw [← e] at hp ⊢
  rcases lt_trichotomy (triArea (P.getD mn 0) (P.getD mx 0) (P.getD j 0)) 0 with h0 | h0 | h0
  · exact pl.hull j (hlo j hj h0) _ (hS mx (by simp)) (hS mn (by simp)) fun i hi => hS i (by simp [hi])
  · exact mem_segment_lex _ _ _ (hlex _ hp).1 (hlex _ hp).2 h0 _ (subset_convexHull K _ (hS mn (by simp)))
      (subset_convexHull K _ (hS mx (by simp)))
  · exact pu.hull j (hup j hj h0) _ (hS mn (by simp)) (hS mx (by simp)) fun i hi => hS i (by simp [hi])

/-- **C33**: every input point lies on or to the right of each consecutive edge of the returned cycle (`triArea` is twice
the signed area, positive to the left), and, unless all points coincide, the returned points are pairwise different. -/
theorem c33_clockwise (pick : (ℕ → K) → List ℕ → ℕ) (hpick : PickOK pick) (mm : List (Point K 2) → ℕ × ℕ)
    (hmm : MinMaxOK mm) (P : List (Point K 2)) (hP : P ≠ []) :
    ∃ out, compute pick mm P = .ok out ∧ 2 ≤ out.length ∧
      (∀ k, ∀ hk : k < out.length, ∀ p ∈ P, ∀ a b, P[out[k]]? = some a →
        P[out[(k + 1) % out.length]'(Nat.mod_lt _ (by omega))]? = some b →
        (b 0 - a 0) * (p 1 - a 1) - (b 1 - a 1) * (p 0 - a 0) ≤ 0) ∧
      ((∃ p ∈ P, ∃ q ∈ P, p ≠ q) → (out.map fun i => P[i]?).Nodup) := by
  obtain ⟨mn, mx, U, L, h, hmn, hmx, hlex, hU, hL, up, lo, pu, pl, hup, hlo⟩ := compute_ok pick hpick mm hmm P hP
  refine ⟨_, h, by simp; omega, ?_, ?_⟩
  · intro k hk p hp a b ha hb
    have hch := pu.chain.append pl.chain
    unfold ChainRight at hch
    set out := mn :: U ++ mx :: L with hout
    have hmap : P.getD mn 0 :: (U.map (fun i => P.getD i 0) ++ P.getD mx 0 :: L.map fun i => P.getD i 0) ++
        [P.getD mn 0] = (out ++ [mn]).map fun i => P.getD i 0 := by simp [hout]
    rw [hmap, List.isChain_iff_getElem] at hch
    have hlen : ((out ++ [mn]).map fun i => P.getD i 0).length = out.length + 1 := by simp
    have h1 := hch k (by omega) p hp
    simp only [List.getElem_map] at h1
    have e1 : (out ++ [mn])[k]'(by simp; omega) = out[k] := List.getElem_append_left hk
    have e2 : (out ++ [mn])[k + 1]'(by simp; omega) = out[(k + 1) % out.length]'(Nat.mod_lt _ (by omega)) := by
      by_cases hk' : k + 1 < out.length
      · rw [List.getElem_append_left hk']
        congr 1
        exact (Nat.mod_eq_of_lt hk').symm
      · have hke : k + 1 = out.length := by omega
        rw [List.getElem_append_right (by omega)]
        simp only [hke, Nat.sub_self, List.getElem_cons_zero, Nat.mod_self]
        rfl
    rw [e1, e2, List.getD_eq_getElem?_getD, List.getD_eq_getElem?_getD, ha, hb] at h1
    exact h1
  · rintro ⟨p, hp, q, hq, hpq⟩
    have hne : P.getD mn 0 ≠ P.getD mx 0 := by
      intro he
      apply hpq
      have hp' := hlex p hp
      have hq' := hlex q hq
      rw [← he] at hp' hq'
      rw [← lex_antisymm hp'.1 hp'.2, ← lex_antisymm hq'.1 hq'.2]
    have hlt : ∀ i ∈ mn :: U ++ mx :: L, i < P.length := by
      intro i hi
      simp only [List.mem_append, List.mem_cons] at hi
      rcases hi with (rfl | hi) | rfl | hi
      · exact hmn
      · exact (hU i hi).1
      · exact hmx
      · exact (hL i hi).1
    have hpos : ((mn :: U ++ mx :: L).map fun i => P.getD i 0).Nodup := by
      rw [List.map_append, List.map_cons, List.map_cons, List.nodup_append, List.nodup_cons, List.nodup_cons]
      have zl : triArea (P.getD mn 0) (P.getD mx 0) (P.getD mn 0) = 0 := area_self_left _ _
      have zr : triArea (P.getD mn 0) (P.getD mx 0) (P.getD mx 0) = 0 := area_self_right _ _
      have hu : ∀ x ∈ U.map (fun i => P.getD i 0), 0 < triArea (P.getD mn 0) (P.getD mx 0) x := by
        intro x hx
        obtain ⟨i, hi, rfl⟩ := List.mem_map.mp hx
        exact (hU i hi).2
      have hl : ∀ x ∈ L.map (fun i => P.getD i 0), triArea (P.getD mn 0) (P.getD mx 0) x < 0 := by
        intro x hx
        obtain ⟨i, hi, rfl⟩ := List.mem_map.mp hx
        exact (hL i hi).2
      refine ⟨⟨fun hm => ?_, pu.nodup⟩, ⟨fun hm => ?_, pl.nodup⟩, ?_⟩
      · have := hu _ hm
        rw [zl] at this
        exact lt_irrefl _ this
      · have := hl _ hm
        rw [zr] at this
        exact lt_irrefl _ this
      · intro x hx y hy hxy
        subst hxy
        rcases List.mem_cons.mp hx with rfl | hx <;> rcases List.mem_cons.mp hy with hy | hy
        · exact hne hy
        · have := hl _ hy
          rw [zl] at this
          exact lt_irrefl _ this
        · subst hy
          have := hu _ hx
          rw [zr] at this
          exact lt_irrefl _ this
        · have := hl _ hy
          have := hu _ hx
          linarith
    have hsome : (mn :: U ++ mx :: L).map (fun i => P[i]?) =
        ((mn :: U ++ mx :: L).map fun i => P.getD i 0).map some := by
      rw [List.map_map]
      apply List.map_congr_left
      intro i hi
      simp only [Function.comp_apply]
      rw [List.getD_eq_getElem _ _ (hlt i hi)]
      exact List.getElem?_eq_getElem (hlt i hi)
    rw [hsome]
    exact hpos.map (Option.some_injective _)

/-- `src/convexHull2d/quickHull/hull.cpp` and `include/convexHull2d/quickHull/hull.h:129`: a `minmax_element` that keeps the
first minimum and the first maximum. It shows that the contract can be met. -/
def firstMinMax (P : List (Point K 2)) : ℕ × ℕ :=
  let lt : Point K 2 → Point K 2 → Bool := fun a b => decide (a 0 < b 0) || (decide (a 0 = b 0) && decide (a 1 < b 1))
  (List.range P.length).foldl (fun s i =>
    (if lt (P.getD i 0) (P.getD s.1 0) then i else s.1, if lt (P.getD s.2 0) (P.getD i 0) then i else s.2)) (0, 0)

theorem lex_total (a b : Point K 2) : LexLe a b ∨ LexLe b a := by
  unfold LexLe
  rcases lt_trichotomy (a 0) (b 0) with h | h | h
  · exact Or.inl (Or.inl h)
  · rcases le_total (a 1) (b 1) with h' | h'
    · exact Or.inl (Or.inr ⟨h, h'⟩)
    · exact Or.inr (Or.inr ⟨h.symm, h'⟩)
  · exact Or.inr (Or.inl h)

theorem lex_trans {a b c : Point K 2} (h1 : LexLe a b) (h2 : LexLe b c) : LexLe a c := by
  unfold LexLe at *
  rcases h1 with h1 | ⟨h1, h1'⟩ <;> rcases h2 with h2 | ⟨h2, h2'⟩
  · exact Or.inl (h1.trans h2)
  · exact Or.inl (h2 ▸ h1)
  · exact Or.inl (h1 ▸ h2)
  · exact Or.inr ⟨h1.trans h2, h1'.trans h2'⟩

theorem firstMinMax_ok : MinMaxOK (firstMinMax (K := K)) := by
  intro P hP
  have hn : 0 < P.length := List.length_pos_iff.mpr hP
  set lt : Point K 2 → Point K 2 → Bool :=
    fun a b => decide (a 0 < b 0) || (decide (a 0 = b 0) && decide (a 1 < b 1)) with hlt
  have hlt_t : ∀ a b, lt a b = true → LexLe a b := by
    intro a b h
    simp only [hlt, Bool.or_eq_true, Bool.and_eq_true, decide_eq_true_eq] at h
    rcases h with h | h
    · exact Or.inl h
    · exact Or.inr ⟨h.1, h.2.le⟩
  have hlt_f : ∀ a b, ¬ lt a b = true → LexLe b a := by
    intro a b h
    simp only [hlt, Bool.or_eq_true, Bool.and_eq_true, decide_eq_true_eq, not_or, not_and, not_lt] at h
    rcases lt_or_eq_of_le h.1 with h' | h'
    · exact Or.inl h'
    · exact Or.inr ⟨h', h.2 h'.symm⟩
  have key : ∀ (L : List ℕ) (s : ℕ × ℕ), (∀ i ∈ L, i < P.length) → s.1 < P.length → s.2 < P.length →
      let t := L.foldl (fun s i => (if lt (P.getD i 0) (P.getD s.1 0) then i else s.1,
        if lt (P.getD s.2 0) (P.getD i 0) then i else s.2)) s
      t.1 < P.length ∧ t.2 < P.length ∧ LexLe (P.getD t.1 0) (P.getD s.1 0) ∧ LexLe (P.getD s.2 0) (P.getD t.2 0) ∧
        ∀ i ∈ L, LexLe (P.getD t.1 0) (P.getD i 0) ∧ LexLe (P.getD i 0) (P.getD t.2 0) := by
    intro L
    induction L with
    | nil =>
      intro s _ h1 h2
      exact ⟨h1, h2, Or.inr ⟨rfl, le_rfl⟩, Or.inr ⟨rfl, le_rfl⟩, by simp⟩
    | cons x L ih =>
      intro s hL h1 h2
      rw [List.foldl_cons]
      have hx := hL x (by simp)
      obtain ⟨g1, g2, g3, g4, g5⟩ := ih (if lt (P.getD x 0) (P.getD s.1 0) then x else s.1,
        if lt (P.getD s.2 0) (P.getD x 0) then x else s.2) (fun i hi => hL i (by simp [hi]))
        (by simp only []; split <;> assumption) (by simp only []; split <;> assumption)
      have e1 : LexLe (P.getD (if lt (P.getD x 0) (P.getD s.1 0) then x else s.1) 0) (P.getD s.1 0) ∧
          LexLe (P.getD (if lt (P.getD x 0) (P.getD s.1 0) then x else s.1) 0) (P.getD x 0) := by
        by_cases h : lt (P.getD x 0) (P.getD s.1 0) = true
        · rw [if_pos h]
          exact ⟨hlt_t _ _ h, Or.inr ⟨rfl, le_rfl⟩⟩
        · rw [if_neg h]
          exact ⟨Or.inr ⟨rfl, le_rfl⟩, hlt_f _ _ h⟩
      have e2 : LexLe (P.getD s.2 0) (P.getD (if lt (P.getD s.2 0) (P.getD x 0) then x else s.2) 0) ∧
          LexLe (P.getD x 0) (P.getD (if lt (P.getD s.2 0) (P.getD x 0) then x else s.2) 0) := by
        by_cases h : lt (P.getD s.2 0) (P.getD x 0) = true
        · rw [if_pos h]
          exact ⟨hlt_t _ _ h, Or.inr ⟨rfl, le_rfl⟩⟩
        · rw [if_neg h]
          exact ⟨Or.inr ⟨rfl, le_rfl⟩, hlt_f _ _ h⟩
      refine ⟨g1, g2, lex_trans g3 e1.1, lex_trans e2.1 g4, fun i hi => ?_⟩
      rcases List.mem_cons.mp hi with rfl | hi
      · exact ⟨lex_trans g3 e1.2, lex_trans e2.2 g4⟩
      · exact g5 i hi
  obtain ⟨g1, g2, _, _, g5⟩ := key (List.range P.length) (0, 0) (fun i hi => List.mem_range.mp hi) hn hn
  refine ⟨g1, g2, fun p hp => ?_⟩
  obtain ⟨j, hj, rfl⟩ := List.mem_iff_getElem.mp hp
  have := g5 j (List.mem_range.mpr hj)
  rw [List.getD_eq_getElem P 0 hj] at this
  exact this

/-- An empty input is undefined behaviour. -/
theorem c32_empty_ub (pick : (ℕ → K) → List ℕ → ℕ) (mm : List (Point K 2) → ℕ × ℕ) :
    compute pick mm [] = .error .ub := rfl

/-- Non-trivial run with ties, duplicates and interior points. -/
example : (compute reduceMax firstMinMax
    [(![0, 0] : Point ℚ 2), ![4, 0], ![2, 1], ![1, 3], ![2, 3], ![3, 3], ![2, 3], ![4, 0], ![2, -2], ![1, -1]]).toOption =
      some [0, 3, 6, 5, 1, 8] := by decide +kernel

example : PickOK (reduceMax (K := ℚ)) ∧ MinMaxOK (firstMinMax (K := ℚ)) := ⟨reduceMax_ok, firstMinMax_ok⟩

end Verif.Hull2d
