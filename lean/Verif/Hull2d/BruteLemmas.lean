import Mathlib.Tactic.Linarith
import Mathlib.Tactic.Ring
import Mathlib.Data.List.Nodup
import Mathlib.Data.Finset.Card
import Mathlib.Data.Finset.Image
import Verif.Hull2d.BruteModel
import Verif.Hull2d.QuickProps

set_option linter.unusedSectionVars false
set_option linter.unusedVariables false

/-!
Lemmas for the planar brute-force hull: facets as the edges of a cycle, and the walk along that cycle.
-/

namespace Verif.Hull2d

open Verif

variable {K : Type} [Field K] [LinearOrder K] [IsStrictOrderedRing K]

/-! ### The walk along a cycle -/

/-- The facets in `H` are the edges of the cycle `c` with period `m`. -/
structure CycleOf (m : ℕ) (c : ℤ → ℕ) (H : List (ℕ × ℕ)) : Prop where
  three : 3 ≤ m
  inj : ∀ a b : ℤ, c a = c b ↔ (m : ℤ) ∣ a - b
  lt : ∀ f ∈ H, f.1 < f.2
  edge : ∀ k : ℤ, (c k, c (k + 1)) ∈ H ∨ (c (k + 1), c k) ∈ H
  only : ∀ f ∈ H, ∃ k : ℤ, (f.1 = c k ∧ f.2 = c (k + 1)) ∨ (f.2 = c k ∧ f.1 = c (k + 1))
  nodup : H.Nodup

theorem CycleOf.ne {m : ℕ} {c : ℤ → ℕ} {H : List (ℕ × ℕ)} (h : CycleOf m c H) (k : ℤ) {d : ℤ} (h0 : 0 < d) (h1 : d < 3) :
    c k ≠ c (k + d) := by
  intro e
  have := (h.inj _ _).mp e
  have h3 := h.three
  have e2 : k - (k + d) = -d := by ring
  rw [e2, dvd_neg] at this
  have := Int.le_of_dvd h0 this
  omega

theorem CycleOf.step {m : ℕ} {c : ℤ → ℕ} {H : List (ℕ × ℕ)} (h : CycleOf m c H) {a b : ℤ} (e : c a = c b) (d : ℤ) :
    c (a + d) = c (b + d) := by
  rw [h.inj] at e ⊢
  have : a + d - (b + d) = a - b := by ring
  rwa [this]

theorem CycleOf.walk {m : ℕ} {c : ℤ → ℕ} {H : List (ℕ × ℕ)} (h : CycleOf m c H) (t : ℕ) (k : ℤ) :
    bruteWalk H t (c k, c (k + 1)) = .ok ((List.range t).map fun s : ℕ => c (k + 1 + (s : ℤ))) := by
  induction t generalizing k with
  | zero => rfl
  | succ t ih =>
    have n1 := h.ne k (d := 1) (by norm_num) (by norm_num)
    have n2 := h.ne k (d := 2) (by norm_num) (by norm_num)
    have n3 := h.ne (k + 1) (d := 1) (by norm_num) (by norm_num)
    have e2 : k + 1 + 1 = k + 2 := by ring
    rw [e2] at n3
    -- a connected facet exists
    have hex : ∃ f ∈ H, facetConnect (c k, c (k + 1)) f = true := by
      rcases h.edge (k + 1) with he | he
      · refine ⟨_, he, ?_⟩
        rw [e2]
        simp only [facetConnect, facetEq]
        simp [n1, n2, n3]
      · refine ⟨_, he, ?_⟩
        rw [e2]
        simp only [facetConnect, facetEq]
        simp [n1, n2, n3]
    rw [bruteWalk]
    cases hf : H.find? (facetConnect (c k, c (k + 1))) with
    | none =>
      obtain ⟨f, hfH, hc⟩ := hex
      exact absurd hc (List.find?_eq_none.mp hf f hfH)
    | some f =>
      have hfH := List.mem_of_find?_eq_some hf
      have hc := List.find?_some hf
      have hget : facetGetConnect (c k, c (k + 1)) f = .ok (c (k + 1), c (k + 1 + 1)) := by
        rw [facetGetConnect, if_pos hc]
        obtain ⟨l, hl⟩ := h.only f hfH
        obtain ⟨a, b⟩ := f
        simp only [facetConnect, facetEq, Bool.and_eq_true, Bool.not_eq_true', Bool.or_eq_false_iff, Bool.and_eq_false_iff,
          beq_eq_false_iff_ne, Bool.or_eq_true, beq_iff_eq] at hc hl ⊢
        obtain ⟨⟨hc1, hc2⟩, hc3⟩ := hc
        rcases hl with ⟨rfl, rfl⟩ | ⟨rfl, rfl⟩
        · by_cases hl1 : c (k + 1) = c l
          · rw [if_pos hl1, ← h.step hl1 1, hl1]
          · have hl2 : c (k + 1) = c (l + 1) := hc3.resolve_left hl1
            have := h.step hl2 (-1)
            simp only [add_neg_cancel_right] at this
            exact absurd hl2 (hc1.resolve_left fun hne => hne this)
        · by_cases hl1 : c (k + 1) = c l
          · have : c (k + 1) ≠ c (l + 1) := by
              rw [hl1]
              exact h.ne l (by norm_num) (by norm_num)
            rw [if_neg this, ← h.step hl1 1, hl1]
          · have hl2 : c (k + 1) = c (l + 1) := hc3.resolve_right hl1
            have := h.step hl2 (-1)
            simp only [add_neg_cancel_right] at this
            exact absurd this (hc2.resolve_left fun hne => hne hl2)
      simp only [hget, Except.bind]
      rw [ih (k + 1)]
      simp only [Except.map, List.range_succ_eq_map, List.map_cons, List.map_map]
      congr 2
      · simp
      · apply List.map_congr_left
        intro s _
        simp only [Function.comp_apply, Nat.cast_succ]
        congr 1
        ring

theorem CycleOf.length {m : ℕ} {c : ℤ → ℕ} {H : List (ℕ × ℕ)} (h : CycleOf m c H) : H.length = m := by
  have h3 := h.three
  rw [← List.toFinset_card_of_nodup h.nodup]
  have himg : H.toFinset = (Finset.range m).image fun k : ℕ => (min (c k) (c (k + 1)), max (c k) (c (k + 1))) := by
    ext ⟨a, b⟩
    rw [List.mem_toFinset, Finset.mem_image]
    constructor
    · intro hf
      obtain ⟨k, hk⟩ := h.only _ hf
      have hlt := h.lt _ hf
      have hm : (0 : ℤ) < m := by omega
      have hr0 := Int.emod_nonneg k (ne_of_gt hm)
      have hr1 := Int.emod_lt_of_pos k hm
      obtain ⟨r, hr⟩ := Int.eq_ofNat_of_zero_le hr0
      have hek : c k = c r := by
        rw [h.inj, ← hr]
        exact Int.dvd_self_sub_emod
      have hek' := h.step hek 1
      refine ⟨r, Finset.mem_range.mpr (by omega), ?_⟩
      simp only at hk hlt ⊢
      rw [← hek, ← hek']
      rcases hk with ⟨rfl, rfl⟩ | ⟨rfl, rfl⟩
      · rw [min_eq_left hlt.le, max_eq_right hlt.le]
      · rw [min_eq_right hlt.le, max_eq_left hlt.le]
    · rintro ⟨k, _, hk⟩
      simp only [Prod.mk.injEq] at hk
      rcases h.edge k with he | he
      · have hlt := h.lt _ he
        simp only at hlt
        rw [min_eq_left hlt.le, max_eq_right hlt.le] at hk
        rw [← hk.1, ← hk.2]
        exact he
      · have hlt := h.lt _ he
        simp only at hlt
        rw [min_eq_right hlt.le, max_eq_left hlt.le] at hk
        rw [← hk.1, ← hk.2]
        exact he
  rw [himg, Finset.card_image_of_injOn, Finset.card_range]
  intro k hk l hl hkl
  simp only [Finset.coe_range, Set.mem_Iio, Prod.mk.injEq] at hk hl hkl
  have hcase : (c k = c l ∧ c (k + 1) = c (l + 1)) ∨ (c k = c (l + 1) ∧ c (k + 1) = c l) := by
    rcases le_total (c k) (c (k + 1)) with h1 | h1 <;> rcases le_total (c l) (c (l + 1)) with h2 | h2
    · rw [min_eq_left h1, max_eq_right h1, min_eq_left h2, max_eq_right h2] at hkl; exact Or.inl hkl
    · rw [min_eq_left h1, max_eq_right h1, min_eq_right h2, max_eq_left h2] at hkl; exact Or.inr hkl
    · rw [min_eq_right h1, max_eq_left h1, min_eq_left h2, max_eq_right h2] at hkl; exact Or.inr ⟨hkl.2, hkl.1⟩
    · rw [min_eq_right h1, max_eq_left h1, min_eq_right h2, max_eq_left h2] at hkl; exact Or.inl ⟨hkl.2, hkl.1⟩
  rcases hcase with ⟨e, _⟩ | ⟨e1, e2⟩
  · have hd := (h.inj _ _).mp e
    by_contra hne
    have : (k : ℤ) - l ≠ 0 := by omega
    have := Int.le_of_dvd (abs_pos.mpr this) ((dvd_abs _ _).mpr hd)
    rcases abs_cases ((k : ℤ) - l) with ⟨h1, _⟩ | ⟨h1, _⟩ <;> omega
  · have := h.step e1 1
    rw [e2] at this
    have := h.ne l (d := 2) (by norm_num) (by norm_num)
    have e3 : (l : ℤ) + 1 + 1 = l + 2 := by ring
    rw [e3] at *
    contradiction

/-- The cycle read from another place. -/
theorem CycleOf.shift {m : ℕ} {c : ℤ → ℕ} {H : List (ℕ × ℕ)} (h : CycleOf m c H) (s : ℤ) :
    CycleOf m (fun k => c (s + k)) H where
  three := h.three
  inj a b := by
    rw [h.inj]
    have : s + a - (s + b) = a - b := by ring
    rw [this]
  lt := h.lt
  edge k := by
    rw [← add_assoc]
    exact h.edge _
  only f hf := by
    obtain ⟨k, hk⟩ := h.only f hf
    refine ⟨k - s, ?_⟩
    have e1 : s + (k - s) = k := by ring
    have e2 : s + (k - s + 1) = k + 1 := by ring
    simp only [e1, e2]
    exact hk
  nodup := h.nodup

/-- The cycle read backwards from another place. -/
theorem CycleOf.flip {m : ℕ} {c : ℤ → ℕ} {H : List (ℕ × ℕ)} (h : CycleOf m c H) (s : ℤ) :
    CycleOf m (fun k => c (s - k)) H where
  three := h.three
  inj a b := by
    rw [h.inj]
    have : s - a - (s - b) = -(a - b) := by ring
    rw [this, dvd_neg]
  lt := h.lt
  edge k := by
    have e1 : s - (k + 1) + 1 = s - k := by ring
    have := h.edge (s - (k + 1))
    rw [e1] at this
    exact this.symm
  only f hf := by
    obtain ⟨k, hk⟩ := h.only f hf
    refine ⟨s - (k + 1), ?_⟩
    have e1 : s - (s - (k + 1)) = k + 1 := by ring
    have e2 : s - (s - (k + 1) + 1) = k := by ring
    simp only [e1, e2]
    exact hk.symm.imp (fun h => ⟨h.2, h.1⟩) (fun h => ⟨h.2, h.1⟩)
  nodup := h.nodup

theorem CycleOf.compute {m : ℕ} {c : ℤ → ℕ} {P : List (Point K 2)} (h : CycleOf m c (bruteFacets P)) :
    ∃ (s : ℤ) (c' : ℤ → ℕ), ((c' = fun k => c (s + k)) ∨ (c' = fun k => c (s - k))) ∧
      bruteCompute P = .ok ((List.range m).map fun t : ℕ => c' t) := by
  have hlen := h.length
  have h3 := h.three
  cases hH : bruteFacets P with
  | nil => rw [hH] at hlen; simp at hlen; omega
  | cons f H =>
    have hf : f ∈ bruteFacets P := by rw [hH]; simp
    obtain ⟨k, hk⟩ := h.only f hf
    have hl : H.length + 1 = m := by rw [hH] at hlen; simpa using hlen
    have key : ∀ c' : ℤ → ℕ, CycleOf m c' (bruteFacets P) → f = (c' 0, c' (0 + 1)) →
        bruteCompute P = .ok ((List.range m).map fun t : ℕ => c' t) := by
      intro c' h' hf0
      rw [hH] at h'
      unfold bruteCompute
      rw [hH]
      simp only []
      conv_lhs => rw [hf0]
      rw [← hf0, ← hl]
      have := h'.walk H.length 0
      rw [← hf0] at this
      rw [this]
      simp only [Except.map, List.range_succ_eq_map, List.map_cons, List.map_map]
      congr 2
      · rw [hf0]
        simp
      · apply List.map_congr_left
        intro s _
        simp only [Function.comp_apply, Nat.cast_succ]
        congr 1
        ring
    rcases hk with ⟨h1, h2⟩ | ⟨h1, h2⟩
    · refine ⟨k, _, Or.inl rfl, key _ (h.shift k) ?_⟩
      apply Prod.ext
      · simpa using h1
      · simpa using h2
    · refine ⟨k + 1, _, Or.inr rfl, key _ (h.flip (k + 1)) ?_⟩
      apply Prod.ext
      · simpa using h2
      · simpa using h1

/-! ### Supporting edges -/

/-- All other points lie strictly right of the line from `i` to `j`. -/
def RightEdge (P : List (Point K 2)) (i j : ℕ) : Prop :=
  i < P.length ∧ j < P.length ∧ i ≠ j ∧
    ∀ l < P.length, l ≠ i → l ≠ j → triArea (P.getD i 0) (P.getD j 0) (P.getD l 0) < 0

/-- No three positions of the input hold collinear points. -/
def NoThree (P : List (Point K 2)) : Prop :=
  ∀ i j l, i < P.length → j < P.length → l < P.length → i ≠ j → i ≠ l → j ≠ l →
    triArea (P.getD i 0) (P.getD j 0) (P.getD l 0) ≠ 0

theorem triArea_swap (a b c : Point K 2) : triArea b a c = - triArea a b c := by
  unfold triArea
  ring

theorem triArea_swap' (a b c : Point K 2) : triArea a c b = - triArea a b c := by
  unfold triArea
  ring

theorem RightEdge.unique {P : List (Point K 2)} {i j j' : ℕ} (h : RightEdge P i j) (h' : RightEdge P i j') : j = j' := by
  by_contra hne
  have h1 := h.2.2.2 j' h'.2.1 (Ne.symm h'.2.2.1) (Ne.symm hne)
  have h2 := h'.2.2.2 j h.2.1 (Ne.symm h.2.2.1) hne
  rw [triArea_swap'] at h2
  linarith

/-- The start of a supporting edge is not in the hull of the other points. -/
theorem RightEdge.extreme {P : List (Point K 2)} (h3 : 3 ≤ P.length) {i j : ℕ} (h : RightEdge P i j) :
    P.getD i 0 ∉ convexHull K {q | ∃ l, l < P.length ∧ l ≠ i ∧ P.getD l 0 = q} := by
  obtain ⟨hi, hj, hij, hr⟩ := h
  set a := P.getD i 0 with ha
  set b := P.getD j 0 with hb
  have hab : 0 < (b 0 - a 0) * (b 0 - a 0) + (b 1 - a 1) * (b 1 - a 1) := by
    by_contra hc
    have h0 := mul_self_nonneg (b 0 - a 0)
    have h1 := mul_self_nonneg (b 1 - a 1)
    have e0 : b 0 - a 0 = 0 := mul_self_eq_zero.mp (by linarith)
    have e1 : b 1 - a 1 = 0 := mul_self_eq_zero.mp (by linarith)
    obtain ⟨l, hl, hli, hlj⟩ : ∃ l < P.length, l ≠ i ∧ l ≠ j := by
      by_contra hn
      push Not at hn
      have q0 := hn 0 (by omega)
      have q1 := hn 1 (by omega)
      have q2 := hn 2 (by omega)
      omega
    have := hr l hl hli hlj
    unfold triArea at this
    rw [e0, e1] at this
    simp at this
  set g : K → Point K 2 → K := fun M q =>
    M * (-triArea a b q) + ((b 0 - a 0) * (q 0 - a 0) + (b 1 - a 1) * (q 1 - a 1)) with hg
  have hM : ∀ t, t ≤ P.length → ∃ M : K, 0 ≤ M ∧ ∀ l < t, l ≠ i → 0 < g M (P.getD l 0) := by
    intro t
    induction t with
    | zero => exact fun _ => ⟨0, le_refl _, fun l hl => absurd hl (Nat.not_lt_zero _)⟩
    | succ t ih =>
      intro ht
      obtain ⟨M, hM0, hMl⟩ := ih (by omega)
      by_cases hti : t = i
      · refine ⟨M, hM0, fun l hl hli => hMl l (by omega) hli⟩
      by_cases htj : t = j
      · refine ⟨M, hM0, fun l hl hli => ?_⟩
        by_cases hlt : l = t
        · rw [hlt, htj, ← hb]
          have e : g M b = (b 0 - a 0) * (b 0 - a 0) + (b 1 - a 1) * (b 1 - a 1) := by
            simp only [hg, triArea]
            ring
          rw [e]
          exact hab
        · exact hMl l (by omega) hli
      · have hneg := hr t (by omega) hti htj
        set q := P.getD t 0 with hq
        set w := (b 0 - a 0) * (q 0 - a 0) + (b 1 - a 1) * (q 1 - a 1) with hw
        set A := -triArea a b q with hA
        have hApos : 0 < A := by rw [hA]; linarith
        have hM' : 0 < (M + (|w| + 1) / A) * A + w := by
          have e : (M + (|w| + 1) / A) * A = M * A + (|w| + 1) := by
            rw [add_mul, div_mul_cancel₀ _ (ne_of_gt hApos)]
          rw [e]
          have := neg_abs_le w
          have := mul_nonneg hM0 hApos.le
          linarith
        have hd : 0 ≤ (|w| + 1) / A := div_nonneg (by positivity) hApos.le
        refine ⟨M + (|w| + 1) / A, by linarith, fun l hl hli => ?_⟩
        by_cases hlt : l = t
        · rw [hlt]
          exact hM'
        · have h1 := hMl l (by omega) hli
          have hle : triArea a b (P.getD l 0) ≤ 0 := by
            by_cases hlj : l = j
            · rw [hlj, ← hb]
              unfold triArea
              apply le_of_eq
              ring
            · exact (hr l (by omega) hli hlj).le
          simp only [hg] at h1 ⊢
          have := mul_nonneg hd (neg_nonneg.mpr hle)
          linarith
  obtain ⟨M, _, hMl⟩ := hM P.length (le_refl _)
  intro hmem
  have hconv : Convex K {q : Point K 2 | 0 < g M q} := by
    intro x hx y hy s t hs ht hst
    have e : g M (s • x + t • y) = s * g M x + t * g M y := by
      have hs' : s = 1 - t := by linarith
      simp only [hg, triArea, Pi.add_apply, Pi.smul_apply, smul_eq_mul, hs']
      ring
    show 0 < g M (s • x + t • y)
    rw [e]
    have hx' : 0 < g M x := hx
    have hy' : 0 < g M y := hy
    rcases hs.lt_or_eq with h | h
    · have := mul_pos h hx'
      have := mul_nonneg ht hy'.le
      linarith
    · have : t = 1 := by linarith
      rw [← h, this]
      linarith
  have hsub : {q : Point K 2 | ∃ l, l < P.length ∧ l ≠ i ∧ P.getD l 0 = q} ⊆ {q | 0 < g M q} := by
    rintro q ⟨l, hl, hli, rfl⟩
    exact hMl l hl hli
  have := convexHull_min hsub hconv hmem
  have h0 : 0 < g M a := this
  have e : g M a = 0 := by
    simp only [hg, triArea]
    ring
  rw [e] at h0
  exact lt_irrefl _ h0

theorem mem_bruteFacets {P : List (Point K 2)} (h3 : 3 ≤ P.length) (hgp : NoThree P) (i j : ℕ) :
    (i, j) ∈ bruteFacets P ↔ i < j ∧ (RightEdge P i j ∨ RightEdge P j i) := by
  have hon : i < j → j < P.length → (bruteOnHull P i j = true ↔ RightEdge P i j ∨ RightEdge P j i) := by
    intro hij hj
    unfold bruteOnHull
    simp only []
    cases hl : (List.range P.length).filter fun l => !(l == i || l == j) with
    | nil =>
      exfalso
      rw [List.filter_eq_nil_iff] at hl
      have q0 := hl 0 (List.mem_range.mpr (by omega))
      have q1 := hl 1 (List.mem_range.mpr (by omega))
      have q2 := hl 2 (List.mem_range.mpr (by omega))
      simp at q0 q1 q2
      omega
    | cons l rest =>
      simp only []
      have hmem : ∀ q, q ∈ l :: rest ↔ q < P.length ∧ q ≠ i ∧ q ≠ j := by
        intro q
        rw [← hl, List.mem_filter, List.mem_range]
        simp
      have hl0 := (hmem l).mp (by simp)
      have hne := hgp i j l (by omega) hj hl0.1 (by omega) (Ne.symm hl0.2.1) (Ne.symm hl0.2.2)
      rw [List.all_eq_true]
      constructor
      · intro hall
        rcases lt_or_gt_of_ne hne with h | h
        · left
          refine ⟨by omega, hj, by omega, fun q hq hqi hqj => ?_⟩
          have := hall q ((hmem q).mpr ⟨hq, hqi, hqj⟩)
          rw [beq_iff_eq, decide_eq_decide] at this
          have hq0 := hgp i j q (by omega) hj hq (by omega) (Ne.symm hqi) (Ne.symm hqj)
          rcases lt_or_gt_of_ne hq0 with h' | h'
          · exact h'
          · exact absurd (this.mp h') (not_lt.mpr h.le)
        · right
          refine ⟨hj, by omega, by omega, fun q hq hqi hqj => ?_⟩
          have := hall q ((hmem q).mpr ⟨hq, hqj, hqi⟩)
          rw [beq_iff_eq, decide_eq_decide] at this
          rw [triArea_swap]
          have := this.mpr h
          linarith
      · rintro (h | h) q hq
        · have hq' := (hmem q).mp hq
          have h1 := h.2.2.2 q hq'.1 hq'.2.1 hq'.2.2
          have h2 := h.2.2.2 l hl0.1 hl0.2.1 hl0.2.2
          rw [decide_eq_false (not_lt.mpr h1.le), decide_eq_false (not_lt.mpr h2.le)]
          rfl
        · have hq' := (hmem q).mp hq
          have h1 := h.2.2.2 q hq'.1 hq'.2.2 hq'.2.1
          have h2 := h.2.2.2 l hl0.1 hl0.2.2 hl0.2.1
          rw [triArea_swap] at h1 h2
          rw [decide_eq_true (neg_lt_zero.mp h1), decide_eq_true (neg_lt_zero.mp h2)]
          rfl
  unfold bruteFacets
  simp only [List.mem_flatMap, List.mem_range, List.mem_map, List.mem_filter, Bool.and_eq_true, decide_eq_true_eq,
    Prod.mk.injEq]
  constructor
  · rintro ⟨a, ha, b, ⟨hb, hab, hon'⟩, rfl, rfl⟩
    exact ⟨hab, (hon hab hb).mp hon'⟩
  · rintro ⟨hij, h⟩
    have hi : i < P.length ∧ j < P.length := by
      rcases h with h | h
      · exact ⟨h.1, h.2.1⟩
      · exact ⟨h.2.1, h.1⟩
    exact ⟨i, hi.1, j, ⟨hi.2, hij, (hon hij hi.2).mpr h⟩, rfl, rfl⟩

theorem bruteFacets_nodup (P : List (Point K 2)) : (bruteFacets P).Nodup := by
  unfold bruteFacets
  rw [List.nodup_flatMap]
  constructor
  · intro i _
    apply List.Nodup.map
    · intro a b h
      exact (Prod.mk.inj h).2
    · exact List.nodup_range.filter _
  · apply List.nodup_range.imp
    intro a b hab
    rw [Function.onFun, List.disjoint_left]
    intro f hf hf'
    rw [List.mem_map] at hf hf'
    obtain ⟨_, _, rfl⟩ := hf
    obtain ⟨_, _, h⟩ := hf'
    exact hab (Prod.mk.inj h).1.symm

end Verif.Hull2d
