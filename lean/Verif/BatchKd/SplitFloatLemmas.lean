import Verif.BatchKd.SplitFloatModel
import Verif.BatchKd.Props
import Verif.Float.Sqrt

set_option linter.unusedSectionVars false
set_option linter.unusedVariables false

/-!
Lemmas on the builds of the batch kd-tree in rounded arithmetic: the computed middle of two floating-point
numbers.
-/

namespace Verif.Float

variable {p : ℕ}

/-- Without bounds on the exponent, doubling commutes with rounding. -/
theorem rne_two_mul (x : ℝ) : rne p (2 * x) = 2 * rne p x := by
  have pos : ∀ y : ℝ, 0 < y → rne p (2 * y) = 2 * rne p y := by
    intro y hy
    have h1 := Int.zpow_log_le_self (b := 2) (r := y) (by norm_num) hy
    have h2 := Int.lt_zpow_succ_log_self (b := 2) (by norm_num) y
    rw [Nat.cast_ofNat] at h1 h2
    have e1 : rne p y = rhe (y / (2 : ℝ) ^ expo p y) * (2 : ℝ) ^ expo p y := by
      rw [rne_of_nonneg hy.le, rnePos_eq hy]
    have e2 := rne_eval (p := p) (x := 2 * y) (expo p y + 1) (by
      refine le_trans (le_of_eq ?_) (mul_le_mul_of_nonneg_left h1 (by norm_num : (0 : ℝ) ≤ 2))
      rw [← zpow_one_add₀ (by norm_num)]
      congr 1
      unfold expo
      ring) (by
      refine lt_of_lt_of_eq (mul_lt_mul_of_pos_left h2 (by norm_num : (0 : ℝ) < 2)) ?_
      rw [← zpow_one_add₀ (by norm_num)]
      congr 1
      unfold expo
      ring)
    rw [e1, e2, zpow_add_one₀ (by norm_num)]
    have : 2 * y / ((2 : ℝ) ^ expo p y * 2) = y / (2 : ℝ) ^ expo p y := by
      rw [mul_comm ((2 : ℝ) ^ expo p y) 2]
      exact mul_div_mul_left _ _ (by norm_num)
    rw [this]
    ring
  rcases lt_trichotomy x 0 with h | h | h
  · have := pos (-x) (by linarith)
    rw [mul_neg, rne_neg, rne_neg] at this
    linarith
  · subst h
    simp [rne, rnePos]
  · exact pos x h

/-- Rounding numbers up to one that is between two floating-point numbers keeps them between. -/
theorem rne_between (hp : 1 ≤ p) {a b x : ℝ} (ha : rne p a = a) (hb : rne p b = b) (h1 : a ≤ x) (h2 : x ≤ b) :
    a ≤ rne p x ∧ rne p x ≤ b := by
  have := rne_mono hp h1
  have := rne_mono hp h2
  constructor <;> linarith

end Verif.Float

namespace Verif.BatchKd

open Verif.Float

variable {α : Type} {d p : ℕ} {pos : α → Point ℝ d}

/-- The computed middle is the rounded middle. -/
theorem midFl_eq (hp : 1 ≤ p) (a b : ℝ) : midFl (rne p) a b = rne p ((a + b) / 2) := by
  unfold midFl
  have h : a + b = 2 * ((a + b) / 2) := by ring
  rw [h, rne_two_mul]
  have h2 : 2 * rne p ((a + b) / 2) / 2 = rne p ((a + b) / 2) := by ring
  rw [h2, rne_repr hp (rne_isRepr hp _)]
  congr 1
  ring

theorem midFl_between (hp : 1 ≤ p) {a b : ℝ} (ha : rne p a = a) (hb : rne p b = b) (h : a ≤ b) :
    a ≤ midFl (rne p) a b ∧ midFl (rne p) a b ≤ b := by
  rw [midFl_eq hp]
  exact rne_between hp ha hb (by linarith) (by linarith)

/-- The computed middle of two floating-point numbers is larger than the smaller one if there is a
floating-point number between them. -/
theorem midFl_gt (hp : 1 ≤ p) {a b c : ℝ} (hc : rne p c = c) (h1 : a < c) (h2 : c < b) :
    a < midFl (rne p) a b := by
  rw [midFl_eq hp]
  refine lt_of_not_ge fun hge => ?_
  have hn := rne_nearest hp ((a + b) / 2) (y := c) (by rw [← hc]; exact rne_isRepr hp c)
  rw [abs_of_nonpos (by linarith)] at hn
  rcases le_total c ((a + b) / 2) with h | h
  · rw [abs_of_nonpos (by linarith)] at hn
    linarith
  · rw [abs_of_nonneg (by linarith)] at hn
    linarith

/-- Points with floating-point coordinates, different in every dimension, such that no two coordinates in a
dimension are neighbours among the floating-point numbers. -/
structure Spaced (p : ℕ) (pos : α → Point ℝ d) (L : List α) : Prop where
  distinct : DistinctCoords pos L
  repr : ∀ x ∈ L, ∀ i, rne p (pos x i) = pos x i
  gap : ∀ x ∈ L, ∀ y ∈ L, ∀ i, pos x i < pos y i → ∃ c, rne p c = c ∧ pos x i < c ∧ c < pos y i

theorem Spaced.sub (L L' : List α) (h : L'.Subperm L) (hL : Spaced p pos L) : Spaced p pos L' :=
  ⟨hL.distinct.sub L L' h, fun x hx => hL.repr x (h.subset hx),
    fun x hx y hy => hL.gap x (h.subset hx) y (h.subset hy)⟩

section
variable {nth : Fin d → ℕ → List α → List α} {srt : Fin d → List α → List α} {leafSize : ℕ} {par : ℕ → Bool}

theorem objectCfgFl_split_snd (fl : ℝ → ℝ) (dim : Fin d) (L : List α) :
    ((objectCfgFl fl leafSize par nth srt pos).split dim L).2.2 = L.length / 2 := by
  unfold objectCfgFl
  simp only
  split <;> rfl

theorem objectCfgFl_ok (fl : ℝ → ℝ) (hn : NthItems nth pos) (hs : SortItems srt pos) (hl : 1 ≤ leafSize) :
    SplitOK (objectCfgFl fl leafSize par nth srt pos) := by
  constructor
  · intro dim L h
    have hL : leafSize < L.length := h
    unfold objectCfgFl
    simp only
    split
    · exact (hs dim L).1
    · exact (hn dim (L.length / 2) L (by omega)).1
  · intro dim L h
    rw [objectCfgFl_split_snd]
    omega

theorem objectCfgFl_strict (hp1 : 1 ≤ p) (hn : NthItems nth pos) (hs : SortItems srt pos) (hl : 1 ≤ leafSize)
    (dim : Fin d) (L : List α) (hS : Spaced p pos L) (hlen : leafSize < L.length) :
    let s := (objectCfgFl (rne p) leafSize par nth srt pos).split dim L
    (∀ x ∈ s.1.take s.2.2, pos x dim < s.2.1) ∧ (∀ x ∈ s.1.drop s.2.2, s.2.1 ≤ pos x dim) := by
  intro s
  have hP := hS.distinct
  have hsd : s = (objectCfgFl (rne p) leafSize par nth srt pos).split dim L := rfl
  unfold objectCfgFl at hsd
  simp only at hsd
  rw [hsd]
  split
  · obtain ⟨hp, hsort⟩ := hs dim L
    have hlen' := hp.length_eq
    have h1 : L.length / 2 - 1 < (srt dim L).length := by omega
    have h2 : L.length / 2 < (srt dim L).length := by omega
    simp only [parallelMedianFl, List.getElem?_eq_getElem h1, List.getElem?_eq_getElem h2,
      Option.map_some, Option.getD_some]
    rw [List.pairwise_iff_getElem] at hsort
    have hlt : pos (srt dim L)[L.length / 2 - 1] dim < pos (srt dim L)[L.length / 2] dim := by
      refine lt_of_le_of_ne (hsort _ _ h1 h2 (by omega)) ?_
      refine (hP.perm hp).ne_take_drop (L.length / 2) dim ?_ ?_
      · rw [List.mem_take_iff_getElem]
        exact ⟨L.length / 2 - 1, by omega, rfl⟩
      · rw [List.mem_drop_iff_getElem]
        exact ⟨0, by omega, by simp⟩
    have m1 : (srt dim L)[L.length / 2 - 1] ∈ L := hp.mem_iff.1 (List.getElem_mem h1)
    have m2 : (srt dim L)[L.length / 2] ∈ L := hp.mem_iff.1 (List.getElem_mem h2)
    obtain ⟨c, c1, c2, c3⟩ := hS.gap _ m1 _ m2 dim hlt
    have hlo := midFl_gt hp1 c1 c2 c3
    have hhi := (midFl_between hp1 (hS.repr _ m1 dim) (hS.repr _ m2 dim) hlt.le).2
    constructor
    · intro x hx
      rw [List.mem_take_iff_getElem] at hx
      obtain ⟨i, hi, rfl⟩ := hx
      have : pos (srt dim L)[i] dim ≤ pos (srt dim L)[L.length / 2 - 1] dim := by
        rcases Nat.lt_or_ge i (L.length / 2 - 1) with h | h
        · exact hsort _ _ (by omega) h1 h
        · have : i = L.length / 2 - 1 := by omega
          subst this
          exact le_rfl
      linarith
    · intro x hx
      rw [List.mem_drop_iff_getElem] at hx
      obtain ⟨i, hi, rfl⟩ := hx
      have : pos (srt dim L)[L.length / 2] dim ≤ pos (srt dim L)[L.length / 2 + i] dim := by
        rcases Nat.eq_zero_or_pos i with h | h
        · subst h
          exact le_rfl
        · exact hsort _ _ h2 (by omega) (by omega)
      linarith
  · have hm : L.length / 2 < L.length := by omega
    obtain ⟨hp, hr⟩ := hn dim (L.length / 2) L hm
    have hlen' := hp.length_eq
    have h2 : L.length / 2 < (nth dim (L.length / 2) L).length := by omega
    simp only [serialMedian, List.getElem?_eq_getElem h2, Option.map_some, Option.getD_some]
    obtain ⟨ha, hb⟩ := hr _ (List.getElem?_eq_getElem h2)
    refine ⟨?_, hb⟩
    intro x hx
    refine lt_of_le_of_ne (ha x hx) ((hP.perm hp).ne_take_drop (L.length / 2) dim hx ?_)
    rw [List.mem_drop_iff_getElem]
    exact ⟨0, by omega, by simp⟩

end

section
variable {prt : Fin d → ℝ → List α → List α} {leafSize : ℕ}

theorem spatialCfgFl_ok (fl : ℝ → ℝ) (hp : PartItems prt pos) : SplitOK (spatialCfgFl fl leafSize prt pos) :=
  ⟨fun dim L _ => (hp dim _ L).1, fun dim L _ => List.countP_le_length⟩

theorem spatialCfgFl_strict (fl : ℝ → ℝ) (hp : PartItems prt pos) (dim : Fin d) (L : List α) :
    let s := (spatialCfgFl fl leafSize prt pos).split dim L
    (∀ x ∈ s.1.take s.2.2, pos x dim < s.2.1) ∧ (∀ x ∈ s.1.drop s.2.2, s.2.1 ≤ pos x dim) :=
  ⟨(hp dim _ L).2.1, (hp dim _ L).2.2⟩

theorem spatialCfgFl_lt (hp1 : 1 ≤ p) (dim : Fin d) (L : List α) (hL : L ≠ [])
    (hr : ∀ x ∈ L, ∀ i, rne p (pos x i) = pos x i) :
    ((spatialCfgFl (rne p) leafSize prt pos).split dim L).2.2 < L.length := by
  show L.countP (fun x => decide (pos x dim < midFl (rne p) (minCoord pos dim L) (maxCoord pos dim L))) < _
  refine lt_of_le_of_ne List.countP_le_length fun h => ?_
  rw [List.countP_eq_length] at h
  obtain ⟨h2, y, hy, hmin⟩ := minCoord_spec (pos := pos) dim L hL
  obtain ⟨-, x, hx, hmax⟩ := maxCoord_spec (pos := pos) dim L hL
  have h1 := h x hx
  rw [decide_eq_true_iff] at h1
  have := (midFl_between hp1 (hmin ▸ hr y hy dim) (hmax ▸ hr x hx dim) (hmax ▸ h2 x hx)).2
  linarith

theorem spatialCfgFl_pos (hp1 : 1 ≤ p) (dim : Fin d) (L : List α) (hS : Spaced p pos L) (hL : 1 < L.length) :
    0 < ((spatialCfgFl (rne p) leafSize prt pos).split dim L).2.2 := by
  have hP := hS.distinct
  show 0 < L.countP (fun x => decide (pos x dim < midFl (rne p) (minCoord pos dim L) (maxCoord pos dim L)))
  rw [List.countP_pos_iff]
  have hne : L ≠ [] := by
    rintro rfl
    simp at hL
  obtain ⟨h1, x, hx, hmin⟩ := minCoord_spec (pos := pos) dim L hne
  obtain ⟨h2, y, hy, hmax⟩ := maxCoord_spec (pos := pos) dim L hne
  refine ⟨x, hx, ?_⟩
  rw [decide_eq_true_iff]
  have hlt : pos x dim < pos y dim := by
    rw [← hmin, ← hmax]
    refine lt_of_not_ge fun hge => ?_
    have hall : ∀ z ∈ L, pos z dim = pos x dim := fun z hz =>
      le_antisymm (by rw [← hmin]; exact (h2 z hz).trans hge) (by rw [← hmin]; exact h1 z hz)
    have hnd := hP dim
    rw [List.nodup_iff_injective_getElem] at hnd
    have := @hnd ⟨0, by rw [List.length_map]; omega⟩ ⟨1, by rw [List.length_map]; omega⟩ (by
      simp only [List.getElem_map]
      rw [hall _ (List.getElem_mem _), hall _ (List.getElem_mem _)])
    simp at this
  obtain ⟨c, c1, c2, c3⟩ := hS.gap x hx y hy dim hlt
  rw [hmin, hmax]
  exact midFl_gt hp1 c1 c2 c3

end

end Verif.BatchKd
