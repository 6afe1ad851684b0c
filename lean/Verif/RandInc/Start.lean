import Mathlib.Tactic.Linarith
import Verif.RandInc.Rounds

set_option linter.unusedSectionVars false
set_option linter.unusedVariables false

/-!
The first four facets.
-/

namespace Verif.RandInc

open Verif Verif.Hull2d

variable {K : Type} [Field K] [LinearOrder K] [IsStrictOrderedRing K]

/-- The vertices at the corners. -/
def Ext.at (e : Ext) : Fin 4 → ℕ
  | 0 => e.xMin
  | 1 => e.yMax
  | 2 => e.xMax
  | 3 => e.yMin

/-- Extreme vertices: the contract of `minmax_element` (`src/convexHull2d/randInc/hull.cpp:134-140`). -/
structure Ext.Ok (e : Ext) (pos : ℕ → Point K 2) (n : ℕ) : Prop where
  lt : e.xMin < n ∧ e.xMax < n ∧ e.yMin < n ∧ e.yMax < n
  xMin : ∀ v < n, pos e.xMin 0 ≤ pos v 0
  xMax : ∀ v < n, pos v 0 ≤ pos e.xMax 0
  yMin : ∀ v < n, pos e.yMin 1 ≤ pos v 1
  yMax : ∀ v < n, pos v 1 ≤ pos e.yMax 1

/-- The chains at the start. -/
def chain0 (i : Fin 4) : List ℕ := [i.val]

theorem cases4 : ∀ i j : Fin 4, i = j ∨ i = j + 1 ∨ i = j + 1 + 1 ∨ i = j + 1 + 1 + 1 := by decide

section
variable {eps : K} {pos : ℕ → Point K 2} {n : ℕ} {e : Ext}

theorem Ext.Ok.at_lt (h : e.Ok pos n) (i : Fin 4) : e.at i < n := by
  obtain ⟨h1, h2, h3, h4⟩ := h.lt
  fin_cases i <;> assumption

theorem Ext.Ok.rx (h : e.Ok pos n) (i : Fin 4) {v : ℕ} (hv : v < n) : 0 ≤ rx i (pos v - pos (e.at i)) := by
  have h1 := h.xMin v hv
  have h2 := h.xMax v hv
  have h3 := h.yMin v hv
  have h4 := h.yMax v hv
  fin_cases i <;> simp [RandInc.rx, Ext.at] <;> assumption

theorem Ext.Ok.ry (h : e.Ok pos n) (i : Fin 4) {v : ℕ} (hv : v < n) : 0 ≤ ry i (pos (e.at (i + 1)) - pos v) := by
  have := h.rx (i + 1) hv
  rw [rx_succ, ry_sub] at this
  rw [ry_sub]
  linarith

/-- A vertex that sees the facet of a corner is in its box. -/
theorem Ext.Ok.box (h : e.Ok pos n) (i : Fin 4) {v : ℕ} (hv : v < n)
    (ha : 0 < triArea (pos (e.at i)) (pos (e.at (i + 1))) (pos v)) : InBox pos e.at i v := by
  have h1 := h.rx i hv
  have h2 := h.ry i hv
  have h3 := h.rx i (h.at_lt (i + 1))
  have h4 := h.ry i (h.at_lt i)
  have hc := ha
  rw [area_cr, cr_rot i] at hc
  refine ⟨⟨h1, ?_⟩, ?_, h2⟩
  · by_contra hn
    push Not at hn
    have := mul_nonneg h4 h1
    have := mul_nonneg h3 (neg_nonneg.mpr hn.le)
    nlinarith
  · have e1 : triArea (pos (e.at i)) (pos (e.at (i + 1))) (pos v) =
        cr (pos (e.at (i + 1)) - pos v) (pos v - pos (e.at i)) := by
      unfold triArea cr; simp only [Pi.sub_apply]; ring
    rw [e1, cr_rot i] at ha
    have hy : 0 ≤ RandInc.ry i (pos v - pos (e.at i)) := by
      by_contra hn
      push Not at hn
      have := mul_nonneg h4 h1
      have := mul_nonneg h3 (neg_nonneg.mpr hn.le)
      nlinarith
    by_contra hn
    push Not at hn
    have := mul_nonneg h2 h1
    have := mul_nonneg (neg_nonneg.mpr hn.le) hy
    nlinarith

theorem Ext.Ok.ends (h : e.Ok pos n) (i : Fin 4) : InBox pos e.at i (e.at i) ∧ InBox pos e.at i (e.at (i + 1)) := by
  have h3 := h.rx i (h.at_lt (i + 1))
  have h4 := h.ry i (h.at_lt i)
  have z1 : ∀ j : Fin 4, RandInc.rx i (pos (e.at j) - pos (e.at j)) = 0 := fun j => by rw [rx_sub]; ring
  have z2 : ∀ j : Fin 4, RandInc.ry i (pos (e.at j) - pos (e.at j)) = 0 := fun j => by rw [ry_sub]; ring
  exact ⟨⟨⟨(z1 i).ge, (z2 i).ge⟩, h3, h4⟩, ⟨h3, h4⟩, (z1 _).ge, (z2 _).ge⟩

theorem corner_p (i : Fin 4) : (corner e i.val).p1 = e.at i ∧ (corner e i.val).p2 = e.at (i + 1) := by
  fin_cases i <;> exact ⟨rfl, rfl⟩

theorem corner_link (i : Fin 4) : (corner e i.val).next = (i + 1).val ∧ (corner e (i + 1).val).prev = i.val := by
  fin_cases i <;> exact ⟨rfl, rfl⟩

theorem corner_tok (i : ℕ) : (corner e i).token = none := by
  unfold corner
  split <;> rfl

theorem flag0_vis {v i : ℕ} (hi : i < 4) (h : flag0 eps pos e v = i) : visible eps pos (corner e i) v = true := by
  unfold flag0 at h
  split_ifs at h with a1 a2 a3 a4
  · subst h; exact a1
  · subst h; exact a2
  · subst h; exact a3
  · subst h; exact a4
  · omega

theorem flag0_none {v : ℕ} (h : ¬ flag0 eps pos e v < 4) (i : Fin 4) : visible eps pos (corner e i.val) v = false := by
  unfold flag0 at h
  split_ifs at h with a1 a2 a3 a4 <;> first | omega | skip
  rw [Bool.not_eq_true] at a1 a2 a3 a4
  fin_cases i <;> assumption

theorem start_heap (i : Fin 4) : (start eps pos e n).heap i.val =
    some { corner e i.val with seen := (List.range n).filter fun v => flag0 eps pos e v == i.val } := by
  simp only [start]
  rw [if_pos i.isLt]

theorem vertex_null (h : e.Ok pos n) (heps : 0 ≤ eps) (i : Fin 4) : (start eps pos e n).see (e.at i) = none := by
  simp only [start]
  rw [if_neg]
  rintro ⟨-, h2⟩
  have hv := flag0_vis h2 rfl
  set j : Fin 4 := ⟨flag0 eps pos e (e.at i), h2⟩ with hj
  have hv : visible eps pos (corner e j.val) (e.at i) = true := hv
  unfold visible at hv
  rw [(corner_p j).1, (corner_p j).2, decide_eq_true_eq] at hv
  have h0 := lt_of_le_of_lt heps hv
  have hb := h.box j (h.at_lt i) h0
  have hself : triArea (pos (e.at j)) (pos (e.at (j + 1))) (pos (e.at i)) ≤ 0 := by
    have p0 := h.rx i (h.at_lt j)
    have p1 := h.rx i (h.at_lt (j + 1))
    obtain ⟨⟨b1, b2⟩, b3, b4⟩ := hb
    have hij : i = j ∨ i = j + 1 ∨ i = j + 1 + 1 ∨ i = j + 1 + 1 + 1 := cases4 i j
    rw [area_cr, cr_rot j]
    rcases hij with hh | hh | hh | hh
    · rw [hh]
      simp only [rx_sub, ry_sub]
      apply le_of_eq; ring
    · rw [hh]
      simp only [rx_sub, ry_sub]
      apply le_of_eq; ring
    · rw [hh] at p0 p1 b1 b2 b3 b4 ⊢
      simp only [rx_succ, ry_succ, rx_sub, ry_sub] at p0 p1 b1 b2 b3 b4 ⊢
      nlinarith [mul_nonneg b1 b2, mul_nonneg b3 b4, mul_nonneg b1 b4, mul_nonneg b2 b3]
    · rw [hh] at p0 p1 b1 b2 b3 b4 ⊢
      simp only [rx_succ, ry_succ, rx_sub, ry_sub] at p0 p1 b1 b2 b3 b4 ⊢
      nlinarith [mul_nonneg b1 b2, mul_nonneg b3 b4, mul_nonneg b1 b4, mul_nonneg b2 b3]
  linarith

theorem start_inv (h : e.Ok pos n) (heps : 0 ≤ eps) : Inv eps pos n e.at chain0 (start eps pos e n) := by
  have hl : ∀ i : Fin 4, Link (start eps pos e n).heap i.val (i + 1).val := fun i =>
    ⟨⟨_, start_heap i, (corner_link i).1⟩, _, start_heap (i + 1), (corner_link i).2⟩
  refine ⟨fun i => by simp [chain0], fun i => by simp [chain0], ?_, ?_, ?_, ?_, ?_, ?_, ?_, ?_, ⟨0, by simp [chain0, start]⟩⟩
  · intro i j hij x hx hx'
    simp only [chain0, List.mem_singleton] at hx hx'
    exact hij (Fin.ext (hx.symm.trans hx'))
  · intro i x hx
    simp only [chain0, List.mem_singleton] at hx
    subst hx
    exact i.isLt
  · intro i
    simp only [chain0, List.cons_append, List.nil_append, List.isChain_cons_cons]
    exact ⟨hl i, List.isChain_singleton _⟩
  · intro i
    refine ⟨_, start_heap i, (corner_p i).1, ?_⟩
    simp only [Path]
    exact (corner_p i).2
  · intro i x hx f hf
    simp only [chain0, List.mem_singleton] at hx
    subst hx
    rw [start_heap, Option.some.injEq] at hf
    subst hf
    simp only
    rw [(corner_p i).1, (corner_p i).2]
    exact ⟨h.at_lt _, h.at_lt _, (h.ends i).1, (h.ends i).2, vertex_null h heps _, vertex_null h heps _⟩
  · intro v x hv
    simp only [start] at hv
    split_ifs at hv with hc
    obtain ⟨hvn, hf⟩ := hc
    rw [Option.some.injEq] at hv
    have hx : x < 4 := by omega
    have hvis := flag0_vis hx hv
    set j : Fin 4 := ⟨x, hx⟩ with hj
    have hvis' : visible eps pos (corner e j.val) v = true := hvis
    have h0 := hvis'
    unfold visible at h0
    rw [(corner_p j).1, (corner_p j).2, decide_eq_true_eq] at h0
    have h0 := lt_of_le_of_lt heps h0
    refine ⟨hvn, j, by simp [chain0, hj], ⟨h.box j hvn h0, h0⟩, _, start_heap j, hvis', ?_⟩
    simp only [List.mem_filter, List.mem_range, beq_iff_eq]
    exact ⟨hvn, hv⟩
  · intro i x hx f hf v hv
    simp only [chain0, List.mem_singleton] at hx
    subst hx
    rw [start_heap, Option.some.injEq] at hf
    subst hf
    simp only [List.mem_filter, List.mem_range, beq_iff_eq] at hv
    simp only [start]
    rw [if_pos ⟨hv.1, by rw [hv.2]; exact i.isLt⟩, hv.2]
  · intro x f hf
    simp only [start] at hf
    split_ifs at hf
    rw [Option.some.injEq] at hf
    subst hf
    exact corner_tok x

end

end Verif.RandInc
