import Mathlib.Tactic.Ring
import Mathlib.Tactic.FinCases
import Verif.RandInc.Reserve

set_option linter.unusedSectionVars false
set_option linter.unusedVariables false

/-!
The ring of facets: four chains between the extreme points, and what the insertion of a vertex does to them.
-/

namespace Verif.RandInc

open Verif Verif.Hull2d

variable {K : Type} [Field K] [LinearOrder K] [IsStrictOrderedRing K]

/-- First coordinate after turning corner `i` to corner 0. -/
def rx (i : Fin 4) (v : Point K 2) : K := match i with
  | 0 => v 0
  | 1 => -v 1
  | 2 => -v 0
  | 3 => v 1

/-- Second coordinate after turning corner `i` to corner 0. -/
def ry (i : Fin 4) (v : Point K 2) : K := match i with
  | 0 => v 1
  | 1 => v 0
  | 2 => -v 1
  | 3 => -v 0

/-- Cross product. -/
def cr (a b : Point K 2) : K := a 0 * b 1 - a 1 * b 0

/-- The quadrant of the directions of chain `i`. -/
def Dir (i : Fin 4) (v : Point K 2) : Prop := 0 ≤ rx i v ∧ 0 ≤ ry i v

theorem rx_succ (i : Fin 4) (v : Point K 2) : rx (i + 1) v = -ry i v := by
  fin_cases i <;> simp [rx, ry]

theorem ry_succ (i : Fin 4) (v : Point K 2) : ry (i + 1) v = rx i v := by
  fin_cases i <;> simp [rx, ry]

theorem cr_rot (i : Fin 4) (a b : Point K 2) : cr a b = rx i a * ry i b - ry i a * rx i b := by
  fin_cases i <;> simp [rx, ry, cr] <;> ring

theorem rx_sub (i : Fin 4) (a b : Point K 2) : rx i (a - b) = rx i a - rx i b := by
  fin_cases i <;> simp [rx] <;> ring

theorem ry_sub (i : Fin 4) (a b : Point K 2) : ry i (a - b) = ry i a - ry i b := by
  fin_cases i <;> simp [ry] <;> ring

theorem area_cr (a b c : Point K 2) : triArea a b c = cr (b - a) (c - a) := by
  unfold triArea cr; simp only [Pi.sub_apply]

theorem adj (i : Fin 4) {a b : Point K 2} (ha : Dir i a) (hb : Dir (i + 1) b) : cr a b ≤ 0 := by
  rw [cr_rot i]
  obtain ⟨a1, a2⟩ := ha
  obtain ⟨b1, b2⟩ := hb
  rw [rx_succ] at b1
  rw [ry_succ] at b2
  nlinarith [mul_nonneg a1 b1, mul_nonneg a2 b2]

/-- The box of corner `i`. -/
def InBox (pos : ℕ → Point K 2) (Q : Fin 4 → ℕ) (i : Fin 4) (v : ℕ) : Prop :=
  Dir i (pos v - pos (Q i)) ∧ Dir i (pos (Q (i + 1)) - pos v)

/-- The vertices that belong to corner `i`. -/
def Corner (pos : ℕ → Point K 2) (Q : Fin 4 → ℕ) (i : Fin 4) (v : ℕ) : Prop :=
  InBox pos Q i v ∧ 0 < triArea (pos (Q i)) (pos (Q (i + 1))) (pos v)

/-- The facets of a list lead from vertex `u` to vertex `w`. -/
def Path (h : ℕ → Option Fct) : ℕ → List ℕ → ℕ → Prop
  | u, [], w => u = w
  | u, x :: l, w => ∃ f, h x = some f ∧ f.p1 = u ∧ Path h f.p2 l w

theorem path_append {h : ℕ → Option Fct} {u w : ℕ} {l l' : List ℕ} :
    Path h u (l ++ l') w ↔ ∃ m, Path h u l m ∧ Path h m l' w := by
  induction l generalizing u with
  | nil => simp [Path]
  | cons x l ih =>
    simp only [List.cons_append, Path, ih]
    constructor
    · rintro ⟨f, h1, h2, m, h3, h4⟩; exact ⟨m, ⟨f, h1, h2, h3⟩, h4⟩
    · rintro ⟨m, ⟨f, h1, h2, h3⟩, h4⟩; exact ⟨f, h1, h2, m, h3, h4⟩

theorem path_live {h : ℕ → Option Fct} {u w : ℕ} {l : List ℕ} (hp : Path h u l w) : ∀ x ∈ l, ∃ f, h x = some f := by
  induction l generalizing u with
  | nil => simp
  | cons y l ih =>
    obtain ⟨f, h1, h2, h3⟩ := hp
    intro x hx
    rcases List.mem_cons.mp hx with rfl | hx
    · exact ⟨f, h1⟩
    · exact ih h3 x hx

theorem path_congr {h h' : ℕ → Option Fct} {u w : ℕ} {l : List ℕ} (hp : Path h u l w)
    (hh : ∀ x ∈ l, ∀ f, h x = some f → ∃ f', h' x = some f' ∧ f'.p1 = f.p1 ∧ f'.p2 = f.p2) : Path h' u l w := by
  induction l generalizing u with
  | nil => exact hp
  | cons y l ih =>
    obtain ⟨f, h1, h2, h3⟩ := hp
    obtain ⟨f', k1, k2, k3⟩ := hh y (by simp) f h1
    refine ⟨f', k1, k2.trans h2, ?_⟩
    rw [k3]
    exact ih h3 fun x hx => hh x (by simp [hx])

/-- Invariant between the insertions: `Q` are the four extreme vertices and `C` the chains of facets between them. -/
structure Inv (eps : K) (pos : ℕ → Point K 2) (n : ℕ) (Q : Fin 4 → ℕ) (C : Fin 4 → List ℕ) (s : St) : Prop where
  ne : ∀ i, C i ≠ []
  nodup : ∀ i, (C i).Nodup
  disj : ∀ i j, i ≠ j → ∀ x ∈ C i, x ∉ C j
  lt : ∀ i, ∀ x ∈ C i, x < s.top
  link : ∀ i, List.IsChain (Link s.heap) (C i ++ C (i + 1))
  path : ∀ i, Path s.heap (Q i) (C i) (Q (i + 1))
  fac : ∀ i, ∀ x ∈ C i, ∀ f, s.heap x = some f → f.p1 < n ∧ f.p2 < n ∧ InBox pos Q i f.p1 ∧ InBox pos Q i f.p2 ∧
    s.see f.p1 = none ∧ s.see f.p2 = none
  see : ∀ v x, s.see v = some x → v < n ∧ ∃ i, x ∈ C i ∧ Corner pos Q i v ∧ ∃ f, s.heap x = some f ∧ visible eps pos f v = true ∧
    v ∈ f.seen
  seen : ∀ i, ∀ x ∈ C i, ∀ f, s.heap x = some f → ∀ v ∈ f.seen, s.see v = some x
  tok : ∀ x f, s.heap x = some f → f.token = none
  head : ∃ i, s.H ∈ C i

/-- A run of facets of chain `k + 1` that `v` sees, with its surroundings. -/
structure Run (eps : K) (pos : ℕ → Point K 2) (Q : Fin 4 → ℕ) (C : Fin 4 → List ℕ) (s : St) (v : ℕ) (k : Fin 4)
    (A M B : List ℕ) (a e : ℕ) : Prop where
  split : C (k + 1) = A ++ M ++ B
  vis : Vis eps pos s.heap v a M e
  corner : Corner pos Q (k + 1) v
  before : ∃ A', C k ++ A = A' ++ [a]
  after : ∃ B', B ++ C (k + 1 + 1) = e :: B'

theorem seg_right (p : ℕ → Prop) (R : List ℕ) :
    ∃ M B, R = M ++ B ∧ (∀ x ∈ M, p x) ∧ ∀ x B', B = x :: B' → ¬ p x := by
  induction R with
  | nil => exact ⟨[], [], rfl, by simp, by simp⟩
  | cons y R ih =>
    by_cases hy : p y
    · obtain ⟨M, B, h1, h2, h3⟩ := ih
      refine ⟨y :: M, B, by rw [h1]; rfl, ?_, h3⟩
      intro x hx
      rcases List.mem_cons.mp hx with rfl | hx
      · exact hy
      · exact h2 x hx
    · refine ⟨[], y :: R, rfl, by simp, ?_⟩
      intro x B' h
      rw [List.cons.injEq] at h
      rw [← h.1]
      exact hy

theorem seg_left (p : ℕ → Prop) (R : List ℕ) :
    ∃ A M, R = A ++ M ∧ (∀ x ∈ M, p x) ∧ ∀ x A', A = A' ++ [x] → ¬ p x := by
  obtain ⟨M, B, h1, h2, h3⟩ := seg_right p R.reverse
  refine ⟨B.reverse, M.reverse, ?_, by simpa using h2, ?_⟩
  · rw [← List.reverse_append, ← h1, List.reverse_reverse]
  · intro x A' h
    refine h3 x A'.reverse ?_
    rw [← List.reverse_reverse B, h]
    simp

section
variable {eps : K} (heps : 0 ≤ eps) {pos : ℕ → Point K 2} {n : ℕ} {Q : Fin 4 → ℕ} {C : Fin 4 → List ℕ} {s : St}

theorem not_visible {f : Fct} {v : ℕ} (h : triArea (pos f.p1) (pos f.p2) (pos v) ≤ eps) : visible eps pos f v = false := by
  unfold visible
  exact decide_eq_false (not_lt.mpr h)

theorem Inv.live (hI : Inv eps pos n Q C s) (i : Fin 4) : ∀ x ∈ C i, ∃ f, s.heap x = some f := path_live (hI.path i)

include heps in
/-- The last facet of the previous chain is not seen from a vertex of corner `k + 1`. -/
theorem Inv.hides_prev (hI : Inv eps pos n Q C s) {k : Fin 4} {v : ℕ} (hv : InBox pos Q (k + 1) v) {A' : List ℕ} {a : ℕ}
    (h : C k = A' ++ [a]) : Hides eps pos s.heap v a := by
  have hp := hI.path k
  rw [h, path_append] at hp
  obtain ⟨m, -, f, h1, h2, h3⟩ := hp
  simp only [Path] at h3
  refine ⟨f, h1, not_visible (le_trans ?_ heps)⟩
  have hb := (hI.fac k a (by rw [h]; simp) f h1).2.2.1
  rw [h3]
  have := adj k hb.2 hv.1
  rw [area_cr]
  have e : cr (pos (Q (k + 1)) - pos f.p1) (pos v - pos f.p1) = cr (pos (Q (k + 1)) - pos f.p1) (pos v - pos (Q (k + 1))) := by
    unfold cr; simp only [Pi.sub_apply]; ring
  rw [e]
  exact this

include heps in
/-- The first facet of the next chain is not seen from a vertex of corner `k + 1`. -/
theorem Inv.hides_next (hI : Inv eps pos n Q C s) {k : Fin 4} {v : ℕ} (hv : InBox pos Q (k + 1) v) {B' : List ℕ} {e : ℕ}
    (h : C (k + 1 + 1) = e :: B') : Hides eps pos s.heap v e := by
  have hp := hI.path (k + 1 + 1)
  rw [h] at hp
  obtain ⟨f, h1, h2, h3⟩ := hp
  refine ⟨f, h1, not_visible (le_trans ?_ heps)⟩
  have hb := (hI.fac (k + 1 + 1) e (by rw [h]; simp) f h1).2.2.2.1
  rw [h2]
  have := adj (k + 1) hv.2 hb.1
  rw [area_cr]
  have e : cr (pos f.p2 - pos (Q (k + 1 + 1))) (pos v - pos (Q (k + 1 + 1))) =
      cr (pos (Q (k + 1 + 1)) - pos v) (pos f.p2 - pos (Q (k + 1 + 1))) := by
    unfold cr; simp only [Pi.sub_apply]; ring
  rw [e]
  exact this

theorem four (k : Fin 4) : k ≠ k + 1 ∧ k ≠ k + 1 + 1 ∧ k ≠ k + 1 + 1 + 1 ∧ k + 1 ≠ k + 1 + 1 ∧ k + 1 ≠ k + 1 + 1 + 1 ∧
    k + 1 + 1 ≠ k + 1 + 1 + 1 := by
  revert k; decide

/-- Three chains and the first facet of the fourth, in a row. -/
theorem Inv.line (hI : Inv eps pos n Q C s) (k : Fin 4) :
    List.IsChain (Link s.heap) (C k ++ C (k + 1) ++ C (k + 1 + 1) ++ C (k + 1 + 1 + 1)) ∧
      (C k ++ C (k + 1) ++ C (k + 1 + 1) ++ C (k + 1 + 1 + 1)).Nodup := by
  constructor
  · have h1 := (hI.link k).append_overlap (hI.link (k + 1)) (hI.ne _)
    have h2 := h1.append_overlap (l₁ := C k ++ C (k + 1)) (hI.link (k + 1 + 1)) (hI.ne _)
    exact h2
  · obtain ⟨d1, d2, d3, d4, d5, d6⟩ := four k
    simp only [List.nodup_append, List.mem_append]
    refine ⟨⟨⟨hI.nodup _, hI.nodup _, ?_⟩, hI.nodup _, ?_⟩, hI.nodup _, ?_⟩
    · rintro x hx y hy rfl; exact hI.disj _ _ d1 x hx hy
    · rintro x (hx | hx) y hy rfl
      · exact hI.disj _ _ d2 x hx hy
      · exact hI.disj _ _ d4 x hx hy
    · rintro x ((hx | hx) | hx) y hy rfl
      · exact hI.disj _ _ d3 x hx hy
      · exact hI.disj _ _ d5 x hx hy
      · exact hI.disj _ _ d6 x hx hy

theorem pred4 : ∀ i : Fin 4, ∃ k, i = k + 1 := by decide

theorem nodup_lt_length {l : List ℕ} (hn : l.Nodup) {m : ℕ} (h : ∀ x ∈ l, x < m) : l.length ≤ m := by
  have := (List.subperm_of_subset hn (fun x hx => List.mem_range.mpr (h x hx) : l ⊆ List.range m)).length_le
  simpa using this

include heps in
/-- Every vertex that still sees a facet has a run of visible facets. -/
theorem Inv.run (hI : Inv eps pos n Q C s) {v x : ℕ} (hs : s.see v = some x) :
    ∃ k A M B a e, Run eps pos Q C s v k A M B a e ∧ x ∈ M ∧ M.length + 1 < s.top + 1 := by
  obtain ⟨hvn, i, hx, hc, f, f1, f2, f3⟩ := hI.see v x hs
  obtain ⟨k, rfl⟩ := pred4 i
  obtain ⟨L, R, hLR⟩ := List.append_of_mem hx
  obtain ⟨A, M1, hA1, hA2, hA3⟩ := seg_left (Sees eps pos s.heap v) L
  obtain ⟨M2, B, hB1, hB2, hB3⟩ := seg_right (Sees eps pos s.heap v) R
  obtain ⟨hline, hlnd⟩ := hI.line k
  set M := M1 ++ x :: M2 with hM
  have hC : C (k + 1) = A ++ M ++ B := by rw [hLR, hA1, hB1, hM]; simp
  obtain ⟨A', a, hA'⟩ : ∃ A' a, C k ++ A = A' ++ [a] :=
    ⟨_, _, (List.dropLast_append_getLast (l := C k ++ A) (by simp [hI.ne k])).symm⟩
  obtain ⟨e, B', hB'⟩ : ∃ e B', B ++ C (k + 1 + 1) = e :: B' :=
    List.exists_cons_of_ne_nil (by simp [hI.ne (k + 1 + 1)])
  have hbig : C k ++ C (k + 1) ++ C (k + 1 + 1) ++ C (k + 1 + 1 + 1) = A' ++ (a :: (M ++ [e])) ++ (B' ++ C (k + 1 + 1 + 1)) := by
    rw [hC]
    calc C k ++ (A ++ M ++ B) ++ C (k + 1 + 1) ++ C (k + 1 + 1 + 1)
        = (C k ++ A) ++ M ++ (B ++ C (k + 1 + 1)) ++ C (k + 1 + 1 + 1) := by simp
      _ = _ := by rw [hA', hB']; simp
  rw [hbig] at hline hlnd
  have hnd : (a :: (M ++ [e])).Nodup := ((List.nodup_append.mp hlnd).1 |> List.nodup_append.mp).2.1
  have hch : List.IsChain (Link s.heap) (a :: (M ++ [e])) := by
    have h1 := hline.left_of_append
    exact h1.right_of_append
  have hsees : ∀ i ∈ M, Sees eps pos s.heap v i := by
    intro i hi
    rw [hM, List.mem_append, List.mem_cons] at hi
    rcases hi with hi | rfl | hi
    · exact hA2 i hi
    · exact ⟨f, f1, f2⟩
    · exact hB2 i hi
  have hhide : ∀ i, (∃ f, s.heap i = some f) → ¬ Sees eps pos s.heap v i → Hides eps pos s.heap v i := by
    rintro i ⟨f, hf⟩ hn
    refine ⟨f, hf, ?_⟩
    cases hv : visible eps pos f v
    · rfl
    · exact absurd ⟨f, hf, hv⟩ hn
  have ha : Hides eps pos s.heap v a := by
    rcases List.eq_nil_or_concat A with rfl | ⟨A'', a', rfl⟩
    · rw [List.append_nil] at hA'
      exact hI.hides_prev heps hc.1 hA'
    · rw [List.concat_eq_append] at *
      rw [← List.append_assoc] at hA'
      have := List.append_inj_right' hA' rfl
      rw [List.cons.injEq] at this
      rw [← this.1]
      refine hhide _ (hI.live (k + 1) _ (by rw [hC]; simp)) (hA3 a' A'' rfl)
  have he : Hides eps pos s.heap v e := by
    cases B with
    | nil => exact hI.hides_next heps hc.1 hB'
    | cons e' B'' =>
      rw [List.cons_append, List.cons.injEq] at hB'
      rw [← hB'.1]
      exact hhide _ (hI.live (k + 1) _ (by rw [hC]; simp)) (hB3 e' B'' rfl)
  have hout : ∃ g, s.heap e = some g ∧ g.next ∉ M ++ [e] := by
    obtain ⟨y, Y, hY⟩ : ∃ y Y, B' ++ C (k + 1 + 1 + 1) = y :: Y := List.exists_cons_of_ne_nil (by simp [hI.ne (k + 1 + 1 + 1)])
    rw [hY] at hline hlnd
    have e1 : A' ++ a :: (M ++ [e]) ++ y :: Y = (A' ++ a :: M) ++ (e :: y :: Y) := by simp
    rw [e1] at hline
    have h1 := hline.right_of_append
    rw [List.isChain_cons_cons] at h1
    obtain ⟨⟨⟨g, g1, g2⟩, -⟩, -⟩ := h1
    refine ⟨g, g1, ?_⟩
    rw [g2]
    intro hy
    exact (List.nodup_append.mp hlnd).2.2 y (by simp only [List.mem_append, List.mem_cons] at hy ⊢; tauto) y (by simp) rfl
  refine ⟨k, A, M, B, a, e, ⟨hC, ⟨by rw [hM]; simp, hch, hsees, ha, he, hnd, hout⟩, hc, ⟨A', hA'⟩, ⟨B', hB'⟩⟩, by rw [hM]; simp, ?_⟩
  have hlt : ∀ y ∈ a :: (M ++ [e]), y < s.top := by
    intro y hy
    simp only [List.mem_cons, List.mem_append, List.not_mem_nil, or_false] at hy
    rcases hy with rfl | hy | rfl
    · have : y ∈ C k ++ A := by rw [hA']; simp
      rcases List.mem_append.mp this with h | h
      · exact hI.lt _ y h
      · exact hI.lt (k + 1) y (by rw [hC]; simp [h])
    · exact hI.lt (k + 1) y (by rw [hC]; simp [hy])
    · have : y ∈ B ++ C (k + 1 + 1) := by rw [hB']; simp
      rcases List.mem_append.mp this with h | h
      · exact hI.lt (k + 1) y (by rw [hC]; simp [h])
      · exact hI.lt _ y h
  have := nodup_lt_length hnd hlt
  simp at this
  omega

end

end Verif.RandInc
