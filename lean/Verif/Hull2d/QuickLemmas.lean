import Mathlib.Analysis.Convex.Hull
import Mathlib.Analysis.Convex.Combination
import Mathlib.Tactic.Linarith
import Mathlib.Tactic.LinearCombination
import Mathlib.Tactic.Ring
import Mathlib.Tactic.FieldSimp
import Verif.Hull2d.QuickModel

set_option linter.unusedSectionVars false
set_option linter.unusedVariables false

namespace Verif.Hull2d

open Verif

variable {K : Type} [Field K] [LinearOrder K] [IsStrictOrderedRing K]

/-- Contract of the reduction: the index of a largest value, if some value is positive. -/
def PickOK (pick : (ℕ → K) → List ℕ → ℕ) : Prop :=
  ∀ (f : ℕ → K) (L : List ℕ), (∃ j ∈ L, 0 < f j) → pick f L ∈ L ∧ ∀ j ∈ L, f j ≤ f (pick f L)

/-- Lexicographic order of points. -/
def LexLe (a b : Point K 2) : Prop := a 0 < b 0 ∨ (a 0 = b 0 ∧ a 1 ≤ b 1)

/-- Contract of `minmax_element`. -/
def MinMaxOK (mm : List (Point K 2) → ℕ × ℕ) : Prop :=
  ∀ P : List (Point K 2), P ≠ [] → (mm P).1 < P.length ∧ (mm P).2 < P.length ∧
    ∀ p ∈ P, LexLe (P.getD (mm P).1 0) p ∧ LexLe p (P.getD (mm P).2 0)

theorem reduce_foldl (f : ℕ → K) (L : List ℕ) (a : K × ℕ) :
    let b := L.foldl (fun (a : K × ℕ) j => if f j < a.1 then a else (f j, j)) a
    (b = a ∨ (b.2 ∈ L ∧ b.1 = f b.2)) ∧ a.1 ≤ b.1 ∧ ∀ j ∈ L, f j ≤ b.1 := by
  induction L generalizing a with
  | nil => simp
  | cons x L ih =>
    simp only [List.foldl_cons]
    by_cases h : f x < a.1
    · rw [if_pos h]
      obtain ⟨h1, h2, h3⟩ := ih a
      refine ⟨?_, h2, ?_⟩
      · rcases h1 with h1 | h1
        · exact Or.inl h1
        · exact Or.inr ⟨by simp [h1.1], h1.2⟩
      · intro j hj
        rcases List.mem_cons.mp hj with rfl | hj
        · exact le_trans h.le h2
        · exact h3 j hj
    · rw [if_neg h]
      obtain ⟨h1, h2, h3⟩ := ih (f x, x)
      refine ⟨?_, le_trans (not_lt.mp h) h2, ?_⟩
      · rcases h1 with h1 | h1
        · exact Or.inr ⟨by rw [h1]; simp, by rw [h1]⟩
        · exact Or.inr ⟨by simp [h1.1], h1.2⟩
      · intro j hj
        rcases List.mem_cons.mp hj with rfl | hj
        · exact h2
        · exact h3 j hj

/-- The serial reduction meets the contract. -/
theorem reduceMax_ok : PickOK (reduceMax (K := K)) := by
  intro f L ⟨j, hj, hpos⟩
  obtain ⟨h1, h2, h3⟩ := reduce_foldl f L (0, 0)
  unfold reduceMax
  rcases h1 with h1 | ⟨h1, h1'⟩
  · have := h3 j hj
    rw [h1] at this
    exact absurd this (not_le.mpr hpos)
  · refine ⟨h1, fun i hi => ?_⟩
    rw [← h1']
    exact h3 i hi

/-! ### Areas -/

theorem area_rot (a b c : Point K 2) : triArea a b c = triArea b c a := by
  unfold triArea; ring

theorem area_swap (a b c : Point K 2) : triArea b a c = -triArea a b c := by
  unfold triArea; ring

theorem area_self_left (a b : Point K 2) : triArea a b a = 0 := by
  unfold triArea; ring

theorem area_self_right (a b : Point K 2) : triArea a b b = 0 := by
  unfold triArea; ring

theorem area_same (a c : Point K 2) : triArea a a c = 0 := by
  unfold triArea; ring

theorem area_sum (l m r p : Point K 2) : triArea l r p = triArea l m p + triArea m r p + triArea l r m := by
  unfold triArea; ring

/-- Plücker relation of four directions at `l`. -/
theorem plucker_l (l r x m p : Point K 2) :
    triArea l r x * triArea l m p = triArea l r m * triArea l x p - triArea l r p * triArea l x m := by
  unfold triArea; ring

theorem plucker_r (l r x m p : Point K 2) :
    triArea l r x * triArea m r p = triArea l r m * triArea x r p - triArea l r p * triArea x r m := by
  unfold triArea; ring

theorem plucker_ml (l r x m p : Point K 2) :
    triArea l r x * triArea x m p =
      (triArea l r x - triArea l r m) * triArea x r p - (triArea l r x - triArea l r p) * triArea x r m := by
  unfold triArea; ring

theorem plucker_mr (l r x m p : Point K 2) :
    triArea l r x * triArea m x p =
      (triArea l r x - triArea l r m) * triArea l x p - (triArea l r x - triArea l r p) * triArea l x m := by
  unfold triArea; ring

/-- A triangle contains the points on the inner side of its three edges. -/
theorem mem_triangle (l m r p : Point K 2) (hm : 0 < triArea l r m) (h1 : triArea l m p ≤ 0) (h2 : triArea m r p ≤ 0)
    (h3 : 0 ≤ triArea l r p) (S : Set (Point K 2)) (hl : l ∈ convexHull K S) (hmm : m ∈ convexHull K S)
    (hr : r ∈ convexHull K S) : p ∈ convexHull K S := by
  set A := triArea l r m with hA
  have hsum := area_sum l m r p
  have hne : A ≠ 0 := ne_of_gt hm
  have hp : p = (-(triArea m r p) / A) • l + ((triArea l r p) / A) • m + (-(triArea l m p) / A) • r := by
    funext x
    simp only [Pi.add_apply, Pi.smul_apply, smul_eq_mul]
    rw [div_mul_eq_mul_div, div_mul_eq_mul_div, div_mul_eq_mul_div, ← add_div, ← add_div, eq_div_iff hne, hA]
    unfold triArea
    have : x = 0 ∨ x = 1 := by omega
    rcases this with rfl | rfl <;> ring
  have hc := convex_convexHull K S
  have ha : 0 ≤ -(triArea m r p) / A := div_nonneg (by linarith) hm.le
  have hb : 0 ≤ triArea l r p / A := div_nonneg h3 hm.le
  have hcc : 0 ≤ -(triArea l m p) / A := div_nonneg (by linarith) hm.le
  have h1 : -(triArea m r p) / A + triArea l r p / A + -(triArea l m p) / A = 1 := by
    rw [← add_div, ← add_div, div_eq_one_iff_eq hne]
    linarith
  rw [hp]
  have := hc.sum_mem (t := (Finset.univ : Finset (Fin 3)))
    (w := ![-(triArea m r p) / A, triArea l r p / A, -(triArea l m p) / A]) (z := ![l, m, r])
    (by intro i _; fin_cases i <;> simpa) (by rw [Fin.sum_univ_three]; simpa using h1)
    (by intro i _; fin_cases i <;> simpa)
  rw [Fin.sum_univ_three] at this
  simpa using this

/-- A point of a line that lies between two points of it. -/
theorem mem_segment_lex (a b p : Point K 2) (h1 : LexLe a p) (h2 : LexLe p b) (h0 : triArea a b p = 0)
    (S : Set (Point K 2)) (ha : a ∈ convexHull K S) (hb : b ∈ convexHull K S) : p ∈ convexHull K S := by
  have hc := convex_convexHull K S
  have comb : ∀ t : K, 0 ≤ t → t ≤ 1 → p = (1 - t) • a + t • b → p ∈ convexHull K S := by
    intro t ht0 ht1 hp
    rw [hp]
    exact hc ha hb (by linarith) ht0 (by ring)
  have hx : ∀ x : Fin 2, x = 0 ∨ x = 1 := by omega
  unfold triArea at h0
  by_cases h : b 0 - a 0 = 0
  · have hp0 : p 0 = a 0 := by
      rcases h1 with h1 | h1 <;> rcases h2 with h2 | h2 <;> linarith [h1, h2]
    have hb0 : b 0 = a 0 := by linarith
    have hp1 : a 1 ≤ p 1 := by
      rcases h1 with h1 | h1
      · linarith
      · exact h1.2
    have hp2 : p 1 ≤ b 1 := by
      rcases h2 with h2 | h2
      · linarith
      · exact h2.2
    by_cases h' : b 1 - a 1 = 0
    · refine comb 0 le_rfl zero_le_one ?_
      funext x
      simp only [Pi.add_apply, Pi.smul_apply, smul_eq_mul]
      rcases hx x with rfl | rfl <;> linarith
    · have hpos : 0 < b 1 - a 1 := lt_of_le_of_ne (by linarith) (Ne.symm h')
      refine comb ((p 1 - a 1) / (b 1 - a 1)) (div_nonneg (by linarith) hpos.le)
        ((div_le_one hpos).mpr (by linarith)) ?_
      funext x
      simp only [Pi.add_apply, Pi.smul_apply, smul_eq_mul]
      rcases hx x with rfl | rfl
      · rw [hp0, hb0]; ring
      · field_simp
        ring
  · have hab : a 0 ≤ b 0 := by
      rcases h1 with h1 | h1 <;> rcases h2 with h2 | h2 <;> linarith [h1, h2]
    have hpos : 0 < b 0 - a 0 := lt_of_le_of_ne (by linarith) (Ne.symm h)
    have hp1 : a 0 ≤ p 0 := by rcases h1 with h1 | h1 <;> linarith [h1]
    have hp2 : p 0 ≤ b 0 := by rcases h2 with h2 | h2 <;> linarith [h2]
    refine comb ((p 0 - a 0) / (b 0 - a 0)) (div_nonneg (by linarith) hpos.le)
      ((div_le_one hpos).mpr (by linarith)) ?_
    funext x
    simp only [Pi.add_apply, Pi.smul_apply, smul_eq_mul]
    rcases hx x with rfl | rfl
    · field_simp
      ring
    · rw [eq_comm, ← sub_eq_zero]
      field_simp
      linear_combination -h0

/-! ### The invariant of the recursion -/

/-- What holds at a call for the chain from `l` to `r`: seen from `l` and from `r`, the points of `A` that are not left of
the line are behind all points that are. -/
structure Cone (A : Set (Point K 2)) (l r : Point K 2) : Prop where
  atL : ∀ p ∈ A, triArea l r p ≤ 0 → ∀ m ∈ A, 0 < triArea l r m → triArea l m p ≤ 0
  atR : ∀ p ∈ A, triArea l r p ≤ 0 → ∀ m ∈ A, 0 < triArea l r m → triArea m r p ≤ 0

theorem Cone.left {A : Set (Point K 2)} {l r x : Point K 2} (h : Cone A l r) (hx : x ∈ A) (hpos : 0 < triArea l r x)
    (hmax : ∀ p ∈ A, triArea l r p ≤ triArea l r x) : Cone A l x := by
  refine ⟨fun p hp h1 m hm h2 => ?_, fun p hp h1 m hm h2 => ?_⟩
  · have hm' : 0 < triArea l r m := by
      by_contra hc
      exact absurd (h.atL m hm (not_lt.mp hc) x hx hpos) (not_le.mpr h2)
    by_cases hp' : triArea l r p ≤ 0
    · exact h.atL p hp hp' m hm hm'
    · have e := plucker_l l r x m p
      have e1 : triArea l r m * triArea l x p ≤ 0 := mul_nonpos_of_nonneg_of_nonpos hm'.le h1
      have e2 : 0 ≤ triArea l r p * triArea l x m := mul_nonneg (not_le.mp hp').le h2.le
      by_contra hc
      have := mul_pos hpos (not_le.mp hc)
      linarith
  · have e := plucker_mr l r x m p
    have e1 : (triArea l r x - triArea l r m) * triArea l x p ≤ 0 :=
      mul_nonpos_of_nonneg_of_nonpos (by linarith [hmax m hm]) h1
    have e2 : 0 ≤ (triArea l r x - triArea l r p) * triArea l x m := mul_nonneg (by linarith [hmax p hp]) h2.le
    by_contra hc
    have := mul_pos hpos (not_le.mp hc)
    linarith

theorem Cone.right {A : Set (Point K 2)} {l r x : Point K 2} (h : Cone A l r) (hx : x ∈ A) (hpos : 0 < triArea l r x)
    (hmax : ∀ p ∈ A, triArea l r p ≤ triArea l r x) : Cone A x r := by
  refine ⟨fun p hp h1 m hm h2 => ?_, fun p hp h1 m hm h2 => ?_⟩
  · have e := plucker_ml l r x m p
    have e1 : (triArea l r x - triArea l r m) * triArea x r p ≤ 0 :=
      mul_nonpos_of_nonneg_of_nonpos (by linarith [hmax m hm]) h1
    have e2 : 0 ≤ (triArea l r x - triArea l r p) * triArea x r m := mul_nonneg (by linarith [hmax p hp]) h2.le
    by_contra hc
    have := mul_pos hpos (not_le.mp hc)
    linarith
  · have hm' : 0 < triArea l r m := by
      by_contra hc
      exact absurd (h.atR m hm (not_lt.mp hc) x hx hpos) (not_le.mpr h2)
    by_cases hp' : triArea l r p ≤ 0
    · exact h.atR p hp hp' m hm hm'
    · have e := plucker_r l r x m p
      have e1 : triArea l r m * triArea x r p ≤ 0 := mul_nonpos_of_nonneg_of_nonpos hm'.le h1
      have e2 : 0 ≤ triArea l r p * triArea x r m := mul_nonneg (not_le.mp hp').le h2.le
      by_contra hc
      have := mul_pos hpos (not_le.mp hc)
      linarith

theorem cone_start (A : Set (Point K 2)) (l r : Point K 2) (hl : ∀ p ∈ A, LexLe l p) (hr : ∀ p ∈ A, LexLe p r) :
    Cone A l r := by
  have key : ∀ m ∈ A, triArea l r m ≠ 0 → l 0 < r 0 := by
    intro m hm h
    by_contra hc
    apply h
    have h1 := hl m hm
    have h2 := hr m hm
    have e1 : l 0 ≤ m 0 := by rcases h1 with h1 | h1 <;> linarith [h1]
    have e2 : m 0 ≤ r 0 := by rcases h2 with h2 | h2 <;> linarith [h2]
    have e3 : r 0 - l 0 = 0 := by linarith
    have e4 : m 0 - l 0 = 0 := by linarith
    unfold triArea
    rw [e3, e4]
    ring
  refine ⟨fun p hp h1 m hm h2 => ?_, fun p hp h1 m hm h2 => ?_⟩
  · have h0 := key m hm (ne_of_gt h2)
    have em : l 0 ≤ m 0 := by rcases hl m hm with h | h <;> linarith [h]
    have ep : l 0 ≤ p 0 := by rcases hl p hp with h | h <;> linarith [h]
    have e : (r 0 - l 0) * triArea l m p = (m 0 - l 0) * triArea l r p - (p 0 - l 0) * triArea l r m := by
      unfold triArea; ring
    have e1 : (m 0 - l 0) * triArea l r p ≤ 0 := mul_nonpos_of_nonneg_of_nonpos (by linarith) h1
    have e2 : 0 ≤ (p 0 - l 0) * triArea l r m := mul_nonneg (by linarith) h2.le
    by_contra hc
    have := mul_pos (sub_pos.mpr h0) (not_le.mp hc)
    linarith
  · have h0 := key m hm (ne_of_gt h2)
    have em : m 0 ≤ r 0 := by rcases hr m hm with h | h <;> linarith [h]
    have ep : p 0 ≤ r 0 := by rcases hr p hp with h | h <;> linarith [h]
    have e : (r 0 - l 0) * triArea m r p = (r 0 - m 0) * triArea l r p - (r 0 - p 0) * triArea l r m := by
      unfold triArea; ring
    have e1 : (r 0 - m 0) * triArea l r p ≤ 0 := mul_nonpos_of_nonneg_of_nonpos (by linarith) h1
    have e2 : 0 ≤ (r 0 - p 0) * triArea l r m := mul_nonneg (by linarith) h2.le
    by_contra hc
    have := mul_pos (sub_pos.mpr h0) (not_le.mp hc)
    linarith

theorem cone_start' (A : Set (Point K 2)) (l r : Point K 2) (hl : ∀ p ∈ A, LexLe p l) (hr : ∀ p ∈ A, LexLe r p) :
    Cone A l r := by
  have key : ∀ m ∈ A, triArea l r m ≠ 0 → r 0 < l 0 := by
    intro m hm h
    by_contra hc
    apply h
    have h1 := hl m hm
    have h2 := hr m hm
    have e1 : m 0 ≤ l 0 := by rcases h1 with h1 | h1 <;> linarith [h1]
    have e2 : r 0 ≤ m 0 := by rcases h2 with h2 | h2 <;> linarith [h2]
    have e3 : r 0 - l 0 = 0 := by linarith
    have e4 : m 0 - l 0 = 0 := by linarith
    unfold triArea
    rw [e3, e4]
    ring
  refine ⟨fun p hp h1 m hm h2 => ?_, fun p hp h1 m hm h2 => ?_⟩
  · have h0 := key m hm (ne_of_gt h2)
    have em : m 0 ≤ l 0 := by rcases hl m hm with h | h <;> linarith [h]
    have ep : p 0 ≤ l 0 := by rcases hl p hp with h | h <;> linarith [h]
    have e : (l 0 - r 0) * triArea l m p = (l 0 - m 0) * triArea l r p - (l 0 - p 0) * triArea l r m := by
      unfold triArea; ring
    have e1 : (l 0 - m 0) * triArea l r p ≤ 0 := mul_nonpos_of_nonneg_of_nonpos (by linarith) h1
    have e2 : 0 ≤ (l 0 - p 0) * triArea l r m := mul_nonneg (by linarith) h2.le
    by_contra hc
    have := mul_pos (sub_pos.mpr h0) (not_le.mp hc)
    linarith
  · have h0 := key m hm (ne_of_gt h2)
    have em : r 0 ≤ m 0 := by rcases hr m hm with h | h <;> linarith [h]
    have ep : r 0 ≤ p 0 := by rcases hr p hp with h | h <;> linarith [h]
    have e : (l 0 - r 0) * triArea m r p = (m 0 - r 0) * triArea l r p - (p 0 - r 0) * triArea l r m := by
      unfold triArea; ring
    have e1 : (m 0 - r 0) * triArea l r p ≤ 0 := mul_nonpos_of_nonneg_of_nonpos (by linarith) h1
    have e2 : 0 ≤ (p 0 - r 0) * triArea l r m := mul_nonneg (by linarith) h2.le
    by_contra hc
    have := mul_pos (sub_pos.mpr h0) (not_le.mp hc)
    linarith

/-- Edges of the open chain `a, L..., b`: all points of `A` on or to the right of each. -/
def ChainRight (A : Set (Point K 2)) (a : Point K 2) (L : List (Point K 2)) (b : Point K 2) : Prop :=
  List.IsChain (fun x y => ∀ p ∈ A, triArea x y p ≤ 0) (a :: L ++ [b])

theorem ChainRight.append {A : Set (Point K 2)} {a m b : Point K 2} {L L' : List (Point K 2)}
    (h1 : ChainRight A a L m) (h2 : ChainRight A m L' b) : ChainRight A a (L ++ m :: L') b := by
  unfold ChainRight at *
  have e : a :: (L ++ m :: L') ++ [b] = (a :: L ++ [m]) ++ (L' ++ [b]) := by simp
  rw [e, List.isChain_append]
  refine ⟨h1, ?_, ?_⟩
  · rw [List.cons_append] at h2
    exact h2.tail
  · intro x hx y hy
    have hx' : x = m := by
      rw [show a :: L ++ [m] = (a :: L) ++ [m] from rfl, List.getLast?_append] at hx
      simpa using hx.symm
    subst hx'
    rw [List.cons_append] at h2
    cases hL : L' ++ [b] with
    | nil => simp at hL
    | cons z t =>
      rw [hL] at hy h2
      simp only [List.head?_cons, Option.mem_def, Option.some.injEq] at hy
      subst hy
      exact (List.isChain_cons_cons.mp h2).1

/-- What a call of the helper returns. -/
structure HelperPost (P : List (Point K 2)) (idxs : List ℕ) (l r : ℕ) (out : List ℕ) : Prop where
  sub : out ⊆ idxs
  hull : ∀ j ∈ idxs, ∀ S : Set (Point K 2), P.getD l 0 ∈ S → P.getD r 0 ∈ S → (∀ i ∈ out, P.getD i 0 ∈ S) →
    P.getD j 0 ∈ convexHull K S
  chain : ChainRight {p | p ∈ P} (P.getD l 0) (out.map fun i => P.getD i 0) (P.getD r 0)
  nodup : (out.map fun i => P.getD i 0).Nodup

theorem getD_mem (P : List (Point K 2)) (i : ℕ) (h : i < P.length) : P.getD i 0 ∈ P := by
  rw [List.getD_eq_getElem _ _ h]
  exact List.getElem_mem h

theorem base_post (P : List (Point K 2)) (idxs : List ℕ) (l r : ℕ) (hlen : idxs.length ≤ 1)
    (hidx : ∀ j, j ∈ idxs ↔ j < P.length ∧ 0 < triArea (P.getD l 0) (P.getD r 0) (P.getD j 0))
    (hcone : Cone {p | p ∈ P} (P.getD l 0) (P.getD r 0)) : HelperPost P idxs l r idxs := by
  refine ⟨fun _ h => h, fun j hj S _ _ hS => subset_convexHull K S (hS j hj), ?_, ?_⟩
  · have hout : ∀ p ∈ P, (∀ j ∈ idxs, P.getD j 0 ≠ p) → triArea (P.getD l 0) (P.getD r 0) p ≤ 0 := by
      intro p hp hne
      by_contra hc
      obtain ⟨i, hi, rfl⟩ := List.mem_iff_getElem.mp hp
      have e : P.getD i 0 = P[i] := List.getD_eq_getElem _ _ hi
      exact hne i ((hidx i).mpr ⟨hi, by rw [e]; exact not_le.mp hc⟩) e
    match idxs, hlen with
    | [], _ =>
      unfold ChainRight
      simp only [List.map_nil, List.cons_append, List.nil_append, List.isChain_cons_cons, List.IsChain.singleton,
        and_true]
      intro p hp
      exact hout p hp (by simp)
    | [x], _ =>
      obtain ⟨hx, hpos⟩ := (hidx x).mp (by simp)
      have hxm : P.getD x 0 ∈ {p | p ∈ P} := getD_mem P x hx
      unfold ChainRight
      simp only [List.map_cons, List.map_nil, List.cons_append, List.nil_append, List.isChain_cons_cons,
        List.IsChain.singleton, and_true]
      constructor
      · intro p hp
        by_cases h : P.getD x 0 = p
        · rw [← h, area_self_right]
        · exact hcone.atL p hp (hout p hp (by simpa using h)) _ hxm hpos
      · intro p hp
        by_cases h : P.getD x 0 = p
        · rw [← h, area_self_left]
        · exact hcone.atR p hp (hout p hp (by simpa using h)) _ hxm hpos
  · match idxs, hlen with
    | [], _ => simp
    | [x], _ => simp

theorem helper_ok (pick : (ℕ → K) → List ℕ → ℕ) (hpick : PickOK pick) (P : List (Point K 2)) (fuel : ℕ)
    (idxs : List ℕ) (l mid r : ℕ) (hf : idxs.length ≤ fuel + 1) (hl : l < P.length) (hr : r < P.length)
    (hidx : ∀ j, j ∈ idxs ↔ j < P.length ∧ 0 < triArea (P.getD l 0) (P.getD r 0) (P.getD j 0))
    (hmid : 2 ≤ idxs.length → mid ∈ idxs ∧ ∀ j ∈ idxs, triArea (P.getD l 0) (P.getD r 0) (P.getD j 0) ≤
      triArea (P.getD l 0) (P.getD r 0) (P.getD mid 0))
    (hcone : Cone {p | p ∈ P} (P.getD l 0) (P.getD r 0)) :
    ∃ out, helper pick P fuel idxs l mid r = .ok out ∧ HelperPost P idxs l r out := by
  induction fuel generalizing idxs l mid r with
  | zero =>
    rw [helper, if_pos (by omega)]
    exact ⟨idxs, rfl, base_post P idxs l r (by omega) hidx hcone⟩
  | succ fuel ih =>
    by_cases hlen : idxs.length ≤ 1
    · rw [helper, if_pos hlen]
      exact ⟨idxs, rfl, base_post P idxs l r hlen hidx hcone⟩
    · obtain ⟨hm, hmax⟩ := hmid (by omega)
      obtain ⟨hmP, hmpos⟩ := (hidx mid).mp hm
      have hmA : P.getD mid 0 ∈ {p | p ∈ P} := getD_mem P mid hmP
      have hmaxA : ∀ p ∈ {p | p ∈ P}, triArea (P.getD l 0) (P.getD r 0) p ≤
          triArea (P.getD l 0) (P.getD r 0) (P.getD mid 0) := by
        intro p hp
        obtain ⟨i, hi, rfl⟩ := List.mem_iff_getElem.mp hp
        have e : P.getD i 0 = P[i] := List.getD_eq_getElem _ _ hi
        rw [← e]
        by_cases h : 0 < triArea (P.getD l 0) (P.getD r 0) (P.getD i 0)
        · exact hmax i ((hidx i).mpr ⟨hi, h⟩)
        · linarith
      have hcl := hcone.left hmA hmpos hmaxA
      have hcr := hcone.right hmA hmpos hmaxA
      have hleft : ∀ j, j < P.length → 0 < triArea (P.getD l 0) (P.getD mid 0) (P.getD j 0) → j ∈ idxs := by
        intro j hj h
        refine (hidx j).mpr ⟨hj, ?_⟩
        by_contra hc
        exact absurd (hcone.atL _ (getD_mem P j hj) (not_lt.mp hc) _ hmA hmpos) (not_le.mpr h)
      have hright : ∀ j, j < P.length → 0 < triArea (P.getD mid 0) (P.getD r 0) (P.getD j 0) → j ∈ idxs := by
        intro j hj h
        refine (hidx j).mpr ⟨hj, ?_⟩
        by_contra hc
        exact absurd (hcone.atR _ (getD_mem P j hj) (not_lt.mp hc) _ hmA hmpos) (not_le.mpr h)
      rw [helper, if_neg hlen]
      simp only []
      rw [if_pos ⟨hl, hmP, hr, fun j hj => ((hidx j).mp hj).1⟩]
      set lefta : ℕ → K := fun j => triArea (P.getD l 0) (P.getD mid 0) (P.getD j 0) with hla
      set righta : ℕ → K := fun j => triArea (P.getD mid 0) (P.getD r 0) (P.getD j 0) with hra
      set left := idxs.filter fun j => decide (0 < lefta j) with hlf
      set right := idxs.filter fun j => decide (0 < righta j) with hrf
      have hll : left.length < idxs.length := by
        rw [hlf, List.length_filter_lt_length_iff_exists]
        exact ⟨mid, hm, by simp only [hla, area_self_right]; simp⟩
      have hrl : right.length < idxs.length := by
        rw [hrf, List.length_filter_lt_length_iff_exists]
        exact ⟨mid, hm, by simp only [hra, area_self_left]; simp⟩
      have hlmem : ∀ j, j ∈ left ↔ j < P.length ∧ 0 < triArea (P.getD l 0) (P.getD mid 0) (P.getD j 0) := by
        intro j
        rw [hlf, List.mem_filter, decide_eq_true_eq]
        exact ⟨fun h => ⟨((hidx j).mp h.1).1, h.2⟩, fun h => ⟨hleft j h.1 h.2, h.2⟩⟩
      have hrmem : ∀ j, j ∈ right ↔ j < P.length ∧ 0 < triArea (P.getD mid 0) (P.getD r 0) (P.getD j 0) := by
        intro j
        rw [hrf, List.mem_filter, decide_eq_true_eq]
        exact ⟨fun h => ⟨((hidx j).mp h.1).1, h.2⟩, fun h => ⟨hright j h.1 h.2, h.2⟩⟩
      obtain ⟨lo, hlo, pl⟩ := ih left l (pick lefta idxs) mid (by omega) hl hmP hlmem (fun h2 => by
        obtain ⟨x, hx⟩ := List.exists_mem_of_ne_nil left (by rintro h; rw [h] at h2; simp at h2)
        rw [hlf, List.mem_filter, decide_eq_true_eq] at hx
        obtain ⟨p1, p2⟩ := hpick lefta idxs ⟨x, hx⟩
        refine ⟨?_, fun j hj => p2 j (List.mem_of_mem_filter hj)⟩
        rw [hlf, List.mem_filter, decide_eq_true_eq]
        exact ⟨p1, lt_of_lt_of_le hx.2 (p2 x hx.1)⟩) hcl
      obtain ⟨ro, hro, pr⟩ := ih right mid (pick righta idxs) r (by omega) hmP hr hrmem (fun h2 => by
        obtain ⟨x, hx⟩ := List.exists_mem_of_ne_nil right (by rintro h; rw [h] at h2; simp at h2)
        rw [hrf, List.mem_filter, decide_eq_true_eq] at hx
        obtain ⟨p1, p2⟩ := hpick righta idxs ⟨x, hx⟩
        refine ⟨?_, fun j hj => p2 j (List.mem_of_mem_filter hj)⟩
        rw [hrf, List.mem_filter, decide_eq_true_eq]
        exact ⟨p1, lt_of_lt_of_le hx.2 (p2 x hx.1)⟩) hcr
      rw [hlo, hro]
      refine ⟨lo ++ mid :: ro, rfl, ?_, ?_, ?_, ?_⟩
      · intro j hj
        simp only [List.mem_append, List.mem_cons] at hj
        rcases hj with hj | rfl | hj
        · exact List.mem_of_mem_filter (pl.sub hj)
        · exact hm
        · exact List.mem_of_mem_filter (pr.sub hj)
      · intro j hj S hSl hSr hS
        have hSm : P.getD mid 0 ∈ S := hS mid (by simp)
        obtain ⟨hjP, hjpos⟩ := (hidx j).mp hj
        by_cases h1 : 0 < lefta j
        · exact pl.hull j ((hlmem j).mpr ⟨hjP, h1⟩) S hSl hSm fun i hi => hS i (by simp [hi])
        by_cases h2 : 0 < righta j
        · exact pr.hull j ((hrmem j).mpr ⟨hjP, h2⟩) S hSm hSr fun i hi => hS i (by simp [hi])
        exact mem_triangle _ _ _ _ hmpos (not_lt.mp h1) (not_lt.mp h2) hjpos.le S (subset_convexHull K S hSl)
          (subset_convexHull K S hSm) (subset_convexHull K S hSr)
      · rw [List.map_append, List.map_cons]
        exact pl.chain.append pr.chain
      · have hlo_pos : ∀ x ∈ lo.map (fun i => P.getD i 0), 0 < triArea (P.getD l 0) (P.getD mid 0) x := by
          intro x hx
          obtain ⟨i, hi, rfl⟩ := List.mem_map.mp hx
          exact ((hlmem i).mp (pl.sub hi)).2
        have hro_pos : ∀ x ∈ ro.map (fun i => P.getD i 0),
            0 < triArea (P.getD mid 0) (P.getD r 0) x ∧ x ∈ {p | p ∈ P} := by
          intro x hx
          obtain ⟨i, hi, rfl⟩ := List.mem_map.mp hx
          exact ⟨((hrmem i).mp (pr.sub hi)).2, getD_mem P i ((hrmem i).mp (pr.sub hi)).1⟩
        rw [List.map_append, List.map_cons, List.nodup_append, List.nodup_cons]
        refine ⟨pl.nodup, ⟨fun h => ?_, pr.nodup⟩, ?_⟩
        · have := (hro_pos _ h).1
          rw [area_self_left] at this
          exact absurd this (lt_irrefl _)
        · intro x hx y hy hxy
          subst hxy
          have h1 := hlo_pos x hx
          rcases List.mem_cons.mp hy with rfl | hy
          · rw [area_self_right] at h1
            exact absurd h1 (lt_irrefl _)
          · obtain ⟨h2, h3⟩ := hro_pos x hy
            have := hmaxA x h3
            have := area_sum (P.getD l 0) (P.getD mid 0) (P.getD r 0) x
            linarith

end Verif.Hull2d
