import Mathlib.LinearAlgebra.FiniteDimensional.Basic
import Mathlib.LinearAlgebra.Dimension.Constructions
import Mathlib.Tactic.LinearCombination
import Verif.Seb.WelzlModel
import Verif.Seb.BallProps
import Verif.Seb.PrefixProps

set_option linter.unusedSectionVars false
set_option linter.unusedVariables false

/-! Smallest enclosing balls with prescribed boundary points, and correctness of Welzl's recursion. -/

namespace Verif.Seb

variable {K : Type} [Field K] [LinearOrder K] [IsStrictOrderedRing K] {dim : ℕ}

/-- The ball with centre `c` and squared radius `ρ` contains `P` and has `S` on its boundary. -/
def Feas (P S : List (Point K dim)) (c : Point K dim) (ρ : K) : Prop :=
  (∀ p ∈ P, distSqr p c ≤ ρ) ∧ ∀ s ∈ S, distSqr s c = ρ

/-- Smallest among these balls. -/
def Mb (P S : List (Point K dim)) (c : Point K dim) (ρ : K) : Prop :=
  Feas P S c ρ ∧ ∀ c' ρ', Feas P S c' ρ' → ρ ≤ ρ'

theorem Feas.mono {P P' S S' : List (Point K dim)} {c : Point K dim} {ρ : K} (h : Feas P S c ρ) (hP : P' ⊆ P)
    (hS : S' ⊆ S) : Feas P' S' c ρ :=
  ⟨fun p hp => h.1 p (hP hp), fun s hs => h.2 s (hS hs)⟩

/-- Squared distances to a point between two centres. -/
theorem distSqr_mix (x c0 c1 : Point K dim) (t : K) :
    distSqr x (fun i => (1 - t) * c0 i + t * c1 i) =
      (1 - t) * distSqr x c0 + t * distSqr x c1 - t * (1 - t) * distSqr c0 c1 := by
  unfold distSqr
  rw [Finset.mul_sum, Finset.mul_sum, Finset.mul_sum, ← Finset.sum_add_distrib, ← Finset.sum_sub_distrib]
  exact Finset.sum_congr rfl fun i _ => by ring

/-- The ball between `D0` (smallest for `P`, without `p`) and any ball for `P` and `p` that has `p` on its boundary. -/
theorem exists_mix {P S : List (Point K dim)} {p c0 c1 : Point K dim} {ρ0 ρ1 : K} (h0 : Mb P S c0 ρ0)
    (hp : ρ0 < distSqr p c0) (h1 : Feas (P ++ [p]) S c1 ρ1) :
    ∃ c ρ, Feas P (S ++ [p]) c ρ ∧ ρ ≤ ρ1 := by
  have h1P : Feas P S c1 ρ1 := h1.mono (by simp) (by simp)
  have h1p : distSqr p c1 ≤ ρ1 := h1.1 p (by simp)
  have hle := h0.2 c1 ρ1 h1P
  have hden : 0 < (distSqr p c0 - ρ0) + (ρ1 - distSqr p c1) := by linarith
  obtain ⟨t, ht⟩ : ∃ t, t = (distSqr p c0 - ρ0) / ((distSqr p c0 - ρ0) + (ρ1 - distSqr p c1)) := ⟨_, rfl⟩
  have ht0 : 0 ≤ t := by
    rw [ht]
    exact div_nonneg (by linarith) hden.le
  have ht1 : t ≤ 1 := by
    rw [ht, div_le_one hden]
    linarith
  have htp : (1 - t) * (distSqr p c0 - ρ0) + t * (distSqr p c1 - ρ1) = 0 := by
    have : t * ((distSqr p c0 - ρ0) + (ρ1 - distSqr p c1)) = distSqr p c0 - ρ0 := by
      rw [ht, div_mul_cancel₀ _ hden.ne']
    linear_combination -this
  have hd := distSqr_nonneg c0 c1
  have ht2 : 0 ≤ t * (1 - t) := mul_nonneg ht0 (by linarith)
  refine ⟨fun i => (1 - t) * c0 i + t * c1 i, (1 - t) * ρ0 + t * ρ1 - t * (1 - t) * distSqr c0 c1, ⟨?_, ?_⟩, ?_⟩
  · intro x hx
    rw [distSqr_mix]
    have e0 := h0.1.1 x hx
    have e1 := h1P.1 x hx
    have := mul_le_mul_of_nonneg_left e0 (show 0 ≤ 1 - t by linarith)
    have := mul_le_mul_of_nonneg_left e1 ht0
    linarith
  · intro x hx
    rw [distSqr_mix]
    rcases List.mem_append.mp hx with hx | hx
    · rw [h0.1.2 x hx, h1P.2 x hx]
    · rw [List.mem_singleton.mp hx]
      linear_combination htp
  · have := mul_nonneg ht2 hd
    have := mul_le_mul_of_nonneg_left hle (show 0 ≤ 1 - t by linarith)
    linarith

theorem conflict_feas {P S : List (Point K dim)} {p c0 : Point K dim} {ρ0 : K} (h0 : Mb P S c0 ρ0)
    (hp : ρ0 < distSqr p c0) (h1 : ∃ c ρ, Feas (P ++ [p]) S c ρ) : ∃ c ρ, Feas P (S ++ [p]) c ρ := by
  obtain ⟨c1, ρ1, h1⟩ := h1
  obtain ⟨c, ρ, h, _⟩ := exists_mix h0 hp h1
  exact ⟨c, ρ, h⟩

/-- A conflicting point is on the boundary of the new smallest ball. -/
theorem conflict_mb {P S : List (Point K dim)} {p c0 c : Point K dim} {ρ0 ρ : K} (h0 : Mb P S c0 ρ0)
    (hp : ρ0 < distSqr p c0) (h : Mb P (S ++ [p]) c ρ) : Mb (P ++ [p]) S c ρ := by
  refine ⟨⟨?_, fun s hs => h.1.2 s (by simp [hs])⟩, ?_⟩
  · intro x hx
    rcases List.mem_append.mp hx with hx | hx
    · exact h.1.1 x hx
    · exact (h.1.2 x (by simp [List.mem_singleton.mp hx])).le
  · intro c1 ρ1 h1
    obtain ⟨c', ρ', h', hle⟩ := exists_mix h0 hp h1
    exact le_trans (h.2 c' ρ' h') hle

/-- A conflicting point is affinely independent of the boundary points. -/
theorem conflict_indep {P S : List (Point K dim)} {p c0 : Point K dim} {ρ0 : K} (hS : AffIndep S)
    (h0 : Feas P S c0 ρ0) (hp : ρ0 < distSqr p c0) (h1 : ∃ c ρ, Feas (P ++ [p]) S c ρ) : AffIndep (S ++ [p]) := by
  obtain ⟨c1, ρ1, h1⟩ := h1
  have h1p : distSqr p c1 ≤ ρ1 := h1.1 p (by simp)
  intro w hw0 hw1
  rw [List.length_append, List.length_singleton] at *
  have hget : ∀ i < S.length, (S ++ [p]).getD i 0 = S.getD i 0 := fun i hi => List.getD_append _ _ _ _ hi
  have hlast : (S ++ [p]).getD S.length 0 = p := by
    rw [List.getD_append_right _ _ _ _ le_rfl]
    simp
  -- the difference of the two balls is an affine function
  have hg : ∀ x : Point K dim, (distSqr x c0 - ρ0) - (distSqr x c1 - ρ1) =
      (∑ i, 2 * (c1 i - c0 i) * x i) + ((distSqr 0 c0 - ρ0) - (distSqr 0 c1 - ρ1)) := by
    intro x
    have : distSqr x c0 - distSqr x c1 = (∑ i, 2 * (c1 i - c0 i) * x i) + (distSqr 0 c0 - distSqr 0 c1) := by
      unfold distSqr
      rw [← Finset.sum_sub_distrib, ← Finset.sum_sub_distrib, ← Finset.sum_add_distrib]
      exact Finset.sum_congr rfl fun i _ => by
        simp only [Pi.zero_apply]
        ring
    linear_combination this
  have hsum : ∑ i ∈ Finset.range (S.length + 1), w i * ((distSqr ((S ++ [p]).getD i 0) c0 - ρ0) -
      (distSqr ((S ++ [p]).getD i 0) c1 - ρ1)) = 0 := by
    rw [Finset.sum_congr rfl fun i _ => by rw [hg ((S ++ [p]).getD i 0), mul_add]]
    rw [Finset.sum_add_distrib, ← Finset.sum_mul, hw0, zero_mul, add_zero]
    simp_rw [Finset.mul_sum]
    rw [Finset.sum_comm]
    refine Finset.sum_eq_zero fun x _ => ?_
    have := hw1 x
    rw [← mul_zero (2 * (c1 x - c0 x)), ← this, Finset.mul_sum]
    exact Finset.sum_congr rfl fun i _ => by ring
  rw [Finset.sum_range_succ, hlast, Finset.sum_eq_zero, zero_add] at hsum
  · have hwl : w S.length = 0 := by
      rcases mul_eq_zero.mp hsum with h | h
      · exact h
      · linarith
    rw [Finset.sum_range_succ, hwl, add_zero] at hw0
    have := hS w hw0 (fun x => by
      have h := hw1 x
      rw [Finset.sum_range_succ, hwl, zero_mul, add_zero] at h
      rw [← h]
      exact Finset.sum_congr rfl fun i hi => by rw [hget i (Finset.mem_range.mp hi)])
    intro i hi
    rcases Nat.lt_succ_iff_lt_or_eq.mp hi with h | h
    · exact this i h
    · rw [h, hwl]
  · intro i hi
    rw [Finset.mem_range] at hi
    rw [hget i hi]
    have hm : S.getD i 0 ∈ S := by
      rw [List.getD_eq_getElem _ _ hi]
      exact List.getElem_mem hi
    rw [h0.2 _ hm, h1.2 _ hm]
    ring

theorem affIndep_nil : AffIndep ([] : List (Point K dim)) := by
  intro w _ _ i hi
  simp at hi

/-- `dim` independent vectors: only zero is orthogonal to all of them. -/
theorem orth_zero (q : ℕ → Point K dim) (h : VIndep q dim) (u : Point K dim)
    (hu : ∀ i < dim, dot (q i) u = 0) : u = 0 := by
  have hli : LinearIndependent K (fun i : Fin dim => q i) := by
    rw [Fintype.linearIndependent_iff]
    intro g hg i
    have := h (fun j => if hj : j < dim then g ⟨j, hj⟩ else 0) (fun x => ?_) i i.2
    · simpa using this
    · rw [Finset.sum_range]
      have := congrFun hg x
      rw [Finset.sum_apply] at this
      rw [← Pi.zero_apply (M := fun _ : Fin dim => K) x, ← this]
      exact Finset.sum_congr rfl fun j _ => by simp
  have hspan : Submodule.span K (Set.range fun i : Fin dim => q i) = ⊤ :=
    hli.span_eq_top_of_card_eq_finrank' (by simp)
  have hmem : u ∈ Submodule.span K (Set.range fun i : Fin dim => q i) := by
    rw [hspan]
    trivial
  have hall : ∀ v ∈ Submodule.span K (Set.range fun i : Fin dim => q i), dot v u = 0 := by
    intro v hv
    induction hv using Submodule.span_induction with
    | mem x hx =>
      obtain ⟨i, rfl⟩ := hx
      exact hu i i.2
    | zero => simp [dot]
    | add x y _ _ hx hy =>
      have := dot_add_left x y u
      rw [hx, hy, add_zero] at this
      exact this
    | smul a x _ hx =>
      have : dot (a • x) u = a * dot x u := by
        unfold dot
        rw [Finset.mul_sum]
        exact Finset.sum_congr rfl fun i _ => by
          simp only [Pi.smul_apply, smul_eq_mul]
          ring
      rw [this, hx, mul_zero]
  have := hall u hmem
  rw [dot_self_eq_zero] at this
  exact funext this

/-- Equidistant centres of `dim + 1` independent points agree. -/
theorem centre_unique (S : List (Point K dim)) (hS : AffIndep S) (hl : S.length = dim + 1) (c c' : Point K dim)
    (r ρ : K) (h1 : ∀ s ∈ S, distSqr s c = r) (h2 : ∀ s ∈ S, distSqr s c' = ρ) : c' = c := by
  have hq := hS.diffs
  rw [hl, Nat.add_sub_cancel] at hq
  have hm : ∀ k < S.length, S.getD k 0 ∈ S := fun k hk => by
    rw [List.getD_eq_getElem _ _ hk]
    exact List.getElem_mem hk
  have := orth_zero _ hq (fun x => c' x - c x) fun i hi => by
    have e : ∀ p o d d' : Point K dim, 2 * dot (fun x => p x - o x) (fun x => d' x - d x) =
        (distSqr p d - distSqr o d) - (distSqr p d' - distSqr o d') := by
      intro p o d d'
      unfold distSqr dot
      rw [Finset.mul_sum, ← Finset.sum_sub_distrib, ← Finset.sum_sub_distrib, ← Finset.sum_sub_distrib]
      exact Finset.sum_congr rfl fun i _ => by ring
    have := e (S.getD (i + 1) 0) (S.getD 0 0) c c'
    rw [h1 _ (hm _ (by omega)), h1 _ (hm 0 (by omega)), h2 _ (hm _ (by omega)), h2 _ (hm 0 (by omega)), sub_self,
      sub_self, sub_zero] at this
    rcases mul_eq_zero.mp this with h | h
    · exact absurd h two_ne_zero
    · exact h
  funext x
  have := congrFun this x
  simp only [Pi.zero_apply] at this
  linarith

/-! ### Lists -/

theorem swapAt_perm (P : List (Point K dim)) (i j : ℕ) (hi : i < P.length) (hj : j < P.length) :
    (swapAt P i j).Perm P := by
  unfold swapAt
  rw [List.getD_eq_getElem _ _ hi, List.getD_eq_getElem _ _ hj]
  exact List.set_set_perm hi hj

theorem swapAt_take (P : List (Point K dim)) (i j m : ℕ) (hi : i < m) (hj : j < m) :
    (swapAt P i j).take m = swapAt (P.take m) i j := by
  have e1 : (P.take m).getD j 0 = P.getD j 0 := by simp [List.getD_eq_getElem?_getD, List.getElem?_take, hj]
  have e2 : (P.take m).getD i 0 = P.getD i 0 := by simp [List.getD_eq_getElem?_getD, List.getElem?_take, hi]
  unfold swapAt
  rw [e1, e2, List.take_set, List.take_set]

theorem swapAt_take_lt (P : List (Point K dim)) (i j m : ℕ) (hi : m ≤ i) (hj : m ≤ j) :
    (swapAt P i j).take m = P.take m := by
  unfold swapAt
  rw [List.take_set, List.take_set, List.set_eq_of_length_le (by simp; omega), List.set_eq_of_length_le (by simp; omega)]

theorem swapAt_get (P : List (Point K dim)) (i j : ℕ) (hi : i < P.length) (hj : j < P.length) :
    (swapAt P i j).getD j 0 = P.getD i 0 := by
  unfold swapAt
  rw [List.getD_eq_getElem _ _ (by simpa using hj), List.getElem_set_self]

/-! ### The recursion -/

/-- `contain` without epsilon is exact containment. -/
theorem contain_zero (B : Ball K dim) (p : Point K dim) :
    B.contain 0 p = true ↔ distSqr p B.center ≤ B.r2 := by
  unfold Ball.contain within
  simp only [distSqr_shift, Bool.or_eq_true, decide_eq_true_eq, mul_zero, zero_mul, sub_zero]
  show _ ↔ distSqr p (fun x => B.c x + B.off x) ≤ _
  constructor
  · rintro (h | h)
    · linarith
    · have := mul_self_nonneg (distSqr p (fun x => B.c x + B.off x) - B.r2)
      have := mul_self_eq_zero.mp (le_antisymm h this)
      linarith
  · intro h
    left
    linarith

/-- The support of a ball certifies it: the support points are on the boundary, those behind `S` come from `P`, and the
centre is an affine combination with non-negative weights on the latter. -/
structure Cert (P S : List (Point K dim)) (B : Ball K dim) : Prop where
  split : ∃ T, B.sup = S ++ T ∧ T ⊆ P
  bound : ∀ s ∈ B.sup, distSqr s B.center = B.r2
  comb : ∃ w : ℕ → K, ∑ i ∈ Finset.range B.sup.length, w i = 1 ∧
    (∀ x, B.center x = ∑ i ∈ Finset.range B.sup.length, w i * B.sup.getD i 0 x) ∧
    ∀ i, S.length ≤ i → i < B.sup.length → 0 ≤ w i

/-- Weighted sums of affine functions. -/
theorem affine_comb (c0 c1 : Point K dim) (ρ0 ρ1 : K) (L : List (Point K dim)) (w : ℕ → K) (c : Point K dim)
    (h1 : ∑ i ∈ Finset.range L.length, w i = 1)
    (h2 : ∀ x, c x = ∑ i ∈ Finset.range L.length, w i * L.getD i 0 x) :
    (distSqr c c0 - ρ0) - (distSqr c c1 - ρ1) = ∑ i ∈ Finset.range L.length,
      w i * ((distSqr (L.getD i 0) c0 - ρ0) - (distSqr (L.getD i 0) c1 - ρ1)) := by
  have hg : ∀ x : Point K dim, (distSqr x c0 - ρ0) - (distSqr x c1 - ρ1) =
      (∑ i, 2 * (c1 i - c0 i) * x i) + ((distSqr 0 c0 - ρ0) - (distSqr 0 c1 - ρ1)) := by
    intro x
    have : distSqr x c0 - distSqr x c1 = (∑ i, 2 * (c1 i - c0 i) * x i) + (distSqr 0 c0 - distSqr 0 c1) := by
      unfold distSqr
      rw [← Finset.sum_sub_distrib, ← Finset.sum_sub_distrib, ← Finset.sum_add_distrib]
      exact Finset.sum_congr rfl fun i _ => by
        simp only [Pi.zero_apply]
        ring
    linear_combination this
  have hr : ∑ i ∈ Finset.range L.length, w i * ((distSqr (L.getD i 0) c0 - ρ0) - (distSqr (L.getD i 0) c1 - ρ1)) =
      ∑ i ∈ Finset.range L.length, (w i * (∑ x, 2 * (c1 x - c0 x) * L.getD i 0 x) +
        w i * ((distSqr 0 c0 - ρ0) - (distSqr 0 c1 - ρ1))) :=
    Finset.sum_congr rfl fun i _ => by rw [hg (L.getD i 0), mul_add]
  rw [hr, hg c, Finset.sum_add_distrib, ← Finset.sum_mul, h1, one_mul]
  congr 1
  simp_rw [Finset.mul_sum]
  rw [Finset.sum_comm]
  refine Finset.sum_congr rfl fun x _ => ?_
  rw [h2 x, Finset.mul_sum]
  exact Finset.sum_congr rfl fun i _ => by ring

/-- The weight of a conflicting point is not negative either. -/
theorem conflict_cert {P S : List (Point K dim)} {p c0 : Point K dim} {ρ0 : K} {B : Ball K dim} (h0 : Mb P S c0 ρ0)
    (hp : ρ0 < distSqr p c0) (h : Mb P (S ++ [p]) B.center B.r2) (hC : Cert P (S ++ [p]) B) :
    Cert (P ++ [p]) S B := by
  obtain ⟨T, hT, hTP⟩ := hC.split
  obtain ⟨w, hw1, hw2, hw3⟩ := hC.comb
  refine ⟨⟨[p] ++ T, by rw [hT, List.append_assoc], ?_⟩, hC.bound, w, hw1, hw2, ?_⟩
  · intro x hx
    rcases List.mem_append.mp hx with hx | hx
    · exact List.mem_append_right _ hx
    · exact List.mem_append_left _ (hTP hx)
  have hlen : B.sup.length = S.length + 1 + T.length := by rw [hT]; simp; omega
  have hgetS : ∀ i < S.length, B.sup.getD i 0 ∈ S := by
    intro i hi
    rw [hT, List.append_assoc, List.getD_append _ _ _ _ hi, List.getD_eq_getElem _ _ hi]
    exact List.getElem_mem hi
  have hgetp : B.sup.getD S.length 0 = p := by
    rw [hT, List.append_assoc, List.getD_append_right _ _ _ _ le_rfl]
    simp
  have hgetT : ∀ i, S.length + 1 ≤ i → i < B.sup.length → B.sup.getD i 0 ∈ T := by
    intro i hi hi2
    rw [hT, List.getD_append_right _ _ _ _ (by simpa using hi), List.getD_eq_getElem _ _ (by simp; omega)]
    exact List.getElem_mem _
  have key := affine_comb c0 B.center ρ0 B.r2 B.sup w B.center hw1 hw2
  have hself : distSqr B.center B.center = 0 := distSqr_eq_zero.mpr rfl
  have hρ : ρ0 ≤ B.r2 := h0.2 _ _ (h.1.mono (by simp) (by simp))
  have hge : 0 ≤ (distSqr B.center c0 - ρ0) - (distSqr B.center B.center - B.r2) := by
    rw [hself]
    have := distSqr_nonneg B.center c0
    linarith
  rw [key] at hge
  have hmem : ∀ i ∈ Finset.range B.sup.length, B.sup.getD i 0 ∈ B.sup := by
    intro i hi
    have hi := Finset.mem_range.mp hi
    rw [List.getD_eq_getElem _ _ hi]
    exact List.getElem_mem hi
  have hle : ∑ i ∈ Finset.range B.sup.length,
      w i * ((distSqr (B.sup.getD i 0) c0 - ρ0) - (distSqr (B.sup.getD i 0) B.center - B.r2)) ≤
      ∑ i ∈ Finset.range B.sup.length, if i = S.length then w i * (distSqr p c0 - ρ0) else 0 := by
    refine Finset.sum_le_sum fun i hi => ?_
    rw [hC.bound _ (hmem i hi), sub_self, sub_zero]
    have hi' := Finset.mem_range.mp hi
    by_cases h1 : i = S.length
    · rw [if_pos h1, h1, hgetp]
    · rw [if_neg h1]
      rcases Nat.lt_or_ge i S.length with h2 | h2
      · rw [h0.1.2 _ (hgetS i h2), sub_self, mul_zero]
      · have hT1 := hgetT i (by omega) hi'
        have := h0.1.1 _ (hTP hT1)
        exact mul_nonpos_of_nonneg_of_nonpos (hw3 i (by simp; omega) hi') (by linarith)
  rw [Finset.sum_ite_eq', if_pos (Finset.mem_range.mpr (by omega))] at hle
  intro i hi1 hi2
  rcases Nat.lt_or_ge S.length i with h1 | h1
  · exact hw3 i (by simp; omega) hi2
  · have : i = S.length := by omega
    rw [this]
    by_contra hneg
    have := mul_neg_of_neg_of_pos (not_le.mp hneg) (show 0 < distSqr p c0 - ρ0 by linarith)
    linarith

theorem Cert.mono {P P' S : List (Point K dim)} {B : Ball K dim} (h : Cert P S B) (hP : P ⊆ P') : Cert P' S B := by
  obtain ⟨T, hT, hTP⟩ := h.split
  exact ⟨⟨T, hT, fun x hx => hP (hTP hx)⟩, h.bound, h.comb⟩

/-- Without prescribed boundary points the ball is the smallest one of its own support. -/
theorem Cert.sup_mb {P : List (Point K dim)} {B : Ball K dim} (h : Cert P [] B) : Mb B.sup [] B.center B.r2 := by
  refine ⟨⟨fun p hp => (h.bound p hp).le, by simp⟩, fun c' ρ' hf => ?_⟩
  obtain ⟨w, hw1, hw2, hw3⟩ := h.comb
  have key := affine_comb c' B.center ρ' B.r2 B.sup w B.center hw1 hw2
  rw [distSqr_eq_zero.mpr rfl] at key
  have hmem : ∀ i ∈ Finset.range B.sup.length, B.sup.getD i 0 ∈ B.sup := by
    intro i hi
    have hi := Finset.mem_range.mp hi
    rw [List.getD_eq_getElem _ _ hi]
    exact List.getElem_mem hi
  have hle : ∑ i ∈ Finset.range B.sup.length,
      w i * ((distSqr (B.sup.getD i 0) c' - ρ') - (distSqr (B.sup.getD i 0) B.center - B.r2)) ≤ 0 := by
    refine Finset.sum_nonpos fun i hi => ?_
    rw [h.bound _ (hmem i hi), sub_self, sub_zero]
    have := hf.1 _ (hmem i hi)
    exact mul_nonpos_of_nonneg_of_nonpos (hw3 i (by simp) (Finset.mem_range.mp hi)) (by linarith)
  have := distSqr_nonneg B.center c'
  linarith

/-- What a call promises; `ub` tells whether undefined behaviour is a possible outcome. -/
def Out (ub : Prop) (P S : List (Point K dim)) (r : St K dim) : Prop :=
  (ub ∧ r = .error .ub) ∨ ∃ B Q, r = .ok (B, Q) ∧ Q.Perm P ∧ Mb P S B.center B.r2 ∧ Cert P S B

/-- What a call needs. -/
structure Pre (P S : List (Point K dim)) : Prop where
  indep : AffIndep S
  le : S.length ≤ dim + 1
  two : 2 ≤ P.length + S.length
  feas : ∃ c ρ, Feas P S c ρ

/-- What the search for pivots promises. -/
def PivOK (ub : Prop) (V : Variant K dim) : Prop :=
  ∀ P B s, (ub ∧ V.piv P B s = .error .ub) ∨ V.piv P B s = .ok none ∨
    ∃ ii, V.piv P B s = .ok (some ii) ∧ s ≤ ii ∧ ii < P.length ∧ B.r2 < distSqr (P.getD ii 0) B.center

/-- States of the loop: the ball is the smallest one of some prefix. -/
def LoopInv (ub : Prop) (P0 S : List (Point K dim)) (s : St K dim) : Prop :=
  (ub ∧ s = .error .ub) ∨ ∃ B P, s = .ok (B, P) ∧ P.Perm P0 ∧
    ∃ m ≤ P.length, 2 ≤ m + S.length ∧ Mb (P.take m) S B.center B.r2 ∧ Cert (P.take m) S B

theorem cleanUp_ok (ub : Prop) (V : Variant K dim) (hV : PivOK ub V)
    (call : List (Point K dim) → List (Point K dim) → St K dim) (P0 S : List (Point K dim)) (hpre : Pre P0 S)
    (hS : S.length ≤ dim) (hcall : ∀ P' S', P'.length < P0.length → Pre P' S' → Out ub P' S' (call P' S'))
    (i : ℕ) (hi : i < P0.length) (s : St K dim) (hI : LoopInv ub P0 S s)
    (hno : ∀ j < i, conflict 0 s j = false) (hc : conflict 0 s i = true) :
    LoopInv ub P0 S (cleanUp V call S i s) ∧ ∀ j ≤ i, conflict 0 (cleanUp V call S i s) j = false := by
  rcases hI with ⟨_, rfl⟩ | ⟨B, P, rfl, hperm, m, hm, hm2, hmb, hcert⟩
  · simp [conflict] at hc
  have hlen : P.length = P0.length := hperm.length_eq
  have hiP : i < P.length := by omega
  have hcont : ∀ j (hj : j < P.length), conflict 0 (.ok (B, P)) j = false ↔ distSqr P[j] B.center ≤ B.r2 := by
    intro j hj
    rw [← contain_zero]
    simp [conflict, List.getElem?_eq_getElem hj]
  have hout : B.r2 < distSqr P[i] B.center := by
    by_contra h
    rw [(hcont i hiP).mpr (not_lt.mp h)] at hc
    cases hc
  have hmi : m ≤ i := by
    by_contra h
    have : P[i] ∈ P.take m := by
      rw [List.mem_take_iff_getElem]
      exact ⟨i, by omega, rfl⟩
    exact absurd (hmb.1.1 _ this) (not_le.mpr hout)
  -- the ball is the smallest one of the whole prefix
  have hmbi : Mb (P.take i) S B.center B.r2 := by
    refine ⟨⟨?_, hmb.1.2⟩, ?_⟩
    · intro p hp
      obtain ⟨j, hj, rfl⟩ := List.mem_take_iff_getElem.mp hp
      exact (hcont j (by omega)).mp (hno j (by omega))
    · intro c' ρ' h
      exact hmb.2 c' ρ' (h.mono (List.take_subset_take_left _ hmi) (by simp))
  obtain ⟨cF, ρF, hF⟩ := hpre.feas
  unfold cleanUp
  simp only [Except.bind]
  -- after the pivot
  have hpiv : (ub ∧ V.piv P B (i + 1) = .error .ub) ∨ ∃ o P1, V.piv P B (i + 1) = .ok o ∧
      pivotSwap P o i = P1 ∧ P1.Perm P ∧ P1.take i = P.take i ∧ B.r2 < distSqr (P1.getD i 0) B.center := by
    rcases hV P B (i + 1) with h | h | ⟨ii, h, h1, h2, h3⟩
    · exact Or.inl h
    · exact Or.inr ⟨none, P, h, rfl, List.Perm.refl _, rfl, by rwa [List.getD_eq_getElem _ _ hiP]⟩
    · refine Or.inr ⟨some ii, _, h, rfl, swapAt_perm _ _ _ h2 hiP, swapAt_take_lt _ _ _ _ (by omega) le_rfl, ?_⟩
      have := swapAt_get P ii i h2 hiP
      show B.r2 < distSqr ((swapAt P ii i).getD i 0) B.center
      rwa [this]
  rcases hpiv with ⟨hub, h⟩ | ⟨o, P1, h, hP1, hperm1, htake, hout1⟩
  · rw [h]
    refine ⟨Or.inl ⟨hub, rfl⟩, fun j _ => rfl⟩
  rw [h]
  simp only [hP1]
  have hlen1 : P1.length = P.length := hperm1.length_eq
  have hp1 : P1.take (i + 1) = P.take i ++ [P1.getD i 0] := by
    rw [List.take_add_one, htake, List.getD_eq_getElem _ _ (by omega), List.getElem?_eq_getElem (by omega)]
    rfl
  have hgrow : (if S.length = B.sup.length then (B.grow (P1.getD i 0)).map fun _ => () else .ok ()) =
      (.ok () : Except Err Unit) := by
    split
    · rename_i h
      unfold Ball.grow
      rw [if_neg (by omega)]
      simp only []
      split <;> rfl
    · rfl
  rw [hgrow]
  simp only []
  have hFi : ∃ c ρ, Feas (P.take i ++ [P1.getD i 0]) S c ρ := by
    refine ⟨cF, ρF, hF.mono ?_ (by simp)⟩
    rw [← hp1]
    intro x hx
    exact hperm.subset (hperm1.subset (List.mem_of_mem_take hx))
  have hpre' : Pre (P1.take i) (S ++ [P1.getD i 0]) :=
    { indep := conflict_indep hpre.indep hmbi.1 hout1 hFi
      le := by
        rw [List.length_append, List.length_singleton]
        omega
      two := by
        rw [List.length_append, List.length_singleton, List.length_take]
        omega
      feas := by
        rw [htake]
        exact conflict_feas hmbi hout1 hFi }
  rcases hcall (P1.take i) (S ++ [P1.getD i 0]) (by rw [List.length_take]; omega) hpre' with
    ⟨hub, hr⟩ | ⟨B', Q, hr, hQ, hmb', hcert'⟩
  · rw [hr]
    refine ⟨Or.inl ⟨hub, rfl⟩, fun j _ => rfl⟩
  rw [hr]
  simp only [Except.map]
  have hQl : Q.length = i := by
    rw [hQ.length_eq, List.length_take]
    omega
  -- the array after the call
  have hP2 : (Q ++ P1.drop i).Perm P1 := by
    have := hQ.append_right (P1.drop i)
    rwa [List.take_append_drop] at this
  have hP2t : ((Q ++ P1.drop i).take (i + 1)).Perm (P.take i ++ [P1.getD i 0]) := by
    rw [← hp1]
    have e : (Q ++ P1.drop i).take (i + 1) = Q ++ (P1.drop i).take 1 := by
      rw [List.take_append, hQl, List.take_of_length_le (by omega)]
      simp
    have e2 : P1.take (i + 1) = P1.take i ++ (P1.drop i).take 1 := by
      rw [← List.take_add]
    rw [e, e2]
    exact hQ.append_right _
  have hP3 : ∃ P3, (if V.mtf = true ∧ dim - S.length < i then swapAt (Q ++ P1.drop i) (dim - S.length) i
      else Q ++ P1.drop i) = P3 ∧ P3.Perm P1 ∧ (P3.take (i + 1)).Perm (P.take i ++ [P1.getD i 0]) := by
    refine ⟨_, rfl, ?_⟩
    split
    · rename_i hsw
      have hl2 : (Q ++ P1.drop i).length = P.length := by rw [hP2.length_eq, hlen1]
      refine ⟨(swapAt_perm _ _ _ (by omega) (by omega)).trans hP2, ?_⟩
      rw [swapAt_take _ _ _ _ (by omega) (by omega)]
      exact (swapAt_perm _ _ _ (by simp; omega) (by simp; omega)).trans hP2t
    · exact ⟨hP2, hP2t⟩
  obtain ⟨P3, hP3, hP3p, hP3t⟩ := hP3
  rw [hP3]
  have hmbn : Mb (P3.take (i + 1)) S B'.center B'.r2 := by
    rw [htake] at hmb'
    have h := conflict_mb hmbi hout1 hmb'
    refine ⟨h.1.mono hP3t.subset (by simp), fun c' ρ' hf => h.2 c' ρ' (hf.mono hP3t.symm.subset (by simp))⟩
  have hcertn : Cert (P3.take (i + 1)) S B' := by
    rw [htake] at hmb' hcert'
    exact (conflict_cert hmbi hout1 hmb' hcert').mono hP3t.symm.subset
  have hl3 : P3.length = P.length := by rw [hP3p.length_eq, hlen1]
  refine ⟨Or.inr ⟨B', P3, rfl, (hP3p.trans hperm1).trans hperm, i + 1, by omega, by omega, hmbn, hcertn⟩, ?_⟩
  intro j hj
  have hj3 : j < P3.length := by omega
  have : B'.contain 0 P3[j] = true := by
    rw [contain_zero]
    apply hmbn.1.1
    rw [List.mem_take_iff_getElem]
    exact ⟨j, by omega, rfl⟩
  simp [conflict, List.getElem?_eq_getElem hj3, this]

theorem ball_two_mb (junk : ℕ → K) (p q : Point K dim) (hd : 2 ≤ dim) :
    ∃ B, mkBall junk [p, q] = .ok B ∧ B.sup = [p, q] ∧ (∃ w : ℕ → K, ∑ i ∈ Finset.range B.sup.length, w i = 1 ∧
        (∀ x, B.center x = ∑ i ∈ Finset.range B.sup.length, w i * B.sup.getD i 0 x) ∧ ∀ i, 0 ≤ w i) ∧ distSqr p B.center = B.r2 ∧ distSqr q B.center = B.r2 ∧
      ∀ c ρ, distSqr p c ≤ ρ → distSqr q c ≤ ρ → B.r2 ≤ ρ := by
  obtain ⟨B, g, hs, hc, hr⟩ := mkBall_two junk p q (by omega)
  refine ⟨B, g, hs, ⟨fun _ => 1 / 2, ?_, fun x => ?_, fun i => by positivity⟩, ?_, ?_, ?_⟩
  · rw [hs]
    simp [Finset.sum_range_succ]
  · rw [hc, hs]
    simp only [List.length_cons, List.length_nil, Nat.zero_add, Nat.reduceAdd, Finset.sum_range_succ,
      Finset.sum_range_zero, List.getD_cons_zero, List.getD_cons_succ]
    ring
  · rw [hc, hr]
    unfold distSqr
    rw [Finset.sum_div]
    exact Finset.sum_congr rfl fun i _ => by ring
  · rw [hc, hr]
    unfold distSqr
    rw [Finset.sum_div]
    exact Finset.sum_congr rfl fun i _ => by ring
  · intro c ρ h1 h2
    have e : distSqr p c + distSqr q c = 2 * (distSqr p q / 4 + distSqr (fun x => (p x + q x) / 2) c) := by
      unfold distSqr
      rw [Finset.sum_div, ← Finset.sum_add_distrib, ← Finset.sum_add_distrib, Finset.mul_sum]
      exact Finset.sum_congr rfl fun i _ => by ring
    have := distSqr_nonneg (fun x => (p x + q x) / 2) c
    rw [hr]
    linarith

/-- The first ball: final if it has `dim + 1` support points, otherwise the smallest one of a short prefix. -/
theorem support2Ball_ok (junk : ℕ → K) (P S : List (Point K dim)) (hd : 2 ≤ dim) (hpre : Pre P S) :
    ∃ B, support2Ball junk P S = .ok B ∧ (B.sup.length = dim + 1 → Mb P S B.center B.r2 ∧ Cert P S B) ∧
      (B.sup.length ≠ dim + 1 → S.length ≤ dim ∧
        ∃ m ≤ P.length, 2 ≤ m + S.length ∧ Mb (P.take m) S B.center B.r2 ∧ Cert (P.take m) S B) := by
  have htwo := hpre.two
  match S, hpre with
  | [], hpre =>
    match P, htwo with
    | p :: q :: P', _ =>
      obtain ⟨B, g, hsup, ⟨w, hw1, hw2, hw3⟩, hp, hq, hmin⟩ := ball_two_mb junk p q hd
      have hs : B.sup.length = 2 := by rw [hsup]; rfl
      refine ⟨B, ?_, fun h => by omega, fun _ => ⟨by simp, 2, by simp, by simp, ?_,
        ⟨⟨[p, q], hsup, by simp⟩, ?_, w, hw1, hw2, fun i _ _ => hw3 i⟩⟩⟩
      · show (if (p :: q :: P').length < 2 then Except.error Err.ub else mkBall junk [p, q]) = _
        rw [if_neg (by simp), g]
      · show Mb [p, q] [] B.center B.r2
        refine ⟨⟨fun x hx => ?_, by simp⟩, fun c ρ h => hmin c ρ (h.1 p (by simp)) (h.1 q (by simp))⟩
        rcases List.mem_pair.mp hx with rfl | rfl
        · exact hp.le
        · exact hq.le
      · intro x hx
        rw [hsup] at hx
        rcases List.mem_pair.mp hx with rfl | rfl
        · exact hp
        · exact hq
  | [s], hpre =>
    match P, htwo with
    | p :: P', _ =>
      obtain ⟨B, g, hsup, ⟨w, hw1, hw2, hw3⟩, hp, hq, hmin⟩ := ball_two_mb junk s p hd
      have hs : B.sup.length = 2 := by rw [hsup]; rfl
      refine ⟨B, ?_, fun h => by omega, fun _ => ⟨by simp; omega, 1, by simp, by simp, ?_,
        ⟨⟨[p], hsup, by simp⟩, ?_, w, hw1, hw2, fun i _ _ => hw3 i⟩⟩⟩
      · show (if (p :: P').length < 1 then Except.error Err.ub else mkBall junk [s, p]) = _
        rw [if_neg (by simp), g]
      · show Mb [p] [s] B.center B.r2
        refine ⟨⟨fun x hx => ?_, fun x hx => ?_⟩,
          fun c ρ h => hmin c ρ (h.2 s (by simp)).le (h.1 p (by simp))⟩
        · rw [List.mem_singleton.mp hx]
          exact hq.le
        · rw [List.mem_singleton.mp hx]
          exact hp
      · intro x hx
        rw [hsup] at hx
        rcases List.mem_pair.mp hx with rfl | rfl
        · exact hp
        · exact hq
  | s :: s' :: S', hpre =>
    obtain ⟨B, g, hs, hcirc, hmin, w, hw1, hw2⟩ := c54_construct junk (s :: s' :: S') (by simp) hpre.le hpre.indep
    have hcert : ∀ P', Cert P' (s :: s' :: S') B := by
      intro P'
      refine ⟨⟨[], by simp [hs], by simp⟩, by rw [hs]; exact hcirc, w, by rw [hs]; exact hw1, ?_, fun i h1 h2 => ?_⟩
      · rw [hs]
        exact hw2
      · rw [hs] at h2
        omega
    refine ⟨B, g, ?_, ?_⟩
    · intro hl
      rw [hs] at hl
      refine ⟨?_, hcert P⟩
      obtain ⟨cF, ρF, hF⟩ := hpre.feas
      have hc := centre_unique _ hpre.indep hl B.center cF B.r2 ρF hcirc hF.2
      have hρ : ρF = B.r2 := by rw [← hF.2 s (by simp), hc, hcirc s (by simp)]
      refine ⟨by rw [← hc, ← hρ]; exact hF, fun c' ρ' h => ?_⟩
      rw [hmin c' ρ' h.2]
      linarith [distSqr_nonneg B.center c']
    · intro hl
      have hle := hpre.le
      rw [hs] at hl
      refine ⟨by omega, 0, by omega, by simp, ⟨⟨by simp, hcirc⟩, fun c' ρ' h => ?_⟩, hcert _⟩
      rw [hmin c' ρ' h.2]
      linarith [distSqr_nonneg B.center c']

/-- A loop state without conflicts carries the smallest ball. -/
theorem LoopInv.out {ub : Prop} {P0 S : List (Point K dim)} {s : St K dim} (h : LoopInv ub P0 S s)
    (hno : ∀ j < P0.length, conflict 0 s j = false) : Out ub P0 S s := by
  rcases h with h | ⟨B, P, rfl, hperm, m, hm, hm2, hmb, hcert⟩
  · exact Or.inl h
  · refine Or.inr ⟨B, P, rfl, hperm, ⟨⟨?_, hmb.1.2⟩, ?_⟩,
      hcert.mono fun x hx => hperm.subset (List.mem_of_mem_take hx)⟩
    · intro p hp
      obtain ⟨j, hj, rfl⟩ := List.mem_iff_getElem.mp (hperm.symm.subset hp)
      have := hno j (by rw [← hperm.length_eq]; exact hj)
      rw [← contain_zero]
      simpa [conflict, List.getElem?_eq_getElem hj] using this
    · intro c' ρ' hf
      exact hmb.2 c' ρ' (hf.mono (fun x hx => hperm.subset (List.mem_of_mem_take hx)) (by simp))

theorem welzlSerial_ok (V : Variant K dim) (hV : PivOK False V) (junk : ℕ → K) (hd : 2 ≤ dim) (fuel : ℕ)
    (P S : List (Point K dim)) (hf : P.length < fuel) (hpre : Pre P S) :
    Out False P S (welzlSerial V 0 junk fuel P S) := by
  induction fuel generalizing P S with
  | zero => omega
  | succ fuel ih =>
    rw [welzlSerial]
    obtain ⟨B, g, h1, h2⟩ := support2Ball_ok junk P S hd hpre
    rw [g]
    simp only [Except.bind]
    by_cases hB : B.sup.length = dim + 1
    · rw [if_pos hB]
      exact Or.inr ⟨B, P, rfl, List.Perm.refl _, h1 hB⟩
    · rw [if_neg hB]
      obtain ⟨hS, m, hm, hm2, hmb⟩ := h2 hB
      have := serialFrom_clean_inv (conflict 0) (cleanUp V (welzlSerial V 0 junk fuel) S) P.length
        (LoopInv False P S) (fun i hi s hI hno hc => cleanUp_ok False V hV _ P S hpre hS
          (fun P' S' hl hp => ih P' S' (by omega) hp) i hi s hI hno hc) P.length 0 (.ok (B, P))
        (Or.inr ⟨B, P, rfl, List.Perm.refl _, m, hm, hm2, hmb⟩) (by omega) (by simp)
      rw [Nat.zero_add] at this
      exact this.1.out this.2

theorem Out.weaken {ub : Prop} {P S : List (Point K dim)} {r : St K dim} (h : Out False P S r) : Out ub P S r := by
  rcases h with ⟨h, _⟩ | h
  · exact h.elim
  · exact Or.inr h

theorem welzlParallel_ok (ub : Prop) (V VS : Variant K dim) (hV : PivOK ub V) (hVS : PivOK False VS) (junk : ℕ → K)
    (hd : 2 ≤ dim) (pick : List ℕ → ℕ) (hpick : ∀ L, L ≠ [] → pick L ∈ L) (flagSize fuel : ℕ)
    (P S : List (Point K dim)) (hf : P.length < fuel) (hfl : P.length < flagSize) (hpre : Pre P S) :
    Out ub P S (welzlParallel V VS 0 junk pick flagSize fuel P S) := by
  induction fuel generalizing P S with
  | zero => omega
  | succ fuel ih =>
    rw [welzlParallel]
    by_cases h2000 : P.length < 2000
    · rw [if_pos h2000]
      exact (welzlSerial_ok VS hVS junk hd _ P S (by omega) hpre).weaken
    rw [if_neg h2000]
    obtain ⟨B, g, h1, h2⟩ := support2Ball_ok junk P S hd hpre
    rw [g]
    simp only [Except.bind]
    by_cases hB : B.sup.length = dim + 1
    · rw [if_pos hB]
      exact Or.inr ⟨B, P, rfl, List.Perm.refl _, h1 hB⟩
    · rw [if_neg hB]
      obtain ⟨hS, m, hm, hm2, hmb⟩ := h2 hB
      have H := fun i hi s hI hno hc => cleanUp_ok ub V hV (welzlParallel V VS 0 junk pick flagSize fuel) P S hpre hS
          (fun P' S' hl hp => ih P' S' (by omega) (by omega) hp) i hi s hI hno hc
      have hI : LoopInv ub P S (.ok (B, P)) := Or.inr ⟨B, P, rfl, List.Perm.refl _, m, hm, hm2, hmb⟩
      rw [c35_prefix_eq_serial_inv (conflict 0) (cleanUp V (welzlParallel V VS 0 junk pick flagSize fuel) S) pick hpick
        flagSize P.length 200000 500000 hfl (by omega) (by omega) (LoopInv ub P S) H _ hI]
      have := serialFrom_clean_inv (conflict 0) (cleanUp V (welzlParallel V VS 0 junk pick flagSize fuel) S) P.length
        (LoopInv ub P S) H P.length 0 (.ok (B, P)) hI (by omega) (by simp)
      rw [Nat.zero_add] at this
      exact this.1.out this.2

/-! ### The searches for pivots -/

theorem plain_pivOK (ub : Prop) : PivOK ub (plain : Variant K dim) := fun _ _ _ => Or.inr (Or.inl rfl)

theorem mtf_pivOK (ub : Prop) : PivOK ub (mtf : Variant K dim) := fun _ _ _ => Or.inr (Or.inl rfl)

theorem findPivot_ok (P : List (Point K dim)) (B : Ball K dim) (s : ℕ) : findPivot P B s = none ∨
    ∃ ii, findPivot P B s = some ii ∧ s ≤ ii ∧ ii < P.length ∧ B.r2 < distSqr (P.getD ii 0) B.center := by
  unfold findPivot
  have key : ∀ (L : List ℕ) (acc : Option ℕ × K), (∀ k ∈ L, k < P.length - s) → 0 ≤ acc.2 →
      (acc.1 = none ∨ ∃ ii, acc.1 = some ii ∧ s ≤ ii ∧ ii < P.length ∧ B.r2 < distSqr (P.getD ii 0) B.center) →
      let r := (L.foldl (fun (acc : Option ℕ × K) k =>
        let t := distSqr (P.getD (s + k) 0) B.center - B.r2
        if acc.2 < t then (some (s + k), t) else acc) acc)
      r.1 = none ∨ ∃ ii, r.1 = some ii ∧ s ≤ ii ∧ ii < P.length ∧ B.r2 < distSqr (P.getD ii 0) B.center := by
    intro L
    induction L with
    | nil => intro acc _ _ h; exact h
    | cons k L ih =>
      intro acc hL h0 h
      rw [List.foldl_cons]
      apply ih _ (fun k' hk' => hL k' (by simp [hk']))
      · simp only []
        split
        · rename_i hlt
          exact le_trans h0 hlt.le
        · exact h0
      · simp only []
        split
        · rename_i hlt
          right
          refine ⟨s + k, rfl, by omega, ?_, by linarith⟩
          have := hL k (by simp)
          omega
        · exact h
  exact key _ (none, 0) (fun k hk => List.mem_range.mp hk) le_rfl (Or.inl rfl)

theorem mtfPivot_pivOK (ub : Prop) : PivOK ub (mtfPivot : Variant K dim) := by
  intro P B s
  rcases findPivot_ok P B s with h | ⟨ii, h, h1⟩
  · exact Or.inr (Or.inl (by simp [mtfPivot, h]))
  · exact Or.inr (Or.inr ⟨ii, by simp [mtfPivot, h], h1⟩)

theorem mtfPivotPar_pivOK (mx : List K → ℕ) (hmx : ∀ L, L ≠ [] → mx L < L.length) :
    PivOK True (mtfPivotPar mx : Variant K dim) := by
  intro P B s
  show (True ∧ findPivotPar mx P B s = _) ∨ findPivotPar mx P B s = _ ∨ ∃ ii, findPivotPar mx P B s = _ ∧ _
  unfold findPivotPar
  by_cases h : P.length ≤ s
  · rw [if_pos h]
    exact Or.inl ⟨trivial, rfl⟩
  · rw [if_neg h]
    simp only []
    have hne : ((P.drop s).map fun p => distSqr p B.center) ≠ [] := by
      intro hc
      have := congrArg List.length hc
      simp at this
      omega
    have hlt := hmx _ hne
    set ds := (P.drop s).map fun p => distSqr p B.center with hds
    rw [hds, List.length_map, List.length_drop, ← hds] at hlt
    by_cases h2 : B.r2 < ds.getD (mx ds) 0
    · rw [if_pos h2]
      refine Or.inr (Or.inr ⟨s + mx ds, rfl, by omega, by omega, ?_⟩)
      have e : ds.getD (mx ds) 0 = distSqr (P.getD (s + mx ds) 0) B.center := by
        have hl : mx ds < ds.length := by
          rw [hds, List.length_map, List.length_drop, ← hds]
          exact hlt
        rw [List.getD_eq_getElem _ _ hl, List.getD_eq_getElem _ _ (show s + mx ds < P.length by omega)]
        simp [hds]
      rwa [← e]
    · rw [if_neg h2]
      exact Or.inr (Or.inl rfl)

/-- Without boundary points a call is always possible on two or more points. -/
theorem pre_start (P : List (Point K dim)) (h2 : 2 ≤ P.length) : Pre P [] :=
  { indep := affIndep_nil
    le := by simp
    two := by simpa using h2
    feas := by
      refine ⟨0, (P.map fun p => distSqr p 0).sum, ?_, by simp⟩
      intro p hp
      exact List.single_le_sum (by
        intro x hx
        obtain ⟨q, _, rfl⟩ := List.mem_map.mp hx
        exact distSqr_nonneg _ _) _ (List.mem_map.mpr ⟨p, hp, rfl⟩) }

end Verif.Seb
