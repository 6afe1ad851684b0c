import Verif.OctTree.FloatLemmas
import Mathlib.Algebra.Order.Floor.Semifield

set_option linter.unusedSectionVars false
set_option linter.unusedVariables false

/-!
Nearest neighbours with the oct-tree in rounded arithmetic (C103).
-/

namespace Verif.OctTree

open Verif.KdTree Verif.Float

variable {V : Type} {d : ℕ} {pos : V → Fin d → ℝ} {v : V} {fl : ℝ → ℝ} {u : ℝ}

/-- Specification: `out` has `k` vertices of `others`, sorted by the computed distance; null pointers at the end if there
are fewer than `k`. `Out a b` holds for each reported vertex `a` and each vertex `b` which is not reported. -/
def Reports (c : V → ℝ) (Out : V → V → Prop) (others : List V) (k : ℕ) (out : List (Option V)) : Prop :=
  ∃ res rest : List V, out = res.map some ++ List.replicate (k - others.length) none ∧
    res.length = min k others.length ∧ others.Perm (res ++ rest) ∧ res.Pairwise (fun a b => c a ≤ c b) ∧
    ∀ a ∈ res, ∀ b ∈ rest, Out a b

theorem Reports.perm {c : V → ℝ} {Out : V → V → Prop} {others others' : List V} {k : ℕ} {out : List (Option V)}
    (h : Reports c Out others k out) (hp : others'.Perm others) : Reports c Out others' k out := by
  obtain ⟨res, rest, h1, h2, h3, h4, h5⟩ := h
  exact ⟨res, rest, by rw [hp.length_eq]; exact h1, by rw [hp.length_eq]; exact h2, hp.trans h3, h4, h5⟩

variable [DecidableEq V]

/-- C103, proved part. The tree is built without an error from vertices at two or more points, and a search reports `k`
other vertices (all of them, if there are fewer), sorted by their computed distances. For a vertex `b` which is not
reported and a reported vertex `a`, the computed distance of `a` is at most that of `b`, or it is at most the difference
of one coordinate of `v` and `b` up to the relative error `u` in the distance and in the coordinate of `b`. With `u = 0`
this is exactness. Missing: that `a` is not farther than `b` by the computed distances; this is false, see
`c103_kNearest_false`. -/
theorem c103_kNearest_partial (hf : IsRounding u fl) (hu : u < 1) {search : (ℕ × V → Bool) → List (ℕ × V) → ℕ}
    (hs : BinSearch search) {sort : List (ℕ × V) → List (ℕ × V)} (hsort : SortsTags sort) {P : List V}
    (hP : ∃ u ∈ P, ∃ w ∈ P, pos u ≠ pos w) :
    ∃ T, buildFl fl search sort pos P = .ok T ∧ T.flatten.Perm P ∧
      ∀ (v : V) (k maxK : ℕ), 0 < k → k ≤ maxK → ∃ out, kNearestFl fl maxK pos T v k = .ok out ∧
        Reports (fun w => distFl fl (pos v) (pos w))
          (fun a b => distFl fl (pos v) (pos a) ≤ distFl fl (pos v) (pos b) ∨
            ∃ i, (1 - u) * distFl fl (pos v) (pos a) ≤ |pos v i - pos b i| + u * |pos b i|)
          (P.filter fun w => decide (w ≠ v)) k out := by
  obtain ⟨T, t1, t2, t3⟩ := buildFl_ok hf hu hs hsort hP
  refine ⟨T, t1, t2, fun v k maxK hk hm => ⟨((nearestRecFl fl pos v T (List.replicate k (⊤, none))).map Prod.snd).reverse, ?_, ?_⟩⟩
  · unfold kNearestFl initBuf
    rw [if_neg (by omega), if_neg (by omega)]
    rfl
  · have := nearestRecFl_inv (pos := pos) (v := v) (farFl_ok hu.le) (G := fun _ => True)
      (fun T' a hT' _ hw => far_of_not_withinFl hf hT' (by simpa using distFl_nonneg hf.toIsMonoRounding _ _) hw) hk T t3
      (fun _ _ => trivial) (BInvFl.init k)
    rw [List.nil_append] at this
    obtain ⟨res, rest, h1, h2, h3, h4, h5⟩ := this.result (farFl_ok hu.le) hk
    refine Reports.perm ⟨res, rest, h1, h2, h3, h4, fun a ha b hb => ?_⟩ (t2.symm.filter _)
    rcases h5 a ha b hb with h | ⟨e, i, he, h⟩
    · left
      exact_mod_cast h
    · right
      rw [WithTop.coe_inj] at he
      subst he
      exact ⟨i, h⟩

/-- C103, proved part: which vertices can be missed. For rounding to nearest (and any monotone rounding which is exact on
its results and does not make the root of a square smaller) and a vertex with representable coordinates: if `b` is not
reported but nearer than a reported `a`, then the reported distance added to or subtracted from a coordinate of `b` is
rounded to the coordinate of the query. If this does not happen the search is exact. -/
theorem c103_missed_partial (hf : IsRounding u fl) (hr : IsRootRounding fl) (hu : u < 1)
    {search : (ℕ × V → Bool) → List (ℕ × V) → ℕ} (hs : BinSearch search) {sort : List (ℕ × V) → List (ℕ × V)}
    (hsort : SortsTags sort) {P : List V} (hP : ∃ u ∈ P, ∃ w ∈ P, pos u ≠ pos w) :
    ∃ T, buildFl fl search sort pos P = .ok T ∧
      ∀ (v : V) (k maxK : ℕ), (∀ i, fl (pos v i) = pos v i) → 0 < k → k ≤ maxK →
        ∃ out, kNearestFl fl maxK pos T v k = .ok out ∧
        Reports (fun w => distFl fl (pos v) (pos w))
          (fun a b => distFl fl (pos v) (pos a) ≤ distFl fl (pos v) (pos b) ∨
            ∃ i, pos v i = fl (pos b i - distFl fl (pos v) (pos a)) ∨ pos v i = fl (pos b i + distFl fl (pos v) (pos a)))
          (P.filter fun w => decide (w ≠ v)) k out := by
  obtain ⟨T, t1, t2, t3⟩ := buildFl_ok hf hu hs hsort hP
  refine ⟨T, t1, fun v k maxK hv hk hm =>
    ⟨((nearestRecFl fl pos v T (List.replicate k (⊤, none))).map Prod.snd).reverse, ?_, ?_⟩⟩
  · unfold kNearestFl initBuf
    rw [if_neg (by omega), if_neg (by omega)]
    rfl
  · have := nearestRecFl_inv (pos := pos) (v := v) farTie_ok (G := fun _ => True)
      (fun T' a hT' _ hw => farTie_of_not_within hr hv hT' a hw) hk T t3 (fun _ _ => trivial) (BInvFl.init k)
    rw [List.nil_append] at this
    obtain ⟨res, rest, h1, h2, h3, h4, h5⟩ := this.result farTie_ok hk
    exact Reports.perm ⟨res, rest, h1, h2, h3, h4, fun a ha b hb => tie_of_farTie hr hv (h5 a ha b hb)⟩ (t2.symm.filter _)

/-- C103, proved part for `nearest`: some other vertex, nearest in the same sense. -/
theorem c103_nearest_partial (hf : IsRounding u fl) (hu : u < 1) {search : (ℕ × V → Bool) → List (ℕ × V) → ℕ}
    (hs : BinSearch search) {sort : List (ℕ × V) → List (ℕ × V)} (hsort : SortsTags sort) {P : List V}
    (hP : ∃ u ∈ P, ∃ w ∈ P, pos u ≠ pos w) {maxK : ℕ} (hm : 1 ≤ maxK) :
    ∃ T, buildFl fl search sort pos P = .ok T ∧ ∀ v : V, (∃ w ∈ P, w ≠ v) →
      ∃ a, nearestFl fl maxK pos T v = .ok (some a) ∧ a ∈ P ∧ a ≠ v ∧ ∀ b ∈ P, b ≠ v →
        distFl fl (pos v) (pos a) ≤ distFl fl (pos v) (pos b) ∨
          ∃ i, (1 - u) * distFl fl (pos v) (pos a) ≤ |pos v i - pos b i| + u * |pos b i| := by
  obtain ⟨T, t1, t2, t3⟩ := c103_kNearest_partial hf hu hs hsort hP
  refine ⟨T, t1, fun v ⟨w0, hw0, hw0v⟩ => ?_⟩
  obtain ⟨out, h1, res, rest, h2, h3, h4, h5, h6⟩ := t3 v 1 maxK Nat.one_pos hm
  have hl : 1 ≤ (P.filter fun u => decide (u ≠ v)).length := by
    apply List.length_pos_of_mem (a := w0)
    simp [hw0, hw0v]
  obtain ⟨a, rfl⟩ : ∃ a, res = [a] := List.length_eq_one_iff.mp (by omega)
  have ha : a ∈ P.filter fun u => decide (u ≠ v) := h4.mem_iff.mpr (by simp)
  refine ⟨a, ?_, List.mem_of_mem_filter ha, by simpa using (List.mem_filter.mp ha).2, ?_⟩
  · unfold nearestFl
    rw [h1, h2]
    simp [Except.map]
  · intro b hb hbv
    have : b ∈ [a] ++ rest := h4.mem_iff.mp (by simp [hb, hbv])
    rcases List.mem_append.mp this with h | h
    · rw [List.mem_singleton] at h
      rw [h]
      exact Or.inl le_rfl
    · exact h6 a (by simp) b h

/-! ### A nearest neighbour which is missed -/

/-- The point `(1, n / 2^61)`. -/
noncomputable def spot (n : ℤ) : Fin 2 → ℝ := ![1, (n : ℝ) * (2 : ℝ) ^ (-61 : ℤ)]

theorem repr_unit (n : ℤ) (hn : |n| < 2 ^ 53) (e : ℤ) : rne 53 ((n : ℝ) * (2 : ℝ) ^ e) = n * (2 : ℝ) ^ e :=
  rne_repr (by norm_num) ⟨n, e, hn, rfl⟩

theorem dist_spot {m n : ℤ} (h : |m - n| < 2 ^ 26) :
    distFl (rne 53) (spot m) (spot n) = (|m - n| : ℤ) * (2 : ℝ) ^ (-61 : ℤ) := by
  have h0 : rne 53 0 = 0 := (isRounding_rne (by norm_num)).toIsMonoRounding.zero
  have hsq : |(m - n) * (m - n)| < 2 ^ 53 := by
    rw [abs_mul]
    have := abs_nonneg (m - n)
    nlinarith
  have e1 : rne 53 ((m : ℝ) * (2 : ℝ) ^ (-61 : ℤ) - (n : ℝ) * (2 : ℝ) ^ (-61 : ℤ)) = ((m - n : ℤ) : ℝ) * (2 : ℝ) ^ (-61 : ℤ) := by
    rw [← repr_unit (m - n) (lt_trans h (by norm_num))]
    congr 1
    push_cast
    ring
  have e2 : ((m - n : ℤ) : ℝ) * (2 : ℝ) ^ (-61 : ℤ) * (((m - n : ℤ) : ℝ) * (2 : ℝ) ^ (-61 : ℤ)) =
      (((m - n) * (m - n) : ℤ) : ℝ) * (2 : ℝ) ^ (-122 : ℤ) := by
    rw [show (-122 : ℤ) = -61 + -61 by norm_num, zpow_add₀ (by norm_num)]
    push_cast
    ring
  unfold distFl distSqrFl
  simp only [List.finRange_succ, List.finRange_zero, List.foldl_cons, List.foldl_nil, List.map_cons, List.map_nil, addSqFl, spot]
  simp only [Matrix.cons_val_zero, Fin.succ_zero_eq_one, Matrix.cons_val_one, sub_self, h0, mul_zero, add_zero, zero_add, e1, e2,
    repr_unit _ hsq]
  have e3 : (((m - n) * (m - n) : ℤ) : ℝ) * (2 : ℝ) ^ (-122 : ℤ) =
      ((|m - n| : ℤ) * (2 : ℝ) ^ (-61 : ℤ)) * ((|m - n| : ℤ) * (2 : ℝ) ^ (-61 : ℤ)) := by
    rw [← abs_mul_abs_self, show (-122 : ℤ) = -61 + -61 by norm_num, zpow_add₀ (by norm_num)]
    push_cast
    ring
  rw [e3, Real.sqrt_mul_self (by positivity), repr_unit]
  rw [abs_abs]
  exact lt_trans h (by norm_num)

theorem sorted_split (m : ℕ) : ∀ l : List (ℕ × V), l.Pairwise (fun x y => x.1 ≤ y.1) →
    l = l.filter (fun x => decide (x.1 < m)) ++ l.filter (fun x => decide (m ≤ x.1))
  | [], _ => rfl
  | x :: l, h => by
    rw [List.pairwise_cons] at h
    by_cases hx : x.1 < m
    · rw [List.filter_cons_of_pos (by simpa using hx), List.filter_cons_of_neg (by simpa using hx), List.cons_append,
        ← sorted_split m l h.2]
    · rw [List.filter_cons_of_neg (by simpa using hx), List.filter_cons_of_pos (by simpa using hx)]
      have h1 : l.filter (fun x => decide (x.1 < m)) = [] := by
        rw [List.filter_eq_nil_iff]
        intro y hy
        have := h.1 y hy
        simp only [decide_eq_true_eq, not_lt]
        omega
      have h2 : l.filter (fun x => decide (m ≤ x.1)) = l := by
        rw [List.filter_eq_self]
        intro y hy
        have := h.1 y hy
        simp only [decide_eq_true_eq]
        omega
      rw [h1, h2, List.nil_append]

/-- A build which cuts once. -/
theorem buildRec_two {search : (ℕ × V → Bool) → List (ℕ × V) → ℕ} (hs : BinSearch search) {bit : ℕ} {Pts A B : List (ℕ × V)}
    (e : Pts = A ++ B) (hA : ∀ x ∈ A, x.1 < 2 ^ bit) (hB : ∀ x ∈ B, 2 ^ bit ≤ x.1 ∧ x.1 < 2 ^ (bit + 1))
    (a0 : 0 < A.length) (a1 : A.length < 20) (b0 : 0 < B.length) (b1 : B.length < 20) (hn : 20 ≤ A.length + B.length) :
    buildRec search pos (bit + 1) Pts =
      (newLeaf pos (A.map Prod.snd)).bind fun L => (newLeaf pos (B.map Prod.snd)).map fun R => newNode L R := by
  have hlen : Pts.length = A.length + B.length := by rw [e, List.length_append]
  have hcut : search (fun x => decide (x.1 % 2 ^ (bit + 1) < 2 ^ bit)) Pts = A.length := by
    rw [e]
    refine hs.split _ _ _ (fun x hx => ?_) (fun x hx => ?_)
    · have := hA x hx
      rw [Nat.mod_eq_of_lt (lt_trans this (Nat.pow_lt_pow_right (by norm_num) (by omega)))]
      simpa using this
    · have := hB x hx
      rw [Nat.mod_eq_of_lt this.2]
      simpa using this.1
  have leafy : ∀ l : List (ℕ × V), 0 < l.length → l.length < 20 → buildRec search pos bit l = newLeaf pos (l.map Prod.snd) := by
    intro l h1 h2
    unfold buildRec
    rw [if_neg (by omega), if_pos (Or.inr h2)]
  rw [buildRec, if_neg (by omega), if_neg (by omega)]
  simp only
  rw [hcut, if_neg (by omega), e, List.take_left, List.drop_left, leafy A a0 a1, leafy B b0 b1]

/-- The vertices `0, …, 32` without `15`, at the points `(1, 2 n / 2^61)`. -/
def crowd : List ℕ := (List.range 33).filter fun n => decide (n ≠ 15)

theorem mem_crowd {n : ℕ} : n ∈ crowd ↔ n < 33 ∧ n ≠ 15 := by simp [crowd]

/-- The places of the vertices. -/
noncomputable def place (n : ℕ) : Fin 2 → ℝ := spot (2 * n)

theorem place_zero (n : ℕ) : place n 0 = 1 := by simp [place, spot]

theorem place_one (n : ℕ) : place n 1 = ((2 * n : ℤ) : ℝ) * (2 : ℝ) ^ (-61 : ℤ) := by simp [place, spot]

theorem place_le {m n : ℕ} : place m 1 ≤ place n 1 ↔ m ≤ n := by
  rw [place_one, place_one, mul_le_mul_iff_left₀ (by positivity)]
  push_cast
  rw [mul_le_mul_iff_right₀ (by norm_num)]
  exact Nat.cast_le

/-- The box of some of the vertices. -/
theorem getBox_place {L : List ℕ} {a b : ℕ} (ha : a ∈ L) (hb : b ∈ L) (h : ∀ n ∈ L, a ≤ n ∧ n ≤ b) :
    getBox place L = .ok (place a, place b) := by
  obtain ⟨lo, hi, h1, h2, h3⟩ := getBox_ok (pos := place) (P := L) (List.ne_nil_of_mem ha)
  rw [h1]
  congr 2
  · funext i
    obtain ⟨n, hn, e⟩ := (h3 i).1
    fin_cases i
    · simp only [Fin.zero_eta] at e ⊢
      rw [e, place_zero, place_zero]
    · simp only [Fin.mk_one] at e ⊢
      refine le_antisymm (h2 a ha 1).1 ?_
      rw [e]
      exact place_le.mpr (h n hn).1
  · funext i
    obtain ⟨n, hn, e⟩ := (h3 i).2
    fin_cases i
    · simp only [Fin.zero_eta] at e ⊢
      rw [e, place_zero, place_zero]
    · simp only [Fin.mk_one] at e ⊢
      refine le_antisymm ?_ (h2 b hb 1).2
      rw [e]
      exact place_le.mpr (h n hn).2

theorem rne_zero : rne 53 0 = 0 := (isRounding_rne (by norm_num)).toIsMonoRounding.zero

/-- The tags of the vertices. -/
theorem tags_crowd : ∃ t : ℕ → ℕ, tagsFl (rne 53) place crowd = .ok (crowd.map fun n => (t n, n)) ∧
    ∀ n ∈ crowd, t n < 2 ^ 64 ∧ (t n < 2 ^ 63 ↔ n ≤ 16) := by
  have hb := getBox_place (L := crowd) (a := 0) (b := 32) (by simp [mem_crowd]) (by simp [mem_crowd])
    (fun n hn => ⟨by omega, by rw [mem_crowd] at hn; omega⟩)
  have hd : (List.finRange 2).foldl (fun x i => max x (rne 53 (place 32 i - place 0 i))) 0 = ((64 : ℤ) : ℝ) * (2 : ℝ) ^ (-61 : ℤ) := by
    simp only [List.finRange_succ, List.finRange_zero, List.foldl_cons, List.foldl_nil, List.map_cons, List.map_nil,
      Fin.succ_zero_eq_one, place_zero, sub_self, rne_zero, max_self]
    have : place 32 1 - place 0 1 = ((64 : ℤ) : ℝ) * (2 : ℝ) ^ (-61 : ℤ) := by
      rw [place_one, place_one]
      norm_num
    rw [this, repr_unit 64 (by norm_num)]
    exact max_eq_right (by positivity)
  have hip : ∀ n < 33, ⌊rne 53 (rne 53 (((2 ^ (64 / 2) - 1 : ℕ) : ℝ) * rne 53 (place n 1 - place 0 1)) /
      (((64 : ℤ) : ℝ) * (2 : ℝ) ^ (-61 : ℤ)))⌋₊ = (2 ^ 32 - 1) * n / 32 := by
    intro n hn
    have e1 : place n 1 - place 0 1 = ((2 * n : ℤ) : ℝ) * (2 : ℝ) ^ (-61 : ℤ) := by
      rw [place_one, place_one]
      push_cast
      ring
    have hn' : (n : ℤ) < 33 := by exact_mod_cast hn
    have hn0 : (0 : ℤ) ≤ n := by positivity
    rw [e1, repr_unit (2 * n) (by rw [abs_of_nonneg (by omega)]; omega)]
    have e2 : ((2 ^ (64 / 2) - 1 : ℕ) : ℝ) * (((2 * n : ℤ) : ℝ) * (2 : ℝ) ^ (-61 : ℤ)) =
        (((2 ^ 32 - 1) * (2 * n) : ℤ) : ℝ) * (2 : ℝ) ^ (-61 : ℤ) := by
      push_cast
      norm_num
      ring
    rw [e2, repr_unit _ (by rw [abs_of_nonneg (by omega)]; omega)]
    have e3 : (((2 ^ 32 - 1) * (2 * n) : ℤ) : ℝ) * (2 : ℝ) ^ (-61 : ℤ) / (((64 : ℤ) : ℝ) * (2 : ℝ) ^ (-61 : ℤ)) =
        (((2 ^ 32 - 1) * n : ℤ) : ℝ) * (2 : ℝ) ^ (-5 : ℤ) := by
      rw [mul_div_mul_right _ _ (by positivity)]
      push_cast
      norm_num
      ring
    rw [e3, repr_unit _ (by rw [abs_of_nonneg (by omega)]; omega)]
    have e4 : (((2 ^ 32 - 1) * n : ℤ) : ℝ) * (2 : ℝ) ^ (-5 : ℤ) = (((2 ^ 32 - 1) * n : ℕ) : ℝ) / ((32 : ℕ) : ℝ) := by
      push_cast
      norm_num
      ring
    rw [e4, Nat.floor_div_natCast, Nat.floor_natCast]
  set ip : ℕ → Fin 2 → ℕ := fun n k => ⌊rne 53 (rne 53 (((2 ^ (64 / 2) - 1 : ℕ) : ℝ) * rne 53 (place n k - place 0 k)) /
      (((64 : ℤ) : ℝ) * (2 : ℝ) ^ (-61 : ℤ)))⌋₊ with hipd
  refine ⟨fun n => (List.range (64 / 2)).foldl (fun r i => (List.finRange 2).foldl
      (fun r k => r ||| (((ip n k >>> i) &&& 1) <<< (i * 2 + k.val))) r) 0, ?_, ?_⟩
  · unfold tagsFl
    rw [hb]
    simp only [Except.bind]
    rw [hd]
    refine mapM_map_ok _ _ crowd fun n _ => ?_
    unfold interleaveBitsFl
    simp only
    rw [if_neg (by positivity)]
    rfl
  · intro n hn
    rw [mem_crowd] at hn
    have hlt := interleave_lt (ip n) (64 / 2)
    refine ⟨hlt, ?_⟩
    have hbit := interleave_bit (ip n) (64 / 2) 31 1
    rw [decide_eq_true (by norm_num), Bool.true_and] at hbit
    have h1 : ip n 1 = (2 ^ 32 - 1) * n / 32 := hip n hn.1
    rw [h1] at hbit
    simp only
    set t := (List.range (64 / 2)).foldl (fun r i => (List.finRange 2).foldl
      (fun r k => r ||| (((ip n k >>> i) &&& 1) <<< (i * 2 + k.val))) r) 0 with ht
    have hb63 : t.testBit 63 = ((2 ^ 32 - 1) * n / 32).testBit 31 := hbit
    have hlt' : t < 2 ^ 64 := hlt
    rw [Nat.testBit_eq_decide_div_mod_eq, Nat.testBit_eq_decide_div_mod_eq, decide_eq_decide] at hb63
    have h2 : (2 ^ 32 - 1) * n / 32 / 2 ^ 31 % 2 = 1 ↔ 17 ≤ n := by
      have hn1 := hn.1
      clear hb63 hbit h1
      interval_cases n <;> norm_num
    rw [h2] at hb63
    omega

theorem place_dist (m n : ℕ) (hm : m < 33) (hn : n < 33) :
    distFl (rne 53) (place m) (place n) = (|2 * (m : ℤ) - 2 * n| : ℤ) * (2 : ℝ) ^ (-61 : ℤ) :=
  dist_spot (by rw [abs_lt]; constructor <;> omega)

/-- The rounded sum which makes the search go wrong. -/
theorem one_sub_small : rne 53 (1 - ((4 : ℤ) : ℝ) * (2 : ℝ) ^ (-61 : ℤ)) = 1 := by
  refine le_antisymm ?_ ?_
  · have := (isRounding_rne (p := 53) (by norm_num)).mono (show (1 - ((4 : ℤ) : ℝ) * (2 : ℝ) ^ (-61 : ℤ)) ≤ 1 by
      have : (0 : ℝ) < (2 : ℝ) ^ (-61 : ℤ) := by positivity
      push_cast
      linarith)
    have h1 : rne 53 1 = 1 := by simpa using repr_unit 1 (by norm_num) 0
    rwa [h1] at this
  · rw [rne_eval (-53) (by norm_num) (by norm_num)]
    have : (2 : ℤ) ^ 53 ≤ rhe ((1 - ((4 : ℤ) : ℝ) * (2 : ℝ) ^ (-61 : ℤ)) / (2 : ℝ) ^ (-53 : ℤ)) := by
      have h := rhe_err ((1 - ((4 : ℤ) : ℝ) * (2 : ℝ) ^ (-61 : ℤ)) / (2 : ℝ) ^ (-53 : ℤ))
      have h' := (abs_le.mp h).1
      have e : (1 - ((4 : ℤ) : ℝ) * (2 : ℝ) ^ (-61 : ℤ)) / (2 : ℝ) ^ (-53 : ℤ) = 2 ^ 53 - 1 / 64 := by norm_num
      rw [e] at h' ⊢
      by_contra hcon
      rw [not_le] at hcon
      have : rhe ((2 : ℝ) ^ 53 - 1 / 64) ≤ 2 ^ 53 - 1 := by omega
      have : ((rhe ((2 : ℝ) ^ 53 - 1 / 64) : ℤ) : ℝ) ≤ 2 ^ 53 - 1 := by exact_mod_cast this
      linarith
    have h2 : ((2 : ℝ) ^ 53) ≤ (rhe ((1 - ((4 : ℤ) : ℝ) * (2 : ℝ) ^ (-61 : ℤ)) / (2 : ℝ) ^ (-53 : ℤ)) : ℝ) := by exact_mod_cast this
    have h3 : (0 : ℝ) < (2 : ℝ) ^ (-53 : ℤ) := by positivity
    calc (1 : ℝ) = 2 ^ 53 * (2 : ℝ) ^ (-53 : ℤ) := by norm_num
      _ ≤ _ := mul_le_mul_of_nonneg_right h2 h3.le

theorem center_place (P : List ℕ) (a b : ℕ) (h : a ≤ b) (hb : b < 33) :
    (OT.leaf P (place a) (place b) : OT ℕ 2).centerFl (rne 53) = spot (a + b) := by
  funext i
  have h1 : rne 53 1 = 1 := by simpa using repr_unit 1 (by norm_num) 0
  unfold OT.centerFl
  fin_cases i
  · simp [OT.lo, OT.hi, place_zero, rne_zero, h1, spot]
  · simp only [OT.lo, OT.hi, Fin.mk_one]
    have e1 : place b 1 - place a 1 = ((2 * (b - a) : ℤ) : ℝ) * (2 : ℝ) ^ (-61 : ℤ) := by
      rw [place_one, place_one]
      push_cast
      ring
    rw [e1, repr_unit _ (by rw [abs_lt]; constructor <;> omega)]
    have e2 : ((2 * (b - a) : ℤ) : ℝ) * (2 : ℝ) ^ (-61 : ℤ) / 2 = ((b - a : ℤ) : ℝ) * (2 : ℝ) ^ (-61 : ℤ) := by
      push_cast
      ring
    rw [e2, repr_unit _ (by rw [abs_lt]; constructor <;> omega)]
    have e3 : place a 1 + ((b - a : ℤ) : ℝ) * (2 : ℝ) ^ (-61 : ℤ) = ((a + b : ℤ) : ℝ) * (2 : ℝ) ^ (-61 : ℤ) := by
      rw [place_one]
      push_cast
      ring
    rw [e3, repr_unit _ (by rw [abs_lt]; constructor <;> omega)]
    simp [spot]

/-- The search on the tree with the vertices up to 16 in one leaf and the others in the other one. -/
theorem search_crowd {A B : List ℕ} (hA : A.Perm (crowd.filter fun n => decide (n ≤ 16)))
    (hB : B.Perm (crowd.filter fun n => decide (¬ n ≤ 16))) :
    nearestRecFl (rne 53) place 16 (newNode (.leaf A (place 0) (place 16)) (.leaf B (place 17) (place 32))) [(⊤, none)] =
      [(((((4 : ℤ) : ℝ) * (2 : ℝ) ^ (-61 : ℤ) : ℝ) : WithTop ℝ), some 14)] := by
  have hF : FarOk (fun w => distFl (rne 53) (place 16) (place w))
      (fun (e : WithTop ℝ) w => e ≤ (distFl (rne 53) (place 16) (place w) : ℝ)) :=
    ⟨fun e e' b h1 h2 => h1.trans h2, fun e b h => h, fun b h => by simp at h⟩
  have hscan := (BInvFl.init (c := fun w => distFl (rne 53) (place 16) (place w))
    (Far := fun (e : WithTop ℝ) w => e ≤ (distFl (rne 53) (place 16) (place w) : ℝ)) 1).scan hF Nat.one_pos A
  rw [List.nil_append] at hscan
  have hmem : ∀ n, n ∈ A.filter (fun w => decide (w ≠ 16)) ↔ n < 15 := by
    intro n
    rw [List.mem_filter, hA.mem_iff, List.mem_filter, mem_crowd]
    simp only [decide_eq_true_eq]
    omega
  have hpos : (0 : ℝ) < (2 : ℝ) ^ (-61 : ℤ) := by positivity
  have hL : scanLeafFl (rne 53) place 16 A [(⊤, none)] = [(((((4 : ℤ) : ℝ) * (2 : ℝ) ^ (-61 : ℤ) : ℝ) : WithTop ℝ), some 14)] := by
    have hscan' := hscan
    simp only [List.replicate_one] at hscan'
    set b := scanLeafFl (rne 53) place 16 A [(⊤, none)] with hb
    obtain ⟨x, hx⟩ := List.length_eq_one_iff.mp hscan'.length
    obtain ⟨rest, h1, h2⟩ := hscan'.content
    have h14 := (hmem 14).mpr (by norm_num)
    rcases hscan'.entry x (by rw [hx]; simp) with rfl | ⟨w, rfl⟩
    · rw [hx] at h1 h2
      have : (14 : ℕ) ∈ rest := by simpa using h1.mem_iff.mp h14
      have := h2 14 this
      simp [Buf.dist0] at this
    · rw [hx] at h1 h2
      have hw : w < 15 := (hmem w).mp (h1.mem_iff.mpr (by simp))
      have hw14 : w = 14 := by
        by_contra hne
        have h3 : (14 : ℕ) ∈ rest := by
          have : (14 : ℕ) ∈ w :: rest := h1.mem_iff.mp h14
          rcases List.mem_cons.mp this with h | h
          · exact absurd h.symm hne
          · exact h
        have h4 := h2 14 h3
        simp only [Buf.dist0, List.head?_cons, Option.map_some, Option.getD_some, WithTop.coe_le_coe] at h4
        rw [place_dist _ _ (by norm_num) (by omega), place_dist _ _ (by norm_num) (by norm_num),
          mul_le_mul_iff_left₀ hpos, Int.cast_le] at h4
        rw [abs_of_nonneg (by omega), abs_of_nonneg (by norm_num)] at h4
        omega
      subst hw14
      rw [hx, place_dist _ _ (by norm_num) (by norm_num)]
      norm_num
  unfold newNode nearestRecFl
  have hd1 : distFl (rne 53) ((OT.leaf A (place 0) (place 16) : OT ℕ 2).centerFl (rne 53)) (place 16) =
      ((16 : ℤ) : ℝ) * (2 : ℝ) ^ (-61 : ℤ) := by
    rw [center_place _ _ _ (by norm_num) (by norm_num)]
    exact dist_spot (by norm_num)
  have hd2 : distFl (rne 53) ((OT.leaf B (place 17) (place 32) : OT ℕ 2).centerFl (rne 53)) (place 16) =
      ((17 : ℤ) : ℝ) * (2 : ℝ) ^ (-61 : ℤ) := by
    rw [center_place _ _ _ (by norm_num) (by norm_num)]
    exact dist_spot (by norm_num)
  have ht : ∀ T : OT ℕ 2, withinBoxFl (rne 53) (place 16) T (Buf.dist0 ([(⊤, none)] : Buf ℕ)) = true := fun T => rfl
  rw [if_pos (ht _), hd1, hd2, if_pos (mul_lt_mul_of_pos_right (by norm_num) hpos)]
  rw [nearestRecFl, nearestRecFl, if_pos (ht _), hL, if_neg]
  simp only [Buf.dist0, List.head?_cons, Option.map_some, Option.getD_some, withinBoxFl, decide_eq_true_eq, not_forall]
  refine ⟨0, fun h => ?_⟩
  have h1 := h.1
  simp only [OT.lo, place_zero] at h1
  rw [one_sub_small] at h1
  exact lt_irrefl _ h1

/-- C103, negated. With doubles `nearest` misses the nearest vertex, for every sorting of the tags. There are 32 vertices
at different points, all of them with representable coordinates and exactly computed distances; `nearest` for vertex 16
reports vertex 14, while vertex 17 is at half the distance. -/
theorem c103_kNearest_false {search : (ℕ × ℕ → Bool) → List (ℕ × ℕ) → ℕ} (hs : BinSearch search)
    {sort : List (ℕ × ℕ) → List (ℕ × ℕ)} (hsort : SortsTags sort) {maxK : ℕ} (hm : 1 ≤ maxK) :
    ∃ T, buildFl (rne 53) search sort place crowd = .ok T ∧ nearestFl (rne 53) maxK place T 16 = .ok (some 14) ∧
      (17 : ℕ) ∈ crowd ∧ distFl (rne 53) (place 16) (place 14) = 2 * distFl (rne 53) (place 16) (place 17) ∧
      0 < distFl (rne 53) (place 16) (place 17) := by
  obtain ⟨t, h1, h2⟩ := tags_crowd
  set pts := crowd.map fun n => (t n, n) with hpts
  have hp := hsort.perm pts
  have hmem : ∀ x ∈ sort pts, x.1 = t x.2 ∧ x.2 ∈ crowd := by
    intro x hx
    obtain ⟨n, hn, rfl⟩ := List.mem_map.mp (hp.mem_iff.mp hx)
    exact ⟨rfl, hn⟩
  set A := (sort pts).filter fun x => decide (x.1 < 2 ^ 63) with hAd
  set B := (sort pts).filter fun x => decide (2 ^ 63 ≤ x.1) with hBd
  have e : sort pts = A ++ B := sorted_split (2 ^ 63) _ (hsort.sorted pts)
  have hsnd : (sort pts).map Prod.snd |>.Perm crowd := by
    refine (hp.map _).trans ?_
    rw [hpts, List.map_map]
    exact List.Perm.of_eq (List.map_id'' (fun n => rfl) crowd)
  have hA : (A.map Prod.snd).Perm (crowd.filter fun n => decide (n ≤ 16)) := by
    refine List.Perm.trans (List.Perm.of_eq ?_) (hsnd.filter _)
    rw [hAd, List.filter_map]
    congr 1
    apply List.filter_congr
    intro x hx
    have h3 := hmem x hx
    simp only [Function.comp, decide_eq_decide]
    rw [h3.1]
    exact (h2 x.2 h3.2).2
  have hB : (B.map Prod.snd).Perm (crowd.filter fun n => decide (¬ n ≤ 16)) := by
    refine List.Perm.trans (List.Perm.of_eq ?_) (hsnd.filter _)
    rw [hBd, List.filter_map]
    congr 1
    apply List.filter_congr
    intro x hx
    have h3 := hmem x hx
    simp only [Function.comp, decide_eq_decide]
    rw [h3.1, ← not_lt]
    exact not_congr (h2 x.2 h3.2).2
  have lA : A.length = 16 := by
    have := hA.length_eq
    rw [List.length_map] at this
    rw [this]
    decide
  have lB : B.length = 16 := by
    have := hB.length_eq
    rw [List.length_map] at this
    rw [this]
    decide
  have hbuild := buildRec_two (pos := place) hs (bit := 63) e (fun x hx => by simpa using (List.mem_filter.mp hx).2)
    (fun x hx => ⟨by simpa using (List.mem_filter.mp hx).2, by
      have := hmem x (List.mem_of_mem_filter hx)
      rw [this.1]
      exact (h2 x.2 this.2).1⟩) (by omega) (by omega) (by omega) (by omega) (by omega)
  have bA : newLeaf place (A.map Prod.snd) = .ok (.leaf (A.map Prod.snd) (place 0) (place 16)) := by
    unfold newLeaf
    rw [getBox_place (a := 0) (b := 16) (hA.mem_iff.mpr (by decide)) (hA.mem_iff.mpr (by decide)) fun n hn => by
      have := (List.mem_filter.mp (hA.mem_iff.mp hn)).2
      simp only [decide_eq_true_eq] at this
      omega]
    rfl
  have bB : newLeaf place (B.map Prod.snd) = .ok (.leaf (B.map Prod.snd) (place 17) (place 32)) := by
    unfold newLeaf
    rw [getBox_place (a := 17) (b := 32) (hB.mem_iff.mpr (by decide)) (hB.mem_iff.mpr (by decide)) fun n hn => by
      have := List.mem_filter.mp (hB.mem_iff.mp hn)
      simp only [decide_eq_true_eq, mem_crowd] at this
      omega]
    rfl
  refine ⟨newNode (.leaf (A.map Prod.snd) (place 0) (place 16)) (.leaf (B.map Prod.snd) (place 17) (place 32)), ?_, ?_, ?_, ?_, ?_⟩
  · unfold buildFl
    rw [h1]
    refine hbuild.trans ?_
    rw [bA, bB]
    rfl
  · unfold nearestFl kNearestFl initBuf
    rw [if_neg (by omega), if_neg (by omega)]
    simp only [Except.map, List.replicate_one]
    rw [search_crowd hA hB]
    rfl
  · simp [mem_crowd]
  · rw [place_dist _ _ (by norm_num) (by norm_num), place_dist _ _ (by norm_num) (by norm_num)]
    norm_num
  · rw [place_dist _ _ (by norm_num) (by norm_num)]
    norm_num

/-! ### Concrete cases -/

/-- The hypotheses of the negation hold for an insertion sort and a linear search. -/
example : ∃ T, buildFl (rne 53) (fun p l => (l.takeWhile p).length) (List.insertionSort fun x y => x.1 ≤ y.1) place crowd = .ok T ∧
    nearestFl (rne 53) 1 place T 16 = .ok (some 14) := by
  obtain ⟨T, h1, h2, -⟩ := c103_kNearest_false binSearch_takeWhile sortsTags_insertionSort (le_refl 1)
  exact ⟨T, h1, h2⟩

/-- The hypotheses of the proved part hold for the same vertices, in double precision. -/
example : ∃ T, buildFl (rne 53) (fun p l => (l.takeWhile p).length) (List.insertionSort fun x y => x.1 ≤ y.1) place crowd = .ok T ∧
    ∃ out, kNearestFl (rne 53) 2 place T 16 2 = .ok out := by
  obtain ⟨T, h1, -, h3⟩ := c103_kNearest_partial (pos := place) (isRounding_rne (p := 53) (by norm_num)) (by norm_num)
    binSearch_takeWhile sortsTags_insertionSort (P := crowd) ⟨0, by simp [mem_crowd], 1, by simp [mem_crowd], fun h => by
      have := congrFun h 1
      rw [place_one, place_one] at this
      norm_num at this⟩
  obtain ⟨out, h4, -⟩ := h3 16 2 2 (by norm_num) le_rfl
  exact ⟨T, h1, out, h4⟩

/-- Vertices at `(n, 0)`, in double precision, meet the hypotheses of `c103_missed_partial`. -/
example : ∃ T, buildFl (rne 53) (fun p l => (l.takeWhile p).length) (List.insertionSort fun x y => x.1 ≤ y.1)
    (fun n : ℕ => ![(n : ℝ), 0]) [0, 1, 2, 5] = .ok T ∧ ∃ out, kNearestFl (rne 53) 3 (fun n : ℕ => ![(n : ℝ), 0]) T 1 3 = .ok out := by
  obtain ⟨T, h1, h3⟩ := c103_missed_partial (pos := fun n : ℕ => ![(n : ℝ), 0]) (isRounding_rne (p := 53) (by norm_num))
    (isRootRounding_rne (by norm_num)) (by norm_num) binSearch_takeWhile sortsTags_insertionSort (P := [0, 1, 2, 5])
    ⟨0, by simp, 1, by simp, fun h => by
      have := congrFun h 0
      simp at this⟩
  obtain ⟨out, h4, -⟩ := h3 1 3 3 (fun i => by
    fin_cases i
    · simpa using repr_unit 1 (by norm_num) 0
    · simpa using rne_zero) (by norm_num) le_rfl
  exact ⟨T, h1, out, h4⟩

/-- In exact arithmetic the proved part says that no vertex left out is nearer. -/
example {search : (ℕ × ℕ → Bool) → List (ℕ × ℕ) → ℕ} (hs : BinSearch search) {sort : List (ℕ × ℕ) → List (ℕ × ℕ)}
    (hsort : SortsTags sort) : ∃ T, buildFl id search sort place crowd = .ok T ∧
      ∃ a, nearestFl id 1 place T 16 = .ok (some a) ∧ ∀ b ∈ crowd, b ≠ 16 →
        distFl id (place 16) (place a) ≤ distFl id (place 16) (place b) ∨
          ∃ i, distFl id (place 16) (place a) ≤ |place 16 i - place b i| := by
  obtain ⟨T, h1, h2⟩ := c103_nearest_partial (pos := place) isRounding_id (by norm_num) hs hsort (P := crowd)
    ⟨0, by simp [mem_crowd], 1, by simp [mem_crowd], fun h => by
      have := congrFun h 1
      rw [place_one, place_one] at this
      norm_num at this⟩ (le_refl 1)
  obtain ⟨a, h3, -, -, h4⟩ := h2 16 ⟨0, by simp [mem_crowd], by norm_num⟩
  refine ⟨T, h1, a, h3, fun b hb hne => ?_⟩
  rcases h4 b hb hne with h | ⟨i, h⟩
  · exact Or.inl h
  · exact Or.inr ⟨i, by simpa using h⟩

end Verif.OctTree
