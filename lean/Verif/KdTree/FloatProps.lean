import Verif.KdTree.FloatLemmas

set_option linter.unusedSectionVars false
set_option linter.unusedVariables false

/-!
Property C91: the kd-tree and its range searches in rounded arithmetic.
-/

namespace Verif.KdTree

open Verif.Float

variable {α : Type} {d : ℕ} {u : ℝ} {fl : ℝ → ℝ}

/-! ### The exact model is the rounded one with the identity as rounding -/

theorem distFl_id (p q : Point ℝ d) : distFl id p q = eucl p q := by
  obtain ⟨h1, h2⟩ := distFl_bounds isRounding_id (by norm_num) p q
  have h : distFl id p q ^ 2 = eucl p q ^ 2 := by
    rw [eucl_sq]
    simp only [sub_zero, add_zero, one_pow, one_mul] at h1 h2
    exact le_antisymm h2 h1
  exact (pow_left_inj₀ (distFl_nonneg isRounding_id.toIsMonoRounding p q) (eucl_nonneg p q) two_ne_zero).mp h

theorem constructFl_id (w bs : ℕ) (pos : α → Point ℝ d) (leafSize fuel : ℕ) (par : Bool)
    (items : List α) : constructFl id w bs pos leafSize fuel par items
      = construct w bs pos leafSize fuel par items := by
  induction fuel generalizing par items with
  | zero => rfl
  | succ fuel ih =>
    have e : ∀ b : Box ℝ d, findWidestFl id b = findWidest b := fun b => rfl
    unfold constructFl construct
    simp only [ih, e, id]

/-- With no rounding the search is the exact one of C03. -/
theorem rangeSearchFl_id (pos : α → Point ℝ d) (t : Tree α ℝ d) (q : Point ℝ d) (r : ℝ) :
    rangeSearchFl id pos t q r = rangeSearch eucl pos t q r := by
  unfold rangeSearchFl rangeSearch
  have e : (distFl id : Point ℝ d → Point ℝ d → ℝ) = eucl := by
    funext p q
    exact distFl_id p q
  rw [e]
  rfl

/-! ### C91 -/

/-- C91, construction. Whatever the rounding of the split values and box extents: the construction
returns, keeps all items, and all nodes are sound, with exact boxes and leaves of at most `leafSize`
items. -/
theorem c91_build (hf : IsMonoRounding fl) (w bs : ℕ) (hw : 0 < w) (hb : 0 < bs) (hd : 0 < d)
    (pos : α → Point ℝ d) (leafSize : ℕ) (hls : 1 ≤ leafSize) (parallel : Bool) (items : List α)
    (h : items ≠ []) :
    ∃ t, buildFl fl w bs pos leafSize parallel items = .ok t ∧ t.items.Perm items ∧
      Sound pos leafSize t :=
  constructFl_ok hf w bs hw hb hd pos leafSize hls _ parallel items h (Nat.lt_succ_self _)

/-- C91, the box search. It returns exactly the items inside the computed query box. -/
theorem c91_orthogonal (hf : IsMonoRounding fl) (w bs : ℕ) (hw : 0 < w) (hb : 0 < bs) (hd : 0 < d)
    (pos : α → Point ℝ d) (leafSize : ℕ) (hls : 1 ≤ leafSize) (parallel : Bool) (items : List α)
    (h : items ≠ []) (t : Tree α ℝ d)
    (ht : buildFl fl w bs pos leafSize parallel items = .ok t) (q : Point ℝ d) (r : ℝ) :
    (orthogonalRangeSearchFl fl pos t q r).Perm
      (items.filter fun x => ∀ i, fl (q i - r) ≤ pos x i ∧
        pos x i ≤ fl (fl (q i - r) + fl (r * 2))) := by
  obtain ⟨t', h1, h2, h3⟩ := c91_build hf w bs hw hb hd pos leafSize hls parallel items h
  rw [h1] at ht
  cases ht
  unfold orthogonalRangeSearchFl
  rw [orthRangeHelper_eq pos leafSize t h3]
  exact h2.filter _

/-- C91, the ball search in rounded arithmetic. Part one of the claim "`rangeSearch` answers like
`bruteforceRange`, up to rounding": every item is returned at most as often as it is stored; every
returned item has a computed distance of at most `r`, so the brute-force search reports it too; and
every item with this property that lies in the computed query box is returned. -/
theorem c91_range_partial (hf : IsMonoRounding fl) (w bs : ℕ) (hw : 0 < w) (hb : 0 < bs) (hd : 0 < d)
    (pos : α → Point ℝ d) (leafSize : ℕ) (hls : 1 ≤ leafSize) (parallel : Bool) (items : List α)
    (h : items ≠ []) (t : Tree α ℝ d)
    (ht : buildFl fl w bs pos leafSize parallel items = .ok t) (q : Point ℝ d) (r : ℝ) :
    (rangeSearchFl fl pos t q r).Subperm (items.filter fun x => distFl fl q (pos x) ≤ r) ∧
      (items.filter fun x => (∀ i, fl (q i - r) ≤ pos x i ∧
        pos x i ≤ fl (fl (q i - r) + fl (r * 2))) ∧ distFl fl q (pos x) ≤ r).Subperm
        (rangeSearchFl fl pos t q r) := by
  obtain ⟨t', h1, h2, h3⟩ := c91_build hf w bs hw hb hd pos leafSize hls parallel items h
  rw [h1] at ht
  cases ht
  obtain ⟨g1, g2⟩ := rangeHelperFl_between hf pos leafSize t h3 q (queryBoxFl fl q r) r
  refine ⟨?_, ?_⟩
  · exact g2.subperm.trans (h2.filter _).subperm
  · exact ((h2.symm.filter _).subperm).trans g1.subperm

/-- C91, accuracy of the ball search, in terms of exact Euclidean distances. With a relative
rounding error `u` (for `double`, `2^-53`), coordinates of the query of size at most `M`, in `d`
dimensions: every item nearer than `r` by a margin of `3u(M + 3r)` and a relative margin of about
`(d+5)u/2` is returned, and no item farther than `r` by a relative margin of about `(d+5)u/2`. -/
theorem c91_accuracy (hf : IsRounding u fl) (hu : u ≤ 1) (w bs : ℕ) (hw : 0 < w) (hb : 0 < bs)
    (hd : 0 < d) (pos : α → Point ℝ d) (leafSize : ℕ) (hls : 1 ≤ leafSize) (parallel : Bool)
    (items : List α) (h : items ≠ []) (t : Tree α ℝ d)
    (ht : buildFl fl w bs pos leafSize parallel items = .ok t) (q : Point ℝ d) (r : ℝ) (hr : 0 ≤ r)
    (M : ℝ) (hM : ∀ i, |q i| ≤ M) :
    (items.filter fun x => eucl q (pos x) + 3 * u * (M + 3 * r) ≤ r ∧
        (1 + u) ^ (d + 5) * eucl q (pos x) ^ 2 ≤ r ^ 2).Subperm (rangeSearchFl fl pos t q r) ∧
      (rangeSearchFl fl pos t q r).Subperm
        (items.filter fun x => (1 - u) ^ (d + 5) * eucl q (pos x) ^ 2 ≤ r ^ 2) := by
  have hu0 := u_nonneg hf
  obtain ⟨g1, g2⟩ := c91_range_partial hf.toIsMonoRounding w bs hw hb hd pos leafSize hls parallel items h t ht q r
  refine ⟨List.Subperm.trans ?_ g2, g1.trans ?_⟩
  · refine (List.monotone_filter_right items ?_).subperm
    intro x hx
    rw [decide_eq_true_iff] at hx ⊢
    obtain ⟨k1, k2⟩ := hx
    refine ⟨?_, ?_⟩
    · have := queryBoxFl_mem hf hu (q := q) (p := pos x) hr ?_
      · exact this
      · intro i
        have a1 := eucl_coord q (pos x) i
        have a2 : 3 * u * (|q i| + 3 * r) ≤ 3 * u * (M + 3 * r) :=
          mul_le_mul_of_nonneg_left (by linarith [hM i]) (by linarith)
        linarith
    · have b := (distFl_bounds hf hu q (pos x)).2
      rw [eucl_sq] at k2
      exact le_of_sq_le_sq (b.trans k2) hr
  · refine (List.monotone_filter_right items ?_).subperm
    intro x hx
    rw [decide_eq_true_iff] at hx ⊢
    have b := (distFl_bounds hf hu q (pos x)).1
    rw [eucl_sq]
    exact b.trans (pow_le_pow_left₀ (distFl_nonneg hf.toIsMonoRounding _ _) hx 2)

/-- Non-vacuity of `c91_build`, `c91_orthogonal`, `c91_range_partial` and `c91_accuracy`: three
planar points with the rounding of `double`. The search around the origin with radius 4 returns the
origin, and does not return the point at distance 5. -/
example : ∃ t, buildFl (rne 53) 4 2048 (id : Point ℝ 2 → Point ℝ 2) 1 true
      [![0, 0], ![3, 4], ![1, 0]] = .ok t ∧ t.items.Perm [![0, 0], ![3, 4], ![1, 0]] ∧
    Sound id 1 t ∧ ![0, 0] ∈ rangeSearchFl (rne 53) id t ![0, 0] 4 ∧
    ![3, 4] ∉ rangeSearchFl (rne 53) id t ![0, 0] 4 := by
  have hf := isRounding_rne (p := 53) (by norm_num)
  obtain ⟨t, h1, h2, h3⟩ := c91_build hf.toIsMonoRounding 4 2048 (by norm_num) (by norm_num) (by norm_num)
    (id : Point ℝ 2 → Point ℝ 2) 1 (le_refl _) true [![0, 0], ![3, 4], ![1, 0]] (by simp)
  obtain ⟨g1, g2⟩ := c91_accuracy hf (by norm_num) 4 2048 (by norm_num) (by norm_num) (by norm_num)
    (id : Point ℝ 2 → Point ℝ 2) 1 (le_refl _) true [![0, 0], ![3, 4], ![1, 0]] (by simp) t h1
    ![0, 0] 4 (by norm_num) 0 (by intro i; fin_cases i <;> simp)
  refine ⟨t, h1, h2, h3, ?_, ?_⟩
  · apply g1.subset
    rw [List.mem_filter]
    refine ⟨by simp, ?_⟩
    rw [decide_eq_true_iff]
    have : eucl ![0, 0] (id ![(0 : ℝ), 0]) = 0 := eucl_self _
    rw [this]
    norm_num
  · intro hm
    have := g1
    have hm2 := g2.subset hm
    rw [List.mem_filter, decide_eq_true_iff] at hm2
    have h := hm2.2
    have e : eucl ![(0 : ℝ), 0] (id ![(3 : ℝ), 4]) ^ 2 = 25 := by
      rw [eucl_sq]
      simp [distSqr, Fin.sum_univ_two]
      norm_num
    rw [e] at h
    norm_num at h

/-! ### The two searches differ -/

theorem rne_tie3 : rne 53 (2 ^ 53 + 3 : ℝ) = 2 ^ 53 + 4 := by
  rw [rne_eval 1 (by norm_num) (by norm_num), rhe_tie_odd (2 ^ 52 + 1) (by norm_num) (by norm_num)]
  norm_num

theorem rne_tie5 : rne 53 (2 ^ 53 + 5 : ℝ) = 2 ^ 53 + 4 := by
  rw [rne_eval 1 (by norm_num) (by norm_num), rhe_tie_even (2 ^ 52 + 2) (by norm_num) (by norm_num)]
  norm_num

theorem rne_sq : rne 53 ((2 ^ 53 + 4) * (2 ^ 53 + 4) : ℝ) ≤ (2 ^ 53 + 4) * (2 ^ 53 + 4) := by
  rw [rne_eval 54 (by norm_num) (by norm_num), rhe_down (2 ^ 52 + 4) (by norm_num) (by norm_num)]
  norm_num

theorem repr_a : Repr 53 (2 ^ 53 + 4 : ℝ) := ⟨2 ^ 52 + 2, 1, by norm_num, by norm_num⟩

/-- C91 is false of the code as it stands: with the rounding of `double`, for the stored point
`2^53 + 6`, the query point `1` and the radius `2^53 + 4` (all of them `double` values), the
brute-force search reports the point while the tree search does not: the computed distance is
exactly the radius, and the computed query box ends below the point. -/
theorem c91_agree_false : ∃ (P : List (Point ℝ 1)) (q : Point ℝ 1) (r : ℝ) (t : Tree (Point ℝ 1) ℝ 1),
    (∀ p ∈ P, Repr 53 (p 0)) ∧ Repr 53 (q 0) ∧ Repr 53 r ∧
    buildFl (rne 53) 1 1 id 16 false P = .ok t ∧
    bruteforceRangeFl (rne 53) P q r = [0] ∧ rangeSearchFl (rne 53) id t q r = [] := by
  have hf := isRounding_rne (p := 53) (by norm_num)
  have hr : rne 53 (2 ^ 53 + 4 : ℝ) = 2 ^ 53 + 4 := rne_repr (by norm_num) repr_a
  refine ⟨[fun _ => 2 ^ 53 + 6], fun _ => 1, 2 ^ 53 + 4,
    .leaf ⟨fun _ => 2 ^ 53 + 6, fun _ => 2 ^ 53 + 6⟩ [fun _ => 2 ^ 53 + 6], ?_, ?_, repr_a, ?_, ?_,
    ?_⟩
  · intro p hp
    rw [List.mem_singleton] at hp
    subst hp
    exact ⟨2 ^ 52 + 3, 1, by norm_num, by norm_num⟩
  · exact ⟨1, 0, by norm_num, by norm_num⟩
  · simp [buildFl, constructFl, nodeBox, boxSerial, Box.extend, bind, Except.bind, pure,
      Except.pure]
  · have hd : distFl (rne 53) (fun _ => 2 ^ 53 + 6 : Point ℝ 1) (fun _ => 1) ≤ 2 ^ 53 + 4 := by
      have e1 : rne 53 (2 ^ 53 + 6 - 1 : ℝ) = 2 ^ 53 + 4 := by
        rw [← rne_tie5]; congr 1; norm_num
      unfold distFl distSqrFl
      simp only [List.finRange_succ, List.finRange_zero, List.map_nil, List.foldl_cons,
        List.foldl_nil, addSqFl, e1, zero_add]
      rw [← hr]
      apply hf.mono
      rw [Real.sqrt_le_left (by norm_num)]
      have h1 := hf.mono rne_sq
      have h2 := hf.mono h1
      refine le_trans ?_ (le_trans rne_sq (le_of_eq ?_))
      · rw [hr]
        exact h1
      · ring
    simp [bruteforceRangeFl, bruteforceRange, hd]
  · have e1 : rne 53 (1 - (2 ^ 53 + 4) : ℝ) = -(2 ^ 53 + 4) := by
      have : (1 - (2 ^ 53 + 4) : ℝ) = -(2 ^ 53 + 3) := by norm_num
      rw [this, rne_neg, rne_tie3]
    have e2 : rne 53 ((2 ^ 53 + 4) * 2 : ℝ) = (2 ^ 53 + 4) * 2 :=
      rne_repr (by norm_num) ⟨2 ^ 52 + 2, 2, by norm_num, by norm_num⟩
    have e3 : rne 53 (-(2 ^ 53 + 4) + (2 ^ 53 + 4) * 2 : ℝ) = 2 ^ 53 + 4 := by
      have : (-(2 ^ 53 + 4) + (2 ^ 53 + 4) * 2 : ℝ) = 2 ^ 53 + 4 := by ring
      rw [this, hr]
    unfold rangeSearchFl rangeHelper
    have : boxCompare (queryBoxFl (rne 53) (fun _ => 1 : Point ℝ 1) (2 ^ 53 + 4))
        ⟨fun _ => 2 ^ 53 + 6, fun _ => 2 ^ 53 + 6⟩ = .excl := by
      unfold boxCompare
      rw [if_pos]
      refine ⟨0, Or.inl ?_⟩
      show rne 53 (rne 53 (1 - (2 ^ 53 + 4)) + rne 53 ((2 ^ 53 + 4) * 2)) < (2 ^ 53 + 6 : ℝ)
      rw [e1, e2, e3]
      norm_num
    rw [this]

/-! ### Children that are not separated -/

theorem rne_mid : rne 53 (rne 53 (2 ^ 53 + 2 + 2 ^ 53 : ℝ) / 2) = 2 ^ 53 := by
  have e : rne 53 (2 ^ 53 + 2 + 2 ^ 53 : ℝ) = 2 ^ 54 := by
    rw [rne_eval 2 (by norm_num) (by norm_num), rhe_tie_even (2 ^ 52) (by norm_num) (by norm_num)]
    norm_num
  rw [e]
  have h2 : (2 ^ 54 / 2 : ℝ) = 2 ^ 53 := by norm_num
  rw [h2]
  exact rne_repr (by norm_num) ⟨2 ^ 52, 1, by norm_num, by norm_num⟩

/-- The four corners of a square whose side is the distance of two neighbouring `double`s. -/
def tiny : List (Point ℝ 2) :=
  [![2 ^ 53, 2 ^ 53], ![2 ^ 53 + 2, 2 ^ 53 + 2], ![2 ^ 53, 2 ^ 53 + 2], ![2 ^ 53 + 2, 2 ^ 53]]

/-- The box of the four corners, and of each of the two pairs of opposite corners. -/
def tinyBox : Box ℝ 2 := ⟨![2 ^ 53, 2 ^ 53], ![2 ^ 53 + 2, 2 ^ 53 + 2]⟩

/-- The tree built over the four corners. -/
def tinyTree : Tree (Point ℝ 2) ℝ 2 :=
  .node tinyBox (.leaf tinyBox (tiny.take 2)) (.leaf tinyBox (tiny.drop 2))

theorem tiny_build : buildFl (rne 53) 1 1 id 2 false tiny = .ok tinyTree := by
  have hf := isRounding_rne (p := 53) (by norm_num)
  have hab : (2 ^ 53 : ℝ) ≤ 2 ^ 53 + 2 := by norm_num
  have hmid := rne_mid
  have b1 : boxSerial id tiny = .ok tinyBox := by
    simp only [boxSerial, tiny, tinyBox, List.foldl_cons, List.foldl_nil, Box.extend, id]
    congr 2 <;> funext i <;> fin_cases i <;> simp [hab]
  have b2 : boxSerial id (tiny.take 2) = .ok tinyBox := by
    simp only [boxSerial, tiny, tinyBox, List.take, List.foldl_cons, List.foldl_nil, Box.extend, id]
    congr 2 <;> funext i <;> fin_cases i <;> simp [hab]
  have b3 : boxSerial id (tiny.drop 2) = .ok tinyBox := by
    simp only [boxSerial, tiny, tinyBox, List.drop, List.foldl_cons, List.foldl_nil, Box.extend, id]
    congr 2 <;> funext i <;> fin_cases i <;> simp [hab]
  obtain ⟨k, hk⟩ := findWidestFl_ok hf.toIsMonoRounding tinyBox (by norm_num) (by
    intro i
    fin_cases i <;> simpa [tinyBox] using hab)
  have hxM : rne 53 (rne 53 (tinyBox.hi k + tinyBox.lo k) / 2) = 2 ^ 53 := by
    fin_cases k <;> simpa [tinyBox] using hmid
  have hsp : splitItemSerial (fun x : Point ℝ 2 => id x k) (2 ^ 53) tiny = .ok (tiny, 0) := by
    have hge : ∀ x ∈ tiny, (2 ^ 53 : ℝ) ≤ x k := by
      intro x hx
      simp only [tiny, List.mem_cons, List.not_mem_nil, or_false] at hx
      rcases hx with rfl | rfl | rfl | rfl <;> fin_cases k <;> simp
    have g0 := hge ![2 ^ 53, 2 ^ 53] (by simp [tiny])
    have g1 := hge ![2 ^ 53 + 2, 2 ^ 53 + 2] (by simp [tiny])
    have g2 := hge ![2 ^ 53, 2 ^ 53 + 2] (by simp [tiny])
    have g3 := hge ![2 ^ 53 + 2, 2 ^ 53] (by simp [tiny])
    simp [splitItemSerial, tiny, splitLoop, scanRight, g0, g1, g2, g3, not_lt.mpr g0]
  unfold buildFl
  have hl : tiny.length + 1 = 3 + 2 := rfl
  rw [hl]
  unfold constructFl
  have hlen : tiny.length = 4 := rfl
  simp only [Bool.false_and, nodeBox, Bool.false_eq_true, if_false, b1, bind, Except.bind, pure,
    Except.pure, hlen, hk, hxM, nodeSplit, hsp, nodeMedian]
  rw [if_neg (by norm_num)]
  norm_num
  unfold constructFl
  simp only [Bool.false_and, nodeBox, Bool.false_eq_true, if_false, b2, b3, bind, Except.bind, pure,
    Except.pure]
  simp [tiny, tinyTree]

/-- Exact arithmetic separates the two children of every node of distinct points by a coordinate
(C01). With the rounding of `double` it does not: between two neighbouring `double`s the midpoint is
rounded to one of them, the split fails, and the items are cut in the middle of the list, whatever
their positions. Here four distinct points are put into two leaves with the same box. -/
theorem c91_separated_false : ∃ (P : List (Point ℝ 2)) (t : Tree (Point ℝ 2) ℝ 2),
    P.Nodup ∧ (∀ p ∈ P, ∀ i, Repr 53 (p i)) ∧ buildFl (rne 53) 1 1 id 2 false P = .ok t ∧
    ¬ Separated id t := by
  have hab : (2 ^ 53 : ℝ) < 2 ^ 53 + 2 := by norm_num
  have hra : Repr 53 (2 ^ 53 : ℝ) := ⟨2 ^ 52, 1, by norm_num, by norm_num⟩
  have hrb : Repr 53 (2 ^ 53 + 2 : ℝ) := ⟨2 ^ 52 + 1, 1, by norm_num, by norm_num⟩
  refine ⟨tiny, tinyTree, ?_, ?_, tiny_build, ?_⟩
  · have h0 : ∀ {x y : Point ℝ 2} (i : Fin 2), x i ≠ y i → x ≠ y :=
      fun i h e => h (congrFun e i)
    simp only [tiny, List.nodup_cons, List.mem_cons, List.not_mem_nil, or_false, not_or,
      not_false_eq_true, List.nodup_nil, and_true]
    exact ⟨⟨h0 0 hab.ne, h0 1 hab.ne, h0 0 hab.ne⟩, ⟨h0 0 hab.ne', h0 1 hab.ne'⟩, h0 0 hab.ne⟩
  · intro p hp i
    simp only [tiny, List.mem_cons, List.not_mem_nil, or_false] at hp
    rcases hp with rfl | rfl | rfl | rfl <;> fin_cases i <;> first | exact hra | exact hrb
  · rintro ⟨h, -⟩
    simp only [Tree.items, tiny, List.take, List.drop] at h
    rcases h with ⟨k, c, h⟩ | h
    · rcases h with ⟨h1, h2⟩ | ⟨h1, h2⟩
      · have l := h1 ![2 ^ 53 + 2, 2 ^ 53 + 2] (by simp)
        have r1 := h2 ![2 ^ 53, 2 ^ 53 + 2] (by simp)
        have r2 := h2 ![2 ^ 53 + 2, 2 ^ 53] (by simp)
        fin_cases k <;> simp at l r1 r2 <;> linarith
      · have l := h1 ![2 ^ 53, 2 ^ 53] (by simp)
        have r1 := h2 ![2 ^ 53, 2 ^ 53 + 2] (by simp)
        have r2 := h2 ![2 ^ 53 + 2, 2 ^ 53] (by simp)
        fin_cases k <;> simp at l r1 r2 <;> linarith
    · have := h ![2 ^ 53, 2 ^ 53] (by simp) ![2 ^ 53 + 2, 2 ^ 53 + 2] (by simp)
      have := congrFun this 0
      simp at this

end Verif.KdTree
