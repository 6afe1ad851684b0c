import Verif.KdTree.KnnFloatLemmas

set_option linter.unusedSectionVars false
set_option linter.unusedVariables false

/-!
Property C93: the `k` nearest neighbour search of the kd-tree in rounded arithmetic.
-/

namespace Verif.KdTree

open Verif.Float Verif.KnnBuf

variable {α : Type} {d : ℕ} {u : ℝ} {fl : ℝ → ℝ}

/-- Points outside the computed query box are far, up to a few roundings. -/
theorem slack_of (hf : IsRounding u fl) (hu : 9 * u ≤ 1) {q : Point ℝ d} {M : ℝ} (hM0 : 0 ≤ M)
    (hM : ∀ i, |q i| ≤ M) :
    Slack fl q fun r => (1 - u) ^ (d + 5) * ((1 - 9 * u) * r - 3 * u * M) := by
  have hu0 := u_nonneg hf
  have hc0 : 0 ≤ (1 - u) ^ (d + 5) := pow_nonneg (by linarith) _
  have hc1 : (1 - u) ^ (d + 5) ≤ 1 := pow_le_one₀ (by linarith) (by linarith)
  have hn := distFl_nonneg (d := d) hf.toIsMonoRounding
  have huM : 0 ≤ u * M := mul_nonneg hu0 hM0
  refine ⟨fun p => hn q p, ?_, ?_, ?_⟩
  · intro r s hrs
    apply mul_le_mul_of_nonneg_left _ hc0
    have := mul_le_mul_of_nonneg_left hrs (by linarith : 0 ≤ 1 - 9 * u)
    linarith
  · intro r hr
    have hur : 0 ≤ u * r := mul_nonneg hu0 hr
    have h1 : (1 - 9 * u) * r - 3 * u * M ≤ r := by nlinarith
    calc _ ≤ (1 - u) ^ (d + 5) * r := mul_le_mul_of_nonneg_left h1 hc0
      _ ≤ 1 * r := mul_le_mul_of_nonneg_right hc1 hr
      _ = r := one_mul r
  · intro r p hr hmem
    by_contra hlt
    rw [not_le] at hlt
    apply hmem
    apply queryBoxFl_mem hf (by linarith) hr
    intro i
    by_contra hi
    rw [not_le] at hi
    have h1 := eucl_coord q p i
    have h2 : 3 * u * (|q i| + 3 * r) ≤ 3 * u * (M + 3 * r) :=
      mul_le_mul_of_nonneg_left (by linarith [hM i]) (by linarith)
    have h3 : (1 - 9 * u) * r - 3 * u * M ≤ eucl q p := by linarith
    have h4 : (1 - u) ^ (d + 5) * eucl q p ≤ distFl fl q p := by
      apply le_of_sq_le_sq _ (hn q p)
      have h5 := (distFl_bounds hf (by linarith) q p).1
      rw [← eucl_sq] at h5
      refine le_trans ?_ h5
      rw [mul_pow]
      apply mul_le_mul_of_nonneg_right _ (sq_nonneg _)
      rw [sq]
      exact mul_le_of_le_one_left hc0 hc1
    exact absurd (lt_of_le_of_lt h4 (hlt.trans_le (mul_le_mul_of_nonneg_left h3 hc0))) (lt_irrefl _)

/-- C93. The kd-tree search for the `k` nearest neighbours with every operation rounded with
relative error `u`, on points of size at most `M` whose coordinates are equal or more than a few
roundings apart, no position being shared by more than `leafSize` points: `batchKnn` returns without
error and gives every query `k` different stored indices; the computed distance `c` of a returned
point and the computed distance `c'` of any other point satisfy
`(1-u)^(d+5) ((1-9u) c - 3uM) ≤ c'`, so that the answer is right up to a few roundings; with
`sorted` they come in order of the computed distance. Missing for the full property: closer points,
where it is false (`c93_duplicates_false`). -/
theorem c93_knn_partial {n : ℕ} (hf : IsRounding u fl) (hu : 9 * u ≤ 1) (w bs : ℕ) (hw : 0 < w)
    (hb : 0 < bs) (hd : 0 < d) (P : Fin n → Point ℝ d) (leafSize : ℕ) (hls : 1 ≤ leafSize)
    (parallel : Bool) (t : Tree (Fin n) ℝ d)
    (ht : buildFl fl w bs P leafSize parallel (List.finRange n) = .ok t)
    (hsp : ∀ x y i, P x i < P y i → 3 * u * (|P x i| + |P y i|) < P y i - P x i)
    (hm : ∀ p, ((List.finRange n).countP fun i => P i = p) ≤ leafSize) (M : ℝ)
    (hM : ∀ x i, |P x i| ≤ M) (nth : Nth (Fin n) ℝ) (hn : NthSpec nth)
    (srt : List (Slot (Fin n) ℝ) → List (Slot (Fin n) ℝ)) (hsrt : SortSpec srt)
    (k : ℕ) (hk : 1 ≤ k) (hkn : k ≤ n) (sorted : Bool) :
    ∃ rows, batchKnnFl fl nth srt P k t sorted = .ok rows ∧
      List.Forall₂ (fun i row => row.length = k ∧ row.Nodup ∧
        (∀ x ∈ row, ∀ y, y ∉ row → (1 - u) ^ (d + 5) *
          ((1 - 9 * u) * distFl fl (P i) (P x) - 3 * u * M) ≤ distFl fl (P i) (P y)) ∧
        (sorted → row.Pairwise fun x y => distFl fl (P i) (P x) ≤ distFl fl (P i) (P y)))
        (List.finRange n) rows := by
  have hu0 := u_nonneg hf
  have hne : List.finRange n ≠ [] := by
    intro h
    have := congrArg List.length h
    simp at this
    omega
  obtain ⟨t', h1, h2, h3, h4⟩ := constructFl_sep hf (by linarith) w bs hw hb hd P leafSize hls
    ((List.finRange n).length + 1) parallel (List.finRange n) hne (Nat.lt_succ_self _)
    (fun x _ y _ i h => hsp x y i h)
  have ht' : constructFl fl w bs P leafSize ((List.finRange n).length + 1) parallel
      (List.finRange n) = .ok t := ht
  rw [h1] at ht'
  cases ht'
  have hdisj := disjointBoxes_of_sound hls t h3 h4 (by
    intro p
    rw [h2.countP_eq]
    exact hm p)
  unfold batchKnnFl
  apply collect_ok
  intro i _
  have hM0 : 0 ≤ M := (abs_nonneg (P i ⟨0, hd⟩)).trans (hM i ⟨0, hd⟩)
  obtain ⟨res, h5, h6, h7⟩ := knnQuery_okFl hn hsrt P (P i) (slack_of hf hu hM0 (hM i)) k leafSize
    hk sorted t h3 hdisj ⟨i, h2.mem_iff.mpr (List.mem_finRange i), rfl⟩
    (by rw [h2.length_eq]; simpa using hkn)
  refine ⟨res, h5, h6.1, ?_, ?_, h7⟩
  · obtain ⟨_, rest, hr1, _⟩ := h6
    have := (hr1.trans h2).nodup_iff.mpr (List.nodup_finRange n)
    exact (List.nodup_append.mp this).1
  · intro x hx y hy
    obtain ⟨_, rest, hr1, hr2⟩ := h6
    refine hr2 x hx y ?_
    have := (hr1.trans h2).mem_iff.mpr (List.mem_finRange y)
    rw [List.mem_append] at this
    exact this.resolve_left hy

/-- C93: under the same conditions asking for more neighbours than there are points throws, in every query. -/
theorem c93_few_partial {n : ℕ} (hf : IsRounding u fl) (hu : 9 * u ≤ 1) (w bs : ℕ) (hw : 0 < w)
    (hb : 0 < bs) (hd : 0 < d) (P : Fin n → Point ℝ d) (leafSize : ℕ) (hls : 1 ≤ leafSize)
    (parallel : Bool) (t : Tree (Fin n) ℝ d)
    (ht : buildFl fl w bs P leafSize parallel (List.finRange n) = .ok t)
    (hsp : ∀ x y i, P x i < P y i → 3 * u * (|P x i| + |P y i|) < P y i - P x i)
    (hm : ∀ p, ((List.finRange n).countP fun i => P i = p) ≤ leafSize) (M : ℝ)
    (hM : ∀ x i, |P x i| ≤ M) (nth : Nth (Fin n) ℝ) (hn : NthSpec nth)
    (srt : List (Slot (Fin n) ℝ) → List (Slot (Fin n) ℝ)) (k : ℕ) (hkn : n < k) (sorted : Bool) (i : Fin n) :
    knnQueryFl fl nth srt P k sorted t (P i) = .error .throws := by
  have hne : List.finRange n ≠ [] := List.ne_nil_of_mem (List.mem_finRange i)
  have hu0 := u_nonneg hf
  obtain ⟨t', h1, h2, h3, h4⟩ := constructFl_sep hf (by linarith) w bs hw hb hd P leafSize hls
    ((List.finRange n).length + 1) parallel (List.finRange n) hne (Nat.lt_succ_self _)
    (fun x _ y _ i h => hsp x y i h)
  have ht' : constructFl fl w bs P leafSize ((List.finRange n).length + 1) parallel
      (List.finRange n) = .ok t := ht
  rw [h1] at ht'
  cases ht'
  have hdisj := disjointBoxes_of_sound hls t h3 h4 (by
    intro p
    rw [h2.countP_eq]
    exact hm p)
  have hM0 : 0 ≤ M := (abs_nonneg (P i ⟨0, hd⟩)).trans (hM i ⟨0, hd⟩)
  obtain ⟨b, I, ⟨lost, h5⟩, ⟨R, hR, -⟩, h6⟩ := knnHelper_okFl hn P (P i) (slack_of hf hu hM0 (hM i)) k leafSize
    (by omega) t h3 hdisj ⟨i, h2.mem_iff.mpr (List.mem_finRange i), rfl⟩
  have hhas : b.hasK = false := by
    unfold Buf.hasK
    rw [decide_eq_false_iff_not, h5.hk, h5.ptr_iff]
    have h7 := hR.length_eq
    have h8 := h2.length_eq
    simp at h7 h8 ⊢
    omega
  unfold knnQueryFl
  rw [h6]
  simp [knnSiblingFl, hhas, Except.bind]

/-- Non-vacuity of `c93_few_partial`: one point, two neighbours asked for, `double`. -/
example : ∃ t : Tree (Fin 1) ℝ 1, buildFl (rne 53) 1 1 (fun _ => ![(7 : ℝ)]) 1 false (List.finRange 1) = .ok t ∧
    knnQueryFl (rne 53) (fun _ l => sortSlots l) sortSlots (fun _ => ![(7 : ℝ)]) 2 true t ![(7 : ℝ)] = .error .throws := by
  have hf := isRounding_rne (p := 53) (by norm_num)
  obtain ⟨t, ht, -⟩ := c91_build hf.toIsMonoRounding 1 1 (by decide) (by decide) (by decide)
    (fun _ => ![(7 : ℝ)] : Fin 1 → Point ℝ 1) 1 (by decide) false (List.finRange 1) (by decide)
  exact ⟨t, ht, c93_few_partial hf (by norm_num) 1 1 (by decide) (by decide) (by decide)
    (fun _ => ![(7 : ℝ)] : Fin 1 → Point ℝ 1) 1 (by decide) false t ht (fun x y i h => absurd h (lt_irrefl _))
    (fun p => List.countP_le_length) 7 (fun x i => by fin_cases i; simp) _ nthSpec_sort _ 2 (by decide) true 0⟩

/-- Non-vacuity of `c93_knn_partial`: five points on a line, leaf size 2, k = 3, `double`. -/
example : ∃ rows : List (List (Fin 5)), ∃ t,
    buildFl (rne 53) 1 1 (fun i => ![(i : ℝ)] : Fin 5 → Point ℝ 1) 2 false (List.finRange 5) = .ok t ∧
    batchKnnFl (rne 53) (fun _ l => sortSlots l) sortSlots (fun i => ![(i : ℝ)]) 3 t true = .ok rows ∧
    rows.length = 5 := by
  have hf := isRounding_rne (p := 53) (by norm_num)
  obtain ⟨t, ht, -⟩ := c91_build hf.toIsMonoRounding 1 1 (by decide) (by decide) (by decide)
    (fun i => ![(i : ℝ)] : Fin 5 → Point ℝ 1) 2 (by decide) false (List.finRange 5) (by decide)
  obtain ⟨rows, h1, h2⟩ := c93_knn_partial hf (by norm_num) 1 1 (by decide) (by decide) (by decide)
    (fun i => ![(i : ℝ)] : Fin 5 → Point ℝ 1) 2 (by decide) false t ht (by
      intro x y i h
      fin_cases i
      have h' : (x : ℝ) < (y : ℝ) := by simpa using h
      have h'' : (x : ℕ) + 1 ≤ (y : ℕ) := by exact_mod_cast h'
      have h3 : (x : ℝ) + 1 ≤ (y : ℝ) := by exact_mod_cast h''
      have h4 : (y : ℝ) ≤ 4 := by exact_mod_cast Nat.le_of_lt_succ y.isLt
      have h5 : (0 : ℝ) ≤ x := by positivity
      simp only [Fin.zero_eta, Matrix.cons_val_zero, Fin.isValue]
      rw [abs_of_nonneg h5, abs_of_nonneg (by linarith : (0 : ℝ) ≤ y)]
      have : (3 : ℝ) * (1 / 2 ^ 53) * (x + y) ≤ 3 * (1 / 2 ^ 53) * 8 :=
        mul_le_mul_of_nonneg_left (by linarith) (by norm_num)
      norm_num at this ⊢
      linarith) (by
      intro p
      have hinj : ∀ i j : Fin 5, (![(i : ℝ)] : Point ℝ 1) = p → (![(j : ℝ)] : Point ℝ 1) = p →
          i = j := by
        intro i j hi hj
        have := congrFun (hi.trans hj.symm) 0
        simpa [Fin.val_inj] using this
      have : ((List.finRange 5).filter fun j : Fin 5 => (![(j : ℝ)] : Point ℝ 1) = p).length ≤ 1 := by
        have hnd := (List.nodup_finRange 5).filter (fun j : Fin 5 => (![(j : ℝ)] : Point ℝ 1) = p)
        by_contra hlt
        rw [not_le] at hlt
        have a := List.getElem_mem (l := (List.finRange 5).filter fun j : Fin 5 =>
          (![(j : ℝ)] : Point ℝ 1) = p) (n := 0) (by omega)
        have b := List.getElem_mem (l := (List.finRange 5).filter fun j : Fin 5 =>
          (![(j : ℝ)] : Point ℝ 1) = p) (n := 1) hlt
        have a' := (List.mem_filter.mp a).2
        have b' := (List.mem_filter.mp b).2
        have := hinj _ _ (by simpa using a') (by simpa using b')
        have := (List.Nodup.getElem_inj_iff hnd).mp this
        omega
      rw [List.countP_eq_length_filter]
      omega) 4 (by
      intro x i
      fin_cases i
      have h4 : (x : ℝ) ≤ 4 := by exact_mod_cast Nat.le_of_lt_succ x.isLt
      simp only [Fin.zero_eta, Matrix.cons_val_zero, Fin.isValue]
      rw [abs_of_nonneg (by positivity)]
      exact h4)
    (fun _ l => sortSlots l) nthSpec_sort sortSlots sortSpec_sort 3 (by decide) (by decide) true
  exact ⟨rows, t, ht, h1, by have := h2.length_eq; simpa using this.symm⟩

/-! ### Points one unit in the last place apart -/

/-- The four corners of a square whose side is the distance of two neighbouring `double`s, the
opposite corners first. -/
def corner : Fin 4 → Point ℝ 2 :=
  ![![2 ^ 53, 2 ^ 53], ![2 ^ 53 + 2, 2 ^ 53 + 2], ![2 ^ 53, 2 ^ 53 + 2], ![2 ^ 53 + 2, 2 ^ 53]]

/-- The tree built over the four corners with leaf size 2. -/
def cornerTree : Tree (Fin 4) ℝ 2 := .node tinyBox (.leaf tinyBox [0, 1]) (.leaf tinyBox [2, 3])

theorem corner_build : buildFl (rne 53) 1 1 corner 2 false [0, 1, 2, 3] = .ok cornerTree := by
  have hf := isRounding_rne (p := 53) (by norm_num)
  have hab : (2 ^ 53 : ℝ) ≤ 2 ^ 53 + 2 := by norm_num
  have hmid := rne_mid
  have b1 : boxSerial corner [0, 1, 2, 3] = .ok tinyBox := by
    simp only [boxSerial, corner, tinyBox, List.foldl_cons, List.foldl_nil, Box.extend]
    congr 2 <;> funext i <;> fin_cases i <;> simp [hab]
  have b2 : boxSerial corner [0, 1] = .ok tinyBox := by
    simp only [boxSerial, corner, tinyBox, List.foldl_cons, List.foldl_nil, Box.extend]
    congr 2 <;> funext i <;> fin_cases i <;> simp [hab]
  have b3 : boxSerial corner [2, 3] = .ok tinyBox := by
    simp only [boxSerial, corner, tinyBox, List.foldl_cons, List.foldl_nil, Box.extend]
    congr 2 <;> funext i <;> fin_cases i <;> simp [hab]
  obtain ⟨k, hk⟩ := findWidestFl_ok hf.toIsMonoRounding tinyBox (by norm_num) (by
    intro i
    fin_cases i <;> simpa [tinyBox] using hab)
  have hxM : rne 53 (rne 53 (tinyBox.hi k + tinyBox.lo k) / 2) = 2 ^ 53 := by
    fin_cases k <;> simpa [tinyBox] using hmid
  have hsp : splitItemSerial (fun x : Fin 4 => corner x k) (2 ^ 53) [0, 1, 2, 3]
      = .ok ([0, 1, 2, 3], 0) := by
    have hge : ∀ x, (2 ^ 53 : ℝ) ≤ corner x k := by
      intro x
      fin_cases x <;> fin_cases k <;> simp [corner]
    simp [splitItemSerial, splitLoop, scanRight, hge, not_lt.mpr (hge 0)]
  unfold buildFl
  have hl : ([0, 1, 2, 3] : List (Fin 4)).length + 1 = 3 + 2 := rfl
  rw [hl]
  unfold constructFl
  have hlen : ([0, 1, 2, 3] : List (Fin 4)).length = 4 := rfl
  simp only [Bool.false_and, nodeBox, Bool.false_eq_true, if_false, b1, bind, Except.bind, pure,
    Except.pure, hlen, hk, hxM, nodeSplit, hsp, nodeMedian]
  rw [if_neg (by norm_num)]
  norm_num
  unfold constructFl
  simp only [Bool.false_and, nodeBox, Bool.false_eq_true, if_false, b2, b3, bind, Except.bind, pure,
    Except.pure]
  simp [cornerTree]

theorem corner_dist : distFl (rne 53) (corner 0) (corner 2) < distFl (rne 53) (corner 0) (corner 1) := by
  have hf := isRounding_rne (p := 53) (by norm_num)
  have h1 := (distFl_bounds hf (by norm_num) (corner 0) (corner 2)).2
  have h2 := (distFl_bounds hf (by norm_num) (corner 0) (corner 1)).1
  have e1 : distSqr (corner 0) (corner 2) = 4 := by
    simp [distSqr, Fin.sum_univ_two, corner]; norm_num
  have e2 : distSqr (corner 0) (corner 1) = 8 := by
    simp [distSqr, Fin.sum_univ_two, corner]; norm_num
  rw [e1] at h1
  rw [e2] at h2
  apply lt_of_pow_lt_pow_left₀ 2 (distFl_nonneg hf.toIsMonoRounding _ _)
  refine lt_of_le_of_lt h1 (lt_of_lt_of_le ?_ h2)
  norm_num

theorem corner_dist3 : distFl (rne 53) (corner 0) (corner 3) < distFl (rne 53) (corner 0) (corner 1) := by
  have hf := isRounding_rne (p := 53) (by norm_num)
  have h1 := (distFl_bounds hf (by norm_num) (corner 0) (corner 3)).2
  have h2 := (distFl_bounds hf (by norm_num) (corner 0) (corner 1)).1
  have e1 : distSqr (corner 0) (corner 3) = 4 := by
    simp [distSqr, Fin.sum_univ_two, corner]; norm_num
  have e2 : distSqr (corner 0) (corner 1) = 8 := by
    simp [distSqr, Fin.sum_univ_two, corner]; norm_num
  rw [e1] at h1
  rw [e2] at h2
  apply lt_of_pow_lt_pow_left₀ 2 (distFl_nonneg hf.toIsMonoRounding _ _)
  refine lt_of_le_of_lt h1 (lt_of_lt_of_le ?_ h2)
  norm_num

theorem corner_mem : tinyBox.Mem (corner 0) := by
  intro i
  fin_cases i <;> simp [tinyBox, corner]

/-- The slack that says nothing. -/
theorem slack_zero (hf : IsMonoRounding fl) (q : Point ℝ d) : Slack fl q fun _ => 0 :=
  ⟨fun p => distFl_nonneg hf q p, fun _ _ _ => le_refl _, fun _ h => h,
    fun _ p _ _ => distFl_nonneg hf q p⟩

theorem knnHelperFl_leaf {nth : Nth α ℝ} {pos : α → Point ℝ d} {q : Point ℝ d} {box : Box ℝ d}
    (h : box.Mem q) (items : List α) (sib : Option (Tree α ℝ d)) (b : Buf α ℝ) :
    knnHelperFl fl nth pos q (.leaf box items) sib b =
      (insertItems nth (distFl fl) pos q items b).bind (knnSiblingFl fl nth pos q sib) := by
  have hne : boxCompare box ⟨q, q⟩ ≠ .excl := by rw [Ne, boxCompare_point, not_not]; exact h
  unfold knnHelperFl
  split
  · rename_i h; exact absurd h hne
  · rfl

theorem knnHelperFl_node {nth : Nth α ℝ} {pos : α → Point ℝ d} {q : Point ℝ d} {box : Box ℝ d}
    (h : box.Mem q) (l r : Tree α ℝ d) (sib : Option (Tree α ℝ d)) (b : Buf α ℝ) :
    knnHelperFl fl nth pos q (.node box l r) sib b =
      ((knnHelperFl fl nth pos q l (some r) b).bind
        (knnHelperFl fl nth pos q r (some l))).bind (knnSiblingFl fl nth pos q sib) := by
  have hne : boxCompare box ⟨q, q⟩ ≠ .excl := by rw [Ne, boxCompare_point, not_not]; exact h
  conv_lhs => unfold knnHelperFl
  split
  · rename_i h; exact absurd h hne
  · rfl

theorem Holds.hasK_eq {k : ℕ} {cost : α → ℝ} {I : List α} {b : Buf α ℝ} (h : Holds k cost I b) :
    b.hasK = decide (k ≤ I.length) := by
  obtain ⟨lost, h⟩ := h
  have := h.ptr_iff
  rw [List.length_map] at this
  unfold Buf.hasK
  rw [h.hk]
  exact decide_eq_decide.mpr this

/-- C93 is false for close points, even if all are different: four different `double` points, leaf
size 2, `k = 4`. Asked for the four nearest neighbours of the first, the search returns a row with a
repeated index which misses the second, whatever the selection and sorting routines do. -/
theorem c93_duplicates_false : ∃ (P : Fin 4 → Point ℝ 2) (t : Tree (Fin 4) ℝ 2),
    Function.Injective P ∧ (∀ x i, Repr 53 (P x i)) ∧
    buildFl (rne 53) 1 1 P 2 false (List.finRange 4) = .ok t ∧
    ∀ (nth : Nth (Fin 4) ℝ), NthSpec nth → ∀ (srt : List (Slot (Fin 4) ℝ) → List (Slot (Fin 4) ℝ)),
      ∃ row, knnQueryFl (rne 53) nth srt P 4 false t (P 0) = .ok row ∧ ¬ row.Nodup ∧ 1 ∉ row := by
  have hf := isRounding_rne (p := 53) (by norm_num)
  have hm := hf.toIsMonoRounding
  have hab : (2 ^ 53 : ℝ) < 2 ^ 53 + 2 := by norm_num
  have hra : Repr 53 (2 ^ 53 : ℝ) := ⟨2 ^ 52, 1, by norm_num, by norm_num⟩
  have hrb : Repr 53 (2 ^ 53 + 2 : ℝ) := ⟨2 ^ 52 + 1, 1, by norm_num, by norm_num⟩
  have hbuild : buildFl (rne 53) 1 1 corner 2 false (List.finRange 4) = .ok cornerTree :=
    corner_build
  refine ⟨corner, cornerTree, ?_, ?_, hbuild, ?_⟩
  · intro x y h
    have h0 := congrFun h 0
    have h1 := congrFun h 1
    fin_cases x <;> fin_cases y <;> simp [corner] at h0 h1 ⊢
  · intro x i
    fin_cases x <;> fin_cases i <;> first | exact hra | exact hrb
  · intro nth hn srt
    obtain ⟨t', ht', -, hs⟩ := c91_build hm 1 1 (by norm_num) (by norm_num) (by norm_num) corner 2
      (by norm_num) false (List.finRange 4) (by decide)
    rw [hbuild] at ht'
    cases ht'
    have hsl := hs.2.2.1
    have hφ := slack_zero hm (corner 0)
    obtain ⟨b1, e1, i1⟩ := insertItems_ok hn (distFl (rne 53)) corner (corner 0) 4 [0, 1] []
      (Buf.new 4) ⟨[], inv_new 4 (by norm_num)⟩
    obtain ⟨b2, e2, i2⟩ := insertItems_ok hn (distFl (rne 53)) corner (corner 0) 4 [2, 3] _ b1 i1
    obtain ⟨b3, e3, i3⟩ := insertItems_ok hn (distFl (rne 53)) corner (corner 0) 4 [2, 3] _ b2 i2
    have k1 := i1.hasK_eq
    have k3 := i3.hasK_eq
    obtain ⟨lost, l3⟩ := i3
    obtain ⟨b4, kept4, r4, e4, l4, -, -, h3, h4, -⟩ := l3.keepK_spec hn (by simp)
    have hr0 : 0 ≤ r4.1 := by
      obtain ⟨-, rest, hp, -⟩ := h3
      have hm := hp.mem_iff.mp (List.mem_append_left rest h4)
      rw [List.mem_map] at hm
      obtain ⟨p, -, rfl⟩ := hm
      exact hφ.nonneg _
    obtain ⟨b5, S, R, e5, i5, -, -⟩ := knnRangeHelper_okFl hn corner (corner 0) hφ 4 2 r4.1 hr0 _ hsl
      _ b4 ⟨lost, l4⟩
    have k5 := i5.hasK_eq
    obtain ⟨lost5, l5⟩ := i5
    obtain ⟨b6, kept, r6, e6, l6, p6, q6, h6, -, -⟩ := l5.keepK_spec hn (by simp)
    obtain ⟨keep, h9, h10⟩ := kSmallest_map h6
    have hbuf : b6.buf = [] ++ kept.map some ++ b6.buf.drop 4 := by
      rw [List.nil_append, ← q6, List.take_append_drop]
    have hread := readEntries_ok b6 kept [] 0 rfl _ hbuf (by rw [p6, h6.1])
    rw [h6.1] at hread
    have hk1 : b1.hasK = false := by rw [k1]; rfl
    have hk3 : b3.hasK = true := by rw [k3]; rfl
    have hk5 : b5.hasK = true := by
      rw [k5, decide_eq_true_iff]
      simp
    have hL : knnHelperFl (rne 53) nth corner (corner 0) (.leaf tinyBox [0, 1])
        (some (.leaf tinyBox [2, 3])) (Buf.new 4) = .ok b2 := by
      rw [knnHelperFl_leaf corner_mem, e1]
      simp only [Except.bind, knnSiblingFl, hk1, Bool.false_eq_true, if_false, Tree.items]
      exact e2
    have hR : knnHelperFl (rne 53) nth corner (corner 0) (.leaf tinyBox [2, 3])
        (some (.leaf tinyBox [0, 1])) b2 = .ok b5 := by
      rw [knnHelperFl_leaf corner_mem, e3]
      simp only [Except.bind, knnSiblingFl, hk3, if_true, e4, knnRangeFl]
      exact e5
    have hrun : knnQueryFl (rne 53) nth srt corner 4 false cornerTree (corner 0) = .ok keep := by
      unfold knnQueryFl cornerTree
      rw [knnHelperFl_node corner_mem, hL]
      simp only [Except.bind]
      rw [hR]
      simp only [knnSiblingFl, hk5, if_true, e6, maybeSort, Bool.false_eq_true, if_false]
      rw [hread, h9, List.map_map]
      simp [Function.comp_def]
    have h1 : (1 : Fin 4) ∉ keep := by
      intro hk
      obtain ⟨hlen, rest, hp, hle⟩ := h10
      have c2 : (2 : Fin 4) ∉ rest := fun h => absurd (hle 1 hk 2 h) (not_le.mpr corner_dist)
      have c3 : (3 : Fin 4) ∉ rest := fun h => absurd (hle 1 hk 3 h) (not_le.mpr corner_dist3)
      have n2 := hp.count_eq 2
      have n3 := hp.count_eq 3
      have n1 := List.count_pos_iff.mpr hk
      rw [List.count_append, List.count_eq_zero_of_not_mem c2] at n2
      rw [List.count_append, List.count_eq_zero_of_not_mem c3] at n3
      simp only [List.count_append] at n2 n3
      have v2 : List.count (2 : Fin 4) [2, 3] = 1 := by decide
      have v3 : List.count (3 : Fin 4) [2, 3] = 1 := by decide
      rw [v2] at n2
      rw [v3] at n3
      have hsum : keep.count 0 + keep.count 1 + keep.count 2 + keep.count 3 = keep.length := by
        clear * -
        induction keep with
        | nil => rfl
        | cons a l ih =>
          simp only [List.count_cons, List.length_cons, ← ih]
          fin_cases a <;> simp <;> omega
      omega
    refine ⟨keep, hrun, ?_, h1⟩
    intro hnd
    have hfin : keep.toFinset = Finset.univ := by
      rw [Finset.eq_univ_iff_forall] 
      have : keep.toFinset.card = Fintype.card (Fin 4) := by
        rw [List.toFinset_card_of_nodup hnd, h10.1]; rfl
      rw [Finset.card_eq_iff_eq_univ] at this
      rw [this]
      simp
    exact h1 (by rw [← List.mem_toFinset, hfin]; simp)

end Verif.KdTree
