import Verif.KdTree.RangeModel
import Verif.KdTree.BuildProps
import Verif.Metric

set_option linter.unusedSectionVars false
set_option linter.unusedVariables false

/-!
Properties C03 and C04: the range searches return exactly the items in the ball / box.
-/

namespace Verif.KdTree

variable {α K : Type} {d : ℕ}

section
variable [Field K] [LinearOrder K]

theorem boxCompare_excl {b1 b2 : Box K d} (h : boxCompare b1 b2 = .excl) :
    ∃ i, b1.hi i < b2.lo i ∨ b1.lo i > b2.hi i := by
  unfold boxCompare at h
  split at h
  · assumption
  · split at h <;> cases h

theorem boxCompare_incl {b1 b2 : Box K d} (h : boxCompare b1 b2 = .incl) :
    ∀ i, b2.hi i ≤ b1.hi i ∧ b1.lo i ≤ b2.lo i := by
  unfold boxCompare at h
  split at h
  · cases h
  · split at h
    · rename_i h'
      intro i
      have := h' i
      rw [not_or, not_lt, not_lt] at this
      exact this
    · cases h

theorem boxCompare_not_excl {b1 b2 : Box K d} (h : boxCompare b1 b2 ≠ .excl) :
    ∀ i, b2.lo i ≤ b1.hi i ∧ b1.lo i ≤ b2.hi i := by
  unfold boxCompare at h
  split at h
  · exact absurd rfl h
  · rename_i h'
    intro i
    have := not_exists.mp h' i
    rw [not_or, not_lt, not_lt] at this
    exact this

/-- All items of a sound tree are in its box. -/
theorem Sound.mem_box {pos : α → Point K d} {leafSize : ℕ} {t : Tree α K d}
    (h : Sound pos leafSize t) : ∀ x ∈ t.items, t.box.Mem (pos x) := by
  cases t with
  | leaf b items => exact h.2.2.1
  | node b l r => exact h.2.1.1

variable [IsStrictOrderedRing K]

theorem excl_far {dist : Point K d → Point K d → K} (hdist : IsCoordDist dist) {q p : Point K d}
    {r : K} {b : Box K d} (h : boxCompare (queryBox q r) b = .excl) (hp : b.Mem p) :
    r < dist q p := by
  obtain ⟨i, hi⟩ := boxCompare_excl h
  have h1 := hdist.coord q p i
  have h2 := hp i
  simp only [queryBox] at hi
  rcases hi with hi | hi
  · have h3 : p i - q i ≤ |q i - p i| := by rw [abs_sub_comm]; exact le_abs_self _
    linarith [h2.1]
  · have h3 : q i - p i ≤ |q i - p i| := le_abs_self _
    linarith [h2.2]

theorem rangeHelper_eq {dist : Point K d → Point K d → K} (hdist : IsCoordDist dist)
    (pos : α → Point K d) (leafSize : ℕ) (t : Tree α K d) (h : Sound pos leafSize t)
    (q : Point K d) (r : K) :
    rangeHelper dist pos q (queryBox q r) r t = t.items.filter fun p => dist (pos p) q ≤ r := by
  have hbox := h.mem_box
  induction t with
  | leaf b items =>
    unfold rangeHelper
    split
    · rename_i he
      symm
      rw [List.filter_eq_nil_iff]
      intro x hx
      have := excl_far hdist he (hbox x hx)
      rw [hdist.comm] at this
      simpa using this
    · rfl
    · simp only [Tree.items]
      congr 1
      funext p
      rw [hdist.comm]
  | node b l r' ihl ihr =>
    unfold rangeHelper
    split
    · rename_i he
      symm
      rw [List.filter_eq_nil_iff]
      intro x hx
      have := excl_far hdist he (hbox x hx)
      rw [hdist.comm] at this
      simpa using this
    · rfl
    · rw [ihl h.2.2.1 h.2.2.1.mem_box, ihr h.2.2.2 h.2.2.2.mem_box]
      simp [Tree.items]

theorem orthRangeHelper_eq (pos : α → Point K d) (leafSize : ℕ) (t : Tree α K d)
    (h : Sound pos leafSize t) (qb : Box K d) :
    orthRangeHelper pos qb t = t.items.filter fun p => qb.Mem (pos p) := by
  have hbox := h.mem_box
  have hex : ∀ b, boxCompare qb b = .excl → ∀ p, b.Mem p → ¬ qb.Mem p := by
    intro b hb p hp hq
    obtain ⟨i, hi⟩ := boxCompare_excl hb
    rcases hi with hi | hi
    · exact absurd (lt_of_le_of_lt (hq i).2 hi) (not_lt.mpr (hp i).1)
    · exact absurd (lt_of_lt_of_le hi (hq i).1) (not_lt.mpr (hp i).2)
  have hin : ∀ b, boxCompare qb b = .incl → ∀ p, b.Mem p → qb.Mem p := by
    intro b hb p hp i
    have := boxCompare_incl hb i
    exact ⟨this.2.trans (hp i).1, (hp i).2.trans this.1⟩
  induction t with
  | leaf b items =>
    unfold orthRangeHelper
    split
    · rename_i he
      symm
      rw [List.filter_eq_nil_iff]
      intro x hx
      simpa using hex _ he _ (hbox x hx)
    · rename_i he
      symm
      rw [Tree.items, List.filter_eq_self]
      intro x hx
      simpa using hin _ he _ (hbox x hx)
    · simp only [Tree.items]
      apply List.filter_congr
      intro p _
      rw [decide_eq_decide]
      constructor
      · intro hp i
        have := hp i
        rw [not_or, not_lt, not_lt] at this
        exact ⟨this.2, this.1⟩
      · intro hp i
        rw [not_or, not_lt, not_lt]
        exact ⟨(hp i).2, (hp i).1⟩
  | node b l r ihl ihr =>
    unfold orthRangeHelper
    split
    · rename_i he
      symm
      rw [List.filter_eq_nil_iff]
      intro x hx
      simpa using hex _ he _ (hbox x hx)
    · rename_i he
      symm
      rw [Tree.items, List.filter_eq_self]
      intro x hx
      simpa using hin _ he _ (hbox x hx)
    · rw [ihl h.2.2.1 h.2.2.1.mem_box, ihr h.2.2.2 h.2.2.2.mem_box]
      simp [Tree.items]

end

/-- C03. For every tree built from any non-empty item list (serial or parallel, any leaf size), any
query point and any radius, the spherical range search returns, with multiplicity, exactly the input
items at Euclidean distance at most `radius`. -/
theorem c03_rangeSearch (w bs : ℕ) (hw : 0 < w) (hb : 0 < bs) (hd : 0 < d) (pos : α → Point ℝ d)
    (leafSize : ℕ) (hls : 1 ≤ leafSize) (parallel : Bool) (items : List α) (h : items ≠ [])
    (t : Tree α ℝ d) (ht : build w bs pos leafSize parallel items = .ok t)
    (q : Point ℝ d) (radius : ℝ) :
    (rangeSearch eucl pos t q radius).Perm (items.filter fun p => eucl (pos p) q ≤ radius) := by
  obtain ⟨t', h1, h2, h3, _⟩ := c01_build w bs hw hb hd pos leafSize hls parallel items h
  rw [h1] at ht
  cases ht
  unfold rangeSearch
  rw [rangeHelper_eq eucl_isCoordDist pos leafSize t h3]
  exact h2.filter _

/-- Non-vacuity of `c03_rangeSearch`: a tree exists, and the search around the origin with radius 1
finds one of the two items. -/
example : ∃ t, build 1 1 (id : Point ℝ 2 → Point ℝ 2) 1 false [![0, 0], ![3, 4]] = .ok t ∧
    (rangeSearch eucl id t ![0, 0] 1).Perm [![0, 0]] := by
  obtain ⟨t, h1, -⟩ := c01_build 1 1 (by decide) (by decide) (by decide)
    (id : Point ℝ 2 → Point ℝ 2) 1 (le_refl _) false [![0, 0], ![3, 4]] (by simp)
  refine ⟨t, h1, ?_⟩
  have := c03_rangeSearch 1 1 (by decide) (by decide) (by decide)
    (id : Point ℝ 2 → Point ℝ 2) 1 (le_refl _) false [![0, 0], ![3, 4]] (by simp) t h1 ![0, 0] 1
  have e1 : eucl (![0, 0] : Point ℝ 2) ![0, 0] ≤ 1 := by rw [eucl_self]; norm_num
  have e2 : ¬ eucl (![3, 4] : Point ℝ 2) ![0, 0] ≤ 1 := by
    rw [eucl_le_iff (by norm_num)]; norm_num [distSqr, Fin.sum_univ_two]
  simpa [e1, e2] using this

/-- C04. For every tree built from any non-empty item list, any query point and any half length, the
orthogonal range search returns, with multiplicity, exactly the input items whose every coordinate
differs from the query by at most `halfLen`. -/
theorem c04_orthogonalRangeSearch [Field K] [LinearOrder K] [IsStrictOrderedRing K]
    (w bs : ℕ) (hw : 0 < w) (hb : 0 < bs) (hd : 0 < d) (pos : α → Point K d)
    (leafSize : ℕ) (hls : 1 ≤ leafSize) (parallel : Bool) (items : List α) (h : items ≠ [])
    (t : Tree α K d) (ht : build w bs pos leafSize parallel items = .ok t)
    (q : Point K d) (halfLen : K) :
    (orthogonalRangeSearch pos t q halfLen).Perm
      (items.filter fun p => ∀ i, |pos p i - q i| ≤ halfLen) := by
  obtain ⟨t', h1, h2, h3, _⟩ := c01_build w bs hw hb hd pos leafSize hls parallel items h
  rw [h1] at ht
  cases ht
  unfold orthogonalRangeSearch
  rw [orthRangeHelper_eq pos leafSize t h3]
  have : (fun p => decide ((queryBox q halfLen).Mem (pos p))) =
      fun p => decide (∀ i, |pos p i - q i| ≤ halfLen) := by
    funext p
    rw [decide_eq_decide]
    apply forall_congr'
    intro i
    simp only [queryBox, abs_le]
    constructor
    · rintro ⟨h1, h2⟩; constructor <;> linarith
    · rintro ⟨h1, h2⟩; constructor <;> linarith
  rw [this]
  exact h2.filter _

/-- Non-vacuity of `c04_orthogonalRangeSearch`: a point exactly on the boundary is returned. -/
example : ∃ t, build 1 1 (id : Point ℚ 2 → Point ℚ 2) 1 false [![0, 0], ![3, 4], ![1, 1]] = .ok t ∧
    (orthogonalRangeSearch id t ![0, 0] 1).Perm [![0, 0], ![1, 1]] := by
  obtain ⟨t, h1, -⟩ := c01_build 1 1 (by decide) (by decide) (by decide)
    (id : Point ℚ 2 → Point ℚ 2) 1 (le_refl _) false [![0, 0], ![3, 4], ![1, 1]] (by simp)
  refine ⟨t, h1, ?_⟩
  have := c04_orthogonalRangeSearch 1 1 (by decide) (by decide) (by decide)
    (id : Point ℚ 2 → Point ℚ 2) 1 (le_refl _) false [![0, 0], ![3, 4], ![1, 1]] (by simp) t h1
    ![0, 0] 1
  norm_num [Fin.forall_fin_two, List.filter_cons] at this
  exact this

/-- C03: the brute-force reference returns exactly the positions of the items in the ball, in
increasing order. -/
theorem c03_bruteforceRange [Field K] [LinearOrder K] (dist : Point K d → Point K d → K)
    (elems : List (Point K d)) (q : Point K d) (radius : K) :
    bruteforceRange dist elems q radius =
      (List.range elems.length).filter fun i =>
        elems[i]?.any fun p => dist p q ≤ radius := by
  unfold bruteforceRange
  simp only
  have : ∀ l : List ℕ, (∀ i ∈ l, i < elems.length) →
      (l.map (fun i => match elems[i]? with
        | some p => if dist p q ≤ radius then i else elems.length
        | none => elems.length)).filter (· < elems.length) =
      l.filter fun i => elems[i]?.any fun p => dist p q ≤ radius := by
    intro l hl
    induction l with
    | nil => rfl
    | cons a l ih =>
      have ih := ih (fun i hi => hl i (by simp [hi]))
      have ha := hl a (by simp)
      simp only [List.map_cons, List.getElem?_eq_getElem ha]
      by_cases hc : dist elems[a] q ≤ radius
      · rw [if_pos hc, List.filter_cons_of_pos (by simpa using ha),
          List.filter_cons_of_pos (by simp [List.getElem?_eq_getElem ha, hc]), ih]
      · rw [if_neg hc, List.filter_cons_of_neg (by simp),
          List.filter_cons_of_neg (by simp [List.getElem?_eq_getElem ha, hc]), ih]
  exact this _ (fun i hi => List.mem_range.mp hi)

example : bruteforceRange (fun p q => |p 0 - q 0|) [![5], ![1], ![2]] (![1] : Point ℚ 1) 1 =
    [1, 2] := by decide +kernel

end Verif.KdTree
