import Verif.SpatialGraph.LuneModel
import Verif.KdTree.RangeProps

set_option linter.unusedSectionVars false
set_option linter.unusedVariables false

/-!
C44 (lune test) and C58 (beta skeleton).
-/

namespace Verif.Lune

open Verif KdTree

variable {α K : Type} {d : ℕ}

section
variable [Field K] [LinearOrder K] [IsStrictOrderedRing K] [DecidableEq α]
variable {dist : Point K d → Point K d → K} {pos : α → Point K d}

/-- Specification: item `x` blocks the edge `e1 e2` in the intersection of two circles. -/
def Blocks (dist : Point K d → Point K d → K) (pos : α → Point K d) (p1 : Point K d) (r1 : K) (p2 : Point K d) (r2 : K)
    (e1 e2 x : α) : Prop :=
  x ≠ e1 ∧ x ≠ e2 ∧ dist p1 (pos x) ≤ r1 ∧ dist p2 (pos x) ≤ r2

theorem leafLoop_ok (p1 : Point K d) (r1 : K) (p2 : Point K d) (r2 : K) (e1 e2 : α) (l : List α) :
    ∃ b, leafLoop true dist pos p1 r1 p2 r2 e1 e2 l = .ok b ∧
      (b = true ↔ ∃ x ∈ l, Blocks dist pos p1 r1 p2 r2 e1 e2 x) := by
  induction l with
  | nil => exact ⟨false, rfl, by simp⟩
  | cons x l ih =>
    obtain ⟨b, hb, hiff⟩ := ih
    rw [leafLoop, if_neg (by simp)]
    by_cases hx : x = e1 ∨ x = e2
    · rw [if_pos hx]
      refine ⟨b, hb, hiff.trans ⟨fun ⟨y, hy, h⟩ => ⟨y, List.mem_cons_of_mem _ hy, h⟩, ?_⟩⟩
      rintro ⟨y, hy, h⟩
      rcases List.mem_cons.mp hy with rfl | hy
      · rcases hx with hx | hx
        · exact absurd hx h.1
        · exact absurd hx h.2.1
      · exact ⟨y, hy, h⟩
    · rw [if_neg hx]
      by_cases hin : dist p1 (pos x) ≤ r1 ∧ dist p2 (pos x) ≤ r2
      · rw [if_pos hin]
        exact ⟨true, rfl, by
          simp only [true_iff]
          exact ⟨x, List.mem_cons_self .., fun e => hx (Or.inl e), fun e => hx (Or.inr e), hin.1, hin.2⟩⟩
      · rw [if_neg hin]
        refine ⟨b, hb, hiff.trans ⟨fun ⟨y, hy, h⟩ => ⟨y, List.mem_cons_of_mem _ hy, h⟩, ?_⟩⟩
        rintro ⟨y, hy, h⟩
        rcases List.mem_cons.mp hy with rfl | hy
        · exact absurd h.2.2 hin
        · exact ⟨y, hy, h⟩

theorem far_of_excl (hdist : IsCoordDist dist) {p q : Point K d} {r : K} {b : Box K d}
    (h : boxCompare (circleBox p r) b = .excl) (hq : b.Mem q) : ¬ dist p q ≤ r := by
  intro hle
  obtain ⟨i, hi⟩ := boxCompare_excl h
  have h1 := abs_le.mp (le_trans (hdist.coord p q i) hle)
  have h2 := hq i
  simp only [circleBox] at hi
  rcases hi with hi | hi
  · linarith [h2.1, h1.1]
  · linarith [h2.2, h1.2]

theorem helper_ok (hdist : IsCoordDist dist) (leafSize : ℕ) (p1 : Point K d) (r1 : K) (p2 : Point K d) (r2 : K) (e1 e2 : α)
    (t : Tree α K d) (h : Sound pos leafSize t) :
    ∃ b, helper true dist pos (circleBox p1 r1) (circleBox p2 r2) p1 r1 p2 r2 e1 e2 t = .ok b ∧
      (b = true ↔ ∃ x ∈ t.items, Blocks dist pos p1 r1 p2 r2 e1 e2 x) := by
  have hskip : ∀ t : Tree α K d, Sound pos leafSize t →
      (boxCompare (circleBox p1 r1) t.box = .excl ∨ boxCompare (circleBox p2 r2) t.box = .excl) →
      ¬ ∃ x ∈ t.items, Blocks dist pos p1 r1 p2 r2 e1 e2 x := by
    rintro t ht (he | he) ⟨x, hx, hb⟩
    · exact far_of_excl hdist he (ht.mem_box x hx) hb.2.2.1
    · exact far_of_excl hdist he (ht.mem_box x hx) hb.2.2.2
  induction t with
  | leaf box items =>
    rw [helper]
    split
    · rename_i he
      exact ⟨false, rfl, by simpa using hskip _ h he⟩
    · exact leafLoop_ok ..
  | node box l r ihl ihr =>
    rw [helper]
    split
    · rename_i he
      exact ⟨false, rfl, by simpa using hskip _ h he⟩
    · obtain ⟨a, ha, hla⟩ := ihl h.2.2.1
      obtain ⟨b, hb, hrb⟩ := ihr h.2.2.2
      rw [ha]
      simp only [Except.bind]
      have hsplit : (∃ x ∈ (KdTree.Tree.node box l r).items, Blocks dist pos p1 r1 p2 r2 e1 e2 x) ↔
          (∃ x ∈ l.items, Blocks dist pos p1 r1 p2 r2 e1 e2 x) ∨ ∃ x ∈ r.items, Blocks dist pos p1 r1 p2 r2 e1 e2 x := by
        simp only [Tree.items, List.mem_append]
        constructor
        · rintro ⟨x, hx | hx, h⟩
          · exact Or.inl ⟨x, hx, h⟩
          · exact Or.inr ⟨x, hx, h⟩
        · rintro (⟨x, hx, h⟩ | ⟨x, hx, h⟩)
          · exact ⟨x, Or.inl hx, h⟩
          · exact ⟨x, Or.inr hx, h⟩
      cases a
      · rw [if_neg (by simp)]
        refine ⟨b, hb, hrb.trans (Iff.trans ?_ hsplit.symm)⟩
        exact ⟨Or.inr, fun h => h.resolve_left fun h' => Bool.noConfusion (hla.mpr h')⟩
      · rw [if_pos rfl]
        exact ⟨true, rfl, by rw [hsplit]; simp only [true_iff]; exact Or.inl (hla.mp rfl)⟩

/-- **C44**. For every tree built from any non-empty list of items (any leaf size), any two circles and any edge: while the item
array exists, the lune test answers true exactly if some item other than the two ends lies in both circles. Missing: in
`betaSkeleton` the item array no longer exists (`c44_dangling_false`). -/
theorem c44_lune_partial (hdist : IsCoordDist dist) (w bs : ℕ) (hw : 0 < w) (hb : 0 < bs) (hd : 0 < d) (leafSize : ℕ)
    (hls : 1 ≤ leafSize) (par : Bool) (items : List α) (h : items ≠ []) (t : Tree α K d)
    (ht : build w bs pos leafSize par items = .ok t) (p1 : Point K d) (r1 : K) (p2 : Point K d) (r2 : K) (e1 e2 : α) :
    ∃ b, nonEmptyLune true dist pos t p1 r1 p2 r2 e1 e2 = .ok b ∧
      (b = true ↔ ∃ x ∈ items, x ≠ e1 ∧ x ≠ e2 ∧ dist p1 (pos x) ≤ r1 ∧ dist p2 (pos x) ≤ r2) := by
  obtain ⟨t', h1, h2, h3, _⟩ := c01_build w bs hw hb hd pos leafSize hls par items h
  rw [h1] at ht
  cases ht
  obtain ⟨b, hb, hiff⟩ := helper_ok hdist leafSize p1 r1 p2 r2 e1 e2 t h3
  refine ⟨b, hb, hiff.trans ?_⟩
  constructor
  · rintro ⟨x, hx, h⟩; exact ⟨x, h2.mem_iff.mp hx, h⟩
  · rintro ⟨x, hx, h⟩; exact ⟨x, h2.mem_iff.mpr hx, h⟩

/-- Reading the items of a tree whose item array is gone: undefined as soon as some item lies in both circles' boxes. -/
theorem helper_dangling (leafSize : ℕ) (b1 b2 : Box K d) (p1 : Point K d) (r1 : K) (p2 : Point K d) (r2 : K) (e1 e2 : α)
    (t : Tree α K d) (h : Sound pos leafSize t) (z : α) (hz : z ∈ t.items) (hz1 : b1.Mem (pos z)) (hz2 : b2.Mem (pos z)) :
    helper false dist pos b1 b2 p1 r1 p2 r2 e1 e2 t = .error .ub := by
  have hover : ∀ (t : Tree α K d), Sound pos leafSize t → z ∈ t.items →
      ¬ (boxCompare b1 t.box = .excl ∨ boxCompare b2 t.box = .excl) := by
    rintro t ht hz (he | he)
    · obtain ⟨i, hi | hi⟩ := boxCompare_excl he
      · exact absurd (lt_of_le_of_lt (hz1 i).2 hi) (not_lt.mpr (ht.mem_box z hz i).1)
      · exact absurd (lt_of_lt_of_le hi (hz1 i).1) (not_lt.mpr (ht.mem_box z hz i).2)
    · obtain ⟨i, hi | hi⟩ := boxCompare_excl he
      · exact absurd (lt_of_le_of_lt (hz2 i).2 hi) (not_lt.mpr (ht.mem_box z hz i).1)
      · exact absurd (lt_of_lt_of_le hi (hz2 i).1) (not_lt.mpr (ht.mem_box z hz i).2)
  -- a run without the item array never answers true
  have hno : ∀ t : Tree α K d, helper false dist pos b1 b2 p1 r1 p2 r2 e1 e2 t = .error .ub ∨
      helper false dist pos b1 b2 p1 r1 p2 r2 e1 e2 t = .ok false := by
    intro t
    induction t with
    | leaf box items =>
      rw [helper]
      split
      · exact Or.inr rfl
      · cases items with
        | nil => exact Or.inr rfl
        | cons x l => exact Or.inl rfl
    | node box l r ihl ihr =>
      rw [helper]
      split
      · exact Or.inr rfl
      · rcases ihl with hl | hl
        · rw [hl]; exact Or.inl rfl
        · rw [hl]; exact ihr
  induction t with
  | leaf box items =>
    rw [helper]
    refine (if_neg (hover _ h hz)).trans ?_
    cases items with
    | nil => exact absurd hz (by simp [Tree.items])
    | cons x l => rfl
  | node box l r ihl ihr =>
    rw [helper]
    refine (if_neg (hover _ h hz)).trans ?_
    rcases List.mem_append.mp hz with hzl | hzr
    · rw [ihl h.2.2.1 hzl]; rfl
    · rcases hno l with hl | hl
      · rw [hl]; rfl
      · rw [hl]; exact ihr h.2.2.2 hzr

/-- The filter with a test that does not fail. -/
theorem filterM'_ok (f : α × α → Except Err Bool) (g : α × α → Prop) (l : List (α × α))
    (h : ∀ e ∈ l, ∃ b, f e = .ok b ∧ (b = true ↔ g e)) :
    ∃ l', filterM' f l = .ok l' ∧ l'.Sublist l ∧ ∀ e, e ∈ l' ↔ e ∈ l ∧ g e := by
  induction l with
  | nil => exact ⟨[], rfl, List.Sublist.refl _, by simp⟩
  | cons e l ih =>
    obtain ⟨l', hl', hsub, hm⟩ := ih fun e he => h e (List.mem_cons_of_mem _ he)
    obtain ⟨b, hb, hg⟩ := h e (List.mem_cons_self ..)
    refine ⟨if b then e :: l' else l', by rw [filterM', hb, hl']; rfl, ?_, fun e' => ?_⟩
    · cases b
      · exact hsub.cons _
      · exact hsub.cons_cons _
    · cases b
      · rw [if_neg (by simp), hm, List.mem_cons]
        constructor
        · rintro ⟨h1, h2⟩; exact ⟨Or.inr h1, h2⟩
        · rintro ⟨rfl | h1, h2⟩
          · exact absurd (hg.mpr h2) (by simp)
          · exact ⟨h1, h2⟩
      · rw [if_pos rfl, List.mem_cons, List.mem_cons, hm]
        constructor
        · rintro (rfl | ⟨h1, h2⟩)
          · exact ⟨Or.inl rfl, hg.mp rfl⟩
          · exact ⟨Or.inr h1, h2⟩
        · rintro ⟨rfl | h1, h2⟩
          · exact Or.inl rfl
          · exact Or.inr ⟨h1, h2⟩

end

/-! ### The skeleton -/

section
variable [DecidableEq α] {pos : α → Point ℝ 2}

/-- Specification, `beta ≥ 1`: `x` is in the closed lune of `u` and `v`, the intersection of the two discs of diameter
`beta * |uv|` that touch `u` and `v` and have their centres on the line through them. -/
def InLune (beta : ℝ) (u v x : Point ℝ 2) : Prop :=
  distSqr u x ≤ beta * dot (fun i => x i - u i) (fun i => v i - u i) ∧
  distSqr v x ≤ beta * dot (fun i => x i - v i) (fun i => u i - v i)

theorem inDisc_iff {beta : ℝ} (hb : 1 ≤ beta) (u v x : Point ℝ 2) :
    eucl (fun i => u i * (1 - beta / 2) + v i * (beta / 2)) x ≤ beta * eucl u v / 2 ↔
      distSqr u x ≤ beta * dot (fun i => x i - u i) (fun i => v i - u i) := by
  have h0 : 0 ≤ beta * eucl u v / 2 := by
    have := eucl_nonneg u v
    have : 0 ≤ beta * eucl u v := mul_nonneg (by linarith) this
    linarith
  rw [eucl_le_iff h0, show (beta * eucl u v / 2) ^ 2 = beta ^ 2 * (eucl u v) ^ 2 / 4 by ring, eucl_sq]
  simp only [distSqr, dot, Fin.sum_univ_two]
  constructor <;> intro h <;> nlinarith [h]

theorem lune_iff {beta : ℝ} (hb : 1 ≤ beta) (u v x : Point ℝ 2) :
    (eucl (circles eucl beta u v).1 x ≤ (circles eucl beta u v).2.2 ∧
      eucl (circles eucl beta u v).2.1 x ≤ (circles eucl beta u v).2.2) ↔ InLune beta u v x := by
  unfold circles InLune
  rw [if_neg (not_lt.mpr hb)]
  dsimp only
  rw [inDisc_iff hb, eucl_comm u v, ← inDisc_iff hb v u x]
  have : (fun i => u i * (beta / 2) + v i * (1 - beta / 2)) = fun i => v i * (1 - beta / 2) + u i * (beta / 2) := by
    funext i; ring
  rw [this]

/-- The run of the skeleton while the item array exists. -/
theorem betaSkeleton_ok (w bs : ℕ) (hw : 0 < w) (hbs : 0 < bs) {beta : ℝ} (hb : 1 ≤ beta) (items : List α)
    (hi : items ≠ []) (dedges : List (α × α)) :
    ∃ es, betaSkeletonWith true eucl pos w bs beta items dedges = .ok es ∧ es.Sublist dedges ∧
      ∀ e, e ∈ es ↔ e ∈ dedges ∧ ∀ x ∈ items, x ≠ e.1 → x ≠ e.2 → ¬ InLune beta (pos e.1) (pos e.2) (pos x) := by
  obtain ⟨t, ht, -⟩ := c01_build w bs hw hbs (by omega) pos 16 (by omega) true items hi
  unfold betaSkeletonWith
  rw [if_neg (by linarith), ht]
  simp only [Except.bind]
  refine filterM'_ok _ _ _ fun e he => ?_
  unfold keep
  obtain ⟨b, hb', hiff⟩ := c44_lune_partial eucl_isCoordDist w bs hw hbs (by omega) 16 (by omega) true items hi t ht
    (circles eucl beta (pos e.1) (pos e.2)).1 (circles eucl beta (pos e.1) (pos e.2)).2.2
    (circles eucl beta (pos e.1) (pos e.2)).2.1 (circles eucl beta (pos e.1) (pos e.2)).2.2 e.1 e.2
  refine ⟨!b, by dsimp only; rw [hb']; rfl, ?_⟩
  rw [Bool.not_eq_true', ← Bool.not_eq_true, hiff, not_exists]
  constructor
  · intro h x hx h1 h2 hl
    exact h x ⟨hx, h1, h2, (lune_iff hb _ _ _).mpr hl⟩
  · rintro h x ⟨hx, h1, h2, hl⟩
    exact h x hx h1 h2 ((lune_iff hb _ _ _).mp hl)

theorem InLune.symm {beta : ℝ} {u v x : Point ℝ 2} (h : InLune beta u v x) : InLune beta v u x := ⟨h.2, h.1⟩

/-- Lunes grow with `beta`. -/
theorem InLune.mono {beta beta' : ℝ} (hb : 1 ≤ beta) (hle : beta ≤ beta') {u v x : Point ℝ 2} (h : InLune beta u v x) :
    InLune beta' u v x := by
  have aux : ∀ (u v : Point ℝ 2), distSqr u x ≤ beta * dot (fun i => x i - u i) (fun i => v i - u i) →
      distSqr u x ≤ beta' * dot (fun i => x i - u i) (fun i => v i - u i) := by
    intro u v h
    have h0 := distSqr_nonneg u x
    have h1 : 0 ≤ beta * dot (fun i => x i - u i) (fun i => v i - u i) := le_trans h0 h
    have h2 : 0 ≤ dot (fun i => x i - u i) (fun i => v i - u i) := by
      by_contra hneg
      have := mul_neg_of_pos_of_neg (by linarith : 0 < beta) (not_le.mp hneg)
      linarith
    exact le_trans h (mul_le_mul_of_nonneg_right hle h2)
  exact ⟨aux u v h.1, aux v u h.2⟩

/-- The lune for `beta = 1` is the disc with diameter `u v`. -/
theorem inLune_one (u v x : Point ℝ 2) :
    InLune 1 u v x ↔ dot (fun i => u i - x i) (fun i => v i - x i) ≤ 0 := by
  simp only [InLune, distSqr, dot, Fin.sum_univ_two, one_mul]
  constructor
  · intro h; nlinarith [h.1]
  · intro h; constructor <;> nlinarith [h]

/-- The lune for `beta = 2`: the points at most as far from both ends as these are from each other. -/
theorem inLune_two (u v x : Point ℝ 2) :
    InLune 2 u v x ↔ eucl u x ≤ eucl u v ∧ eucl v x ≤ eucl u v := by
  rw [eucl_le_eucl_iff, eucl_le_eucl_iff]
  simp only [InLune, distSqr, dot, Fin.sum_univ_two]
  constructor
  · rintro ⟨h1, h2⟩; constructor <;> nlinarith [h1, h2]
  · rintro ⟨h1, h2⟩; constructor <;> nlinarith [h1, h2]

/-- What the Delaunay graph contains: every pair of points whose diametral disc has no other point. -/
def HasGabriel (pos : α → Point ℝ 2) (items : List α) (dedges : List (α × α)) : Prop :=
  ∀ u ∈ items, ∀ v ∈ items, u ≠ v →
    (∀ x ∈ items, x ≠ u → x ≠ v → ¬ dot (fun i => pos u i - pos x i) (fun i => pos v i - pos x i) ≤ 0) →
    (u, v) ∈ dedges ∨ (v, u) ∈ dedges

/-- **C58**, `beta ≥ 1`, while the item array of the tree exists: if the Delaunay edges contain every pair with empty diametral
disc, the skeleton joins two points exactly if no other point is in their lune. Missing: `beta < 1` (`c58_lens_false`), the
destroyed item array (`c44_dangling_false`), rounding of distances to `float`. -/
theorem c58_skeleton_partial (w bs : ℕ) (hw : 0 < w) (hbs : 0 < bs) {beta : ℝ} (hb : 1 ≤ beta) (items : List α)
    (hi : items ≠ []) (dedges : List (α × α)) (hg : HasGabriel pos items dedges) :
    ∃ es, betaSkeletonWith true eucl pos w bs beta items dedges = .ok es ∧ es.Sublist dedges ∧
      ∀ u ∈ items, ∀ v ∈ items, u ≠ v →
        (((u, v) ∈ es ∨ (v, u) ∈ es) ↔ ∀ x ∈ items, x ≠ u → x ≠ v → ¬ InLune beta (pos u) (pos v) (pos x)) := by
  obtain ⟨es, he, hsub, hm⟩ := betaSkeleton_ok (pos := pos) w bs hw hbs hb items hi dedges
  refine ⟨es, he, hsub, fun u hu v hv huv => ?_⟩
  constructor
  · rintro (h | h) x hx h1 h2 hl
    · exact ((hm _).mp h).2 x hx h1 h2 hl
    · exact ((hm _).mp h).2 x hx h2 h1 hl.symm
  · intro h
    have hdel := hg u hu v hv huv fun x hx h1 h2 hd =>
      h x hx h1 h2 (((inLune_one _ _ _).mpr hd).mono le_rfl hb)
    rcases hdel with hd | hd
    · exact Or.inl ((hm _).mpr ⟨hd, fun x hx h1 h2 hl => h x hx h1 h2 hl⟩)
    · exact Or.inr ((hm _).mpr ⟨hd, fun x hx h1 h2 hl => h x hx h2 h1 hl.symm⟩)

/-- **C58**: skeletons are nested, larger `beta` giving fewer edges, whatever the Delaunay edges. -/
theorem c58_nested_partial (w bs : ℕ) (hw : 0 < w) (hbs : 0 < bs) {beta beta' : ℝ} (hb : 1 ≤ beta) (hle : beta ≤ beta')
    (items : List α) (hi : items ≠ []) (dedges es es' : List (α × α))
    (h : betaSkeletonWith true eucl pos w bs beta items dedges = .ok es)
    (h' : betaSkeletonWith true eucl pos w bs beta' items dedges = .ok es') : es' ⊆ es := by
  obtain ⟨l, hl, -, hm⟩ := betaSkeleton_ok (pos := pos) w bs hw hbs hb items hi dedges
  obtain ⟨l', hl', -, hm'⟩ := betaSkeleton_ok (pos := pos) w bs hw hbs (hb.trans hle) items hi dedges
  rw [hl] at h
  rw [hl'] at h'
  cases h
  cases h'
  intro e he
  obtain ⟨h1, h2⟩ := (hm' e).mp he
  exact (hm e).mpr ⟨h1, fun x hx ha hb' hin => h2 x hx ha hb' (hin.mono hb hle)⟩

/-- **C44** fails in `betaSkeleton`: with `beta ≥ 1` every run with an edge between two of the points reads the destroyed item
array. -/
theorem c44_dangling_false (w bs : ℕ) (hw : 0 < w) (hbs : 0 < bs) {beta : ℝ} (hb : 1 ≤ beta) (items : List α)
    (dedges : List (α × α)) (e : α × α) (hu : e.1 ∈ items) :
    betaSkeleton eucl pos w bs beta items (e :: dedges) = .error .ub := by
  have hi : items ≠ [] := List.ne_nil_of_mem hu
  obtain ⟨t, ht, hperm, hs, -⟩ := c01_build w bs hw hbs (by omega) pos 16 (by omega) true items hi
  unfold betaSkeleton betaSkeletonWith
  rw [if_neg (by linarith), ht]
  simp only [Except.bind]
  have hin : InLune beta (pos e.1) (pos e.2) (pos e.1) := by
    refine InLune.mono le_rfl hb ((inLune_one _ _ _).mpr ?_)
    simp [dot]
  obtain ⟨h1, h2⟩ := (lune_iff hb _ _ _).mpr hin
  have hmem : ∀ (c : Point ℝ 2) (r : ℝ), eucl c (pos e.1) ≤ r → (circleBox c r).Mem (pos e.1) := by
    intro c r h i
    have := abs_le.mp (le_trans (eucl_coord c (pos e.1) i) h)
    exact ⟨by simp only [circleBox]; linarith [this.2], by simp only [circleBox]; linarith [this.1]⟩
  have hk : keep false eucl pos beta t e = .error .ub := by
    unfold keep nonEmptyLune
    dsimp only
    rw [helper_dangling 16 _ _ _ _ _ _ _ _ t hs e.1 (hperm.mem_iff.mpr hu) (hmem _ _ h1) (hmem _ _ h2)]
    rfl
  rw [filterM', hk]
  rfl

end

/-! ### Cases -/

/-- Four points: the hypotheses can be met, and the skeleton for `beta = 1` is determined. -/
example : ∃ (pos : Fin 3 → Point ℝ 2) (items : List (Fin 3)) (dedges : List (Fin 3 × Fin 3)),
    items ≠ [] ∧ HasGabriel pos items dedges ∧
    ∃ es, betaSkeletonWith true eucl pos 1 1 1 items dedges = .ok es ∧ (0, 1) ∈ es ∧ (0, 2) ∉ es := by
  refine ⟨![![0, 0], ![1, 0], ![2, 0]], [0, 1, 2], [(0, 1), (1, 2), (0, 2)], by simp, ?_, ?_⟩
  · intro u _ v _ huv _
    fin_cases u <;> fin_cases v <;> simp at huv ⊢
  · obtain ⟨es, he, -, hm⟩ := betaSkeleton_ok (pos := ![![0, 0], ![1, 0], ![2, 0]]) 1 1 (by omega) (by omega) (le_refl (1 : ℝ))
      ([0, 1, 2] : List (Fin 3)) (by simp) [(0, 1), (1, 2), (0, 2)]
    refine ⟨es, he, (hm _).mpr ⟨by simp, ?_⟩, fun h => ?_⟩
    · intro x _ h1 h2
      have : x = 2 := by fin_cases x <;> simp at h1 h2 ⊢
      subst this
      show ¬ InLune 1 ![0, 0] ![1, 0] ![2, 0]
      rw [inLune_one]
      norm_num [dot, Fin.sum_univ_two]
    · refine ((hm _).mp h).2 1 (by simp) (by simp) (by simp) ?_
      show InLune 1 ![0, 0] ![2, 0] ![1, 0]
      rw [inLune_one]
      norm_num [dot, Fin.sum_univ_two]

/-- Specification, `beta < 1`: `x` is in the lens of `u` and `v`, the intersection of the two discs of radius `|uv| / (2 beta)`
whose boundaries pass through `u` and `v`. `c`, `c'` are the centres. -/
def InLens (beta : ℝ) (u v x : Point ℝ 2) : Prop :=
  ∀ c : Point ℝ 2, eucl c u = eucl u v / (2 * beta) → eucl c v = eucl u v / (2 * beta) → eucl c x ≤ eucl u v / (2 * beta)

theorem eucl_eq_of_sq {d : ℕ} {p q : Point ℝ d} {r : ℝ} (hr : 0 ≤ r) (h : distSqr p q = r ^ 2) : eucl p q = r := by
  unfold eucl; rw [h, Real.sqrt_sq hr]

/-- **C58** fails for `beta < 1`: with `beta = 3/5` the point `(0, 2)` is outside the lens of `(-3, 0)` and `(3, 0)`, so the edge
belongs to the skeleton, but the test finds the point in the circles around the end points and drops the edge. -/
theorem c58_lens_false : ∃ (pos : Fin 3 → Point ℝ 2) (items : List (Fin 3)) (dedges : List (Fin 3 × Fin 3)),
    items ≠ [] ∧ (0, 1) ∈ dedges ∧
    (∀ x ∈ items, x ≠ 0 → x ≠ 1 → ¬ InLens (3 / 5) (pos 0) (pos 1) (pos x)) ∧
    ∃ es, betaSkeletonWith true eucl pos 1 1 (3 / 5) items dedges = .ok es ∧ (0, 1) ∉ es := by
  refine ⟨![![-3, 0], ![3, 0], ![0, 2]], [0, 1, 2], [(0, 1)], by simp, by simp, ?_, ?_⟩
  · intro x _ h1 h2 hl
    have : x = 2 := by fin_cases x <;> simp at h1 h2 ⊢
    subst this
    have huv : eucl (![-3, 0] : Point ℝ 2) ![3, 0] = 6 :=
      eucl_eq_of_sq (by norm_num) (by norm_num [distSqr, Fin.sum_univ_two])
    have h := hl ![0, -4] ?_ ?_
    · simp only [Matrix.cons_val_zero, Matrix.cons_val_one, Matrix.cons_val] at h
      rw [huv, eucl_le_iff (by norm_num)] at h
      norm_num [distSqr, Fin.sum_univ_two] at h
    · simp only [Matrix.cons_val_zero, Matrix.cons_val_one]
      rw [huv]
      exact eucl_eq_of_sq (by norm_num) (by norm_num [distSqr, Fin.sum_univ_two])
    · simp only [Matrix.cons_val_zero, Matrix.cons_val_one]
      rw [huv]
      exact eucl_eq_of_sq (by norm_num) (by norm_num [distSqr, Fin.sum_univ_two])
  · obtain ⟨t, ht, -⟩ := c01_build 1 1 (by omega) (by omega) (by omega)
      (![![-3, 0], ![3, 0], ![0, 2]] : Fin 3 → Point ℝ 2) 16 (by omega) true [0, 1, 2] (by simp)
    unfold betaSkeletonWith
    rw [if_neg (by norm_num), ht]
    refine ⟨[], ?_, by simp⟩
    simp only [Except.bind]
    have huv : eucl (![-3, 0] : Point ℝ 2) ![3, 0] = 6 :=
      eucl_eq_of_sq (by norm_num) (by norm_num [distSqr, Fin.sum_univ_two])
    obtain ⟨b, hb, hiff⟩ := c44_lune_partial (pos := (![![-3, 0], ![3, 0], ![0, 2]] : Fin 3 → Point ℝ 2)) eucl_isCoordDist
      1 1 (by omega) (by omega) (by omega) 16 (by omega) true [0, 1, 2] (by simp) t ht
      ![-3, 0] (6 / (2 * (3 / 5))) ![3, 0] (6 / (2 * (3 / 5))) 0 1
    have hbt : b = true := hiff.mpr ⟨2, by simp, by decide, by decide, by
      show eucl ![-3, 0] ![0, 2] ≤ _
      rw [eucl_le_iff (by norm_num)]; norm_num [distSqr, Fin.sum_univ_two], by
      show eucl ![3, 0] ![0, 2] ≤ _
      rw [eucl_le_iff (by norm_num)]; norm_num [distSqr, Fin.sum_univ_two]⟩
    have hk : keep true eucl (![![-3, 0], ![3, 0], ![0, 2]] : Fin 3 → Point ℝ 2) (3 / 5) t (0, 1) = .ok false := by
      unfold keep circles
      rw [if_pos (by norm_num)]
      simp only [Matrix.cons_val_zero, Matrix.cons_val_one]
      rw [huv, hb, hbt]
      rfl
    rw [filterM', hk]
    rfl

end Verif.Lune
