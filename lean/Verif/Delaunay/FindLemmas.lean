import Verif.Delaunay.LimitLemmas

set_option linter.unusedSectionVars false
set_option linter.unusedVariables false

/-!
The walk of `find` ends, and the specification of a Delaunay triangulation in terms of circles.
-/

namespace Verif.Delaunay

open CT

variable {K : Type} [Field K] [LinearOrder K] [IsStrictOrderedRing K]

section
variable {pos : ℕ → P2 K} {live vs : Finset ℕ} {m : Mesh} {v a b : ℕ}

theorem outside_iff (pos : ℕ → P2 K) (m : Mesh) (t : ℕ) (i : Fin 3) (p : P2 K) :
    outside pos m ⟨t, i, false⟩ p = true ↔ area (pos (m.vtx t (i + 2))) (pos (m.vtx t i)) p < 0 := by
  simp only [outside, counterClockwise, Bool.false_eq_true, if_false, decide_eq_true_eq]
  have : area (pos (m.vtx t (i + 2))) p (pos (m.vtx t i)) = -area (pos (m.vtx t (i + 2))) (pos (m.vtx t i)) p := by
    unfold area
    ring
  rw [this]
  constructor <;> intro h <;> linarith

open Classical in
/-- The pairs of a triangle and an edge that the walk can still reach. -/
noncomputable def ahead (pos : ℕ → P2 K) (live vs : Finset ℕ) (m : Mesh) (p : P2 K) (x : ℕ) (i : Fin 3) :
    Finset (ℕ × Fin 3) :=
  (live ×ˢ Finset.univ).filter fun e => pwT pos m x p < pwT pos m e.1 p ∨
    (pwT pos m x p = pwT pos m e.1 p ∧ beyond pos vs m e.1 e.2 < beyond pos vs m x i)

theorem ahead_lt {p : P2 K} {x y : ℕ} {i i' : Fin 3} (hy : y ∈ live)
    (h : pwT pos m x p < pwT pos m y p ∨ (pwT pos m x p = pwT pos m y p ∧ beyond pos vs m y i' < beyond pos vs m x i)) :
    (ahead pos live vs m p y i').card < (ahead pos live vs m p x i).card := by
  refine Finset.card_lt_card ⟨fun e he => ?_, fun hle => ?_⟩
  · simp only [ahead, Finset.mem_filter] at he ⊢
    refine ⟨he.1, ?_⟩
    rcases h with h | ⟨h1, h2⟩
    · rcases he.2 with g | ⟨g1, g2⟩
      · exact Or.inl (h.trans g)
      · exact Or.inl (g1 ▸ h)
    · rcases he.2 with g | ⟨g1, g2⟩
      · exact Or.inl (h1 ▸ g)
      · exact Or.inr ⟨h1.trans g1, g2.trans h2⟩
  · have hm : (y, i') ∈ ahead pos live vs m p x i := by
      simp only [ahead, Finset.mem_filter, Finset.mem_product, Finset.mem_univ, and_true]
      exact ⟨hy, h⟩
    have := hle hm
    simp only [ahead, Finset.mem_filter, lt_self_iff_false, and_false, or_self] at this

theorem ahead_card {p : P2 K} (x : ℕ) (i : Fin 3) : (ahead pos live vs m p x i).card ≤ 3 * live.card := by
  refine (Finset.card_le_card (Finset.filter_subset _ _)).trans ?_
  rw [Finset.card_product, Finset.card_univ, Fintype.card_fin, Nat.mul_comm]

theorem find_succ (pos : ℕ → P2 K) (m : Mesh) (p : P2 K) (n t : ℕ) (o : Fin 3) (bd : Bool) :
    find pos m p (n + 1) ⟨t, o, bd⟩ =
      if outside pos m ⟨t, o + 1, false⟩ p then
        (across m ⟨t, o + 1, false⟩).bind fun a => if a.boundary then .ok a else find pos m p n a
      else if outside pos m ⟨t, o + 1 + 1, false⟩ p then
        (across m ⟨t, o + 1 + 1, false⟩).bind fun a => if a.boundary then .ok a else find pos m p n a
      else if outside pos m ⟨t, o + 1 + 1 + 1, false⟩ p then
        (across m ⟨t, o + 1 + 1 + 1, false⟩).bind fun a => if a.boundary then .ok a else find pos m p n a
      else .ok ⟨t, o + 1 + 1 + 1, false⟩ := rfl

/-- The walk ends in a triangle around the point. -/
theorem find_walk (h : DMesh pos live vs m) {p : P2 K} :
    ∀ (n t : ℕ) (o : Fin 3) (bd : Bool), t ∈ live →
      (∀ i, area (pos (m.vtx t (i + 2))) (pos (m.vtx t i)) p < 0 → (ahead pos live vs m p t i).card < n) →
      ∃ t' ∈ live, ∃ o',
        (find pos m p (n + 1) ⟨t, o, bd⟩ = .ok ⟨t', o', false⟩ ∧
          ∀ i, 0 ≤ area (pos (m.vtx t' (i + 2))) (pos (m.vtx t' i)) p) ∨
        (find pos m p (n + 1) ⟨t, o, bd⟩ = .ok ⟨t', o', true⟩ ∧ m.ngh t' o' = none ∧
          area (pos (m.vtx t' (o' + 2))) (pos (m.vtx t' o')) p < 0) := by
  intro n
  induction n with
  | zero =>
    intro t o bd ht hn
    have hno : ∀ i, ¬ area (pos (m.vtx t (i + 2))) (pos (m.vtx t i)) p < 0 := fun i hi =>
      absurd (hn i hi) (Nat.not_lt_zero _)
    have ho : ∀ i, outside pos m ⟨t, i, false⟩ p = false := by
      intro i
      rw [← Bool.not_eq_true, outside_iff]
      exact hno i
    refine ⟨t, ht, o + 1 + 1 + 1, Or.inl ⟨?_, fun i => not_lt.mp (hno i)⟩⟩
    simp only [find, Simplex.rot, ho]
    simp
  | succ n ih =>
    intro t o bd ht hn
    have next : ∀ i, area (pos (m.vtx t (i + 2))) (pos (m.vtx t i)) p < 0 → ∃ t' ∈ live, ∃ o',
        (((across m ⟨t, i, false⟩).bind fun a => if a.boundary then .ok a else find pos m p (n + 1) a) =
          .ok ⟨t', o', false⟩ ∧ ∀ i, 0 ≤ area (pos (m.vtx t' (i + 2))) (pos (m.vtx t' i)) p) ∨
        (((across m ⟨t, i, false⟩).bind fun a => if a.boundary then .ok a else find pos m p (n + 1) a) =
          .ok ⟨t', o', true⟩ ∧ m.ngh t' o' = none ∧
          area (pos (m.vtx t' (o' + 2))) (pos (m.vtx t' o')) p < 0) := by
      intro i hi
      rcases hng : m.ngh t i with _ | y
      · refine ⟨t, ht, i, Or.inr ⟨?_, hng, hi⟩⟩
        rw [across_none hng]
        simp only [Except.bind, if_true]
      · obtain ⟨hy, j, hj, f1, f2⟩ := h.planar.wf.twin _ ht _ _ hng
        rw [across_some h.planar.wf ht hng hj]
        have hw := walk_step h ht hng hi
        have hlt := hn i hi
        obtain ⟨t', ht', o', g⟩ := ih y j false hy (by
          intro i' hi'
          have : (ahead pos live vs m p y i').card < (ahead pos live vs m p t i).card := by
            refine ahead_lt hy ?_
            rcases hw with w | ⟨w1, w2⟩
            · exact Or.inl w
            · exact Or.inr ⟨w1, w2 i' hi'⟩
          omega)
        refine ⟨t', ht', o', ?_⟩
        simp only [Except.bind, Bool.false_eq_true, if_false]
        exact g
    rw [find_succ]
    cases h1 : outside pos m ⟨t, o + 1, false⟩ p with
    | true =>
      simp only [reduceIte]
      exact next _ ((outside_iff pos m t _ p).mp h1)
    | false =>
      simp only [Bool.false_eq_true, reduceIte]
      cases h2 : outside pos m ⟨t, o + 1 + 1, false⟩ p with
      | true =>
        simp only [reduceIte]
        exact next _ ((outside_iff pos m t _ p).mp h2)
      | false =>
        simp only [Bool.false_eq_true, reduceIte]
        cases h3 : outside pos m ⟨t, o + 1 + 1 + 1, false⟩ p with
        | true =>
          simp only [reduceIte]
          exact next _ ((outside_iff pos m t _ p).mp h3)
        | false =>
          simp only [Bool.false_eq_true, reduceIte]
          refine ⟨t, ht, o + 1 + 1 + 1, Or.inl ⟨rfl, fun i => not_lt.mp fun hi => ?_⟩⟩
          have hi' := (outside_iff pos m t i p).mpr hi
          rcases fin3_cases (o + 1) i with rfl | rfl | rfl
          · rw [h1] at hi'
            exact absurd hi' (by simp)
          · rw [h2] at hi'
            exact absurd hi' (by simp)
          · rw [← add_one_add_one (o + 1), h3] at hi'
            exact absurd hi' (by simp)

theorem find_any (h : DMesh pos live vs m) (p : P2 K) {fuel t : ℕ}
    (hf : 3 * live.card + 2 ≤ fuel) (ht : t ∈ live) (o : Fin 3) (bd : Bool) :
    ∃ t' ∈ live, ∃ o',
        (find pos m p fuel ⟨t, o, bd⟩ = .ok ⟨t', o', false⟩ ∧
          ∀ i, 0 ≤ area (pos (m.vtx t' (i + 2))) (pos (m.vtx t' i)) p) ∨
        (find pos m p fuel ⟨t, o, bd⟩ = .ok ⟨t', o', true⟩ ∧ m.ngh t' o' = none ∧
          area (pos (m.vtx t' (o' + 2))) (pos (m.vtx t' o')) p < 0) := by
  obtain ⟨n, rfl⟩ : ∃ n, fuel = n + 1 := ⟨fuel - 1, by omega⟩
  refine find_walk h n t o bd ht fun i hi => ?_
  have := ahead_card (pos := pos) (live := live) (vs := vs) (m := m) (p := p) t i
  omega

theorem find_ok (h : DMesh pos live vs m) {p : P2 K}
    (hp : ∀ x ∈ live, ∀ i, m.ngh x i = none → 0 ≤ area (pos (m.vtx x (i + 2))) (pos (m.vtx x i)) p) {fuel t : ℕ}
    (hf : 3 * live.card + 2 ≤ fuel) (ht : t ∈ live) (o : Fin 3) (bd : Bool) :
    ∃ t' ∈ live, ∃ o', find pos m p fuel ⟨t, o, bd⟩ = .ok ⟨t', o', false⟩ ∧
        ∀ i, 0 ≤ area (pos (m.vtx t' (i + 2))) (pos (m.vtx t' i)) p := by
  obtain ⟨t', ht', o', ⟨e, g⟩ | ⟨-, g1, g2⟩⟩ := find_any h p hf ht o bd
  · exact ⟨t', ht', o', e, g⟩
  · exact absurd (hp t' ht' o' g1) (not_le.mpr g2)

end

/-! ### Circles -/

/-- The determinant against any centre. -/
theorem circ_centre (a b c d o : P2 K) : circ a b c d =
    sqd o a * area b c d + sqd o b * area c a d + sqd o c * area a b d - sqd o d * area a b c := by
  unfold circ area sqd
  ring

/-- Three points not on a line have a circumcentre. -/
theorem exists_centre {a b c : P2 K} (h : area a b c ≠ 0) : ∃ o : P2 K, sqd o a = sqd o b ∧ sqd o b = sqd o c := by
  have h2 : (2 : K) * area a b c ≠ 0 := mul_ne_zero two_ne_zero h
  have hb : (2 : K) * area a b c * (2 * area a b c)⁻¹ = 1 := mul_inv_cancel₀ h2
  set i := (2 * area a b c)⁻¹ with hi
  unfold area at hb
  refine ⟨⟨a.x + (((b.x - a.x) ^ 2 + (b.y - a.y) ^ 2) * (c.y - a.y) - ((c.x - a.x) ^ 2 + (c.y - a.y) ^ 2) * (b.y - a.y)) * i,
    a.y + (((c.x - a.x) ^ 2 + (c.y - a.y) ^ 2) * (b.x - a.x) - ((b.x - a.x) ^ 2 + (b.y - a.y) ^ 2) * (c.x - a.x)) * i⟩,
    ?_, ?_⟩
  · unfold sqd
    linear_combination ((b.x - a.x) ^ 2 + (b.y - a.y) ^ 2) * hb
  · unfold sqd
    linear_combination (((c.x - a.x) ^ 2 + (c.y - a.y) ^ 2) - ((b.x - a.x) ^ 2 + (b.y - a.y) ^ 2)) * hb

/-- The in-circle test in terms of the circle. -/
theorem circ_le_iff {a b c d : P2 K} (h : 0 < area a b c) : circ a b c d ≤ 0 ↔
    ∀ (o : P2 K) (r : K), sqd o a = r → sqd o b = r → sqd o c = r → r ≤ sqd o d := by
  have key : ∀ (o : P2 K) (r : K), sqd o a = r → sqd o b = r → sqd o c = r →
      circ a b c d = (r - sqd o d) * area a b c := by
    intro o r h1 h2 h3
    rw [circ_centre a b c d o, h1, h2, h3]
    have := area_sum a b c d
    linear_combination r * this
  constructor
  · intro hc o r h1 h2 h3
    rw [key o r h1 h2 h3] at hc
    by_contra hlt
    push Not at hlt
    have := mul_pos (sub_pos.mpr hlt) h
    linarith
  · intro hc
    obtain ⟨o, h1, h2⟩ := exists_centre h.ne'
    have := hc o (sqd o a) rfl h1.symm (h2.symm.trans h1.symm)
    rw [key o (sqd o a) rfl h1.symm (h2.symm.trans h1.symm)]
    exact mul_nonpos_of_nonpos_of_nonneg (by linarith) h.le

/-- Specification: the triangles `live` of the mesh are a Delaunay triangulation of the vertices `vs`. -/
structure IsDelaunay (pos : ℕ → P2 K) (live vs : Finset ℕ) (m : Mesh) : Prop where
  /-- the corners are vertices -/
  corner : ∀ x ∈ live, ∀ k, m.vtx x k ∈ vs
  /-- every vertex is a corner, of the triangle its pointer names -/
  vertex : ∀ u ∈ vs, m.vt u ∈ live ∧ ∃ k, m.vtx (m.vt u) k = u
  /-- the corners of a triangle are in counterclockwise order -/
  ccw : ∀ x ∈ live, 0 < area (pos (m.vtx x 0)) (pos (m.vtx x 1)) (pos (m.vtx x 2))
  /-- no point is strictly inside two triangles -/
  disjoint : ∀ x ∈ live, ∀ y ∈ live, x ≠ y → ¬ ∃ z, In pos m x z ∧ In pos m y z
  /-- the neighbour across an edge is the triangle with the same edge in the other direction -/
  neighbour : ∀ x ∈ live, ∀ i y, m.ngh x i = some y ↔
    y ∈ live ∧ ∃ j, m.vtx y j = m.vtx x (i + 2) ∧ m.vtx y (j + 2) = m.vtx x i
  /-- no vertex is strictly inside the circle through the corners of a triangle -/
  empty : ∀ x ∈ live, ∀ (o : P2 K) (r : K), (∀ k, sqd o (pos (m.vtx x k)) = r) → ∀ q ∈ vs, r ≤ sqd o (pos q)
  /-- all vertices lie on the inner side of an edge without neighbour -/
  outline : ∀ x ∈ live, ∀ i, m.ngh x i = none → ∀ q ∈ vs, 0 ≤ area (pos (m.vtx x (i + 2))) (pos (m.vtx x i)) (pos q)

theorem isDelaunay_iff {pos : ℕ → P2 K} {live vs : Finset ℕ} {m : Mesh} :
    IsDelaunay pos live vs m ↔ DMesh pos live vs m := by
  have emp : (∀ x ∈ live, 0 < area (pos (m.vtx x 0)) (pos (m.vtx x 1)) (pos (m.vtx x 2))) →
      ((∀ x ∈ live, ∀ (o : P2 K) (r : K), (∀ k, sqd o (pos (m.vtx x k)) = r) → ∀ q ∈ vs, r ≤ sqd o (pos q)) ↔
        ∀ x ∈ live, ∀ q ∈ vs, circT pos m x (pos q) ≤ 0) := by
    intro hc
    constructor
    · intro h x hx q hq
      refine (circ_le_iff (hc x hx)).mpr fun o r h1 h2 h3 => h x hx o r (fun k => ?_) q hq
      rcases fin3_cases 0 k with rfl | rfl | rfl
      · exact h1
      · exact h2
      · exact h3
    · intro h x hx o r hr q hq
      exact (circ_le_iff (hc x hx)).mp (h x hx q hq) o r (hr 0) (hr 1) (hr 2)
  constructor
  · intro h
    have inj : ∀ x ∈ live, ∀ i j, m.vtx x i = m.vtx x j → i = j := by
      intro x hx i j e
      have c := h.ccw x hx
      rw [← ccw_rot i] at c
      rcases fin3_cases i j with rfl | rfl | rfl
      · rfl
      · rw [← e, area_self] at c
        exact absurd c (lt_irrefl _)
      · rw [← e, area_self_left] at c
        exact absurd c (lt_irrefl _)
    have disj : ∀ x ∈ live, ∀ y ∈ live, x ≠ y → ∀ z, In pos m x z → ¬ In pos m y z :=
      fun x hx y hy hxy z k1 k2 => h.disjoint x hx y hy hxy ⟨z, k1, k2⟩
    have full : ∀ x ∈ live, ∀ y ∈ live, ∀ i j, m.vtx y j = m.vtx x (i + 2) → m.vtx y (j + 2) = m.vtx x i →
        m.ngh x i = some y := fun x hx y hy i j e1 e2 => (h.neighbour x hx i y).mpr ⟨hy, j, e1, e2⟩
    have twin : ∀ x ∈ live, ∀ i y, m.ngh x i = some y → y ∈ live ∧ ∃ j, m.ngh y j = some x ∧
        m.vtx y j = m.vtx x (i + 2) ∧ m.vtx y (j + 2) = m.vtx x i := by
      intro x hx i y hn
      obtain ⟨hy, j, e1, e2⟩ := (h.neighbour x hx i y).mp hn
      exact ⟨hy, j, full y hy x hx j i e2.symm e1.symm, e1, e2⟩
    exact ⟨⟨⟨inj, twin, uniq_of_ccw inj twin h.ccw⟩, h.ccw, disj, full⟩, h.vertex, h.corner,
      (emp h.ccw).mp h.empty, h.outline⟩
  · intro h
    refine ⟨h.corner, h.vp, h.planar.ccw, ?_, ?_, (emp h.planar.ccw).mpr h.empty, h.hull⟩
    · rintro x hx y hy hxy ⟨z, k1, k2⟩
      exact h.planar.disj x hx y hy hxy z k1 k2
    · intro x hx i y
      constructor
      · intro hn
        obtain ⟨hy, j, -, e1, e2⟩ := h.planar.wf.twin x hx i y hn
        exact ⟨hy, j, e1, e2⟩
      · rintro ⟨hy, j, e1, e2⟩
        exact h.planar.full x hx y hy i j e1 e2

/-- Triangles are disjoint if an edge of one has the other on its outer side. -/
theorem disjoint_of_side {pos : ℕ → P2 K} {m : Mesh} {x y : ℕ} {i : Fin 3}
    (h : ∀ k, area (pos (m.vtx x (i + 2))) (pos (m.vtx x i)) (pos (m.vtx y k)) ≤ 0) :
    ¬ ∃ z, In pos m x z ∧ In pos m y z := by
  rintro ⟨z, hx, hy⟩
  have h1 := hx i
  obtain ⟨k1, k2, k3⟩ := (in_iff pos m y z 0).mp hy
  have e := area_bary (pos (m.vtx y 0)) (pos (m.vtx y 1)) (pos (m.vtx y 2)) (pos (m.vtx x (i + 2))) (pos (m.vtx x i)) z
  have hA := area_sum (pos (m.vtx y 0)) (pos (m.vtx y 1)) (pos (m.vtx y 2)) z
  have g0 := h 0
  have g1 := h 1
  have g2 := h 2
  have e1 : (0 : Fin 3) + 1 = 1 := by decide
  have e2 : (0 : Fin 3) + 2 = 2 := by decide
  rw [e1] at k2 k3
  rw [e2] at k1 k3
  have hpos : 0 < area (pos (m.vtx y 0)) (pos (m.vtx y 1)) (pos (m.vtx y 2)) := by linarith
  have := mul_pos hpos h1
  have t1 := mul_nonpos_of_nonneg_of_nonpos k1.le g1
  have t2 := mul_nonpos_of_nonneg_of_nonpos k2.le g2
  have t3 := mul_nonpos_of_nonneg_of_nonpos k3.le g0
  linarith

/-- A triangulation is Delaunay if finitely many tests succeed. -/
theorem IsDelaunay.of_tests {pos : ℕ → P2 K} {live vs : Finset ℕ} {m : Mesh}
    (corner : ∀ x ∈ live, ∀ k, m.vtx x k ∈ vs) (vertex : ∀ u ∈ vs, m.vt u ∈ live ∧ ∃ k, m.vtx (m.vt u) k = u)
    (ccw : ∀ x ∈ live, 0 < area (pos (m.vtx x 0)) (pos (m.vtx x 1)) (pos (m.vtx x 2)))
    (disj : ∀ x ∈ live, ∀ y ∈ live, x ≠ y →
      (∃ i, ∀ k, area (pos (m.vtx x (i + 2))) (pos (m.vtx x i)) (pos (m.vtx y k)) ≤ 0) ∨
      ∃ i, ∀ k, area (pos (m.vtx y (i + 2))) (pos (m.vtx y i)) (pos (m.vtx x k)) ≤ 0)
    (pointer : ∀ x ∈ live, ∀ i y, m.ngh x i = some y →
      y ∈ live ∧ ∃ j, m.vtx y j = m.vtx x (i + 2) ∧ m.vtx y (j + 2) = m.vtx x i)
    (edge : ∀ x ∈ live, ∀ y ∈ live, ∀ i j, m.vtx y j = m.vtx x (i + 2) → m.vtx y (j + 2) = m.vtx x i →
      m.ngh x i = some y)
    (empty : ∀ x ∈ live, ∀ q ∈ vs, circ (pos (m.vtx x 0)) (pos (m.vtx x 1)) (pos (m.vtx x 2)) (pos q) ≤ 0)
    (outline : ∀ x ∈ live, ∀ i, m.ngh x i = none →
      ∀ q ∈ vs, 0 ≤ area (pos (m.vtx x (i + 2))) (pos (m.vtx x i)) (pos q)) : IsDelaunay pos live vs m := by
  refine ⟨corner, vertex, ccw, ?_, ?_, ?_, outline⟩
  · intro x hx y hy hxy
    rcases disj x hx y hy hxy with ⟨i, hi⟩ | ⟨i, hi⟩
    · exact disjoint_of_side hi
    · rintro ⟨z, h1, h2⟩
      exact disjoint_of_side hi ⟨z, h2, h1⟩
  · intro x hx i y
    constructor
    · exact pointer x hx i y
    · rintro ⟨hy, j, e1, e2⟩
      exact edge x hx y hy i j e1 e2
  · intro x hx o r hr q hq
    exact (circ_le_iff (ccw x hx)).mp (empty x hx q hq) o r (hr 0) (hr 1) (hr 2)

end Verif.Delaunay
