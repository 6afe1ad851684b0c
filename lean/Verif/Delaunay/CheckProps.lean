import Verif.Delaunay.CheckLemmas
import Verif.Delaunay.InsertProps
import Mathlib.Algebra.BigOperators.Fin
import Mathlib.Data.List.GetD

set_option linter.unusedSectionVars false
set_option linter.unusedVariables false

/-!
C90: the self-check of the Delaunay triangulation.
-/

namespace Verif.Delaunay

variable {K : Type} [Field K] [LinearOrder K] [IsStrictOrderedRing K]

section
variable {pos : ℕ → P2 K} {live vs : Finset ℕ} {m : Mesh}

/-! ### The lines about edges -/

theorem checkEdge_none {n t : ℕ} {o : Fin 3} (hn : m.ngh t o = none) (ho : (o : ℕ) < n) :
    checkEdge pos m n t o = .ok ([], [o]) := by
  unfold checkEdge
  rw [across_none hn]
  simp [Except.bind, ho]

theorem checkEdge_some (h : IsTriangulated pos live vs m) {n t : ℕ} (ht : t ∈ live) {o : Fin 3} {y : ℕ}
    (hn : m.ngh t o = some y) : ∃ r, checkEdge pos m n t o = .ok (r, []) ∧
      (r = [] ↔ ∀ k, circT pos m t (pos (m.vtx y k)) ≤ 0) := by
  obtain ⟨hy, j, hj, f1, f2⟩ := h.planar.wf.twin _ ht _ _ hn
  have cy := h.ccw y hy
  rw [← ccw_edge j, f1, f2] at cy
  have hout : outside pos m ⟨t, o, false⟩ (pos (m.vtx y (j + 1))) = true := by
    rw [outside_iff, area_swap]
    linarith
  refine ⟨if inCirc pos m ⟨t, o, false⟩ (pos (m.vtx y (j + 1))) then [.inCircle t o] else [], ?_, ?_⟩
  · unfold checkEdge
    rw [across_some h.planar.wf ht hn hj]
    simp [Except.bind, hout]
  · have hin : inCirc pos m ⟨t, o, false⟩ (pos (m.vtx y (j + 1))) = true ↔ 0 < circT pos m t (pos (m.vtx y (j + 1))) := by
      simp only [inCirc, inCircle, Bool.false_eq_true, if_false, decide_eq_true_eq]
      rfl
    constructor
    · intro hr k
      rcases fin3_cases j k with rfl | rfl | rfl
      · rw [f1]
        exact (circT_vtx pos m t _).le
      · by_contra hlt
        rw [if_pos (hin.mpr (not_le.mp hlt))] at hr
        simp at hr
      · rw [f2]
        exact (circT_vtx pos m t _).le
    · intro hk
      rw [if_neg]
      rw [hin]
      exact not_lt.mpr (hk _)

/-- Specification: the edges of triangle `t` without neighbour. -/
def openEdges (m : Mesh) (t : ℕ) : List (Fin 3) := [0, 1, 2].filter fun o => m.ngh t o = none

/-- Specification: neighbouring triangles do not have corners inside the circle of `t`. -/
def LocalAt (pos : ℕ → P2 K) (m : Mesh) (t : ℕ) : Prop :=
  ∀ (i : Fin 3) y, m.ngh t i = some y → ∀ k, circT pos m t (pos (m.vtx y k)) ≤ 0

theorem checkEdge_any (h : IsTriangulated pos live vs m) {n t : ℕ} (ht : t ∈ live) (hn3 : 3 ≤ n) (o : Fin 3) :
    ∃ r, checkEdge pos m n t o = .ok (r, if m.ngh t o = none then [o] else []) ∧
      (r = [] ↔ ∀ y, m.ngh t o = some y → ∀ k, circT pos m t (pos (m.vtx y k)) ≤ 0) := by
  rcases hn : m.ngh t o with _ | y
  · exact ⟨[], by rw [checkEdge_none hn (by omega)]; simp, by simp⟩
  · obtain ⟨r, h1, h2⟩ := checkEdge_some (n := n) h ht hn
    refine ⟨r, by rw [h1]; simp, ?_⟩
    rw [h2]
    constructor
    · intro g y' e
      cases e
      exact g
    · intro g
      exact g y rfl

theorem checkTri_ok (h : IsTriangulated pos live vs m) {n t : ℕ} (ht : t ∈ live) (hn3 : 3 ≤ n) :
    ∃ r, checkTri pos m n t = .ok (r, openEdges m t) ∧ (r = [] ↔ LocalAt pos m t) := by
  obtain ⟨r0, a0, b0⟩ := checkEdge_any h ht hn3 0
  obtain ⟨r1, a1, b1⟩ := checkEdge_any h ht hn3 1
  obtain ⟨r2, a2, b2⟩ := checkEdge_any h ht hn3 2
  refine ⟨r0 ++ r1 ++ r2, ?_, ?_⟩
  · unfold checkTri
    rw [a0, a1, a2]
    simp only [Except.bind, Except.map, Except.ok.injEq, Prod.mk.injEq, true_and]
    unfold openEdges
    by_cases c0 : m.ngh t 0 = none <;> by_cases c1 : m.ngh t 1 = none <;> by_cases c2 : m.ngh t 2 = none <;>
      simp [List.filter_cons, c0, c1, c2]
  · rw [List.append_eq_nil_iff, List.append_eq_nil_iff, b0, b1, b2]
    unfold LocalAt
    constructor
    · rintro ⟨⟨g0, g1⟩, g2⟩ i
      rcases fin3_cases 0 i with rfl | rfl | rfl
      · exact g0
      · exact g1
      · exact g2
    · intro g
      exact ⟨⟨g 0, g 1⟩, g 2⟩

theorem checkTris_ok (h : IsTriangulated pos live vs m) {n : ℕ} (hn3 : 3 ≤ n) (ts : List ℕ) (hts : ∀ t ∈ ts, t ∈ live) :
    ∃ r, checkTris pos m n ts = .ok (r, ts.map (openEdges m)) ∧ (r = [] ↔ ∀ t ∈ ts, LocalAt pos m t) := by
  induction ts with
  | nil => exact ⟨[], rfl, by simp⟩
  | cons t ts ih =>
    obtain ⟨r, a, b⟩ := checkTri_ok (n := n) h (hts t (by simp)) hn3
    obtain ⟨r', a', b'⟩ := ih fun t ht => hts t (by simp [ht])
    refine ⟨r ++ r', ?_, ?_⟩
    · rw [checkTris, a, a']
      rfl
    · rw [List.append_eq_nil_iff, b, b']
      simp

/-- **C90, the lines about edges.** On every triangulation with at least three triangles, in every execution, the check is defined, and
prints no line about an edge exactly if the triangulation is a Delaunay triangulation. -/
theorem c90_edges {n : ℕ} (hn : 3 ≤ n) (h : IsTriangulated pos (Finset.range n) vs m) (size : ℕ) (s : List ℕ) :
    ∃ r, (checkDelaunay pos m n size s).map Prod.fst = .ok r ∧ (r = [] ↔ IsDelaunay pos (Finset.range n) vs m) := by
  obtain ⟨r, a, b⟩ := checkTris_ok h hn (List.range n) (by simp)
  refine ⟨r, ?_, ?_⟩
  · unfold checkDelaunay
    rw [a]
    rfl
  · rw [b]
    constructor
    · intro g
      refine h.delaunay (h.local_global fun x hx => ?_)
      exact g x (by simpa using hx)
    · intro g x hx i y hy k
      have hx' : x ∈ Finset.range n := by simpa using hx
      have hyl := ((h.neighbour x hx' i y).mp hy).1
      exact (isDelaunay_iff.mp g).empty x hx' _ (h.corner y hyl k)

/-! ### Orientation -/

/-- Specification: the triangle is in counterclockwise order. -/
def Ccw (pos : ℕ → P2 K) (m : Mesh) (t : ℕ) : Prop := 0 < area (pos (m.vtx t 0)) (pos (m.vtx t 1)) (pos (m.vtx t 2))

theorem checkEdge_orient (h : WF live m) {n t : ℕ} (ht : t ∈ live) (hn3 : 3 ≤ n) (o : Fin 3) :
    ∃ r c, checkEdge pos m n t o = .ok (r, c) ∧
      ((∀ x i, Report.insideOut x i ∉ r) ↔ ∀ y, m.ngh t o = some y → Ccw pos m y) := by
  rcases hn : m.ngh t o with _ | y
  · exact ⟨[], [o], checkEdge_none hn (by omega), by simp⟩
  · obtain ⟨hy, j, hj, f1, f2⟩ := h.twin _ ht _ _ hn
    refine ⟨(if outside pos m ⟨t, o, false⟩ (pos (m.vtx y (j + 1))) then [] else [.insideOut t o]) ++
        (if inCirc pos m ⟨t, o, false⟩ (pos (m.vtx y (j + 1))) then [.inCircle t o] else []), [], ?_, ?_⟩
    · unfold checkEdge
      rw [across_some h ht hn hj]
      simp [Except.bind]
    · have key : outside pos m ⟨t, o, false⟩ (pos (m.vtx y (j + 1))) = true ↔ Ccw pos m y := by
        rw [outside_iff, area_swap]
        unfold Ccw
        rw [← ccw_edge j, f1, f2]
        constructor <;> intro g <;> linarith
      constructor
      · intro hr y' e
        cases e
        by_contra hc
        rw [← key, Bool.not_eq_true] at hc
        exact hr t o (by simp [hc])
      · intro hc x i
        have := key.mpr (hc y rfl)
        simp only [this, if_true, List.nil_append]
        split <;> simp

theorem checkTri_orient (h : WF live m) {n t : ℕ} (ht : t ∈ live) (hn3 : 3 ≤ n) :
    ∃ r c, checkTri pos m n t = .ok (r, c) ∧
      ((∀ x i, Report.insideOut x i ∉ r) ↔ ∀ o y, m.ngh t o = some y → Ccw pos m y) := by
  obtain ⟨r0, c0, a0, b0⟩ := checkEdge_orient (pos := pos) h ht hn3 0
  obtain ⟨r1, c1, a1, b1⟩ := checkEdge_orient (pos := pos) h ht hn3 1
  obtain ⟨r2, c2, a2, b2⟩ := checkEdge_orient (pos := pos) h ht hn3 2
  refine ⟨r0 ++ r1 ++ r2, c0 ++ c1 ++ c2, ?_, ?_⟩
  · unfold checkTri
    rw [a0, a1, a2]
    rfl
  · constructor
    · intro g o
      have g0 := b0.mp fun x i hx => g x i (by simp [hx])
      have g1 := b1.mp fun x i hx => g x i (by simp [hx])
      have g2 := b2.mp fun x i hx => g x i (by simp [hx])
      rcases fin3_cases 0 o with rfl | rfl | rfl
      · exact g0
      · exact g1
      · exact g2
    · intro g x i hx
      rw [List.mem_append, List.mem_append] at hx
      rcases hx with (hx | hx) | hx
      · exact b0.mpr (g 0) x i hx
      · exact b1.mpr (g 1) x i hx
      · exact b2.mpr (g 2) x i hx

theorem checkTris_orient (h : WF live m) {n : ℕ} (hn3 : 3 ≤ n) (ts : List ℕ) (hts : ∀ t ∈ ts, t ∈ live) :
    ∃ r c, checkTris pos m n ts = .ok (r, c) ∧
      ((∀ x i, Report.insideOut x i ∉ r) ↔ ∀ t ∈ ts, ∀ o y, m.ngh t o = some y → Ccw pos m y) := by
  induction ts with
  | nil => exact ⟨[], [], rfl, by simp⟩
  | cons t ts ih =>
    obtain ⟨r, c, a, b⟩ := checkTri_orient (pos := pos) (n := n) h (hts t (by simp)) hn3
    obtain ⟨r', c', a', b'⟩ := ih fun t ht => hts t (by simp [ht])
    refine ⟨r ++ r', c :: c', ?_, ?_⟩
    · rw [checkTris, a, a']
      rfl
    · constructor
      · intro g t' ht'
        rw [List.mem_cons] at ht'
        rcases ht' with rfl | ht'
        · exact b.mp fun x i hx => g x i (by simp [hx])
        · exact b'.mp (fun x i hx => g x i (by simp [hx])) t' ht'
      · intro g x i hx
        rw [List.mem_append] at hx
        rcases hx with hx | hx
        · exact b.mpr (g t (by simp)) x i hx
        · exact b'.mpr (fun t' ht' => g t' (by simp [ht'])) x i hx

/-- **C90, orientation.** On every well-formed mesh, wherever its vertices lie, the line `Inside Out` is printed for no edge exactly if every
triangle that has a neighbour is in counterclockwise order. -/
theorem c90_orientation {n : ℕ} (hn : 3 ≤ n) (h : WF (Finset.range n) m) (pos : ℕ → P2 K) (size : ℕ) (s : List ℕ) :
    ∃ r, (checkDelaunay pos m n size s).map Prod.fst = .ok r ∧
      ((∀ x i, Report.insideOut x i ∉ r) ↔ ∀ y < n, (∃ o, m.ngh y o ≠ none) → Ccw pos m y) := by
  obtain ⟨r, c, a, b⟩ := checkTris_orient (pos := pos) h hn (List.range n) (by simp)
  refine ⟨r, ?_, ?_⟩
  · unfold checkDelaunay
    rw [a]
    rfl
  · rw [b]
    constructor
    · rintro g y hy ⟨o, ho⟩
      obtain ⟨t, ht⟩ := Option.ne_none_iff_exists'.mp ho
      obtain ⟨htl, j, hj, -, -⟩ := h.twin y (by simpa using hy) o t ht
      exact g t (by simpa using htl) j y hj
    · intro g t ht o y hy
      obtain ⟨hyl, j, hj, -, -⟩ := h.twin t (by simpa using ht) o y hy
      exact g y (by simpa using hyl) ⟨j, by rw [hj]; simp⟩

end

/-! ### The size of the boundary -/

/-- The increments performed so far, if the ones to do are `b`. -/
theorem bumpRun_inv (s : List ℕ) : ∀ (c : Fin 3 → ℕ) (b : ℕ → Bump) (n : ℕ) (tot : Fin 3 → ℕ), (∀ i ∈ s, i < n) →
    (∀ o, c o + ∑ i ∈ Finset.range n, ((b i).todo.count o) ≤ tot o) →
    (∀ i < n, ∀ o v, (b i).todo.head? = some o → (b i).reg = some v →
      v + ∑ i ∈ Finset.range n, ((b i).todo.count o) ≤ tot o) →
    ∀ o, (bumpRun s c b).1 o ≤ tot o := by
  induction s with
  | nil =>
    intro c b n tot hs h1 h2 o
    have := h1 o
    show c o ≤ tot o
    omega
  | cons i s ih =>
    intro c b n tot hs h1 h2
    have hi : i < n := hs i (by simp)
    have hs' : ∀ i ∈ s, i < n := fun j hj => hs j (by simp [hj])
    show ∀ o, (bumpRun s ((b i).step c).1 (Function.update b i ((b i).step c).2)).1 o ≤ tot o
    have hmem : i ∈ Finset.range n := Finset.mem_range.mpr hi
    rcases e1 : (b i).todo with _ | ⟨o1, rest⟩
    · have hst : (b i).step c = (c, b i) := by
        unfold Bump.step
        rw [e1]
      rw [hst]
      simp only [Function.update_eq_self]
      exact ih c b n tot hs' h1 h2
    · rcases e2 : (b i).reg with _ | v
      · have hst : (b i).step c = (c, ⟨o1 :: rest, some (c o1)⟩) := by
          unfold Bump.step
          rw [e1, e2]
        rw [hst]
        have hcount : ∀ o, ∑ j ∈ Finset.range n,
            (((Function.update b i ⟨o1 :: rest, some (c o1)⟩) j).todo.count o) =
            ∑ j ∈ Finset.range n, ((b j).todo.count o) := by
          intro o
          refine Finset.sum_congr rfl fun j _ => ?_
          by_cases hj : j = i
          · subst hj
            rw [Function.update_self, e1]
          · rw [Function.update_of_ne hj]
        refine ih c _ n tot hs' ?_ ?_
        · intro o
          rw [hcount]
          exact h1 o
        · intro j hj o v k1 k2
          rw [hcount]
          by_cases hji : j = i
          · subst hji
            rw [Function.update_self] at k1 k2
            simp only [List.head?_cons, Option.some.injEq] at k1 k2
            rw [← k1, ← k2]
            exact h1 o1
          · rw [Function.update_of_ne hji] at k1 k2
            exact h2 j hj o v k1 k2
      · have hst : (b i).step c = (Function.update c o1 (v + 1), ⟨rest, none⟩) := by
          unfold Bump.step
          rw [e1, e2]
        rw [hst]
        have hcount : ∀ o, ∑ j ∈ Finset.range n, ((b j).todo.count o) =
            ∑ j ∈ Finset.range n, (((Function.update b i ⟨rest, none⟩) j).todo.count o) + if o1 = o then 1 else 0 := by
          intro o
          rw [← Finset.add_sum_erase _ _ hmem, ← Finset.add_sum_erase (a := i) (s := Finset.range n)
            (f := fun j => ((Function.update b i (⟨rest, none⟩ : Bump)) j).todo.count o) hmem]
          have hr : ∑ j ∈ (Finset.range n).erase i, ((Function.update b i (⟨rest, none⟩ : Bump)) j).todo.count o =
              ∑ j ∈ (Finset.range n).erase i, (b j).todo.count o := by
            refine Finset.sum_congr rfl fun j hj => ?_
            rw [Function.update_of_ne (Finset.ne_of_mem_erase hj)]
          rw [hr, Function.update_self, e1, List.count_cons]
          simp only [beq_iff_eq]
          omega
        have hv := h2 i hi o1 v (by rw [e1]; rfl) e2
        refine ih (Function.update c o1 (v + 1)) (Function.update b i ⟨rest, none⟩) n tot hs' ?_ ?_
        · intro o
          have g := hcount o
          by_cases ho : o1 = o
          · subst ho
            rw [Function.update_self]
            rw [if_pos rfl] at g
            omega
          · rw [Function.update_of_ne (Ne.symm ho)]
            rw [if_neg ho] at g
            have := h1 o
            omega
        · intro j hj o w k1 k2
          have g := hcount o
          by_cases hji : j = i
          · subst hji
            rw [Function.update_self] at k2
            simp at k2
          · rw [Function.update_of_ne hji] at k1 k2
            have := h2 j hj o w k1 k2
            omega

/-- One iteration that is not interrupted. -/
theorem bumpRun_alone (i : ℕ) : ∀ (l : List (Fin 3)) (c : Fin 3 → ℕ) (b : ℕ → Bump), b i = ⟨l, none⟩ →
    bumpRun (List.replicate (2 * l.length) i) c b = (fun o => c o + l.count o, Function.update b i ⟨[], none⟩) := by
  intro l
  induction l with
  | nil =>
    intro c b h
    simp only [List.length_nil, Nat.mul_zero, List.replicate_zero, bumpRun, List.count_nil, Nat.add_zero]
    rw [← h, Function.update_eq_self]
  | cons o l ih =>
    intro c b h
    rw [List.length_cons, Nat.mul_add, Nat.mul_one, List.replicate_succ, List.replicate_succ, bumpRun, bumpRun]
    have e1 : (b i).step c = (c, ⟨o :: l, some (c o)⟩) := by
      rw [h]
      rfl
    rw [e1]
    simp only [Function.update_self]
    have e2 : (⟨o :: l, some (c o)⟩ : Bump).step c = (Function.update c o (c o + 1), ⟨l, none⟩) := rfl
    rw [e2]
    simp only [Function.update_idem]
    rw [ih _ _ (by rw [Function.update_self])]
    rw [Function.update_idem]
    congr 1
    funext p
    rw [List.count_cons]
    by_cases hp : p = o
    · subst hp
      rw [Function.update_self]
      simp
      omega
    · rw [Function.update_of_ne hp]
      have : (o == p) = false := by simpa using Ne.symm hp
      simp [this]

/-- The iterations one after the other. -/
def oneByOne (l : List (List (Fin 3))) : List ℕ := l.zipIdx.flatMap fun x => List.replicate (2 * x.1.length) x.2

theorem bumpRun_append (s t : List ℕ) : ∀ (c : Fin 3 → ℕ) (b : ℕ → Bump),
    bumpRun (s ++ t) c b = bumpRun t (bumpRun s c b).1 (bumpRun s c b).2 := by
  induction s with
  | nil => intro c b; rfl
  | cons i s ih =>
    intro c b
    rw [List.cons_append, bumpRun, bumpRun, ih]

theorem bumpRun_seq : ∀ (l : List (List (Fin 3))) (k : ℕ) (c : Fin 3 → ℕ) (b : ℕ → Bump),
    (∀ i (hi : i < l.length), b (k + i) = ⟨l[i], none⟩) →
    (bumpRun ((l.zipIdx k).flatMap fun x => List.replicate (2 * x.1.length) x.2) c b).1 =
      fun o => c o + l.flatten.count o := by
  intro l
  induction l with
  | nil =>
    intro k c b h
    simp [bumpRun]
  | cons a l ih =>
    intro k c b h
    rw [List.zipIdx_cons, List.flatMap_cons, bumpRun_append]
    simp only
    rw [bumpRun_alone k a c b (h 0 (by simp))]
    simp only
    rw [ih (k + 1)]
    · funext o
      simp only [List.flatten_cons, List.count_append]
      omega
    · intro i hi
      rw [Function.update_of_ne (by omega)]
      have := h (i + 1) (by simpa using hi)
      rw [show k + 1 + i = k + (i + 1) by omega, this]
      simp

theorem sum_count (l : List (Fin 3)) : l.count 0 + l.count 1 + l.count 2 = l.length := by
  induction l with
  | nil => rfl
  | cons a l ih =>
    rw [List.length_cons, ← ih]
    rcases fin3_cases 0 a with rfl | rfl | rfl <;> simp <;> omega

theorem sum_getD_count (l : List (List (Fin 3))) (o : Fin 3) :
    ∑ i ∈ Finset.range l.length, (bumpStart l i).todo.count o = l.flatten.count o := by
  induction l with
  | nil => simp
  | cons a l ih =>
    rw [List.length_cons, Finset.sum_range_succ', List.flatten_cons, List.count_append, ← ih]
    simp [bumpStart, Nat.add_comm]

section
variable {pos : ℕ → P2 K} {vs : Finset ℕ} {m : Mesh}

/-- Specification: the number of edges without neighbour. -/
def outlineSize (m : Mesh) (n : ℕ) : ℕ :=
  ((Finset.range n ×ˢ (Finset.univ : Finset (Fin 3))).filter fun e => m.ngh e.1 e.2 = none).card

theorem outlineSize_eq (m : Mesh) (n : ℕ) : outlineSize m n = ((List.range n).map (openEdges m)).flatten.length := by
  induction n with
  | zero => rfl
  | succ n ih =>
    rw [List.range_succ, List.map_append, List.flatten_append, List.length_append, ← ih]
    unfold outlineSize
    rw [Finset.range_add_one, Finset.insert_eq, Finset.union_product, Finset.filter_union, Finset.card_union_of_disjoint]
    · rw [Nat.add_comm]
      congr 1
      rw [Finset.singleton_product, Finset.filter_map, Finset.card_map]
      simp only [List.map_cons, List.map_nil, List.flatten_cons, List.flatten_nil, List.append_nil]
      unfold openEdges
      rw [Finset.card_filter, Fin.sum_univ_three]
      by_cases c0 : m.ngh n 0 = none <;> by_cases c1 : m.ngh n 1 = none <;> by_cases c2 : m.ngh n 2 = none <;>
        simp [c0, c1, c2]
    · rw [Finset.disjoint_left]
      intro e h1 h2
      simp only [Finset.mem_filter, Finset.mem_product, Finset.mem_singleton, Finset.mem_range] at h1 h2
      omega

/-- **C90, the size of the boundary.** If the iterations run one after the other the line about the boundary is printed exactly if the
number of edges without neighbour is not the expected one; in other executions the number found is at most the true one. -/
theorem c90_boundary_partial {n : ℕ} (hn : 3 ≤ n) (h : IsTriangulated pos (Finset.range n) vs m) (size : ℕ) :
    (checkDelaunay pos m n size (oneByOne ((List.range n).map (openEdges m)))).map Prod.snd =
        .ok (decide (size ≠ outlineSize m n)) ∧
      ∀ s : List ℕ, (∀ i ∈ s, i < n) → outlineSize m n < size → (checkDelaunay pos m n size s).map Prod.snd = .ok true := by
  obtain ⟨r, a, -⟩ := checkTris_ok h hn (List.range n) (by simp)
  constructor
  · unfold checkDelaunay
    rw [a]
    simp only [Except.map]
    unfold oneByOne
    rw [bumpRun_seq _ 0]
    · simp only [bumpSum, Nat.zero_add]
      rw [sum_count, ← outlineSize_eq]
    · intro i hi
      rw [Nat.zero_add]
      unfold bumpStart
      rw [List.getD_eq_getElem _ _ hi]
  · intro s hs hlt
    unfold checkDelaunay
    rw [a]
    simp only [Except.map, Except.ok.injEq, decide_eq_true_eq]
    set l := (List.range n).map (openEdges m) with hl
    have hlen : l.length = n := by simp [hl]
    have hb := bumpRun_inv s (fun _ => 0) (bumpStart l) n (fun o => l.flatten.count o) hs
      (fun o => by
        rw [Nat.zero_add, ← hlen, sum_getD_count])
      (fun i _ o v _ k => by simp [bumpStart] at k)
    have h0 := hb 0
    have h1 := hb 1
    have h2 := hb 2
    have hsum := sum_count l.flatten
    rw [← outlineSize_eq] at hsum
    unfold bumpSum
    omega

end

/-! ### Cases -/

/-- A square with its centre. -/
def starPos (v : ℕ) : P2 ℚ :=
  if v = 0 then ⟨0, 0⟩ else if v = 1 then ⟨4, 0⟩ else if v = 2 then ⟨4, 4⟩ else if v = 3 then ⟨0, 4⟩ else ⟨2, 2⟩

/-- The four triangles at the centre. -/
def starMesh : Mesh where
  tri x := ⟨![some ((x + 1) % 4), some ((x + 3) % 4), none], ![4, x, (x + 1) % 4]⟩
  vt v := if v = 4 then 0 else v

theorem starMesh_delaunay : IsDelaunay starPos (Finset.range 4) {0, 1, 2, 3, 4} starMesh := by
  refine IsDelaunay.of_tests (by decide) (by decide) (by decide +kernel) (by decide +kernel) ?_ ?_ (by decide +kernel) ?_
  · have : ∀ x ∈ Finset.range 4, ∀ i : Fin 3, ∀ y ∈ Finset.range 4, starMesh.ngh x i = some y →
        ∃ j, starMesh.vtx y j = starMesh.vtx x (i + 2) ∧ starMesh.vtx y (j + 2) = starMesh.vtx x i := by decide +kernel
    intro x hx i y hy
    have hyl : y ∈ Finset.range 4 := by
      rw [Finset.mem_range]
      rcases fin3_cases 0 i with rfl | rfl | rfl <;> simp [starMesh, Mesh.ngh] at hy <;> omega
    exact ⟨hyl, this x hx i y hyl hy⟩
  · decide +kernel
  · decide +kernel

example := c90_edges (n := 4) (by decide) starMesh_delaunay.tri 4 []
example := c90_orientation (n := 4) (by decide) starMesh_delaunay.tri.planar.wf starPos 4 []
example := c90_boundary_partial (n := 4) (by decide) starMesh_delaunay.tri 4

/-- The same triangles with other positions: two corners inside the circles of their neighbours. -/
def skewPos (v : ℕ) : P2 ℚ :=
  if v = 0 then ⟨-2, -5⟩ else if v = 1 then ⟨0, -10⟩ else if v = 2 then ⟨2, -5⟩ else if v = 3 then ⟨0, 1⟩ else ⟨0, 0⟩

example : (checkDelaunay skewPos starMesh 4 4 (oneByOne ((List.range 4).map (openEdges starMesh)))).toOption =
    some ([.inCircle 0 0, .inCircle 1 1], false) := by decide +kernel

/-- The centre lies outside: two triangles are turned over. -/
def foldPos (v : ℕ) : P2 ℚ := if v = 4 then ⟨2, -9⟩ else starPos v

example : (checkDelaunay foldPos starMesh 4 4 (oneByOne ((List.range 4).map (openEdges starMesh)))).toOption.map
    (fun r => r.1.contains (.insideOut 3 0)) = some true := by decide +kernel

/-- **C90 fails: the counters are shared.** The four iterations increment the same counter; if all load before they store, the line
about the boundary is printed for a correct triangulation with the expected boundary. -/
theorem c90_race_false : IsDelaunay starPos (Finset.range 4) {0, 1, 2, 3, 4} starMesh ∧ outlineSize starMesh 4 = 4 ∧
    (checkDelaunay starPos starMesh 4 4 [0, 1, 2, 3, 0, 1, 2, 3]).toOption = some ([], true) ∧
    (∀ i < 4, ((bumpRun [0, 1, 2, 3, 0, 1, 2, 3] (fun _ => 0)
      (bumpStart ((List.range 4).map (openEdges starMesh)))).2 i).todo = []) :=
  ⟨starMesh_delaunay, by decide +kernel, by decide +kernel, by decide +kernel⟩

/-- **C90 fails: fewer than three triangles.** For the square cut in two, the counter of edge 2 does not exist. -/
theorem c90_small_false : IsDelaunay sqPos (Finset.range 2) {0, 1, 2, 3} sqMesh ∧
    (∀ size s, checkDelaunay sqPos sqMesh 2 size s = .error .ub) := by
  refine ⟨?_, fun size s => ?_⟩
  · have e : Finset.range 2 = {0, 1} := by decide
    rw [e]
    exact sqMesh_delaunay
  · have : checkTris sqPos sqMesh 2 (List.range 2) = .error .ub := by decide +kernel
    unfold checkDelaunay
    rw [this]
    rfl

/-- Six points around the origin, in two turns. -/
def turnPos (v : ℕ) : P2 ℚ :=
  if v = 0 then ⟨10, 0⟩ else if v = 1 then ⟨-5, 9⟩ else if v = 2 then ⟨-5, -9⟩ else if v = 3 then ⟨11, 0⟩
  else if v = 4 then ⟨-6, 9⟩ else if v = 5 then ⟨-6, -9⟩ else ⟨0, 0⟩

/-- Six triangles at the origin, each the neighbour of the next, which go around it twice. -/
def turnMesh : Mesh where
  tri x := ⟨![some ((x + 1) % 6), some ((x + 5) % 6), none], ![6, x, (x + 1) % 6]⟩
  vt v := if v = 6 then 0 else v

/-- **C90 fails: overlapping triangles.** The check prints nothing for a mesh that covers the plane around a vertex twice. -/
theorem c90_overlap_false : (checkDelaunay turnPos turnMesh 6 6 (oneByOne ((List.range 6).map (openEdges turnMesh)))).toOption =
      some ([], false) ∧ outlineSize turnMesh 6 = 6 ∧ ∃ z, In turnPos turnMesh 0 z ∧ In turnPos turnMesh 3 z :=
  ⟨by decide +kernel, by decide +kernel, ⟨2, 3⟩, by unfold In; decide +kernel, by unfold In; decide +kernel⟩

end Verif.Delaunay
