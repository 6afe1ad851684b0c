import Verif.Delaunay.FindLemmas

set_option linter.unusedSectionVars false
set_option linter.unusedVariables false

/-!
C59 and C60: point location and insertion. The specification is `IsDelaunay` (`FindLemmas.lean`) and the three notions
below; they only speak of positions and of the arrays of the mesh.
-/

namespace Verif.Delaunay

variable {K : Type} [Field K] [LinearOrder K] [IsStrictOrderedRing K]

/-- Specification: `p` is strictly inside the circle through the corners of `x`. -/
def InsideCircle (pos : ℕ → P2 K) (m : Mesh) (x : ℕ) (p : P2 K) : Prop :=
  ∀ (o : P2 K) (r : K), (∀ k, sqd o (pos (m.vtx x k)) = r) → sqd o p < r

/-- Specification: the edge from `s` to `d` of a triangle has no neighbour. -/
def OutlineEdge (live : Finset ℕ) (m : Mesh) (s d : ℕ) : Prop :=
  ∃ x ∈ live, ∃ i, m.ngh x i = none ∧ m.vtx x (i + 2) = s ∧ m.vtx x i = d

/-- Specification: `p` lies to the left of all outline edges. -/
def Within (pos : ℕ → P2 K) (live : Finset ℕ) (m : Mesh) (p : P2 K) : Prop :=
  ∀ s d, OutlineEdge live m s d → 0 < area (pos s) (pos d) p

/-- Specification: `p` lies in the closed triangle `x`. -/
def InClosed (pos : ℕ → P2 K) (m : Mesh) (x : ℕ) (p : P2 K) : Prop :=
  ∀ i, 0 ≤ area (pos (m.vtx x (i + 2))) (pos (m.vtx x i)) p

section
variable {pos : ℕ → P2 K} {live vs : Finset ℕ} {m : Mesh} {v : ℕ}

theorem insideCircle_iff {x : ℕ} (h : 0 < area (pos (m.vtx x 0)) (pos (m.vtx x 1)) (pos (m.vtx x 2))) (p : P2 K) :
    InsideCircle pos m x p ↔ 0 < circT pos m x p := by
  have key : ∀ (o : P2 K) (r : K), (∀ k, sqd o (pos (m.vtx x k)) = r) →
      circT pos m x p = (r - sqd o p) * area (pos (m.vtx x 0)) (pos (m.vtx x 1)) (pos (m.vtx x 2)) := by
    intro o r hk
    unfold circT
    rw [circ_centre _ _ _ p o, hk, hk, hk]
    have := area_sum (pos (m.vtx x 0)) (pos (m.vtx x 1)) (pos (m.vtx x 2)) p
    linear_combination r * this
  constructor
  · intro hc
    obtain ⟨o, h1, h2⟩ := exists_centre h.ne'
    have hk : ∀ k, sqd o (pos (m.vtx x k)) = sqd o (pos (m.vtx x 0)) := by
      intro k
      rcases fin3_cases 0 k with rfl | rfl | rfl
      · rfl
      · exact h1.symm
      · exact h2.symm.trans h1.symm
    rw [key o _ hk]
    exact mul_pos (sub_pos.mpr (hc o _ hk)) h
  · intro hc o r hk
    rw [key o r hk] at hc
    exact sub_pos.mp ((pos_iff_pos_of_mul_pos hc).mpr h)

theorem within_iff (p : P2 K) : Within pos live m p ↔
    ∀ x ∈ live, ∀ i, m.ngh x i = none → 0 < area (pos (m.vtx x (i + 2))) (pos (m.vtx x i)) p := by
  constructor
  · intro h x hx i hn
    exact h _ _ ⟨x, hx, i, hn, rfl, rfl⟩
  · rintro h s d ⟨x, hx, i, hn, rfl, rfl⟩
    exact h x hx i hn

/-- The outline of the mesh is the same after the insertion. -/
theorem St.outline {a b : ℕ} {cur : Mesh} {proc : Finset ℕ} (h : DMesh pos live vs m) (hv : v ∉ vs)
    (hst : St pos live (insert v vs) m v a b cur proc) (s d : ℕ) :
    OutlineEdge (insert a (insert b live)) cur s d ↔ OutlineEdge live m s d := by
  have hvt : ∀ x ∈ live, ∀ k, m.vtx x k ≠ v := fun x hx k e => hv (e ▸ h.corner x hx k)
  have split : ∀ x ∈ insert a (insert b live), x ∈ insert a (insert b proc) ∨ (x ∈ live ∧ x ∉ proc) := by
    intro x hx
    simp only [Finset.mem_insert] at hx ⊢
    by_cases hp : x ∈ proc
    · exact Or.inl (Or.inr (Or.inr hp))
    · rcases hx with g | g | g
      · exact Or.inl (Or.inl g)
      · exact Or.inl (Or.inr (Or.inl g))
      · exact Or.inr ⟨g, hp⟩
  -- an old open edge has no neighbour in the new mesh
  have still : ∀ y ∈ live, ∀ k, m.ngh y k = none → ∀ x ∈ insert a (insert b live), ∀ i,
      cur.vtx x (i + 2) = m.vtx y (k + 2) → cur.vtx x i = m.vtx y k → cur.ngh x i = none := by
    intro y hy k hk x hx i e1 e2
    rcases hn : cur.ngh x i with _ | z
    · rfl
    · exfalso
      obtain ⟨hz, l, -, f1, f2⟩ := hst.planar.wf.twin x hx _ _ hn
      have bad : ∀ z ∈ live, ∀ l, m.vtx z l = m.vtx y (k + 2) → m.vtx z (l + 2) = m.vtx y k → False := by
        intro z hz l g1 g2
        rw [h.planar.full y hy z hz k l g1 g2] at hk
        exact absurd hk (by simp)
      rcases split z hz with hs | ⟨hl, hp⟩
      · obtain ⟨j, hj⟩ := hst.star z hs
        obtain ⟨w, hw, q, q1, q2⟩ := hj.inner
        rcases fin3_cases j l with rfl | rfl | rfl
        · exact bad w (hst.sub hw) q (by rw [q2, f1, e1]) (by rw [q1, f2, e2])
        · rw [hj.apex, e1] at f1
          exact hvt y hy _ f1.symm
        · rw [add_two_add_two, hj.apex, e2] at f2
          exact hvt y hy _ f2.symm
      · rw [hst.old z hl hp] at f1 f2
        exact bad z hl l (by rw [f1, e1]) (by rw [f2, e2])
  constructor
  · rintro ⟨x, hx, i, hn, rfl, rfl⟩
    rcases split x hx with hs | ⟨hl, hp⟩
    · obtain ⟨j, hj⟩ := hst.star x hs
      rcases fin3_cases j i with rfl | rfl | rfl
      · obtain ⟨y, hy, k, q1, q2⟩ := hj.inner
        refine ⟨y, hst.sub hy, k, ?_, q1, q2⟩
        rcases hz : m.ngh y k with _ | z
        · rfl
        · exfalso
          obtain ⟨hzl, l, -, f1, f2⟩ := h.planar.wf.twin y (hst.sub hy) _ _ hz
          have hzp : z ∉ proc := fun hzp => hj.outer z hzp l (by rw [f2, q2]) (by rw [f1, q1])
          have := hst.planar.full x hx z (by simp [hzl]) i l
            (by rw [hst.old z hzl hzp, f1, q1]) (by rw [hst.old z hzl hzp, f2, q2])
          rw [hn] at this
          exact absurd this (by simp)
      · exact absurd hn hj.next
      · exact absurd hn hj.prev
    · refine ⟨x, hl, i, ?_, by rw [hst.old x hl hp], by rw [hst.old x hl hp]⟩
      by_contra hne
      exact hst.keep x hl hp i hne hn
  · rintro ⟨y, hy, k, hk, rfl, rfl⟩
    by_cases hp : y ∈ proc
    · rcases hst.cover y hp k with ⟨z, hz, l, g1, g2⟩ | ⟨x, hx, i, g0, g1, g2⟩
      · rw [h.planar.full y hy z (hst.sub hz) k l g1 g2] at hk
        exact absurd hk (by simp)
      · have hx' := hst.star_live hx
        exact ⟨x, hx', i, still y hy k hk x hx' i g1 g2, g1, g2⟩
    · have hy' : y ∈ insert a (insert b live) := by simp [hy]
      have e1 := hst.old y hy hp (k + 2)
      have e2 := hst.old y hy hp k
      exact ⟨y, hy', k, still y hy k hk y hy' k e1 e2, e1, e2⟩

theorem inord_corner {good : ℕ → Prop} : ∀ (c : CT) (b a : ℕ), CT.IsCT good live m b a c → ∀ u ∈ c.inord m,
    ∃ T ∈ live, ∃ k, m.vtx T k = u
  | .stop, b, a, h, u, hu => by simp [CT.inord] at hu
  | .step T o l r, b, a, h, u, hu => by
    obtain ⟨hT, -, -, -, hl, hr⟩ := h
    simp only [CT.inord, List.mem_append, List.mem_cons] at hu
    rcases hu with hu | rfl | hu
    · exact inord_corner l _ _ hl u hu
    · exact ⟨T, hT, _, rfl⟩
    · exact inord_corner r _ _ hr u hu

theorem vertexQ_corner {good : ℕ → Prop} {t : ℕ} (ht : t ∈ live) {o : Fin 3} {c : Fin 3 → CT}
    (hc : ∀ i, CT.IsCT good live m (m.vtx t (i + 2)) (m.vtx t i) (c i)) {u : ℕ} (hu : u ∈ vertexQ m t o c) :
    ∃ T ∈ live, ∃ k, m.vtx T k = u := by
  simp only [vertexQ, List.mem_append, List.mem_cons] at hu
  rcases hu with rfl | hu | rfl | hu | rfl | hu
  · exact ⟨t, ht, _, rfl⟩
  · exact inord_corner _ _ _ (hc _) u hu
  · exact ⟨t, ht, _, rfl⟩
  · exact inord_corner _ _ _ (hc _) u hu
  · exact ⟨t, ht, _, rfl⟩
  · exact inord_corner _ _ _ (hc _) u hu

/-- C59: insert a point that lies in triangle `t` of a Delaunay triangulation, on an edge of it or inside, strictly
within the outline and not on a vertex. Cocircular vertices and points on lines through vertices are allowed. The search
for the cavity ends; the vertices it reserves are, each once, the corners of the triangles whose circle holds the point;
split and flips do not abort, and the result is a Delaunay triangulation of the old vertices and the new one, with the
two triangles allotted to the vertex added and with the same outline. Triangles whose circle does not hold the point are
untouched, all others have the new vertex as a corner, and no other vertex pointer changes. -/
theorem c59_insert (h : IsDelaunay pos live vs m) (hv : v ∉ vs) (hne : ∀ u ∈ vs, pos u ≠ pos v) {t : ℕ} (ht : t ∈ live)
    (hcl : InClosed pos m t (pos v)) (hw : Within pos live m (pos v)) (ha : m.vt v ∉ live) (hb : m.vt v + 1 ∉ live)
    (o : Fin 3) (bd : Bool) {fuel : ℕ} (hf : live.card ≤ fuel) :
    ∃ vq sq m', cavity pos m (pos v) fuel ⟨t, o, bd⟩ = .ok (vq, sq) ∧ insertMesh m v t sq = .ok m' ∧
      IsDelaunay pos (insert (m.vt v) (insert (m.vt v + 1) live)) (insert v vs) m' ∧
      (insert (m.vt v) (insert (m.vt v + 1) live)).card = live.card + 2 ∧
      vq.Nodup ∧ (∀ u, u ∈ vq ↔ ∃ x ∈ live, InsideCircle pos m x (pos v) ∧ ∃ k, m.vtx x k = u) ∧
      (∀ x ∈ live, ¬ InsideCircle pos m x (pos v) → m'.vtx x = m.vtx x) ∧
      (∀ x ∈ insert (m.vt v) (insert (m.vt v + 1) live), (∃ k, m'.vtx x k = v) ↔
        x = m.vt v ∨ x = m.vt v + 1 ∨ InsideCircle pos m x (pos v)) ∧
      (∀ s d, OutlineEdge (insert (m.vt v) (insert (m.vt v + 1) live)) m' s d ↔ OutlineEdge live m s d) ∧
      (∀ u, u ≠ v → u ∉ vq → m'.vt u = m.vt u) := by
  have hd := isDelaunay_iff.mp h
  have hvt : ∀ x ∈ live, ∀ k, m.vtx x k ≠ v := fun x hx k e => hv (e ▸ h.corner x hx k)
  obtain ⟨c, cur, proc, tr, sz, ru, st, clo, pr, cor, nd, sv, vtk, foot, dm⟩ :=
    insert_delaunay hd hv hne ht hcl ((within_iff _).mp hw) ha hb (by omega) o
  refine ⟨vertexQ m t o c, simplexQ o c, cur,
    cavity_ok hd.planar (pos v) ht o bd c tr fun i => (sz i).trans_le hf, ru, isDelaunay_iff.mpr dm, ?_, nd, ?_, ?_, ?_,
    st.outline hd hv, vtk⟩
  · rw [Finset.card_insert_of_notMem (by simp [ha]), Finset.card_insert_of_notMem hb]
  · intro u
    constructor
    · intro hu
      obtain ⟨x, hx, k, rfl⟩ := (sv u).mpr (Or.inr hu)
      obtain ⟨j, hj⟩ := st.star x hx
      obtain ⟨y, hy, l, q1, q2⟩ := hj.inner
      have hyl := st.sub hy
      refine ⟨y, hyl, (insideCircle_iff (h.ccw y hyl) _).mpr ((pr y hyl).mp hy), ?_⟩
      rcases fin3_cases j k with rfl | rfl | rfl
      · exact ⟨_, q2⟩
      · exfalso
        rw [hj.apex] at hu
        have hvs : ∀ w ∈ vertexQ m t o c, w ≠ v := by
          intro w hw' e
          obtain ⟨T, hT, i, hi⟩ := vertexQ_corner ht tr hw'
          exact hvt T hT i (hi.trans e)
        exact hvs _ hu rfl
      · exact ⟨_, q1⟩
    · rintro ⟨x, hx, hc, k, rfl⟩
      exact cor x ((pr x hx).mpr ((insideCircle_iff (h.ccw x hx) _).mp hc)) k
  · intro x hx hc
    rw [insideCircle_iff (h.ccw x hx)] at hc
    funext k
    exact st.old x hx (fun hp => hc ((pr x hx).mp hp)) k
  · intro x hx
    have key : (∃ k, cur.vtx x k = v) ↔ x ∈ insert (m.vt v) (insert (m.vt v + 1) proc) := by
      constructor
      · rintro ⟨k, hk⟩
        by_contra hs
        simp only [Finset.mem_insert, not_or] at hs hx
        rcases hx with g | g | g
        · exact hs.1 g
        · exact hs.2.1 g
        · rw [st.old x g hs.2.2] at hk
          exact hvt x g k hk
      · intro hs
        obtain ⟨j, hj⟩ := st.star x hs
        exact ⟨_, hj.apex⟩
    rw [key]
    simp only [Finset.mem_insert] at hx ⊢
    by_cases h1 : x = m.vt v
    · simp [h1]
    by_cases h2 : x = m.vt v + 1
    · simp [h2]
    have hl : x ∈ live := by
      rcases hx with g | g | g
      · exact absurd g h1
      · exact absurd g h2
      · exact g
    rw [insideCircle_iff (h.ccw x hl), pr x hl]

/-- C60: in a Delaunay triangulation, `find`, started at any triangle in any orientation, ends after at most
`3 n + 2` triangles. Either it returns a triangle that holds the point, or it returns an outline edge that has the point
strictly on its outer side. -/
theorem c60_find (h : IsDelaunay pos live vs m) (p : P2 K) {t : ℕ} (ht : t ∈ live) (o : Fin 3) (bd : Bool) {fuel : ℕ}
    (hf : 3 * live.card + 2 ≤ fuel) :
    ∃ s, find pos m p fuel ⟨t, o, bd⟩ = .ok s ∧ s.t ∈ live ∧
      (s.boundary = false → InClosed pos m s.t p) ∧
      (s.boundary = true → m.ngh s.t s.o = none ∧ area (pos (m.vtx s.t (s.o + 2))) (pos (m.vtx s.t s.o)) p < 0) := by
  obtain ⟨t', ht', o', ⟨e, g⟩ | ⟨e, g⟩⟩ := find_any (isDelaunay_iff.mp h) p hf ht o bd
  · exact ⟨_, e, ht', fun _ => g, fun k => by simp at k⟩
  · exact ⟨_, e, ht', fun k => by simp at k, fun _ => g⟩

/-- C60: for a point within the outline, or on it, the walk ends in a triangle that holds the point. -/
theorem c60_find_within (h : IsDelaunay pos live vs m) {p : P2 K}
    (hp : ∀ s d, OutlineEdge live m s d → 0 ≤ area (pos s) (pos d) p) {t : ℕ} (ht : t ∈ live) (o : Fin 3) (bd : Bool)
    {fuel : ℕ} (hf : 3 * live.card + 2 ≤ fuel) :
    ∃ t' ∈ live, ∃ o', find pos m p fuel ⟨t, o, bd⟩ = .ok ⟨t', o', false⟩ ∧ InClosed pos m t' p :=
  find_ok (isDelaunay_iff.mp h) (fun x hx i hn => hp _ _ ⟨x, hx, i, hn, rfl, rfl⟩) hf ht o bd

/-- The triangles cover everything inside the outline. -/
theorem c60_cover (h : IsDelaunay pos live vs m) (hl : live.Nonempty) {p : P2 K}
    (hp : ∀ s d, OutlineEdge live m s d → 0 ≤ area (pos s) (pos d) p) : ∃ t ∈ live, InClosed pos m t p := by
  obtain ⟨t, ht⟩ := hl
  obtain ⟨t', ht', -, -, g⟩ := c60_find_within h hp ht 0 false le_rfl
  exact ⟨t', ht', g⟩

/-- C59 and C60 together: locate a point from any triangle and insert it. -/
theorem c59_insertPoint (h : IsDelaunay pos live vs m) (hv : v ∉ vs) (hne : ∀ u ∈ vs, pos u ≠ pos v)
    (hw : Within pos live m (pos v)) (ha : m.vt v ∉ live) (hb : m.vt v + 1 ∉ live) {start : ℕ} (hs : start ∈ live)
    {fuel : ℕ} (hf : 3 * live.card + 2 ≤ fuel) :
    ∃ m' vq, insertPoint pos m fuel v start = .ok (m', vq) ∧
      IsDelaunay pos (insert (m.vt v) (insert (m.vt v + 1) live)) (insert v vs) m' ∧
      (∀ s d, OutlineEdge (insert (m.vt v) (insert (m.vt v + 1) live)) m' s d ↔ OutlineEdge live m s d) ∧
      (∀ u, u ∉ insert v vs → m'.vt u = m.vt u) := by
  obtain ⟨t, ht, o, e, hc⟩ := c60_find_within h (fun s d k => (hw s d k).le) hs 0 false hf
  obtain ⟨vq, sq, m', e1, e2, d, -, -, hq, -, -, ho, hvt⟩ :=
    c59_insert h hv hne ht hc hw ha hb o false (fuel := fuel) (by omega)
  refine ⟨m', vq, ?_, d, ho, ?_⟩
  · unfold insertPoint
    rw [e]
    simp only [Except.bind]
    rw [e1]
    simp only [e2, Except.map]
  · intro u hu
    rw [Finset.mem_insert, not_or] at hu
    refine hvt u hu.1 fun hm => hu.2 ?_
    obtain ⟨x, hx, -, k, rfl⟩ := (hq u).mp hm
    exact h.corner x hx k

/-- C59 without the condition that the point is new is false, for every triangulation: if the point lies on a vertex, the
cavity is empty and the split leaves a triangle without area. -/
theorem c59_duplicate_false (h : IsDelaunay pos live vs m) {u : ℕ} (hu : u ∈ vs) (he : pos v = pos u) {t : ℕ}
    (ht : t ∈ live) (hcl : InClosed pos m t (pos v)) (ha : m.vt v ∉ live) (hb : m.vt v + 1 ∉ live) (o : Fin 3)
    (bd : Bool) {fuel : ℕ} (hf : 0 < fuel) :
    ∃ vq m', cavity pos m (pos v) fuel ⟨t, o, bd⟩ = .ok (vq, []) ∧ insertMesh m v t [] = .ok m' ∧
      (∃ x ∈ insert (m.vt v) (insert (m.vt v + 1) live),
        area (pos (m'.vtx x 0)) (pos (m'.vtx x 1)) (pos (m'.vtx x 2)) = 0) ∧
      ¬ IsDelaunay pos (insert (m.vt v) (insert (m.vt v + 1) live)) (insert v vs) m' := by
  have hd := isDelaunay_iff.mp h
  have hno : ∀ T ∈ live, ¬ 0 < circT pos m T (pos v) := fun T hT => by
    rw [he]
    exact not_lt.mpr (hd.empty T hT u hu)
  obtain ⟨m', e, hs⟩ := split_ok (v := v) hd.planar.wf ht ha hb (by omega)
  have hz : ∃ x ∈ insert (m.vt v) (insert (m.vt v + 1) live),
      area (pos (m'.vtx x 0)) (pos (m'.vtx x 1)) (pos (m'.vtx x 2)) = 0 := by
    have : ∃ i, area (pos (m.vtx t (i + 2))) (pos (m.vtx t i)) (pos v) = 0 := by
      by_contra hne
      push Not at hne
      have hin : In pos m t (pos v) := fun i => lt_of_le_of_ne (hcl i) (hne i).symm
      obtain ⟨k1, k2, k3⟩ := (in_iff pos m t _ 0).mp hin
      exact hno t ht (circ_pos_of_inside k2 k3 k1)
    obtain ⟨i, hi⟩ := this
    obtain ⟨p0, p1, p2⟩ := hs.part_vtx i
    refine ⟨_, parts_mem ht i, ?_⟩
    rw [p0, p1, p2, ← hi]
    unfold area
    ring
  refine ⟨vertexQ m t o fun _ => .stop, m', ?_, ?_, hz, ?_⟩
  · have := cavity_ok hd.planar (pos v) ht o bd (fun _ => .stop) (fun i T hT k _ _ => hno T hT) (fuel := fuel)
      (fun i => by simpa [CT.size] using hf)
    simpa [simplexQ, CT.pre] using this
  · unfold insertMesh
    rw [e]
    rfl
  · intro hd'
    obtain ⟨x, hx, hx0⟩ := hz
    have := hd'.ccw x hx
    rw [hx0] at this
    exact lt_irrefl _ this

/-- C60 needs the condition on the outline: for a point beyond an outline edge, `insert` gets a boundary simplex from
`find` and splits the triangle next to it, and the part at that edge is clockwise. -/
theorem c60_outside_false (h : IsDelaunay pos live vs m) {t : ℕ} (ht : t ∈ live) {o : Fin 3}
    (hp : area (pos (m.vtx t (o + 2))) (pos (m.vtx t o)) (pos v) < 0) (ha : m.vt v ∉ live) (hb : m.vt v + 1 ∉ live) :
    ∃ m', split m t v (m.vt v) (m.vt v + 1) = .ok m' ∧ ∃ x ∈ insert (m.vt v) (insert (m.vt v + 1) live),
      area (pos (m'.vtx x 0)) (pos (m'.vtx x 1)) (pos (m'.vtx x 2)) < 0 := by
  obtain ⟨m', e, hs⟩ := split_ok (v := v) (isDelaunay_iff.mp h).planar.wf ht ha hb (by omega)
  obtain ⟨p0, p1, p2⟩ := hs.part_vtx o
  refine ⟨m', e, _, parts_mem ht o, ?_⟩
  rw [p0, p1, p2]
  have : area (pos (m.vtx t o)) (pos v) (pos (m.vtx t (o + 2))) =
      area (pos (m.vtx t (o + 2))) (pos (m.vtx t o)) (pos v) := by
    unfold area
    ring
  rw [this]
  exact hp

end

/-! ### Cases -/

/-- The corners of a square (on a common circle), a point inside it, one on the diagonal, one outside, and a copy of
a corner. -/
def sqPos (v : ℕ) : P2 ℚ :=
  if v = 0 then ⟨0, 0⟩ else if v = 1 then ⟨4, 0⟩ else if v = 2 then ⟨4, 4⟩ else if v = 3 then ⟨0, 4⟩
  else if v = 4 then ⟨3, 1⟩ else if v = 5 then ⟨2, 2⟩ else if v = 6 then ⟨9, 1⟩ else ⟨4, 4⟩

/-- The square, cut along a diagonal. -/
def sqMesh : Mesh where
  tri x := if x = 0 then ⟨![some 1, none, none], ![0, 1, 2]⟩ else ⟨![none, some 0, none], ![0, 2, 3]⟩
  vt v := if v ≤ 2 then 0 else if v = 3 then 1 else 2 * v

theorem sqMesh_delaunay : IsDelaunay sqPos {0, 1} {0, 1, 2, 3} sqMesh := by
  refine IsDelaunay.of_tests (by decide) (by decide) (by decide +kernel) (by decide +kernel) ?_ ?_ (by decide +kernel) ?_
  · intro x hx i y hy
    simp only [Finset.mem_insert, Finset.mem_singleton] at hx
    rcases hx with rfl | rfl <;> rcases fin3_cases 0 i with rfl | rfl | rfl <;>
      simp [sqMesh, Mesh.ngh] at hy <;> subst hy <;> decide
  · decide
  · decide +kernel

theorem sqMesh_within (p : P2 ℚ) (h1 : 0 < p.x) (h2 : p.x < 4) (h3 : 0 < p.y) (h4 : p.y < 4) :
    Within sqPos {0, 1} sqMesh p := by
  rw [within_iff]
  intro x hx i hn
  simp only [Finset.mem_insert, Finset.mem_singleton] at hx
  rcases hx with rfl | rfl <;> rcases fin3_cases 0 i with rfl | rfl | rfl <;>
    simp [sqMesh, Mesh.ngh, Mesh.vtx, sqPos, area] at hn ⊢ <;> linarith

example := c59_insert (t := 0) (v := 4) sqMesh_delaunay (by decide) (by decide +kernel) (by decide)
  (by unfold InClosed; decide +kernel) (sqMesh_within _ (by decide +kernel) (by decide +kernel) (by decide +kernel) (by decide +kernel))
  (by decide) (by decide) 0 false (fuel := 2) (by decide)

/-- A point on the diagonal. -/
example := c59_insert (t := 0) (v := 5) sqMesh_delaunay (by decide) (by decide +kernel) (by decide)
  (by unfold InClosed; decide +kernel) (sqMesh_within _ (by decide +kernel) (by decide +kernel) (by decide +kernel) (by decide +kernel))
  (by decide) (by decide) 0 false (fuel := 2) (by decide)

/-- Both triangles are in the cavity of vertex 4, and the diagonal is flipped. -/
example : (cavity sqPos sqMesh (sqPos 4) 2 ⟨0, 0, false⟩).toOption = some ([0, 3, 1, 2], [⟨1, 1, false⟩]) := by
  decide +kernel

example := c59_insertPoint (v := 4) sqMesh_delaunay (by decide) (by decide +kernel)
  (sqMesh_within _ (by decide +kernel) (by decide +kernel) (by decide +kernel) (by decide +kernel)) (by decide) (by decide)
  (start := 1) (by decide) (fuel := 8) (by decide)

example := c60_find sqMesh_delaunay (sqPos 6) (t := 1) (by decide) 0 false (fuel := 8) (by decide)

example : (find sqPos sqMesh (sqPos 6) 8 ⟨1, 0, false⟩).toOption = some ⟨0, 2, true⟩ := by decide +kernel

example := c60_find_within sqMesh_delaunay
  (fun s d k => (sqMesh_within (sqPos 4) (by decide +kernel) (by decide +kernel) (by decide +kernel) (by decide +kernel) s d k).le)
  (t := 1) (by decide) 0 false (fuel := 8) (by decide)

example := c60_cover sqMesh_delaunay (by decide)
  (fun s d k => (sqMesh_within (sqPos 4) (by decide +kernel) (by decide +kernel) (by decide +kernel) (by decide +kernel) s d k).le)

example := c59_duplicate_false (v := 7) (u := 2) sqMesh_delaunay (by decide) rfl (t := 0) (by decide)
  (by unfold InClosed; decide +kernel) (by decide) (by decide) 0 false (fuel := 1) (by decide)

example := c60_outside_false (v := 6) sqMesh_delaunay (t := 0) (o := 2) (by decide) (by decide +kernel) (by decide) (by decide)

end Verif.Delaunay
