import Verif.Delaunay.Planar
import Verif.Delaunay.InsertModel
import Verif.Delaunay.ProgModel

set_option linter.unusedSectionVars false
set_option linter.unusedVariables false

/-!
The cavity of a new point: the search of `findCavity` as a tree, and the flips of `insert` over that tree.
-/

namespace Verif.Delaunay

variable {K : Type} [Field K] [LinearOrder K] [IsStrictOrderedRing K]

theorem fin3_succ_inj : ∀ i s : Fin 3, i + 1 = s + 1 → i = s := by decide

/-- The in-circle determinant of triangle `x`. -/
def circT (pos : ℕ → P2 K) (m : Mesh) (x : ℕ) (q : P2 K) : K :=
  circ (pos (m.vtx x 0)) (pos (m.vtx x 1)) (pos (m.vtx x 2)) q

theorem circT_edge (pos : ℕ → P2 K) (m : Mesh) (x : ℕ) (q : P2 K) (i : Fin 3) : circT pos m x q =
    circ (pos (m.vtx x (i + 2))) (pos (m.vtx x i)) (pos (m.vtx x (i + 1))) q := by
  unfold circT
  rcases fin3_cases 0 i with rfl | rfl | rfl
  · exact circ_rot _ _ _ _
  · rfl
  · exact (circ_rot _ _ _ _).symm

/-- The triangles a search for the cavity visits. -/
inductive CT
  | stop
  | step (T : ℕ) (o : Fin 3) (l r : CT)

namespace CT

def size : CT → ℕ
  | stop => 0
  | step _ _ l r => l.size + r.size + 1

/-- In the order of the search: what is pushed on `simplexQ`. -/
def pre : CT → List Simplex
  | stop => []
  | step T o l r => ⟨T, o, false⟩ :: (l.pre ++ r.pre)

/-- The vertices pushed on `vertexQ`. -/
def inord (m : Mesh) : CT → List ℕ
  | stop => []
  | step T o l r => l.inord m ++ m.vtx T (o + 1) :: r.inord m

/-- The tree of the search across the edge from `b` to `a` through the triangles that are `good`. -/
def IsCT (good : ℕ → Prop) (live : Finset ℕ) (m : Mesh) : ℕ → ℕ → CT → Prop
  | b, a, stop => ∀ T ∈ live, ∀ o, m.vtx T (o + 2) = a → m.vtx T o = b → ¬ good T
  | b, a, step T o l r => T ∈ live ∧ m.vtx T (o + 2) = a ∧ m.vtx T o = b ∧ good T ∧
    IsCT good live m b (m.vtx T (o + 1)) l ∧ IsCT good live m (m.vtx T (o + 1)) a r

end CT

open CT

theorem across_some {live : Finset ℕ} {m : Mesh} (h : WF live m) {x : ℕ} (hx : x ∈ live) {i : Fin 3} {y : ℕ}
    (hy : m.ngh x i = some y) {j : Fin 3} (hj : m.ngh y j = some x) (bd : Bool) :
    across m ⟨x, i, bd⟩ = .ok ⟨y, j, false⟩ := by
  have hyl := (h.twin _ hx _ _ hy).1
  unfold across
  simp only [hy]
  rw [Mesh.locate_ok hj fun k hk => h.uniq _ hyl _ _ _ hk hj]
  rfl

theorem across_none {m : Mesh} {x : ℕ} {i : Fin 3} (hy : m.ngh x i = none) (bd : Bool) :
    across m ⟨x, i, bd⟩ = .ok ⟨x, i, true⟩ := by
  unfold across
  simp only [hy]

/-- What `findCavity` appends, entered across an edge of a triangle. -/
theorem findCavity_ok {pos : ℕ → P2 K} {live : Finset ℕ} {m : Mesh} (h : Planar pos live m) (p : P2 K) (c : CT) :
    ∀ (fuel : ℕ) (b a : ℕ), IsCT (fun T => 0 < circT pos m T p) live m b a c → c.size < fuel → ∀ x ∈ live, ∀ i, m.vtx x (i + 2) = b →
      m.vtx x i = a → ∀ bd, (across m ⟨x, i, bd⟩).bind (findCavity pos m p fuel) = .ok (c.inord m, c.pre) := by
  induction c with
  | stop =>
    intro fuel b a hc hf x hx i e1 e2 bd
    obtain ⟨fuel, rfl⟩ : ∃ f, fuel = f + 1 := ⟨fuel - 1, by omega⟩
    rcases hn : m.ngh x i with _ | y
    · rw [across_none hn]
      simp [Except.bind, findCavity, inCirc, inord, pre]
    · obtain ⟨hyl, j, hj, f1, f2⟩ := h.wf.twin _ hx _ _ hn
      rw [across_some h.wf hx hn hj]
      have := not_lt.mp (hc y hyl j (by rw [f2, e2]) (by rw [f1, e1]))
      have h2 : inCirc pos m ⟨y, j, false⟩ p = false := by
        simp only [inCirc, inCircle]
        simpa [circT] using this
      simp [Except.bind, findCavity, h2, inord, pre]
  | step T o l r ihl ihr =>
    intro fuel b a hc hf x hx i e1 e2 bd
    obtain ⟨fuel, rfl⟩ : ∃ f, fuel = f + 1 := ⟨fuel - 1, by omega⟩
    obtain ⟨hT, t1, t2, t3, hl, hr⟩ := hc
    have hn : m.ngh x i = some T := h.full x hx T hT i o (by rw [t2, e1]) (by rw [t1, e2])
    have hn' : m.ngh T o = some x := h.full T hT x hx o i (by rw [t1, e2]) (by rw [t2, e1])
    rw [across_some h.wf hx hn hn']
    have h2 : inCirc pos m ⟨T, o, false⟩ p = true := by
      simp only [inCirc, inCircle]
      simpa [circT] using t3
    have hs : (CT.step T o l r).size = l.size + r.size + 1 := rfl
    have i1 := ihl fuel b (m.vtx T (o + 1)) hl (by omega) T hT (o + 1) (by rw [add_one_add_two, t2]) rfl false
    have i2 := ihr fuel (m.vtx T (o + 1)) a hr (by omega) T hT (o + 2) (by rw [add_two_add_two]) t1 false
    have e : findCavity pos m p (fuel + 1) ⟨T, o, false⟩ =
        ((across m ⟨T, o + 1, false⟩).bind (findCavity pos m p fuel)).bind fun q1 =>
          ((across m ⟨T, o + 2, false⟩).bind (findCavity pos m p fuel)).map fun q2 =>
            (q1.1 ++ m.vtx T (o + 1) :: q2.1, ⟨T, o, false⟩ :: (q1.2 ++ q2.2)) := by
      have hr2 : o + 1 + 1 = o + 2 := add_one_add_one o
      rw [findCavity]
      simp only [h2, if_true, Simplex.rot, hr2]
      rcases across m ⟨T, o + 1, false⟩ with er | a1
      · rfl
      · simp only [Except.bind]
        rcases findCavity pos m p fuel a1 with er | q1
        · rfl
        · simp only []
          rcases across m ⟨T, o + 2, false⟩ with er | a2
          · rfl
          · rfl
    simp only [Except.bind] at e i1 i2 ⊢
    rw [e, i1]
    simp only []
    rw [i2]
    rfl

/-- The search tree across an edge is determined by the mesh. -/
theorem isCT_unique {pos : ℕ → P2 K} {live : Finset ℕ} {m : Mesh} (h : Planar pos live m) (good : ℕ → Prop) (c : CT) :
    ∀ (b a : ℕ) (c' : CT), IsCT good live m b a c → IsCT good live m b a c' → c = c' := by
  induction c with
  | stop =>
    intro b a c' hc hc'
    cases c' with
    | stop => rfl
    | step T o l r => exact absurd hc'.2.2.2.1 (hc T hc'.1 o hc'.2.1 hc'.2.2.1)
  | step T o l r ihl ihr =>
    intro b a c' hc hc'
    cases c' with
    | stop => exact absurd hc.2.2.2.1 (hc' T hc.1 o hc.2.1 hc.2.2.1)
    | step T' o' l' r' =>
      obtain ⟨hT, t1, t2, t3, hl, hr⟩ := hc
      obtain ⟨hT', t1', t2', t3', hl', hr'⟩ := hc'
      obtain rfl : T = T' := h.own hT hT' (t1.trans t1'.symm) (t2.trans t2'.symm)
      obtain rfl : o = o' := h.wf.inj T hT _ _ (t2.trans t2'.symm)
      rw [ihl b _ l' hl hl', ihr _ a r' hr hr']

/-- The star of the new vertex while the flips run: `x` has the new vertex opposite its edge `i`. -/
structure Link (m : Mesh) (v : ℕ) (cur : Mesh) (proc : Finset ℕ) (x : ℕ) (i : Fin 3) : Prop where
  apex : cur.vtx x (i + 1) = v
  inner : ∃ y ∈ proc, ∃ k, m.vtx y (k + 2) = cur.vtx x (i + 2) ∧ m.vtx y k = cur.vtx x i
  outer : ∀ y ∈ proc, ∀ k, m.vtx y (k + 2) = cur.vtx x i → m.vtx y k ≠ cur.vtx x (i + 2)
  next : cur.ngh x (i + 1) ≠ none
  prev : cur.ngh x (i + 2) ≠ none

/-- The state while the flips run: the triangles `proc` of the old mesh `m` are replaced. -/
structure St (pos : ℕ → P2 K) (live vs : Finset ℕ) (m : Mesh) (v a b : ℕ) (cur : Mesh) (proc : Finset ℕ) : Prop where
  planar : Planar pos (insert a (insert b live)) cur
  vp : VertexPointers (insert a (insert b live)) vs cur
  sub : proc ⊆ live
  old : ∀ x ∈ live, x ∉ proc → ∀ k, cur.vtx x k = m.vtx x k
  keep : ∀ x ∈ live, x ∉ proc → ∀ k, m.ngh x k ≠ none → cur.ngh x k ≠ none
  inside : ∀ x ∈ proc, 0 < circT pos m x (pos v)
  star : ∀ x ∈ insert a (insert b proc), ∃ i, Link m v cur proc x i
  cover : ∀ y ∈ proc, ∀ k, (∃ z ∈ proc, ∃ l, m.vtx z l = m.vtx y (k + 2) ∧ m.vtx z (l + 2) = m.vtx y k) ∨
    ∃ x ∈ insert a (insert b proc), ∃ i, cur.vtx x (i + 1) = v ∧ cur.vtx x (i + 2) = m.vtx y (k + 2) ∧
      cur.vtx x i = m.vtx y k

/-- The vertices of the star. -/
def SV (a b : ℕ) (cur : Mesh) (proc : Finset ℕ) (u : ℕ) : Prop := ∃ x ∈ insert a (insert b proc), ∃ k, cur.vtx x k = u

section
variable {pos : ℕ → P2 K} {live vs : Finset ℕ} {m : Mesh} {v a b : ℕ} {cur : Mesh} {proc : Finset ℕ}

theorem St.star_live (h : St pos live vs m v a b cur proc) {x : ℕ} (hx : x ∈ insert a (insert b proc)) :
    x ∈ insert a (insert b live) := by
  simp only [Finset.mem_insert] at hx ⊢
  rcases hx with h1 | h1 | h1
  · exact Or.inl h1
  · exact Or.inr (Or.inl h1)
  · exact Or.inr (Or.inr (h.sub h1))

/-- One flip across a link edge of the star. -/
theorem St.step (hm : Planar pos live m) (ha : a ∉ live) (hb : b ∉ live) (hv : ∀ x ∈ live, ∀ k, m.vtx x k ≠ v)
    (h : St pos live vs m v a b cur proc) {S : ℕ} (hS : S ∈ insert a (insert b proc)) {so : Fin 3}
    (hl : Link m v cur proc S so) {T : ℕ} (hT : T ∈ live) {o : Fin 3} (t1 : m.vtx T (o + 2) = cur.vtx S so)
    (t2 : m.vtx T o = cur.vtx S (so + 2)) (t3 : 0 < circT pos m T (pos v)) :
    ∃ cur', flip cur ⟨T, o, false⟩ = .ok cur' ∧ Flipped cur cur' T o S so ∧
      St pos live vs m v a b cur' (insert T proc) ∧ T ∉ proc ∧ ¬ SV a b cur proc (m.vtx T (o + 1)) := by
  have hTp : T ∉ proc := fun hp => hl.outer T hp o t1 t2
  have hTv := h.old T hT hTp
  have hTl : T ∈ insert a (insert b live) := by simp [hT]
  have hSl := h.star_live hS
  have hTS : T ∉ insert a (insert b proc) := by
    simp only [Finset.mem_insert, not_or]
    exact ⟨fun e => ha (e ▸ hT), fun e => hb (e ▸ hT), hTp⟩
  have hTS' : T ≠ S := fun e => hTS (e ▸ hS)
  have n1 : cur.ngh T o = some S := h.planar.full T hTl S hSl o so (by rw [hTv, t1]) (by rw [hTv, t2])
  have n2 : cur.ngh S so = some T := h.planar.full S hSl T hTl so o (by rw [hTv, t2]) (by rw [hTv, t1])
  -- the quadrilateral is convex
  have cS := h.planar.ccw S hSl
  rw [← ccw_edge so, hl.apex] at cS
  have cT := hm.ccw T hT
  rw [← ccw_edge o] at cT
  have hneg : area (pos (m.vtx T (o + 2))) (pos (m.vtx T o)) (pos v) < 0 := by
    rw [t1, t2, area_swap]
    linarith
  have t3' := t3
  rw [circT_edge pos m T _ o] at t3'
  have g1 := inside_next cT t3'.le hneg
  have g2 := inside_prev cT t3'.le hneg
  have hvne : cur.vtx T (o + 1) ≠ cur.vtx S (so + 1) := by
    rw [hTv, hl.apex]
    exact hv T hT _
  obtain ⟨cur', hfl, hf⟩ := flip_ok h.planar.wf hTl n1 n2 hvne false
  have hpl : Planar pos (insert a (insert b live)) cur' := by
    refine hf.planar h.planar hTl n1 n2 ?_ ?_
    · rw [hTv, hTv, hl.apex]
      exact g1
    · rw [hTv, hTv, hl.apex]
      exact g2
  have no := add_one_ne o
  have no2 := add_two_ne o
  have no3 := add_two_ne_add_one o
  have nj := add_one_ne so
  have nj2 := add_two_ne so
  have nj3 := add_two_ne_add_one so
  have T0 : cur'.vtx T o = v := by
    rw [hf.vtx, if_pos ⟨rfl, rfl⟩, hl.apex]
  have T1 : cur'.vtx T (o + 1) = m.vtx T (o + 1) := by
    rw [hf.vtx, if_neg (fun e => no e.2), if_neg (fun e => hTS' e.1), hTv]
  have T2 : cur'.vtx T (o + 2) = cur.vtx S so := by
    rw [hf.vtx, if_neg (fun e => no2 e.2), if_neg (fun e => hTS' e.1), hTv, t1]
  have S0 : cur'.vtx S so = m.vtx T (o + 1) := by
    rw [hf.vtx, if_neg (fun e => hTS' e.1.symm), if_pos ⟨rfl, rfl⟩, hTv]
  have S1 : cur'.vtx S (so + 1) = v := by
    rw [hf.vtx, if_neg (fun e => hTS' e.1.symm), if_neg (fun e => nj e.2), hl.apex]
  have S2 : cur'.vtx S (so + 2) = cur.vtx S (so + 2) := by
    rw [hf.vtx, if_neg (fun e => hTS' e.1.symm), if_neg (fun e => nj2 e.2)]
  have W : ∀ w, w ≠ T → w ≠ S → ∀ k, cur'.vtx w k = cur.vtx w k := by
    intro w w1 w2 k
    rw [hf.vtx, if_neg (fun e => w1 e.1), if_neg (fun e => w2 e.1)]
  have N : ∀ w, w ≠ T → w ≠ S → ∀ k, cur.ngh w k ≠ none → cur'.ngh w k ≠ none := by
    intro w w1 w2 k h1
    rw [hf.ngh w w1 w2]
    split_ifs
    · simp
    · simp
    · exact h1
  -- the apex of `T` is new
  have fresh : ¬ SV a b cur proc (m.vtx T (o + 1)) := by
    rintro ⟨x, hx, k, hk⟩
    have hxT : x ≠ T := fun e => hTS (e ▸ hx)
    obtain ⟨i, hi⟩ := h.star x hx
    have hxl := h.star_live hx
    by_cases hxS : x = S
    · subst hxS
      rcases fin3_cases so k with rfl | rfl | rfl
      · rw [← t1] at hk
        exact no3 (hm.wf.inj T hT _ _ hk)
      · rw [hl.apex] at hk
        exact hv T hT _ hk.symm
      · rw [← t2] at hk
        exact no (hm.wf.inj T hT _ _ hk).symm
    · rcases fin3_cases i k with rfl | rfl | rfl
      · exact hxS (hpl.own hxl hSl (i := k + 1) (j := so + 1)
          (by rw [add_one_add_two, add_one_add_two, S0, W x hxT hxS, hk]) (by rw [S1, W x hxT hxS, hi.apex]))
      · rw [hi.apex] at hk
        exact hv T hT _ hk.symm
      · exact hxT (hpl.own hxl hTl (i := i + 2) (j := o + 1)
          (by rw [add_two_add_two, add_one_add_two, T0, W x hxT hxS, hi.apex]) (by rw [T1, W x hxT hxS, hk]))
  -- no replaced triangle lies beyond the two new edges
  have beyond : ∀ k : Fin 3, k ≠ o → ∀ y ∈ insert T proc, ∀ l, m.vtx y (l + 2) = m.vtx T k →
      m.vtx y l ≠ m.vtx T (k + 2) := by
    intro k hko y hy l l1 l2
    rw [Finset.mem_insert] at hy
    rcases hy with rfl | hy
    · exact not_self_twin (hm.wf.inj y hT) l2 l1
    · have hyl := h.sub hy
      rcases h.cover y hy l with ⟨z, hz, l', q1, q2⟩ | ⟨x, hx, i, q1, q2, q3⟩
      · have : z = T := hm.own (h.sub hz) hT (i := l') (j := k) (by rw [q2, l2]) (by rw [q1, l1])
        exact hTp (this ▸ hz)
      · rcases fin3_cases o k with rfl | rfl | rfl
        · exact hko rfl
        · exact fresh ⟨x, hx, i + 2, by rw [q2, l1]⟩
        · exact fresh ⟨x, hx, i, by rw [q3, l2, add_two_add_two]⟩
  have linkS : Link m v cur' (insert T proc) S so := by
    refine ⟨S1, ⟨T, by simp, o + 1, ?_, ?_⟩, ?_, ?_, ?_⟩
    · rw [add_one_add_two, S2, t2]
    · rw [S0]
    · intro y hy l l1 l2
      refine beyond (o + 1) no y hy l (by rw [l1, S0]) ?_
      rw [l2, S2, add_one_add_two, t2]
    · rw [hf.nghy, if_neg nj, if_pos rfl]
      simp
    · rw [hf.nghy, if_neg nj2, if_neg nj3]
      exact hl.prev
  have linkT : Link m v cur' (insert T proc) T (o + 2) := by
    refine ⟨?_, ⟨T, by simp, o + 2, ?_, ?_⟩, ?_, ?_, ?_⟩
    · rw [add_two_add_one, T0]
    · rw [add_two_add_two, T1]
    · rw [T2, t1]
    · intro y hy l l1 l2
      refine beyond (o + 2) no2 y hy l (by rw [l1, T2, t1]) ?_
      rw [l2, add_two_add_two, T1]
    · rw [add_two_add_one, hf.nghx, if_pos rfl]
      exact hl.next
    · rw [add_two_add_two, hf.nghx, if_neg no, if_pos rfl]
      simp
  refine ⟨cur', hfl, hf, ?_, hTp, fresh⟩
  refine ⟨hpl, hf.vp h.planar.wf hTl n1 n2 h.vp, ?_, ?_, ?_, ?_, ?_, ?_⟩
  · intro x hx
    rw [Finset.mem_insert] at hx
    rcases hx with rfl | hx
    · exact hT
    · exact h.sub hx
  · intro x hx hxp k
    rw [Finset.mem_insert, not_or] at hxp
    rw [W x hxp.1 ?_ k, h.old x hx hxp.2]
    rintro rfl
    simp only [Finset.mem_insert] at hS
    rcases hS with rfl | rfl | hS
    · exact ha hx
    · exact hb hx
    · exact hxp.2 hS
  · intro x hx hxp k hk
    rw [Finset.mem_insert, not_or] at hxp
    refine N x hxp.1 ?_ k (h.keep x hx hxp.2 k hk)
    rintro rfl
    simp only [Finset.mem_insert] at hS
    rcases hS with rfl | rfl | hS
    · exact ha hx
    · exact hb hx
    · exact hxp.2 hS
  · intro x hx
    rw [Finset.mem_insert] at hx
    rcases hx with rfl | hx
    · exact t3
    · exact h.inside x hx
  · intro x hx
    by_cases hxT : x = T
    · subst hxT
      exact ⟨_, linkT⟩
    · by_cases hxS : x = S
      · subst hxS
        exact ⟨_, linkS⟩
      · have hx' : x ∈ insert a (insert b proc) := by
          simp only [Finset.mem_insert] at hx ⊢
          rcases hx with h1 | h1 | h1 | h1
          · exact Or.inl h1
          · exact Or.inr (Or.inl h1)
          · exact absurd h1 hxT
          · exact Or.inr (Or.inr h1)
        obtain ⟨i, hi⟩ := h.star x hx'
        have w := W x hxT hxS
        refine ⟨i, ⟨by rw [w, hi.apex], ?_, ?_, N x hxT hxS _ hi.next, N x hxT hxS _ hi.prev⟩⟩
        · obtain ⟨y, hy, k, q1, q2⟩ := hi.inner
          exact ⟨y, by simp [hy], k, by rw [w, q1], by rw [w, q2]⟩
        · intro y hy k q1 q2
          rw [w] at q1 q2
          rw [Finset.mem_insert] at hy
          rcases hy with rfl | hy
          · rcases fin3_cases o k with rfl | rfl | rfl
            · exact hxS (h.planar.own (h.star_live hx') hSl (i := i) (j := so)
                (by rw [← q2, t2]) (by rw [← q1, t1]))
            · exact fresh ⟨x, hx', i + 2, q2.symm⟩
            · rw [add_two_add_two] at q1
              exact fresh ⟨x, hx', i, q1.symm⟩
          · exact hi.outer y hy k q1 q2
  · intro y hy k
    rw [Finset.mem_insert] at hy
    have hS' : S ∈ insert a (insert b (insert T proc)) := by
      simp only [Finset.mem_insert] at hS ⊢
      rcases hS with h1 | h1 | h1
      · exact Or.inl h1
      · exact Or.inr (Or.inl h1)
      · exact Or.inr (Or.inr (Or.inr h1))
    rcases hy with rfl | hy
    · rcases fin3_cases o k with rfl | rfl | rfl
      · obtain ⟨z, hz, l, q1, q2⟩ := hl.inner
        exact Or.inl ⟨z, by simp [hz], l, by rw [q2, t1], by rw [q1, t2]⟩
      · exact Or.inr ⟨S, hS', so, S1, by rw [S2, add_one_add_two, t2], by rw [S0]⟩
      · exact Or.inr ⟨y, by simp, o + 2, by rw [add_two_add_one, T0], by rw [add_two_add_two, T1],
          by rw [T2, t1]⟩
    · rcases h.cover y hy k with ⟨z, hz, l, q1, q2⟩ | ⟨x, hx, i, q1, q2, q3⟩
      · exact Or.inl ⟨z, by simp [hz], l, q1, q2⟩
      · by_cases hxS : x = S
        · subst hxS
          have hii : i + 1 = so + 1 := h.planar.wf.inj x hSl _ _ (by rw [q1, hl.apex])
          have : i = so := fin3_succ_inj i so hii
          subst this
          exact Or.inl ⟨T, by simp, o, by rw [t2, q2], by rw [t1, q3]⟩
        · have hxT : x ≠ T := fun e => hTS (e ▸ hx)
          have w := W x hxT hxS
          refine Or.inr ⟨x, ?_, i, by rw [w, q1], by rw [w, q2], by rw [w, q3]⟩
          simp only [Finset.mem_insert] at hx ⊢
          rcases hx with h1 | h1 | h1
          · exact Or.inl h1
          · exact Or.inr (Or.inl h1)
          · exact Or.inr (Or.inr (Or.inr h1))

theorem flips_append (m : Mesh) (q r : List Simplex) : flips m (q ++ r) = (flips m q).bind fun m => flips m r := by
  induction q generalizing m with
  | nil => rfl
  | cons s q ih =>
    simp only [List.cons_append, flips]
    rcases flip m s with e | m'
    · rfl
    · exact ih m'

/-- No triangle beyond the link edge of `x` belongs to the cavity. -/
def Closed (good : ℕ → Prop) (live : Finset ℕ) (m : Mesh) (v : ℕ) (cur : Mesh) (x : ℕ) : Prop :=
  ∀ i, cur.vtx x (i + 1) = v → ∀ T ∈ live, ∀ o, m.vtx T (o + 2) = cur.vtx x i → m.vtx T o = cur.vtx x (i + 2) → ¬ good T

/-- What `flip` touches. -/
structure FlipFoot (own : Cell → Prop) (m : Mesh) (s a : Simplex) : Prop where
  here : ∀ i, own (.ngh s.t i) ∧ own (.vtx s.t i)
  there : ∀ i, own (.ngh a.t i) ∧ own (.vtx a.t i)
  side1 : ∀ x, m.ngh s.t (s.o + 1) = some x → ∀ i, own (.ngh x i)
  side2 : ∀ x, m.ngh a.t (a.o + 1) = some x → ∀ i, own (.ngh x i)
  vt1 : own (.vt (m.vtx s.t s.o))
  vt2 : own (.vt (m.vtx a.t a.o))

/-- What `split` touches. -/
structure SplitFoot (own : Cell → Prop) (m : Mesh) (t v a b : ℕ) : Prop where
  tri : ∀ x, x = t ∨ x = a ∨ x = b → ∀ i, own (.ngh x i) ∧ own (.vtx x i)
  side : ∀ x k, m.ngh t k = some x → ∀ i, own (.ngh x i)
  vtv : own (.vt v)
  vt2 : own (.vt (m.vtx t 1))

/-- A run of flips that touches own cells only. -/
inductive FlipRun (own : Cell → Prop) : Mesh → List Simplex → Mesh → Prop
  | nil (n : Mesh) : FlipRun own n [] n
  | cons {n n1 n2 : Mesh} {s a : Simplex} {q : List Simplex} : across n s = .ok a → a.t ≠ s.t → FlipFoot own n s a →
      flip n s = .ok n1 → FlipRun own n1 q n2 → FlipRun own n (s :: q) n2

/-- The whole insertion touches own cells only. -/
def InsertFoot (own : Cell → Prop) (m : Mesh) (t v a b : ℕ) (q : List Simplex) (cur : Mesh) : Prop :=
  ∃ cur0, split m t v a b = .ok cur0 ∧ SplitFoot own m t v a b ∧ FlipRun own cur0 q cur

theorem FlipRun.append {own : Cell → Prop} {m m1 m2 : Mesh} {q r : List Simplex} (h : FlipRun own m q m1)
    (h2 : FlipRun own m1 r m2) : FlipRun own m (q ++ r) m2 := by
  induction h with
  | nil => exact h2
  | cons a1 a2 a3 a4 _ ih => exact .cons a1 a2 a3 a4 (ih h2)

/-- The cells of the star, of its outer neighbours, and of the pointers of its vertices. -/
structure Owns (own : Cell → Prop) (live : Finset ℕ) (m : Mesh) (a b : ℕ) (cur : Mesh) (proc : Finset ℕ) : Prop where
  star : ∀ x ∈ insert a (insert b proc), ∀ i, own (.ngh x i) ∧ own (.vtx x i)
  side : ∀ x ∈ live, ∀ i j, i ≠ j → SV a b cur proc (m.vtx x i) → SV a b cur proc (m.vtx x j) → ∀ i, own (.ngh x i)
  vt : ∀ u, SV a b cur proc u → own (.vt u)

theorem Owns.mono {own : Cell → Prop} {cur' : Mesh} {proc' : Finset ℕ} (h : Owns own live m a b cur' proc')
    (hp : proc ⊆ proc') (hs : ∀ u, SV a b cur proc u → SV a b cur' proc' u) : Owns own live m a b cur proc := by
  refine ⟨fun x hx => h.star x ?_, fun x hx i j hij h1 h2 => h.side x hx i j hij (hs _ h1) (hs _ h2),
    fun u hu => h.vt u (hs u hu)⟩
  simp only [Finset.mem_insert] at hx ⊢
  rcases hx with h1 | h1 | h1
  · exact Or.inl h1
  · exact Or.inr (Or.inl h1)
  · exact Or.inr (Or.inr (hp h1))

/-- What the flips across one link edge do. -/
structure Done (pos : ℕ → P2 K) (good : ℕ → Prop) (live vs : Finset ℕ) (m : Mesh) (v a b : ℕ) (cur : Mesh) (proc : Finset ℕ) (S : ℕ)
    (so : Fin 3) (c : CT) (cur' : Mesh) (proc' : Finset ℕ) : Prop where
  tree : IsCT good live m (cur.vtx S (so + 2)) (cur.vtx S so) c
  run : flips cur c.pre = .ok cur'
  st : St pos live vs m v a b cur' proc'
  mono : proc ⊆ proc'
  card : proc'.card = proc.card + c.size
  other : ∀ x ∈ insert a (insert b proc), x ≠ S → ∀ k, cur'.vtx x k = cur.vtx x k
  sv : ∀ u, SV a b cur' proc' u ↔ SV a b cur proc u ∨ u ∈ c.inord m
  fresh : ∀ u ∈ c.inord m, ¬ SV a b cur proc u
  nodup : (c.inord m).Nodup
  corners : (∀ y ∈ proc, ∀ k, SV a b cur proc (m.vtx y k)) → ∀ y ∈ proc', ∀ k, SV a b cur' proc' (m.vtx y k)
  isGood : ∀ y ∈ proc', y ∉ proc → good y
  closed : ∀ x ∈ insert a (insert b proc'), x ∉ insert a (insert b proc) ∨ x = S → Closed good live m v cur' x
  vt : ∀ u, ¬ SV a b cur' proc' u → cur'.vt u = cur.vt u
  foot : ∀ own, Owns own live m a b cur' proc' → FlipRun own cur c.pre cur'

theorem closed_congr {good : ℕ → Prop} {cur cur' : Mesh} {x : ℕ} (h : ∀ k, cur'.vtx x k = cur.vtx x k)
    (hc : Closed good live m v cur x) : Closed good live m v cur' x := by
  intro i e T hT o e1 e2
  rw [h] at e e1 e2
  exact hc i e T hT o e1 e2

theorem star_mono {a b : ℕ} {proc proc' : Finset ℕ} (h : proc ⊆ proc') {x : ℕ} (hx : x ∈ insert a (insert b proc)) :
    x ∈ insert a (insert b proc') := by
  simp only [Finset.mem_insert] at hx ⊢
  rcases hx with h1 | h1 | h1
  · exact Or.inl h1
  · exact Or.inr (Or.inl h1)
  · exact Or.inr (Or.inr (h h1))

theorem process {good : ℕ → Prop} (hgood : ∀ T ∈ live, good T → 0 < circT pos m T (pos v)) (hm : Planar pos live m)
    (ha : a ∉ live) (hb : b ∉ live) (hv : ∀ x ∈ live, ∀ k, m.vtx x k ≠ v) :
    ∀ (n : ℕ) (cur : Mesh) (proc : Finset ℕ), (live \ proc).card ≤ n → St pos live vs m v a b cur proc →
      ∀ S ∈ insert a (insert b proc), ∀ so, cur.vtx S (so + 1) = v →
        ∃ c cur' proc', Done pos good live vs m v a b cur proc S so c cur' proc' := by
  intro n
  induction n using Nat.strong_induction_on with
  | _ n ih =>
  intro cur proc hn h S hS so hso
  obtain ⟨so', hl⟩ := h.star S hS
  obtain rfl : so' = so := fin3_succ_inj _ _ (h.planar.wf.inj S (h.star_live hS) _ _ (by rw [hl.apex, hso]))
  by_cases hex : ∃ T ∈ live, ∃ o, m.vtx T (o + 2) = cur.vtx S so' ∧ m.vtx T o = cur.vtx S (so' + 2) ∧ good T
  · obtain ⟨T, hT, o, t1, t2, t3⟩ := hex
    obtain ⟨cur1, hfl, hf, h1, hTp, hfr⟩ := h.step hm ha hb hv hS hl hT t1 t2 (hgood T hT t3)
    have hTS : T ∉ insert a (insert b proc) := by
      simp only [Finset.mem_insert, not_or]
      exact ⟨fun e => ha (e ▸ hT), fun e => hb (e ▸ hT), hTp⟩
    have hTS' : T ≠ S := fun e => hTS (e ▸ hS)
    have hTv := h.old T hT hTp
    have no := add_one_ne o
    have no2 := add_two_ne o
    have nj := add_one_ne so'
    have nj2 := add_two_ne so'
    have T0 : cur1.vtx T o = v := by
      rw [hf.vtx, if_pos ⟨rfl, rfl⟩, hl.apex]
    have T1 : cur1.vtx T (o + 1) = m.vtx T (o + 1) := by
      rw [hf.vtx, if_neg (fun e => no e.2), if_neg (fun e => hTS' e.1), hTv]
    have T2 : cur1.vtx T (o + 2) = cur.vtx S so' := by
      rw [hf.vtx, if_neg (fun e => no2 e.2), if_neg (fun e => hTS' e.1), hTv, t1]
    have S0 : cur1.vtx S so' = m.vtx T (o + 1) := by
      rw [hf.vtx, if_neg (fun e => hTS' e.1.symm), if_pos ⟨rfl, rfl⟩, hTv]
    have S1 : cur1.vtx S (so' + 1) = v := by
      rw [hf.vtx, if_neg (fun e => hTS' e.1.symm), if_neg (fun e => nj e.2), hl.apex]
    have S2 : cur1.vtx S (so' + 2) = cur.vtx S (so' + 2) := by
      rw [hf.vtx, if_neg (fun e => hTS' e.1.symm), if_neg (fun e => nj2 e.2)]
    have W : ∀ w, w ≠ T → w ≠ S → ∀ k, cur1.vtx w k = cur.vtx w k := by
      intro w w1 w2 k
      rw [hf.vtx, if_neg (fun e => w1 e.1), if_neg (fun e => w2 e.1)]
    have hsub1 : proc ⊆ insert T proc := Finset.subset_insert _ _
    have hcard : (live \ insert T proc).card < (live \ proc).card := by
      refine Finset.card_lt_card ⟨fun x hx => ?_, fun hle => ?_⟩
      · simp only [Finset.mem_sdiff, Finset.mem_insert, not_or] at hx ⊢
        exact ⟨hx.1, hx.2.2⟩
      · have := hle (Finset.mem_sdiff.mpr ⟨hT, hTp⟩)
        simp at this
    have hS1 : S ∈ insert a (insert b (insert T proc)) := star_mono hsub1 hS
    have hT1 : T ∈ insert a (insert b (insert T proc)) := by simp
    -- the left part
    obtain ⟨cl, cur2, proc2, d1⟩ := ih (live \ insert T proc).card (by omega) cur1 (insert T proc) le_rfl h1 S hS1 so' S1
    have hcard2 : (live \ proc2).card ≤ (live \ insert T proc).card :=
      Finset.card_le_card (Finset.sdiff_subset_sdiff (Finset.Subset.refl _) d1.mono)
    have T2' : ∀ k, cur2.vtx T k = cur1.vtx T k := d1.other T hT1 hTS'
    have hT2 : T ∈ insert a (insert b proc2) := star_mono d1.mono hT1
    have hS2 : S ∈ insert a (insert b proc2) := star_mono d1.mono hS1
    -- the right part
    obtain ⟨cr, cur3, proc3, d2⟩ := ih (live \ proc2).card (by omega) cur2 proc2 le_rfl d1.st T hT2 (o + 2)
      (by rw [add_two_add_one, T2', T0])
    have sv1 : ∀ u, SV a b cur1 (insert T proc) u ↔ SV a b cur proc u ∨ u = m.vtx T (o + 1) := by
      intro u
      constructor
      · rintro ⟨x, hx, k, rfl⟩
        by_cases hxT : x = T
        · subst hxT
          rcases fin3_cases o k with rfl | rfl | rfl
          · rw [T0, ← hl.apex]
            exact Or.inl ⟨S, hS, _, rfl⟩
          · rw [T1]
            exact Or.inr rfl
          · rw [T2]
            exact Or.inl ⟨S, hS, _, rfl⟩
        · by_cases hxS : x = S
          · subst hxS
            rcases fin3_cases so' k with rfl | rfl | rfl
            · rw [S0]
              exact Or.inr rfl
            · rw [S1, ← hl.apex]
              exact Or.inl ⟨x, hS, _, rfl⟩
            · rw [S2]
              exact Or.inl ⟨x, hS, _, rfl⟩
          · rw [W x hxT hxS]
            refine Or.inl ⟨x, ?_, k, rfl⟩
            simp only [Finset.mem_insert] at hx ⊢
            rcases hx with g | g | g | g
            · exact Or.inl g
            · exact Or.inr (Or.inl g)
            · exact absurd g hxT
            · exact Or.inr (Or.inr g)
      · rintro (⟨x, hx, k, rfl⟩ | rfl)
        · by_cases hxS : x = S
          · subst hxS
            rcases fin3_cases so' k with rfl | rfl | rfl
            · exact ⟨T, hT1, o + 2, T2⟩
            · exact ⟨x, hS1, so' + 1, by rw [S1, hl.apex]⟩
            · exact ⟨x, hS1, so' + 2, S2⟩
          · have hxT : x ≠ T := fun e => hTS (e ▸ hx)
            exact ⟨x, star_mono hsub1 hx, k, W x hxT hxS k⟩
        · exact ⟨T, hT1, o + 1, T1⟩
    refine ⟨.step T o cl cr, cur3, proc3, ?_⟩
    have tr1 := d1.tree
    have tr2 := d2.tree
    rw [S0, S2] at tr1
    rw [T2', T2', add_two_add_two, T1, T2] at tr2
    refine ⟨⟨hT, t1, t2, t3, tr1, tr2⟩, ?_, d2.st, hsub1.trans (d1.mono.trans d2.mono), ?_, ?_, ?_, ?_, ?_, ?_, ?_, ?_, ?_, ?_⟩
    · simp only [pre, flips, hfl, Except.bind]
      rw [flips_append, d1.run]
      exact d2.run
    · rw [d2.card, d1.card, Finset.card_insert_of_notMem hTp]
      simp only [size]
      omega
    · intro x hx hxS k
      have hxT : x ≠ T := fun e => hTS (e ▸ hx)
      rw [d2.other x (star_mono d1.mono (star_mono hsub1 hx)) hxT, d1.other x (star_mono hsub1 hx) hxS,
        W x hxT hxS]
    · intro u
      rw [d2.sv, d1.sv, sv1]
      simp only [inord, List.mem_append, List.mem_cons]
      tauto
    · intro u hu
      simp only [inord, List.mem_append, List.mem_cons] at hu
      intro hsv
      rcases hu with hu | rfl | hu
      · exact d1.fresh u hu ((sv1 u).mpr (Or.inl hsv))
      · exact hfr hsv
      · exact d2.fresh u hu ((d1.sv u).mpr (Or.inl ((sv1 u).mpr (Or.inl hsv))))
    · simp only [inord]
      rw [List.nodup_append]
      refine ⟨d1.nodup, List.nodup_cons.mpr ⟨fun hmem => ?_, d2.nodup⟩, fun u hu w hw huw => ?_⟩
      · exact d2.fresh _ hmem ((d1.sv _).mpr (Or.inl ((sv1 _).mpr (Or.inr rfl))))
      · subst huw
        rw [List.mem_cons] at hw
        rcases hw with rfl | hw
        · exact d1.fresh _ hu ((sv1 _).mpr (Or.inr rfl))
        · exact d2.fresh _ hw ((d1.sv _).mpr (Or.inr hu))
    · intro hc
      refine d2.corners (d1.corners ?_)
      intro y hy k
      rw [sv1]
      rw [Finset.mem_insert] at hy
      rcases hy with rfl | hy
      · rcases fin3_cases o k with rfl | rfl | rfl
        · exact Or.inl ⟨S, hS, _, t2.symm⟩
        · exact Or.inr rfl
        · exact Or.inl ⟨S, hS, _, t1.symm⟩
      · exact Or.inl (hc y hy k)
    · intro y hy hyp
      by_cases hy2 : y ∈ proc2
      · by_cases hyT : y = T
        · rw [hyT]
          exact t3
        · refine d1.isGood y hy2 fun hy1 => ?_
          rw [Finset.mem_insert] at hy1
          rcases hy1 with e | e
          · exact hyT e
          · exact hyp e
      · exact d2.isGood y hy hy2
    · intro x hx hxs
      by_cases hxT : x = T
      · exact d2.closed x hx (Or.inr hxT)
      · by_cases hx2 : x ∈ insert a (insert b proc2)
        · refine closed_congr (d2.other x hx2 hxT) ?_
          rcases hxs with hxs | rfl
          · refine d1.closed x hx2 (Or.inl fun hx1 => hxs ?_)
            simp only [Finset.mem_insert] at hx1 ⊢
            rcases hx1 with g | g | g | g
            · exact Or.inl g
            · exact Or.inr (Or.inl g)
            · exact absurd g hxT
            · exact Or.inr (Or.inr g)
          · exact d1.closed x hx2 (Or.inr rfl)
        · exact d2.closed x hx (Or.inl hx2)
    · intro u hu
      have hu2 : ¬ SV a b cur2 proc2 u := fun g => hu ((d2.sv u).mpr (Or.inl g))
      have hu1 : ¬ SV a b cur1 (insert T proc) u := fun g => hu2 ((d1.sv u).mpr (Or.inl g))
      have hu0 : ¬ SV a b cur proc u := fun g => hu1 ((sv1 u).mpr (Or.inl g))
      rw [d2.vt u hu, d1.vt u hu2, hf.vt, if_neg, if_neg]
      · rintro rfl
        exact hu0 ⟨S, hS, _, by rw [hTv, t2]⟩
      · rintro rfl
        exact hu0 ⟨S, hS, _, rfl⟩
    · intro own ho3
      have ho2 : Owns own live m a b cur2 proc2 := ho3.mono d2.mono fun u hu => (d2.sv u).mpr (Or.inl hu)
      have ho1 : Owns own live m a b cur1 (insert T proc) := ho2.mono d1.mono fun u hu => (d1.sv u).mpr (Or.inl hu)
      have hTl : T ∈ insert a (insert b live) := by simp [hT]
      have hSl := h.star_live hS
      have n1 : cur.ngh T o = some S := h.planar.full T hTl S hSl o so' (by rw [hTv, t1]) (by rw [hTv, t2])
      have n2 : cur.ngh S so' = some T := h.planar.full S hSl T hTl so' o (by rw [hTv, t2]) (by rw [hTv, t1])
      have own_star : ∀ x ∈ insert a (insert b proc), ∀ i, own (.ngh x i) :=
        fun x hx i => (ho1.star x (star_mono hsub1 hx) i).1
      have hsplit : ∀ x ∈ insert a (insert b live), x ∉ insert a (insert b proc) → x ∈ live ∧ x ∉ proc := by
        intro x hx hx2
        simp only [Finset.mem_insert, not_or] at hx hx2
        rcases hx with g | g | g
        · exact absurd g hx2.1
        · exact absurd g hx2.2.1
        · exact ⟨g, hx2.2.2⟩
      refine .cons (a := ⟨S, so', false⟩) (across_some h.planar.wf hTl n1 n2 false) hTS'.symm ⟨?_, ?_, ?_, ?_, ?_, ?_⟩ hfl
        ((d1.foot own ho2).append (d2.foot own ho3))
      · exact fun i => ho1.star T hT1 i
      · exact fun i => ho1.star S hS1 i
      · intro x hx
        obtain ⟨hxl, j, -, x1, x2⟩ := h.planar.wf.twin T hTl _ _ hx
        by_cases hxs : x ∈ insert a (insert b proc)
        · exact own_star x hxs
        · obtain ⟨g1, g2⟩ := hsplit x hxl hxs
          rw [h.old x g1 g2] at x1 x2
          rw [hTv] at x1 x2
          refine ho1.side x g1 j (j + 2) (add_two_ne j).symm ?_ ?_
          · rw [x1, sv1, add_one_add_two, t2]
            exact Or.inl ⟨S, hS, _, rfl⟩
          · rw [x2, sv1]
            exact Or.inr rfl
      · intro x hx
        obtain ⟨hxl, j, -, x1, x2⟩ := h.planar.wf.twin S hSl _ _ hx
        refine own_star x ?_
        by_contra hxs
        obtain ⟨g1, g2⟩ := hsplit x hxl hxs
        rw [h.old x g1 g2] at x1 x2
        rw [hl.apex] at x2
        exact hv x g1 _ x2
      · exact ho1.vt _ ((sv1 _).mpr (Or.inl ⟨S, hS, so' + 2, by rw [hTv, t2]⟩))
      · exact ho1.vt _ ((sv1 _).mpr (Or.inl ⟨S, hS, _, rfl⟩))
  · refine ⟨.stop, cur, proc, ⟨?_, rfl, h, Finset.Subset.refl _, rfl, fun _ _ _ _ => rfl, ?_, ?_, ?_, id, fun _ h1 h2 => absurd h1 h2, ?_, fun _ _ => rfl, fun _ _ => .nil _⟩⟩
    · intro T hT o t1 t2 hc
      exact hex ⟨T, hT, o, t1, t2, hc⟩
    · intro u
      simp [inord]
    · intro u hu
      simp [inord] at hu
    · simp [inord]
    · intro x hx hxs
      rcases hxs with hxs | rfl
      · exact absurd hx hxs
      · intro i hi T hT o t1 t2
        obtain rfl : i = so' := fin3_succ_inj _ _ (h.planar.wf.inj x (h.star_live hS) _ _ (by rw [hl.apex, hi]))
        intro hc
        exact hex ⟨T, hT, o, t1, t2, hc⟩

/-- The state after the split. -/
theorem SplitAt.st {vs : Finset ℕ} (hm : Planar pos live m) (hvp : VertexPointers live vs m) {t : ℕ} (ht : t ∈ live)
    (ha : a ∉ live) (hb : b ∉ live) (hab : a ≠ b) (hv : ∀ x ∈ live, ∀ k, m.vtx x k ≠ v)
    (hin : In pos m t (pos v)) (hs : SplitAt m cur t v a b) : St pos live (insert v vs) m v a b cur {t} := by
  have hat : a ≠ t := fun e => ha (e ▸ ht)
  have hbt : b ≠ t := fun e => hb (e ▸ ht)
  have old : ∀ x ∈ live, x ≠ a ∧ x ≠ b := fun x hx => ⟨fun e => ha (e ▸ hx), fun e => hb (e ▸ hx)⟩
  have two : (0 : Fin 3) + 2 = 2 := by decide
  have one : (0 : Fin 3) + 1 = 1 := by decide
  refine ⟨hs.planar hm ht ha hb hab hv hin, hs.vp ht ha hb hvp, by simpa using ht, ?_, ?_, ?_, ?_, ?_⟩
  · intro x hx hxt k
    exact hs.vtx x (by simpa using hxt) (old x hx).1 (old x hx).2 k
  · intro x hx hxt k hk
    rw [hs.ngh x (by simpa using hxt) (old x hx).1 (old x hx).2 k]
    split_ifs
    · simp
    · simp
    · exact hk
  · intro x hx
    rw [Finset.mem_singleton] at hx
    subst hx
    obtain ⟨k1, k2, k3⟩ := (in_iff pos m x _ 0).mp hin
    exact circ_pos_of_inside k2 k3 k1
  · intro x hx
    rcases parts_cases (t := t) (live := {t}) hx with ⟨i, rfl⟩ | ⟨h1, h2, h3, h4⟩
    · obtain ⟨p0, p1, p2⟩ := hs.part_vtx i
      obtain ⟨n0, n1, n2⟩ := hs.part_ngh i
      refine ⟨0, ⟨by rw [one, p1], ⟨t, by simp, i, by rw [two, p2], by rw [p0]⟩, ?_, ?_, ?_⟩⟩
      · intro y hy k q1 q2
        rw [Finset.mem_singleton] at hy
        subst hy
        rw [p0] at q1
        rw [two, p2] at q2
        exact not_self_twin (hm.wf.inj y ht) q2 q1
      · rw [one, n1]
        simp
      · rw [two, n2]
        simp
    · exact absurd (Finset.mem_singleton.mp h1) h2
  · intro y hy k
    rw [Finset.mem_singleton] at hy
    subst hy
    obtain ⟨p0, p1, p2⟩ := hs.part_vtx k
    exact Or.inr ⟨parts y a b k, parts_mem (by simp) k, 0, by rw [one, p1], by rw [two, p2], by rw [p0]⟩

end

end Verif.Delaunay
