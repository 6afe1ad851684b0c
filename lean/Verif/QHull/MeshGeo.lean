import Mathlib.Logic.Function.Iterate
import Verif.QHull.Mesh

set_option linter.unusedSectionVars false
set_option linter.unusedVariables false

/-!
The part of a convex surface that is visible from a point, as seen by the traversal.
-/

namespace Verif.QHull

open Verif Verif.Hull3d

variable {K : Type} [Field K] [LinearOrder K]

/-- The darts of a facet. -/
def darts (f : Facet (P3 K)) : List (P3 K × P3 K) := [(f.a, f.b), (f.b, f.c), (f.c, f.a)]
/-- The darts of a surface. -/
def dD (h : Heap (P3 K)) (live : List ℕ) : List (P3 K × P3 K) := live.flatMap fun i => darts (h i)
/-- The vertex opposite to a dart. -/
def third (f : Facet (P3 K)) (d : P3 K × P3 K) : P3 K :=
  if d = (f.a, f.b) then f.c else if d = (f.b, f.c) then f.a else f.b
/-- The facet of a dart. -/
def own (h : Heap (P3 K)) (live : List ℕ) (d : P3 K × P3 K) : ℕ :=
  (live.find? fun i => decide (d ∈ darts (h i))).getD 0
/-- The vertex opposite to a dart. -/
def dth (h : Heap (P3 K)) (live : List ℕ) (x y : P3 K) : P3 K := third (h (own h live (x, y))) (x, y)
/-- The facet of the dart is visible. -/
def dvis (eps : K) (p : P3 K) (h : Heap (P3 K)) (live : List ℕ) (d : P3 K × P3 K) : Bool := visible eps (h (own h live d)) p

variable [IsStrictOrderedRing K]

/-- A point outside the list of vertices. -/
structure Apex (Q : List (P3 K)) (h : Heap (P3 K)) (live : List ℕ) (p : P3 K) : Prop where
  mem : p ∈ Q
  out : ∀ i ∈ live, ¬ IsV (h i) p

section

variable {eps : K} {Q : List (P3 K)} {h : Heap (P3 K)} {live : List ℕ} {p : P3 K}

theorem mem_darts {f : Facet (P3 K)} {d : P3 K × P3 K} : d ∈ darts f ↔ ∃ z, Tri f d.1 d.2 z := by
  unfold darts Tri
  obtain ⟨x, y⟩ := d
  simp only [List.mem_cons, Prod.mk.injEq, List.not_mem_nil, or_false]
  constructor
  · rintro (⟨rfl, rfl⟩ | ⟨rfl, rfl⟩ | ⟨rfl, rfl⟩)
    · exact ⟨f.c, by simp⟩
    · exact ⟨f.a, by simp⟩
    · exact ⟨f.b, by simp⟩
  · rintro ⟨z, ⟨rfl, rfl, rfl⟩ | ⟨rfl, rfl, rfl⟩ | ⟨rfl, rfl, rfl⟩⟩ <;> simp

theorem mem_dD {d : P3 K × P3 K} : d ∈ dD h live ↔ ∃ i ∈ live, ∃ z, Tri (h i) d.1 d.2 z := by
  unfold dD
  rw [List.mem_flatMap]
  simp only [mem_darts]

theorem third_eq {f : Facet (P3 K)} (hf : fdet f < 0) {x y z : P3 K} (ht : Tri f x y z) : third f (x, y) = z := by
  obtain ⟨n1, n2, n3⟩ := tri_ne hf (Tri.self f)
  unfold third
  rcases ht with ⟨rfl, rfl, rfl⟩ | ⟨rfl, rfl, rfl⟩ | ⟨rfl, rfl, rfl⟩
  · simp
  · simp [n1.symm]
  · simp [n3, n2.symm]

theorem Mesh.own_eq (hg : GenPos eps Q) (hM : Mesh Q h live) {i : ℕ} (hi : i ∈ live) {x y z : P3 K} (ht : Tri (h i) x y z) :
    own h live (x, y) = i := by
  unfold own
  have hmem : (x, y) ∈ darts (h i) := mem_darts.mpr ⟨z, ht⟩
  cases hf : live.find? fun i => decide ((x, y) ∈ darts (h i)) with
  | none =>
    have := List.find?_eq_none.mp hf i hi
    simp [hmem] at this
  | some j =>
    have h1 := List.find?_some hf
    have h2 := List.mem_of_find?_eq_some hf
    obtain ⟨w, tj⟩ := mem_darts.mp (of_decide_eq_true h1)
    exact hM.uniq hg h2 hi tj ht

theorem Mesh.dth_eq (hg : GenPos eps Q) (hM : Mesh Q h live) {i : ℕ} (hi : i ∈ live) {x y z : P3 K} (ht : Tri (h i) x y z) :
    dth h live x y = z := by
  unfold dth
  rw [hM.own_eq hg hi ht]
  exact third_eq (hM.ori i hi) ht

theorem Mesh.dvis_eq (hg : GenPos eps Q) (hM : Mesh Q h live) (p : P3 K) {i : ℕ} (hi : i ∈ live) {x y z : P3 K}
    (ht : Tri (h i) x y z) : dvis eps p h live (x, y) = visible eps (h i) p := by
  unfold dvis
  rw [hM.own_eq hg hi ht]

theorem Mesh.surf (hg : GenPos eps Q) (hM : Mesh Q h live) (p : P3 K) : Dfs.Surf (dD h live) (dth h live) (dvis eps p h live) where
  ne := by
    rintro ⟨x, y⟩ hd
    obtain ⟨i, hi, z, ht⟩ := mem_dD.mp hd
    exact (tri_ne (hM.ori i hi) ht).1
  twin := by
    rintro ⟨x, y⟩ hd
    obtain ⟨i, hi, z, ht⟩ := mem_dD.mp hd
    obtain ⟨j, hj, _, w, tw, _⟩ := hM.adj_tri hg hi ht
    exact mem_dD.mpr ⟨j, hj, w, tw⟩
  next := by
    rintro ⟨x, y⟩ hd
    obtain ⟨i, hi, z, ht⟩ := mem_dD.mp hd
    refine mem_dD.mpr ⟨i, hi, x, ?_⟩
    unfold Dfs.nx
    simp only [hM.dth_eq hg hi ht]
    exact ht.rot
  cyc := by
    rintro ⟨x, y⟩ hd
    obtain ⟨i, hi, z, ht⟩ := mem_dD.mp hd
    simp only [hM.dth_eq hg hi ht]
    exact hM.dth_eq hg hi ht.rot
  visn := by
    rintro ⟨x, y⟩ hd
    obtain ⟨i, hi, z, ht⟩ := mem_dD.mp hd
    unfold Dfs.nx
    simp only [hM.dth_eq hg hi ht]
    rw [hM.dvis_eq hg p hi ht, hM.dvis_eq hg p hi ht.rot]

theorem Mesh.vis_iff (hg : GenPos eps Q) (hM : Mesh Q h live) (hp : p ∈ Q) {i : ℕ} (hi : i ∈ live) :
    visible eps (h i) p = true ↔ 0 < fsv (h i) p := hg.visible_iff (hM.vert i hi) (hM.ori i hi) hp

theorem Mesh.not_vis (hg : GenPos eps Q) (hM : Mesh Q h live) (hp : Apex Q h live p) {i : ℕ} (hi : i ∈ live)
    (hv : visible eps (h i) p = false) : fsv (h i) p < 0 := by
  have h1 : ¬ 0 < fsv (h i) p := by
    rw [← hM.vis_iff hg hp.mem hi, hv]; simp
  rcases (not_lt.mp h1).lt_or_eq with h2 | h2
  · exact h2
  · exact absurd (hg.on_plane (hM.vert i hi) (hM.ori i hi) hp.mem h2) (hp.out i hi)

/-- An edge between a visible and an invisible facet. -/
structure Horizon (h : Heap (P3 K)) (live : List ℕ) (p : P3 K) (i j : ℕ) (x y z w : P3 K) : Prop where
  hi : i ∈ live
  hj : j ∈ live
  ti : Tri (h i) x y z
  tj : Tri (h j) y x w
  vi : 0 < fsv (h i) p
  vj : fsv (h j) p < 0
  edge : sv y x w z < 0

theorem Mesh.horizon (hg : GenPos eps Q) (hM : Mesh Q h live) (hp : Apex Q h live p) {x y : P3 K}
    (hf : Dfs.Front (dD h live) (dvis eps p h live) (x, y)) : ∃ i j z w, Horizon h live p i j x y z w := by
  obtain ⟨hd, hv, hnv⟩ := hf
  obtain ⟨i, hi, z, ti⟩ := mem_dD.mp hd
  obtain ⟨j, hj, _, w, tj, he⟩ := hM.adj_tri hg hi ti
  refine ⟨i, j, z, w, hi, hj, ti, tj, ?_, ?_, he⟩
  · rw [hM.dvis_eq hg p hi ti] at hv
    exact (hM.vis_iff hg hp.mem hi).mp hv
  · unfold Dfs.tw at hnv
    rw [hM.dvis_eq hg p hj tj] at hnv
    exact hM.not_vis hg hp hj hnv

theorem Horizon.det (hM : Mesh Q h live) {i j : ℕ} {x y z w : P3 K} (H : Horizon h live p i j x y z w) : det3 x y p < 0 :=
  horizon_det (H.ti.fdet ▸ hM.ori i H.hi) (H.tj.fdet ▸ hM.ori j H.hj) H.edge (H.ti.fsv p ▸ H.vi) (H.tj.fsv p ▸ H.vj)

theorem Horizon.le {i j : ℕ} {x y z w : P3 K} (H : Horizon h live p i j x y z w) {q : P3 K} (h1 : fsv (h i) q ≤ 0)
    (h2 : fsv (h j) q ≤ 0) : sv x y p q ≤ 0 :=
  horizon_le H.edge (H.ti.fsv p ▸ H.vi) (H.tj.fsv p ▸ H.vj) (H.ti.fsv q ▸ h1) (H.tj.fsv q ▸ h2)

theorem Horizon.pos {i j : ℕ} {x y z w : P3 K} (H : Horizon h live p i j x y z w) {q : P3 K} (h1 : 0 < fsv (h i) q)
    (h2 : 0 < fsv (h j) q) : 0 < sv x y p q :=
  horizon_pos H.edge (H.ti.fsv p ▸ H.vi) (H.tj.fsv p ▸ H.vj) (H.ti.fsv q ▸ h1) (H.tj.fsv q ▸ h2)

theorem Horizon.le_vert (hM : Mesh Q h live) {i j : ℕ} {x y z w : P3 K} (H : Horizon h live p i j x y z w) {k : ℕ} (hk : k ∈ live)
    {v : P3 K} (hv : IsV (h k) v) : sv x y p v ≤ 0 :=
  H.le (hM.conv i H.hi k hk v hv) (hM.conv j H.hj k hk v hv)

theorem Horizon.isV {i j : ℕ} {x y z w : P3 K} (H : Horizon h live p i j x y z w) : IsV (h i) x ∧ IsV (h i) y :=
  ⟨(H.ti.isV x).mpr (by simp), (H.ti.isV y).mpr (by simp)⟩

theorem sv_swap24 (a b c d : P3 K) : sv a d c b = -sv a b c d := by
  simp only [sv_poly]; ring

/-- A vertex in the plane of an edge of the horizon and the apex is on the edge. -/
theorem Horizon.on_plane (hg : GenPos eps Q) (hM : Mesh Q h live) (hp : Apex Q h live p) {i j : ℕ} {x y z w : P3 K}
    (H : Horizon h live p i j x y z w) {k : ℕ} (hk : k ∈ live) {v : P3 K} (hv : IsV (h k) v) (h0 : sv x y p v = 0) :
    v = x ∨ v = y := by
  have hf : fdet (⟨x, y, p, none, none, none⟩ : Facet (P3 K)) < 0 := H.det hM
  have := hg.on_plane (f := ⟨x, y, p, none, none, none⟩) ?_ hf (hM.vert k hk v hv) h0
  · rcases this with h | h | h
    · exact Or.inl h
    · exact Or.inr h
    · have hvp : v = p := h
      exact absurd (hvp ▸ hv) (hp.out k hk)
  · rintro u (rfl | rfl | rfl)
    · exact hM.vert i H.hi _ H.isV.1
    · exact hM.vert i H.hi _ H.isV.2
    · exact hp.mem

theorem Mesh.geo_uniq (hg : GenPos eps Q) (hM : Mesh Q h live) (hp : Apex Q h live p) (z w w' : P3 K)
    (h1 : Dfs.Front (dD h live) (dvis eps p h live) (z, w)) (h2 : Dfs.Front (dD h live) (dvis eps p h live) (z, w')) :
    w = w' := by
  obtain ⟨i, j, _, _, H⟩ := hM.horizon hg hp h1
  obtain ⟨i', j', _, _, H'⟩ := hM.horizon hg hp h2
  have e1 := H.le_vert hM H'.hi H'.isV.2
  have e2 := H'.le_vert hM H.hi H.isV.2
  rw [sv_swap24] at e2
  rcases H.on_plane hg hM hp H'.hi H'.isV.2 (by linarith) with h | h
  · exact absurd h.symm (tri_ne (hM.ori i' H'.hi) H'.ti).1
  · exact h.symm

theorem Mesh.geo_single (hg : GenPos eps Q) (hM : Mesh Q h live) (hp : Apex Q h live p) (C : List (P3 K × P3 K)) (hne : C ≠ [])
    (hC : ∀ e ∈ C, Dfs.Front (dD h live) (dvis eps p h live) e) (hs : ∀ e ∈ C, ∃ e' ∈ C, e'.1 = e.2) (f : P3 K × P3 K)
    (hf : Dfs.Front (dD h live) (dvis eps p h live) f) : f ∈ C := by
  obtain ⟨c, d⟩ := f
  obtain ⟨i, j, _, _, H⟩ := hM.horizon hg hp hf
  have hdet := H.det hM
  obtain ⟨e, he, g1, g2⟩ := round_exists p C hne (fun e he => by
    obtain ⟨_, _, _, _, H'⟩ := hM.horizon hg hp (x := e.1) (y := e.2) (hC e he)
    exact H'.det hM) hs (fun i => c i + d i) d (by
      have : det3 (fun i => c i + d i) d p = det3 c d p := by unfold det3; ring
      rw [this]; exact hdet)
  obtain ⟨a, b⟩ := e
  obtain ⟨i', j', _, _, H'⟩ := hM.horizon hg hp (hC _ he)
  obtain ⟨k1, k2⟩ := cross_unique (H'.det hM) hdet (H'.le_vert hM H.hi H.isV.1) (H'.le_vert hM H.hi H.isV.2)
    (H.le_vert hM H'.hi H'.isV.1) (H.le_vert hM H'.hi H'.isV.2) g1 g2
  have n := (tri_ne (hM.ori i H.hi) H.ti).1
  rcases H'.on_plane hg hM hp H.hi H.isV.1 k1 with rfl | rfl
  · rcases H'.on_plane hg hM hp H.hi H.isV.2 k2 with rfl | rfl
    · exact absurd rfl n
    · exact he
  · rcases H'.on_plane hg hM hp H.hi H.isV.2 k2 with rfl | rfl
    · exfalso
      have h1 := H'.det hM
      rw [det3_swap] at h1
      linarith
    · exact absurd rfl n

theorem Mesh.geo_man (hg : GenPos eps Q) (hM : Mesh Q h live) (z w0 : P3 K) (m : ℕ) (hm : 0 < m) (hd : (z, w0) ∈ dD h live)
    (hc : (Dfs.rt (dth h live) z)^[m] w0 = w0) (w : P3 K) (hw : (z, w) ∈ dD h live) :
    ∃ j < m, w = (Dfs.rt (dth h live) z)^[j] w0 := by
  have hS := hM.surf hg (0 : P3 K)
  set r := Dfs.rt (dth h live) z with hr
  have hmem : ∀ k, (z, r^[k] w0) ∈ dD h live := hS.rt_iter_mem hd
  have htri : ∀ k, ∃ i ∈ live, Tri (h i) z (r^[k] w0) (dth h live z (r^[k] w0)) := by
    intro k
    obtain ⟨i, hi, t, ht⟩ := mem_dD.mp (hmem k)
    refine ⟨i, hi, ?_⟩
    have := hM.dth_eq hg hi ht
    simp only at this ht
    rw [this]
    exact ht
  have hback : ∀ k, dth h live z (r^[k + 1] w0) = r^[k] w0 := by
    intro k
    have := hS.cyc _ (hS.twin _ (hmem k))
    simp only [Dfs.tw] at this
    rw [Function.iterate_succ_apply']
    exact this
  obtain ⟨iw, hiw, x, tw⟩ := mem_dD.mp hw
  simp only at tw
  obtain ⟨e, he, e0, en⟩ := umbrella (z := z) (w := w) (x := x)
    ((List.range m).map fun k => (r^[k] w0, dth h live z (r^[k] w0))) (by
      intro hn
      have := congrArg List.length hn
      simp at this
      omega) (by
      intro e he
      obtain ⟨k, _, rfl⟩ := List.mem_map.mp he
      obtain ⟨i, hi, ht⟩ := htri k
      exact ht.fdet ▸ hM.ori i hi) (by
      intro e he
      obtain ⟨k, hk, rfl⟩ := List.mem_map.mp he
      rw [List.mem_range] at hk
      cases k with
      | zero =>
        refine ⟨_, List.mem_map.mpr ⟨m - 1, List.mem_range.mpr (by omega), rfl⟩, ?_⟩
        have := hback (m - 1)
        rw [show m - 1 + 1 = m by omega, hc] at this
        exact this.symm
      | succ k => exact ⟨_, List.mem_map.mpr ⟨k, List.mem_range.mpr (by omega), rfl⟩, (hback k).symm⟩)
    (tw.fdet ▸ hM.ori iw hiw) (by
      intro e he
      obtain ⟨k, _, rfl⟩ := List.mem_map.mp he
      obtain ⟨i, hi, ht⟩ := htri k
      exact ht.fsv w ▸ hM.conv i hi iw hiw w ((tw.isV w).mpr (by simp))) (by
      intro e he
      obtain ⟨k, _, rfl⟩ := List.mem_map.mp he
      obtain ⟨i, hi, ht⟩ := htri k
      exact ⟨tw.fsv _ ▸ hM.conv iw hiw i hi _ ((ht.isV _).mpr (by simp)),
        tw.fsv _ ▸ hM.conv iw hiw i hi _ ((ht.isV _).mpr (by simp))⟩)
  obtain ⟨k, hk, rfl⟩ := List.mem_map.mp he
  rw [List.mem_range] at hk
  refine ⟨k, hk, ?_⟩
  obtain ⟨i, hi, ht⟩ := htri k
  have hon := hg.on_plane (hM.vert i hi) (hM.ori i hi) (hM.vert iw hiw w ((tw.isV w).mpr (by simp))) (by rw [ht.fsv]; exact e0)
  rw [ht.isV] at hon
  rcases hon with h1 | h1 | h1
  · exact absurd h1.symm (tri_ne (hM.ori iw hiw) tw).1
  · exact h1
  · exact absurd h1 en

/-- The facet under the apex is the only one in its direction. -/
theorem Mesh.cone_apex (hg : GenPos eps Q) (hM : Mesh Q h live) (hp : Apex Q h live p) {i j : ℕ} (hi : i ∈ live) (hj : j ∈ live)
    (h1 : InCone (h i).a (h i).b (h i).c p) (h2 : InCone (h j).a (h j).b (h j).c p) : i = j := by
  refine hM.cone_same hg hi hj ?_ h2
  have hne : ∀ x y z, Tri (h i) x y z → det3 x y p ≠ 0 := by
    intro x y z ht h0
    have hx : IsV (h i) x := (ht.isV x).mpr (by simp)
    have hy : IsV (h i) y := (ht.isV y).mpr (by simp)
    have := hg.det x (hM.vert i hi x hx) y (hM.vert i hi y hy) p hp.mem (tri_ne (hM.ori i hi) ht).1
      (fun e => hp.out i hi (e ▸ hx)) (fun e => hp.out i hi (e ▸ hy))
    rw [h0, abs_zero] at this
    exact absurd hg.nn (not_le.mpr this)
  obtain ⟨a1, a2, a3⟩ := h1
  exact ⟨lt_of_le_of_ne a1 (hne _ _ _ (Tri.self _)), lt_of_le_of_ne a2 (hne _ _ _ (Tri.self _).rot),
    lt_of_le_of_ne a3 (hne _ _ _ (Tri.self _).rot.rot)⟩

theorem Mesh.fht_pos (hM : Mesh Q h live) {i : ℕ} (hi : i ∈ live) (q : P3 K) : 0 < fht (h i) q ↔ 0 < fsv (h i) q :=
  ht_pos_iff (hM.ori i hi) (q := q)

/-- The visible facets are connected. -/
theorem Mesh.vis_connected (hg : GenPos eps Q) (hM : Mesh Q h live) (hp : Apex Q h live p) (R : ℕ → Prop)
    (hR : ∀ i ∈ live, ∀ j ∈ live, ∀ x y z w, Tri (h i) x y z → Tri (h j) y x w → 0 < fsv (h i) p → 0 < fsv (h j) p → R i → R j)
    {i0 : ℕ} (hi0 : i0 ∈ live) (hv0 : 0 < fsv (h i0) p) (h0 : R i0) : ∀ i ∈ live, 0 < fsv (h i) p → R i := by
  obtain ⟨s, hs, hcs⟩ := hM.cover hg p
  have hRs : R s := by
    refine hM.walk hg p (fun i => 0 < fsv (h i) p → R i → R s) ?_ ?_ i0 hi0 hv0 h0
    · intro j hj hc _ hRj
      rw [hM.cone_apex hg hp hs hj hcs hc]; exact hRj
    · intro i hi j hj x y z w ti tj hlt ih hv hRi
      have hvj : 0 < fsv (h j) p := (hM.fht_pos hj p).mp (((hM.fht_pos hi p).mpr hv).trans hlt)
      exact ih hvj (hR i hi j hj x y z w ti tj hv hvj hRi)
  refine hM.walk hg p (fun i => 0 < fsv (h i) p → R i) ?_ ?_
  · intro j hj hc _
    rw [← hM.cone_apex hg hp hs hj hcs hc]; exact hRs
  · intro i hi j hj x y z w ti tj hlt ih hv
    have hvj : 0 < fsv (h j) p := (hM.fht_pos hj p).mp (((hM.fht_pos hi p).mpr hv).trans hlt)
    exact hR j hj i hi y x w z tj ti hvj hv (ih hvj)

theorem Mesh.geo (hg : GenPos eps Q) (hM : Mesh Q h live) (hp : Apex Q h live p) :
    Dfs.Geo (dD h live) (dth h live) (dvis eps p h live) where
  uniq := hM.geo_uniq hg hp
  single := hM.geo_single hg hp
  man := hM.geo_man hg
  conn := by
    intro R ⟨d0, hd0, hv0, hR0⟩ hnx htw d hd hv
    have hS := hM.surf hg p
    -- all darts of a facet have the property together
    have hall : ∀ i ∈ live, 0 < fsv (h i) p → ∀ x y z, Tri (h i) x y z → R (x, y) →
        ∀ x' y' z', Tri (h i) x' y' z' → R (x', y') := by
      intro i hi hv x y z ht hr x' y' z' ht'
      have hvd : ∀ a b c, Tri (h i) a b c → dvis eps p h live (a, b) = true := fun a b c t => by
        rw [hM.dvis_eq hg p hi t]; exact (hM.vis_iff hg hp.mem hi).mpr hv
      have step : ∀ a b c, Tri (h i) a b c → R (a, b) → R (b, c) := by
        intro a b c t hr
        have := hnx (a, b) (mem_dD.mpr ⟨i, hi, c, t⟩) (hvd a b c t) hr
        unfold Dfs.nx at this
        simp only [hM.dth_eq hg hi t] at this
        exact this
      have h1 := step x y z ht hr
      have h2 := step y z x ht.rot h1
      have e : (x' = x ∧ y' = y) ∨ (x' = y ∧ y' = z) ∨ (x' = z ∧ y' = x) := by
        rcases ht with ⟨rfl, rfl, rfl⟩ | ⟨rfl, rfl, rfl⟩ | ⟨rfl, rfl, rfl⟩ <;>
        rcases ht' with ⟨rfl, rfl, rfl⟩ | ⟨rfl, rfl, rfl⟩ | ⟨rfl, rfl, rfl⟩ <;> simp
      rcases e with ⟨rfl, rfl⟩ | ⟨rfl, rfl⟩ | ⟨rfl, rfl⟩
      · exact hr
      · exact h1
      · exact h2
    obtain ⟨i0, hi0, z0, t0⟩ := mem_dD.mp hd0
    obtain ⟨i, hi, z, t⟩ := mem_dD.mp hd
    have v0 : 0 < fsv (h i0) p := by
      rw [← hM.vis_iff hg hp.mem hi0, ← hM.dvis_eq hg p hi0 t0]; exact hv0
    have v1 : 0 < fsv (h i) p := by
      rw [← hM.vis_iff hg hp.mem hi, ← hM.dvis_eq hg p hi t]; exact hv
    refine hM.vis_connected hg hp (fun i => ∀ x y z, Tri (h i) x y z → R (x, y)) ?_ hi0 v0
      (hall i0 hi0 v0 _ _ _ t0 hR0) i hi v1 _ _ _ t
    intro i hi j hj x y z w ti tj vi vj hRi
    refine hall j hj vj y x w tj ?_
    refine htw (x, y) (mem_dD.mpr ⟨i, hi, z, ti⟩) ?_ ?_ (hRi x y z ti)
    · rw [hM.dvis_eq hg p hi ti]; exact (hM.vis_iff hg hp.mem hi).mpr vi
    · unfold Dfs.tw
      rw [hM.dvis_eq hg p hj tj]; exact (hM.vis_iff hg hp.mem hj).mpr vj

/-- A visible facet is not everything: there is a frontier. -/
theorem Mesh.front_exists (hg : GenPos eps Q) (hM : Mesh Q h live) (hp : Apex Q h live p) {i : ℕ} (hi : i ∈ live)
    (hv : 0 < fsv (h i) p) : ∃ d, Dfs.Front (dD h live) (dvis eps p h live) d := by
  by_contra hno
  push Not at hno
  -- otherwise every facet is visible
  have hall : ∀ j ∈ live, 0 < fsv (h j) p := by
    refine hM.connected hg (fun j => 0 < fsv (h j) p) hi hv ?_
    intro a ha b hb x y z w ta tb hva
    by_contra hvb
    refine hno (x, y) ⟨mem_dD.mpr ⟨a, ha, z, ta⟩, ?_, ?_⟩
    · rw [hM.dvis_eq hg p ha ta]; exact (hM.vis_iff hg hp.mem ha).mpr hva
    · unfold Dfs.tw
      rw [hM.dvis_eq hg p hb tb, Bool.eq_false_iff]
      exact fun hc => hvb ((hM.vis_iff hg hp.mem hb).mp hc)
  obtain ⟨j, hj, α, β, γ, h1, h2, h3, hw, hs⟩ := hM.in_cone_weights hg (fun k => -p k)
  have hpos := hall j hj
  -- `p` is opposite to the facet
  have hsv : fsv (h j) p = (-(α + β + γ) - 1) * -fdet (h j) := by
    have e : fsv (h j) p + fsv (h j) (fun k => -p k) = 2 * fdet (h j) := by
      unfold fsv fdet
      simp only [sv_poly]
      unfold det3
      ring
    rw [hs] at e
    linear_combination e
  have ho := hM.ori j hj
  rw [hsv] at hpos
  have : (-(α + β + γ) - 1) * -fdet (h j) ≤ 0 := mul_nonpos_of_nonpos_of_nonneg (by linarith) (by linarith)
  linarith

end

end Verif.QHull
