import Verif.Delaunay.MeshLemmas
import Mathlib.Data.Finset.Card
import Mathlib.Order.Interval.Finset.Nat

set_option linter.unusedSectionVars false
set_option linter.unusedVariables false

/-!
C41: the mesh operations keep the neighbour pointers mutual.

The specification (`WF`, `VertexPointers` in `MeshLemmas.lean`) only speaks of the arrays `ngh`, `vtx` of the live
triangles and the pointers `t` of the vertices.
-/

namespace Verif.Delaunay

/-- C41, `split`: for every mesh with mutual pointers, every triangle and every new vertex, splitting does not abort,
keeps the pointers mutual, and adds exactly the two triangles whose memory was given. Each vertex, the new one included,
points to a triangle it belongs to. -/
theorem c41_split {live vs : Finset ℕ} {m : Mesh} (h : WF live m) (hp : VertexPointers live vs m) {t v a b : ℕ}
    (ht : t ∈ live) (ha : a ∉ live) (hb : b ∉ live) (hab : a ≠ b) (hv : ∀ x ∈ live, ∀ k, m.vtx x k ≠ v) :
    ∃ m', split m t v a b = .ok m' ∧ WF (insert a (insert b live)) m' ∧
      (insert a (insert b live)).card = live.card + 2 ∧
      VertexPointers (insert a (insert b live)) (insert v vs) m' ∧
      (∀ x ∈ live, x ≠ t → m'.vtx x = m.vtx x) ∧ ∀ x ∈ ({t, a, b} : Finset ℕ), m'.vtx x 1 = v := by
  obtain ⟨m', e, hs⟩ := split_ok (v := v) h ht ha hb hab
  refine ⟨m', e, hs.wf h ht ha hb hab hv, ?_, hs.vp ht ha hb hp, ?_, ?_⟩
  · rw [Finset.card_insert_of_notMem (by simp [ha, hab]), Finset.card_insert_of_notMem hb]
  · intro x hx hxt
    funext k
    exact hs.vtx x hxt (fun e => ha (e ▸ hx)) (fun e => hb (e ▸ hx)) k
  · intro x hx
    simp only [Finset.mem_insert, Finset.mem_singleton] at hx
    rcases hx with rfl | rfl | rfl
    · rw [hs.vtxt]
      simp
    · rw [hs.vtxa]
      simp
    · rw [hs.vtxb]
      simp

/-- C41, `flip`: for every mesh with mutual pointers and every inner edge, given by triangle `x` and slot `o` with the
neighbour `y` pointing back at slot `j`, whose opposite corners differ: flipping does not abort, the new pointers are
mutual, no triangle is added, the vertices of all other triangles stay, and each vertex points to a triangle it belongs
to. The two triangles now have the edge between the formerly opposite corners in common. -/
theorem c41_flip {live vs : Finset ℕ} {m : Mesh} (h : WF live m) (hp : VertexPointers live vs m) {x y : ℕ}
    (hx : x ∈ live) {o j : Fin 3} (b : Bool) (hy : m.ngh x o = some y) (hj : m.ngh y j = some x)
    (hv : m.vtx x (o + 1) ≠ m.vtx y (j + 1)) :
    ∃ m', flip m ⟨x, o, b⟩ = .ok m' ∧
      (∀ x ∈ live, ∀ i y, m'.ngh x i = some y → y ∈ live ∧ ∃ j, m'.ngh y j = some x ∧
        m'.vtx y j = m'.vtx x (i + 2) ∧ m'.vtx y (j + 2) = m'.vtx x i) ∧
      VertexPointers live vs m' ∧ (∀ w ∈ live, w ≠ x → w ≠ y → m'.vtx w = m.vtx w) ∧
      ((m'.vtx x o = m.vtx y (j + 1) ∧ m'.vtx x (o + 1) = m.vtx x (o + 1) ∧ m'.vtx x (o + 2) = m.vtx x (o + 2)) ∧
        m'.vtx y j = m.vtx x (o + 1) ∧ m'.vtx y (j + 1) = m.vtx y (j + 1) ∧ m'.vtx y (j + 2) = m.vtx y (j + 2)) := by
  obtain ⟨m', e, hf⟩ := flip_ok h hx hy hj hv b
  have hyx : y ≠ x := h.ne_self hx hy
  refine ⟨m', e, (hf.adj h hx hy hj hv).2, hf.vp h hx hy hj hp, ?_, ?_⟩
  · intro w hw h1 h2
    funext k
    rw [hf.vtx, if_neg (by tauto), if_neg (by tauto)]
  · have no := add_one_ne o
    have no2 := add_two_ne o
    have nj := add_one_ne j
    have nj2 := add_two_ne j
    simp only [hf.vtx, hyx, hyx.symm, no, no2, nj, nj2]
    simp

/-- C41, `flip`, ready for the next operation: if in addition the two triangles have no second neighbour in common on
opposite sides of the new edge (that is, the edge is not one at a vertex of degree three), the whole of `WF` is kept. -/
theorem c41_flip_wf_partial {live : Finset ℕ} {m : Mesh} (h : WF live m) {x y : ℕ}
    (hx : x ∈ live) {o j : Fin 3} (b : Bool) (hy : m.ngh x o = some y) (hj : m.ngh y j = some x)
    (hv : m.vtx x (o + 1) ≠ m.vtx y (j + 1))
    (hd1 : ∀ z, m.ngh y (j + 1) = some z → m.ngh x (o + 2) ≠ some z)
    (hd2 : ∀ z, m.ngh x (o + 1) = some z → m.ngh y (j + 2) ≠ some z) :
    ∃ m', flip m ⟨x, o, b⟩ = .ok m' ∧ WF live m' := by
  obtain ⟨m', e, hf⟩ := flip_ok h hx hy hj hv b
  exact ⟨m', e, hf.wf h hx hy hj hv hd1 hd2⟩

/-- C41, `extend`: gluing a triangle with a new apex to a boundary edge. -/
theorem c41_extend {live vs : Finset ℕ} {m : Mesh} (h : WF live m) (hp : VertexPointers live vs m) {x v a : ℕ}
    {o : Fin 3} (b : Bool) (hx : x ∈ live) (ha : a ∉ live) (hn : m.ngh x o = none) (hv1 : m.vtx x o ≠ v)
    (hv2 : m.vtx x (o + 2) ≠ v) :
    ∃ m', extend m ⟨x, o, b⟩ v a = .ok (m', ⟨a, 0, false⟩) ∧ WF (insert a live) m' ∧
      (insert a live).card = live.card + 1 ∧ VertexPointers (insert a live) (insert v vs) m' ∧
      m'.ngh x o = some a ∧ m'.ngh a 0 = none := by
  have hax : a ≠ x := fun e => ha (e ▸ hx)
  obtain ⟨m', e, he⟩ := extend_ok (v := v) b hax hn
  refine ⟨m', e, he.wf h hx ha hn hv1 hv2, Finset.card_insert_of_notMem ha, he.vp ha hp, ?_, ?_⟩
  · rw [he.ngh x hax.symm, if_pos ⟨rfl, rfl⟩]
  · rw [he.ngha, if_neg (by decide)]

/-! ### The initial fan -/

/-- Specification: triangles `ts, …, ts + n - 1` are the fan `(v 0, v (i+1), v (i+2))`, each pointing to the one before
and the one after. -/
def Fan (m : Mesh) (v : ℕ → ℕ) (ts n : ℕ) : Prop :=
  ∀ i < n, (m.vtx (ts + i) 0 = v 0 ∧ m.vtx (ts + i) 1 = v (i + 1) ∧ m.vtx (ts + i) 2 = v (i + 2)) ∧
    m.ngh (ts + i) 0 = (if i + 1 < n then some (ts + i + 1) else none) ∧
    m.ngh (ts + i) 1 = (if 0 < i then some (ts + i - 1) else none) ∧ m.ngh (ts + i) 2 = none

theorem mkSimplex_spec (m : Mesh) (a b c t : ℕ) :
    (mkSimplex m a b c t).2 = ⟨t, 0, false⟩ ∧
    (∀ k, (mkSimplex m a b c t).1.vtx t k = if k = 0 then a else if k = 1 then b else c) ∧
    (∀ k, (mkSimplex m a b c t).1.ngh t k = none) ∧
    (∀ u, (mkSimplex m a b c t).1.vt u = if u = a ∨ u = b ∨ u = c then t else m.vt u) := by
  refine ⟨rfl, ?_, ?_, ?_⟩
  · intro k
    by_cases h0 : k = 0
    · simp [h0, mkSimplex, Mesh.setT]
    by_cases h1 : k = 1
    · simp [h1, mkSimplex, Mesh.setT]
    obtain rfl := fin3_two h0 h1
    simp [mkSimplex, Mesh.setT]
  · intro k
    by_cases h0 : k = 0
    · simp [h0, mkSimplex, Mesh.setT]
    by_cases h1 : k = 1
    · simp [h1, mkSimplex, Mesh.setT]
    obtain rfl := fin3_two h0 h1
    simp [mkSimplex, Mesh.setT]
  · intro u
    simp [mkSimplex, Mesh.setT]
    split_ifs <;> grind

theorem fan_step {m m' : Mesh} {v : ℕ → ℕ} {ts n : ℕ} (hn : 0 < n) (hf : Fan m v ts n)
    (he : ExtendAt m m' (ts + n - 1) 0 (v (n + 2)) (ts + n)) : Fan m' v ts (n + 1) := by
  intro i hi
  have hlast := hf (n - 1) (by omega)
  have e1 : ts + (n - 1) = ts + n - 1 := by omega
  have e2 : n - 1 + 1 = n := by omega
  have e3 : n - 1 + 2 = n + 1 := by omega
  rw [e1, e2, e3] at hlast
  by_cases hin : i = n
  · subst hin
    have e02 : (0 : Fin 3) + 2 = 2 := by decide
    refine ⟨⟨?_, ?_, ?_⟩, ?_, ?_, ?_⟩
    · rw [he.vtxa, if_pos rfl, hlast.1.1]
    · rw [he.vtxa, if_neg (by decide), if_pos rfl, e02, hlast.1.2.2]
    · rw [he.vtxa, if_neg (by decide), if_neg (by decide)]
    · rw [he.ngha, if_neg (by decide), if_neg (by omega)]
    · rw [he.ngha, if_pos rfl, if_pos hn]
    · rw [he.ngha, if_neg (by decide)]
  · have hin' : i < n := by omega
    have hne : ts + i ≠ ts + n := by omega
    obtain ⟨⟨p1, p2, p3⟩, q1, q2, q3⟩ := hf i hin'
    refine ⟨⟨?_, ?_, ?_⟩, ?_, ?_, ?_⟩
    · rw [he.vtx _ hne, p1]
    · rw [he.vtx _ hne, p2]
    · rw [he.vtx _ hne, p3]
    · rw [he.ngh _ hne, q1]
      by_cases hl : i + 1 = n
      · rw [if_pos ⟨by omega, rfl⟩, if_pos (by omega)]
        congr 1
        omega
      · rw [if_neg (by omega), if_pos (by omega), if_pos (by omega)]
    · rw [he.ngh _ hne, if_neg (by simp), q2]
    · rw [he.ngh _ hne, if_neg (by simp), q3]

theorem fan_fold (v : ℕ → ℕ) (ts : ℕ) : ∀ (rest : List ℕ) (m : Mesh) (n : ℕ) (live vs : Finset ℕ), 0 < n →
    (∀ i, (hi : i < rest.length) → v (n + 2 + i) = rest[i]) → Fan m v ts n → WF live m → VertexPointers live vs m →
    live = Finset.Ico ts (ts + n) → (∀ i j, i < n + 2 + rest.length → j < n + 2 + rest.length → v i = v j → i = j) →
    vs = (Finset.range (n + 2)).image v →
    ∃ m', ((rest.foldl (fun (acc : Except Err (Mesh × Simplex × ℕ)) v => acc.bind fun (x : Mesh × Simplex × ℕ) =>
      (extend x.1 x.2.1 v x.2.2).map fun y => (y.1, y.2, x.2.2 + 1)) (.ok (m, ⟨ts + n - 1, 0, false⟩, ts + n))).map
        fun x => x.1) = .ok m' ∧ Fan m' v ts (n + rest.length) ∧ WF (Finset.Ico ts (ts + (n + rest.length))) m' ∧
      VertexPointers (Finset.Ico ts (ts + (n + rest.length))) ((Finset.range (n + rest.length + 2)).image v) m' := by
  intro rest
  induction rest with
  | nil =>
    intro m n live vs hn _ hf hw hp hl _ hvs
    refine ⟨m, rfl, hf, ?_, ?_⟩
    · simpa [hl] using hw
    · simpa [hl, hvs] using hp
  | cons a rest ih =>
    intro m n live vs hn hr hf hw hp hl hinj hvs
    have hlast := hf (n - 1) (by omega)
    have e1 : ts + (n - 1) = ts + n - 1 := by omega
    have e3 : n - 1 + 2 = n + 1 := by omega
    have e2 : n - 1 + 1 = n := by omega
    rw [e1, e2, e3, if_neg (by omega)] at hlast
    have ha : v (n + 2) = a := hr 0 (by simp)
    obtain ⟨m1, h1, h2⟩ := extend_ok (m := m) (v := a) (a := ts + n) (x := ts + n - 1) (o := 0) false (by omega)
      hlast.2.1
    have hxl : ts + n - 1 ∈ live := by
      rw [hl, Finset.mem_Ico]
      omega
    have hal : ts + n ∉ live := by
      rw [hl, Finset.mem_Ico]
      omega
    rw [List.foldl_cons]
    simp only [Except.bind]
    rw [h1]
    simp only [Except.map]
    have h2' := h2
    rw [← ha] at h2'
    have e02 : (0 : Fin 3) + 2 = 2 := by decide
    simp only [List.length_cons] at hinj
    have hw1 := h2'.wf hw hxl hal hlast.2.1
      (by rw [hlast.1.1]; exact fun e => absurd (hinj _ _ (by omega) (by omega) e) (by omega))
      (by rw [e02, hlast.1.2.2]; exact fun e => absurd (hinj _ _ (by omega) (by omega) e) (by omega))
    have hp1 := h2'.vp hal hp
    obtain ⟨m', k1, k2, k3, k4⟩ := ih m1 (n + 1) _ _ (by omega) (by
        intro i hi
        have := hr (i + 1) (by simp; omega)
        rw [List.getElem_cons_succ] at this
        rw [← this]
        congr 1
        omega)
      (fan_step hn hf h2') hw1 hp1 (by
        rw [hl]
        ext z
        simp only [Finset.mem_insert, Finset.mem_Ico]
        omega) (by
        intro i j hi hj
        exact hinj i j (by omega) (by omega)) (by
        rw [hvs, show n + 1 + 2 = n + 2 + 1 from by omega, Finset.range_add_one (n := n + 2), Finset.image_insert])
    have e5 : n + 1 + rest.length = n + (a :: rest).length := by simp; omega
    rw [e5] at k2 k3 k4
    refine ⟨m', ?_, k2, k3, k4⟩
    rw [← k1]
    congr 2

theorem getD_lt (l : List ℕ) {i : ℕ} (h : i < l.length) : l.getD i 0 = l[i] := by
  rw [List.getD_eq_getElem?_getD, List.getElem?_eq_getElem h]
  rfl

/-- C41, `generate_boundary`: the initial fan over at least three different vertices is a mesh with mutual pointers, of
`boundary_size - 2` triangles, and each of its vertices points to a triangle it belongs to. -/
theorem c41_fan (m : Mesh) {vs : List ℕ} (hlen : 3 ≤ vs.length) (hnd : vs.Nodup) (ts : ℕ) :
    ∃ m', boundaryFan m vs ts = .ok m' ∧ Fan m' (fun i => vs.getD i 0) ts (vs.length - 2) ∧
      WF (Finset.Ico ts (ts + (vs.length - 2))) m' ∧
      VertexPointers (Finset.Ico ts (ts + (vs.length - 2))) vs.toFinset m' := by
  match vs, hlen with
  | a :: b :: c :: rest, _ =>
    obtain ⟨s1, s2, s3, s4⟩ := mkSimplex_spec m a b c ts
    have hval : ∀ i j, i < 1 + 2 + rest.length → j < 1 + 2 + rest.length →
        (a :: b :: c :: rest).getD i 0 = (a :: b :: c :: rest).getD j 0 → i = j := by
      intro i j hi hj hij
      have hi' : i < (a :: b :: c :: rest).length := by simp; omega
      have hj' : j < (a :: b :: c :: rest).length := by simp; omega
      rw [getD_lt _ hi', getD_lt _ hj'] at hij
      exact (List.Nodup.getElem_inj_iff hnd).mp hij
    have hab : a ≠ b := fun e => absurd (hval 0 1 (by omega) (by omega) (by simpa using e)) (by decide)
    have hac : a ≠ c := fun e => absurd (hval 0 2 (by omega) (by omega) (by simpa using e)) (by decide)
    have hbc : b ≠ c := fun e => absurd (hval 1 2 (by omega) (by omega) (by simpa using e)) (by decide)
    obtain ⟨m', k1, k2, k3, k4⟩ := fan_fold (fun i => (a :: b :: c :: rest).getD i 0) ts rest
      (mkSimplex m a b c ts).1 1 {ts} {a, b, c} (by omega) (by
        intro i hi
        simp [show 1 + 2 + i = i + 3 from by omega, List.getElem?_eq_getElem hi]) (by
        intro i hi
        obtain rfl : i = 0 := by omega
        simp [s2, s3]) (by
        refine ⟨?_, ?_, ?_⟩
        · intro x hx i j hij
          rw [Finset.mem_singleton] at hx
          subst hx
          rw [s2, s2] at hij
          revert hij
          rcases fin3_cases 0 i with rfl | rfl | rfl <;> rcases fin3_cases 0 j with rfl | rfl | rfl <;> simp <;> grind
        · intro x hx i y hy
          rw [Finset.mem_singleton] at hx
          rw [hx, s3] at hy
          exact absurd hy (by simp)
        · intro x hx i j y hy
          rw [Finset.mem_singleton] at hx
          rw [hx, s3] at hy
          exact absurd hy (by simp)) (by
        intro u hu
        simp only [Finset.mem_insert, Finset.mem_singleton] at hu
        rw [s4, if_pos hu]
        refine ⟨by simp, ?_⟩
        rcases hu with rfl | rfl | rfl
        · exact ⟨0, by simp [s2]⟩
        · exact ⟨1, by simp [s2]⟩
        · exact ⟨2, by simp [s2]⟩) (by
        ext z
        simp only [Finset.mem_singleton, Finset.mem_Ico]
        omega) hval (by
        ext z
        simp only [Finset.mem_insert, Finset.mem_singleton, Finset.mem_image, Finset.mem_range]
        constructor
        · rintro (rfl | rfl | rfl)
          · exact ⟨0, by omega, rfl⟩
          · exact ⟨1, by omega, rfl⟩
          · exact ⟨2, by omega, rfl⟩
        · rintro ⟨i, hi, rfl⟩
          have : i = 0 ∨ i = 1 ∨ i = 2 := by omega
          rcases this with rfl | rfl | rfl <;> simp)
    have e5 : 1 + rest.length = (a :: b :: c :: rest).length - 2 := by simp; omega
    rw [e5] at k2 k3 k4
    refine ⟨m', ?_, k2, k3, ?_⟩
    · rw [← k1]
      unfold boundaryFan
      simp only [s1]
      rfl
    · have : (a :: b :: c :: rest).toFinset =
          ((Finset.range ((a :: b :: c :: rest).length - 2 + 2)).image fun i => (a :: b :: c :: rest).getD i 0) := by
        ext z
        simp only [List.mem_toFinset, Finset.mem_image, Finset.mem_range]
        constructor
        · intro hz
          obtain ⟨i, hi, rfl⟩ := List.mem_iff_getElem.mp hz
          refine ⟨i, by simp at hi ⊢; omega, ?_⟩
          rw [getD_lt _ hi]
        · rintro ⟨i, hi, rfl⟩
          have hi' : i < (a :: b :: c :: rest).length := by simp at hi ⊢; omega
          rw [getD_lt _ hi']
          exact List.getElem_mem hi'
      rw [this]
      exact k4

/-! ### Negative results -/

/-- Two triangles glued along one edge, with the same opposite corner. -/
def pillow : Mesh where
  tri x := if x = 0 then ⟨![some 1, none, none], ![0, 1, 2]⟩ else ⟨![some 0, none, none], ![2, 1, 0]⟩
  vt _ := 0

/-- C41 is false of `flip` for meshes where the two opposite corners are the same vertex: the pointers of `pillow` are
mutual, and after the flip triangle 0 has a vertex twice. -/
theorem c41_flip_same_corner_false : WF {0, 1} pillow ∧
    ∃ m', flip pillow ⟨0, 0, false⟩ = .ok m' ∧ ¬ WF {0, 1} m' := by
  refine ⟨⟨by decide, ?_, ?_⟩, _, rfl, ?_⟩
  · intro x hx i y hy
    simp only [Finset.mem_insert, Finset.mem_singleton] at hx
    rcases hx with rfl | rfl <;> rcases fin3_cases 0 i with rfl | rfl | rfl <;>
      simp [pillow, Mesh.ngh] at hy <;> subst hy
    · exact ⟨by simp, 0, by decide⟩
    · exact ⟨by simp, 0, by decide⟩
  · intro x hx i j y hi hj
    simp only [Finset.mem_insert, Finset.mem_singleton] at hx
    rcases hx with rfl | rfl <;> rcases fin3_cases 0 i with rfl | rfl | rfl <;>
      rcases fin3_cases 0 j with rfl | rfl | rfl <;> simp [pillow, Mesh.ngh] at hi hj ⊢
  · intro hw
    have := hw.inj 0 (by simp) 0 1 (by decide)
    exact absurd this (by decide)

/-- Three triangles around the vertex 3. -/
def star3 : Mesh where
  tri x := if x = 0 then ⟨![none, some 1, some 2], ![0, 3, 2]⟩ else
    if x = 1 then ⟨![none, some 2, some 0], ![1, 3, 0]⟩ else ⟨![none, some 0, some 1], ![2, 3, 1]⟩
  vt v := if v = 1 then 1 else 0

theorem star3_wf : WF {0, 1, 2} star3 := by
  refine ⟨by decide, ?_, ?_⟩
  · intro x hx i y hy
    simp only [Finset.mem_insert, Finset.mem_singleton] at hx
    rcases hx with rfl | rfl | rfl <;> rcases fin3_cases 0 i with rfl | rfl | rfl <;>
      simp [star3, Mesh.ngh] at hy <;> subst hy <;> refine ⟨by simp, ?_⟩
    · exact ⟨2, by decide⟩
    · exact ⟨1, by decide⟩
    · exact ⟨2, by decide⟩
    · exact ⟨1, by decide⟩
    · exact ⟨2, by decide⟩
    · exact ⟨1, by decide⟩
  · intro x hx i j y hi hj
    simp only [Finset.mem_insert, Finset.mem_singleton] at hx
    rcases hx with rfl | rfl | rfl <;> rcases fin3_cases 0 i with rfl | rfl | rfl <;>
      rcases fin3_cases 0 j with rfl | rfl | rfl <;> simp [star3, Mesh.ngh] at hi hj ⊢ <;> omega

/-- Flipping an edge at a vertex of degree three keeps the pointers mutual but leaves two triangles that point to each
other twice. `locate` then finds the wrong one of the two slots: `across` on slot 1 of triangle 1, the edge from 1 to 3,
gives slot 1 of triangle 2, the edge from 2 to 3. -/
theorem c41_flip_degree_three_false : WF {0, 1, 2} star3 ∧
    ∃ m', flip star3 ⟨0, 1, false⟩ = .ok m' ∧ ¬ WF {0, 1, 2} m' ∧ across m' ⟨1, 1, false⟩ = .ok ⟨2, 1, false⟩ ∧
      (m'.vtx 1 (1 + 2), m'.vtx 1 1) = (1, 3) ∧ (m'.vtx 2 (1 + 2), m'.vtx 2 1) = (2, 3) := by
  refine ⟨star3_wf, _, rfl, ?_, rfl, rfl, rfl⟩
  intro hw
  have := hw.uniq 1 (by simp) 1 2 2 rfl rfl
  exact absurd this (by decide)

/-- The triangle (0, 1, 2) without neighbours. -/
def lone : Mesh where
  tri _ := ⟨![none, none, none], ![0, 1, 2]⟩
  vt _ := 0

/-- C41, `splitBoundary`: the neighbour pointers stay mutual. The claim on the vertex pointers is missing: it is false,
see `c41_splitBoundary_vertex_false`. -/
theorem c41_splitBoundary_partial {live : Finset ℕ} {m : Mesh} (h : WF live m) {x v a : ℕ}
    {o : Fin 3} (b : Bool) (hx : x ∈ live) (ha : a ∉ live) (hn : m.ngh x o = none) (hv : ∀ k, m.vtx x k ≠ v) :
    ∃ m', splitBoundary m ⟨x, o, b⟩ v a = .ok m' ∧ WF (insert a live) m' ∧ (insert a live).card = live.card + 1 := by
  obtain ⟨m', e, he⟩ := splitBoundary_ok (v := v) h b hx ha hn
  exact ⟨m', e, he.wf h hx ha hn hv, Finset.card_insert_of_notMem ha⟩

/-- After every `splitBoundary` the pointer of the corner `t->vtx[o+2]` leads to a triangle without that corner: line
222 stores `t` where `ta` is meant. (No caller in the repository.) -/
theorem c41_splitBoundary_vertex_false {live : Finset ℕ} {m : Mesh} (h : WF live m) {x v a : ℕ}
    {o : Fin 3} (b : Bool) (hx : x ∈ live) (ha : a ∉ live) (hn : m.ngh x o = none) (hv : ∀ k, m.vtx x k ≠ v)
    {vs : Finset ℕ} (hvs : m.vtx x (o + 2) ∈ vs) :
    ∃ m', splitBoundary m ⟨x, o, b⟩ v a = .ok m' ∧ ¬ VertexPointers (insert a live) vs m' := by
  obtain ⟨m', e, he⟩ := splitBoundary_ok (v := v) h b hx ha hn
  refine ⟨m', e, fun hp => ?_⟩
  obtain ⟨_, i, hi⟩ := hp _ hvs
  rw [he.vt, if_pos rfl, he.vtxx] at hi
  split_ifs at hi with c
  · exact hv _ hi.symm
  · exact c (h.inj _ hx _ _ hi)

/-! ### The hypotheses can be met -/

theorem lone_wf : WF {0} lone := by
  refine ⟨by decide, ?_, ?_⟩
  · intro x hx i y hy
    rcases fin3_cases 0 i with rfl | rfl | rfl <;> simp [lone, Mesh.ngh] at hy
  · intro x hx i j y hy
    rcases fin3_cases 0 i with rfl | rfl | rfl <;> simp [lone, Mesh.ngh] at hy

theorem lone_vp : VertexPointers {0} {0, 1, 2} lone := by
  intro v hv
  simp only [Finset.mem_insert, Finset.mem_singleton] at hv
  refine ⟨by simp [lone], ?_⟩
  rcases hv with rfl | rfl | rfl
  · exact ⟨0, rfl⟩
  · exact ⟨1, rfl⟩
  · exact ⟨2, rfl⟩

example := c41_split (t := 0) (v := 3) (a := 1) (b := 2) lone_wf lone_vp (by decide) (by decide) (by decide) (by decide)
  (by decide)

example := c41_extend (x := 0) (v := 3) (a := 1) (o := 1) lone_wf lone_vp false (by decide) (by decide) rfl (by decide)
  (by decide)

/-- Two triangles with a common edge and four corners. -/
def kite : Mesh where
  tri x := if x = 0 then ⟨![none, some 1, none], ![0, 1, 2]⟩ else ⟨![none, some 0, none], ![1, 0, 3]⟩
  vt v := if v = 3 then 1 else 0

theorem kite_wf : WF {0, 1} kite := by
  refine ⟨by decide, ?_, ?_⟩
  · intro x hx i y hy
    simp only [Finset.mem_insert, Finset.mem_singleton] at hx
    rcases hx with rfl | rfl <;> rcases fin3_cases 0 i with rfl | rfl | rfl <;>
      simp [kite, Mesh.ngh] at hy <;> subst hy <;> exact ⟨by simp, 1, by decide⟩
  · intro x hx i j y hi hj
    simp only [Finset.mem_insert, Finset.mem_singleton] at hx
    rcases hx with rfl | rfl <;> rcases fin3_cases 0 i with rfl | rfl | rfl <;>
      rcases fin3_cases 0 j with rfl | rfl | rfl <;> simp [kite, Mesh.ngh] at hi hj ⊢

theorem kite_vp : VertexPointers {0, 1} {0, 1, 2, 3} kite := by
  intro v hv
  simp only [Finset.mem_insert, Finset.mem_singleton] at hv
  rcases hv with rfl | rfl | rfl | rfl
  · exact ⟨by decide, 0, rfl⟩
  · exact ⟨by decide, 1, rfl⟩
  · exact ⟨by decide, 2, rfl⟩
  · exact ⟨by decide, 2, rfl⟩

example := c41_flip (x := 0) (o := 1) (y := 1) (j := 1) kite_wf kite_vp (by decide) false rfl rfl (by decide)

example := c41_flip_wf_partial (x := 0) (o := 1) (y := 1) (j := 1) kite_wf (by decide) false rfl rfl (by decide)
  (by intro z hz; simp [kite, Mesh.ngh] at hz) (by intro z hz; simp [kite, Mesh.ngh] at hz)

example := c41_fan lone (vs := [0, 1, 2, 3, 4]) (by decide) (by decide) 7

example := c41_splitBoundary_partial (x := 0) (v := 3) (a := 1) (o := 0) lone_wf false (by decide) (by decide) rfl
  (by decide)

example := c41_splitBoundary_vertex_false (x := 0) (v := 3) (a := 1) (o := 0) lone_wf false (by decide) (by decide) rfl
  (by decide) (vs := {0, 1, 2}) (by decide)

end Verif.Delaunay
