import Verif.Delaunay.MeshModel
import Mathlib.Data.Finset.Insert
import Mathlib.Data.Fintype.Card
import Mathlib.Data.Fin.VecNotation
import Mathlib.Tactic.Ring
import Mathlib.Tactic.FinCases

set_option linter.unusedSectionVars false
set_option linter.unusedVariables false

/-!
Lemmas on the mesh operations: reads after writes, `locate`/`update` under unique pointers, and closed forms for the
results of `flip`, `split`, `splitBoundary`, `extend`.
-/

namespace Verif.Delaunay

namespace Mesh

@[simp] theorem ngh_setNgh (m : Mesh) (t i x u k) :
    (m.setNgh t i x).ngh u k = if u = t ∧ k = i then x else m.ngh u k := by
  unfold ngh setNgh
  by_cases h : u = t
  · subst h
    by_cases h2 : k = i <;> simp [Function.update, h2]
  · simp [Function.update, h]

@[simp] theorem vtx_setNgh (m : Mesh) (t i x u k) : (m.setNgh t i x).vtx u k = m.vtx u k := by
  unfold vtx setNgh
  by_cases h : u = t
  · subst h
    simp [Function.update]
  · simp [Function.update, h]

@[simp] theorem vt_setNgh (m : Mesh) (t i x) : (m.setNgh t i x).vt = m.vt := rfl

@[simp] theorem ngh_setVtx (m : Mesh) (t i v u k) : (m.setVtx t i v).ngh u k = m.ngh u k := by
  unfold ngh setVtx
  by_cases h : u = t
  · subst h
    simp [Function.update]
  · simp [Function.update, h]

@[simp] theorem vtx_setVtx (m : Mesh) (t i v u k) :
    (m.setVtx t i v).vtx u k = if u = t ∧ k = i then v else m.vtx u k := by
  unfold vtx setVtx
  by_cases h : u = t
  · subst h
    by_cases h2 : k = i <;> simp [Function.update, h2]
  · simp [Function.update, h]

@[simp] theorem vt_setVtx (m : Mesh) (t i v) : (m.setVtx t i v).vt = m.vt := rfl

@[simp] theorem ngh_setVt (m : Mesh) (v t u k) : (m.setVt v t).ngh u k = m.ngh u k := rfl

@[simp] theorem vtx_setVt (m : Mesh) (v t u k) : (m.setVt v t).vtx u k = m.vtx u k := rfl

@[simp] theorem vt_setVt (m : Mesh) (v t u) : (m.setVt v t).vt u = if u = v then t else m.vt u := by
  unfold setVt
  by_cases h : u = v <;> simp [Function.update, h]

theorem locate_ok {m : Mesh} {a b : ℕ} {i : Fin 3} (h : m.ngh a i = some b)
    (hu : ∀ j, m.ngh a j = some b → j = i) : m.locate a b = .ok i := by
  unfold locate
  split_ifs with h0 h1 h2
  · rw [hu _ h0]
  · rw [hu _ h1]
  · rw [hu _ h2]
  · exfalso
    fin_cases i
    · exact h0 h
    · exact h1 h
    · exact h2 h

theorem update_ok {m : Mesh} {a b c : ℕ} {i : Fin 3} (h : m.ngh a i = some b)
    (hu : ∀ j, m.ngh a j = some b → j = i) : m.update a b c = .ok (m.setNgh a i (some c)) := by
  unfold update
  rw [locate_ok h hu]
  rfl

end Mesh

theorem fin3_cases (o k : Fin 3) : k = o ∨ k = o + 1 ∨ k = o + 2 := by
  revert o k
  decide

theorem add_one_ne (o : Fin 3) : o + 1 ≠ o := by revert o; decide
theorem add_two_ne (o : Fin 3) : o + 2 ≠ o := by revert o; decide
theorem add_two_ne_add_one (o : Fin 3) : o + 2 ≠ o + 1 := by revert o; decide
theorem add_one_add_one (o : Fin 3) : o + 1 + 1 = o + 2 := by revert o; decide
theorem add_one_add_two (o : Fin 3) : o + 1 + 2 = o := by revert o; decide
theorem add_two_add_one (o : Fin 3) : o + 2 + 1 = o := by revert o; decide
theorem add_two_add_two (o : Fin 3) : o + 2 + 2 = o + 1 := by revert o; decide

/-- Specification: the neighbour pointers of the live triangles are mutual, and neighbours share the edge the pointers
stand for, in opposite directions; a triangle has three different vertices and points to no triangle twice. -/
structure WF (live : Finset ℕ) (m : Mesh) : Prop where
  inj : ∀ x ∈ live, ∀ i j, m.vtx x i = m.vtx x j → i = j
  twin : ∀ x ∈ live, ∀ i y, m.ngh x i = some y → y ∈ live ∧ ∃ j, m.ngh y j = some x ∧
    m.vtx y j = m.vtx x (i + 2) ∧ m.vtx y (j + 2) = m.vtx x i
  uniq : ∀ x ∈ live, ∀ i j y, m.ngh x i = some y → m.ngh x j = some y → i = j

/-- Specification: the pointer of each of the vertices leads to a live triangle with that vertex. -/
def VertexPointers (live : Finset ℕ) (vs : Finset ℕ) (m : Mesh) : Prop :=
  ∀ v ∈ vs, m.vt v ∈ live ∧ ∃ i, m.vtx (m.vt v) i = v

theorem WF.ne_self {live : Finset ℕ} {m : Mesh} (h : WF live m) {x : ℕ} (hx : x ∈ live) {i : Fin 3} {y : ℕ}
    (hy : m.ngh x i = some y) : y ≠ x := by
  rintro rfl
  obtain ⟨-, j, -, h2, h3⟩ := h.twin _ hx _ _ hy
  have a := h.inj _ hx _ _ h2
  have b := h.inj _ hx _ _ h3
  subst a
  revert b
  generalize i = k
  revert k
  decide

/-- Two edges of one triangle have a common vertex; four different vertices do not fit. -/
theorem four_vertices {m : Mesh} {z : ℕ} {a b c d : ℕ} {i j k l : Fin 3} (ha : m.vtx z i = a) (hb : m.vtx z j = b)
    (hc : m.vtx z k = c) (hd : m.vtx z l = d) (h1 : a ≠ b) (h2 : a ≠ c) (h3 : a ≠ d) (h4 : b ≠ c) (h5 : b ≠ d)
    (h6 : c ≠ d) : False := by
  have e : ∀ i j k l : Fin 3, i = j ∨ i = k ∨ i = l ∨ j = k ∨ j = l ∨ k = l := by decide
  rcases e i j k l with h | h | h | h | h | h
  · exact h1 (by rw [← ha, ← hb, h])
  · exact h2 (by rw [← ha, ← hc, h])
  · exact h3 (by rw [← ha, ← hd, h])
  · exact h4 (by rw [← hb, ← hc, h])
  · exact h5 (by rw [← hb, ← hd, h])
  · exact h6 (by rw [← hc, ← hd, h])

/-- What `flip` on the edge `o` of `x` does, when the neighbour there is `y`, pointing back at `j`. -/
structure Flipped (m m' : Mesh) (x : ℕ) (o : Fin 3) (y : ℕ) (j : Fin 3) : Prop where
  vtx : ∀ w k, m'.vtx w k = if w = x ∧ k = o then m.vtx y (j + 1) else if w = y ∧ k = j then m.vtx x (o + 1)
    else m.vtx w k
  nghx : ∀ k, m'.ngh x k = if k = o then m.ngh y (j + 1) else if k = o + 1 then some y else m.ngh x k
  nghy : ∀ k, m'.ngh y k = if k = j then m.ngh x (o + 1) else if k = j + 1 then some x else m.ngh y k
  ngh : ∀ w, w ≠ x → w ≠ y → ∀ k, m'.ngh w k =
    if m.ngh y (j + 1) = some w ∧ m.ngh w k = some y then some x
    else if m.ngh x (o + 1) = some w ∧ m.ngh w k = some x then some y else m.ngh w k
  vt : ∀ v, m'.vt v = if v = m.vtx y j then x else if v = m.vtx x o then y else m.vt v

theorem flip_ok {live : Finset ℕ} {m : Mesh} (h : WF live m) {x : ℕ} (hx : x ∈ live) {o : Fin 3} {y : ℕ}
    (hy : m.ngh x o = some y) {j : Fin 3} (hj : m.ngh y j = some x) (hv : m.vtx x (o + 1) ≠ m.vtx y (j + 1))
    (b : Bool) : ∃ m', flip m ⟨x, o, b⟩ = .ok m' ∧ Flipped m m' x o y j := by
  have hyl : y ∈ live := (h.twin _ hx _ _ hy).1
  have hyx : y ≠ x := h.ne_self hx hy
  have hxy : x ≠ y := hyx.symm
  obtain ⟨_, j', hj', e1, e2⟩ := h.twin _ hx _ _ hy
  obtain rfl : j' = j := h.uniq _ hyl _ _ _ hj' hj
  have hac : across m ⟨x, o, b⟩ = .ok ⟨y, j', false⟩ := by
    unfold across
    simp only [hy]
    rw [Mesh.locate_ok hj fun k hk => h.uniq _ hyl _ _ _ hk hj]
    rfl
  have no := add_one_ne o
  have no2 := add_two_ne o
  have no3 := add_two_ne_add_one o
  have nj := add_one_ne j'
  have nj2 := add_two_ne j'
  have nj3 := add_two_ne_add_one j'
  -- the third neighbours
  have ht2x : m.ngh y (j' + 1) ≠ some x := fun hh => nj (h.uniq _ hyl _ _ _ hh hj)
  have ht2y : m.ngh y (j' + 1) ≠ some y := fun hh => h.ne_self hyl hh rfl
  have ht1y : m.ngh x (o + 1) ≠ some y := fun hh => no (h.uniq _ hx _ _ _ hh hy)
  have ht1x : m.ngh x (o + 1) ≠ some x := fun hh => h.ne_self hx hh rfl
  have hdiff : ∀ z, m.ngh y (j' + 1) = some z → m.ngh x (o + 1) ≠ some z := by
    intro z hz hz'
    obtain ⟨-, k, -, k1, k2⟩ := h.twin _ hyl _ _ hz
    obtain ⟨-, l, -, l1, l2⟩ := h.twin _ hx _ _ hz'
    rw [add_one_add_two] at k1 l1
    refine four_vertices k1 k2 l1 l2 ?_ ?_ ?_ ?_ ?_ ?_
    · exact fun e => nj (h.inj _ hyl _ _ e).symm
    · rw [e1]
      exact fun e => no2 (h.inj _ hx _ _ e)
    · rw [e1]
      exact fun e => no3 (h.inj _ hx _ _ e)
    · intro e
      rw [← e2] at e
      exact nj3 (h.inj _ hyl _ _ e).symm
    · exact fun e => hv e.symm
    · exact fun e => no (h.inj _ hx _ _ e).symm
  unfold flip
  rw [hac]
  simp only [Except.bind]
  rcases ht2 : m.ngh y (j' + 1) with _ | z
  · rcases ht1 : m.ngh x (o + 1) with _ | w
    · refine ⟨_, rfl, ?_, ?_, ?_, ?_, ?_⟩
      · intro w k
        simp
        split_ifs <;> grind
      · intro k
        simp
        split_ifs <;> grind
      · intro k
        simp
        split_ifs <;> grind
      · intro w hw1 hw2 k
        simp [hw1, hw2, ht1, ht2]
      · intro v
        simp [hyx]
    · obtain ⟨hwl, k, hk, -, -⟩ := h.twin _ hx _ _ ht1
      have hwx : w ≠ x := fun e => ht1x (e ▸ ht1)
      have hwy : w ≠ y := fun e => ht1y (e ▸ ht1)
      simp only [Mesh.updateIf]
      rw [Mesh.update_ok (i := k)]
      rotate_left
      · simp [hwx, hwy, hk]
      · intro l hl
        simp [hwx, hwy] at hl
        exact h.uniq _ hwl _ _ _ hl hk
      refine ⟨_, rfl, ?_, ?_, ?_, ?_, ?_⟩
      · intro w k
        simp
        split_ifs <;> grind
      · intro k
        simp
        split_ifs <;> grind
      · intro k
        simp
        split_ifs <;> grind
      · intro u hu1 hu2 l
        simp only [Mesh.ngh_setNgh, Mesh.ngh_setVtx, Mesh.ngh_setVt, hu1, hu2, false_and, if_false, ht1, ht2,
          Option.some.injEq, reduceCtorEq]
        have : w = u → m.ngh u l = some x → l = k := by
          rintro rfl e
          exact h.uniq _ hwl _ _ _ e hk
        split_ifs <;> grind
      · intro v
        simp [hyx]
  · obtain ⟨hzl, kz, hkz, -, -⟩ := h.twin _ hyl _ _ ht2
    have hzx : z ≠ x := fun e => ht2x (e ▸ ht2)
    have hzy : z ≠ y := fun e => ht2y (e ▸ ht2)
    simp only [Mesh.updateIf]
    rw [Mesh.update_ok (i := kz)]
    rotate_left
    · simp [hzx, hkz]
    · intro l hl
      simp [hzx] at hl
      exact h.uniq _ hzl _ _ _ hl hkz
    simp only
    rcases ht1 : m.ngh x (o + 1) with _ | w
    · refine ⟨_, rfl, ?_, ?_, ?_, ?_, ?_⟩
      · intro w k
        simp
        split_ifs <;> grind
      · intro k
        simp
        split_ifs <;> grind
      · intro k
        simp
        split_ifs <;> grind
      · intro u hu1 hu2 l
        simp only [Mesh.ngh_setNgh, Mesh.ngh_setVtx, Mesh.ngh_setVt, hu1, hu2, false_and, if_false, ht1, ht2,
          Option.some.injEq, reduceCtorEq]
        have : z = u → m.ngh u l = some y → l = kz := by
          rintro rfl e
          exact h.uniq _ hzl _ _ _ e hkz
        split_ifs <;> grind
      · intro v
        simp [hyx]
    · obtain ⟨hwl, k, hk, -, -⟩ := h.twin _ hx _ _ ht1
      have hwx : w ≠ x := fun e => ht1x (e ▸ ht1)
      have hwy : w ≠ y := fun e => ht1y (e ▸ ht1)
      have hwz : w ≠ z := fun e => hdiff z ht2 (e ▸ ht1)
      simp only [Mesh.updateIf]
      rw [Mesh.update_ok (i := k)]
      rotate_left
      · simp [hwx, hwy, hwz, hk]
      · intro l hl
        simp [hwx, hwy, hwz] at hl
        exact h.uniq _ hwl _ _ _ hl hk
      refine ⟨_, rfl, ?_, ?_, ?_, ?_, ?_⟩
      · intro w k
        simp
        split_ifs <;> grind
      · intro k
        simp
        split_ifs <;> grind
      · intro k
        simp
        split_ifs <;> grind
      · intro u hu1 hu2 l
        simp only [Mesh.ngh_setNgh, Mesh.ngh_setVtx, Mesh.ngh_setVt, hu1, hu2, false_and, if_false, ht1, ht2,
          Option.some.injEq, reduceCtorEq]
        have : w = u → m.ngh u l = some x → l = k := by
          rintro rfl e
          exact h.uniq _ hwl _ _ _ e hk
        have : z = u → m.ngh u l = some y → l = kz := by
          rintro rfl e
          exact h.uniq _ hzl _ _ _ e hkz
        split_ifs <;> grind
      · intro v
        simp [hyx]

theorem Flipped.adj {live : Finset ℕ} {m m' : Mesh} (h : WF live m) {x : ℕ} (hx : x ∈ live) {o : Fin 3} {y : ℕ}
    (hy : m.ngh x o = some y) {j : Fin 3} (hj : m.ngh y j = some x) (hv : m.vtx x (o + 1) ≠ m.vtx y (j + 1))
    (hf : Flipped m m' x o y j) :
    (∀ x ∈ live, ∀ i j, m'.vtx x i = m'.vtx x j → i = j) ∧
    ∀ x ∈ live, ∀ i y, m'.ngh x i = some y → y ∈ live ∧ ∃ j, m'.ngh y j = some x ∧
      m'.vtx y j = m'.vtx x (i + 2) ∧ m'.vtx y (j + 2) = m'.vtx x i := by
  have hyl : y ∈ live := (h.twin _ hx _ _ hy).1
  have hyx : y ≠ x := h.ne_self hx hy
  have hxy : x ≠ y := hyx.symm
  obtain ⟨_, j', hj', e1, e2⟩ := h.twin _ hx _ _ hy
  obtain rfl : j' = j := h.uniq _ hyl _ _ _ hj' hj
  have no := add_one_ne o
  have no2 := add_two_ne o
  have no3 := add_two_ne_add_one o
  have nj := add_one_ne j'
  have nj2 := add_two_ne j'
  have nj3 := add_two_ne_add_one j'
  have ht2x : m.ngh y (j' + 1) ≠ some x := fun hh => nj (h.uniq _ hyl _ _ _ hh hj)
  have ht2y : m.ngh y (j' + 1) ≠ some y := fun hh => h.ne_self hyl hh rfl
  have ht1y : m.ngh x (o + 1) ≠ some y := fun hh => no (h.uniq _ hx _ _ _ hh hy)
  have ht1x : m.ngh x (o + 1) ≠ some x := fun hh => h.ne_self hx hh rfl
  have vx : ∀ k, m'.vtx x k = if k = o then m.vtx y (j' + 1) else m.vtx x k := by
    intro k
    rw [hf.vtx]
    simp [hxy]
  have vy : ∀ k, m'.vtx y k = if k = j' then m.vtx x (o + 1) else m.vtx y k := by
    intro k
    rw [hf.vtx]
    simp [hyx]
  have vw : ∀ w, w ≠ x → w ≠ y → ∀ k, m'.vtx w k = m.vtx w k := by
    intro w h1 h2 k
    rw [hf.vtx]
    simp [h1, h2]
  refine ⟨?_, ?_⟩
  · intro w hw i i' hii
    by_cases hwx : w = x
    · subst hwx
      rw [vx, vx] at hii
      have a1 : ∀ k, k ≠ o → m.vtx y (j' + 1) ≠ m.vtx w k := by
        intro k hk e
        rcases fin3_cases o k with rfl | rfl | rfl
        · exact hk rfl
        · exact hv e.symm
        · rw [← e1] at e
          exact nj (h.inj _ hyl _ _ e)
      split_ifs at hii with h1 h2 h2
      · rw [h1, h2]
      · exact absurd hii (a1 _ h2)
      · exact absurd hii.symm (a1 _ h1)
      · exact h.inj _ hw _ _ hii
    · by_cases hwy : w = y
      · subst hwy
        rw [vy, vy] at hii
        have a1 : ∀ k, k ≠ j' → m.vtx x (o + 1) ≠ m.vtx w k := by
          intro k hk e
          rcases fin3_cases j' k with rfl | rfl | rfl
          · exact hk rfl
          · exact hv e
          · rw [e2] at e
            exact no (h.inj _ hx _ _ e)
        split_ifs at hii with h1 h2 h2
        · rw [h1, h2]
        · exact absurd hii (a1 _ h2)
        · exact absurd hii.symm (a1 _ h1)
        · exact h.inj _ hw _ _ hii
      · rw [vw _ hwx hwy, vw _ hwx hwy] at hii
        exact h.inj _ hw _ _ hii
  · intro w hw i u hu
    by_cases hwx : w = x
    · subst hwx
      rcases fin3_cases o i with rfl | rfl | rfl
      · rw [hf.nghx, if_pos rfl] at hu
        have hux : u ≠ w := fun e => ht2x (e ▸ hu)
        have huy : u ≠ y := fun e => ht2y (e ▸ hu)
        obtain ⟨hul, k, k1, k2, k3⟩ := h.twin _ hyl _ _ hu
        refine ⟨hul, k, ?_, ?_, ?_⟩
        · rw [hf.ngh _ hux huy, if_pos ⟨hu, k1⟩]
        · rw [vw _ hux huy, vx, if_neg no2, k2, add_one_add_two, e1]
        · rw [vw _ hux huy, vx, if_pos rfl, k3]
      · rw [hf.nghx, if_neg no, if_pos rfl] at hu
        obtain rfl : y = u := by simpa using hu
        refine ⟨hyl, j' + 1, ?_, ?_, ?_⟩
        · rw [hf.nghy, if_neg nj, if_pos rfl]
        · rw [vy, if_neg nj, add_one_add_two, vx, if_pos rfl]
        · rw [add_one_add_two, vy, if_pos rfl, vx, if_neg no]
      · rw [hf.nghx, if_neg no2, if_neg no3] at hu
        have hux : u ≠ w := h.ne_self hw hu
        have huy : u ≠ y := by
          rintro rfl
          exact no2 (h.uniq _ hw _ _ _ hu hy)
        obtain ⟨hul, k, k1, k2, k3⟩ := h.twin _ hw _ _ hu
        refine ⟨hul, k, ?_, ?_, ?_⟩
        · rw [hf.ngh _ hux huy, if_neg, if_neg, k1]
          · rintro ⟨a, _⟩
            exact no3 (h.uniq _ hw _ _ _ a hu).symm
          · rintro ⟨_, a⟩
            rw [k1] at a
            exact hxy (by simpa using a)
        · rw [vw _ hux huy, k2, add_two_add_two, vx, if_neg no]
        · rw [vw _ hux huy, k3, vx, if_neg no2]
    · by_cases hwy : w = y
      · subst hwy
        rcases fin3_cases j' i with rfl | rfl | rfl
        · rw [hf.nghy, if_pos rfl] at hu
          have hux : u ≠ x := fun e => ht1x (e ▸ hu)
          have huy : u ≠ w := fun e => ht1y (e ▸ hu)
          obtain ⟨hul, k, k1, k2, k3⟩ := h.twin _ hx _ _ hu
          refine ⟨hul, k, ?_, ?_, ?_⟩
          · rw [hf.ngh _ hux huy, if_neg, if_pos ⟨hu, k1⟩]
            rintro ⟨_, a⟩
            rw [k1] at a
            exact hxy (by simpa using a)
          · rw [vw _ hux huy, vy, if_neg nj2, k2, add_one_add_two, e2]
          · rw [vw _ hux huy, vy, if_pos rfl, k3]
        · rw [hf.nghy, if_neg nj, if_pos rfl] at hu
          obtain rfl : x = u := by simpa using hu
          refine ⟨hx, o + 1, ?_, ?_, ?_⟩
          · rw [hf.nghx, if_neg no, if_pos rfl]
          · rw [vx, if_neg no, add_one_add_two, vy, if_pos rfl]
          · rw [add_one_add_two, vx, if_pos rfl, vy, if_neg nj]
        · rw [hf.nghy, if_neg nj2, if_neg nj3] at hu
          have huy : u ≠ w := h.ne_self hw hu
          have hux : u ≠ x := by
            rintro rfl
            exact nj2 (h.uniq _ hw _ _ _ hu hj)
          obtain ⟨hul, k, k1, k2, k3⟩ := h.twin _ hw _ _ hu
          refine ⟨hul, k, ?_, ?_, ?_⟩
          · rw [hf.ngh _ hux huy, if_neg, if_neg, k1]
            · rintro ⟨_, a⟩
              rw [k1] at a
              exact hyx (by simpa using a)
            · rintro ⟨a, _⟩
              exact nj3 (h.uniq _ hw _ _ _ a hu).symm
          · rw [vw _ hux huy, k2, add_two_add_two, vy, if_neg nj]
          · rw [vw _ hux huy, k3, vy, if_neg nj2]
      · rw [hf.ngh _ hwx hwy] at hu
        split_ifs at hu with h1 h2
        · obtain rfl : x = u := by simpa using hu
          obtain ⟨_, k, k1, k2, k3⟩ := h.twin _ hw _ _ h1.2
          obtain rfl : k = j' + 1 := h.uniq _ hyl _ _ _ k1 h1.1
          refine ⟨hx, o, ?_, ?_, ?_⟩
          · rw [hf.nghx, if_pos rfl, h1.1]
          · rw [vx, if_pos rfl, vw _ hwx hwy, k2]
          · rw [vx, if_neg no2, vw _ hwx hwy, ← k3, add_one_add_two, e1]
        · obtain rfl : y = u := by simpa using hu
          obtain ⟨_, k, k1, k2, k3⟩ := h.twin _ hw _ _ h2.2
          obtain rfl : k = o + 1 := h.uniq _ hx _ _ _ k1 h2.1
          refine ⟨hyl, j', ?_, ?_, ?_⟩
          · rw [hf.nghy, if_pos rfl, h2.1]
          · rw [vy, if_pos rfl, vw _ hwx hwy, k2]
          · rw [vy, if_neg nj2, vw _ hwx hwy, ← k3, add_one_add_two, e2]
        · obtain ⟨hul, k, k1, k2, k3⟩ := h.twin _ hw _ _ hu
          refine ⟨hul, k, ?_⟩
          by_cases hux : u = x
          · subst hux
            have hk : k = o + 2 := by
              rcases fin3_cases o k with rfl | rfl | rfl
              · rw [hy] at k1
                exact absurd (by simpa using k1.symm) hwy
              · exact absurd ⟨k1, hu⟩ h2
              · rfl
            subst hk
            rw [hf.nghx, if_neg no2, if_neg no3, vx, if_neg no2, add_two_add_two, vx, if_neg no, vw _ hwx hwy,
              vw _ hwx hwy]
            rw [add_two_add_two] at k3
            exact ⟨k1, k2, k3⟩
          · by_cases huy : u = y
            · subst huy
              have hk : k = j' + 2 := by
                rcases fin3_cases j' k with rfl | rfl | rfl
                · rw [hj] at k1
                  exact absurd (by simpa using k1.symm) hwx
                · exact absurd ⟨k1, hu⟩ h1
                · rfl
              subst hk
              rw [hf.nghy, if_neg nj2, if_neg nj3, vy, if_neg nj2, add_two_add_two, vy, if_neg nj, vw _ hwx hwy,
                vw _ hwx hwy]
              rw [add_two_add_two] at k3
              exact ⟨k1, k2, k3⟩
            · rw [vw _ hux huy, vw _ hux huy, vw _ hwx hwy, vw _ hwx hwy, hf.ngh _ hux huy, if_neg, if_neg]
              · exact ⟨k1, k2, k3⟩
              · rintro ⟨_, a⟩
                rw [k1] at a
                exact hwx (by simpa using a)
              · rintro ⟨_, a⟩
                rw [k1] at a
                exact hwy (by simpa using a)

theorem Flipped.wf {live : Finset ℕ} {m m' : Mesh} (h : WF live m) {x : ℕ} (hx : x ∈ live) {o : Fin 3} {y : ℕ}
    (hy : m.ngh x o = some y) {j : Fin 3} (hj : m.ngh y j = some x) (hv : m.vtx x (o + 1) ≠ m.vtx y (j + 1))
    (hd1 : ∀ z, m.ngh y (j + 1) = some z → m.ngh x (o + 2) ≠ some z)
    (hd2 : ∀ z, m.ngh x (o + 1) = some z → m.ngh y (j + 2) ≠ some z)
    (hf : Flipped m m' x o y j) : WF live m' := by
  have hyl : y ∈ live := (h.twin _ hx _ _ hy).1
  have hyx : y ≠ x := h.ne_self hx hy
  have hxy : x ≠ y := hyx.symm
  obtain ⟨_, j', hj', e1, e2⟩ := h.twin _ hx _ _ hy
  obtain rfl : j' = j := h.uniq _ hyl _ _ _ hj' hj
  have no := add_one_ne o
  have no2 := add_two_ne o
  have no3 := add_two_ne_add_one o
  have nj := add_one_ne j'
  have nj2 := add_two_ne j'
  have nj3 := add_two_ne_add_one j'
  have ht2x : m.ngh y (j' + 1) ≠ some x := fun hh => nj (h.uniq _ hyl _ _ _ hh hj)
  have ht2y : m.ngh y (j' + 1) ≠ some y := fun hh => h.ne_self hyl hh rfl
  have ht1y : m.ngh x (o + 1) ≠ some y := fun hh => no (h.uniq _ hx _ _ _ hh hy)
  have ht1x : m.ngh x (o + 1) ≠ some x := fun hh => h.ne_self hx hh rfl
  obtain ⟨hinj, htw⟩ := hf.adj h hx hy hj hv
  refine ⟨hinj, htw, ?_⟩
  · intro w hw i i' u h1 h2
    by_cases hwx : w = x
    · subst hwx
      rw [hf.nghx] at h1 h2
      have b1 := fun a => no2 (h.uniq _ hw (o + 2) o y a hy)
      rcases fin3_cases o i with c | c | c <;> rcases fin3_cases o i' with c' | c' | c' <;>
        first
        | exact c.trans c'.symm
        | (rw [c] at h1; rw [c'] at h2; rw [c, c']; simp only [no, no2, no3, no.symm, no2.symm, no3.symm, if_true, if_false] at h1 h2; grind)
    · by_cases hwy : w = y
      · subst hwy
        rw [hf.nghy] at h1 h2
        have b1 := fun a => nj2 (h.uniq _ hw (j' + 2) j' x a hj)
        rcases fin3_cases j' i with c | c | c <;> rcases fin3_cases j' i' with c' | c' | c' <;>
          first
          | exact c.trans c'.symm
          | (rw [c] at h1; rw [c'] at h2; rw [c, c']; simp only [nj, nj2, nj3, nj.symm, nj2.symm, nj3.symm, if_true, if_false] at h1 h2; grind)
      · rw [hf.ngh _ hwx hwy] at h1 h2
        have hdiff : m.ngh y (j' + 1) = some w → m.ngh x (o + 1) ≠ some w := by
          intro hz hz'
          obtain ⟨-, k, -, k1, k2⟩ := h.twin _ hyl _ _ hz
          obtain ⟨-, l, -, l1, l2⟩ := h.twin _ hx _ _ hz'
          rw [add_one_add_two] at k1 l1
          refine four_vertices k1 k2 l1 l2 ?_ ?_ ?_ ?_ ?_ ?_
          · exact fun e => nj (h.inj _ hyl _ _ e).symm
          · rw [e1]
            exact fun e => no2 (h.inj _ hx _ _ e)
          · rw [e1]
            exact fun e => no3 (h.inj _ hx _ _ e)
          · intro e
            rw [← e2] at e
            exact nj3 (h.inj _ hyl _ _ e).symm
          · exact fun e => hv e.symm
          · exact fun e => no (h.inj _ hx _ _ e).symm
        -- a triangle pointing to x or y is a neighbour of it
        have px : ∀ k, m.ngh w k = some x → m.ngh x (o + 1) = some w ∨ m.ngh x (o + 2) = some w := by
          intro k hk
          obtain ⟨_, l, l1, _⟩ := h.twin _ hw _ _ hk
          rcases fin3_cases o l with rfl | rfl | rfl
          · rw [hy] at l1
            exact absurd (by simpa using l1.symm) hwy
          · exact Or.inl l1
          · exact Or.inr l1
        have py : ∀ k, m.ngh w k = some y → m.ngh y (j' + 1) = some w ∨ m.ngh y (j' + 2) = some w := by
          intro k hk
          obtain ⟨_, l, l1, _⟩ := h.twin _ hw _ _ hk
          rcases fin3_cases j' l with rfl | rfl | rfl
          · rw [hj] at l1
            exact absurd (by simpa using l1.symm) hwx
          · exact Or.inl l1
          · exact Or.inr l1
        have q1 := hd1 w
        have q2 := hd2 w
        have u1 := h.uniq w hw i i'
        have p1 := px i
        have p2 := px i'
        have p3 := py i
        have p4 := py i'
        clear px py hd1 hd2
        split_ifs at h1 h2 <;> grind

/-- What `split` of `t` at `v` with the memory `a`, `b` for the new triangles does. -/
structure SplitAt (m m' : Mesh) (t v a b : ℕ) : Prop where
  vtxt : ∀ k, m'.vtx t k = if k = 1 then v else m.vtx t k
  vtxa : ∀ k, m'.vtx a k = if k = 0 then m.vtx t 1 else if k = 1 then v else m.vtx t 0
  vtxb : ∀ k, m'.vtx b k = if k = 0 then m.vtx t 2 else if k = 1 then v else m.vtx t 1
  vtx : ∀ w, w ≠ t → w ≠ a → w ≠ b → ∀ k, m'.vtx w k = m.vtx w k
  nght : ∀ k, m'.ngh t k = if k = 0 then m.ngh t 0 else if k = 1 then some a else some b
  ngha : ∀ k, m'.ngh a k = if k = 0 then m.ngh t 1 else if k = 1 then some b else some t
  nghb : ∀ k, m'.ngh b k = if k = 0 then m.ngh t 2 else if k = 1 then some t else some a
  ngh : ∀ w, w ≠ t → w ≠ a → w ≠ b → ∀ k, m'.ngh w k =
    if m.ngh t 1 = some w ∧ m.ngh w k = some t then some a
    else if m.ngh t 2 = some w ∧ m.ngh w k = some t then some b else m.ngh w k
  vt : ∀ u, m'.vt u = if u = m.vtx t 1 then a else if u = v then t else m.vt u

theorem fin3_two {k : Fin 3} (h0 : k ≠ 0) (h1 : k ≠ 1) : k = 2 := by
  revert k
  decide

/-- The mesh inside `split` before the neighbours are updated. -/
theorem split_mid (m : Mesh) {t v a b : ℕ} (hat : a ≠ t) (hbt : b ≠ t) (hab : a ≠ b) :
    let m1 := (m.setVt v t).setNgh t 1 (some a)
    let m2 := (m1.setNgh t 2 (some b)).setVtx t 1 v
    let m3 := (m2.setT a (m.ngh t 1) (some b) (some t)).setV a (m.vtx t 1) v (m.vtx t 0)
    let m4 := (m3.setT b (m.ngh t 2) (some t) (some a)).setV b (m.vtx t 2) v (m.vtx t 1)
    (∀ k, m4.vtx t k = if k = 1 then v else m.vtx t k) ∧
    (∀ k, m4.vtx a k = if k = 0 then m.vtx t 1 else if k = 1 then v else m.vtx t 0) ∧
    (∀ k, m4.vtx b k = if k = 0 then m.vtx t 2 else if k = 1 then v else m.vtx t 1) ∧
    (∀ w, w ≠ t → w ≠ a → w ≠ b → ∀ k, m4.vtx w k = m.vtx w k) ∧
    (∀ k, m4.ngh t k = if k = 0 then m.ngh t 0 else if k = 1 then some a else some b) ∧
    (∀ k, m4.ngh a k = if k = 0 then m.ngh t 1 else if k = 1 then some b else some t) ∧
    (∀ k, m4.ngh b k = if k = 0 then m.ngh t 2 else if k = 1 then some t else some a) ∧
    (∀ w, w ≠ t → w ≠ a → w ≠ b → ∀ k, m4.ngh w k = m.ngh w k) ∧
    (∀ u, m4.vt u = if u = v then t else m.vt u) := by
  have hta := hat.symm
  have htb := hbt.symm
  have hba := hab.symm
  simp only [Mesh.setT, Mesh.setV]
  refine ⟨?_, ?_, ?_, ?_, ?_, ?_, ?_, ?_, ?_⟩
  · intro k
    simp [hta, htb]
  · intro k
    by_cases h0 : k = 0
    · simp [h0, hab]
    by_cases h1 : k = 1
    · simp [h1, hab]
    obtain rfl := fin3_two h0 h1
    simp [hab]
  · intro k
    by_cases h0 : k = 0
    · simp [h0]
    by_cases h1 : k = 1
    · simp [h1]
    obtain rfl := fin3_two h0 h1
    simp
  · intro w h1 h2 h3 k
    simp [h1, h2, h3]
  · intro k
    by_cases h0 : k = 0
    · simp [h0, hta, htb]
    by_cases h1 : k = 1
    · simp [h1, hta, htb]
    obtain rfl := fin3_two h0 h1
    simp [hta, htb]
  · intro k
    by_cases h0 : k = 0
    · simp [h0, hab]
    by_cases h1 : k = 1
    · simp [h1, hab]
    obtain rfl := fin3_two h0 h1
    simp [hab]
  · intro k
    by_cases h0 : k = 0
    · simp [h0]
    by_cases h1 : k = 1
    · simp [h1]
    obtain rfl := fin3_two h0 h1
    simp
  · intro w h1 h2 h3 k
    simp [h1, h2, h3]
  · intro u
    simp

theorem split_ok {live : Finset ℕ} {m : Mesh} (h : WF live m) {t v a b : ℕ} (ht : t ∈ live) (ha : a ∉ live)
    (hb : b ∉ live) (hab : a ≠ b) : ∃ m', split m t v a b = .ok m' ∧ SplitAt m m' t v a b := by
  have hat : a ≠ t := fun e => ha (e ▸ ht)
  have hbt : b ≠ t := fun e => hb (e ▸ ht)
  obtain ⟨v1, v2, v3, v4, n1, n2, n3, n4, u1⟩ := split_mid m (v := v) hat hbt hab
  unfold split
  simp only [Mesh.ngh_setVt, Mesh.vtx_setVt] at *
  generalize (((((((m.setVt v t).setNgh t 1 (some a)).setNgh t 2 (some b)).setVtx t 1 v).setT a (m.ngh t 1) (some b)
    (some t)).setV a (m.vtx t 1) v (m.vtx t 0)).setT b (m.ngh t 2) (some t) (some a)).setV b (m.vtx t 2) v
    (m.vtx t 1) = m4 at *
  -- the two outer neighbours
  have step : ∀ (m5 : Mesh) (i : Fin 3) (c : ℕ), (∀ z, m.ngh t i = some z → ∀ k, m5.ngh z k = m.ngh z k) →
      ∃ m6, m5.updateIf (m.ngh t i) t c = .ok m6 ∧ (∀ w k, m6.vtx w k = m5.vtx w k) ∧ (∀ w, m6.vt w = m5.vt w) ∧
        (∀ w k, m6.ngh w k = if m.ngh t i = some w ∧ m.ngh w k = some t then some c else m5.ngh w k) := by
    intro m5 i c hs
    rcases hz : m.ngh t i with _ | z
    · exact ⟨m5, rfl, fun _ _ => rfl, fun _ => rfl, by simp⟩
    · obtain ⟨hzl, k, k1, -, -⟩ := h.twin _ ht _ _ hz
      have hk : m5.ngh z k = some t := by rw [hs z hz, k1]
      have hk2 : ∀ l, m5.ngh z l = some t → l = k := by
        intro l hl
        rw [hs z hz] at hl
        exact h.uniq _ hzl _ _ _ hl k1
      refine ⟨_, Mesh.update_ok hk hk2, by simp, by simp, ?_⟩
      intro w l
      rw [Mesh.ngh_setNgh]
      simp only [Option.some.injEq]
      by_cases hw : w = z
      · subst hw
        by_cases hl : l = k
        · subst hl
          simp [k1]
        · rw [if_neg (by tauto), if_neg]
          rintro ⟨-, e⟩
          exact hl (h.uniq _ hzl _ _ _ e k1)
      · rw [if_neg (by tauto), if_neg (by tauto)]
  have out : ∀ i z, m.ngh t i = some z → z ≠ t ∧ z ≠ a ∧ z ≠ b := by
    intro i z hz
    have := (h.twin _ ht _ _ hz).1
    exact ⟨h.ne_self ht hz, fun e => ha (e ▸ this), fun e => hb (e ▸ this)⟩
  obtain ⟨m5, e5, x5, y5, z5⟩ := step m4 1 a fun z hz k => by
    obtain ⟨o1, o2, o3⟩ := out _ _ hz
    exact n4 z o1 o2 o3 k
  obtain ⟨m6, e6, x6, y6, z6⟩ := step m5 2 b fun z hz k => by
    obtain ⟨o1, o2, o3⟩ := out _ _ hz
    rw [z5, if_neg, n4 z o1 o2 o3 k]
    rintro ⟨e, -⟩
    exact absurd (h.uniq _ ht _ _ _ e hz) (by decide)
  rw [e5]
  simp only [Except.bind]
  rw [e6]
  have nt : ∀ i, m.ngh t i ≠ some t := fun i e => (out _ _ e).1 rfl
  have na : ∀ i, m.ngh t i ≠ some a := fun i e => (out _ _ e).2.1 rfl
  have nb : ∀ i, m.ngh t i ≠ some b := fun i e => (out _ _ e).2.2 rfl
  refine ⟨_, rfl, ?_, ?_, ?_, ?_, ?_, ?_, ?_, ?_, ?_⟩
  · intro k
    rw [Mesh.vtx_setVt, x6, x5, v1]
  · intro k
    rw [Mesh.vtx_setVt, x6, x5, v2]
  · intro k
    rw [Mesh.vtx_setVt, x6, x5, v3]
  · intro w h1 h2 h3 k
    rw [Mesh.vtx_setVt, x6, x5, v4 w h1 h2 h3]
  · intro k
    rw [Mesh.ngh_setVt, z6, if_neg (fun e => nt _ e.1), z5, if_neg (fun e => nt _ e.1), n1]
  · intro k
    rw [Mesh.ngh_setVt, z6, if_neg (fun e => na _ e.1), z5, if_neg (fun e => na _ e.1), n2]
  · intro k
    rw [Mesh.ngh_setVt, z6, if_neg (fun e => nb _ e.1), z5, if_neg (fun e => nb _ e.1), n3]
  · intro w h1 h2 h3 k
    rw [Mesh.ngh_setVt, z6, z5, n4 w h1 h2 h3]
    have : m.ngh t 1 = some w → m.ngh t 2 ≠ some w := by
      intro e e'
      exact absurd (h.uniq _ ht _ _ _ e e') (by decide)
    split_ifs <;> grind
  · intro u
    rw [Mesh.vt_setVt, y6, y5, u1]

theorem SplitAt.wf {live : Finset ℕ} {m m' : Mesh} (h : WF live m) {t v a b : ℕ} (ht : t ∈ live) (ha : a ∉ live)
    (hb : b ∉ live) (hab : a ≠ b) (hv : ∀ x ∈ live, ∀ k, m.vtx x k ≠ v) (hs : SplitAt m m' t v a b) :
    WF (insert a (insert b live)) m' := by
  have hat : a ≠ t := fun e => ha (e ▸ ht)
  have hbt : b ≠ t := fun e => hb (e ▸ ht)
  have old : ∀ x ∈ live, x ≠ a ∧ x ≠ b := fun x hx => ⟨fun e => ha (e ▸ hx), fun e => hb (e ▸ hx)⟩
  have out : ∀ i z, m.ngh t i = some z → z ≠ t ∧ z ≠ a ∧ z ≠ b := by
    intro i z hz
    have := (h.twin _ ht _ _ hz).1
    exact ⟨h.ne_self ht hz, fun e => ha (e ▸ this), fun e => hb (e ▸ this)⟩
  have v01 : m.vtx t 0 ≠ m.vtx t 1 := fun e => absurd (h.inj _ ht _ _ e) (by decide)
  have v02 : m.vtx t 0 ≠ m.vtx t 2 := fun e => absurd (h.inj _ ht _ _ e) (by decide)
  have v12 : m.vtx t 1 ≠ m.vtx t 2 := fun e => absurd (h.inj _ ht _ _ e) (by decide)
  have w0 := hv t ht 0
  have w1 := hv t ht 1
  have w2 := hv t ht 2
  have f3 : ∀ P : Fin 3 → Prop, (∀ i, P i) ↔ P 0 ∧ P 1 ∧ P 2 := by
    intro P
    constructor
    · exact fun hp => ⟨hp 0, hp 1, hp 2⟩
    · rintro ⟨p0, p1, p2⟩ i
      fin_cases i <;> assumption
  have mem : ∀ x, x ∈ insert a (insert b live) ↔ x = t ∨ x = a ∨ x = b ∨ (x ∈ live ∧ x ≠ t) := by
    intro x
    simp only [Finset.mem_insert]
    by_cases hxt : x = t
    · simp [hxt, ht]
    · tauto
  have e02 : (0 : Fin 3) + 2 = 2 := by decide
  have e12 : (1 : Fin 3) + 2 = 0 := by decide
  have e22 : (2 : Fin 3) + 2 = 1 := by decide
  refine ⟨?_, ?_, ?_⟩
  · intro x hx i j hij
    rcases (mem x).mp hx with rfl | rfl | rfl | ⟨hxl, hxt⟩
    · rw [hs.vtxt, hs.vtxt] at hij
      revert i j
      simp only [f3]
      refine ⟨⟨?_, ?_, ?_⟩, ⟨?_, ?_, ?_⟩, ?_, ?_, ?_⟩ <;> simp <;> grind
    · rw [hs.vtxa, hs.vtxa] at hij
      revert i j
      simp only [f3]
      refine ⟨⟨?_, ?_, ?_⟩, ⟨?_, ?_, ?_⟩, ?_, ?_, ?_⟩ <;> simp <;> grind
    · rw [hs.vtxb, hs.vtxb] at hij
      revert i j
      simp only [f3]
      refine ⟨⟨?_, ?_, ?_⟩, ⟨?_, ?_, ?_⟩, ?_, ?_, ?_⟩ <;> simp <;> grind
    · obtain ⟨o1, o2⟩ := old x hxl
      rw [hs.vtx x hxt o1 o2, hs.vtx x hxt o1 o2] at hij
      exact h.inj _ hxl _ _ hij
  · intro x hx i y hy
    -- an old neighbour of `t` across edge `i`, whose pointer is redirected to `c`
    have outer : ∀ (i : Fin 3) (c : ℕ), m.ngh t i = some y →
        (i = 0 ∧ c = t ∨ i = 1 ∧ c = a ∨ i = 2 ∧ c = b) →
        y ∈ insert a (insert b live) ∧ ∃ j, m'.ngh y j = some c ∧ m'.vtx y j = m.vtx t (i + 2) ∧
          m'.vtx y (j + 2) = m.vtx t i := by
      intro i c hy' hc
      obtain ⟨hyl, k, k1, k2, k3⟩ := h.twin _ ht _ _ hy'
      obtain ⟨o1, o2, o3⟩ := out _ _ hy'
      refine ⟨(mem y).mpr (by tauto), k, ?_, ?_, ?_⟩
      · rw [hs.ngh y o1 o2 o3]
        rcases hc with ⟨rfl, rfl⟩ | ⟨rfl, rfl⟩ | ⟨rfl, rfl⟩
        · rw [if_neg, if_neg, k1]
          · rintro ⟨e, -⟩
            exact absurd (h.uniq _ ht _ _ _ hy' e) (by decide)
          · rintro ⟨e, -⟩
            exact absurd (h.uniq _ ht _ _ _ hy' e) (by decide)
        · rw [if_pos ⟨hy', k1⟩]
        · rw [if_neg, if_pos ⟨hy', k1⟩]
          rintro ⟨e, -⟩
          exact absurd (h.uniq _ ht _ _ _ hy' e) (by decide)
      · rw [hs.vtx y o1 o2 o3, k2]
      · rw [hs.vtx y o1 o2 o3, k3]
    have inner : ∀ (c : ℕ) (j : Fin 3), (c = t ∨ c = a ∨ c = b) → some c = some y → m'.ngh c j = some x →
        m'.vtx c j = m'.vtx x (i + 2) → m'.vtx c (j + 2) = m'.vtx x i →
        y ∈ insert a (insert b live) ∧ ∃ j, m'.ngh y j = some x ∧ m'.vtx y j = m'.vtx x (i + 2) ∧
          m'.vtx y (j + 2) = m'.vtx x i := by
      intro c j hc e p1 p2 p3
      obtain rfl : c = y := by simpa using e
      exact ⟨(mem c).mpr (by tauto), j, p1, p2, p3⟩
    rcases (mem x).mp hx with rfl | rfl | rfl | ⟨hxl, hxt⟩
    · rw [hs.nght] at hy
      revert i
      refine (f3 _).mpr ⟨?_, ?_, ?_⟩
      · intro hy _
        have := outer 0 x (by simpa using hy) (by tauto)
        simpa [hs.vtxt, e02] using this
      · intro hy inner
        refine inner a 2 (by tauto) (by simpa using hy) ?_ ?_ ?_ <;> simp [hs.ngha, hs.vtxa, hs.vtxt, e12, e22]
      · intro hy inner
        refine inner b 1 (by tauto) (by simpa using hy) ?_ ?_ ?_ <;> simp [hs.nghb, hs.vtxb, hs.vtxt, e12, e22]
    · rw [hs.ngha] at hy
      revert i
      refine (f3 _).mpr ⟨?_, ?_, ?_⟩
      · intro hy _
        have := outer 1 x (by simpa using hy) (by tauto)
        simpa [hs.vtxa, e02, e12] using this
      · intro hy inner
        refine inner b 2 (by tauto) (by simpa using hy) ?_ ?_ ?_ <;> simp [hs.nghb, hs.vtxa, hs.vtxb, e12, e22]
      · intro hy inner
        refine inner t 1 (by tauto) (by simpa using hy) ?_ ?_ ?_ <;> simp [hs.nght, hs.vtxa, hs.vtxt, e12, e22]
    · rw [hs.nghb] at hy
      revert i
      refine (f3 _).mpr ⟨?_, ?_, ?_⟩
      · intro hy _
        have := outer 2 x (by simpa using hy) (by tauto)
        simpa [hs.vtxb, e02, e22] using this
      · intro hy inner
        refine inner t 2 (by tauto) (by simpa using hy) ?_ ?_ ?_ <;> simp [hs.nght, hs.vtxb, hs.vtxt, e12, e22]
      · intro hy inner
        refine inner a 1 (by tauto) (by simpa using hy) ?_ ?_ ?_ <;> simp [hs.ngha, hs.vtxa, hs.vtxb, e12, e22]
    · obtain ⟨o1, o2⟩ := old x hxl
      rw [hs.ngh x hxt o1 o2] at hy
      rw [hs.vtx x hxt o1 o2, hs.vtx x hxt o1 o2]
      split_ifs at hy with h1 h2
      · obtain rfl : a = y := by simpa using hy
        obtain ⟨_, k, k1, k2, k3⟩ := h.twin _ hxl _ _ h1.2
        obtain rfl : k = 1 := h.uniq _ ht _ _ _ k1 h1.1
        refine ⟨by simp, 0, ?_, ?_, ?_⟩
        · simp [hs.ngha, h1.1]
        · simp [hs.vtxa, k2]
        · rw [e12] at k3
          simp [hs.vtxa, e02, k3]
      · obtain rfl : b = y := by simpa using hy
        obtain ⟨_, k, k1, k2, k3⟩ := h.twin _ hxl _ _ h2.2
        obtain rfl : k = 2 := h.uniq _ ht _ _ _ k1 h2.1
        refine ⟨by simp, 0, ?_, ?_, ?_⟩
        · simp [hs.nghb, h2.1]
        · simp [hs.vtxb, k2]
        · rw [e22] at k3
          simp [hs.vtxb, e02, k3]
      · obtain ⟨hyl, k, k1, k2, k3⟩ := h.twin _ hxl _ _ hy
        refine ⟨by simp [hyl], k, ?_⟩
        obtain ⟨p1, p2⟩ := old y hyl
        by_cases hyt : y = t
        · subst hyt
          have hk : k = 0 := by
            rcases fin3_cases 0 k with e | e | e
            · exact e
            · rw [e] at k1
              exact absurd ⟨k1, hy⟩ h1
            · rw [e] at k1
              exact absurd ⟨k1, hy⟩ h2
          subst hk
          rw [e02] at k3 ⊢
          simp [hs.nght, hs.vtxt, k1, k2, k3]
        · rw [hs.ngh y hyt p1 p2, hs.vtx y hyt p1 p2, hs.vtx y hyt p1 p2, if_neg, if_neg]
          · exact ⟨k1, k2, k3⟩
          · rintro ⟨-, e⟩
            rw [k1] at e
            exact hxt (by simpa using e)
          · rintro ⟨-, e⟩
            rw [k1] at e
            exact hxt (by simpa using e)
  · intro x hx i j y h1 h2
    rcases (mem x).mp hx with rfl | rfl | rfl | ⟨hxl, hxt⟩
    · rw [hs.nght] at h1 h2
      have := out 0 y
      revert i j
      simp only [f3]
      refine ⟨⟨?_, ?_, ?_⟩, ⟨?_, ?_, ?_⟩, ?_, ?_, ?_⟩ <;> simp <;> grind
    · rw [hs.ngha] at h1 h2
      have := out 1 y
      revert i j
      simp only [f3]
      refine ⟨⟨?_, ?_, ?_⟩, ⟨?_, ?_, ?_⟩, ?_, ?_, ?_⟩ <;> simp <;> grind
    · rw [hs.nghb] at h1 h2
      have := out 2 y
      revert i j
      simp only [f3]
      refine ⟨⟨?_, ?_, ?_⟩, ⟨?_, ?_, ?_⟩, ?_, ?_, ?_⟩ <;> simp <;> grind
    · obtain ⟨o1, o2⟩ := old x hxl
      rw [hs.ngh x hxt o1 o2] at h1 h2
      have old' : ∀ k z, m.ngh x k = some z → z ≠ a ∧ z ≠ b := fun k z e => old z (h.twin _ hxl _ _ e).1
      have p1 := old' i
      have p2 := old' j
      have q := h.uniq x hxl i j
      split_ifs at h1 h2 <;> grind

theorem Flipped.vp {live vs : Finset ℕ} {m m' : Mesh} (h : WF live m) {x : ℕ} (hx : x ∈ live) {o : Fin 3} {y : ℕ}
    (hy : m.ngh x o = some y) {j : Fin 3} (hj : m.ngh y j = some x) (hp : VertexPointers live vs m)
    (hf : Flipped m m' x o y j) : VertexPointers live vs m' := by
  have hyl : y ∈ live := (h.twin _ hx _ _ hy).1
  have hyx : y ≠ x := h.ne_self hx hy
  obtain ⟨_, j', hj', e1, e2⟩ := h.twin _ hx _ _ hy
  obtain rfl : j' = j := h.uniq _ hyl _ _ _ hj' hj
  intro v hv
  rw [hf.vt]
  split_ifs with h1 h2
  · refine ⟨hx, o + 2, ?_⟩
    rw [hf.vtx, if_neg (fun e => add_two_ne o e.2), if_neg (fun e => hyx e.1.symm), h1, e1]
  · refine ⟨hyl, j' + 2, ?_⟩
    rw [hf.vtx, if_neg (fun e => hyx e.1), if_neg (fun e => add_two_ne j' e.2), h2, e2]
  · obtain ⟨hl, i, hi⟩ := hp v hv
    refine ⟨hl, i, ?_⟩
    rw [hf.vtx, if_neg, if_neg, hi]
    · rintro ⟨a, rfl⟩
      rw [a] at hi
      exact h1 hi.symm
    · rintro ⟨a, rfl⟩
      rw [a] at hi
      exact h2 hi.symm

theorem SplitAt.vp {live vs : Finset ℕ} {m m' : Mesh} {t v a b : ℕ} (ht : t ∈ live) (ha : a ∉ live)
    (hb : b ∉ live) (hp : VertexPointers live vs m) (hs : SplitAt m m' t v a b) :
    VertexPointers (insert a (insert b live)) (insert v vs) m' := by
  intro u hu
  rw [hs.vt]
  split_ifs with h1 h2
  · exact ⟨by simp, 0, by simp [hs.vtxa, h1]⟩
  · exact ⟨by simp [ht], 1, by simp [hs.vtxt, h2]⟩
  · obtain ⟨hl, i, hi⟩ := hp u (by simpa [h2] using hu)
    refine ⟨by simp [hl], i, ?_⟩
    by_cases hw : m.vt u = t
    · rw [hw] at hi ⊢
      rw [hs.vtxt, if_neg, hi]
      rintro rfl
      exact h1 hi.symm
    · rw [hs.vtx _ hw (fun e => ha (e ▸ hl)) (fun e => hb (e ▸ hl)), hi]

/-- What `extend` of the edge `o` of `x` to the apex `v` with the memory `a` does. -/
structure ExtendAt (m m' : Mesh) (x : ℕ) (o : Fin 3) (v a : ℕ) : Prop where
  vtxa : ∀ k, m'.vtx a k = if k = 0 then m.vtx x o else if k = 1 then m.vtx x (o + 2) else v
  vtx : ∀ w, w ≠ a → ∀ k, m'.vtx w k = m.vtx w k
  ngha : ∀ k, m'.ngh a k = if k = 1 then some x else none
  ngh : ∀ w, w ≠ a → ∀ k, m'.ngh w k = if w = x ∧ k = o then some a else m.ngh w k
  vt : ∀ u, m'.vt u = if u = v then a else m.vt u

theorem extend_ok {m : Mesh} {x v a : ℕ} {o : Fin 3} (b : Bool) (hax : a ≠ x) (hn : m.ngh x o = none) :
    ∃ m', extend m ⟨x, o, b⟩ v a = .ok (m', ⟨a, 0, false⟩) ∧ ExtendAt m m' x o v a := by
  unfold extend
  simp only [hn]
  rw [if_neg (by simp)]
  refine ⟨_, rfl, ?_, ?_, ?_, ?_, ?_⟩
  · intro k
    by_cases h0 : k = 0
    · simp [h0, Mesh.setV, Mesh.setT]
    by_cases h1 : k = 1
    · simp [h1, Mesh.setV, Mesh.setT]
    obtain rfl := fin3_two h0 h1
    simp [Mesh.setV, Mesh.setT]
  · intro w hw k
    simp [Mesh.setV, Mesh.setT, hw]
  · intro k
    by_cases h0 : k = 0
    · simp [h0, Mesh.setV, Mesh.setT]
    by_cases h1 : k = 1
    · simp [h1, Mesh.setV, Mesh.setT]
    obtain rfl := fin3_two h0 h1
    simp [Mesh.setV, Mesh.setT]
  · intro w hw k
    simp [Mesh.setV, Mesh.setT, hw]
  · intro u
    simp [Mesh.setV, Mesh.setT]

theorem ExtendAt.wf {live : Finset ℕ} {m m' : Mesh} (h : WF live m) {x v a : ℕ} {o : Fin 3} (hx : x ∈ live)
    (ha : a ∉ live) (hn : m.ngh x o = none) (hv1 : m.vtx x o ≠ v) (hv2 : m.vtx x (o + 2) ≠ v)
    (he : ExtendAt m m' x o v a) : WF (insert a live) m' := by
  have hxa : x ≠ a := fun e => ha (e ▸ hx)
  have v12 : m.vtx x o ≠ m.vtx x (o + 2) := fun e => add_two_ne o (h.inj _ hx _ _ e).symm
  have f3 : ∀ P : Fin 3 → Prop, (∀ i, P i) ↔ P 0 ∧ P 1 ∧ P 2 := by
    intro P
    constructor
    · exact fun hp => ⟨hp 0, hp 1, hp 2⟩
    · rintro ⟨p0, p1, p2⟩ i
      fin_cases i <;> assumption
  have e12 : (1 : Fin 3) + 2 = 0 := by decide
  refine ⟨?_, ?_, ?_⟩
  · intro w hw i j hij
    by_cases hwa : w = a
    · subst hwa
      rw [he.vtxa, he.vtxa] at hij
      revert i j
      simp only [f3]
      refine ⟨⟨?_, ?_, ?_⟩, ⟨?_, ?_, ?_⟩, ?_, ?_, ?_⟩ <;> simp <;> grind
    · rw [he.vtx w hwa, he.vtx w hwa] at hij
      exact h.inj _ (by simpa [hwa] using hw) _ _ hij
  · intro w hw i u hu
    by_cases hwa : w = a
    · subst hwa
      rw [he.ngha] at hu
      split_ifs at hu with h1
      subst h1
      obtain rfl : x = u := by simpa using hu
      refine ⟨by simp [hx], o, ?_, ?_, ?_⟩
      · rw [he.ngh x hxa, if_pos ⟨rfl, rfl⟩]
      · rw [he.vtx x hxa, e12, he.vtxa, if_pos rfl]
      · rw [he.vtx x hxa, he.vtxa]
        simp
    · have hwl : w ∈ live := by simpa [hwa] using hw
      rw [he.ngh w hwa] at hu
      rw [he.vtx w hwa, he.vtx w hwa]
      split_ifs at hu with h1
      · obtain ⟨rfl, rfl⟩ := h1
        obtain rfl : a = u := by simpa using hu
        refine ⟨by simp, 1, ?_, ?_, ?_⟩
        · rw [he.ngha, if_pos rfl]
        · simp [he.vtxa]
        · rw [e12, he.vtxa, if_pos rfl]
      · obtain ⟨hul, k, k1, k2, k3⟩ := h.twin _ hwl _ _ hu
        have hua : u ≠ a := fun e => ha (e ▸ hul)
        refine ⟨by simp [hul], k, ?_, ?_, ?_⟩
        · rw [he.ngh u hua, if_neg, k1]
          rintro ⟨rfl, rfl⟩
          rw [hn] at k1
          exact absurd k1 (by simp)
        · rw [he.vtx u hua, k2]
        · rw [he.vtx u hua, k3]
  · intro w hw i j u h1 h2
    by_cases hwa : w = a
    · subst hwa
      rw [he.ngha] at h1 h2
      split_ifs at h1 h2 with c d
      rw [c, d]
    · have hwl : w ∈ live := by simpa [hwa] using hw
      rw [he.ngh w hwa] at h1 h2
      have p : ∀ k, m.ngh w k ≠ some a := fun k e => ha (h.twin _ hwl _ _ e).1
      split_ifs at h1 h2 with c d d
      · rw [c.2, d.2]
      · obtain rfl : a = u := by simpa using h1
        exact absurd h2 (p _)
      · obtain rfl : a = u := by simpa using h2
        exact absurd h1 (p _)
      · exact h.uniq _ hwl _ _ _ h1 h2

theorem ExtendAt.vp {live vs : Finset ℕ} {m m' : Mesh} {x v a : ℕ} {o : Fin 3} (ha : a ∉ live)
    (hp : VertexPointers live vs m) (he : ExtendAt m m' x o v a) :
    VertexPointers (insert a live) (insert v vs) m' := by
  intro u hu
  rw [he.vt]
  split_ifs with h1
  · exact ⟨by simp, 2, by simp [he.vtxa, h1]⟩
  · obtain ⟨hl, i, hi⟩ := hp u (by simpa [h1] using hu)
    refine ⟨by simp [hl], i, ?_⟩
    rw [he.vtx _ (fun e => ha (e ▸ hl)), hi]

/-- What `splitBoundary` of the edge `o` of `x` at `v` with the memory `a` does. -/
structure BSplitAt (m m' : Mesh) (x : ℕ) (o : Fin 3) (v a : ℕ) : Prop where
  vtxx : ∀ k, m'.vtx x k = if k = o + 2 then v else m.vtx x k
  vtxa : ∀ k, m'.vtx a k = if k = 0 then m.vtx x (o + 2) else if k = 1 then v else m.vtx x (o + 1)
  vtx : ∀ w, w ≠ x → w ≠ a → ∀ k, m'.vtx w k = m.vtx w k
  nghx : ∀ k, m'.ngh x k = if k = o + 2 then some a else m.ngh x k
  ngha : ∀ k, m'.ngh a k = if k = 0 then m.ngh x (o + 2) else if k = 1 then none else some x
  ngh : ∀ w, w ≠ x → w ≠ a → ∀ k, m'.ngh w k =
    if m.ngh x (o + 2) = some w ∧ m.ngh w k = some x then some a else m.ngh w k
  vt : ∀ u, m'.vt u = if u = m.vtx x (o + 2) then x else if u = v then x else m.vt u

theorem splitBoundary_ok {live : Finset ℕ} {m : Mesh} (h : WF live m) {x v a : ℕ} {o : Fin 3} (b : Bool)
    (hx : x ∈ live) (ha : a ∉ live) (hn : m.ngh x o = none) :
    ∃ m', splitBoundary m ⟨x, o, b⟩ v a = .ok m' ∧ BSplitAt m m' x o v a := by
  have hax : a ≠ x := fun e => ha (e ▸ hx)
  have hxa := hax.symm
  unfold splitBoundary
  simp only [hn]
  rw [if_neg (by simp)]
  simp only [Mesh.ngh_setVt, Mesh.vtx_setVt]
  rcases hz : m.ngh x (o + 2) with _ | z
  · refine ⟨_, rfl, ?_, ?_, ?_, ?_, ?_, ?_, ?_⟩
    · intro k
      simp [Mesh.setV, Mesh.setT, hxa]
    · intro k
      by_cases h0 : k = 0
      · simp [h0, Mesh.setV, Mesh.setT]
      by_cases h1 : k = 1
      · simp [h1, Mesh.setV, Mesh.setT]
      obtain rfl := fin3_two h0 h1
      simp [Mesh.setV, Mesh.setT]
    · intro w h1 h2 k
      simp [Mesh.setV, Mesh.setT, h1, h2]
    · intro k
      simp [Mesh.setV, Mesh.setT, hxa]
    · intro k
      by_cases h0 : k = 0
      · simp [h0, Mesh.setV, Mesh.setT, hz]
      by_cases h1 : k = 1
      · simp [h1, Mesh.setV, Mesh.setT]
      obtain rfl := fin3_two h0 h1
      simp [Mesh.setV, Mesh.setT]
    · intro w h1 h2 k
      simp [Mesh.setV, Mesh.setT, h1, h2, hz]
    · intro u
      simp [Mesh.setV, Mesh.setT]
  · obtain ⟨hzl, kz, k1, -, -⟩ := h.twin _ hx _ _ hz
    have hzx : z ≠ x := h.ne_self hx hz
    have hza : z ≠ a := fun e => ha (e ▸ hzl)
    have hxz := hzx.symm
    have haz := hza.symm
    simp only [Mesh.updateIf]
    rw [Mesh.update_ok (i := kz)]
    rotate_left
    · simp [Mesh.setV, Mesh.setT, hzx, hza, k1]
    · intro l hl
      simp [Mesh.setV, Mesh.setT, hzx, hza] at hl
      exact h.uniq _ hzl _ _ _ hl k1
    refine ⟨_, rfl, ?_, ?_, ?_, ?_, ?_, ?_, ?_⟩
    · intro k
      simp [Mesh.setV, Mesh.setT, hxa]
    · intro k
      by_cases h0 : k = 0
      · simp [h0, Mesh.setV, Mesh.setT]
      by_cases h1 : k = 1
      · simp [h1, Mesh.setV, Mesh.setT]
      obtain rfl := fin3_two h0 h1
      simp [Mesh.setV, Mesh.setT]
    · intro w h1 h2 k
      simp [Mesh.setV, Mesh.setT, h1, h2]
    · intro k
      simp [Mesh.setV, Mesh.setT, hxa, hxz]
    · intro k
      by_cases h0 : k = 0
      · simp [h0, Mesh.setV, Mesh.setT, hz, haz]
      by_cases h1 : k = 1
      · simp [h1, Mesh.setV, Mesh.setT, haz]
      obtain rfl := fin3_two h0 h1
      simp [Mesh.setV, Mesh.setT, haz]
    · intro w h1 h2 k
      simp [Mesh.setV, Mesh.setT, h1, h2, hz]
      have : z = w → m.ngh w k = some x → k = kz := by
        rintro rfl e
        exact h.uniq _ hzl _ _ _ e k1
      split_ifs <;> grind
    · intro u
      simp [Mesh.setV, Mesh.setT]

theorem BSplitAt.wf {live : Finset ℕ} {m m' : Mesh} (h : WF live m) {x v a : ℕ} {o : Fin 3} (hx : x ∈ live)
    (ha : a ∉ live) (hn : m.ngh x o = none) (hv : ∀ k, m.vtx x k ≠ v)
    (he : BSplitAt m m' x o v a) : WF (insert a live) m' := by
  have hxa : x ≠ a := fun e => ha (e ▸ hx)
  have no := add_one_ne o
  have no2 := add_two_ne o
  have no3 := add_two_ne_add_one o
  have v12 : m.vtx x (o + 1) ≠ m.vtx x (o + 2) := fun e => no3 (h.inj _ hx _ _ e).symm
  have w1 := hv (o + 1)
  have w2 := hv (o + 2)
  have f3 : ∀ P : Fin 3 → Prop, (∀ i, P i) ↔ P 0 ∧ P 1 ∧ P 2 := by
    intro P
    constructor
    · exact fun hp => ⟨hp 0, hp 1, hp 2⟩
    · rintro ⟨p0, p1, p2⟩ i
      fin_cases i <;> assumption
  have e02 : (0 : Fin 3) + 2 = 2 := by decide
  have e12 : (1 : Fin 3) + 2 = 0 := by decide
  have e22 : (2 : Fin 3) + 2 = 1 := by decide
  refine ⟨?_, ?_, ?_⟩
  · intro w hw i j hij
    by_cases hwa : w = a
    · subst hwa
      rw [he.vtxa, he.vtxa] at hij
      revert i j
      simp only [f3]
      refine ⟨⟨?_, ?_, ?_⟩, ⟨?_, ?_, ?_⟩, ?_, ?_, ?_⟩ <;> simp <;> grind
    · by_cases hwx : w = x
      · subst hwx
        rw [he.vtxx, he.vtxx] at hij
        split_ifs at hij with c d d
        · rw [c, d]
        · exact absurd hij.symm (hv _)
        · exact absurd hij (hv _)
        · exact h.inj _ hx _ _ hij
      · rw [he.vtx w hwx hwa, he.vtx w hwx hwa] at hij
        exact h.inj _ (by simpa [hwa] using hw) _ _ hij
  · intro w hw i u hu
    by_cases hwa : w = a
    · subst hwa
      rw [he.ngha] at hu
      split_ifs at hu with h1 h2
      · subst h1
        obtain ⟨hul, k, k1, k2, k3⟩ := h.twin _ hx _ _ hu
        have hux : u ≠ x := h.ne_self hx hu
        have hua : u ≠ w := fun e => ha (e ▸ hul)
        refine ⟨by simp [hul], k, ?_, ?_, ?_⟩
        · rw [he.ngh u hux hua, if_pos ⟨hu, k1⟩]
        · rw [he.vtx u hux hua, k2, he.vtxa, e02, add_two_add_two]
          simp
        · rw [he.vtx u hux hua, k3, he.vtxa, if_pos rfl]
      · obtain rfl := fin3_two h1 h2
        obtain rfl : x = u := by simpa using hu
        refine ⟨by simp [hx], o + 2, ?_, ?_, ?_⟩
        · rw [he.nghx, if_pos rfl]
        · rw [he.vtxx, if_pos rfl, e22, he.vtxa]
          simp
        · rw [he.vtxx, add_two_add_two, if_neg no3.symm, he.vtxa]
          simp
    · have hwl : w ∈ live := by simpa [hwa] using hw
      by_cases hwx : w = x
      · subst hwx
        rw [he.nghx] at hu
        split_ifs at hu with h1
        · subst h1
          obtain rfl : a = u := by simpa using hu
          refine ⟨by simp, 2, ?_, ?_, ?_⟩
          · rw [he.ngha]
            simp
          · rw [he.vtxa, add_two_add_two, he.vtxx, if_neg no3.symm]
            simp
          · rw [he.vtxa, e22, he.vtxx]
            simp
        · have hi : i = o + 1 := by
            rcases fin3_cases o i with rfl | rfl | rfl
            · rw [hn] at hu
              exact absurd hu (by simp)
            · rfl
            · exact absurd rfl h1
          subst hi
          obtain ⟨hul, k, k1, k2, k3⟩ := h.twin _ hx _ _ hu
          have hux : u ≠ w := h.ne_self hx hu
          have hua : u ≠ a := fun e => ha (e ▸ hul)
          refine ⟨by simp [hul], k, ?_, ?_, ?_⟩
          · rw [he.ngh u hux hua, if_neg, k1]
            rintro ⟨e, -⟩
            exact no3 (h.uniq _ hx _ _ _ e hu)
          · rw [he.vtx u hux hua, k2, he.vtxx, add_one_add_two, if_neg no2.symm]
          · rw [he.vtx u hux hua, k3, he.vtxx, if_neg no3.symm]
      · rw [he.ngh w hwx hwa] at hu
        rw [he.vtx w hwx hwa, he.vtx w hwx hwa]
        split_ifs at hu with h1
        · obtain rfl : a = u := by simpa using hu
          obtain ⟨_, k, k1, k2, k3⟩ := h.twin _ hwl _ _ h1.2
          obtain rfl : k = o + 2 := h.uniq _ hx _ _ _ k1 h1.1
          refine ⟨by simp, 0, ?_, ?_, ?_⟩
          · rw [he.ngha, if_pos rfl, h1.1]
          · rw [he.vtxa, if_pos rfl, k2]
          · rw [he.vtxa, e02, ← k3, add_two_add_two]
            simp
        · obtain ⟨hul, k, k1, k2, k3⟩ := h.twin _ hwl _ _ hu
          have hua : u ≠ a := fun e => ha (e ▸ hul)
          refine ⟨by simp [hul], k, ?_⟩
          by_cases hux : u = x
          · subst hux
            have hk : k = o + 1 := by
              rcases fin3_cases o k with rfl | rfl | rfl
              · rw [hn] at k1
                exact absurd k1 (by simp)
              · rfl
              · exact absurd ⟨k1, hu⟩ h1
            subst hk
            rw [add_one_add_two] at k3
            rw [he.nghx, if_neg no3.symm, he.vtxx, if_neg no3.symm, he.vtxx, add_one_add_two, if_neg no2.symm]
            exact ⟨k1, k2, k3⟩
          · rw [he.ngh u hux hua, he.vtx u hux hua, he.vtx u hux hua, if_neg]
            · exact ⟨k1, k2, k3⟩
            · rintro ⟨-, e⟩
              rw [k1] at e
              exact hwx (by simpa using e)
  · intro w hw i j u h1 h2
    by_cases hwa : w = a
    · subst hwa
      rw [he.ngha] at h1 h2
      have p : m.ngh x (o + 2) ≠ some x := fun e => h.ne_self hx e rfl
      revert i j
      simp only [f3]
      refine ⟨⟨?_, ?_, ?_⟩, ⟨?_, ?_, ?_⟩, ?_, ?_, ?_⟩ <;> simp <;> grind
    · have hwl : w ∈ live := by simpa [hwa] using hw
      have p : ∀ k, m.ngh w k ≠ some a := fun k e => ha (h.twin _ hwl _ _ e).1
      by_cases hwx : w = x
      · subst hwx
        rw [he.nghx] at h1 h2
        split_ifs at h1 h2 with c d d
        · rw [c, d]
        · obtain rfl : a = u := by simpa using h1
          exact absurd h2 (p _)
        · obtain rfl : a = u := by simpa using h2
          exact absurd h1 (p _)
        · exact h.uniq _ hwl _ _ _ h1 h2
      · rw [he.ngh w hwx hwa] at h1 h2
        split_ifs at h1 h2 with c d d
        · exact h.uniq _ hwl _ _ _ c.2 d.2
        · obtain rfl : a = u := by simpa using h1
          exact absurd h2 (p _)
        · obtain rfl : a = u := by simpa using h2
          exact absurd h1 (p _)
        · exact h.uniq _ hwl _ _ _ h1 h2

end Verif.Delaunay
