import Verif.Delaunay.InsertLemmas
import Mathlib.Data.Finset.Max
import Mathlib.Data.Finset.Prod
import Mathlib.Data.Fintype.Basic

set_option linter.unusedSectionVars false
set_option linter.unusedVariables false

/-!
Delaunay meshes: every circumcircle is empty. Inserting a point keeps this, and the walk of `find` ends.
-/

namespace Verif.Delaunay

open CT

variable {K : Type} [Field K] [LinearOrder K] [IsStrictOrderedRing K]

/-- A mesh of the vertices `vs`, planar, with empty circumcircles and a convex outline. -/
structure DMesh (pos : ℕ → P2 K) (live vs : Finset ℕ) (m : Mesh) : Prop where
  planar : Planar pos live m
  vp : VertexPointers live vs m
  corner : ∀ x ∈ live, ∀ k, m.vtx x k ∈ vs
  empty : ∀ x ∈ live, ∀ q ∈ vs, circT pos m x (pos q) ≤ 0
  hull : ∀ x ∈ live, ∀ i, m.ngh x i = none → ∀ q ∈ vs, 0 ≤ area (pos (m.vtx x (i + 2))) (pos (m.vtx x i)) (pos q)

section
variable {pos : ℕ → P2 K} {live vs : Finset ℕ} {m : Mesh} {v a b : ℕ}

/-- The vertices and the simplices queued by `reserve_for_insert` for the search trees `c` of the three edges. -/
def vertexQ (m : Mesh) (t : ℕ) (o : Fin 3) (c : Fin 3 → CT) : List ℕ :=
  m.vtx t o :: ((c o).inord m ++ m.vtx t (o + 1) :: ((c (o + 1)).inord m ++ m.vtx t (o + 2) :: (c (o + 2)).inord m))

def simplexQ (o : Fin 3) (c : Fin 3 → CT) : List Simplex := (c o).pre ++ ((c (o + 1)).pre ++ (c (o + 2)).pre)

theorem cavity_ok (h : Planar pos live m) (p : P2 K) {t : ℕ} (ht : t ∈ live) (o : Fin 3) (bd : Bool) (c : Fin 3 → CT)
    (hc : ∀ i, IsCT (fun T => 0 < circT pos m T p) live m (m.vtx t (i + 2)) (m.vtx t i) (c i)) {fuel : ℕ} (hf : ∀ i, (c i).size < fuel) :
    cavity pos m p fuel ⟨t, o, bd⟩ = .ok (vertexQ m t o c, simplexQ o c) := by
  have key : ∀ i bd, (across m ⟨t, i, bd⟩).bind (findCavity pos m p fuel) = .ok ((c i).inord m, (c i).pre) := by
    intro i bd
    exact findCavity_ok h p (c i) fuel _ _ (hc i) (hf i) t ht i rfl rfl bd
  have k0 := key o bd
  have k1 := key (o + 1) false
  have k2 := key (o + 2) false
  have hr2 : o + 1 + 1 = o + 2 := add_one_add_one o
  unfold cavity
  simp only [Simplex.rot, hr2]
  rcases e0 : across m ⟨t, o, bd⟩ with er | a0
  · rw [e0] at k0
    exact absurd k0 (by simp [Except.bind])
  · rw [e0] at k0
    simp only [Except.bind] at k0 ⊢
    rw [k0]
    simp only []
    rcases e1 : across m ⟨t, o + 1, false⟩ with er | a1
    · rw [e1] at k1
      exact absurd k1 (by simp [Except.bind])
    · rw [e1] at k1
      simp only [Except.bind] at k1 ⊢
      rw [k1]
      simp only []
      rcases e2 : across m ⟨t, o + 2, false⟩ with er | a2
      · rw [e2] at k2
        exact absurd k2 (by simp [Except.bind])
      · rw [e2] at k2
        simp only [Except.bind] at k2 ⊢
        rw [k2]
        rfl

theorem parts_inj {t a b : ℕ} (hat : a ≠ t) (hbt : b ≠ t) (hab : a ≠ b) {i j : Fin 3}
    (h : parts t a b i = parts t a b j) : i = j := by
  rcases fin3_cases 0 i with rfl | rfl | rfl <;> rcases fin3_cases 0 j with rfl | rfl | rfl <;>
    simp [parts, hat, hbt, hab, hat.symm, hbt.symm, hab.symm] at h ⊢

/-- The whole insertion at a point strictly inside triangle `t`. -/
theorem insert_run {good : ℕ → Prop} (hgood : ∀ T ∈ live, good T → 0 < circT pos m T (pos v)) (hm : Planar pos live m) (hvp : VertexPointers live vs m) {t : ℕ} (ht : t ∈ live)
    (ha : a ∉ live) (hb : b ∉ live) (hab : a ≠ b) (hv : ∀ x ∈ live, ∀ k, m.vtx x k ≠ v)
    (hin : In pos m t (pos v)) (o : Fin 3) :
    ∃ (c : Fin 3 → CT) (cur : Mesh) (proc : Finset ℕ),
      (∀ i, IsCT good live m (m.vtx t (i + 2)) (m.vtx t i) (c i)) ∧ (∀ i, (c i).size < live.card) ∧
      ((split m t v a b).bind fun m => flips m (simplexQ o c)) = .ok cur ∧
      St pos live (insert v vs) m v a b cur proc ∧ t ∈ proc ∧
      (∀ x ∈ insert a (insert b proc), Closed good live m v cur x) ∧ (∀ y ∈ proc, y = t ∨ good y) ∧
      (∀ y ∈ proc, ∀ k, m.vtx y k ∈ vertexQ m t o c) ∧ (vertexQ m t o c).Nodup ∧
      (∀ u, SV a b cur proc u ↔ u = v ∨ u ∈ vertexQ m t o c) ∧
      (∀ u, u ≠ v → u ∉ vertexQ m t o c → cur.vt u = m.vt u) ∧
      ∀ own, Owns own live m a b cur proc → InsertFoot own m t v a b (simplexQ o c) cur := by
  have hat : a ≠ t := fun e => ha (e ▸ ht)
  have hbt : b ≠ t := fun e => hb (e ▸ ht)
  obtain ⟨cur0, hsp, hs⟩ := split_ok hm.wf (v := v) ht ha hb hab
  have h0 := hs.st hm hvp ht ha hb hab hv hin
  have two : (0 : Fin 3) + 2 = 2 := by decide
  have one : (0 : Fin 3) + 1 = 1 := by decide
  have no := add_one_ne o
  have no2 := add_two_ne o
  have no3 := add_two_ne_add_one o
  have hp0 : ∀ i, parts t a b i ∈ insert a (insert b ({t} : Finset ℕ)) := fun i => parts_mem (by simp) i
  -- the three sides
  obtain ⟨c0, cur1, proc1, d0⟩ := process hgood hm ha hb hv _ cur0 {t} le_rfl h0 (parts t a b o) (hp0 _) 0
    (by rw [one, (hs.part_vtx o).2.1])
  have q1 : ∀ k, cur1.vtx (parts t a b (o + 1)) k = cur0.vtx (parts t a b (o + 1)) k :=
    d0.other _ (hp0 _) fun e => no (parts_inj hat hbt hab e)
  have q2 : ∀ k, cur1.vtx (parts t a b (o + 2)) k = cur0.vtx (parts t a b (o + 2)) k :=
    d0.other _ (hp0 _) fun e => no2 (parts_inj hat hbt hab e)
  have hp1 : ∀ i, parts t a b i ∈ insert a (insert b proc1) := fun i => star_mono d0.mono (hp0 i)
  obtain ⟨c1, cur2, proc2, d1⟩ := process hgood hm ha hb hv _ cur1 proc1 le_rfl d0.st (parts t a b (o + 1)) (hp1 _) 0
    (by rw [one, q1, (hs.part_vtx (o + 1)).2.1])
  have r2 : ∀ k, cur2.vtx (parts t a b (o + 2)) k = cur1.vtx (parts t a b (o + 2)) k :=
    d1.other _ (hp1 _) fun e => no3 (parts_inj hat hbt hab e)
  have r0 : ∀ k, cur2.vtx (parts t a b o) k = cur1.vtx (parts t a b o) k :=
    d1.other _ (hp1 _) fun e => no (parts_inj hat hbt hab e).symm
  have hp2 : ∀ i, parts t a b i ∈ insert a (insert b proc2) := fun i => star_mono d1.mono (hp1 i)
  obtain ⟨c2, cur3, proc3, d2⟩ := process hgood hm ha hb hv _ cur2 proc2 le_rfl d1.st (parts t a b (o + 2)) (hp2 _) 0
    (by rw [one, r2, q2, (hs.part_vtx (o + 2)).2.1])
  have t0 := d0.tree
  have t1 := d1.tree
  have t2 := d2.tree
  rw [two, (hs.part_vtx o).1, (hs.part_vtx o).2.2] at t0
  rw [q1, q1, two, (hs.part_vtx (o + 1)).1, (hs.part_vtx (o + 1)).2.2] at t1
  rw [r2, r2, q2, q2, two, (hs.part_vtx (o + 2)).1, (hs.part_vtx (o + 2)).2.2] at t2
  have hcard : c0.size + c1.size + c2.size < live.card := by
    have := Finset.card_le_card d2.st.sub
    rw [d2.card, d1.card, d0.card, Finset.card_singleton] at this
    omega
  have sv0 : ∀ u, SV a b cur0 {t} u ↔ u = v ∨ ∃ i, u = m.vtx t i := by
    intro u
    constructor
    · rintro ⟨x, hx, k, rfl⟩
      rcases parts_cases (t := t) (live := {t}) hx with ⟨i, rfl⟩ | ⟨h1, h2, h3, h4⟩
      · obtain ⟨p0, p1, p2⟩ := hs.part_vtx i
        rcases fin3_cases 0 k with rfl | rfl | rfl
        · exact Or.inr ⟨_, p0⟩
        · exact Or.inl p1
        · exact Or.inr ⟨_, p2⟩
      · exact absurd (Finset.mem_singleton.mp h1) h2
    · rintro (rfl | ⟨i, rfl⟩)
      · exact ⟨_, hp0 o, 1, (hs.part_vtx o).2.1⟩
      · exact ⟨_, hp0 i, 0, (hs.part_vtx i).1⟩
  let c : Fin 3 → CT := fun i => if i = o then c0 else if i = o + 1 then c1 else c2
  have e0 : c o = c0 := by simp [c]
  have e1 : c (o + 1) = c1 := by simp [c, no]
  have e2 : c (o + 2) = c2 := by simp [c, no2, no3]
  have svq : ∀ u, SV a b cur3 proc3 u ↔ u = v ∨ u ∈ vertexQ m t o c := by
    intro u
    rw [d2.sv, d1.sv, d0.sv, sv0]
    simp only [vertexQ, e0, e1, e2, List.mem_append, List.mem_cons]
    have : (∃ i, u = m.vtx t i) ↔ u = m.vtx t o ∨ u = m.vtx t (o + 1) ∨ u = m.vtx t (o + 2) := by
      constructor
      · rintro ⟨i, rfl⟩
        rcases fin3_cases o i with rfl | rfl | rfl
        · exact Or.inl rfl
        · exact Or.inr (Or.inl rfl)
        · exact Or.inr (Or.inr rfl)
      · rintro (e | e | e)
        · exact ⟨_, e⟩
        · exact ⟨_, e⟩
        · exact ⟨_, e⟩
    rw [this]
    generalize (u = v) = A
    generalize (u = m.vtx t o) = B
    generalize (u = m.vtx t (o + 1)) = C
    generalize (u = m.vtx t (o + 2)) = D
    generalize (u ∈ c0.inord m) = E
    generalize (u ∈ c1.inord m) = F
    generalize (u ∈ c2.inord m) = G
    clear * -
    constructor
    · rintro ((((h | h | h | h) | h) | h) | h) <;> simp [h]
    · rintro (h | h | h | h | h | h | h) <;> simp [h]
  refine ⟨c, cur3, proc3, ?_, ?_, ?_, d2.st, ?_, ?_, ?_, ?_, ?_, svq, ?_, ?_⟩
  · intro i
    rcases fin3_cases o i with rfl | rfl | rfl
    · rw [e0]
      exact t0
    · rw [e1]
      exact t1
    · rw [e2]
      exact t2
  · intro i
    rcases fin3_cases o i with rfl | rfl | rfl
    · rw [e0]
      omega
    · rw [e1]
      omega
    · rw [e2]
      omega
  · rw [hsp]
    simp only [Except.bind, simplexQ, e0, e1, e2]
    rw [flips_append, d0.run]
    simp only [Except.bind]
    rw [flips_append, d1.run]
    exact d2.run
  · exact d2.mono (d1.mono (d0.mono (by simp)))
  · intro x hx
    by_cases hx2 : x ∈ insert a (insert b proc2)
    · by_cases hxo2 : x = parts t a b (o + 2)
      · exact d2.closed x hx (Or.inr hxo2)
      · refine closed_congr (d2.other x hx2 hxo2) ?_
        by_cases hx1 : x ∈ insert a (insert b proc1)
        · by_cases hxo1 : x = parts t a b (o + 1)
          · exact d1.closed x hx2 (Or.inr hxo1)
          · refine closed_congr (d1.other x hx1 hxo1) ?_
            by_cases hx0 : x ∈ insert a (insert b ({t} : Finset ℕ))
            · refine d0.closed x hx1 (Or.inr ?_)
              rcases parts_cases (t := t) (live := {t}) hx0 with ⟨i, rfl⟩ | ⟨g1, g2, g3, g4⟩
              · rcases fin3_cases o i with rfl | rfl | rfl
                · rfl
                · exact absurd rfl hxo1
                · exact absurd rfl hxo2
              · exact absurd (Finset.mem_singleton.mp g1) g2
            · exact d0.closed x hx1 (Or.inl hx0)
        · exact d1.closed x hx2 (Or.inl hx1)
    · exact d2.closed x hx (Or.inl hx2)
  · intro y hy
    by_cases h2 : y ∈ proc2
    · by_cases h1 : y ∈ proc1
      · by_cases h0 : y = t
        · exact Or.inl h0
        · exact Or.inr (d0.isGood y h1 (by simpa using h0))
      · exact Or.inr (d1.isGood y h2 h1)
    · exact Or.inr (d2.isGood y hy h2)
  · intro y hy k
    have := d2.corners (d1.corners (d0.corners (by
      intro y hy k
      rw [Finset.mem_singleton] at hy
      subst hy
      exact (sv0 _).mpr (Or.inr ⟨k, rfl⟩)))) y hy k
    rcases (svq _).mp this with e | e
    · exact absurd e (hv y (d2.st.sub hy) k)
    · exact e
  · have f0 : ∀ u ∈ c0.inord m, ∀ i, u ≠ m.vtx t i := by
      intro u hu i e
      exact d0.fresh u hu ((sv0 u).mpr (Or.inr ⟨i, e⟩))
    have f1 : ∀ u ∈ c1.inord m, (∀ i, u ≠ m.vtx t i) ∧ u ∉ c0.inord m := by
      intro u hu
      have := d1.fresh u hu
      rw [d0.sv, sv0] at this
      push Not at this
      exact ⟨this.1.2, this.2⟩
    have f2 : ∀ u ∈ c2.inord m, (∀ i, u ≠ m.vtx t i) ∧ u ∉ c0.inord m ∧ u ∉ c1.inord m := by
      intro u hu
      have := d2.fresh u hu
      rw [d1.sv, d0.sv, sv0] at this
      push Not at this
      exact ⟨this.1.1.2, this.1.2, this.2⟩
    have inj := hm.wf.inj t ht
    have i01 : m.vtx t o ≠ m.vtx t (o + 1) := fun e => no (inj _ _ e).symm
    have i02 : m.vtx t o ≠ m.vtx t (o + 2) := fun e => no2 (inj _ _ e).symm
    have i12 : m.vtx t (o + 1) ≠ m.vtx t (o + 2) := fun e => no3 (inj _ _ e).symm
    simp only [vertexQ, e0, e1, e2]
    simp only [List.nodup_cons, List.nodup_append, List.mem_append, List.mem_cons, not_or]
    refine ⟨⟨fun h => f0 _ h o rfl, i01, fun h => (f1 _ h).1 o rfl, i02, fun h => (f2 _ h).1 o rfl⟩, d0.nodup,
      ⟨⟨fun h => (f1 _ h).1 (o + 1) rfl, i12, fun h => (f2 _ h).1 (o + 1) rfl⟩, d1.nodup,
        ⟨fun h => (f2 _ h).1 (o + 2) rfl, d2.nodup⟩, ?_⟩, ?_⟩
    · rintro u hu w (rfl | hw) rfl
      · exact (f1 _ hu).1 _ rfl
      · exact (f2 _ hw).2.2 hu
    · rintro u hu w (rfl | hw | rfl | hw) rfl
      · exact f0 _ hu _ rfl
      · exact (f1 _ hw).2 hu
      · exact f0 _ hu _ rfl
      · exact (f2 _ hw).2.1 hu
  · intro u huv huq
    have hu3 : ¬ SV a b cur3 proc3 u := by
      rw [svq]
      exact not_or.mpr ⟨huv, huq⟩
    have hu2 : ¬ SV a b cur2 proc2 u := fun g => hu3 ((d2.sv u).mpr (Or.inl g))
    have hu1 : ¬ SV a b cur1 proc1 u := fun g => hu2 ((d1.sv u).mpr (Or.inl g))
    have hu0 : ¬ SV a b cur0 {t} u := fun g => hu1 ((d0.sv u).mpr (Or.inl g))
    rw [d2.vt u hu3, d1.vt u hu2, d0.vt u hu1, hs.vt, if_neg, if_neg huv]
    rintro rfl
    exact hu0 ((sv0 _).mpr (Or.inr ⟨1, rfl⟩))
  · intro own ho3
    have ho2 : Owns own live m a b cur2 proc2 := ho3.mono d2.mono fun u hu => (d2.sv u).mpr (Or.inl hu)
    have ho1 : Owns own live m a b cur1 proc1 := ho2.mono d1.mono fun u hu => (d1.sv u).mpr (Or.inl hu)
    have ho0 : Owns own live m a b cur0 {t} := ho1.mono d0.mono fun u hu => (d0.sv u).mpr (Or.inl hu)
    refine ⟨cur0, hsp, ⟨?_, ?_, ?_, ?_⟩, ?_⟩
    · intro x hx
      refine ho0.star x ?_
      simp only [Finset.mem_insert, Finset.mem_singleton]
      tauto
    · intro x k hx
      obtain ⟨hxl, j, -, x1, x2⟩ := hm.wf.twin t ht _ _ hx
      refine ho0.side x hxl j (j + 2) (add_two_ne j).symm ?_ ?_
      · exact (sv0 _).mpr (Or.inr ⟨_, x1⟩)
      · exact (sv0 _).mpr (Or.inr ⟨_, x2⟩)
    · exact ho0.vt v ((sv0 _).mpr (Or.inl rfl))
    · exact ho0.vt _ ((sv0 _).mpr (Or.inr ⟨_, rfl⟩))
    · simp only [simplexQ, e0, e1, e2]
      exact (d0.foot own ho1).append ((d1.foot own ho2).append (d2.foot own ho3))

/-! ### Walking towards a point -/

/-- The power of `p` with respect to the circumcircle of `x`. -/
def pwT (pos : ℕ → P2 K) (m : Mesh) (x : ℕ) (p : P2 K) : K :=
  circT pos m x p / area (pos (m.vtx x 0)) (pos (m.vtx x 1)) (pos (m.vtx x 2))

theorem pwT_edge (pos : ℕ → P2 K) (m : Mesh) (x : ℕ) (p : P2 K) (i : Fin 3) : pwT pos m x p =
    pw (pos (m.vtx x (i + 2))) (pos (m.vtx x i)) (pos (m.vtx x (i + 1))) p := by
  unfold pwT pw
  rw [circT_edge pos m x p i, ccw_edge i]

open Classical in
/-- How many vertices on the circumcircle of `x` lie beyond its edge `i`. -/
noncomputable def beyond (pos : ℕ → P2 K) (vs : Finset ℕ) (m : Mesh) (x : ℕ) (i : Fin 3) : ℕ :=
  (vs.filter fun q => circT pos m x (pos q) = 0 ∧ area (pos (m.vtx x (i + 2))) (pos (m.vtx x i)) (pos q) < 0).card

theorem corner_side (h : Planar pos live m) {y : ℕ} (hy : y ∈ live) (i k : Fin 3) :
    0 ≤ area (pos (m.vtx y (i + 2))) (pos (m.vtx y i)) (pos (m.vtx y k)) := by
  rcases fin3_cases i k with rfl | rfl | rfl
  · rw [area_self_right]
  · rw [ccw_edge]
    exact (h.ccw y hy).le
  · rw [area_self_left]

/-- Crossing an edge that has `p` on its far side; the corners of the neighbour are not inside the circle. -/
theorem walk_step_local (h : Planar pos live m) {p : P2 K} {x : ℕ} (hx : x ∈ live) {i : Fin 3} {y : ℕ}
    (hn : m.ngh x i = some y) (hcor : ∀ k, m.vtx y k ∈ vs) (hloc : ∀ k, circT pos m x (pos (m.vtx y k)) ≤ 0)
    (hi : area (pos (m.vtx x (i + 2))) (pos (m.vtx x i)) p < 0) :
    pwT pos m x p < pwT pos m y p ∨ (pwT pos m x p = pwT pos m y p ∧
      ∀ i', area (pos (m.vtx y (i' + 2))) (pos (m.vtx y i')) p < 0 → beyond pos vs m y i' < beyond pos vs m x i) := by
  obtain ⟨hy, j, hj, e1, e2⟩ := h.wf.twin _ hx _ _ hn
  have cx := h.ccw x hx
  have cy := h.ccw y hy
  rw [← ccw_edge i] at cx
  have cy' := cy
  rw [← ccw_edge j, e1, e2] at cy'
  have hd := hloc (j + 1)
  rw [circT_edge pos m x _ i] at hd
  rw [pwT_edge pos m x p i, pwT_edge pos m y p j, e1, e2]
  rcases pw_cross cx cy' hd hi with h1 | ⟨h1, h2⟩
  · exact Or.inl h1
  · refine Or.inr ⟨h1, fun i' hi' => ?_⟩
    have hne : i' ≠ j := by
      rintro rfl
      rw [e1, e2, area_swap] at hi'
      linarith
    unfold beyond
    refine Finset.card_lt_card ⟨fun q hq => ?_, fun hle => ?_⟩
    · simp only [Finset.mem_filter] at hq ⊢
      obtain ⟨q1, q2, q3⟩ := hq
      have z1 := q2
      rw [circT_edge pos m y _ j, e1, e2] at z1
      refine ⟨q1, ?_, ?_⟩
      · rw [circT_edge pos m x _ i]
        exact circ_eq_zero_of_cocircular cx cy' h2 z1
      · rw [circT_edge pos m y _ i'] at q2
        have cy2 := cy
        rw [← ccw_edge i'] at cy2
        have g : 0 < area (pos (m.vtx y (j + 2))) (pos (m.vtx y j)) (pos q) := by
          rcases fin3_cases i' j with rfl | rfl | rfl
          · exact absurd rfl hne
          · rw [add_one_add_two]
            exact inside_next cy2 q2.ge q3
          · rw [add_two_add_two]
            exact inside_prev cy2 q2.ge q3
        rw [e1, e2, area_swap] at g
        linarith
    · have hmem : m.vtx y (j + 1) ∈ vs.filter fun q => circT pos m x (pos q) = 0 ∧
          area (pos (m.vtx x (i + 2))) (pos (m.vtx x i)) (pos q) < 0 := by
        simp only [Finset.mem_filter]
        refine ⟨hcor _, ?_, ?_⟩
        · rw [circT_edge pos m x _ i]
          exact h2
        · rw [area_swap] at cy'
          linarith
      have := hle hmem
      simp only [Finset.mem_filter] at this
      exact absurd this.2.2 (not_lt.mpr (corner_side h hy i' (j + 1)))

/-- Crossing an edge that has `p` on its far side. -/
theorem walk_step (h : DMesh pos live vs m) {p : P2 K} {x : ℕ} (hx : x ∈ live) {i : Fin 3} {y : ℕ}
    (hn : m.ngh x i = some y) (hi : area (pos (m.vtx x (i + 2))) (pos (m.vtx x i)) p < 0) :
    pwT pos m x p < pwT pos m y p ∨ (pwT pos m x p = pwT pos m y p ∧
      ∀ i', area (pos (m.vtx y (i' + 2))) (pos (m.vtx y i')) p < 0 → beyond pos vs m y i' < beyond pos vs m x i) :=
  have hy := (h.planar.wf.twin _ hx _ _ hn).1
  walk_step_local h.planar hx hn (h.corner y hy) (fun k => h.empty x hx _ (h.corner y hy k)) hi

/-- A triangle has a point strictly inside. -/
theorem exists_in (h : Planar pos live m) {x : ℕ} (hx : x ∈ live) : ∃ g, In pos m x g := by
  refine ⟨lerp (lerp (pos (m.vtx x 0)) (pos (m.vtx x 1)) (1 / 2)) (pos (m.vtx x 2)) (1 / 3), fun i => ?_⟩
  rw [area_lerp, area_lerp]
  have hs : ∀ k, 0 ≤ area (pos (m.vtx x (i + 2))) (pos (m.vtx x i)) (pos (m.vtx x k)) := corner_side h hx i
  have c : 0 < area (pos (m.vtx x (i + 2))) (pos (m.vtx x i)) (pos (m.vtx x (i + 1))) := by
    rw [ccw_edge]
    exact h.ccw x hx
  have s0 := hs 0
  have s1 := hs 1
  have s2 := hs 2
  rcases fin3_cases 0 (i + 1) with e | e | e
  · rw [e] at c
    linarith
  · rw [e, show (0 : Fin 3) + 1 = 1 from rfl] at c
    linarith
  · rw [e, show (0 : Fin 3) + 2 = 2 from rfl] at c
    linarith

/-- A point strictly inside one triangle is strictly beyond an edge of every other. -/
theorem outside_other (h : Planar pos live m) {t : ℕ} (ht : t ∈ live) {p : P2 K} (hin : In pos m t p) {x : ℕ}
    (hx : x ∈ live) (hne : x ≠ t) : ∃ i, area (pos (m.vtx x (i + 2))) (pos (m.vtx x i)) p < 0 := by
  by_contra hno
  push Not at hno
  obtain ⟨g, hg⟩ := exists_in h hx
  obtain ⟨e, e1, e2, e3⟩ := exists_small p g (edges pos m t) ((in_edges pos m t p).mp hin)
  have i1 : In pos m t (lerp p g e) := (in_edges pos m t _).mpr (e3 e e1 le_rfl)
  refine h.disj t ht x hx hne.symm _ i1 fun i => ?_
  rw [area_lerp]
  have a1 := mul_nonneg (sub_nonneg.mpr e2.le) (hno i)
  have a2 := mul_pos e1 (hg i)
  linarith

open Classical in
/-- When the star is closed, no other triangle has the new point in its circle. -/
theorem complete {cur : Mesh} {proc : Finset ℕ} (h : DMesh pos live vs m) {vs' : Finset ℕ}
    (hst : St pos live vs' m v a b cur proc)
    (hbey : ∀ x ∈ live, x ∉ proc → 0 < circT pos m x (pos v) →
      ∃ i, area (pos (m.vtx x (i + 2))) (pos (m.vtx x i)) (pos v) < 0)
    (hhull : ∀ x ∈ live, ∀ i, m.ngh x i = none → 0 ≤ area (pos (m.vtx x (i + 2))) (pos (m.vtx x i)) (pos v))
    (hcl : ∀ x ∈ insert a (insert b proc), Closed (fun T => 0 < circT pos m T (pos v)) live m v cur x) :
    ∀ x ∈ live, x ∉ proc → circT pos m x (pos v) ≤ 0 := by
  by_contra hno
  push Not at hno
  obtain ⟨x0, hx0, hx0p, hc0⟩ := hno
  let A : Finset (ℕ × Fin 3) := (live ×ˢ Finset.univ).filter fun e => e.1 ∉ proc ∧ 0 < circT pos m e.1 (pos v) ∧
    area (pos (m.vtx e.1 (e.2 + 2))) (pos (m.vtx e.1 e.2)) (pos v) < 0
  have memA : ∀ e, e ∈ A ↔ e.1 ∈ live ∧ e.1 ∉ proc ∧ 0 < circT pos m e.1 (pos v) ∧
      area (pos (m.vtx e.1 (e.2 + 2))) (pos (m.vtx e.1 e.2)) (pos v) < 0 := by
    intro e
    simp [A, Finset.mem_product]
  have hout : ∀ x ∈ live, x ∉ proc → 0 < circT pos m x (pos v) → ∃ i, (x, i) ∈ A := by
    intro x hx hxp hc
    obtain ⟨i, hi⟩ := hbey x hx hxp hc
    exact ⟨i, (memA _).mpr ⟨hx, hxp, hc, hi⟩⟩
  obtain ⟨i0, hi0⟩ := hout x0 hx0 hx0p hc0
  obtain ⟨e1, he1, hmax⟩ := Finset.exists_max_image A (fun e => pwT pos m e.1 (pos v)) ⟨_, hi0⟩
  obtain ⟨e2, he2, hmin⟩ := Finset.exists_min_image
    (A.filter fun e => pwT pos m e.1 (pos v) = pwT pos m e1.1 (pos v)) (fun e => beyond pos vs m e.1 e.2)
    ⟨e1, Finset.mem_filter.mpr ⟨he1, rfl⟩⟩
  rw [Finset.mem_filter] at he2
  obtain ⟨he2, hpe⟩ := he2
  obtain ⟨x, i⟩ := e2
  obtain ⟨hx, hxp, hc, hi⟩ := (memA _).mp he2
  simp only at hx hxp hc hi hpe hmin
  rcases hn : m.ngh x i with _ | y
  · have := hhull x hx i hn
    linarith
  · have hw := walk_step h hx hn hi
    obtain ⟨hy, j, hj, f1, f2⟩ := h.planar.wf.twin _ hx _ _ hn
    have hle : pwT pos m x (pos v) ≤ pwT pos m y (pos v) := by
      rcases hw with w | w
      · exact w.le
      · exact w.1.le
    have hcy : 0 < circT pos m y (pos v) := by
      have c1 := h.planar.ccw x hx
      have c2 := h.planar.ccw y hy
      have : 0 < pwT pos m x (pos v) := div_pos hc c1
      have : 0 < pwT pos m y (pos v) := lt_of_lt_of_le this hle
      unfold pwT at this
      rcases (div_pos_iff).mp this with g | g
      · exact g.1
      · linarith [g.2]
    have hyp : y ∉ proc := by
      intro hyp
      rcases hst.cover y hyp j with ⟨z, hz, l, q1, q2⟩ | ⟨s, hs, k, q1, q2, q3⟩
      · have : z = x := h.planar.own (hst.sub hz) hx (i := l) (j := i) (by rw [q2, f1]) (by rw [q1, f2])
        exact hxp (this ▸ hz)
      · exact hcl s hs k q1 x hx i (by rw [q3, f1]) (by rw [q2, f2]) hc
    obtain ⟨i', hi'⟩ := hout y hy hyp hcy
    have m1 := hmax _ hi'
    simp only at m1
    rcases hw with w | ⟨w1, w2⟩
    · linarith
    · have hlt := w2 i' ((memA _).mp hi').2.2.2
      have := hmin (y, i') (Finset.mem_filter.mpr ⟨hi', by simp only; rw [← w1, hpe]⟩)
      simp only at this
      omega

/-- The mesh after the insertion is Delaunay again. -/
theorem St.dmesh {cur : Mesh} {proc : Finset ℕ} (h : DMesh pos live vs m)
    (hst : St pos live (insert v vs) m v a b cur proc)
    (hbey : ∀ x ∈ live, x ∉ proc → 0 < circT pos m x (pos v) →
      ∃ i, area (pos (m.vtx x (i + 2))) (pos (m.vtx x i)) (pos v) < 0)
    (hhull : ∀ x ∈ live, ∀ i, m.ngh x i = none → 0 ≤ area (pos (m.vtx x (i + 2))) (pos (m.vtx x i)) (pos v))
    (hcl : ∀ x ∈ insert a (insert b proc), Closed (fun T => 0 < circT pos m T (pos v)) live m v cur x) :
    DMesh pos (insert a (insert b live)) (insert v vs) cur := by
  have hcp := complete h hst hbey hhull hcl
  have split : ∀ x ∈ insert a (insert b live), x ∈ insert a (insert b proc) ∨ (x ∈ live ∧ x ∉ proc) := by
    intro x hx
    simp only [Finset.mem_insert] at hx ⊢
    by_cases hp : x ∈ proc
    · exact Or.inl (Or.inr (Or.inr hp))
    · rcases hx with g | g | g
      · exact Or.inl (Or.inl g)
      · exact Or.inl (Or.inr (Or.inl g))
      · exact Or.inr ⟨g, hp⟩
  -- an open edge is an open edge of the old mesh
  have opened : ∀ x ∈ insert a (insert b live), ∀ i, cur.ngh x i = none → ∃ y ∈ live, ∃ k, m.ngh y k = none ∧
      m.vtx y (k + 2) = cur.vtx x (i + 2) ∧ m.vtx y k = cur.vtx x i := by
    intro x hx i hn
    rcases split x hx with hs | ⟨hl, hp⟩
    · obtain ⟨j, hj⟩ := hst.star x hs
      rcases fin3_cases j i with rfl | rfl | rfl
      · obtain ⟨y, hy, k, q1, q2⟩ := hj.inner
        refine ⟨y, hst.sub hy, k, ?_, q1, q2⟩
        rcases hz : m.ngh y k with _ | z
        · rfl
        · exfalso
          obtain ⟨hzl, l, -, f1, f2⟩ := h.planar.wf.twin y (hst.sub hy) _ _ hz
          have hzp : z ∉ proc := fun hzp => hj.outer z hzp l (by rw [f2, q2]) (by rw [f1, q1])
          have := hst.planar.full x hx z (by simp [hzl]) i l
            (by rw [hst.old z hzl hzp, f1, q1]) (by rw [hst.old z hzl hzp, f2, q2])
          rw [hn] at this
          exact absurd this (by simp)
      · exact absurd hn hj.next
      · exact absurd hn hj.prev
    · refine ⟨x, hl, i, ?_, by rw [hst.old x hl hp], by rw [hst.old x hl hp]⟩
      by_contra hne
      exact hst.keep x hl hp i hne hn
  refine ⟨hst.planar, hst.vp, ?_, ?_, ?_⟩
  · intro x hx k
    rcases split x hx with hs | ⟨hl, hp⟩
    · obtain ⟨j, hj⟩ := hst.star x hs
      obtain ⟨y, hy, l, q1, q2⟩ := hj.inner
      rcases fin3_cases j k with rfl | rfl | rfl
      · rw [← q2]
        exact Finset.mem_insert_of_mem (h.corner y (hst.sub hy) _)
      · rw [hj.apex]
        exact Finset.mem_insert_self _ _
      · rw [← q1]
        exact Finset.mem_insert_of_mem (h.corner y (hst.sub hy) _)
    · rw [hst.old x hl hp]
      exact Finset.mem_insert_of_mem (h.corner x hl _)
  · intro x hx q hq
    rcases split x hx with hs | ⟨hl, hp⟩
    · obtain ⟨j, hj⟩ := hst.star x hs
      rw [circT_edge pos cur x _ j, hj.apex]
      rw [Finset.mem_insert] at hq
      rcases hq with rfl | hq
      · rw [circ_self]
      · obtain ⟨y, hy, l, q1, q2⟩ := hj.inner
        have hyl := hst.sub hy
        have cp := hst.planar.ccw x hx
        rw [← ccw_edge j, hj.apex] at cp
        have cy := h.planar.ccw y hyl
        rw [← ccw_edge l, q1, q2] at cy
        have iy := hst.inside y hy
        rw [circT_edge pos m y _ l, q1, q2] at iy
        have ey := h.empty y hyl q hq
        rw [circT_edge pos m y _ l, q1, q2] at ey
        rcases le_or_gt 0 (area (pos (cur.vtx x (j + 2))) (pos (cur.vtx x j)) (pos q)) with hside | hside
        · exact empty_inner cy cp iy ey hside
        · rcases hz : m.ngh y l with _ | z
          · have := h.hull y hyl l hz q hq
            rw [q1, q2] at this
            linarith
          · obtain ⟨hzl, k, -, f1, f2⟩ := h.planar.wf.twin y hyl _ _ hz
            have c1 := not_lt.mp (hcl x hs j hj.apex z hzl k (by rw [f2, q2]) (by rw [f1, q1]))
            have cz := h.planar.ccw z hzl
            rw [← ccw_edge k, f1, f2, q1, q2] at cz
            have ez := h.empty z hzl q hq
            rw [circT_edge pos m z _ k, f1, f2, q1, q2] at c1 ez
            exact empty_outer cz cp c1 ez hside.le
    · have e : circT pos cur x (pos q) = circT pos m x (pos q) := by
        unfold circT
        rw [hst.old x hl hp, hst.old x hl hp, hst.old x hl hp]
      rw [e]
      rw [Finset.mem_insert] at hq
      rcases hq with rfl | hq
      · exact hcp x hl hp
      · exact h.empty x hl q hq
  · intro x hx i hn q hq
    obtain ⟨y, hy, k, z1, z2, z3⟩ := opened x hx i hn
    rw [← z2, ← z3]
    rw [Finset.mem_insert] at hq
    rcases hq with rfl | hq
    · exact hhull y hy k z1
    · exact h.hull y hy k z1 q hq

end

end Verif.Delaunay
