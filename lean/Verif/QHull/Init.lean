import Mathlib.Tactic.IntervalCases
import Mathlib.Data.Finset.Card
import Verif.QHull.Loop

set_option linter.unusedSectionVars false
set_option linter.unusedVariables false

/-!
The first simplex of the quickhull in space.
-/

namespace Verif.QHull

open Verif Verif.Hull3d

variable {K : Type} [Field K] [LinearOrder K] [IsStrictOrderedRing K]

section

variable {eps : K} {Q : List (P3 K)} {h : Heap (P3 K)} {opp : ℕ → P3 K}

/-- Four facets, each without one of four vertices. -/
structure Tetra (Q : List (P3 K)) (h : Heap (P3 K)) (opp : ℕ → P3 K) : Prop where
  mem : ∀ i < 4, opp i ∈ Q
  inj : ∀ i < 4, ∀ j < 4, opp i = opp j → i = j
  isV : ∀ i < 4, ∀ v, IsV (h i) v ↔ ∃ j < 4, j ≠ i ∧ v = opp j
  ori : ∀ i < 4, fdet (h i) < 0
  out : ∀ i < 4, fsv (h i) (opp i) < 0

theorem mem4 {i : ℕ} : i ∈ [0, 1, 2, 3] ↔ i < 4 := by
  simp; omega

theorem fsv_vertex {f : Facet (P3 K)} {v : P3 K} (hv : IsV f v) : fsv f v = 0 := by
  unfold fsv
  rcases hv with rfl | rfl | rfl
  · exact sv_a _ _ _
  · exact sv_b _ _ _
  · exact sv_c _ _ _

theorem Tetra.pre (hT : Tetra Q h opp) : PreMesh Q h [0, 1, 2, 3] where
  ne := by simp
  nodup := by decide
  vert := by
    intro i hi v hv
    obtain ⟨j, hj, _, rfl⟩ := (hT.isV i (mem4.mp hi) v).mp hv
    exact hT.mem j hj
  ori := fun i hi => hT.ori i (mem4.mp hi)
  conv := by
    intro i hi j hj v hv
    have hi := mem4.mp hi
    obtain ⟨k, hk, _, rfl⟩ := (hT.isV j (mem4.mp hj) v).mp hv
    by_cases hki : k = i
    · subst hki; exact (hT.out k hk).le
    · exact (fsv_vertex ((hT.isV i hi _).mpr ⟨k, hk, hki, rfl⟩)).le
  dist := by
    intro i hi j hj hs
    have hi := mem4.mp hi
    have hj := mem4.mp hj
    by_contra hne
    obtain ⟨k, hk, hkj, he⟩ := (hT.isV j hj _).mp (hs (opp j) ((hT.isV i hi _).mpr ⟨j, hj, Ne.symm hne, rfl⟩))
    exact hkj (hT.inj j hj k hk he).symm

theorem isEdge_of_ne {g : Facet (P3 K)} {x y : P3 K} (hx : IsV g x) (hy : IsV g y) (hne : x ≠ y) : IsEdge g s(x, y) := by
  unfold IsEdge
  simp only [Sym2.eq_iff]
  rcases hx with rfl | rfl | rfl <;> rcases hy with rfl | rfl | rfl <;> simp at hne ⊢

theorem Tetra.link1 (hg : GenPos eps Q) (hT : Tetra Q h opp) {f x y z : ℕ} (hf : f < 4)
    (hperm : [x, y, z].Perm ([0, 1, 2, 3].erase f)) :
    ∃ h', linkFacet h f x y z = .ok h' ∧ (∀ g, SameV (h' g) (h g)) ∧
      ∀ g j e, Share h [0, 1, 2, 3] g j e → (IsEdge (h f) e → Mut h' g j e) ∧ (Mut h g j e → Mut h' g j e) := by
  obtain ⟨ja, hja, na, ea⟩ := (hT.isV f hf (h f).a).mp (Or.inl rfl)
  obtain ⟨jb, hjb, nb, eb⟩ := (hT.isV f hf (h f).b).mp (Or.inr (Or.inl rfl))
  obtain ⟨jc, hjc, nc, ec⟩ := (hT.isV f hf (h f).c).mp (Or.inr (Or.inr rfl))
  obtain ⟨p1, p2, p3⟩ := hT.pre.proper (mem4.mpr hf)
  have dab : ja ≠ jb := by rintro rfl; exact p1 (ea.trans eb.symm)
  have dbc : jb ≠ jc := by rintro rfl; exact p2 (eb.trans ec.symm)
  have dca : jc ≠ ja := by rintro rfl; exact p3 (ec.trans ea.symm)
  have hva : ∀ g < 4, g ≠ ja → IsV (h g) (h f).a := fun g hg n => (hT.isV g hg _).mpr ⟨ja, hja, n.symm, ea⟩
  have hvb : ∀ g < 4, g ≠ jb → IsV (h g) (h f).b := fun g hg n => (hT.isV g hg _).mpr ⟨jb, hjb, n.symm, eb⟩
  have hvc : ∀ g < 4, g ≠ jc → IsV (h g) (h f).c := fun g hg n => (hT.isV g hg _).mpr ⟨jc, hjc, n.symm, ec⟩
  refine hT.pre.link_step hg (g1 := jc) (g2 := ja) (g3 := jb) (mem4.mpr hf) (mem4.mpr hjc) (mem4.mpr hja) (mem4.mpr hjb) nc na nb
    (hperm.trans ?_) (isEdge_of_ne (hva jc hjc dca) (hvb jc hjc dbc.symm) p1)
    (isEdge_of_ne (hvb ja hja dab) (hvc ja hja dca.symm) p2) (isEdge_of_ne (hvc jb hjb dbc) (hva jb hjb dab.symm) p3)
  refine (List.perm_ext_iff_of_nodup ((by decide : [0, 1, 2, 3].Nodup).erase f) (by simp [dca, dbc.symm, dab])).mpr ?_
  intro k
  rw [(by decide : [0, 1, 2, 3].Nodup).mem_erase_iff, mem4]
  simp only [List.mem_cons, List.not_mem_nil, or_false]
  omega

theorem Tetra.sameV (hT : Tetra Q h opp) {h' : Heap (P3 K)} (hs : ∀ g, SameV (h' g) (h g)) : Tetra Q h' opp where
  mem := hT.mem
  inj := hT.inj
  isV := fun i hi v => (SameV.isV (hs i) v).trans (hT.isV i hi v)
  ori := fun i hi => by rw [SameV.fdet (hs i)]; exact hT.ori i hi
  out := fun i hi => by rw [SameV.fsv (hs i)]; exact hT.out i hi

theorem Tetra.shared (hT : Tetra Q h opp) : ∀ g ∈ [0, 1, 2, 3], ∀ e, IsEdge (h g) e → ∃ j, Share h [0, 1, 2, 3] g j e := by
  intro g hgl e he
  have hg4 := mem4.mp hgl
  induction e using Sym2.ind with
  | _ x y =>
    have key : ∀ x y z, Tri (h g) x y z → ∃ j, Share h [0, 1, 2, 3] g j s(x, y) := by
      intro x y z t
      obtain ⟨jx, hjx, nx, rfl⟩ := (hT.isV g hg4 x).mp ((t.isV x).mpr (by simp))
      obtain ⟨jy, hjy, ny, rfl⟩ := (hT.isV g hg4 y).mp ((t.isV y).mpr (by simp))
      obtain ⟨jz, hjz, nz, rfl⟩ := (hT.isV g hg4 z).mp ((t.isV z).mpr (by simp))
      obtain ⟨d1, d2, d3⟩ := tri_ne (hT.ori g hg4) t
      refine ⟨jz, hgl, mem4.mpr hjz, nz.symm, isEdge_tri.mpr ⟨_, Or.inl t⟩, isEdge_of_ne ?_ ?_ d1⟩
      · exact (hT.isV jz hjz _).mpr ⟨jx, hjx, fun hc => d3 (by rw [hc]), rfl⟩
      · exact (hT.isV jz hjz _).mpr ⟨jy, hjy, fun hc => d2 (by rw [hc]), rfl⟩
    obtain ⟨z, t | t⟩ := isEdge_tri.mp he
    · exact key x y z t
    · rw [Sym2.eq_swap]; exact key y x z t

/-- Linking the four facets gives a closed surface. -/
theorem Tetra.link4 (hg : GenPos eps Q) (st : Hull K) (hT : Tetra Q st.heap opp) (hl : st.live = [0, 1, 2, 3]) :
    ∃ h', ((linkAt st 0 1 (some 2) 3).bind fun st => (linkAt st 1 0 (some 2) 3).bind fun st =>
      (linkAt st 2 1 (some 0) 3).bind fun st => linkAt st 3 1 (some 2) 0) = .ok { st with heap := h' } ∧
      (∀ g, SameV (h' g) (st.heap g)) ∧ Mesh Q h' [0, 1, 2, 3] := by
  have hd : ∀ (h : Heap (P3 K)), ∀ i < 4, deref { st with heap := h } (some i) = .ok (i, h i) := by
    intro h i hi
    unfold deref
    simp only
    rw [if_pos (by rw [hl]; exact mem4.mpr hi)]
  have hlink : ∀ (h h' : Heap (P3 K)) (f x y z : ℕ), f < 4 → x < 4 → y < 4 → z < 4 → linkFacet h f x y z = .ok h' →
      linkAt { st with heap := h } f x (some y) z = .ok { st with heap := h' } := by
    intro h h' f x y z h1 h2 h3 h4 he
    unfold linkAt
    rw [hd h f h1, hd h x h2, hd h y h3, hd h z h4]
    simp only [Except.bind]
    rw [he]
    rfl
  have T0 := hT
  obtain ⟨a0, e0, s0, m0⟩ := T0.link1 hg (f := 0) (x := 1) (y := 2) (z := 3) (by omega) (by decide)
  have T1 := T0.sameV s0
  obtain ⟨a1, e1, s1, m1⟩ := T1.link1 hg (f := 1) (x := 0) (y := 2) (z := 3) (by omega) (by decide)
  have T2 := T1.sameV s1
  obtain ⟨a2, e2, s2, m2⟩ := T2.link1 hg (f := 2) (x := 1) (y := 0) (z := 3) (by omega) (by decide)
  have T3 := T2.sameV s2
  obtain ⟨a3, e3, s3, m3⟩ := T3.link1 hg (f := 3) (x := 1) (y := 2) (z := 0) (by omega) (by decide)
  have T4 := T3.sameV s3
  refine ⟨a3, ?_, ?_, ?_⟩
  · have l0 := hlink st.heap a0 0 1 2 3 (by omega) (by omega) (by omega) (by omega) e0
    rw [show linkAt st 0 1 (some 2) 3 = .ok { st with heap := a0 } from l0]
    simp only [Except.bind]
    have l1 := hlink a0 a1 1 0 2 3 (by omega) (by omega) (by omega) (by omega) e1
    rw [l1]
    simp only
    have l2 := hlink a1 a2 2 1 0 3 (by omega) (by omega) (by omega) (by omega) e2
    rw [l2]
    simp only
    exact hlink a2 a3 3 1 2 0 (by omega) (by omega) (by omega) (by omega) e3
  · intro g
    obtain ⟨x0, y0, z0⟩ := s0 g
    obtain ⟨x1, y1, z1⟩ := s1 g
    obtain ⟨x2, y2, z2⟩ := s2 g
    obtain ⟨x3, y3, z3⟩ := s3 g
    exact ⟨x3.trans (x2.trans (x1.trans x0)), y3.trans (y2.trans (y1.trans y0)), z3.trans (z2.trans (z1.trans z0))⟩
  · refine T4.pre.close T4.shared ?_
    intro g j e S
    have E3 : ∀ k e, IsEdge (a3 k) e → IsEdge (a2 k) e := fun k e h => ((s3 k).isEdge e).mp h
    have E2 : ∀ k e, IsEdge (a2 k) e → IsEdge (a1 k) e := fun k e h => ((s2 k).isEdge e).mp h
    have E1 : ∀ k e, IsEdge (a1 k) e → IsEdge (a0 k) e := fun k e h => ((s1 k).isEdge e).mp h
    have E0 : ∀ k e, IsEdge (a0 k) e → IsEdge (st.heap k) e := fun k e h => ((s0 k).isEdge e).mp h
    have S2 : Share a2 [0, 1, 2, 3] g j e := ⟨S.1, S.2.1, S.2.2.1, E3 _ _ S.2.2.2.1, E3 _ _ S.2.2.2.2⟩
    have S1 : Share a1 [0, 1, 2, 3] g j e := ⟨S.1, S.2.1, S.2.2.1, E2 _ _ S2.2.2.2.1, E2 _ _ S2.2.2.2.2⟩
    have S0 : Share a0 [0, 1, 2, 3] g j e := ⟨S.1, S.2.1, S.2.2.1, E1 _ _ S1.2.2.2.1, E1 _ _ S1.2.2.2.2⟩
    have Sh : Share st.heap [0, 1, 2, 3] g j e := ⟨S.1, S.2.1, S.2.2.1, E0 _ _ S0.2.2.2.1, E0 _ _ S0.2.2.2.2⟩
    have hg4 := mem4.mp S.1
    obtain rfl | rfl | rfl | rfl : g = 0 ∨ g = 1 ∨ g = 2 ∨ g = 3 := by omega
    · exact (m3 _ j e S2).2 ((m2 _ j e S1).2 ((m1 _ j e S0).2 ((m0 _ j e Sh).1 Sh.2.2.2.1)))
    · exact (m3 _ j e S2).2 ((m2 _ j e S1).2 ((m1 _ j e S0).1 S0.2.2.2.1))
    · exact (m3 _ j e S2).2 ((m2 _ j e S1).1 S1.2.2.2.1)
    · exact (m3 _ j e S2).1 S2.2.2.2.1

end

section

variable {eps : K} {P : List (P3 K)}

theorem argmax_spec (key : P3 K → K) (hP : P ≠ []) : ∃ p ∈ P, argmax key P = some p ∧ ∀ q ∈ P, key q ≤ key p := by
  induction P with
  | nil => exact absurd rfl hP
  | cons a P ih =>
    rw [argmax]
    by_cases hn : P = []
    · subst hn
      refine ⟨a, by simp, rfl, ?_⟩
      intro q hq
      rw [List.mem_singleton] at hq
      rw [hq]
    · obtain ⟨p, hp, he, hmax⟩ := ih hn
      rw [he]
      simp only
      by_cases hlt : key a < key p
      · rw [if_pos hlt]
        refine ⟨p, by simp [hp], rfl, ?_⟩
        intro q hq
        rcases List.mem_cons.mp hq with rfl | hq
        · exact hlt.le
        · exact hmax q hq
      · rw [if_neg hlt]
        refine ⟨a, by simp, rfl, ?_⟩
        intro q hq
        rcases List.mem_cons.mp hq with rfl | hq
        · exact le_refl _
        · exact (hmax q hq).trans (not_lt.mp hlt)

/-- The interior point the code chooses. -/
def centreOf (P : List (P3 K)) : Option (P3 K) := (corners P).map fun (a, b, c, d) => centre a b c d

/-- At least four different points, no four of them within `eps` of a plane. -/
structure GenVol (eps : K) (P : List (P3 K)) : Prop where
  nn : 0 ≤ eps
  four : 4 ≤ P.toFinset.card
  vol : ∀ a ∈ P, ∀ b ∈ P, ∀ c ∈ P, ∀ d ∈ P, a ≠ b → a ≠ c → a ≠ d → b ≠ c → b ≠ d → c ≠ d → eps < |sv a b c d|

/-- General position of the input: at least four different points, no four of them within `eps` of a plane and no three of them
within `eps` of a plane through the interior point. -/
structure GenInput (eps : K) (P : List (P3 K)) : Prop extends GenVol eps P where
  det : ∀ o, centreOf P = some o → ∀ a ∈ P, ∀ b ∈ P, ∀ c ∈ P, a ≠ b → a ≠ c → b ≠ c → eps < |sv a b c o|

theorem GenVol.other (hg : GenVol eps P) (T : Finset (P3 K)) (hT : T.card ≤ 3) : ∃ q ∈ P, q ∉ T := by
  obtain ⟨q, hq, hn⟩ := Finset.exists_mem_notMem_of_card_lt_card (s := T) (t := P.toFinset) (by have := hg.four; omega)
  exact ⟨q, List.mem_toFinset.mp hq, hn⟩

theorem GenVol.ne (hg : GenVol eps P) : P ≠ [] := by
  rintro rfl
  have := hg.four
  simp at this

theorem GenVol.quad (hg : GenVol eps P) : ∃ a ∈ P, ∃ b ∈ P, ∃ c ∈ P, ∃ d ∈ P, sv a b c d ≠ 0 := by
  obtain ⟨a, ha, _⟩ := hg.other ∅ (by simp)
  obtain ⟨b, hb, nb⟩ := hg.other {a} (by simp)
  obtain ⟨c, hc, nc⟩ := hg.other {a, b} (by have := Finset.card_le_two (a := a) (b := b); omega)
  obtain ⟨d, hd, nd⟩ := hg.other {a, b, c} Finset.card_le_three
  simp only [Finset.mem_insert, Finset.mem_singleton, not_or] at nb nc nd
  refine ⟨a, ha, b, hb, c, hc, d, hd, fun h0 => ?_⟩
  have := hg.vol a ha b hb c hc d hd (Ne.symm nb) (Ne.symm nc.1) (Ne.symm nd.1) (Ne.symm nc.2) (Ne.symm nd.2.1) (Ne.symm nd.2.2)
  rw [h0, abs_zero] at this
  exact absurd hg.nn (not_le.mpr this)

theorem sv_flat (k : Fin 3) (a b c d : P3 K) (h1 : b k = a k) (h2 : c k = a k) (h3 : d k = a k) : sv a b c d = 0 := by
  rw [sv_poly]
  fin_cases k <;> simp only [Fin.zero_eta, Fin.mk_one, Fin.reduceFinMk] at h1 h2 h3 <;> rw [h1, h2, h3] <;> ring

/-- The points are spread along every axis. -/
theorem GenVol.spread (hg : GenVol eps P) (k : Fin 3) : ∃ x ∈ P, ∃ y ∈ P, argmax (fun p => -p k) P = some x ∧
    argmax (fun p => p k) P = some y ∧ x ≠ y := by
  obtain ⟨x, hx, ex, mx⟩ := argmax_spec (fun p => -p k) hg.ne
  obtain ⟨y, hy, ey, my⟩ := argmax_spec (fun p => p k) hg.ne
  refine ⟨x, hx, y, hy, ex, ey, ?_⟩
  rintro rfl
  obtain ⟨a, ha, b, hb, c, hc, d, hd, h0⟩ := hg.quad
  have heq : ∀ q ∈ P, q k = x k := fun q hq => le_antisymm (my q hq) (neg_le_neg_iff.mp (mx q hq))
  exact h0 (sv_flat k a b c d ((heq b hb).trans (heq a ha).symm) ((heq c hc).trans (heq a ha).symm)
    ((heq d hd).trans (heq a ha).symm))

theorem GenVol.extremes (hg : GenVol eps P) : ∃ x ∈ P, ∃ y ∈ P, extremes P = some (x, y) ∧ x ≠ y := by
  obtain ⟨x0, hx0, x1, hx1, e1, e2, n0⟩ := hg.spread 0
  obtain ⟨y0, hy0, y1, hy1, e3, e4, n1⟩ := hg.spread 1
  obtain ⟨z0, hz0, z1, hz1, e5, e6, n2⟩ := hg.spread 2
  unfold QHull.extremes
  simp only [e1, e2, e3, e4, e5, e6]
  split
  · exact ⟨x0, hx0, x1, hx1, rfl, n0⟩
  · split
    · exact ⟨y0, hy0, y1, hy1, rfl, n1⟩
    · exact ⟨z0, hz0, z1, hz1, rfl, n2⟩

theorem dot3 (u v : P3 K) : dot u v = u 0 * v 0 + u 1 * v 1 + u 2 * v 2 := by
  unfold dot
  rw [Fin.sum_univ_three]

theorem sv_cross (x1 x2 y q : P3 K) :
    dot (fun i => y i - q i) (cross3 (fun i => x1 i - y i) fun i => x2 i - y i) = sv x1 x2 y q := by
  rw [sv_poly, dot3]
  unfold cross3
  simp
  ring

theorem dot_self_zero (u : P3 K) (h : dot u u ≤ 0) : ∀ i, u i = 0 := by
  rw [dot3] at h
  have h0 := mul_self_nonneg (u 0)
  have h1 := mul_self_nonneg (u 1)
  have h2 := mul_self_nonneg (u 2)
  intro i
  fin_cases i
  · show u 0 = 0
    exact mul_self_eq_zero.mp (le_antisymm (by linarith) h0)
  · show u 1 = 0
    exact mul_self_eq_zero.mp (le_antisymm (by linarith) h1)
  · show u 2 = 0
    exact mul_self_eq_zero.mp (le_antisymm (by linarith) h2)

/-- The corners of the first simplex are four different points. -/
theorem GenVol.corners (hg : GenVol eps P) : ∃ a ∈ P, ∃ b ∈ P, ∃ c ∈ P, ∃ d ∈ P, corners P = some (a, b, c, d) ∧
    a ≠ b ∧ a ≠ c ∧ a ≠ d ∧ b ≠ c ∧ b ≠ d ∧ c ≠ d := by
  obtain ⟨x1, hx1, x2, hx2, he, hne⟩ := hg.extremes
  have hpos : ∀ a ∈ P, ∀ b ∈ P, ∀ c ∈ P, ∀ d ∈ P, a ≠ b → a ≠ c → a ≠ d → b ≠ c → b ≠ d → c ≠ d → 0 < |sv a b c d| :=
    fun a ha b hb c hc d hd n1 n2 n3 n4 n5 n6 => lt_of_le_of_lt hg.nn (hg.vol a ha b hb c hc d hd n1 n2 n3 n4 n5 n6)
  obtain ⟨y, hy, ey, my⟩ := argmax_spec (P := P) (fun p => dot (cross3 (fun i => x1 i - p i) fun i => x2 i - p i)
    (cross3 (fun i => x1 i - p i) fun i => x2 i - p i)) hg.ne
  obtain ⟨z, hz, ez, mz⟩ := argmax_spec (P := P)
    (fun p => |dot (fun i => y i - p i) (cross3 (fun i => x1 i - y i) fun i => x2 i - y i)|) hg.ne
  simp only [sv_cross] at mz
  -- the third corner is off the line through the first two
  have hoff : ¬ ∀ i, cross3 (fun i => x1 i - y i) (fun i => x2 i - y i) i = 0 := by
    intro h0
    have hall : ∀ q ∈ P, ∀ i, cross3 (fun i => x1 i - q i) (fun i => x2 i - q i) i = 0 := by
      intro q hq
      refine dot_self_zero _ ((my q hq).trans ?_)
      rw [dot3, h0 0, h0 1, h0 2]
      simp
    obtain ⟨c, hc, nc⟩ := hg.other {x1, x2} (by have := Finset.card_le_two (a := x1) (b := x2); omega)
    obtain ⟨d, hd, nd⟩ := hg.other {x1, x2, c} Finset.card_le_three
    simp only [Finset.mem_insert, Finset.mem_singleton, not_or] at nc nd
    have := hpos x1 hx1 x2 hx2 c hc d hd hne (Ne.symm nc.1) (Ne.symm nd.1) (Ne.symm nc.2) (Ne.symm nd.2.1) (Ne.symm nd.2.2)
    rw [← sv_cross, dot3, hall c hc 0, hall c hc 1, hall c hc 2] at this
    simp at this
  have ny1 : x1 ≠ y := by
    rintro rfl
    refine hoff fun i => ?_
    unfold cross3
    simp
  have ny2 : x2 ≠ y := by
    rintro rfl
    refine hoff fun i => ?_
    unfold cross3
    simp
  have hz0 : sv x1 x2 y z ≠ 0 := by
    obtain ⟨d, hd, nd⟩ := hg.other {x1, x2, y} Finset.card_le_three
    simp only [Finset.mem_insert, Finset.mem_singleton, not_or] at nd
    have h1 := hpos x1 hx1 x2 hx2 y hy d hd hne ny1 (Ne.symm nd.1) ny2 (Ne.symm nd.2.1) (Ne.symm nd.2.2)
    have h2 := mz d hd
    intro h0
    rw [h0, abs_zero] at h2
    linarith
  refine ⟨x1, hx1, x2, hx2, y, hy, z, hz, ?_, hne, ny1, ?_, ny2, ?_, ?_⟩
  · unfold QHull.corners
    rw [he]
    simp only [Option.bind_some]
    rw [ey]
    simp only [Option.bind_some]
    rw [ez]
    rfl
  · rintro rfl; exact hz0 (sv_a _ _ _)
  · rintro rfl; exact hz0 (sv_b _ _ _)
  · rintro rfl; exact hz0 (sv_c _ _ _)

end

section

variable {eps : K} {Q : List (P3 K)}

theorem mkLinked_isV (eps : K) (a b c v : P3 K) : IsV (mkLinked eps a b c) v ↔ v = a ∨ v = b ∨ v = c := by
  unfold mkLinked IsV
  split
  · simp only; tauto
  · rfl

theorem mkLinked_det (hg : GenPos eps Q) {a b c : P3 K} (ha : a ∈ Q) (hb : b ∈ Q) (hc : c ∈ Q) (h1 : a ≠ b) (h2 : a ≠ c)
    (h3 : b ≠ c) : fdet (mkLinked eps a b c) < 0 := by
  have h := hg.det a ha b hb c hc h1 h2 h3
  have := hg.nn
  unfold mkLinked fdet
  split
  · simp only
    rw [det3_swap_last]
    linarith
  · rename_i hn
    simp only
    by_contra hc
    rw [abs_of_nonneg (not_lt.mp hc)] at h
    exact hn h

theorem mkLinked_out (hg : GenPos eps Q) {a b c d : P3 K} (ha : a ∈ Q) (hb : b ∈ Q) (hc : c ∈ Q) (h1 : a ≠ b) (h2 : a ≠ c)
    (h3 : b ≠ c) (hs : ∀ i, a i + b i + c i + d i = 0) : fsv (mkLinked eps a b c) d < 0 := by
  have hd := mkLinked_det hg ha hb hc h1 h2 h3
  have key : ∀ a b c : P3 K, (∀ i, a i + b i + c i + d i = 0) → sv a b c d = 4 * det3 a b c := by
    intro a b c hs
    have e : ∀ i, d i = -(a i + b i + c i) := fun i => by have := hs i; linarith
    rw [sv_poly, e 0, e 1, e 2]
    unfold det3
    ring
  unfold fsv fdet mkLinked at *
  split at hd
  · rename_i h
    rw [if_pos h]
    simp only at hd ⊢
    rw [key a c b (fun i => by have := hs i; linarith)]
    linarith
  · rename_i h
    rw [if_neg h]
    simp only at hd ⊢
    rw [key a b c hs]
    linarith

/-- The translation that puts the interior point at the origin. -/
def tr (o p : P3 K) : P3 K := fun i => p i - o i

theorem tr_inj {o p q : P3 K} (h : tr o p = tr o q) : p = q := by
  funext i
  have := congrFun h i
  unfold tr at this
  linarith

theorem sv_tr (o a b c d : P3 K) : sv (tr o a) (tr o b) (tr o c) (tr o d) = sv a b c d := by
  simp only [sv_poly, tr]
  ring

theorem det_tr (o a b c : P3 K) : det3 (tr o a) (tr o b) (tr o c) = sv a b c o := by
  simp only [sv_poly, tr, det3]
  ring

/-- The input in general position, after the translation. -/
theorem GenInput.genPos {P : List (P3 K)} (hg : GenInput eps P) {o : P3 K} (ho : centreOf P = some o) :
    GenPos eps (P.map (tr o)) := by
  refine ⟨hg.nn, ?_, ?_⟩
  · intro a ha b hb c hc d hd n1 n2 n3 n4 n5 n6
    obtain ⟨a, ha', rfl⟩ := List.mem_map.mp ha
    obtain ⟨b, hb', rfl⟩ := List.mem_map.mp hb
    obtain ⟨c, hc', rfl⟩ := List.mem_map.mp hc
    obtain ⟨d, hd', rfl⟩ := List.mem_map.mp hd
    rw [sv_tr]
    exact hg.vol a ha' b hb' c hc' d hd' (fun h => n1 (h ▸ rfl)) (fun h => n2 (h ▸ rfl)) (fun h => n3 (h ▸ rfl))
      (fun h => n4 (h ▸ rfl)) (fun h => n5 (h ▸ rfl)) (fun h => n6 (h ▸ rfl))
  · intro a ha b hb c hc n1 n2 n3
    obtain ⟨a, ha', rfl⟩ := List.mem_map.mp ha
    obtain ⟨b, hb', rfl⟩ := List.mem_map.mp hb
    obtain ⟨c, hc', rfl⟩ := List.mem_map.mp hc
    rw [det_tr]
    exact hg.det o ho a ha' b hb' c hc' (fun h => n1 (h ▸ rfl)) (fun h => n2 (h ▸ rfl)) (fun h => n3 (h ▸ rfl))

/-- The facets of the first simplex. -/
def tetHeap (eps : K) (a b c d : P3 K) : Heap (P3 K) := fun i => if i = 0 then mkLinked eps a b c
  else if i = 1 then mkLinked eps a b d else if i = 2 then mkLinked eps c d b else mkLinked eps c d a

/-- The vertex opposite to each of them. -/
def tetOpp (a b c d : P3 K) : ℕ → P3 K := fun i => if i = 0 then d else if i = 1 then c else if i = 2 then a else b

theorem tetra_init (hg : GenPos eps Q) {a b c d : P3 K} (h1 : a ∈ Q) (h2 : b ∈ Q) (h3 : c ∈ Q) (h4 : d ∈ Q) (n12 : a ≠ b)
    (n13 : a ≠ c) (n14 : a ≠ d) (n23 : b ≠ c) (n24 : b ≠ d) (n34 : c ≠ d) (hsum : ∀ i, a i + b i + c i + d i = 0) :
    Tetra Q (tetHeap eps a b c d) (tetOpp a b c d) := by
  have o0 : tetOpp a b c d 0 = d := rfl
  have o1 : tetOpp a b c d 1 = c := rfl
  have o2 : tetOpp a b c d 2 = a := rfl
  have o3 : tetOpp a b c d 3 = b := rfl
  have f0 : tetHeap eps a b c d 0 = mkLinked eps a b c := rfl
  have f1 : tetHeap eps a b c d 1 = mkLinked eps a b d := rfl
  have f2 : tetHeap eps a b c d 2 = mkLinked eps c d b := rfl
  have f3 : tetHeap eps a b c d 3 = mkLinked eps c d a := rfl
  refine ⟨?_, ?_, ?_, ?_, ?_⟩
  · intro i hi
    interval_cases i
    · exact h4
    · exact h3
    · exact h1
    · exact h2
  · intro i hi j hj he
    by_contra hne
    interval_cases i <;> interval_cases j <;> simp only [o0, o1, o2, o3] at he <;>
      first
        | exact hne rfl | exact n12 he | exact n12 he.symm | exact n13 he | exact n13 he.symm | exact n14 he
        | exact n14 he.symm | exact n23 he | exact n23 he.symm | exact n24 he | exact n24 he.symm
        | exact n34 he | exact n34 he.symm
  · intro i hi v
    constructor
    · intro hv
      interval_cases i
      · rw [f0, mkLinked_isV] at hv
        rcases hv with rfl | rfl | rfl
        · exact ⟨2, by omega, by omega, rfl⟩
        · exact ⟨3, by omega, by omega, rfl⟩
        · exact ⟨1, by omega, by omega, rfl⟩
      · rw [f1, mkLinked_isV] at hv
        rcases hv with rfl | rfl | rfl
        · exact ⟨2, by omega, by omega, rfl⟩
        · exact ⟨3, by omega, by omega, rfl⟩
        · exact ⟨0, by omega, by omega, rfl⟩
      · rw [f2, mkLinked_isV] at hv
        rcases hv with rfl | rfl | rfl
        · exact ⟨1, by omega, by omega, rfl⟩
        · exact ⟨0, by omega, by omega, rfl⟩
        · exact ⟨3, by omega, by omega, rfl⟩
      · rw [f3, mkLinked_isV] at hv
        rcases hv with rfl | rfl | rfl
        · exact ⟨1, by omega, by omega, rfl⟩
        · exact ⟨0, by omega, by omega, rfl⟩
        · exact ⟨2, by omega, by omega, rfl⟩
    · rintro ⟨j, hj, hji, rfl⟩
      interval_cases i <;> interval_cases j <;> simp only [f0, f1, f2, f3, o0, o1, o2, o3, mkLinked_isV] <;>
        first
          | exact absurd rfl hji | simp
  · intro i hi
    interval_cases i
    · exact mkLinked_det hg h1 h2 h3 n12 n13 n23
    · exact mkLinked_det hg h1 h2 h4 n12 n14 n24
    · exact mkLinked_det hg h3 h4 h2 n34 n23.symm n24.symm
    · exact mkLinked_det hg h3 h4 h1 n34 n13.symm n14.symm
  · intro i hi
    interval_cases i
    · exact mkLinked_out hg h1 h2 h3 n12 n13 n23 hsum
    · exact mkLinked_out (d := c) hg h1 h2 h4 n12 n14 n24 fun i => by have := hsum i; linarith
    · exact mkLinked_out (d := a) hg h3 h4 h2 n34 n23.symm n24.symm fun i => by have := hsum i; linarith
    · exact mkLinked_out (d := b) hg h3 h4 h1 n34 n13.symm n14.symm fun i => by have := hsum i; linarith

/-- The first simplex: the surface is closed and convex, and no point is lost. -/
theorem initSerial_ok {P : List (P3 K)} (hg : GenInput eps P) : ∃ o st, centreOf P = some o ∧ initSerial eps P = .ok (st, o) ∧
    Good (P.map (tr o)) st ∧ total st ≤ P.length := by
  obtain ⟨c1, h1, c2, h2, c3, h3, c4, h4, hc, n12, n13, n14, n23, n24, n34⟩ := hg.corners
  set o := centre c1 c2 c3 c4 with ho
  have hcen : centreOf P = some o := by
    unfold centreOf
    rw [hc]
    rfl
  have hg' := hg.genPos hcen
  set Q := P.map (tr o) with hQ
  have m : ∀ {c}, c ∈ P → tr o c ∈ Q := fun hc => List.mem_map.mpr ⟨_, hc, rfl⟩
  have ne : ∀ {a b : P3 K}, a ≠ b → tr o a ≠ tr o b := fun h hc => h (tr_inj hc)
  have hsum : ∀ i, tr o c1 i + tr o c2 i + tr o c3 i + tr o c4 i = 0 := by
    intro i
    rw [ho]
    unfold tr centre
    linarith
  set h : Heap (P3 K) := tetHeap eps (tr o c1) (tr o c2) (tr o c3) (tr o c4) with hh
  have hT := tetra_init hg' (m h1) (m h2) (m h3) (m h4) (ne n12) (ne n13) (ne n14) (ne n23) (ne n24) (ne n34) hsum
  set L : List (Vtx K) := Q.map fun p => (p, 0) with hL
  set pts := L.foldl (place eps h [0, 1, 2, 3]) fun _ => [] with hpts
  obtain ⟨h', hl, hs, hM⟩ := hT.link4 hg' ⟨h, [0, 1, 2, 3], pts, 4, 0, 4⟩ rfl
  simp only at hl hs
  have hkeep : ∀ k ∈ [0, 1, 2, 3], ∀ q ∈ Q, keep eps (h k) q = true ↔ 0 < fsv (h' k) q := by
    intro k hk q hq
    rw [SameV.fsv (hs k)]
    exact hg'.keep_iff (hT.pre.vert k hk) (hT.pre.ori k hk) hq
  refine ⟨o, ⟨h', [0, 1, 2, 3], pts, 4, 0, 4⟩, hcen, ?_, ⟨hM, ?_, ?_, rfl, ?_, ?_⟩, ?_⟩
  · unfold initSerial
    rw [hc]
    simp only
    have hrun : ((linkAt ⟨h, [0, 1, 2, 3], pts, 4, 0, 4⟩ 0 1 (some 2) 3).bind fun st => (linkAt st 1 0 (some 2) 3).bind fun st =>
        (linkAt st 2 1 (some 0) 3).bind fun st => (linkAt st 3 1 (some 2) 0).map fun st => (st, o)) =
        (((linkAt ⟨h, [0, 1, 2, 3], pts, 4, 0, 4⟩ 0 1 (some 2) 3).bind fun st => (linkAt st 1 0 (some 2) 3).bind fun st =>
        (linkAt st 2 1 (some 0) 3).bind fun st => linkAt st 3 1 (some 2) 0).map fun st => (st, o)) := by
      cases linkAt (⟨h, [0, 1, 2, 3], pts, 4, 0, 4⟩ : Hull K) 0 1 (some 2) 3 with
      | error e => rfl
      | ok s1 =>
        simp only [Except.bind]
        cases linkAt s1 1 0 (some 2) 3 with
        | error e => rfl
        | ok s2 =>
          simp only
          cases linkAt s2 2 1 (some 0) 3 with
          | error e => rfl
          | ok s3 => rfl
    rw [hl] at hrun
    exact hrun
  · intro i hi
    exact mem4.mp hi
  · show 0 ∈ [0, 1, 2, 3]
    simp
  · intro i hi v hv
    rw [show (Hull.pts _ i) = pts i from rfl, hpts, foldl_place, List.nil_append] at hv
    obtain ⟨w, hw, rfl⟩ := List.mem_map.mp hv
    obtain ⟨hwL, hwf⟩ := List.mem_filter.mp hw
    have hwQ : w.1 ∈ Q := by
      obtain ⟨q, hq, rfl⟩ := List.mem_map.mp hwL
      exact hq
    exact ⟨hwQ, rfl, (hkeep i hi w.1 hwQ).mp (List.find?_some (p := fun j => keep eps (h j) w.1) (of_decide_eq_true hwf))⟩
  · intro q hq
    show (∃ i ∈ [0, 1, 2, 3], ∃ v ∈ pts i, v.1 = q) ∨ ∀ i ∈ [0, 1, 2, 3], fsv (h' i) q ≤ 0
    cases hf : [0, 1, 2, 3].find? fun j => keep eps (h j) q with
    | some k =>
      refine Or.inl ⟨k, List.mem_of_find?_eq_some hf, (q, k), ?_, rfl⟩
      rw [hpts, foldl_place]
      refine List.mem_append_right _ (List.mem_map.mpr ⟨(q, 0), List.mem_filter.mpr ⟨List.mem_map.mpr ⟨q, hq, rfl⟩, ?_⟩, rfl⟩)
      exact decide_eq_true hf
    | none =>
      refine Or.inr fun i hi => ?_
      have h1 := List.find?_eq_none.mp hf i hi
      by_contra hc
      exact h1 ((hkeep i hi q hq).mpr (not_le.mp hc))
  · show ([0, 1, 2, 3].map fun i => (pts i).length).sum ≤ P.length
    have h1 := sum_place_le eps h [0, 1, 2, 3] (by decide) L (fun _ => [])
    have h2 := List.length_filter_le (fun v : Vtx K => ([0, 1, 2, 3].find? fun j => keep eps (h j) v.1).isSome) L
    have h3 : L.length = P.length := by rw [hL, List.length_map, hQ, List.length_map]
    rw [← hpts] at h1
    have hz : ([0, 1, 2, 3].map fun k => ((fun _ => [] : ℕ → List (Vtx K)) k).length).sum = 0 := by simp
    rw [hz] at h1
    omega

end

end Verif.QHull
