import Verif.QHull.Frontier

set_option linter.unusedSectionVars false
set_option linter.unusedVariables false

/-!
Linking facets in convex position.
-/

namespace Verif.QHull

open Verif Verif.Hull3d

variable {K : Type} [Field K] [LinearOrder K] [IsStrictOrderedRing K]

/-- The two facets point to each other across the edge. -/
def Mut (h : Heap (P3 K)) (g j : ℕ) (e : Sym2 (P3 K)) : Prop := Across (h g) e j ∧ Across (h j) e g

/-- Two different facets share the edge. -/
def Share (h : Heap (P3 K)) (live : List ℕ) (g j : ℕ) (e : Sym2 (P3 K)) : Prop :=
  g ∈ live ∧ j ∈ live ∧ g ≠ j ∧ IsEdge (h g) e ∧ IsEdge (h j) e

section

variable {eps : K} {Q : List (P3 K)} {h h' : Heap (P3 K)} {live : List ℕ}

theorem across_isEdge {g : Facet (P3 K)} {e : Sym2 (P3 K)} {t : ℕ} (ha : Across g e t) : IsEdge g e := by
  unfold Across at ha
  unfold IsEdge
  tauto

theorem isEdge_tri {g : Facet (P3 K)} {x y : P3 K} : IsEdge g s(x, y) ↔ ∃ z, Tri g x y z ∨ Tri g y x z := by
  unfold IsEdge Tri
  simp only [Sym2.eq_iff]
  constructor
  · rintro ((⟨h1, h2⟩ | ⟨h1, h2⟩) | (⟨h1, h2⟩ | ⟨h1, h2⟩) | (⟨h1, h2⟩ | ⟨h1, h2⟩))
    · exact ⟨g.c, by simp [h1, h2]⟩
    · exact ⟨g.c, by simp [h1, h2]⟩
    · exact ⟨g.a, by simp [h1, h2]⟩
    · exact ⟨g.a, by simp [h1, h2]⟩
    · exact ⟨g.b, by simp [h1, h2]⟩
    · exact ⟨g.b, by simp [h1, h2]⟩
  · rintro ⟨z, (⟨h1, h2, _⟩ | ⟨h1, h2, _⟩ | ⟨h1, h2, _⟩) | (⟨h1, h2, _⟩ | ⟨h1, h2, _⟩ | ⟨h1, h2, _⟩)⟩ <;> subst h1 <;> subst h2 <;> simp

theorem isEdge_vert {g : Facet (P3 K)} {x y : P3 K} (h : IsEdge g s(x, y)) : IsV g x ∧ IsV g y := by
  obtain ⟨z, t | t⟩ := isEdge_tri.mp h
  · exact ⟨(t.isV x).mpr (by simp), (t.isV y).mpr (by simp)⟩
  · exact ⟨(t.isV x).mpr (by simp), (t.isV y).mpr (by simp)⟩

theorem SameV.isV {g g' : Facet (P3 K)} (h : SameV g g') (v : P3 K) : IsV g v ↔ IsV g' v := by
  obtain ⟨h1, h2, h3⟩ := h
  unfold IsV
  rw [h1, h2, h3]

theorem SameV.fsv {g g' : Facet (P3 K)} (h : SameV g g') (p : P3 K) : fsv g p = fsv g' p := by
  obtain ⟨h1, h2, h3⟩ := h
  unfold QHull.fsv
  rw [h1, h2, h3]

theorem SameV.fdet {g g' : Facet (P3 K)} (h : SameV g g') : fdet g = fdet g' := by
  obtain ⟨h1, h2, h3⟩ := h
  unfold QHull.fdet
  rw [h1, h2, h3]

theorem PreMesh.sameV (hM : PreMesh Q h live) (hs : ∀ g, SameV (h' g) (h g)) : PreMesh Q h' live where
  ne := hM.ne
  nodup := hM.nodup
  vert := fun i hi v hv => hM.vert i hi v ((SameV.isV (hs i) v).mp hv)
  ori := fun i hi => by rw [SameV.fdet (hs i)]; exact hM.ori i hi
  conv := fun i hi j hj v hv => by rw [SameV.fsv (hs i)]; exact hM.conv i hi j hj v ((SameV.isV (hs j) v).mp hv)
  dist := fun i hi j hj hv => hM.dist i hi j hj fun v h => (SameV.isV (hs j) v).mp (hv v ((SameV.isV (hs i) v).mpr h))

theorem PreMesh.proper (hM : PreMesh Q h live) {i : ℕ} (hi : i ∈ live) : Proper (h i) :=
  tri_ne (hM.ori i hi) (Tri.self _)

/-- An edge belongs to at most two facets. -/
theorem PreMesh.two (hg : GenPos eps Q) (hM : PreMesh Q h live) {f g j : ℕ} {e : Sym2 (P3 K)} (hf : f ∈ live) (hgl : g ∈ live)
    (hj : j ∈ live) (h1 : IsEdge (h f) e) (h2 : IsEdge (h g) e) (h3 : IsEdge (h j) e) (n1 : g ≠ f) (n2 : j ≠ f) : g = j := by
  induction e using Sym2.ind with
  | _ x y =>
    have key : ∀ x y : P3 K, ∀ z, Tri (h f) x y z → IsEdge (h g) s(x, y) → IsEdge (h j) s(x, y) → g = j := by
      intro x y z tf h2 h3
      obtain ⟨u, tg | tg⟩ := isEdge_tri.mp h2
      · exact absurd (hM.uniq hg hgl hf tg tf) n1
      · obtain ⟨w, tj | tj⟩ := isEdge_tri.mp h3
        · exact absurd (hM.uniq hg hj hf tj tf) n2
        · exact hM.uniq hg hgl hj tg tj
    obtain ⟨z, t | t⟩ := isEdge_tri.mp h1
    · exact key x y z t h2 h3
    · exact key y x z t (Sym2.eq_swap ▸ h2) (Sym2.eq_swap ▸ h3)

/-- Two different facets share at most one edge. -/
theorem PreMesh.one (hM : PreMesh Q h live) {f g : ℕ} (hf : f ∈ live) (hgl : g ∈ live) (hne : g ≠ f) {x y z : P3 K}
    (ht : Tri (h f) x y z) (h1 : IsEdge (h g) s(x, y)) (e : Sym2 (P3 K)) (he : IsEdge (h f) e) :
    IsEdge (h g) e ↔ e = s(x, y) := by
  constructor
  · intro h2
    by_contra hn
    refine hne (hM.dist f hf g hgl ?_).symm
    intro v hv
    have e' : e = s(x, y) ∨ e = s(y, z) ∨ e = s(z, x) := by
      unfold IsEdge at he
      rcases ht with ⟨h1, h2, h3⟩ | ⟨h1, h2, h3⟩ | ⟨h1, h2, h3⟩ <;> rw [h1, h2, h3] at he <;> tauto
    have hz : IsV (h g) z := by
      rcases e' with rfl | rfl | rfl
      · exact absurd rfl hn
      · exact (isEdge_vert h2).2
      · exact (isEdge_vert h2).1
    rw [ht.isV] at hv
    rcases hv with rfl | rfl | rfl
    · exact (isEdge_vert h1).1
    · exact (isEdge_vert h1).2
    · exact hz
  · rintro rfl; exact h1

/-- Linking one facet with its three neighbours. -/
theorem PreMesh.link_step (hg : GenPos eps Q) (hM : PreMesh Q h live) {f g1 g2 g3 x y z : ℕ} (hf : f ∈ live) (hg1 : g1 ∈ live)
    (hg2 : g2 ∈ live) (hg3 : g3 ∈ live) (n1 : g1 ≠ f) (n2 : g2 ≠ f) (n3 : g3 ≠ f) (hperm : [x, y, z].Perm [g1, g2, g3])
    (e1 : IsEdge (h g1) s((h f).a, (h f).b)) (e2 : IsEdge (h g2) s((h f).b, (h f).c))
    (e3 : IsEdge (h g3) s((h f).c, (h f).a)) :
    ∃ h', linkFacet h f x y z = .ok h' ∧ (∀ g, SameV (h' g) (h g)) ∧
      ∀ g j e, Share h live g j e → (IsEdge (h f) e → Mut h' g j e) ∧ (Mut h g j e → Mut h' g j e) := by
  have tf := Tri.self (h f)
  obtain ⟨h', hl, hm, _, hs, hk, _⟩ := c47_link_mutual h f g1 g2 g3 x y z (hM.proper hf) hperm (hM.proper hg1) (hM.proper hg2)
    (hM.proper hg3) (hM.one hf hg1 n1 tf e1) (hM.one hf hg2 n2 tf.rot e2) (hM.one hf hg3 n3 tf.rot.rot e3)
  refine ⟨h', hl, hs, ?_⟩
  -- the neighbour across an edge of the facet
  have hnb : ∀ e, IsEdge (h f) e → ∃ w ∈ live, w ≠ f ∧ IsEdge (h w) e ∧ Mut h' f w e := by
    rintro e (rfl | rfl | rfl)
    · exact ⟨g1, hg1, n1, e1, hm g1 _ (Or.inl ⟨rfl, rfl⟩)⟩
    · exact ⟨g2, hg2, n2, e2, hm g2 _ (Or.inr (Or.inl ⟨rfl, rfl⟩))⟩
    · exact ⟨g3, hg3, n3, e3, hm g3 _ (Or.inr (Or.inr ⟨rfl, rfl⟩))⟩
  intro g j e ⟨sg, sj, sne, seg, sej⟩
  have hA : IsEdge (h f) e → Mut h' g j e := by
    intro he
    obtain ⟨w, hw, hwf, hwe, hmu⟩ := hnb e he
    by_cases hgf : g = f
    · subst hgf
      rw [hM.two hg hf sj hw he sej hwe sne.symm hwf]
      exact hmu
    · have hgw := hM.two hg hf sg hw he seg hwe hgf hwf
      subst hgw
      by_cases hjf : j = f
      · subst hjf
        exact ⟨hmu.2, hmu.1⟩
      · exact absurd (hM.two hg hf sj hw he sej hwe hjf hwf).symm sne
  refine ⟨hA, ?_⟩
  intro hmu
  by_cases he : IsEdge (h f) e
  · exact hA he
  · have hgf : g ≠ f := fun hc => he (hc ▸ seg)
    have hjf : j ≠ f := fun hc => he (hc ▸ sej)
    exact ⟨(hk g hgf e he j).mpr hmu.1, (hk j hjf e he g).mpr hmu.2⟩

/-- Facets in convex position of which every edge is shared, with pointers across it, form a closed surface. -/
theorem PreMesh.close (hM : PreMesh Q h live) (hc : ∀ g ∈ live, ∀ e, IsEdge (h g) e → ∃ j, Share h live g j e)
    (hm : ∀ g j e, Share h live g j e → Mut h g j e) : Mesh Q h live := by
  refine ⟨hM, ?_⟩
  intro i hi d o hd
  have he : IsEdge (h i) s(d.1, d.2) := by
    obtain ⟨z, t⟩ := hd.tri
    exact isEdge_tri.mpr ⟨z, Or.inl t⟩
  obtain ⟨j, hS⟩ := hc i hi _ he
  obtain ⟨m1, m2⟩ := hm i j _ hS
  refine ⟨j, hS.2.1, hS.2.2.1.symm, ?_, m2⟩
  obtain ⟨p1, p2, p3⟩ := hM.proper hi
  unfold Across at m1
  rcases hd with ⟨rfl, rfl⟩ | ⟨rfl, rfl⟩ | ⟨rfl, rfl⟩ <;> simp only [Sym2.eq_iff] at m1 <;>
  · rcases m1 with ⟨m1, m2⟩ | ⟨m1, m2⟩ | ⟨m1, m2⟩ <;>
    first
      | exact m2
      | (exfalso
         rcases m1 with ⟨k1, k2⟩ | ⟨k1, k2⟩ <;>
         first | exact p1 k1 | exact p1 k1.symm | exact p2 k1 | exact p2 k1.symm | exact p3 k1 | exact p3 k1.symm
               | exact p1 k2 | exact p1 k2.symm | exact p2 k2 | exact p2 k2.symm | exact p3 k2)

/-- In a closed surface facets that share an edge point to each other. -/
theorem Mesh.mut (hg : GenPos eps Q) (hM : Mesh Q h live) {g j : ℕ} {e : Sym2 (P3 K)} (hS : Share h live g j e) : Mut h g j e := by
  have key : ∀ g j e, Share h live g j e → Across (h g) e j := by
    intro g j e ⟨h1, h2, h3, h4, h5⟩
    obtain ⟨d, o, hd, he, ha⟩ : ∃ d o, IsDart (h g) d o ∧ e = s(d.1, d.2) ∧ ∀ t, o = some t → Across (h g) e t := by
      rcases h4 with rfl | rfl | rfl
      · exact ⟨_, _, Or.inl ⟨rfl, rfl⟩, rfl, fun t ht => Or.inl ⟨rfl, ht⟩⟩
      · exact ⟨_, _, Or.inr (Or.inl ⟨rfl, rfl⟩), rfl, fun t ht => Or.inr (Or.inl ⟨rfl, ht⟩)⟩
      · exact ⟨_, _, Or.inr (Or.inr ⟨rfl, rfl⟩), rfl, fun t ht => Or.inr (Or.inr ⟨rfl, ht⟩)⟩
    subst he
    obtain ⟨j', hj', hne, ho, ha'⟩ := hM.link g h1 d o hd
    have := hM.two hg h1 hj' h2 h4 (across_isEdge ha') h5 hne h3.symm
    subst this
    exact ha _ ho
  exact ⟨key g j e hS, key j g e ⟨hS.2.1, hS.1, hS.2.2.1.symm, hS.2.2.2.2, hS.2.2.2.1⟩⟩

end

end Verif.QHull
