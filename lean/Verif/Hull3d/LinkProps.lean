import Mathlib.Data.Sym.Sym2
import Mathlib.Data.List.Perm.Basic
import Mathlib.Tactic.Tauto
import Verif.Hull3d.LinkModel

set_option linter.unusedSectionVars false
set_option linter.unusedVariables false

/-!
Property C47: linking facets.
-/

namespace Verif.Hull3d

open Verif

variable {V : Type} [DecidableEq V]

/-- Specification: the facet `g` points to the facet `t` across the undirected edge `e`. -/
def Across (g : Facet V) (e : Sym2 V) (t : ℕ) : Prop :=
  (e = s(g.a, g.b) ∧ g.ab = some t) ∨ (e = s(g.b, g.c) ∧ g.bc = some t) ∨ (e = s(g.c, g.a) ∧ g.ca = some t)

/-- `e` is an edge of the facet. -/
def IsEdge (g : Facet V) (e : Sym2 V) : Prop := e = s(g.a, g.b) ∨ e = s(g.b, g.c) ∨ e = s(g.c, g.a)

/-- The three vertices are different. -/
def Proper (g : Facet V) : Prop := g.a ≠ g.b ∧ g.b ≠ g.c ∧ g.c ≠ g.a

/-- Same vertices. -/
def SameV (g g' : Facet V) : Prop := g.a = g'.a ∧ g.b = g'.b ∧ g.c = g'.c

theorem hasEdge_iff (g : Facet V) (v1 v2 : V) : hasEdge g v1 v2 = true ↔ IsEdge g s(v1, v2) := by
  unfold hasEdge IsEdge
  simp only [Bool.or_eq_true, Bool.and_eq_true, decide_eq_true_eq, Sym2.eq_iff]
  constructor
  · rintro (((((⟨h1, h2⟩ | ⟨h1, h2⟩) | ⟨h1, h2⟩) | ⟨h1, h2⟩) | ⟨h1, h2⟩) | ⟨h1, h2⟩) <;> subst h1 <;> subst h2 <;> tauto
  · rintro ((⟨h1, h2⟩ | ⟨h1, h2⟩) | (⟨h1, h2⟩ | ⟨h1, h2⟩) | (⟨h1, h2⟩ | ⟨h1, h2⟩)) <;> subst h1 <;> subst h2 <;> tauto

theorem SameV.isEdge {g g' : Facet V} (h : SameV g g') (e : Sym2 V) : IsEdge g e ↔ IsEdge g' e := by
  obtain ⟨h1, h2, h3⟩ := h
  unfold IsEdge
  rw [h1, h2, h3]

theorem findFacet_ok (h : Heap V) (F : List ℕ) (v1 v2 : V) (x : ℕ) (hx : x ∈ F) (he : IsEdge (h x) s(v1, v2))
    (hu : ∀ y ∈ F, y ≠ x → ¬ IsEdge (h y) s(v1, v2)) : findFacet h F v1 v2 = .ok x := by
  unfold findFacet
  have hf : F.find? (fun i => hasEdge (h i) v1 v2) = some x := by
    induction F with
    | nil => simp at hx
    | cons y F ih =>
      by_cases hxy : y = x
      · subst hxy
        rw [List.find?_cons_of_pos]
        exact (hasEdge_iff _ _ _).mpr he
      · have : ¬ hasEdge (h y) v1 v2 = true := fun hc => hu y (by simp) hxy ((hasEdge_iff _ _ _).mp hc)
        rw [List.find?_cons_of_neg (p := fun i => hasEdge (h i) v1 v2) this]
        refine ih ?_ fun z hz => hu z (by simp [hz])
        rcases List.mem_cons.mp hx with rfl | hx
        · exact absurd rfl hxy
        · exact hx
  rw [hf]

/-- Setting the pointer of one edge. -/
theorem linkEdge_ok (h : Heap V) (f1 f2 : ℕ) (v1 v2 : V) (hp : Proper (h f2)) (he : IsEdge (h f2) s(v1, v2)) :
    ∃ g', linkEdge h f1 f2 v1 v2 = .ok (Function.update h f2 g') ∧ SameV g' (h f2) ∧ Across g' s(v1, v2) f1 ∧
      ∀ e, e ≠ s(v1, v2) → ∀ t, Across g' e t ↔ Across (h f2) e t := by
  obtain ⟨p1, p2, p3⟩ := hp
  have sw : ∀ x y : V, ((x = v1 ∧ y = v2) ∨ (x = v2 ∧ y = v1)) ↔ s(v1, v2) = s(x, y) := by
    intro x y
    rw [Sym2.eq_iff]
    tauto
  unfold linkEdge
  simp only [sw]
  by_cases c1 : s(v1, v2) = s((h f2).a, (h f2).b)
  · rw [if_pos c1]
    refine ⟨{ h f2 with ab := some f1 }, rfl, ⟨rfl, rfl, rfl⟩, Or.inl ⟨c1, rfl⟩, fun e hne t => ?_⟩
    rw [c1] at hne
    unfold Across
    tauto
  · rw [if_neg c1]
    by_cases c2 : s(v1, v2) = s((h f2).b, (h f2).c)
    · rw [if_pos c2]
      refine ⟨{ h f2 with bc := some f1 }, rfl, ⟨rfl, rfl, rfl⟩, Or.inr (Or.inl ⟨c2, rfl⟩), fun e hne t => ?_⟩
      rw [c2] at hne
      unfold Across
      tauto
    · rw [if_neg c2]
      have c3 : s(v1, v2) = s((h f2).c, (h f2).a) := by
        unfold IsEdge at he
        tauto
      rw [if_pos c3]
      refine ⟨{ h f2 with ca := some f1 }, rfl, ⟨rfl, rfl, rfl⟩, Or.inr (Or.inr ⟨c3, rfl⟩), fun e hne t => ?_⟩
      rw [c3] at hne
      unfold Across
      tauto

/-- **C47**: if a facet with three different vertices is linked with three facets, given in any order, each of which shares
exactly one of its edges, then linking succeeds; afterwards the facet and each neighbour point to each other across the
shared edge, no vertex and no other pointer of any facet has changed. -/
theorem c47_link_mutual (h : Heap V) (f g1 g2 g3 x y z : ℕ) (hf : Proper (h f))
    (hperm : [x, y, z].Perm [g1, g2, g3]) (h1 : Proper (h g1)) (h2 : Proper (h g2)) (h3 : Proper (h g3))
    (e1 : ∀ e, IsEdge (h f) e → (IsEdge (h g1) e ↔ e = s((h f).a, (h f).b)))
    (e2 : ∀ e, IsEdge (h f) e → (IsEdge (h g2) e ↔ e = s((h f).b, (h f).c)))
    (e3 : ∀ e, IsEdge (h f) e → (IsEdge (h g3) e ↔ e = s((h f).c, (h f).a))) :
    ∃ h', linkFacet h f x y z = .ok h' ∧
      (∀ g e, (g = g1 ∧ e = s((h f).a, (h f).b)) ∨ (g = g2 ∧ e = s((h f).b, (h f).c)) ∨
        (g = g3 ∧ e = s((h f).c, (h f).a)) → Across (h' f) e g ∧ Across (h' g) e f) ∧
      (∀ e t, Across (h' f) e t → (t = g1 ∧ e = s((h f).a, (h f).b)) ∨ (t = g2 ∧ e = s((h f).b, (h f).c)) ∨
        (t = g3 ∧ e = s((h f).c, (h f).a))) ∧
      (∀ g, SameV (h' g) (h g)) ∧
      (∀ g, g ≠ f → ∀ e, ¬ IsEdge (h f) e → ∀ t, Across (h' g) e t ↔ Across (h g) e t) ∧
      (∀ g, g ≠ f → g ≠ g1 → g ≠ g2 → g ≠ g3 → h' g = h g) := by
  obtain ⟨hab, hbc, hca⟩ := hf
  set A := (h f).a with hA
  set B := (h f).b with hB
  set C := (h f).c with hC
  have fe1 : IsEdge (h f) s(A, B) := Or.inl rfl
  have fe2 : IsEdge (h f) s(B, C) := Or.inr (Or.inl rfl)
  have fe3 : IsEdge (h f) s(C, A) := Or.inr (Or.inr rfl)
  have n12 : s(A, B) ≠ s(B, C) := by
    rw [Ne, Sym2.eq_iff]
    rintro (⟨h, _⟩ | ⟨h, _⟩)
    · exact hab h
    · exact hca h.symm
  have n13 : s(A, B) ≠ s(C, A) := by
    rw [Ne, Sym2.eq_iff]
    rintro (⟨h, _⟩ | ⟨_, h⟩)
    · exact hca h.symm
    · exact hbc h
  have n23 : s(B, C) ≠ s(C, A) := by
    rw [Ne, Sym2.eq_iff]
    rintro (⟨h, _⟩ | ⟨h, _⟩)
    · exact hbc h
    · exact hab h.symm
  have i11 : IsEdge (h g1) s(A, B) := (e1 _ fe1).mpr rfl
  have i22 : IsEdge (h g2) s(B, C) := (e2 _ fe2).mpr rfl
  have i33 : IsEdge (h g3) s(C, A) := (e3 _ fe3).mpr rfl
  have i12 : ¬ IsEdge (h g1) s(B, C) := fun hc => n12 ((e1 _ fe2).mp hc).symm
  have i13 : ¬ IsEdge (h g1) s(C, A) := fun hc => n13 ((e1 _ fe3).mp hc).symm
  have i21 : ¬ IsEdge (h g2) s(A, B) := fun hc => n12 ((e2 _ fe1).mp hc)
  have i23 : ¬ IsEdge (h g2) s(C, A) := fun hc => n23 ((e2 _ fe3).mp hc).symm
  have i31 : ¬ IsEdge (h g3) s(A, B) := fun hc => n13 ((e3 _ fe1).mp hc)
  have i32 : ¬ IsEdge (h g3) s(B, C) := fun hc => n23 ((e3 _ fe2).mp hc)
  have d1f : g1 ≠ f := fun hc => i12 (hc ▸ fe2)
  have d2f : g2 ≠ f := fun hc => i21 (hc ▸ fe1)
  have d3f : g3 ≠ f := fun hc => i31 (hc ▸ fe1)
  have d12 : g1 ≠ g2 := fun hc => i12 (hc ▸ i22)
  have d13 : g1 ≠ g3 := fun hc => i13 (hc ▸ i33)
  have d23 : g2 ≠ g3 := fun hc => i23 (hc ▸ i33)
  have mem : ∀ g, g ∈ [x, y, z] ↔ g = g1 ∨ g = g2 ∨ g = g3 := by
    intro g
    rw [hperm.mem_iff]
    simp
  -- first edge
  have F1 : findFacet h [x, y, z] A B = .ok g1 := by
    refine findFacet_ok h _ A B g1 ((mem g1).mpr (Or.inl rfl)) i11 fun w hw hne => ?_
    rcases (mem w).mp hw with rfl | rfl | rfl
    · exact absurd rfl hne
    · exact i21
    · exact i31
  set k0 : Heap V := Function.update h f { h f with ab := some g1 } with hk0
  have k0g1 : k0 g1 = h g1 := Function.update_of_ne d1f _ _
  obtain ⟨u1, L1, s1, a1, r1⟩ := linkEdge_ok k0 f g1 A B (k0g1 ▸ h1) (k0g1 ▸ i11)
  rw [k0g1] at s1 r1
  set k1 : Heap V := Function.update k0 g1 u1 with hk1
  have k1f : k1 f = { h f with ab := some g1 } := by
    rw [hk1, Function.update_of_ne d1f.symm, hk0, Function.update_self]
  have k1g1 : k1 g1 = u1 := Function.update_self _ _ _
  have k1o : ∀ g, g ≠ f → g ≠ g1 → k1 g = h g := fun g q1 q2 => by
    rw [hk1, Function.update_of_ne q2, hk0, Function.update_of_ne q1]
  -- second edge
  have F2 : findFacet k1 [x, y, z] B C = .ok g2 := by
    refine findFacet_ok k1 _ B C g2 ((mem g2).mpr (Or.inr (Or.inl rfl))) ?_ fun w hw hne => ?_
    · rw [k1o g2 d2f d12.symm]
      exact i22
    · rcases (mem w).mp hw with rfl | rfl | rfl
      · rw [k1g1, s1.isEdge]
        exact i12
      · exact absurd rfl hne
      · rw [k1o _ d3f d13.symm]
        exact i32
  set k2 : Heap V := Function.update k1 f { k1 f with bc := some g2 } with hk2
  have k2g2 : k2 g2 = h g2 := by rw [hk2, Function.update_of_ne d2f, k1o g2 d2f d12.symm]
  obtain ⟨u2, L2, s2, a2, r2⟩ := linkEdge_ok k2 f g2 B C (k2g2 ▸ h2) (k2g2 ▸ i22)
  rw [k2g2] at s2 r2
  set k3 : Heap V := Function.update k2 g2 u2 with hk3
  have k3f : k3 f = { h f with ab := some g1, bc := some g2 } := by
    rw [hk3, Function.update_of_ne d2f.symm, hk2, Function.update_self, k1f]
  have k3g1 : k3 g1 = u1 := by rw [hk3, Function.update_of_ne d12, hk2, Function.update_of_ne d1f, k1g1]
  have k3g2 : k3 g2 = u2 := Function.update_self _ _ _
  have k3o : ∀ g, g ≠ f → g ≠ g1 → g ≠ g2 → k3 g = h g := fun g q1 q2 q3 => by
    rw [hk3, Function.update_of_ne q3, hk2, Function.update_of_ne q1, k1o g q1 q2]
  -- third edge
  have F3 : findFacet k3 [x, y, z] C A = .ok g3 := by
    refine findFacet_ok k3 _ C A g3 ((mem g3).mpr (Or.inr (Or.inr rfl))) ?_ fun w hw hne => ?_
    · rw [k3o g3 d3f d13.symm d23.symm]
      exact i33
    · rcases (mem w).mp hw with rfl | rfl | rfl
      · rw [k3g1, s1.isEdge]
        exact i13
      · rw [k3g2, s2.isEdge]
        exact i23
      · exact absurd rfl hne
  set k4 : Heap V := Function.update k3 f { k3 f with ca := some g3 } with hk4
  have k4g3 : k4 g3 = h g3 := by rw [hk4, Function.update_of_ne d3f, k3o g3 d3f d13.symm d23.symm]
  obtain ⟨u3, L3, s3, a3, r3⟩ := linkEdge_ok k4 f g3 C A (k4g3 ▸ h3) (k4g3 ▸ i33)
  rw [k4g3] at s3 r3
  set k5 : Heap V := Function.update k4 g3 u3 with hk5
  have k5f : k5 f = { h f with ab := some g1, bc := some g2, ca := some g3 } := by
    rw [hk5, Function.update_of_ne d3f.symm, hk4, Function.update_self, k3f]
  have k5g1 : k5 g1 = u1 := by rw [hk5, Function.update_of_ne d13, hk4, Function.update_of_ne d1f, k3g1]
  have k5g2 : k5 g2 = u2 := by rw [hk5, Function.update_of_ne d23, hk4, Function.update_of_ne d2f, k3g2]
  have k5g3 : k5 g3 = u3 := Function.update_self _ _ _
  have k5o : ∀ g, g ≠ f → g ≠ g1 → g ≠ g2 → g ≠ g3 → k5 g = h g := fun g q1 q2 q3 q4 => by
    rw [hk5, Function.update_of_ne q4, hk4, Function.update_of_ne q1, k3o g q1 q2 q3]
  refine ⟨k5, ?_, ?_, ?_, ?_, ?_, k5o⟩
  · unfold linkFacet
    simp only []
    rw [← hA, ← hB, F1]
    show (linkEdge k0 f g1 A B).bind _ = _
    rw [L1]
    have b1 : (k1 f).b = B := by rw [k1f]
    have c1 : (k1 f).c = C := by rw [k1f]
    have c3 : (k3 f).c = C := by rw [k3f]
    have a3 : (k3 f).a = A := by rw [k3f]
    have F2' : findFacet k1 [x, y, z] (k1 f).b (k1 f).c = .ok g2 := by rw [b1, c1, F2]
    have L2' : linkEdge k2 f g2 (k1 f).b (k1 f).c = .ok k3 := by rw [b1, c1, L2]
    have F3' : findFacet k3 [x, y, z] (k3 f).c (k3 f).a = .ok g3 := by rw [c3, a3, F3]
    have L3' : linkEdge k4 f g3 (k3 f).c (k3 f).a = .ok k5 := by rw [c3, a3, L3]
    show (findFacet k1 [x, y, z] (k1 f).b (k1 f).c).bind _ = _
    rw [F2']
    show (linkEdge k2 f g2 (k1 f).b (k1 f).c).bind _ = _
    rw [L2']
    show (findFacet k3 [x, y, z] (k3 f).c (k3 f).a).bind _ = _
    rw [F3']
    exact L3'
  · rintro g e (⟨rfl, rfl⟩ | ⟨rfl, rfl⟩ | ⟨rfl, rfl⟩)
    · rw [k5f, k5g1]
      exact ⟨Or.inl ⟨rfl, rfl⟩, a1⟩
    · rw [k5f, k5g2]
      exact ⟨Or.inr (Or.inl ⟨rfl, rfl⟩), a2⟩
    · rw [k5f, k5g3]
      exact ⟨Or.inr (Or.inr ⟨rfl, rfl⟩), a3⟩
  · intro e t ht
    rw [k5f] at ht
    rcases ht with ⟨he, ht⟩ | ⟨he, ht⟩ | ⟨he, ht⟩
    · exact Or.inl ⟨(Option.some.inj ht).symm, he⟩
    · exact Or.inr (Or.inl ⟨(Option.some.inj ht).symm, he⟩)
    · exact Or.inr (Or.inr ⟨(Option.some.inj ht).symm, he⟩)
  · intro g
    by_cases q0 : g = f
    · subst q0
      rw [k5f]
      exact ⟨rfl, rfl, rfl⟩
    by_cases q1 : g = g1
    · subst q1
      rw [k5g1]
      exact s1
    by_cases q2 : g = g2
    · subst q2
      rw [k5g2]
      exact s2
    by_cases q3 : g = g3
    · subst q3
      rw [k5g3]
      exact s3
    rw [k5o g q0 q1 q2 q3]
    exact ⟨rfl, rfl, rfl⟩
  · intro g q0 e hne t
    have m1 : e ≠ s(A, B) := fun hc => hne (hc ▸ fe1)
    have m2 : e ≠ s(B, C) := fun hc => hne (hc ▸ fe2)
    have m3 : e ≠ s(C, A) := fun hc => hne (hc ▸ fe3)
    by_cases q1 : g = g1
    · subst q1
      rw [k5g1]
      exact r1 e m1 t
    by_cases q2 : g = g2
    · subst q2
      rw [k5g2]
      exact r2 e m2 t
    by_cases q3 : g = g3
    · subst q3
      rw [k5g3]
      exact r3 e m3 t
    rw [k5o g q0 q1 q2 q3]

/-- A facet that does not share the needed edges makes linking throw. -/
theorem c47_link_throws (h : Heap V) (f x y z : ℕ) (hno : ∀ g ∈ [x, y, z], ¬ IsEdge (h g) s((h f).a, (h f).b)) :
    linkFacet h f x y z = .error .throws := by
  have : findFacet h [x, y, z] (h f).a (h f).b = .error .throws := by
    unfold findFacet
    have hn : [x, y, z].find? (fun i => hasEdge (h i) (h f).a (h f).b) = none := by
      rw [List.find?_eq_none]
      intro g hg hc
      exact hno g hg ((hasEdge_iff _ _ _).mp hc)
    rw [hn]
  unfold linkFacet
  simp only []
  rw [this]
  rfl

/-- The four facets of a tetrahedron with vertices 0, 1, 2, 3, not yet linked. -/
def tetra : Heap ℕ := fun i =>
  match i with
  | 0 => ⟨0, 1, 2, none, none, none⟩
  | 1 => ⟨1, 0, 3, none, none, none⟩
  | 2 => ⟨2, 1, 3, none, none, none⟩
  | _ => ⟨0, 2, 3, none, none, none⟩

/-- Non-trivial instance of the hypotheses: the first facet of the tetrahedron, with its neighbours in another order. -/
example : ∃ h', linkFacet tetra 0 3 1 2 = .ok h' ∧ Across (h' 1) s(0, 1) 0 := by
  obtain ⟨h', h1, h2, _⟩ := c47_link_mutual tetra 0 1 2 3 3 1 2 (by unfold Proper; decide) (by decide)
    (by unfold Proper; decide) (by unfold Proper; decide) (by unfold Proper; decide)
    (by rintro e (rfl | rfl | rfl) <;> unfold IsEdge <;> decide +kernel)
    (by rintro e (rfl | rfl | rfl) <;> unfold IsEdge <;> decide +kernel)
    (by rintro e (rfl | rfl | rfl) <;> unfold IsEdge <;> decide +kernel)
  exact ⟨h', h1, (h2 1 s(0, 1) (Or.inl ⟨rfl, rfl⟩)).2⟩

/-- The function that links two facets (it is not called in the repository) does not set the pointer of the second facet
across the shared edge if that is edge `bc` of the first and `ca` of the second. -/
theorem c47_pair_false : ∃ h : Heap ℕ, Proper (h 0) ∧ Proper (h 1) ∧ IsEdge (h 0) s(1, 2) ∧ IsEdge (h 1) s(1, 2) ∧
    (linkPair h 0 1).1 = true ∧ ¬ Across ((linkPair h 0 1).2 1) s(1, 2) 0 := by
  refine ⟨fun i => if i = 0 then ⟨0, 1, 2, none, none, none⟩ else ⟨1, 3, 2, none, none, none⟩, ?_, ?_, ?_, ?_, ?_, ?_⟩
  · unfold Proper; decide
  · unfold Proper; decide
  · unfold IsEdge; decide
  · unfold IsEdge; decide
  · decide
  · unfold Across; decide

theorem matchEdge_iff (p1 p2 q1 q2 : V) : matchEdge p1 p2 q1 q2 = true ↔ s(p1, p2) = s(q1, q2) := by
  unfold matchEdge
  rw [Sym2.eq_iff]
  simp

/-- C47, for the function that links two facets: it reports whether they share an edge, changes nothing if not, and otherwise makes
the two facets point to each other across the edge and changes no vertex and no other pointer, except in the case of
`c47_pair_false`. -/
theorem c47_pair_partial (h : Heap V) {f1 f2 : ℕ} (hne : f1 ≠ f2) :
    ((∀ e, ¬ (IsEdge (h f1) e ∧ IsEdge (h f2) e)) → linkPair h f1 f2 = (false, h)) ∧
    ∀ e, IsEdge (h f1) e → IsEdge (h f2) e → (∀ e', IsEdge (h f1) e' → IsEdge (h f2) e' → e' = e) →
      ¬ (e = s((h f1).b, (h f1).c) ∧ e = s((h f2).c, (h f2).a)) →
      (linkPair h f1 f2).1 = true ∧ Across ((linkPair h f1 f2).2 f1) e f2 ∧ Across ((linkPair h f1 f2).2 f2) e f1 ∧
        (∀ g, SameV ((linkPair h f1 f2).2 g) (h g)) ∧ (∀ g, g ≠ f1 → g ≠ f2 → (linkPair h f1 f2).2 g = h g) ∧
        ∀ g e' t, e' ≠ e → Across ((linkPair h f1 f2).2 g) e' t → Across (h g) e' t := by
  have hupd : ∀ u v : Facet V, SameV u (h f1) → SameV v (h f2) →
      (∀ g, SameV (Function.update (Function.update h f1 u) f2 v g) (h g)) ∧
      (∀ g, g ≠ f1 → g ≠ f2 → Function.update (Function.update h f1 u) f2 v g = h g) := by
    intro u v hu hv
    refine ⟨fun g => ?_, fun g n1 n2 => by rw [Function.update_of_ne n2, Function.update_of_ne n1]⟩
    by_cases n2 : g = f2
    · subst n2; rw [Function.update_self]; exact hv
    · rw [Function.update_of_ne n2]
      by_cases n1 : g = f1
      · subst n1; rw [Function.update_self]; exact hu
      · rw [Function.update_of_ne n1]; exact ⟨rfl, rfl, rfl⟩
  constructor
  · intro hno
    unfold linkPair
    simp only [matchEdge_iff]
    have k : ∀ {x y : Sym2 V}, IsEdge (h f1) x → IsEdge (h f2) y → x ≠ y := fun hx hy he => hno _ ⟨hx, he ▸ hy⟩
    have a1 : IsEdge (h f1) s((h f1).a, (h f1).b) := Or.inl rfl
    have a2 : IsEdge (h f1) s((h f1).b, (h f1).c) := Or.inr (Or.inl rfl)
    have a3 : IsEdge (h f1) s((h f1).c, (h f1).a) := Or.inr (Or.inr rfl)
    have b1 : IsEdge (h f2) s((h f2).a, (h f2).b) := Or.inl rfl
    have b2 : IsEdge (h f2) s((h f2).b, (h f2).c) := Or.inr (Or.inl rfl)
    have b3 : IsEdge (h f2) s((h f2).c, (h f2).a) := Or.inr (Or.inr rfl)
    rw [if_neg (k a1 b1), if_neg (k a2 b1), if_neg (k a3 b1), if_neg (k a1 b2), if_neg (k a2 b2), if_neg (k a3 b2),
      if_neg (k a1 b3), if_neg (k a2 b3), if_neg (k a3 b3)]
  · intro e he1 he2 huniq hno
    -- what the pointers have to be
    have fin : ∀ u v : Facet V, SameV u (h f1) → SameV v (h f2) → Across u e f2 → Across v e f1 →
        (∀ e' t, e' ≠ e → Across u e' t → Across (h f1) e' t) → (∀ e' t, e' ≠ e → Across v e' t → Across (h f2) e' t) →
        ∀ r : Bool × Heap V, r = (true, Function.update (Function.update h f1 u) f2 v) →
        r.1 = true ∧ Across (r.2 f1) e f2 ∧ Across (r.2 f2) e f1 ∧ (∀ g, SameV (r.2 g) (h g)) ∧
          (∀ g, g ≠ f1 → g ≠ f2 → r.2 g = h g) ∧ ∀ g e' t, e' ≠ e → Across (r.2 g) e' t → Across (h g) e' t := by
      rintro u v hu hv hau hav hku hkv r rfl
      obtain ⟨k1, k2⟩ := hupd u v hu hv
      refine ⟨rfl, ?_, ?_, k1, k2, ?_⟩
      · simp only
        rw [Function.update_of_ne hne, Function.update_self]
        exact hau
      · simp only
        rw [Function.update_self]
        exact hav
      · intro g e' t hn
        simp only
        by_cases n2 : g = f2
        · subst n2; rw [Function.update_self]; exact hkv e' t hn
        · rw [Function.update_of_ne n2]
          by_cases n1 : g = f1
          · subst n1; rw [Function.update_self]; exact hku e' t hn
          · rw [Function.update_of_ne n1]; exact id
    have hu : ∀ {x : Sym2 V}, IsEdge (h f1) x → IsEdge (h f2) x → x = e := fun h1 h2 => huniq _ h1 h2
    have kab : ∀ (g : Facet V) (t : ℕ), e = s(g.a, g.b) → (Across { g with ab := some t } e t) ∧
        ∀ e' t', e' ≠ e → Across { g with ab := some t } e' t' → Across g e' t' := by
      intro g t h1
      refine ⟨Or.inl ⟨h1, rfl⟩, ?_⟩
      rintro e' t' hn (⟨h2, _⟩ | h2 | h2)
      · exact absurd (h2.trans h1.symm) hn
      · exact Or.inr (Or.inl h2)
      · exact Or.inr (Or.inr h2)
    have kbc : ∀ (g : Facet V) (t : ℕ), e = s(g.b, g.c) → (Across { g with bc := some t } e t) ∧
        ∀ e' t', e' ≠ e → Across { g with bc := some t } e' t' → Across g e' t' := by
      intro g t h1
      refine ⟨Or.inr (Or.inl ⟨h1, rfl⟩), ?_⟩
      rintro e' t' hn (h2 | ⟨h2, _⟩ | h2)
      · exact Or.inl h2
      · exact absurd (h2.trans h1.symm) hn
      · exact Or.inr (Or.inr h2)
    have kca : ∀ (g : Facet V) (t : ℕ), e = s(g.c, g.a) → (Across { g with ca := some t } e t) ∧
        ∀ e' t', e' ≠ e → Across { g with ca := some t } e' t' → Across g e' t' := by
      intro g t h1
      refine ⟨Or.inr (Or.inr ⟨h1, rfl⟩), ?_⟩
      rintro e' t' hn (h2 | h2 | ⟨h2, _⟩)
      · exact Or.inl h2
      · exact Or.inr (Or.inl h2)
      · exact absurd (h2.trans h1.symm) hn
    have ex : ∀ {x y : Sym2 V}, IsEdge (h f1) x → IsEdge (h f2) y → x = y → e = x ∧ e = y := by
      intro x y hx hy hxy
      have := hu hx (hxy ▸ hy)
      exact ⟨this.symm, this.symm.trans hxy⟩
    have a1 : IsEdge (h f1) s((h f1).a, (h f1).b) := Or.inl rfl
    have a2 : IsEdge (h f1) s((h f1).b, (h f1).c) := Or.inr (Or.inl rfl)
    have a3 : IsEdge (h f1) s((h f1).c, (h f1).a) := Or.inr (Or.inr rfl)
    have b1 : IsEdge (h f2) s((h f2).a, (h f2).b) := Or.inl rfl
    have b2 : IsEdge (h f2) s((h f2).b, (h f2).c) := Or.inr (Or.inl rfl)
    have b3 : IsEdge (h f2) s((h f2).c, (h f2).a) := Or.inr (Or.inr rfl)
    generalize hr : linkPair h f1 f2 = r
    unfold linkPair at hr
    simp only [matchEdge_iff] at hr
    split_ifs at hr with c1 c2 c3 c4 c5 c6 c7 c8 c9
    · obtain ⟨x1, x2⟩ := ex a1 b1 c1
      exact fin { h f1 with ab := some f2 } { h f2 with ab := some f1 } ⟨rfl, rfl, rfl⟩ ⟨rfl, rfl, rfl⟩
        (kab _ _ x1).1 (kab _ _ x2).1 (kab _ _ x1).2 (kab _ _ x2).2 r hr.symm
    · obtain ⟨x1, x2⟩ := ex a2 b1 c2
      exact fin { h f1 with bc := some f2 } { h f2 with ab := some f1 } ⟨rfl, rfl, rfl⟩ ⟨rfl, rfl, rfl⟩
        (kbc _ _ x1).1 (kab _ _ x2).1 (kbc _ _ x1).2 (kab _ _ x2).2 r hr.symm
    · obtain ⟨x1, x2⟩ := ex a3 b1 c3
      exact fin { h f1 with ca := some f2 } { h f2 with ab := some f1 } ⟨rfl, rfl, rfl⟩ ⟨rfl, rfl, rfl⟩
        (kca _ _ x1).1 (kab _ _ x2).1 (kca _ _ x1).2 (kab _ _ x2).2 r hr.symm
    · obtain ⟨x1, x2⟩ := ex a1 b2 c4
      exact fin { h f1 with ab := some f2 } { h f2 with bc := some f1 } ⟨rfl, rfl, rfl⟩ ⟨rfl, rfl, rfl⟩
        (kab _ _ x1).1 (kbc _ _ x2).1 (kab _ _ x1).2 (kbc _ _ x2).2 r hr.symm
    · obtain ⟨x1, x2⟩ := ex a2 b2 c5
      exact fin { h f1 with bc := some f2 } { h f2 with bc := some f1 } ⟨rfl, rfl, rfl⟩ ⟨rfl, rfl, rfl⟩
        (kbc _ _ x1).1 (kbc _ _ x2).1 (kbc _ _ x1).2 (kbc _ _ x2).2 r hr.symm
    · obtain ⟨x1, x2⟩ := ex a3 b2 c6
      exact fin { h f1 with ca := some f2 } { h f2 with bc := some f1 } ⟨rfl, rfl, rfl⟩ ⟨rfl, rfl, rfl⟩
        (kca _ _ x1).1 (kbc _ _ x2).1 (kca _ _ x1).2 (kbc _ _ x2).2 r hr.symm
    · obtain ⟨x1, x2⟩ := ex a1 b3 c7
      exact fin { h f1 with ab := some f2 } { h f2 with ca := some f1 } ⟨rfl, rfl, rfl⟩ ⟨rfl, rfl, rfl⟩
        (kab _ _ x1).1 (kca _ _ x2).1 (kab _ _ x1).2 (kca _ _ x2).2 r hr.symm
    · exact absurd (ex a2 b3 c8) hno
    · obtain ⟨x1, x2⟩ := ex a3 b3 c9
      exact fin { h f1 with ca := some f2 } { h f2 with ca := some f1 } ⟨rfl, rfl, rfl⟩ ⟨rfl, rfl, rfl⟩
        (kca _ _ x1).1 (kca _ _ x2).1 (kca _ _ x1).2 (kca _ _ x2).2 r hr.symm
    · exfalso
      rcases he1 with rfl | rfl | rfl <;> rcases he2 with h2 | h2 | h2
      · exact c1 h2
      · exact c4 h2
      · exact c7 h2
      · exact c2 h2
      · exact c5 h2
      · exact c8 h2
      · exact c3 h2
      · exact c6 h2
      · exact c9 h2

/-- The hypotheses are met by two facets of a tetrahedron. -/
example : Across ((linkPair tetra 0 1).2 0) s((tetra 0).a, (tetra 0).b) 1 := by
  refine ((c47_pair_partial tetra (by decide)).2 s((tetra 0).a, (tetra 0).b) (Or.inl rfl) ?_ ?_ ?_).2.1
  · unfold IsEdge; decide
  · rintro e' (rfl | rfl | rfl) <;> unfold IsEdge <;> decide +kernel
  · decide

end Verif.Hull3d
