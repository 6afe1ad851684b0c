import Verif.Hull3d.LinkProps
import Verif.QHull.Geom
import Verif.QHull.DfsMain

set_option linter.unusedSectionVars false
set_option linter.unusedVariables false

/-!
Closed convex surfaces of triangles around the origin.
-/

namespace Verif.QHull

open Verif Verif.Hull3d

variable {K : Type} [Field K] [LinearOrder K] [IsStrictOrderedRing K]

/-- No four points are within `eps` of a plane and no three are within `eps` of a plane through the origin. -/
structure GenPos (eps : K) (Q : List (P3 K)) : Prop where
  nn : 0 ≤ eps
  vol : ∀ a ∈ Q, ∀ b ∈ Q, ∀ c ∈ Q, ∀ d ∈ Q, a ≠ b → a ≠ c → a ≠ d → b ≠ c → b ≠ d → c ≠ d → eps < |sv a b c d|
  det : ∀ a ∈ Q, ∀ b ∈ Q, ∀ c ∈ Q, a ≠ b → a ≠ c → b ≠ c → eps < |det3 a b c|

/-- The volume of a point over a facet. -/
def fsv (f : Facet (P3 K)) (p : P3 K) : K := sv f.a f.b f.c p
/-- The determinant of a facet. -/
def fdet (f : Facet (P3 K)) : K := det3 f.a f.b f.c

/-- `v` is a vertex of the facet. -/
def IsV (f : Facet (P3 K)) (v : P3 K) : Prop := v = f.a ∨ v = f.b ∨ v = f.c

/-- The facet is the oriented triangle `x, y, z`, from any start. -/
def Tri (f : Facet (P3 K)) (x y z : P3 K) : Prop :=
  (f.a = x ∧ f.b = y ∧ f.c = z) ∨ (f.b = x ∧ f.c = y ∧ f.a = z) ∨ (f.c = x ∧ f.a = y ∧ f.b = z)

/-- The facet has the dart `d` with the pointer `o` to the facet on the other side. -/
def IsDart (f : Facet (P3 K)) (d : P3 K × P3 K) (o : Option ℕ) : Prop :=
  (d = (f.a, f.b) ∧ o = f.ab) ∨ (d = (f.b, f.c) ∧ o = f.bc) ∨ (d = (f.c, f.a) ∧ o = f.ca)

theorem Tri.rot {f : Facet (P3 K)} {x y z : P3 K} (h : Tri f x y z) : Tri f y z x := by
  unfold Tri at *; tauto

theorem Tri.fsv {f : Facet (P3 K)} {x y z : P3 K} (h : Tri f x y z) (p : P3 K) : fsv f p = sv x y z p := by
  unfold QHull.fsv
  rcases h with ⟨rfl, rfl, rfl⟩ | ⟨rfl, rfl, rfl⟩ | ⟨rfl, rfl, rfl⟩
  · rfl
  · rw [← sv_cyc]
  · rw [sv_cyc]

theorem Tri.fdet {f : Facet (P3 K)} {x y z : P3 K} (h : Tri f x y z) : fdet f = det3 x y z := by
  unfold QHull.fdet
  rcases h with ⟨rfl, rfl, rfl⟩ | ⟨rfl, rfl, rfl⟩ | ⟨rfl, rfl, rfl⟩
  · rfl
  · rw [← det3_cyc]
  · rw [det3_cyc]

theorem Tri.isV {f : Facet (P3 K)} {x y z : P3 K} (h : Tri f x y z) (v : P3 K) : IsV f v ↔ v = x ∨ v = y ∨ v = z := by
  unfold IsV
  rcases h with ⟨rfl, rfl, rfl⟩ | ⟨rfl, rfl, rfl⟩ | ⟨rfl, rfl, rfl⟩ <;> tauto

theorem Tri.self (f : Facet (P3 K)) : Tri f f.a f.b f.c := Or.inl ⟨rfl, rfl, rfl⟩

theorem IsDart.tri {f : Facet (P3 K)} {d : P3 K × P3 K} {o : Option ℕ} (h : IsDart f d o) : ∃ z, Tri f d.1 d.2 z := by
  rcases h with ⟨rfl, _⟩ | ⟨rfl, _⟩ | ⟨rfl, _⟩
  · exact ⟨f.c, Or.inl ⟨rfl, rfl, rfl⟩⟩
  · exact ⟨f.a, Or.inr (Or.inl ⟨rfl, rfl, rfl⟩)⟩
  · exact ⟨f.b, Or.inr (Or.inr ⟨rfl, rfl, rfl⟩)⟩

theorem Tri.dart {f : Facet (P3 K)} {x y z : P3 K} (h : Tri f x y z) : ∃ o, IsDart f (x, y) o := by
  rcases h with ⟨rfl, rfl, rfl⟩ | ⟨rfl, rfl, rfl⟩ | ⟨rfl, rfl, rfl⟩
  · exact ⟨f.ab, Or.inl ⟨rfl, rfl⟩⟩
  · exact ⟨f.bc, Or.inr (Or.inl ⟨rfl, rfl⟩)⟩
  · exact ⟨f.ca, Or.inr (Or.inr ⟨rfl, rfl⟩)⟩

/-- Facets in convex position around the origin with vertices among `Q`. -/
structure PreMesh (Q : List (P3 K)) (h : Heap (P3 K)) (live : List ℕ) : Prop where
  ne : live ≠ []
  nodup : live.Nodup
  vert : ∀ i ∈ live, ∀ v, IsV (h i) v → v ∈ Q
  ori : ∀ i ∈ live, fdet (h i) < 0
  conv : ∀ i ∈ live, ∀ j ∈ live, ∀ v, IsV (h j) v → fsv (h i) v ≤ 0
  dist : ∀ i ∈ live, ∀ j ∈ live, (∀ v, IsV (h i) v → IsV (h j) v) → i = j

/-- A closed convex surface with vertices among `Q` around the origin. -/
structure Mesh (Q : List (P3 K)) (h : Heap (P3 K)) (live : List ℕ) : Prop extends PreMesh Q h live where
  link : ∀ i ∈ live, ∀ d o, IsDart (h i) d o → ∃ j ∈ live, j ≠ i ∧ o = some j ∧ Across (h j) s(d.1, d.2) i

section

variable {eps : K} {Q : List (P3 K)} {h : Heap (P3 K)} {live : List ℕ}

theorem tri_ne {f : Facet (P3 K)} (hf : fdet f < 0) {x y z : P3 K} (ht : Tri f x y z) : x ≠ y ∧ y ≠ z ∧ z ≠ x := by
  rw [ht.fdet] at hf
  refine ⟨?_, ?_, ?_⟩
  · rintro rfl; rw [det3_same] at hf; exact lt_irrefl _ hf
  · rintro rfl; rw [det3_same'] at hf; exact lt_irrefl _ hf
  · rintro rfl; rw [det3_same''] at hf; exact lt_irrefl _ hf

/-- A point of `Q` in the plane of a facet is one of its vertices. -/
theorem GenPos.on_plane (hg : GenPos eps Q) {f : Facet (P3 K)} (hv : ∀ v, IsV f v → v ∈ Q) (hf : fdet f < 0) {q : P3 K}
    (hq : q ∈ Q) (h0 : fsv f q = 0) : IsV f q := by
  by_contra hn
  obtain ⟨n1, n2, n3⟩ := tri_ne hf (Tri.self f)
  unfold IsV at hn
  push Not at hn
  have := hg.vol f.a (hv _ (Or.inl rfl)) f.b (hv _ (Or.inr (Or.inl rfl))) f.c (hv _ (Or.inr (Or.inr rfl))) q hq n1 n3.symm
    hn.1.symm n2 hn.2.1.symm hn.2.2.symm
  unfold fsv at h0
  rw [h0, abs_zero] at this
  exact absurd hg.nn (not_le.mpr this)

theorem GenPos.visible_iff (hg : GenPos eps Q) {f : Facet (P3 K)} (hv : ∀ v, IsV f v → v ∈ Q) (hf : fdet f < 0) {q : P3 K}
    (hq : q ∈ Q) : visible eps f q = true ↔ 0 < fsv f q := by
  unfold visible
  rw [decide_eq_true_eq]
  constructor
  · intro h; exact lt_of_le_of_lt hg.nn h
  · intro h
    by_cases hV : IsV f q
    · exfalso
      unfold fsv at h
      rcases hV with rfl | rfl | rfl
      · rw [sv_a] at h; exact lt_irrefl _ h
      · rw [sv_b] at h; exact lt_irrefl _ h
      · rw [sv_c] at h; exact lt_irrefl _ h
    · obtain ⟨n1, n2, n3⟩ := tri_ne hf (Tri.self f)
      unfold IsV at hV
      push Not at hV
      have := hg.vol f.a (hv _ (Or.inl rfl)) f.b (hv _ (Or.inr (Or.inl rfl))) f.c (hv _ (Or.inr (Or.inr rfl))) q hq n1 n3.symm
        hV.1.symm n2 hV.2.1.symm hV.2.2.symm
      unfold fsv at h
      rw [abs_of_pos h] at this
      exact this

theorem PreMesh.strict (hg : GenPos eps Q) (hM : PreMesh Q h live) {i j : ℕ} (hi : i ∈ live) (hj : j ∈ live) {v : P3 K}
    (hv : IsV (h j) v) (hn : ¬ IsV (h i) v) : fsv (h i) v < 0 := by
  rcases (hM.conv i hi j hj v hv).lt_or_eq with h1 | h1
  · exact h1
  · exact absurd (hg.on_plane (hM.vert i hi) (hM.ori i hi) (hM.vert j hj v hv) h1) hn

/-- Every dart belongs to one facet. -/
theorem PreMesh.uniq (hg : GenPos eps Q) (hM : PreMesh Q h live) {i j : ℕ} (hi : i ∈ live) (hj : j ∈ live) {x y z w : P3 K}
    (ti : Tri (h i) x y z) (tj : Tri (h j) x y w) : i = j := by
  have hz : IsV (h i) z := (ti.isV z).mpr (by simp)
  have hw : IsV (h j) w := (tj.isV w).mpr (by simp)
  have h1 := hM.conv i hi j hj w hw
  have h2 := hM.conv j hj i hi z hz
  rw [ti.fsv] at h1
  rw [tj.fsv, sv_swap_last] at h2
  have h0 : fsv (h i) w = 0 := by rw [ti.fsv]; linarith
  have := hg.on_plane (hM.vert i hi) (hM.ori i hi) (hM.vert j hj w hw) h0
  rw [ti.isV] at this
  have hne := tri_ne (hM.ori j hj) tj
  have hwz : w = z := by
    rcases this with h | h | h
    · exact absurd h hne.2.2
    · exact absurd h.symm hne.2.1
    · exact h
  subst hwz
  exact hM.dist i hi j hj fun v hv => by rw [tj.isV]; exact (ti.isV v).mp hv

/-- The facet on the other side of a dart, with its pointer back. -/
theorem Mesh.adj (hg : GenPos eps Q) (hM : Mesh Q h live) {i : ℕ} (hi : i ∈ live) {d : P3 K × P3 K} {o : Option ℕ}
    (hd : IsDart (h i) d o) : ∃ j ∈ live, j ≠ i ∧ o = some j ∧ IsDart (h j) (Dfs.tw d) (some i) := by
  obtain ⟨j, hj, hne, ho, ha⟩ := hM.link i hi d o hd
  refine ⟨j, hj, hne, ho, ?_⟩
  have hdir : IsDart (h j) d (some i) ∨ IsDart (h j) (Dfs.tw d) (some i) := by
    obtain ⟨x, y⟩ := d
    unfold Across at ha
    unfold IsDart Dfs.tw
    simp only [Sym2.eq_iff, Prod.mk.injEq] at ha ⊢
    rcases ha with ⟨⟨h1, h2⟩ | ⟨h1, h2⟩, h3⟩ | ⟨⟨h1, h2⟩ | ⟨h1, h2⟩, h3⟩ | ⟨⟨h1, h2⟩ | ⟨h1, h2⟩, h3⟩ <;> simp_all
  rcases hdir with h1 | h1
  · exfalso
    obtain ⟨z, tz⟩ := hd.tri
    obtain ⟨w, tw⟩ := h1.tri
    exact hne (hM.uniq hg hj hi tw tz)
  · exact h1

theorem Mesh.adj_tri (hg : GenPos eps Q) (hM : Mesh Q h live) {i : ℕ} (hi : i ∈ live) {x y z : P3 K}
    (ht : Tri (h i) x y z) : ∃ j ∈ live, j ≠ i ∧ ∃ w, Tri (h j) y x w ∧ sv y x w z < 0 := by
  obtain ⟨o, hd⟩ := ht.dart
  obtain ⟨j, hj, hne, _, hd'⟩ := hM.adj hg hi hd
  obtain ⟨w, tw⟩ := hd'.tri
  change Tri (h j) y x w at tw
  refine ⟨j, hj, hne, w, tw, ?_⟩
  have hz : IsV (h i) z := (ht.isV z).mpr (by simp)
  rw [← tw.fsv]
  refine hM.strict hg hj hi hz ?_
  intro hc
  rw [tw.isV] at hc
  have hn := tri_ne (hM.ori i hi) ht
  have hzw : z = w := by
    rcases hc with h | h | h
    · exact absurd h.symm hn.2.1
    · exact absurd h hn.2.2
    · exact h
  subst hzw
  refine hne (hM.dist j hj i hi fun v hv => ?_)
  rw [ht.isV]
  rw [tw.isV] at hv
  tauto

/-- How far a point is beyond a facet. -/
def fht (f : Facet (P3 K)) (q : P3 K) : K := ht f.a f.b f.c q

theorem Tri.fht {f : Facet (P3 K)} {x y z : P3 K} (h : Tri f x y z) (q : P3 K) : fht f q = ht x y z q := by
  unfold QHull.fht
  rcases h with ⟨rfl, rfl, rfl⟩ | ⟨rfl, rfl, rfl⟩ | ⟨rfl, rfl, rfl⟩
  · rfl
  · rw [← ht_cyc]
  · rw [ht_cyc]

/-- The walk towards a direction: from every facet one gets, across edges, to a facet whose cone contains `q`; on the way `q` is
further and further beyond the facet. -/
theorem Mesh.walk (hg : GenPos eps Q) (hM : Mesh Q h live) (q : P3 K) (P : ℕ → Prop)
    (hbase : ∀ j ∈ live, InCone (h j).a (h j).b (h j).c q → P j)
    (hstep : ∀ i ∈ live, ∀ j ∈ live, ∀ x y z w, Tri (h i) x y z → Tri (h j) y x w → fht (h i) q < fht (h j) q → P j → P i) :
    ∀ i ∈ live, P i := by
  have key : ∀ n i, i ∈ live → (live.filter fun j => decide (fht (h i) q < fht (h j) q)).length = n → P i := by
    intro n
    induction n using Nat.strong_induction_on with
    | _ n ih =>
      intro i hi hn
      by_cases hc : InCone (h i).a (h i).b (h i).c q
      · exact hbase i hi hc
      · have hex : ∃ x y z, Tri (h i) x y z ∧ 0 < det3 x y q := by
          unfold InCone at hc
          rcases not_and_or.mp hc with h1 | h1
          · exact ⟨_, _, _, Tri.self _, not_le.mp h1⟩
          · rcases not_and_or.mp h1 with h1 | h1
            · exact ⟨_, _, _, (Tri.self _).rot, not_le.mp h1⟩
            · exact ⟨_, _, _, (Tri.self _).rot.rot, not_le.mp h1⟩
        obtain ⟨x, y, z, ti, hpos⟩ := hex
        obtain ⟨j, hj, _, w, tj, hs⟩ := hM.adj_tri hg hi ti
        have hlt : fht (h i) q < fht (h j) q := by
          rw [ti.fht, tj.fht]
          exact ht_lt (ti.fdet ▸ hM.ori i hi) (tj.fdet ▸ hM.ori j hj) hs hpos
        refine hstep i hi j hj x y z w ti tj hlt (ih _ ?_ j hj rfl)
        rw [← hn]
        have hsub : (live.filter fun k => decide (fht (h j) q < fht (h k) q)) =
            (live.filter fun k => decide (fht (h i) q < fht (h k) q)).filter fun k => decide (fht (h j) q < fht (h k) q) := by
          rw [List.filter_filter]
          apply List.filter_congr
          intro k _
          by_cases hk : fht (h j) q < fht (h k) q
          · simp [hk, hlt.trans hk]
          · simp [hk]
        rw [hsub]
        refine List.length_filter_lt_length_iff_exists.mpr ⟨j, ?_, by simp⟩
        rw [List.mem_filter]
        exact ⟨hj, decide_eq_true hlt⟩
  intro i hi
  exact key _ i hi rfl

/-- Some facet lies in every direction. -/
theorem Mesh.cover (hg : GenPos eps Q) (hM : Mesh Q h live) (q : P3 K) :
    ∃ j ∈ live, InCone (h j).a (h j).b (h j).c q := by
  obtain ⟨i, hi⟩ := List.exists_mem_of_ne_nil live hM.ne
  exact hM.walk hg q (fun _ => ∃ j ∈ live, InCone (h j).a (h j).b (h j).c q) (fun j hj hc => ⟨j, hj, hc⟩)
    (fun _ _ _ _ _ _ _ _ _ _ _ h => h) i hi

/-- Two facets that lie in the same direction are the same. -/
theorem PreMesh.cone_same (hg : GenPos eps Q) (hM : PreMesh Q h live) {i j : ℕ} (hi : i ∈ live) (hj : j ∈ live) {q : P3 K}
    (h1 : InConeStrict (h i).a (h i).b (h i).c q) (h2 : InCone (h j).a (h j).b (h j).c q) : i = j := by
  have c1 := hM.conv j hj i hi
  have c2 := hM.conv i hi j hj
  obtain ⟨e1, e2, e3⟩ := cone_unique (hM.ori i hi) (hM.ori j hj) (c1 _ (Or.inl rfl)) (c1 _ (Or.inr (Or.inl rfl)))
    (c1 _ (Or.inr (Or.inr rfl))) (c2 _ (Or.inl rfl)) (c2 _ (Or.inr (Or.inl rfl))) (c2 _ (Or.inr (Or.inr rfl))) h1 h2
  refine hM.dist i hi j hj ?_
  intro v hv
  have hvQ := hM.vert i hi v hv
  refine hg.on_plane (hM.vert j hj) (hM.ori j hj) hvQ ?_
  rcases hv with rfl | rfl | rfl
  · exact e1
  · exact e2
  · exact e3

/-- The surface is connected. -/
theorem Mesh.connected (hg : GenPos eps Q) (hM : Mesh Q h live) (R : ℕ → Prop) {i0 : ℕ} (hi0 : i0 ∈ live) (h0 : R i0)
    (hR : ∀ i ∈ live, ∀ j ∈ live, ∀ x y z w, Tri (h i) x y z → Tri (h j) y x w → R i → R j) : ∀ i ∈ live, R i := by
  intro i hi
  -- walk from the start towards the facet `i`
  have hc : InConeStrict (h i).a (h i).b (h i).c fun k => (h i).a k + (h i).b k + (h i).c k := by
    have := hM.ori i hi
    unfold fdet at this
    unfold InConeStrict
    refine ⟨?_, ?_, ?_⟩ <;>
    · unfold det3 at this ⊢
      linarith
  have := hM.walk hg (fun k => (h i).a k + (h i).b k + (h i).c k) (fun j => R j → R i)
    (fun j hj hcj hRj => by rw [hM.cone_same hg hi hj hc hcj]; exact hRj)
    (fun a ha b hb x y z w ta tb _ ih hRa => ih (hR a ha b hb x y z w ta tb hRa)) i0 hi0
  exact this h0

/-- A point inside all facets is in the hull of the vertices and the origin, with explicit weights. -/
theorem Mesh.in_cone_weights (hg : GenPos eps Q) (hM : Mesh Q h live) (q : P3 K) :
    ∃ j ∈ live, ∃ α β γ : K, 0 ≤ α ∧ 0 ≤ β ∧ 0 ≤ γ ∧
      (∀ k, q k = α * (h j).a k + β * (h j).b k + γ * (h j).c k) ∧ fsv (h j) q = (α + β + γ - 1) * -fdet (h j) := by
  obtain ⟨j, hj, h1, h2, h3⟩ := hM.cover hg q
  have ho := hM.ori j hj
  unfold fdet at ho
  have hn : det3 (h j).a (h j).b (h j).c ≠ 0 := ho.ne
  refine ⟨j, hj, det3 (h j).b (h j).c q / det3 (h j).a (h j).b (h j).c, det3 (h j).c (h j).a q / det3 (h j).a (h j).b (h j).c,
    det3 (h j).a (h j).b q / det3 (h j).a (h j).b (h j).c, div_nonneg_of_nonpos h2 ho.le, div_nonneg_of_nonpos h3 ho.le,
    div_nonneg_of_nonpos h1 ho.le, ?_, ?_⟩
  · intro k
    rw [← mul_right_inj' hn]
    rw [mul_add, mul_add, ← mul_assoc, ← mul_assoc, ← mul_assoc, mul_div_cancel₀ _ hn, mul_div_cancel₀ _ hn,
      mul_div_cancel₀ _ hn]
    unfold det3
    fin_cases k <;> simp <;> ring
  · unfold fsv fdet
    have e : ∀ t : K, (t - 1) * -det3 (h j).a (h j).b (h j).c = det3 (h j).a (h j).b (h j).c - t * det3 (h j).a (h j).b (h j).c := by
      intro t; ring
    rw [e, add_mul, add_mul, div_mul_cancel₀ _ hn, div_mul_cancel₀ _ hn, div_mul_cancel₀ _ hn, sv_poly]
    unfold det3
    ring

end

end Verif.QHull
