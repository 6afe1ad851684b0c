import Mathlib.Analysis.Convex.Combination
import Mathlib.Algebra.BigOperators.Fin
import Verif.QHull.Init
import Verif.Hull3d.BruteProps

set_option linter.unusedSectionVars false
set_option linter.unusedVariables false

/-!
From the closed surface that the loop leaves behind to the facets that are returned.
-/

namespace Verif.QHull

open Verif Verif.Hull3d

variable {K : Type} [Field K] [LinearOrder K] [IsStrictOrderedRing K]

/-- `v` is a corner of the triangle. -/
def HasV (f : IFacet K) (v : P3 K) : Prop := v = f.a ∨ v = f.b ∨ v = f.c

/-- Specification, independent of the algorithm: the triangles are exactly the facets of the convex hull of `P`, each of them once. -/
structure IsHull3 (P : List (P3 K)) (out : List (IFacet K)) : Prop where
  /-- the corners are input points -/
  vert : ∀ f ∈ out, ∀ v, HasV f v → v ∈ P
  /-- no degenerate triangle -/
  proper : ∀ f ∈ out, f.a ≠ f.b ∧ f.b ≠ f.c ∧ f.c ≠ f.a
  /-- all other input points lie strictly on one side -/
  support : ∀ f ∈ out, (∀ p ∈ P, ¬ HasV f p → 0 < vol f.a f.b f.c p) ∨ ∀ p ∈ P, ¬ HasV f p → vol f.a f.b f.c p < 0
  /-- every triangle of input points with all input points on one side is returned -/
  complete : ∀ x ∈ P, ∀ y ∈ P, ∀ z ∈ P, x ≠ y → y ≠ z → z ≠ x →
    ((∀ p ∈ P, 0 ≤ vol x y z p) ∨ ∀ p ∈ P, vol x y z p ≤ 0) → ∃ f ∈ out, HasV f x ∧ HasV f y ∧ HasV f z
  /-- no facet twice -/
  distinct : out.Pairwise fun f g => ¬ ∀ v, HasV f v ↔ HasV g v
  /-- the corners span the convex hull of the input -/
  span : convexHull K {p | p ∈ P} = convexHull K {p | ∃ f ∈ out, HasV f p}
  /-- the surface is closed: every edge lies on exactly two facets -/
  edge : ∀ f ∈ out, ∀ u v, HasV f u → HasV f v → u ≠ v → ∃ g ∈ out, HasV g u ∧ HasV g v ∧ (¬ ∀ w, HasV g w ↔ HasV f w) ∧
    ∀ k ∈ out, HasV k u → HasV k v → (∀ w, HasV k w ↔ HasV f w) ∨ ∀ w, HasV k w ↔ HasV g w

theorem vol_sv (a b c p : P3 K) : vol a b c p = -sv a b c p := by
  rw [sv_poly]; unfold vol; ring

theorem convex4 {C : Set (P3 K)} (hC : Convex K C) {a b c d : P3 K} (ha : a ∈ C) (hb : b ∈ C) (hc : c ∈ C) (hd : d ∈ C)
    {w1 w2 w3 w4 : K} (h1 : 0 ≤ w1) (h2 : 0 ≤ w2) (h3 : 0 ≤ w3) (h4 : 0 ≤ w4) (hs : w1 + w2 + w3 + w4 = 1) {p : P3 K}
    (hp : ∀ i, p i = w1 * a i + w2 * b i + w3 * c i + w4 * d i) : p ∈ C := by
  have := hC.sum_mem (t := Finset.univ) (w := ![w1, w2, w3, w4]) (z := ![a, b, c, d])
    (by intro i _; fin_cases i <;> simpa) (by simp [Fin.sum_univ_four, hs]) (by intro i _; fin_cases i <;> simpa)
  rw [Fin.sum_univ_four] at this
  convert this using 1
  funext i
  rw [hp i]
  simp

section

variable {eps : K} {Q : List (P3 K)} {h : Heap (P3 K)} {live : List ℕ}

/-- The origin is not beyond any plane that has all vertices on one side. -/
theorem Mesh.origin_in (hg : GenPos eps Q) (hM : Mesh Q h live) : ∃ i ∈ live, ∃ j ∈ live, ∃ α β γ : K, 0 ≤ α ∧ 0 ≤ β ∧ 0 ≤ γ ∧
    ∀ k, (h i).a k + α * (h j).a k + β * (h j).b k + γ * (h j).c k = 0 := by
  obtain ⟨i, hi⟩ := List.exists_mem_of_ne_nil live hM.ne
  obtain ⟨j, hj, α, β, γ, h1, h2, h3, he, _⟩ := hM.in_cone_weights hg (fun k => -(h i).a k)
  refine ⟨i, hi, j, hj, α, β, γ, h1, h2, h3, fun k => ?_⟩
  have := he k
  linarith

theorem Mesh.complete (hg : GenPos eps Q) (hM : Mesh Q h live) (hin : ∀ q ∈ Q, ∀ i ∈ live, fsv (h i) q ≤ 0) {x y z : P3 K}
    (hx : x ∈ Q) (hy : y ∈ Q) (hz : z ∈ Q) (n1 : x ≠ y) (n2 : y ≠ z) (n3 : z ≠ x) (hs : ∀ q ∈ Q, sv x y z q ≤ 0) :
    ∃ j ∈ live, IsV (h j) x ∧ IsV (h j) y ∧ IsV (h j) z := by
  have hQ : ∀ {i v}, i ∈ live → IsV (h i) v → v ∈ Q := fun hi hv => hM.vert _ hi _ hv
  have hd : det3 x y z < 0 := by
    obtain ⟨i, hi, j, hj, α, β, γ, h1, h2, h3, he⟩ := hM.origin_in hg
    obtain ⟨n, n0, hn⟩ := sv_affine x y z
    have e0 : n0 = det3 x y z := by rw [← sv_zero, hn]; simp
    have s1 := hs _ (hQ hi (Or.inl rfl))
    have s2 := mul_nonneg h1 (neg_nonneg.mpr (hs _ (hQ hj (Or.inl rfl))))
    have s3 := mul_nonneg h2 (neg_nonneg.mpr (hs _ (hQ hj (Or.inr (Or.inl rfl)))))
    have s4 := mul_nonneg h3 (neg_nonneg.mpr (hs _ (hQ hj (Or.inr (Or.inr rfl)))))
    rw [hn] at s1 s2 s3 s4
    have hzero : n 0 * ((h i).a 0 + α * (h j).a 0 + β * (h j).b 0 + γ * (h j).c 0) +
        n 1 * ((h i).a 1 + α * (h j).a 1 + β * (h j).b 1 + γ * (h j).c 1) +
        n 2 * ((h i).a 2 + α * (h j).a 2 + β * (h j).b 2 + γ * (h j).c 2) = 0 := by
      rw [he 0, he 1, he 2]; ring
    have hle : n0 * (1 + α + β + γ) ≤ 0 := by linarith
    have hn0 : n0 ≤ 0 := by
      by_contra hc
      have := mul_pos (not_le.mp hc) (show 0 < 1 + α + β + γ by linarith)
      linarith
    have hdet := hg.det x hx y hy z hz n1 n3.symm n2
    rw [← e0] at hdet ⊢
    refine lt_of_le_of_ne hn0 ?_
    rintro h0
    rw [h0, abs_zero] at hdet
    exact absurd hg.nn (not_le.mpr hdet)
  set m : P3 K := fun i => x i + y i + z i with hm
  have hcone : InConeStrict x y z m := by
    have e : det3 x y m = det3 x y z ∧ det3 y z m = det3 x y z ∧ det3 z x m = det3 x y z := by
      rw [hm]
      unfold det3
      refine ⟨by ring, by ring, by ring⟩
    exact ⟨e.1 ▸ hd, e.2.1 ▸ hd, e.2.2 ▸ hd⟩
  obtain ⟨j, hj, hc⟩ := hM.cover hg m
  obtain ⟨e1, e2, e3⟩ := cone_unique hd (hM.ori j hj) (hin x hx j hj) (hin y hy j hj) (hin z hz j hj)
    (hs _ (hQ hj (Or.inl rfl))) (hs _ (hQ hj (Or.inr (Or.inl rfl)))) (hs _ (hQ hj (Or.inr (Or.inr rfl)))) hcone hc
  have hon : ∀ q ∈ Q, fsv (h j) q = 0 → IsV (h j) q := fun q hq h0 => hg.on_plane (hM.vert j hj) (hM.ori j hj) hq h0
  exact ⟨j, hj, hon x hx e1, hon y hy e2, hon z hz e3⟩

/-- The facet that is returned for a facet of the surface. -/
def outFacet (o : P3 K) (f : Facet (P3 K)) : IFacet K :=
  mkFacet ⟨fun i => f.a i + o i, fun i => f.b i + o i, fun i => f.c i + o i⟩

theorem tr_eq {o p v : P3 K} : p = (fun i => v i + o i) ↔ tr o p = v := by
  unfold tr
  constructor
  · rintro rfl; funext i; simp
  · rintro rfl; funext i; simp

theorem outFacet_has (o : P3 K) (f : Facet (P3 K)) (p : P3 K) : HasV (outFacet o f) p ↔ IsV f (tr o p) := by
  unfold outFacet mkFacet HasV IsV
  rw [← tr_eq, ← tr_eq, ← tr_eq]
  split
  · simp only; tauto
  · rfl

theorem outFacet_vol (o : P3 K) (f : Facet (P3 K)) : (∀ p, vol (outFacet o f).a (outFacet o f).b (outFacet o f).c p = -fsv f (tr o p)) ∨
    ∀ p, vol (outFacet o f).a (outFacet o f).b (outFacet o f).c p = fsv f (tr o p) := by
  have key : ∀ a b c p : P3 K, vol (fun i => a i + o i) (fun i => b i + o i) (fun i => c i + o i) p = -sv a b c (tr o p) := by
    intro a b c p
    rw [sv_poly]
    unfold vol tr
    ring
  unfold outFacet mkFacet fsv
  split
  · refine Or.inr fun p => ?_
    simp only
    rw [vol_swap, key, neg_neg]
  · refine Or.inl fun p => ?_
    simp only
    exact key _ _ _ _

theorem IsHull3.of_mesh {P : List (P3 K)} {o : P3 K} (hg : GenPos eps (P.map (tr o))) (hM : Mesh (P.map (tr o)) h live)
    (hin : ∀ q ∈ P.map (tr o), ∀ i ∈ live, fsv (h i) q ≤ 0) {V : List ℕ} (hV : V.Nodup) (hmem : ∀ i, i ∈ V ↔ i ∈ live) :
    IsHull3 P (V.map fun i => outFacet o (h i)) := by
  have mQ : ∀ {p}, tr o p ∈ P.map (tr o) ↔ p ∈ P := by
    intro p
    rw [List.mem_map]
    constructor
    · rintro ⟨q, hq, he⟩; rw [← tr_inj he]; exact hq
    · intro hp; exact ⟨p, hp, rfl⟩
  have trv : ∀ v : P3 K, ∃ p, tr o p = v := fun v => ⟨fun i => v i + o i, tr_eq.mp rfl⟩
  have hfac : ∀ {f}, f ∈ V.map (fun i => outFacet o (h i)) ↔ ∃ i ∈ live, outFacet o (h i) = f := by
    intro f
    rw [List.mem_map]
    constructor
    · rintro ⟨i, hi, rfl⟩; exact ⟨i, (hmem i).mp hi, rfl⟩
    · rintro ⟨i, hi, rfl⟩; exact ⟨i, (hmem i).mpr hi, rfl⟩
  -- two facets with the same corners are the same
  have hsame : ∀ i ∈ live, ∀ j ∈ live, (∀ v, HasV (outFacet o (h i)) v ↔ HasV (outFacet o (h j)) v) → i = j := by
    intro i hi j hj he
    refine hM.dist i hi j hj fun v hv => ?_
    obtain ⟨p, rfl⟩ := trv v
    rw [← outFacet_has] at hv ⊢
    exact (he p).mp hv
  refine ⟨?_, ?_, ?_, ?_, ?_, ?_, ?_⟩
  · intro f hf v hv
    obtain ⟨i, hi, rfl⟩ := hfac.mp hf
    exact mQ.mp (hM.vert i hi _ ((outFacet_has _ _ _).mp hv))
  · intro f hf
    obtain ⟨i, hi, rfl⟩ := hfac.mp hf
    obtain ⟨n1, n2, n3⟩ := tri_ne (hM.ori i hi) (Tri.self (h i))
    have key : ∀ {a b : P3 K}, a ≠ b → (fun i => a i + o i) ≠ fun i => b i + o i := by
      intro a b hn hc
      refine hn (funext fun i => ?_)
      have := congrFun hc i
      linarith
    unfold outFacet mkFacet
    split
    · exact ⟨key n3.symm, key n2.symm, key n1.symm⟩
    · exact ⟨key n1, key n2, key n3⟩
  · intro f hf
    obtain ⟨i, hi, rfl⟩ := hfac.mp hf
    have hlt : ∀ p ∈ P, ¬ HasV (outFacet o (h i)) p → fsv (h i) (tr o p) < 0 := by
      intro p hp hn
      refine lt_of_le_of_ne (hin _ (mQ.mpr hp) i hi) fun h0 => hn ?_
      rw [outFacet_has]
      exact hg.on_plane (hM.vert i hi) (hM.ori i hi) (mQ.mpr hp) h0
    rcases outFacet_vol o (h i) with hv | hv
    · refine Or.inl fun p hp hn => ?_
      rw [hv]
      have := hlt p hp hn
      linarith
    · refine Or.inr fun p hp hn => ?_
      rw [hv]
      exact hlt p hp hn
  · intro x hx y hy z hz n1 n2 n3 hs
    have ne : ∀ {a b : P3 K}, a ≠ b → tr o a ≠ tr o b := fun h hc => h (tr_inj hc)
    have fin : ∀ x ∈ P, ∀ y ∈ P, ∀ z ∈ P, x ≠ y → y ≠ z → z ≠ x → (∀ p ∈ P, 0 ≤ vol x y z p) →
        ∃ f ∈ V.map (fun i => outFacet o (h i)), HasV f x ∧ HasV f y ∧ HasV f z := by
      intro x hx y hy z hz n1 n2 n3 hs
      obtain ⟨j, hj, e1, e2, e3⟩ := hM.complete hg hin (mQ.mpr hx) (mQ.mpr hy) (mQ.mpr hz) (ne n1) (ne n2) (ne n3) (by
        intro q hq
        obtain ⟨p, hp, rfl⟩ := List.mem_map.mp hq
        have := hs p hp
        rw [vol_sv] at this
        rw [sv_tr]
        linarith)
      exact ⟨_, hfac.mpr ⟨j, hj, rfl⟩, (outFacet_has _ _ _).mpr e1, (outFacet_has _ _ _).mpr e2, (outFacet_has _ _ _).mpr e3⟩
    rcases hs with hs | hs
    · exact fin x hx y hy z hz n1 n2 n3 hs
    · obtain ⟨f, hf, e1, e2, e3⟩ := fin x hx z hz y hy n3.symm n2.symm n1.symm (fun p hp => by
        rw [vol_swap]
        have := hs p hp
        linarith)
      exact ⟨f, hf, e1, e3, e2⟩
  · rw [List.pairwise_map]
    refine hV.imp_of_mem ?_
    intro i j hi hj hne he
    exact hne (hsame i ((hmem i).mp hi) j ((hmem j).mp hj) he)
  · apply le_antisymm
    · refine convexHull_min ?_ (convex_convexHull K _)
      intro p hp
      have hC := convex_convexHull K {p | ∃ f ∈ V.map (fun i => outFacet o (h i)), HasV f p}
      have hin' : ∀ i ∈ live, ∀ v, IsV (h i) v →
          (fun k => v k + o k) ∈ convexHull K {p | ∃ f ∈ V.map (fun i => outFacet o (h i)), HasV f p} := by
        intro i hi v hv
        refine subset_convexHull K _ ⟨_, hfac.mpr ⟨i, hi, rfl⟩, ?_⟩
        rw [outFacet_has, tr_eq.mp rfl]
        exact hv
      -- the interior point
      have ho : o ∈ convexHull K {p | ∃ f ∈ V.map (fun i => outFacet o (h i)), HasV f p} := by
        obtain ⟨i, hi, j, hj, α, β, γ, h1, h2, h3, he⟩ := hM.origin_in hg
        have hpos : 0 < 1 + α + β + γ := by linarith
        refine convex4 hC (hin' i hi _ (Or.inl rfl)) (hin' j hj _ (Or.inl rfl)) (hin' j hj _ (Or.inr (Or.inl rfl)))
          (hin' j hj _ (Or.inr (Or.inr rfl))) (w1 := 1 / (1 + α + β + γ)) (w2 := α / (1 + α + β + γ))
          (w3 := β / (1 + α + β + γ)) (w4 := γ / (1 + α + β + γ)) (by positivity) (by positivity) (by positivity) (by positivity)
          (by field_simp) ?_
        intro k
        field_simp
        have := he k
        linear_combination -this
      obtain ⟨j, hj, α, β, γ, h1, h2, h3, he, hf⟩ := hM.in_cone_weights hg (tr o p)
      have hs : α + β + γ ≤ 1 := by
        have hle := hin _ (mQ.mpr hp) j hj
        rw [hf] at hle
        have hd := hM.ori j hj
        by_contra hc
        have := mul_pos (show 0 < α + β + γ - 1 by linarith) (neg_pos.mpr hd)
        linarith
      refine convex4 hC (hin' j hj _ (Or.inl rfl)) (hin' j hj _ (Or.inr (Or.inl rfl))) (hin' j hj _ (Or.inr (Or.inr rfl))) ho
        h1 h2 h3 (w4 := 1 - (α + β + γ)) (by linarith) (by ring) ?_
      intro k
      have := he k
      unfold tr at this
      linear_combination this
    · refine convexHull_mono ?_
      rintro p ⟨f, hf, hv⟩
      obtain ⟨i, hi, rfl⟩ := hfac.mp hf
      exact mQ.mp (hM.vert i hi _ ((outFacet_has _ _ _).mp hv))
  · intro f hf u v hu hv hne
    obtain ⟨i, hi, rfl⟩ := hfac.mp hf
    have hne' : tr o u ≠ tr o v := fun hc => hne (tr_inj hc)
    rw [outFacet_has] at hu hv
    have key : ∀ x y z : P3 K, Tri (h i) x y z → ∃ j ∈ live, j ≠ i ∧ IsV (h j) x ∧ IsV (h j) y ∧
        ∀ k ∈ live, IsV (h k) x → IsV (h k) y → k = i ∨ k = j := by
      intro x y z t
      obtain ⟨j, hj, hji, w, tj, _⟩ := hM.adj_tri hg hi t
      refine ⟨j, hj, hji, (tj.isV x).mpr (by simp), (tj.isV y).mpr (by simp), ?_⟩
      intro k hk hx hy
      have n := (tri_ne (hM.ori i hi) t).1
      obtain ⟨z', tz | tz⟩ := isEdge_tri.mp (isEdge_of_ne hx hy n)
      · exact Or.inl (hM.uniq hg hk hi tz t)
      · exact Or.inr (hM.uniq hg hk hj tz tj)
    have hex : ∃ j ∈ live, j ≠ i ∧ IsV (h j) (tr o u) ∧ IsV (h j) (tr o v) ∧
        ∀ k ∈ live, IsV (h k) (tr o u) → IsV (h k) (tr o v) → k = i ∨ k = j := by
      obtain ⟨z, t | t⟩ := isEdge_tri.mp (isEdge_of_ne hu hv hne')
      · exact key _ _ z t
      · obtain ⟨j, hj, hji, h1, h2, h3⟩ := key _ _ z t
        exact ⟨j, hj, hji, h2, h1, fun k hk ha hb => h3 k hk hb ha⟩
    obtain ⟨j, hj, hji, h1, h2, h3⟩ := hex
    refine ⟨_, hfac.mpr ⟨j, hj, rfl⟩, (outFacet_has _ _ _).mpr h1, (outFacet_has _ _ _).mpr h2,
      fun he => hji (hsame j hj i hi he), ?_⟩
    intro k hk hku hkv
    obtain ⟨k, hkl, rfl⟩ := hfac.mp hk
    rw [outFacet_has] at hku hkv
    rcases h3 k hkl hku hkv with rfl | rfl
    · exact Or.inl fun _ => Iff.rfl
    · exact Or.inr fun _ => Iff.rfl

end

section

variable {eps : K} {Q : List (P3 K)} {st : Hull K}

/-- The final traversal calls its action once for every facet. -/
theorem dfsFacet_collect {β : Type} (hg : GenPos eps Q) (hM : Mesh Q st.heap st.live) (act : List β → Facet (P3 K) → List β)
    (F : Facet (P3 K) → List β) (hact : ∀ out f, act out f = out ++ F f) {i0 : ℕ} (hi0 : i0 ∈ st.live) {fuel : ℕ}
    (hf : 3 * st.live.length + 1 < fuel) :
    ∃ V : List ℕ, V.Nodup ∧ (∀ i, i ∈ V ↔ i ∈ st.live) ∧
      dfsFacet st (fun out _ f => act out f) (fun _ => false) fuel [some i0] [] [] = .ok (V.flatMap fun i => F (st.heap i)) := by
  obtain ⟨V, out, he, hP, hn, hl, hs⟩ := dfsFacet_all hg hM (fun (out : List β) _ f => act out f) (fun _ => false)
    (fun V out => out = V.reverse.flatMap fun i => F (st.heap i)) (by
      intro V s i _ _ hs
      rw [hact, hs, List.reverse_cons, List.flatMap_append, List.flatMap_singleton]) hi0 [] (by simp) hf
  refine ⟨V.reverse, List.nodup_reverse.mpr hn, ?_, he.trans (congrArg Except.ok hP)⟩
  intro i
  rw [List.mem_reverse]
  refine ⟨hl i, fun hi => ?_⟩
  rcases hs with hs | hs
  · simp at hs
  · exact hs i hi

/-- Initialisation and loop together. -/
theorem run_ok {P : List (P3 K)} (hg : GenInput eps P) {fuel : ℕ} (hf : 9 * P.length ^ 3 + P.length + 5 ≤ fuel) :
    ∃ o st st', initSerial eps P = .ok (st, o) ∧ quickHull eps fuel fuel st = .ok st' ∧ GenPos eps (P.map (tr o)) ∧
      Good (P.map (tr o)) st' ∧ (∀ q ∈ P.map (tr o), ∀ i ∈ st'.live, fsv (st'.heap i) q ≤ 0) ∧
      3 * st'.live.length + 1 < fuel := by
  obtain ⟨o, st, ho, he, hG, ht⟩ := initSerial_ok hg
  have hg' := hg.genPos ho
  obtain ⟨st', hq, hG', hemp⟩ := quickHull_ok hg' (fuel := fuel) (by rw [List.length_map]; omega) fuel st hG (by omega)
  refine ⟨o, st, st', he, hq, hg', hG', ?_, ?_⟩
  · intro q hq' i hi
    rcases hG'.cov q hq' with ⟨j, hj, v, hv, _⟩ | h
    · rw [hemp j hj] at hv
      exact absurd hv List.not_mem_nil
    · exact h i hi
  · have := hG'.mesh.toPreMesh.length_le
    rw [List.length_map] at this
    omega

end

end Verif.QHull
