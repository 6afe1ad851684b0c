import Verif.Gift.Loop

set_option linter.unusedSectionVars false
set_option linter.unusedVariables false

/-!
What the loop leaves behind is the hull.
-/

namespace Verif.Gift

open Verif Verif.Hull3d Verif.QHull

variable {P : List (P3 ℝ)}

theorem dart_corners {f : Fc} {x y w : ℕ} (h : Ok3 P f.a f.b f.c) (hd : (x, y) ∈ darts f) (hd' : (y, w) ∈ darts f) :
    corners f = {x, y, w} := by
  obtain ⟨n1, n2, n3⟩ := h.ne
  unfold darts at *
  unfold corners
  simp only [List.mem_cons, Prod.mk.injEq, List.not_mem_nil, or_false] at hd hd'
  ext v
  simp only [Finset.mem_insert, Finset.mem_singleton]
  rcases hd with ⟨rfl, rfl⟩ | ⟨rfl, rfl⟩ | ⟨rfl, rfl⟩ <;> rcases hd' with ⟨e, rfl⟩ | ⟨e, rfl⟩ | ⟨e, rfl⟩ <;>
    first | (exfalso; omega) | tauto

theorem Valid.get {H : List Fc} (hH : Valid P H) {i j : ℕ} (hi : i < H.length) (hj : j < H.length) (h : corners H[i] = corners H[j]) :
    i = j := by
  have hp := List.pairwise_iff_getElem.mp hH.dist
  rcases Nat.lt_trichotomy i j with hlt | he | hlt
  · exact absurd h (hp i j hi hj hlt)
  · exact he
  · exact absurd h.symm (hp j i hj hi hlt)

theorem Valid.dart_unique (hg : General P) {H : List Fc} (hH : Valid P H) {i j : ℕ} (hi : i < H.length) (hj : j < H.length) {x y : ℕ}
    (h1 : (x, y) ∈ darts H[i]) (h2 : (x, y) ∈ darts H[j]) : i = j := by
  have o1 := hH.ok _ (List.getElem_mem hi)
  have o2 := hH.ok _ (List.getElem_mem hj)
  obtain ⟨w, hw, a1, _⟩ := dart_third o1 h1
  obtain ⟨v, hv, b1, _⟩ := dart_third o2 h2
  obtain rfl := hw.uniq hg hv
  exact hH.get hi hj ((dart_corners o1 h1 a1).trans (dart_corners o2 h2 b1).symm)

theorem corners_card {f : Fc} (h : Ok3 P f.a f.b f.c) : (corners f).card = 3 := by
  obtain ⟨n1, n2, n3⟩ := h.ne
  exact Finset.card_eq_three.mpr ⟨f.a, f.b, f.c, n1, n3.symm, n2, rfl⟩

theorem no_both {f : Fc} (h : Ok3 P f.a f.b f.c) {x y : ℕ} (h1 : (x, y) ∈ darts f) (h2 : (y, x) ∈ darts f) : False := by
  obtain ⟨n1, n2, n3⟩ := h.ne
  unfold darts at *
  simp only [List.mem_cons, Prod.mk.injEq, List.not_mem_nil, or_false] at h1 h2
  omega

/-- The facet with a directed edge. -/
def idx (H : List Fc) (e : ℕ × ℕ) : ℕ := H.findIdx fun g => decide (e ∈ darts g)

/-- The surface as a heap of linked facets. -/
def heapOf (P : List (P3 ℝ)) (H : List Fc) : Heap (P3 ℝ) := fun i =>
  let f := H.getD i ⟨0, 0, 0⟩
  ⟨at' P f.a, at' P f.b, at' P f.c, some (idx H (f.b, f.a)), some (idx H (f.c, f.b)), some (idx H (f.a, f.c))⟩

theorem idx_spec {H : List Fc} {e : ℕ × ℕ} (h : ∃ g ∈ H, e ∈ darts g) : ∃ hi : idx H e < H.length, e ∈ darts H[idx H e] := by
  obtain ⟨g, hg, hd⟩ := h
  have hlt : idx H e < H.length := List.findIdx_lt_length_of_exists ⟨g, hg, by simpa using hd⟩
  refine ⟨hlt, ?_⟩
  have := List.findIdx_getElem (xs := H) (p := fun g => decide (e ∈ darts g)) (w := hlt)
  exact of_decide_eq_true this

theorem heapOf_eq {H : List Fc} {i : ℕ} (hi : i < H.length) : heapOf P H i =
    ⟨at' P H[i].a, at' P H[i].b, at' P H[i].c, some (idx H (H[i].b, H[i].a)), some (idx H (H[i].c, H[i].b)),
      some (idx H (H[i].a, H[i].c))⟩ := by
  unfold heapOf
  rw [List.getD_eq_getElem _ _ hi]

theorem isV_heapOf {H : List Fc} {i : ℕ} (hi : i < H.length) (v : P3 ℝ) : IsV (heapOf P H i) v ↔ ∃ k ∈ corners H[i], v = at' P k := by
  rw [heapOf_eq hi]
  unfold IsV corners
  simp

theorem Final.mesh (hg : General P) {cap : ℕ} {H : List Fc} (hF : Final P cap H) : Mesh P (heapOf P H) (List.range H.length) := by
  have hok : ∀ {i} (hi : i < H.length), Ok3 P H[i].a H[i].b H[i].c := fun hi => hF.valid.ok _ (List.getElem_mem hi)
  have hlt : ∀ {i} (hi : i < H.length), ∀ k ∈ corners H[i], k < P.length := by
    intro i hi k hk
    unfold corners at hk
    simp only [Finset.mem_insert, Finset.mem_singleton] at hk
    rcases hk with rfl | rfl | rfl
    · exact (hok hi).lx
    · exact (hok hi).ly
    · exact (hok hi).lz
  refine ⟨⟨?_, List.nodup_range, ?_, ?_, ?_, ?_⟩, ?_⟩
  · rw [Ne, List.range_eq_nil]
    exact fun h => hF.ne (List.length_eq_zero_iff.mp h)
  · intro i hi v hv
    rw [List.mem_range] at hi
    obtain ⟨k, hk, rfl⟩ := (isV_heapOf hi v).mp hv
    exact at_mem (hlt hi k hk)
  · intro i hi
    rw [List.mem_range] at hi
    rw [heapOf_eq hi]
    exact (hok hi).det
  · intro i hi j hj v hv
    rw [List.mem_range] at hi hj
    obtain ⟨k, hk, rfl⟩ := (isV_heapOf hj v).mp hv
    rw [heapOf_eq hi]
    exact (hok hi).sup _ (at_mem (hlt hj k hk))
  · intro i hi j hj h
    rw [List.mem_range] at hi hj
    refine hF.valid.get hi hj (Finset.eq_of_subset_of_card_le ?_ ?_)
    · intro k hk
      obtain ⟨l, hl, he⟩ := (isV_heapOf hj _).mp (h _ ((isV_heapOf hi _).mpr ⟨k, hk, rfl⟩))
      rw [at_inj hg.nodup (hlt hi k hk) (hlt hj l hl) he]
      exact hl
    · rw [corners_card (hok hi), corners_card (hok hj)]
  · intro i hi d o hd
    rw [List.mem_range] at hi
    -- the facet across a directed edge
    have key : ∀ x y, (x, y) ∈ darts H[i] → ∃ j ∈ List.range H.length, j ≠ i ∧ some (idx H (y, x)) = some j ∧
        Across (heapOf P H j) s(at' P x, at' P y) i := by
      intro x y hxy
      obtain ⟨hj, hyx⟩ := idx_spec (hF.closed _ (List.getElem_mem hi) x y hxy)
      refine ⟨_, List.mem_range.mpr hj, ?_, rfl, ?_⟩
      · intro he
        refine no_both (hok hi) hxy ?_
        simp only [he] at hyx
        exact hyx
      · obtain ⟨hk, hxy'⟩ := idx_spec ⟨_, List.getElem_mem hi, hxy⟩
        have hki := hF.valid.dart_unique hg hk hi hxy' hxy
        rw [heapOf_eq hj]
        unfold Across
        generalize hgd : H[idx H (y, x)] = g at hyx
        simp only [darts, List.mem_cons, Prod.mk.injEq, List.not_mem_nil, or_false] at hyx
        rcases hyx with ⟨rfl, rfl⟩ | ⟨rfl, rfl⟩ | ⟨rfl, rfl⟩
        · exact Or.inl ⟨Sym2.eq_swap, by rw [hki]⟩
        · exact Or.inr (Or.inl ⟨Sym2.eq_swap, by rw [hki]⟩)
        · exact Or.inr (Or.inr ⟨Sym2.eq_swap, by rw [hki]⟩)
    rw [heapOf_eq hi] at hd
    rcases hd with ⟨rfl, rfl⟩ | ⟨rfl, rfl⟩ | ⟨rfl, rfl⟩
    · exact key _ _ (by simp [darts])
    · exact key _ _ (by simp [darts])
    · exact key _ _ (by simp [darts])

/-- The facets as they are returned. -/
noncomputable def outOf (P : List (P3 ℝ)) (H : List Fc) : List (IFacet ℝ) := H.map fun f => mkFacet ⟨at' P f.a, at' P f.b, at' P f.c⟩

theorem tr_zero : (P.map (tr (0 : P3 ℝ))) = P := by
  have : (tr (0 : P3 ℝ)) = id := by
    funext p i
    unfold tr
    simp
  rw [this, List.map_id]

theorem Final.isHull (hg : General P) {cap : ℕ} {H : List Fc} (hF : Final P cap H) : IsHull3 P (outOf P H) := by
  have hM := hF.mesh hg
  have h1 : GenPos 0 (P.map (tr (0 : P3 ℝ))) := by rw [tr_zero]; exact hg.gen
  have h2 : Mesh (P.map (tr (0 : P3 ℝ))) (heapOf P H) (List.range H.length) := by rw [tr_zero]; exact hM
  have := IsHull3.of_mesh (o := 0) h1 h2 (by
    rw [tr_zero]
    intro q hq i hi
    rw [List.mem_range] at hi
    rw [heapOf_eq hi]
    exact (hF.valid.ok _ (List.getElem_mem hi)).sup q hq) List.nodup_range fun i => Iff.rfl
  have e : (List.range H.length).map (fun i => outFacet 0 (heapOf P H i)) = outOf P H := by
    unfold outOf
    apply List.ext_getElem
    · simp
    · intro i h1 h2
      have hi : i < H.length := by simpa using h1
      simp only [List.getElem_map, List.getElem_range]
      rw [heapOf_eq hi]
      unfold outFacet
      simp
  rwa [e] at this

theorem mkFacet_has {K : Type} [Field K] [LinearOrder K] [IsStrictOrderedRing K] (a b c v : P3 K) :
    HasV (mkFacet ⟨a, b, c⟩) v ↔ v = a ∨ v = b ∨ v = c := by
  unfold mkFacet HasV
  split
  · simp only; tauto
  · rfl

/-- The list of facets of the hull is at least as long as any list of different supporting triangles. -/
theorem Valid.le_hull (hg : General P) {A : List (IFacet ℝ)} (hA : IsHull3 P A) {H : List Fc} (hH : Valid P H) : H.length ≤ A.length := by
  have hv : ∀ f ∈ H, ∀ v, HasV (mkFacet ⟨at' P f.a, at' P f.b, at' P f.c⟩) v ↔ ∃ k ∈ corners f, v = at' P k := by
    intro f hf v
    rw [mkFacet_has]
    unfold corners
    simp
  have hlt : ∀ f ∈ H, ∀ k ∈ corners f, k < P.length := by
    intro f hf k hk
    have := hH.ok f hf
    unfold corners at hk
    simp only [Finset.mem_insert, Finset.mem_singleton] at hk
    rcases hk with rfl | rfl | rfl
    · exact this.lx
    · exact this.ly
    · exact this.lz
  have ne : ∀ {i j}, i < P.length → j < P.length → i ≠ j → at' P i ≠ at' P j := fun hi hj h he => h (at_inj hg.nodup hi hj he)
  have := length_le_of_match (A := A) (B := outOf P H) (by
    intro g hg'
    obtain ⟨f, hf, rfl⟩ := List.mem_map.mp hg'
    have ok := hH.ok f hf
    obtain ⟨n1, n2, n3⟩ := ok.ne
    obtain ⟨k, hk, e1, e2, e3⟩ := hA.complete _ (at_mem ok.lx) _ (at_mem ok.ly) _ (at_mem ok.lz) (ne ok.lx ok.ly n1) (ne ok.ly ok.lz n2)
      (ne ok.lz ok.lx n3) (Or.inl fun p hp => by rw [vol_sv]; have := ok.sup p hp; linarith)
    refine ⟨k, hk, fun v => ?_⟩
    rw [mkFacet_has]
    exact has3 e1 e2 e3 (ne ok.lx ok.ly n1) (ne ok.ly ok.lz n2) (ne ok.lz ok.lx n3) v) (by
    unfold outOf
    rw [List.pairwise_map]
    refine hH.dist.imp_of_mem ?_
    intro f g hf hg' hne he
    apply hne
    ext k
    constructor
    · intro hk
      obtain ⟨l, hl, hkl⟩ := (hv g hg' _).mp ((he _).mp ((hv f hf _).mpr ⟨k, hk, rfl⟩))
      rw [at_inj hg.nodup (hlt f hf k hk) (hlt g hg' l hl) hkl]
      exact hl
    · intro hk
      obtain ⟨l, hl, hkl⟩ := (hv f hf _).mp ((he _).mpr ((hv g hg' _).mpr ⟨k, hk, rfl⟩))
      rw [at_inj hg.nodup (hlt g hg' k hk) (hlt f hf l hl) hkl]
      exact hl)
  unfold outOf at this
  rwa [List.length_map] at this

/-- There are at most as many as triples of indices. -/
theorem Valid.le_cube {H : List Fc} (hH : Valid P H) : H.length ≤ P.length ^ 3 := by
  have hnd : (H.map fun f => (f.a, f.b, f.c)).Nodup := by
    refine List.pairwise_map.mpr (hH.dist.imp ?_)
    intro f g hne he
    apply hne
    simp only [Prod.mk.injEq] at he
    unfold corners
    rw [he.1, he.2.1, he.2.2]
  have hsub : (H.map fun f => (f.a, f.b, f.c)).toFinset ⊆ Finset.range P.length ×ˢ Finset.range P.length ×ˢ Finset.range P.length := by
    intro t ht
    obtain ⟨f, hf, rfl⟩ := List.mem_map.mp (List.mem_toFinset.mp ht)
    have := hH.ok f hf
    simp only [Finset.mem_product, Finset.mem_range]
    exact ⟨this.lx, this.ly, this.lz⟩
  have h1 := Finset.card_le_card hsub
  rw [List.toFinset_card_of_nodup hnd, List.length_map, Finset.card_product, Finset.card_product, Finset.card_range] at h1
  calc H.length ≤ _ := h1
    _ = _ := by ring

end Verif.Gift
