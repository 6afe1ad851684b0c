import Verif.QHull.Round

set_option linter.unusedSectionVars false
set_option linter.unusedVariables false

/-!
One round of the quickhull in space.
-/

namespace Verif.QHull

open Verif Verif.Hull3d

variable {K : Type} [Field K] [LinearOrder K] [IsStrictOrderedRing K]

section

variable {eps : K} {Q : List (P3 K)} {st : Hull K} {p : P3 K} {fr : Fr K}

theorem GenPos.keep_iff (hg : GenPos eps Q) {f : Facet (P3 K)} (hv : ∀ v, IsV f v → v ∈ Q) (hf : fdet f < 0) {q : P3 K}
    (hq : q ∈ Q) : keep eps f q = true ↔ 0 < fsv f q := by
  have hvis := hg.visible_iff hv hf hq
  unfold visible at hvis
  unfold keep
  rw [Bool.and_eq_true, hvis]
  constructor
  · exact fun h => h.1
  · intro h
    refine ⟨h, ?_⟩
    unfold fsv at h
    have n1 : f.a ≠ q := by rintro rfl; rw [sv_a] at h; exact lt_irrefl _ h
    have n2 : f.b ≠ q := by rintro rfl; rw [sv_b] at h; exact lt_irrefl _ h
    have n3 : f.c ≠ q := by rintro rfl; rw [sv_c] at h; exact lt_irrefl _ h
    simp [n1, n2, n3]

theorem frontier_perm (hG : Good Q st) (hF : FrontierOK eps st p fr) : (fr.2 ++ keptOld st fr).Perm st.live := by
  refine (List.perm_ext_iff_of_nodup ?_ hG.mesh.nodup).mpr ?_
  · rw [List.nodup_append]
    refine ⟨hF.fnodup, hG.mesh.nodup.filter _, ?_⟩
    rintro a ha b hb rfl
    have h1 := ((hF.fac a).mp ha).2
    have h2 := ((mem_keptOld hF).mp hb).2
    rw [h1] at h2
    simp at h2
  · intro a
    rw [List.mem_append, hF.fac, mem_keptOld hF]
    cases h : visible eps (st.heap a) p <;> simp

/-- A round succeeds, keeps the invariant and leaves fewer points to be looked at. -/
theorem round_ok (hg : GenPos eps Q) (hG : Good Q st) {v : Vtx K} (hp : Apex Q st.heap st.live v.1) (hF : FrontierOK eps st v.1 fr)
    (hi : v.2 ∈ st.live) (hv : v ∈ st.pts v.2) :
    ∃ st', round eps st v.1 fr = .ok st' ∧ Good Q st' ∧ total st' < total st := by
  have hM := hG.mesh
  set p := v.1 with hpv
  have hvis : visible eps (st.heap v.2) p = true := (hM.vis_iff hg hp.mem hi).mpr (hG.see v.2 hi v hv).2.2
  set h0 := (allocNew eps st fr.1 p).heap with hh0
  obtain ⟨h2, hl, hs, hm⟩ := linkNew_ok hg hG hp hF (List.range fr.1.length) (allocNew eps st fr.1 p)
    (fun k hk => List.mem_range.mp hk) rfl (fun g => ⟨rfl, rfl, rfl⟩)
  rw [← hh0] at hs hm
  have hP := round_pre hg hG hp hF
  rw [← hh0] at hP
  have hold : ∀ i ∈ st.live, h0 i = st.heap i := fun i hi => alloc_old eps st fr.1 p (hG.fresh i hi)
  have hnew : ∀ (k : ℕ) (e : Edge K), fr.1[k]? = some e → h0 (st.next + k) = ⟨e.a, e.b, p, none, none, none⟩ :=
    fun k e hk => alloc_new hg hM hp hF hk
  have hP2 := hP.sameV hs
  have hedge : ∀ g e, IsEdge (h2 g) e ↔ IsEdge (h0 g) e := fun g e => (hs g).isEdge e
  -- the new surface
  have hM2 : Mesh Q h2 (liveNew st fr) := by
    refine hP2.close ?_ ?_
    · intro g hgl e he
      obtain ⟨j, S⟩ := round_closed hg hG hp hF g hgl e ((hedge g e).mp he)
      exact ⟨j, S.1, S.2.1, S.2.2.1, he, (hedge _ _).mpr S.2.2.2.2⟩
    · intro g j e S
      have S0 : Share h0 (liveNew st fr) g j e := ⟨S.1, S.2.1, S.2.2.1, (hedge _ _).mp S.2.2.2.1, (hedge _ _).mp S.2.2.2.2⟩
      obtain ⟨m1, m2⟩ := hm g j e S0
      rcases (mem_liveNew hF).mp S.1 with ⟨k, ed, hk, rfl⟩ | ⟨hgi, hgn⟩
      · exact m2 k (List.mem_range.mpr (List.getElem?_eq_some_iff.mp hk).1) S0.2.2.2.1
      · rcases (mem_liveNew hF).mp S.2.1 with ⟨k, ed, hk, rfl⟩ | ⟨hji, hjn⟩
        · exact m2 k (List.mem_range.mpr (List.getElem?_eq_some_iff.mp hk).1) S0.2.2.2.2
        · refine m1 ?_
          have := hM.mut hg (g := g) (j := j) (e := e) ⟨hgi, hji, S.2.2.1, hold g hgi ▸ S0.2.2.2.1, hold j hji ▸ S0.2.2.2.2⟩
          unfold Mut at this ⊢
          rw [hold g hgi, hold j hji]
          exact this
  set new := List.range' st.next fr.1.length with hnewdef
  set L := fr.2.flatMap st.pts with hLdef
  have hptsold : ∀ i ∈ st.live, (allocNew eps st fr.1 p).pts i = st.pts i := by
    intro i hi
    unfold allocNew
    simp only
    rw [if_neg]
    have := hG.fresh i hi
    omega
  have hptsnew : ∀ i ∈ new, (allocNew eps st fr.1 p).pts i = [] := by
    intro i hi
    rw [hnewdef, List.mem_range'_1] at hi
    unfold allocNew
    simp only
    rw [if_pos hi]
  have hLeq : fr.2.flatMap (allocNew eps st fr.1 p).pts = L := by
    rw [hLdef]
    apply List.flatMap_congr
    intro i hi
    exact hptsold i ((hF.fac i).mp hi).1
  set pts' := L.foldl (place eps h2 new) (allocNew eps st fr.1 p).pts with hpts'
  have hlive : (List.range' st.next fr.1.length ++ st.live).filter (fun i => decide (i ∉ fr.2)) = liveNew st fr := by
    rw [List.filter_append]
    unfold liveNew keptOld
    congr 1
    rw [List.filter_eq_self]
    intro i hi
    rw [decide_eq_true_eq]
    intro hc
    have h1 := (List.mem_range'_1.mp hi).1
    have h2 := hG.fresh i ((hF.fac i).mp hc).1
    omega
  refine ⟨⟨h2, liveNew st fr, pts', st.next + fr.1.length, st.next, st.hSize + fr.1.length - fr.2.length⟩, ?_, ?_, ?_⟩
  · unfold round
    rw [if_neg hF.ne, hl]
    simp only [Except.bind, redistribute, foldl_flat]
    rw [hLeq]
    simp only [allocNew, List.length_range']
    rw [hlive]
    rfl
  · -- facts on points
    have hLmem : ∀ u ∈ L, ∃ i ∈ st.live, visible eps (st.heap i) p = true ∧ u ∈ st.pts i := by
      intro u hu
      obtain ⟨i, hi, hu⟩ := List.mem_flatMap.mp hu
      obtain ⟨h1, h2⟩ := (hF.fac i).mp hi
      exact ⟨i, h1, h2, hu⟩
    have hnewlive : ∀ k ∈ new, k ∈ liveNew st fr := fun k hk => List.mem_append_left _ hk
    have hoff : ∀ i ∈ st.live, i ∉ new := by
      intro i hi hc
      have h1 := (List.mem_range'_1.mp hc).1
      have h2 := hG.fresh i hi
      omega
    have hpn : ∀ k ∈ new, pts' k = (L.filter fun u => decide ((new.find? fun j => keep eps (h2 j) u.1) = some k)).map
        fun u => (u.1, k) := by
      intro k hk
      rw [hpts', foldl_place, hptsnew k hk, List.nil_append]
    have hpo : ∀ i ∈ st.live, pts' i = st.pts i := by
      intro i hi
      rw [hpts', foldl_place, hptsold i hi]
      have : (L.filter fun u => decide ((new.find? fun j => keep eps (h2 j) u.1) = some i)) = [] := by
        rw [List.filter_eq_nil_iff]
        intro u _ hc
        exact hoff i hi (List.mem_of_find?_eq_some (of_decide_eq_true hc))
      rw [this]
      simp
    have hkeep : ∀ k ∈ liveNew st fr, ∀ q ∈ Q, keep eps (h2 k) q = true ↔ 0 < fsv (h2 k) q :=
      fun k hk q hq => hg.keep_iff (hM2.vert k hk) (hM2.ori k hk) hq
    have hfold : ∀ i ∈ st.live, ∀ q, fsv (h2 i) q = fsv (st.heap i) q := fun i hi q => by
      rw [SameV.fsv (hs i), hold i hi]
    have hfnew : ∀ (k : ℕ) (e : Edge K), fr.1[k]? = some e → ∀ q, fsv (h2 (st.next + k)) q = sv e.a e.b p q :=
      fun k e hk q => by rw [SameV.fsv (hs _), hnew k e hk]; rfl
    refine ⟨hM2, ?_, ?_, ?_, ?_, ?_⟩
    · intro i hi
      show i < st.next + fr.1.length
      rcases (mem_liveNew hF).mp hi with ⟨k, e, hk, rfl⟩ | ⟨hi, _⟩
      · have := (List.getElem?_eq_some_iff.mp hk).1
        omega
      · have := hG.fresh i hi
        omega
    · show st.next ∈ liveNew st fr
      refine hnewlive _ (List.mem_range'_1.mpr ?_)
      have := List.length_pos_of_ne_nil hF.ne
      omega
    · show st.hSize + fr.1.length - fr.2.length = (liveNew st fr).length
      have h1 := (frontier_perm hG hF).length_eq
      rw [List.length_append] at h1
      unfold liveNew
      rw [List.length_append, List.length_range', hG.size]
      omega
    · intro i hi u hu
      show u.1 ∈ Q ∧ u.2 = i ∧ 0 < fsv (h2 i) u.1
      rcases List.mem_append.mp hi with hin | hio
      · rw [show (Hull.pts _ i) = pts' i from rfl, hpn i hin] at hu
        obtain ⟨w, hw, rfl⟩ := List.mem_map.mp hu
        obtain ⟨hwL, hwf⟩ := List.mem_filter.mp hw
        obtain ⟨j, hj, _, hwj⟩ := hLmem w hwL
        have hQ := (hG.see j hj w hwj).1
        refine ⟨hQ, rfl, ?_⟩
        have := List.find?_some (of_decide_eq_true hwf)
        exact (hkeep i hi w.1 hQ).mp this
      · have hil := ((mem_keptOld hF).mp hio).1
        rw [show (Hull.pts _ i) = pts' i from rfl, hpo i hil] at hu
        obtain ⟨g1, g2, g3⟩ := hG.see i hil u hu
        exact ⟨g1, g2, by rw [hfold i hil]; exact g3⟩
    · intro q hq
      show (∃ i ∈ liveNew st fr, ∃ u ∈ pts' i, u.1 = q) ∨ ∀ i ∈ liveNew st fr, fsv (h2 i) q ≤ 0
      rcases hG.cov q hq with ⟨i, hi, u, hu, rfl⟩ | hall
      · by_cases hvi : visible eps (st.heap i) p = true
        · -- the facet of the point is deleted
          have huL : u ∈ L := List.mem_flatMap.mpr ⟨i, (hF.fac i).mpr ⟨hi, hvi⟩, hu⟩
          cases hf : new.find? fun j => keep eps (h2 j) u.1 with
          | some k =>
            have hk := List.mem_of_find?_eq_some hf
            refine Or.inl ⟨k, hnewlive k hk, (u.1, k), ?_, rfl⟩
            rw [hpn k hk]
            exact List.mem_map.mpr ⟨u, List.mem_filter.mpr ⟨huL, decide_eq_true hf⟩, rfl⟩
          | none =>
            refine Or.inr ?_
            have hno : ∀ k ∈ new, fsv (h2 k) u.1 ≤ 0 := by
              intro k hk
              have h1 := List.find?_eq_none.mp hf k hk
              by_contra hc
              exact h1 ((hkeep k (hnewlive k hk) u.1 hq).mpr (not_le.mp hc))
            intro j hj
            rcases List.mem_append.mp hj with hj | hj
            · exact hno j hj
            · obtain ⟨hjl, hjn⟩ := (mem_keptOld hF).mp hj
              rw [hfold j hjl]
              by_contra hc
              have hpos := not_le.mp hc
              have hui := (hG.see i hi u hu).2.2
              -- the facets that see the point are connected, so they cross the frontier
              have hua : Apex Q st.heap st.live u.1 := by
                refine ⟨hq, fun m hm hV => ?_⟩
                have := hM.conv i hi m hm u.1 hV
                linarith
              have := hM.vis_connected hg hua (fun m => visible eps (st.heap m) p = true) ?_ hi hui hvi j hjl hpos
              · rw [hjn] at this; simp at this
              · intro a ha b hb x y z w ta tb hua hub hva
                by_contra hvb
                have hfront : Dfs.Front (dD st.heap st.live) (dvis eps p st.heap st.live) (x, y) := by
                  refine ⟨mem_dD.mpr ⟨a, ha, z, ta⟩, ?_, ?_⟩
                  · rw [hM.dvis_eq hg p ha ta]; exact hva
                  · unfold Dfs.tw
                    rw [hM.dvis_eq hg p hb tb]; simpa using hvb
                obtain ⟨ed, hed, hke⟩ := List.mem_map.mp ((hF.mem _).mpr hfront)
                obtain ⟨k, hk⟩ := List.mem_iff_getElem?.mp hed
                obtain ⟨h1, h2⟩ := Prod.mk.inj (show (ed.a, ed.b) = (x, y) from hke)
                obtain ⟨a', b', z', w', H⟩ := hM.horizon hg hp hfront
                obtain rfl : a' = a := hM.uniq hg H.hi ha H.ti ta
                obtain rfl : b' = b := hM.uniq hg H.hj hb H.tj tb
                have hsv := H.pos hua hub
                have hkn : st.next + k ∈ new := List.mem_range'_1.mpr
                  ⟨by omega, by have := (List.getElem?_eq_some_iff.mp hk).1; omega⟩
                have := hno _ hkn
                rw [hfnew k ed hk, h1, h2] at this
                linarith
        · refine Or.inl ⟨i, List.mem_append_right _ ((mem_keptOld hF).mpr ⟨hi, by simpa using hvi⟩), u, ?_, rfl⟩
          rw [hpo i hi]
          exact hu
      · refine Or.inr ?_
        intro j hj
        rcases (mem_liveNew hF).mp hj with ⟨k, e, hk, rfl⟩ | ⟨hjl, _⟩
        · obtain ⟨a, b, z, w, H⟩ := hF.horizon hg hM hp (List.mem_of_getElem? hk)
          rw [hfnew k e hk]
          exact H.le (hall a H.hi) (hall b H.hj)
        · rw [hfold j hjl]; exact hall j hjl
  · -- the apex is not kept
    show ((liveNew st fr).map fun i => (pts' i).length).sum < total st
    unfold liveNew total
    rw [List.map_append, List.sum_append]
    have h1 := sum_place_le eps h2 new List.nodup_range' L (allocNew eps st fr.1 p).pts
    have hz : (new.map fun k => ((allocNew eps st fr.1 p).pts k).length).sum = 0 := by
      rw [List.sum_eq_zero]
      intro x hx
      obtain ⟨k, hk, rfl⟩ := List.mem_map.mp hx
      rw [hptsnew k hk]
      rfl
    rw [hz, zero_add, ← hpts'] at h1
    have hvL : v ∈ L := List.mem_flatMap.mpr ⟨v.2, (hF.fac v.2).mpr ⟨hi, hvis⟩, hv⟩
    have h2' : (L.filter fun u => (new.find? fun j => keep eps (h2 j) u.1).isSome).length < L.length := by
      refine List.length_filter_lt_length_iff_exists.mpr ⟨v, hvL, ?_⟩
      rw [Option.not_isSome_iff_eq_none, List.find?_eq_none]
      intro k hk hc
      obtain ⟨m, e, hm, rfl⟩ : ∃ m e, fr.1[m]? = some e ∧ k = st.next + m := by
        obtain ⟨g1, g2⟩ := List.mem_range'_1.mp hk
        exact ⟨k - st.next, fr.1[k - st.next], List.getElem?_eq_some_iff.mpr ⟨by omega, rfl⟩, by omega⟩
      have hcc : (h2 (st.next + m)).c = p := by
        rw [(hs _).2.2, hnew m e hm]
      unfold keep at hc
      simp [hcc, ← hpv] at hc
    have h3 := ((frontier_perm hG hF).map fun i => (st.pts i).length).sum_eq
    rw [List.map_append, List.sum_append] at h3
    have h4 : L.length = (fr.2.map fun i => (st.pts i).length).sum := by rw [hLdef, List.length_flatMap]
    have h5 : ((keptOld st fr).map fun i => (pts' i).length) = (keptOld st fr).map fun i => (st.pts i).length := by
      apply List.map_congr_left
      intro i hi
      have hil := ((mem_keptOld hF).mp hi).1
      rw [hpts', foldl_place, hptsold i hil]
      have : (L.filter fun u => decide ((new.find? fun j => keep eps (h2 j) u.1) = some i)) = [] := by
        rw [List.filter_eq_nil_iff]
        intro u _ hc
        have := (List.mem_range'_1.mp (List.mem_of_find?_eq_some (of_decide_eq_true hc))).1
        have := hG.fresh i hil
        omega
      rw [this]
      simp
    rw [h5]
    rw [← hnewdef]
    omega

end

end Verif.QHull
