import Verif.RandInc.Conv

set_option linter.unusedSectionVars false
set_option linter.unusedVariables false

/-!
The insertion of a vertex keeps the ring convex.
-/

namespace Verif.RandInc

open Verif Verif.Hull2d

variable {K : Type} [Field K] [LinearOrder K] [IsStrictOrderedRing K]

/-- A point not in the triangle beyond a side `w u` that the line `p p'` separates from the apex is to the right of that line. -/
theorem beyond {u sv w q p p' : Point K 2} (hT : triArea u sv w < 0) (a1 : triArea u sv q ≤ 0) (a2 : triArea sv w q ≤ 0)
    (y1 : 0 ≤ triArea p p' q) (y2 : triArea p p' u ≤ 0) (y3 : triArea p p' w ≤ 0) (y4 : 0 < triArea p p' sv) :
    triArea w u q ≤ 0 := by
  have key : triArea u sv w * triArea p p' q = triArea sv w q * triArea p p' u + triArea w u q * triArea p p' sv +
      triArea u sv q * triArea p p' w := by unfold triArea; ring
  by_contra hc
  push Not at hc
  have h1 := mul_nonneg (neg_nonneg.mpr a2) (neg_nonneg.mpr y2)
  have h2 := mul_nonneg (neg_nonneg.mpr a1) (neg_nonneg.mpr y3)
  have h3 := mul_pos hc y4
  have h4 := mul_nonneg (neg_nonneg.mpr hT.le) y1
  linarith

/-- A vertex of a corner is to the right of the facets of the opposite chain. -/
theorem opposite (i : Fin 4) {p1 p2 q q' v : Point K 2} (hg : Dir (i + 1 + 1) (p2 - p1)) (h1 : triArea p1 p2 q ≤ 0)
    (h2 : triArea p1 p2 q' ≤ 0) (hs : Dir i (v - q)) (hs' : Dir i (q' - v)) (ha : 0 < triArea q q' v) : triArea p1 p2 v ≤ 0 := by
  have e1 : triArea p1 p2 q' = triArea p1 p2 q + cr (p2 - p1) (q' - q) := by
    unfold triArea cr; simp only [Pi.sub_apply]; ring
  have e2 : triArea p1 p2 v = triArea p1 p2 q + cr (p2 - p1) (v - q) := by
    unfold triArea cr; simp only [Pi.sub_apply]; ring
  rw [e1] at h2
  rw [e2]
  rw [area_cr] at ha
  obtain ⟨g1, g2⟩ := hg
  rw [rx_succ, ry_succ] at g1
  rw [ry_succ, rx_succ] at g2
  obtain ⟨s1, s2⟩ := hs
  obtain ⟨t1, t2⟩ := hs'
  have d1 : rx i (q' - v) = rx i (q' - q) - rx i (v - q) := by simp only [rx_sub]; ring
  have d2 : ry i (q' - v) = ry i (q' - q) - ry i (v - q) := by simp only [ry_sub]; ring
  rw [d1] at t1
  rw [d2] at t2
  rw [cr_rot i] at ha h2 ⊢
  generalize triArea p1 p2 q = T at *
  generalize rx i (p2 - p1) = G1 at *
  generalize ry i (p2 - p1) = G2 at *
  generalize rx i (v - q) = S1 at *
  generalize ry i (v - q) = S2 at *
  generalize rx i (q' - q) = D1 at *
  generalize ry i (q' - q) = D2 at *
  have hD : 0 < D1 := by
    rcases (s1.trans (sub_nonneg.mp t1)).lt_or_eq with h | h
    · exact h
    · rw [← h] at ha
      have := mul_nonneg (s2.trans (sub_nonneg.mp t2)) s1
      linarith
  have : D1 * (T + (G1 * S2 - G2 * S1)) ≤ 0 := by
    nlinarith [mul_nonneg g1 ha.le, mul_nonneg s1 (neg_nonneg.mpr h2), mul_nonneg t1 (neg_nonneg.mpr h1)]
  by_contra hc
  push Not at hc
  nlinarith [mul_pos hD hc]

section
variable {pos : ℕ → Point K 2} {n : ℕ} {Q : Fin 4 → ℕ} {C : Fin 4 → List ℕ} {s : St}
  {v : ℕ} {k : Fin 4} {A M B : List ℕ} {a e : ℕ} {fa fs fe : Fct} {x0 : ℕ}

theorem Ins.memC {eps : K} (h : Ins eps pos n Q C s v k A M B a e fa fs fe x0) {i : Fin 4} {x : ℕ} (hx : x ∈ newC C s.top k A B i) :
    (i = k + 1 ∧ (x = s.top ∨ x = s.top + 1)) ∨
      (x ∈ C i ∧ x ∉ M ∧ x < s.top ∧ (i = k + 1 → x ∈ A ∨ x ∈ B)) := by
  by_cases hi : i = k + 1
  · subst hi
    unfold newC at hx
    rw [Function.update_self] at hx
    simp only [List.mem_append, List.mem_cons] at hx
    by_cases h1 : x = s.top
    · exact .inl ⟨rfl, .inl h1⟩
    by_cases h2 : x = s.top + 1
    · exact .inl ⟨rfl, .inr h2⟩
    have h3 : x ∈ A ∨ x ∈ B := by tauto
    have := h.abMem (x := x) (List.mem_append.mpr h3)
    exact .inr ⟨this.1, this.2.1, this.2.2, fun _ => h3⟩
  · unfold newC at hx
    rw [Function.update_of_ne hi] at hx
    have := h.other hi x hx
    exact .inr ⟨hx, this.1, this.2, fun hh => absurd hh hi⟩

theorem Ins.inC {eps : K} (h : Ins eps pos n Q C s v k A M B a e fa fs fe x0) {i : Fin 4} {x : ℕ} (hx : x ∈ C i) (hM : x ∉ M) :
    x ∈ newC C s.top k A B i := by
  by_cases hi : i = k + 1
  · subst hi
    unfold newC
    rw [Function.update_self]
    rw [h.run.split] at hx
    simp only [List.mem_append, List.mem_cons] at hx ⊢
    tauto
  · unfold newC
    rw [Function.update_of_ne hi]
    exact hx

theorem rv_corner {eps : K} (hI : Inv eps pos n Q C s) (i : Fin 4) : RV C s.heap (Q i) := by
  have hp := hI.path i
  obtain ⟨x, l, hx⟩ := List.exists_cons_of_ne_nil (hI.ne i)
  rw [hx] at hp
  obtain ⟨f, f1, f2, -⟩ := hp
  exact ⟨i, x, by rw [hx]; simp, f, f1, .inl f2⟩

theorem Ins.conv (h : Ins (0 : K) pos n Q C s v k A M B a e fa fs fe x0) (hC : Conv pos n Q C s) :
    Conv pos n Q (newC C s.top k A B) (nx 0 pos s v a M e fa fs fe) := by
  have hI := h.inv
  obtain ⟨fm, hfm, hfm2⟩ := h.last
  obtain ⟨da, da1, da2, da3, da4, da5, da6⟩ := h.left hC
  obtain ⟨db, db1, db2, db3, db4, db5, db6⟩ := h.right hC hfm hfm2
  have hhead := (h.mlt _ (List.head_mem h.run.vis.ne)).1
  have hlast := (h.mlt _ (List.getLast_mem h.run.vis.ne)).1
  have ru : RV C s.heap fs.p1 := ⟨k + 1, _, hhead, fs, h.hs, .inl rfl⟩
  have rw' : RV C s.heap fe.p1 := ⟨k + 1, _, hlast, fm, hfm, .inr hfm2⟩
  -- what the vertex sees
  have v1 : 0 < cr (dirF pos fs) (pos v - pos fs.p1) := by
    obtain ⟨g, g1, g2⟩ := h.run.vis.vis _ (List.head_mem h.run.vis.ne)
    rw [h.hs, Option.some.injEq] at g1
    subst g1
    rwa [vis0, area_cr] at g2
  have v2 : 0 < cr (dirF pos fm) (pos v - pos fe.p1) := by
    obtain ⟨g, g1, g2⟩ := h.run.vis.vis _ (List.getLast_mem h.run.vis.ne)
    rw [hfm, Option.some.injEq] at g1
    subst g1
    rw [vis0, area_mid] at g2
    unfold dirF
    rw [← hfm2]
    exact g2
  have hd1 := hC.mono _ _ hhead fs h.hs
  have hn1 := h.nz hC hhead h.hs
  have hdm := hC.mono _ _ hlast fm hfm
  have hnm := h.nz hC hlast hfm
  have eneg : ∀ x y : Point K 2, cr x (pos fe.p1 - pos v) = -cr x (pos v - pos fe.p1) := fun x y => by
    unfold cr; simp only [Pi.sub_apply]; ring
  -- the new directions
  obtain ⟨α, β, hα, hβ, hS⟩ := cone (k + 1) da1 hd1 da2 hn1 da3 da4 v1.le (.inr v1)
  have hT1 : cr (dirF pos fm) (pos fe.p1 - pos v) < 0 := by rw [eneg _ da]; linarith
  have hT2 : 0 ≤ cr db (pos fe.p1 - pos v) := by rw [eneg _ da]; linarith
  obtain ⟨α', β', hα', hβ', hT⟩ := cone (k + 1) hdm db1 hnm db2 db3 hT1.le hT2 (.inl hT1)
  have dS : Dir (k + 1) (pos v - pos fs.p1) := by
    rw [hS]; exact dir_add _ (dir_smul _ hα da1) (dir_smul _ hβ hd1)
  have dT : Dir (k + 1) (pos fe.p1 - pos v) := by
    rw [hT]; exact dir_add _ (dir_smul _ hα' hdm) (dir_smul _ hβ' db1)
  have nS : pos v - pos fs.p1 ≠ 0 := by
    intro h0; rw [h0] at v1; unfold cr at v1; simp at v1
  have nT : pos fe.p1 - pos v ≠ 0 := by
    intro h0; rw [h0] at hT1; unfold cr at hT1; simp at hT1
  have cS : ∀ t, RV C s.heap t → triArea (pos fs.p1) (pos v) (pos t) ≤ 0 := by
    intro t ht
    rw [area_cr, hS, cr_comb]
    have := hC.cvx t ht _ _ hhead fs h.hs
    rw [area_cr] at this
    have h1 := mul_nonneg hα (neg_nonneg.mpr (da5 t ht))
    have h2 := mul_nonneg hβ (neg_nonneg.mpr this)
    unfold dirF
    linarith
  have cT : ∀ t, RV C s.heap t → triArea (pos v) (pos fe.p1) (pos t) ≤ 0 := by
    intro t ht
    rw [area_mid, hT, cr_comb]
    have := hC.cvx t ht _ _ hlast fm hfm
    rw [area_mid, hfm2] at this
    have h1 := mul_nonneg hα' (neg_nonneg.mpr this)
    have h2 := mul_nonneg hβ' (neg_nonneg.mpr (db5 t ht))
    unfold dirF
    rw [hfm2]
    linarith
  -- the triangle
  have hTri : triArea (pos fs.p1) (pos v) (pos fe.p1) < 0 := by
    rw [area_cr]
    have hp := (h.ends (le_refl _)).2.1
    have hX := path_dir (pos := pos) (i := k + 1) hp fun x hx => hC.mono _ x (h.mlt x hx).1
    have hX0 : pos fe.p1 - pos fs.p1 ≠ 0 := by
      intro h0
      obtain ⟨m, N, hm⟩ := List.exists_cons_of_ne_nil h.run.vis.ne
      have hs := h.hs
      simp only [hm, List.head_cons] at hs
      rw [hm] at hp
      obtain ⟨g, g1, g2, g3⟩ := hp
      rw [hs, Option.some.injEq] at g1
      subst g1
      have hR := path_dir (pos := pos) (i := k + 1) g3 fun x hx => hC.mono _ x (h.mlt x (by rw [hm]; simp [hx])).1
      exact hn1 (dir_salient (k + 1) hd1 hR (by unfold dirF; rw [← h0]; abel))
    refine cr_trans_lt (k + 1) dS hd1 hX hX0 (by rw [cr_swap]; linarith) ?_
    have := hC.cvx _ rw' _ _ hhead fs h.hs
    rwa [area_cr] at this
  -- the vertex sees no facet that stays
  have hcor := h.run.corner
  have cV : ∀ i x f, x ∈ C i → x ∉ M → (i = k + 1 → x ∈ A ∨ x ∈ B) → s.heap x = some f →
      triArea (pos f.p1) (pos f.p2) (pos v) ≤ 0 := by
    intro i x f hx hM hAB hf
    have split : ∀ q : Point K 2, triArea (pos f.p1) (pos f.p2) (pos v) = triArea (pos f.p1) (pos f.p2) q + cr (dirF pos f) (pos v - q) := by
      intro q
      unfold triArea cr dirF; simp only [Pi.sub_apply]; ring
    have hdf := hC.mono i x hx f hf
    rcases cases4 i k with rfl | rfl | rfl | rfl
    · rw [split (pos (Q (i + 1)))]
      have h1 := hC.cvx _ (rv_corner hI (i + 1)) _ _ hx f hf
      have h2 := adj i hdf hcor.1.1
      linarith
    · rcases hAB rfl with hA | hB
      · rw [split (pos fs.p1)]
        have h1 := hC.cvx _ ru _ _ hx f hf
        have h2 := cr_trans (k + 1) hdf da1 dS da2 (da6 x hA f hf) da4
        linarith
      · rw [split (pos fe.p1)]
        have h1 := hC.cvx _ rw' _ _ hx f hf
        have h2 := cr_trans (k + 1) dT db1 hdf db2 (by rw [cr_swap]; linarith) (db6 x hB f hf)
        have h3 := eneg (dirF pos f) da
        rw [cr_swap] at h2
        linarith
    · rw [split (pos (Q (k + 1 + 1)))]
      have h1 := hC.cvx _ (rv_corner hI (k + 1 + 1)) _ _ hx f hf
      have h2 := adj (k + 1) hcor.1.2 hdf
      have h3 : cr (pos (Q (k + 1 + 1)) - pos v) (dirF pos f) = cr (dirF pos f) (pos v - pos (Q (k + 1 + 1))) := by
        unfold cr; simp only [Pi.sub_apply]; ring
      linarith
    · exact opposite (k + 1) hdf (hC.cvx _ (rv_corner hI (k + 1)) _ _ hx f hf) (hC.cvx _ (rv_corner hI (k + 1 + 1)) _ _ hx f hf)
        hcor.1.1 hcor.1.2 hcor.2
  have rvNew : ∀ t, RV (newC C s.top k A B) (nx 0 pos s v a M e fa fs fe).heap t → RV C s.heap t ∨ t = v := by
    rintro t ⟨i, x, hx, f, hf, hft⟩
    rcases h.memC hx with ⟨rfl, rfl | rfl⟩ | ⟨h1, h2, h3, -⟩
    · rw [h.heap_n1, Option.some.injEq] at hf
      subst hf
      rcases hft with rfl | rfl
      · exact .inl ru
      · exact .inr rfl
    · rw [h.heap_n2, Option.some.injEq] at hf
      subst hf
      rcases hft with rfl | rfl
      · exact .inr rfl
      · exact .inl rw'
    · obtain ⟨-, g, b1, b2, b3, -⟩ := h.back_old (by omega) (by omega) hf
      left
      rw [b2, b3] at hft
      exact ⟨i, x, h1, g, b1, hft⟩
  have hm1 : s.top ∈ newC C s.top k A B (k + 1) := by unfold newC; rw [Function.update_self]; simp
  have hm2 : s.top + 1 ∈ newC C s.top k A B (k + 1) := by unfold newC; rw [Function.update_self]; simp
  have nu : pos fs.p1 ∈ convexHull K (RS pos (newC C s.top k A B) (nx 0 pos s v a M e fa fs fe).heap) :=
    subset_convexHull K _ ⟨_, ⟨k + 1, _, hm1, _, h.heap_n1, .inl rfl⟩, rfl⟩
  have nv : pos v ∈ convexHull K (RS pos (newC C s.top k A B) (nx 0 pos s v a M e fa fs fe).heap) :=
    subset_convexHull K _ ⟨_, ⟨k + 1, _, hm1, _, h.heap_n1, .inr rfl⟩, rfl⟩
  have nw : pos fe.p1 ∈ convexHull K (RS pos (newC C s.top k A B) (nx 0 pos s v a M e fa fs fe).heap) :=
    subset_convexHull K _ ⟨_, ⟨k + 1, _, hm2, _, h.heap_n2, .inr rfl⟩, rfl⟩
  have tri : ∀ (q : Point K 2) (x : ℕ) (f : Fct), x ∈ M → s.heap x = some f → 0 ≤ triArea (pos f.p1) (pos f.p2) q →
      triArea (pos fs.p1) (pos v) q ≤ 0 → triArea (pos v) (pos fe.p1) q ≤ 0 →
      q ∈ convexHull K (RS pos (newC C s.top k A B) (nx 0 pos s v a M e fa fs fe).heap) := by
    intro q x f hx hf h0 h1 h2
    have hxC := (h.mlt x hx).1
    obtain ⟨g, g1, g2⟩ := h.run.vis.vis x hx
    rw [hf, Option.some.injEq] at g1
    subst g1
    rw [vis0] at g2
    exact triangle hTri h1 h2 (beyond hTri h1 h2 h0 (hC.cvx _ ru _ _ hxC f hf) (hC.cvx _ rw' _ _ hxC f hf) g2) nu nv nw
  refine ⟨hC.ext, ?_, ?_, ?_, ?_⟩
  · intro i x hx f hf
    rcases h.memC hx with ⟨rfl, rfl | rfl⟩ | ⟨h1, h2, h3, -⟩
    · rw [h.heap_n1, Option.some.injEq] at hf
      subst hf
      exact dS
    · rw [h.heap_n2, Option.some.injEq] at hf
      subst hf
      exact dT
    · obtain ⟨-, g, b1, b2, b3, -⟩ := h.back_old (by omega) (by omega) hf
      unfold dirF
      rw [b2, b3]
      exact hC.mono i x h1 g b1
  · intro i x hx f hf
    rcases h.memC hx with ⟨rfl, rfl | rfl⟩ | ⟨h1, h2, h3, -⟩
    · rw [h.heap_n1, Option.some.injEq] at hf
      subst hf
      exact .inl nS
    · rw [h.heap_n2, Option.some.injEq] at hf
      subst hf
      exact .inl nT
    · obtain ⟨-, g, b1, b2, b3, -⟩ := h.back_old (by omega) (by omega) hf
      unfold dirF
      rw [b2, b3]
      by_cases hi : i = k + 1
      · subst hi; exact .inl (h.nz hC h1 b1)
      · unfold newC
        rw [Function.update_of_ne hi]
        exact hC.nz i x h1 g b1
  · intro t ht i x hx f hf
    rcases h.memC hx with ⟨rfl, rfl | rfl⟩ | ⟨h1, h2, h3, h4⟩
    · rw [h.heap_n1, Option.some.injEq] at hf
      subst hf
      rcases rvNew t ht with ht | rfl
      · exact cS t ht
      · unfold triArea; apply le_of_eq; ring
    · rw [h.heap_n2, Option.some.injEq] at hf
      subst hf
      rcases rvNew t ht with ht | rfl
      · exact cT t ht
      · unfold triArea; apply le_of_eq; ring
    · obtain ⟨-, g, b1, b2, b3, -⟩ := h.back_old (by omega) (by omega) hf
      rw [b2, b3]
      rcases rvNew t ht with ht | rfl
      · exact hC.cvx t ht i x h1 g b1
      · exact cV i x g h1 h2 h4 b1
  · intro q hq hsee
    rcases h.see_cases q with ⟨⟨y, hy, c1⟩, -, c2⟩ | ⟨-, -, -, c1⟩
    · rw [hsee] at c2
      obtain ⟨-, i, -, -, f, f1, f2, -⟩ := hI.see q y c1
      rw [vis0] at f2
      split_ifs at c2 with w1 w2
      rw [Bool.not_eq_true, hid0] at w1 w2
      exact tri (pos q) y f hy f1 f2.le w1 w2
    · rw [c1] at hsee
      have hold := hC.inn q hq hsee
      refine convexHull_min ?_ (convex_convexHull K _) hold
      rintro p ⟨t, ht, rfl⟩
      have ht' := ht
      obtain ⟨i, x, hx, f, hf, hft⟩ := ht
      by_cases hM : x ∈ M
      · refine tri (pos t) x f hM hf ?_ (cS t ht') (cT t ht')
        rcases hft with rfl | rfl
        · unfold triArea; apply le_of_eq; ring
        · unfold triArea; apply le_of_eq; ring
      · obtain ⟨f', a1, a2, a3, -⟩ := h.old hM (hI.lt i x hx) hf
        exact subset_convexHull K _ ⟨t, ⟨i, x, h.inC hx hM, f', a1, by rw [a2, a3]; exact hft⟩, rfl⟩

end

end Verif.RandInc
