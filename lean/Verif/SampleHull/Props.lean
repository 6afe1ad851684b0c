import Verif.SampleHull.Lemmas

set_option linter.unusedSectionVars false
set_option linter.unusedVariables false

/-!
Property C63: the sampling hulls and their filter.
-/

namespace Verif.SampleHull

open Verif

variable {K : Type} {d : ℕ} [Field K] [LinearOrder K] [IsStrictOrderedRing K]

/-- Specification: the point is on or outside the facet, or is one of its corners. -/
def Sees (f : Facet K d) (p : Point K d) : Prop := 0 ≤ f.vol p ∨ p ∈ f.verts

theorem seesPt_iff (f : Facet K d) (p : Point K d) : seesPt f p = true ↔ Sees f p := by
  simp [seesPt, Sees]

/-- Everything about one finished run of the filter. -/
theorem filter2_inv (w bs : ℕ) (hw : 0 < w) (hb : 0 < bs) (hd : 0 < d) (corners : Box K d → List (Point K d))
    (P : List (Point K d)) (hP : P ≠ []) (facets : List (Facet K d)) (hfac : facets ≠ [])
    (hc : ∀ f ∈ facets, CornerOK corners f) :
    ∃ tree : KdTree.Tree ℕ K d, KdTree.Sound (fun i => P.getD i 0) 128 tree ∧ tree.items.Perm (List.range P.length) ∧
      ∀ sched, filter2 w bs corners sched P facets =
        if (run sched (fun _ => false) (facets.map fun f => ⟨false, loops corners (fun i => P.getD i 0) f tree⟩)).2.all
            (fun t => t.todo.isEmpty) then
          .ok (((List.range P.length).filter fun i =>
            (run sched (fun _ => false) (facets.map fun f => ⟨false, loops corners (fun i => P.getD i 0) f tree⟩)).1 i).map
              fun i => P.getD i 0)
        else .error .fuel := by
  obtain ⟨tree, h1, h2, h3, _⟩ := KdTree.c01_build w bs hw hb hd (fun i => P.getD i 0) 128 (by norm_num) true
    (List.range P.length) (by
      intro h
      have := congrArg List.length h
      simp at this
      exact hP this)
  refine ⟨tree, h3, h2, fun sched => ?_⟩
  rw [filter2, if_neg hfac, h1]
  rfl

theorem map_getD_range (P : List (Point K d)) : ((List.range P.length).map fun i => P.getD i 0) = P := by
  apply List.ext_getElem
  · simp
  · intro i h1 h2
    rw [List.getElem_map, List.getElem_range, List.getD_eq_getElem _ _ h2]

/-- C63, what the filter guarantees, for the planar and the spatial version, every input and every interleaving of the calls:
it never fails, some interleaving completes; the points kept are points of the input in their order, each seen by some facet; a
facet that shares no seen point with another facet keeps every point strictly outside of it; and if any point is strictly
outside of any facet, at least one point is kept. Missing (and false, `c63_lost_false`): that every point strictly outside of
some facet is kept. -/
theorem c63_filter_partial (w bs : ℕ) (hw : 0 < w) (hb : 0 < bs) (hd : 0 < d) (corners : Box K d → List (Point K d))
    (P : List (Point K d)) (hP : P ≠ []) (facets : List (Facet K d)) (hfac : facets ≠ [])
    (hc : ∀ f ∈ facets, CornerOK corners f) :
    (∃ sched remain, filter2 w bs corners sched P facets = .ok remain) ∧
      ∀ sched, filter2 w bs corners sched P facets ≠ .error .ub ∧
        ∀ remain, filter2 w bs corners sched P facets = .ok remain →
          remain.Sublist P ∧ (∀ p ∈ remain, ∃ f ∈ facets, Sees f p) ∧
          (∀ (k : ℕ) (f : Facet K d), facets[k]? = some f → (∀ (j : ℕ) (f' : Facet K d), facets[j]? = some f' → j ≠ k → ∀ p ∈ P, Sees f p → ¬ Sees f' p) →
            ∀ p ∈ P, 0 < f.vol p → p ∈ remain) ∧
          ((∃ f ∈ facets, ∃ p ∈ P, 0 < f.vol p) → remain ≠ []) := by
  obtain ⟨tree, hs, hperm, hrun⟩ := filter2_inv w bs hw hb hd corners P hP facets hfac hc
  set pos : ℕ → Point K d := fun i => P.getD i 0 with hpos
  set ts : List Thread := facets.map fun f => ⟨false, loops corners pos f tree⟩ with hts
  have hitems : ∀ i, i ∈ tree.items ↔ i < P.length := fun i => by rw [hperm.mem_iff]; simp
  have hposmem : ∀ i, i < P.length → pos i ∈ P := fun i hi => by
    rw [hpos]
    simp only [List.getD_eq_getElem _ _ hi]
    exact List.getElem_mem hi
  have hposex : ∀ p ∈ P, ∃ i, i < P.length ∧ pos i = p := by
    intro p hp
    obtain ⟨i, hi, rfl⟩ := List.getElem_of_mem hp
    exact ⟨i, hi, by simp [hpos, hi]⟩
  have hspec := fun f hf => loops_spec corners pos f (hc f hf) 128 tree hs
  have hnd : tree.items.Nodup := hperm.nodup_iff.mpr List.nodup_range
  constructor
  · obtain ⟨sched, hsch⟩ := run_exists _ (fun _ => false) ts rfl
    have hall : (run sched (fun _ => false) ts).2.all (fun t => t.todo.isEmpty) = true := by
      rw [List.all_eq_true]
      intro t ht
      simp [hsch t ht]
    exact ⟨sched, _, by rw [hrun, if_pos hall]⟩
  · intro sched
    constructor
    · rw [hrun]
      split <;> simp
    · intro remain hrem
      rw [hrun] at hrem
      split at hrem
      rotate_left
      · cases hrem
      rename_i hall
      have hdone : ∀ t ∈ (run sched (fun _ => false) ts).2, t.todo = [] := by
        intro t ht
        have := List.all_eq_true.mp hall t ht
        simpa using this
      injection hrem with hrem
      have hkeep : ∀ i, i < P.length → (run sched (fun _ => false) ts).1 i = true → pos i ∈ remain := by
        intro i hi hr
        rw [← hrem]
        exact List.mem_map.mpr ⟨i, List.mem_filter.mpr ⟨List.mem_range.mpr hi, hr⟩, rfl⟩
      refine ⟨?_, ?_, ?_, ?_⟩
      · rw [← hrem]
        conv_rhs => rw [← map_getD_range P]
        exact List.filter_sublist.map _
      · intro p hp
        rw [← hrem] at hp
        obtain ⟨i, hi, rfl⟩ := List.mem_map.mp hp
        obtain ⟨hi1, hi2⟩ := List.mem_filter.mp hi
        rcases run_sound _ _ _ _ hi2 with h | ⟨t, ht, hit⟩
        · cases h
        · rw [hts] at ht
          obtain ⟨f, hf, rfl⟩ := List.mem_map.mp ht
          exact ⟨f, hf, (seesPt_iff _ _).mp ((hspec f hf).2.1 i hit).2⟩
      · intro k f hk hdisj p hp hvol
        obtain ⟨i, hi, rfl⟩ := hposex p hp
        have hf := List.mem_of_getElem? hk
        refine hkeep i hi (run_alone sched _ ts k ⟨false, loops corners pos f tree⟩ ?_ rfl ((hspec f hf).2.2 hnd)
          (fun _ _ => rfl) ?_ hdone i ((hspec f hf).1 i ((hitems i).mpr hi) hvol))
        · rw [hts, List.getElem?_map, hk]
          rfl
        · intro j t' ht' hne y hy hy'
          rw [hts, List.getElem?_map] at ht'
          obtain ⟨f', hf', rfl⟩ := Option.map_eq_some_iff.mp ht'
          have a := (hspec f' (List.mem_of_getElem? hf')).2.1 y hy
          have b := (hspec f hf).2.1 y hy'
          exact hdisj j f' hf' hne (pos y) (hposmem y ((hitems y).mp b.1)) ((seesPt_iff _ _).mp b.2)
            ((seesPt_iff _ _).mp a.2)
      · rintro ⟨f, hf, p, hp, hvol⟩
        obtain ⟨i, hi, rfl⟩ := hposex p hp
        have hmem := (hspec f hf).1 i ((hitems i).mpr hi) hvol
        obtain ⟨L, hL, hiL⟩ := List.mem_flatten.mp hmem
        obtain ⟨j, L', hLe⟩ : ∃ j L', L = j :: L' := List.exists_cons_of_ne_nil (List.ne_nil_of_mem hiL)
        have hjm : j ∈ (loops corners pos f tree).flatten := List.mem_flatten.mpr ⟨L, hL, by simp [hLe]⟩
        have hj := (hitems j).mp ((hspec f hf).2.1 j hjm).1
        obtain ⟨k, hk⟩ := List.getElem?_of_mem hf
        have howed : Owed ⟨false, loops corners pos f tree⟩ j := by
          obtain ⟨s, t, e⟩ := List.append_of_mem hL
          cases s with
          | nil =>
            left
            exact ⟨rfl, L', t, by simp only; rw [e, hLe]; rfl⟩
          | cons x s =>
            right
            refine ⟨L, ?_, by rw [hLe]; rfl⟩
            simp only
            rw [e]
            simp
        have hr := run_owed sched (fun _ => false) ts j k _ (by rw [hts, List.getElem?_map, hk]; rfl) howed hdone
        exact List.ne_nil_of_mem (hkeep j hj hr)

/-- Non-vacuity of `c63_filter_partial`: a triangle of facets, all of which have the property required of corners, and points
in, on and outside of it; and the spatial facets too. -/
example : ∃ sched remain, filter2 4 2048 corners2 sched
    ([![0, 0], ![1, 1], ![3, 3]] : List (Point ℚ 2))
    [facet2 ![0, 0] ![0, 4], facet2 ![0, 4] ![4, 0], facet2 ![4, 0] ![0, 0]] = .ok remain :=
  (c63_filter_partial 4 2048 (by decide) (by decide) (by decide) corners2 _ (by simp) _ (by simp) (by
    intro f hf
    simp only [List.mem_cons, List.not_mem_nil, or_false] at hf
    rcases hf with rfl | rfl | rfl <;> exact facet2_corner _ _)).1

/-- Non-vacuity of the third part: a point set with one facet (no other facet shares a point). -/
example (sched : List ℕ) (remain : List (Point ℚ 2))
    (h : filter2 4 2048 corners2 sched [![0, 0], ![1, 1], ![3, 3]] [facet2 ![0, 4] ![4, 0]] = .ok remain) :
    (![3, 3] : Point ℚ 2) ∈ remain :=
  (((c63_filter_partial 4 2048 (by decide) (by decide) (by decide) corners2 _ (by simp) _ (by simp) (by
    intro f hf
    simp only [List.mem_cons, List.not_mem_nil, or_false] at hf
    rcases hf with rfl
    exact facet2_corner _ _)).2 sched).2 remain h).2.2.1 0 _ rfl
      (fun j f' h1 h2 => by
        rcases j with _ | j
        · exact absurd rfl h2
        · simp at h1)
      _ (by simp) (by norm_num [facet2, Hull2d.triArea])

/-! ### What is false -/

/-- The facets of one worker: all steps of the first call, then of the second, and so on. -/
def oneWorker (n k : ℕ) : List ℕ := (List.range n).flatMap fun i => List.replicate k i

/-- C63 is false of the filter: `atomic_compare_exchange_weak` overwrites `F` when it meets a flag that is set already, and the
next point of the same loop is then not flagged. With one worker and the hull (0,0), (1,4), (5,-1) of the sample, the point
(4,3), which lies strictly outside, is dropped, and the hull of the points kept does not contain it. -/
theorem c63_lost_false :
    filter2 4 2048 corners2 (oneWorker 3 8) ([![0, 0], ![1, 4], ![4, 3], ![5, -1]] : List (Point ℚ 2))
        [facet2 ![0, 0] ![1, 4], facet2 ![1, 4] ![5, -1], facet2 ![5, -1] ![0, 0]] =
      .ok [![0, 0], ![1, 4], ![5, -1]] ∧
    Hull2d.compute Hull2d.reduceMax Hull2d.firstMinMax ([![0, 0], ![1, 4], ![5, -1]] : List (Point ℚ 2)) =
      .ok [0, 1, 2] ∧
    0 < (facet2 (![1, 4] : Point ℚ 2) ![5, -1]).vol ![4, 3] ∧
    (![4, 3] : Point ℚ 2) ∉ convexHull ℚ {q | q ∈ ([![0, 0], ![1, 4], ![5, -1]] : List (Point ℚ 2))} := by
  refine ⟨?_, ?_, by norm_num [facet2, Hull2d.triArea], ?_⟩
  · have h : (filter2 4 2048 corners2 (oneWorker 3 8) ([![0, 0], ![1, 4], ![4, 3], ![5, -1]] : List (Point ℚ 2))
        [facet2 ![0, 0] ![1, 4], facet2 ![1, 4] ![5, -1], facet2 ![5, -1] ![0, 0]]).toOption =
      some [![0, 0], ![1, 4], ![5, -1]] := by
      decide +kernel
    revert h
    generalize filter2 (K := ℚ) 4 2048 corners2 (oneWorker 3 8) _ _ = r
    intro h
    cases r with
    | error e => cases h
    | ok x =>
      simp only [Except.toOption, Option.some.injEq] at h
      rw [h]
  · have h : (Hull2d.compute Hull2d.reduceMax Hull2d.firstMinMax
        ([![0, 0], ![1, 4], ![5, -1]] : List (Point ℚ 2))).toOption = some [0, 1, 2] := by
      decide +kernel
    revert h
    generalize Hull2d.compute (K := ℚ) _ _ _ = r
    intro h
    cases r with
    | error e => cases h
    | ok x =>
      simp only [Except.toOption, Option.some.injEq] at h
      rw [h]
  · intro h
    have hsub : convexHull ℚ {q | q ∈ ([![0, 0], ![1, 4], ![5, -1]] : List (Point ℚ 2))} ⊆
        {q | 5 * q 0 + 4 * q 1 ≤ 21} := by
      apply convexHull_min
      · intro q hq
        simp only [Set.mem_ofPred_eq, List.mem_cons, List.not_mem_nil, or_false] at hq
        rcases hq with rfl | rfl | rfl <;> norm_num
      · intro x hx y hy a b ha hb hab
        simp only [Set.mem_ofPred_eq, Pi.add_apply, Pi.smul_apply, smul_eq_mul] at hx hy ⊢
        nlinarith
    have := hsub h
    norm_num at this

/-- C63 is false of the spatial filter for a second reason: the constructor of a facet orients it by the determinant of its
corners, so that the origin is on its inner side. For a hull that does not contain the origin this turns the facets that face
the origin around: the point (1,1,1), strictly outside of the tetrahedron with the corners (2,2,2), (3,2,2), (2,3,2), (2,2,3),
is dropped by every interleaving, although the hull of all other points does not contain it. -/
theorem c63_origin_false (sched : List ℕ) (remain : List (Point ℚ 3))
    (h : filter2 4 2048 corners3 sched [![2, 2, 2], ![3, 2, 2], ![2, 3, 2], ![2, 2, 3], ![1, 1, 1]]
        [facet3 ![2, 2, 2] ![3, 2, 2] ![2, 3, 2], facet3 ![2, 2, 2] ![3, 2, 2] ![2, 2, 3],
         facet3 ![2, 2, 2] ![2, 3, 2] ![2, 2, 3], facet3 ![3, 2, 2] ![2, 3, 2] ![2, 2, 3]] = .ok remain) :
    (![1, 1, 1] : Point ℚ 3) ∉ convexHull ℚ {q | q ∈ remain} := by
  have hp := (((c63_filter_partial 4 2048 (by decide) (by decide) (by decide) corners3 _ (by simp) _ (by simp) (by
    intro f hf
    simp only [List.mem_cons, List.not_mem_nil, or_false] at hf
    rcases hf with rfl | rfl | rfl | rfl <;> exact facet3_corner _ _ _)).2 sched).2 remain h)
  have hno : (![1, 1, 1] : Point ℚ 3) ∉ remain := by
    intro hm
    obtain ⟨f, hf, hs⟩ := hp.2.1 _ hm
    rw [← seesPt_iff] at hs
    simp only [List.mem_cons, List.not_mem_nil, or_false] at hf
    rcases hf with rfl | rfl | rfl | rfl <;> revert hs <;> decide +kernel
  intro hc
  have hsub : convexHull ℚ {q | q ∈ remain} ⊆ {q | 6 ≤ q 0 + q 1 + q 2} := by
    apply convexHull_min
    · intro q hq
      have hq' := hp.1.subset hq
      simp only [List.mem_cons, List.not_mem_nil, or_false] at hq'
      rcases hq' with rfl | rfl | rfl | rfl | rfl
      · exact (by decide +kernel : (6 : ℚ) ≤ (![2, 2, 2] : Point ℚ 3) 0 + (![2, 2, 2] : Point ℚ 3) 1 + (![2, 2, 2] : Point ℚ 3) 2)
      · exact (by decide +kernel : (6 : ℚ) ≤ (![3, 2, 2] : Point ℚ 3) 0 + (![3, 2, 2] : Point ℚ 3) 1 + (![3, 2, 2] : Point ℚ 3) 2)
      · exact (by decide +kernel : (6 : ℚ) ≤ (![2, 3, 2] : Point ℚ 3) 0 + (![2, 3, 2] : Point ℚ 3) 1 + (![2, 3, 2] : Point ℚ 3) 2)
      · exact (by decide +kernel : (6 : ℚ) ≤ (![2, 2, 3] : Point ℚ 3) 0 + (![2, 2, 3] : Point ℚ 3) 1 + (![2, 2, 3] : Point ℚ 3) 2)
      · exact absurd hq hno
    · intro x hx y hy a b ha hb hab
      simp only [Set.mem_ofPred_eq, Pi.add_apply, Pi.smul_apply, smul_eq_mul] at hx hy ⊢
      nlinarith
  have : (6 : ℚ) ≤ (![1, 1, 1] : Point ℚ 3) 0 + (![1, 1, 1] : Point ℚ 3) 1 + (![1, 1, 1] : Point ℚ 3) 2 := hsub hc
  exact absurd this (by decide +kernel)

/-- The hypothesis of `c63_origin_false` is met by some interleaving. -/
example : ∃ sched remain, filter2 4 2048 corners3 sched
    ([![2, 2, 2], ![3, 2, 2], ![2, 3, 2], ![2, 2, 3], ![1, 1, 1]] : List (Point ℚ 3))
    [facet3 ![2, 2, 2] ![3, 2, 2] ![2, 3, 2], facet3 ![2, 2, 2] ![3, 2, 2] ![2, 2, 3],
      facet3 ![2, 2, 2] ![2, 3, 2] ![2, 2, 3], facet3 ![3, 2, 2] ![2, 3, 2] ![2, 2, 3]] = .ok remain :=
  (c63_filter_partial 4 2048 (by decide) (by decide) (by decide) corners3 _ (by simp) _ (by simp) (by
    intro f hf
    simp only [List.mem_cons, List.not_mem_nil, or_false] at hf
    rcases hf with rfl | rfl | rfl | rfl <;> exact facet3_corner _ _ _)).1

/-! ### The whole planar computation -/

theorem hullFacets_corner (S : List (Point K 2)) (F : List ℕ) : ∀ f ∈ hullFacets S F, CornerOK corners2 f := by
  intro f hf
  obtain ⟨i, _, rfl⟩ := List.mem_map.mp hf
  exact facet2_corner _ _

/-- C63, what the planar sampling hull guarantees. Below 1000 points, and whatever the sampling returns, it is quickHull on the
input, so its result spans the input (C32). From 1000 points on, a result consists of positions in the filtered points, which
are points of the input, and spans the filtered points. Missing (and false, `c63_covered_false`, `c63_index_false`): that the
positions refer to the input and span it. -/
theorem c63_compute_partial (w bs : ℕ) (hw : 0 < w) (hb : 0 < bs) (pick : (ℕ → K) → List ℕ → ℕ) (hpick : Hull2d.PickOK pick)
    (mm : List (Point K 2) → ℕ × ℕ) (hmm : Hull2d.MinMaxOK mm)
    (sample : List (Point K 2) → ℕ → Except Err (List (Point K 2))) (size : ℕ) (sched : List ℕ) (P : List (Point K 2))
    (hP : P ≠ []) :
    (P.length < 1000 →
      ∃ out, compute2 w bs (Hull2d.compute pick mm) sample size sched P = .ok out ∧ Hull2d.HullOK P out) ∧
    (1000 ≤ P.length → ∀ out, compute2 w bs (Hull2d.compute pick mm) sample size sched P = .ok out →
      ∃ remain : List (Point K 2), remain.Sublist P ∧ Hull2d.HullOK remain out) := by
  constructor
  · intro h
    rw [compute2, if_pos h]
    exact Hull2d.c32_hull pick hpick mm hmm P hP
  · intro h out ho
    rw [compute2, if_neg (by omega)] at ho
    cases hS : sample P (max size 5) with
    | error e => rw [hS] at ho; cases ho
    | ok S =>
      rw [hS] at ho
      change (Hull2d.compute pick mm S).bind _ = _ at ho
      cases hF : Hull2d.compute pick mm S with
      | error e => rw [hF] at ho; cases ho
      | ok F =>
        rw [hF] at ho
        change (filter2 w bs corners2 sched P (hullFacets S F)).bind _ = _ at ho
        cases hR : filter2 w bs corners2 sched P (hullFacets S F) with
        | error e => rw [hR] at ho; cases ho
        | ok remain =>
          rw [hR] at ho
          change Hull2d.compute pick mm remain = _ at ho
          have hne : hullFacets S F ≠ [] := by
            intro hc
            rw [hc, filter2, if_pos rfl] at hR
            cases hR
          have hsub := (((c63_filter_partial w bs hw hb (by norm_num) corners2 P hP _ hne
            (hullFacets_corner S F)).2 sched).2 remain hR).1
          refine ⟨remain, hsub, ?_⟩
          by_cases hr : remain = []
          · rw [hr, Hull2d.c32_empty_ub] at ho
            cases ho
          · obtain ⟨out', h1, h2⟩ := Hull2d.c32_hull pick hpick mm hmm remain hr
            rw [h1] at ho
            cases ho
            exact h2

/-- C63 is false of the planar computation: if no corner of the box of the input is strictly outside of the hull of the sample -
for example because the four corners of the box were sampled - then every point is dropped and the final quickHull dereferences
an empty array. -/
theorem c63_covered_false (w bs : ℕ) (hw : 0 < w) (hb : 0 < bs) (pick : (ℕ → K) → List ℕ → ℕ)
    (mm : List (Point K 2) → ℕ × ℕ) (sample : List (Point K 2) → ℕ → Except Err (List (Point K 2))) (size : ℕ)
    (sched : List ℕ) (P : List (Point K 2)) (hn : 1000 ≤ P.length) (S : List (Point K 2)) (F : List ℕ)
    (hS : sample P (max size 5) = .ok S) (hF : Hull2d.compute pick mm S = .ok F) (b : Box K 2)
    (hbox : b.Tight id P) (hin : ∀ f ∈ hullFacets S F, ∀ c ∈ corners2 b, f.vol c ≤ 0) :
    compute2 w bs (Hull2d.compute pick mm) sample size sched P = .error .ub := by
  have hP : P ≠ [] := by
    intro h
    rw [h] at hn
    simp at hn
  rw [compute2, if_neg (by omega), hS]
  change (Hull2d.compute pick mm S).bind _ = _
  rw [hF]
  change (filter2 w bs corners2 sched P (hullFacets S F)).bind _ = _
  by_cases hne : hullFacets S F = []
  · rw [filter2, if_pos hne]
    rfl
  obtain ⟨tree, hs, hperm, hrun⟩ := filter2_inv w bs hw hb (by norm_num) corners2 P hP _ hne (hullFacets_corner S F)
  have htb : tree.box = b := by
    have ht : tree.box.Tight (fun i => P.getD i 0) tree.items := by
      cases tree with
      | leaf b items => exact hs.2.2
      | node b l r => exact hs.2.1
    have ht' : tree.box.Tight id P := by
      constructor
      · intro p hp
        obtain ⟨i, hi, rfl⟩ := List.getElem_of_mem hp
        have := ht.1 i (hperm.mem_iff.mpr (List.mem_range.mpr hi))
        simpa [hi] using this
      · intro k
        have hex : ∀ x, (∃ a ∈ tree.items, (P.getD a 0) k = x) → ∃ p ∈ P, id p k = x := by
          rintro x ⟨a, ha, rfl⟩
          have hlt := List.mem_range.mp (hperm.mem_iff.mp ha)
          exact ⟨P[a], List.getElem_mem hlt, by simp [hlt]⟩
        exact ⟨hex _ (ht.2 k).1, hex _ (ht.2 k).2⟩
    have hle : ∀ b b' : Box K 2, b.Tight id P → b'.Tight id P → ∀ k, b.lo k ≤ b'.lo k ∧ b'.hi k ≤ b.hi k := by
      intro b b' h h' k
      obtain ⟨p, hp, e⟩ := (h'.2 k).1
      obtain ⟨q, hq, e'⟩ := (h'.2 k).2
      exact ⟨e ▸ (h.1 p hp k).1, e' ▸ (h.1 q hq k).2⟩
    obtain ⟨lo, hi⟩ := b
    cases htbx : tree.box with
    | mk lo' hi' =>
      rw [htbx] at ht'
      congr
      · funext k
        exact le_antisymm (hle _ _ ht' hbox k).1 (hle _ _ hbox ht' k).1
      · funext k
        exact le_antisymm (hle _ _ hbox ht' k).2 (hle _ _ ht' hbox k).2
  have hloops : ∀ f ∈ hullFacets S F, loops corners2 (fun i => P.getD i 0) f tree = [] := by
    intro f hf
    have hv : volMinNonpos f (corners2 tree.box) = true := by
      rw [htb]
      by_contra hc
      have := (volMinNonpos_false f (corners2 b)).mp (by simpa using hc) _ (List.mem_cons_self)
      exact absurd (hin f hf _ (List.mem_cons_self)) (not_le.mpr this)
    have hm : volMax f (corners2 tree.box) ≤ 0 := by
      rw [htb]
      exact (volMax_nonpos _ _).mpr (hin f hf)
    cases tree with
    | leaf b items =>
      simp only [KdTree.Tree.box] at hv hm
      rw [loops, if_pos hv, if_pos hm]
    | node b l r =>
      simp only [KdTree.Tree.box] at hv hm
      rw [loops, if_pos hv, if_pos hm]
  have hnone : ∀ i, (run sched (fun _ => false)
      ((hullFacets S F).map fun f => ⟨false, loops corners2 (fun i => P.getD i 0) f tree⟩)).1 i = false := by
    intro i
    by_contra hc
    rw [Bool.not_eq_false] at hc
    rcases run_sound _ _ _ i hc with h | ⟨t, ht, hi⟩
    · cases h
    · obtain ⟨f, hf, rfl⟩ := List.mem_map.mp ht
      simp only at hi
      rw [hloops f hf] at hi
      simp at hi
  have hdone : ∀ (sched : List ℕ) (flag : ℕ → Bool) (ts : List Thread), (∀ t ∈ ts, t.todo = []) →
      ∀ t ∈ (run sched flag ts).2, t.todo = [] := by
    intro sched
    induction sched with
    | nil => exact fun _ _ h => h
    | cons k sched ih =>
      intro flag ts h
      rw [run]
      split
      · exact ih _ _ h
      · rename_i t ht
        refine ih _ _ fun t' ht' => ?_
        rcases List.mem_or_eq_of_mem_set ht' with h' | rfl
        · exact h t' h'
        · have := h t (List.mem_of_getElem? ht)
          simp [Thread.step, this]
  rw [hrun, if_pos]
  · simp only [hnone]
    simp only [List.filter_false, List.map_nil]
    exact Hull2d.c32_empty_ub pick mm
  · rw [List.all_eq_true]
    intro t ht
    have := hdone sched _ _ (by
      intro t ht
      obtain ⟨f, hf, rfl⟩ := List.mem_map.mp ht
      exact hloops f hf) t ht
    simp [this]

/-- An instance of `c63_covered_false` for every sampling routine that returns points of the input: all points on one horizontal
line. The result is undefined whatever is sampled, although quickHull itself returns the two ends of the line. -/
theorem c63_line_ub (w bs : ℕ) (hw : 0 < w) (hb : 0 < bs) (pick : (ℕ → K) → List ℕ → ℕ) (hpick : Hull2d.PickOK pick)
    (mm : List (Point K 2) → ℕ × ℕ) (hmm : Hull2d.MinMaxOK mm)
    (sample : List (Point K 2) → ℕ → Except Err (List (Point K 2))) (size : ℕ) (sched : List ℕ) (P : List (Point K 2))
    (hn : 1000 ≤ P.length) (y : K) (hline : ∀ p ∈ P, p 1 = y) (S : List (Point K 2))
    (hS : sample P (max size 5) = .ok S) (hSne : S ≠ []) (hSP : ∀ p ∈ S, p ∈ P) :
    compute2 w bs (Hull2d.compute pick mm) sample size sched P = .error .ub := by
  have hP : P ≠ [] := by
    intro h
    rw [h] at hn
    simp at hn
  obtain ⟨F, hF, hlt, _⟩ := Hull2d.c32_hull pick hpick mm hmm S hSne
  obtain ⟨b, _, hbox⟩ := KdTree.boxSerial_ok id P hP
  refine c63_covered_false w bs hw hb pick mm sample size sched P hn S F hS hF b hbox ?_
  have hlo : b.lo 1 = y := by
    obtain ⟨p, hp, e⟩ := (hbox.2 1).1
    rw [← e]
    exact hline p hp
  have hhi : b.hi 1 = y := by
    obtain ⟨p, hp, e⟩ := (hbox.2 1).2
    rw [← e]
    exact hline p hp
  intro f hf c hc
  obtain ⟨i, hi, rfl⟩ := List.mem_map.mp hf
  have hiF := List.mem_range.mp hi
  have hSy : ∀ j ∈ F, (S.getD j 0) 1 = y := fun j hj => by
    have := hlt j hj
    rw [List.getD_eq_getElem _ _ this]
    exact hline _ (hSP _ (List.getElem_mem this))
  have h1 := hSy (F.getD i 0) (by rw [List.getD_eq_getElem _ _ hiF]; exact List.getElem_mem _)
  have h2 := hSy (F.getD ((i + 1) % F.length) 0) (by
    have := Nat.mod_lt (i + 1) (by omega : 0 < F.length)
    rw [List.getD_eq_getElem _ _ this]; exact List.getElem_mem _)
  have hcy : c 1 = y := by
    simp only [corners2, List.mem_cons, List.not_mem_nil, or_false] at hc
    rcases hc with rfl | rfl | rfl | rfl
    · exact hlo
    · exact hhi
    · exact hlo
    · exact hhi
  simp only [facet2, Hull2d.triArea, h1, h2, hcy]
  simp

/-- Non-vacuity of `c63_line_ub`: the points (0,0), (1,0), ..., (n-1,0) for any n of at least 1000, with the random sample of
the code for any hash. -/
example (n : ℕ) (hn : 1000 ≤ n) (h : ℕ → ℕ) (sched : List ℕ) :
    compute2 4 2048 (Hull2d.compute Hull2d.reduceMax Hull2d.firstMinMax) (randomSample h) 7 sched
      ((List.range n).map fun (i : ℕ) => (![(i : ℚ), 0] : Point ℚ 2)) = .error .ub := by
  set P := (List.range n).map fun (i : ℕ) => (![(i : ℚ), 0] : Point ℚ 2) with hP
  have hlen : P.length = n := by rw [hP, List.length_map, List.length_range]
  have hne : P ≠ [] := by
    intro hc
    rw [hc] at hlen
    simp at hlen
    omega
  refine c63_line_ub 4 2048 (by decide) (by decide) _ Hull2d.reduceMax_ok _ Hull2d.firstMinMax_ok _ 7 sched _
    (by rw [hlen]; exact hn) 0 ?_ ((List.range 7).map fun i => P.getD (h i % P.length) 0) ?_ (by simp) ?_
  · intro p hp
    obtain ⟨i, _, rfl⟩ := List.mem_map.mp hp
    rfl
  · rw [randomSample, if_neg (fun h => hne h.1)]
    rfl
  · intro p hp
    obtain ⟨i, _, rfl⟩ := List.mem_map.mp hp
    have hlt : h i % P.length < P.length := Nat.mod_lt _ (by omega)
    rw [List.getD_eq_getElem _ _ hlt]
    exact List.getElem_mem _

/-- C63 is false of the planar computation for a third reason: the positions returned refer to the filtered points. If the
input starts with a point repeated `k` times that is strictly inside of the hull of the sample, and the other points are at
most `k` and not all equal to it, then no result spans the input. -/
theorem c63_index_false (w bs : ℕ) (hw : 0 < w) (hb : 0 < bs) (pick : (ℕ → K) → List ℕ → ℕ) (hpick : Hull2d.PickOK pick)
    (mm : List (Point K 2) → ℕ × ℕ) (hmm : Hull2d.MinMaxOK mm)
    (sample : List (Point K 2) → ℕ → Except Err (List (Point K 2))) (size : ℕ) (sched : List ℕ) (k : ℕ) (c : Point K 2)
    (Q : List (Point K 2)) (hQ : Q.length ≤ k) (hn : 1000 ≤ k + Q.length) (q : Point K 2) (hq : q ∈ Q) (hqc : q ≠ c)
    (S : List (Point K 2)) (F : List ℕ) (hS : sample (List.replicate k c ++ Q) (max size 5) = .ok S)
    (hF : Hull2d.compute pick mm S = .ok F) (hin : ∀ f ∈ hullFacets S F, ¬ Sees f c) (out : List ℕ) :
    ¬ (compute2 w bs (Hull2d.compute pick mm) sample size sched (List.replicate k c ++ Q) = .ok out ∧
      Hull2d.HullOK (List.replicate k c ++ Q) out) := by
  rintro ⟨ho, hok⟩
  have hP : List.replicate k c ++ Q ≠ [] := by
    intro h
    have := congrArg List.length h
    simp at this
    simp [this] at hn
  rw [compute2, if_neg (by simp; omega), hS] at ho
  change (Hull2d.compute pick mm S).bind _ = _ at ho
  rw [hF] at ho
  change (filter2 w bs corners2 sched _ (hullFacets S F)).bind _ = _ at ho
  cases hR : filter2 w bs corners2 sched (List.replicate k c ++ Q) (hullFacets S F) with
  | error e => rw [hR] at ho; cases ho
  | ok remain =>
    rw [hR] at ho
    change Hull2d.compute pick mm remain = _ at ho
    have hne : hullFacets S F ≠ [] := by
      intro hc
      rw [hc, filter2, if_pos rfl] at hR
      cases hR
    have hfp := (((c63_filter_partial w bs hw hb (by norm_num) corners2 _ hP _ hne
      (hullFacets_corner S F)).2 sched).2 remain hR)
    have hrc : ∀ p ∈ remain, p ≠ c := by
      rintro p hp rfl
      obtain ⟨f, hf, hs⟩ := hfp.2.1 p hp
      exact hin f hf hs
    have hlen : remain.length ≤ k := by
      have h1 := hfp.1.filter (fun p => decide (p ≠ c))
      have h2 : remain.filter (fun p => decide (p ≠ c)) = remain := by
        rw [List.filter_eq_self]
        intro p hp
        simpa using hrc p hp
      rw [h2, List.filter_append] at h1
      have h3 : (List.replicate k c).filter (fun p => decide (p ≠ c)) = [] := by
        rw [List.filter_eq_nil_iff]
        intro p hp
        simp [List.eq_of_mem_replicate hp]
      rw [h3, List.nil_append] at h1
      exact (h1.length_le.trans (List.length_filter_le _ _)).trans hQ
    by_cases hr : remain = []
    · rw [hr, Hull2d.c32_empty_ub] at ho
      cases ho
    · obtain ⟨out', h1, h2, _⟩ := Hull2d.c32_hull pick hpick mm hmm remain hr
      rw [h1] at ho
      cases ho
      have hmem := hok.2 q (List.mem_append_right _ hq)
      have hsub : convexHull K {x | ∃ i ∈ out, (List.replicate k c ++ Q)[i]? = some x} ⊆ {c} := by
        apply convexHull_min _ (convex_singleton c)
        rintro x ⟨i, hi, hx⟩
        have : i < k := (h2 i hi).trans_le hlen
        rw [List.getElem?_append_left (by simpa using this), List.getElem?_replicate, if_pos this] at hx
        exact (Option.some.inj hx).symm
      exact hqc (hsub hmem)

/-- Non-vacuity of `c63_index_false`: `k` times the point (2,1), then `m + 3` points of which the sampled ones form the
triangle (0,0), (1,4), (5,-1); for example `k = 500` and `m = 497`. -/
example (k m : ℕ) (hkm : m + 3 ≤ k) (hn : 1000 ≤ k + (m + 3)) (sched : List ℕ) (out : List ℕ) :
    ¬ (compute2 4 2048 (Hull2d.compute Hull2d.reduceMax Hull2d.firstMinMax)
        (fun P n => randomSample (fun i => k + min i 2) P n) 3 sched
        (List.replicate k (![2, 1] : Point ℚ 2) ++
          ([![0, 0], ![1, 4], ![5, -1]] ++ List.replicate m (![1, 1] : Point ℚ 2))) = .ok out ∧
      Hull2d.HullOK (List.replicate k (![2, 1] : Point ℚ 2) ++
          ([![0, 0], ![1, 4], ![5, -1]] ++ List.replicate m (![1, 1] : Point ℚ 2))) out) := by
  set Q : List (Point ℚ 2) := [![0, 0], ![1, 4], ![5, -1]] ++ List.replicate m (![1, 1] : Point ℚ 2) with hQ
  have hQl : Q.length = m + 3 := by simp [hQ]
  set P : List (Point ℚ 2) := List.replicate k (![2, 1] : Point ℚ 2) ++ Q with hP
  have hPl : P.length = k + (m + 3) := by simp [hP, hQl]
  refine c63_index_false 4 2048 (by decide) (by decide) _ Hull2d.reduceMax_ok _ Hull2d.firstMinMax_ok _ 3 sched k _
    Q (by omega) (by omega) ![0, 0] (by simp [hQ]) (by simp) [![0, 0], ![1, 4], ![5, -1], ![5, -1], ![5, -1]] [0, 1, 2]
    ?_ ?_ ?_ out
  · have hne : P ≠ [] := by
      intro hc
      rw [hc] at hPl
      simp at hPl
    rw [randomSample, if_neg (fun h => hne h.1)]
    have hr : List.range (max 3 5) = [0, 1, 2, 3, 4] := rfl
    have hg : ∀ j, j < 3 → P.getD ((k + j) % P.length) 0 = Q.getD j 0 := by
      intro j hj
      rw [Nat.mod_eq_of_lt (by omega), hP, List.getD_append_right _ _ _ _ (by simp)]
      simp
    rw [hr]
    have e0 := hg 0 (by omega)
    have e1 := hg 1 (by omega)
    have e2 := hg 2 (by omega)
    simp only [List.map_cons, List.map_nil]
    change Except.ok [P.getD ((k + 0) % P.length) 0, P.getD ((k + 1) % P.length) 0, P.getD ((k + 2) % P.length) 0,
      P.getD ((k + 2) % P.length) 0, P.getD ((k + 2) % P.length) 0] = _
    rw [e0, e1, e2]
    rfl
  · have h : (Hull2d.compute Hull2d.reduceMax Hull2d.firstMinMax
        ([![0, 0], ![1, 4], ![5, -1], ![5, -1], ![5, -1]] : List (Point ℚ 2))).toOption = some [0, 1, 2] := by
      decide +kernel
    revert h
    generalize Hull2d.compute (K := ℚ) _ _ _ = r
    intro h
    cases r with
    | error e => cases h
    | ok x =>
      simp only [Except.toOption, Option.some.injEq] at h
      rw [h]
  · intro f hf
    rw [← seesPt_iff]
    have e : hullFacets ([![0, 0], ![1, 4], ![5, -1], ![5, -1], ![5, -1]] : List (Point ℚ 2)) [0, 1, 2] =
      [facet2 ![0, 0] ![1, 4], facet2 ![1, 4] ![5, -1], facet2 ![5, -1] ![0, 0]] := rfl
    rw [e] at hf
    simp only [List.mem_cons, List.not_mem_nil, or_false] at hf
    rcases hf with rfl | rfl | rfl <;> decide +kernel

/-- C63, precondition of `randomProjection`: if the hash of some projection is a multiple of the number of points, the code reads
`P[P.size()]`. -/
theorem c63_projection_ub (mm : List K → ℕ × ℕ) (h : ℕ → ℕ) (P : List (Point K d)) (m : ℕ) (h0 : h 0 % P.length = 0) :
    randomProjection mm h P m = .error .ub := by
  have : ∃ k, max 2 (m / 2) = k + 1 := ⟨max 2 (m / 2) - 1, by omega⟩
  obtain ⟨k, hk⟩ := this
  rw [randomProjection, hk, List.range_succ_eq_map, List.mapM_cons, projection]
  simp only [h0, or_true, if_true]
  rfl

end Verif.SampleHull
