import Verif.SampleHull.SpatialModel
import Verif.SampleHull.Props
import Verif.QHull.DcWhole

set_option linter.unusedSectionVars false
set_option linter.unusedVariables false

/-!
The sampling hulls in space (C78), for every sample and every interleaving. The specification is `IsHull3` in `QHull/Output.lean`.
-/

namespace Verif.SampleHull

open Verif Verif.QHull Verif.Hull3d Verif.Par Verif.Reserve

variable {K : Type} [Field K] [LinearOrder K] [IsStrictOrderedRing K]
variable {eps : K} {P Q : List (P3 K)}

/-! The parallel quickhull on at most three different points. -/

theorem linkAt_pts {st st' : Hull K} {f ab : ℕ} {bc : Option ℕ} {ca : ℕ} (h : linkAt st f ab bc ca = .ok st') :
    st'.pts = st.pts ∧ st'.hSize = st.hSize := by
  unfold linkAt at h
  simp only [Except.bind, Except.map] at h
  repeat' split at h
  all_goals first | (cases h; exact ⟨rfl, rfl⟩) | cases h

theorem apexPar_empty {pick : Pick K} {fuel : ℕ} {st : Hull K} (hp : ∀ i, st.pts i = []) (f : ℕ) (v : Option (Vtx K)) :
    apexPar pick fuel st f ≠ .ok v := by
  unfold apexPar
  cases fuel with
  | zero => simp [dfsFacetE]
  | succ fuel =>
    rw [dfsFacetE]
    cases deref st (some f) with
    | error e => simp [Except.bind]
    | ok r => simp [Except.bind, hp]

theorem parLoop_empty {pick : Pick K} {fuel n numProc : ℕ} {o : ℕ → Oracle K} {st : Hull K} {res : ℕ → Res}
    (hp : ∀ i, st.pts i = []) (hs : st.hSize < 64) (st' : Hull K) :
    parLoop eps fuel pick numProc o n st res ≠ .ok st' := by
  cases n with
  | zero => simp [parLoop]
  | succ n =>
    rw [parLoop, if_pos hs]
    cases facetWalk fuel st with
    | error e => simp [Except.bind]
    | ok f =>
      simp only [Except.bind]
      cases h : apexPar pick fuel st f with
      | error e => simp
      | ok v => exact absurd h (apexPar_empty hp f v)

theorem sv_few (hfew : P.toFinset.card ≤ 3) {a b c d : P3 K} (ha : a ∈ P) (hb : b ∈ P) (hc : c ∈ P) (hd : d ∈ P) :
    sv a b c d = 0 := by
  by_cases h : a = b ∨ a = c ∨ a = d ∨ b = c ∨ b = d ∨ c = d
  · rw [sv_poly]
    rcases h with rfl | rfl | rfl | rfl | rfl | rfl <;> ring
  · exfalso
    push Not at h
    obtain ⟨n1, n2, n3, n4, n5, n6⟩ := h
    have hsub : ({a, b, c, d} : Finset (P3 K)) ⊆ P.toFinset := by
      intro v hv
      simp only [Finset.mem_insert, Finset.mem_singleton] at hv
      rw [List.mem_toFinset]
      rcases hv with rfl | rfl | rfl | rfl <;> assumption
    have := Finset.card_le_card hsub
    rw [Finset.card_insert_of_notMem (by simp [n1, n2, n3]), Finset.card_insert_of_notMem (by simp [n4, n5]),
      Finset.card_pair n6] at this
    omega

theorem argmax_mem {key : P3 K → K} {p : P3 K} : ∀ {l : List (P3 K)}, argmax key l = some p → p ∈ l := by
  intro l
  induction l with
  | nil => intro h; simp [argmax] at h
  | cons q l ih =>
    intro h
    rw [argmax] at h
    split at h
    · obtain rfl := Option.some.inj h
      exact List.mem_cons_self ..
    · rename_i r hr
      split at h
      · obtain rfl := Option.some.inj h
        exact List.mem_cons_of_mem _ (ih hr)
      · obtain rfl := Option.some.inj h
        exact List.mem_cons_self ..

theorem extremes_mem {x y : P3 K} (h : extremes P = some (x, y)) : x ∈ P ∧ y ∈ P := by
  unfold extremes at h
  split at h
  · rename_i h1 h2 h3 h4 h5 h6
    simp only at h
    split at h
    · simp only [Option.some.injEq, Prod.mk.injEq] at h
      obtain ⟨rfl, rfl⟩ := h
      exact ⟨argmax_mem h1, argmax_mem h2⟩
    · split at h
      · simp only [Option.some.injEq, Prod.mk.injEq] at h
        obtain ⟨rfl, rfl⟩ := h
        exact ⟨argmax_mem h3, argmax_mem h4⟩
      · simp only [Option.some.injEq, Prod.mk.injEq] at h
        obtain ⟨rfl, rfl⟩ := h
        exact ⟨argmax_mem h5, argmax_mem h6⟩
  · cases h

theorem corners_mem {a b c d : P3 K} (h : corners P = some (a, b, c, d)) : a ∈ P ∧ b ∈ P ∧ c ∈ P ∧ d ∈ P := by
  unfold corners at h
  rw [Option.bind_eq_some_iff] at h
  obtain ⟨⟨x, y⟩, h1, h⟩ := h
  rw [Option.bind_eq_some_iff] at h
  obtain ⟨z, h2, h⟩ := h
  rw [Option.map_eq_some_iff] at h
  obtain ⟨w, h3, h⟩ := h
  simp only [Prod.mk.injEq] at h
  obtain ⟨rfl, rfl, rfl, rfl⟩ := h
  exact ⟨(extremes_mem h1).1, (extremes_mem h1).2, argmax_mem h2, argmax_mem h3⟩

theorem foldl_place_none {heap : Heap (P3 K)} {new : List ℕ} (l : List (Vtx K)) : ∀ (pts : ℕ → List (Vtx K)),
    (∀ v ∈ l, ∀ k ∈ new, keep eps (heap k) v.1 = false) → l.foldl (place eps heap new) pts = pts := by
  induction l with
  | nil => intro pts _; rfl
  | cons v l ih =>
    intro pts h
    have h1 : place eps heap new pts v = pts := by
      unfold place
      rw [List.find?_eq_none.mpr fun k hk => by rw [h v (List.mem_cons_self ..) k hk]; simp]
    rw [List.foldl_cons, h1]
    exact ih pts fun u hu => h u (List.mem_cons_of_mem _ hu)

theorem keep_flat (he : 0 ≤ eps) {a b c p : P3 K} (h1 : sv a b c p = 0) (h2 : sv a c b p = 0) :
    keep eps (mkLinked eps a b c) p = false := by
  unfold keep mkLinked
  split
  · simp only [h2, decide_eq_false (not_lt.mpr he), Bool.false_and]
  · simp only [h1, decide_eq_false (not_lt.mpr he), Bool.false_and]

/-- On at most three different points the parallel quickhull never returns. -/
theorem parCompute_few (he : 0 ≤ eps) (hfew : P.toFinset.card ≤ 3) {pick : Pick K} {fuel numProc : ℕ} {o : ℕ → Oracle K}
    (out : List (IFacet K)) : parCompute eps fuel pick numProc o P ≠ .ok out := by
  intro h
  unfold parCompute at h
  cases hi : initSerial eps P with
  | error e => rw [hi] at h; simp [Except.bind] at h
  | ok r =>
    obtain ⟨st, c⟩ := r
    rw [hi] at h
    simp only [Except.bind] at h
    have key : (∀ i, st.pts i = []) ∧ st.hSize < 64 := by
      unfold initSerial at hi
      split at hi
      · cases hi
      · rename_i c1 c2 c3 c4 hc
        obtain ⟨m1, m2, m3, m4⟩ := corners_mem hc
        simp only at hi
        set ce := centre c1 c2 c3 c4 with hce
        have hz : ∀ a ∈ P, ∀ b ∈ P, ∀ c ∈ P, ∀ d ∈ P, sv (tr ce a) (tr ce b) (tr ce c) (tr ce d) = 0 := by
          intro a ha b hb c hc d hd
          have e : sv (tr ce a) (tr ce b) (tr ce c) (tr ce d) = sv a b c d := by
            simp only [sv_poly, tr]; ring
          rw [e, sv_few hfew ha hb hc hd]
        rw [foldl_place_none] at hi
        · simp only [Except.bind, Except.map] at hi
          split at hi
          · cases hi
          · rename_i s1 l1
            split at hi
            · cases hi
            · rename_i s2 l2
              split at hi
              · cases hi
              · rename_i s3 l3
                split at hi
                · cases hi
                · rename_i s4 l4
                  obtain ⟨rfl, _⟩ := Prod.mk.inj (Except.ok.inj hi)
                  have k1 := linkAt_pts l1
                  have k2 := linkAt_pts l2
                  have k3 := linkAt_pts l3
                  have k4 := linkAt_pts l4
                  refine ⟨fun i => ?_, ?_⟩
                  · rw [k4.1, k3.1, k2.1, k1.1]
                  · rw [k4.2, k3.2, k2.2, k1.2]; norm_num
        · intro v hv k hk
          obtain ⟨q, hq, rfl⟩ := List.mem_map.mp hv
          obtain ⟨p, hp, rfl⟩ := List.mem_map.mp hq
          simp only [List.mem_cons, List.not_mem_nil, or_false] at hk
          rcases hk with rfl | rfl | rfl | rfl
          · exact keep_flat he (hz _ m1 _ m2 _ m3 _ hp) (hz _ m1 _ m3 _ m2 _ hp)
          · exact keep_flat he (hz _ m1 _ m2 _ m4 _ hp) (hz _ m1 _ m4 _ m2 _ hp)
          · exact keep_flat he (hz _ m3 _ m4 _ m2 _ hp) (hz _ m3 _ m2 _ m4 _ hp)
          · exact keep_flat he (hz _ m3 _ m4 _ m1 _ hp) (hz _ m3 _ m1 _ m4 _ hp)
    cases hl : parLoop eps fuel pick numProc o fuel st (fun _ => noRes) with
    | error e => rw [hl] at h; simp at h
    | ok st' => exact parLoop_empty key.1 key.2 st' hl

/-! The hull of the points that were kept. -/

/-- Points of the input span it iff they include its extreme points. -/
theorem covers_iff (hg : GenInput eps P) (hs : Q ⊆ P) :
    (∀ p ∈ P, p ∈ convexHull K {q | q ∈ Q}) ↔ ∀ v ∈ (convexHull K {p | p ∈ P}).extremePoints K, v ∈ Q := by
  constructor
  · intro h v hv
    have hconv : convexHull K {p | p ∈ P} = convexHull K {p | p ∈ Q} :=
      le_antisymm (convexHull_min h (convex_convexHull K _)) (convexHull_mono hs)
    rw [hconv] at hv
    exact mem_of_extreme hv
  · intro h p hp
    obtain ⟨A, hA⟩ := hull_exists hg
    have h1 : p ∈ convexHull K {p | p ∈ P} := subset_convexHull K _ hp
    rw [hA.span] at h1
    refine convexHull_mono ?_ h1
    rintro v ⟨f, hf, hv⟩
    exact h v ((hA.extreme hg.four v).mpr ⟨f, hf, hv⟩)

/-- The hull of points of the input is the hull of the input iff they include its extreme points. -/
theorem hull_of_kept (hg : GenInput eps P) (hs : Q ⊆ P) {out : List (IFacet K)} (hQ : IsHull3 Q out) :
    IsHull3 P out ↔ ∀ v ∈ (convexHull K {p | p ∈ P}).extremePoints K, v ∈ Q := by
  constructor
  · intro h v hv
    obtain ⟨f, hf, hfv⟩ := (h.extreme hg.four v).mp hv
    exact hQ.vert f hf v hfv
  · intro h
    exact hQ.transfer hg hs ((covers_iff hg hs).mpr h)

theorem filterFacets_corner (H : List (IFacet K)) : ∀ f ∈ filterFacets H, CornerOK corners3 f := by
  intro f hf
  obtain ⟨g, _, rfl⟩ := List.mem_map.mp hf
  exact facet3_corner _ _ _

theorem filter2_sublist {w bs : ℕ} (hw : 0 < w) (hb : 0 < bs) {sched : List ℕ} {H : List (IFacet K)} {remain : List (P3 K)}
    (hP : P ≠ []) (h : filter2 w bs corners3 sched P (filterFacets H) = .ok remain) : remain.Sublist P := by
  have hH : filterFacets H ≠ [] := by
    intro hc
    rw [filter2, if_pos hc] at h
    cases h
  exact (((c63_filter_partial w bs hw hb (by norm_num) corners3 P hP _ hH (filterFacets_corner H)).2 sched).2 remain h).1

/-- What happens from the limit on, once the filter has kept the points `remain`. -/
theorem compute3_large {limit w bs size : ℕ} {serial par : List (P3 K) → Except Err (List (IFacet K))}
    {sample : List (P3 K) → ℕ → Except Err (List (P3 K))} {sched : List ℕ} (hn : limit ≤ P.length) {S remain : List (P3 K)}
    {H : List (IFacet K)} (hS : sample P (max size 5) = .ok S) (hH : serial S = .ok H)
    (hR : filter2 w bs corners3 sched P (filterFacets H) = .ok remain) :
    compute3 limit w bs serial par sample size sched P = par remain := by
  unfold compute3
  rw [if_neg (by omega), hS]
  simp only [Except.bind]
  rw [hH]
  simp only
  rw [hR]

/-- A returned value comes from the points that the filter kept. -/
theorem compute3_ok {limit w bs size : ℕ} {serial par : List (P3 K) → Except Err (List (IFacet K))}
    {sample : List (P3 K) → ℕ → Except Err (List (P3 K))} {sched : List ℕ} (hn : limit ≤ P.length) {out : List (IFacet K)}
    (h : compute3 limit w bs serial par sample size sched P = .ok out) :
    ∃ S H remain, sample P (max size 5) = .ok S ∧ serial S = .ok H ∧
      filter2 w bs corners3 sched P (filterFacets H) = .ok remain ∧ par remain = .ok out := by
  unfold compute3 at h
  rw [if_neg (by omega)] at h
  simp only [Except.bind] at h
  split at h
  · cases h
  · rename_i S hS
    split at h
    · cases h
    · rename_i H hH
      split at h
      · cases h
      · rename_i remain hR
        exact ⟨S, H, remain, hS, hH, hR, h⟩

/-- C78 below 1000 points: all entry points return the facets of the hull. -/
theorem c78_small (hg : GenInput eps P) (hsmall : P.length ≤ 10 → P.Nodup) (hn : P.length < 1000) {fuel : ℕ}
    (hf : 9 * P.length ^ 3 + P.length + 5 ≤ fuel) : ∃ out, IsHull3 P out ∧
      ∀ (w bs : ℕ) (pick : Pick K) (numProc : ℕ) (o : ℕ → Oracle K) (size : ℕ) (sched : List ℕ),
        (∀ h, random3 w bs eps fuel pick numProc o h size sched P = .ok out) ∧
        (∀ mm h, projection3 w bs eps fuel pick numProc o mm h size sched P = .ok out) ∧
        ∀ [FloorRing K], ∀ (top : K) (ord : List ℕ) (dim : ℕ → ℕ),
          grid3 w bs eps fuel pick numProc o top ord dim size sched P = .ok out := by
  obtain ⟨out, h1, h2⟩ := c64_quickhull hg hsmall hf
  refine ⟨out, h2, fun w bs pick numProc o size sched => ⟨fun h => ?_, fun mm h => ?_, ?_⟩⟩
  · rw [random3, compute3, if_pos hn, h1]
  · rw [projection3, compute3, if_pos hn, h1]
  · intro _ top ord dim
    rw [grid3, compute3, if_pos hn, h1]

/-- C78 from the limit (1000 in the code) on, for every sampling routine, every interleaving of the filter and of the parallel quickhull
and every number of threads, for inputs that are in general position together with the points that the filter kept: a returned value is
the hull of the points that were kept; it is the hull of the input iff all extreme points were kept; and if they were and the hull has at
least 64 facets, every run in which all threads get enough accesses returns it. Missing: that the extreme points are kept
(`c78_lost_false`), and smaller hulls (`c78_small_hull_false`). -/
theorem c78_large_partial (hg : GenInput eps P) {limit w bs size : ℕ} (hw : 0 < w) (hb : 0 < bs) (hn : limit ≤ P.length)
    {pick : Pick K} (hp : Picks pick) {numProc : ℕ} (hnp : 1 ≤ numProc) {fuel : ℕ}
    (hf : 9 * P.length ^ 3 + P.length + 5 ≤ fuel) {sample : List (P3 K) → ℕ → Except Err (List (P3 K))} {sched : List ℕ}
    {S remain : List (P3 K)} {H : List (IFacet K)} (hS : sample P (max size 5) = .ok S) (hH : QHull.compute eps fuel S = .ok H)
    (hR : filter2 w bs corners3 sched P (filterFacets H) = .ok remain) (hgR : GenInput eps remain) :
    ∃ B, ∀ o : ℕ → Oracle K, (∀ n, (o n).Fine) →
      (∀ out, compute3 limit w bs (QHull.compute eps fuel) (parCompute eps fuel pick numProc o) sample size sched P = .ok out →
        IsHull3 remain out ∧ 64 ≤ out.length ∧
        (IsHull3 P out ↔ ∀ v ∈ (convexHull K {p | p ∈ P}).extremePoints K, v ∈ remain)) ∧
      ((∀ v ∈ (convexHull K {p | p ∈ P}).extremePoints K, v ∈ remain) → (∀ A, IsHull3 P A → 64 ≤ A.length) →
        Fair o (numProc * 8) B → ∃ out,
          compute3 limit w bs (QHull.compute eps fuel) (parCompute eps fuel pick numProc o) sample size sched P = .ok out ∧
          IsHull3 P out) := by
  have hsub := filter2_sublist hw hb hg.ne hR
  have hlen : 9 * remain.length ^ 3 + remain.length + 5 ≤ fuel := by
    have h5 := hsub.length_le
    have := Nat.pow_le_pow_left h5 3
    omega
  obtain ⟨B, hB⟩ := par_outcome hgR hp hnp hlen
  refine ⟨B, fun o ho => ?_⟩
  rw [compute3_large hn hS hH hR]
  obtain ⟨h1, h2⟩ := hB o ho
  constructor
  · intro out hout
    rcases h1 with h1 | ⟨A, hA, ⟨_, h1⟩ | ⟨h64, h1⟩⟩
    · rw [hout] at h1; cases h1
    · rw [hout] at h1; cases h1
    · rw [hout] at h1
      obtain rfl := Except.ok.inj h1
      exact ⟨hA, h64, hull_of_kept hg hsub.subset hA⟩
  · intro hext h64 hfair
    rcases h1 with h1 | ⟨A, hA, ⟨hl, h1⟩ | ⟨_, h1⟩⟩
    · exact absurd h1 (h2 hfair)
    · have := h64 A ((hull_of_kept hg hsub.subset hA).mpr hext)
      omega
    · exact ⟨A, h1, (hull_of_kept hg hsub.subset hA).mpr hext⟩

/-- C78, for inputs all of whose parts are in general position: every returned value is the hull, with at least 64 facets, of some points
of the input, and the hull of the input iff these include its extreme points. -/
theorem c78_result_partial (hg : GenAll eps P) (h4 : 4 ≤ P.length) {limit w bs size : ℕ} (hw : 0 < w) (hb : 0 < bs)
    (hn : limit ≤ P.length) {pick : Pick K} (hp : Picks pick) {numProc : ℕ} (hnp : 1 ≤ numProc) {fuel : ℕ}
    (hf : 9 * P.length ^ 3 + P.length + 5 ≤ fuel) {sample : List (P3 K) → ℕ → Except Err (List (P3 K))} {sched : List ℕ}
    {o : ℕ → Oracle K} (ho : ∀ n, (o n).Fine) {out : List (IFacet K)}
    (h : compute3 limit w bs (QHull.compute eps fuel) (parCompute eps fuel pick numProc o) sample size sched P = .ok out) :
    ∃ remain : List (P3 K), remain.Sublist P ∧ IsHull3 remain out ∧ 64 ≤ out.length ∧
      (IsHull3 P out ↔ ∀ v ∈ (convexHull K {p | p ∈ P}).extremePoints K, v ∈ remain) := by
  have hgP : GenInput eps P := hg.sublist (List.Sublist.refl _) h4
  obtain ⟨S, H, remain, hS, hH, hR, hpar⟩ := compute3_ok hn h
  have hsub := filter2_sublist hw hb hgP.ne hR
  have hc : 4 ≤ remain.toFinset.card := by
    by_contra hc
    exact parCompute_few hg.nn (by omega) out hpar
  obtain ⟨B, hB⟩ := c78_large_partial hgP hw hb hn hp hnp hf hS hH hR (hg.gen hsub.subset hc)
  obtain ⟨h1, h2, h3⟩ := (hB o ho).1 out h
  exact ⟨remain, hsub, h1, h2, h3⟩

/-- C78 fails from the limit on for every input in general position whose hull has fewer than 64 facets: whatever the sampling routine, the
interleavings and the number of threads, the hull of the input is not returned. -/
theorem c78_small_hull_false (hg : GenAll eps P) (h4 : 4 ≤ P.length) {A : List (IFacet K)} (hA : IsHull3 P A) (h64 : A.length < 64)
    {limit w bs size : ℕ} (hw : 0 < w) (hb : 0 < bs) (hn : limit ≤ P.length) {pick : Pick K} (hp : Picks pick) {numProc : ℕ}
    (hnp : 1 ≤ numProc) {fuel : ℕ} (hf : 9 * P.length ^ 3 + P.length + 5 ≤ fuel)
    {sample : List (P3 K) → ℕ → Except Err (List (P3 K))} {sched : List ℕ} {o : ℕ → Oracle K} (ho : ∀ n, (o n).Fine)
    {out : List (IFacet K)} :
    ¬ (compute3 limit w bs (QHull.compute eps fuel) (parCompute eps fuel pick numProc o) sample size sched P = .ok out ∧
      IsHull3 P out) := by
  rintro ⟨h, hout⟩
  obtain ⟨_, _, _, h1, _⟩ := c78_result_partial hg h4 hw hb hn hp hnp hf ho h
  have := hA.length_eq hout
  omega

end Verif.SampleHull
