import Verif.BatchKd.CoDynModel
import Verif.BatchKd.CoProps

set_option linter.unusedSectionVars false
set_option linter.unusedVariables false

/-!
Property C71: histories of insertions and erasures on a cache-oblivious kd-tree. The specification (`Op`, `spec`, `Allowed`) is that of
the histories of C28.
-/

namespace Verif.BatchKd

open Verif.KnnBuf (KSmallest)

variable {α K : Type} {d : ℕ}

section
variable [Field K] [LinearOrder K]

/-- The library functions do what they promise; leaves are not empty and smaller than the bound for parallel splits. -/
structure CoCfg.OK (c : CoCfg α K d) (pos : α → Point K d) : Prop where
  nth : NthItems c.nth pos
  srt : SortItems c.srt pos
  ls : 1 ≤ c.ls
  thr : c.ls < c.thr

/-- Every iteration of a parallel loop takes place once. -/
def CoEnv.OK (e : CoEnv K d) : Prop :=
  ∀ base levels top, (e.ord base levels top).Perm (List.range (2 ^ (levels - bottomNumLevels levels)))

/-- Invariant; the item array is shorter than the capacity. -/
structure CInv (pos : α → Point K d) (t : Tree α K d) : Prop where
  lenI : t.items.length ≤ t.maxSize
  lenP : t.present.length = t.maxSize
  bs : t.buildSize ≤ t.maxSize
  good : t.curSize ≠ 0 → Good pos t.items t.present t.root ∧ t.root.start = 0 ∧ t.root.stop = t.buildSize
  size : t.curSize = (content t).length

theorem CInv.q {pos : α → Point K d} {t : Tree α K d} (h : CInv pos t) : QInv pos t := ⟨h.good, h.size⟩

theorem coNew_inv (pos : α → Point K d) (log2size : ℕ) :
    CInv pos (coNew log2size : Tree α K d) ∧ Clean (coNew log2size : Tree α K d) := by
  refine ⟨⟨by simp [coNew], by simp [coNew], by simp [coNew], fun h => absurd rfl h, ?_⟩, fun _ => rfl⟩
  simp [coNew, content]

variable {pos : α → Point K d} {c : CoCfg α K d}
  {part : Fin d → K → List (Point K d) → List (Point K d)}

theorem coBuildE_ok [IsStrictOrderedRing K] (hc : c.OK pos) {e : CoEnv K d} (he : e.OK) {t : Tree α K d} {pts : List α}
    (hcap : pts.length ≤ t.maxSize) (hbig : t.maxSize ≤ 2 ^ 47) (hfl : t.present = List.replicate t.maxSize true) :
    ∃ t', coBuildE c pos e t pts = .ok t' ∧ CInv pos t' ∧ Clean t' ∧ (content t').Perm pts ∧ t'.maxSize = t.maxSize ∧
      (DistinctCoords pos pts → SearchableT pos t') ∧ t'.present = List.replicate t'.maxSize true := by
  by_cases h0 : pts = []
  · subst h0
    refine ⟨{ t with items := [], curSize := 0, buildSize := 0 }, rfl, ⟨by simp, by simp [hfl], by simp, fun h => absurd rfl h, ?_⟩,
      fun _ => hfl, ?_, rfl, fun _ h => absurd rfl h, hfl⟩
    · simp [content]
    · simp [content]
  · obtain ⟨t', h1, h2, h3, h4, h5, h6, h7, h8, h9, h10, h11⟩ := coBuild_state (parallel := c.parallel) (d0 := c.d0) hc.nth hc.srt
      hc.ls hc.thr he e.mem t pts h0 hcap (by omega) hfl
    have hl := h2.length_eq
    have hpos := List.length_pos_iff.mpr h0
    refine ⟨t', h1, ⟨by omega, by rw [h4, hfl, h7]; simp, by omega, fun _ => ⟨h8, h9, by rw [h10, h6]⟩, by rw [h3]; omega⟩, ?_,
      by rw [h3]; exact h2, h7, fun hD _ => h11 hD, by rw [h4, hfl, h7]⟩
    intro h
    omega

theorem content_le {t : Tree α K d} (h : CInv pos t) : (content t).length ≤ t.maxSize := by
  rw [content_eq]
  unfold live
  rw [List.length_map]
  refine (List.length_filter_le _ _).trans ?_
  unfold slots
  rw [List.length_take]
  have := h.bs
  omega

/-- `insert` returns and stores everything. -/
theorem coInsert_ok [IsStrictOrderedRing K] (hc : c.OK pos) {e : CoEnv K d} (he : e.OK) {t : Tree α K d} {pts : List α}
    (hI : CInv pos t) (hC : pts ≠ [] → Clean t) (hcap : t.curSize + pts.length ≤ t.maxSize) (hbig : t.maxSize ≤ 2 ^ 47) :
    ∃ t', coInsert c pos e t pts = .ok t' ∧ CInv pos t' ∧ (Clean t → Clean t') ∧ (content t').Perm (content t ++ pts) ∧
      t'.maxSize = t.maxSize ∧ (DistinctCoords pos (content t ++ pts) → SearchableT pos t → SearchableT pos t') := by
  unfold coInsert
  by_cases hp : pts.length = 0
  · have : pts = [] := List.eq_nil_of_length_eq_zero hp
    subst this
    exact ⟨t, by rw [if_pos hp], hI, fun h => h, by simp, rfl, fun _ h => h⟩
  · rw [if_neg hp]
    by_cases h0 : t.curSize = 0
    · rw [if_pos h0]
      have hct : content t = [] := List.eq_nil_of_length_eq_zero (hI.size.symm.trans h0)
      obtain ⟨t', h1, h2, h3, h4, h5, h6, h7⟩ := coBuildE_ok (c := c) hc he (t := t) (pts := pts) (by omega) hbig
        (hC (by rintro rfl; exact hp rfl) h0)
      exact ⟨t', h1, h2, fun _ => h3, by rw [hct]; exact h4, h5, fun hD _ => h6 (by rwa [hct] at hD)⟩
    · rw [if_neg h0]
      have hg : (moveElements t).1 = content t := rfl
      simp only
      rw [if_neg (by rw [hg, hI.size]; simp), hg]
      have hs := hI.size
      obtain ⟨t', h1, h2, h3, h4, h5, h6, h7⟩ := coBuildE_ok (c := c) hc he (t := (moveElements t).2) (pts := content t ++ pts) (by
        show _ ≤ t.maxSize
        rw [List.length_append]
        omega) hbig (by
        show List.replicate t.present.length true = List.replicate t.maxSize true
        rw [hI.lenP])
      exact ⟨t', h1, h2, fun _ => h3, h4, h5, fun hD _ => h6 hD⟩

/-- `bulk_erase` of the base class. -/
theorem bulkErase_c (hpart : PartItems part (id : Point K d → Point K d)) {t : Tree α K d}
    (hI : CInv pos t) (pts : List (Point K d)) :
    ∃ t', bulkErase pos part t pts = .ok t' ∧ CInv pos t' ∧ t'.maxSize = t.maxSize ∧
      (content t').Sublist (content t) ∧
      (∃ R : List α, (content t).Perm (content t' ++ R) ∧ (R.map pos).Subperm pts) ∧
      (SearchableT pos t → SearchableT pos t' ∧ content t' = eraseAll pos pts (content t)) ∧
      (t.curSize = 0 → t' = t) := by
  unfold bulkErase
  by_cases h0 : t.curSize = 0
  · rw [if_pos h0]
    have hct : content t = [] := List.eq_nil_of_length_eq_zero (hI.size.symm.trans h0)
    refine ⟨t, rfl, hI, rfl, List.Sublist.refl _, ⟨[], by simp, by simp⟩, fun h => ⟨h, ?_⟩, fun _ => rfl⟩
    rw [hct]
    exact (List.sublist_nil.1 (eraseAll_sublist pos pts [])).symm
  · rw [if_neg h0]
    obtain ⟨hg, hs, he⟩ := hI.good h0
    have hsz := hI.size
    obtain ⟨p', k, st, ret, e1, O⟩ := eraseAt_spec hpart t.root t.present pts
      (hI.lenI.trans hI.lenP.symm.le) hg
    rw [e1]
    have hE := O.er
    rw [hs, he] at hE
    have hct : content { t with
        present := p'
        root := st
        curSize := t.curSize - k } = live t.items p' 0 t.buildSize := by
      rw [content_eq]
    refine ⟨_, rfl, ⟨hI.lenI, hE.len.trans hI.lenP, hI.bs, fun _ => ⟨O.good, O.start.trans hs,
      O.stop.trans he⟩, ?_⟩, rfl, ?_, ?_, ?_, fun h => absurd h h0⟩
    · rw [hct]
      show t.curSize - k = _
      have := hE.count
      rw [content_eq] at hsz
      omega
    · rw [hct, content_eq]
      exact hE.sub
    · rw [hct, content_eq]
      exact hE.only
    · intro hS
      obtain ⟨u1, u2, _⟩ := O.exact (hS h0)
      rw [hs, he] at u1
      refine ⟨fun _ => u2, ?_⟩
      rw [hct, content_eq]
      exact u1

/-- `erase<true>` of the base class, one point after the other. -/
theorem erasePoints_c (pts : List (Point K d)) {t : Tree α K d} (hI : CInv pos t) :
    ∃ t', erasePoints pos true t pts = .ok t' ∧ CInv pos t' ∧ t'.maxSize = t.maxSize ∧
      (content t').Sublist (content t) ∧
      (∃ R : List α, (content t).Perm (content t' ++ R) ∧ (R.map pos).Subperm pts) ∧
      (SearchableT pos t → SearchableT pos t' ∧ content t' = eraseAll pos pts (content t)) ∧
      (t.curSize = 0 → t' = t) := by
  obtain ⟨t', e1, I1, m1, rest⟩ := erasePoints_q pts hI.q (hI.lenI.trans hI.lenP.symm.le)
  exact ⟨t', e1, ⟨by rw [m1.items, m1.ms]; exact hI.lenI, by rw [m1.lenP, m1.ms]; exact hI.lenP,
    by rw [m1.bs, m1.ms]; exact hI.bs, I1.good, I1.size⟩, m1.ms, rest⟩

/-- `bulk_erase<true>` returns. -/
theorem coErase_ok [IsStrictOrderedRing K] (hc : c.OK pos) (hpart : PartItems part (id : Point K d → Point K d)) {e : CoEnv K d}
    (he : e.OK) {t : Tree α K d} (hI : CInv pos t) (hbig : t.maxSize ≤ 2 ^ 47) (pts : List (Point K d)) :
    ∃ t', coErase c pos part e t pts = .ok t' ∧ CInv pos t' ∧ Clean t' ∧ t'.maxSize = t.maxSize ∧
      (∃ R : List α, (content t).Perm (content t' ++ R) ∧ (R.map pos).Subperm pts) ∧
      (SearchableT pos t → (content t').Perm (eraseAll pos pts (content t))) ∧
      (DistinctCoords pos (content t) → SearchableT pos t') ∧ t'.present = List.replicate t'.maxSize true := by
  obtain ⟨t1, e1, I1, m1, s1, r1, x1, _⟩ := bulkErase_c hpart hI pts
  have hg : (moveElements t1).1 = content t1 := rfl
  obtain ⟨t', h1, h2, h3, h4, h5, h6, h7⟩ := coBuildE_ok (c := c) hc he (t := (moveElements t1).2) (pts := content t1)
    (content_le I1) (by rw [← m1] at hbig; exact hbig) (by
      show List.replicate t1.present.length true = List.replicate t1.maxSize true
      rw [I1.lenP])
  refine ⟨t', ?_, h2, h3, h5.trans m1, ?_, ?_, ?_, h7⟩
  · unfold coErase
    rw [e1]
    simp only [Except.bind]
    rw [if_neg (by rw [hg, I1.size]; simp), hg]
    exact h1
  · obtain ⟨R, q1, q2⟩ := r1
    exact ⟨R, q1.trans (h4.symm.append_right R), q2⟩
  · intro hS
    rw [← (x1 hS).2]
    exact h4
  · exact fun hD => h6 (DistinctCoords.sub _ _ s1.subperm hD)

/-- One operation. -/
def coStep (c : CoCfg α K d) (pos : α → Point K d) (part : Fin d → K → List (Point K d) → List (Point K d)) (e : CoEnv K d)
    (t : Tree α K d) : Op α K d → Except Err (Tree α K d)
  | .insert pts => coInsert c pos e t pts
  | .erase pts => coErase c pos part e t pts
  | .eraseKeep pts => bulkErase pos part t pts
  | .eraseEach pts => erasePoints pos true t pts

/-- A history of operations, each with its own schedule. -/
def coRun (c : CoCfg α K d) (pos : α → Point K d) (part : Fin d → K → List (Point K d) → List (Point K d)) (t : Tree α K d) :
    List (CoEnv K d × Op α K d) → Except Err (Tree α K d)
  | [] => .ok t
  | o :: ops => (coStep c pos part o.1 t o.2).bind fun t' => coRun c pos part t' ops

/-- Reachable states: any points, any history within the capacity in which no insertion goes to a tree with stale flags. -/
inductive CoReach (c : CoCfg α K d) (pos : α → Point K d) (part : Fin d → K → List (Point K d) → List (Point K d)) (log2size : ℕ) :
    Tree α K d → Prop
  | new : CoReach c pos part log2size (coNew log2size)
  | insert {t t' : Tree α K d} (e : CoEnv K d) (pts : List α) : CoReach c pos part log2size t → e.OK →
      (t.curSize = 0 → t.present = List.replicate t.maxSize true) → t.curSize + pts.length ≤ 2 ^ log2size →
      coInsert c pos e t pts = .ok t' → CoReach c pos part log2size t'
  | erase {t t' : Tree α K d} (e : CoEnv K d) (pts : List (Point K d)) : CoReach c pos part log2size t → e.OK →
      coErase c pos part e t pts = .ok t' → CoReach c pos part log2size t'
  | eraseKeep {t t' : Tree α K d} (pts : List (Point K d)) : CoReach c pos part log2size t →
      bulkErase pos part t pts = .ok t' → CoReach c pos part log2size t'
  | eraseEach {t t' : Tree α K d} (pts : List (Point K d)) : CoReach c pos part log2size t →
      erasePoints pos true t pts = .ok t' → CoReach c pos part log2size t'

variable [IsStrictOrderedRing K]

theorem CoReach.inv (hc : c.OK pos) (hpart : PartItems part (id : Point K d → Point K d)) {log2size : ℕ} (hl : log2size ≤ 47)
    {t : Tree α K d} (h : CoReach c pos part log2size t) : CInv pos t ∧ t.maxSize = 2 ^ log2size := by
  have hbig : 2 ^ log2size ≤ 2 ^ 47 := Nat.pow_le_pow_right (by omega) hl
  induction h with
  | new => exact ⟨(coNew_inv pos log2size).1, rfl⟩
  | insert e pts h he hcl hcap hr ih =>
    obtain ⟨t', h1, h2, _, _, h5, _⟩ := coInsert_ok (c := c) hc he ih.1 (fun _ => hcl) (by rw [ih.2]; exact hcap)
      (by rw [ih.2]; exact hbig) (pts := pts)
    rw [hr] at h1
    cases h1
    exact ⟨h2, h5.trans ih.2⟩
  | erase e pts h he hr ih =>
    obtain ⟨t', h1, h2, _, h5, _⟩ := coErase_ok (c := c) hc hpart he ih.1 (by rw [ih.2]; exact hbig) pts
    rw [hr] at h1
    cases h1
    exact ⟨h2, h5.trans ih.2⟩
  | eraseKeep pts h hr ih =>
    obtain ⟨t', h1, h2, h5, _⟩ := bulkErase_c hpart ih.1 pts
    rw [hr] at h1
    cases h1
    exact ⟨h2, h5.trans ih.2⟩
  | eraseEach pts h hr ih =>
    obtain ⟨t', h1, h2, h5, _⟩ := erasePoints_c pts ih.1
    rw [hr] at h1
    cases h1
    exact ⟨h2, h5.trans ih.2⟩

theorem CInv.orth {t : Tree α K d} (hI : CInv pos t) (q : Box K d) :
    orthogonalQuery pos t q = (content t).filter fun x => decide (∀ i, q.lo i ≤ pos x i ∧ pos x i ≤ q.hi i) := by
  have hcongr : (fun x => itemInBox q (pos x)) = fun x => decide (∀ i, q.lo i ≤ pos x i ∧ pos x i ≤ q.hi i) := by
    funext x
    rw [Bool.eq_iff_iff, itemInBox_iff, decide_eq_true_iff]
    rfl
  unfold orthogonalQuery
  by_cases h0 : t.curSize = 0
  · rw [if_pos h0]
    have hct : content t = [] := List.eq_nil_of_length_eq_zero (hI.size.symm.trans h0)
    rw [hct]
    rfl
  · rw [if_neg h0]
    obtain ⟨g, hs, he⟩ := hI.good h0
    rw [orthAt_eq g, hs, he, content_eq, hcongr]

/-- C71, all states (equal coordinates and repeated points allowed). In every reachable state: the size is the number of stored
items, box queries are exact, the `k` nearest neighbours are exact; an insertion within the capacity, unless it goes
to a tree with stale flags, returns and adds exactly the given items; both erasures return, and remove only items that are listed,
at most one for every point of the list. -/
theorem c71_states (hc : c.OK pos) (hpart : PartItems part (id : Point K d → Point K d)) {log2size : ℕ} (hl : log2size ≤ 47)
    {t : Tree α K d} (h : CoReach c pos part log2size t) :
    t.curSize = (content t).length ∧
    (∀ q : Box K d, orthogonalQuery pos t q =
      (content t).filter fun x => decide (∀ i, q.lo i ≤ pos x i ∧ pos x i ≤ q.hi i)) ∧
    (∀ (nthP : ℕ → List (K × α) → List (K × α)) (dist : Point K d → Point K d → K), NthPairs nthP → IsCoordDist dist →
      ∀ (update recurse : Bool) (k : ℕ), 1 ≤ k → k ≤ (content t).length → ∀ q, ∃ row,
        knnSingle nthP dist pos update recurse t k q = .ok row ∧ KSmallest (fun x => dist q (pos x)) k (content t) row) ∧
    (∀ (e : CoEnv K d) (pts : List α), e.OK → (t.curSize = 0 → t.present = List.replicate t.maxSize true) →
      t.curSize + pts.length ≤ 2 ^ log2size → ∃ t', coInsert c pos e t pts = .ok t' ∧ (content t').Perm (content t ++ pts)) ∧
    (∀ (e : CoEnv K d) (pts : List (Point K d)), e.OK → ∃ t', coErase c pos part e t pts = .ok t' ∧
      t'.present = List.replicate t'.maxSize true ∧
      ∃ R : List α, (content t).Perm (content t' ++ R) ∧ (R.map pos).Subperm pts) ∧
    (∀ pts : List (Point K d), ∃ t', bulkErase pos part t pts = .ok t' ∧
      ∃ R : List α, (content t).Perm (content t' ++ R) ∧ (R.map pos).Subperm pts) := by
  obtain ⟨hI, hm⟩ := h.inv hc hpart hl
  have hbig : t.maxSize ≤ 2 ^ 47 := by rw [hm]; exact Nat.pow_le_pow_right (by omega) hl
  refine ⟨hI.size, hI.orth, ?_, ?_, ?_, ?_⟩
  · intro nthP dist hnP hd update recurse k hk1 hk2 q
    exact hI.q.knnSingle hnP hd update recurse hk1 hk2 q
  · intro e pts he hcl hcap
    obtain ⟨t', h1, _, _, h4, _⟩ := coInsert_ok (c := c) hc he hI (fun _ => hcl) (by rw [hm]; exact hcap) hbig (pts := pts)
    exact ⟨t', h1, h4⟩
  · intro e pts he
    obtain ⟨t', h1, h2, h3, h5, h6, _, _, h7⟩ := coErase_ok (c := c) hc hpart he hI hbig pts
    exact ⟨t', h1, h7, h6⟩
  · intro pts
    obtain ⟨t', h1, _, _, _, h5, _⟩ := bulkErase_c hpart hI pts
    exact ⟨t', h1, h5⟩

/-- C71. Any allowed history (within the capacity, no equal coordinates among the stored points, no insertion into a tree that
`bulk_erase<false>` emptied), under every schedule, returns, and afterwards the size, `contains` and the box query see
exactly the multiset of positions that the history leaves. Missing: equal coordinates (`c71_ties_false`), insertions into such a
tree (`c71_refill_false`) and beyond the capacity (`c71_overflow_false`). -/
theorem c71_history_partial (hc : c.OK pos) (hpart : PartItems part (id : Point K d → Point K d)) (log2size : ℕ) (hl : log2size ≤ 47)
    (ops : List (CoEnv K d × Op α K d)) (he : ∀ o ∈ ops, o.1.OK) (hA : Allowed pos (2 ^ log2size) true 0 (ops.map Prod.snd)) :
    ∃ t, coRun c pos part (coNew log2size) ops = .ok t ∧
      t.curSize = Multiset.card (spec pos 0 (ops.map Prod.snd)) ∧
      (∀ p, ∃ r, contains pos t p = .ok r ∧ (r = true ↔ p ∈ spec pos 0 (ops.map Prod.snd))) ∧
      (∀ q, (((orthogonalQuery pos t q).map pos : List (Point K d)) : Multiset (Point K d)) =
        (spec pos 0 (ops.map Prod.snd)).filter fun p => ∀ i, q.lo i ≤ p i ∧ p i ≤ q.hi i) := by
  have hbig : 2 ^ log2size ≤ 2 ^ 47 := Nat.pow_le_pow_right (by omega) hl
  have key : ∀ (ops : List (CoEnv K d × Op α K d)) (clean : Bool) (t : Tree α K d) (M : Multiset (Point K d)),
      (∀ o ∈ ops, o.1.OK) → CInv pos t → (clean = true → Clean t) → SearchableT pos t → t.maxSize = 2 ^ log2size →
      (((content t).map pos : List (Point K d)) : Multiset (Point K d)) = M → DistinctPositions M →
      Allowed pos (2 ^ log2size) clean M (ops.map Prod.snd) →
      ∃ t', coRun c pos part t ops = .ok t' ∧ CInv pos t' ∧ SearchableT pos t' ∧
        (((content t').map pos : List (Point K d)) : Multiset (Point K d)) = spec pos M (ops.map Prod.snd) := by
    intro ops
    induction ops with
    | nil => exact fun clean t M _ hI hC hS hm hM hD _ => ⟨t, rfl, hI, hS, hM⟩
    | cons o ops ih =>
      intro clean t M he hI hC hS hm hM hD hA
      obtain ⟨ev, op⟩ := o
      have hev : ev.OK := he (ev, op) List.mem_cons_self
      have he' : ∀ o ∈ ops, o.1.OK := fun o ho => he o (List.mem_cons_of_mem _ ho)
      have hDc : DistinctCoords pos (content t) := (distinct_iff _).1 (by rw [hM]; exact hD)
      have hcard : t.curSize = Multiset.card M := by
        rw [hI.size, ← hM, Multiset.coe_card, List.length_map]
      have hzero : t.curSize = 0 ↔ M = 0 := by rw [hcard, Multiset.card_eq_zero]
      cases op with
      | insert pts =>
        obtain ⟨a1, a2, a3, a4⟩ := hA
        have hnew : ((((content t) ++ pts).map pos : List (Point K d)) : Multiset (Point K d)) =
            specStep pos M (.insert pts) := by
          rw [List.map_append, ← Multiset.coe_add, hM]
          rfl
        have hDn : DistinctCoords pos (content t ++ pts) := (distinct_iff _).1 (by rw [hnew]; exact a3)
        have hlen : t.curSize + pts.length ≤ t.maxSize := by
          rw [hm, hcard]
          refine le_trans (le_of_eq ?_) a2
          show _ = Multiset.card (M + _)
          rw [Multiset.card_add, Multiset.coe_card, List.length_map]
        have hCl : Clean t := fun h0 => hC (a1 (hzero.1 h0)) h0
        obtain ⟨t', e1, b1, b2, b3, b4, b5⟩ := coInsert_ok (c := c) hc hev hI (fun _ => hCl) hlen (by omega)
        obtain ⟨t'', e2, rest⟩ := ih clean t' _ he' b1 (fun _ => b2 hCl) (b5 hDn hS) (b4.trans hm)
          (by rw [← hnew]; exact Multiset.coe_eq_coe.2 (b3.map pos)) a3 a4
        refine ⟨t'', ?_, rest⟩
        simp only [coRun, coStep, e1, Except.bind]
        exact e2
      | erase pts =>
        obtain ⟨t', e1, b1, b2, b3, b4, b5, b6, _⟩ := coErase_ok (c := c) hc hpart hev hI (by omega) pts
        have hpos : (((content t').map pos : List (Point K d)) : Multiset (Point K d)) =
            specStep pos M (.erase pts) := by
          rw [Multiset.coe_eq_coe.2 ((b5 hS).map pos), eraseAll_positions, hM]
          rfl
        have hD' : DistinctPositions (specStep pos M (.erase pts)) := by
          rw [← hpos, distinct_iff]
          exact (DistinctCoords.sub _ _ (eraseAll_sublist pos pts _).subperm hDc).perm (b5 hS)
        obtain ⟨t'', e2, rest⟩ := ih true t' _ he' b1 (fun _ => b2) (b6 hDc) (b3.trans hm) hpos hD' hA
        refine ⟨t'', ?_, rest⟩
        simp only [coRun, coStep, e1, Except.bind]
        exact e2
      | eraseKeep pts =>
        obtain ⟨t', e1, I1, m1, s1, r1, x1, z1⟩ := bulkErase_c hpart hI pts
        obtain ⟨S1, c1⟩ := x1 hS
        have hpos : (((content t').map pos : List (Point K d)) : Multiset (Point K d)) =
            specStep pos M (.eraseKeep pts) := by
          rw [c1, eraseAll_positions, hM]
          rfl
        have hD' : DistinctPositions (specStep pos M (.eraseKeep pts)) := by
          rw [← hpos, distinct_iff]
          exact DistinctCoords.sub _ _ s1.subperm hDc
        have hcl : (clean && decide (M = 0 ∨ M - (pts : List (Point K d)) ≠ 0)) = true → Clean t' := by
          intro h
          rw [Bool.and_eq_true, decide_eq_true_iff] at h
          rcases h.2 with h0 | h0
          · rw [z1 (hzero.2 h0)]
            exact hC h.1
          · intro hz
            exfalso
            apply h0
            have : content t' = [] := List.eq_nil_of_length_eq_zero (I1.size.symm.trans hz)
            rw [this] at hpos
            exact hpos.symm
        obtain ⟨t'', e2, rest⟩ := ih _ t' _ he' I1 hcl S1 (m1.trans hm) hpos hD' hA
        refine ⟨t'', ?_, rest⟩
        simp only [coRun, coStep, e1, Except.bind]
        exact e2
      | eraseEach pts =>
        obtain ⟨t', e1, I1, m1, s1, r1, x1, z1⟩ := erasePoints_c pts hI
        obtain ⟨S1, c1⟩ := x1 hS
        have hpos : (((content t').map pos : List (Point K d)) : Multiset (Point K d)) =
            specStep pos M (.eraseEach pts) := by
          rw [c1, eraseAll_positions, hM]
          rfl
        have hD' : DistinctPositions (specStep pos M (.eraseEach pts)) := by
          rw [← hpos, distinct_iff]
          exact DistinctCoords.sub _ _ s1.subperm hDc
        have hcl : (clean && decide (M = 0 ∨ M - (pts : List (Point K d)) ≠ 0)) = true → Clean t' := by
          intro h
          rw [Bool.and_eq_true, decide_eq_true_iff] at h
          rcases h.2 with h0 | h0
          · rw [z1 (hzero.2 h0)]
            exact hC h.1
          · intro hz
            exfalso
            apply h0
            have : content t' = [] := List.eq_nil_of_length_eq_zero (I1.size.symm.trans hz)
            rw [this] at hpos
            exact hpos.symm
        obtain ⟨t'', e2, rest⟩ := ih _ t' _ he' I1 hcl S1 (m1.trans hm) hpos hD' hA
        refine ⟨t'', ?_, rest⟩
        simp only [coRun, coStep, e1, Except.bind]
        exact e2
  obtain ⟨hI0, hC0⟩ := coNew_inv pos log2size
  obtain ⟨t, e, hI, hS, hM⟩ := key ops true (coNew log2size) 0 he hI0 (fun _ => hC0)
    (fun h => absurd rfl h) rfl (by
      have : content (coNew log2size : Tree α K d) = [] := by simp [content, coNew]
      rw [this]
      rfl) (fun dim => by simp) hA
  have hmem : ∀ p, (∃ x ∈ content t, pos x = p) ↔ p ∈ spec pos 0 (ops.map Prod.snd) := by
    intro p
    rw [← hM, Multiset.mem_coe, List.mem_map]
  have hcard : t.curSize = Multiset.card (spec pos 0 (ops.map Prod.snd)) := by
    rw [hI.size, ← hM, Multiset.coe_card, List.length_map]
  refine ⟨t, e, hcard, fun p => ?_, fun q => ?_⟩
  · unfold contains
    by_cases h0 : t.curSize = 0
    · rw [if_pos h0]
      refine ⟨false, rfl, ?_⟩
      rw [hcard, Multiset.card_eq_zero] at h0
      simp [h0]
    · rw [if_neg h0]
      obtain ⟨g, hs, he⟩ := hI.good h0
      obtain ⟨r, h1, h2⟩ := containsAt_eq g (hS h0) p
      refine ⟨r, h1, h2.trans ?_⟩
      rw [hs, he, ← content_eq, hmem]
  · rw [hI.orth, ← hM, Multiset.filter_coe, Multiset.coe_eq_coe, List.filter_map]
    rfl

end

/-! ### Concrete cases -/

section Examples

/-- Leaves of one item, parallel splits from four items on. -/
def coCfg : CoCfg (ℚ × ℚ) ℚ 2 :=
  ⟨true, 1, 4, nthBySort ppos, fun dim L => L.insertionSort fun x y => ppos x dim ≤ ppos y dim, 0⟩

/-- Node array not set before, iterations of the parallel loops from the last to the first. -/
def coEnv : CoEnv ℚ 2 := ⟨fun _ => none, lastFirst⟩

theorem coCfg_ok : coCfg.OK ppos := ⟨nthBySort_ok ppos, sortBy_ok ppos, le_rfl, by show 1 < 4; omega⟩

theorem coEnv_ok : coEnv.OK := fun _ _ _ => List.reverse_perm _

/-- The hypotheses of the history theorem hold for a history with a refill. -/
example : ∃ t, coRun coCfg ppos (stablePart id) (coNew 2) ([.insert [(1, 4), (2, 3), (3, 2)],
      .erase [pt 1 4, pt 2 3, pt 3 2], .insert [(7, 8)]].map fun o => (coEnv, o)) = .ok t ∧ t.curSize = 1 := by
  obtain ⟨t, h1, h2, _⟩ := c71_history_partial coCfg_ok (stablePart_ok _) 2 (by omega)
    ([.insert [(1, 4), (2, 3), (3, 2)], .erase [pt 1 4, pt 2 3, pt 3 2], .insert [(7, 8)]].map fun o => (coEnv, o))
    (by
      intro o ho
      obtain ⟨x, _, rfl⟩ := List.mem_map.1 ho
      exact coEnv_ok) (by
    simp only [List.map_cons, List.map_nil]
    have hM : ∀ L : List (ℚ × ℚ), DistinctPositions ((L.map ppos : List (Point ℚ 2)) : Multiset (Point ℚ 2)) ↔
      DistinctCoords ppos L := fun L => distinct_iff L
    refine ⟨fun _ => rfl, by simp [specStep], ?_, ?_⟩
    · simp only [specStep, zero_add]
      rw [hM]
      intro dim
      fin_cases dim <;> decide
    · show Allowed _ _ _ _ _
      have h0 : specStep ppos (specStep ppos 0 (.insert [(1, 4), (2, 3), (3, 2)]))
          (.erase [pt 1 4, pt 2 3, pt 3 2]) = 0 := by
        simp [specStep, ppos]
      rw [Allowed, h0]
      refine ⟨fun _ => rfl, by simp [specStep], ?_, trivial⟩
      simp only [specStep, zero_add]
      rw [hM]
      intro dim
      fin_cases dim <;> decide)
  refine ⟨t, h1, h2.trans ?_⟩
  simp [spec, specStep, ppos]

/-- Two insertions, an erasure with a rebuild and one without on the model. -/
example : observe coPts ⟨pt 0 0, pt 9 9⟩ (coRun coCfg ppos (stablePart id) (coNew 3) ([.insert (coPts.take 4), .insert (coPts.drop 4),
      .erase [pt 1 4, pt 6 2], .eraseKeep [pt 3 7]].map fun o => (coEnv, o))) =
    some (4, [some false, some true, some false, some true, some true, some false, some true],
      [(2, 3), (4, 1), (5, 6), (7, 5)]) := by decide +kernel

/-- A reachable state with equal coordinates for the theorem about all states. -/
example : ∃ t, CoReach coCfg ppos (stablePart id) 2 t ∧ t.curSize = 2 := by
  obtain ⟨t, h1, h2, _, h3, _⟩ := coInsert_ok (c := coCfg) coCfg_ok coEnv_ok (t := coNew 2) (pts := [(5, 1), (5, 2)])
    (coNew_inv ppos 2).1 (fun _ => (coNew_inv ppos 2).2) (by simp [coNew]) (by simp [coNew])
  refine ⟨t, CoReach.insert coEnv _ CoReach.new coEnv_ok (fun _ => rfl) (by simp [coNew]) h1, ?_⟩
  rw [h2.size, h3.length_eq]
  simp [coNew, content]

/-- **C71 fails with equal coordinates.** A stored point is not found, and erasing it does nothing. -/
theorem c71_ties_false :
    observe [(5, 1), (5, 2)] ⟨pt 0 0, pt 9 9⟩
      (coRun coCfg ppos (stablePart id) (coNew 2) ([.insert [(5, 1), (5, 2)], .erase [pt 5 1]].map fun o => (coEnv, o))) =
      some (2, [some false, some true], [(5, 1), (5, 2)]) := by decide +kernel

/-- **C71 fails for `bulk_erase<false>`.** After erasing everything without a rebuild, an inserted point is counted but invisible to
every query. -/
theorem c71_refill_false :
    observe [(7, 8)] ⟨pt 0 0, pt 9 9⟩
      (coRun coCfg ppos (stablePart id) (coNew 2) ([.insert [(1, 4)], .eraseKeep [pt 1 4], .insert [(7, 8)]].map fun o => (coEnv, o))) =
      some (1, [some false], []) := by decide +kernel

/-- **C71 fails beyond the capacity.** In a release build nothing stops an insertion beyond the capacity; it writes outside the node
array. -/
theorem c71_overflow_false :
    (match coRun coCfg ppos (stablePart id) (coNew 1) ([.insert [(1, 4), (2, 3)], .insert [(3, 2)]].map fun o => (coEnv, o)) with
      | .error .ub => true | _ => false) = true := by decide +kernel

end Examples

end Verif.BatchKd
