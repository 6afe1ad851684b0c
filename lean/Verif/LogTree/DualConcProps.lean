import Verif.LogTree.DualConcLemmas
import Verif.BatchKd.CoDynProps

set_option linter.unusedSectionVars false
set_option linter.unusedVariables false

/-!
Property C85: the top-level functions `dualKnn` (`include/batchKdtree/shared/dual.h:34-79`), from the caller's vector of queries to the
rows, under every interleaving of the concurrent branches.

Specification: `KSmallest cost k L row` says that `row` has `k` of the items `L`, and no item left out is nearer than one of
them.
-/

namespace Verif.LogTree

open Verif BatchKd ForkJoin
open Verif.KnnBuf (KSmallest)

variable {α β K : Type} {d : ℕ}

section
variable [Field K] [LinearOrder K] [IsStrictOrderedRing K] {pos : α → Point K d} {qp : β → Point K d}
  {nth : ℕ → List (K × α) → List (K × α)} {dist : Point K d → Point K d → K} {boxDist : Box K d → Box K d → K}
  {cq : CoCfg β K d} {eq : CoEnv K d} {part : Fin d → K → List (Point K d) → List (Point K d)}

/-- What the caller may rely on: there are rows and a rearrangement `qs'` of the queries, the same for all schedules, such that every
schedule returns the rows and leaves `qs'` in the vector of the queries; and the row at place `i` has `k` of the items `L` nearest to
the query at place `i` of `qs'`. -/
def AnswersAll (call : (ℕ → List Bool) → Except Err (List (List α) × List β)) (dist : Point K d → Point K d → K) (pos : α → Point K d)
    (qp : β → Point K d) (qs : List β) (L : List α) (k : ℕ) : Prop :=
  ∃ rows qs', (∀ w, call w = .ok (rows, qs')) ∧ qs'.Perm qs ∧
    List.Forall₂ (fun q row => KSmallest (fun x => dist (qp q) (pos x)) k L row) qs' rows

theorem tree_answers (hcq : cq.OK qp) (he : eq.OK) {qs : List β} (hq : qs ≠ []) (hbig : qs.length ≤ 2 ^ 47) (hn : NthPairs nth)
    (hbd : ∀ a b p q, a.Mem p → b.Mem q → boxDist a b ≤ dist p q) (thr : ℕ) {t : Tree α K d} (hI : QInv pos t) {k : ℕ} (hk : 1 ≤ k)
    (hlen : k ≤ (content t).length) :
    AnswersAll (fun w => BatchKd.dualKnnC nth dist pos cq qp eq thr w boxDist t k qs) dist pos qp qs (content t) k := by
  obtain ⟨Q, h1, h2, h3, h4⟩ := queryTreeC_ok hcq he hq hbig
  obtain ⟨g1, g2⟩ := hI.root_live (by rw [hI.size]; omega)
  obtain ⟨rows, r1, r2⟩ := dualKnnBase_exact (dist := dist) h2.good h2.start h2.stop h2.content h2.len hn hbd g1 g2 hk hlen
  refine ⟨rows, Q.items, fun w => ?_, by rw [← h4]; exact h2.perm, by rw [← h4]; exact r2⟩
  unfold BatchKd.dualKnnC
  rw [h1]
  simp only [Except.bind]
  rw [dualKnnBaseC_eq h2.good h3 w r1]
  rfl

/-- **C85, a batch kd-tree.** For every reachable tree, at least one query, and every `k` between one and the number of stored points:
all schedules return the same rows; they are exact for the queries in the order in which the call leaves them. -/
theorem c85_tree_partial (hcq : cq.OK qp) (he : eq.OK) {qs : List β} (hq : qs ≠ []) (hbig : qs.length ≤ 2 ^ 47) (hn : NthPairs nth)
    (hbd : ∀ a b p q, a.Mem p → b.Mem q → boxDist a b ≤ dist p q) (thr : ℕ) {c : Cfg α K d} {d0 : Fin d} (hc : SplitOK c)
    (hpart : PartItems part (id : Point K d → Point K d)) {t : Tree α K d} (h : Reach pos c d0 part t) {k : ℕ} (hk : 1 ≤ k)
    (hlen : k ≤ (content t).length) :
    AnswersAll (fun w => BatchKd.dualKnnC nth dist pos cq qp eq thr w boxDist t k qs) dist pos qp qs (content t) k :=
  tree_answers hcq he hq hbig hn hbd thr (h.inv hc hpart).q hk hlen

/-- **C85, a cache-oblivious kd-tree.** -/
theorem c85_cotree_partial (hcq : cq.OK qp) (he : eq.OK) {qs : List β} (hq : qs ≠ []) (hbig : qs.length ≤ 2 ^ 47)
    (hn : NthPairs nth) (hbd : ∀ a b p q, a.Mem p → b.Mem q → boxDist a b ≤ dist p q) (thr : ℕ) {c : CoCfg α K d} (hc : c.OK pos)
    (hpart : PartItems part (id : Point K d → Point K d)) {log2size : ℕ} (hl : log2size ≤ 47) {t : Tree α K d}
    (h : CoReach c pos part log2size t) {k : ℕ} (hk : 1 ≤ k) (hlen : k ≤ (content t).length) :
    AnswersAll (fun w => BatchKd.dualKnnC nth dist pos cq qp eq thr w boxDist t k qs) dist pos qp qs (content t) k :=
  tree_answers hcq he hq hbig hn hbd thr (h.inv hc hpart hl).1.q hk hlen

/-- **C85, the log tree.** For every reachable state whose buffer is empty or has at least `k` points. -/
theorem c85_log_partial (hcq : cq.OK qp) (he : eq.OK) {qs : List β} (hq : qs ≠ []) (hbig : qs.length ≤ 2 ^ 47) {P : Params α K d}
    {R : List α → Prop} {blank : α} (hs : Splits P.cs R) (hb : Splits P.cb R) (hR0 : R [])
    (hpart : PartItems part (id : Point K d → Point K d)) (hn : NthPairs nth) (hdist : IsCoordDist dist)
    (hbd : ∀ a b p q, a.Mem p → b.Mem q → boxDist a b ≤ dist p q) (thrB thr : ℕ)
    {s : LT α K d} (h : LReach pos P part blank R s) {k : ℕ} (hk : 1 ≤ k)
    (hbuf : content s.buf = [] ∨ k ≤ (content s.buf).length)
    (hlen : k ≤ (content s.buf ++ (List.range P.numTrees).flatMap fun i => content (s.trees i)).length) :
    AnswersAll (fun w => dualKnnC pos nth dist cq qp eq thrB thr w boxDist P s k qs) dist pos qp qs
      (content s.buf ++ (List.range P.numTrees).flatMap fun i => content (s.trees i)) k := by
  obtain ⟨Q, h1, h2, h3, h4⟩ := queryTreeC_ok hcq he hq hbig
  obtain ⟨rows, r1, r2⟩ := dualKnn_exact hs hb hR0 hpart hn hdist hbd h h2 hk hbuf hlen
  refine ⟨rows, Q.items, fun w => ?_, by rw [← h4]; exact h2.perm, by rw [← h4]; exact r2⟩
  unfold dualKnnC
  rw [h1]
  simp only [Except.bind]
  rw [logDualKnnBaseC_eq h2.good h2.full h3 w r1]
  rfl

/-- **C85 fails without queries.** Instead of no rows the caller gets the conversion of minus infinity to an integer, on every tree. -/
theorem c85_empty_false (thrB thr : ℕ) (w : ℕ → List Bool) (t : Tree α K d) (P : Params α K d) (s : LT α K d) (k : ℕ) :
    BatchKd.dualKnnC nth dist pos cq qp eq thr w boxDist t k [] = .error .ub ∧
      dualKnnC pos nth dist cq qp eq thrB thr w boxDist P s k [] = .error .ub := ⟨rfl, rfl⟩

end

/-- **C85, Euclidean distance.** A batch kd-tree and the log tree, with the distances of the code. -/
theorem c85_euclidean_partial {pos : α → Point ℝ d} {qp : β → Point ℝ d} {nth : ℕ → List (ℝ × α) → List (ℝ × α)}
    {cq : CoCfg β ℝ d} {eq : CoEnv ℝ d} {part : Fin d → ℝ → List (Point ℝ d) → List (Point ℝ d)}
    (hcq : cq.OK qp) (he : eq.OK) {qs : List β} (hq : qs ≠ []) (hbig : qs.length ≤ 2 ^ 47)
    (hpart : PartItems part (id : Point ℝ d → Point ℝ d)) (hn : NthPairs nth) (thrB thr : ℕ) {k : ℕ} (hk : 1 ≤ k) :
    (∀ {c : Cfg α ℝ d} {d0 : Fin d} {t : Tree α ℝ d}, SplitOK c → Reach pos c d0 part t → k ≤ (content t).length →
      AnswersAll (fun w => BatchKd.dualKnnC nth eucl pos cq qp eq thr w boundingBoxDistance t k qs) eucl pos qp qs (content t) k) ∧
    ∀ {P : Params α ℝ d} {R : List α → Prop} {blank : α} {s : LT α ℝ d}, Splits P.cs R → Splits P.cb R → R [] →
      LReach pos P part blank R s → (content s.buf = [] ∨ k ≤ (content s.buf).length) →
      k ≤ (content s.buf ++ (List.range P.numTrees).flatMap fun i => content (s.trees i)).length →
      AnswersAll (fun w => dualKnnC pos nth eucl cq qp eq thrB thr w boundingBoxDistance P s k qs) eucl pos qp qs
        (content s.buf ++ (List.range P.numTrees).flatMap fun i => content (s.trees i)) k :=
  ⟨fun hc h hlen => c85_tree_partial hcq he hq hbig hn boundingBoxDistance_le thr hc hpart h hk hlen,
    fun hs hb hR0 h hbuf hlen => c85_log_partial hcq he hq hbig hs hb hR0 hpart hn eucl_isCoordDist boundingBoxDistance_le thrB thr h hk
      hbuf hlen⟩

/-! ### Concrete cases -/

/-- Three queries on a tree of four points after an erasure, forks from one query on: every schedule has this outcome. The tree, the
queries and the library functions meet the hypotheses of the theorem. -/
example : ∃ t : Tree (ℚ × ℚ) ℚ 2, Reach ppos cfgO 0 (stablePart id) t ∧ (content t).length = 4 ∧
    (∀ w, BatchKd.dualKnnC nthPairs cheb ppos coCfg ppos coEnv 1 w chebBox t 2 [(8, 8), (0, 0), (9, 2)] =
      .ok ([[(1, 4), (5, 5)], [(9, 1), (5, 5)], [(7, 8), (5, 5)]], [(0, 0), (9, 2), (8, 8)])) ∧
    AnswersAll (fun w => BatchKd.dualKnnC nthPairs cheb ppos coCfg ppos coEnv 1 w chebBox t 2 [(8, 8), (0, 0), (9, 2)]) cheb ppos ppos
      [(8, 8), (0, 0), (9, 2)] (content t) 2 := by
  cases h1 : BatchKd.insert ppos cfgO 0 (emptyTree (0, 0) 3 : Tree (ℚ × ℚ) ℚ 2) [(1, 4), (2, 3), (7, 8), (9, 1), (5, 5)] with
  | error e =>
    have : (match BatchKd.insert ppos cfgO 0 (emptyTree (0, 0) 3 : Tree (ℚ × ℚ) ℚ 2) [(1, 4), (2, 3), (7, 8), (9, 1), (5, 5)] with
      | .ok _ => true | .error _ => false) = true := by decide +kernel
    rw [h1] at this
    cases this
  | ok t1 =>
    cases h2 : bulkEraseRebuild ppos cfgO 0 (stablePart id) t1 [pt 2 3] with
    | error e =>
      have : ((BatchKd.insert ppos cfgO 0 (emptyTree (0, 0) 3 : Tree (ℚ × ℚ) ℚ 2) [(1, 4), (2, 3), (7, 8), (9, 1), (5, 5)]).bind
        fun t1 => (bulkEraseRebuild ppos cfgO 0 (stablePart id) t1 [pt 2 3]).map fun _ => true).toOption = some true := by
          decide +kernel
      rw [h1] at this
      simp only [Except.bind] at this
      rw [h2] at this
      cases this
    | ok t =>
      have hreach : Reach ppos cfgO 0 (stablePart id) t :=
        .erase _ (.insert _ (.new (0, 0) 3) (fun _ => rfl) (by decide) h1) h2
      have hlen : ((BatchKd.insert ppos cfgO 0 (emptyTree (0, 0) 3 : Tree (ℚ × ℚ) ℚ 2) [(1, 4), (2, 3), (7, 8), (9, 1), (5, 5)]).bind
        fun t1 => (bulkEraseRebuild ppos cfgO 0 (stablePart id) t1 [pt 2 3]).map fun t => (content t).length).toOption = some 4 := by
          decide +kernel
      have hrows : ((BatchKd.insert ppos cfgO 0 (emptyTree (0, 0) 3 : Tree (ℚ × ℚ) ℚ 2) [(1, 4), (2, 3), (7, 8), (9, 1), (5, 5)]).bind
        fun t1 => (bulkEraseRebuild ppos cfgO 0 (stablePart id) t1 [pt 2 3]).bind fun t =>
          (queryTreeC coCfg ppos coEnv [(8, 8), (0, 0), (9, 2)]).bind fun Q =>
            (dualKnnBase nthPairs cheb ppos chebBox ppos Q t 2).map fun rows => (rows, Q.items)).toOption =
          some ([[(1, 4), (5, 5)], [(9, 1), (5, 5)], [(7, 8), (5, 5)]], [(0, 0), (9, 2), (8, 8)]) := by
        decide +kernel
      obtain ⟨Q, q1, q2, q3, q4⟩ := queryTreeC_ok coCfg_ok coEnv_ok (qs := [(8, 8), (0, 0), (9, 2)]) (by simp) (by decide)
      simp only [h1, h2, q1, Except.bind, Except.map, Except.toOption, Option.some.injEq] at hlen hrows
      refine ⟨t, hreach, hlen, fun w => ?_, c85_tree_partial coCfg_ok coEnv_ok (by simp) (by decide) nthPairs_ok chebBox_le 1
        cfgO_good.ok (stablePart_ok _) hreach (by omega) (by omega)⟩
      cases h3 : dualKnnBase nthPairs cheb ppos chebBox ppos Q t 2 with
      | error e => rw [h3] at hrows; cases hrows
      | ok rows =>
        rw [h3] at hrows
        simp only [Option.some.injEq, Prod.mk.injEq] at hrows
        unfold BatchKd.dualKnnC
        rw [q1]
        simp only [Except.bind]
        rw [dualKnnBaseC_eq q2.good q3 w h3, hrows.1, hrows.2]
        rfl

theorem reach_inserts : ∀ (L : List (List (ℚ × ℚ))) {s s' : LT (ℚ × ℚ) ℚ 2}, LReach ppos P2 (stablePart id) (0, 0) (fun _ => True) s →
    runOps (L.map .inl) s = .ok s' → LReach ppos P2 (stablePart id) (0, 0) (fun _ => True) s'
  | [], s, s', h, he => by
    simp only [List.map_nil, runOps, Except.ok.injEq] at he
    exact he ▸ h
  | pts :: L, s, s', h, he => by
    simp only [List.map_cons, runOps] at he
    obtain ⟨s1, h1, h2⟩ := bind_ok' he
    exact reach_inserts L (LReach.insert (ord := id) pts h (fun _ _ => trivial) (fun _ => List.Perm.refl _) h1) h2

/-- A log tree with a point in the buffer and six in static trees: three queries, forks from one query on. -/
example : ∃ s : LT (ℚ × ℚ) ℚ 2, LReach ppos P2 (stablePart id) (0, 0) (fun _ => True) s ∧ content s.buf = [(7, 7)] ∧
    (∀ w, dualKnnC ppos nthPairs cheb coCfg ppos coEnv 1 1 w chebBox P2 s 1 [(8, 8), (0, 0), (4, 3)] =
      .ok ([[(1, 1)], [(3, 3)], [(7, 7)]], [(0, 0), (4, 3), (8, 8)])) ∧
    AnswersAll (fun w => dualKnnC ppos nthPairs cheb coCfg ppos coEnv 1 1 w chebBox P2 s 1 [(8, 8), (0, 0), (4, 3)]) cheb ppos ppos
      [(8, 8), (0, 0), (4, 3)] (content s.buf ++ (List.range P2.numTrees).flatMap fun i => content (s.trees i)) 1 := by
  have hbuf : ((runOps ([[(1, 1), (2, 2), (5, 5), (4, 4)], [(3, 3), (6, 6)], [(7, 7)]].map .inl) (newTree P2 (0, 0))).map
      fun s => content s.buf).toOption = some [(7, 7)] := by decide +kernel
  have hrows : ((runOps ([[(1, 1), (2, 2), (5, 5), (4, 4)], [(3, 3), (6, 6)], [(7, 7)]].map .inl) (newTree P2 (0, 0))).bind
      fun s => (queryTreeC coCfg ppos coEnv [(8, 8), (0, 0), (4, 3)]).bind fun Q =>
        (dualKnn ppos nthPairs cheb chebBox ppos P2 Q s 1).map fun rows => (rows, Q.items)).toOption =
      some ([[(1, 1)], [(3, 3)], [(7, 7)]], [(0, 0), (4, 3), (8, 8)]) := by decide +kernel
  cases h1 : runOps ([[(1, 1), (2, 2), (5, 5), (4, 4)], [(3, 3), (6, 6)], [(7, 7)]].map .inl) (newTree P2 (0, 0)) with
  | error e => rw [h1] at hbuf; cases hbuf
  | ok s =>
    have hr := reach_inserts _ .new h1
    obtain ⟨Q, q1, q2, q3, q4⟩ := queryTreeC_ok coCfg_ok coEnv_ok (qs := [(8, 8), (0, 0), (4, 3)]) (by simp) (by decide)
    simp only [h1, q1, Except.bind, Except.map, Except.toOption, Option.some.injEq] at hbuf hrows
    refine ⟨s, hr, hbuf, fun w => ?_, c85_log_partial coCfg_ok coEnv_ok (by simp) (by decide)
      (objectCfg_splits (par := fun _ => false) (nthBySort_ok ppos) (sortBy_ok ppos) (le_refl 1))
      (objectCfg_splits (par := fun _ => false) (nthBySort_ok ppos) (sortBy_ok ppos) (le_refl 1)) trivial (stablePart_ok _) nthPairs_ok
      cheb_isCoordDist chebBox_le 1 1 hr (le_refl 1) (.inr (by rw [hbuf]; simp)) (by rw [hbuf]; simp)⟩
    cases h3 : dualKnn ppos nthPairs cheb chebBox ppos P2 Q s 1 with
    | error e => rw [h3] at hrows; cases hrows
    | ok rows =>
      rw [h3] at hrows
      simp only [Option.some.injEq, Prod.mk.injEq] at hrows
      unfold dualKnnC
      rw [q1]
      simp only [Except.bind]
      rw [logDualKnnBaseC_eq q2.good q2.full q3 w h3, hrows.1, hrows.2]
      rfl

end Verif.LogTree
