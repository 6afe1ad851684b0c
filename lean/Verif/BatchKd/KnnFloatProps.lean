import Verif.BatchKd.KnnFloatLemmas
import Verif.LogTree.DualConcProps

set_option linter.unusedSectionVars false
set_option linter.unusedVariables false

/-!
Property C100: the `k` nearest neighbour searches of the batch kd-tree in rounded arithmetic.

Specification: `KSmallest cost k all row` says that `row` has `k` entries, that together with some `rest` it is
a rearrangement of `all`, and that no entry of `row` costs more than an entry of `rest`. The cost here is the
distance as the code computes it, `distFl fl`. The numbers stored in the tree are floating-point numbers
(`ReprAll`: rounding does not change them). `IsMonoRounding` and `IsRootRounding` are the assumptions on the
rounding; `isRootRounding_rne` says that rounding to nearest meets them.
-/

namespace Verif.BatchKd

open Verif.Float ForkJoin
open Verif.KnnBuf (KSmallest)
open Verif.KdTree (distFl)

variable {α β : Type} {d : ℕ} {u : ℝ} {fl : ℝ → ℝ} {pos : α → Point ℝ d} {c : Cfg α ℝ d} {d0 : Fin d}
  {part : Fin d → ℝ → List (Point ℝ d) → List (Point ℝ d)} {nth : ℕ → List (ℝ × α) → List (ℝ × α)}

/-- **C100, single-tree search.** For every reachable tree over points with floating-point coordinates, with either way of
updating the radius and of searching the sibling, every list of queries and every `k` between 1 and the number
of stored points: the search returns, and every row has `k` stored points of smallest computed distance to its
query. -/
theorem c100_knn (hf : IsRootRounding fl) (hc : SplitOK c) (hpart : PartItems part (id : Point ℝ d → Point ℝ d))
    (hn : NthPairs nth) {t : Tree α ℝ d} (h : Reach pos c d0 part t) (hrep : ReprAll fl pos (content t))
    (update recurse : Bool) {k : ℕ} (hk : 1 ≤ k) (hlen : k ≤ (content t).length) (qs : List (Point ℝ d)) :
    ∃ rows, knnFl nth fl pos update recurse t k qs = .ok rows ∧
      List.Forall₂ (fun q row => KSmallest (fun x => distFl fl q (pos x)) k (content t) row) qs rows :=
  mapM_forall₂ qs fun q _ => (h.inv hc hpart).q.knnSingleFl hn hf hrep update recurse hk hlen q

/-- **C100, cache-oblivious tree**, single-tree search. -/
theorem c100_coknn (hf : IsRootRounding fl) {cc : CoCfg α ℝ d} (hc : cc.OK pos)
    (hpart : PartItems part (id : Point ℝ d → Point ℝ d)) {log2size : ℕ} (hl : log2size ≤ 47)
    (hn : NthPairs nth) {t : Tree α ℝ d} (h : CoReach cc pos part log2size t) (hrep : ReprAll fl pos (content t))
    (update recurse : Bool) {k : ℕ} (hk : 1 ≤ k) (hlen : k ≤ (content t).length) (qs : List (Point ℝ d)) :
    ∃ rows, knnFl nth fl pos update recurse t k qs = .ok rows ∧
      List.Forall₂ (fun q row => KSmallest (fun x => distFl fl q (pos x)) k (content t) row) qs rows :=
  mapM_forall₂ qs fun q _ => (h.inv hc hpart hl).1.q.knnSingleFl hn hf hrep update recurse hk hlen q

/-- **C100, dual-tree search.** It needs no more than a rounding that keeps the order. -/
theorem c100_dual (hf : IsMonoRounding fl) {qp : β → Point ℝ d} {cq : Cfg β ℝ d} {dq : Fin d} {blank : β}
    {log2size : ℕ} {qs : List β} {Q : Tree β ℝ d} (hcq : SplitOK cq)
    (hcap : qs.length ≤ 2 ^ log2size) (hq : qs ≠ [])
    (hQ : buildPoints qp cq dq (emptyTree blank log2size) qs = .ok Q)
    (hc : SplitOK c) (hpart : PartItems part (id : Point ℝ d → Point ℝ d)) (hn : NthPairs nth)
    {t : Tree α ℝ d} (h : Reach pos c d0 part t) {k : ℕ} (hk : 1 ≤ k) (hlen : k ≤ (content t).length) :
    (content Q).Perm qs ∧ ∃ rows, dualKnnBase nth (distFl fl) pos (boxDistFl fl) qp Q t k = .ok rows ∧
      List.Forall₂ (fun q row => KSmallest (fun x => distFl fl (qp q) (pos x)) k (content t) row)
        (content Q) rows :=
  c24_dual_exact hcq hcap hq hQ hc hpart hn (boxDistFl_le hf) h hk hlen

/-- **C100, `dualKnn` from the caller's vector of queries to the rows**, under every interleaving of the
concurrent branches. -/
theorem c100_dual_interleaved (hf : IsMonoRounding fl) {qp : β → Point ℝ d} {cq : CoCfg β ℝ d} {eq : CoEnv ℝ d}
    (hcq : cq.OK qp) (he : eq.OK) {qs : List β} (hq : qs ≠ []) (hbig : qs.length ≤ 2 ^ 47) (hn : NthPairs nth)
    (thr : ℕ) (hc : SplitOK c) (hpart : PartItems part (id : Point ℝ d → Point ℝ d)) {t : Tree α ℝ d}
    (h : Reach pos c d0 part t) {k : ℕ} (hk : 1 ≤ k) (hlen : k ≤ (content t).length) :
    LogTree.AnswersAll (fun w => dualKnnC nth (distFl fl) pos cq qp eq thr w (boxDistFl fl) t k qs) (distFl fl)
      pos qp qs (content t) k :=
  LogTree.c85_tree_partial hcq he hq hbig hn (boxDistFl_le hf) thr hc hpart h hk hlen

/-- What a row is worth in terms of the true distances: a returned point is farther than a stored point that is
not returned by at most the errors of two computed distances. -/
theorem c100_true (hf : IsRounding u fl) (hu : u ≤ 1) {q : Point ℝ d} {L row : List α} {k : ℕ}
    (h : KSmallest (fun x => distFl fl q (pos x)) k L row) :
    row.length = k ∧ ∃ rest, (row ++ rest).Perm L ∧ ∀ x ∈ row, ∀ y ∈ rest,
      (1 - u) ^ (d + 5) * distSqr q (pos x) ≤ (1 + u) ^ (d + 5) * distSqr q (pos y) := by
  obtain ⟨h1, rest, h2, h3⟩ := h
  refine ⟨h1, rest, h2, fun x hx y hy => ?_⟩
  have a := (KdTree.distFl_bounds hf hu q (pos x)).1
  have b := (KdTree.distFl_bounds hf hu q (pos y)).2
  have c := h3 x hx y hy
  have d0 := KdTree.distFl_nonneg hf.toIsMonoRounding q (pos x)
  have e := pow_le_pow_left₀ d0 c 2
  linarith

/-! ### Concrete case -/

/-- Points of the plane. -/
def rpos (a : ℝ × ℝ) : Point ℝ 2 := fun i => if i = 0 then a.1 else a.2

/-- Object median, leaf size 1, sequential, over the reals. -/
noncomputable def rcfg : Cfg (ℝ × ℝ) ℝ 2 :=
  objectCfg 1 (fun _ => false) (nthBySort rpos)
    (fun dim L => L.insertionSort fun x y => rpos x dim ≤ rpos y dim) rpos

theorem rcfg_good : CfgGood rpos rcfg := objectCfg_good (nthBySort_ok _) (sortBy_ok _) le_rfl

/-- Non-vacuity: a tree built over three points and queried for two neighbours in double precision, by both
searches. -/
example : ∃ t : Tree (ℝ × ℝ) ℝ 2, Reach rpos rcfg 0 (stablePart id) t ∧ (content t).length = 3 ∧
    ReprAll (rne 53) rpos (content t) ∧
    (∃ rows, knnFl nthPairs (rne 53) rpos false false t 2 [rpos (1, 1)] = .ok rows ∧
      List.Forall₂ (fun q row => KSmallest (fun x => distFl (rne 53) q (rpos x)) 2 (content t) row)
        [rpos (1, 1)] rows) ∧
    ∃ Q : Tree (ℝ × ℝ) ℝ 2, buildPoints rpos rcfg 0 (emptyTree (0, 0) 0) [(1, 1)] = .ok Q ∧
      ∃ rows, dualKnnBase nthPairs (distFl (rne 53)) rpos (boxDistFl (rne 53)) rpos Q t 2 = .ok rows := by
  have hd : DistinctCoords rpos [((0 : ℝ), (3 : ℝ)), (2, 1), (5, 7)] := by
    intro dim
    fin_cases dim <;> simp [rpos]
  have hd1 : DistinctCoords rpos [((1 : ℝ), (1 : ℝ))] := by
    intro dim
    simp
  obtain ⟨t, ht⟩ := buildPoints_ok (d0 := (0 : Fin 2)) (t := (emptyTree (0, 0) 2 : Tree (ℝ × ℝ) ℝ 2)) rcfg_good.ok
    (DistinctCoords rpos) DistinctCoords.sub rcfg_good.sides (by simp [emptyTree]) hd
  obtain ⟨Q, hQ⟩ := buildPoints_ok (d0 := (0 : Fin 2)) (t := (emptyTree (0, 0) 0 : Tree (ℝ × ℝ) ℝ 2)) rcfg_good.ok
    (DistinctCoords rpos) DistinctCoords.sub rcfg_good.sides (by simp [emptyTree]) hd1
  have hr : Reach rpos rcfg 0 (stablePart id) t := by
    refine .insert [((0 : ℝ), (3 : ℝ)), (2, 1), (5, 7)] (.new (0, 0) 2) (fun _ => rfl) (by simp [emptyTree]) ?_
    unfold BatchKd.insert
    rw [if_neg (by simp), if_pos (by simp [emptyTree])]
    exact ht
  obtain ⟨-, hperm, -⟩ := buildPoints_inv rcfg_good.ok (by simp [emptyTree]) (by simp [emptyTree])
    (by simp [emptyTree]) (by simp [emptyTree]) ht
  have hlen : (content t).length = 3 := by rw [hperm.length_eq]; rfl
  have hi : ∀ n : ℕ, n < 2 ^ 53 → rne 53 (n : ℝ) = n := fun n hn => rne_repr (by norm_num) (repr_nat hn)
  have hrep : ReprAll (rne 53) rpos (content t) := by
    intro x hx i
    have hx := hperm.mem_iff.1 hx
    have h0 := hi 0 (by norm_num)
    have h1 := hi 1 (by norm_num)
    have h2 := hi 2 (by norm_num)
    have h3 := hi 3 (by norm_num)
    have h5 := hi 5 (by norm_num)
    have h7 := hi 7 (by norm_num)
    push_cast at h0 h1 h2 h3 h5 h7
    simp only [List.mem_cons, List.not_mem_nil, or_false] at hx
    rcases hx with rfl | rfl | rfl <;> fin_cases i <;> simp [rpos, *]
  refine ⟨t, hr, hlen, hrep, c100_knn (isRootRounding_rne (by norm_num)) rcfg_good.ok (stablePart_ok _) nthPairs_ok hr hrep
    false false (by norm_num) (by omega) _, Q, hQ, ?_⟩
  obtain ⟨-, rows, h, -⟩ := c100_dual (isRootRounding_rne (p := 53) (by norm_num)).toIsMonoRounding rcfg_good.ok
    (by simp) (by simp) hQ rcfg_good.ok (stablePart_ok _) nthPairs_ok hr (k := 2) (by norm_num) (by omega)
  exact ⟨rows, h⟩

end Verif.BatchKd
