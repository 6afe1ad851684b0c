import Verif.BatchKd.Props
import Verif.BatchKd.DualLemmas
import Mathlib.Tactic.Positivity

set_option linter.unusedSectionVars false
set_option linter.unusedVariables false

/-!
Property C24: `k` nearest neighbour queries of the batch kd-tree.

Specification: `KSmallest cost k all row` says that `row` has `k` entries, that together with some `rest` it is
a rearrangement of `all`, and that no entry of `row` costs more than an entry of `rest`.
-/

namespace Verif.BatchKd

open Verif.KnnBuf (KSmallest)
open Verif.KdTree (kSmallest_adequate)

variable {α K : Type} {d : ℕ}

section
variable [Field K] [LinearOrder K] [IsStrictOrderedRing K]

theorem mapM_forall₂ {β γ : Type} {f : β → Except Err γ} {P : β → γ → Prop} (l : List β)
    (h : ∀ x ∈ l, ∃ y, f x = .ok y ∧ P x y) : ∃ ys, l.mapM f = .ok ys ∧ List.Forall₂ P l ys := by
  induction l with
  | nil => exact ⟨[], rfl, .nil⟩
  | cons x l ih =>
    obtain ⟨y, h1, h2⟩ := h x (by simp)
    obtain ⟨ys, h3, h4⟩ := ih fun z hz => h z (by simp [hz])
    refine ⟨y :: ys, ?_, .cons h2 h4⟩
    rw [List.mapM_cons, h1, h3]
    rfl

variable {pos : α → Point K d} {c : Cfg α K d} {d0 : Fin d}
  {part : Fin d → K → List (Point K d) → List (Point K d)}
  {nth : ℕ → List (K × α) → List (K × α)} {dist : Point K d → Point K d → K}

theorem QInv.root_live {t : Tree α K d} (hI : QInv pos t) (h0 : t.curSize ≠ 0) :
    Good pos t.items t.present t.root ∧ live t.items t.present t.root.start t.root.stop = content t := by
  obtain ⟨g1, g2, g3⟩ := hI.good h0
  rw [content_eq, g2, g3]
  exact ⟨g1, rfl⟩

theorem Inv.root_live {t : Tree α K d} (hI : Inv pos t) (h0 : t.curSize ≠ 0) :
    Good pos t.items t.present t.root ∧ live t.items t.present t.root.start t.root.stop = content t :=
  hI.q.root_live h0

theorem keepK_cached {b b' : BBuf α K} {r : K × α} (h : b.keepK nth = .ok (b', r)) : b'.cached = true := by
  unfold BBuf.keepK at h
  split at h
  · simp at h
  · simp only at h
    split at h
    · simp at h
    · split at h
      · simp only [Except.ok.injEq, Prod.mk.injEq] at h
        rw [← h.1]
        split
        · assumption
        · rfl
      · simp at h

/-- C24 on a buffer that has seen the items `I` before (used with several trees). -/
theorem QInv.knnInto (hn : NthPairs nth) (hdist : IsCoordDist dist) {t : Tree α K d} (hI : QInv pos t)
    (h0 : t.curSize ≠ 0) (update recurse : Bool) {k : ℕ} (q : Point K d) (I : List α) (b : BBuf α K)
    (hb : BHolds k (fun x => dist q (pos x)) I b) (hlen : k ≤ t.curSize ∨ k ≤ I.length) :
    ∃ b' I', BatchKd.knnInto nth dist pos update recurse t q b = .ok b' ∧ b'.cached = true ∧
      BHolds k (fun x => dist q (pos x)) I' b' ∧ k ≤ I'.length ∧
      Ext k (fun x => dist q (pos x)) I I' (content t) ∧
      ∃ keep, b'.elems = keep.map (fun p => (dist q (pos p), p)) ∧
        KSmallest (fun x => dist q (pos x)) k I' keep := by
  obtain ⟨g1, g2⟩ := hI.root_live h0
  obtain ⟨b1, I1, h1, h2, h3⟩ := knnHelper_ok hn hdist update recurse t.root g1 I b hb
  rw [g2] at h3
  have hk : k ≤ I1.length := by
    rcases hlen with hlen | hlen
    swap
    · exact hlen.trans h3.length
    obtain ⟨S, R, e1, e2, e3⟩ := h3
    rw [hI.size] at hlen
    cases R with
    | nil =>
      have := e2.length_eq
      rw [List.append_nil] at this
      have h4 := e1.length_eq
      rw [List.length_append] at h4
      omega
    | cons y R => exact (e3 y (by simp)).trans List.countP_le_length
  obtain ⟨b2, r, h4, h5, -, keep, h6, h7⟩ := h2.keepK hn hk
  refine ⟨b2, I1, ?_, keepK_cached h4, h5, hk, h3, keep, h6, h7⟩
  unfold BatchKd.knnInto
  rw [h1]
  simp only [Except.bind]
  rw [h4]
  rfl

theorem QInv.knnSingle (hn : NthPairs nth) (hdist : IsCoordDist dist) {t : Tree α K d} (hI : QInv pos t)
    (update recurse : Bool) {k : ℕ} (hk : 1 ≤ k) (hlen : k ≤ (content t).length) (q : Point K d) :
    ∃ row, BatchKd.knnSingle nth dist pos update recurse t k q = .ok row ∧
      KSmallest (fun x => dist q (pos x)) k (content t) row := by
  rw [← hI.size] at hlen
  obtain ⟨b', I', h1, -, h2, h3, h4, keep, h5, h6⟩ := QInv.knnInto hn hdist hI (by omega) update recurse q []
    (BBuf.new k) (NBInv.new hk) (.inl hlen)
  refine ⟨keep, ?_, kSmallest_adequate h6 h4.adequate⟩
  unfold BatchKd.knnSingle
  rw [h1]
  simp only [Except.map, h5]
  rw [List.take_of_length_le (by rw [List.length_map, h6.1]), List.map_map]
  exact congrArg Except.ok (by simp [Function.comp_def])

/-- C24 on a buffer that has seen the items `I` before (used with several trees). -/
theorem knnInto_spec (hn : NthPairs nth) (hdist : IsCoordDist dist) {t : Tree α K d} (hI : Inv pos t)
    (h0 : t.curSize ≠ 0) (update recurse : Bool) {k : ℕ} (q : Point K d) (I : List α) (b : BBuf α K)
    (hb : BHolds k (fun x => dist q (pos x)) I b) (hlen : k ≤ t.curSize ∨ k ≤ I.length) :
    ∃ b' I', knnInto nth dist pos update recurse t q b = .ok b' ∧ b'.cached = true ∧
      BHolds k (fun x => dist q (pos x)) I' b' ∧ k ≤ I'.length ∧
      Ext k (fun x => dist q (pos x)) I I' (content t) ∧
      ∃ keep, b'.elems = keep.map (fun p => (dist q (pos p), p)) ∧
        KSmallest (fun x => dist q (pos x)) k I' keep :=
  hI.q.knnInto hn hdist h0 update recurse q I b hb hlen

theorem knnSingle_spec (hn : NthPairs nth) (hdist : IsCoordDist dist) {t : Tree α K d} (hI : Inv pos t)
    (update recurse : Bool) {k : ℕ} (hk : 1 ≤ k) (hlen : k ≤ (content t).length) (q : Point K d) :
    ∃ row, knnSingle nth dist pos update recurse t k q = .ok row ∧
      KSmallest (fun x => dist q (pos x)) k (content t) row :=
  hI.q.knnSingle hn hdist update recurse hk hlen q

/-- C24, single-tree search. For every reachable tree, with either way of updating the radius and of searching
the sibling, every list of queries and every `k` between 1 and the number of stored points: the search returns,
and every row has `k` stored points of smallest distance to its query. -/
theorem c24_knn_exact (hc : SplitOK c) (hpart : PartItems part (id : Point K d → Point K d))
    (hn : NthPairs nth) (hdist : IsCoordDist dist) {t : Tree α K d} (h : Reach pos c d0 part t)
    (update recurse : Bool) {k : ℕ} (hk : 1 ≤ k) (hlen : k ≤ (content t).length)
    (qs : List (Point K d)) :
    ∃ rows, knn nth dist pos update recurse t k qs = .ok rows ∧
      List.Forall₂ (fun q row => KSmallest (fun x => dist q (pos x)) k (content t) row) qs rows :=
  mapM_forall₂ qs fun q _ => knnSingle_spec hn hdist (h.inv hc hpart) update recurse hk hlen q

/-- With fewer than `k` stored points (but at least one) a query throws. -/
theorem c24_too_few_throws (hc : SplitOK c) (hpart : PartItems part (id : Point K d → Point K d))
    (hn : NthPairs nth) (hdist : IsCoordDist dist) {t : Tree α K d} (h : Reach pos c d0 part t)
    (update recurse : Bool) {k : ℕ} (h0 : t.curSize ≠ 0) (hlen : (content t).length < k) (q : Point K d) :
    knnSingle nth dist pos update recurse t k q = .error .throws := by
  have hI := h.inv hc hpart
  obtain ⟨g1, g2⟩ := hI.root_live h0
  obtain ⟨b1, I1, h1, h2, h3⟩ := knnHelper_ok hn hdist update recurse t.root g1 [] (BBuf.new k)
    (NBInv.new (by omega : 1 ≤ k))
  rw [g2] at h3
  have hl : I1.length < k := by
    obtain ⟨S, R, e1, e2, -⟩ := h3
    have a := e1.length_eq
    have b := e2.length_eq
    simp only [List.nil_append, List.length_append] at a b
    omega
  unfold knnSingle knnInto
  rw [h1]
  simp only [Except.bind]
  unfold BBuf.keepK
  rw [if_pos]
  · rfl
  · rw [h2.hk]
    by_contra hge
    have := (NBInv.len_iff h2).1 (by omega)
    rw [List.length_map] at this
    omega

/-! ### Dual-tree search -/

theorem live_all_nil {items : List α} {n a b : ℕ} (h : live items (List.replicate n true) a b = [])
    (hab : a ≤ b) (hi : b ≤ items.length) (hn : items.length ≤ n) : a = b := by
  have h1 := slots_length items (List.replicate n true) a b (by simp [hn]) hi
  have h2 : ∀ x ∈ slots items (List.replicate n true) a b, x.2 = true := by
    intro x hx
    unfold slots at hx
    have := List.mem_of_mem_take hx
    have := List.mem_of_mem_drop this
    exact List.eq_of_mem_replicate (List.of_mem_zip this).2
  unfold live at h
  rw [List.filter_eq_self.mpr h2, List.map_eq_nil_iff] at h
  rw [h] at h1
  simp at h1
  omega

theorem live_all {items : List α} {n a b : ℕ} (hn : items.length ≤ n) (i : ℕ) (h1 : a ≤ i) (h2 : i < b)
    (hi : i < items.length) : items[i] ∈ live items (List.replicate n true) a b := by
  unfold live
  rw [List.mem_map]
  refine ⟨(items[i], true), ?_, rfl⟩
  rw [List.mem_filter]
  refine ⟨?_, rfl⟩
  have : (slots items (List.replicate n true) a b)[i - a]? = some (items[i], true) := by
    rw [slots_getElem? _ _ _ _ _ (by omega), zip_getElem?]
    rw [show a + (i - a) = i by omega, List.getElem?_eq_getElem hi]
    simp [List.getElem?_replicate, lt_of_lt_of_le hi hn]
  exact List.mem_of_getElem? this

/-- A tree in which every slot is present is a proper query tree. -/
theorem qgood_of_good {β : Type} {qp : β → Point K d} {items : List β} {n : ℕ} (hn : items.length ≤ n)
    {t : BT K d} (h : Good qp items (List.replicate n true) t) :
    QGood (fun i => (items[i]?).map qp) (QT.ofBT t) ∧ (QT.ofBT t).start = t.start ∧
      (QT.ofBT t).stop = t.stop := by
  induction t with
  | nil => exact absurd h (by simp [Good])
  | leaf idx s e cnt b =>
    refine ⟨⟨h.1, ?_⟩, rfl, rfl⟩
    intro i h1 h2
    have hi : i < items.length := lt_of_lt_of_le h2 h.2.1
    exact ⟨qp items[i], by simp [List.getElem?_eq_getElem hi], h.2.2.2 _ (live_all hn i h1 h2 hi)⟩
  | node idx s e dim val b l r ihl ihr =>
    obtain ⟨g0, g1, g2, g3, g4, g5, g6, g7, g8, g9⟩ := h
    obtain ⟨a1, a2, a3⟩ := ihl g1
    obtain ⟨b1, b2, b3⟩ := ihr g2
    have hl := g1.le
    have hr := g2.le
    have e1 := live_all_nil g7 g3 (by omega) hn
    have e2 := live_all_nil g8 g4 (by omega) hn
    have e3 := live_all_nil g9 g5 (by omega) hn
    refine ⟨⟨?_, a1, b1, by omega, by omega, by omega⟩, rfl, rfl⟩
    intro i h1 h2
    have hi : i < items.length := by omega
    exact ⟨qp items[i], by simp [List.getElem?_eq_getElem hi], g0 _ (live_all hn i h1 h2 hi)⟩

theorem DDok.fresh {qpos : ℕ → Option (Point K d)} {k : ℕ} {I : ℕ → List α} (t : BT K d) :
    DDok qpos dist pos k I (QT.ofBT t) := by
  induction t with
  | nil => trivial
  | leaf => intro i p _ _ _ r hr; simp at hr
  | node _ _ _ _ _ _ l r ihl ihr => exact ⟨fun i p _ _ _ r hr => by simp at hr, ihl, ihr⟩

/-- The dual-tree search for any query tree whose items are the first `curSize` places. -/
theorem dualKnnBase_exact {β : Type} {qp : β → Point K d} {Q : Tree β K d}
    (s1 : QGood (fun i => (Q.items[i]?).map qp) (QT.ofBT Q.root)) (s2 : (QT.ofBT Q.root).start = 0)
    (s3 : (QT.ofBT Q.root).stop = Q.curSize) (hcontent : content Q = Q.items.take Q.curSize) (hil : Q.curSize ≤ Q.items.length)
    (hn : NthPairs nth) {boxDist : Box K d → Box K d → K} (hbd : ∀ a b p q, a.Mem p → b.Mem q → boxDist a b ≤ dist p q)
    {t : Tree α K d} (g1 : Good pos t.items t.present t.root)
    (g2 : live t.items t.present t.root.start t.root.stop = content t) {k : ℕ} (hk : 1 ≤ k) (hlen : k ≤ (content t).length) :
    ∃ rows, dualKnnBase nth dist pos boxDist qp Q t k = .ok rows ∧
      List.Forall₂ (fun q row => KSmallest (fun x => dist (qp q) (pos x)) k (content t) row) (content Q) rows := by
  obtain ⟨Q', bufs', I', e1, e2⟩ := dualHelper_ok (k := k) (dist := dist) hn hbd
    (Q.root.height + t.root.height + 1) (QT.ofBT Q.root) t.root (by rw [QT.height_ofBT]; omega) s1 g1
    (List.replicate Q.curSize (BBuf.new k)) (fun _ => [])
    (by rw [s3, List.length_replicate])
    (by
      intro i p hp hi
      rw [List.length_replicate] at hi
      exact ⟨BBuf.new k, by simp [List.getElem?_replicate, hi], NBInv.new hk⟩)
    (DDok.fresh _)
  have hl' := e2.len
  rw [List.length_replicate] at hl'
  have hcl : (content Q).length = Q.curSize := by rw [hcontent, List.length_take, min_eq_left hil]
  have hrow : ∀ i (hi : i < (content Q).length) (hi' : i < bufs'.length),
      ∃ row, dualRow nth k bufs'[i] = .ok row ∧
        KSmallest (fun x => dist (qp (content Q)[i]) (pos x)) k (content t) row := by
    intro i hi hi'
    have hqi : (fun i => (Q.items[i]?).map qp) i = some (qp (content Q)[i]) := by
      have hi2 : i < Q.items.length := by omega
      simp only [List.getElem?_eq_getElem hi2, Option.map_some, Option.some.injEq]
      congr 1
      simp only [hcontent, List.getElem_take]
    obtain ⟨b, hb1, hb2⟩ := e2.st i _ hqi hi'
    rw [List.getElem?_eq_getElem hi', Option.some.injEq] at hb1
    rw [hb1]
    have hext := e2.ext i _ (by rw [s2]; omega) (by rw [s3]; omega) hqi
    rw [g2] at hext
    have hkI : k ≤ (I' i).length := by
      obtain ⟨S, R, f1, f2, f3⟩ := hext
      cases R with
      | nil =>
        have := f2.length_eq
        rw [List.append_nil] at this
        have h4 := f1.length_eq
        rw [List.length_append] at h4
        omega
      | cons y R => exact (f3 y (by simp)).trans List.countP_le_length
    obtain ⟨b2, r, h4, h5, -, keep, h6, h7⟩ := hb2.keepK hn hkI
    refine ⟨keep, ?_, kSmallest_adequate h7 hext.adequate⟩
    unfold dualRow
    rw [h4]
    simp only [Except.map, h6]
    rw [List.take_of_length_le (by rw [List.length_map, h7.1]), List.map_map]
    exact congrArg Except.ok (by simp [Function.comp_def])
  have hz : ∃ rows, bufs'.mapM (dualRow nth k) = .ok rows ∧
      List.Forall₂ (fun q row => KSmallest (fun x => dist (qp q) (pos x)) k (content t) row)
        (content Q) rows := by
    have hlen2 : (content Q).length = bufs'.length := by omega
    generalize content Q = C at hrow hlen2
    clear e1 e2 hl' hcl hcontent
    induction C generalizing bufs' with
    | nil =>
      cases bufs' with
      | nil => exact ⟨[], rfl, .nil⟩
      | cons b bs => simp at hlen2
    | cons x C ih =>
      cases bufs' with
      | nil => simp at hlen2
      | cons b bs =>
        obtain ⟨row, a1, a2⟩ := hrow 0 (by simp) (by simp)
        obtain ⟨rows, b1, b2⟩ := ih bs (fun i hi hi' => by
          have := hrow (i + 1) (by simpa using hi) (by simpa using hi')
          simpa using this) (by simpa using hlen2)
        simp only [List.getElem_cons_zero] at a1 a2
        refine ⟨row :: rows, ?_, .cons a2 b2⟩
        rw [List.mapM_cons, a1, b1]
        rfl
  obtain ⟨rows, z1, z2⟩ := hz
  refine ⟨rows, ?_, z2⟩
  unfold dualKnnBase
  rw [e1]
  exact z1

/-- C24, dual-tree search. The query tree is built over the queries `qs` (any partition rule, any leaf size);
`boxDist` is a lower bound for the distances between points of two boxes. For every reachable tree and every `k`
between 1 and the number of stored points: the search returns, and every row has `k` stored points of smallest
distance to its query; rows are in the order of the items of the query tree, which are the queries
rearranged. -/
theorem c24_dual_exact {β : Type} {qp : β → Point K d} {cq : Cfg β K d} {dq : Fin d} {blank : β}
    {log2size : ℕ} {qs : List β} {Q : Tree β K d} (hcq : SplitOK cq)
    (hcap : qs.length ≤ 2 ^ log2size) (hq : qs ≠ [])
    (hQ : buildPoints qp cq dq (emptyTree blank log2size) qs = .ok Q)
    (hc : SplitOK c) (hpart : PartItems part (id : Point K d → Point K d))
    (hn : NthPairs nth) {boxDist : Box K d → Box K d → K}
    (hbd : ∀ a b p q, a.Mem p → b.Mem q → boxDist a b ≤ dist p q)
    {t : Tree α K d} (h : Reach pos c d0 part t) {k : ℕ} (hk : 1 ≤ k) (hlen : k ≤ (content t).length) :
    (content Q).Perm qs ∧ ∃ rows, dualKnnBase nth dist pos boxDist qp Q t k = .ok rows ∧
      List.Forall₂ (fun q row => KSmallest (fun x => dist (qp q) (pos x)) k (content t) row)
        (content Q) rows := by
  have hI := h.inv hc hpart
  obtain ⟨g1, g2⟩ := hI.root_live (by rw [hI.size]; omega)
  obtain ⟨q1, q2, q3, q4, q5, -⟩ := buildPoints_inv hcq (by simp [emptyTree]) (by simp [emptyTree])
    (by simp [emptyTree]; omega) (by simpa [emptyTree] using hcap) hQ
  have hcur : Q.curSize ≠ 0 := by
    rw [q3]
    simpa using hq
  obtain ⟨r1, r2, r3⟩ := q1.good hcur
  have hbs : Q.buildSize = Q.curSize := by
    unfold buildPoints at hQ
    split at hQ
    · simp at hQ
    · unfold buildAll at hQ
      cases hb : buildRec cq qp (stalePos qp (qs ++ (emptyTree blank log2size : Tree β K d).items.drop qs.length))
          (qs.length + 1) 0 0 dq ((qs ++ (emptyTree blank log2size : Tree β K d).items.drop qs.length).take
            qs.length) with
      | error e => simp only [hb, Except.map] at hQ; cases hQ
      | ok r =>
        simp only [hb, Except.map, Except.ok.injEq] at hQ
        rw [← hQ]
  have hpres : Q.present = List.replicate (2 ^ log2size) true := by rw [q5]; rfl
  have hmax : Q.maxSize = 2 ^ log2size := by rw [q4]; rfl
  rw [hpres] at r1
  have hil : Q.items.length = 2 ^ log2size := by rw [q1.lenI, hmax]
  obtain ⟨s1, s2, s3⟩ := qgood_of_good hil.le r1
  refine ⟨q2, ?_⟩
  have hcontent : content Q = Q.items.take Q.curSize := by
    unfold content
    rw [hpres, hbs, List.filter_eq_self.mpr]
    · rw [List.map_take, List.map_fst_zip (by simp [hil])]
    · intro x hx
      exact List.eq_of_mem_replicate (List.of_mem_zip (List.mem_of_mem_take hx)).2
  refine dualKnnBase_exact s1 (by rw [s2, r2]) (by rw [s3, r3, hbs]) hcontent ?_ hn hbd g1 g2 hk hlen
  have := q1.bs
  rw [q1.lenI]
  omega

end

/-- `include/batchKdtree/shared/box.h:76-93` (`BoundingBoxDistance`), over the reals. -/
noncomputable def boundingBoxDistance (a b : Box ℝ d) : ℝ :=
  Real.sqrt (∑ i, max (max 0 (a.lo i - b.hi i)) (b.lo i - a.hi i) *
    max (max 0 (a.lo i - b.hi i)) (b.lo i - a.hi i))

/-- The distance of two boxes is at most the distance of points in them. -/
theorem boundingBoxDistance_le (a b : Box ℝ d) (p q : Point ℝ d) (hp : a.Mem p) (hq : b.Mem q) :
    boundingBoxDistance a b ≤ eucl p q := by
  unfold boundingBoxDistance eucl
  apply Real.sqrt_le_sqrt
  unfold distSqr
  apply Finset.sum_le_sum
  intro i _
  have h1 := hp i
  have h2 := hq i
  have h0 : 0 ≤ max (max 0 (a.lo i - b.hi i)) (b.lo i - a.hi i) :=
    le_trans (le_max_left _ _) (le_max_left _ _)
  have h3 : max (max 0 (a.lo i - b.hi i)) (b.lo i - a.hi i) ≤ |p i - q i| := by
    refine max_le (max_le (abs_nonneg _) ?_) ?_
    · refine le_trans ?_ (le_abs_self _)
      linarith
    · rw [abs_sub_comm]
      refine le_trans ?_ (le_abs_self _)
      linarith
  calc _ ≤ |p i - q i| * |p i - q i| := mul_self_le_mul_self h0 h3
    _ = _ := abs_mul_abs_self _

/-- C24 for the Euclidean distance: the single-tree and the dual-tree search. -/
theorem c24_euclidean {pos : α → Point ℝ d} {c : Cfg α ℝ d} {d0 : Fin d}
    {part : Fin d → ℝ → List (Point ℝ d) → List (Point ℝ d)} {nth : ℕ → List (ℝ × α) → List (ℝ × α)}
    {β : Type} {qp : β → Point ℝ d} {cq : Cfg β ℝ d} {dq : Fin d} {blank : β} {log2size : ℕ}
    {qs : List β} {Q : Tree β ℝ d} (hcq : SplitOK cq) (hcap : qs.length ≤ 2 ^ log2size) (hq : qs ≠ [])
    (hQ : buildPoints qp cq dq (emptyTree blank log2size) qs = .ok Q)
    (hc : SplitOK c) (hpart : PartItems part (id : Point ℝ d → Point ℝ d)) (hn : NthPairs nth)
    {t : Tree α ℝ d} (h : Reach pos c d0 part t) {k : ℕ} (hk : 1 ≤ k) (hlen : k ≤ (content t).length)
    (update recurse : Bool) :
    (∃ rows, knn nth eucl pos update recurse t k (qs.map qp) = .ok rows ∧
      List.Forall₂ (fun q row => KSmallest (fun x => eucl q (pos x)) k (content t) row) (qs.map qp) rows) ∧
    (content Q).Perm qs ∧ ∃ rows, dualKnnBase nth eucl pos boundingBoxDistance qp Q t k = .ok rows ∧
      List.Forall₂ (fun q row => KSmallest (fun x => eucl (qp q) (pos x)) k (content t) row)
        (content Q) rows :=
  ⟨c24_knn_exact hc hpart hn eucl_isCoordDist h update recurse hk hlen _,
    c24_dual_exact hcq hcap hq hQ hc hpart hn boundingBoxDistance_le h hk hlen⟩

/-! ### Examples -/

/-- `std::nth_element` by sorting (for examples). -/
def nthPairs [LinearOrder K] (_ : ℕ) (l : List (K × α)) : List (K × α) :=
  l.insertionSort fun a b => a.1 ≤ b.1

/-- The contract of `std::nth_element` can be met. -/
theorem nthPairs_ok [LinearOrder K] : NthPairs (nthPairs : ℕ → List (K × α) → List (K × α)) := by
  intro m l hm
  have : Std.Total (fun a b : K × α => a.1 ≤ b.1) := ⟨fun a b => le_total a.1 b.1⟩
  have : IsTrans (K × α) (fun a b => a.1 ≤ b.1) := ⟨fun a b c => le_trans⟩
  have hp : (nthPairs m l).Perm l := List.perm_insertionSort _ l
  have hs : (nthPairs m l).Pairwise fun a b => a.1 ≤ b.1 := List.pairwise_insertionSort _ l
  refine ⟨hp, ?_⟩
  intro r hr
  have hlt : m < (nthPairs m l).length := by rw [hp.length_eq]; exact hm
  rw [List.getElem?_eq_getElem hlt, Option.some.injEq] at hr
  have hdrop : (nthPairs m l).drop m = r :: (nthPairs m l).drop (m + 1) := by
    rw [List.drop_eq_getElem_cons hlt, hr]
  rw [← List.take_append_drop m (nthPairs m l), List.pairwise_append] at hs
  obtain ⟨h1, h2, h3⟩ := hs
  constructor
  · intro x hx
    exact h3 x hx r (by rw [hdrop]; simp)
  · intro y hy
    rw [hdrop] at hy h2
    rw [List.mem_cons] at hy
    rcases hy with rfl | hy
    · exact le_refl _
    · exact (List.pairwise_cons.mp h2).1 y hy

/-- The largest coordinate difference: a distance that can be computed over the rationals (for examples). -/
def cheb (p q : Point ℚ 2) : ℚ := max |p 0 - q 0| |p 1 - q 1|

theorem cheb_isCoordDist : IsCoordDist cheb :=
  ⟨fun p q => by unfold cheb; rw [abs_sub_comm, abs_sub_comm (p 1)], fun p q i => by
    unfold cheb
    match i with
    | 0 => exact le_max_left _ _
    | 1 => exact le_max_right _ _⟩

/-- The largest gap between two boxes in one coordinate (for examples). -/
def chebBox (a b : Box ℚ 2) : ℚ :=
  max (max (max 0 (a.lo 0 - b.hi 0)) (b.lo 0 - a.hi 0)) (max (max 0 (a.lo 1 - b.hi 1)) (b.lo 1 - a.hi 1))

theorem chebBox_le (a b : Box ℚ 2) (p q : Point ℚ 2) (hp : a.Mem p) (hq : b.Mem q) :
    chebBox a b ≤ cheb p q := by
  have key : ∀ i : Fin 2, max (max 0 (a.lo i - b.hi i)) (b.lo i - a.hi i) ≤ |p i - q i| := by
    intro i
    have h1 := hp i
    have h2 := hq i
    refine max_le (max_le (abs_nonneg _) ?_) ?_
    · refine le_trans ?_ (le_abs_self _)
      linarith
    · rw [abs_sub_comm]
      refine le_trans ?_ (le_abs_self _)
      linarith
  exact max_le_max (key 0) (key 1)

/-- Non-vacuity: a tree from which a point has been erased, queried for two neighbours with all variants of the
search, and by the dual search. -/
example : (match run ppos cfgO 0 (stablePart id) (emptyTree (0, 0) 3 : Tree (ℚ × ℚ) ℚ 2)
      [.insert [(1, 4), (2, 3), (7, 8), (9, 1), (5, 5)], .erase [pt 2 3]] with
    | .ok t => [knn nthPairs cheb ppos false false t 2 [pt 0 0, pt 8 8],
        knn nthPairs cheb ppos true true t 2 [pt 0 0, pt 8 8],
        (buildPoints ppos cfgO 0 (emptyTree (0, 0) 1 : Tree (ℚ × ℚ) ℚ 2) [(8, 8), (0, 0)]).bind fun Q =>
          dualKnnBase nthPairs cheb ppos chebBox ppos Q t 2]
    | .error _ => []) =
    [.ok [[(1, 4), (5, 5)], [(7, 8), (5, 5)]], .ok [[(1, 4), (5, 5)], [(7, 8), (5, 5)]],
      .ok [[(1, 4), (5, 5)], [(7, 8), (5, 5)]]] := by decide +kernel

end Verif.BatchKd
