import Verif.LogTree.DualLemmas

set_option linter.unusedSectionVars false
set_option linter.unusedVariables false

/-!
Property C67: the dual-tree search for nearest neighbours over the log-structured tree.

Specification: `KSmallest cost k L row` says that `row` has `k` of the items `L`, and no item left out is nearer than one of
them. The items are those of the buffer and of all static trees.
-/

namespace Verif.LogTree

open Verif BatchKd
open Verif.KnnBuf (KSmallest)
open Verif.KdTree (kSmallest_adequate Adequate kSmallest_map)

variable {α K : Type} {d : ℕ}

section
variable [Field K] [LinearOrder K] [IsStrictOrderedRing K] {pos : α → Point K d}
  {nth : ℕ → List (K × α) → List (K × α)} {dist : Point K d → Point K d → K} {k : ℕ}

/-! ### The query tree -/

theorem buildRec_full {β : Type} {qp : β → Point K d} {stale : Point K d} {c : Cfg β K d} {P : List β → Prop} (hs : Splits c P) :
    ∀ {fuel idx off : ℕ} {dim : Fin d} {L : List β} {t : BT K d} {out : List β},
      buildRec c qp stale fuel idx off dim L = .ok (t, out) → L ≠ [] → P L → QFull (QT.ofBT t) := by
  intro fuel
  induction fuel with
  | zero => intro idx off dim L t out h; cases h
  | succ fuel ih =>
    intro idx off dim L t out h hne hP
    have hpos : 0 < L.length := List.length_pos_of_ne_nil hne
    by_cases hn : L.length ≤ c.leafSize
    · obtain ⟨_, rfl⟩ := buildRec_leaf hn h
      simp only [QT.ofBT, QFull]
      omega
    · obtain ⟨h0, l, o1, r, o2, h1, h2, _, rfl⟩ := buildRec_node (not_le.1 hn) h
      obtain ⟨m0, m1⟩ := hs.sides dim L hP (not_le.1 hn)
      have hperm : (c.split dim L).1.Perm L := (hs.ok.perm dim L (not_le.1 hn))
      have hlen := hperm.length_eq
      refine ⟨ih h1 ?_ (hs.sub L _ ((List.take_sublist _ _).subperm.trans hperm.subperm) hP),
        ih h2 ?_ (hs.sub L _ ((List.drop_sublist _ _).subperm.trans hperm.subperm) hP)⟩
      · intro hc
        have := congrArg List.length hc
        rw [List.length_take] at this
        simp only [List.length_nil] at this
        omega
      · intro hc
        have := congrArg List.length hc
        rw [List.length_drop] at this
        simp only [List.length_nil] at this
        omega

/-- What the search uses of the query tree: its items are the queries rearranged. -/
structure QueryTree {β : Type} (qp : β → Point K d) (qs : List β) (Q : Tree β K d) : Prop where
  perm : (content Q).Perm qs
  content : content Q = Q.items.take Q.curSize
  len : Q.curSize ≤ Q.items.length
  pos : 0 < Q.curSize
  good : QGood (fun i => (Q.items[i]?).map qp) (QT.ofBT Q.root)
  full : QFull (QT.ofBT Q.root)
  start : (QT.ofBT Q.root).start = 0
  stop : (QT.ofBT Q.root).stop = Q.curSize

theorem queryTree_of_build {β : Type} {qp : β → Point K d} {cq : Cfg β K d} {dq : Fin d} {blank : β} {Pq : List β → Prop}
    {log2size : ℕ} {qs : List β} {Q : Tree β K d} (hcq : Splits cq Pq) (hPq : Pq qs)
    (hcap : qs.length ≤ 2 ^ log2size) (hq : qs ≠ [])
    (hQ : buildPoints qp cq dq (emptyTree blank log2size) qs = .ok Q) : QueryTree qp qs Q := by
  obtain ⟨q1, q2, q3, q4, q5, -⟩ := buildPoints_inv hcq.ok (by simp [emptyTree]) (by simp [emptyTree])
    (by simp [emptyTree]; omega) (by simpa [emptyTree] using hcap) hQ
  have hcur : Q.curSize ≠ 0 := by
    rw [q3]
    simpa using hq
  obtain ⟨r1, r2, r3⟩ := q1.good hcur
  have hbs : Q.buildSize = Q.curSize ∧ QFull (QT.ofBT Q.root) := by
    unfold buildPoints at hQ
    split at hQ
    · simp at hQ
    · unfold buildAll at hQ
      cases hb : buildRec cq qp (stalePos qp (qs ++ (emptyTree blank log2size : Tree β K d).items.drop qs.length))
          (qs.length + 1) 0 0 dq ((qs ++ (emptyTree blank log2size : Tree β K d).items.drop qs.length).take
            qs.length) with
      | error e => simp only [hb, Except.map] at hQ; cases hQ
      | ok r =>
        simp only [hb, Except.map, Except.ok.injEq] at hQ
        rw [← hQ]
        refine ⟨rfl, ?_⟩
        have htk : (qs ++ (emptyTree blank log2size : Tree β K d).items.drop qs.length).take qs.length = qs := by
          rw [List.take_left']
          rfl
        rw [htk] at hb
        exact buildRec_full hcq (out := r.2) hb hq hPq
  have hpres : Q.present = List.replicate (2 ^ log2size) true := by rw [q5]; rfl
  have hmax : Q.maxSize = 2 ^ log2size := by rw [q4]; rfl
  rw [hpres] at r1
  have hil : Q.items.length = 2 ^ log2size := by rw [q1.lenI, hmax]
  obtain ⟨s1, s2, s3⟩ := qgood_of_good hil.le r1
  have hcontent : BatchKd.content Q = Q.items.take Q.curSize := by
    unfold BatchKd.content
    rw [hpres, hbs.1, List.filter_eq_self.mpr]
    · rw [List.map_take, List.map_fst_zip (by simp [hil])]
    · intro x hx
      exact List.eq_of_mem_replicate (List.of_mem_zip (List.mem_of_mem_take hx)).2
  refine ⟨q2, hcontent, ?_, by omega, s1, hbs.2, by rw [s2, r2], by rw [s3, r3, hbs.1]⟩
  have := q1.bs
  rw [q1.lenI]
  omega

/-! ### One tree after the other -/

/-- State of the search: query tree and buffers, after the items `I i` have been offered to query `i`. -/
structure DSt {β : Type} (qp : β → Point K d) (Q : Tree β K d) (dist : Point K d → Point K d → K) (pos : α → Point K d)
    (k : ℕ) (I : ℕ → List α) (st : QT K d × List (BBuf α K)) : Prop where
  shape : st.1.erase = (QT.ofBT Q.root).erase
  len : st.2.length = Q.curSize
  bufs : BufsOk (fun i => (Q.items[i]?).map qp) dist pos k I st.2
  tidy : ∀ b ∈ st.2, Tidy b
  dd : DDok (fun i => (Q.items[i]?).map qp) dist pos k I st.1

variable {β : Type} {qp : β → Point K d} {qs : List β} {Q : Tree β K d}

theorem DSt.good {I : ℕ → List α} {st : QT K d × List (BBuf α K)} (hQ : QueryTree qp qs Q) (h : DSt qp Q dist pos k I st) :
    QGood (fun i => (Q.items[i]?).map qp) st.1 := by
  rw [← QGood.of_erase, h.shape, QGood.of_erase]
  exact hQ.good

theorem QFull.of_erase {Q : QT K d} : QFull Q.erase ↔ QFull Q := by
  induction Q with
  | nil => rfl
  | leaf => rfl
  | node s e b x l r ihl ihr => simp only [QT.erase, QFull, ihl, ihr]

theorem DSt.full {I : ℕ → List α} {st : QT K d × List (BBuf α K)} (hQ : QueryTree qp qs Q) (h : DSt qp Q dist pos k I st) :
    QFull st.1 := by
  rw [← QFull.of_erase, h.shape, QFull.of_erase]
  exact hQ.full

theorem DSt.start {I : ℕ → List α} {st : QT K d × List (BBuf α K)} (hQ : QueryTree qp qs Q) (h : DSt qp Q dist pos k I st) :
    st.1.start = 0 := by
  rw [← QT.start_erase, h.shape, QT.start_erase]
  exact hQ.start

theorem DSt.stop {I : ℕ → List α} {st : QT K d × List (BBuf α K)} (hQ : QueryTree qp qs Q) (h : DSt qp Q dist pos k I st) :
    st.1.stop = Q.curSize := by
  rw [← QT.stop_erase, h.shape, QT.stop_erase]
  exact hQ.stop

theorem DSt.height {I : ℕ → List α} {st : QT K d × List (BBuf α K)} (h : DSt qp Q dist pos k I st) :
    st.1.height = Q.root.height := by
  rw [← QT.height_erase, h.shape, QT.height_erase, QT.height_ofBT]

/-- A static tree. -/
theorem dualStep_static (hn : NthPairs nth) {boxDist : Box K d → Box K d → K}
    (hbd : ∀ a b p q, a.Mem p → b.Mem q → boxDist a b ≤ dist p q) (hQ : QueryTree qp qs Q) {t : Tree α K d}
    (hI : Inv pos t) (h0 : t.curSize ≠ 0) {I : ℕ → List α} {st : QT K d × List (BBuf α K)} (h : DSt qp Q dist pos k I st) :
    ∃ st' I', dualStep pos nth dist boxDist qp Q (false, t) st = .ok st' ∧ DSt qp Q dist pos k I' st' ∧
      ∀ i p, i < Q.curSize → (Q.items[i]?).map qp = some p →
        Ext k (fun x => dist p (pos x)) (I i) (I' i) (BatchKd.content t) := by
  obtain ⟨g1, g2⟩ := hI.root_live h0
  obtain ⟨Q', bufs', I', e1, e2⟩ := dualHelper_ok (k := k) (dist := dist) hn hbd
    (Q.root.height + t.root.height + 1) st.1 t.root (by rw [h.height]; omega) (h.good hQ) g1
    st.2 I (by rw [h.stop hQ, h.len]) h.bufs h.dd
  refine ⟨(Q', bufs'), I', ?_, ⟨e2.shape.trans h.shape, e2.len.trans h.len, e2.st, ?_, e2.dd⟩, ?_⟩
  · unfold dualStep
    rw [if_neg (by simp)]
    exact e1
  · exact dualHelper_tidy e1 h.tidy
  · intro i p hi hp
    have := e2.ext i p (by rw [h.start hQ]; omega) (by rw [h.stop hQ]; exact hi) hp
    rwa [g2] at this

theorem knnInBufs_ok (hn : NthPairs nth) (hdist : IsCoordDist dist) {t : Tree α K d} (hI : Inv pos t) (h0 : t.curSize ≠ 0) :
    ∀ (qs : List β) (bufs : List (BBuf α K)) (I : ℕ → List α), qs.length = bufs.length →
      (∀ i q b, qs[i]? = some q → bufs[i]? = some b → BHolds k (fun x => dist (qp q) (pos x)) (I i) b ∧
        (k ≤ t.curSize ∨ k ≤ (I i).length)) →
      ∃ (bufs' : List (BBuf α K)) (I' : ℕ → List α), knnInBufs pos nth dist qp t qs bufs = .ok bufs' ∧ bufs'.length = bufs.length ∧
        (∀ i q b, qs[i]? = some q → bufs'[i]? = some b → BHolds k (fun x => dist (qp q) (pos x)) (I' i) b ∧
          b.cached = true ∧ k ≤ (I' i).length ∧ Ext k (fun x => dist (qp q) (pos x)) (I i) (I' i) (BatchKd.content t))
  | [], [], I, _, _ => ⟨[], I, rfl, rfl, fun i q b h => by simp at h⟩
  | q :: qs, b :: bufs, I, hl, h => by
    obtain ⟨a1, a2⟩ := h 0 q b rfl rfl
    obtain ⟨b', I1, h1, h2, h3, h4, h5, -⟩ := knnInto_spec hn hdist hI h0 false false (qp q) (I 0) b a1 a2
    obtain ⟨bufs', I2, g1, g2, g3⟩ := knnInBufs_ok hn hdist hI h0 qs bufs (fun i => I (i + 1)) (by simpa using hl)
      fun i q' b'' hq hb => h (i + 1) q' b'' (by simpa using hq) (by simpa using hb)
    refine ⟨b' :: bufs', fun i => match i with | 0 => I1 | i + 1 => I2 i, ?_, by simp [g2], ?_⟩
    · rw [knnInBufs, h1]
      simp only [Except.bind]
      rw [g1]
      rfl
    · intro i q' b'' hq hb
      cases i with
      | zero =>
        simp only [List.getElem?_cons_zero, Option.some.injEq] at hq hb
        subst hq
        subst hb
        exact ⟨h3, h2, h4, h5⟩
      | succ i => exact g3 i q' b'' (by simpa using hq) (by simpa using hb)

theorem knnInBufs_throws (hn : NthPairs nth) (hdist : IsCoordDist dist) {t : Tree α K d} (hI : Inv pos t) (h0 : t.curSize ≠ 0)
    (hlt : t.curSize < k) (q : β) (qs : List β) (bufs : List (BBuf α K)) :
    knnInBufs pos nth dist qp t (q :: qs) (BBuf.new k :: bufs) = .error .throws := by
  have := knnTrees_throws (pos := pos) (ts := []) hn hdist false false (qp q) hI h0 hlt
  have e : (⟨k, if false = true then ([] : List (K × α)).take k else [], true⟩ : BBuf α K) = BBuf.new k := rfl
  rw [knnTrees, knnStep, e] at this
  cases hc : knnInto nth dist pos false false t (qp q) (BBuf.new k) with
  | ok b => rw [hc] at this; simp [Except.map, Except.bind, knnTrees] at this
  | error err =>
    rw [hc] at this
    simp only [Except.map, Except.bind, Except.error.injEq] at this
    rw [knnInBufs, hc, this]
    rfl

/-- The buffer, with at least `k` points. -/
theorem dualStep_buffer (hn : NthPairs nth) (hdist : IsCoordDist dist) {boxDist : Box K d → Box K d → K}
    (hQ : QueryTree qp qs Q) {t : Tree α K d} (hI : Inv pos t) (h0 : t.curSize ≠ 0) (hk : k ≤ t.curSize)
    {I : ℕ → List α} {st : QT K d × List (BBuf α K)} (h : DSt qp Q dist pos k I st) :
    ∃ st' I', dualStep pos nth dist boxDist qp Q (true, t) st = .ok st' ∧ DSt qp Q dist pos k I' st' ∧
      ∀ i p, i < Q.curSize → (Q.items[i]?).map qp = some p →
        Ext k (fun x => dist p (pos x)) (I i) (I' i) (BatchKd.content t) := by
  have hlt : (Q.items.take Q.curSize).length = Q.curSize := by
    rw [List.length_take, min_eq_left hQ.len]
  obtain ⟨bufs1, I1, g1, g2, g3⟩ := knnInBufs_ok (k := k) (qp := qp) hn hdist hI h0 (Q.items.take Q.curSize) st.2 I
    (by rw [hlt, h.len]) (by
      intro i q b hq hb
      have hi : i < Q.curSize := by
        have := (List.getElem?_eq_some_iff.1 hb).1
        have := h.len
        omega
      rw [List.getElem?_take_of_lt hi] at hq
      obtain ⟨b', hb1, hb2⟩ := h.bufs i (qp q) (by simp [hq]) (by rw [h.len]; exact hi)
      rw [hb, Option.some.injEq] at hb1
      rw [hb1]
      exact ⟨hb2, .inl hk⟩)
  have hitem : ∀ i p, i < Q.curSize → (Q.items[i]?).map qp = some p →
      ∃ q, (Q.items.take Q.curSize)[i]? = some q ∧ qp q = p := by
    intro i p hi hp
    rw [List.getElem?_take_of_lt hi]
    exact Option.map_eq_some_iff.1 hp
  have hbufs : BufsOk (fun i => (Q.items[i]?).map qp) dist pos k I1 bufs1 := by
    intro i p hp hi
    rw [g2, h.len] at hi
    obtain ⟨q, hq1, rfl⟩ := hitem i p hi hp
    have hi' : i < bufs1.length := by rw [g2, h.len]; exact hi
    exact ⟨bufs1[i], List.getElem?_eq_getElem hi', (g3 i q _ hq1 (List.getElem?_eq_getElem hi')).1⟩
  have hall : ∀ i (hi : i < bufs1.length), ∃ q, (Q.items.take Q.curSize)[i]? = some q := by
    intro i hi
    have : i < (Q.items.take Q.curSize).length := by rw [hlt, ← h.len, ← g2]; exact hi
    exact ⟨_, List.getElem?_eq_getElem this⟩
  have htidy : ∀ b ∈ bufs1, Tidy b := by
    intro b hb
    obtain ⟨i, hi, rfl⟩ := List.mem_iff_getElem.1 hb
    obtain ⟨q, hq⟩ := hall i hi
    exact fun _ => (g3 i q _ hq (List.getElem?_eq_getElem hi)).2.1
  obtain ⟨Q', bufs', e1, e2, e3, e4, e5, e6⟩ := updateDual_ok (k := k) (dist := dist) (pos := pos)
    (qpos := fun i => (Q.items[i]?).map qp) hn I1 st.1 bufs1 (h.good hQ) (h.full hQ)
    (by rw [h.stop hQ, g2, h.len]) (by
      intro j _ hj
      rw [h.stop hQ, ← h.len, ← g2] at hj
      obtain ⟨q, hq⟩ := hall j hj
      exact (g3 j q _ hq (List.getElem?_eq_getElem hj)).2.2.1) hbufs htidy
  refine ⟨(Q', bufs'), I1, ?_, ⟨e2.trans h.shape, e3.trans (g2.trans h.len), e4, e5, e6⟩, ?_⟩
  · unfold dualStep
    rw [if_pos rfl]
    simp only
    rw [g1]
    exact e1
  · intro i p hi hp
    obtain ⟨q, hq1, rfl⟩ := hitem i p hi hp
    have hi' : i < bufs1.length := by rw [g2, h.len]; exact hi
    exact (g3 i q _ hq1 (List.getElem?_eq_getElem hi')).2.2.2

theorem dualTrees_ok (hn : NthPairs nth) (hdist : IsCoordDist dist) {boxDist : Box K d → Box K d → K}
    (hbd : ∀ a b p q, a.Mem p → b.Mem q → boxDist a b ≤ dist p q) (hQ : QueryTree qp qs Q) :
    ∀ (ts : List (Bool × Tree α K d)) (I : ℕ → List α) (st : QT K d × List (BBuf α K)),
      (∀ t ∈ ts, Inv pos t.2 ∧ t.2.curSize ≠ 0 ∧ (t.1 = true → k ≤ t.2.curSize)) → DSt qp Q dist pos k I st →
      ∃ st' I', dualTrees pos nth dist boxDist qp Q ts st = .ok st' ∧ DSt qp Q dist pos k I' st' ∧
        ∀ i p, i < Q.curSize → (Q.items[i]?).map qp = some p →
          Ext k (fun x => dist p (pos x)) (I i) (I' i) (treeItems (ts.map Prod.snd))
  | [], I, st, _, h => ⟨st, I, rfl, h, fun i p _ _ => Ext.none (by simp [treeItems])⟩
  | (f, t) :: ts, I, st, ht, h => by
    obtain ⟨a1, a2, a3⟩ := ht (f, t) (by simp)
    have hstep : ∃ st' I', dualStep pos nth dist boxDist qp Q (f, t) st = .ok st' ∧ DSt qp Q dist pos k I' st' ∧
        ∀ i p, i < Q.curSize → (Q.items[i]?).map qp = some p →
          Ext k (fun x => dist p (pos x)) (I i) (I' i) (BatchKd.content t) := by
      cases f with
      | true => exact dualStep_buffer hn hdist hQ a1 a2 (a3 rfl) h
      | false => exact dualStep_static hn hbd hQ a1 a2 h
    obtain ⟨st1, I1, h1, h2, h3⟩ := hstep
    obtain ⟨st2, I2, h4, h5, h6⟩ := dualTrees_ok hn hdist hbd hQ ts I1 st1 (fun t' h' => ht t' (by simp [h'])) h2
    refine ⟨st2, I2, ?_, h5, fun i p hi hp => ?_⟩
    · rw [dualTrees, h1]
      exact h4
    · have := (h3 i p hi hp).trans (h6 i p hi hp)
      rwa [show BatchKd.content t ++ treeItems (ts.map Prod.snd) = treeItems (((f, t) :: ts).map Prod.snd) from by
        simp [treeItems]] at this

theorem taggedTrees_snd {P : Params α K d} {s : LT α K d} : (taggedTrees P s).map Prod.snd = fullTrees P s := by
  unfold taggedTrees fullTrees
  rw [List.map_append, List.map_map]
  congr 1
  split <;> rfl

theorem start_dst (hQ : QueryTree qp qs Q) (hk : 1 ≤ k) :
    DSt qp Q dist pos k (fun _ => ([] : List α)) (QT.ofBT Q.root, List.replicate Q.curSize (BBuf.new k)) := by
  refine ⟨rfl, by simp, ?_, ?_, DDok.fresh _⟩
  · intro i p hp hi
    rw [List.length_replicate] at hi
    exact ⟨BBuf.new k, by simp [List.getElem?_replicate, hi], NBInv.new hk⟩
  · intro b hb
    rw [List.eq_of_mem_replicate hb]
    exact fun _ => rfl

end

section
variable [Field K] [LinearOrder K] [IsStrictOrderedRing K] {pos : α → Point K d} {P : Params α K d} {blank : α}
  {part : Fin d → K → List (Point K d) → List (Point K d)} {R : List α → Prop}
  {nth : ℕ → List (K × α) → List (K × α)} {dist : Point K d → Point K d → K}

/-- The dual-tree search for any query tree. -/
theorem dualKnn_exact (hs : Splits P.cs R) (hb : Splits P.cb R) (hR0 : R [])
    (hpart : PartItems part (id : Point K d → Point K d)) (hn : NthPairs nth) (hdist : IsCoordDist dist)
    {boxDist : Box K d → Box K d → K} (hbd : ∀ a b p q, a.Mem p → b.Mem q → boxDist a b ≤ dist p q)
    {s : LT α K d} (h : LReach pos P part blank R s)
    {β : Type} {qp : β → Point K d} {qs : List β} {Q : Tree β K d} (hQT : QueryTree qp qs Q) {k : ℕ} (hk : 1 ≤ k)
    (hbuf : content s.buf = [] ∨ k ≤ (content s.buf).length)
    (hlen : k ≤ (content s.buf ++ (List.range P.numTrees).flatMap fun i => content (s.trees i)).length) :
    ∃ rows, dualKnn pos nth dist boxDist qp P Q s k = .ok rows ∧
      List.Forall₂ (fun q row => KSmallest (fun x => dist (qp q) (pos x)) k
        (content s.buf ++ (List.range P.numTrees).flatMap fun i => content (s.trees i)) row) (content Q) rows := by
  obtain ⟨hI, -⟩ := h.inv hs hb hR0 hpart
  have hinv := fullTrees_inv hI
  have hitems := fullTrees_items hI
  rw [← hitems] at hlen ⊢
  have hts : ∀ t ∈ taggedTrees P s, Inv pos t.2 ∧ t.2.curSize ≠ 0 ∧ (t.1 = true → k ≤ t.2.curSize) := by
    intro t ht
    have hm : t.2 ∈ fullTrees P s := by
      rw [← taggedTrees_snd]
      exact List.mem_map_of_mem ht
    refine ⟨(hinv t.2 hm).1, (hinv t.2 hm).2, fun hf => ?_⟩
    unfold taggedTrees at ht
    rw [List.mem_append] at ht
    rcases ht with ht | ht
    · split at ht
      · simp at ht
      · rename_i h0
        simp only [List.mem_singleton] at ht
        rw [ht]
        simp only
        rcases hbuf with hbuf | hbuf
        · exact absurd (hI.buf.size.trans (by rw [hbuf]; rfl)) h0
        · rw [hI.buf.size]; exact hbuf
    · rw [List.mem_map] at ht
      obtain ⟨i, -, rfl⟩ := ht
      simp at hf
  obtain ⟨st, I, h1, h2, h3⟩ := dualTrees_ok (k := k) (dist := dist) (boxDist := boxDist) hn hdist hbd hQT
    (taggedTrees P s) _ _ hts (start_dst hQT hk)
  rw [taggedTrees_snd] at h3
  have hcl : (content Q).length = Q.curSize := by
    rw [hQT.content, List.length_take, min_eq_left hQT.len]
  have hrow : ∀ i (hi : i < (content Q).length) (hi' : i < st.2.length),
      ∃ row, knnRow k (st.2[i]).elems = .ok row ∧
        KSmallest (fun x => dist (qp (content Q)[i]) (pos x)) k (treeItems (fullTrees P s)) row := by
    intro i hi hi'
    have hi2 : i < Q.items.length := by have := hQT.len; omega
    have hqi : (Q.items[i]?).map qp = some (qp (content Q)[i]) := by
      simp only [List.getElem?_eq_getElem hi2, Option.map_some, Option.some.injEq]
      congr 1
      simp only [hQT.content, List.getElem_take]
    obtain ⟨b, hb1, hb2⟩ := h2.bufs i _ hqi hi'
    rw [List.getElem?_eq_getElem hi', Option.some.injEq] at hb1
    have hext := h3 i _ (by omega) hqi
    have hkI : k ≤ (I i).length := by
      obtain ⟨S, T, f1, f2, f3⟩ := hext
      cases T with
      | nil =>
        have := f2.length_eq
        rw [List.append_nil] at this
        have h4 := f1.length_eq
        rw [List.length_append] at h4
        omega
      | cons y T => exact (f3 y (by simp)).trans List.countP_le_length
    have htidy := h2.tidy _ (List.getElem_mem hi')
    rw [hb1] at htidy ⊢
    have hK : b.hasK = true := (NBInv.hasK_iff hb2).2 (by rw [List.length_map]; exact hkI)
    obtain ⟨b2, r, g1, g2, -, keep, g3, g4⟩ := hb2.keepK hn hkI
    have hb2e : b2 = b := by
      have hc := htidy hK
      unfold BBuf.keepK at g1
      simp only [hc, if_true] at g1
      split at g1
      · cases g1
      · split at g1
        · cases g1
        · split at g1
          · simp only [Except.ok.injEq, Prod.mk.injEq] at g1
            exact g1.1.symm
          · cases g1
    rw [hb2e] at g3
    refine ⟨keep, ?_, kSmallest_adequate g4 hext.adequate⟩
    unfold knnRow
    rw [g3, List.length_map, g4.1, if_pos (le_refl _), List.take_of_length_le (by rw [List.length_map, g4.1]), List.map_map]
    exact congrArg Except.ok (by simp [Function.comp_def])
  have hz : ∃ rows, (st.2.mapM fun b => knnRow k b.elems) = .ok rows ∧
      List.Forall₂ (fun q row => KSmallest (fun x => dist (qp q) (pos x)) k (treeItems (fullTrees P s)) row)
        (content Q) rows := by
    have hlen2 : (content Q).length = st.2.length := by rw [hcl, h2.len]
    generalize content Q = C at hrow hlen2
    generalize st.2 = B at hrow hlen2
    clear h1 h2 h3 hcl
    induction C generalizing B with
    | nil =>
      cases B with
      | nil => exact ⟨[], rfl, .nil⟩
      | cons b bs => simp at hlen2
    | cons x C ih =>
      cases B with
      | nil => simp at hlen2
      | cons b bs =>
        obtain ⟨row, a1, a2⟩ := hrow 0 (by simp) (by simp)
        obtain ⟨rows, b1, b2⟩ := ih bs (fun i hi hi' => by
          have := hrow (i + 1) (by simpa using hi) (by simpa using hi')
          simpa using this) (by simpa using hlen2)
        simp only [List.getElem_cons_zero] at a1 a2
        refine ⟨row :: rows, ?_, .cons a2 b2⟩
        rw [List.mapM_cons, a1, b1]
        rfl
  obtain ⟨rows, z1, z2⟩ := hz
  refine ⟨rows, ?_, z2⟩
  unfold dualKnn
  rw [h1]
  exact z1

/-- **C67, dual-tree nearest neighbours.** In every reachable state, whatever the stored points and the queries: if the buffer
is empty or has at least `k` points, and at least `k` points are stored, the dual-tree search returns, and every row has `k`
stored items of smallest distance to its query. The rows are in the order of the items of the query tree, which are the
queries rearranged. -/
theorem c67_dual_partial (hs : Splits P.cs R) (hb : Splits P.cb R) (hR0 : R [])
    (hpart : PartItems part (id : Point K d → Point K d)) (hn : NthPairs nth) (hdist : IsCoordDist dist)
    {boxDist : Box K d → Box K d → K} (hbd : ∀ a b p q, a.Mem p → b.Mem q → boxDist a b ≤ dist p q)
    {s : LT α K d} (h : LReach pos P part blank R s)
    {β : Type} {qp : β → Point K d} {cq : Cfg β K d} {dq : Fin d} {qblank : β} {Pq : List β → Prop} {log2size : ℕ}
    {qs : List β} {Q : Tree β K d} (hcq : Splits cq Pq) (hPq : Pq qs) (hcap : qs.length ≤ 2 ^ log2size) (hq : qs ≠ [])
    (hQ : buildPoints qp cq dq (emptyTree qblank log2size) qs = .ok Q) {k : ℕ} (hk : 1 ≤ k)
    (hbuf : content s.buf = [] ∨ k ≤ (content s.buf).length)
    (hlen : k ≤ (content s.buf ++ (List.range P.numTrees).flatMap fun i => content (s.trees i)).length) :
    (content Q).Perm qs ∧ ∃ rows, dualKnn pos nth dist boxDist qp P Q s k = .ok rows ∧
      List.Forall₂ (fun q row => KSmallest (fun x => dist (qp q) (pos x)) k
        (content s.buf ++ (List.range P.numTrees).flatMap fun i => content (s.trees i)) row) (content Q) rows := by
  have hQT := queryTree_of_build hcq hPq hcap hq hQ
  exact ⟨hQT.perm, dualKnn_exact hs hb hR0 hpart hn hdist hbd h hQT hk hbuf hlen⟩

/-- **C67, a small buffer.** If the buffer has points but fewer than `k`, the dual-tree search throws, however many points the
static trees have. -/
theorem c67_small_buffer_throws (hs : Splits P.cs R) (hb : Splits P.cb R) (hR0 : R [])
    (hpart : PartItems part (id : Point K d → Point K d)) (hn : NthPairs nth) (hdist : IsCoordDist dist)
    {boxDist : Box K d → Box K d → K} {s : LT α K d} (h : LReach pos P part blank R s)
    {β : Type} {qp : β → Point K d} {cq : Cfg β K d} {dq : Fin d} {qblank : β} {Pq : List β → Prop} {log2size : ℕ}
    {qs : List β} {Q : Tree β K d} (hcq : Splits cq Pq) (hPq : Pq qs) (hcap : qs.length ≤ 2 ^ log2size) (hq : qs ≠ [])
    (hQ : buildPoints qp cq dq (emptyTree qblank log2size) qs = .ok Q) {k : ℕ}
    (h0 : content s.buf ≠ []) (hlt : (content s.buf).length < k) :
    dualKnn pos nth dist boxDist qp P Q s k = .error .throws := by
  obtain ⟨hI, -⟩ := h.inv hs hb hR0 hpart
  have hQT := queryTree_of_build hcq hPq hcap hq hQ
  have hsz := hI.buf.size
  have hne : s.buf.curSize ≠ 0 := by
    rw [hsz]
    simpa using h0
  obtain ⟨q, C, hqC⟩ : ∃ q C, Q.items.take Q.curSize = q :: C := by
    cases hc : Q.items.take Q.curSize with
    | nil =>
      have := congrArg List.length hc
      rw [List.length_take, min_eq_left hQT.len] at this
      have := hQT.pos
      simp_all
    | cons q C => exact ⟨q, C, rfl⟩
  obtain ⟨n, hnQ⟩ : ∃ n, Q.curSize = n + 1 := ⟨Q.curSize - 1, by have := hQT.pos; omega⟩
  unfold dualKnn taggedTrees
  rw [if_neg hne, List.cons_append, dualTrees]
  unfold dualStep
  rw [if_pos rfl]
  simp only
  have := knnInBufs_throws (qp := qp) hn hdist hI.buf hne (by rw [hsz]; exact hlt) q C (List.replicate n (BBuf.new k))
  rw [hqC, hnQ, List.replicate_succ, this]
  rfl

/-- **C67, too few points.** With an empty buffer and fewer than `k` stored points the search does not throw: it reads pointers
that were never written. -/
theorem c67_too_few_false (hs : Splits P.cs R) (hb : Splits P.cb R) (hR0 : R [])
    (hpart : PartItems part (id : Point K d → Point K d)) (hn : NthPairs nth) (hdist : IsCoordDist dist)
    {boxDist : Box K d → Box K d → K} (hbd : ∀ a b p q, a.Mem p → b.Mem q → boxDist a b ≤ dist p q)
    {s : LT α K d} (h : LReach pos P part blank R s)
    {β : Type} {qp : β → Point K d} {cq : Cfg β K d} {dq : Fin d} {qblank : β} {Pq : List β → Prop} {log2size : ℕ}
    {qs : List β} {Q : Tree β K d} (hcq : Splits cq Pq) (hPq : Pq qs) (hcap : qs.length ≤ 2 ^ log2size) (hq : qs ≠ [])
    (hQ : buildPoints qp cq dq (emptyTree qblank log2size) qs = .ok Q) {k : ℕ}
    (hbuf : content s.buf = [])
    (hlt : ((List.range P.numTrees).flatMap fun i => content (s.trees i)).length < k) :
    dualKnn pos nth dist boxDist qp P Q s k = .error .ub := by
  obtain ⟨hI, -⟩ := h.inv hs hb hR0 hpart
  have hinv := fullTrees_inv hI
  have hitems := fullTrees_items hI
  have hQT := queryTree_of_build hcq hPq hcap hq hQ
  rw [hbuf, List.nil_append] at hitems
  have hts : ∀ t ∈ taggedTrees P s, Inv pos t.2 ∧ t.2.curSize ≠ 0 ∧ (t.1 = true → k ≤ t.2.curSize) := by
    intro t ht
    have hm : t.2 ∈ fullTrees P s := by
      rw [← taggedTrees_snd]
      exact List.mem_map_of_mem ht
    refine ⟨(hinv t.2 hm).1, (hinv t.2 hm).2, fun hf => ?_⟩
    unfold taggedTrees at ht
    rw [if_pos (hI.buf.size.trans (by rw [hbuf]; rfl)), List.nil_append, List.mem_map] at ht
    obtain ⟨i, -, rfl⟩ := ht
    simp at hf
  obtain ⟨st, I, h1, h2, h3⟩ := dualTrees_ok (k := k) (dist := dist) (boxDist := boxDist) hn hdist hbd hQT
    (taggedTrees P s) _ _ hts (start_dst hQT (by omega))
  rw [taggedTrees_snd, hitems] at h3
  have hpos := hQT.pos
  have hi2 : 0 < Q.items.length := by have := hQT.len; omega
  have hqi : (Q.items[0]?).map qp = some (qp Q.items[0]) := by
    simp only [List.getElem?_eq_getElem hi2, Option.map_some]
  obtain ⟨b, hb1, hb2⟩ := h2.bufs 0 _ hqi (by rw [h2.len]; exact hpos)
  obtain ⟨S, T, f1, f2, -⟩ := h3 0 _ hpos hqi
  have hl : (I 0).length < k := by
    have a := f1.length_eq
    have c := f2.length_eq
    simp only [List.nil_append, List.length_append] at a c
    omega
  have hlen : b.elems.length < k := by
    by_contra hge
    have := (NBInv.len_iff hb2).1 (by omega)
    rw [List.length_map] at this
    omega
  unfold dualKnn
  rw [h1]
  simp only [Except.bind]
  cases hst : st.2 with
  | nil => rw [hst] at hb1; simp at hb1
  | cons c cs =>
    rw [hst] at hb1
    simp only [List.getElem?_cons_zero, Option.some.injEq] at hb1
    rw [hb1, List.mapM_cons, knnRow, if_neg (by omega)]
    rfl

end

/-! ### Examples -/

/-- Insert and erase batches, then the dual-tree search for `k` neighbours of the queries (for examples). -/
def runDual (ops : List (List (ℚ × ℚ) ⊕ List (ℚ × ℚ))) (qs : List (ℚ × ℚ)) (k : ℕ) : Except Err (List (List (ℚ × ℚ))) :=
  (runOps ops (newTree P2 (0, 0))).bind fun s =>
    (buildPoints ppos cfgO 0 (emptyTree (0, 0) 1 : Tree (ℚ × ℚ) ℚ 2) qs).bind fun Q =>
      dualKnn ppos nthPairs cheb chebBox ppos P2 Q s k

/-- Six points in two static trees, buffer empty: the two nearest neighbours of two queries. -/
example : (runDual [.inl [(1, 1), (2, 2), (5, 5), (4, 4)], .inl [(3, 3), (6, 6)]] [(8, 8), (0, 0)] 2).toOption =
    some [[(1, 1), (2, 2)], [(6, 6), (5, 5)]] := by
  decide +kernel

/-- One point in the buffer and six in the static trees: one neighbour, and the bound of the buffer is used. -/
example : (runDual [.inl [(1, 1), (2, 2), (5, 5), (4, 4)], .inl [(3, 3), (6, 6)], .inl [(7, 7)]] [(8, 8), (0, 0)] 1).toOption =
    some [[(1, 1)], [(7, 7)]] := by
  decide +kernel

/-- The hypotheses of the theorems on the two configurations and the distances are met by the example. -/
example : Splits P2.cs (fun _ => True) ∧ Splits P2.cb (fun _ => True) ∧ NthPairs (nthPairs : ℕ → List (ℚ × (ℚ × ℚ)) → _) ∧
    IsCoordDist cheb ∧ (∀ a b p q, a.Mem p → b.Mem q → chebBox a b ≤ cheb p q) :=
  ⟨objectCfg_splits (par := fun _ => false) (nthBySort_ok ppos) (sortBy_ok ppos) (le_refl 1),
    objectCfg_splits (par := fun _ => false) (nthBySort_ok ppos) (sortBy_ok ppos) (le_refl 1), nthPairs_ok, cheb_isCoordDist, chebBox_le⟩

/-- **C67 fails with a small buffer.** Three points are stored and two neighbours are asked for, but the buffer holds one
point: the search throws. -/
theorem c67_small_buffer_false :
    look [] ⟨pt 0 0, pt 9 9⟩ (runOps [.inl [(1, 1), (2, 2), (3, 3)]] (newTree P2 (0, 0))) =
      some ⟨3, 1, [], [(1, 1), (2, 2), (3, 3)]⟩ ∧
    (match runDual [.inl [(1, 1), (2, 2), (3, 3)]] [(8, 8), (0, 0)] 2 with
      | .error .throws => true
      | _ => false) = true := by
  decide +kernel

end Verif.LogTree
