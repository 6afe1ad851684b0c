import Verif.BatchKd.KnnFloatModel
import Verif.BatchKd.KnnProps
import Verif.KdTree.FloatLemmas
import Verif.Float.Sqrt

set_option linter.unusedSectionVars false
set_option linter.unusedVariables false

/-!
Lemmas on the `k` nearest neighbour searches of the batch kd-tree in rounded arithmetic.
-/

namespace Verif.BatchKd

open Verif.Float
open Verif.KnnBuf (KSmallest)
open Verif.KdTree (distFl distSqrFl addSqFl distFl_nonneg kSmallest_adequate)

variable {α : Type} {d : ℕ} {fl : ℝ → ℝ}

/-! ### The distance of boxes -/

section
variable (hf : IsMonoRounding fl)
include hf

theorem gapFl_nonneg (a b : Box ℝ d) (i : Fin d) : 0 ≤ gapFl fl a b i :=
  le_trans (le_max_left _ _) (le_max_left _ _)

theorem gapFl_le {a b : Box ℝ d} {p q : Point ℝ d} (hp : a.Mem p) (hq : b.Mem q) (i : Fin d) :
    gapFl fl a b i ≤ |fl (p i - q i)| := by
  have h1 := hp i
  have h2 := hq i
  refine max_le (max_le (abs_nonneg _) ?_) ?_
  · exact le_trans (hf.mono (by linarith)) (le_abs_self _)
  · rw [← abs_neg, ← hf.odd]
    exact le_trans (hf.mono (by linarith)) (le_abs_self _)

theorem addGapFl_fold_le {a b : Box ℝ d} {p q : Point ℝ d} (hp : a.Mem p) (hq : b.Mem q) (l : List (Fin d))
    {x y : ℝ} (h : x ≤ y) : l.foldl (addGapFl fl a b) x ≤ l.foldl (addSqFl fl p q) y := by
  induction l generalizing x y with
  | nil => exact h
  | cons i l ih =>
    simp only [List.foldl_cons]
    apply ih
    unfold addGapFl addSqFl
    apply hf.mono
    refine add_le_add h (hf.mono ?_)
    calc _ ≤ |fl (p i - q i)| * |fl (p i - q i)| :=
          mul_self_le_mul_self (gapFl_nonneg hf a b i) (gapFl_le hf hp hq i)
      _ = _ := abs_mul_abs_self _

/-- The computed distance of two boxes is at most the computed distance of points in them. -/
theorem boxDistFl_le (a b : Box ℝ d) (p q : Point ℝ d) (hp : a.Mem p) (hq : b.Mem q) :
    boxDistFl fl a b ≤ distFl fl p q :=
  hf.mono (Real.sqrt_le_sqrt (addGapFl_fold_le hf hp hq _ (le_refl _)))

end

/-! ### The search in one tree -/

theorem addSqFl_fold_ge (hf : IsRootRounding fl) (p q : Point ℝ d) (c : ℝ) (l : List (Fin d)) {x : ℝ}
    (h0 : 0 ≤ x) (h : fl c ≤ x ∨ ∃ i ∈ l, c ≤ fl (p i - q i) * fl (p i - q i)) :
    fl c ≤ l.foldl (addSqFl fl p q) x := by
  induction l generalizing x with
  | nil =>
    rcases h with h | ⟨i, hi, -⟩
    · exact h
    · simp at hi
  | cons i l ih =>
    simp only [List.foldl_cons]
    have hs := hf.nonneg (mul_self_nonneg (fl (p i - q i)))
    have h1 : 0 ≤ addSqFl fl p q x i := hf.nonneg (by linarith)
    apply ih h1
    rcases h with h | ⟨j, hj, h⟩
    · left
      have := hf.mono (by linarith : fl c ≤ x + fl (fl (p i - q i) * fl (p i - q i)))
      rwa [hf.idem] at this
    · rcases List.mem_cons.mp hj with rfl | hj
      · left
        have := hf.mono (le_trans (hf.mono h) (by linarith) : fl c ≤ x + fl (fl (p j - q j) * fl (p j - q j)))
        rwa [hf.idem] at this
      · exact Or.inr ⟨j, hj, h⟩

/-- The computed distance is at least a floating-point number that is at most the computed difference of the
points in some coordinate. -/
theorem le_distFl (hf : IsRootRounding fl) {p q : Point ℝ d} {r : ℝ} (h0 : 0 ≤ r) (hr : fl r = r) {i : Fin d}
    (h : r ≤ |fl (p i - q i)|) : r ≤ distFl fl p q := by
  refine (hf.root r h0 hr).trans (hf.mono (Real.sqrt_le_sqrt ?_))
  refine addSqFl_fold_ge hf p q (r * r) _ (le_refl _) (Or.inr ⟨i, List.mem_finRange _, ?_⟩)
  rw [← abs_mul_abs_self (fl (p i - q i))]
  exact mul_self_le_mul_self h0 h

/-- All points of the list have floating-point numbers as coordinates. -/
def ReprAll (fl : ℝ → ℝ) (pos : α → Point ℝ d) (L : List α) : Prop := ∀ x ∈ L, ∀ i, fl (pos x i) = pos x i

/-- A box outside the computed query box has only points that are, as computed, at least as far as the radius. -/
theorem exclFl_far (hf : IsRootRounding fl) {q p : Point ℝ d} {r : ℝ} (h0 : 0 ≤ r) (hr : fl r = r) {b : Box ℝ d}
    (hb : KdTree.boxCompare (radiusBoxFl fl q r) b = .excl) (hp : b.Mem p) (hrep : ∀ i, fl (p i) = p i) :
    r ≤ distFl fl q p := by
  unfold KdTree.boxCompare at hb
  split at hb
  · rename_i h
    obtain ⟨i, h⟩ := h
    have hm := hp i
    apply le_distFl hf h0 hr (i := i)
    rcases h with h | h
    · simp only [radiusBoxFl] at h
      have h1 : q i + r < p i := by
        by_contra hc
        have := hf.mono (not_lt.mp hc)
        rw [hrep] at this
        linarith
      have h2 := hf.mono (by linarith : r ≤ -(q i - p i))
      rw [hr, hf.odd] at h2
      exact h2.trans (neg_le_abs _)
    · simp only [radiusBoxFl, gt_iff_lt] at h
      have h1 : p i < q i - r := by
        by_contra hc
        have := hf.mono (not_lt.mp hc)
        rw [hrep] at this
        linarith
      have h2 := hf.mono (by linarith : r ≤ q i - p i)
      rw [hr] at h2
      exact h2.trans (le_abs_self _)
  · split at hb <;> cases hb

variable {nth : ℕ → List (ℝ × α) → List (ℝ × α)} {pos : α → Point ℝ d} {items : List α} {present : List Bool}

/-- State of a pruned scan: a box, if there is one, is the box of the radius, which is a computed distance. -/
structure ScanOkFl (fl : ℝ → ℝ) (k : ℕ) (cost : α → ℝ) (q : Point ℝ d) (I : List α) (st : Scan α ℝ d) : Prop where
  holds : BHolds k cost I st.buf
  full : k ≤ I.length
  within : Within k cost I st.radius
  box : st.box = st.radius.map (radiusBoxFl fl q)
  radius : ∀ r, st.radius = some r → ∃ x, r = cost x

theorem reprAll_append {L1 L2 : List α} :
    ReprAll fl pos (L1 ++ L2) ↔ ReprAll fl pos L1 ∧ ReprAll fl pos L2 := by
  unfold ReprAll
  simp only [List.mem_append, or_imp, forall_and]

theorem keepK_mem {b b' : BBuf α ℝ} {r : ℝ × α} (h : b.keepK nth = .ok (b', r)) : r ∈ b'.elems := by
  unfold BBuf.keepK at h
  split at h
  · simp at h
  · simp only at h
    split at h
    · simp at h
    · split at h
      · rename_i hr
        simp only [Except.ok.injEq, Prod.mk.injEq] at h
        rw [← h.1, ← h.2]
        exact List.mem_of_getElem? hr
      · simp at h

theorem shrinkFl_ok (hn : NthPairs nth) {k : ℕ} {cost : α → ℝ} {q : Point ℝ d} {I : List α}
    {st : Scan α ℝ d} (h : ScanOkFl fl k cost q I st) :
    ∃ st', shrinkFl nth fl q st = .ok st' ∧ ScanOkFl fl k cost q I st' ∧ ∃ r, st'.radius = some r := by
  obtain ⟨b', r, h1, h2, h3, keep, h4, -⟩ := h.holds.keepK hn h.full
  obtain ⟨p, -, hp⟩ : ∃ p ∈ keep, (cost p, p) = r := by
    have := keepK_mem h1
    rw [h4] at this
    exact List.mem_map.1 this
  unfold shrinkFl
  rw [h1]
  simp only [Except.map]
  split
  · refine ⟨_, rfl, ⟨h2, h.full, ?_, rfl, fun x hx => ?_⟩, r.1, rfl⟩
    swap
    · simp only [Option.some.injEq] at hx
      exact ⟨p, by rw [← hx, ← hp]⟩
    intro x hx
    simp only [Option.some.injEq] at hx
    subst hx
    exact h3
  · rename_i hc
    refine ⟨_, rfl, ⟨h2, h.full, h.within, h.box, h.radius⟩, ?_⟩
    cases hr : st.radius with
    | none => simp [leRadius, hr] at hc
    | some x => exact ⟨x, rfl⟩

theorem ScanOkFl.add (hn : NthPairs nth) {k : ℕ} {q : Point ℝ d} {I : List α} {st : Scan α ℝ d}
    (h : ScanOkFl fl k (fun p => distFl fl q (pos p)) q I st) (hr : ∃ r, st.radius = some r) (s e : ℕ) :
    ∃ st' I', scanAdd nth (distFl fl) pos items present q s e st = .ok st' ∧
      ScanOkFl fl k (fun p => distFl fl q (pos p)) q I' st' ∧ (∃ r, st'.radius = some r) ∧
      Ext k (fun p => distFl fl q (pos p)) I I' (live items present s e) := by
  obtain ⟨b', I', h1, h2, h3⟩ := knnAdd_ok (items := items) (present := present) hn q st.radius s e I st.buf
    h.holds h.within
  refine ⟨{ st with buf := b' }, I', ?_, ⟨h2, h.full.trans h3.length, h.within.mono h3, h.box, h.radius⟩, hr, h3⟩
  unfold scanAdd
  rw [h1]
  rfl

theorem ScanOkFl.excl (hf : IsRootRounding fl) {k : ℕ} {q : Point ℝ d} {I : List α} {st : Scan α ℝ d}
    (h : ScanOkFl fl k (fun p => distFl fl q (pos p)) q I st) {r : ℝ} (hr : st.radius = some r) {b : Box ℝ d}
    (hb : KdTree.boxCompare (radiusBoxFl fl q r) b = .excl) {L : List α} (hL : ∀ x ∈ L, b.Mem (pos x))
    (hrep : ReprAll fl pos L) : Ext k (fun p => distFl fl q (pos p)) I I L := by
  refine Ext.none fun y hy => ?_
  obtain ⟨x, hx⟩ := h.radius r hr
  have h0 : 0 ≤ r := by
    rw [hx]
    exact distFl_nonneg hf.toIsMonoRounding _ _
  have h1 : fl r = r := by
    rw [hx]
    exact hf.idem _
  exact (h.within r hr).trans (countP_le_mono (exclFl_far hf h0 h1 hb (hL y hy) (hrep y hy)))

theorem knnPruneFl_ok (hn : NthPairs nth) (hf : IsRootRounding fl) (update : Bool) {k : ℕ}
    {q : Point ℝ d} (t : BT ℝ d) (ht : Good pos items present t)
    (hpos : ReprAll fl pos (live items present t.start t.stop)) (I : List α) (st : Scan α ℝ d)
    (h : ScanOkFl fl k (fun p => distFl fl q (pos p)) q I st) (hr : update = true ∨ ∃ r, st.radius = some r) :
    ∃ st' I', knnPruneFl nth fl pos update items present q t st = .ok st' ∧
      ScanOkFl fl k (fun p => distFl fl q (pos p)) q I' st' ∧ (∃ r, st'.radius = some r) ∧
      Ext k (fun p => distFl fl q (pos p)) I I' (live items present t.start t.stop) := by
  induction t generalizing I st with
  | nil => exact absurd ht (by simp [Good])
  | leaf idx s e cnt b =>
    obtain ⟨st1, h1, h2, r, h3⟩ : ∃ st1, (if update = true then shrinkFl nth fl q st else .ok st) = .ok st1 ∧
        ScanOkFl fl k (fun p => distFl fl q (pos p)) q I st1 ∧ ∃ r, st1.radius = some r := by
      split
      · exact shrinkFl_ok hn h
      · rename_i hu
        exact ⟨st, rfl, h, hr.resolve_left hu⟩
    unfold knnPruneFl
    rw [h1]
    simp only [Except.bind]
    have hbox := h2.box
    rw [h3] at hbox
    simp only [Option.map_some] at hbox
    simp only [hbox]
    cases hb : KdTree.boxCompare (radiusBoxFl fl q r) b with
    | excl => exact ⟨st1, I, rfl, h2, ⟨r, h3⟩, h2.excl hf h3 hb ht.2.2.2 hpos⟩
    | incl => exact h2.add hn ⟨r, h3⟩ s e
    | overlap => exact h2.add hn ⟨r, h3⟩ s e
  | node idx s e dim val b l r' ihl ihr =>
    obtain ⟨st1, h1, h2, r, h3⟩ : ∃ st1, (if update = true then shrinkFl nth fl q st else .ok st) = .ok st1 ∧
        ScanOkFl fl k (fun p => distFl fl q (pos p)) q I st1 ∧ ∃ r, st1.radius = some r := by
      split
      · exact shrinkFl_ok hn h
      · rename_i hu
        exact ⟨st, rfl, h, hr.resolve_left hu⟩
    unfold knnPruneFl
    rw [h1]
    simp only [Except.bind]
    have hbox := h2.box
    rw [h3] at hbox
    simp only [Option.map_some] at hbox
    simp only [hbox]
    cases hb : KdTree.boxCompare (radiusBoxFl fl q r) b with
    | excl => exact ⟨st1, I, rfl, h2, ⟨r, h3⟩, h2.excl hf h3 hb ht.1 hpos⟩
    | incl => exact h2.add hn ⟨r, h3⟩ s e
    | overlap =>
      have hpos := hpos
      simp only [BT.start, BT.stop] at hpos
      rw [ht.node_live] at hpos
      replace hpos := reprAll_append.1 hpos
      simp only [ht.2.1.not_nil, Bool.false_and, Bool.false_eq_true, if_false]
      obtain ⟨st2, I2, a1, a2, a3, a4⟩ := ihl ht.2.1 hpos.1 I st1 h2 (Or.inr ⟨r, h3⟩)
      obtain ⟨st3, I3, b1, b2, b3, b4⟩ := ihr ht.2.2.1 hpos.2 I2 st2 a2 (Or.inr a3)
      rw [a1]
      refine ⟨st3, I3, b1, b2, b3, ?_⟩
      simp only [BT.start, BT.stop]
      rw [ht.node_live]
      exact a4.trans b4

theorem knnOtherFl_ok (hn : NthPairs nth) (hf : IsRootRounding fl) (update : Bool) {k : ℕ}
    {q : Point ℝ d} (t : BT ℝ d) (ht : Good pos items present t)
    (hpos : ReprAll fl pos (live items present t.start t.stop)) (I : List α) (b : BBuf α ℝ)
    (h : BHolds k (fun p => distFl fl q (pos p)) I b) (hfull : k ≤ I.length) :
    ∃ b' I', knnOtherFl nth fl pos update items present q t b = .ok b' ∧
      BHolds k (fun p => distFl fl q (pos p)) I' b' ∧
      Ext k (fun p => distFl fl q (pos p)) I I' (live items present t.start t.stop) := by
  have h0 : ScanOkFl fl k (fun p => distFl fl q (pos p)) q I (⟨none, none, b⟩ : Scan α ℝ d) :=
    ⟨h, hfull, fun r hr => by simp at hr, rfl, fun r hr => by simp at hr⟩
  obtain ⟨st1, h1, h2, h3⟩ : ∃ st1, (if update = true then .ok ⟨none, none, b⟩ else
      shrinkFl nth fl q (⟨none, none, b⟩ : Scan α ℝ d)) = .ok st1 ∧
      ScanOkFl fl k (fun p => distFl fl q (pos p)) q I st1 ∧ (update = true ∨ ∃ r, st1.radius = some r) := by
    split
    · rename_i hu
      exact ⟨_, rfl, h0, Or.inl hu⟩
    · obtain ⟨st', a, b, c⟩ := shrinkFl_ok hn h0
      exact ⟨st', a, b, Or.inr c⟩
  obtain ⟨st2, I2, a1, a2, a3, a4⟩ := knnPruneFl_ok hn hf update t ht hpos I st1 h2 h3
  refine ⟨st2.buf, I2, ?_, a2.holds, a4⟩
  unfold knnOtherFl
  rw [h1]
  simp only [Except.bind]
  rw [a1]
  rfl

theorem knnHelperFl_ok (hn : NthPairs nth) (hf : IsRootRounding fl) (update recurse : Bool) {k : ℕ}
    {q : Point ℝ d} (t : BT ℝ d) (ht : Good pos items present t)
    (hpos : ReprAll fl pos (live items present t.start t.stop)) (I : List α) (b : BBuf α ℝ)
    (h : BHolds k (fun p => distFl fl q (pos p)) I b) :
    ∃ b' I', knnHelperFl nth fl pos update recurse items present q t b = .ok b' ∧
      BHolds k (fun p => distFl fl q (pos p)) I' b' ∧
      Ext k (fun p => distFl fl q (pos p)) I I' (live items present t.start t.stop) := by
  have hnone : ∀ J : List α, Within k (fun p => distFl fl q (pos p)) J none := fun J r hr => by simp at hr
  induction t generalizing I b with
  | nil => exact absurd ht (by simp [Good])
  | leaf idx s e cnt bx => exact knnAdd_ok hn q none s e I b h (hnone I)
  | node idx s e dim val bx l r ihl ihr =>
    have hnl := ht.2.1.not_nil
    have hnr := ht.2.2.1.not_nil
    unfold knnHelperFl
    simp only [hnl, hnr, Bool.false_and, Bool.false_eq_true, if_false, BT.start, BT.stop]
    have hpos := hpos
    simp only [BT.start, BT.stop] at hpos
    rw [ht.node_live] at hpos ⊢
    replace hpos := reprAll_append.1 hpos
    have other : ∀ (o : BT ℝ d) (J : List α) (b1 : BBuf α ℝ), Good pos items present o → ReprAll fl pos (live items present o.start o.stop) →
        BHolds k (fun p => distFl fl q (pos p)) J b1 →
        (∃ b' I', knnHelperFl nth fl pos update recurse items present q o b1 = .ok b' ∧
          BHolds k (fun p => distFl fl q (pos p)) I' b' ∧
          Ext k (fun p => distFl fl q (pos p)) J I' (live items present o.start o.stop)) →
        ∃ b' I', (if b1.hasK = true then knnOtherFl nth fl pos update items present q o b1
          else if recurse = true then knnHelperFl nth fl pos update recurse items present q o b1
          else knnAdd nth (distFl fl) pos items present q none o.start o.stop b1) = .ok b' ∧
          BHolds k (fun p => distFl fl q (pos p)) I' b' ∧
          Ext k (fun p => distFl fl q (pos p)) J I' (live items present o.start o.stop) := by
      intro o J b1 ho hpo hJ hrec
      split
      · rename_i hK
        have := (NBInv.hasK_iff hJ).1 hK
        exact knnOtherFl_ok hn hf update o ho hpo J b1 hJ (by simpa using this)
      · split
        · exact hrec
        · exact knnAdd_ok hn q none _ _ J b1 hJ (hnone J)
    split
    · obtain ⟨b1, I1, a1, a2, a3⟩ := ihl ht.2.1 hpos.1 I b h
      rw [a1]
      simp only [Except.bind]
      obtain ⟨b2, I2, c1, c2, c3⟩ := other r I1 b1 ht.2.2.1 hpos.2 a2 (ihr ht.2.2.1 hpos.2 I1 b1 a2)
      exact ⟨b2, I2, c1, c2, a3.trans c3⟩
    · obtain ⟨b1, I1, a1, a2, a3⟩ := ihr ht.2.2.1 hpos.2 I b h
      rw [a1]
      simp only [Except.bind]
      obtain ⟨b2, I2, c1, c2, c3⟩ := other l I1 b1 ht.2.1 hpos.1 a2 (ihl ht.2.1 hpos.1 I1 b1 a2)
      exact ⟨b2, I2, c1, c2, (a3.trans c3).perm List.perm_append_comm⟩

/-- The search on a buffer that has seen the items `I` before (used with several trees). -/
theorem QInv.knnIntoFl (hn : NthPairs nth) (hf : IsRootRounding fl) {t : Tree α ℝ d} (hI : QInv pos t)
    (hrep : ReprAll fl pos (content t))
    (h0 : t.curSize ≠ 0) (update recurse : Bool) {k : ℕ} (q : Point ℝ d) (I : List α) (b : BBuf α ℝ)
    (hb : BHolds k (fun x => distFl fl q (pos x)) I b) (hlen : k ≤ t.curSize ∨ k ≤ I.length) :
    ∃ b' I', BatchKd.knnIntoFl nth fl pos update recurse t q b = .ok b' ∧ b'.cached = true ∧
      BHolds k (fun x => distFl fl q (pos x)) I' b' ∧ k ≤ I'.length ∧
      Ext k (fun x => distFl fl q (pos x)) I I' (content t) ∧
      ∃ keep, b'.elems = keep.map (fun p => (distFl fl q (pos p), p)) ∧
        KSmallest (fun x => distFl fl q (pos x)) k I' keep := by
  obtain ⟨g1, g2⟩ := hI.root_live h0
  obtain ⟨b1, I1, h1, h2, h3⟩ := knnHelperFl_ok hn hf update recurse t.root g1 (by rw [g2]; exact hrep) I b hb
  rw [g2] at h3
  have hk : k ≤ I1.length := by
    rcases hlen with hlen | hlen
    swap
    · exact hlen.trans h3.length
    obtain ⟨S, R, e1, e2, e3⟩ := h3
    rw [hI.size] at hlen
    cases R with
    | nil =>
      have := e2.length_eq
      rw [List.append_nil] at this
      have h4 := e1.length_eq
      rw [List.length_append] at h4
      omega
    | cons y R => exact (e3 y (by simp)).trans List.countP_le_length
  obtain ⟨b2, r, h4, h5, -, keep, h6, h7⟩ := h2.keepK hn hk
  refine ⟨b2, I1, ?_, keepK_cached h4, h5, hk, h3, keep, h6, h7⟩
  unfold BatchKd.knnIntoFl
  rw [h1]
  simp only [Except.bind]
  rw [h4]
  rfl

theorem QInv.knnSingleFl (hn : NthPairs nth) (hf : IsRootRounding fl) {t : Tree α ℝ d} (hI : QInv pos t)
    (hrep : ReprAll fl pos (content t))
    (update recurse : Bool) {k : ℕ} (hk : 1 ≤ k) (hlen : k ≤ (content t).length) (q : Point ℝ d) :
    ∃ row, BatchKd.knnSingleFl nth fl pos update recurse t k q = .ok row ∧
      KSmallest (fun x => distFl fl q (pos x)) k (content t) row := by
  rw [← hI.size] at hlen
  obtain ⟨b', I', h1, -, h2, h3, h4, keep, h5, h6⟩ := QInv.knnIntoFl hn hf hI hrep (by omega) update recurse q []
    (BBuf.new k) (NBInv.new hk) (.inl hlen)
  refine ⟨keep, ?_, kSmallest_adequate h6 h4.adequate⟩
  unfold BatchKd.knnSingleFl
  rw [h1]
  simp only [Except.map, h5]
  rw [List.take_of_length_le (by rw [List.length_map, h6.1]), List.map_map]
  exact congrArg Except.ok (by simp [Function.comp_def])

end Verif.BatchKd
