import Verif.BatchKd.KnnModel
import Verif.BatchKd.TreeLemmas
import Verif.KdTree.KnnLemmas

set_option linter.unusedSectionVars false
set_option linter.unusedVariables false

/-! The buffer and the single-tree search of the batch kd-tree. -/

namespace Verif.BatchKd

open Verif.KnnBuf (KSmallest)
open Verif.KdTree (Adequate queryBox excl_far countP_kept_le kSmallest_map kSmallest_adequate)

variable {α K : Type} {d : ℕ} [Field K] [LinearOrder K] [IsStrictOrderedRing K]

/-- Invariant of the buffer after inserting `ins`. -/
structure NBInv (k : ℕ) (ins : List (K × α)) (b : BBuf α K) : Prop where
  hk : b.k = k
  kpos : 1 ≤ k
  len : b.elems.length < 2 * k
  lost : ∃ lost, (b.elems ++ lost).Perm ins ∧ ∀ y ∈ lost, k ≤ b.elems.countP fun x => x.1 ≤ y.1
  sorted : b.cached = true → k ≤ b.elems.length →
    b.elems.length = k ∧ ∀ r, b.elems[k - 1]? = some r → ∀ x ∈ b.elems, x.1 ≤ r.1

theorem NBInv.new {k : ℕ} (hk : 1 ≤ k) : NBInv k [] (BBuf.new k : BBuf α K) :=
  ⟨rfl, hk, by simp [BBuf.new]; omega, ⟨[], by simp [BBuf.new]⟩, fun _ h => by
    simp [BBuf.new] at h; omega⟩

theorem NBInv.of_perm {k : ℕ} {ins ins' : List (K × α)} {b : BBuf α K} (h : NBInv k ins b)
    (hp : ins.Perm ins') : NBInv k ins' b := by
  obtain ⟨lost, h1, h2⟩ := h.lost
  exact ⟨h.hk, h.kpos, h.len, ⟨lost, h1.trans hp, h2⟩, h.sorted⟩

theorem NBInv.len_iff {k : ℕ} {ins : List (K × α)} {b : BBuf α K} (h : NBInv k ins b) :
    k ≤ b.elems.length ↔ k ≤ ins.length := by
  obtain ⟨lost, h1, h2⟩ := h.lost
  have h3 := h1.length_eq
  rw [List.length_append] at h3
  constructor
  · omega
  · intro h4
    cases lost with
    | nil => simp at h3; omega
    | cons y l =>
      have := h2 y (by simp)
      have h5 : b.elems.countP (fun x => decide (x.1 ≤ y.1)) ≤ b.elems.length := List.countP_le_length
      omega

theorem NBInv.hasK_iff {k : ℕ} {ins : List (K × α)} {b : BBuf α K} (h : NBInv k ins b) :
    b.hasK = true ↔ k ≤ ins.length := by
  unfold BBuf.hasK
  rw [decide_eq_true_iff, h.hk, h.len_iff]

/-- What `keepK` does to any list of elements. -/
theorem keepK_core {nth : ℕ → List (K × α) → List (K × α)} (hn : NthPairs nth) {k : ℕ} (hk : 1 ≤ k)
    {l : List (K × α)} (hl : k ≤ l.length) :
    ((nth (k - 1) l).take k).length = k ∧
    ∃ r, ((nth (k - 1) l).take k)[k - 1]? = some r ∧ r ∈ (nth (k - 1) l).take k ∧
      (∀ x ∈ (nth (k - 1) l).take k, x.1 ≤ r.1) ∧ (∀ x ∈ (nth (k - 1) l).drop k, r.1 ≤ x.1) ∧
      ((nth (k - 1) l).take k ++ (nth (k - 1) l).drop k).Perm l := by
  obtain ⟨hp, hs⟩ := hn (k - 1) l (by omega)
  have hlen := hp.length_eq
  have hlt : k - 1 < (nth (k - 1) l).length := by omega
  obtain ⟨h1, h2⟩ := hs _ (List.getElem?_eq_getElem hlt)
  have ht : (nth (k - 1) l).take k = (nth (k - 1) l).take (k - 1) ++ [(nth (k - 1) l)[k - 1]] := by
    conv_lhs => rw [show k = (k - 1) + 1 by omega]
    rw [Nat.add_sub_cancel, List.take_add_one, List.getElem?_eq_getElem hlt]
    rfl
  refine ⟨by rw [List.length_take]; omega, (nth (k - 1) l)[k - 1], ?_, ?_, ?_, ?_, ?_⟩
  · rw [List.getElem?_take, if_pos (by omega), List.getElem?_eq_getElem hlt]
  · rw [ht]; exact List.mem_append_right _ (List.mem_singleton.mpr rfl)
  · intro x hx
    rw [ht, List.mem_append, List.mem_singleton] at hx
    rcases hx with hx | rfl
    · exact h1 x hx
    · exact le_refl _
  · intro x hx
    apply h2 x
    have : (nth (k - 1) l).drop k = ((nth (k - 1) l).drop (k - 1)).drop 1 := by
      rw [List.drop_drop]; congr 1; omega
    rw [this] at hx
    exact List.mem_of_mem_drop hx
  · rw [List.take_append_drop]; exact hp

theorem NBInv.kept {k : ℕ} {ins : List (K × α)} {b : BBuf α K} (h : NBInv k ins b)
    (hlen : b.elems.length = k) {r : K × α} (hr : r ∈ b.elems) (hmax : ∀ x ∈ b.elems, x.1 ≤ r.1) :
    KSmallest (·.1) k ins b.elems := by
  obtain ⟨lost, h1, h2⟩ := h.lost
  refine ⟨hlen, lost, h1, fun x hx y hy => ?_⟩
  have h3 := h2 y hy
  by_contra hlt
  rw [not_le] at hlt
  have : b.elems.countP (fun x => decide (x.1 ≤ y.1)) < b.elems.length := by
    refine lt_of_le_of_ne List.countP_le_length ?_
    rw [Ne, List.countP_eq_length]
    intro hall
    have := hall _ hx
    simp at this
    exact absurd this (not_le.mpr hlt)
  omega

theorem NBInv.keepK {nth : ℕ → List (K × α) → List (K × α)} (hn : NthPairs nth) {k : ℕ}
    {ins : List (K × α)} {b : BBuf α K} (h : NBInv k ins b) (hp : k ≤ ins.length) :
    ∃ b' r, b.keepK nth = .ok (b', r) ∧ NBInv k ins b' ∧ KSmallest (·.1) k ins b'.elems ∧
      r ∈ b'.elems ∧ ∀ x ∈ b'.elems, x.1 ≤ r.1 := by
  have hl := h.len_iff.mpr hp
  have hk := h.kpos
  unfold BBuf.keepK
  rw [h.hk, if_neg (by omega), if_neg (by omega)]
  cases hc : b.cached with
  | true =>
    obtain ⟨h1, h2⟩ := h.sorted hc hl
    have hlt : k - 1 < b.elems.length := by omega
    have hg := List.getElem?_eq_getElem hlt
    simp only [if_true, hg]
    have hr := List.getElem_mem hlt
    exact ⟨b, _, rfl, h, h.kept h1 hr (h2 _ hg), hr, h2 _ hg⟩
  | false =>
    obtain ⟨h1, r, h2, h3, h4, h5, h6⟩ := keepK_core hn hk hl
    simp only [Bool.false_eq_true, if_false, h2]
    obtain ⟨lost, h7, h8⟩ := h.lost
    have hinv : NBInv k ins (⟨k, (nth (k - 1) b.elems).take k, true⟩ : BBuf α K) := by
      refine ⟨rfl, hk, by simp only; omega, ⟨(nth (k - 1) b.elems).drop k ++ lost, ?_, ?_⟩, ?_⟩
      · rw [← List.append_assoc]
        exact (h6.append_right _).trans h7
      · intro y hy
        rw [List.mem_append] at hy
        have key : r.1 ≤ y.1 → k ≤ ((nth (k - 1) b.elems).take k).countP fun x => x.1 ≤ y.1 := by
          intro hry
          have : ((nth (k - 1) b.elems).take k).countP (fun x => decide (x.1 ≤ y.1)) = k := by
            conv_rhs => rw [← h1]
            rw [List.countP_eq_length]
            intro x hx
            simpa using (h4 x hx).trans hry
          omega
        rcases hy with hy | hy
        · exact key (h5 y hy)
        · have h9 := h8 y hy
          rw [← h6.countP_eq, List.countP_append] at h9
          by_cases hry : r.1 ≤ y.1
          · exact key hry
          · have : ((nth (k - 1) b.elems).drop k).countP (fun x => decide (x.1 ≤ y.1)) = 0 := by
              rw [List.countP_eq_zero]
              intro x hx hle
              simp only [decide_eq_true_eq] at hle
              exact hry ((h5 x hx).trans hle)
            simp only at *
            omega
      · intro _ _
        refine ⟨h1, fun r' hr' => ?_⟩
        simp only at hr'
        rw [h2, Option.some.injEq] at hr'
        subst hr'
        exact h4
    exact ⟨_, r, rfl, hinv, hinv.kept h1 h3 h4, h3, h4⟩

theorem NBInv.insert {nth : ℕ → List (K × α) → List (K × α)} (hn : NthPairs nth) {k : ℕ}
    {ins : List (K × α)} {b : BBuf α K} (h : NBInv k ins b) (x : K × α) :
    ∃ b', b.insert nth x = .ok b' ∧ NBInv k (ins ++ [x]) b' := by
  have hk := h.kpos
  obtain ⟨lost, h1, h2⟩ := h.lost
  have hlen := h.len
  have hperm : ((b.elems ++ [x]) ++ lost).Perm (ins ++ [x]) := by
    rw [List.append_assoc]
    refine (List.Perm.append_left _ List.perm_append_comm).trans ?_
    rw [← List.append_assoc]
    exact h1.append_right _
  have hdom : ∀ y ∈ lost, k ≤ (b.elems ++ [x]).countP fun x => x.1 ≤ y.1 := by
    intro y hy
    rw [List.countP_append]
    exact (h2 y hy).trans (Nat.le_add_right _ _)
  unfold BBuf.insert
  rw [h.hk, if_neg (by omega)]
  simp only
  split
  · rename_i hfull
    simp only [List.length_append, List.length_singleton] at hfull
    unfold BBuf.keepK
    obtain ⟨g1, r, g2, g3, g4, g5, g6⟩ := keepK_core hn hk (l := b.elems ++ [x]) (by simp; omega)
    simp only [Bool.false_eq_true, if_false, g2]
    rw [if_neg (by simp; omega), if_neg (by omega)]
    refine ⟨_, rfl, rfl, hk, by simp only; omega, ⟨(nth (k - 1) (b.elems ++ [x])).drop k ++ lost, ?_, ?_⟩, ?_⟩
    · rw [← List.append_assoc]
      exact (g6.append_right _).trans hperm
    · intro y hy
      simp only
      rw [List.mem_append] at hy
      have key : r.1 ≤ y.1 → k ≤ ((nth (k - 1) (b.elems ++ [x])).take k).countP fun x => x.1 ≤ y.1 := by
        intro hry
        have : ((nth (k - 1) (b.elems ++ [x])).take k).countP (fun x => decide (x.1 ≤ y.1)) = k := by
          conv_rhs => rw [← g1]
          rw [List.countP_eq_length]
          intro x hx
          simpa using (g4 x hx).trans hry
        omega
      rcases hy with hy | hy
      · exact key (g5 y hy)
      · have h9 := hdom y hy
        rw [← g6.countP_eq, List.countP_append] at h9
        by_cases hry : r.1 ≤ y.1
        · exact key hry
        · have : ((nth (k - 1) (b.elems ++ [x])).drop k).countP (fun x => decide (x.1 ≤ y.1)) = 0 := by
            rw [List.countP_eq_zero]
            intro x hx hle
            simp only [decide_eq_true_eq] at hle
            exact hry ((g5 x hx).trans hle)
          omega
    · intro _ _
      refine ⟨g1, fun r' hr' => ?_⟩
      simp only at hr'
      rw [g2, Option.some.injEq] at hr'
      subst hr'
      exact g4
  · rename_i hfull
    refine ⟨_, rfl, rfl, hk, by simp only; omega, ⟨lost, hperm, hdom⟩, fun h => by simp at h⟩

/-! ### Growing candidate sets -/

/-- The buffer holds the state after inserting the items `I` with their costs. -/
def BHolds (k : ℕ) (cost : α → K) (I : List α) (b : BBuf α K) : Prop :=
  NBInv k (I.map fun p => (cost p, p)) b

/-- `I'` is `I` with items of `L` added, and what was left out of `L` is dominated by `k` items of `I'`. -/
def Ext (k : ℕ) (cost : α → K) (I I' L : List α) : Prop :=
  ∃ S R, I'.Perm (I ++ S) ∧ (S ++ R).Perm L ∧ ∀ y ∈ R, k ≤ I'.countP fun x => cost x ≤ cost y

theorem Ext.mono {k : ℕ} {cost : α → K} {I I' L : List α} (h : Ext k cost I I' L) (P : α → Bool) :
    I.countP P ≤ I'.countP P := by
  obtain ⟨S, R, h1, _⟩ := h
  rw [h1.countP_eq, List.countP_append]
  omega

theorem Ext.length {k : ℕ} {cost : α → K} {I I' L : List α} (h : Ext k cost I I' L) :
    I.length ≤ I'.length := by
  obtain ⟨S, R, h1, _⟩ := h
  rw [h1.length_eq, List.length_append]
  omega

theorem Ext.all (k : ℕ) (cost : α → K) (I L : List α) : Ext k cost I (I ++ L) L :=
  ⟨L, [], List.Perm.refl _, by simp, by simp⟩

theorem Ext.none {k : ℕ} {cost : α → K} {I L : List α}
    (h : ∀ y ∈ L, k ≤ I.countP fun x => cost x ≤ cost y) : Ext k cost I I L :=
  ⟨[], L, by simp, by simp, h⟩

theorem Ext.perm {k : ℕ} {cost : α → K} {I I' L L' : List α} (h : Ext k cost I I' L) (hp : L.Perm L') :
    Ext k cost I I' L' := by
  obtain ⟨S, R, h1, h2, h3⟩ := h
  exact ⟨S, R, h1, h2.trans hp, h3⟩

theorem Ext.trans {k : ℕ} {cost : α → K} {I I1 I2 L1 L2 : List α} (h : Ext k cost I I1 L1)
    (h' : Ext k cost I1 I2 L2) : Ext k cost I I2 (L1 ++ L2) := by
  obtain ⟨S1, R1, a1, a2, a3⟩ := h
  have hm := h'.mono
  obtain ⟨S2, R2, b1, b2, b3⟩ := h'
  refine ⟨S1 ++ S2, R1 ++ R2, ?_, ?_, ?_⟩
  · rw [← List.append_assoc]
    exact b1.trans (a1.append_right _)
  · refine List.Perm.trans ?_ (a2.append b2)
    simp only [List.append_assoc]
    apply List.Perm.append_left
    rw [← List.append_assoc, ← List.append_assoc]
    exact List.perm_append_comm.append_right _
  · intro y hy
    rw [List.mem_append] at hy
    rcases hy with hy | hy
    · exact (a3 y hy).trans (hm _)
    · exact b3 y hy

/-- All of the radius: at least `k` inserted items are within it. -/
def Within (k : ℕ) (cost : α → K) (I : List α) (radius : Option K) : Prop :=
  ∀ r, radius = some r → k ≤ I.countP fun x => cost x ≤ r

theorem Within.mono {k : ℕ} {cost : α → K} {I I' L : List α} {radius : Option K}
    (h : Within k cost I radius) (he : Ext k cost I I' L) : Within k cost I' radius :=
  fun r hr => (h r hr).trans (he.mono _)

theorem countP_le_mono {cost : α → K} {I : List α} {a b : K} (h : a ≤ b) :
    (I.countP fun x => decide (cost x ≤ a)) ≤ I.countP fun x => decide (cost x ≤ b) :=
  List.countP_mono_left fun x _ hx => by
    simp only [decide_eq_true_eq] at hx ⊢
    exact hx.trans h

variable {nth : ℕ → List (K × α) → List (K × α)} {dist : Point K d → Point K d → K}
  {pos : α → Point K d} {items : List α} {present : List Bool}

theorem addItems_ok (hn : NthPairs nth) (q : Point K d) {k : ℕ} (radius : Option K) (L I : List α)
    (b : BBuf α K) (h : BHolds k (fun p => dist q (pos p)) I b)
    (hw : Within k (fun p => dist q (pos p)) I radius) :
    ∃ b' I', addItems nth dist pos q radius L b = .ok b' ∧ BHolds k (fun p => dist q (pos p)) I' b' ∧
      Ext k (fun p => dist q (pos p)) I I' L := by
  induction L generalizing I b with
  | nil => exact ⟨b, I, rfl, h, Ext.none (by simp)⟩
  | cons x L ih =>
    unfold addItems
    split
    · obtain ⟨b1, h1, h2⟩ := NBInv.insert hn h (dist q (pos x), x)
      have h2' : BHolds k (fun p => dist q (pos p)) (I ++ [x]) b1 := by
        unfold BHolds
        rw [List.map_append]
        exact h2
      have e1 := Ext.all k (fun p => dist q (pos p)) I [x]
      obtain ⟨b2, I2, h3, h4, h5⟩ := ih (I ++ [x]) b1 h2' (hw.mono e1)
      refine ⟨b2, I2, ?_, h4, e1.trans h5⟩
      rw [h1]
      exact h3
    · rename_i hx
      obtain ⟨b2, I2, h3, h4, h5⟩ := ih I b h hw
      refine ⟨b2, I2, h3, h4, Ext.trans (L1 := [x]) (Ext.none ?_) h5⟩
      intro y hy
      rw [List.mem_singleton] at hy
      subst hy
      cases radius with
      | none => simp [leRadius] at hx
      | some r =>
        simp only [leRadius, decide_eq_true_eq, not_le] at hx
        exact (hw r rfl).trans (countP_le_mono hx.le)

theorem knnAdd_ok (hn : NthPairs nth) (q : Point K d) {k : ℕ} (radius : Option K) (s e : ℕ) (I : List α)
    (b : BBuf α K) (h : BHolds k (fun p => dist q (pos p)) I b)
    (hw : Within k (fun p => dist q (pos p)) I radius) :
    ∃ b' I', knnAdd nth dist pos items present q radius s e b = .ok b' ∧
      BHolds k (fun p => dist q (pos p)) I' b' ∧
      Ext k (fun p => dist q (pos p)) I I' (live items present s e) :=
  addItems_ok hn q radius _ I b h hw

theorem BHolds.keepK (hn : NthPairs nth) {k : ℕ} {cost : α → K} {I : List α} {b : BBuf α K}
    (h : BHolds k cost I b) (hp : k ≤ I.length) :
    ∃ b' r, b.keepK nth = .ok (b', r) ∧ BHolds k cost I b' ∧ (k ≤ I.countP fun x => cost x ≤ r.1) ∧
      ∃ keep, b'.elems = keep.map (fun p => (cost p, p)) ∧ KSmallest cost k I keep := by
  obtain ⟨b', r, h1, h2, h3, h4, h5⟩ := NBInv.keepK hn h (by simpa using hp)
  refine ⟨b', r, h1, h2, ?_, kSmallest_map h3⟩
  have := countP_kept_le (cost := fun x : K × α => x.1) h3 (r := r) h5 (le_refl _)
  rw [List.countP_map] at this
  exact this

/-- State of a pruned scan: a box, if there is one, is the box of the radius. -/
structure ScanOk (k : ℕ) (cost : α → K) (q : Point K d) (I : List α) (st : Scan α K d) : Prop where
  holds : BHolds k cost I st.buf
  full : k ≤ I.length
  within : Within k cost I st.radius
  box : st.box = st.radius.map (radiusBox q)

theorem radiusBox_eq (q : Point K d) (r : K) : radiusBox q r = queryBox q r := by
  unfold radiusBox queryBox
  congr 1
  funext i
  ring

theorem shrink_ok (hn : NthPairs nth) {k : ℕ} {cost : α → K} {q : Point K d} {I : List α}
    {st : Scan α K d} (h : ScanOk k cost q I st) :
    ∃ st', shrink nth q st = .ok st' ∧ ScanOk k cost q I st' ∧ ∃ r, st'.radius = some r := by
  obtain ⟨b', r, h1, h2, h3, -⟩ := h.holds.keepK hn h.full
  unfold shrink
  rw [h1]
  simp only [Except.map]
  split
  · refine ⟨_, rfl, ⟨h2, h.full, ?_, rfl⟩, r.1, rfl⟩
    intro x hx
    simp only [Option.some.injEq] at hx
    subst hx
    exact h3
  · rename_i hc
    refine ⟨_, rfl, ⟨h2, h.full, h.within, h.box⟩, ?_⟩
    cases hr : st.radius with
    | none => simp [leRadius, hr] at hc
    | some x => exact ⟨x, rfl⟩

theorem ScanOk.add (hn : NthPairs nth) {k : ℕ} {q : Point K d} {I : List α} {st : Scan α K d}
    (h : ScanOk k (fun p => dist q (pos p)) q I st) (hr : ∃ r, st.radius = some r) (s e : ℕ) :
    ∃ st' I', scanAdd nth dist pos items present q s e st = .ok st' ∧
      ScanOk k (fun p => dist q (pos p)) q I' st' ∧ (∃ r, st'.radius = some r) ∧
      Ext k (fun p => dist q (pos p)) I I' (live items present s e) := by
  obtain ⟨b', I', h1, h2, h3⟩ := knnAdd_ok (items := items) (present := present) hn q st.radius s e I st.buf
    h.holds h.within
  refine ⟨{ st with buf := b' }, I', ?_, ⟨h2, h.full.trans h3.length, h.within.mono h3, h.box⟩, hr, h3⟩
  unfold scanAdd
  rw [h1]
  rfl

theorem ScanOk.excl (hdist : IsCoordDist dist) {k : ℕ} {q : Point K d} {I : List α} {st : Scan α K d}
    (h : ScanOk k (fun p => dist q (pos p)) q I st) {r : K} (hr : st.radius = some r) {b : Box K d}
    (hb : KdTree.boxCompare (radiusBox q r) b = .excl) {L : List α} (hL : ∀ x ∈ L, b.Mem (pos x)) :
    Ext k (fun p => dist q (pos p)) I I L := by
  refine Ext.none fun y hy => ?_
  rw [radiusBox_eq] at hb
  have := excl_far hdist hb (hL y hy)
  exact (h.within r hr).trans (countP_le_mono this.le)

theorem knnPrune_ok (hn : NthPairs nth) (hdist : IsCoordDist dist) (update : Bool) {k : ℕ}
    {q : Point K d} (t : BT K d) (ht : Good pos items present t) (I : List α) (st : Scan α K d)
    (h : ScanOk k (fun p => dist q (pos p)) q I st) (hr : update = true ∨ ∃ r, st.radius = some r) :
    ∃ st' I', knnPrune nth dist pos update items present q t st = .ok st' ∧
      ScanOk k (fun p => dist q (pos p)) q I' st' ∧ (∃ r, st'.radius = some r) ∧
      Ext k (fun p => dist q (pos p)) I I' (live items present t.start t.stop) := by
  induction t generalizing I st with
  | nil => exact absurd ht (by simp [Good])
  | leaf idx s e cnt b =>
    obtain ⟨st1, h1, h2, r, h3⟩ : ∃ st1, (if update = true then shrink nth q st else .ok st) = .ok st1 ∧
        ScanOk k (fun p => dist q (pos p)) q I st1 ∧ ∃ r, st1.radius = some r := by
      split
      · exact shrink_ok hn h
      · rename_i hu
        exact ⟨st, rfl, h, hr.resolve_left hu⟩
    unfold knnPrune
    rw [h1]
    simp only [Except.bind]
    have hbox := h2.box
    rw [h3] at hbox
    simp only [Option.map_some] at hbox
    simp only [hbox]
    cases hb : KdTree.boxCompare (radiusBox q r) b with
    | excl => exact ⟨st1, I, rfl, h2, ⟨r, h3⟩, h2.excl hdist h3 hb ht.2.2.2⟩
    | incl => exact h2.add hn ⟨r, h3⟩ s e
    | overlap => exact h2.add hn ⟨r, h3⟩ s e
  | node idx s e dim val b l r' ihl ihr =>
    obtain ⟨st1, h1, h2, r, h3⟩ : ∃ st1, (if update = true then shrink nth q st else .ok st) = .ok st1 ∧
        ScanOk k (fun p => dist q (pos p)) q I st1 ∧ ∃ r, st1.radius = some r := by
      split
      · exact shrink_ok hn h
      · rename_i hu
        exact ⟨st, rfl, h, hr.resolve_left hu⟩
    unfold knnPrune
    rw [h1]
    simp only [Except.bind]
    have hbox := h2.box
    rw [h3] at hbox
    simp only [Option.map_some] at hbox
    simp only [hbox]
    cases hb : KdTree.boxCompare (radiusBox q r) b with
    | excl => exact ⟨st1, I, rfl, h2, ⟨r, h3⟩, h2.excl hdist h3 hb ht.1⟩
    | incl => exact h2.add hn ⟨r, h3⟩ s e
    | overlap =>
      simp only [ht.2.1.not_nil, Bool.false_and, Bool.false_eq_true, if_false]
      obtain ⟨st2, I2, a1, a2, a3, a4⟩ := ihl ht.2.1 I st1 h2 (Or.inr ⟨r, h3⟩)
      obtain ⟨st3, I3, b1, b2, b3, b4⟩ := ihr ht.2.2.1 I2 st2 a2 (Or.inr a3)
      rw [a1]
      refine ⟨st3, I3, b1, b2, b3, ?_⟩
      simp only [BT.start, BT.stop]
      rw [ht.node_live]
      exact a4.trans b4

theorem knnOther_ok (hn : NthPairs nth) (hdist : IsCoordDist dist) (update : Bool) {k : ℕ}
    {q : Point K d} (t : BT K d) (ht : Good pos items present t) (I : List α) (b : BBuf α K)
    (h : BHolds k (fun p => dist q (pos p)) I b) (hf : k ≤ I.length) :
    ∃ b' I', knnOther nth dist pos update items present q t b = .ok b' ∧
      BHolds k (fun p => dist q (pos p)) I' b' ∧
      Ext k (fun p => dist q (pos p)) I I' (live items present t.start t.stop) := by
  have h0 : ScanOk k (fun p => dist q (pos p)) q I (⟨none, none, b⟩ : Scan α K d) :=
    ⟨h, hf, fun r hr => by simp at hr, rfl⟩
  obtain ⟨st1, h1, h2, h3⟩ : ∃ st1, (if update = true then .ok ⟨none, none, b⟩ else
      shrink nth q (⟨none, none, b⟩ : Scan α K d)) = .ok st1 ∧
      ScanOk k (fun p => dist q (pos p)) q I st1 ∧ (update = true ∨ ∃ r, st1.radius = some r) := by
    split
    · rename_i hu
      exact ⟨_, rfl, h0, Or.inl hu⟩
    · obtain ⟨st', a, b, c⟩ := shrink_ok hn h0
      exact ⟨st', a, b, Or.inr c⟩
  obtain ⟨st2, I2, a1, a2, a3, a4⟩ := knnPrune_ok hn hdist update t ht I st1 h2 h3
  refine ⟨st2.buf, I2, ?_, a2.holds, a4⟩
  unfold knnOther
  rw [h1]
  simp only [Except.bind]
  rw [a1]
  rfl

theorem knnHelper_ok (hn : NthPairs nth) (hdist : IsCoordDist dist) (update recurse : Bool) {k : ℕ}
    {q : Point K d} (t : BT K d) (ht : Good pos items present t) (I : List α) (b : BBuf α K)
    (h : BHolds k (fun p => dist q (pos p)) I b) :
    ∃ b' I', knnHelper nth dist pos update recurse items present q t b = .ok b' ∧
      BHolds k (fun p => dist q (pos p)) I' b' ∧
      Ext k (fun p => dist q (pos p)) I I' (live items present t.start t.stop) := by
  have hnone : ∀ J : List α, Within k (fun p => dist q (pos p)) J none := fun J r hr => by simp at hr
  induction t generalizing I b with
  | nil => exact absurd ht (by simp [Good])
  | leaf idx s e cnt bx => exact knnAdd_ok hn q none s e I b h (hnone I)
  | node idx s e dim val bx l r ihl ihr =>
    have hnl := ht.2.1.not_nil
    have hnr := ht.2.2.1.not_nil
    unfold knnHelper
    simp only [hnl, hnr, Bool.false_and, Bool.false_eq_true, if_false, BT.start, BT.stop]
    rw [ht.node_live]
    have other : ∀ (o : BT K d) (J : List α) (b1 : BBuf α K), Good pos items present o →
        BHolds k (fun p => dist q (pos p)) J b1 →
        (∃ b' I', knnHelper nth dist pos update recurse items present q o b1 = .ok b' ∧
          BHolds k (fun p => dist q (pos p)) I' b' ∧
          Ext k (fun p => dist q (pos p)) J I' (live items present o.start o.stop)) →
        ∃ b' I', (if b1.hasK = true then knnOther nth dist pos update items present q o b1
          else if recurse = true then knnHelper nth dist pos update recurse items present q o b1
          else knnAdd nth dist pos items present q none o.start o.stop b1) = .ok b' ∧
          BHolds k (fun p => dist q (pos p)) I' b' ∧
          Ext k (fun p => dist q (pos p)) J I' (live items present o.start o.stop) := by
      intro o J b1 ho hJ hrec
      split
      · rename_i hK
        have := (NBInv.hasK_iff hJ).1 hK
        exact knnOther_ok hn hdist update o ho J b1 hJ (by simpa using this)
      · split
        · exact hrec
        · exact knnAdd_ok hn q none _ _ J b1 hJ (hnone J)
    split
    · obtain ⟨b1, I1, a1, a2, a3⟩ := ihl ht.2.1 I b h
      rw [a1]
      simp only [Except.bind]
      obtain ⟨b2, I2, c1, c2, c3⟩ := other r I1 b1 ht.2.2.1 a2 (ihr ht.2.2.1 I1 b1 a2)
      exact ⟨b2, I2, c1, c2, a3.trans c3⟩
    · obtain ⟨b1, I1, a1, a2, a3⟩ := ihr ht.2.2.1 I b h
      rw [a1]
      simp only [Except.bind]
      obtain ⟨b2, I2, c1, c2, c3⟩ := other l I1 b1 ht.2.1 a2 (ihl ht.2.1 I1 b1 a2)
      exact ⟨b2, I2, c1, c2, (a3.trans c3).perm List.perm_append_comm⟩

theorem Ext.adequate {k : ℕ} {cost : α → K} {I L : List α} (h : Ext k cost [] I L) :
    Adequate k cost I L := by
  obtain ⟨S, R, h1, h2, h3⟩ := h
  rw [List.nil_append] at h1
  exact ⟨R, (h1.append_right _).trans h2, h3⟩

end Verif.BatchKd
