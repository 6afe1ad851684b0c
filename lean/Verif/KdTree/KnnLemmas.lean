import Verif.KdTree.KnnModel
import Verif.KdTree.KnnBufProps
import Verif.KdTree.RangeProps

set_option linter.unusedSectionVars false
set_option linter.unusedVariables false

namespace Verif.KdTree

open Verif.KnnBuf

theorem _root_.Verif.KnnBuf.Inv.of_perm {α K : Type} [LinearOrder K] {k : ℕ}
    {ins ins' lost : List (K × α)} {b : Buf α K}
    (h : Inv k ins b lost) (hp : ins.Perm ins') : Inv k ins' b lost :=
  ⟨h.hk, h.kpos, h.len, h.ptr_lt, h.perm.trans hp, h.lost_le, h.full, h.small, h.large⟩

variable {α K : Type} {d : ℕ} [Field K] [LinearOrder K] [IsStrictOrderedRing K]

/-- The buffer holds the state after inserting the items `I`. -/
def Holds (k : ℕ) (cost : α → K) (I : List α) (b : Buf α K) : Prop :=
  ∃ lost, Inv k (I.map fun p => (cost p, p)) b lost

/-- The inserted items `I` are enough to answer a `k` nearest query on `all`. -/
def Adequate (k : ℕ) (cost : α → K) (I all : List α) : Prop :=
  ∃ R, (I ++ R).Perm all ∧ ∀ y ∈ R, k ≤ I.countP fun x => cost x ≤ cost y

theorem Holds.of_perm {k : ℕ} {cost : α → K} {I J : List α} {b : Buf α K} (h : Holds k cost I b)
    (hp : I.Perm J) : Holds k cost J b := by
  obtain ⟨lost, hl⟩ := h
  exact ⟨lost, hl.of_perm (hp.map _)⟩

theorem insertItems_ok {nth : Nth α K} (hn : NthSpec nth) (dist : Point K d → Point K d → K)
    (pos : α → Point K d) (q : Point K d) (k : ℕ) (l I : List α) (b : Buf α K)
    (h : Holds k (fun p => dist q (pos p)) I b) :
    ∃ b', insertItems nth dist pos q l b = .ok b' ∧
      Holds k (fun p => dist q (pos p)) (I ++ l) b' := by
  induction l generalizing I b with
  | nil => exact ⟨b, rfl, by simpa using h⟩
  | cons p l ih =>
    obtain ⟨lost, hl⟩ := h
    obtain ⟨b1, lost1, h1, h2⟩ := insert_inv hn hl (dist q (pos p), p)
    obtain ⟨b2, h3, h4⟩ := ih (p :: I) b1 ⟨lost1, h2⟩
    refine ⟨b2, ?_, h4.of_perm ?_⟩
    · unfold insertItems
      rw [h1]
      exact h3
    · exact (List.perm_middle (a := p) (l₁ := I) (l₂ := l)).symm

theorem knnRangeHelper_ok {nth : Nth α K} (hn : NthSpec nth)
    {dist : Point K d → Point K d → K} (hdist : IsCoordDist dist)
    (pos : α → Point K d) (q : Point K d) (k leafSize : ℕ) (r : K) (t : Tree α K d)
    (ht : Sound pos leafSize t) (I : List α) (b : Buf α K)
    (h : Holds k (fun p => dist q (pos p)) I b) :
    ∃ b' S R, knnRangeHelper nth dist pos q (queryBox q r) r t b = .ok b' ∧
      Holds k (fun p => dist q (pos p)) (I ++ S) b' ∧ (S ++ R).Perm t.items ∧
      ∀ y ∈ R, r < dist q (pos y) := by
  have hbox := ht.mem_box
  induction t generalizing I b with
  | leaf box items =>
    unfold knnRangeHelper
    split
    · rename_i he
      exact ⟨b, [], items, rfl, by simpa using h, by simp [Tree.items],
        fun y hy => excl_far hdist he (hbox y hy)⟩
    · obtain ⟨b', h1, h2⟩ := insertItems_ok hn dist pos q k items I b h
      exact ⟨b', items, [], h1, h2, by simp [Tree.items], by simp⟩
    · obtain ⟨b', h1, h2⟩ := insertItems_ok hn dist pos q k
        (items.filter fun p => dist q (pos p) ≤ r) I b h
      refine ⟨b', _, items.filter (fun p => !decide (dist q (pos p) ≤ r)), h1, h2, ?_, ?_⟩
      · exact List.filter_append_perm _ _
      · intro y hy
        have := (List.mem_filter.mp hy).2
        simpa using this
  | node box l r' ihl ihr =>
    unfold knnRangeHelper
    split
    · rename_i he
      exact ⟨b, [], l.items ++ r'.items, rfl, by simpa using h, by simp [Tree.items],
        fun y hy => excl_far hdist he (hbox y hy)⟩
    · obtain ⟨b', h1, h2⟩ := insertItems_ok hn dist pos q k (l.items ++ r'.items) I b h
      exact ⟨b', l.items ++ r'.items, [], h1, h2, by simp [Tree.items], by simp⟩
    · obtain ⟨b1, S1, R1, h1, h2, h3, h4⟩ := ihl ht.2.2.1 I b h ht.2.2.1.mem_box
      obtain ⟨b2, S2, R2, h5, h6, h7, h8⟩ := ihr ht.2.2.2 _ b1 h2 ht.2.2.2.mem_box
      refine ⟨b2, S1 ++ S2, R1 ++ R2, ?_, by simpa using h6, ?_, ?_⟩
      · rw [h1]; exact h5
      · refine List.Perm.trans ?_ (h3.append h7)
        simp only [List.append_assoc]
        apply List.Perm.append_left
        rw [← List.append_assoc, ← List.append_assoc]
        exact List.perm_append_comm.append_right _
      · intro y hy
        rw [List.mem_append] at hy
        exact hy.elim (h4 y) (h8 y)

theorem countP_kept_le {β : Type} {cost : β → K} {k : ℕ} {I kept : List β} {r : β} (h : KSmallest cost k I kept)
    (hr : ∀ x ∈ kept, cost x ≤ cost r) {c : K} (hc : cost r ≤ c) :
    k ≤ I.countP fun x => cost x ≤ c := by
  obtain ⟨h1, rest, h2, h3⟩ := h
  rw [← h2.countP_eq, List.countP_append]
  have : kept.countP (fun x => cost x ≤ c) = k := by
    rw [← h1, List.countP_eq_length]
    intro x hx
    simpa using (hr x hx).trans hc
  omega

theorem kSmallest_map {k : ℕ} {cost : α → K} {I : List α} {kept : List (K × α)}
    (h : KSmallest (·.1) k (I.map fun p => (cost p, p)) kept) :
    ∃ keep, kept = keep.map (fun p => (cost p, p)) ∧ KSmallest cost k I keep := by
  obtain ⟨h1, rest, h2, h3⟩ := h
  have hmem : ∀ x ∈ kept ++ rest, x.1 = cost x.2 := by
    intro x hx
    have := h2.mem_iff.mp hx
    rw [List.mem_map] at this
    obtain ⟨p, _, rfl⟩ := this
    rfl
  have hmap : ∀ l : List (K × α), (∀ x ∈ l, x.1 = cost x.2) →
      l = (l.map (·.2)).map (fun p => (cost p, p)) := by
    intro l hl
    induction l with
    | nil => rfl
    | cons a l ih =>
      simp only [List.map_cons]
      rw [← ih fun x hx => hl x (by simp [hx]), ← hl a (by simp)]
  refine ⟨kept.map (·.2), hmap kept fun x hx => hmem x (by simp [hx]), by simp [h1],
    rest.map (·.2), ?_, ?_⟩
  · have := h2.map (·.2)
    simpa [Function.comp_def] using this
  · intro x hx y hy
    rw [List.mem_map] at hx hy
    obtain ⟨x', hx', rfl⟩ := hx
    obtain ⟨y', hy', rfl⟩ := hy
    rw [← hmem x' (by simp [hx']), ← hmem y' (by simp [hy'])]
    exact h3 x' hx' y' hy'

/-- The step to the sibling. -/
theorem knnSibling_ok {nth : Nth α K} (hn : NthSpec nth)
    {dist : Point K d → Point K d → K} (hdist : IsCoordDist dist)
    (pos : α → Point K d) (q : Point K d) (k leafSize : ℕ) (s : Tree α K d)
    (hs : Sound pos leafSize s) (I all : List α) (b : Buf α K)
    (h : Holds k (fun p => dist q (pos p)) I b)
    (ha : Adequate k (fun p => dist q (pos p)) I all) :
    ∃ b' I', knnSibling nth dist pos q (some s) b = .ok b' ∧
      Holds k (fun p => dist q (pos p)) I' b' ∧
      Adequate k (fun p => dist q (pos p)) I' (all ++ s.items) := by
  obtain ⟨R, hR, hR2⟩ := ha
  unfold knnSibling
  obtain ⟨lost, hl⟩ := h
  by_cases hk : b.hasK
  · rw [if_pos hk]
    have hk' : k ≤ (I.map fun p => (dist q (pos p), p)).length := by
      rw [← hl.ptr_iff, ← hl.hk]
      simpa [Buf.hasK] using hk
    obtain ⟨b1, kept, r, h1, h2, -, -, h3, h4, h5⟩ := hl.keepK_spec hn hk'
    simp only
    rw [h1]
    simp only [Except.bind, knnRange]
    obtain ⟨b2, S, R', h6, h7, h8, h9⟩ := knnRangeHelper_ok hn hdist pos q k leafSize r.1 s hs I b1
      ⟨lost, h2⟩
    refine ⟨b2, I ++ S, h6, h7, R ++ R', ?_, ?_⟩
    · refine List.Perm.trans ?_ (hR.append h8)
      simp only [List.append_assoc]
      apply List.Perm.append_left
      rw [← List.append_assoc, ← List.append_assoc]
      exact List.perm_append_comm.append_right _
    · intro y hy
      rw [List.mem_append] at hy
      rw [List.countP_append]
      rcases hy with hy | hy
      · exact (hR2 y hy).trans (Nat.le_add_right _ _)
      · have hc := countP_kept_le h3 h5 (h9 y hy).le
        rw [List.countP_map] at hc
        exact hc.trans (Nat.le_add_right _ _)
  · rw [if_neg hk]
    obtain ⟨b', h1, h2⟩ := insertItems_ok hn dist pos q k s.items I b ⟨lost, hl⟩
    refine ⟨b', I ++ s.items, h1, h2, R, ?_, ?_⟩
    · refine List.Perm.trans ?_ (hR.append_right s.items)
      simp only [List.append_assoc]
      exact List.Perm.append_left _ List.perm_append_comm
    · intro y hy
      rw [List.countP_append]
      exact (hR2 y hy).trans (Nat.le_add_right _ _)

/-- At every internal node the boxes of the two children are disjoint. -/
def DisjointBoxes : Tree α K d → Prop
  | .leaf _ _ => True
  | .node _ l r => (∃ i, l.box.hi i < r.box.lo i ∨ r.box.hi i < l.box.lo i) ∧
      DisjointBoxes l ∧ DisjointBoxes r

theorem boxCompare_point (b : Box K d) (q : Point K d) :
    boxCompare b ⟨q, q⟩ = .excl ↔ ¬ b.Mem q := by
  unfold boxCompare Box.Mem
  split
  · rename_i h
    simp only [true_iff, not_forall]
    obtain ⟨i, hi⟩ := h
    refine ⟨i, ?_⟩
    rintro ⟨h1, h2⟩
    rcases hi with hi | hi
    · exact absurd hi (not_lt.mpr h2)
    · exact absurd hi (not_lt.mpr h1)
  · rename_i h
    constructor
    · intro h'
      split at h' <;> cases h'
    · intro h'
      exfalso
      apply h'
      intro i
      have := not_exists.mp h i
      rw [not_or, not_lt, gt_iff_lt, not_lt] at this
      exact ⟨this.2, this.1⟩

theorem knnHelper_excl {nth : Nth α K} {dist : Point K d → Point K d → K} {pos : α → Point K d}
    {q : Point K d} {t : Tree α K d} (h : ¬ t.box.Mem q) (sib : Option (Tree α K d)) (b : Buf α K) :
    knnHelper nth dist pos q t sib b = .ok b := by
  cases t with
  | leaf box items =>
    have := (boxCompare_point box q).mpr h
    unfold knnHelper
    rw [this]
  | node box l r =>
    have := (boxCompare_point box q).mpr h
    unfold knnHelper
    rw [this]

/-- The part of `knnHelper` before the sibling step, on a tree that stores the query. -/
theorem knnHelper_ok {nth : Nth α K} (hn : NthSpec nth)
    {dist : Point K d → Point K d → K} (hdist : IsCoordDist dist)
    (pos : α → Point K d) (q : Point K d) (k leafSize : ℕ) (hk : 0 < k) (t : Tree α K d)
    (ht : Sound pos leafSize t) (hd : DisjointBoxes t) (hq : ∃ x ∈ t.items, pos x = q) :
    ∃ b I, Holds k (fun p => dist q (pos p)) I b ∧
      Adequate k (fun p => dist q (pos p)) I t.items ∧
      ∀ sib, knnHelper nth dist pos q t sib (Buf.new k) = knnSibling nth dist pos q sib b := by
  have hbox := ht.mem_box
  induction t with
  | leaf box items =>
    obtain ⟨b, h1, h2⟩ := insertItems_ok hn dist pos q k items [] (Buf.new k) ⟨[], inv_new k hk⟩
    obtain ⟨x, hx, rfl⟩ := hq
    refine ⟨b, items, by simpa using h2, ⟨[], by simp [Tree.items], by simp⟩, ?_⟩
    intro sib
    have hne : boxCompare box ⟨pos x, pos x⟩ ≠ .excl := by
      rw [Ne, boxCompare_point, not_not]
      exact hbox x hx
    unfold knnHelper
    rw [h1]
    split
    · rename_i h; exact absurd h hne
    · rfl
  | node box l r ihl ihr =>
    obtain ⟨x, hx, rfl⟩ := hq
    have hne : boxCompare box ⟨pos x, pos x⟩ ≠ .excl := by
      rw [Ne, boxCompare_point, not_not]
      exact hbox x hx
    obtain ⟨⟨i, hi⟩, hdl, hdr⟩ := hd
    have hx' := hx
    rw [Tree.items, List.mem_append] at hx'
    rcases hx' with hxl | hxr
    · obtain ⟨b, I, h1, h2, h3⟩ := ihl ht.2.2.1 hdl ⟨x, hxl, rfl⟩ ht.2.2.1.mem_box
      have hml := ht.2.2.1.mem_box x hxl
      have hnr : ¬ r.box.Mem (pos x) := by
        intro hm
        rcases hi with hi | hi
        · exact absurd hi (not_lt.mpr ((hm i).1.trans (hml i).2))
        · exact absurd hi (not_lt.mpr ((hml i).1.trans (hm i).2))
      obtain ⟨b', I', h4, h5, h6⟩ := knnSibling_ok hn hdist pos (pos x) k leafSize r ht.2.2.2 I
        l.items b h1 h2
      refine ⟨b', I', h5, h6, ?_⟩
      intro sib
      unfold knnHelper
      rw [h3, h4]
      simp only [Except.bind]
      rw [knnHelper_excl hnr]
    · obtain ⟨b, I, h1, h2, h3⟩ := ihr ht.2.2.2 hdr ⟨x, hxr, rfl⟩ ht.2.2.2.mem_box
      have hmr := ht.2.2.2.mem_box x hxr
      have hnl : ¬ l.box.Mem (pos x) := by
        intro hm
        rcases hi with hi | hi
        · exact absurd hi (not_lt.mpr ((hmr i).1.trans (hm i).2))
        · exact absurd hi (not_lt.mpr ((hm i).1.trans (hmr i).2))
      obtain ⟨b', I', h4, h5, h6⟩ := knnSibling_ok hn hdist pos (pos x) k leafSize l ht.2.2.1 I
        r.items b h1 h2
      refine ⟨b', I', h5, ?_, ?_⟩
      · obtain ⟨R, hR, hR2⟩ := h6
        exact ⟨R, hR.trans List.perm_append_comm, hR2⟩
      intro sib
      unfold knnHelper
      rw [knnHelper_excl hnl]
      simp only [Except.bind]
      rw [h3, h4]

theorem kSmallest_adequate {k : ℕ} {cost : α → K} {I all kept : List α}
    (h : KSmallest cost k I kept) (ha : Adequate k cost I all) : KSmallest cost k all kept := by
  obtain ⟨h1, rest, h2, h3⟩ := h
  obtain ⟨R, h4, h5⟩ := ha
  refine ⟨h1, rest ++ R, ?_, ?_⟩
  · rw [← List.append_assoc]
    exact (h2.append_right R).trans h4
  · intro x hx y hy
    rw [List.mem_append] at hy
    rcases hy with hy | hy
    · exact h3 x hx y hy
    · by_contra hlt
      rw [not_le] at hlt
      have hc := h5 y hy
      rw [← h2.countP_eq, List.countP_append] at hc
      have h6 : rest.countP (fun z => cost z ≤ cost y) = 0 := by
        rw [List.countP_eq_zero]
        intro z hz
        simpa using lt_of_lt_of_le hlt (h3 x hx z hz)
      have h7 : kept.countP (fun z => cost z ≤ cost y) < kept.length := by
        refine lt_of_le_of_ne List.countP_le_length ?_
        rw [Ne, List.countP_eq_length]
        intro hall
        have := hall _ hx
        simp at this
        exact absurd this (not_le.mpr hlt)
      omega

theorem readEntries_ok (b : Buf α K) (keep : List (K × α)) (pre : List (Slot α K)) (j : ℕ)
    (hj : pre.length = j) (rest : List (Slot α K)) (hb : b.buf = pre ++ keep.map some ++ rest)
    (hp : j + keep.length ≤ b.ptr) :
    readEntries b j keep.length = .ok (keep.map (·.2)) := by
  induction keep generalizing pre j with
  | nil => rfl
  | cons e keep ih =>
    have hget : b.buf[j]? = some (some e) := by
      rw [hb, List.append_assoc, List.getElem?_append_right (by omega), hj]
      simp
    simp only [List.length_cons] at hp
    have := ih (pre ++ [some e]) (j + 1) (by simp [hj]) (by simp [hb]) (by omega)
    simp only [List.length_cons, readEntries, readEntry, Buf.get]
    rw [if_pos (by omega), hget]
    simp only [Except.bind]
    rw [this]
    rfl

end Verif.KdTree
