import Verif.KdTree.KnnFloatModel
import Verif.KdTree.BccpFloatProps
import Verif.KdTree.KnnProps

set_option linter.unusedSectionVars false
set_option linter.unusedVariables false

/-!
Lemmas on the `k` nearest neighbour search in rounded arithmetic.
-/

namespace Verif.KdTree

open Verif.Float Verif.KnnBuf

variable {α : Type} {d : ℕ} {fl : ℝ → ℝ} {φ : ℝ → ℝ}

/-- What the search relies on: points outside the computed query box of radius `r` have a computed
distance of at least `φ r`. -/
structure Slack (fl : ℝ → ℝ) (q : Point ℝ d) (φ : ℝ → ℝ) : Prop where
  nonneg : ∀ p, 0 ≤ distFl fl q p
  mono : Monotone φ
  le : ∀ r, 0 ≤ r → φ r ≤ r
  far : ∀ r p, 0 ≤ r → ¬ (queryBoxFl fl q r).Mem p → φ r ≤ distFl fl q p

/-- The inserted items `I` are enough to answer a `k` nearest query on `all` up to `φ`. -/
def AdequateFl (φ : ℝ → ℝ) (k : ℕ) (cost : α → ℝ) (I all : List α) : Prop :=
  ∃ R, (I ++ R).Perm all ∧ ∀ y ∈ R, k ≤ I.countP fun x => φ (cost x) ≤ cost y

/-- Specification: `kept` are `k` of the items `l`, and no other item is nearer than `φ` of the cost
of any of them. -/
def KSmallestUpTo (φ : ℝ → ℝ) (cost : α → ℝ) (k : ℕ) (l kept : List α) : Prop :=
  kept.length = k ∧ ∃ rest, (kept ++ rest).Perm l ∧ ∀ x ∈ kept, ∀ y ∈ rest, φ (cost x) ≤ cost y

theorem excl_farFl {q p : Point ℝ d} (hφ : Slack fl q φ) {r : ℝ} (hr : 0 ≤ r) {b : Box ℝ d}
    (h : boxCompare (queryBoxFl fl q r) b = .excl) (hp : b.Mem p) : φ r ≤ distFl fl q p := by
  apply hφ.far r p hr
  intro hq
  obtain ⟨i, hi⟩ := boxCompare_excl h
  rcases hi with hi | hi
  · exact absurd (lt_of_le_of_lt (hq i).2 hi) (not_lt.mpr (hp i).1)
  · exact absurd (lt_of_lt_of_le hi (hq i).1) (not_lt.mpr (hp i).2)

theorem knnRangeHelper_okFl {nth : Nth α ℝ} (hn : NthSpec nth)
    (pos : α → Point ℝ d) (q : Point ℝ d) (hφ : Slack fl q φ) (k leafSize : ℕ) (r : ℝ) (hr : 0 ≤ r) (t : Tree α ℝ d)
    (ht : Sound pos leafSize t) (I : List α) (b : Buf α ℝ)
    (h : Holds k (fun p => distFl fl q (pos p)) I b) :
    ∃ b' S R, knnRangeHelper nth (distFl fl) pos q (queryBoxFl fl q r) r t b = .ok b' ∧
      Holds k (fun p => distFl fl q (pos p)) (I ++ S) b' ∧ (S ++ R).Perm t.items ∧
      ∀ y ∈ R, φ r ≤ distFl fl q (pos y) := by
  have hbox := ht.mem_box
  induction t generalizing I b with
  | leaf box items =>
    unfold knnRangeHelper
    split
    · rename_i he
      exact ⟨b, [], items, rfl, by simpa using h, by simp [Tree.items],
        fun y hy => excl_farFl hφ hr he (hbox y hy)⟩
    · obtain ⟨b', h1, h2⟩ := insertItems_ok hn (distFl fl) pos q k items I b h
      exact ⟨b', items, [], h1, h2, by simp [Tree.items], by simp⟩
    · obtain ⟨b', h1, h2⟩ := insertItems_ok hn (distFl fl) pos q k
        (items.filter fun p => distFl fl q (pos p) ≤ r) I b h
      refine ⟨b', _, items.filter (fun p => !decide (distFl fl q (pos p) ≤ r)), h1, h2, ?_, ?_⟩
      · exact List.filter_append_perm _ _
      · intro y hy
        have := (List.mem_filter.mp hy).2
        have : r < distFl fl q (pos y) := by simpa using this
        exact (hφ.le r hr).trans this.le
  | node box l r' ihl ihr =>
    unfold knnRangeHelper
    split
    · rename_i he
      exact ⟨b, [], l.items ++ r'.items, rfl, by simpa using h, by simp [Tree.items],
        fun y hy => excl_farFl hφ hr he (hbox y hy)⟩
    · obtain ⟨b', h1, h2⟩ := insertItems_ok hn (distFl fl) pos q k (l.items ++ r'.items) I b h
      exact ⟨b', l.items ++ r'.items, [], h1, h2, by simp [Tree.items], by simp⟩
    · obtain ⟨b1, S1, R1, h1, h2, h3, h4⟩ := ihl ht.2.2.1 I b h ht.2.2.1.mem_box
      obtain ⟨b2, S2, R2, h5, h6, h7, h8⟩ := ihr ht.2.2.2 _ b1 h2 ht.2.2.2.mem_box
      refine ⟨b2, S1 ++ S2, R1 ++ R2, ?_, by simpa using h6, ?_, ?_⟩
      · rw [h1]; exact h5
      · refine List.Perm.trans ?_ (h3.append h7)
        simp only [List.append_assoc]
        apply List.Perm.append_left
        rw [← List.append_assoc, ← List.append_assoc]
        exact List.perm_append_comm.append_right _
      · intro y hy
        rw [List.mem_append] at hy
        exact hy.elim (h4 y) (h8 y)


theorem countP_kept_leFl {β : Type} {cost : β → ℝ} {k : ℕ} {I kept : List β} {r : β}
    (hφ : Monotone φ) (h : KSmallest cost k I kept) (hr : ∀ x ∈ kept, cost x ≤ cost r) {c : ℝ}
    (hc : φ (cost r) ≤ c) : k ≤ I.countP fun x => φ (cost x) ≤ c := by
  obtain ⟨h1, rest, h2, h3⟩ := h
  rw [← h2.countP_eq, List.countP_append]
  have : kept.countP (fun x => φ (cost x) ≤ c) = k := by
    rw [← h1, List.countP_eq_length]
    intro x hx
    simpa using (hφ (hr x hx)).trans hc
  omega

/-- The step to the sibling. -/
theorem knnSibling_okFl {nth : Nth α ℝ} (hn : NthSpec nth)
    (pos : α → Point ℝ d) (q : Point ℝ d) (hφ : Slack fl q φ) (k leafSize : ℕ) (s : Tree α ℝ d)
    (hs : Sound pos leafSize s) (I all : List α) (b : Buf α ℝ)
    (h : Holds k (fun p => distFl fl q (pos p)) I b)
    (ha : AdequateFl φ k (fun p => distFl fl q (pos p)) I all) :
    ∃ b' I', knnSiblingFl fl nth pos q (some s) b = .ok b' ∧
      Holds k (fun p => distFl fl q (pos p)) I' b' ∧
      AdequateFl φ k (fun p => distFl fl q (pos p)) I' (all ++ s.items) := by
  obtain ⟨R, hR, hR2⟩ := ha
  unfold knnSiblingFl
  obtain ⟨lost, hl⟩ := h
  by_cases hk : b.hasK
  · rw [if_pos hk]
    have hk' : k ≤ (I.map fun p => (distFl fl q (pos p), p)).length := by
      rw [← hl.ptr_iff, ← hl.hk]
      simpa [Buf.hasK] using hk
    obtain ⟨b1, kept, r, h1, h2, -, -, h3, h4, h5⟩ := hl.keepK_spec hn hk'
    simp only
    rw [h1]
    simp only [Except.bind, knnRangeFl]
    have hr0 : 0 ≤ r.1 := by
      obtain ⟨-, rest, hp, -⟩ := h3
      have hm := hp.mem_iff.mp (List.mem_append_left rest h4)
      rw [List.mem_map] at hm
      obtain ⟨p, -, rfl⟩ := hm
      exact hφ.nonneg _
    obtain ⟨b2, S, R', h6, h7, h8, h9⟩ := knnRangeHelper_okFl hn pos q hφ k leafSize r.1 hr0 s hs I b1
      ⟨lost, h2⟩
    refine ⟨b2, I ++ S, h6, h7, R ++ R', ?_, ?_⟩
    · refine List.Perm.trans ?_ (hR.append h8)
      simp only [List.append_assoc]
      apply List.Perm.append_left
      rw [← List.append_assoc, ← List.append_assoc]
      exact List.perm_append_comm.append_right _
    · intro y hy
      rw [List.mem_append] at hy
      rw [List.countP_append]
      rcases hy with hy | hy
      · exact (hR2 y hy).trans (Nat.le_add_right _ _)
      · have hc := countP_kept_leFl hφ.mono h3 h5 (h9 y hy)
        rw [List.countP_map] at hc
        exact hc.trans (Nat.le_add_right _ _)
  · rw [if_neg hk]
    obtain ⟨b', h1, h2⟩ := insertItems_ok hn (distFl fl) pos q k s.items I b ⟨lost, hl⟩
    refine ⟨b', I ++ s.items, h1, h2, R, ?_, ?_⟩
    · refine List.Perm.trans ?_ (hR.append_right s.items)
      simp only [List.append_assoc]
      exact List.Perm.append_left _ List.perm_append_comm
    · intro y hy
      rw [List.countP_append]
      exact (hR2 y hy).trans (Nat.le_add_right _ _)


theorem knnHelper_exclFl {nth : Nth α ℝ} {pos : α → Point ℝ d}
    {q : Point ℝ d} {t : Tree α ℝ d} (h : ¬ t.box.Mem q) (sib : Option (Tree α ℝ d)) (b : Buf α ℝ) :
    knnHelperFl fl nth pos q t sib b = .ok b := by
  cases t with
  | leaf box items =>
    have := (boxCompare_point box q).mpr h
    unfold knnHelperFl
    rw [this]
  | node box l r =>
    have := (boxCompare_point box q).mpr h
    unfold knnHelperFl
    rw [this]


/-- The part of `knnHelper` before the sibling step, on a tree that stores the query. -/
theorem knnHelper_okFl {nth : Nth α ℝ} (hn : NthSpec nth)
    (pos : α → Point ℝ d) (q : Point ℝ d) (hφ : Slack fl q φ) (k leafSize : ℕ) (hk : 0 < k) (t : Tree α ℝ d)
    (ht : Sound pos leafSize t) (hd : DisjointBoxes t) (hq : ∃ x ∈ t.items, pos x = q) :
    ∃ b I, Holds k (fun p => distFl fl q (pos p)) I b ∧
      AdequateFl φ k (fun p => distFl fl q (pos p)) I t.items ∧
      ∀ sib, knnHelperFl fl nth pos q t sib (Buf.new k) = knnSiblingFl fl nth pos q sib b := by
  have hbox := ht.mem_box
  induction t with
  | leaf box items =>
    obtain ⟨b, h1, h2⟩ := insertItems_ok hn (distFl fl) pos q k items [] (Buf.new k) ⟨[], inv_new k hk⟩
    obtain ⟨x, hx, rfl⟩ := hq
    refine ⟨b, items, by simpa using h2, ⟨[], by simp [Tree.items], by simp⟩, ?_⟩
    intro sib
    have hne : boxCompare box ⟨pos x, pos x⟩ ≠ .excl := by
      rw [Ne, boxCompare_point, not_not]
      exact hbox x hx
    unfold knnHelperFl
    rw [h1]
    split
    · rename_i h; exact absurd h hne
    · rfl
  | node box l r ihl ihr =>
    obtain ⟨x, hx, rfl⟩ := hq
    have hne : boxCompare box ⟨pos x, pos x⟩ ≠ .excl := by
      rw [Ne, boxCompare_point, not_not]
      exact hbox x hx
    obtain ⟨⟨i, hi⟩, hdl, hdr⟩ := hd
    have hx' := hx
    rw [Tree.items, List.mem_append] at hx'
    rcases hx' with hxl | hxr
    · obtain ⟨b, I, h1, h2, h3⟩ := ihl ht.2.2.1 hdl ⟨x, hxl, rfl⟩ ht.2.2.1.mem_box
      have hml := ht.2.2.1.mem_box x hxl
      have hnr : ¬ r.box.Mem (pos x) := by
        intro hm
        rcases hi with hi | hi
        · exact absurd hi (not_lt.mpr ((hm i).1.trans (hml i).2))
        · exact absurd hi (not_lt.mpr ((hml i).1.trans (hm i).2))
      obtain ⟨b', I', h4, h5, h6⟩ := knnSibling_okFl hn pos (pos x) hφ k leafSize r ht.2.2.2 I
        l.items b h1 h2
      refine ⟨b', I', h5, h6, ?_⟩
      intro sib
      unfold knnHelperFl
      rw [h3, h4]
      simp only [Except.bind]
      rw [knnHelper_exclFl hnr]
    · obtain ⟨b, I, h1, h2, h3⟩ := ihr ht.2.2.2 hdr ⟨x, hxr, rfl⟩ ht.2.2.2.mem_box
      have hmr := ht.2.2.2.mem_box x hxr
      have hnl : ¬ l.box.Mem (pos x) := by
        intro hm
        rcases hi with hi | hi
        · exact absurd hi (not_lt.mpr ((hmr i).1.trans (hm i).2))
        · exact absurd hi (not_lt.mpr ((hm i).1.trans (hmr i).2))
      obtain ⟨b', I', h4, h5, h6⟩ := knnSibling_okFl hn pos (pos x) hφ k leafSize l ht.2.2.1 I
        r.items b h1 h2
      refine ⟨b', I', h5, ?_, ?_⟩
      · obtain ⟨R, hR, hR2⟩ := h6
        exact ⟨R, hR.trans List.perm_append_comm, hR2⟩
      intro sib
      unfold knnHelperFl
      rw [knnHelper_exclFl hnl]
      simp only [Except.bind]
      rw [h3, h4]


theorem kSmallest_adequateFl {k : ℕ} {cost : α → ℝ} {I all kept : List α} (hm : Monotone φ)
    (hle : ∀ r, 0 ≤ r → φ r ≤ r) (h0 : ∀ x, 0 ≤ cost x)
    (h : KSmallest cost k I kept) (ha : AdequateFl φ k cost I all) :
    KSmallestUpTo φ cost k all kept := by
  obtain ⟨h1, rest, h2, h3⟩ := h
  obtain ⟨R, h4, h5⟩ := ha
  refine ⟨h1, rest ++ R, ?_, ?_⟩
  · rw [← List.append_assoc]
    exact (h2.append_right R).trans h4
  · intro x hx y hy
    rw [List.mem_append] at hy
    rcases hy with hy | hy
    · exact (hle _ (h0 x)).trans (h3 x hx y hy)
    · by_contra hlt
      rw [not_le] at hlt
      have hc := h5 y hy
      rw [← h2.countP_eq, List.countP_append] at hc
      have h6 : rest.countP (fun z => φ (cost z) ≤ cost y) = 0 := by
        rw [List.countP_eq_zero]
        intro z hz
        simpa using lt_of_lt_of_le hlt (hm (h3 x hx z hz))
      have h7 : kept.countP (fun z => φ (cost z) ≤ cost y) < kept.length := by
        refine lt_of_le_of_ne List.countP_le_length ?_
        rw [Ne, List.countP_eq_length]
        intro hall
        have := hall _ hx
        simp at this
        exact absurd this (not_le.mpr hlt)
      omega


/-- Exactness of one query on a sound tree with disjoint sibling boxes that stores the query. -/
theorem knnQuery_okFl {nth : Nth α ℝ} (hn : NthSpec nth)
    {srt : List (Slot α ℝ) → List (Slot α ℝ)} (hsrt : SortSpec srt)
    (pos : α → Point ℝ d) (q : Point ℝ d) (hφ : Slack fl q φ) (k leafSize : ℕ) (hk : 1 ≤ k) (sorted : Bool)
    (t : Tree α ℝ d) (ht : Sound pos leafSize t) (hd : DisjointBoxes t)
    (hq : ∃ x ∈ t.items, pos x = q) (hkn : k ≤ t.items.length) :
    ∃ res, knnQueryFl fl nth srt pos k sorted t q = .ok res ∧
      KSmallestUpTo φ (fun p => distFl fl q (pos p)) k t.items res ∧
      (sorted → res.Pairwise fun x y => distFl fl q (pos x) ≤ distFl fl q (pos y)) := by
  obtain ⟨b, I, ⟨lost, h1⟩, h2, h3⟩ := knnHelper_okFl hn pos q hφ k leafSize hk t ht hd hq
  have hkI : k ≤ (I.map fun p => (distFl fl q (pos p), p)).length := by
    obtain ⟨R, hR, hR2⟩ := h2
    rw [List.length_map]
    cases R with
    | nil =>
      rw [List.append_nil] at hR
      rw [hR.length_eq]; exact hkn
    | cons y R =>
      exact (hR2 y (by simp)).trans List.countP_le_length
  obtain ⟨b1, kept, r, h4, h5, h6, h7, h8, -, -⟩ := h1.keepK_spec hn hkI
  obtain ⟨keep, h9, h10⟩ := kSmallest_map h8
  have hhas : b.hasK = true := by
    unfold Buf.hasK
    rw [decide_eq_true_iff, h1.hk, h1.ptr_iff]
    exact hkI
  have hbuf : b1.buf = [] ++ kept.map some ++ b1.buf.drop k := by
    rw [List.nil_append, ← h7, List.take_append_drop]
  have hres : KSmallestUpTo φ (fun p => distFl fl q (pos p)) k t.items keep := kSmallest_adequateFl hφ.mono hφ.le (fun x => hφ.nonneg _) h10 h2
  unfold knnQueryFl
  rw [h3]
  simp only [knnSiblingFl, hhas, if_true, Except.bind]
  rw [h4]
  simp only
  cases sorted with
  | false =>
    simp only [maybeSort]
    have := readEntries_ok b1 kept [] 0 rfl _ hbuf (by rw [h6, h8.1]; omega)
    rw [h8.1] at this
    simp only [Bool.false_eq_true, if_false]
    refine ⟨keep, ?_, hres, by simp⟩
    rw [this, h9, List.map_map]
    simp [Function.comp_def]
  | true =>
    simp only [maybeSort, if_true]
    have hs : b1.sort srt = .ok ⟨b1.k, b1.ptr, srt (b1.buf.take b1.k) ++ b1.buf.drop b1.k⟩ := by
      unfold Buf.sort
      rw [if_neg (by rw [h5.hk, h6]; omega)]
    rw [hs]
    simp only
    rw [h5.hk, h7]
    obtain ⟨hp, hsorted⟩ := hsrt (kept.map some)
    obtain ⟨kept', hk'1, hk'2⟩ : ∃ kept' : List (ℝ × α), srt (kept.map some) = kept'.map some ∧
        kept'.Perm kept := by
      have hne : ∀ s ∈ srt (kept.map some), s ≠ none := by
        intro s hs
        have := hp.mem_iff.mp hs
        rw [List.mem_map] at this
        obtain ⟨x, _, rfl⟩ := this
        simp
      refine ⟨_, forall_some hne, ?_⟩
      have : (srt (kept.map some)).reduceOption.Perm (kept.map some).reduceOption :=
        hp.filterMap _
      refine this.trans ?_
      rw [List.reduceOption, List.filterMap_map]
      simp
    obtain ⟨keep', hkeep', hkp⟩ : ∃ keep' : List α, kept' = keep'.map (fun p => (distFl fl q (pos p), p)) ∧
        keep'.Perm keep := by
      refine ⟨kept'.map (·.2), ?_, ?_⟩
      · have hall : ∀ x ∈ kept', x.1 = distFl fl q (pos x.2) := by
          intro x hx
          have := hk'2.mem_iff.mp hx
          rw [h9, List.mem_map] at this
          obtain ⟨p, _, rfl⟩ := this
          rfl
        clear hk'1 hk'2
        induction kept' with
        | nil => rfl
        | cons a l ih =>
          simp only [List.map_cons]
          rw [← ih fun x hx => hall x (by simp [hx]), ← hall a (by simp)]
      · have := hk'2.map (·.2)
        rw [h9, List.map_map] at this
        simpa [Function.comp_def] using this
    have hlen : kept'.length = k := by rw [hk'2.length_eq, h8.1]
    have := readEntries_ok ⟨k, b1.ptr, srt (kept.map some) ++ b1.buf.drop k⟩ kept' [] 0 rfl
      (b1.buf.drop k) (by rw [hk'1]; rfl) (by show 0 + kept'.length ≤ b1.ptr; rw [h6, hlen]; omega)
    rw [hlen] at this
    refine ⟨keep', ?_, ?_, ?_⟩
    · rw [this, hkeep', List.map_map]
      simp [Function.comp_def]
    · obtain ⟨h11, rest, h12, h13⟩ := hres
      exact ⟨by rw [hkp.length_eq, h11], rest, (hkp.append_right rest).trans h12,
        fun x hx y hy => h13 x (hkp.mem_iff.mp hx) y hy⟩
    · intro _
      rw [hk'1, hkeep', List.map_map, List.pairwise_map] at hsorted
      exact hsorted.imp fun h => by simpa using h


section
variable {u : ℝ}

/-- Specification: different values of one coordinate are apart by more than a few roundings. -/
def WellSpaced (u : ℝ) (pos : α → Point ℝ d) (items : List α) : Prop :=
  ∀ x ∈ items, ∀ y ∈ items, ∀ i, pos x i < pos y i →
    3 * u * (|pos x i| + |pos y i|) < pos y i - pos x i

theorem WellSpaced.subset {pos : α → Point ℝ d} {l l' : List α} (h : WellSpaced u pos l)
    (hs : ∀ x ∈ l', x ∈ l) : WellSpaced u pos l' :=
  fun x hx y hy => h x (hs x hx) y (hs y hy)

/-- The computed midpoint of well spaced numbers lies between them. -/
theorem mid_between (hf : IsRounding u fl) (hu : u ≤ 1) {a b : ℝ}
    (h : 3 * u * (|a| + |b|) < b - a) :
    a < fl (fl (b + a) / 2) ∧ fl (fl (b + a) / 2) ≤ b := by
  have hu0 := u_nonneg hf
  have e1 := abs_le.mp (hf.err (b + a))
  have e2 := abs_le.mp (hf.err (fl (b + a) / 2))
  have h1 : |b + a| ≤ |a| + |b| := by
    rw [add_comm (|a|)]
    exact abs_add_le _ _
  have h2 : u * |b + a| ≤ u * (|a| + |b|) := mul_le_mul_of_nonneg_left h1 hu0
  have h3 : |fl (b + a)| ≤ 2 * (|a| + |b|) := by
    have h4 : u * (|a| + |b|) ≤ |a| + |b| := by
      have : 0 ≤ |a| + |b| := by positivity
      nlinarith
    have hh := abs_le.mp h1
    rw [abs_le]
    constructor <;> linarith [e1.1, e1.2, hh.1, hh.2]
  have h5 : |fl (b + a) / 2| ≤ |a| + |b| := by
    rw [abs_div, abs_of_pos (by norm_num : (0 : ℝ) < 2)]
    linarith
  have h6 : u * |fl (b + a) / 2| ≤ u * (|a| + |b|) := mul_le_mul_of_nonneg_left h5 hu0
  constructor <;> linarith [e1.1, e1.2, e2.1, e2.2]

theorem findWidestFl_wide (hf : IsRounding u fl) (hu : u < 1) (b : Box ℝ d) (hd : 0 < d)
    (hb : ∀ i, b.lo i ≤ b.hi i) :
    ∃ k, findWidestFl fl b = .ok k ∧ (b.hi k = b.lo k → ∀ i, b.hi i = b.lo i) := by
  have key : ∀ (l : List (Fin d)) (s : ℝ × Option (Fin d)),
      (∀ k, s.2 = some k → s.1 = fl (b.hi k - b.lo k)) →
      ∀ k, (l.foldl (widestStepFl fl b) s).2 = some k →
        (l.foldl (widestStepFl fl b) s).1 = fl (b.hi k - b.lo k) := by
    intro l
    induction l with
    | nil => intro s hs; exact hs
    | cons a l ih =>
      intro s hs
      rw [List.foldl_cons]
      apply ih
      unfold widestStepFl
      split
      · intro k hk
        simp only [Option.some.injEq] at hk
        rw [← hk]
      · exact hs
  obtain ⟨k, hk⟩ := findWidestFl_ok hf.toIsMonoRounding b hd hb
  obtain ⟨h1, -, -⟩ := widestFl_fold hf.toIsMonoRounding b (List.finRange d) (-1, none)
  refine ⟨k, hk, ?_⟩
  intro hz i
  have h2 : ((List.finRange d).foldl (widestStepFl fl b) (-1, none)).2 = some k := by
    unfold findWidestFl at hk
    split at hk
    · rename_i k' hk'
      cases hk
      exact hk'
    · cases hk
  have h3 := key (List.finRange d) (-1, none) (by simp) k h2
  have h4 := h1 i (List.mem_finRange i)
  rw [h3, hz, sub_self, hf.zero] at h4
  have h5 := fl_ge hf (x := b.hi i - b.lo i) (by linarith [hb i])
  nlinarith [hb i]

theorem constructFl_sep (hf : IsRounding u fl) (hu : u < 1) (w bs : ℕ) (hw : 0 < w) (hb : 0 < bs) (hd : 0 < d) (pos : α → Point ℝ d)
    (leafSize : ℕ) (hls : 1 ≤ leafSize) (fuel : ℕ) (par : Bool) (items : List α) (h : items ≠ [])
    (hfu : items.length < fuel) (hsp : WellSpaced u pos items) :
    ∃ t, constructFl fl w bs pos leafSize fuel par items = .ok t ∧ t.items.Perm items ∧
      Sound pos leafSize t ∧ Separated pos t := by
  induction fuel generalizing par items with
  | zero => omega
  | succ fuel ih =>
    unfold constructFl
    set usePar : Bool := par && decide (items.length > 2000) with hup
    obtain ⟨box, hbox, htight⟩ : ∃ box, nodeBox w pos usePar items = .ok box ∧
        box.Tight pos items := by
      cases usePar
      · exact boxSerial_ok pos items h
      · exact boxParallel_ok w hw pos items h
    simp only [hbox, bind, Except.bind, pure, Except.pure]
    by_cases hle : items.length ≤ leafSize
    · rw [if_pos hle]
      exact ⟨_, rfl, List.Perm.refl _, ⟨h, hle, htight⟩, trivial⟩
    · rw [if_neg hle]
      obtain ⟨k, hk, hwide⟩ := findWidestFl_wide hf hu box hd (tight_le h htight)
      simp only [hk]
      set xM := fl (fl (box.hi k + box.lo k) / 2) with hxM
      obtain ⟨sp, hspl, hok⟩ : ∃ sp, nodeSplit bs (fun x => pos x k) xM usePar items = .ok sp ∧
          (SplitOk items (fun x => pos x k < xM) (fun x => xM ≤ pos x k) sp ∨
           SplitOk items (fun x => xM ≤ pos x k) (fun x => pos x k < xM) sp) := by
        cases usePar
        · obtain ⟨res, h1, h2⟩ := splitItemSerial_ok (fun x => pos x k) xM items (by omega)
          exact ⟨res, h1, Or.inl h2⟩
        · obtain ⟨res, h1, h2⟩ := splitParallel_ok bs hb (fun x => pos x k) xM items
          exact ⟨res, h1, Or.inr h2⟩
      simp only [hspl]
      set median := nodeMedian usePar items.length sp.2 with hmed
      have hperm : sp.1.Perm items := by rcases hok with h | h <;> exact h.1
      have hle2 : sp.2 ≤ items.length := by rcases hok with h | h <;> exact h.2.1
      have hlen : sp.1.length = items.length := hperm.length_eq
      have hm : 0 < median ∧ median < items.length := by
        have : median = (if sp.2 = 0 ∨ sp.2 = items.length then
          (if usePar = true then items.length / 2 else (items.length + 1) / 2) else sp.2) := hmed
        clear_value median
        split at this
        · split at this <;> omega
        · rename_i hn
          rw [not_or] at hn; omega
      have hlt : (sp.1.take median).length = median := by rw [List.length_take]; omega
      have hld : (sp.1.drop median).length = items.length - median := by rw [List.length_drop]; omega
      obtain ⟨l, hl1, hl2, hl3, hl4⟩ := ih usePar (sp.1.take median)
        (by intro h0; rw [h0] at hlt; simp at hlt; omega) (by omega)
        (hsp.subset fun x hx => hperm.mem_iff.mp (List.mem_of_mem_take hx))
      obtain ⟨r, hr1, hr2, hr3, hr4⟩ := ih usePar (sp.1.drop median)
        (by intro h0; rw [h0] at hld; simp at hld; omega) (by omega)
        (hsp.subset fun x hx => hperm.mem_iff.mp (List.mem_of_mem_drop hx))
      simp only [hl1, hr1]
      have hall : (l.items ++ r.items).Perm items := by
        refine (hl2.append hr2).trans ?_
        rw [List.take_append_drop]; exact hperm
      refine ⟨_, rfl, hall, ⟨by rw [hall.length_eq]; omega, tight_perm hall htight, hl3, hr3⟩, ?_, hl4,
        hr4⟩
      by_cases hdeg : sp.2 = 0 ∨ sp.2 = items.length
      · right
        have hz : box.lo k = box.hi k := by
          by_contra hne
          have hlt' : box.lo k < box.hi k := lt_of_le_of_ne (tight_le h htight k) hne
          obtain ⟨⟨a, ha, hae⟩, ⟨c, hc, hce⟩⟩ := htight.2 k
          obtain ⟨h1, h2⟩ : box.lo k < xM ∧ xM ≤ box.hi k := by
            have := hsp a ha c hc k (by rw [hae, hce]; exact hlt')
            rw [hae, hce] at this
            exact mid_between hf hu.le this
          have ha' := hperm.mem_iff.mpr ha
          have hc' := hperm.mem_iff.mpr hc
          rcases hdeg with h0 | h0
          · rcases hok with hok | hok
            · have := hok.2.2.2 a (by rw [h0]; simpa using ha')
              simp only at this
              rw [hae] at this; exact absurd h1 (not_lt.mpr this)
            · have := hok.2.2.2 c (by rw [h0]; simpa using hc')
              simp only at this
              rw [hce] at this; exact absurd this (not_lt.mpr h2)
          · rcases hok with hok | hok
            · have := hok.2.2.1 c (by rw [h0, List.take_of_length_le (by omega)]; exact hc')
              simp only at this
              rw [hce] at this; exact absurd this (not_lt.mpr h2)
            · have := hok.2.2.1 a (by rw [h0, List.take_of_length_le (by omega)]; exact ha')
              simp only at this
              rw [hae] at this; exact absurd h1 (not_lt.mpr this)
        have hpt : ∀ x ∈ l.items ++ r.items, pos x = box.lo := by
          intro x hx
          funext i
          have hxb := htight.1 x (hall.mem_iff.mp hx) i
          have := hwide hz.symm i
          linarith [hxb.1, hxb.2]
        intro x hx y hy
        rw [hpt x hx, hpt y hy]
      · left
        have hmm : median = sp.2 := by rw [hmed, nodeMedian, if_neg hdeg]
        refine ⟨k, xM, ?_⟩
        rcases hok with hok | hok
        · left
          exact ⟨fun x hx => hok.2.2.1 x (by rw [← hmm]; exact hl2.mem_iff.mp hx),
            fun x hx => hok.2.2.2 x (by rw [← hmm]; exact hr2.mem_iff.mp hx)⟩
        · right
          exact ⟨fun x hx => hok.2.2.1 x (by rw [← hmm]; exact hl2.mem_iff.mp hx),
            fun x hx => hok.2.2.2 x (by rw [← hmm]; exact hr2.mem_iff.mp hx)⟩

end

end Verif.KdTree
