import Verif.KdTree.KnnLemmas

set_option linter.unusedSectionVars false
set_option linter.unusedVariables false

/-!
Property C06: `batchKnn`.
-/

namespace Verif.KdTree

open Verif.KnnBuf

variable {α K : Type} {d : ℕ}

section
variable [Field K] [LinearOrder K] [IsStrictOrderedRing K]

/-- If no position is shared by more than `leafSize` items, sibling boxes are disjoint. -/
theorem disjointBoxes_of_sound {pos : α → Point K d} {leafSize : ℕ} (hls : 1 ≤ leafSize)
    (t : Tree α K d) (ht : Sound pos leafSize t) (hs : Separated pos t)
    (hm : ∀ p, (t.items.countP fun x => pos x = p) ≤ leafSize) : DisjointBoxes t := by
  induction t with
  | leaf _ _ => trivial
  | node b l r ihl ihr =>
    obtain ⟨hsz, htight, hl, hr⟩ := ht
    obtain ⟨hs1, hs2, hs3⟩ := hs
    have hne : ∀ t : Tree α K d, Sound pos leafSize t → t.items ≠ [] := by
      intro t ht
      cases t with
      | leaf b items => exact ht.1
      | node b l r =>
        intro h
        have := ht.1
        rw [Tree.items] at h
        rw [h] at this
        simp at this
    have htl : ∀ t : Tree α K d, Sound pos leafSize t → t.box.Tight pos t.items := by
      intro t ht
      cases t with
      | leaf b items => exact ht.2.2
      | node b l r => exact ht.2.1
    refine ⟨?_, ihl hl hs2 ?_, ihr hr hs3 ?_⟩
    · rcases hs1 with ⟨k, c, h⟩ | h
      · refine ⟨k, ?_⟩
        obtain ⟨x, hx, hx2⟩ := ((htl l hl).2 k).2
        obtain ⟨x', hx', hx2'⟩ := ((htl l hl).2 k).1
        obtain ⟨y, hy, hy2⟩ := ((htl r hr).2 k).1
        obtain ⟨y', hy', hy2'⟩ := ((htl r hr).2 k).2
        rw [← hx2, ← hx2', ← hy2, ← hy2']
        rcases h with ⟨h1, h2⟩ | ⟨h1, h2⟩
        · exact Or.inl (lt_of_lt_of_le (h1 x hx) (h2 y hy))
        · exact Or.inr (lt_of_lt_of_le (h2 y' hy') (h1 x' hx'))
      · exfalso
        obtain ⟨x, hx⟩ := List.exists_mem_of_ne_nil _ (hne l hl)
        have h1 := hm (pos x)
        have h2 : ((l.items ++ r.items).countP fun y => pos y = pos x) =
            (l.items ++ r.items).length := by
          rw [List.countP_eq_length]
          intro y hy
          simpa using h y hy x (by simp [hx])
        rw [Tree.items, h2] at h1
        omega
    · intro p
      refine le_trans ?_ (hm p)
      rw [Tree.items, List.countP_append]
      omega
    · intro p
      refine le_trans ?_ (hm p)
      rw [Tree.items, List.countP_append]
      omega

/-- Exactness of one query on a sound tree with disjoint sibling boxes that stores the query. -/
theorem knnQuery_ok {nth : Nth α K} (hn : NthSpec nth)
    {srt : List (Slot α K) → List (Slot α K)} (hsrt : SortSpec srt)
    {dist : Point K d → Point K d → K} (hdist : IsCoordDist dist)
    (pos : α → Point K d) (q : Point K d) (k leafSize : ℕ) (hk : 1 ≤ k) (sorted : Bool)
    (t : Tree α K d) (ht : Sound pos leafSize t) (hd : DisjointBoxes t)
    (hq : ∃ x ∈ t.items, pos x = q) (hkn : k ≤ t.items.length) :
    ∃ res, knnQuery nth srt dist pos k sorted t q = .ok res ∧
      KSmallest (fun p => dist q (pos p)) k t.items res ∧
      (sorted → res.Pairwise fun x y => dist q (pos x) ≤ dist q (pos y)) := by
  obtain ⟨b, I, ⟨lost, h1⟩, h2, h3⟩ := knnHelper_ok hn hdist pos q k leafSize hk t ht hd hq
  have hkI : k ≤ (I.map fun p => (dist q (pos p), p)).length := by
    obtain ⟨R, hR, hR2⟩ := h2
    rw [List.length_map]
    cases R with
    | nil =>
      rw [List.append_nil] at hR
      rw [hR.length_eq]; exact hkn
    | cons y R =>
      exact (hR2 y (by simp)).trans List.countP_le_length
  obtain ⟨b1, kept, r, h4, h5, h6, h7, h8, -, -⟩ := h1.keepK_spec hn hkI
  obtain ⟨keep, h9, h10⟩ := kSmallest_map h8
  have hhas : b.hasK = true := by
    unfold Buf.hasK
    rw [decide_eq_true_iff, h1.hk, h1.ptr_iff]
    exact hkI
  have hbuf : b1.buf = [] ++ kept.map some ++ b1.buf.drop k := by
    rw [List.nil_append, ← h7, List.take_append_drop]
  have hres : KSmallest (fun p => dist q (pos p)) k t.items keep := kSmallest_adequate h10 h2
  unfold knnQuery
  rw [h3]
  simp only [knnSibling, hhas, if_true, Except.bind]
  rw [h4]
  simp only
  cases sorted with
  | false =>
    simp only [maybeSort]
    have := readEntries_ok b1 kept [] 0 rfl _ hbuf (by rw [h6, h8.1]; omega)
    rw [h8.1] at this
    simp only [Bool.false_eq_true, if_false]
    refine ⟨keep, ?_, hres, by simp⟩
    rw [this, h9, List.map_map]
    simp [Function.comp_def]
  | true =>
    simp only [maybeSort, if_true]
    have hs : b1.sort srt = .ok ⟨b1.k, b1.ptr, srt (b1.buf.take b1.k) ++ b1.buf.drop b1.k⟩ := by
      unfold Buf.sort
      rw [if_neg (by rw [h5.hk, h6]; omega)]
    rw [hs]
    simp only
    rw [h5.hk, h7]
    obtain ⟨hp, hsorted⟩ := hsrt (kept.map some)
    obtain ⟨kept', hk'1, hk'2⟩ : ∃ kept' : List (K × α), srt (kept.map some) = kept'.map some ∧
        kept'.Perm kept := by
      have hne : ∀ s ∈ srt (kept.map some), s ≠ none := by
        intro s hs
        have := hp.mem_iff.mp hs
        rw [List.mem_map] at this
        obtain ⟨x, _, rfl⟩ := this
        simp
      refine ⟨_, forall_some hne, ?_⟩
      have : (srt (kept.map some)).reduceOption.Perm (kept.map some).reduceOption :=
        hp.filterMap _
      refine this.trans ?_
      rw [List.reduceOption, List.filterMap_map]
      simp
    obtain ⟨keep', hkeep', hkp⟩ : ∃ keep' : List α, kept' = keep'.map (fun p => (dist q (pos p), p)) ∧
        keep'.Perm keep := by
      refine ⟨kept'.map (·.2), ?_, ?_⟩
      · have hall : ∀ x ∈ kept', x.1 = dist q (pos x.2) := by
          intro x hx
          have := hk'2.mem_iff.mp hx
          rw [h9, List.mem_map] at this
          obtain ⟨p, _, rfl⟩ := this
          rfl
        clear hk'1 hk'2
        induction kept' with
        | nil => rfl
        | cons a l ih =>
          simp only [List.map_cons]
          rw [← ih fun x hx => hall x (by simp [hx]), ← hall a (by simp)]
      · have := hk'2.map (·.2)
        rw [h9, List.map_map] at this
        simpa [Function.comp_def] using this
    have hlen : kept'.length = k := by rw [hk'2.length_eq, h8.1]
    have := readEntries_ok ⟨k, b1.ptr, srt (kept.map some) ++ b1.buf.drop k⟩ kept' [] 0 rfl
      (b1.buf.drop k) (by rw [hk'1]; rfl) (by show 0 + kept'.length ≤ b1.ptr; rw [h6, hlen]; omega)
    rw [hlen] at this
    refine ⟨keep', ?_, ?_, ?_⟩
    · rw [this, hkeep', List.map_map]
      simp [Function.comp_def]
    · obtain ⟨h11, rest, h12, h13⟩ := hres
      exact ⟨by rw [hkp.length_eq, h11], rest, (hkp.append_right rest).trans h12,
        fun x hx y hy => h13 x (hkp.mem_iff.mp hx) y hy⟩
    · intro _
      rw [hk'1, hkeep', List.map_map, List.pairwise_map] at hsorted
      exact hsorted.imp fun h => by simpa using h

theorem collect_ok {β ι : Type} (l : List ι) (f : ι → Except Err β) (P : ι → β → Prop)
    (h : ∀ i ∈ l, ∃ y, f i = .ok y ∧ P i y) :
    ∃ ys, collect (l.map f) = .ok ys ∧ List.Forall₂ P l ys := by
  induction l with
  | nil => exact ⟨[], rfl, List.Forall₂.nil⟩
  | cons i l ih =>
    obtain ⟨y, h1, h2⟩ := h i (by simp)
    obtain ⟨ys, h3, h4⟩ := ih fun j hj => h j (by simp [hj])
    refine ⟨y :: ys, ?_, List.Forall₂.cons h2 h4⟩
    rw [List.map_cons, collect, h1]
    simp only [Except.bind]
    rw [h3]
    rfl

end

/-- C06. For every list of `n` points in which no position occurs more than `leafSize` times, every
`1 ≤ k ≤ n` and every leaf size, `batchKnn` with a tree built over the points returns without error
and gives every query `k` different stored indices such that no other index is strictly closer;
with `sorted` they come in order of distance. Missing for the full property: inputs where a position
occurs more than `leafSize` times, for which the statement is false (`c06_duplicates_false`). -/
theorem c06_batchKnn_partial {n : ℕ} (w bs : ℕ) (hw : 0 < w) (hb : 0 < bs) (hd : 0 < d)
    (P : Fin n → Point ℝ d) (leafSize : ℕ) (hls : 1 ≤ leafSize) (parallel : Bool)
    (t : Tree (Fin n) ℝ d) (ht : build w bs P leafSize parallel (List.finRange n) = .ok t)
    (hm : ∀ p, ((List.finRange n).countP fun i => P i = p) ≤ leafSize)
    (nth : Nth (Fin n) ℝ) (hn : NthSpec nth)
    (srt : List (Slot (Fin n) ℝ) → List (Slot (Fin n) ℝ)) (hsrt : SortSpec srt)
    (k : ℕ) (hk : 1 ≤ k) (hkn : k ≤ n) (sorted : Bool) :
    ∃ rows, batchKnn nth srt eucl P k t sorted = .ok rows ∧
      List.Forall₂ (fun i row => row.length = k ∧ row.Nodup ∧
        (∀ x ∈ row, ∀ y, y ∉ row → eucl (P i) (P x) ≤ eucl (P i) (P y)) ∧
        (sorted → row.Pairwise fun x y => eucl (P i) (P x) ≤ eucl (P i) (P y)))
        (List.finRange n) rows := by
  have hne : List.finRange n ≠ [] := by
    intro h
    have := congrArg List.length h
    simp at this
    omega
  obtain ⟨t', h1, h2, h3, h4⟩ := c01_build w bs hw hb hd P leafSize hls parallel _ hne
  rw [h1] at ht
  cases ht
  have hdisj := disjointBoxes_of_sound hls t h3 h4 (by
    intro p
    rw [h2.countP_eq]
    exact hm p)
  unfold batchKnn
  apply collect_ok
  intro i _
  obtain ⟨res, h5, h6, h7⟩ := knnQuery_ok hn hsrt eucl_isCoordDist P (P i) k leafSize hk sorted t h3
    hdisj ⟨i, h2.mem_iff.mpr (List.mem_finRange i), rfl⟩
    (by rw [h2.length_eq]; simpa using hkn)
  refine ⟨res, h5, h6.1, ?_, ?_, h7⟩
  · obtain ⟨_, rest, hr1, _⟩ := h6
    have := (hr1.trans h2).nodup_iff.mpr (List.nodup_finRange n)
    exact (List.nodup_append.mp this).1
  · intro x hx y hy
    obtain ⟨_, rest, hr1, hr2⟩ := h6
    refine hr2 x hx y ?_
    have := (hr1.trans h2).mem_iff.mpr (List.mem_finRange y)
    rw [List.mem_append] at this
    exact this.resolve_left hy

/-- Non-vacuity of `c06_batchKnn_partial`: five points on a line, leaf size 2, k = 3. -/
example : ∃ rows : List (List (Fin 5)), ∃ t,
    build 1 1 (fun i => ![(i : ℝ)] : Fin 5 → Point ℝ 1) 2 false (List.finRange 5) = .ok t ∧
    batchKnn (fun _ l => sortSlots l) sortSlots eucl (fun i => ![(i : ℝ)]) 3 t true = .ok rows ∧
    rows.length = 5 := by
  obtain ⟨t, ht, -⟩ := c01_build 1 1 (by decide) (by decide) (by decide)
    (fun i => ![(i : ℝ)] : Fin 5 → Point ℝ 1) 2 (by decide) false (List.finRange 5) (by decide)
  obtain ⟨rows, h1, h2⟩ := c06_batchKnn_partial 1 1 (by decide) (by decide) (by decide)
    (fun i => ![(i : ℝ)] : Fin 5 → Point ℝ 1) 2 (by decide) false t ht (by
      intro p
      have hinj : ∀ i j : Fin 5, (![(i : ℝ)] : Point ℝ 1) = p → (![(j : ℝ)] : Point ℝ 1) = p →
          i = j := by
        intro i j hi hj
        have := congrFun (hi.trans hj.symm) 0
        simpa [Fin.val_inj] using this
      by_cases hp : ∃ i : Fin 5, (![(i : ℝ)] : Point ℝ 1) = p
      · obtain ⟨i, hi⟩ := hp
        have : ((List.finRange 5).countP fun j : Fin 5 => (![(j : ℝ)] : Point ℝ 1) = p) =
            (List.finRange 5).countP (· = i) := by
          apply List.countP_congr
          intro j _
          simp only [decide_eq_true_eq]
          exact ⟨fun h => hinj j i h hi, fun h => h ▸ hi⟩
        rw [this]
        clear this hi
        revert i
        decide
      · have : ((List.finRange 5).countP fun j : Fin 5 => (![(j : ℝ)] : Point ℝ 1) = p) = 0 := by
          rw [List.countP_eq_zero]
          intro j _
          simp only [decide_eq_true_eq]
          exact fun h => hp ⟨j, h⟩
        rw [this]
        decide)
    (fun _ l => sortSlots l) nthSpec_sort sortSlots sortSpec_sort 3 (by decide) (by decide) true
  exact ⟨rows, t, ht, h1, by have := h2.length_eq; simpa using this.symm⟩

/-- The one-dimensional Euclidean distance, over the rationals so that it can be computed
(`include/pargeo/point.h:103-105` for dimension 1). -/
def dist1 (p q : Point ℚ 1) : ℚ := |p 0 - q 0|


/-- C06 is false without the bound on coinciding points: with points 0, 0, 10 on a line, leaf size 1
(so that more than `leafSize` points coincide) and `k = 3`, a row has a repeated index and misses
the third point. -/
theorem c06_duplicates_false : ∃ (n k : ℕ) (P : Fin n → Point ℚ 1) (nth : Nth (Fin n) ℚ)
    (rows : List (List (Fin n))), NthSpec nth ∧ 1 ≤ k ∧ k ≤ n ∧
    ((build 1 1 P 1 false (List.finRange n)).bind fun t =>
      batchKnn nth sortSlots dist1 P k t false) = .ok rows ∧
    ∃ row ∈ rows, ¬ row.Nodup ∧ ∃ y, y ∉ row := by
  refine ⟨3, 3, ![![0], ![0], ![10]], fun _ l => sortSlots l, [[0, 1, 1], [0, 1, 1], [2, 0, 1]],
    nthSpec_sort, by decide, by decide, ?_, [0, 1, 1], ?_⟩
  · decide +kernel
  · decide

/-- A query outside the box of the whole tree makes the search throw, whatever `k ≥ 1`. -/
theorem c06_outside_throws [Field K] [LinearOrder K] [IsStrictOrderedRing K]
    (nth : Nth α K) (srt : List (Slot α K) → List (Slot α K))
    (dist : Point K d → Point K d → K) (pos : α → Point K d) (k : ℕ) (hk : 1 ≤ k) (sorted : Bool)
    (t : Tree α K d) (q : Point K d) (h : ¬ t.box.Mem q) :
    knnQuery nth srt dist pos k sorted t q = .error .throws := by
  unfold knnQuery
  rw [knnHelper_excl h]
  simp only [Except.bind]
  rw [c05_throws nth k hk]

/-- Asking for more neighbours than there are stored points throws. -/
theorem c06_k_gt_n_throws [Field K] [LinearOrder K] [IsStrictOrderedRing K]
    (nth : Nth α K) (hn : NthSpec nth) (srt : List (Slot α K) → List (Slot α K))
    (dist : Point K d → Point K d → K) (hdist : IsCoordDist dist) (pos : α → Point K d)
    (k leafSize : ℕ) (sorted : Bool) (t : Tree α K d) (ht : Sound pos leafSize t)
    (hd : DisjointBoxes t) (q : Point K d) (hq : ∃ x ∈ t.items, pos x = q)
    (hk : t.items.length < k) :
    knnQuery nth srt dist pos k sorted t q = .error .throws := by
  obtain ⟨b, I, ⟨lost, h1⟩, ⟨R, hR, -⟩, h3⟩ := knnHelper_ok hn hdist pos q k leafSize
    (by omega) t ht hd hq
  have hhas : b.hasK = false := by
    unfold Buf.hasK
    rw [decide_eq_false_iff_not, h1.hk, h1.ptr_iff]
    have := hR.length_eq
    simp at this ⊢
    omega
  unfold knnQuery
  rw [h3]
  simp [knnSibling, hhas, Except.bind]

/-- A query that is inside a node's box but in neither child box gets wrong neighbours: the
nearest stored point to 1 among 0, 2, 100 (leaf size 1) is not 100, but 100 is returned. Only
queries at stored points are covered by C06. -/
theorem c06_not_stored_false : ∃ (P : Fin 3 → Point ℚ 1) (nth : Nth (Fin 3) ℚ) (q : Point ℚ 1)
    (row : List (Fin 3)), NthSpec nth ∧
    ((build 1 1 P 1 false (List.finRange 3)).bind fun t =>
      knnQuery nth sortSlots dist1 P 1 false t q) = .ok row ∧
    ∃ x ∈ row, ∃ y, y ∉ row ∧ dist1 q (P y) < dist1 q (P x) := by
  refine ⟨![![0], ![2], ![100]], fun _ l => sortSlots l, ![1], [2], nthSpec_sort, ?_, ?_⟩
  · decide +kernel
  · decide +kernel

end Verif.KdTree
