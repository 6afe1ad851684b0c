import Verif.LogTree.BufModel
import Verif.BatchKd.KnnLemmas
import Verif.KdTree.KnnLemmas

set_option linter.unusedSectionVars false
set_option linter.unusedVariables false

/-!
Lemmas about the array buffer.
-/

namespace Verif.LogTree.Arr

open Verif BatchKd
open Verif.KnnBuf (KSmallest)

variable {α K : Type} {d : ℕ}

theorem putAll_ok (start : ℕ) (pts : List α) : ∀ (is : List ℕ) (cells : List (α × Bool)),
    (∀ i ∈ is, i < pts.length) → start + pts.length ≤ cells.length →
    ∃ cells', putAll start pts is cells = .ok cells' ∧ cells'.length = cells.length ∧
      ∀ k, cells'[k]? = if start ≤ k ∧ k - start ∈ is then (pts[k - start]?).map fun x => (x, true) else cells[k]?
  | [], cells, _, _ => ⟨cells, rfl, rfl, fun k => by simp⟩
  | i :: is, cells, h, hl => by
    have hi := h i (by simp)
    obtain ⟨c', h1, h2, h3⟩ := putAll_ok start pts is (cells.set (start + i) (pts[i], true))
      (fun j hj => h j (by simp [hj])) (by simpa using hl)
    refine ⟨c', ?_, by simpa using h2, ?_⟩
    · unfold putAll putOne
      rw [List.getElem?_eq_getElem hi]
      dsimp only
      rw [if_pos (by omega)]
      exact h1
    · intro k
      rw [h3]
      by_cases hk : start ≤ k ∧ k - start ∈ is
      · rw [if_pos hk, if_pos ⟨hk.1, by simp [hk.2]⟩]
      · rw [if_neg hk, List.getElem?_set]
        by_cases hki : start + i = k
        · subst hki
          rw [if_pos rfl, if_pos (by omega), if_pos ⟨by omega, by simp⟩,
            Nat.add_sub_cancel_left, List.getElem?_eq_getElem hi]
          rfl
        · rw [if_neg hki, if_neg]
          rintro ⟨h4, h5⟩
          rcases List.mem_cons.1 h5 with h5 | h5
          · omega
          · exact hk ⟨h4, h5⟩

theorem putAll_take {start : ℕ} {pts : List α} {is : List ℕ} {cells : List (α × Bool)}
    (hp : is.Perm (List.range pts.length)) (hl : start + pts.length ≤ cells.length) :
    ∃ cells', putAll start pts is cells = .ok cells' ∧ cells'.length = cells.length ∧
      cells'.take (start + pts.length) = cells.take start ++ pts.map fun x => (x, true) := by
  obtain ⟨c', h1, h2, h3⟩ := putAll_ok start pts is cells (fun i hi => by simpa using hp.subset hi) hl
  refine ⟨c', h1, h2, List.ext_getElem? fun k => ?_⟩
  rw [List.getElem?_take, List.getElem?_append, List.length_take, min_eq_left (by omega), List.getElem?_take,
    List.getElem?_map, h3]
  by_cases hk : k < start
  · rw [if_pos (by omega), if_pos hk, if_pos hk, if_neg (by omega)]
  · rw [if_neg hk]
    by_cases hk2 : k < start + pts.length
    · rw [if_pos hk2, if_pos ⟨by omega, hp.mem_iff.2 (by simp; omega)⟩]
    · rw [if_neg hk2, List.getElem?_eq_none (by omega)]
      rfl

section
variable [DecidableEq K] {pos : α → Point K d}

theorem eraseFold_ok (pts : List α) : ∀ (is : List (ℕ × ℕ)) (cells : List (α × Bool)),
    (is.foldl (eraseOne pos pts) cells).length = cells.length ∧
    ∀ j, (is.foldl (eraseOne pos pts) cells)[j]? = (cells[j]?).map fun c =>
      (c.1, c.2 && !(is.any fun ij => decide (ij.2 = j) && (pts[ij.1]?).any fun p => decide (pos p = pos c.1)))
  | [], cells => ⟨rfl, fun j => by simp⟩
  | ij :: is, cells => by
    obtain ⟨h1, h2⟩ := eraseFold_ok pts is (eraseOne pos pts cells ij)
    have key : (eraseOne pos pts cells ij).length = cells.length ∧
        ∀ j, (eraseOne pos pts cells ij)[j]? = (cells[j]?).map fun c =>
          (c.1, c.2 && !(decide (ij.2 = j) && (pts[ij.1]?).any fun p => decide (pos p = pos c.1))) := by
      unfold eraseOne
      cases hp : pts[ij.1]? with
      | none => exact ⟨rfl, fun j => by simp⟩
      | some p =>
        cases hc : cells[ij.2]? with
        | none =>
          refine ⟨rfl, fun j => ?_⟩
          by_cases hj : ij.2 = j
          · subst hj; rw [hc]; rfl
          · simp [hj]
        | some c =>
          dsimp only
          split
          · rename_i hq
            rw [Bool.and_eq_true, decide_eq_true_iff] at hq
            refine ⟨by simp, fun j => ?_⟩
            rw [List.getElem?_set]
            by_cases hj : ij.2 = j
            · subst hj
              have hlt : ij.2 < cells.length := by
                rcases Nat.lt_or_ge ij.2 cells.length with h | h
                · exact h
                · rw [List.getElem?_eq_none h] at hc; exact absurd hc (by simp)
              rw [if_pos rfl, if_pos hlt, hc]
              simp [hq.2]
            · simp [hj]
          · rename_i hq
            refine ⟨rfl, fun j => ?_⟩
            by_cases hj : ij.2 = j
            · subst hj
              rw [hc]
              rcases c with ⟨x, b⟩
              cases b
              · simp
              · have : ¬ pos p = pos x := by simpa using hq
                simp [this]
            · simp [hj]
    refine ⟨h1.trans key.1, fun j => ?_⟩
    rw [List.foldl_cons, h2, key.2, Option.map_map]
    congr 1
    funext c
    simp only [Function.comp_apply, List.any_cons, Prod.mk.injEq, true_and]
    cases c.2 <;> simp

/-- The erase loop clears the flags of the listed points and nothing else. -/
theorem eraseFold_take {pts : List α} {is : List (ℕ × ℕ)} {cells : List (α × Bool)} {u : ℕ}
    (hp : ∀ i j, (i, j) ∈ is ↔ i < pts.length ∧ j < u) :
    (is.foldl (eraseOne pos pts) cells).take u =
      (cells.take u).map fun c => (c.1, c.2 && !(pts.any fun p => decide (pos p = pos c.1))) := by
  obtain ⟨-, h2⟩ := eraseFold_ok (pos := pos) pts is cells
  apply List.ext_getElem?
  intro j
  rw [List.getElem?_take, List.getElem?_map, List.getElem?_take]
  by_cases hj : j < u
  · rw [if_pos hj, if_pos hj, h2]
    congr 1
    funext c
    have : (is.any fun ij => decide (ij.2 = j) && (pts[ij.1]?).any fun p => decide (pos p = pos c.1)) =
        pts.any fun p => decide (pos p = pos c.1) := by
      rw [Bool.eq_iff_iff, List.any_eq_true, List.any_eq_true]
      constructor
      · rintro ⟨⟨i, j'⟩, hm, hq⟩
        rw [Bool.and_eq_true, decide_eq_true_iff] at hq
        obtain ⟨h3, h4⟩ := hq
        have hi := ((hp i j').1 hm).1
        dsimp only at h4
        rw [List.getElem?_eq_getElem hi] at h4
        exact ⟨pts[i], List.getElem_mem hi, by simpa using h4⟩
      · rintro ⟨p, hm, hq⟩
        obtain ⟨i, hi, rfl⟩ := List.getElem_of_mem hm
        refine ⟨(i, j), (hp i j).2 ⟨hi, hj⟩, ?_⟩
        dsimp only
        rw [List.getElem?_eq_getElem hi]
        simpa using hq
    rw [this]
  · rw [if_neg hj, if_neg hj]
    rfl

/-- The loop of `contains` in any order. -/
theorem containsFold (cells : List (α × Bool)) (p : Point K d) : ∀ (is : List ℕ) (r : Bool),
    is.foldl (look pos p cells) r =
    (r || is.any fun i => (cells[i]?).any fun c => c.2 && decide (p = pos c.1))
  | [], r => by simp
  | i :: is, r => by
    rw [List.foldl_cons, containsFold cells p is, List.any_cons]
    unfold look
    cases hc : cells[i]? with
    | none => simp
    | some c =>
      by_cases hq : (c.2 && decide (p = pos c.1)) = true
      · simp [hq]
      · simp only [Bool.not_eq_true] at hq
        simp [hq]

theorem contains_eq {ord : ℕ → List ℕ} (hord : ∀ n, (ord n).Perm (List.range n)) {b : AB α} (p : Point K d) :
    contains pos ord b p = (packed b).any fun x => decide (pos x = p) := by
  unfold contains
  rw [containsFold, Bool.false_or, Bool.eq_iff_iff, List.any_eq_true, List.any_eq_true]
  unfold packed
  constructor
  · rintro ⟨i, hi, hq⟩
    have hi' : i < b.used := by simpa using (hord _).subset hi
    cases hc : b.cells[i]? with
    | none => rw [hc] at hq; exact absurd hq (by simp)
    | some c =>
      rw [hc] at hq
      simp only [Option.any_some, Bool.and_eq_true, decide_eq_true_iff] at hq
      refine ⟨c.1, List.mem_map.2 ⟨c, List.mem_filter.2 ⟨?_, hq.1⟩, rfl⟩, by simp [hq.2]⟩
      apply List.mem_of_getElem? (i := i)
      rw [List.getElem?_take, if_pos hi', hc]
  · rintro ⟨x, hx, hq⟩
    obtain ⟨c, hc, rfl⟩ := List.mem_map.1 hx
    obtain ⟨hc1, hc2⟩ := List.mem_filter.1 hc
    obtain ⟨i, hi⟩ := List.mem_iff_getElem?.1 hc1
    rw [List.getElem?_take] at hi
    split at hi
    · rename_i hlt
      refine ⟨i, (hord _).mem_iff.2 (by simpa using hlt), ?_⟩
      rw [hi]
      simp only [decide_eq_true_iff] at hq
      simp [hc2, hq]
    · exact absurd hi (by simp)

end

section
variable [Field K] [LinearOrder K] {pos : α → Point K d}

theorem boxCompare_incl_point (q : Box K d) (p : Point K d) :
    KdTree.boxCompare q ⟨p, p⟩ = .incl ↔ ∀ i, q.lo i ≤ p i ∧ p i ≤ q.hi i := by
  constructor
  · intro h i
    have := KdTree.boxCompare_incl h i
    exact ⟨this.2, this.1⟩
  · intro h
    unfold KdTree.boxCompare
    rw [if_neg, if_pos]
    · intro i
      rw [not_or, not_lt, gt_iff_lt, not_lt]
      exact ⟨(h i).2, (h i).1⟩
    · rintro ⟨i, hi⟩
      rcases hi with hi | hi
      · exact absurd hi (not_lt.2 (h i).2)
      · exact absurd hi (not_lt.2 (h i).1)

theorem orthogonalQuery_eq (b : AB α) (q : Box K d) :
    orthogonalQuery pos b q = (packed b).filter fun x => decide (∀ i, q.lo i ≤ pos x i ∧ pos x i ≤ q.hi i) := by
  unfold orthogonalQuery packed
  rw [List.filter_map, List.filter_filter]
  congr 1
  apply List.filter_congr
  intro c _
  simp only [Function.comp_apply]
  rw [Bool.and_comm]
  congr 1
  rw [decide_eq_decide]
  exact boxCompare_incl_point q (pos c.1)

variable [IsStrictOrderedRing K] {nth : ℕ → List (K × α) → List (K × α)} {dist : Point K d → Point K d → K}

/-- All items are inserted; the number of kept elements follows from their number. -/
theorem addAll_ok (hn : NthPairs nth) (q : Point K d) {k : ℕ} : ∀ (L I : List α) (b : BBuf α K),
    NBInv k (I.map fun x => (dist q (pos x), x)) b →
    (b.elems.length % k = I.length % k) →
    ∃ b', addItems nth dist pos q none L b = .ok b' ∧
      NBInv k ((I ++ L).map fun x => (dist q (pos x), x)) b' ∧ b'.elems.length % k = (I ++ L).length % k
  | [], I, b, h, hm => ⟨b, rfl, by simpa using h, by simpa using hm⟩
  | x :: L, I, b, h, hm => by
    obtain ⟨b1, h1, h2⟩ := NBInv.insert hn h (dist q (pos x), x)
    have hb1 : b1.elems.length % k = (I ++ [x]).length % k := by
      have hlen := h.len
      have hk := h.hk
      have hkp := h.kpos
      have hgoal : (b.elems.length + 1) % k = (I.length + 1) % k := by
        rw [Nat.add_mod, hm, ← Nat.add_mod]
      rw [List.length_append, List.length_singleton, ← hgoal]
      unfold BBuf.insert at h1
      rw [if_neg (by rw [hk]; omega)] at h1
      dsimp only at h1
      split at h1
      · rename_i hfull
        rw [List.length_append, List.length_singleton, hk] at hfull
        unfold BBuf.keepK at h1
        dsimp only at h1
        rw [if_neg (by rw [List.length_append, List.length_singleton, hk]; omega),
          if_neg (by rw [hk]; omega)] at h1
        simp only [Bool.false_eq_true, if_false] at h1
        split at h1
        · have := Except.ok.inj h1
          rw [← this]
          dsimp only
          have hp := (hn (b.k - 1) (b.elems ++ [(dist q (pos x), x)])
            (by rw [List.length_append, List.length_singleton]; omega)).1.length_eq
          rw [List.length_take, hp, List.length_append, List.length_singleton, hk]
          have : b.elems.length + 1 = k * 2 := by omega
          rw [this, min_eq_left (by omega)]
          simp
        · cases h1
      · have := Except.ok.inj h1
        rw [← this]
        simp
    obtain ⟨b', h3, h4, h5⟩ := addAll_ok hn q L (I ++ [x]) b1 (by simpa using h2) hb1
    refine ⟨b', ?_, by simpa using h4, by simpa using h5⟩
    unfold addItems
    rw [if_pos (by rfl), h1]
    exact h3

/-- A buffer with exactly `k` elements holds `k` nearest items. -/
theorem NBInv.exact {k : ℕ} {q : Point K d} {I : List α} {b : BBuf α K}
    (h : NBInv k (I.map fun x => (dist q (pos x), x)) b) (hl : b.elems.length = k) :
    KSmallest (fun x => dist q (pos x)) k I (b.elems.map fun x => x.2) := by
  obtain ⟨lost, h1, h2⟩ := h.lost
  have hcost : ∀ e ∈ b.elems ++ lost, e.1 = dist q (pos e.2) := by
    intro e he
    obtain ⟨x, -, rfl⟩ := List.mem_map.1 (h1.subset he)
    rfl
  refine ⟨by simpa using hl, lost.map fun x => x.2, ?_, ?_⟩
  · rw [← List.map_append]
    have := h1.map fun x => x.2
    rw [List.map_map] at this
    simpa [Function.comp_def] using this
  · intro x hx y hy
    obtain ⟨e, he, rfl⟩ := List.mem_map.1 hx
    obtain ⟨f, hf, rfl⟩ := List.mem_map.1 hy
    have hc := h2 f hf
    have : ∀ e ∈ b.elems, decide (e.1 ≤ f.1) = true := by
      have h3 : b.elems.countP (fun x => decide (x.1 ≤ f.1)) ≤ b.elems.length := List.countP_le_length
      exact List.countP_eq_length.1 (by omega)
    have := this e he
    rw [decide_eq_true_iff] at this
    dsimp only
    rw [← hcost e (by simp [he]), ← hcost f (by simp [hf])]
    exact this

end

end Verif.LogTree.Arr
