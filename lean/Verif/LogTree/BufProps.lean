import Verif.LogTree.BufLemmas
import Verif.BatchKd.KnnProps
import Mathlib.Algebra.Order.Field.Rat
import Mathlib.Tactic.NormNum

set_option linter.unusedSectionVars false
set_option linter.unusedVariables false

/-!
Property C80: the array buffer of the log-structured tree.
-/

namespace Verif.LogTree.Arr

open Verif BatchKd
open Verif.KnnBuf (KSmallest)

variable {α K : Type} {d : ℕ}

/-! ### Specification -/

section
variable [LinearOrder K]

/-- What a bag of points answers to one operation; returns the new bag. -/
def idealStep (pos : α → Point K d) (stored : List α) : Op α K d → List α × Out α
  | .insert pts => (stored ++ pts, .unit)
  | .erase pts => (stored.filter fun x => decide (∀ p ∈ pts, pos p ≠ pos x), .unit)
  | .clear => ([], .unit)
  | .drain => ([], .items stored)
  | .contains p => (stored, .bool (decide (∃ x ∈ stored, pos x = p)))
  | .query q => (stored, .items (stored.filter fun x => decide (∀ i, q.lo i ≤ pos x i ∧ pos x i ≤ q.hi i)))
  | .size => (stored, .num stored.length)

/-- The answers of a bag of points. -/
def ideal (pos : α → Point K d) : List α → List (Op α K d) → List (Out α)
  | _, [] => []
  | s, o :: os => (idealStep pos s o).2 :: ideal pos (idealStep pos s o).1 os

/-- The bag of points after the operations. -/
def bag (pos : α → Point K d) : List α → List (Op α K d) → List α
  | s, [] => s
  | s, o :: os => bag pos (idealStep pos s o).1 os

/-- Number of points inserted since the buffer was last emptied, erased ones included. -/
def filled : ℕ → List (Op α K d) → ℕ
  | n, [] => n
  | n, .insert pts :: os => filled (n + pts.length) os
  | n, .clear :: os => filled 0 os
  | n, .drain :: os => filled 0 os
  | n, _ :: os => filled n os

/-- At no time more than `cap` points were inserted since the buffer was last emptied. -/
def Room (cap : ℕ) : ℕ → List (Op α K d) → Prop
  | _, [] => True
  | n, .insert pts :: os => n + pts.length ≤ cap ∧ Room cap (n + pts.length) os
  | n, .clear :: os => Room cap 0 os
  | n, .drain :: os => Room cap 0 os
  | n, _ :: os => Room cap n os

/-- The operation is an erasure. -/
def Op.isErase : Op α K d → Bool
  | .erase _ => true
  | _ => false

/-- The operation asks for the size or takes all the points out. -/
def Op.asksSize : Op α K d → Bool
  | .size => true
  | .drain => true
  | _ => false

/-- Like `idealStep`, with the number `gone` of points erased since the buffer was last emptied: `size` counts them, and
`drain` returns a default object for each. -/
def countStep (pos : α → Point K d) (blank : α) (s : List α × ℕ) : Op α K d → (List α × ℕ) × Out α
  | .insert pts => ((s.1 ++ pts, s.2), .unit)
  | .erase pts =>
    ((s.1.filter fun x => decide (∀ p ∈ pts, pos p ≠ pos x),
      s.2 + (s.1.filter fun x => decide (∃ p ∈ pts, pos p = pos x)).length), .unit)
  | .clear => (([], 0), .unit)
  | .drain => (([], 0), .items (s.1 ++ List.replicate s.2 blank))
  | .contains p => (s, (idealStep pos s.1 (.contains p)).2)
  | .query q => (s, (idealStep pos s.1 (.query q)).2)
  | .size => (s, .num (s.1.length + s.2))

/-- The answers with that number. -/
def counted (pos : α → Point K d) (blank : α) : List α × ℕ → List (Op α K d) → List (Out α)
  | _, [] => []
  | s, o :: os => (countStep pos blank s o).2 :: counted pos blank (countStep pos blank s o).1 os

end

/-! ### Invariant -/

section
variable [Field K] [LinearOrder K] {pos : α → Point K d} {blank : α} {debug : Bool} {ord : ℕ → List ℕ}
  {ord2 : ℕ → ℕ → List (ℕ × ℕ)}

/-- Invariant of the buffer: it stores `s.1` and `s.2` points were erased. -/
structure BInv (cap : ℕ) (s : List α × ℕ) (b : AB α) : Prop where
  len : b.cells.length = cap
  sizes : b.curSize + b.insertSize = cap
  packed : packed b = s.1
  cur : b.curSize = s.1.length + s.2

theorem BInv.used {cap : ℕ} {s : List α × ℕ} {b : AB α} (h : BInv cap s b) : b.used = b.curSize := by
  unfold AB.used
  rw [h.len]
  have := h.sizes
  omega

theorem BInv.new (log2size : ℕ) : BInv (2 ^ log2size) ([], 0) (new blank log2size) :=
  ⟨by simp [Arr.new], by simp [Arr.new], by simp [Arr.new, Arr.packed, AB.used], rfl⟩

theorem BInv.clear {cap : ℕ} {s : List α × ℕ} {b : AB α} (h : BInv cap s b) : BInv cap ([], 0) (clear b) :=
  ⟨by simp [Arr.clear, h.len], by simp [Arr.clear, h.len], by simp [Arr.clear, Arr.packed, AB.used], rfl⟩

theorem BInv.move {cap : ℕ} {s : List α × ℕ} {b : AB α} (h : BInv cap s b) (x : α) :
    moveElementsTo b (List.replicate b.curSize x) = .ok (s.1 ++ List.replicate s.2 x, Arr.clear b) := by
  unfold moveElementsTo
  rw [h.packed, if_pos (by rw [List.length_replicate, h.cur]; omega), List.drop_replicate, h.cur,
    Nat.add_sub_cancel_left]

theorem BInv.insert (hord : ∀ n, (ord n).Perm (List.range n)) {cap : ℕ} {s : List α × ℕ} {b : AB α}
    (h : BInv cap s b) (pts : List α) (hroom : b.curSize + pts.length ≤ cap) :
    ∃ b', insert debug ord blank b pts = .ok b' ∧ BInv cap (s.1 ++ pts, s.2) b' := by
  have hs := h.sizes
  have hu := h.used
  unfold Arr.insert
  split
  · rename_i h0
    rw [List.length_eq_zero_iff] at h0
    subst h0
    exact ⟨b, rfl, by simpa using h⟩
  rw [if_neg (by rw [h.len]; simp; omega), if_pos (by omega)]
  obtain ⟨c', h1, h2, h3⟩ := putAll_take (start := b.used) (pts := pts) (cells := b.cells) (hord pts.length)
    (by rw [hu, h.len]; exact hroom)
  rw [h1]
  refine ⟨_, rfl, ⟨by rw [← h.len]; exact h2, by dsimp only; omega, ?_, ?_⟩⟩
  · unfold Arr.packed AB.used
    dsimp only
    have : c'.length - (b.insertSize - pts.length) = b.used + pts.length := by
      rw [h2, h.len, hu]; omega
    rw [this, h3, List.filter_append, List.map_append]
    congr 1
    · exact h.packed
    · rw [List.filter_eq_self.2 (by simp), List.map_map]
      simp [Function.comp_def]
  · dsimp only
    rw [h.cur, List.length_append]
    omega

theorem BInv.erase (hord2 : ∀ n m i j, (i, j) ∈ ord2 n m ↔ i < n ∧ j < m) {cap : ℕ} {s : List α × ℕ} {b : AB α}
    (h : BInv cap s b) (pts : List α) :
    BInv cap (countStep pos blank s (.erase pts)).1 (erase pos ord2 b pts) := by
  have hl := (eraseFold_ok (pos := pos) pts (ord2 pts.length b.used) b.cells).1
  refine ⟨hl.trans h.len, h.sizes, ?_, ?_⟩
  · have hused : (Arr.erase pos ord2 b pts).used = b.used := by
      unfold AB.used Arr.erase
      dsimp only
      rw [hl, h.len]
    unfold Arr.packed
    rw [hused]
    show ((((ord2 pts.length b.used).foldl (eraseOne pos pts) b.cells).take b.used).filter _).map _ = _
    rw [eraseFold_take (hord2 _ _)]
    show _ = s.1.filter _
    rw [← h.packed]
    unfold Arr.packed
    rw [List.filter_map, List.filter_map, List.map_map, List.filter_filter]
    congr 1
    apply List.filter_congr
    intro c _
    rw [Bool.eq_iff_iff]
    simp [and_comm]
  · show b.curSize = _
    rw [h.cur]
    unfold countStep
    dsimp only
    have := (List.filter_append_perm (fun x => decide (∀ p ∈ pts, pos p ≠ pos x)) s.1).length_eq
    rw [List.length_append] at this
    have h2 : (s.1.filter fun x => !decide (∀ p ∈ pts, pos p ≠ pos x)) =
        s.1.filter fun x => decide (∃ p ∈ pts, pos p = pos x) := by
      apply List.filter_congr
      intro x _
      rw [Bool.eq_iff_iff]
      simp
    rw [h2] at this
    omega

/-- One operation. -/
theorem BInv.step (hord : ∀ n, (ord n).Perm (List.range n))
    (hord2 : ∀ n m i j, (i, j) ∈ ord2 n m ↔ i < n ∧ j < m) {cap : ℕ} {s : List α × ℕ} {b : AB α}
    (h : BInv cap s b) (o : Op α K d) (os : List (Op α K d)) (hroom : Room cap b.curSize (o :: os)) :
    ∃ b', Arr.step pos debug ord ord2 blank b o = .ok (b', (countStep pos blank s o).2) ∧
      BInv cap (countStep pos blank s o).1 b' ∧ Room cap b'.curSize os ∧
      filled b.curSize (o :: os) = filled b'.curSize os := by
  cases o with
  | insert pts =>
    obtain ⟨hr1, hr2⟩ := hroom
    obtain ⟨b', h1, h2⟩ := h.insert (debug := debug) (blank := blank) hord pts hr1
    have hc : b'.curSize = b.curSize + pts.length := by
      rw [h2.cur, h.cur, List.length_append]
      omega
    refine ⟨b', ?_, h2, by rw [hc]; exact hr2, by rw [hc]; rfl⟩
    unfold Arr.step
    dsimp only
    rw [h1]
    rfl
  | erase pts => exact ⟨_, rfl, h.erase hord2 pts, hroom, rfl⟩
  | clear => exact ⟨_, rfl, h.clear, hroom, rfl⟩
  | drain =>
    refine ⟨Arr.clear b, ?_, h.clear, hroom, rfl⟩
    unfold Arr.step
    dsimp only
    rw [h.move]
    rfl
  | contains p =>
    refine ⟨b, ?_, h, hroom, rfl⟩
    unfold Arr.step countStep idealStep
    dsimp only
    rw [contains_eq hord, h.packed]
    have : (s.1.any fun x => decide (pos x = p)) = decide (∃ x ∈ s.1, pos x = p) := by
      rw [Bool.eq_iff_iff]
      simp
    rw [this]
  | query q =>
    refine ⟨b, ?_, h, hroom, rfl⟩
    unfold Arr.step countStep idealStep
    dsimp only
    rw [orthogonalQuery_eq, h.packed]
  | size =>
    refine ⟨b, ?_, h, hroom, rfl⟩
    unfold Arr.step countStep
    dsimp only
    rw [h.cur]

theorem counted_run (hord : ∀ n, (ord n).Perm (List.range n))
    (hord2 : ∀ n m i j, (i, j) ∈ ord2 n m ↔ i < n ∧ j < m) {cap : ℕ} : ∀ (ops : List (Op α K d)) {s : List α × ℕ} {b : AB α},
    BInv cap s b → Room cap b.curSize ops →
    ∃ b' s', run pos debug ord ord2 blank b ops = .ok (b', counted pos blank s ops) ∧ BInv cap s' b' ∧
      s'.1 = bag pos s.1 ops ∧ b'.curSize = filled b.curSize ops
  | [], s, b, h, _ => ⟨b, s, rfl, h, rfl, rfl⟩
  | o :: os, s, b, h, hr => by
    obtain ⟨b1, h1, h2, h3, h4⟩ := h.step (debug := debug) (pos := pos) (blank := blank) hord hord2 o os hr
    obtain ⟨b', s', h5, h6, h7, h8⟩ := counted_run hord hord2 os h2 h3
    refine ⟨b', s', ?_, h6, ?_, by rw [h4, h8]⟩
    · unfold run
      rw [h1]
      simp only [Except.bind]
      rw [h5]
      rfl
    · rw [h7]
      cases o <;> rfl

theorem counted_no_erase (ops : List (Op α K d)) (h : ∀ o ∈ ops, o.isErase = false) (s : List α) :
    counted pos blank (s, 0) ops = ideal pos s ops := by
  induction ops generalizing s with
  | nil => rfl
  | cons o os ih =>
    have ih' := ih fun o ho => h o (by simp [ho])
    have h0 := h o (by simp)
    unfold counted ideal
    cases o with
    | erase pts => exact absurd h0 (by simp [Op.isErase])
    | insert pts => exact congrArg _ (ih' _)
    | clear => exact congrArg _ (ih' _)
    | drain =>
      show Out.items _ :: counted pos blank ([], 0) os = _
      rw [ih']
      simp [idealStep]
    | contains p => exact congrArg _ (ih' _)
    | query q => exact congrArg _ (ih' _)
    | size => exact congrArg _ (ih' _)

theorem counted_no_size (ops : List (Op α K d)) (h : ∀ o ∈ ops, o.asksSize = false) (s : List α) (g : ℕ) :
    counted pos blank (s, g) ops = ideal pos s ops := by
  induction ops generalizing s g with
  | nil => rfl
  | cons o os ih =>
    have ih' := ih fun o ho => h o (by simp [ho])
    have h0 := h o (by simp)
    unfold counted ideal
    cases o with
    | erase pts => exact congrArg _ (ih' _ _)
    | insert pts => exact congrArg _ (ih' _ _)
    | clear => exact congrArg _ (ih' _ _)
    | drain => exact absurd h0 (by simp [Op.asksSize])
    | contains p => exact congrArg _ (ih' _ _)
    | query q => exact congrArg _ (ih' _ _)
    | size => exact absurd h0 (by simp [Op.asksSize])

/-! ### Running out of places -/

theorem backAll_len (all : List α) : ∀ (is : List ℕ) (cells : List (α × Bool)),
    (∃ i ∈ is, cells.length ≤ i) → backAll all is cells = .error .ub
  | [], _, ⟨i, hi, _⟩ => absurd hi (by simp)
  | i :: is, cells, ⟨j, hj, hl⟩ => by
    unfold backAll backOne
    cases ha : all[i]? with
    | none => rfl
    | some x =>
      cases hc : cells[i]? with
      | none => rfl
      | some c =>
        rcases List.mem_cons.1 hj with rfl | hj
        · rw [List.getElem?_eq_none hl] at hc
          exact absurd hc (by simp)
        · exact backAll_len all is _ ⟨j, hj, by simpa using hl⟩

/-! ### Results -/

/-- **C80, what holds.** As long as no more than `2^log2size` points were inserted since the buffer was last emptied, every
sequence of operations runs without undefined behaviour, in every order of the parallel loops. `contains` and
`orthogonalQuery` answer as a bag of points does; after erasures `size` also counts the points erased since the buffer was
last emptied and taking the points out yields a default object for each of them. -/
theorem c80_run_partial (debug : Bool) (hord : ∀ n, (ord n).Perm (List.range n))
    (hord2 : ∀ n m i j, (i, j) ∈ ord2 n m ↔ i < n ∧ j < m) (blank : α) (log2size : ℕ) (ops : List (Op α K d))
    (hroom : Room (2 ^ log2size) 0 ops) :
    (∃ b, run pos debug ord ord2 blank (new blank log2size) ops = .ok (b, counted pos blank ([], 0) ops)) ∧
    ((∀ o ∈ ops, o.isErase = false) ∨ (∀ o ∈ ops, o.asksSize = false) →
      counted pos blank ([], 0) ops = ideal pos [] ops) := by
  constructor
  · obtain ⟨b, -, h, -⟩ := counted_run (pos := pos) (debug := debug) (blank := blank) hord hord2 ops
      (BInv.new log2size) hroom
    exact ⟨b, h⟩
  · rintro (h | h)
    · exact counted_no_erase ops h []
    · exact counted_no_size ops h [] 0

/-- **C80, no room is won back.** However many of the inserted points were erased, an insertion that would bring the number
of points inserted since the last emptying above the capacity throws in a debug build and writes outside the arrays
otherwise: the branch that would move the points together is always undefined. -/
theorem c80_no_room (hord : ∀ n, (ord n).Perm (List.range n))
    (hord2 : ∀ n m i j, (i, j) ∈ ord2 n m ↔ i < n ∧ j < m) (blank : α) (log2size : ℕ) (ops : List (Op α K d))
    (hroom : Room (2 ^ log2size) 0 ops) (pts : List α) (hpts : pts ≠ [])
    (hfull : 2 ^ log2size < filled 0 ops + pts.length) :
    ∃ b outs, run pos debug ord ord2 blank (new blank log2size) ops = .ok (b, outs) ∧
      insert debug ord blank b pts = .error (if debug then .throws else .ub) := by
  obtain ⟨b, s, h1, h2, h3, h4⟩ := counted_run (pos := pos) (debug := debug) (blank := blank) hord hord2 ops
    (BInv.new log2size) hroom
  refine ⟨b, _, h1, ?_⟩
  have h4' : b.curSize = filled 0 ops := h4
  have hs := h2.sizes
  unfold Arr.insert
  rw [if_neg (by rw [List.length_eq_zero_iff]; exact hpts)]
  cases debug with
  | true => rw [if_pos (by rw [h2.len]; simp; omega)]; rfl
  | false =>
    rw [if_neg (by simp), if_neg (by omega), h2.move]
    simp only [Except.bind]
    rw [backAll_len _ _ _ ⟨2 ^ log2size, (hord _).mem_iff.2 ?_, ?_⟩]
    · rfl
    · rw [List.mem_range, List.length_append, List.length_replicate, ← h2.cur]
      omega
    · simp [Arr.clear, h2.len]

end

section
variable [Field K] [LinearOrder K] [IsStrictOrderedRing K] {pos : α → Point K d} {blank : α} {ord : ℕ → List ℕ}
  {ord2 : ℕ → ℕ → List (ℕ × ℕ)} {nth : ℕ → List (K × α) → List (K × α)} {dist : Point K d → Point K d → K}

/-- **C80, nearest neighbours, what holds.** If at least `k` points are stored and their number is a multiple of `k`, the
search returns `k` nearest points for every query. For every number of stored points the candidates left in the query's
buffer yield `k` nearest points after one more `keepK`, which the search does not do itself. -/
theorem c80_knn_partial (debug : Bool) (hord : ∀ n, (ord n).Perm (List.range n))
    (hord2 : ∀ n m i j, (i, j) ∈ ord2 n m ↔ i < n ∧ j < m) (hn : NthPairs nth) (log2size : ℕ) (ops : List (Op α K d))
    (hroom : Room (2 ^ log2size) 0 ops) {k : ℕ} (hk : 1 ≤ k) (hlen : k ≤ (bag pos [] ops).length) :
    ∃ b outs, run pos debug ord ord2 blank (new blank log2size) ops = .ok (b, outs) ∧
      (k ∣ (bag pos [] ops).length → ∀ qs : List (Point K d), ∃ rows, knn pos nth dist b k qs = .ok rows ∧
        List.Forall₂ (fun q row => KSmallest (fun x => dist q (pos x)) k (bag pos [] ops) row) qs rows) ∧
      (∀ q : Point K d, ∃ buf buf' r keep, knnInto pos nth dist b q (BBuf.new k) = .ok buf ∧ buf.keepK nth = .ok (buf', r) ∧
        buf'.elems = keep.map (fun x => (dist q (pos x), x)) ∧
        KSmallest (fun x => dist q (pos x)) k (bag pos [] ops) keep) := by
  obtain ⟨b, s, h1, h2, h3, -⟩ := counted_run (pos := pos) (debug := debug) (blank := blank) hord hord2 ops
    (BInv.new log2size) hroom
  have hp : packed b = bag pos [] ops := h2.packed.trans h3
  refine ⟨b, _, h1, ?_, ?_⟩
  · intro hd qs
    apply mapM_forall₂ qs
    intro q _
    obtain ⟨b', h4, h5, h6⟩ := addAll_ok (pos := pos) (dist := dist) hn q (packed b) [] (BBuf.new k)
      (by simpa using NBInv.new hk) (by simp [BBuf.new])
    rw [List.nil_append, hp] at h5 h6
    have hge : k ≤ b'.elems.length := h5.len_iff.2 (by simpa using hlen)
    have hlt := h5.len
    have hl : b'.elems.length = k := by
      have hz : b'.elems.length % k = 0 := by rw [h6]; exact Nat.mod_eq_zero_of_dvd hd
      obtain ⟨c, hc⟩ := Nat.dvd_of_mod_eq_zero hz
      have hc1 : c < 2 := by
        by_contra hcon
        have : k * 2 ≤ k * c := Nat.mul_le_mul_left k (by omega)
        omega
      have hc0 : c ≠ 0 := by rintro rfl; omega
      have : c = 1 := by omega
      rw [hc, this, Nat.mul_one]
    refine ⟨_, ?_, NBInv.exact h5 hl⟩
    unfold knnSingle knnInto
    show (addItems nth dist pos q none (packed b) (BBuf.new k)).bind _ = _
    rw [h4]
    simp only [Except.bind]
    rw [if_pos hge, List.take_of_length_le (by omega)]
  · intro q
    obtain ⟨b', h4, h5, h6⟩ := addAll_ok (pos := pos) (dist := dist) hn q (packed b) [] (BBuf.new k)
      (by simpa using NBInv.new hk) (by simp [BBuf.new])
    rw [List.nil_append, hp] at h5
    have hb : BHolds k (fun x => dist q (pos x)) (bag pos [] ops) b' := h5
    obtain ⟨b2, r, h7, -, -, keep, h8, h9⟩ := hb.keepK hn hlen
    exact ⟨b', b2, r, keep, h4, h7, h8, h9⟩

end

/-! ### Concrete cases -/

/-- Points of the line at 0, 1, 2, 3 as points of the plane. -/
def pt (x : ℚ) : Point ℚ 2 := ![x, 0]

/-- The order of a serial loop. -/
def fwd (n : ℕ) : List ℕ := List.range n

/-- The order of two nested serial loops. -/
def fwd2 (n m : ℕ) : List (ℕ × ℕ) := (List.range n).flatMap fun i => (List.range m).map fun j => (i, j)

theorem fwd_ok : ∀ n, (fwd n).Perm (List.range n) := fun n => List.Perm.refl _

theorem fwd2_ok : ∀ n m i j, (i, j) ∈ fwd2 n m ↔ i < n ∧ j < m := by
  intro n m i j
  simp [fwd2]

/-- The hypotheses of the theorems above are met by a run that inserts, erases, asks, empties and fills again. -/
example : Room (2 ^ 2) 0 ([.insert [pt 0, pt 1], .erase [pt 0], .contains (pt 0), .insert [pt 2, pt 3], .drain,
    .insert [pt 3, pt 2, pt 1, pt 0], .query ⟨pt 1, pt 2⟩] : List (Op (Point ℚ 2) ℚ 2)) := by
  simp [Room]

/-- **C80 is false of the code: sizes.** In a buffer for two points, after inserting a point and erasing it, `size()` is 1;
emptying the buffer returns one (default) object; and two points can no longer be inserted, although nothing is stored. -/
theorem c80_size_false (debug : Bool) (blank : Point ℚ 2) :
    (∃ b, run id debug fwd fwd2 blank (new blank 1)
      ([.insert [pt 1], .erase [pt 1], .size, .drain] : List (Op (Point ℚ 2) ℚ 2)) =
        .ok (b, [.unit, .unit, .num 1, .items [blank]])) ∧
    ideal (id : Point ℚ 2 → Point ℚ 2) [] [.insert [pt 1], .erase [pt 1], .size, .drain] =
      [.unit, .unit, .num 0, .items []] ∧
    bag (id : Point ℚ 2 → Point ℚ 2) [] [.insert [pt 1], .erase [pt 1]] = [] ∧
    ∃ b outs, run id debug fwd fwd2 blank (new blank 1)
        ([.insert [pt 1], .erase [pt 1]] : List (Op (Point ℚ 2) ℚ 2)) = .ok (b, outs) ∧
      insert debug fwd blank b [pt 2, pt 3] = .error (if debug then .throws else .ub) := by
  refine ⟨?_, ?_, ?_, ?_⟩
  · obtain ⟨b, h⟩ := (c80_run_partial (pos := (id : Point ℚ 2 → Point ℚ 2)) debug fwd_ok fwd2_ok blank 1
      [.insert [pt 1], .erase [pt 1], .size, .drain] (by simp [Room])).1
    refine ⟨b, h.trans ?_⟩
    simp [counted, countStep]
  · simp [ideal, idealStep]
  · simp [bag, idealStep]
  · exact c80_no_room (pos := (id : Point ℚ 2 → Point ℚ 2)) fwd_ok fwd2_ok blank 1 [.insert [pt 1], .erase [pt 1]]
      (by simp [Room]) [pt 2, pt 3] (by simp) (by simp [filled])

/-- First coordinates apart, as a distance on the line. -/
def lineDist (p q : Point ℚ 2) : ℚ := |p 0 - q 0|

/-- **C80 is false of the code: nearest neighbours.** Three points at 3, 2 and 0 are stored; the two nearest points of the
query 0 are reported to be those at 3 and 2, for every `nth_element`: the buffer of four candidates is not full, so the
candidates are never put in order. -/
theorem c80_knn_false (nth : ℕ → List (ℚ × Point ℚ 2) → List (ℚ × Point ℚ 2)) (debug : Bool) (blank : Point ℚ 2) :
    ∃ b outs, run id debug fwd fwd2 blank (new blank 2)
        ([.insert [pt 3, pt 2, pt 0]] : List (Op (Point ℚ 2) ℚ 2)) = .ok (b, outs) ∧
      knn id nth lineDist b 2 [pt 0] = .ok [[pt 3, pt 2]] ∧
      ¬ KSmallest (fun x => lineDist (pt 0) x) 2 [pt 3, pt 2, pt 0] [pt 3, pt 2] := by
  obtain ⟨b, s, h1, h2, h3, -⟩ := counted_run (pos := (id : Point ℚ 2 → Point ℚ 2)) (debug := debug) (blank := blank)
    fwd_ok fwd2_ok [.insert [pt 3, pt 2, pt 0]] (BInv.new 2) (by simp [Room, Arr.new])
  have hp : packed b = [pt 3, pt 2, pt 0] := h2.packed.trans (by rw [h3]; rfl)
  refine ⟨b, _, h1, ?_, ?_⟩
  · simp [knn, knnSingle, knnInto, hp, addItems, leRadius, BBuf.insert, Except.bind]
  · rintro ⟨-, rest, hperm, hle⟩
    have hm : pt 0 ∈ rest := by
      have := hperm.mem_iff (a := pt 0) |>.2 (by simp)
      rcases List.mem_append.1 this with h | h
      · exfalso
        simp only [List.mem_cons, List.not_mem_nil, or_false] at h
        rcases h with h | h <;> exact absurd (congrFun h 0) (by simp [pt])
      · exact h
    have := hle (pt 3) (by simp) (pt 0) hm
    simp [lineDist, pt] at this
    norm_num at this

/-- The hypotheses of `c80_knn_partial` are met by two stored points and `k = 2` (or `k = 1`). -/
example : Room (2 ^ 2) 0 ([.insert [pt 3, pt 2, pt 0], .erase [pt 2]] : List (Op (Point ℚ 2) ℚ 2)) ∧
    (bag (id : Point ℚ 2 → Point ℚ 2) [] [.insert [pt 3, pt 2, pt 0], .erase [pt 2]]) = [pt 3, pt 0] := by
  have h1 : pt 2 ≠ pt 3 := fun h => by have := congrFun h 0; simp [pt] at this
  have h2 : pt 2 ≠ pt 0 := fun h => by have := congrFun h 0; simp [pt] at this
  constructor
  · simp [Room]
  · simp [bag, idealStep, h1, h2]

end Verif.LogTree.Arr
